import Verif.Model.LbrEv

/-
C88: the perf events that record branches.
-/
namespace Bpfsnoop.LbrEv

/-! ### Specification -/

/-- The branch types of the manual (`--filter-br`) and their bits in `branch_sample_type` (include/uapi/linux/perf_event.h). -/
def manual : List (Text × Nat) :=
  [("any".toList, 3), ("any_call".toList, 4), ("any_return".toList, 5), ("ind_call".toList, 6), ("abort_tx".toList, 7),
   ("in_tx".toList, 8), ("no_tx".toList, 9), ("cond".toList, 10), ("call_stack".toList, 11), ("ind_jump".toList, 12),
   ("call".toList, 13)]

/-- A name of the manual. -/
def Known (s : Text) : Prop := ∃ i, (s, i) ∈ manual

/-- The bit for branches in the kernel. -/
def kernelBit : Nat := 1

/-- The event asked for on a CPU: CPU cycles, sampled 4000 times a second, with the branch records; all processes, no group, closed on exec. -/
structure Asks (types : List Text) (cpu : Nat) (c : Call) : Prop where
  cpu : c.cpu = cpu
  cycles : c.attr.typ = 0 ∧ c.attr.config = 0
  rate : c.attr.sample = 4000 ∧ c.attr.freq = true
  records : ∀ i, c.attr.sampleType.getLsbD i = true ↔ i = 11
  branches : ∀ i, c.attr.branch.getLsbD i = true ↔ i = kernelBit ∨ ∃ s ∈ types, (s, i) ∈ manual
  everyone : c.pid = -1 ∧ c.group = -1 ∧ c.flags = 8

/-- Descriptors that are open after a history. -/
def openAfter (as : List Act) : List Nat :=
  as.foldl (fun o a => match a with | .opened _ fd => o ++ [fd] | .closed fd => o.erase fd | .refused _ _ => o) []

/-! ### Branch types -/

theorem shl_bit (k i : Nat) (hk : k < 64) : (1#64 <<< k).getLsbD i = true ↔ i = k := by
  rw [BitVec.getLsbD_shiftLeft]
  by_cases h : i = k
  · subst h; simp [hk]
  · simp [h]
    intro h1 h2 h3; omega

theorem addType_spec (m : BitVec 64) (s : Text) :
    (∃ k, (s, k) ∈ manual ∧ k < 64 ∧ (∀ j, (s, j) ∈ manual → j = k) ∧ addType m s = some (m ||| (1#64 <<< k))) ∨ (¬Known s ∧ addType m s = none) := by
  by_cases h1 : s = "any".toList
  · subst h1; exact Or.inl ⟨3, by decide +kernel, by decide, by
      intro j hj; simp only [manual, List.mem_cons, Prod.mk.injEq] at hj; revert hj; simp, by simp [addType]⟩
  by_cases h2 : s = "any_call".toList
  · subst h2; exact Or.inl ⟨4, by decide +kernel, by decide, by
      intro j hj; simp only [manual, List.mem_cons, Prod.mk.injEq] at hj; revert hj; simp, by simp [addType]⟩
  by_cases h3 : s = "any_return".toList
  · subst h3; exact Or.inl ⟨5, by decide +kernel, by decide, by
      intro j hj; simp only [manual, List.mem_cons, Prod.mk.injEq] at hj; revert hj; simp, by simp [addType]⟩
  by_cases h4 : s = "ind_call".toList
  · subst h4; exact Or.inl ⟨6, by decide +kernel, by decide, by
      intro j hj; simp only [manual, List.mem_cons, Prod.mk.injEq] at hj; revert hj; simp, by simp [addType]⟩
  by_cases h5 : s = "abort_tx".toList
  · subst h5; exact Or.inl ⟨7, by decide +kernel, by decide, by
      intro j hj; simp only [manual, List.mem_cons, Prod.mk.injEq] at hj; revert hj; simp, by simp [addType]⟩
  by_cases h6 : s = "in_tx".toList
  · subst h6; exact Or.inl ⟨8, by decide +kernel, by decide, by
      intro j hj; simp only [manual, List.mem_cons, Prod.mk.injEq] at hj; revert hj; simp, by simp [addType]⟩
  by_cases h7 : s = "no_tx".toList
  · subst h7; exact Or.inl ⟨9, by decide +kernel, by decide, by
      intro j hj; simp only [manual, List.mem_cons, Prod.mk.injEq] at hj; revert hj; simp, by simp [addType]⟩
  by_cases h8 : s = "cond".toList
  · subst h8; exact Or.inl ⟨10, by decide +kernel, by decide, by
      intro j hj; simp only [manual, List.mem_cons, Prod.mk.injEq] at hj; revert hj; simp, by simp [addType]⟩
  by_cases h9 : s = "call_stack".toList
  · subst h9; exact Or.inl ⟨11, by decide +kernel, by decide, by
      intro j hj; simp only [manual, List.mem_cons, Prod.mk.injEq] at hj; revert hj; simp, by simp [addType]⟩
  by_cases h10 : s = "ind_jump".toList
  · subst h10; exact Or.inl ⟨12, by decide +kernel, by decide, by
      intro j hj; simp only [manual, List.mem_cons, Prod.mk.injEq] at hj; revert hj; simp, by simp [addType]⟩
  by_cases h11 : s = "call".toList
  · subst h11; exact Or.inl ⟨13, by decide +kernel, by decide, by
      intro j hj; simp only [manual, List.mem_cons, Prod.mk.injEq] at hj; revert hj; simp, by simp [addType]⟩
  refine Or.inr ⟨?_, ?_⟩
  · rintro ⟨k, hk⟩
    simp only [manual, List.mem_cons, Prod.mk.injEq, List.not_mem_nil, or_false] at hk
    rcases hk with h | h | h | h | h | h | h | h | h | h | h
    · exact h1 h.1
    · exact h2 h.1
    · exact h3 h.1
    · exact h4 h.1
    · exact h5 h.1
    · exact h6 h.1
    · exact h7 h.1
    · exact h8 h.1
    · exact h9 h.1
    · exact h10 h.1
    · exact h11 h.1
  · unfold addType
    rw [if_neg h1, if_neg h2, if_neg h3, if_neg h4, if_neg h5, if_neg h6, if_neg h7, if_neg h8, if_neg h9, if_neg h10, if_neg h11]

theorem addTypes_some (types : List Text) (m b : BitVec 64) (h : addTypes m types = some b) :
    (∀ s ∈ types, Known s) ∧ ∀ i, b.getLsbD i = true ↔ m.getLsbD i = true ∨ ∃ s ∈ types, (s, i) ∈ manual := by
  induction types generalizing m with
  | nil =>
    simp only [addTypes, Option.some.injEq] at h
    subst h
    exact ⟨by simp, by simp⟩
  | cons s r ih =>
    rcases addType_spec m s with ⟨k, hk, hk64, hu, e⟩ | ⟨_, e⟩
    · simp only [addTypes, e] at h
      obtain ⟨h1, h2⟩ := ih _ h
      refine ⟨?_, ?_⟩
      · intro x hx
        rcases List.mem_cons.1 hx with rfl | hx
        · exact ⟨k, hk⟩
        · exact h1 x hx
      · intro i
        rw [h2 i, BitVec.getLsbD_or, Bool.or_eq_true, shl_bit k i hk64]
        constructor
        · rintro ((a | a) | ⟨x, hx, hi⟩)
          · exact Or.inl a
          · exact Or.inr ⟨s, by simp, a ▸ hk⟩
          · exact Or.inr ⟨x, List.mem_cons_of_mem _ hx, hi⟩
        · rintro (a | ⟨x, hx, hi⟩)
          · exact Or.inl (Or.inl a)
          · rcases List.mem_cons.1 hx with rfl | hx
            · exact Or.inl (Or.inr (hu i hi))
            · exact Or.inr ⟨x, hx, hi⟩
    · simp [addTypes, e] at h

theorem addTypes_none (types : List Text) (m : BitVec 64) : addTypes m types = none ↔ ∃ s ∈ types, ¬Known s := by
  induction types generalizing m with
  | nil => simp [addTypes]
  | cons s r ih =>
    rcases addType_spec m s with ⟨k, hk, _, _, e⟩ | ⟨hn, e⟩
    · simp only [addTypes, e, ih]
      constructor
      · rintro ⟨x, hx, h⟩; exact ⟨x, List.mem_cons_of_mem _ hx, h⟩
      · rintro ⟨x, hx, h⟩
        rcases List.mem_cons.1 hx with rfl | hx
        · exact absurd ⟨k, hk⟩ h
        · exact ⟨x, hx, h⟩
    · simp only [addTypes, e]
      exact ⟨fun _ => ⟨s, by simp, hn⟩, fun _ => trivial⟩

/-- The call made on a CPU. -/
def callOf (b : BitVec 64) (cpu : Nat) : Call := ⟨⟨0, 0, 4000, true, 1#64 <<< 11, b⟩, -1, cpu, -1, 8⟩

theorem callOf_asks {types : List Text} {b : BitVec 64} (h : addTypes (1#64 <<< 1) types = some b) (cpu : Nat) : Asks types cpu (callOf b cpu) := by
  refine ⟨rfl, ⟨rfl, rfl⟩, ⟨rfl, rfl⟩, fun i => shl_bit 11 i (by decide), fun i => ?_, ⟨rfl, rfl, rfl⟩⟩
  show b.getLsbD i = true ↔ _
  rw [(addTypes_some _ _ _ h).2 i, shl_bit 1 i (by decide)]
  rfl

/-! ### The loop -/

theorem openLoop_ok {sys : Sys} {types : List Text} {b : BitVec 64} (hb : addTypes (1#64 <<< 1) types = some b) (g : Nat → Nat) :
    ∀ (n i : Nat) (fds : List Nat), (∀ k, i ≤ k → k < i + n → sys (callOf b k) = .ok (g k)) →
      openLoop sys types i n fds = ((List.range' i n).map (fun k => .opened (callOf b k) (g k)), fds ++ (List.range' i n).map g, none) := by
  intro n
  induction n with
  | zero => intro i fds _; simp [openLoop]
  | succ n ih =>
    intro i fds h
    have h0 : sys (callOf b i) = .ok (g i) := h i (Nat.le_refl _) (by omega)
    have e : openOne sys i types = ([.opened (callOf b i) (g i)], .ok (g i)) := by
      unfold openOne; simp only [hb]; unfold callOf at h0; simp only [h0]; rfl
    simp only [openLoop, e, ih (i + 1) (fds ++ [g i]) (fun k h1 h2 => h k (by omega) (by omega)), List.range'_succ, List.map_cons,
      List.append_assoc, List.cons_append, List.nil_append]

theorem openLoop_fail {sys : Sys} {types : List Text} {b : BitVec 64} (hb : addTypes (1#64 <<< 1) types = some b) (g : Nat → Nat) (e : Nat) :
    ∀ (d n i : Nat) (fds : List Nat), d < n → (∀ k, i ≤ k → k < i + d → sys (callOf b k) = .ok (g k)) → sys (callOf b (i + d)) = .error e →
      openLoop sys types i n fds = ((List.range' i d).map (fun k => .opened (callOf b k) (g k)) ++ [.refused (callOf b (i + d)) e],
        fds ++ (List.range' i d).map g, some (.sys e)) := by
  intro d
  induction d with
  | zero =>
    intro n i fds hd _ he
    obtain ⟨m, rfl⟩ : ∃ m, n = m + 1 := ⟨n - 1, by omega⟩
    have e1 : openOne sys i types = ([.refused (callOf b i) e], .error (.sys e)) := by
      unfold openOne; simp only [hb]; unfold callOf at he; simp only [Nat.add_zero] at he; simp only [he]; rfl
    simp [openLoop, e1]
  | succ d ih =>
    intro n i fds hd h he
    obtain ⟨m, rfl⟩ : ∃ m, n = m + 1 := ⟨n - 1, by omega⟩
    have h0 : sys (callOf b i) = .ok (g i) := h i (Nat.le_refl _) (by omega)
    have e1 : openOne sys i types = ([.opened (callOf b i) (g i)], .ok (g i)) := by
      unfold openOne; simp only [hb]; unfold callOf at h0; simp only [h0]; rfl
    have hx : i + 1 + d = i + (d + 1) := by omega
    have := ih m (i + 1) (fds ++ [g i]) (by omega) (fun k h1 h2 => h k (by omega) (by omega)) (by rw [hx]; exact he)
    simp only [openLoop, e1, this, hx, List.range'_succ, List.map_cons, List.append_assoc, List.cons_append, List.nil_append]

/-! ### C88 -/

/-- Two calls that ask for the same are the same. -/
theorem asks_unique {types : List Text} {cpu : Nat} {c d : Call} (hc : Asks types cpu c) (hd : Asks types cpu d) : c = d := by
  have h1 : c.attr.sampleType = d.attr.sampleType := by
    apply BitVec.eq_of_getLsbD_eq
    intro i _
    rw [Bool.eq_iff_iff, hc.records i, hd.records i]
  have h2 : c.attr.branch = d.attr.branch := by
    apply BitVec.eq_of_getLsbD_eq
    intro i _
    rw [Bool.eq_iff_iff, hc.branches i, hd.branches i]
  obtain ⟨⟨a1, a2, a3, a4, a5, a6⟩, a7, a8, a9, a10⟩ := c
  obtain ⟨⟨b1, b2, b3, b4, b5, b6⟩, b7, b8, b9, b10⟩ := d
  have := hc.cpu; have := hc.cycles; have := hc.rate; have := hc.everyone
  have := hd.cpu; have := hd.cycles; have := hd.rate; have := hd.everyone
  simp_all

/-- An unknown branch type: nothing is opened and bpfsnoop says so (if there is a CPU). -/
theorem unknown_refused (sys : Sys) (n : Nat) (hn : 0 < n) (types : List Text) :
    (∃ s ∈ types, ¬Known s) ↔ (openAll sys (some n) types).2 = .error .unknown := by
  obtain ⟨m, rfl⟩ : ∃ m, n = m + 1 := ⟨n - 1, by omega⟩
  constructor
  · intro h
    have := (addTypes_none types (1#64 <<< 1)).2 h
    simp only [openAll, openLoop, openOne, this]
  · intro h
    refine Classical.byContradiction fun hk => ?_
    have hb : addTypes (1#64 <<< 1) types ≠ none := fun e => hk ((addTypes_none _ _).1 e)
    obtain ⟨b, hb⟩ := Option.ne_none_iff_exists'.1 hb
    by_cases hf : ∀ k, k < m + 1 → ∃ fd, sys (callOf b k) = .ok fd
    · have hg : ∃ g : Nat → Nat, ∀ k, k < m + 1 → sys (callOf b k) = .ok (g k) := by
        refine ⟨fun k => match sys (callOf b k) with | .ok fd => fd | .error _ => 0, fun k hk => ?_⟩
        obtain ⟨fd, e⟩ := hf k hk
        simp [e]
      obtain ⟨g, hg⟩ := hg
      have := openLoop_ok hb g (m + 1) 0 [] (fun k _ h2 => hg k (by omega))
      simp [openAll, this] at h
    · obtain ⟨d, hd, hpre, e, he⟩ : ∃ d, d < m + 1 ∧ (∀ k, k < d → ∃ fd, sys (callOf b k) = .ok fd) ∧ ∃ e, sys (callOf b d) = .error e := by
        have : ∃ d, d < m + 1 ∧ ¬∃ fd, sys (callOf b d) = .ok fd := by
          refine Classical.byContradiction fun hc => hf fun k hk => ?_
          exact Classical.byContradiction fun hx => hc ⟨k, hk, hx⟩
        obtain ⟨d, hd⟩ := this
        induction d using Nat.strongRecOn with
        | ind d ih =>
          by_cases hx : ∃ k, k < d ∧ ¬∃ fd, sys (callOf b k) = .ok fd
          · obtain ⟨k, hk, hx⟩ := hx
            exact ih k hk ⟨by omega, hx⟩
          · refine ⟨d, hd.1, fun k hk => Classical.byContradiction fun hy => hx ⟨k, hk, hy⟩, ?_⟩
            cases hs : sys (callOf b d) with
            | error e => exact ⟨e, rfl⟩
            | ok fd => exact absurd ⟨fd, hs⟩ hd.2
      have hg : ∃ g : Nat → Nat, ∀ k, k < d → sys (callOf b k) = .ok (g k) := by
        refine ⟨fun k => match sys (callOf b k) with | .ok fd => fd | .error _ => 0, fun k hk => ?_⟩
        obtain ⟨fd, e⟩ := hpre k hk
        simp [e]
      obtain ⟨g, hg⟩ := hg
      have := openLoop_fail hb g e d (m + 1) 0 [] hd (fun k _ h2 => hg k (by omega)) (by rw [Nat.zero_add]; exact he)
      simp [openAll, this] at h

/-- With known types nothing else is asked of the system than the events of the CPUs `0, 1, ..` in order, each with exactly the bits of the types
given. If the system grants them all, bpfsnoop goes on with one descriptor per possible CPU, in the order of the CPUs. -/
theorem all_opened (sys : Sys) (n : Nat) (types : List Text) (hk : ∀ s ∈ types, Known s) (g : Nat → Nat)
    (hs : ∀ cpu c, cpu < n → Asks types cpu c → sys c = .ok (g cpu)) :
    ∃ cs : List Call, cs.length = n ∧ (∀ cpu c, cs[cpu]? = some c → Asks types cpu c) ∧
      (openAll sys (some n) types).1 = cs.map (fun c => .opened c (g c.cpu)) ∧
      answer (openAll sys (some n) types).2 = .go ((List.range n).map g) := by
  have hb : addTypes (1#64 <<< 1) types ≠ none := fun e => by
    obtain ⟨s, hs, hn⟩ := (addTypes_none _ _).1 e
    exact hn (hk s hs)
  obtain ⟨b, hb⟩ := Option.ne_none_iff_exists'.1 hb
  have := openLoop_ok hb g n 0 [] (fun k _ h2 => hs k _ (by omega) (callOf_asks hb k))
  refine ⟨(List.range n).map (callOf b), by simp, ?_, ?_, ?_⟩
  · intro cpu c h
    rw [List.getElem?_map] at h
    obtain ⟨k, hk1, rfl⟩ := Option.map_eq_some_iff.1 h
    rw [List.getElem?_range (by
      rcases Nat.lt_or_ge cpu n with h | h
      · exact h
      · rw [List.getElem?_eq_none (by simpa using h)] at hk1; cases hk1)] at hk1
    injection hk1 with hk1
    subst hk1
    exact callOf_asks hb cpu
  · simp only [openAll, this, List.map_map, List.range_eq_range']
    rfl
  · simp only [openAll, this, answer, List.nil_append, List.range_eq_range']

/-- If the system refuses the event of some CPU, bpfsnoop does not go on, and what it says is about the first one refused: ENOENT (2) and EOPNOTSUPP
(95) mean that LBR is not supported. No CPU after it is tried. -/
theorem first_refusal (sys : Sys) (n : Nat) (types : List Text) (hk : ∀ s ∈ types, Known s) (g : Nat → Nat) (d e : Nat) (hd : d < n)
    (hs : ∀ cpu c, cpu < d → Asks types cpu c → sys c = .ok (g cpu)) (he : ∀ c, Asks types d c → sys c = .error e) :
    answer (openAll sys (some n) types).2 = (if e = 2 ∨ e = 95 then .unsupported else .failed (.sys e)) ∧
    ∃ (cs : List Call) (c : Call), cs.length = d ∧ (∀ cpu c, cs[cpu]? = some c → Asks types cpu c) ∧ Asks types d c ∧
      (openAll sys (some n) types).1 = cs.map (fun c => .opened c (g c.cpu)) ++ [.refused c e] := by
  have hb : addTypes (1#64 <<< 1) types ≠ none := fun e => by
    obtain ⟨s, hs, hn⟩ := (addTypes_none _ _).1 e
    exact hn (hk s hs)
  obtain ⟨b, hb⟩ := Option.ne_none_iff_exists'.1 hb
  have := openLoop_fail hb g e d n 0 [] hd (fun k _ h2 => hs k _ (by omega) (callOf_asks hb k)) (by rw [Nat.zero_add]; exact he _ (callOf_asks hb d))
  refine ⟨?_, (List.range d).map (callOf b), callOf b d, by simp, ?_, callOf_asks hb d, ?_⟩
  · simp only [openAll, this]
    by_cases h2 : e = 2
    · subst h2; rfl
    · by_cases h95 : e = 95
      · subst h95; rfl
      · rw [if_neg (by omega)]
        unfold answer
        split <;> simp_all
  · intro cpu c h
    rw [List.getElem?_map] at h
    obtain ⟨k, hk1, rfl⟩ := Option.map_eq_some_iff.1 h
    rw [List.getElem?_range (by
      rcases Nat.lt_or_ge cpu d with h | h
      · exact h
      · rw [List.getElem?_eq_none (by simpa using h)] at hk1; cases hk1)] at hk1
    injection hk1 with hk1
    subst hk1
    exact callOf_asks hb cpu
  · simp only [openAll, this, List.map_map, List.range_eq_range', Nat.zero_add]
    rfl

/-- The order of the types and repetitions do not matter. -/
theorem types_as_a_set (sys : Sys) (n : Option Nat) (a b : List Text) (h : ∀ s, s ∈ a ↔ s ∈ b) : openAll sys n a = openAll sys n b := by
  have key : addTypes (1#64 <<< 1) a = addTypes (1#64 <<< 1) b := by
    cases ha : addTypes (1#64 <<< 1) a with
    | none =>
      obtain ⟨s, hs, hn⟩ := (addTypes_none _ _).1 ha
      exact ((addTypes_none b _).2 ⟨s, (h s).1 hs, hn⟩).symm
    | some x =>
      cases hb : addTypes (1#64 <<< 1) b with
      | none =>
        obtain ⟨s, hs, hn⟩ := (addTypes_none _ _).1 hb
        rw [(addTypes_none a _).2 ⟨s, (h s).2 hs, hn⟩] at ha
        cases ha
      | some y =>
        congr 1
        apply BitVec.eq_of_getLsbD_eq
        intro i _
        rw [Bool.eq_iff_iff, (addTypes_some _ _ _ ha).2 i, (addTypes_some _ _ _ hb).2 i]
        simp only [h]
  have k1 : ∀ cpu, openOne sys cpu a = openOne sys cpu b := by
    intro cpu; unfold openOne; rw [key]
  have k2 : ∀ n i fds, openLoop sys a i n fds = openLoop sys b i n fds := by
    intro n
    induction n with
    | zero => intro i fds; rfl
    | succ n ih => intro i fds; simp only [openLoop, k1, ih]
  unfold openAll
  simp only [k2]

theorem foldl_opened (cs : List Call) (g : Call → Nat) (o : List Nat) :
    (cs.map (fun c => Act.opened c (g c))).foldl (fun o a => match a with | .opened _ fd => o ++ [fd] | .closed fd => o.erase fd | .refused _ _ => o) o =
      o ++ cs.map g := by
  induction cs generalizing o with
  | nil => simp
  | cons c r ih => simp [ih]

theorem foldl_closed (fds o : List Nat) (ho : o = fds) :
    (close fds).foldl (fun o a => match a with | .opened _ fd => o ++ [fd] | .closed fd => o.erase fd | .refused _ _ => o) o = [] := by
  subst ho
  induction o with
  | nil => rfl
  | cons x r ih => simp only [close, List.map_cons, List.foldl_cons, List.erase_cons_head]; exact ih

/-- `Close` after success leaves nothing open. -/
theorem close_all (sys : Sys) (n : Nat) (types : List Text) (hk : ∀ s ∈ types, Known s) (g : Nat → Nat)
    (hs : ∀ cpu c, cpu < n → Asks types cpu c → sys c = .ok (g cpu)) :
    openAfter ((openAll sys (some n) types).1 ++ close ((List.range n).map g)) = [] := by
  obtain ⟨cs, hl, ha, h1, _⟩ := all_opened sys n types hk g hs
  unfold openAfter
  rw [h1, List.foldl_append, foldl_opened cs (fun c => g c.cpu)]
  apply foldl_closed
  rw [List.nil_append]
  apply List.ext_getElem?
  intro i
  rw [List.getElem?_map, List.getElem?_map]
  rcases Nat.lt_or_ge i n with h | h
  · rw [List.getElem?_range h, List.getElem?_eq_getElem (by omega)]
    have := ha i cs[i] (List.getElem?_eq_getElem (by omega))
    simp [this.cpu]
  · rw [List.getElem?_eq_none (by omega), List.getElem?_eq_none (by simpa using h)]
    rfl

/-- What a user would expect fails: if the event of a CPU is refused, those of the CPUs before it stay open. -/
theorem leak_violated (sys : Sys) (n : Nat) (types : List Text) (hk : ∀ s ∈ types, Known s) (g : Nat → Nat) (d e : Nat) (hd : d < n)
    (hs : ∀ cpu c, cpu < d → Asks types cpu c → sys c = .ok (g cpu)) (he : ∀ c, Asks types d c → sys c = .error e) :
    (openAfter (openAll sys (some n) types).1).length = d := by
  obtain ⟨_, cs, c, hl, ha, _, h1⟩ := first_refusal sys n types hk g d e hd hs he
  unfold openAfter
  rw [h1, List.foldl_append, foldl_opened cs (fun c => g c.cpu)]
  simp [hl]

/-- Linux refuses the event of a CPU that is possible but not online (ENODEV): with one such CPU bpfsnoop does not start, although all
the CPUs that run anything can record branches. -/
theorem offline_violated (online : Nat → Bool) (g : Nat → Nat) (n d : Nat) (hd : d < n) (hon : ∀ k, k < d → online k = true) (hoff : online d = false)
    (types : List Text) (hk : ∀ s ∈ types, Known s) :
    answer (openAll (fun c => if online c.cpu then .ok (g c.cpu) else .error 19) (some n) types).2 = .failed (.sys 19) := by
  have := (first_refusal (fun c => if online c.cpu then .ok (g c.cpu) else .error 19) n types hk g d 19 hd
    (fun cpu c hc ha => by simp [ha.cpu, hon cpu hc]) (fun c ha => by simp [ha.cpu, hoff])).1
  simpa using this

/-- The hypotheses are met: two types, four CPUs; the third one is offline. -/
theorem ex_types : ∀ s ∈ ["any_call".toList, "cond".toList], Known s := by
  intro s hs
  simp only [List.mem_cons, List.not_mem_nil, or_false] at hs
  rcases hs with rfl | rfl
  · exact ⟨4, by decide +kernel⟩
  · exact ⟨10, by decide +kernel⟩

theorem ex_open : (openAll (fun c => .ok (c.cpu + 5)) (some 2) ["any_call".toList, "cond".toList]).2 = .ok [5, 6] := by rfl

theorem ex_leak : openAfter (openAll (fun c => if c.cpu = 2 then .error 19 else .ok (c.cpu + 5)) (some 4) ["any_call".toList]).1 = [5, 6] := by rfl

theorem ex_unknown : ¬Known "anycall".toList := by
  rintro ⟨i, h⟩
  simp only [manual, List.mem_cons, Prod.mk.injEq, List.not_mem_nil, or_false] at h
  revert h
  simp

end Bpfsnoop.LbrEv
