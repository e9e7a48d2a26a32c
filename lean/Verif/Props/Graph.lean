import Verif.Model.Graph

/-
Discovery of call graphs (C40).
-/
namespace Bpfsnoop.Gr

/-! ### Specification -/

/-- `ip` is reached at depth `d`: it is a root (or an extra function), it replaces a program that is reached, or it is
called by a function that is reached one level above; functions that may not be traced are not looked into. -/
inductive Reach (W : World) (roots : List (Ip × Nat)) : Ip → Nat → Prop
  | root {ip d} : (ip, d) ∈ roots → Reach W roots ip d
  | repl {p c d} : Reach W roots p d → W.accept p = true → W.repl p = some c → Reach W roots c d
  | call {p c d} : Reach W roots p d → W.accept p = true → W.repl p = none → c ∈ W.callees p → Reach W roots c (d + 1)

/-- What follows `(p, d)` directly. -/
def succs (W : World) (p : Ip) (d : Nat) : List (Ip × Nat) :=
  match W.repl p with
  | some c => [(c, d)]
  | none => (W.callees p).map fun c => (c, d + 1)

/-- The graph of the function has been filled. -/
def Filled (s : St) (ip : Ip) : Prop := ∃ r, s.graphs ip = some ⟨true, r⟩

/-! ### Steps -/

theorem step_none {W : World} {D : Nat} {s : St} {i : Nat} (h : s.threads[i]? = none) : step W D s i = s := by
  simp only [step, h]

theorem mem_step {W : World} {D : Nat} {s : St} {i : Nat} {th : Th} (h : s.threads[i]? = some th) {x : Th}
    (hx : x ∈ (step W D s i).threads) : x ∈ s.threads ∨ x = (act W D s th).next ∨ (act W D s th).spawn = some x := by
  simp only [step, h, List.mem_append, Option.mem_toList] at hx
  rcases hx with hx | hx
  · rcases List.mem_or_eq_of_mem_set hx with hx | hx
    · exact Or.inl hx
    · exact Or.inr (Or.inl hx)
  · exact Or.inr (Or.inr hx)

theorem next_mem {W : World} {D : Nat} {s : St} {i : Nat} {th : Th} (h : s.threads[i]? = some th) :
    (act W D s th).next ∈ (step W D s i).threads := by
  simp only [step, h, List.mem_append]
  left
  obtain ⟨hi, _⟩ := List.getElem?_eq_some_iff.mp h
  exact List.mem_set hi _

theorem spawn_mem {W : World} {D : Nat} {s : St} {i : Nat} {th x : Th} (h : s.threads[i]? = some th)
    (hx : (act W D s th).spawn = some x) : x ∈ (step W D s i).threads := by
  simp only [step, h, List.mem_append, Option.mem_toList]
  exact Or.inr hx

theorem keep_mem {W : World} {D : Nat} {s : St} {i : Nat} {th x : Th} (h : s.threads[i]? = some th) (hx : x ∈ s.threads) :
    x = th ∨ x ∈ (step W D s i).threads := by
  obtain ⟨k, hk⟩ := List.mem_iff_getElem?.mp hx
  by_cases e : k = i
  · subst e
    rw [hk] at h
    exact Or.inl (Option.some.inj h)
  · right
    simp only [step, h, List.mem_append]
    left
    rw [List.mem_iff_getElem?]
    exact ⟨k, by rw [List.getElem?_set_ne (fun e' => e e'.symm)]; exact hk⟩

/-! ### Soundness -/

/-- What holds of a goroutine. -/
def ThOk (W : World) (D : Nat) (roots : List (Ip × Nat)) : Th → Prop
  | .start ip d => d ≤ D ∧ Reach W roots ip d ∧ W.accept ip = true
  | .lookup ip d => d ≤ D ∧ Reach W roots ip d ∧ W.accept ip = true
  | .loop t st => (∀ x ∈ t, Reach W roots x.1 x.2) ∧ ∀ p, st = some p → W.repl p = none
  | .enter c d t st => d ≤ D ∧ Reach W roots c d ∧ (∀ x ∈ t, Reach W roots x.1 x.2) ∧ ∀ p, st = some p → W.repl p = none
  | .check c d t st => d ≤ D ∧ Reach W roots c d ∧ (∀ x ∈ t, Reach W roots x.1 x.2) ∧ ∀ p, st = some p → W.repl p = none
  | .fill c d t st => d ≤ D ∧ Reach W roots c d ∧ (∀ x ∈ t, Reach W roots x.1 x.2) ∧ ∀ p, st = some p → W.repl p = none
  | .fin => True

structure Sound (W : World) (D : Nat) (roots : List (Ip × Nat)) (s : St) : Prop where
  graph : ∀ ip r, s.graphs ip = some ⟨true, r⟩ → W.accept ip = true ∧ (∃ d, d ≤ D ∧ Reach W roots ip d) ∧
    (r = true → Reach W roots ip 0)
  callee : ∀ ip l, s.callee ip = some l → l = W.callees ip ∧ W.repl ip = none
  th : ∀ x ∈ s.threads, ThOk W D roots x

theorem upd_self {β : Type} (f : Ip → Option β) (a : Ip) (b : β) : upd f a b a = some b := by simp [upd]

theorem upd_ne {β : Type} (f : Ip → Option β) {a x : Ip} (b : β) (h : x ≠ a) : upd f a b x = f x := by simp [upd, h]

/-- Everything a step of a goroutine that is in order does is in order. -/
theorem act_sound {W : World} {D : Nat} {roots : List (Ip × Nat)} {s : St} (h : Sound W D roots s) {th : Th}
    (ht : ThOk W D roots th) :
    (∀ ip r, (act W D s th).graphs ip = some ⟨true, r⟩ → W.accept ip = true ∧ (∃ d, d ≤ D ∧ Reach W roots ip d) ∧
      (r = true → Reach W roots ip 0)) ∧
    (∀ ip l, (act W D s th).callee ip = some l → l = W.callees ip ∧ W.repl ip = none) ∧
    ThOk W D roots (act W D s th).next ∧ ∀ x, (act W D s th).spawn = some x → ThOk W D roots x := by
  cases th with
  | start ip d =>
    simp only [act]
    split
    · exact ⟨h.graph, h.callee, trivial, by simp⟩
    · exact ⟨h.graph, h.callee, ht, by simp⟩
  | lookup ip d =>
    obtain ⟨hd, hr, ha⟩ := ht
    cases hc : s.callee ip with
    | some l =>
      simp only [act, hc]
      obtain ⟨rfl, hrn⟩ := h.callee ip l hc
      refine ⟨h.graph, h.callee, ⟨?_, by simp⟩, by simp⟩
      intro x hx
      obtain ⟨c, hc', rfl⟩ := List.mem_map.mp hx
      exact .call hr ha hrn hc'
    | none =>
      cases hp : W.repl ip with
      | some c =>
        simp only [act, hc, hp]
        refine ⟨h.graph, h.callee, ⟨?_, by simp⟩, by simp⟩
        intro x hx
        simp only [List.mem_singleton] at hx
        subst hx
        exact .repl hr ha hp
      | none =>
        simp only [act, hc, hp]
        refine ⟨h.graph, h.callee, ⟨?_, ?_⟩, by simp⟩
        · intro x hx
          obtain ⟨c, hc', rfl⟩ := List.mem_map.mp hx
          exact .call hr ha hp hc'
        · intro p hp'
          simp only [Option.some.injEq] at hp'
          subst hp'
          exact hp
  | loop t st =>
    obtain ⟨h1, h2⟩ := ht
    cases t with
    | nil =>
      cases st with
      | none => exact ⟨h.graph, h.callee, trivial, by simp [act]⟩
      | some p =>
        simp only [act]
        refine ⟨h.graph, ?_, trivial, by simp⟩
        intro ip l hl
        by_cases e : ip = p
        · subst e
          rw [upd_self] at hl
          exact ⟨(Option.some.inj hl).symm, h2 ip rfl⟩
        · rw [upd_ne _ _ e] at hl
          exact h.callee ip l hl
    | cons x t =>
      obtain ⟨c, d⟩ := x
      simp only [act]
      split
      · exact ⟨h.graph, h.callee, ⟨fun x hx => h1 x (by simp [hx]), h2⟩, by simp⟩
      · next hd => exact ⟨h.graph, h.callee, ⟨by omega, h1 (c, d) (by simp), fun x hx => h1 x (by simp [hx]), h2⟩, by simp⟩
  | enter c d t st =>
    cases hg : s.graphs c with
    | some g => simp only [act, hg]; exact ⟨h.graph, h.callee, ht, by simp⟩
    | none =>
      simp only [act, hg]
      refine ⟨?_, h.callee, ht, by simp⟩
      intro ip r hr
      by_cases e : ip = c
      · subst e; rw [upd_self] at hr; simp at hr
      · rw [upd_ne _ _ e] at hr; exact h.graph ip r hr
  | check c d t st =>
    obtain ⟨hd, hr, h1, h2⟩ := ht
    simp only [act]
    split
    · next r hg =>
      refine ⟨h.graph, h.callee, ⟨h1, h2⟩, ?_⟩
      intro x hx
      simp only [Option.some.injEq] at hx
      subst hx
      exact ⟨hd, hr, (h.graph c _ hg).1⟩
    · exact ⟨h.graph, h.callee, ⟨h1, h2⟩, by simp⟩
  | fill c d t st =>
    obtain ⟨hd, hr, h1, h2⟩ := ht
    simp only [act]
    split
    · next ha =>
      refine ⟨?_, h.callee, ⟨h1, h2⟩, ?_⟩
      · intro ip r hr'
        dsimp only at hr'
        by_cases e : ip = c
        · subst e
          rw [upd_self] at hr'
          simp only [Option.some.injEq, G.mk.injEq, true_and] at hr'
          refine ⟨ha, ⟨d, hd, hr⟩, ?_⟩
          intro hrt
          rw [hrt] at hr'
          have : d = 0 := by simpa using hr'
          subst this
          exact hr
        · rw [upd_ne _ _ e] at hr'; exact h.graph ip r hr'
      · intro x hx
        simp only [Option.some.injEq] at hx
        subst hx
        exact ⟨hd, hr, ha⟩
    · exact ⟨h.graph, h.callee, ⟨h1, h2⟩, by simp⟩
  | fin => exact ⟨h.graph, h.callee, trivial, by simp [act]⟩

theorem step_sound {W : World} {D : Nat} {roots : List (Ip × Nat)} {s : St} (h : Sound W D roots s) (i : Nat) :
    Sound W D roots (step W D s i) := by
  cases ht : s.threads[i]? with
  | none => rw [step_none ht]; exact h
  | some th =>
    have hth := h.th th (List.mem_of_getElem? ht)
    obtain ⟨a1, a2, a3, a4⟩ := act_sound h hth
    refine ⟨?_, ?_, ?_⟩
    · simp only [step, ht]; exact a1
    · simp only [step, ht]; exact a2
    · intro x hx
      rcases mem_step ht hx with hx | hx | hx
      · exact h.th x hx
      · rw [hx]; exact a3
      · exact a4 x hx

theorem sound_init (W : World) (D : Nat) (roots : List (Ip × Nat)) : Sound W D roots (initial roots) := by
  refine ⟨by simp [initial], by simp [initial], ?_⟩
  intro x hx
  simp only [initial, List.mem_singleton] at hx
  subst hx
  exact ⟨fun x hx => .root hx, by simp⟩

theorem run_sound {W : World} {D : Nat} {roots : List (Ip × Nat)} : ∀ (sched : List Nat) {s : St}, Sound W D roots s →
    Sound W D roots (run W D s sched)
  | [], _, h => h
  | i :: r, _, h => run_sound r (step_sound h i)

/-- C40, soundness: at every moment of every schedule, a function in the graph may be traced and is reached from a root by
at most `--fgraph-max-depth` calls through functions that may be traced; and one marked as root is reached without a call. -/
theorem graph_sound (W : World) (D : Nat) (roots : List (Ip × Nat)) (sched : List Nat) {ip : Ip} {r : Bool}
    (h : (run W D (initial roots) sched).graphs ip = some ⟨true, r⟩) :
    W.accept ip = true ∧ (∃ d, d ≤ D ∧ Reach W roots ip d) ∧ (r = true → Reach W roots ip 0) :=
  (run_sound sched (sound_init W D roots)).graph ip r h

/-- And what is returned leaves out what the parser met below the denied functions. -/
theorem found_sound (W : World) (D : Nat) (roots : List (Ip × Nat)) (sched : List Nat) (deny : St) {ip : Ip}
    (h : found (run W D (initial roots) sched) deny false ip = true) :
    W.accept ip = true ∧ (∃ d, d ≤ D ∧ Reach W roots ip d) ∧ deny.graphs ip = none := by
  unfold found at h
  split at h
  · next r hg =>
    obtain ⟨a, b, _⟩ := graph_sound W D roots sched hg
    exact ⟨a, b, by simpa using h⟩
  · simp at h

/-! ### Termination -/

/-- Goroutine `i` exists and has not finished. -/
def Enabled (s : St) (i : Nat) : Prop := ∃ th, s.threads[i]? = some th ∧ th ≠ .fin

/-- A schedule all of whose steps are taken by goroutines that have not finished. -/
def Busy (W : World) (D : Nat) : St → List Nat → Prop
  | _, [] => True
  | s, i :: r => Enabled s i ∧ Busy W D (step W D s i) r

/-- A finite set of functions closed under calls, each with at most `L` calls. -/
structure Universe (W : World) (U : List Ip) (L : Nat) : Prop where
  repl : ∀ p ∈ U, ∀ c, W.repl p = some c → c ∈ U
  callees : ∀ p ∈ U, ∀ c ∈ W.callees p, c ∈ U
  few : ∀ p, (W.callees p).length ≤ L
  one : 1 ≤ L

def weight (L : Nat) : Th → Nat
  | .start _ _ => 1
  | .lookup _ _ => 2 + 4 * L
  | .loop t _ => 1 + 4 * t.length
  | .enter _ _ t _ => 4 + 4 * t.length
  | .check _ _ t _ => 3 + 4 * t.length
  | .fill _ _ t _ => 3 + 4 * t.length
  | .fin => 0

def InU (D : Nat) (U : List Ip) : Th → Prop
  | .start ip d => ip ∈ U ∧ d ≤ D
  | .lookup ip d => ip ∈ U ∧ d ≤ D
  | .loop t _ => ∀ x ∈ t, x.1 ∈ U
  | .enter c d t _ => c ∈ U ∧ d ≤ D ∧ ∀ x ∈ t, x.1 ∈ U
  | .check c d t _ => c ∈ U ∧ d ≤ D ∧ ∀ x ∈ t, x.1 ∈ U
  | .fill c d t _ => c ∈ U ∧ d ≤ D ∧ ∀ x ∈ t, x.1 ∈ U
  | .fin => True

/-- All pairs of a function and a depth. -/
def pairs (U : List Ip) (D : Nat) : List (Ip × Nat) := U.flatMap fun u => (List.range (D + 1)).map fun d => (u, d)

theorem mem_pairs {U : List Ip} {D : Nat} {ip : Ip} {d : Nat} : (ip, d) ∈ pairs U D ↔ ip ∈ U ∧ d ≤ D := by
  simp only [pairs, List.mem_flatMap, List.mem_map, List.mem_range, Prod.mk.injEq]
  constructor
  · rintro ⟨u, hu, d', hd, rfl, rfl⟩; exact ⟨hu, by omega⟩
  · rintro ⟨hu, hd⟩; exact ⟨ip, hu, d, by omega, rfl, rfl⟩

theorem length_pairs (U : List Ip) (D : Nat) : (pairs U D).length = U.length * (D + 1) := by
  simp only [pairs, List.length_flatMap, List.length_map, List.length_range]
  induction U with
  | nil => simp
  | cons a r ih => simp only [List.map_cons, List.sum_cons, List.length_cons, ih, Nat.add_mul]; omega

/-- Pairs not parsed yet. -/
def left (U : List Ip) (D : Nat) (parsed : List (Ip × Nat)) : Nat := (pairs U D).countP fun x => decide (x ∉ parsed)

theorem countP_lt {α : Type} {p q : α → Bool} : ∀ {l : List α}, (∀ x ∈ l, p x = true → q x = true) →
    (∃ x ∈ l, q x = true ∧ p x = false) → l.countP p < l.countP q
  | [], _, ⟨x, hx, _⟩ => by simp at hx
  | a :: r, h, ⟨x, hx, hq, hp⟩ => by
    have hr : ∀ y ∈ r, p y = true → q y = true := fun y hy => h y (by simp [hy])
    have hle : r.countP p ≤ r.countP q := List.countP_mono_left hr
    rw [List.countP_cons, List.countP_cons]
    rcases List.mem_cons.mp hx with rfl | hx
    · simp [hp, hq]; omega
    · have := countP_lt hr ⟨x, hx, hq, hp⟩
      have h0 := h a (by simp)
      cases hpa : p a with
      | false => cases q a <;> simp <;> omega
      | true => simp [h0 hpa]; omega

theorem left_cons {U : List Ip} {D : Nat} {parsed : List (Ip × Nat)} {k : Ip × Nat} (hk : k ∈ pairs U D) (hn : k ∉ parsed) :
    left U D (k :: parsed) < left U D parsed := by
  unfold left
  refine countP_lt ?_ ⟨k, hk, by simpa using hn, by simp⟩
  intro x _ hx
  simp only [decide_eq_true_eq, List.mem_cons, not_or] at hx ⊢
  exact hx.2

def total (L : Nat) (ths : List Th) : Nat := (ths.map (weight L)).sum

theorem total_set {L : Nat} : ∀ {ths : List Th} {i : Nat} {th new : Th}, ths[i]? = some th →
    total L (ths.set i new) + weight L th = total L ths + weight L new
  | [], i, th, new, h => by simp at h
  | a :: r, 0, th, new, h => by
    simp only [List.getElem?_cons_zero, Option.some.injEq] at h
    subst h
    simp only [total, List.set_cons_zero, List.map_cons, List.sum_cons]
    omega
  | a :: r, i + 1, th, new, h => by
    simp only [List.getElem?_cons_succ] at h
    have := total_set (L := L) (new := new) h
    simp only [total, List.set_cons_succ, List.map_cons, List.sum_cons] at this ⊢
    omega

theorem total_append {L : Nat} (a b : List Th) : total L (a ++ b) = total L a + total L b := by simp [total]

/-- Upper bound on the steps still possible. -/
def measure (L D : Nat) (U : List Ip) (s : St) : Nat := (2 + 4 * L) * left U D s.parsed + total L s.threads

structure TInv (W : World) (D : Nat) (U : List Ip) (s : St) : Prop where
  th : ∀ x ∈ s.threads, InU D U x
  callee : ∀ ip l, s.callee ip = some l → l = W.callees ip

theorem step_measure {W : World} {D L : Nat} {U : List Ip} {s : St} (hU : Universe W U L) (h : TInv W D U s) {i : Nat}
    (he : Enabled s i) : TInv W D U (step W D s i) ∧ measure L D U (step W D s i) < measure L D U s := by
  obtain ⟨th, ht, hne⟩ := he
  have hin := h.th th (List.mem_of_getElem? ht)
  have key : (InU D U (act W D s th).next ∧ (∀ x, (act W D s th).spawn = some x → InU D U x) ∧
      (∀ ip l, (act W D s th).callee ip = some l → l = W.callees ip)) ∧
      (2 + 4 * L) * left U D (act W D s th).parsed + weight L (act W D s th).next + total L (act W D s th).spawn.toList <
        (2 + 4 * L) * left U D s.parsed + weight L th := by
    cases th with
    | start ip d =>
      simp only [act]
      split
      · exact ⟨⟨trivial, by simp, h.callee⟩, by simp [weight, total]⟩
      · next hp =>
        refine ⟨⟨hin, by simp, h.callee⟩, ?_⟩
        have := left_cons (mem_pairs.mpr hin) hp
        have hm : (2 + 4 * L) * (left U D ((ip, d) :: s.parsed) + 1) ≤ (2 + 4 * L) * left U D s.parsed :=
          Nat.mul_le_mul_left _ this
        rw [Nat.mul_add] at hm
        simp only [weight, total, Option.toList_none, List.map_nil, List.sum_nil]
        omega
    | lookup ip d =>
      obtain ⟨hu, hd⟩ := hin
      have hf := hU.few ip
      have h1 := hU.one
      cases hc : s.callee ip with
      | some l =>
        simp only [act, hc]
        have hl := h.callee ip l hc
        subst hl
        refine ⟨⟨?_, by simp, h.callee⟩, ?_⟩
        · intro x hx
          obtain ⟨c, hc', rfl⟩ := List.mem_map.mp hx
          exact hU.callees ip hu c hc'
        · simp only [weight, total, Option.toList_none, List.map_nil, List.sum_nil, List.length_map]; omega
      | none =>
        cases hp : W.repl ip with
        | some c =>
          simp only [act, hc, hp]
          refine ⟨⟨?_, by simp, h.callee⟩, ?_⟩
          · intro x hx
            simp only [List.mem_singleton] at hx
            subst hx
            exact hU.repl ip hu c hp
          · simp only [weight, total, Option.toList_none, List.map_nil, List.sum_nil, List.length_singleton]; omega
        | none =>
          simp only [act, hc, hp]
          refine ⟨⟨?_, by simp, h.callee⟩, ?_⟩
          · intro x hx
            obtain ⟨c, hc', rfl⟩ := List.mem_map.mp hx
            exact hU.callees ip hu c hc'
          · simp only [weight, total, Option.toList_none, List.map_nil, List.sum_nil, List.length_map]; omega
    | loop t st =>
      cases t with
      | nil =>
        cases st with
        | none => exact ⟨⟨trivial, by simp [act], h.callee⟩, by simp [act, weight, total]⟩
        | some p =>
          simp only [act]
          refine ⟨⟨trivial, by simp, ?_⟩, by simp [weight, total]⟩
          intro ip l hl
          by_cases e : ip = p
          · subst e; rw [upd_self] at hl; exact (Option.some.inj hl).symm
          · rw [upd_ne _ _ e] at hl; exact h.callee ip l hl
      | cons x t =>
        obtain ⟨c, d⟩ := x
        have ht' : ∀ x ∈ t, x.1 ∈ U := fun x hx => hin x (by simp [hx])
        simp only [act]
        split
        · refine ⟨⟨ht', by simp, h.callee⟩, ?_⟩
          simp only [weight, total, Option.toList_none, List.map_nil, List.sum_nil, List.length_cons]; omega
        · refine ⟨⟨⟨hin (c, d) (by simp), by omega, ht'⟩, by simp, h.callee⟩, ?_⟩
          simp only [weight, total, Option.toList_none, List.map_nil, List.sum_nil, List.length_cons]; omega
    | enter c d t st =>
      cases hg : s.graphs c with
      | some g =>
        simp only [act, hg]
        refine ⟨⟨hin, by simp, h.callee⟩, ?_⟩
        simp only [weight, total, Option.toList_none, List.map_nil, List.sum_nil]; omega
      | none =>
        simp only [act, hg]
        refine ⟨⟨hin, by simp, h.callee⟩, ?_⟩
        simp only [weight, total, Option.toList_none, List.map_nil, List.sum_nil]; omega
    | check c d t st =>
      obtain ⟨hu, hd, ht'⟩ := hin
      simp only [act]
      split
      · refine ⟨⟨ht', ?_, h.callee⟩, ?_⟩
        · intro x hx; simp only [Option.some.injEq] at hx; subst hx; exact ⟨hu, hd⟩
        · simp only [weight, total, Option.toList_some, List.map_cons, List.map_nil, List.sum_cons, List.sum_nil]; omega
      · refine ⟨⟨ht', by simp, h.callee⟩, ?_⟩
        simp only [weight, total, Option.toList_none, List.map_nil, List.sum_nil]; omega
    | fill c d t st =>
      obtain ⟨hu, hd, ht'⟩ := hin
      simp only [act]
      split
      · refine ⟨⟨ht', ?_, h.callee⟩, ?_⟩
        · intro x hx; simp only [Option.some.injEq] at hx; subst hx; exact ⟨hu, hd⟩
        · simp only [weight, total, Option.toList_some, List.map_cons, List.map_nil, List.sum_cons, List.sum_nil]; omega
      · refine ⟨⟨ht', by simp, h.callee⟩, ?_⟩
        simp only [weight, total, Option.toList_none, List.map_nil, List.sum_nil]; omega
    | fin => exact absurd rfl hne
  refine ⟨⟨?_, ?_⟩, ?_⟩
  · intro x hx
    rcases mem_step ht hx with hx | hx | hx
    · exact h.th x hx
    · rw [hx]; exact key.1.1
    · exact key.1.2.1 x hx
  · simp only [step, ht]; exact key.1.2.2
  · have e : (step W D s i).threads = s.threads.set i (act W D s th).next ++ (act W D s th).spawn.toList := by
      simp only [step, ht]
    have e2 : (step W D s i).parsed = (act W D s th).parsed := by simp only [step, ht]
    have hs := total_set (L := L) (new := (act W D s th).next) ht
    unfold measure
    rw [e, e2, total_append]
    have := key.2
    omega

theorem busy_bound {W : World} {D L : Nat} {U : List Ip} (hU : Universe W U L) : ∀ (sched : List Nat) {s : St},
    TInv W D U s → Busy W D s sched → sched.length ≤ measure L D U s
  | [], _, _, _ => by simp
  | i :: r, s, h, ⟨he, hb⟩ => by
    obtain ⟨h1, h2⟩ := step_measure hU h he
    have := busy_bound hU r h1 hb
    simp only [List.length_cons]
    omega

/-- C40, termination: whatever the schedule, and however recursive the calls, the goroutines finish after at most this many
steps. -/
theorem discovery_terminates {W : World} {D L : Nat} {U : List Ip} (hU : Universe W U L) (roots : List (Ip × Nat))
    (hr : ∀ x ∈ roots, x.1 ∈ U) (sched : List Nat) (h : Busy W D (initial roots) sched) :
    sched.length ≤ (2 + 4 * L) * (U.length * (D + 1)) + 1 + 4 * roots.length := by
  have h0 : TInv W D U (initial roots) := by
    refine ⟨?_, by simp [initial]⟩
    intro x hx
    simp only [initial, List.mem_singleton] at hx
    subst hx
    exact hr
  have := busy_bound hU sched h0 h
  have hl : left U D [] = U.length * (D + 1) := by
    rw [← length_pairs, left]
    simp
  have e : measure L D U (initial roots) = (2 + 4 * L) * left U D [] + (1 + 4 * roots.length) := by
    simp [measure, initial, total, weight]
  rw [e, hl] at this
  omega

/-- While not all goroutines have finished, some can take a step: the end of every schedule that cannot be continued is
quiet. -/
theorem quiet_or_enabled (s : St) : Quiet s ∨ ∃ i, Enabled s i := by
  by_cases h : Quiet s
  · exact Or.inl h
  · right
    unfold Quiet at h
    simp only [Classical.not_forall] at h
    obtain ⟨th, hm, hne⟩ := h
    obtain ⟨i, hi⟩ := List.mem_iff_getElem?.mp hm
    exact ⟨i, th, hi, hne⟩

/-! ### Completeness -/

/-- The goroutine still has to add `x`. -/
def Holds (x : Ip × Nat) : Th → Prop
  | .loop t _ => x ∈ t
  | .enter c d t _ => x = (c, d) ∨ x ∈ t
  | .check c d t _ => x = (c, d) ∨ x ∈ t
  | .fill c d t _ => x = (c, d) ∨ x ∈ t
  | _ => False

def Pend (s : St) (x : Ip × Nat) : Prop := ∃ th ∈ s.threads, Holds x th

def Tasked (s : St) (x : Ip × Nat) : Prop := x ∈ s.parsed ∨ Th.start x.1 x.2 ∈ s.threads

/-- `x` has been or will be dealt with. -/
def Handled (W : World) (s : St) (x : Ip × Nat) : Prop := Pend s x ∨ (W.accept x.1 = true → Tasked s x ∧ Filled s x.1)

/-- No goroutine looks at a graph that another has entered into the map and not filled yet. -/
def NoRace (W : World) (D : Nat) : St → List Nat → Prop
  | _, [] => True
  | s, i :: r => (∀ c d t st, s.threads[i]? = some (.check c d t st) → ∀ d' t' st', Th.fill c d' t' st' ∉ s.threads) ∧
      NoRace W D (step W D s i) r

structure Comp (W : World) (D : Nat) (roots : List (Ip × Nat)) (s : St) : Prop where
  roots : ∀ x ∈ roots, x.2 ≤ D → Handled W s x
  expanded : ∀ x ∈ s.parsed, Th.lookup x.1 x.2 ∈ s.threads ∨ ∀ y ∈ succs W x.1 x.2, y.2 ≤ D → Handled W s y
  hole : ∀ c r, s.graphs c = some ⟨false, r⟩ → W.accept c = false ∨ ∃ d t st, Th.fill c d t st ∈ s.threads
  seen : ∀ c d t st, Th.check c d t st ∈ s.threads → s.graphs c ≠ none

theorem parsed_mono {W : World} {D : Nat} {s : St} {th : Th} {x : Ip × Nat} (h : x ∈ s.parsed) : x ∈ (act W D s th).parsed := by
  cases th with
  | start ip d => simp only [act]; split <;> simp [h]
  | lookup ip d => simp only [act]; split <;> first | exact h | (split <;> exact h)
  | loop t st =>
    cases t with
    | nil => cases st <;> exact h
    | cons y t => obtain ⟨c, d⟩ := y; simp only [act]; split <;> exact h
  | enter c d t st => simp only [act]; split <;> exact h
  | check c d t st => simp only [act]; split <;> exact h
  | fill c d t st => simp only [act]; split <;> exact h
  | fin => exact h

theorem filled_mono {W : World} {D : Nat} {s : St} {th : Th} {ip : Ip} (h : ∃ r, s.graphs ip = some ⟨true, r⟩) :
    ∃ r, (act W D s th).graphs ip = some ⟨true, r⟩ := by
  cases th with
  | start ip d => simp only [act]; split <;> exact h
  | lookup ip d => simp only [act]; split <;> first | exact h | (split <;> exact h)
  | loop t st =>
    cases t with
    | nil => cases st <;> exact h
    | cons y t => obtain ⟨c, d⟩ := y; simp only [act]; split <;> exact h
  | enter c d t st =>
    cases hg : s.graphs c with
    | some g => simp only [act, hg]; exact h
    | none =>
      simp only [act, hg]
      have hne : ip ≠ c := by
        rintro rfl
        obtain ⟨r, hr⟩ := h
        rw [hg] at hr
        cases hr
      rw [upd_ne _ _ hne]
      exact h
  | check c d t st => simp only [act]; split <;> exact h
  | fill c d t st =>
    simp only [act]
    split
    · dsimp only
      by_cases e : ip = c
      · subst e; exact ⟨_, upd_self _ _ _⟩
      · rw [upd_ne _ _ e]; exact h
    · exact h
  | fin => exact h

theorem step_parsed {W : World} {D : Nat} {s : St} {i : Nat} {th : Th} (ht : s.threads[i]? = some th) :
    (step W D s i).parsed = (act W D s th).parsed := by simp only [step, ht]

theorem step_graphs {W : World} {D : Nat} {s : St} {i : Nat} {th : Th} (ht : s.threads[i]? = some th) :
    (step W D s i).graphs = (act W D s th).graphs := by simp only [step, ht]

theorem tasked_mono {W : World} {D : Nat} {s : St} {i : Nat} {th : Th} (ht : s.threads[i]? = some th) {x : Ip × Nat}
    (h : Tasked s x) : Tasked (step W D s i) x := by
  rcases h with h | h
  · left; rw [step_parsed ht]; exact parsed_mono h
  · rcases keep_mem (W := W) (D := D) ht h with e | h
    · left
      rw [step_parsed ht, ← e]
      simp only [act]
      split
      · next hp => exact hp
      · simp
    · exact Or.inr h

theorem step_filled {W : World} {D : Nat} {s : St} {i : Nat} {th : Th} (ht : s.threads[i]? = some th) {ip : Ip}
    (h : Filled s ip) : Filled (step W D s i) ip := by
  unfold Filled
  rw [step_graphs ht]
  exact filled_mono h

/-- What is handled stays handled, if what the goroutine held is. -/
theorem handled_mono {W : World} {D : Nat} {s : St} {i : Nat} {th : Th} (ht : s.threads[i]? = some th)
    (hh : ∀ x, Holds x th → x.2 ≤ D → Handled W (step W D s i) x) {x : Ip × Nat} (hx : x.2 ≤ D) (h : Handled W s x) :
    Handled W (step W D s i) x := by
  rcases h with ⟨th', hm, hp⟩ | h
  · rcases keep_mem (W := W) (D := D) ht hm with e | hm'
    · subst e; exact hh x hp hx
    · exact Or.inl ⟨th', hm', hp⟩
  · right
    intro ha
    obtain ⟨h1, h2⟩ := h ha
    exact ⟨tasked_mono ht h1, step_filled ht h2⟩

/-- What the goroutine held is handled after its step. -/
theorem held_handled {W : World} {D : Nat} {roots : List (Ip × Nat)} {s : St} (hc : Comp W D roots s) {i : Nat} {th : Th}
    (ht : s.threads[i]? = some th)
    (hr : ∀ c d t st, th = .check c d t st → ∀ d' t' st', Th.fill c d' t' st' ∉ s.threads) {x : Ip × Nat}
    (hx : Holds x th) (hd : x.2 ≤ D) : Handled W (step W D s i) x := by
  have hn := next_mem (W := W) (D := D) ht
  cases th with
  | start ip d => exact hx.elim
  | lookup ip d => exact hx.elim
  | loop t st =>
    cases t with
    | nil => simp [Holds] at hx
    | cons y t =>
      obtain ⟨c, d⟩ := y
      by_cases hD : D < d
      · have e : (act W D s (.loop ((c, d) :: t) st)).next = .loop t st := by simp only [act, hD, if_true]
        rw [e] at hn
        rcases List.mem_cons.mp hx with rfl | hx
        · exact absurd hD (by simpa using hd)
        · exact Or.inl ⟨_, hn, hx⟩
      · have e : (act W D s (.loop ((c, d) :: t) st)).next = .enter c d t st := by simp only [act, hD, if_false]
        rw [e] at hn
        rcases List.mem_cons.mp hx with rfl | hx
        · exact Or.inl ⟨_, hn, Or.inl rfl⟩
        · exact Or.inl ⟨_, hn, Or.inr hx⟩
  | enter c d t st =>
    cases hg : s.graphs c with
    | some g =>
      have e : (act W D s (.enter c d t st)).next = .check c d t st := by simp only [act, hg]
      rw [e] at hn
      exact Or.inl ⟨_, hn, hx⟩
    | none =>
      have e : (act W D s (.enter c d t st)).next = .fill c d t st := by simp only [act, hg]
      rw [e] at hn
      exact Or.inl ⟨_, hn, hx⟩
  | check c d t st =>
    have e : (act W D s (.check c d t st)).next = .loop t st := by simp only [act]; split <;> rfl
    rw [e] at hn
    rcases hx with rfl | hx
    · right
      intro ha
      cases hg : s.graphs c with
      | none => exact absurd hg (hc.seen c d t st (List.mem_of_getElem? ht))
      | some g =>
        obtain ⟨b, r⟩ := g
        cases b with
        | false =>
          rcases hc.hole c r hg with h | ⟨d', t', st', h⟩
          · rw [h] at ha; cases ha
          · exact absurd h (hr c d t st rfl d' t' st')
        | true =>
          have hsp : (act W D s (.check c d t st)).spawn = some (.start c d) := by simp only [act, hg]
          exact ⟨Or.inr (spawn_mem ht hsp), step_filled ht ⟨r, hg⟩⟩
    · exact Or.inl ⟨_, hn, hx⟩
  | fill c d t st =>
    have e : (act W D s (.fill c d t st)).next = .loop t st := by simp only [act]; split <;> rfl
    rw [e] at hn
    rcases hx with rfl | hx
    · right
      intro ha
      have ha' : W.accept c = true := ha
      have hsp : (act W D s (.fill c d t st)).spawn = some (.start c d) := by simp only [act, ha', if_true]
      refine ⟨Or.inr (spawn_mem ht hsp), ?_⟩
      unfold Filled
      rw [step_graphs ht]
      simp only [act, ha', if_true]
      exact ⟨_, upd_self _ _ _⟩
    · exact Or.inl ⟨_, hn, hx⟩
  | fin => exact hx.elim

theorem not_lookup_spawn {W : World} {D : Nat} {s : St} {th : Th} {c : Ip} {d : Nat} {t st} :
    (act W D s th).spawn ≠ some (.fill c d t st) ∧ (act W D s th).spawn ≠ some (.check c d t st) := by
  cases th with
  | start ip d => simp only [act]; split <;> simp
  | lookup ip d =>
    simp only [act]
    split
    · simp
    · split <;> simp
  | loop t st =>
    cases t with
    | nil => cases st <;> simp [act]
    | cons y t => obtain ⟨c, d⟩ := y; simp only [act]; split <;> simp
  | enter c d t st => simp only [act]; split <;> simp
  | check c d t st => simp only [act]; split <;> simp
  | fill c d t st => simp only [act]; split <;> simp
  | fin => simp [act]

theorem step_comp {W : World} {D : Nat} {roots : List (Ip × Nat)} {s : St} (hso : Sound W D roots s) (hc : Comp W D roots s)
    {i : Nat} (hr : ∀ c d t st, s.threads[i]? = some (.check c d t st) → ∀ d' t' st', Th.fill c d' t' st' ∉ s.threads) :
    Comp W D roots (step W D s i) := by
  cases ht : s.threads[i]? with
  | none => rw [step_none ht]; exact hc
  | some th =>
    have hr' : ∀ c d t st, th = .check c d t st → ∀ d' t' st', Th.fill c d' t' st' ∉ s.threads :=
      fun c d t st e => hr c d t st (by rw [ht, e])
    have hmono : ∀ {x : Ip × Nat}, x.2 ≤ D → Handled W s x → Handled W (step W D s i) x :=
      fun hx h => handled_mono ht (fun x hh hd => held_handled hc ht hr' hh hd) hx h
    have hn := next_mem (W := W) (D := D) ht
    refine ⟨fun x hx hd => hmono hd (hc.roots x hx hd), ?_, ?_, ?_⟩
    · -- expanded
      intro x hx
      rw [step_parsed ht] at hx
      have old : x ∈ s.parsed → Th.lookup x.1 x.2 ∈ (step W D s i).threads ∨
          ∀ y ∈ succs W x.1 x.2, y.2 ≤ D → Handled W (step W D s i) y := by
        intro hx
        rcases hc.expanded x hx with hl | hall
        · rcases keep_mem (W := W) (D := D) ht hl with e | hl
          · -- this lookup is done now
            right
            intro y hy hyd
            left
            refine ⟨_, hn, ?_⟩
            rw [← e]
            cases hcal : s.callee x.1 with
            | some l =>
              obtain ⟨rfl, hrn⟩ := hso.callee _ _ hcal
              simp only [act, hcal, Holds]
              simpa [succs, hrn] using hy
            | none =>
              cases hp : W.repl x.1 with
              | some c =>
                simp only [act, hcal, hp, Holds]
                simpa [succs, hp] using hy
              | none =>
                simp only [act, hcal, hp, Holds]
                simpa [succs, hp] using hy
          · exact Or.inl hl
        · exact Or.inr fun y hy hyd => hmono hyd (hall y hy hyd)
      cases th with
      | start ip d =>
        by_cases hp : (ip, d) ∈ s.parsed
        · simp only [act, hp, if_true] at hx
          exact old hx
        · simp only [act, hp, if_false, List.mem_cons] at hx
          rcases hx with rfl | hx
          · left
            simpa only [act, hp, if_false] using hn
          · exact old hx
      | lookup ip d =>
        refine old ?_
        revert hx
        simp only [act]
        split <;> first | exact id | (split <;> exact id)
      | loop t st =>
        refine old ?_
        cases t with
        | nil => cases st <;> exact hx
        | cons y t => obtain ⟨c, d⟩ := y; revert hx; simp only [act]; split <;> exact id
      | enter c d t st => refine old ?_; revert hx; simp only [act]; split <;> exact id
      | check c d t st => refine old ?_; revert hx; simp only [act]; split <;> exact id
      | fill c d t st => refine old ?_; revert hx; simp only [act]; split <;> exact id
      | fin => exact old hx
    · -- hole
      intro c r hg
      rw [step_graphs ht] at hg
      have old : s.graphs c = some ⟨false, r⟩ → (∀ d t st, th ≠ .fill c d t st) →
          W.accept c = false ∨ ∃ d t st, Th.fill c d t st ∈ (step W D s i).threads := by
        intro hg hne
        rcases hc.hole c r hg with h | ⟨d, t, st, h⟩
        · exact Or.inl h
        · rcases keep_mem (W := W) (D := D) ht h with e | h
          · exact absurd e.symm (hne d t st)
          · exact Or.inr ⟨d, t, st, h⟩
      cases th with
      | start ip d => refine old ?_ (by simp); revert hg; simp only [act]; split <;> exact id
      | lookup ip d => refine old ?_ (by simp); revert hg; simp only [act]; split <;> first | exact id | (split <;> exact id)
      | loop t st =>
        refine old ?_ (by simp)
        cases t with
        | nil => cases st <;> exact hg
        | cons y t => obtain ⟨c', d⟩ := y; revert hg; simp only [act]; split <;> exact id
      | enter c' d t st =>
        cases hgc : s.graphs c' with
        | some g => simp only [act, hgc] at hg; exact old hg (by simp)
        | none =>
          simp only [act, hgc] at hg hn
          by_cases e : c = c'
          · subst e; exact Or.inr ⟨d, t, st, hn⟩
          · rw [upd_ne _ _ e] at hg; exact old hg (by simp)
      | check c' d t st => refine old ?_ (by simp); revert hg; simp only [act]; split <;> exact id
      | fill c' d t st =>
        by_cases ha : W.accept c' = true
        · simp only [act, ha, if_true] at hg
          by_cases e : c = c'
          · subst e; rw [upd_self] at hg; simp at hg
          · rw [upd_ne _ _ e] at hg
            exact old hg (by intro d' t' st' h; simp only [Th.fill.injEq] at h; exact e h.1.symm)
        · simp only [act, ha] at hg
          by_cases e : c = c'
          · subst e; exact Or.inl (by simpa using ha)
          · exact old hg (by intro d' t' st' h; simp only [Th.fill.injEq] at h; exact e h.1.symm)
      | fin => exact old hg (by simp)
    · -- seen
      intro c d t st hm
      rw [step_graphs ht]
      have gmono : s.graphs c ≠ none → (act W D s th).graphs c ≠ none := by
        intro hg
        cases th with
        | start ip d => simp only [act]; split <;> exact hg
        | lookup ip d => simp only [act]; split <;> first | exact hg | (split <;> exact hg)
        | loop t st =>
          cases t with
          | nil => cases st <;> exact hg
          | cons y t => obtain ⟨c', d⟩ := y; simp only [act]; split <;> exact hg
        | enter c' d t st =>
          simp only [act]
          split
          · exact hg
          · simp only [upd]; split <;> simp_all
        | check c' d t st => simp only [act]; split <;> exact hg
        | fill c' d t st =>
          simp only [act]
          split
          · simp only [upd]; split <;> simp_all
          · exact hg
        | fin => exact hg
      rcases mem_step ht hm with h | h | h
      · exact gmono (hc.seen c d t st h)
      · -- next = check: the step was `enter`
        refine gmono ?_
        cases th with
        | start ip d' => simp only [act] at h; split at h <;> cases h
        | lookup ip d' =>
          simp only [act] at h
          split at h
          · cases h
          · split at h <;> cases h
        | loop t' st' =>
          cases t' with
          | nil => cases st' <;> cases h
          | cons y t' => obtain ⟨c', d'⟩ := y; simp only [act] at h; split at h <;> cases h
        | enter c' d' t' st' =>
          cases hgc : s.graphs c' with
          | some g =>
            simp only [act, hgc, Th.check.injEq] at h
            rw [h.1, hgc]
            simp
          | none => simp only [act, hgc] at h; cases h
        | check c' d' t' st' => simp only [act] at h; split at h <;> cases h
        | fill c' d' t' st' => simp only [act] at h; split at h <;> cases h
        | fin => cases h
      · exact absurd h not_lookup_spawn.2

theorem comp_init (W : World) (D : Nat) (roots : List (Ip × Nat)) : Comp W D roots (initial roots) := by
  refine ⟨?_, by simp [initial], by simp [initial], by simp [initial]⟩
  intro x hx _
  exact Or.inl ⟨.loop roots none, by simp [initial], hx⟩

theorem run_comp {W : World} {D : Nat} {roots : List (Ip × Nat)} : ∀ (sched : List Nat) {s : St}, Sound W D roots s →
    Comp W D roots s → NoRace W D s sched → Comp W D roots (run W D s sched)
  | [], _, _, h, _ => h
  | i :: r, _, hs, h, ⟨h1, h2⟩ => run_comp r (step_sound hs i) (step_comp hs h h1) h2

/-- C40, completeness, for schedules in which no goroutine looks at a graph entered and not yet filled: every function
that may be traced and is reached by at most `--fgraph-max-depth` calls is in the graph. -/
theorem graph_complete_partial (W : World) (D : Nat) (roots : List (Ip × Nat)) (sched : List Nat)
    (hn : NoRace W D (initial roots) sched) (hq : Quiet (run W D (initial roots) sched)) {ip : Ip} {d : Nat}
    (hr : Reach W roots ip d) (hd : d ≤ D) (ha : W.accept ip = true) : Filled (run W D (initial roots) sched) ip := by
  have hc := run_comp sched (sound_init W D roots) (comp_init W D roots) hn
  have quiet : ∀ x, Handled W (run W D (initial roots) sched) x → W.accept x.1 = true →
      x ∈ (run W D (initial roots) sched).parsed ∧ Filled (run W D (initial roots) sched) x.1 := by
    intro x hx hax
    rcases hx with ⟨th, hm, hp⟩ | h
    · rw [hq th hm] at hp; exact hp.elim
    · obtain ⟨h1, h2⟩ := h hax
      refine ⟨?_, h2⟩
      rcases h1 with h1 | h1
      · exact h1
      · have := hq _ h1; cases this
  have all : ∀ {ip d}, Reach W roots ip d → d ≤ D → Handled W (run W D (initial roots) sched) (ip, d) := by
    intro ip d hr
    induction hr with
    | root h => exact fun hd => hc.roots _ h hd
    | @repl p c d hp hap hrp ih =>
      intro hd
      obtain ⟨h1, _⟩ := quiet _ (ih hd) hap
      rcases hc.expanded _ h1 with hl | hall
      · have := hq _ hl; cases this
      · exact hall (c, d) (by simp [succs, hrp]) hd
    | @call p c d hp hap hrp hcal ih =>
      intro hd
      obtain ⟨h1, _⟩ := quiet _ (ih (by omega)) hap
      rcases hc.expanded _ h1 with hl | hall
      · have := hq _ hl; cases this
      · exact hall (c, d + 1) (by simp [succs, hrp, hcal]) hd
  exact (quiet _ (all hr hd) ha).2

/-! ### What goes wrong with other schedules -/

/-- Functions 0 (root), 1, 2, 3: 0 calls 1 and 2, 1 calls 2, 2 calls 3. -/
def exWorld : World :=
  { accept := fun _ => true, repl := fun _ => none,
    callees := fun ip => if ip = 0 then [1, 2] else if ip = 1 then [2] else if ip = 2 then [3] else [] }

/-- `NoRace`, computed. -/
def noRace (W : World) (D : Nat) : St → List Nat → Bool
  | _, [] => true
  | s, i :: r =>
    (match s.threads[i]? with
      | some (.check c _ _ _) => s.threads.all fun th => match th with
        | .fill c' _ _ _ => c' != c
        | _ => true
      | _ => true) && noRace W D (step W D s i) r

theorem noRace_iff {W : World} {D : Nat} : ∀ {sched : List Nat} {s : St}, noRace W D s sched = true → NoRace W D s sched
  | [], _, _ => trivial
  | i :: r, s, h => by
    simp only [noRace, Bool.and_eq_true] at h
    refine ⟨?_, noRace_iff h.2⟩
    intro c d t st hi d' t' st' hm
    have := h.1
    rw [hi] at this
    simp only [List.all_eq_true] at this
    have := this _ hm
    simp at this

/-- C40, violated: 3 is reached by two calls, and with `--fgraph-max-depth 2` one schedule finds it and another does not. -/
theorem completeness_violated : Reach exWorld [(0, 0)] 3 2 ∧
    (∃ sched, NoRace exWorld 2 (initial [(0, 0)]) sched ∧ Quiet (run exWorld 2 (initial [(0, 0)]) sched) ∧
      Filled (run exWorld 2 (initial [(0, 0)]) sched) 3) ∧
    (∃ sched, Quiet (run exWorld 2 (initial [(0, 0)]) sched) ∧ ¬ Filled (run exWorld 2 (initial [(0, 0)]) sched) 3) := by
  refine ⟨?_, ?_, ?_⟩
  · have h0 : Reach exWorld [(0, 0)] 0 0 := .root (by simp)
    have h2 : Reach exWorld [(0, 0)] 2 1 := .call h0 rfl rfl (by decide)
    exact .call h2 rfl rfl (by decide)
  · refine ⟨[0, 0, 0, 0, 1, 1, 1, 1, 1, 1, 1, 1, 1, 2, 2, 2, 2, 2, 2, 3, 3, 3, 3, 3, 3, 4, 4, 4, 4, 5, 5, 5], noRace_iff (by decide +kernel), ?_, false, ?_⟩
    · unfold Quiet; decide +kernel
    · decide +kernel
  · refine ⟨[0, 0, 0, 0, 1, 1, 1, 1, 1, 2, 2, 2, 2, 1, 1, 1, 1, 2, 2, 3, 3, 3, 3], ?_, ?_⟩
    · unfold Quiet; decide +kernel
    · rintro ⟨r, hr⟩
      have : (run exWorld 2 (initial [(0, 0)])
        [0, 0, 0, 0, 1, 1, 1, 1, 1, 2, 2, 2, 2, 1, 1, 1, 1, 2, 2, 3, 3, 3, 3]).graphs 3 = none := by decide +kernel
      rw [this] at hr
      cases hr

/-- Two roots, 0 and 1, and 0 calls 1. -/
def exRoots : World := { accept := fun _ => true, repl := fun _ => none, callees := fun ip => if ip = 0 then [1] else [] }

/-- C40, violated: a root that another root calls is marked as root or not, depending on the schedule; if not, it is
traced a second time (bpf_tracing_graph.go 228-257). -/
theorem root_mark_violated :
    (run exRoots 5 (initial [(0, 0), (1, 0)]) [0, 0, 0, 0, 0, 0, 0]).graphs 1 = some ⟨true, true⟩ ∧
    (run exRoots 5 (initial [(0, 0), (1, 0)]) [0, 0, 0, 1, 1, 1, 1, 1, 1, 0, 0, 0, 0]).graphs 1 = some ⟨true, false⟩ := by
  decide +kernel

/-- The hypotheses of the theorems are met: a recursive program of two functions. -/
theorem universe_witness : ∃ W : World, Universe W [0, 1] 1 ∧ Reach W [(0, 0)] 0 2 := by
  refine ⟨⟨fun _ => true, fun _ => none, fun ip => if ip = 0 then [1] else [0]⟩, ⟨by simp, ?_, ?_, by omega⟩, ?_⟩
  · intro p _ c hc
    dsimp only at hc
    split at hc <;> simp at hc <;> simp [hc]
  · intro p; dsimp only; split <;> simp
  · have h0 : Reach ⟨fun _ => true, fun _ => none, fun ip => if ip = 0 then [1] else [0]⟩ [(0, 0)] 0 0 := .root (by simp)
    have h1 := Reach.call (c := 1) h0 rfl rfl (by simp)
    exact .call h1 rfl rfl (by simp)

end Bpfsnoop.Gr
