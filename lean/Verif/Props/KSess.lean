import Verif.Model.KSess

/-!
C22 (kernel-side sessions) and C23 (function-graph depth).
-/
namespace Bpfsnoop.KSess

/-! ## C22. Specification

The specification keeps, for every task and function, the stack of calls that are open; a call is
remembered with the session id generated at its entry, or `none` if the filters rejected it. -/

/-- Open calls, innermost first. -/
abbrev Calls := Key → List (Option (BitVec 64))

def pushCall (c : Calls) (k : Key) (v : Option (BitVec 64)) : Calls :=
  fun k' => if k' = k then v :: c k else c k'

def popCall (c : Calls) (k : Key) : Calls := fun k' => if k' = k then (c k).tail else c k'

/-- The event a probe hit must produce, as user space reads it: entries of accepted calls with
their id, exits of accepted calls with the id of that very call, instruction hits with the id of
the innermost open call if that one was accepted. -/
def expect (c : Calls) : Op → Option Out
  | .enter k sid pass _ _ => if pass then some (.entry k sid) else none
  | .exit k => match (c k).head? with
    | some (some sid) => some (.exit k (sid - 1))
    | _ => none
  | .insn k => match (c k).head? with
    | some (some sid) => some (.insn k sid)
    | _ => none

def next (c : Calls) : Op → Calls
  | .enter k sid pass _ _ => pushCall c k (if pass then some sid else none)
  | .exit k => popCall c k
  | .insn _ => c

def specRun (c : Calls) : List Op → List (Option Out)
  | [] => []
  | o :: os => expect c o :: specRun (next c o) os

/-- What is assumed of a history: generated ids are not 0, the map never fills up, at most 64
accepted calls of one function are open in one task, and a rejected call is not nested inside an
accepted call of the same function in the same task. -/
def Ok (c : Calls) : List Op → Prop
  | [] => True
  | o :: os =>
    (match o with
      | .enter k sid pass _ full =>
        if pass then sid ≠ 0 ∧ full = false ∧ ((c k).filterMap id).length < 64
        else (c k).filterMap id = []
      | _ => True) ∧ Ok (next c o) os

theorem slot_ofNat (n : Nat) (h : n < 64) : slot (BitVec.ofNat 32 n) = n := by
  have : (63 : Nat) = 2 ^ 6 - 1 := rfl
  simp only [slot, BitVec.toNat_and, BitVec.toNat_ofNat]
  rw [show (63 % 2 ^ 32 : Nat) = 2 ^ 6 - 1 from rfl, Nat.and_two_pow_sub_one_eq_mod]
  omega

/-- The map entry for a key represents the stack `l` of accepted open calls (innermost first). -/
def Rep (o : Option Sess) (l : List (BitVec 64)) : Prop :=
  match o with
  | none => l = []
  | some s => l ≠ [] ∧ l.length ≤ 64 ∧ s.depth = BitVec.ofNat 32 (l.length - 1) ∧
      ∀ i, i < l.length → s.ids i = l.reverse[i]?.getD 0

/-- Accepted open calls come above rejected ones. -/
def Inv (m : Map) (c : Calls) : Prop :=
  ∀ k, Rep (m k) ((c k).filterMap id) ∧ (∀ v ∈ (c k).filterMap id, v ≠ 0) ∧
    ∃ n, c k = ((c k).filterMap id).map some ++ List.replicate n none

theorem Rep.top {s : Sess} {v : BitVec 64} {l : List (BitVec 64)} (h : Rep (some s) (v :: l)) :
    s.ids (slot s.depth) = v := by
  obtain ⟨_, h2, h3, h4⟩ := h
  simp only [List.length_cons] at h2 h4 h3
  rw [h3, slot_ofNat _ (by omega), h4 _ (by omega)]
  simp

theorem Rep.push {s : Sess} {v : BitVec 64} {l : List (BitVec 64)} (h : Rep (some s) l)
    (hl : l.length < 64) :
    Rep (some ⟨s.depth + 1, setId s.ids (slot (s.depth + 1)) v⟩) (v :: l) := by
  obtain ⟨h1, h2, h3, h4⟩ := h
  have hpos : 0 < l.length := List.length_pos_iff.mpr h1
  have hd : s.depth + 1 = BitVec.ofNat 32 l.length := by
    rw [h3]; apply BitVec.eq_of_toNat_eq; simp; omega
  refine ⟨by simp, by simp; omega, by rw [List.length_cons, Nat.add_sub_cancel]; exact hd, ?_⟩
  intro i hi
  simp only [List.length_cons] at hi
  rw [hd, slot_ofNat _ hl]
  simp only [setId, List.reverse_cons]
  by_cases hil : i = l.length
  · subst hil
    simp [List.getElem?_append]
  · rw [if_neg hil, h4 i (by omega)]
    rw [List.getElem?_append_left (by simp; omega)]

theorem Rep.pop {s : Sess} {v : BitVec 64} {l : List (BitVec 64)} (h : Rep (some s) (v :: l)) :
    Rep (if s.depth ≠ 0 then some ⟨s.depth - 1, s.ids⟩ else none) l := by
  obtain ⟨h1, h2, h3, h4⟩ := h
  simp only [List.length_cons] at h2 h3 h4
  have h3' : s.depth = BitVec.ofNat 32 l.length := by simpa using h3
  by_cases hl : l = []
  · subst hl
    simp [h3', Rep]
  · have hpos : 0 < l.length := List.length_pos_iff.mpr hl
    have hne : s.depth ≠ 0 := by
      rw [h3']
      intro h0
      have := congrArg BitVec.toNat h0
      simp at this
      omega
    rw [if_pos hne]
    refine ⟨hl, by omega, ?_, ?_⟩
    · rw [h3']; apply BitVec.eq_of_toNat_eq; simp; omega
    · intro i hi
      rw [h4 i (by omega)]
      simp only [List.reverse_cons]
      rw [List.getElem?_append_left (by simp; omega)]

theorem Rep.init (v : BitVec 64) (stale : Nat → BitVec 64) :
    Rep (some ⟨0, setId stale 0 v⟩) [v] := by
  refine ⟨by simp, by simp, rfl, ?_⟩
  intro i hi
  simp at hi
  subst hi
  simp [setId]

theorem filterMap_id_map_some (l : List (BitVec 64)) : (l.map some).filterMap id = l := by
  induction l with
  | nil => rfl
  | cons a l ih => simp

theorem filterMap_id_replicate (n : Nat) :
    (List.replicate n (none : Option (BitVec 64))).filterMap id = [] := by
  induction n with
  | zero => rfl
  | succ n ih => simp [List.replicate_succ, ih]

/-- One step keeps the correspondence and produces the expected event. -/
theorem step_sim (m : Map) (c : Calls) (o : Op) (os : List Op) (h : Inv m c)
    (hok : Ok c (o :: os)) : (step m o).2 = expect c o ∧ Inv (step m o).1 (next c o) := by
  cases o with
  | enter k sid pass stale full =>
    obtain ⟨hok, _⟩ := hok
    cases pass with
    | false =>
      simp only [Bool.false_eq_true, if_false] at hok
      refine ⟨rfl, ?_⟩
      intro k'
      obtain ⟨h1, h2, n, h3⟩ := h k'
      by_cases hk : k' = k
      · subst hk
        simp only [step, Bool.false_eq_true, if_false, next, pushCall, if_true]
        have : (none :: c k').filterMap id = (c k').filterMap id := by simp
        rw [this]
        refine ⟨h1, h2, n + 1, ?_⟩
        rw [hok] at h3 ⊢
        conv => lhs; rw [h3]
        simp [List.replicate_succ]
      · simp only [step, Bool.false_eq_true, if_false, next, pushCall, if_neg hk]
        exact ⟨h1, h2, n, h3⟩
    | true =>
      simp only [if_true] at hok
      obtain ⟨hsid, hfull, hlen⟩ := hok
      subst hfull
      refine ⟨rfl, ?_⟩
      intro k'
      obtain ⟨h1, h2, n, h3⟩ := h k'
      by_cases hk : k' = k
      · subst hk
        simp only [step, if_true, next, pushCall]
        have hf : (some sid :: c k').filterMap id = sid :: (c k').filterMap id := by simp
        rw [hf]
        refine ⟨?_, ?_, n, ?_⟩
        · simp only [addSession]
          cases hm : m k' with
          | none =>
            rw [hm] at h1
            simp only [Rep] at h1
            simp only [Bool.false_eq_true, if_false, upd, if_true, h1]
            exact Rep.init sid stale
          | some s =>
            rw [hm] at h1
            simp only [upd, if_true]
            exact Rep.push h1 hlen
        · intro v hv
          rcases List.mem_cons.mp hv with rfl | hv
          · exact hsid
          · exact h2 v hv
        · simp only [List.map_cons, List.cons_append]
          rw [← h3]
      · simp only [step, if_true, next, pushCall, if_neg hk]
        refine ⟨?_, h2, n, h3⟩
        simp only [addSession]
        cases hm : m k with
        | none => simpa [upd, hk] using h1
        | some s => simpa [upd, hk] using h1
  | exit k =>
    obtain ⟨h1, h2, n, h3⟩ := h k
    have hother : ∀ k', k' ≠ k → (getAndDel m k).2 k' = m k' := by
      intro k' hk
      simp only [getAndDel]
      cases hm : m k with
      | none => rfl
      | some s =>
        dsimp only
        split <;> simp [upd, hk]
    have hcase : ∀ l, l = (c k).filterMap id →
        (step m (.exit k)).2 = expect c (.exit k) ∧
        Rep ((getAndDel m k).2 k) ((c k).tail.filterMap id) ∧
        (∀ v ∈ (c k).tail.filterMap id, v ≠ 0) ∧
        ∃ n, (c k).tail = ((c k).tail.filterMap id).map some ++ List.replicate n none := by
      intro l hl
      rw [← hl] at h1 h2 h3
      cases l with
      | nil =>
        have hm : m k = none := by
          cases hm : m k with
          | none => rfl
          | some s => rw [hm] at h1; exact absurd rfl h1.1
        simp only [List.map_nil, List.nil_append] at h3
        have htl : (c k).tail = List.replicate (n - 1) none := by
          rw [h3]; cases n <;> simp [List.replicate_succ]
        refine ⟨?_, ?_, ?_, n - 1, ?_⟩
        · simp only [step, getAndDel, hm, expect, h3]
          cases n <;> simp [List.replicate_succ]
        · rw [htl, filterMap_id_replicate]
          simp [getAndDel, hm, Rep]
        · rw [htl, filterMap_id_replicate]; simp
        · rw [htl, filterMap_id_replicate]; simp
      | cons v l =>
        cases hm : m k with
        | none => rw [hm] at h1; simp [Rep] at h1
        | some s =>
          rw [hm] at h1
          have hv : v ≠ 0 := h2 v (by simp)
          have htl : (c k).tail = l.map some ++ List.replicate n none := by rw [h3]; simp
          have hfl : (c k).tail.filterMap id = l := by
            rw [htl, List.filterMap_append, filterMap_id_map_some, filterMap_id_replicate,
              List.append_nil]
          refine ⟨?_, ?_, ?_, n, ?_⟩
          · have hhead : (c k).head? = some (some v) := by rw [h3]; simp
            simp only [step, getAndDel, hm, expect, hhead]
            rw [Rep.top h1, if_neg hv]
          · rw [hfl]
            have := Rep.pop h1
            simp only [getAndDel, hm]
            by_cases hd : s.depth ≠ 0
            · rw [if_pos hd] at this ⊢; simpa only [upd, if_true] using this
            · rw [if_neg hd] at this ⊢; simpa only [upd, if_true] using this
          · rw [hfl]
            intro w hw
            exact h2 w (by simp [hw])
          · rw [hfl]; exact htl
    obtain ⟨he, hr⟩ := hcase _ rfl
    refine ⟨he, ?_⟩
    intro k'
    by_cases hk : k' = k
    · subst hk
      simpa [step, next, popCall] using hr
    · simp only [step, next, popCall, if_neg hk, hother k' hk]
      exact h k'
  | insn k =>
    obtain ⟨h1, h2, n, h3⟩ := h k
    refine ⟨?_, h⟩
    generalize hl : (c k).filterMap id = l at h1 h2 h3
    cases l with
    | nil =>
      have hm : m k = none := by
        cases hm : m k with
        | none => rfl
        | some s => rw [hm] at h1; exact absurd rfl h1.1
      simp only [List.map_nil, List.nil_append] at h3
      simp only [step, getSession, hm, expect, h3]
      cases n <;> simp [List.replicate_succ]
    | cons v l =>
      cases hm : m k with
      | none => rw [hm] at h1; simp [Rep] at h1
      | some s =>
        rw [hm] at h1
        have hhead : (c k).head? = some (some v) := by rw [h3]; simp
        simp only [step, getSession, hm, expect, hhead]
        rw [Rep.top h1, if_neg (h2 v (by simp))]

theorem run_sim (ops : List Op) : ∀ (m : Map) (c : Calls), Inv m c → Ok c ops →
    run m ops = specRun c ops := by
  induction ops with
  | nil => intros; rfl
  | cons o os ih =>
    intro m c h hok
    obtain ⟨h1, h2⟩ := step_sim m c o os h hok
    simp only [run, specRun, h1]
    rw [ih _ _ h2 hok.2]

/-- C22, for every history of probe hits of any number of tasks and functions, in any
interleaving, that satisfies `Ok`: every probe produces exactly the event the call structure
demands; in particular an exit carries the id of the entry of its own call. -/
theorem sessions_nest_partial (ops : List Op) (h : Ok (fun _ => []) ops) :
    run empty ops = specRun (fun _ => []) ops :=
  run_sim ops _ _ (fun _ => ⟨rfl, by simp, 0, rfl⟩) h

/-- The id user space computes from an exit event is the one the entry carried. -/
theorem user_sid_of_exit (sid : BitVec 64) : userSid (sid - 1) = sid := by
  simp only [userSid]; exact BitVec.sub_add_cancel _ _

/-- A non-trivial history meeting `Ok`: two tasks, recursion, a rejected call that is not nested
inside an accepted one, and an instruction probe. -/
def okHist : List Op :=
  let a : Key := ⟨1, 7⟩
  let b : Key := ⟨2, 7⟩
  [.enter a 10 false (fun _ => 99) false, .enter a 11 true (fun _ => 99) false,
   .enter b 20 true (fun _ => 98) false, .enter a 12 true (fun _ => 97) false, .insn a, .exit a,
   .exit b, .exit a, .exit a]

theorem okHist_ok : Ok (fun _ => []) okHist := by
  refine ⟨?_, ?_, ?_, ?_, ?_, ?_, ?_, ?_, ?_, trivial⟩ <;> simp [next, pushCall, popCall]

theorem okHist_run : run empty okHist =
    [none, some (.entry ⟨1, 7⟩ 11), some (.entry ⟨2, 7⟩ 20), some (.entry ⟨1, 7⟩ 12),
     some (.insn ⟨1, 7⟩ 12), some (.exit ⟨1, 7⟩ 11), some (.exit ⟨2, 7⟩ 19),
     some (.exit ⟨1, 7⟩ 10), none] := by decide

/-! ### What the hypotheses exclude really goes wrong -/

/-- A call rejected by the filters and nested inside an accepted call of the same function takes
the outer call's session at its exit: the outer exit is then lost. -/
theorem sessions_nest_violated_by_rejected_recursion :
    ∃ ops : List Op, run empty ops ≠ specRun (fun _ => []) ops ∧
      run empty ops = [some (.entry ⟨1, 7⟩ 11), none, some (.exit ⟨1, 7⟩ 10), none] :=
  ⟨[.enter ⟨1, 7⟩ 11 true (fun _ => 0) false, .enter ⟨1, 7⟩ 12 false (fun _ => 0) false,
    .exit ⟨1, 7⟩, .exit ⟨1, 7⟩], by decide, by decide⟩

/-- 65 nested calls: the innermost overwrites the outermost call's slot, whose exit then carries a
foreign id. -/
def deepHist : List Op :=
  (List.range 65).map (fun i => .enter ⟨1, 7⟩ (BitVec.ofNat 64 (i + 1)) true (fun _ => 0) false) ++
  List.replicate 65 (.exit ⟨1, 7⟩)

set_option maxRecDepth 100000 in
theorem sessions_nest_violated_at_depth_65 :
    (run empty deepHist)[129]? = some (some (.exit ⟨1, 7⟩ 64)) ∧
    (specRun (fun _ => []) deepHist)[129]? = some (some (.exit ⟨1, 7⟩ 0)) := by
  constructor <;> decide

/-- A generated id can be 0 (random part and frame pointer part both 0); such a call's exit is
dropped. -/
theorem sessions_nest_violated_by_zero_id :
    genSessionId 0 0xffffc90000000000 = 0 ∧
    run empty [.enter ⟨1, 7⟩ 0 true (fun _ => 0) false, .exit ⟨1, 7⟩] =
      [some (.entry ⟨1, 7⟩ 0), none] := by decide

/-- The idle tasks of all CPUs have `pid_tgid` 0: calls open on two CPUs at once share a key, and
each exit gets the other call's session. -/
theorem sessions_nest_violated_on_idle_tasks :
    -- entry on CPU 0 (id 5), entry on CPU 1 (id 6), exit on CPU 0, exit on CPU 1
    run empty [.enter ⟨0, 7⟩ 5 true (fun _ => 0) false, .enter ⟨0, 7⟩ 6 true (fun _ => 0) false,
      .exit ⟨0, 7⟩, .exit ⟨0, 7⟩] =
    [some (.entry ⟨0, 7⟩ 5), some (.entry ⟨0, 7⟩ 6), some (.exit ⟨0, 7⟩ 5),
     some (.exit ⟨0, 7⟩ 4)] := by decide

/-! ### Session programs: the cookie is per call, so nothing but a zero id can go wrong -/

/-- `Fresh used ops`: every call identifier is entered at most once. -/
def Fresh (used : Nat → Bool) : List COp → Prop
  | [] => True
  | .enter c _ _ :: os => used c = false ∧ Fresh (fun c' => if c' = c then true else used c') os
  | .exit _ :: os => Fresh used os

/-- Ids of accepted calls are not 0. -/
def NonZero (ops : List COp) : Prop := ∀ c sid, COp.enter c sid true ∈ ops → sid ≠ 0

/-- The id with which call `c` was accepted so far. -/
def accepted : List COp → Nat → Option (BitVec 64)
  | [], _ => none
  | .enter c sid pass :: os, c' => if c' = c && pass then some sid else accepted os c'
  | .exit _ :: os, c' => accepted os c'

/-- Specification: an exit is reported iff the same call's entry was accepted earlier in the
history, with that entry's id. `past` is the history so far. -/
def cspec (past : List COp) : List COp → List (Option (Bool × Nat × BitVec 64))
  | [] => []
  | o :: os =>
    (match o with
      | .enter c sid pass => if pass then some (true, c, sid) else none
      | .exit c => (accepted past c).map fun sid => (false, c, sid - 1)) :: cspec (past ++ [o]) os

theorem accepted_append (a b : List COp) (c : Nat) :
    accepted (a ++ b) c = (accepted a c).or (accepted b c) := by
  induction a with
  | nil => simp [accepted]
  | cons o os ih =>
    cases o with
    | enter c' sid pass =>
      simp only [List.cons_append, accepted]
      by_cases h : (c = c' && pass) = true
      · rw [if_pos h, if_pos h]; simp
      · rw [if_neg h, if_neg h]; exact ih
    | exit c' => simpa [accepted] using ih

theorem crun_sim (ops : List COp) : ∀ (cookies : Nat → BitVec 64) (used : Nat → Bool)
    (past : List COp), (∀ c, cookies c = (accepted past c).getD 0) →
    (∀ c v, accepted past c = some v → v ≠ 0) →
    (∀ c, used c = false → accepted past c = none) → Fresh used ops → NonZero ops →
    crun cookies ops = cspec past ops := by
  induction ops with
  | nil => intros; rfl
  | cons o os ih =>
    intro cookies used past h1 h2 h3 hf hn
    have hn' : NonZero os := fun c sid hm => hn c sid (List.mem_cons_of_mem _ hm)
    cases o with
    | enter c sid pass =>
      obtain ⟨hu, hf⟩ := hf
      have hnone := h3 c hu
      cases pass with
      | false =>
        simp only [crun, cstep, cspec, Bool.false_eq_true, if_false]
        congr 1
        apply ih _ _ _ _ _ _ hf hn'
        · intro c'; rw [accepted_append]; simp [accepted, h1]
        · intro c' v; rw [accepted_append]; simp [accepted]; exact h2 c' v
        · intro c' hc'
          rw [accepted_append]
          by_cases hcc : c' = c
          · subst hcc; simp at hc'
          · simp [hcc] at hc'; simp [accepted, h3 c' hc']
      | true =>
        simp only [crun, cstep, cspec, if_true]
        congr 1
        apply ih _ _ _ _ _ _ hf hn'
        · intro c'
          rw [accepted_append]
          by_cases hcc : c' = c
          · subst hcc; simp [accepted, hnone]
          · simp [accepted, hcc, h1]
        · intro c' v
          rw [accepted_append]
          by_cases hcc : c' = c
          · subst hcc
            simp only [accepted, hnone]
            simp
            rintro rfl
            exact hn c' _ (by simp)
          · simp [accepted, hcc]; exact h2 c' v
        · intro c' hc'
          rw [accepted_append]
          by_cases hcc : c' = c
          · subst hcc; simp at hc'
          · simp [hcc] at hc'; simp [accepted, h3 c' hc', hcc]
    | exit c =>
      simp only [crun, cstep, cspec]
      congr 1
      · rw [h1]
        cases ha : accepted past c with
        | none => simp
        | some v =>
          have := h2 c v ha
          simp only [Option.getD_some, Option.map_some]
          rw [if_neg this]
      · apply ih _ used _ _ _ _ hf hn'
        · intro c'; rw [accepted_append]; simp [accepted, h1]
        · intro c' v; rw [accepted_append]; simp [accepted]; exact h2 c' v
        · intro c' hc'; rw [accepted_append]; simp [accepted, h3 c' hc']

/-- C22 with session programs: for every history in which each call is entered once, at any
nesting depth and whatever the filters decide, an exit event is produced iff the entry of that
same call was accepted, and carries that entry's id. -/
theorem session_cookie_pairs_partial (ops : List COp) (hf : Fresh (fun _ => false) ops)
    (hn : NonZero ops) : crun (fun _ => 0) ops = cspec [] ops :=
  crun_sim ops _ _ [] (fun _ => rfl) (by intro c v h; simp [accepted] at h) (fun _ _ => rfl) hf hn

/-- The history of `sessions_nest_violated_by_rejected_recursion` is handled correctly here. -/
theorem session_cookie_witness :
    crun (fun _ => 0) [.enter 0 11 true, .enter 1 12 false, .exit 1, .exit 0] =
      [some (true, 0, 11), none, none, some (false, 0, 10)] ∧
    Fresh (fun _ => false) [.enter 0 11 true, .enter 1 12 false, .exit 1, .exit 0] := by
  refine ⟨by decide, ?_⟩
  simp [Fresh]

/-! ### Mode selection -/

/-- A session (kernel `fsession`) probe is an entry exactly when the kernel says the hit is not a
return; otherwise the configured side decides; the session variants are used iff both sides are
traced. -/
theorem getMode_spec (isEntry both isSession isReturn : Bool) :
    (getMode isEntry both isSession isReturn = .sessionEntry ↔
      both = true ∧ (if isSession then isReturn = false else isEntry = true)) ∧
    (getMode isEntry both isSession isReturn = .sessionExit ↔
      both = true ∧ (if isSession then isReturn = true else isEntry = false)) ∧
    (getMode isEntry both isSession isReturn = .entry ↔ both = false ∧ isEntry = true) ∧
    (getMode isEntry both isSession isReturn = .exit ↔ both = false ∧ isEntry = false) := by
  cases isEntry <;> cases both <;> cases isSession <;> cases isReturn <;> simp [getMode]

/-! ## C23. Function-graph depth -/

/-- Specification on the stack of return addresses, innermost first, in which `fip` names the
traced functions (0 = not traced): below the current function's frame come `mid` frames without
a session and then the frame of a call that has session `sid`; `d` is one more than the number of
traced frames in between. -/
def GraphSpec (fip sess : BitVec 64 → BitVec 64) (cur : BitVec 64) (stack : List (BitVec 64))
    (sid : BitVec 64) (d : Nat) : Prop :=
  ∃ pre cip mid rip rest, stack = pre ++ cip :: mid ++ rip :: rest ∧
    (∀ x ∈ pre, fip x = 0 ∨ fip x ≠ cur) ∧ fip cip = cur ∧
    (∀ x ∈ mid, fip x ≠ 0 → sess (fip x) = 0) ∧
    fip rip ≠ 0 ∧ sess (fip rip) = sid ∧ sid ≠ 0 ∧
    d = 1 + (mid.filter (fun x => fip x ≠ 0)).length

theorem walk_after_iff (fip sess : BitVec 64 → BitVec 64) (cur : BitVec 64) (maxDepth : Nat)
    (stack : List (BitVec 64)) : ∀ (depth : Nat) (sid : BitVec 64) (d : Nat),
    walk fip sess cur maxDepth true depth stack = some (sid, d) ↔
    ∃ mid rip rest, stack = mid ++ rip :: rest ∧ (∀ x ∈ mid, fip x ≠ 0 → sess (fip x) = 0) ∧
      fip rip ≠ 0 ∧ sess (fip rip) = sid ∧ sid ≠ 0 ∧
      d = depth + (mid.filter (fun x => fip x ≠ 0)).length ∧ (d ≤ maxDepth ∨ d = depth) := by
  induction stack with
  | nil => intro depth sid d; simp [walk]
  | cons ip stack ih =>
    intro depth sid d
    simp only [walk]
    by_cases hf : fip ip = 0
    · rw [if_pos hf, ih]
      constructor
      · rintro ⟨mid, rip, rest, rfl, h2, h3, h4, h5, h6, h7⟩
        refine ⟨ip :: mid, rip, rest, rfl, ?_, h3, h4, h5, ?_, h7⟩
        · intro x hx hx0
          rcases List.mem_cons.mp hx with rfl | hx
          · exact absurd hf hx0
          · exact h2 x hx hx0
        · simp [h6, List.filter_cons, hf]
      · rintro ⟨mid, rip, rest, h1, h2, h3, h4, h5, h6, h7⟩
        cases mid with
        | nil => simp at h1; rw [← h1.1] at h3; exact absurd hf h3
        | cons x mid =>
          simp at h1
          obtain ⟨rfl, h1⟩ := h1
          refine ⟨mid, rip, rest, h1, fun x hx => h2 x (by simp [hx]), h3, h4, h5, ?_, h7⟩
          simpa [List.filter_cons, hf] using h6
    · have hfc : ∀ mid : List (BitVec 64), ((ip :: mid).filter (fun x => fip x ≠ 0)).length =
          (mid.filter (fun x => fip x ≠ 0)).length + 1 := by
        intro mid
        rw [List.filter_cons_of_pos (by simpa using hf)]
        rfl
      rw [if_neg hf, if_pos trivial]
      by_cases hs : sess (fip ip) = 0
      · rw [if_neg (by simpa using hs)]
        by_cases hd : depth + 1 > maxDepth
        · rw [if_pos hd]
          simp only [reduceCtorEq, false_iff]
          rintro ⟨mid, rip, rest, h1, h2, h3, h4, h5, h6, h7⟩
          cases mid with
          | nil => simp at h1; rw [← h1.1, hs] at h4; exact h5 h4.symm
          | cons x mid =>
            simp at h1
            obtain ⟨rfl, h1⟩ := h1
            rw [hfc] at h6
            omega
        · rw [if_neg hd, ih]
          constructor
          · rintro ⟨mid, rip, rest, rfl, h2, h3, h4, h5, h6, h7⟩
            refine ⟨ip :: mid, rip, rest, rfl, ?_, h3, h4, h5, ?_, ?_⟩
            · intro x hx hx0
              rcases List.mem_cons.mp hx with rfl | hx
              · exact hs
              · exact h2 x hx hx0
            · rw [hfc]; omega
            · left; omega
          · rintro ⟨mid, rip, rest, h1, h2, h3, h4, h5, h6, h7⟩
            cases mid with
            | nil => simp at h1; rw [← h1.1, hs] at h4; exact absurd h4.symm h5
            | cons x mid =>
              simp at h1
              obtain ⟨rfl, h1⟩ := h1
              rw [hfc] at h6
              refine ⟨mid, rip, rest, h1, fun x hx => h2 x (by simp [hx]), h3, h4, h5, ?_, ?_⟩
              · omega
              · omega
      · rw [if_pos (by simpa using hs)]
        constructor
        · intro h
          simp at h
          obtain ⟨rfl, rfl⟩ := h
          exact ⟨[], ip, stack, rfl, by simp, hf, rfl, hs, by simp, Or.inr rfl⟩
        · rintro ⟨mid, rip, rest, h1, h2, h3, h4, h5, h6, h7⟩
          cases mid with
          | nil =>
            simp at h1 h6
            obtain ⟨rfl, _⟩ := h1
            simp [h4, h6]
          | cons x mid =>
            simp at h1
            obtain ⟨rfl, h1⟩ := h1
            exact absurd (h2 ip (by simp) hf) hs

/-- C23: an event of function `cur` is emitted for session `sid` with depth `d` exactly when the
innermost enclosing traced call that has a session is `d` traced calls above, and `d` does not
exceed the maximum (a direct child, `d = 1`, is always reported). -/
theorem graph_depth_iff (fip sess : BitVec 64 → BitVec 64) (cur : BitVec 64)
    (hcur : cur ≠ 0) (maxDepth maxStack : Nat) (stack : List (BitVec 64)) (sid : BitVec 64) (d : Nat) :
    tryGetSession fip sess cur maxDepth maxStack stack = some (sid, d) ↔
      GraphSpec fip sess cur (stack.take maxStack) sid d ∧ (d ≤ maxDepth ∨ d = 1) := by
  simp only [tryGetSession]
  generalize stack.take maxStack = st
  have key : ∀ st, walk fip sess cur maxDepth false 1 st = some (sid, d) ↔
      GraphSpec fip sess cur st sid d ∧ (d ≤ maxDepth ∨ d = 1) := by
    intro st
    induction st with
    | nil =>
      simp only [walk, GraphSpec, reduceCtorEq, false_iff]
      rintro ⟨⟨pre, cip, mid, rip, rest, h, _⟩, _⟩
      simp at h
    | cons ip st ih =>
      have skip : fip ip = 0 ∨ fip ip ≠ cur →
          (GraphSpec fip sess cur (ip :: st) sid d ↔ GraphSpec fip sess cur st sid d) := by
        intro hne
        constructor
        · rintro ⟨pre, cip, mid, rip, rest, h1, h2, h3, h4⟩
          cases pre with
          | nil =>
            simp at h1
            obtain ⟨rfl, _⟩ := h1
            rcases hne with h | h
            · exact absurd (h3 ▸ h) hcur
            · exact absurd h3 h
          | cons x pre =>
            simp at h1
            obtain ⟨rfl, h1⟩ := h1
            exact ⟨pre, cip, mid, rip, rest, by simpa using h1, fun x hx => h2 x (by simp [hx]), h3, h4⟩
        · rintro ⟨pre, cip, mid, rip, rest, h1, h2, h3, h4⟩
          refine ⟨ip :: pre, cip, mid, rip, rest, by simp [h1], ?_, h3, h4⟩
          intro x hx
          rcases List.mem_cons.mp hx with rfl | hx
          · exact hne
          · exact h2 x hx
      simp only [walk]
      by_cases hf : fip ip = 0
      · rw [if_pos hf, ih, skip (Or.inl hf)]
      · rw [if_neg hf]
        simp only [Bool.false_eq_true, if_false]
        by_cases hc : fip ip = cur
        · rw [if_pos hc, walk_after_iff]
          constructor
          · rintro ⟨mid, rip, rest, rfl, h2, h3, h4, h5, h6, h7⟩
            exact ⟨⟨[], ip, mid, rip, rest, rfl, by simp, hc, h2, h3, h4, h5, h6⟩, h7⟩
          · rintro ⟨⟨pre, cip, mid, rip, rest, h1, h2, h3, h4, h5, h6, h7, h8⟩, h9⟩
            cases pre with
            | nil =>
              simp at h1
              obtain ⟨rfl, h1⟩ := h1
              exact ⟨mid, rip, rest, h1, h4, h5, h6, h7, h8, h9⟩
            | cons x pre =>
              simp at h1
              obtain ⟨rfl, h1⟩ := h1
              rcases h2 ip (by simp) with h | h
              · exact absurd h hf
              · exact absurd hc h
        · rw [if_neg hc, ih, skip (Or.inr hc)]
  exact key st

/-- Entry and exit of one call see the same enclosing frames, so they are reported with the same
depth or both dropped: the result depends only on what lies below the current frame. -/
theorem graph_entry_exit_same_depth (fip sess : BitVec 64 → BitVec 64) (cur : BitVec 64)
    (maxDepth maxStack : Nat) (pre pre' : List (BitVec 64)) (cip cip' : BitVec 64)
    (below : List (BitVec 64))
    (hp : ∀ x ∈ pre, fip x = 0 ∨ fip x ≠ cur) (hp' : ∀ x ∈ pre', fip x = 0 ∨ fip x ≠ cur)
    (hcur : cur ≠ 0) (hc : fip cip = cur) (hc' : fip cip' = cur)
    (hs : (pre ++ cip :: below).length ≤ maxStack) (hs' : (pre' ++ cip' :: below).length ≤ maxStack) :
    tryGetSession fip sess cur maxDepth maxStack (pre ++ cip :: below) =
      tryGetSession fip sess cur maxDepth maxStack (pre' ++ cip' :: below) := by
  have skip : ∀ (pre : List (BitVec 64)) (cip : BitVec 64), fip cip = cur →
      (∀ x ∈ pre, fip x = 0 ∨ fip x ≠ cur) →
      walk fip sess cur maxDepth false 1 (pre ++ cip :: below) =
        walk fip sess cur maxDepth true 1 below := by
    intro pre cip hc hp
    induction pre with
    | nil =>
      simp only [List.nil_append, walk, hc, if_neg hcur]
      simp
    | cons x pre ih =>
      simp only [List.cons_append, walk]
      have := ih (fun y hy => hp y (by simp [hy]))
      by_cases hx : fip x = 0
      · rw [if_pos hx, this]
      · rw [if_neg hx]
        have hx' : fip x ≠ cur := by
          rcases hp x (by simp) with h | h
          · exact absurd h hx
          · exact h
        simp only [Bool.false_eq_true, if_false, if_neg hx', this]
  unfold tryGetSession
  rw [List.take_of_length_le hs, List.take_of_length_le hs', skip _ _ hc hp, skip _ _ hc' hp']

/-- Non-trivial instance: root 5 with session 42, then 6 (traced, no session), then current 7. -/
theorem graph_depth_witness :
    let fip : BitVec 64 → BitVec 64 := fun x => if x ∈ [5, 6, 7] then x else 0
    let sess : BitVec 64 → BitVec 64 := fun f => if f = 5 then 42 else 0
    tryGetSession fip sess 7 2 127 [100, 7, 101, 6, 102, 5, 103] = some (42, 2) ∧
    tryGetSession fip sess 7 1 127 [100, 7, 101, 6, 102, 5, 103] = none := by decide

/-- The stack capture limit can hide the root: a call whose root lies beyond `maxStack` frames is
dropped although its depth is within the maximum. -/
theorem graph_depth_violated_by_short_stack :
    let fip : BitVec 64 → BitVec 64 := fun x => if x ∈ [5, 7] then x else 0
    let sess : BitVec 64 → BitVec 64 := fun f => if f = 5 then 42 else 0
    tryGetSession fip sess 7 5 3 [7, 100, 101, 5] = none ∧ GraphSpec fip sess 7 [7, 100, 101, 5] 42 1 := by
  refine ⟨by decide, [], 7, [100, 101], 5, [], rfl, by simp, ?_, ?_, ?_, ?_, ?_, ?_⟩ <;> simp

/-- Two generated ids are the same exactly if the random numbers are and the frame pointers agree in the lower half; an id is 0 only if both are 0. -/
theorem genSessionId_inj (r r' : BitVec 32) (fp fp' : BitVec 64) :
    genSessionId r fp = genSessionId r' fp' ↔ r = r' ∧ fp.setWidth 32 = fp'.setWidth 32 := by
  unfold genSessionId
  constructor
  · intro h
    constructor
    · apply BitVec.eq_of_getLsbD_eq
      intro i hi
      have := congrArg (fun b => b.getLsbD (32 + i)) h
      have h1 : ∀ i, i < 32 → (0xFFFFFFFF#64).getLsbD (32 + i) = false := by decide
      simp only [BitVec.getLsbD_or, BitVec.getLsbD_and, BitVec.getLsbD_shiftLeft, BitVec.zeroExtend, BitVec.getLsbD_setWidth, h1 i hi, Bool.and_false, Bool.or_false,
        show 32 + i < 64 by omega, show ¬ 32 + i < 32 by omega, Nat.add_sub_cancel_left, decide_true, decide_false, Bool.not_false, Bool.true_and,
        show i < 64 by omega] at this
      exact this
    · apply BitVec.eq_of_getLsbD_eq
      intro i hi
      have := congrArg (fun b => b.getLsbD i) h
      have h1 : ∀ i, i < 32 → (0xFFFFFFFF#64).getLsbD i = true := by decide
      simp [BitVec.getLsbD_or, BitVec.getLsbD_shiftLeft, hi, h1 i hi] at this
      simpa [BitVec.getLsbD_setWidth, hi] using this
  · rintro ⟨rfl, h⟩
    congr 1
    apply BitVec.eq_of_getLsbD_eq
    intro i hi
    by_cases h32 : i < 32
    · have := congrArg (fun b => b.getLsbD i) h
      simp [h32] at this
      simp [this]
    · have h1 : ∀ i, i < 64 → ¬ i < 32 → (0xFFFFFFFF#64).getLsbD i = false := by decide
      simp [h1 i hi h32]
/-- An id is 0 only if both halves are. -/
theorem genSessionId_zero (r : BitVec 32) (fp : BitVec 64) : genSessionId r fp = 0 ↔ r = 0 ∧ fp.setWidth 32 = 0#32 := by
  have := genSessionId_inj r 0 fp 0
  simpa [genSessionId] using this

end Bpfsnoop.KSess
