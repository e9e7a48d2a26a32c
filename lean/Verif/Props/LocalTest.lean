import Verif.Model.LocalTest
/-
C95: the runner of the project's test files (cmd/localtest) says "passed" only for a reason.

The specification: a test file is split at the lines that start with `---`; what a case says is the last `key: value` of each key; a file passes if every
part is a valid case and every case that was selected passed; a case passes if the command printed a line with the text to match.
-/
namespace Bpfsnoop.Lt
open Flg

/-! ### Test files -/

/-- The line says nothing: blank or a comment. -/
def Skip (l : Str) : Prop := trim l = [] ∨ "#".toList.isPrefixOf (trim l) = true
instance (l : Str) : Decidable (Skip l) := inferInstanceAs (Decidable (_ ∨ _))

/-- The line ends a case. -/
def Sep (l : Str) : Prop := ¬ Skip l ∧ "---".toList.isPrefixOf (trim l) = true
instance (l : Str) : Decidable (Sep l) := inferInstanceAs (Decidable (_ ∧ _))

/-- Key and value of a line: what is before and after the first colon, without space around. -/
def kv (l : Str) : Option (Str × Str) :=
  match cut (trim l) with
  | (a, b, true) => some (trim a, trim b)
  | _ => none

/-- The keys and values of a part of a file. -/
def pairs (b : List Str) : List (Str × Str) := (b.filter fun l => ¬ Skip l).filterMap kv

/-- The last value given for one of the keys. -/
def last (ks : List Str) (ps : List (Str × Str)) : Option Str := ((ps.filter fun p => p.1 ∈ ks).map (·.2)).getLast?

/-- The keys of a case on this architecture; keys of other architectures are those that start with `match_`. -/
def keys : List Str := ["name", "tag", "test", "match", "timeout", "prerequisite", "trigger"].map String.toList

/-- Every line of the part says nothing or is `key: value`, with a key that exists and, for a timeout, a value that is a duration. -/
def Good (dur : Str → Option Int) (b : List Str) : Prop :=
  ∀ l ∈ b, ¬ Skip l → ∃ k v, kv l = some (k, v) ∧ (k ∈ keys ∨ "match_".toList.isPrefixOf k = true) ∧
    (k = "timeout".toList → dur v ≠ none)

/-- The parts of a file. -/
def blocks : List Str → List (List Str)
  | [] => [[]]
  | l :: ls =>
    if Sep l then [] :: blocks ls
    else match blocks ls with
      | [] => [[l]]
      | b :: bs => (l :: b) :: bs

theorem parseCase_cons {arch : Str} {dur : Str → Option Int} {t : Case} {l : Str} {ls : List Str} :
    parseCase arch dur t (l :: ls) =
      if Skip l then parseCase arch dur t ls
      else if Sep l then some (t, some ls)
      else match kv l with
        | some (a, b) => match setField arch dur t a b with
          | some t' => parseCase arch dur t' ls
          | none => none
        | none => none := by
  rw [parseCase]
  by_cases h1 : Skip l
  · rw [if_pos h1, if_pos (by exact h1)]
  · rw [if_neg h1, if_neg (by exact h1)]
    by_cases h2 : "---".toList.isPrefixOf (trim l) = true
    · rw [if_pos h2, if_pos ⟨h1, h2⟩]
    · rw [if_neg h2, if_neg (fun h => h2 h.2), kv]
      rcases cut (trim l) with ⟨a, b, f⟩
      cases f <;> rfl

theorem setField_none {arch : Str} {dur : Str → Option Int} {t : Case} {a b : Str} :
    setField arch dur t a b = none ↔
      ¬ ((a ∈ keys ∨ "match_".toList.isPrefixOf a = true) ∧ (a = "timeout".toList → dur b ≠ none)) := by
  have hp : ∀ r : Str, "match_".toList.isPrefixOf ("match_".toList ++ r) = true := fun r => by simp [List.isPrefixOf]
  have hk : a ∈ keys ↔ a = "name".toList ∨ a = "tag".toList ∨ a = "test".toList ∨ a = "match".toList ∨ a = "timeout".toList ∨
      a = "prerequisite".toList ∨ a = "trigger".toList := by simp [keys]
  rw [hk]
  unfold setField
  split
  · next h => subst h; simp
  · next h1 =>
    split
    · next h => subst h; simp
    · next h2 =>
      split
      · next h => subst h; simp
      · next h3 =>
        split
        · next h =>
          have hne : a ≠ "timeout".toList := by
            rcases h with h | h
            · subst h; simp
            · intro h'; rw [h'] at h; simp at h
          simp only [reduceCtorEq, false_iff, Classical.not_not]
          refine ⟨?_, fun h' => absurd h' hne⟩
          rcases h with h | h
          · exact .inl (.inr (.inr (.inr (.inl h))))
          · exact .inr (h ▸ hp arch)
        · next h4 =>
          split
          · next h => subst h; cases hd : dur b <;> simp
          · next h5 =>
            split
            · next h => subst h; simp
            · next h6 =>
              split
              · next h => subst h; simp
              · next h7 =>
                have h4' : a ≠ "match".toList := fun h => h4 (.inl h)
                split
                · next h => exact ⟨fun h' => (by simp at h'), fun h' => (h' ⟨.inr h, fun e => absurd e h5⟩).elim⟩
                · next h =>
                  refine ⟨fun _ hh => hh.1.elim (fun e => ?_) h, fun _ => rfl⟩
                  rcases e with e | e | e | e | e | e | e
                  · exact h1 e
                  · exact h2 e
                  · exact h3 e
                  · exact h4' e
                  · exact h5 e
                  · exact h6 e
                  · exact h7 e

/-- A part of a file that is written as it must be is read, anything else is refused. -/
theorem part_read {arch : Str} {dur : Str → Option Int} : ∀ {b : List Str} {t : Case}, (∀ l ∈ b, ¬ Sep l) →
    ((∃ c, parseCase arch dur t b = some (c, none)) ↔ Good dur b) ∧ ((¬ Good dur b) → parseCase arch dur t b = none)
  | [], t, _ => by simp [parseCase, Good]
  | l :: ls, t, hs => by
    have ih := fun t => part_read (arch := arch) (dur := dur) (b := ls) (t := t) fun x hx => hs x (List.mem_cons_of_mem _ hx)
    have hsl := hs l (List.mem_cons_self ..)
    have hg : Good dur (l :: ls) ↔ (¬ Skip l → ∃ k v, kv l = some (k, v) ∧ (k ∈ keys ∨ "match_".toList.isPrefixOf k = true) ∧
        (k = "timeout".toList → dur v ≠ none)) ∧ Good dur ls := by simp [Good]
    rw [hg, parseCase_cons]
    by_cases h1 : Skip l
    · rw [if_pos h1]; simpa [h1] using ih t
    · rw [if_neg h1, if_neg hsl]
      cases hk : kv l with
      | none => simp [h1]
      | some ab =>
        obtain ⟨a, b⟩ := ab
        cases hf : setField arch dur t a b with
        | none =>
          have := setField_none.mp hf
          simp only [hf, reduceCtorEq, exists_false, false_iff, not_and, implies_true, and_true]
          intro hx
          obtain ⟨k, v, e, h⟩ := hx h1
          simp only [Option.some.injEq, Prod.mk.injEq] at e
          obtain ⟨rfl, rfl⟩ := e
          exact absurd h this
        | some t' =>
          have hok : (a ∈ keys ∨ "match_".toList.isPrefixOf a = true) ∧ (a = "timeout".toList → dur b ≠ none) := by
            refine Classical.byContradiction fun h => ?_
            rw [setField_none.mpr h] at hf; simp at hf
          have he : (¬ Skip l → ∃ k v, some (a, b) = some (k, v) ∧ (k ∈ keys ∨ "match_".toList.isPrefixOf k = true) ∧
              (k = "timeout".toList → dur v ≠ none)) := fun _ => ⟨a, b, rfl, hok⟩
          rw [and_iff_right he]
          simp only [hf]
          exact ih t'

theorem last_cons {ks : List Str} {p : Str × Str} {ps : List (Str × Str)} :
    last ks (p :: ps) = if p.1 ∈ ks then some ((last ks ps).getD p.2) else last ks ps := by
  unfold last
  by_cases h : p.1 ∈ ks <;> simp [h, List.getLast?_cons]

/-- The last duration given. -/
def lastDur (dur : Str → Option Int) (ps : List (Str × Str)) : Option Int :=
  ((ps.filter fun p => p.1 = "timeout".toList).filterMap fun p => dur p.2).getLast?

theorem lastDur_cons {dur : Str → Option Int} {p : Str × Str} {ps : List (Str × Str)} :
    lastDur dur (p :: ps) =
      if p.1 = "timeout".toList then
        match dur p.2 with
        | some d => some ((lastDur dur ps).getD d)
        | none => lastDur dur ps
      else lastDur dur ps := by
  unfold lastDur
  generalize "timeout".toList = K
  by_cases h : p.1 = K
  · cases hd : dur p.2 <;> simp [h, hd, List.getLast?_cons]
  · simp [h]

/-- The keys differ. -/
theorem keys_ne {arch : Str} : List.Pairwise (· ≠ ·) ["name".toList, "tag".toList, "test".toList, "match".toList, "timeout".toList,
      "prerequisite".toList, "trigger".toList] ∧
    ∀ k ∈ ["name".toList, "tag".toList, "test".toList, "timeout".toList, "prerequisite".toList, "trigger".toList],
      k ≠ "match_".toList ++ arch := by
  simp

/-- What one line changes. -/
theorem set_means {arch : Str} {dur : Str → Option Int} {t t' : Case} {a b : Str} {ps : List (Str × Str)}
    (hf : setField arch dur t a b = some t') :
    (last ["name".toList] ps).getD t'.name = (last ["name".toList] ((a, b) :: ps)).getD t.name ∧
    (last ["tag".toList] ps).getD t'.tag = (last ["tag".toList] ((a, b) :: ps)).getD t.tag ∧
    ((last ["test".toList] ps).map ("./bpfsnoop ".toList ++ ·)).getD t'.test =
      ((last ["test".toList] ((a, b) :: ps)).map ("./bpfsnoop ".toList ++ ·)).getD t.test ∧
    (last ["match".toList, "match_".toList ++ arch] ps).getD t'.mtch =
      (last ["match".toList, "match_".toList ++ arch] ((a, b) :: ps)).getD t.mtch ∧
    (lastDur dur ps).getD t'.timeout = (lastDur dur ((a, b) :: ps)).getD t.timeout ∧
    (last ["prerequisite".toList] ps).getD t'.req = (last ["prerequisite".toList] ((a, b) :: ps)).getD t.req ∧
    (last ["trigger".toList] ps).getD t'.trig = (last ["trigger".toList] ((a, b) :: ps)).getD t.trig := by
  obtain ⟨d1, d2⟩ := keys_ne (arch := arch)
  simp only [last_cons, lastDur_cons]
  unfold setField at hf
  generalize "name".toList = kN at *
  generalize "tag".toList = kT at *
  generalize "test".toList = kE at *
  generalize "match".toList = kM at *
  generalize "match_".toList ++ arch = kA at *
  generalize "timeout".toList = kO at *
  generalize "prerequisite".toList = kP at *
  generalize "trigger".toList = kG at *
  generalize "./bpfsnoop ".toList = kB at *
  simp only [List.pairwise_cons, List.mem_cons, List.not_mem_nil, or_false, forall_eq_or_imp, forall_eq, ne_eq, List.Pairwise.nil, and_true,
    false_imp_iff, implies_true] at d1 d2
  simp only [List.mem_cons, List.not_mem_nil, or_false]
  split at hf
  · next g => subst g; simp only [Option.some.injEq] at hf; subst hf; simp [d1, d2]
  · next g1 =>
    split at hf
    · next g => subst g; simp only [Option.some.injEq] at hf; subst hf; simp [d1, d2, g1]
    · next g2 =>
      split at hf
      · next g =>
        subst g; simp only [Option.some.injEq] at hf; subst hf
        cases last [a] ps <;> simp [d1, d2, g1, g2]
      · next g3 =>
        split at hf
        · next g =>
          simp only [Option.some.injEq] at hf; subst hf
          have : a ≠ kO ∧ a ≠ kP ∧ a ≠ kG := by
            rcases g with g | g <;> subst g <;> simp [d1] <;> refine ⟨Ne.symm ?_, Ne.symm ?_, Ne.symm ?_⟩ <;> simp [d2]
          simp [g1, g2, g3, g, this]
        · next g4 =>
          simp only [not_or] at g4
          split at hf
          · next g =>
            subst g
            cases hd : dur b with
            | none => rw [hd] at hf; simp at hf
            | some d =>
              rw [hd] at hf; simp only [Option.map_some, Option.some.injEq] at hf; subst hf; simp [hd, d1, d2, g1, g2, g3, g4]
          · next g5 =>
            split at hf
            · next g => subst g; simp only [Option.some.injEq] at hf; subst hf; simp [d1, d2, g1, g2, g3, g4, g5]
            · next g6 =>
              split at hf
              · next g => subst g; simp only [Option.some.injEq] at hf; subst hf; simp [d1, d2, g1, g2, g3, g4, g5, g6]
              · next g7 =>
                split at hf
                · next g =>
                  simp only [Option.some.injEq] at hf; subst hf
                  simp [g1, g2, g3, g4, g5, g6, g7]
                · simp at hf

/-- **What a case says is what the file says**: of each key the last value; the command is `./bpfsnoop` with the text of `test`; the text to match
is the last of `match` and `match_<architecture>`; five seconds if no timeout is given. -/
theorem part_means {arch : Str} {dur : Str → Option Int} : ∀ {b : List Str} {t c : Case} {r : Option (List Str)}, (∀ l ∈ b, ¬ Sep l) →
    parseCase arch dur t b = some (c, r) →
    r = none ∧
    c.name = (last ["name".toList] (pairs b)).getD t.name ∧ c.tag = (last ["tag".toList] (pairs b)).getD t.tag ∧
    c.test = ((last ["test".toList] (pairs b)).map ("./bpfsnoop ".toList ++ ·)).getD t.test ∧
    c.mtch = (last ["match".toList, "match_".toList ++ arch] (pairs b)).getD t.mtch ∧
    c.timeout = (lastDur dur (pairs b)).getD t.timeout ∧
    c.req = (last ["prerequisite".toList] (pairs b)).getD t.req ∧ c.trig = (last ["trigger".toList] (pairs b)).getD t.trig
  | [], t, c, r, _, h => by
    simp only [parseCase, Option.some.injEq, Prod.mk.injEq] at h
    simp [pairs, last, lastDur, ← h.1, h.2]
  | l :: ls, t, c, r, hs, h => by
    have hs' : ∀ x ∈ ls, ¬ Sep x := fun x hx => hs x (List.mem_cons_of_mem _ hx)
    have hsl := hs l (List.mem_cons_self ..)
    rw [parseCase_cons] at h
    by_cases h1 : Skip l
    · rw [if_pos h1] at h
      have hp : pairs (l :: ls) = pairs ls := by simp [pairs, h1]
      rw [hp]
      exact part_means hs' h
    · rw [if_neg h1, if_neg hsl] at h
      cases hk : kv l with
      | none => rw [hk] at h; simp at h
      | some ab =>
        obtain ⟨a, b⟩ := ab
        rw [hk] at h
        simp only at h
        cases hf : setField arch dur t a b with
        | none => rw [hf] at h; simp at h
        | some t' =>
          rw [hf] at h
          have ih := part_means hs' h
          have hp : pairs (l :: ls) = (a, b) :: pairs ls := by simp [pairs, h1, hk]
          rw [hp]
          obtain ⟨e0, e1, e2, e3, e4, e5, e6, e7⟩ := ih
          rw [e1, e2, e3, e4, e5, e6, e7]
          exact ⟨e0, set_means hf⟩

theorem parseCase_sep {arch : Str} {dur : Str → Option Int} {s : Str} {q : List Str} (hs : Sep s) : ∀ {b : List Str} {t : Case},
    (∀ l ∈ b, ¬ Sep l) → parseCase arch dur t (b ++ s :: q) = (parseCase arch dur t b).map fun x => (x.1, some q)
  | [], t, _ => by simp [parseCase_cons, hs, hs.1, parseCase]
  | l :: b, t, h => by
    have ih := fun t => parseCase_sep (arch := arch) (dur := dur) (q := q) hs (b := b) (t := t) fun x hx => h x (List.mem_cons_of_mem _ hx)
    have hl := h l (List.mem_cons_self ..)
    rw [List.cons_append, parseCase_cons, parseCase_cons]
    split
    · exact ih t
    · split
      · split
        · exact ih _
        · rfl
      · rfl

/-- A file is its first part and, after a line that ends a case, another file. -/
theorem blocks_cases (ls : List Str) :
    ∃ b, (∀ l ∈ b, ¬ Sep l) ∧ ((blocks ls = [b] ∧ ls = b) ∨ ∃ s q, Sep s ∧ ls = b ++ s :: q ∧ blocks ls = b :: blocks q) := by
  induction ls with
  | nil => exact ⟨[], by simp, .inl ⟨rfl, rfl⟩⟩
  | cons l ls ih =>
    by_cases h : Sep l
    · exact ⟨[], by simp, .inr ⟨l, ls, h, rfl, by simp [blocks, h]⟩⟩
    · obtain ⟨b, hb, ih⟩ := ih
      refine ⟨l :: b, fun x hx => ?_, ?_⟩
      · rcases List.mem_cons.mp hx with rfl | hx
        · exact h
        · exact hb x hx
      · rcases ih with ⟨h1, h2⟩ | ⟨s, q, h1, h2, h3⟩
        · exact .inl ⟨by simp [blocks, h, h1], by rw [h2]⟩
        · exact .inr ⟨s, q, h1, by rw [h2]; rfl, by simp [blocks, h, h3]⟩

/-- The case is selected by `--name`. -/
def Selected (sel : Str) (c : Case) : Prop := sel = [] ∨ sel = c.name
instance (sel : Str) (c : Case) : Decidable (Selected sel c) := inferInstanceAs (Decidable (_ ∨ _))

/-- The cases of parts up to the first that is none. -/
def casesOf (arch : Str) (dur : Str → Option Int) : List (List Str) → List Case × Bool
  | [] => ([], true)
  | b :: bs =>
    match parseCase arch dur {} b with
    | none => ([], false)
    | some (c, _) => if c.valid then (c :: (casesOf arch dur bs).1, (casesOf arch dur bs).2) else ([], false)

/-- **Which cases are run**: those selected by name, in order, up to the first part of the file that is no valid case; **and the file passes** if there
is no such part and every run passed. -/
theorem file_run {arch : Str} {dur : Str → Option Int} {sel : Str} {run : Nat → Case → Bool} : ∀ {k : Nat} {ls : List Str} {n : Nat} {p : Bool},
    ls.length ≤ k →
    let r := testFile arch dur sel run n p ls
    let cs := casesOf arch dur (blocks ls)
    r.1 = cs.1.filter (fun c => Selected sel c) ∧
      (r.2 = true ↔ cs.2 = true ∧ p = true ∧ ∀ i c, r.1[i]? = some c → run (n + i) c = true) := by
  intro k
  induction k with
  | zero =>
    intro ls n p hk
    obtain rfl : ls = [] := List.eq_nil_of_length_eq_zero (by omega)
    rw [testFile]
    simp [blocks, casesOf, parseCase, Case.valid]
  | succ k ih =>
    intro ls n p hk
    obtain ⟨b, hb, h⟩ := blocks_cases ls
    rcases h with ⟨h1, rfl⟩ | ⟨s, q, hs, rfl, h3⟩
    · rw [h1, casesOf]
      rw [testFile]
      split
      · next hp => simp [hp]
      · next t hp =>
        rw [hp]
        cases hv : t.valid
        · simp [hv]
        · by_cases hsel : sel = [] ∨ sel = t.name
          · have : Selected sel t := hsel
            simp only [hv, Bool.true_eq_false, if_false, if_pos hsel, casesOf, if_true, List.filter_cons, this, decide_true, List.filter_nil, true_and]
            rw [Bool.and_eq_true]
            constructor
            · rintro ⟨a, b⟩
              refine ⟨b, fun i c hc => ?_⟩
              cases i with
              | zero => simp only [List.getElem?_cons_zero, Option.some.injEq] at hc; subst hc; exact a
              | succ i => simp at hc
            · exact fun ⟨a, b⟩ => ⟨b 0 t rfl, a⟩
          · have : ¬ Selected sel t := hsel
            simp [hv, if_neg hsel, casesOf, this]
      · next t q hp => have := (part_means hb hp).1; simp at this
    · rw [h3, casesOf]
      have hp' := parseCase_sep (arch := arch) (dur := dur) (q := q) hs (t := {}) hb
      rw [testFile]
      split
      · next hp => rw [hp] at hp'; cases hq : parseCase arch dur {} b <;> simp [hq] at hp' ⊢
      · next t hp => rw [hp] at hp'; cases hq : parseCase arch dur {} b <;> simp [hq] at hp'
      · next t q' hp =>
        rw [hp] at hp'
        cases hq : parseCase arch dur {} b with
        | none => simp [hq] at hp'
        | some x =>
          obtain ⟨c, r⟩ := x
          rw [hq] at hp'
          simp only [Option.map_some, Option.some.injEq, Prod.mk.injEq] at hp'
          obtain ⟨rfl, rfl⟩ := hp'
          simp only
          cases hv : t.valid
          · simp [hv]
          · by_cases hsel : sel = [] ∨ sel = t.name
            · have hS : Selected sel t := hsel
              have ih := ih (ls := q') (n := n + 1) (p := run n t && p) (by simp at hk; omega)
              simp only [hv, Bool.true_eq_false, if_false, if_pos hsel, if_true, List.filter_cons, hS, decide_true]
              refine ⟨by rw [ih.1], ?_⟩
              rw [ih.2, Bool.and_eq_true]
              constructor
              · rintro ⟨a, ⟨b, c⟩, d⟩
                refine ⟨a, c, fun i x hx => ?_⟩
                cases i with
                | zero => simp only [List.getElem?_cons_zero, Option.some.injEq] at hx; subst hx; exact b
                | succ i => simp only [List.getElem?_cons_succ] at hx; have := d i x hx; rwa [Nat.add_assoc, Nat.add_comm 1 i] at this
              · rintro ⟨a, b, c⟩
                refine ⟨a, ⟨c 0 t rfl, b⟩, fun i x hx => ?_⟩
                have := c (i + 1) x (by simpa using hx)
                rwa [Nat.add_comm i 1, ← Nat.add_assoc] at this
            · have hS : ¬ Selected sel t := hsel
              have ih := ih (ls := q') (n := n) (p := p) (by simp at hk; omega)
              simp only [hv, Bool.true_eq_false, if_false, if_neg hsel, if_true, List.filter_cons, hS, decide_false]
              exact ih

/-- **A case is valid exactly if** it has a tag, a command, a text to match and a timeout above zero; its name may be empty. -/
theorem valid_iff (c : Case) : c.valid = true ↔ c.tag ≠ [] ∧ c.test ≠ [] ∧ c.mtch ≠ [] ∧ 0 < c.timeout := by
  simp [Case.valid, and_assoc]

/-- A part of a file without text to match is no valid case, so by `file_passes` the file fails, whatever the commands print. -/
theorem no_match_invalid {arch : Str} {dur : Str → Option Int} {b : List Str} {c : Case}
    (hb : parseCase arch dur {} b = some (c, none)) (hm : c.mtch = []) :
    ¬ ∃ c, parseCase arch dur {} b = some (c, none) ∧ c.valid = true := by
  rintro ⟨c', h1, h2⟩
  rw [hb] at h1
  cases h1
  exact ((valid_iff c).mp h2).2.2.1 hm

example : ∃ c, parseCase [] (fun _ => none) {} (["tag: k", "test: -k f"].map String.toList) = some (c, none) ∧ c.mtch = [] :=
  ⟨{ tag := "k".toList, test := "./bpfsnoop -k f".toList }, by decide +kernel, rfl⟩

/-- **A file passes exactly if every part is a valid case and every case that was selected passed.** -/
theorem file_passes {arch : Str} {dur : Str → Option Int} {sel : Str} {run : Nat → Case → Bool} {ls : List Str} :
    (testFile arch dur sel run 0 true ls).2 = true ↔
      (∀ b ∈ blocks ls, ∃ c, parseCase arch dur {} b = some (c, none) ∧ c.valid = true) ∧
      ∀ i c, (testFile arch dur sel run 0 true ls).1[i]? = some c → run i c = true := by
  have h := (file_run (arch := arch) (dur := dur) (sel := sel) (run := run) (n := 0) (p := true) (Nat.le_refl ls.length)).2
  have hc : (casesOf arch dur (blocks ls)).2 = true ↔
      ∀ b ∈ blocks ls, ∃ c, parseCase arch dur {} b = some (c, none) ∧ c.valid = true := by
    have hns : ∀ {ls : List Str}, ∀ b ∈ blocks ls, ∀ l ∈ b, ¬ Sep l := by
      intro ls
      induction ls with
      | nil => simp [blocks]
      | cons l ls ih =>
        intro b hb
        rw [blocks] at hb
        split at hb
        · rcases List.mem_cons.mp hb with rfl | hb
          · exact by simp
          · exact ih b hb
        · next hl =>
          split at hb
          · simp only [List.mem_singleton] at hb; subst hb; simpa using hl
          · next b' bs he =>
            rw [he] at ih
            rcases List.mem_cons.mp hb with rfl | hb
            · intro x hx
              rcases List.mem_cons.mp hx with rfl | hx
              · exact hl
              · exact ih b' (List.mem_cons_self ..) x hx
            · exact ih b (List.mem_cons_of_mem _ hb)
    have key : ∀ bs : List (List Str), (∀ b ∈ bs, ∀ l ∈ b, ¬ Sep l) → ((casesOf arch dur bs).2 = true ↔
        ∀ b ∈ bs, ∃ c, parseCase arch dur {} b = some (c, none) ∧ c.valid = true) := by
      intro bs
      induction bs with
      | nil => simp [casesOf]
      | cons b bs ih =>
        intro hn
        have ih := ih fun x hx => hn x (List.mem_cons_of_mem _ hx)
        rw [casesOf]
        cases hp : parseCase arch dur {} b with
        | none => simp [hp]
        | some x =>
          obtain ⟨c, r⟩ := x
          obtain rfl := (part_means (hn b (List.mem_cons_self ..)) hp).1
          cases hv : c.valid
          · simp [hp, hv]
          · simp [hp, hv, ih]
    exact key _ hns
  rw [h, hc]
  simp

/-- **Violated: a file says that all tests passed although none was run**: the name of a test that no case has. -/
theorem nothing_run_violated {arch : Str} {dur : Str → Option Int} {sel : Str} {run : Nat → Case → Bool} {ls : List Str}
    (hb : ∀ b ∈ blocks ls, ∃ c, parseCase arch dur {} b = some (c, none) ∧ c.valid = true)
    (hsel : sel ≠ []) (hn : ∀ b ∈ blocks ls, ∀ c r, parseCase arch dur {} b = some (c, r) → sel ≠ c.name) :
    testFile arch dur sel run 0 true ls = ([], true) := by
  have h1 := (file_run (arch := arch) (dur := dur) (sel := sel) (run := run) (n := 0) (p := true) (Nat.le_refl ls.length)).1
  have key : ∀ bs : List (List Str), (∀ b ∈ bs, ∀ c r, parseCase arch dur {} b = some (c, r) → sel ≠ c.name) →
      (casesOf arch dur bs).1.filter (fun c => decide (Selected sel c)) = [] := by
    intro bs
    induction bs with
    | nil => simp [casesOf]
    | cons b bs ih =>
      intro h
      rw [casesOf]
      split
      · rfl
      · next c r hp =>
        have := h b (List.mem_cons_self ..) c r hp
        split
        · rw [List.filter_cons_of_neg (by simp [Selected, hsel, this])]
          exact ih fun x hx => h x (List.mem_cons_of_mem _ hx)
        · rfl
  have e1 : (testFile arch dur sel run 0 true ls).1 = [] := by rw [h1]; exact key _ hn
  have e2 : (testFile arch dur sel run 0 true ls).2 = true := file_passes.mpr ⟨hb, by rw [e1]; simp⟩
  exact Prod.ext e1 e2

/-- Nothing after the last line that ends a case: the file fails whatever the cases before it say. -/
theorem trailing_separator {arch : Str} {dur : Str → Option Int} {sel : Str} {run : Nat → Case → Bool} {ls q : List Str} {s : Str}
    (hs : Sep s) (hq : ∀ l ∈ q, Skip l) : (testFile arch dur sel run 0 true (ls ++ s :: q)).2 = false := by
  have hq' : blocks q = [q] := by
    clear hs
    induction q with
    | nil => rfl
    | cons l q ih =>
      have := hq l (List.mem_cons_self ..)
      rw [blocks, if_neg (fun h => h.1 this), ih fun x hx => hq x (List.mem_cons_of_mem _ hx)]
  have hm : ∃ bs, blocks (ls ++ s :: q) = bs ++ [q] ∧ bs ≠ [] := by
    induction ls with
    | nil => exact ⟨[[]], by simp [blocks, hs, hq']⟩
    | cons l ls ih =>
      obtain ⟨bs, ih, hne⟩ := ih
      rw [List.cons_append, blocks, ih]
      split
      · exact ⟨[] :: bs, rfl, by simp⟩
      · cases bs with
        | nil => exact absurd rfl hne
        | cons b bs => exact ⟨(l :: b) :: bs, rfl, by simp⟩
  obtain ⟨bs, hm, _⟩ := hm
  refine Bool.eq_false_iff.mpr fun h => ?_
  obtain ⟨c, hc, hv⟩ := (file_passes.mp h).1 q (by rw [hm]; simp)
  have hskip : ∀ {q : List Str}, (∀ l ∈ q, Skip l) → parseCase arch dur {} q = some ({}, none) := by
    intro q hq
    induction q with
    | nil => rfl
    | cons l q ih =>
      rw [parseCase_cons, if_pos (hq l (List.mem_cons_self ..))]
      exact ih fun x hx => hq x (List.mem_cons_of_mem _ hx)
  rw [hskip hq] at hc
  simp only [Option.some.injEq, Prod.mk.injEq, and_true] at hc
  subst hc
  simp [Case.valid] at hv

/-- The verdict over a directory is that of all its files. -/
theorem dir_passes {vs : List Bool} : testDir vs = true ↔ ∀ v ∈ vs, v = true := by
  have : ∀ (vs : List Bool) (p : Bool), vs.foldl (fun passed v => v && passed) p = true ↔ p = true ∧ ∀ v ∈ vs, v = true := by
    intro vs
    induction vs with
    | nil => simp
    | cons v vs ih => intro p; rw [List.foldl_cons, ih]; cases v <;> cases p <;> simp
  simpa [testDir] using this vs true

/-- The hypotheses are met: a file with two cases and a comment, the first with a key of another architecture. -/
theorem file_witness : testFile "amd64".toList (fun _ => some 1) "b".toList (fun _ _ => true) 0 true
    (["# x", "name: a", "tag: k", "test: -k f", "match: y", "match_arm64: z", "---", "name: b", "tag: k", "test: -k g", "match: w: v", "timeout: 1s"].map
      String.toList) =
    ([{ name := "b".toList, tag := "k".toList, test := "./bpfsnoop -k g".toList, mtch := "w: v".toList, timeout := 1 }], true) := by
  have h := file_run (arch := "amd64".toList) (dur := fun _ => some 1) (sel := "b".toList) (run := fun _ _ => true) (n := 0) (p := true)
    (Nat.le_refl (["# x", "name: a", "tag: k", "test: -k f", "match: y", "match_arm64: z", "---", "name: b", "tag: k", "test: -k g",
      "match: w: v", "timeout: 1s"].map String.toList).length)
  have hc : (casesOf "amd64".toList (fun _ => some 1) (blocks (["# x", "name: a", "tag: k", "test: -k f", "match: y", "match_arm64: z", "---",
      "name: b", "tag: k", "test: -k g", "match: w: v", "timeout: 1s"].map String.toList))) =
      ([{ name := "a".toList, tag := "k".toList, test := "./bpfsnoop -k f".toList, mtch := "y".toList },
        { name := "b".toList, tag := "k".toList, test := "./bpfsnoop -k g".toList, mtch := "w: v".toList, timeout := 1 }], true) := by
    decide +kernel
  simp only [hc] at h
  refine Prod.ext ?_ ?_
  · rw [h.1]
    decide +kernel
  · exact h.2.mpr (by simp)

end Bpfsnoop.Lt
