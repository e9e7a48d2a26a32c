import Verif.Model.Lbr
/-
C28: the LBR display keeps every branch record, in order, and groups them by call-stack continuity.
-/
namespace Bpfsnoop.Lbr

/-- Specification of the display: entries are printed one per line; a line opens a new numbered group
exactly when it is the first one or its source function differs from the previous destination. -/
def specLines : Option Entry → Int → List Entry → List Line
  | _, _, [] => []
  | none, idx, e :: es => ⟨some idx, e⟩ :: specLines (some e) (idx - 1) es
  | some p, idx, e :: es =>
    if p.dst.funcName = e.src.funcName then ⟨none, e⟩ :: specLines (some e) idx es
    else ⟨some idx, e⟩ :: specLines (some e) (idx - 1) es

theorem specLines_entries (prev : Option Entry) (idx : Int) (es : List Entry) :
    (specLines prev idx es).map Line.entry = es := by
  induction es generalizing prev idx with
  | nil => cases prev <;> simp [specLines]
  | cons e es ih =>
    cases prev with
    | none => simp [specLines, ih]
    | some p =>
      simp only [specLines]
      split <;> simp [ih]

theorem output_append (a b : List Rec) (idx : Int) :
    output (a ++ b) idx = (do
      let x ← output a idx
      let y ← output b (idx - a.length)
      some (x ++ y)) := by
  induction a generalizing idx with
  | nil => simp [output]
  | cons r rs ih =>
    simp only [List.cons_append, output, ih, List.length_cons]
    have : idx - 1 - (rs.length : Int) = idx - ((rs.length + 1 : Nat) : Int) := by omega
    rw [this]
    cases outputRecord r idx <;> simp
    cases output rs (idx - 1) <;> simp
    cases output b (idx - (↑rs.length + 1)) <;> simp [List.append_assoc]

/-- The shape of a non-empty stack reached by pushes. -/
structure Inv (s : Stack) (pre : List Rec) (q : List Entry) (p : Entry) : Prop where
  stack : s.stack = pre ++ [⟨q ++ [p], q.length⟩]
  last : s.last = pre.length

theorem outputRecord_snoc (q : List Entry) (p e : Entry) (i j : Int) (idx : Int) (L : List Line)
    (h : outputRecord ⟨q ++ [p], i⟩ idx = some L) :
    outputRecord ⟨(q ++ [p]) ++ [e], j⟩ idx = some (L ++ [⟨none, e⟩]) := by
  cases q with
  | nil => simp [outputRecord] at h ⊢; subst h; rfl
  | cons a q => simp [outputRecord] at h ⊢; subst h; simp

theorem pushAll_output (es : List Entry) (s : Stack) (pre : List Rec) (q : List Entry) (p : Entry)
    (idx : Int) (L : List Line) (hinv : Inv s pre q p) (hout : output s.stack idx = some L) :
    ∃ s', pushAll es s = some s' ∧
      output s'.stack idx = some (L ++ specLines (some p) (idx - (pre.length + 1)) es) := by
  induction es generalizing s pre q p L with
  | nil => exact ⟨s, rfl, by simp [specLines, hout]⟩
  | cons e es ih =>
    obtain ⟨hst, hlast⟩ := hinv
    have hget : s.stack[s.last]? = some ⟨q ++ [p], q.length⟩ := by
      rw [hst, hlast]; simp
    have hidx : goIndex (q ++ [p]) (q.length : Int) = some p := by
      simp [goIndex]
    rw [hst, output_append] at hout
    by_cases hs : p.dst.funcName = e.src.funcName
    · have hpush : s.pushEntry e =
          some { s with stack := pre ++ [⟨(q ++ [p]) ++ [e], ((q ++ [p]).length : Int)⟩] } := by
        simp [Stack.pushEntry, hget, hidx, hs, Rec.addEntry, hst, hlast]
      cases hp : output pre idx with
      | none => simp [hp] at hout
      | some X =>
        simp only [hp, Option.bind_eq_bind, Option.bind_some] at hout
        simp only [output, Option.bind_eq_bind] at hout
        cases hr : outputRecord ⟨q ++ [p], ↑q.length⟩ (idx - pre.length) with
        | none => simp [hr] at hout
        | some Y =>
          simp [hr] at hout
          have hY := outputRecord_snoc q p e q.length ((q ++ [p]).length : Int) _ Y hr
          have := ih { s with stack := pre ++ [⟨(q ++ [p]) ++ [e], ((q ++ [p]).length : Int)⟩] } pre (q ++ [p]) e
            (L ++ [⟨none, e⟩]) ⟨rfl, hlast⟩ (by
              rw [output_append, hp]
              simp only [Option.bind_eq_bind, Option.bind_some, output, hY]
              simp [← hout])
          obtain ⟨s', h1, h2⟩ := this
          refine ⟨s', ?_, ?_⟩
          · simp only [pushAll, hpush, Option.bind_eq_bind, Option.bind_some, h1]
          · rw [h2]; simp [specLines, hs]
    · have hpush : s.pushEntry e =
          some ⟨s.last + 1, s.stack ++ [⟨[] ++ [e], (([] : List Entry).length : Int)⟩]⟩ := by
        simp [Stack.pushEntry, hget, hidx, hs, Stack.addRecord, newRec, Rec.addEntry]
      have := ih ⟨s.last + 1, s.stack ++ [⟨[] ++ [e], (([] : List Entry).length : Int)⟩]⟩ s.stack [] e
        (L ++ [⟨some (idx - (pre.length + 1)), e⟩]) ⟨rfl, by simp [hst, hlast]⟩ (by
          have h' : output s.stack idx = some L := by rw [hst, output_append]; exact hout
          rw [output_append, h']
          simp [output, outputRecord, hst])
      obtain ⟨s', h1, h2⟩ := this
      refine ⟨s', ?_, ?_⟩
      · simp only [pushAll, hpush, Option.bind_eq_bind, Option.bind_some, h1]
      · rw [h2, hst]
        simp only [specLines, hs, if_false, List.append_assoc, List.cons_append, List.nil_append,
          List.length_append, List.length_cons, List.length_nil]
        have : idx - (((pre.length + (0 + 1) : Nat) : Int) + 1) = idx - (↑pre.length + 1) - 1 := by omega
        rw [this]

/-- **C28 (display).** For every context and every batch of branch records, if trimming leaves at
least one record, the display succeeds and prints exactly the trimmed records, oldest first, one line
each, with a new numbered group exactly where the call stack is discontinuous. -/
theorem lbr_display (c : Ctx) (all : List Raw) (n : Nat) (lbrNr : Int) (hn : n ≤ all.length)
    (hne : select c (all.take n) ≠ []) :
    ∃ s, get c Stack.empty all n = some (some s) ∧
      output s.stack (lbrNr - 1) = some (specLines none (lbrNr - 1)
        ((select c (all.take n)).reverse.map fun e => ⟨c.lineInfo e.src, c.lineInfo e.dst⟩)) := by
  have hnl : ¬ all.length < n := by omega
  have hemp : (select c (all.take n)).isEmpty = false := by
    cases h : select c (all.take n) <;> simp_all
  simp only [get, hnl, if_false, hemp, Bool.and_false, Bool.false_eq_true]
  rw [← List.map_reverse]
  cases hr : (select c (all.take n)).reverse with
  | nil => simp_all
  | cons e es =>
    simp only [List.map_cons]
    generalize he' : (⟨c.lineInfo e.src, c.lineInfo e.dst⟩ : Entry) = e'
    generalize es.map (fun e => (⟨c.lineInfo e.src, c.lineInfo e.dst⟩ : Entry)) = es'
    have := pushAll_output es' (Stack.empty.pushFirstEntry e') [] [] e' (lbrNr - 1)
      [⟨some (lbrNr - 1), e'⟩]
      ⟨by simp [Stack.pushFirstEntry, Stack.empty, newRec, Rec.addEntry], rfl⟩
      (by simp [Stack.pushFirstEntry, Stack.empty, newRec, Rec.addEntry, output, outputRecord])
    obtain ⟨s', h1, h2⟩ := this
    refine ⟨s', by simp [h1], ?_⟩
    rw [h2]
    simp [specLines]

/-- **C28 (nothing lost, duplicated or reordered).** -/
theorem lbr_lossless (c : Ctx) (all : List Raw) (n : Nat) (lbrNr : Int) (hn : n ≤ all.length)
    (hne : select c (all.take n) ≠ []) :
    ∃ s lines, get c Stack.empty all n = some (some s) ∧ output s.stack (lbrNr - 1) = some lines ∧
      lines.map Line.entry =
        (select c (all.take n)).reverse.map fun e => ⟨c.lineInfo e.src, c.lineInfo e.dst⟩ := by
  obtain ⟨s, h1, h2⟩ := lbr_display c all n lbrNr hn hne
  exact ⟨s, _, h1, h2, specLines_entries _ _ _⟩

theorem cutFront_spec (p : Raw → Bool) (l : List Raw) :
    ∃ pre, l = pre ++ cutFront p l ∧
      ((∃ e rest, cutFront p l = e :: rest ∧ p e = true ∧ ∀ x ∈ pre, p x = false) ∨
       (pre = [] ∧ ∀ x ∈ l, p x = false)) := by
  induction l with
  | nil => exact ⟨[], rfl, .inr ⟨rfl, by simp⟩⟩
  | cons a l ih =>
    by_cases ha : p a = true
    · refine ⟨[], ?_, .inl ⟨a, l, ?_, ha, by simp⟩⟩ <;> simp [cutFront, List.dropWhile_cons, ha]
    · by_cases hl : l.any p = true
      · obtain ⟨pre, h1, h2⟩ := ih
        refine ⟨a :: pre, ?_, .inl ?_⟩
        · have : cutFront p (a :: l) = cutFront p l := by
            simp [cutFront, List.dropWhile_cons, ha, hl]
          rw [this, List.cons_append, ← h1]
        · have : cutFront p (a :: l) = cutFront p l := by
            simp [cutFront, List.dropWhile_cons, ha, hl]
          rcases h2 with ⟨e, r, h3, h4, h5⟩ | ⟨_, h4⟩
          · exact ⟨e, r, by rw [this, h3], h4, by
              intro x hx; rcases List.mem_cons.mp hx with rfl | hx
              · simpa using ha
              · exact h5 x hx⟩
          · simp only [List.any_eq_true] at hl
            obtain ⟨x, hx, hp⟩ := hl
            simp [h4 x hx] at hp
      · refine ⟨[], ?_, .inr ⟨rfl, ?_⟩⟩
        · simp [cutFront, ha, hl]
        · intro x hx
          rcases List.mem_cons.mp hx with rfl | hx
          · simpa using ha
          · simp only [List.any_eq_true, not_exists, not_and] at hl
            simpa using hl x hx

theorem cutBack_eq (p : Raw → Bool) (l : List Raw) :
    cutBack p l = (cutFront p l.reverse).reverse := by
  simp only [cutBack, cutFront, List.any_reverse]
  split <;> simp

/-- **C28 (trimming keeps a contiguous run).** Whatever the mode, the shown records are a contiguous
part of the captured ones, nothing is dropped in verbose mode, and for a kernel function only the
records newer than the first branch leaving that function are dropped (none if there is no such). -/
theorem select_infix (c : Ctx) (l : List Raw) : ∃ a b, l = a ++ select c l ++ b := by
  unfold select
  split
  · exact ⟨[], [], by simp⟩
  · split
    · obtain ⟨pre, h, _⟩ := cutFront_spec (fun e => c.symAddr e.src == some c.funcIP) l
      exact ⟨pre, [], by simpa using h⟩
    · split
      · generalize (fun e : Raw => c.contains e.src || c.contains e.dst) = p
        obtain ⟨pre, h, _⟩ := cutFront_spec p l
        obtain ⟨suf, h2, _⟩ := cutFront_spec p (cutFront p l).reverse
        refine ⟨pre, suf.reverse, ?_⟩
        rw [cutBack_eq]
        have h3 := congrArg List.reverse h2
        simp only [List.reverse_reverse, List.reverse_append] at h3
        rw [List.append_assoc, ← h3]
        exact h
      · obtain ⟨pre, h, _⟩ := cutFront_spec (fun e => c.contains e.src) l
        exact ⟨pre, [], by simpa using h⟩

theorem select_verbose (c : Ctx) (l : List Raw) (h : c.verbose = true) : select c l = l := by
  simp [select, h]

/-- For a kernel function: exactly the records before the first branch out of that function go. -/
theorem select_kfunc (c : Ctx) (l : List Raw) (hv : c.verbose = false) (hp : c.isProg = false) :
    ∃ pre, l = pre ++ select c l ∧
      ((∃ e rest, select c l = e :: rest ∧ c.symAddr e.src = some c.funcIP ∧
          ∀ x ∈ pre, c.symAddr x.src ≠ some c.funcIP) ∨
       (pre = [] ∧ ∀ x ∈ l, c.symAddr x.src ≠ some c.funcIP)) := by
  have : select c l = cutFront (fun e => c.symAddr e.src == some c.funcIP) l := by
    simp [select, hv, hp]
  rw [this]
  obtain ⟨pre, h, h2⟩ := cutFront_spec (fun e => c.symAddr e.src == some c.funcIP) l
  refine ⟨pre, h, ?_⟩
  simpa using h2

/-- Trimming never empties a non-empty batch, so a non-empty batch is always displayed. -/
theorem select_ne_nil (c : Ctx) (l : List Raw) (h : l ≠ []) : select c l ≠ [] := by
  have hc : ∀ p l, l ≠ [] → cutFront p l ≠ [] := by
    intro p l hl
    obtain ⟨pre, h1, h2⟩ := cutFront_spec p l
    rcases h2 with ⟨e, r, h3, _⟩ | ⟨h3, _⟩
    · simp [h3]
    · intro h4; rw [h3, h4] at h1; exact hl h1
  unfold select
  split
  · exact h
  · split
    · exact hc _ _ h
    · split
      · rw [cutBack_eq]
        have := hc (fun e => c.contains e.src || c.contains e.dst) l h
        simpa using hc (fun e => c.contains e.src || c.contains e.dst) _ (by simpa using this)
      · exact hc _ _ h

/-- **C28.** Every non-empty captured batch is displayed without a panic. -/
theorem lbr_always_displayed (c : Ctx) (all : List Raw) (n : Nat) (lbrNr : Int) (h0 : 0 < n)
    (hn : n ≤ all.length) :
    ∃ s lines, get c Stack.empty all n = some (some s) ∧ output s.stack (lbrNr - 1) = some lines ∧
      lines ≠ [] ∧
      lines.map Line.entry =
        (select c (all.take n)).reverse.map fun e => ⟨c.lineInfo e.src, c.lineInfo e.dst⟩ := by
  have hne : all.take n ≠ [] := by
    intro h; have := congrArg List.length h; simp at this; rcases this with h | h
    · omega
    · simp [h] at hn; omega
  have hs := select_ne_nil c _ hne
  obtain ⟨s, lines, h1, h2, h3⟩ := lbr_lossless c all n lbrNr hn hs
  refine ⟨s, lines, h1, h2, ?_, h3⟩
  intro hl
  rw [hl] at h3
  simp at h3
  exact hs h3

/-- The premises are met by a batch with two groups. -/
example :
    let c : Ctx := { verbose := false, isProg := false, modeExit := false, funcIP := 100,
                     contains := fun _ => false,
                     symAddr := fun a => some (a / 100 * 100),
                     lineInfo := fun a => ⟨a, toString (a / 100)⟩ }
    let all : List Raw := [⟨901, 902⟩, ⟨101, 203⟩, ⟨105, 101⟩, ⟨302, 303⟩]
    select c (all.take 4) = [⟨101, 203⟩, ⟨105, 101⟩, ⟨302, 303⟩] := by decide

end Bpfsnoop.Lbr
