import Verif.Model.ListText
import Verif.Spec.ListSpec
import Verif.Props.OutText
import Verif.Props.Line

/-
C77: the list of branches and the call stack can be read.
-/
namespace Bpfsnoop.Lt
open Rp (Text dec numeral)
open Ot (fields)

/-! ### Words and lines -/

theorem words_blank (r : Text) : words (' ' :: r) = words r := by simp [words, fields]

theorem words_blanks (n : Nat) (r : Text) : words (List.replicate n ' ' ++ r) = words r := by
  induction n with
  | zero => rfl
  | succ n ih => rw [List.replicate_succ, List.cons_append, words_blank, ih]

theorem words_nil : words [] = [] := rfl

theorem words_word (w r : Text) (hw : ' ' ∉ w) : words (w ++ ' ' :: r) = [w].filter (· ≠ []) ++ words r := by
  unfold words
  rw [Ot.fields_sep ' ' w r hw, ← List.singleton_append, List.filter_append]

theorem words_end (w : Text) (hw : ' ' ∉ w) : words w = [w].filter (· ≠ []) := by
  unfold words
  rw [Ot.fields_word ' ' w hw]

theorem words_left (n : Nat) (w r : Text) (hw : ' ' ∉ w) : words (left n w ++ ' ' :: r) = [w].filter (· ≠ []) ++ words r := by
  unfold left
  cases hn : n - w.length with
  | zero => simpa using words_word w r hw
  | succ k =>
    rw [List.append_assoc, List.replicate_succ, List.cons_append, words_word w _ hw, words_blanks, words_blank]

theorem words_left_end (n : Nat) (w : Text) (hw : ' ' ∉ w) : words (left n w) = [w].filter (· ≠ []) := by
  unfold left
  cases hn : n - w.length with
  | zero => simpa using words_end w hw
  | succ k =>
    have := words_blanks k []
    rw [List.append_nil] at this
    rw [List.replicate_succ, words_word w _ hw, this, words_nil, List.append_nil]

theorem lines_flatten (ls : List Text) (h : ∀ l ∈ ls, '\n' ∉ l) : lines ((ls.map (· ++ ['\n'])).flatten) = ls := by
  have : fields '\n' ((ls.map (· ++ ['\n'])).flatten) = ls ++ [[]] := by
    induction ls with
    | nil => rfl
    | cons l ls ih =>
      rw [List.map_cons, List.flatten_cons, List.append_assoc, List.singleton_append, Ot.fields_sep _ _ _ (h l (by simp)),
        ih fun x hx => h x (by simp [hx])]
      rfl
  unfold lines
  rw [this, List.dropLast_concat]

/-! ### Reading a name -/

theorem cut_first (c : Char) (a b : Text) (h : c ∉ a) : cut c (a ++ c :: b) = (a, b) := by
  unfold cut
  have h1 : ∀ x ∈ a, decide (x ≠ c) = true := by
    intro x hx
    simp only [ne_eq, decide_eq_true_eq]
    rintro rfl
    exact h hx
  rw [List.takeWhile_append_of_pos h1, List.dropWhile_append_of_pos h1]
  simp

theorem cut_last (c : Char) (a b : Text) (h : c ∉ b) : cutLast c (a ++ c :: b) = (a, b) := by
  unfold cutLast
  have e : (a ++ c :: b).reverse = b.reverse ++ c :: a.reverse := by simp
  rw [e, cut_first c _ _ (by simpa using h)]
  simp

theorem digit_mem (base : Nat) (hb : 1 < base) (c : Char) : ∀ n, c ∈ Nat.toDigits base n → ∃ d, d < base ∧ c = Nat.digitChar d := by
  intro n
  induction n using Nat.strongRecOn with
  | _ a ih =>
    rw [Nat.toDigits_eq_if hb]
    split
    · next h => intro hc; exact ⟨a, h, by simpa using hc⟩
    · next h =>
      intro hc
      rcases List.mem_append.1 hc with hc | hc
      · exact ih _ (Nat.div_lt_self (by omega) hb) hc
      · exact ⟨a % base, Nat.mod_lt _ (by omega), by simpa using hc⟩

/-- The characters of a hexadecimal number. -/
def hexChars : List Char := "0123456789abcdefx".toList

theorem hex_ne (n : Nat) (c : Char) (h : c ∉ hexChars) : c ∉ hex n := by
  intro hc
  have hd : ∀ d < 16, Nat.digitChar d ∈ hexChars := by decide +kernel
  simp only [hex, List.mem_cons] at hc
  rcases hc with rfl | rfl | hc
  · exact h (by decide +kernel)
  · exact h (by decide +kernel)
  · obtain ⟨d, hlt, rfl⟩ := digit_mem 16 (by decide) c n hc
    exact h (hd d hlt)

theorem dec_ne (n : Nat) (c : Char) (h : c ∉ hexChars) : c ∉ dec n := by
  intro hc
  have hd : ∀ d < 10, Nat.digitChar d ∈ hexChars := by decide +kernel
  obtain ⟨d, hlt, rfl⟩ := digit_mem 10 (by decide) c n hc
  exact h (hd d hlt)

theorem hex_value (n : Nat) : numeral 16 ((hex n).drop 2) = n := Rp.digits_value 16 (by decide) (by decide) n

/-- Names of functions and files without blanks. -/
structure Plain (e : Ep) : Prop where
  func : ∀ c ∈ e.func, c ≠ ' ' ∧ c ≠ '\t' ∧ c ≠ '\n'
  file : ∀ c ∈ e.file, c ≠ ' ' ∧ c ≠ '\t' ∧ c ≠ '\n'

/-- What is to be read for an endpoint. -/
def place (verbose : Bool) (e : Ep) : Place :=
  ⟨if verbose then some e.addr else none, e.func, e.off, if e.file = [] then none else some (e.file, e.line)⟩

theorem name_read (v : Bool) (e : Ep) : readName v (nameText v e) = ((place v e).addr, e.func, e.off) := by
  have hp : '+' ∉ hex e.off := hex_ne _ _ (by decide +kernel)
  cases v with
  | false =>
    have : nameText false e = e.func ++ '+' :: hex e.off := by simp [nameText, t]
    rw [this]
    simp only [readName, Bool.false_eq_true, if_false, cut_last '+' _ _ hp, hex_value, place]
  | true =>
    have : nameText true e = hex e.addr ++ ':' :: (e.func ++ '+' :: hex e.off) := by simp [nameText, t]
    rw [this]
    simp only [readName, if_true, cut_first ':' _ _ (hex_ne e.addr ':' (by decide +kernel)), cut_last '+' _ _ hp, hex_value, place]

theorem name_mem (v : Bool) (e : Ep) (c : Char) (hc : c ∈ nameText v e) : c ∈ e.func ∨ c = ':' ∨ c = '+' ∨ c ∈ hexChars := by
  have hx : ∀ n, c ∈ hex n → c ∈ hexChars := fun n h => Decidable.byContradiction fun hn => hex_ne n c hn h
  cases v with
  | false =>
    simp only [nameText, t, Bool.false_eq_true, if_false, List.mem_append] at hc
    rcases hc with (h | h) | h
    · exact .inl h
    · exact .inr (.inr (.inl (by simpa using h)))
    · exact .inr (.inr (.inr (hx _ h)))
  | true =>
    simp only [nameText, t, if_true, List.mem_append] at hc
    rcases hc with (((h | h) | h) | h) | h
    · exact .inr (.inr (.inr (hx _ h)))
    · exact .inr (.inl (by simpa using h))
    · exact .inl h
    · exact .inr (.inr (.inl (by simpa using h)))
    · exact .inr (.inr (.inr (hx _ h)))

theorem name_blank (v : Bool) (e : Ep) (h : Plain e) : ∀ c ∈ nameText v e, c ≠ ' ' ∧ c ≠ '\t' ∧ c ≠ '\n' := by
  intro c hc
  rcases name_mem v e c hc with h' | rfl | rfl | h'
  · exact h.func c h'
  · decide
  · decide
  · have : ∀ c ∈ hexChars, c ≠ ' ' ∧ c ≠ '\t' ∧ c ≠ '\n' := by decide +kernel
    exact this c h'

theorem plus_mem (v : Bool) (e : Ep) : '+' ∈ nameText v e := by
  cases v <;> simp [nameText, t]

theorem name_arrow (v : Bool) (e : Ep) : nameText v e ≠ "->".toList := by
  intro h
  have := plus_mem v e
  rw [h] at this
  revert this
  decide

theorem name_ne (v : Bool) (e : Ep) : nameText v e ≠ [] := by
  intro h
  have := plus_mem v e
  rw [h] at this
  cases this

/-- The text of a source line: `(file:12)`, and a mark for code inlined. -/
theorem info_eq (e : Ep) (h : e.file ≠ []) : infoText e = '(' :: (e.file ++ ':' :: (dec e.line ++ ')' :: (if e.inline then t "[inline]" else []))) := by
  unfold infoText
  rw [if_pos h]
  cases e.inline <;> simp [t]

theorem info_nil (e : Ep) (h : e.file = []) : infoText e = [] := by
  unfold infoText
  rw [if_neg (by simp [h])]

theorem info_blank (e : Ep) (h : Plain e) : ∀ c ∈ infoText e, c ≠ ' ' ∧ c ≠ '\t' ∧ c ≠ '\n' := by
  intro c hc
  by_cases hf : e.file = []
  · rw [info_nil e hf] at hc; cases hc
  · rw [info_eq e hf] at hc
    simp only [List.mem_cons, List.mem_append] at hc
    rcases hc with rfl | hc | rfl | hc | rfl | hc
    · decide
    · exact h.file c hc
    · decide
    · have : ∀ c ∈ hexChars, c ≠ ' ' ∧ c ≠ '\t' ∧ c ≠ '\n' := by decide +kernel
      exact this c (Decidable.byContradiction fun hn => dec_ne _ c hn hc)
    · decide
    · split at hc
      · revert c; decide
      · cases hc

theorem src_read (f : Text) (n : Nat) (r : Text) (hr : ':' ∉ r) (hd : ∀ c, r.head? = some c → c.isDigit = false) :
    readSrc (f ++ ':' :: (dec n ++ r)) = (f, n) := by
  have h1 : ':' ∉ dec n ++ r := by
    simp only [List.mem_append, not_or]
    exact ⟨dec_ne n ':' (by decide +kernel), hr⟩
  unfold readSrc
  rw [cut_last ':' _ _ h1]
  have h2 : (dec n ++ r).takeWhile Char.isDigit = dec n := by
    rw [List.takeWhile_append_of_pos fun c hc => Rp.dec_digit hc]
    cases r with
    | nil => simp
    | cons c r => simp [hd c rfl]
  rw [h2]
  exact Prod.ext rfl (Rp.digits_value 10 (by decide) (by decide) n)

theorem place_read (v : Bool) (e : Ep) :
    readPlace v ([nameText v e].filter (· ≠ []) ++ [infoText e].filter (· ≠ [])) = some (place v e) := by
  have h1 : [nameText v e].filter (· ≠ []) = [nameText v e] := by simp [name_ne v e]
  rw [h1]
  by_cases hf : e.file = []
  · have h2 : [infoText e].filter (· ≠ []) = [] := by simp [info_nil e hf]
    rw [h2]
    simp only [List.append_nil, readPlace, name_read, place, hf, if_true]
  · have h2 : [infoText e].filter (· ≠ []) = [infoText e] := by simp [info_eq e hf]
    rw [h2]
    have hs : readSrc ((infoText e).drop 1) = (e.file, e.line) := by
      rw [info_eq e hf, List.drop_succ_cons, List.drop_zero]
      refine src_read _ _ _ ?_ ?_
      · cases e.inline <;> simp [t]
      · simp
    simp only [List.singleton_append, readPlace, name_read, place, hs, hf, if_false]

/-! ### Lines of branches -/

theorem left_length (n : Nat) (x : Text) (h : x.length ≤ n) : (left n x).length = n := by
  unfold left
  simp only [List.length_append, List.length_replicate]
  omega

/-- **C77**, colours: the text of a branch is the same with and without them. -/
theorem branch_colours (v : Bool) (n k : Nat) (e : Ep) : formatEp true v n k e = formatEp false v n k e := by
  simp only [formatEp, if_true, Bool.false_eq_true, if_false, colourEp, plainEp]
  have hl : ∀ (m : Nat) (x : Text), (if m > x.length then left (m - x.length) [] else []) = List.replicate (m - x.length) ' ' := by
    intro m x
    split
    · simp [left]
    · next h => rw [show m - x.length = 0 by omega]; rfl
  have hn : (if v then hex e.addr ++ t ":" else []) ++ e.func ++ t "+" ++ hex e.off = nameText v e := by
    cases v <;> simp [nameText]
  rw [hn, hl]
  have hi : (if e.file ≠ [] then
      t "(" ++ (e.file ++ t ":" ++ dec e.line) ++ t ")" ++ (if e.inline then t "[inline]" else []) ++
        (if k > (infoText e).length then left (k - (infoText e).length) [] else [])
    else left k []) = left k (infoText e) := by
    rw [hl]
    by_cases hf : e.file = []
    · rw [if_neg (by simp [hf]), info_nil e hf]
    · rw [if_pos hf, left, info_eq e hf]
      simp [t]
  rw [hi]
  simp [left]

theorem formatBranch_colours (v : Bool) (w : Widths) (b : Branch) : formatBranch true v w b = formatBranch false v w b := by
  simp only [formatBranch, branch_colours]

/-- The words of a branch. -/
theorem branch_words (v : Bool) (w : Widths) (b : Branch) (h1 : Plain b.1) (h2 : Plain b.2) : words (formatBranch false v w b) =
    ([nameText v b.1].filter (· ≠ []) ++ [infoText b.1].filter (· ≠ [])) ++ "->".toList ::
      ([nameText v b.2].filter (· ≠ []) ++ [infoText b.2].filter (· ≠ [])) := by
  have hb : ∀ e, Plain e → ' ' ∉ nameText v e ∧ ' ' ∉ infoText e := fun e h =>
    ⟨fun hc => (name_blank v e h ' ' hc).1 rfl, fun hc => (info_blank e h ' ' hc).1 rfl⟩
  have he : formatBranch false v w b = left w.fromName (nameText v b.1) ++ ' ' :: (left w.fromInfo (infoText b.1) ++ ' ' :: ("->".toList ++ ' ' ::
      (left w.toName (nameText v b.2) ++ ' ' :: left w.toInfo (infoText b.2)))) := by
    simp [formatBranch, formatEp, plainEp, t]
  rw [he, words_left _ _ _ (hb _ h1).1, words_left _ _ _ (hb _ h1).2, words_word _ _ (by decide), words_left _ _ _ (hb _ h2).1,
    words_left_end _ _ (hb _ h2).2]
  simp

/-- A branch is read. -/
theorem branch_read (v : Bool) (w : Widths) (b : Branch) (h1 : Plain b.1) (h2 : Plain b.2) :
    readPlace v ((words (formatBranch false v w b)).takeWhile (· ≠ "->".toList)) = some (place v b.1) ∧
    readPlace v (((words (formatBranch false v w b)).dropWhile (· ≠ "->".toList)).drop 1) = some (place v b.2) := by
  have ha : ∀ x ∈ [nameText v b.1].filter (· ≠ []) ++ [infoText b.1].filter (· ≠ []), decide (x ≠ "->".toList) = true := by
    intro x hx
    simp only [ne_eq, decide_eq_true_eq]
    rintro rfl
    rcases List.mem_append.1 hx with hx | hx
    · have := List.mem_singleton.1 (List.mem_filter.1 hx).1
      exact name_arrow v b.1 this.symm
    · have := List.mem_singleton.1 (List.mem_filter.1 hx).1
      by_cases hf : b.1.file = []
      · rw [info_nil _ hf] at this; revert this; decide
      · rw [info_eq _ hf] at this
        have := congrArg List.head? this
        revert this
        simp
  rw [branch_words v w b h1 h2, List.takeWhile_append_of_pos ha, List.dropWhile_append_of_pos ha]
  constructor
  · rw [List.takeWhile_cons_of_neg (by simp), List.append_nil, place_read]
  · rw [List.dropWhile_cons_of_neg (by simp), List.drop_succ_cons, List.drop_zero, place_read]

/-! ### The list of branches -/

theorem fold_spec (v : Bool) : ∀ (bs : List Branch) (r : Rec),
    (bs.foldl (Rec.addEntry v) r).entries = r.entries ++ bs ∧
    (r.w.fromName ≤ (bs.foldl (Rec.addEntry v) r).w.fromName ∧ r.w.fromInfo ≤ (bs.foldl (Rec.addEntry v) r).w.fromInfo ∧
      r.w.toName ≤ (bs.foldl (Rec.addEntry v) r).w.toName ∧ r.w.toInfo ≤ (bs.foldl (Rec.addEntry v) r).w.toInfo) ∧
    ∀ b ∈ bs, (nameText v b.1).length ≤ (bs.foldl (Rec.addEntry v) r).w.fromName ∧
      (infoText b.1).length ≤ (bs.foldl (Rec.addEntry v) r).w.fromInfo ∧
      (nameText v b.2).length ≤ (bs.foldl (Rec.addEntry v) r).w.toName ∧
      (infoText b.2).length ≤ (bs.foldl (Rec.addEntry v) r).w.toInfo
  | [], r => by simp
  | b :: bs, r => by
    obtain ⟨h1, ⟨h2, h3, h4, h5⟩, h6⟩ := fold_spec v bs (r.addEntry v b)
    rw [List.foldl_cons]
    simp only [Rec.addEntry] at h1 h2 h3 h4 h5
    refine ⟨by simp only [Rec.addEntry]; rw [h1]; simp, ?_, ?_⟩
    · simp only [Rec.addEntry]
      omega
    · intro b' hb'
      rcases List.mem_cons.1 hb' with rfl | hb'
      · simp only [Rec.addEntry]
        omega
      · exact h6 b' hb'

/-- The columns are wide enough for a branch. -/
def Fits (v : Bool) (w : Widths) (b : Branch) : Prop :=
  (nameText v b.1).length ≤ w.fromName ∧ (infoText b.1).length ≤ w.fromInfo ∧
  (nameText v b.2).length ≤ w.toName ∧ (infoText b.2).length ≤ w.toInfo

theorem record_entries (v : Bool) (bs : List Branch) : (record v bs).entries = bs := by
  have := (fold_spec v bs ⟨[], ⟨0, 0, 0, 0⟩⟩).1
  simpa [record] using this

theorem record_fits (v : Bool) (bs : List Branch) (b : Branch) (h : b ∈ bs) : Fits v (record v bs).w b :=
  (fold_spec v bs ⟨[], ⟨0, 0, 0, 0⟩⟩).2.2 b h

theorem widths_ge (rs : List Rec) (r : Rec) (hr : r ∈ rs) : r.w.fromName ≤ (widths rs).fromName ∧ r.w.fromInfo ≤ (widths rs).fromInfo ∧
    r.w.toName ≤ (widths rs).toName ∧ r.w.toInfo ≤ (widths rs).toInfo := by
  have key : ∀ (rs : List Rec) (w : Widths), let w' := rs.foldl (fun w r => (⟨max w.fromName r.w.fromName, max w.fromInfo r.w.fromInfo,
      max w.toName r.w.toName, max w.toInfo r.w.toInfo⟩ : Widths)) w
      (w.fromName ≤ w'.fromName ∧ w.fromInfo ≤ w'.fromInfo ∧ w.toName ≤ w'.toName ∧ w.toInfo ≤ w'.toInfo) ∧
      ∀ r ∈ rs, r.w.fromName ≤ w'.fromName ∧ r.w.fromInfo ≤ w'.fromInfo ∧ r.w.toName ≤ w'.toName ∧ r.w.toInfo ≤ w'.toInfo := by
    intro rs
    induction rs with
    | nil => intro w; simp
    | cons r rs ih =>
      intro w
      obtain ⟨h1, h2⟩ := ih ⟨max w.fromName r.w.fromName, max w.fromInfo r.w.fromInfo, max w.toName r.w.toName, max w.toInfo r.w.toInfo⟩
      simp only [List.foldl_cons]
      dsimp only at h1
      refine ⟨by omega, ?_⟩
      intro x hx
      rcases List.mem_cons.1 hx with rfl | hx
      · omega
      · exact h2 x hx
  exact (key rs _).2 r hr

theorem all_fit (v : Bool) (groups : List (List Branch)) (g : List Branch) (hg : g ∈ groups) (b : Branch) (hb : b ∈ g) :
    Fits v (widths (groups.map (record v))) b := by
  have h1 := record_fits v g b hb
  have h2 := widths_ge (groups.map (record v)) (record v g) (List.mem_map.2 ⟨g, hg, rfl⟩)
  unfold Fits at *
  omega

/-- What is in front of a branch. -/
def tag : Option Nat → Text
  | some n => t "[#" ++ num2 n ++ t "] "
  | none => t "      "

theorem num2_ok (n : Nat) (h : n < 100) : (num2 (n : Int)).length = 2 ∧ numeral 10 (num2 (n : Int)) = n ∧ '\n' ∉ num2 (n : Int) := by
  have : ∀ n < 100, (num2 ((n : Nat) : Int)).length = 2 ∧ numeral 10 (num2 (n : Int)) = n ∧ '\n' ∉ num2 (n : Int) := by decide +kernel
  exact this n h

theorem tag_length (o : Option Nat) (h : ∀ n, o = some n → n < 100) : (tag o).length = 6 := by
  cases o with
  | none => rfl
  | some n => simp [tag, t, (num2_ok n (h n rfl)).1]

theorem outputRecords_eq (c v : Bool) (w : Widths) : ∀ (groups : List (List Branch)) (n : Nat), (∀ g ∈ groups, g ≠ []) →
    groups.length ≤ n + 1 → outputRecords c v w (groups.map (record v)) (n : Int) =
      ((numbered groups n).map fun x => (tag x.1 ++ formatBranch false v w x.2) ++ ['\n']).flatten
  | [], _, _, _ => rfl
  | [] :: _, _, h, _ => absurd rfl (h [] (by simp))
  | (b :: bs) :: gs, n, h, hn => by
    have hc : ∀ b, formatBranch c v w b = formatBranch false v w b := by
      intro b
      cases c with
      | false => rfl
      | true => exact formatBranch_colours v w b
    have ih : outputRecords c v w (gs.map (record v)) ((n : Int) - 1) =
        ((numbered gs (n - 1)).map fun x => (tag x.1 ++ formatBranch false v w x.2) ++ ['\n']).flatten := by
      cases gs with
      | nil => rfl
      | cons g gs =>
        simp only [List.length_cons] at hn
        have := outputRecords_eq c v w (g :: gs) (n - 1) (fun x hx => h x (by simp [hx])) (by simp only [List.length_cons]; omega)
        rw [← this]
        congr 1
        omega
    simp only [List.map_cons, outputRecords, ih, outputRecord, record_entries, numbered, List.map_append, List.flatten_append, List.map_map]
    congr 1
    simp only [hc, tag, t, List.flatten_cons, List.append_assoc]
    congr 4

theorem branches_eq (c v : Bool) (lbrNr : Nat) (groups : List (List Branch)) (hne : ∀ g ∈ groups, g ≠ []) (hn : groups.length ≤ lbrNr)
    (h0 : 0 < lbrNr) : branches c v lbrNr groups = ((t "LBR stack:" :: (numbered groups (lbrNr - 1)).map fun x =>
      tag x.1 ++ formatBranch false v (widths (groups.map (record v))) x.2).map (· ++ ['\n'])).flatten := by
  have := outputRecords_eq c v (widths (groups.map (record v))) groups (lbrNr - 1) hne (by omega)
  rw [show ((lbrNr - 1 : Nat) : Int) = (lbrNr : Int) - 1 by omega] at this
  simp only [branches, this, List.map_cons, List.flatten_cons, List.map_map]
  rfl

theorem numbered_mem {α : Type} : ∀ (groups : List (List α)) (n : Nat) (x : Option Nat × α), x ∈ numbered groups n →
    (∃ g ∈ groups, x.2 ∈ g) ∧ ∀ k, x.1 = some k → k ≤ n
  | [], _, _, h => by simp [numbered] at h
  | [] :: gs, n, x, h => by
    obtain ⟨⟨g, hg, hx⟩, hk⟩ := numbered_mem gs (n - 1) x h
    exact ⟨⟨g, by simp [hg], hx⟩, fun k e => Nat.le_trans (hk k e) (by omega)⟩
  | (b :: bs) :: gs, n, x, h => by
    rcases List.mem_append.1 h with h | h
    · rcases List.mem_cons.1 h with rfl | h
      · exact ⟨⟨b :: bs, by simp, by simp⟩, fun k e => by cases e; exact Nat.le_refl _⟩
      · obtain ⟨y, hy, rfl⟩ := List.mem_map.1 h
        exact ⟨⟨b :: bs, by simp, by simp [hy]⟩, fun k e => by cases e⟩
    · obtain ⟨⟨g, hg, hx⟩, hk⟩ := numbered_mem gs (n - 1) x h
      exact ⟨⟨g, by simp [hg], hx⟩, fun k e => Nat.le_trans (hk k e) (by omega)⟩

theorem left_mem (n : Nat) (x : Text) (c : Char) (h : c ∈ left n x) : c ∈ x ∨ c = ' ' := by
  rcases List.mem_append.1 h with h | h
  · exact .inl h
  · exact .inr (List.eq_of_mem_replicate h)

theorem branch_nl (v : Bool) (w : Widths) (b : Branch) (h1 : Plain b.1) (h2 : Plain b.2) : '\n' ∉ formatBranch false v w b := by
  have he : ∀ n k e, Plain e → '\n' ∉ plainEp v n k e := by
    intro n k e h hc
    simp only [plainEp, List.mem_append] at hc
    rcases hc with (hc | hc) | hc
    · rcases left_mem _ _ _ hc with hc | hc
      · exact (name_blank v e h _ hc).2.2 rfl
      · cases hc
    · revert hc; decide
    · rcases left_mem _ _ _ hc with hc | hc
      · exact (info_blank e h _ hc).2.2 rfl
      · cases hc
  intro hc
  simp only [formatBranch, formatEp, Bool.false_eq_true, if_false, List.mem_append] at hc
  rcases hc with (hc | hc) | hc
  · exact he _ _ _ h1 hc
  · revert hc; decide
  · exact he _ _ _ h2 hc

theorem tag_nl (o : Option Nat) (h : ∀ n, o = some n → n < 100) : '\n' ∉ tag o := by
  cases o with
  | none => decide
  | some n =>
    have := (num2_ok n (h n rfl)).2.2
    simp only [tag, List.mem_append, not_or]
    exact ⟨⟨by decide, this⟩, by decide⟩

/-- **C77**, branches: below the line `LBR stack:` there is one line for each branch, and reading it gives the two places with their
functions, offsets and source lines (and addresses, with `-v`), and for the first branch of each group its number, with and without
colours. -/
theorem branches_read (c v : Bool) (lbrNr : Nat) (groups : List (List Branch)) (hne : ∀ g ∈ groups, g ≠ []) (hn : groups.length ≤ lbrNr)
    (h0 : 0 < lbrNr) (h100 : lbrNr ≤ 100) (hp : ∀ g ∈ groups, ∀ b ∈ g, Plain b.1 ∧ Plain b.2) :
    (lines (branches c v lbrNr groups)).head? = some "LBR stack:".toList ∧
    (lines (branches c v lbrNr groups)).tail.map (readBranch v) =
      (numbered groups (lbrNr - 1)).map fun x => (x.1, some (place v x.2.1), some (place v x.2.2)) := by
  have hlt : ∀ x ∈ numbered groups (lbrNr - 1), ∀ k, x.1 = some k → k < 100 := fun x hx k e => by
    have := (numbered_mem groups (lbrNr - 1) x hx).2 k e
    omega
  have hpl : ∀ x ∈ numbered groups (lbrNr - 1), Plain x.2.1 ∧ Plain x.2.2 := fun x hx => by
    obtain ⟨⟨g, hg, hb⟩, _⟩ := numbered_mem groups (lbrNr - 1) x hx
    exact hp g hg _ hb
  rw [branches_eq c v lbrNr groups hne hn h0, lines_flatten]
  · refine ⟨rfl, ?_⟩
    rw [List.tail_cons, List.map_map]
    refine List.map_congr_left fun x hx => ?_
    simp only [Function.comp]
    obtain ⟨r1, r2⟩ := branch_read v (widths (groups.map (record v))) x.2 (hpl x hx).1 (hpl x hx).2
    generalize formatBranch false v (widths (groups.map (record v))) x.2 = y at r1 r2
    have h6 : (tag x.1 ++ y).drop 6 = y := List.drop_left' (tag_length x.1 (hlt x hx))
    unfold readBranch
    rw [h6, r1, r2]
    have hnum : (if (tag x.1 ++ y).take 2 = "[#".toList then some (numeral 10 (((tag x.1 ++ y).drop 2).take 2)) else none) = x.1 := by
      cases hx1 : x.1 with
      | none => rfl
      | some n =>
        obtain ⟨l, e, _⟩ := num2_ok n (hlt x hx n hx1)
        have e1 : tag (some n) ++ y = '[' :: '#' :: (num2 n ++ (t "] " ++ y)) := by simp [tag, t]
        rw [e1]
        have e2 : (num2 n ++ (t "] " ++ y)).take 2 = num2 n := List.take_left' l
        simp [e2, e]
    rw [hnum]
  · intro l hl
    rcases List.mem_cons.1 hl with rfl | hl
    · decide
    · obtain ⟨x, hx, rfl⟩ := List.mem_map.1 hl
      simp only [List.mem_append, not_or]
      exact ⟨tag_nl x.1 (hlt x hx), branch_nl v _ _ (hpl x hx).1 (hpl x hx).2⟩

theorem plainEp_length (v : Bool) (n k : Nat) (e : Ep) (h1 : (nameText v e).length ≤ n) (h2 : (infoText e).length ≤ k) :
    (plainEp v n k e).length = n + 1 + k := by
  simp [plainEp, t, left_length n _ h1, left_length k _ h2]
  omega

/-- **C77**, columns: in all lines of the list the arrow is at the same place, and all lines have the same length. -/
theorem branches_aligned (c v : Bool) (lbrNr : Nat) (groups : List (List Branch)) (hne : ∀ g ∈ groups, g ≠ []) (hn : groups.length ≤ lbrNr)
    (h0 : 0 < lbrNr) (h100 : lbrNr ≤ 100) (hp : ∀ g ∈ groups, ∀ b ∈ g, Plain b.1 ∧ Plain b.2) :
    ∃ col len, ∀ l ∈ (lines (branches c v lbrNr groups)).tail, l.length = len ∧ (l.drop col).take 4 = " -> ".toList := by
  have hlt : ∀ x ∈ numbered groups (lbrNr - 1), ∀ k, x.1 = some k → k < 100 := fun x hx k e => by
    have := (numbered_mem groups (lbrNr - 1) x hx).2 k e
    omega
  let w := widths (groups.map (record v))
  refine ⟨6 + (w.fromName + 1 + w.fromInfo), 6 + (w.fromName + 1 + w.fromInfo) + 4 + (w.toName + 1 + w.toInfo), ?_⟩
  rw [branches_eq c v lbrNr groups hne hn h0, lines_flatten]
  · rw [List.tail_cons]
    intro l hl
    obtain ⟨x, hx, rfl⟩ := List.mem_map.1 hl
    obtain ⟨⟨g, hg, hb⟩, _⟩ := numbered_mem groups (lbrNr - 1) x hx
    obtain ⟨f1, f2, f3, f4⟩ := all_fit v groups g hg x.2 hb
    have l1 := plainEp_length v w.fromName w.fromInfo x.2.1 f1 f2
    have l2 := plainEp_length v w.toName w.toInfo x.2.2 f3 f4
    have l0 := tag_length x.1 (hlt x hx)
    have he : tag x.1 ++ formatBranch false v w x.2 =
        (tag x.1 ++ plainEp v w.fromName w.fromInfo x.2.1) ++ (t " -> " ++ plainEp v w.toName w.toInfo x.2.2) := by
      simp [formatBranch, formatEp]
    show (tag x.1 ++ formatBranch false v w x.2).length = _ ∧ _
    constructor
    · rw [he]
      simp [l0, l1, l2, t]
      omega
    · show ((tag x.1 ++ formatBranch false v w x.2).drop _).take 4 = _
      rw [he, List.drop_left' (by simp [l0, l1])]
      exact List.take_left' rfl
  · intro l hl
    rcases List.mem_cons.1 hl with rfl | hl
    · decide
    · obtain ⟨x, hx, rfl⟩ := List.mem_map.1 hl
      obtain ⟨⟨g, hg, hb⟩, _⟩ := numbered_mem groups (lbrNr - 1) x hx
      simp only [List.mem_append, not_or]
      exact ⟨tag_nl x.1 (hlt x hx), branch_nl v _ _ (hp g hg _ hb).1 (hp g hg _ hb).2⟩

/-! ### The call stack -/

/-- A line of the call stack without the end of line, with some blanks behind the name. -/
def frameLine (v : Bool) (k : Nat) (e : Ep) : Text := t "  " ++ (nameText v e ++ List.replicate k ' ') ++ frameSrc e

theorem frame_plain (v : Bool) (e : Ep) : frame false v e = frameLine v (50 - (e.func.length + 1 + (hex e.off).length)) e ++ ['\n'] := by
  cases v <;> simp [frame, frameLine, nameText, left, t, hex] <;> omega

theorem frame_coloured (v : Bool) (e : Ep) :
    frame true v e = frameLine v ((50 - (e.func.length : Int)).natAbs - (1 + (hex e.off).length)) e ++ ['\n'] := by
  cases v <;> simp [frame, frameLine, nameText, left, star, t, hex] <;> omega

theorem frame_any (c v : Bool) (e : Ep) : ∃ k, frame c v e = frameLine v k e ++ ['\n'] := by
  cases c with
  | false => exact ⟨_, frame_plain v e⟩
  | true => exact ⟨_, frame_coloured v e⟩

/-- **C77**, colours: a frame has the same text with and without them if and only if its function's name is not too long. -/
theorem frame_colours_iff (v : Bool) (e : Ep) : frame true v e = frame false v e ↔ e.func.length ≤ 51 + (hex e.off).length := by
  rw [frame_plain, frame_coloured, List.append_left_inj]
  unfold frameLine
  rw [List.append_left_inj, List.append_right_inj, List.append_right_inj]
  constructor
  · intro h
    have := congrArg List.length h
    simp only [List.length_replicate] at this
    omega
  · intro h
    congr 1
    omega

/-- Colours are violated: a name of 70 characters has blanks behind it. -/
theorem frame_colours_violated : ∃ e, Plain e ∧ frame true false e ≠ frame false false e := by
  refine ⟨⟨0, List.replicate 70 'a', 16, [], 0, false⟩, ⟨?_, by simp⟩, by decide +kernel⟩
  intro c hc
  rw [List.eq_of_mem_replicate hc]
  decide

theorem frame_read (v : Bool) (k : Nat) (e : Ep) (h : Plain e) : readFrame v (frameLine v k e) = place v e ∧ '\n' ∉ frameLine v k e := by
  have htab : '\t' ∉ nameText v e ++ List.replicate k ' ' := by
    simp only [List.mem_append, not_or]
    refine ⟨fun hc => (name_blank v e h _ hc).2.1 rfl, fun hc => ?_⟩
    have := List.eq_of_mem_replicate hc
    revert this; decide
  have hw : words (nameText v e ++ List.replicate k ' ') = [nameText v e] := by
    have h1 := words_left_end (nameText v e).length (nameText v e) (fun hc => (name_blank v e h _ hc).1 rfl)
    cases k with
    | zero =>
      simp only [left, Nat.sub_self] at h1
      rw [h1]
      simp [name_ne v e]
    | succ k =>
      have h2 := words_blanks k []
      rw [List.append_nil] at h2
      rw [List.replicate_succ, words_word _ _ (fun hc => (name_blank v e h _ hc).1 rfl), h2, words_nil]
      simp [name_ne v e]
  have hnl : '\n' ∉ frameLine v k e := by
    simp only [frameLine, List.mem_append, not_or]
    refine ⟨⟨by decide, fun hc => (name_blank v e h _ hc).2.2 rfl, fun hc => ?_⟩, ?_⟩
    · have := List.eq_of_mem_replicate hc
      revert this; decide
    · unfold frameSrc
      split
      · simp only [List.mem_append, not_or]
        exact ⟨⟨⟨by decide, fun hc => (h.file _ hc).2.2 rfl⟩, by decide⟩, dec_ne _ _ (by decide +kernel)⟩
      · simp
  refine ⟨?_, hnl⟩
  by_cases hf : e.file = []
  · have he : frameLine v k e = ' ' :: ' ' :: (nameText v e ++ List.replicate k ' ') := by
      simp [frameLine, frameSrc, hf, t]
    have hc : cut '\t' (nameText v e ++ List.replicate k ' ') = (nameText v e ++ List.replicate k ' ', []) := by
      unfold cut
      have h1 : ∀ x ∈ nameText v e ++ List.replicate k ' ', decide (x ≠ '\t') = true := by
        intro x hx
        simp only [ne_eq, decide_eq_true_eq]
        rintro rfl
        exact htab hx
      have e1 := List.takeWhile_append_of_pos h1 (l₂ := [])
      have e2 := List.dropWhile_append_of_pos h1 (l₂ := [])
      simp only [List.append_nil, List.takeWhile_nil, List.dropWhile_nil] at e1 e2
      rw [e1, e2]
      rfl
    have hm : '\t' ∉ frameLine v k e := by
      rw [he]
      simp only [List.mem_cons, not_or]
      exact ⟨by decide, by decide, htab⟩
    unfold readFrame
    rw [if_neg hm, he]
    simp only [List.drop_succ_cons, List.drop_zero, hc, hw, List.headD_cons, name_read, place, hf, if_true]
  · have he : frameLine v k e = ' ' :: ' ' :: (nameText v e ++ List.replicate k ' ') ++ '\t' :: (';' :: ' ' :: (e.file ++ ':' :: dec e.line)) := by
      simp [frameLine, frameSrc, hf, t]
    have hm : '\t' ∈ frameLine v k e := by rw [he]; simp
    have h2 : '\t' ∉ ' ' :: ' ' :: (nameText v e ++ List.replicate k ' ') := by
      simp only [List.mem_cons, not_or]
      exact ⟨by decide, by decide, htab⟩
    have hs : readSrc (e.file ++ ':' :: dec e.line) = (e.file, e.line) := by
      have := src_read e.file e.line [] (by simp) (by simp)
      simpa using this
    have hd : (' ' :: ' ' :: (nameText v e ++ List.replicate k ' ') ++ '\t' :: (';' :: ' ' :: (e.file ++ ':' :: dec e.line))).drop 2 =
        (nameText v e ++ List.replicate k ' ') ++ '\t' :: (';' :: ' ' :: (e.file ++ ':' :: dec e.line)) := rfl
    unfold readFrame
    rw [if_pos hm, he, hd, cut_first '\t' _ _ htab, cut_first '\t' _ _ h2]
    simp only [hw, List.headD_cons, name_read, List.drop_succ_cons, List.drop_zero, hs, place, hf, if_false]

/-- **C77**, the call stack: below the line `Func stack:` there is one line for each frame, and reading it gives function, offset and
source line (and address, with `-v`), with and without colours. -/
theorem frames_read (c v : Bool) (es : List Ep) (hne : es ≠ []) (hp : ∀ e ∈ es, Plain e) :
    (lines (frames c v es)).head? = some "Func stack:".toList ∧ (lines (frames c v es)).tail.map (readFrame v) = es.map (place v) := by
  have hk : ∃ f : Ep → Nat, ∀ e, frame c v e = frameLine v (f e) e ++ ['\n'] :=
    ⟨fun e => (frame_any c v e).choose, fun e => (frame_any c v e).choose_spec⟩
  obtain ⟨f, hf⟩ := hk
  have he : frames c v es = ((t "Func stack:" :: es.map fun e => frameLine v (f e) e).map (· ++ ['\n'])).flatten := by
    unfold frames
    rw [if_neg (by simpa using hne)]
    simp only [List.map_cons, List.flatten_cons, List.map_map, Function.comp_def]
    rw [show frame c v = fun e => frameLine v (f e) e ++ ['\n'] from funext hf]
    rfl
  rw [he, lines_flatten]
  · refine ⟨rfl, ?_⟩
    rw [List.tail_cons, List.map_map]
    exact List.map_congr_left fun e h => (frame_read v (f e) e (hp e h)).1
  · intro l hl
    rcases List.mem_cons.1 hl with rfl | hl
    · decide
    · obtain ⟨e, h, rfl⟩ := List.mem_map.1 hl
      exact (frame_read v (f e) e (hp e h)).2

/-! ### Witnesses -/

def exA : Ep := ⟨0xffffffff81000012, t "icmp_rcv", 0x12, t "net/ipv4/icmp.c", 1187, false⟩
def exB : Ep := ⟨0xffffffff81000404, t "ip_rcv_finish", 4, [], 0, false⟩

theorem exPlain : Plain exA ∧ Plain exB :=
  ⟨⟨by unfold exA t; decide +kernel, by unfold exA t; decide +kernel⟩, ⟨by unfold exB t; decide +kernel, by simp [exB]⟩⟩

/-- The list of three branches in two groups. -/
theorem branches_witness : (∀ g ∈ [[(exA, exB), (exB, exA)], [(exB, exB)]], g ≠ [] ∧ ∀ b ∈ g, Plain b.1 ∧ Plain b.2) ∧
    branches true false 32 [[(exA, exB), (exB, exA)], [(exB, exB)]] = t (
      "LBR stack:\n[#31] icmp_rcv+0x12     (net/ipv4/icmp.c:1187) -> ip_rcv_finish+0x4                       \n" ++
      "      ip_rcv_finish+0x4                        -> icmp_rcv+0x12     (net/ipv4/icmp.c:1187)\n" ++
      "[#30] ip_rcv_finish+0x4                        -> ip_rcv_finish+0x4                       \n") := by
  refine ⟨?_, by decide +kernel⟩
  intro g hg
  simp only [List.mem_cons, List.not_mem_nil, or_false] at hg
  rcases hg with rfl | rfl
  · refine ⟨by simp, fun b hb => ?_⟩
    simp only [List.mem_cons, List.not_mem_nil, or_false] at hb
    rcases hb with rfl | rfl
    · exact exPlain
    · exact exPlain.symm
  · refine ⟨by simp, fun b hb => ?_⟩
    rcases List.mem_singleton.1 hb with rfl
    exact ⟨exPlain.2, exPlain.2⟩

theorem frames_witness : (∀ e ∈ [exA, exB], Plain e) ∧ frames false true [exA, exB] = t (
    "Func stack:\n  0xffffffff81000012:icmp_rcv+0x12                                     \t; net/ipv4/icmp.c:1187\n" ++
    "  0xffffffff81000404:ip_rcv_finish+0x4                                 \n") := by
  refine ⟨fun e he => ?_, by decide +kernel⟩
  simp only [List.mem_cons, List.not_mem_nil, or_false] at he
  rcases he with rfl | rfl
  · exact exPlain.1
  · exact exPlain.2

end Bpfsnoop.Lt
