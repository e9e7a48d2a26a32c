import Verif.Model.Summary
import Verif.Spec.SummarySpec
import Verif.Props.Hist
import Verif.Props.Flame
import Verif.Props.OutText
import Verif.Props.SysText

/-
C81: what is written when tracing ends can be read back.
-/
namespace Bpfsnoop.Ht
open Rp (Text dec numeral digits_value)
open Pt (padLeft padRight)
open Ot (join t fields fields_word fields_sep)

/-! ### Words and lines -/

theorem words_spaces (k : Nat) (x : Text) : wordsOf (List.replicate k ' ' ++ x) = wordsOf x := by
  induction k with
  | zero => rfl
  | succ k ih =>
    rw [List.replicate_succ, List.cons_append, ← ih]
    simp [wordsOf, fields]

theorem words_cons (w x : Text) (hw : ' ' ∉ w) (hne : w ≠ []) : wordsOf (w ++ ' ' :: x) = w :: wordsOf x := by
  simp [wordsOf, fields_sep ' ' w x hw, hne]

theorem words_nil : wordsOf [] = [] := rfl

theorem words_pad (w x : Text) (n : Nat) (hw : ' ' ∉ w) (hne : w ≠ []) :
    wordsOf (padRight n w ++ ' ' :: x) = w :: wordsOf x := by
  unfold padRight
  cases h : n - w.length with
  | zero => simpa using words_cons w x hw hne
  | succ k =>
    rw [List.replicate_succ, List.append_assoc, List.cons_append, words_cons w _ hw hne,
      show List.replicate k ' ' ++ ' ' :: x = List.replicate k ' ' ++ (List.replicate 1 ' ' ++ x) from rfl,
      words_spaces, words_spaces]

theorem dec_not {c : Char} (hc : c.isDigit = false) (n : Nat) : c ∉ dec n := fun h => by
  rw [Rp.dec_digit h] at hc; exact absurd hc (by decide)

theorem dec_ne (n : Nat) : dec n ≠ [] := Nat.toDigits_ne_nil

theorem dec_val (n : Nat) : numeral 10 (dec n) = n := digits_value 10 (by omega) (by omega) n

theorem padLeft_length (n : Nat) (x : Text) (h : x.length ≤ n) : (padLeft n x).length = n := by
  simp [padLeft]; omega

theorem padRight_length (n : Nat) (x : Text) (h : x.length ≤ n) : (padRight n x).length = n := by
  simp [padRight]; omega

theorem padLeft_not {c : Char} (hc : c ≠ ' ') {n : Nat} {x : Text} (h : c ∉ x) : c ∉ padLeft n x := by
  simp only [padLeft, List.mem_append, List.mem_replicate, not_or]
  exact ⟨fun e => hc e.2, h⟩

theorem padRight_not {c : Char} (hc : c ≠ ' ') {n : Nat} {x : Text} (h : c ∉ x) : c ∉ padRight n x := by
  simp only [padRight, List.mem_append, List.mem_replicate, not_or]
  exact ⟨h, fun e => hc e.2⟩

theorem lines_flatten (ls : List Text) (h : ∀ l ∈ ls, '\n' ∉ l) :
    linesOf (ls.map (· ++ ['\n'])).flatten = ls := by
  have : ∀ ls : List Text, (∀ l ∈ ls, '\n' ∉ l) → fields '\n' (ls.map (· ++ ['\n'])).flatten = ls ++ [[]] := by
    intro ls
    induction ls with
    | nil => intro _; rfl
    | cons l ls ih =>
      intro h
      rw [List.map_cons, List.flatten_cons, List.append_assoc, List.singleton_append,
        fields_sep _ _ _ (h l (List.mem_cons_self ..)), ih (fun l hl => h l (List.mem_cons_of_mem _ hl))]
      rfl
  simp [linesOf, this ls h]

theorem takeWhile_stop {p : Char → Bool} (x : Text) (c : Char) (y : Text) (hx : ∀ d ∈ x, p d = true) (hc : p c = false) :
    (x ++ c :: y).takeWhile p = x := by
  induction x with
  | nil => simp [hc]
  | cons d x ih =>
    rw [List.cons_append, List.takeWhile_cons_of_pos (hx d (List.mem_cons_self ..)),
      ih (fun d hd => hx d (List.mem_cons_of_mem _ hd))]

/-! ### Bars -/

theorem stars_val (v m w : Nat) (hm : 0 < m) (hw : 0 < w) (hv : v ≤ m) (ho : m * w < 2 ^ 64) :
    Hist.printStars (BitVec.ofNat 64 v) (BitVec.ofNat 64 m) w = some (v * w / m, w - v * w / m, false) := by
  have h1 : m ≤ m * w := Nat.le_mul_of_pos_right m hw
  have h2 : w ≤ m * w := Nat.le_mul_of_pos_left w hm
  have h3 : v * w ≤ m * w := Nat.mul_le_mul_right w hv
  have hmn : (BitVec.ofNat 64 m).toNat = m := by rw [BitVec.toNat_ofNat, Nat.mod_eq_of_lt (by omega)]
  have hvn : (BitVec.ofNat 64 v).toNat = v := by rw [BitVec.toNat_ofNat, Nat.mod_eq_of_lt (by omega)]
  have hwn : (BitVec.ofNat 64 w).toNat = w := by rw [BitVec.toNat_ofNat, Nat.mod_eq_of_lt (by omega)]
  have h0 : BitVec.ofNat 64 m ≠ 0#64 := by
    intro e
    have := congrArg BitVec.toNat e
    rw [hmn] at this
    simp at this
    omega
  have hle : BitVec.ofNat 64 v ≤ BitVec.ofNat 64 m := by rw [BitVec.le_def, hmn, hvn]; exact hv
  have hq : (BitVec.ofNat 64 v * BitVec.ofNat 64 w / BitVec.ofNat 64 m).toNat = v * w / m := by
    rw [BitVec.toNat_udiv, BitVec.toNat_mul, hmn, hvn, hwn, Nat.mod_eq_of_lt (by omega)]
  have hb : v * w / m ≤ w := Nat.div_le_of_le_mul h3
  have hlt : ¬ BitVec.ofNat 64 m < BitVec.ofNat 64 v := by rw [BitVec.lt_def, hmn, hvn]; omega
  unfold Hist.printStars
  rw [if_neg h0, if_pos hle]
  dsimp only
  rw [hq, if_neg (by omega)]
  simp [hlt]

theorem bar_val (v m w : Nat) (hm : 0 < m) (hw : 0 < w) (hv : v ≤ m) (ho : m * w < 2 ^ 64) :
    bar v m w = some (List.replicate (v * w / m) '*' ++ List.replicate (w - v * w / m) ' ') := by
  simp [bar, stars_val v m w hm hw hv ho]

theorem valMax_fold (vals : List Nat) : ∀ m : Nat, (m ≤ vals.foldl (fun m v => if v > m then v else m) m ∧
    ∀ v ∈ vals, v ≤ vals.foldl (fun m v => if v > m then v else m) m) ∧
    (vals.foldl (fun m v => if v > m then v else m) m = m ∨ vals.foldl (fun m v => if v > m then v else m) m ∈ vals) := by
  induction vals with
  | nil => intro m; simp
  | cons x vals ih =>
    intro m
    obtain ⟨⟨h1, h2⟩, h3⟩ := ih (if x > m then x else m)
    simp only [List.foldl_cons, List.mem_cons]
    generalize hz : vals.foldl (fun m v => if v > m then v else m) (if x > m then x else m) = z at *
    refine ⟨⟨by split at h1 <;> omega, ?_⟩, ?_⟩
    · rintro v (rfl | hv)
      · split at h1 <;> omega
      · exact h2 v hv
    · rcases h3 with h3 | h3
      · split at h3
        · exact Or.inr (Or.inl h3)
        · exact Or.inl h3
      · exact Or.inr (Or.inr h3)

/-- The greatest count. -/
theorem valMax_max (vals : List Nat) (hne : vals ≠ []) :
    (∀ v ∈ vals, v ≤ Hist.valMax vals) ∧ Hist.valMax vals ∈ vals := by
  obtain ⟨⟨-, h2⟩, h3⟩ := valMax_fold vals 0
  refine ⟨h2, ?_⟩
  rcases h3 with h3 | h3
  · have : Hist.valMax vals = 0 := h3
    rw [this]
    cases vals with
    | nil => exact absurd rfl hne
    | cons x r =>
      have := h2 x (List.mem_cons_self ..)
      rw [h3] at this
      exact List.mem_cons.2 (Or.inl (by omega))
  · exact h3

theorem concatO_map {α : Type} (f : α → Option Text) (g : α → Text) (l : List α) (h : ∀ a ∈ l, f a = some (g a)) :
    concatO (l.map f) = some (l.map g).flatten := by
  induction l with
  | nil => rfl
  | cons a l ih =>
    rw [List.map_cons, h a (List.mem_cons_self ..), concatO, ih (fun a ha => h a (List.mem_cons_of_mem _ ha))]
    rfl

/-! ### Rows -/

/-- A row of a histogram without its line feed (proof device). -/
def row (w stars lo hi n m : Nat) : Text :=
  padLeft w (dec lo) ++ t " -> " ++ padRight w (dec hi) ++ t " : " ++ padRight 13 (dec n) ++ t " |" ++
    (List.replicate (n * stars / m) '*' ++ List.replicate (stars - n * stars / m) ' ') ++ t "|"

theorem filter_none {x : Text} (h : '*' ∉ x) : x.filter (· = '*') = [] := by
  rw [List.filter_eq_nil_iff]
  intro c hc e
  exact h (by rw [← of_decide_eq_true e]; exact hc)

theorem row_stars (w s lo hi n m : Nat) : stars (row w s lo hi n m) = n * s / m := by
  have hd : ∀ n, '*' ∉ dec n := dec_not (by decide)
  have h1 : '*' ∉ padLeft w (dec lo) ++ t " -> " ++ padRight w (dec hi) ++ t " : " ++ padRight 13 (dec n) ++ t " |" := by
    simp only [List.mem_append, not_or]
    exact ⟨⟨⟨⟨⟨padLeft_not (by decide) (hd _), by decide⟩, padRight_not (by decide) (hd _)⟩, by decide⟩,
      padRight_not (by decide) (hd _)⟩, by decide⟩
  unfold stars row
  rw [List.append_assoc, List.filter_append, filter_none h1, List.filter_append, List.filter_append]
  simp [t]

theorem row_reads (w s lo hi n m : Nat) : ReadsBucket (row w s lo hi n m) lo hi n := by
  have hd : ∀ n, '|' ∉ dec n := dec_not (by decide)
  have hs : ∀ n, ' ' ∉ dec n := dec_not (by decide)
  refine ⟨dec lo, dec hi, dec n, ?_, dec_val _, dec_val _, dec_val _⟩
  have h : row w s lo hi n m = (padLeft w (dec lo) ++ t " -> " ++ padRight w (dec hi) ++ t " : " ++ padRight 13 (dec n) ++ t " ") ++
      '|' :: ((List.replicate (n * s / m) '*' ++ List.replicate (s - n * s / m) ' ') ++ t "|") := by
    simp [row, t]
  rw [h, takeWhile_stop]
  · rw [show padLeft w (dec lo) ++ t " -> " ++ padRight w (dec hi) ++ t " : " ++ padRight 13 (dec n) ++ t " " =
        List.replicate (w - (dec lo).length) ' ' ++ (dec lo ++ ' ' :: (['-', '>'] ++ ' ' :: (padRight w (dec hi) ++
          ' ' :: ([':'] ++ ' ' :: (padRight 13 (dec n) ++ ' ' :: []))))) by simp [padLeft, t],
      words_spaces, words_cons _ _ (hs _) (dec_ne _), words_cons _ _ (by decide) (by decide), words_pad _ _ _ (hs _) (dec_ne _),
      words_cons _ _ (by decide) (by decide), words_pad _ _ _ (hs _) (dec_ne _), words_nil]
  · intro d hdm
    have hn : '|' ∉ padLeft w (dec lo) ++ t " -> " ++ padRight w (dec hi) ++ t " : " ++ padRight 13 (dec n) ++ t " " := by
      simp only [List.mem_append, not_or]
      exact ⟨⟨⟨⟨⟨padLeft_not (by decide) (hd _), by decide⟩, padRight_not (by decide) (hd _)⟩, by decide⟩,
        padRight_not (by decide) (hd _)⟩, by decide⟩
    exact decide_eq_true fun e => hn (e ▸ hdm)
  · decide

theorem row_line (w s lo hi n m : Nat) : '\n' ∉ row w s lo hi n m := by
  have hd : ∀ n, '\n' ∉ dec n := dec_not (by decide)
  simp only [row, List.mem_append, not_or, List.mem_replicate]
  exact ⟨⟨⟨⟨⟨⟨⟨padLeft_not (by decide) (hd _), by decide⟩, padRight_not (by decide) (hd _)⟩, by decide⟩,
    padRight_not (by decide) (hd _)⟩, by decide⟩, ⟨fun e => absurd e.2 (by decide), fun e => absurd e.2 (by decide)⟩⟩, by decide⟩

theorem row_length (w s lo hi n m : Nat) (h1 : lo < 10 ^ w) (h2 : hi < 10 ^ w) (hw : 0 < w) (h3 : n < 10 ^ 13) (hm : n ≤ m) :
    (row w s lo hi n m).length = 2 * w + s + 23 := by
  have a1 := Sf.toDigits_short lo w h1 hw
  have a2 := Sf.toDigits_short hi w h2 hw
  have a3 := Sf.toDigits_short n 13 h3 (by omega)
  have a4 : n * s / m ≤ s := Nat.div_le_of_le_mul (Nat.mul_le_mul_right s hm)
  simp only [row, List.length_append, padLeft_length w (dec lo) a1, padRight_length w (dec hi) a2, padRight_length 13 (dec n) a3,
    List.length_replicate]
  have : (t " -> ").length = 4 ∧ (t " : ").length = 3 ∧ (t " |").length = 2 ∧ (t "|").length = 1 := by decide
  omega

/-! ### Histogram -/

theorem idxMax_pos (vals : List Nat) : ∀ (s : Nat) (m : Int), Hist.idxMaxFrom vals s m = m ∨
    ∃ i, i < vals.length ∧ Hist.idxMaxFrom vals s m = ((s + i : Nat) : Int) ∧ 0 < vals.getD i 0 := by
  induction vals with
  | nil => intro s m; exact Or.inl rfl
  | cons v vs ih =>
    intro s m
    simp only [Hist.idxMaxFrom]
    rcases ih (s + 1) (if v > 0 then (s : Int) else m) with h | ⟨i, hi, he, hp⟩
    · by_cases hv : v > 0
      · rw [if_pos hv] at h
        exact Or.inr ⟨0, by simp, by rw [if_pos hv, h]; simp, by simpa using hv⟩
      · rw [if_neg hv] at h
        exact Or.inl (by rw [if_neg hv, h])
    · exact Or.inr ⟨i + 1, by simpa using hi, by rw [he]; omega, by simpa using hp⟩

theorem label_val (k : Nat) (hk : k < 63) : (Hist.label k).1.toNat = lowest k ∧ (Hist.label k).2.toNat = highest k := by
  have hl : ∀ j : Fin 63, (Hist.label j.val).1.toNat = (if j.val = 0 then 0 else 2 ^ j.val) ∧
      (Hist.label j.val).2.toNat = 2 ^ (j.val + 1) - 1 := by decide
  exact hl ⟨k, hk⟩

theorem samples_in (vs : List Nat) (h0 : ∀ v ∈ vs, v ≠ 0) (k : Nat) : Hist.samplesIn k vs = samples vs k := by
  apply List.countP_congr
  intro v hv
  have := h0 v hv
  have hp := Nat.two_pow_pos (k + 1)
  rw [decide_eq_true_eq, decide_eq_true_eq]
  unfold lowest highest
  by_cases hk : k = 0
  · subst hk; simp; omega
  · rw [if_neg hk]; omega

/-- C81 (partial: no sample is zero or 2^63 or more, at most 2^64/40 samples). The histogram printed for a sequence of samples: the
first line tells the expression and the number of samples; then the `k`-th line tells the `k`-th range and how many samples are in it;
every sample is in one of the ranges printed; the bars are in proportion to the counts, the longest being full; the lines are aligned. -/
theorem histogram_readback_partial (expr : Text) (xs : List (List UInt8 × Int)) (hne : xs ≠ [])
    (hnz : ∀ x ∈ xs, Hist.bytes2i x.1 x.2 ≠ 0#64) (h63 : ∀ x ∈ xs, (Hist.bytes2i x.1 x.2).toNat < 2 ^ 63)
    (hov : xs.length * 40 < 2 ^ 64) :
    let vs := xs.map fun x => (Hist.bytes2i x.1 x.2).toNat
    ∃ (h : Hist.Histogram) (d body : Text) (rows : List Text) (m w : Nat),
      Hist.newHistogram.addAll xs = some h ∧
      render expr h = some (t "Histogram for '" ++ expr ++ t "' (total " ++ d ++ t "):\n" ++ body) ∧ numeral 10 d = xs.length ∧
      linesOf body = rows ++ [[]] ∧
      (∀ (k : Nat) (x : Text), rows[k]? = some x → ReadsBucket x (lowest k) (highest k) (samples vs k)) ∧
      (∀ v ∈ vs, ∃ k, k < rows.length ∧ lowest k ≤ v ∧ v ≤ highest k) ∧
      (w = 20 ∨ w = 40) ∧ (∀ k, k < rows.length → samples vs k ≤ m) ∧ (∃ k, k < rows.length ∧ samples vs k = m) ∧
      (∀ (k : Nat) (x : Text), rows[k]? = some x → stars x = samples vs k * w / m) ∧
      (xs.length < 10 ^ 13 → ∀ x ∈ rows, ∀ y ∈ rows, x.length = y.length) := by
  intro vs
  obtain ⟨h, e, hlen, htot, hc⟩ := Hist.addAll_spec xs Hist.newHistogram (by simp [Hist.newHistogram]) hnz
  have hv0 : ∀ v ∈ vs, v ≠ 0 := by
    intro v hv
    obtain ⟨x, hx, rfl⟩ := List.mem_map.1 hv
    exact fun h => hnz x hx (BitVec.eq_of_toNat_eq (by simpa using h))
  have hv63 : ∀ v ∈ vs, v < 2 ^ 63 := by
    intro v hv
    obtain ⟨x, hx, rfl⟩ := List.mem_map.1 hv
    exact h63 x hx
  have hcnt : ∀ i, i < 64 → h.log2.getD i 0 = samples vs i := by
    intro i hi
    rw [hc i hi, samples_in vs hv0]
    have : Hist.newHistogram.log2.getD i 0 = 0 := by
      unfold Hist.newHistogram
      rw [List.getD_eq_getElem?_getD, List.getElem?_replicate, if_pos hi]; rfl
    omega
  have htot' : h.total = xs.length := by simpa [Hist.newHistogram] using htot
  have hle : ∀ k, samples vs k ≤ xs.length := fun k => by
    have := List.countP_le_length (p := fun v => decide (lowest k ≤ v ∧ v ≤ highest k)) (l := vs)
    simpa [samples, vs] using this
  -- where a sample is
  have hwhere : ∀ v ∈ vs, v.log2 < 63 ∧ lowest v.log2 ≤ v ∧ v ≤ highest v.log2 := by
    intro v hv
    have h1 := (Hist.mem_bucket_iff v v.log2 (hv0 v hv)).2 rfl
    refine ⟨(Nat.log2_lt (hv0 v hv)).2 (hv63 v hv), ?_, by unfold highest; omega⟩
    unfold lowest; split <;> omega
  have hpos : ∀ v ∈ vs, 0 < samples vs v.log2 := by
    intro v hv
    exact List.countP_pos_iff.2 ⟨v, hv, decide_eq_true (hwhere v hv).2⟩
  obtain ⟨hge, hbound⟩ : (∀ v ∈ vs, (v.log2 : Int) ≤ Hist.idxMaxFrom h.log2 0 (-1)) ∧ Hist.idxMaxFrom h.log2 0 (-1) < 63 := by
    obtain ⟨-, b, c⟩ := Hist.idxMaxFrom_ge h.log2 0 (-1) (by omega)
    refine ⟨?_, ?_⟩
    · intro v hv
      have := hwhere v hv
      have := b v.log2 (by omega) (by rw [hcnt _ (by omega)]; exact hpos v hv)
      simpa using this
    · rcases idxMax_pos h.log2 0 (-1) with hm | ⟨i, hi, he, hp⟩
      · omega
      · have hi63 : i ≠ 63 := by
          rintro rfl
          rw [hcnt 63 (by omega)] at hp
          obtain ⟨v, hv, hd⟩ := List.countP_pos_iff.1 hp
          have := hv63 v hv
          have hd := of_decide_eq_true hd
          have : lowest 63 = 2 ^ 63 := rfl
          omega
        omega
  obtain ⟨x0, hx0⟩ := List.exists_mem_of_ne_nil xs hne
  have hv0m : (Hist.bytes2i x0.1 x0.2).toNat ∈ vs := List.mem_map.2 ⟨x0, hx0, rfl⟩
  generalize hI : Hist.idxMaxFrom h.log2 0 (-1) = I at hge hbound
  have hI0 : 0 ≤ I := by have := hge _ hv0m; omega
  have hl2ne : h.log2 ≠ [] := by intro e; rw [e] at hlen; simp at hlen
  obtain ⟨hmax, hmem⟩ := valMax_max h.log2 hl2ne
  generalize hM : Hist.valMax h.log2 = m at hmax hmem
  have hgetle : ∀ i, i < 64 → samples vs i ≤ m := by
    intro i hi
    rw [← hcnt i hi]
    have h64 : i < h.log2.length := by omega
    rw [List.getD_eq_getElem?_getD, List.getElem?_eq_getElem h64]
    exact hmax _ (List.getElem_mem h64)
  obtain ⟨j, hj, hjm⟩ := List.mem_iff_getElem.1 hmem
  have hjs : samples vs j = m := by
    rw [← hcnt j (by omega), List.getD_eq_getElem?_getD, List.getElem?_eq_getElem hj]
    exact hjm
  have hm0 : 0 < m := by
    have := hpos _ hv0m
    have := hgetle _ (Nat.lt_trans (hwhere _ hv0m).1 (by omega))
    omega
  have hmx : m ≤ xs.length := by rw [← hjs]; exact hle j
  -- the lines
  have hline : ∀ (w s : Nat), 0 < s → s ≤ 40 → ∀ i ∈ Hist.printedLines h.log2,
      bucketLine w s h.log2 i = some (row w s (lowest i) (highest i) (samples vs i) m ++ ['\n']) := by
    intro w s hs hs40 i hi
    have hi63 : i < 63 := by
      simp only [Hist.printedLines, List.mem_range, hI] at hi; omega
    have hms : m * s ≤ xs.length * 40 := Nat.mul_le_mul hmx hs40
    unfold bucketLine
    rw [hM, hcnt i (by omega), bar_val _ _ _ hm0 hs (hgetle i (by omega)) (by omega), (label_val i hi63).1, (label_val i hi63).2]
    simp [row, t]
  have hjI : (j : Int) ≤ I := by
    obtain ⟨-, b, -⟩ := Hist.idxMaxFrom_ge h.log2 0 (-1) (by omega)
    have := b j hj (by rw [hcnt j (by omega), hjs]; exact hm0)
    rw [hI] at this
    simpa using this
  obtain ⟨w, s, hws, hlog⟩ : ∃ w s, ((w = 10 ∧ s = 40 ∧ I ≤ 32) ∨ (w = 20 ∧ s = 20)) ∧ log2hist h.log2 =
      some (((List.range (I + 1).toNat).map fun i => row w s (lowest i) (highest i) (samples vs i) m).map (· ++ ['\n'])).flatten := by
    unfold log2hist
    rw [hI, if_neg (by omega)]
    by_cases h32 : I ≤ 32
    · refine ⟨10, 40, Or.inl ⟨rfl, rfl, h32⟩, ?_⟩
      rw [if_pos h32, concatO_map _ _ _ (hline 10 40 (by omega) (by omega)), List.map_map, Hist.printedLines, hI]
      rfl
    · refine ⟨20, 20, Or.inr ⟨rfl, rfl⟩, ?_⟩
      rw [if_neg h32, concatO_map _ _ _ (hline 20 20 (by omega) (by omega)), List.map_map, Hist.printedLines, hI]
      rfl
  generalize hrows : ((List.range (I + 1).toNat).map fun i => row w s (lowest i) (highest i) (samples vs i) m) = rows at hlog
  have hrl : rows.length = (I + 1).toNat := by rw [← hrows]; simp
  have hrk : ∀ (k : Nat) (x : Text), rows[k]? = some x → k < (I + 1).toNat ∧ x = row w s (lowest k) (highest k) (samples vs k) m := by
    intro k x hx
    rw [← hrows, List.getElem?_map] at hx
    by_cases hk : k < (I + 1).toNat
    · rw [List.getElem?_range hk] at hx
      exact ⟨hk, (Option.some.inj hx).symm⟩
    · rw [List.getElem?_eq_none (by simpa using hk)] at hx
      exact absurd hx (by simp)
  refine ⟨h, dec xs.length, (rows.map (· ++ ['\n'])).flatten ++ t "\n", rows, m, s, e, ?_, dec_val _, ?_, ?_, ?_, ?_, ?_, ?_, ?_, ?_⟩
  · unfold render
    rw [if_neg (by rw [htot']; exact fun e => hne (List.eq_nil_of_length_eq_zero e)), hlog, htot']
    simp
  · have := lines_flatten (rows ++ [[]]) (by
      intro l hl
      rcases List.mem_append.1 hl with hl | hl
      · rw [← hrows] at hl
        obtain ⟨i, -, rfl⟩ := List.mem_map.1 hl
        exact row_line _ _ _ _ _ _
      · simp at hl; subst hl; simp)
    rw [List.map_append, List.flatten_append] at this
    simpa [t] using this
  · intro k x hx
    rw [(hrk k x hx).2]
    exact row_reads ..
  · intro v hv
    have := hwhere v hv
    have := hge v hv
    exact ⟨v.log2, by rw [hrl]; omega, by omega, by omega⟩
  · rcases hws with ⟨-, rfl, -⟩ | ⟨-, rfl⟩
    · exact Or.inr rfl
    · exact Or.inl rfl
  · intro k hk
    exact hgetle k (by omega)
  · exact ⟨j, by omega, hjs⟩
  · intro k x hx
    rw [(hrk k x hx).2]
    exact row_stars ..
  · intro h13
    have : ∀ x ∈ rows, x.length = 2 * w + s + 23 := by
      intro x hx
      rw [← hrows] at hx
      obtain ⟨i, hi, rfl⟩ := List.mem_map.1 hx
      rw [List.mem_range] at hi
      have hh : highest i < 10 ^ w ∧ lowest i < 10 ^ w ∧ 0 < w := by
        have hlo : lowest i ≤ highest i + 1 := by
          have := Nat.two_pow_pos i
          have e : 2 ^ (i + 1) = 2 ^ i * 2 := Nat.pow_succ 2 i
          unfold lowest highest
          split <;> omega
        rcases hws with ⟨rfl, -, h32⟩ | ⟨rfl, -⟩
        · have : 2 ^ (i + 1) ≤ 2 ^ 33 := Nat.pow_le_pow_right (by omega) (by omega)
          unfold highest at *
          omega
        · have : 2 ^ (i + 1) ≤ 2 ^ 63 := Nat.pow_le_pow_right (by omega) (by omega)
          unfold highest at *
          omega
      exact row_length w s _ _ _ _ hh.2.1 hh.1 hh.2.2 (Nat.lt_of_le_of_lt (hle i) h13) (hgetle i (by omega))
    intro x hx y hy
    rw [this x hx, this y hy]

/-! ### T-digest -/

/-- A row of a t-digest without its line feed (proof device). -/
def drow (mean n m : Nat) : Text :=
  padLeft 10 (dec mean) ++ t " : " ++ padRight 13 (dec n) ++ t " |" ++
    (List.replicate (n * 40 / m) '*' ++ List.replicate (40 - n * 40 / m) ' ') ++ t "|"

theorem drow_stars (mean n m : Nat) : stars (drow mean n m) = n * 40 / m := by
  have hd : ∀ n, '*' ∉ dec n := dec_not (by decide)
  have h1 : '*' ∉ padLeft 10 (dec mean) ++ t " : " ++ padRight 13 (dec n) ++ t " |" := by
    simp only [List.mem_append, not_or]
    exact ⟨⟨⟨padLeft_not (by decide) (hd _), by decide⟩, padRight_not (by decide) (hd _)⟩, by decide⟩
  unfold stars drow
  rw [List.append_assoc, List.filter_append, filter_none h1, List.filter_append, List.filter_append]
  simp [t]

theorem drow_reads (mean n m : Nat) : ReadsCentroid (drow mean n m) mean n := by
  have hd : ∀ n, '|' ∉ dec n := dec_not (by decide)
  have hs : ∀ n, ' ' ∉ dec n := dec_not (by decide)
  refine ⟨dec mean, dec n, ?_, dec_val _, dec_val _⟩
  have h : drow mean n m = (padLeft 10 (dec mean) ++ t " : " ++ padRight 13 (dec n) ++ t " ") ++
      '|' :: ((List.replicate (n * 40 / m) '*' ++ List.replicate (40 - n * 40 / m) ' ') ++ t "|") := by
    simp [drow, t]
  rw [h, takeWhile_stop]
  · rw [show padLeft 10 (dec mean) ++ t " : " ++ padRight 13 (dec n) ++ t " " =
        List.replicate (10 - (dec mean).length) ' ' ++ (dec mean ++ ' ' :: ([':'] ++ ' ' :: (padRight 13 (dec n) ++ ' ' :: []))) by
          simp [padLeft, t],
      words_spaces, words_cons _ _ (hs _) (dec_ne _), words_cons _ _ (by decide) (by decide), words_pad _ _ _ (hs _) (dec_ne _),
      words_nil]
  · intro d hdm
    have hn : '|' ∉ padLeft 10 (dec mean) ++ t " : " ++ padRight 13 (dec n) ++ t " " := by
      simp only [List.mem_append, not_or]
      exact ⟨⟨⟨padLeft_not (by decide) (hd _), by decide⟩, padRight_not (by decide) (hd _)⟩, by decide⟩
    exact decide_eq_true fun e => hn (e ▸ hdm)
  · decide

theorem drow_line (mean n m : Nat) : '\n' ∉ drow mean n m := by
  have hd : ∀ n, '\n' ∉ dec n := dec_not (by decide)
  simp only [drow, List.mem_append, not_or, List.mem_replicate]
  exact ⟨⟨⟨⟨⟨padLeft_not (by decide) (hd _), by decide⟩, padRight_not (by decide) (hd _)⟩, by decide⟩,
    ⟨fun e => absurd e.2 (by decide), fun e => absurd e.2 (by decide)⟩⟩, by decide⟩

theorem weight_filter (x : Nat) (cs : List (Nat × Nat)) : Hist.weight x (cs.filter fun p => p.2 ≠ 0) = Hist.weight x cs := by
  induction cs with
  | nil => rfl
  | cons c cs ih =>
    unfold Hist.weight at ih ⊢
    rw [List.filter_cons]
    split
    · rw [List.map_cons, List.map_cons, List.sum_cons, List.sum_cons, ih]
    · next h =>
      have : c.2 = 0 := by simpa using h
      rw [List.map_cons, List.sum_cons, ih, this]; simp

theorem weight_mem {x n : Nat} {l : List (Nat × Nat)} (h : (x, n) ∈ l) : n ≤ Hist.weight x l := by
  induction l with
  | nil => exact absurd h (by simp)
  | cons c l ih =>
    simp only [Hist.weight, List.map_cons, List.sum_cons] at ih ⊢
    rcases List.mem_cons.1 h with rfl | h
    · simp
    · have := ih h; omega

theorem weight_le (x : Nat) (l : List (Nat × Nat)) : Hist.weight x l ≤ (l.map Prod.snd).sum := by
  induction l with
  | nil => simp [Hist.weight]
  | cons c l ih =>
    simp only [Hist.weight, List.map_cons, List.sum_cons] at ih ⊢
    split <;> omega

theorem weight_pos {x : Nat} {l : List (Nat × Nat)} (h : 0 < Hist.weight x l) : ∃ n, (x, n) ∈ l ∧ 0 < n := by
  induction l with
  | nil => simp [Hist.weight] at h
  | cons c l ih =>
    simp only [Hist.weight, List.map_cons, List.sum_cons] at ih h
    by_cases hc : c.1 = x ∧ 0 < c.2
    · exact ⟨c.2, by rw [← hc.1]; exact List.mem_cons_self .., hc.2⟩
    · have : (if c.1 = x then c.2 else 0) = 0 := by split <;> omega
      rw [this] at h
      obtain ⟨n, hn, hp⟩ := ih (by omega)
      exact ⟨n, List.mem_cons_of_mem _ hn, hp⟩

/-- C81. The t-digest printed for the centroids of the library: the first line tells the expression and the number of samples; then each
line tells a value and how many samples it stands for; together the lines give every value the samples it has among the centroids, and
neighbouring lines tell different values; the bars are in proportion to the counts. -/
theorem digest_readback (expr : Text) (count : Nat) (cs : List (Nat × Nat)) (hc : count ≠ 0) (hne : ∃ p ∈ cs, p.2 ≠ 0)
    (hov : (cs.map Prod.snd).sum * 40 < 2 ^ 64) :
    ∃ (d body : Text) (rows : List Text) (ps : List (Nat × Nat)) (m : Nat),
      renderT expr count cs = some (t "T-Digest for '" ++ expr ++ t "' (total " ++ d ++ t "):\n" ++ body) ∧ numeral 10 d = count ∧
      linesOf body = rows ++ [[]] ∧ rows.length = ps.length ∧
      (∀ (k : Nat) (x : Text) (p : Nat × Nat), rows[k]? = some x → ps[k]? = some p → ReadsCentroid x p.1 p.2 ∧ stars x = p.2 * 40 / m) ∧
      (∀ mean, Hist.weight mean ps = Hist.weight mean cs) ∧ Hist.NoAdjDup (ps.map Prod.fst) ∧
      (∀ p ∈ ps, p.2 ≤ m) ∧ (∃ p ∈ ps, p.2 = m) := by
  have hfne : (cs.filter fun p => p.2 ≠ 0) ≠ [] := by
    obtain ⟨p, hp, h0⟩ := hne
    intro e
    have : p ∈ cs.filter fun p => p.2 ≠ 0 := List.mem_filter.2 ⟨hp, decide_eq_true h0⟩
    rw [e] at this
    exact absurd this (by simp)
  have hzip : ((cs.filter fun p => p.2 ≠ 0).map Prod.fst).zip ((cs.filter fun p => p.2 ≠ 0).map Prod.snd) =
      cs.filter fun p => p.2 ≠ 0 := by
    generalize (cs.filter fun p => p.2 ≠ 0) = l
    induction l with
    | nil => rfl
    | cons a l ih => simp [ih]
  obtain ⟨hw, hl, hadj⟩ := Hist.tdigest_merge_conserves ((cs.filter fun p => p.2 ≠ 0).map Prod.fst)
    ((cs.filter fun p => p.2 ≠ 0).map Prod.snd) (by simp) (by simpa using hfne)
  rw [hzip] at hw
  have hw' : ∀ mean, Hist.weight mean ((Hist.mergeCentroids ((cs.filter fun p => p.2 ≠ 0).map Prod.fst)
      ((cs.filter fun p => p.2 ≠ 0).map Prod.snd)).1.zip (Hist.mergeCentroids ((cs.filter fun p => p.2 ≠ 0).map Prod.fst)
      ((cs.filter fun p => p.2 ≠ 0).map Prod.snd)).2) = Hist.weight mean cs := fun mean => by rw [hw mean, weight_filter]
  clear hw
  generalize hr : Hist.mergeCentroids ((cs.filter fun p => p.2 ≠ 0).map Prod.fst) ((cs.filter fun p => p.2 ≠ 0).map Prod.snd) = r
    at hw' hl hadj
  have hfst : (r.1.zip r.2).map Prod.fst = r.1 := List.map_fst_zip (by omega)
  have hsnd : (r.1.zip r.2).map Prod.snd = r.2 := List.map_snd_zip (by omega)
  generalize hps : r.1.zip r.2 = ps at hw' hfst hsnd
  have hle : ∀ p ∈ ps, p.2 ≤ (cs.map Prod.snd).sum := by
    intro p hp
    have h1 := weight_mem (x := p.1) (n := p.2) hp
    have h2 := weight_le p.1 cs
    rw [hw'] at h1
    omega
  obtain ⟨q, hq, hq0⟩ : ∃ q ∈ ps, 0 < q.2 := by
    obtain ⟨p, hp, h0⟩ := hne
    have h1 := weight_mem (x := p.1) (n := p.2) hp
    rw [← hw'] at h1
    obtain ⟨n, hn, hp⟩ := weight_pos (x := p.1) (l := ps) (by omega)
    exact ⟨_, hn, hp⟩
  have hr2 : r.2 ≠ [] := by
    intro e
    rw [e] at hsnd
    rw [List.map_eq_nil_iff] at hsnd
    rw [hsnd] at hq
    exact absurd hq (by simp)
  obtain ⟨hmax, hmem⟩ := valMax_max r.2 hr2
  generalize hM : Hist.valMax r.2 = m at hmax hmem
  have hpm : ∀ p ∈ ps, p.2 ≤ m := fun p hp => hmax _ (by rw [← hsnd]; exact List.mem_map_of_mem hp)
  have hm0 : 0 < m := Nat.lt_of_lt_of_le hq0 (hpm q hq)
  obtain ⟨qm, hqm, hqe⟩ : ∃ p ∈ ps, p.2 = m := by
    rw [← hsnd] at hmem
    obtain ⟨p, hp, e⟩ := List.mem_map.1 hmem
    exact ⟨p, hp, e⟩
  have hms : m * 40 < 2 ^ 64 := by have := hle qm hqm; omega
  have hline : ∀ p ∈ ps, digestLine m p = some (drow p.1 p.2 m ++ ['\n']) := by
    intro p hp
    unfold digestLine
    rw [bar_val _ _ _ hm0 (by omega) (hpm p hp) hms]
    simp [drow, t]
  refine ⟨dec count, ((ps.map fun p => drow p.1 p.2 m).map (· ++ ['\n'])).flatten ++ t "\n", ps.map fun p => drow p.1 p.2 m, ps, m,
    ?_, dec_val _, ?_, by simp, ?_, hw', by rw [hfst]; exact hadj, hpm, ⟨qm, hqm, hqe⟩⟩
  · unfold renderT
    rw [if_neg hc]
    dsimp only
    rw [if_neg hfne, hr, hM, hps, concatO_map _ _ _ hline, List.map_map]
    simp [Function.comp_def]
  · have := lines_flatten ((ps.map fun p => drow p.1 p.2 m) ++ [[]]) (by
      intro l hl
      rcases List.mem_append.1 hl with hl | hl
      · obtain ⟨i, -, rfl⟩ := List.mem_map.1 hl
        exact drow_line _ _ _
      · simp at hl; subst hl; simp)
    rw [List.map_append, List.flatten_append] at this
    simpa [t] using this
  · intro k x p hx hp
    rw [List.getElem?_map, hp] at hx
    have : x = drow p.1 p.2 m := (Option.some.inj hx).symm
    rw [this]
    exact ⟨drow_reads .., drow_stars ..⟩

/-! ### Flame graph -/

theorem read_line (p : List String) (n : Int) (hp : p ≠ []) (hn : 0 < n) (hs : ∀ f ∈ p, ';' ∉ f.toList) :
    readFold (foldLine (p, n)) = (p.map String.toList, n.toNat) := by
  obtain ⟨k, rfl⟩ : ∃ k : Nat, n = k := ⟨n.toNat, by omega⟩
  have hd : ' ' ∉ dec k := dec_not (by decide) k
  have h : foldLine (p, (k : Int)) = join (t ";") (p.map String.toList) ++ ' ' :: dec k := by simp [foldLine, t, Rp.decI]
  have hr : (foldLine (p, (k : Int))).reverse = (dec k).reverse ++ ' ' :: (join (t ";") (p.map String.toList)).reverse := by
    rw [h]; simp
  have hall : ∀ d ∈ (dec k).reverse, decide (d ≠ ' ') = true := by
    intro d hdm
    exact decide_eq_true fun e => hd (by rw [← e]; exact List.mem_reverse.1 hdm)
  unfold readFold
  rw [hr, takeWhile_stop _ _ _ hall (by decide)]
  have hdrop : ((dec k).reverse ++ ' ' :: (join (t ";") (p.map String.toList)).reverse).dropWhile (fun c => decide (c ≠ ' ')) =
      ' ' :: (join (t ";") (p.map String.toList)).reverse := by
    generalize (dec k).reverse = l at hall
    induction l with
    | nil => simp
    | cons a l ih =>
      rw [List.cons_append, List.dropWhile_cons_of_pos (p := fun c => decide (c ≠ ' ')) (hall a (List.mem_cons_self ..)),
        ih (fun d hd => hall d (List.mem_cons_of_mem _ hd))]
  rw [hdrop]
  simp only [List.drop_succ_cons, List.drop_zero, List.reverse_reverse, dec_val]
  rw [show t ";" = [';'] from rfl, Ot.fields_join ';' _ (by simpa using hp) (by
    intro w hw
    obtain ⟨f, hf, rfl⟩ := List.mem_map.1 hw
    exact hs f hf)]
  rfl

theorem join_lines : ∀ ls : List Text, ls ≠ [] → join (t "\n") ls ++ t "\n" = (ls.map (· ++ ['\n'])).flatten
  | [], h => absurd rfl h
  | [x], _ => by simp [join, t]
  | x :: y :: r, _ => by
    have := join_lines (y :: r) (by simp)
    rw [join, List.append_assoc, List.append_assoc, this]
    simp [t]

theorem mem_join {c : Char} {sep : Text} : ∀ {ws : List Text}, c ∈ join sep ws → c ∈ sep ∨ ∃ w ∈ ws, c ∈ w := Ot.mem_join

theorem added_pos {p : List String} : ∀ {ss : List (List String × Int)}, Flame.added p ss ≠ 0 → ∃ s ∈ ss, s.1 = p
  | [], h => by simp [Flame.added] at h
  | s :: ss, h => by
    by_cases hs : s.1 = p
    · exact ⟨s, List.mem_cons_self .., hs⟩
    · have : Flame.added p ss ≠ 0 := by simpa [Flame.added, hs] using h
      obtain ⟨u, hu, e⟩ := added_pos this
      exact ⟨u, List.mem_cons_of_mem _ hu, e⟩

theorem added_nonneg {p : List String} : ∀ {ss : List (List String × Int)}, (∀ s ∈ ss, 0 < s.2) →
    0 ≤ Flame.added p ss ∧ (∀ s ∈ ss, s.1 = p → 0 < Flame.added p ss)
  | [], _ => by simp [Flame.added]
  | s :: ss, h => by
    obtain ⟨h1, h2⟩ := added_nonneg (p := p) (ss := ss) fun s hs => h s (List.mem_cons_of_mem _ hs)
    have h3 := h s (List.mem_cons_self ..)
    have he : Flame.added p (s :: ss) = (if s.1 = p then s.2 else 0) + Flame.added p ss := by simp [Flame.added]
    rw [he]
    refine ⟨by split <;> omega, ?_⟩
    intro u hu hp
    rcases List.mem_cons.1 hu with rfl | hu
    · rw [if_pos hp]; omega
    · have := h2 u hu hp
      split <;> omega

/-- C81 (partial: no function is called `root`; names contain neither semicolon nor line feed). The file written for the stacks of a
run can be read back: it lists every stack that was seen, once, with the number of times it was seen, and nothing else. -/
theorem flamegraph_readback_partial (ss : List (List String × Int)) (hpos : ∀ s ∈ ss, 0 < s.2) (hroot : ∀ s ∈ ss, "root" ∉ s.1)
    (hn : ∀ s ∈ ss, ∀ f ∈ s.1, ';' ∉ f.toList ∧ '\n' ∉ f.toList) (hne : ∃ s ∈ ss, s.1 ≠ []) (old : Option Text) :
    ∃ file, save (Flame.addAll Flame.newGraph ss) old true = (some file, false) ∧
      (∀ (p : List String) (n : Nat), (p.map String.toList, n) ∈ (linesOf file).map readFold ↔
        p ≠ [] ∧ (n : Int) = Flame.added p ss ∧ 0 < n) ∧
      (∀ x ∈ (linesOf file).map readFold, ∃ p : List String, x.1 = p.map String.toList) ∧
      (((linesOf file).map readFold).map Prod.fst).Nodup := by
  obtain ⟨hf, hnd, -⟩ := Flame.folded_exact_partial ss hpos hroot
  have hmem : ∀ p n, (p, n) ∈ (Flame.addAll Flame.newGraph ss).folded → p ≠ [] ∧ 0 < n ∧ ∀ f ∈ p, ';' ∉ f.toList ∧ '\n' ∉ f.toList := by
    intro p n h
    obtain ⟨h1, h2, h3⟩ := (hf p n).1 h
    obtain ⟨s, hs, rfl⟩ := added_pos (p := p) (ss := ss) (by omega)
    exact ⟨h1, h3, hn s hs⟩
  have hfne : (Flame.addAll Flame.newGraph ss).folded ≠ [] := by
    obtain ⟨s, hs, h0⟩ := hne
    intro e
    have := (hf s.1 (Flame.added s.1 ss)).2 ⟨h0, rfl, (added_nonneg hpos).2 s hs rfl⟩
    rw [e] at this
    exact absurd this (by simp)
  have hcne : (Flame.addAll Flame.newGraph ss).root.children ≠ [] := by
    intro e
    apply hfne
    unfold Flame.Graph.folded
    cases hr : (Flame.addAll Flame.newGraph ss).root with
    | mk n v c =>
      rw [hr] at e
      have hc : c = [] := e
      subst hc
      have inv := (Flame.addAll_inv ss Flame.newGraph [] Flame.newGraph_inv hpos hroot).name
      rw [hr] at inv
      have : n = "root" := inv
      subst this
      simp [Flame.traverse, Flame.traverseList]
  have hlines : linesOf (join (t "\n") ((Flame.addAll Flame.newGraph ss).folded.map foldLine) ++ t "\n") =
      (Flame.addAll Flame.newGraph ss).folded.map foldLine := by
    rw [join_lines _ (by simpa using hfne), lines_flatten]
    intro l hl
    obtain ⟨⟨p, n⟩, hp, rfl⟩ := List.mem_map.1 hl
    obtain ⟨h1, h2, h3⟩ := hmem p n hp
    obtain ⟨k, rfl⟩ : ∃ k : Nat, n = k := ⟨n.toNat, by omega⟩
    have hd : '\n' ∉ Rp.decI (k : Int) := dec_not (by decide) k
    intro hm
    rcases List.mem_append.1 hm with hm | hm
    · rcases List.mem_append.1 hm with hm | hm
      · rcases mem_join hm with hm | ⟨w, hw, hc⟩
        · exact absurd hm (by decide)
        · obtain ⟨f, hff, rfl⟩ := List.mem_map.1 hw
          exact (h3 f hff).2 hc
      · exact absurd hm (by decide)
    · exact hd hm
  have hread : (linesOf (join (t "\n") ((Flame.addAll Flame.newGraph ss).folded.map foldLine) ++ t "\n")).map readFold =
      (Flame.addAll Flame.newGraph ss).folded.map fun q => (q.1.map String.toList, q.2.toNat) := by
    rw [hlines, List.map_map]
    apply List.map_congr_left
    rintro ⟨p, n⟩ hp
    obtain ⟨h1, h2, h3⟩ := hmem p n hp
    exact read_line p n h1 h2 fun f hf => (h3 f hf).1
  have hinj : ∀ a b : List String, a.map String.toList = b.map String.toList → a = b := by
    intro a
    induction a with
    | nil => intro b h; cases b with
      | nil => rfl
      | cons => simp at h
    | cons x a ih =>
      intro b h
      cases b with
      | nil => simp at h
      | cons y b =>
        simp only [List.map_cons, List.cons.injEq] at h
        rw [String.toList_inj.1 h.1, ih b h.2]
  refine ⟨join (t "\n") ((Flame.addAll Flame.newGraph ss).folded.map foldLine) ++ t "\n", ?_, ?_, ?_, ?_⟩
  · unfold save
    rw [if_neg hcne, if_neg hfne]
    rfl
  · intro p n
    rw [hread, List.mem_map]
    constructor
    · rintro ⟨⟨q, k⟩, hq, e⟩
      obtain ⟨h1, h2, h3⟩ := (hf q k).1 hq
      simp only [Prod.mk.injEq] at e
      have := hinj _ _ e.1
      subst this
      exact ⟨h1, by omega, by omega⟩
    · rintro ⟨h1, h2, h3⟩
      exact ⟨(p, (n : Int)), (hf p n).2 ⟨h1, h2, by omega⟩, by simp⟩
  · intro x hx
    rw [hread] at hx
    obtain ⟨q, -, rfl⟩ := List.mem_map.1 hx
    exact ⟨q.1, rfl⟩
  · rw [hread, List.map_map]
    have : (Prod.fst ∘ fun q : List String × Int => (q.1.map String.toList, q.2.toNat)) = List.map String.toList ∘ Prod.fst := rfl
    rw [this, ← List.map_map]
    exact hnd.map _ fun a b hab e => hab (hinj a b e)

/-- C81. If the file cannot be written, it is left alone and an error is returned (which `Run` ignores). -/
theorem flamegraph_unwritable (g : Flame.Graph) (old : Option Text) (h : g.folded ≠ []) (hc : g.root.children ≠ []) :
    save g old false = (old, true) := by
  unfold save
  rw [if_neg hc, if_neg h]
  rfl

/-- C81. Nothing is printed for a histogram or t-digest without samples. -/
theorem nothing_printed (expr : Text) (cs : List (Nat × Nat)) :
    render expr Hist.newHistogram = some [] ∧ renderT expr 0 cs = some [] := ⟨rfl, rfl⟩

/-- C81, violated. A run that saw no stack leaves the file of an earlier run as it is: what is in the file are not the stacks of this
run. -/
theorem flamegraph_stale_violated (old : Text) :
    save (Flame.addAll Flame.newGraph []) (some old) true = (some old, false) ∧
    save (Flame.addAll Flame.newGraph [([], 1)]) (some old) true = (some old, false) := by
  constructor <;>
    simp [save, Flame.addAll, Flame.newGraph, Flame.Graph.addStack, Flame.Frame.children]

/-! ### Examples -/

example : ((Hist.newHistogram.addAll [([5], 1), ([4, 0], 2), ([1], 1)]).bind (render (t "len"))) = some (
    t "Histogram for 'len' (total 3):\n" ++
    t "         0 -> 1          : 1             |********************                    |\n" ++
    t "         2 -> 3          : 0             |                                        |\n" ++
    t "         4 -> 7          : 2             |****************************************|\n\n") := by decide +kernel

example : (∀ x ∈ [([5], 1), ([4, 0], 2), ([1], 1)], Hist.bytes2i x.1 x.2 ≠ 0#64 ∧ (Hist.bytes2i x.1 x.2).toNat < 2 ^ 63) ∧
    [([5], 1), ([4, 0], 2), (([1] : List UInt8), (1 : Int))].length * 40 < 2 ^ 64 := by decide

example : renderT (t "len") 5 [(3, 1), (3, 2), (9, 2)] = some (t "T-Digest for 'len' (total 5):\n" ++
    t "         3 : 3             |****************************************|\n" ++
    t "         9 : 2             |**************************              |\n\n") := by decide +kernel

/-- The hypotheses of `flamegraph_readback_partial` are met by two stacks seen once and twice. -/
example : let ss : List (List String × Int) := [(["a", "b"], 1), (["a"], 1), (["a", "b"], 1)]
    (∀ s ∈ ss, 0 < s.2) ∧ (∀ s ∈ ss, "root" ∉ s.1) ∧ (∀ s ∈ ss, ∀ f ∈ s.1, ';' ∉ f.toList ∧ '\n' ∉ f.toList) ∧
    (∃ s ∈ ss, s.1 ≠ []) ∧ Flame.added ["a", "b"] ss = 2 := by decide

example : [foldLine (["a"], 1), foldLine (["a", "b"], 2)].map readFold =
    [([['a']], 1), ([['a'], ['b']], 2)] := by decide +kernel

end Bpfsnoop.Ht
