import Verif.Model.Hist
/-
C25 C26: histograms, bars, t-digest rendering.
-/
namespace Bpfsnoop.Hist

/-! ## Specification -/

/-- Little-endian value of a byte string (specification). -/
def leNat : List UInt8 → Nat
  | [] => 0
  | b :: bs => b.toNat + 256 * leNat bs

/-- The number of samples of `vs` whose value lies in `[2^i, 2^(i+1))` (specification). -/
def samplesIn (i : Nat) (vs : List Nat) : Nat :=
  vs.countP (fun v => decide (2 ^ i ≤ v ∧ v < 2 ^ (i + 1)))

/-! ## Decoding of a sample -/

theorem leNat_lt (bs : List UInt8) : leNat bs < 2 ^ (8 * bs.length) := by
  induction bs with
  | nil => simp [leNat]
  | cons b bs ih =>
    have := b.toNat_lt
    simp only [leNat, List.length_cons]
    have e : 2 ^ (8 * (bs.length + 1)) = 256 * 2 ^ (8 * bs.length) := by
      rw [Nat.mul_add, Nat.pow_add]; omega
    rw [e]; omega

theorem bytes2iLoop_toNat (bs : List UInt8) : ∀ (i : Nat) (v : BitVec 64),
    i + bs.length ≤ 8 → v.toNat < 2 ^ (8 * i) →
    (bytes2iLoop bs i v).toNat = v.toNat + 2 ^ (8 * i) * leNat bs := by
  induction bs with
  | nil => intro i v _ _; simp [bytes2iLoop, leNat]
  | cons b bs ih =>
    intro i v hlen hv
    simp only [List.length_cons] at hlen
    have hb := b.toNat_lt
    have e8 : 2 ^ (8 * (i + 1)) = 256 * 2 ^ (8 * i) := by
      rw [Nat.mul_add, Nat.pow_add]; omega
    have hle : 2 ^ (8 * (i + 1)) ≤ 2 ^ 64 := Nat.pow_le_pow_right (by decide) (by omega)
    have hsh : (b.toBitVec.zeroExtend 64 <<< (8 * i)).toNat = 2 ^ (8 * i) * b.toNat := by
      rw [BitVec.toNat_shiftLeft, BitVec.zeroExtend, BitVec.toNat_setWidth, UInt8.toNat_toBitVec,
        Nat.shiftLeft_eq, Nat.mod_eq_of_lt (show b.toNat < 2 ^ 64 by omega), Nat.mul_comm]
      apply Nat.mod_eq_of_lt
      have : 2 ^ (8 * i) * b.toNat < 2 ^ (8 * i) * 256 :=
        (Nat.mul_lt_mul_left (Nat.two_pow_pos _)).2 (by omega)
      omega
    have hor : (v ||| (b.toBitVec.zeroExtend 64 <<< (8 * i))).toNat = v.toNat + 2 ^ (8 * i) * b.toNat := by
      rw [BitVec.toNat_or, hsh, Nat.or_comm, Nat.mul_comm, ← Nat.shiftLeft_eq,
        ← Nat.shiftLeft_add_eq_or_of_lt hv, Nat.shiftLeft_eq]
      omega
    rw [bytes2iLoop, ih (i + 1) _ (by omega), hor]
    · simp only [leNat]; rw [e8, Nat.mul_add]
      have : 256 * 2 ^ (8 * i) * leNat bs = 2 ^ (8 * i) * (256 * leNat bs) := by
        rw [Nat.mul_comm 256, Nat.mul_assoc]
      omega
    · rw [hor, e8]
      have : 2 ^ (8 * i) * b.toNat ≤ 2 ^ (8 * i) * 255 := Nat.mul_le_mul_left _ (by omega)
      omega

/-- The value of a sample of at most 8 bytes is the little-endian value of its first `size` bytes. -/
theorem bytes2i_le (b : List UInt8) (size : Nat) (h0 : 0 < size) (h8 : size ≤ 8) (hl : size ≤ b.length) :
    (bytes2i b size).toNat = leNat (b.take size) := by
  unfold bytes2i
  rw [if_neg (by omega), Int.toNat_natCast, bytes2iLoop_toNat _ 0 0#64 (by simp; omega) (by simp)]
  simp

example : (bytes2i [0x34, 0x12, 0xff] 2).toNat = 0x1234 := by decide

/-! ## Buckets -/

theorem i2h_pos (v : BitVec 64) (hv : v ≠ 0#64) :
    i2h v = (v.toNat.log2 : Int) ∧ v.toNat.log2 < 64 := by
  have hne : v.toNat ≠ 0 := fun h => hv (BitVec.eq_of_toNat_eq (by simpa using h))
  have hlt : v.toNat.log2 < 64 := (Nat.log2_lt hne).2 v.isLt
  constructor
  · unfold i2h leadingZeros64; rw [if_neg hv]; omega
  · exact hlt

theorem add_nonzero (h : Histogram) (hl : h.log2.length = 64) (d : List UInt8) (s : Int)
    (hv : bytes2i d s ≠ 0#64) :
    h.add d s = some
      { log2 := h.log2.set (bytes2i d s).toNat.log2 (h.log2.getD (bytes2i d s).toNat.log2 0 + 1)
        total := h.total + 1 } := by
  obtain ⟨h1, h2⟩ := i2h_pos _ hv
  simp only [Histogram.add, h1, hl, Int.toNat_natCast]
  rw [if_neg (by omega)]

theorem mem_bucket_iff (v i : Nat) (hv : v ≠ 0) : (2 ^ i ≤ v ∧ v < 2 ^ (i + 1)) ↔ v.log2 = i := by
  rw [← Nat.le_log2 hv, ← Nat.log2_lt hv]; omega

theorem addAll_spec (xs : List (List UInt8 × Int)) :
    ∀ (h : Histogram), h.log2.length = 64 → (∀ x ∈ xs, bytes2i x.1 x.2 ≠ 0#64) →
    ∃ h', h.addAll xs = some h' ∧ h'.log2.length = 64 ∧ h'.total = h.total + xs.length ∧
      ∀ i, i < 64 → h'.log2.getD i 0 =
        h.log2.getD i 0 + samplesIn i (xs.map (fun x => (bytes2i x.1 x.2).toNat)) := by
  induction xs with
  | nil => intro h hl _; exact ⟨h, rfl, hl, rfl, by simp [samplesIn]⟩
  | cons x xs ih =>
    intro h hl hx
    have hv := hx x (List.mem_cons_self)
    have hadd := add_nonzero h hl x.1 x.2 hv
    obtain ⟨-, h64⟩ := i2h_pos _ hv
    obtain ⟨h', e, l', t', c'⟩ := ih
      { log2 := h.log2.set (bytes2i x.1 x.2).toNat.log2 (h.log2.getD (bytes2i x.1 x.2).toNat.log2 0 + 1)
        total := h.total + 1 } (by simpa using hl) (fun y hy => hx y (List.mem_cons_of_mem _ hy))
    refine ⟨h', ?_, l', ?_, ?_⟩
    · simp only [Histogram.addAll, hadd, Option.bind_some]; exact e
    · rw [t']; simp; omega
    · intro i hi
      rw [c' i hi]
      have hne : (bytes2i x.1 x.2).toNat ≠ 0 := fun h => hv (BitVec.eq_of_toNat_eq (by simpa using h))
      have hcount : samplesIn i ((x :: xs).map (fun x => (bytes2i x.1 x.2).toNat)) =
          samplesIn i (xs.map (fun x => (bytes2i x.1 x.2).toNat)) +
            if (bytes2i x.1 x.2).toNat.log2 = i then 1 else 0 := by
        unfold samplesIn
        rw [List.map_cons, List.countP_cons]
        simp only [decide_eq_true_eq, mem_bucket_iff _ i hne]
      rw [hcount]
      simp only [List.getD_eq_getElem?_getD, List.getElem?_set]
      split
      · next he => subst he; simp [hl, h64]; omega
      · next he => simp

/-- C25 (partial: no sample is zero). After any sequence of non-zero samples no run-time panic has occurred,
the total is the number of samples, and bucket `i` counts exactly the samples in `[2^i, 2^(i+1))`. -/
theorem histogram_counts_partial (xs : List (List UInt8 × Int)) (hnz : ∀ x ∈ xs, bytes2i x.1 x.2 ≠ 0#64) :
    ∃ h, newHistogram.addAll xs = some h ∧ h.total = xs.length ∧
      ∀ i, i < 64 → h.log2.getD i 0 = samplesIn i (xs.map (fun x => (bytes2i x.1 x.2).toNat)) := by
  obtain ⟨h, e, -, t, c⟩ := addAll_spec xs newHistogram (by simp [newHistogram]) hnz
  refine ⟨h, e, by simpa [newHistogram] using t, ?_⟩
  intro i hi
  rw [c i hi]
  have : newHistogram.log2.getD i 0 = 0 := by
    unfold newHistogram
    rw [List.getD_eq_getElem?_getD, List.getElem?_replicate, if_pos hi]; rfl
  omega

example : ∃ h, newHistogram.addAll [([5], 1), ([4, 0], 2), ([1], 1)] = some h ∧ h.total = 3 ∧
    h.log2.getD 2 0 = 2 ∧ h.log2.getD 0 0 = 1 := by
  refine ⟨_, rfl, ?_⟩; decide

/-- C25 violated: a sample equal to zero (a perfectly ordinary value of `hist(arg)`) makes `add` index the
array at -1, i.e. panic — for every histogram state and every such sample. -/
theorem histogram_zero_panics_violated (h : Histogram) (d : List UInt8) (s : Int)
    (hz : bytes2i d s = 0#64) : h.add d s = none := by
  simp [Histogram.add, hz, i2h, leadingZeros64]

example : bytes2i [0, 0, 0, 0] 4 = 0#64 := by decide

/-- C25, labels (partial: values below `2^63`). The label printed for the bucket a sample falls into contains
the sample, and no other bucket's label does. -/
theorem label_correct_partial (v : BitVec 64) (hv : v ≠ 0#64) (h63 : v.toNat < 2 ^ 63) (j : Nat) (hj : j < 63) :
    ((label j).1 ≤ v ∧ v ≤ (label j).2) ↔ i2h v = j := by
  obtain ⟨h1, -⟩ := i2h_pos v hv
  have hne : v.toNat ≠ 0 := fun h => hv (BitVec.eq_of_toNat_eq (by simpa using h))
  have hl : ∀ j : Fin 63, (label j.val).1.toNat = (if j.val = 0 then 0 else 2 ^ j.val) ∧
      (label j.val).2.toNat = 2 ^ (j.val + 1) - 1 := by decide
  obtain ⟨l1, l2⟩ := hl ⟨j, hj⟩
  simp only at l1 l2
  rw [h1, BitVec.le_def, BitVec.le_def, l1, l2]
  have key := mem_bucket_iff v.toNat j hne
  have hp := Nat.two_pow_pos (j + 1)
  split
  · next h0 => subst h0; simp at key ⊢; omega
  · omega

example : (label 3).1 = 8#64 ∧ (label 3).2 = 15#64 := by decide

/-- C25 violated for the last bucket: it is labelled `0 -> 2^64-1`. -/
theorem label_last_violated : label 63 = (0#64, 0xFFFFFFFFFFFFFFFF#64) := by decide

theorem idxMaxFrom_ge (vals : List Nat) : ∀ (s : Nat) (m : Int), m < s →
    (m ≤ idxMaxFrom vals s m) ∧
    (∀ i, i < vals.length → 0 < vals.getD i 0 → ((s + i : Nat) : Int) ≤ idxMaxFrom vals s m) ∧
    idxMaxFrom vals s m < s + vals.length := by
  induction vals with
  | nil => intro s m h; simp [idxMaxFrom, h]
  | cons v vs ih =>
    intro s m h
    simp only [idxMaxFrom]
    obtain ⟨a, b, c⟩ := ih (s + 1) (if v > 0 then (s : Int) else m) (by split <;> omega)
    refine ⟨by split at a <;> (split <;> omega), ?_, by simp only [List.length_cons]; omega⟩
    intro i hi hp
    cases i with
    | zero =>
      simp at hp
      rw [if_pos hp] at a ⊢
      simpa using a
    | succ i =>
      have := b i (by simpa using hi) (by simpa using hp)
      omega

/-- C25, rendering: every bucket with a positive count has a line, lines are in increasing order without
repetition, and no line is printed for an index outside the array. -/
theorem printed_lines_complete (vals : List Nat) :
    (∀ i, i < vals.length → 0 < vals.getD i 0 → i ∈ printedLines vals) ∧
    (printedLines vals).Nodup ∧ (∀ i ∈ printedLines vals, i < vals.length) := by
  obtain ⟨-, b, c⟩ := idxMaxFrom_ge vals 0 (-1) (by omega)
  refine ⟨?_, List.nodup_range, ?_⟩
  · intro i hi hp
    have := b i hi hp
    simp only [printedLines, List.mem_range]; omega
  · intro i hi
    simp only [printedLines, List.mem_range] at hi; omega

example : printedLines [0, 3, 0, 1, 0] = [0, 1, 2, 3] := by decide

/-! ## C26: bars -/

/-- C26. Whenever the maximum is not zero the bar is drawn without panic, is exactly `width` characters wide
(stars plus spaces), and a `+` is appended exactly when the value exceeds the maximum — for every 64-bit
value, also when the 64-bit product overflows. -/
theorem bar_width (val maxVal : BitVec 64) (width : Nat) (hw : width < 2 ^ 64) (hm : maxVal ≠ 0#64) :
    ∃ stars spaces plus, printStars val maxVal width = some (stars, spaces, plus) ∧
      stars + spaces = width ∧ (plus = true ↔ maxVal < val) := by
  have hpos : 0 < maxVal.toNat := by
    rcases Nat.eq_zero_or_pos maxVal.toNat with h | h
    · exact absurd (BitVec.eq_of_toNat_eq (by simpa using h)) hm
    · exact h
  have hle : ∀ m : BitVec 64, m ≤ maxVal → ((m * BitVec.ofNat 64 width) / maxVal).toNat ≤ width := by
    intro m hmle
    rw [BitVec.toNat_udiv, BitVec.toNat_mul, BitVec.toNat_ofNat, Nat.mod_eq_of_lt hw]
    apply Nat.div_le_of_le_mul
    calc m.toNat * width % 2 ^ 64 ≤ m.toNat * width := Nat.mod_le _ _
      _ ≤ maxVal.toNat * width := Nat.mul_le_mul_right _ (BitVec.le_def.1 hmle)
  unfold printStars
  rw [if_neg hm]
  have h := hle (if val ≤ maxVal then val else maxVal) (by
    split
    · assumption
    · exact BitVec.le_refl _)
  simp only
  rw [if_neg (by omega)]
  exact ⟨_, _, _, rfl, by omega, by simp⟩

example : printStars 3#64 4#64 40 = some (30, 10, false) := by decide

/-- C26, monotone (partial: counts for which `maxVal * width` does not overflow 64 bits): a larger count
never has fewer stars. -/
theorem bar_monotone_partial (a b maxVal : BitVec 64) (width : Nat)
    (hov : maxVal.toNat * width < 2 ^ 64) (hm : maxVal ≠ 0#64) (hab : a ≤ b)
    (sa sb spa spb : Nat) (pa pb : Bool)
    (ha : printStars a maxVal width = some (sa, spa, pa))
    (hb : printStars b maxVal width = some (sb, spb, pb)) : sa ≤ sb := by
  have hpos : 0 < maxVal.toNat := by
    rcases Nat.eq_zero_or_pos maxVal.toNat with h | h
    · exact absurd (BitVec.eq_of_toNat_eq (by simpa using h)) hm
    · exact h
  have hw : width < 2 ^ 64 := by
    have : 1 * width ≤ maxVal.toNat * width := Nat.mul_le_mul_right _ hpos
    omega
  have hval : ∀ x : BitVec 64, x ≤ maxVal →
      ((x * BitVec.ofNat 64 width) / maxVal).toNat = x.toNat * width / maxVal.toNat := by
    intro x hx
    have : x.toNat * width ≤ maxVal.toNat * width := Nat.mul_le_mul_right _ (BitVec.le_def.1 hx)
    rw [BitVec.toNat_udiv, BitVec.toNat_mul, BitVec.toNat_ofNat, Nat.mod_eq_of_lt hw,
      Nat.mod_eq_of_lt (by omega)]
  have hmin : ∀ x : BitVec 64, (if x ≤ maxVal then x else maxVal) ≤ maxVal := by
    intro x; split
    · assumption
    · exact BitVec.le_refl _
  have hmn : (if a ≤ maxVal then a else maxVal).toNat ≤ (if b ≤ maxVal then b else maxVal).toNat := by
    rw [BitVec.le_def] at hab
    split <;> split <;> simp_all [BitVec.le_def] <;> omega
  have hget : ∀ (x : BitVec 64) (a b : Nat) (c : Bool), printStars x maxVal width = some (a, b, c) →
      a = ((if x ≤ maxVal then x else maxVal) * BitVec.ofNat 64 width / maxVal).toNat := by
    intro x a b c h
    unfold printStars at h
    rw [if_neg hm] at h
    dsimp only at h
    by_cases hgt : ((if x ≤ maxVal then x else maxVal) * BitVec.ofNat 64 width / maxVal).toNat > width
    · rw [if_pos hgt] at h; exact absurd h (by simp)
    · rw [if_neg hgt] at h
      injection h with h; injection h with h1 h2; exact h1.symm
  rw [hget a _ _ _ ha, hget b _ _ _ hb, hval _ (hmin a), hval _ (hmin b)]
  exact Nat.div_le_div_right (Nat.mul_le_mul_right _ hmn)

example : (1000#64).toNat * 40 < 2 ^ 64 ∧ (1000#64) ≠ 0#64 ∧ (3#64 : BitVec 64) ≤ 700#64 := by decide

/-- C26: monotonicity fails once the 64-bit product overflows: with a maximum of 2^59 samples, the bucket
holding the maximum gets 8 stars out of 40 and a bucket with half of that gets 20. -/
theorem bar_monotone_overflow_violated :
    ∃ a b maxVal sa sb spa spb pa pb, a ≤ b ∧ printStars a maxVal 40 = some (sa, spa, pa) ∧
      printStars b maxVal 40 = some (sb, spb, pb) ∧ sb < sa :=
  ⟨0x0400000000000000#64, 0x0800000000000000#64, 0x0800000000000000#64, 20, 8, 20, 32, false, false, by decide⟩

/-! ## t-digest rendering -/

/-- Total count attributed to mean `x` in a list of centroids (specification). -/
def weight (x : Nat) (l : List (Nat × Nat)) : Nat :=
  (l.map (fun p => if p.1 = x then p.2 else 0)).sum

/-- No two neighbouring entries are equal (specification). -/
def NoAdjDup : List Nat → Prop
  | a :: b :: rest => a ≠ b ∧ NoAdjDup (b :: rest)
  | _ => True


/-- The run-length grouping of centroids, as a left fold that keeps the groups so far in reverse order
(proof device). -/
def pushRun (acc : List (Nat × Nat)) (p : Nat × Nat) : List (Nat × Nat) :=
  match acc with
  | [] => [p]
  | q :: t => if q.1 = p.1 then (q.1, q.2 + p.2) :: t else p :: q :: t

/-- Loop invariant after processing the first `n` centroids `done`. -/
structure MergeInv (ms cs : List Nat) (n : Nat) (s : MergeSt) : Prop where
  lm : s.means.length = ms.length
  lc : s.counts.length = ms.length
  jn : s.j < n
  nl : n ≤ ms.length
  restm : ∀ k, n - 1 ≤ k → s.means.getD k 0 = ms.getD k 0
  restc : ∀ k, n ≤ k → s.counts.getD k 0 = cs.getD k 0
  jm : s.means.getD s.j 0 = ms.getD (n - 1) 0
  grp : (s.means.take (s.j + 1)).zip (s.counts.take (s.j + 1)) =
    (((ms.zip cs).take n).foldl pushRun []).reverse

theorem take_set_zip (m c : List Nat) (j a b : Nat) (hm : j < m.length) (hc : j < c.length) :
    ((m.set j a).take (j + 1)).zip ((c.set j b).take (j + 1)) = (m.take j).zip (c.take j) ++ [(a, b)] := by
  have h1 : (m.set j a).take (j + 1) = m.take j ++ [a] := by
    rw [List.take_add_one, List.take_set_of_le (Nat.le_refl _)]; simp [hm]
  have h2 : (c.set j b).take (j + 1) = c.take j ++ [b] := by
    rw [List.take_add_one, List.take_set_of_le (Nat.le_refl _)]; simp [hc]
  rw [h1, h2, List.zip_append (by simp; omega)]; rfl

theorem take_zip_succ (m c : List Nat) (j : Nat) (hm : j < m.length) (hc : j < c.length) :
    (m.take (j + 1)).zip (c.take (j + 1)) = (m.take j).zip (c.take j) ++ [(m.getD j 0, c.getD j 0)] := by
  have := take_set_zip m c j (m.getD j 0) (c.getD j 0) hm hc
  have e1 : m.set j (m.getD j 0) = m := by
    apply List.ext_getElem <;> simp
    intro i h1 h2; rw [List.getElem_set]; split
    · next h => subst h; simp [h2]
    · rfl
  have e2 : c.set j (c.getD j 0) = c := by
    apply List.ext_getElem <;> simp
    intro i h1 h2; rw [List.getElem_set]; split
    · next h => subst h; simp [h2]
    · rfl
  rw [e1, e2] at this
  exact this

theorem mergeInv_step (ms cs : List Nat) (hl : ms.length = cs.length) (n : Nat) (hn : 1 ≤ n) (hlt : n < ms.length)
    (s : MergeSt) (h : MergeInv ms cs n s) : MergeInv ms cs (n + 1) (mergeStep s n) := by
  obtain ⟨lm, lc, jn, nl, restm, restc, jm, grp⟩ := h
  have hp : (ms.zip cs).take (n + 1) = (ms.zip cs).take n ++ [(ms.getD n 0, cs.getD n 0)] := by
    rw [List.take_add_one]
    have : (ms.zip cs)[n]? = some (ms.getD n 0, cs.getD n 0) := by
      have hc : n < cs.length := by omega
      simp [List.zip, List.getElem?_zipWith, hlt, hc]
    rw [this]; rfl
  have hz := take_zip_succ s.means s.counts s.j (by omega) (by omega)
  rw [hz] at grp
  have grp' : ((ms.zip cs).take n).foldl pushRun [] =
      (s.means.getD s.j 0, s.counts.getD s.j 0) :: ((s.means.take s.j).zip (s.counts.take s.j)).reverse := by
    have := congrArg List.reverse grp
    simpa using this.symm
  have ei1 : s.means.getD (n - 1) 0 = ms.getD (n - 1) 0 := restm _ (Nat.le_refl _)
  have ei : s.means.getD n 0 = ms.getD n 0 := restm _ (by omega)
  have eci : s.counts.getD n 0 = cs.getD n 0 := restc _ (Nat.le_refl _)
  unfold mergeStep
  rw [ei1, ei, eci]
  by_cases he : ms.getD (n - 1) 0 = ms.getD n 0
  · rw [if_pos he]
    constructor
    · exact lm
    · simpa using lc
    · show s.j < n + 1; omega
    · exact hlt
    · intro k hk; exact restm k (by omega)
    · intro k hk
      simp only
      rw [List.getD_eq_getElem?_getD, List.getElem?_set]
      rw [if_neg (by omega), ← List.getD_eq_getElem?_getD]; exact restc k (by omega)
    · show s.means.getD s.j 0 = ms.getD n 0
      rw [jm, he]
    · rw [hp, List.foldl_append, grp', List.foldl_cons, List.foldl_nil, pushRun, if_pos (by rw [jm, he])]
      have hs : s.means = s.means.set s.j (s.means.getD s.j 0) := by
        apply List.ext_getElem <;> simp
        intro i h1 _; rw [List.getElem_set]; split
        · next h => subst h; simp [h1]
        · rfl
      simp only
      conv => lhs; rw [hs]
      rw [take_set_zip _ _ _ _ _ (by omega) (by omega)]
      simp
  · rw [if_neg he]
    have hj1 : s.j + 1 < s.means.length := by omega
    have hj2 : s.j + 1 < s.counts.length := by omega
    constructor
    · simpa using lm
    · simpa using lc
    · show s.j + 1 < n + 1; omega
    · exact hlt
    · intro k hk
      simp only
      rw [List.getD_eq_getElem?_getD, List.getElem?_set]
      split
      · next h =>
        subst h
        have e : n = s.j + 1 := by omega
        rw [e]; try simp
      · rw [← List.getD_eq_getElem?_getD]; exact restm k (by omega)
    · intro k hk
      simp only
      rw [List.getD_eq_getElem?_getD, List.getElem?_set]
      rw [if_neg (by omega), ← List.getD_eq_getElem?_getD]; exact restc k (by omega)
    · simp [List.getD_eq_getElem?_getD, hj1]
    · rw [hp, List.foldl_append, grp', List.foldl_cons, List.foldl_nil, pushRun,
        if_neg (by rw [jm]; exact he)]
      simp only
      rw [take_set_zip _ _ _ _ _ hj1 hj2, take_zip_succ _ _ _ (by omega) (by omega)]
      simp

theorem mergeInv_all (ms cs : List Nat) (hl : ms.length = cs.length) (hne : ms ≠ []) :
    ∀ k, k + 1 ≤ ms.length →
      MergeInv ms cs (k + 1) (((List.range k).map (· + 1)).foldl mergeStep ⟨ms, cs, 0⟩) := by
  intro k
  induction k with
  | zero =>
    intro hk
    constructor <;> try (simp; done)
    · exact hl.symm
    · exact hk
    · have h1 : 0 < ms.length := by omega
      have h2 : 0 < cs.length := by omega
      match ms, cs, h1, h2 with
      | a :: _, b :: _, _, _ => simp [pushRun]
  | succ k ih =>
    intro hk
    rw [List.range_succ, List.map_append, List.foldl_append]
    exact mergeInv_step ms cs hl (k + 1) (by omega) (by omega) _ (ih (by omega))

theorem weight_pushRun (x : Nat) (acc : List (Nat × Nat)) (p : Nat × Nat) :
    weight x (pushRun acc p) = weight x acc + (if p.1 = x then p.2 else 0) := by
  unfold pushRun weight
  split
  · simp
  · next q t =>
    split
    · next h => simp only [List.map_cons, List.sum_cons, h]; split <;> omega
    · simp; omega

theorem weight_foldl (x : Nat) (l : List (Nat × Nat)) : ∀ acc,
    weight x (l.foldl pushRun acc) = weight x acc + weight x l := by
  induction l with
  | nil => intro acc; simp [weight]
  | cons p l ih =>
    intro acc
    rw [List.foldl_cons, ih, weight_pushRun]
    simp only [weight, List.map_cons, List.sum_cons]; omega

theorem noAdj_pushRun (acc : List (Nat × Nat)) (p : Nat × Nat) (h : NoAdjDup (acc.map Prod.fst)) :
    NoAdjDup ((pushRun acc p).map Prod.fst) := by
  unfold pushRun
  split
  · simp [NoAdjDup]
  · next q t =>
    split
    · simpa using h
    · next hne => simp only [List.map_cons, NoAdjDup] at h ⊢; exact ⟨fun e => hne e.symm, h⟩

theorem noAdj_foldl (l : List (Nat × Nat)) : ∀ acc : List (Nat × Nat), NoAdjDup (acc.map Prod.fst) →
    NoAdjDup ((l.foldl pushRun acc).map Prod.fst) := by
  induction l with
  | nil => intro acc h; exact h
  | cons p l ih => intro acc h; exact ih _ (noAdj_pushRun acc p h)

theorem noAdj_append (a : List Nat) (x y : Nat) :
    NoAdjDup (a ++ [x]) → x ≠ y → NoAdjDup (a ++ [x, y]) := by
  induction a with
  | nil => intro _ h; exact ⟨h, trivial⟩
  | cons b a ih =>
    intro h hxy
    cases a with
    | nil => exact ⟨h.1, hxy, trivial⟩
    | cons c a => exact ⟨h.1, ih h.2 hxy⟩

theorem noAdj_reverse (l : List Nat) (h : NoAdjDup l) : NoAdjDup l.reverse := by
  induction l with
  | nil => exact h
  | cons a l ih =>
    cases l with
    | nil => exact h
    | cons b l =>
      have := ih h.2
      simp only [List.reverse_cons, List.append_assoc, List.cons_append, List.nil_append] at this ⊢
      exact noAdj_append _ _ _ this (fun e => h.1 e.symm)

theorem weight_reverse (x : Nat) (l : List (Nat × Nat)) : weight x l.reverse = weight x l := by
  unfold weight; rw [List.map_reverse, List.sum_reverse]

/-- C25, t-digest rendering. For every non-empty list of centroids the in-place merge attributes to every
mean exactly the total count it had (nothing lost or counted twice), produces as many means as counts, and
leaves no two neighbouring lines with the same mean. -/
theorem tdigest_merge_conserves (means counts : List Nat) (hl : means.length = counts.length)
    (hne : means ≠ []) :
    let r := mergeCentroids means counts
    (∀ x, weight x (r.1.zip r.2) = weight x (means.zip counts)) ∧
    r.1.length = r.2.length ∧ NoAdjDup r.1 := by
  have hpos : 0 < means.length := List.length_pos_iff.2 hne
  have inv := mergeInv_all means counts hl hne (means.length - 1) (by omega)
  rw [show means.length - 1 + 1 = means.length by omega] at inv
  have ht : (means.zip counts).take means.length = means.zip counts := by
    apply List.take_of_length_le; simp [hl]
  have hg := inv.grp
  rw [ht] at hg
  have hlen : ((mergeCentroids means counts).1).length = ((mergeCentroids means counts).2).length := by
    simp [mergeCentroids, inv.lm, inv.lc]
  refine ⟨?_, hlen, ?_⟩
  · intro x
    show weight x ((_ : List Nat).zip _) = _
    simp only [mergeCentroids]
    rw [hg, weight_reverse, weight_foldl]
    simp [weight]
  · have h1 : (mergeCentroids means counts).1 =
        ((mergeCentroids means counts).1.zip (mergeCentroids means counts).2).map Prod.fst := by
      rw [List.map_fst_zip (by omega)]
    rw [h1]
    simp only [mergeCentroids]
    rw [hg, List.map_reverse]
    exact noAdj_reverse _ (noAdj_foldl _ [] trivial)

example : mergeCentroids [3, 3, 5, 7, 7, 7] [1, 2, 4, 1, 1, 1] = ([3, 5, 7], [3, 4, 3]) := by decide

end Bpfsnoop.Hist
