import Verif.Model.KRead

/-! C54: what a read of kernel memory returns. -/
namespace Bpfsnoop.KRead

theorem readSize_nat (s : BitVec 32) : (readSize s).toNat = (s.toNat + 7) % 2 ^ 32 / 8 * 8 := by
  have h1 : readSize s = (s + 7#32) >>> 3 <<< 3 := by
    unfold readSize
    apply BitVec.eq_of_getLsbD_eq
    intro i hi
    generalize s + 7#32 = x
    have h7 : (7#32).getLsbD i = decide (i < 3) := by
      rw [BitVec.getLsbD_ofNat, show (7 : Nat) = 2 ^ 3 - 1 from rfl, Nat.testBit_two_pow_sub_one]
      simp [hi]
    rw [BitVec.getLsbD_and, BitVec.getLsbD_not, h7, BitVec.getLsbD_shiftLeft, BitVec.getLsbD_ushiftRight]
    by_cases h : i < 3
    · simp [h]
    · simp only [hi, h, decide_true, decide_false, Bool.not_false, Bool.and_self, Bool.and_true, Bool.true_and]
      congr 1
      omega
  rw [h1, BitVec.toNat_shiftLeft, BitVec.toNat_ushiftRight, BitVec.toNat_add, Nat.shiftLeft_eq, Nat.shiftRight_eq_div_pow]
  simp only [BitVec.toNat_ofNat]
  omega

theorem low16 (x : BitVec 32) : (x &&& 0xffff#32).toNat = x.toNat % 65536 := by
  rw [BitVec.toNat_and]
  exact Nat.and_two_pow_sub_one_eq_mod x.toNat 16

theorem get_length (m : Mem) : ∀ (n : Nat) (a : BitVec 64) (l : List Byte), m.get a n = some l → l.length = n
  | 0, _, l, h => by simp [Mem.get] at h; simp [← h]
  | n + 1, a, l, h => by
    simp only [Mem.get] at h
    cases h1 : m a with
    | none => simp [h1] at h
    | some b =>
      cases h2 : m.get (a + 1#64) n with
      | none => simp [h1, h2] at h
      | some bs =>
        simp only [h1, h2, Option.some.injEq] at h
        simp [← h, get_length m n _ _ h2]

theorem get_getElem (m : Mem) : ∀ (n : Nat) (a : BitVec 64) (l : List Byte), m.get a n = some l →
    ∀ i, i < n → l[i]? = m (a + BitVec.ofNat 64 i) ∧ (m (a + BitVec.ofNat 64 i)).isSome
  | 0, _, _, _, i, hi => by omega
  | n + 1, a, l, h, i, hi => by
    simp only [Mem.get] at h
    cases h1 : m a with
    | none => simp [h1] at h
    | some b =>
      cases h2 : m.get (a + 1#64) n with
      | none => simp [h1, h2] at h
      | some bs =>
        simp only [h1, h2, Option.some.injEq] at h
        subst h
        cases i with
        | zero => simp [h1]
        | succ i =>
          have := get_getElem m n _ _ h2 i (by omega)
          have e : a + 1#64 + BitVec.ofNat 64 i = a + BitVec.ofNat 64 (i + 1) := by
            rw [BitVec.add_assoc]
            congr 1
            apply BitVec.eq_of_toNat_eq
            simp
            omega
          rw [e] at this
          simpa using this

theorem get_some (m : Mem) : ∀ (n : Nat) (a : BitVec 64),
    (∀ i, i < n → (m (a + BitVec.ofNat 64 i)).isSome) → ∃ l, m.get a n = some l
  | 0, _, _ => ⟨[], rfl⟩
  | n + 1, a, h => by
    obtain ⟨l, hl⟩ := get_some m n (a + 1#64) (fun i hi => by
      have := h (i + 1) (by omega)
      have e : a + 1#64 + BitVec.ofNat 64 i = a + BitVec.ofNat 64 (i + 1) := by
        rw [BitVec.add_assoc]
        congr 1
        apply BitVec.eq_of_toNat_eq
        simp
        omega
      rw [e]; exact this)
    have h0 := h 0 (by omega)
    have e0 : a + BitVec.ofNat 64 0 = a := by simp
    rw [e0] at h0
    obtain ⟨b, hb⟩ := Option.isSome_iff_exists.1 h0
    exact ⟨b :: l, by simp [Mem.get, hb, hl]⟩

theorem probeRead_length (m : Mem) (a : BitVec 64) (n : Nat) (b : List Byte) (hn : n ≤ b.length) :
    (probeRead m a n b).length = b.length := by
  unfold probeRead
  cases h : m.get a n with
  | none => simp; omega
  | some l => simp [get_length m n a l h]; omega

/-- The buffer stays as long as it is, whatever is read. -/
theorem readKernel_buff (m : Mem) (b : List Byte) (hb : b.length = buffSize) (a : BitVec 64) (s : BitVec 32) :
    (readKernel m b a s).2.length = buffSize := by
  unfold readKernel
  split
  · exact hb
  · simp only [bpfRead]
    rw [probeRead_length, hb]
    rw [low16, hb, buffSize]
    omega

/-- **C54.** If the bytes asked for, rounded up to a multiple of eight, can be read and there are no more than 65528 of
them, the result is exactly the bytes at that address, one per requested byte. -/
theorem read_exact (m : Mem) (b : List Byte) (hb : b.length = buffSize) (a : BitVec 64) (s : BitVec 32) (hs : s.toNat ≤ 65528)
    (hm : ∀ i, i < (s.toNat + 7) / 8 * 8 → (m (a + BitVec.ofNat 64 i)).isSome) :
    ∃ data, (readKernel m b a s).1 = .ok data ∧ data.length = s.toNat ∧
      ∀ i, i < s.toNat → data[i]? = m (a + BitVec.ofNat 64 i) := by
  have hr : (readSize s).toNat = (s.toNat + 7) / 8 * 8 := by rw [readSize_nat]; omega
  have hn : (readSize s &&& 0xffff#32).toNat = (s.toNat + 7) / 8 * 8 := by rw [low16, hr]; omega
  obtain ⟨l, hl⟩ := get_some m _ a hm
  have hll := get_length m _ a l hl
  have hlen : (bpfRead m a (readSize s) b).length = buffSize := by
    rw [bpfRead, probeRead_length, hb]; rw [hn, hb, buffSize]; omega
  have hp : bpfRead m a (readSize s) b = l ++ b.drop ((s.toNat + 7) / 8 * 8) := by
    simp [bpfRead, probeRead, hn, hl]
  unfold readKernel
  rw [if_neg (by rw [hr, buffSize]; omega)]
  simp only []
  rw [if_pos (by rw [hlen, buffSize]; omega)]
  refine ⟨_, rfl, ?_, ?_⟩
  · rw [List.length_take, hlen, buffSize]; omega
  · intro i hi
    rw [List.getElem?_take, if_pos hi, hp, List.getElem?_append_left (by omega)]
    exact (get_getElem m _ a l hl i (by omega)).1

/-- A read of at most 65528 bytes does not depend on what was read before. -/
theorem read_fresh (m : Mem) (b b' : List Byte) (hb : b.length = buffSize) (hb' : b'.length = buffSize) (a : BitVec 64)
    (s : BitVec 32) (hs : s.toNat ≤ 65528) : (readKernel m b a s).1 = (readKernel m b' a s).1 := by
  have hr : (readSize s).toNat = (s.toNat + 7) / 8 * 8 := by rw [readSize_nat]; omega
  have hn : (readSize s &&& 0xffff#32).toNat = (s.toNat + 7) / 8 * 8 := by rw [low16, hr]; omega
  have hlen : ∀ b : List Byte, b.length = buffSize → (bpfRead m a (readSize s) b).length = buffSize := by
    intro b hb; rw [bpfRead, probeRead_length, hb]; rw [hn, hb, buffSize]; omega
  unfold readKernel
  rw [if_neg (by rw [hr, buffSize]; omega), if_neg (by rw [hr, buffSize]; omega)]
  simp only [hlen b hb, hlen b' hb']
  congr 2
  simp only [bpfRead, probeRead, hn]
  have hx : ((m.get a ((s.toNat + 7) / 8 * 8)).getD (List.replicate ((s.toNat + 7) / 8 * 8) 0#8)).length = (s.toNat + 7) / 8 * 8 := by
    cases h : m.get a ((s.toNat + 7) / 8 * 8) with
    | none => simp
    | some l => simpa using get_length m _ a l h
  rw [List.take_append_of_le_length (by omega), List.take_append_of_le_length (by omega)]

/-- **C54 violated**: if one of the bytes of the rounded-up range cannot be read, the read succeeds and returns zeros:
the caller cannot tell a fault from zeros, even when every byte asked for was readable. -/
theorem fault_zeros_violated (m : Mem) (b : List Byte) (hb : b.length = buffSize) (a : BitVec 64) (s : BitVec 32)
    (hs : s.toNat ≤ 65528) (hf : ∃ i, i < (s.toNat + 7) / 8 * 8 ∧ m (a + BitVec.ofNat 64 i) = none) :
    (readKernel m b a s).1 = .ok (List.replicate s.toNat 0#8) := by
  have hr : (readSize s).toNat = (s.toNat + 7) / 8 * 8 := by rw [readSize_nat]; omega
  have hn : (readSize s &&& 0xffff#32).toNat = (s.toNat + 7) / 8 * 8 := by rw [low16, hr]; omega
  have hg : m.get a ((s.toNat + 7) / 8 * 8) = none := by
    cases h : m.get a ((s.toNat + 7) / 8 * 8) with
    | none => rfl
    | some l =>
      obtain ⟨i, hi, hi'⟩ := hf
      have := (get_getElem m _ a l h i hi).2
      rw [hi'] at this; simp at this
  have hlen : (bpfRead m a (readSize s) b).length = buffSize := by
    rw [bpfRead, probeRead_length, hb]; rw [hn, hb, buffSize]; omega
  unfold readKernel
  rw [if_neg (by rw [hr, buffSize]; omega)]
  simp only []
  rw [if_pos (by rw [hlen, buffSize]; omega)]
  simp only [bpfRead, probeRead, hn, hg, Option.getD_none]
  rw [List.take_append_of_le_length (by simp; omega), List.take_replicate]
  congr 2
  omega

/-- **C54 violated**: a read of 65529 to 65536 bytes passes the check of the limit, but the program masks the size to
zero: the memory is not read, and the result is whatever earlier reads left in the buffer. -/
theorem full_buffer_stale_violated (m : Mem) (b : List Byte) (hb : b.length = buffSize) (a : BitVec 64) (s : BitVec 32)
    (h1 : 65528 < s.toNat) (h2 : s.toNat ≤ 65536) : readKernel m b a s = (.ok (b.take s.toNat), b) := by
  have hr : (readSize s).toNat = 65536 := by rw [readSize_nat]; omega
  have hn : (readSize s &&& 0xffff#32).toNat = 0 := by rw [low16, hr]
  unfold readKernel
  rw [if_neg (by rw [hr, buffSize]; omega)]
  simp only [bpfRead, probeRead, hn, Mem.get, Option.getD_some, List.nil_append, List.drop_zero]
  rw [if_pos (by rw [hb, buffSize]; omega)]

/-- Larger reads are refused and leave everything as it was. -/
theorem large_refused (m : Mem) (b : List Byte) (a : BitVec 64) (s : BitVec 32) (h1 : 65536 < s.toNat)
    (h2 : s.toNat ≤ 2 ^ 32 - 8) : readKernel m b a s = (.tooLarge, b) := by
  have hr : (readSize s).toNat = (s.toNat + 7) / 8 * 8 := by rw [readSize_nat]; omega
  unfold readKernel
  rw [if_pos (by rw [hr, buffSize]; omega)]

/-- **C54 violated**: the rounding wraps for the seven largest sizes, which then pass the limit and panic. -/
theorem huge_panics_violated (m : Mem) (b : List Byte) (hb : b.length = buffSize) (a : BitVec 64) (s : BitVec 32)
    (h : 2 ^ 32 - 8 < s.toNat) : (readKernel m b a s).1 = .panic := by
  have hl := s.isLt
  have hr : (readSize s).toNat = 0 := by rw [readSize_nat]; omega
  have hn : (readSize s &&& 0xffff#32).toNat = 0 := by rw [low16, hr]
  unfold readKernel
  rw [if_neg (by rw [hr]; simp)]
  simp only [bpfRead, probeRead, hn, Mem.get, Option.getD_some, List.nil_append, List.drop_zero]
  rw [if_neg (by rw [hb, buffSize]; omega)]

/-- The same sizes over a history of reads: every read of at most 65528 readable bytes in a session returns the bytes
at its address, whatever was read before it. -/
theorem reads_exact (m : Mem) (rs : List (BitVec 64 × BitVec 32)) (b : List Byte) (hb : b.length = buffSize) (k : Nat)
    (a : BitVec 64) (s : BitVec 32) (hk : rs[k]? = some (a, s)) (hs : s.toNat ≤ 65528)
    (hm : ∀ i, i < (s.toNat + 7) / 8 * 8 → (m (a + BitVec.ofNat 64 i)).isSome) :
    ∃ data, (reads m rs b).1[k]? = some (.ok data) ∧ data.length = s.toNat ∧
      ∀ i, i < s.toNat → data[i]? = m (a + BitVec.ofNat 64 i) := by
  induction rs generalizing b k with
  | nil => simp at hk
  | cons r rs ih =>
    obtain ⟨a', s'⟩ := r
    cases k with
    | zero =>
      simp only [List.getElem?_cons_zero, Option.some.injEq, Prod.mk.injEq] at hk
      obtain ⟨rfl, rfl⟩ := hk
      obtain ⟨data, h1, h2, h3⟩ := read_exact m b hb a' s' hs hm
      exact ⟨data, by simp [reads, h1], h2, h3⟩
    | succ k =>
      simp only [List.getElem?_cons_succ] at hk
      obtain ⟨data, h1, h2, h3⟩ := ih (readKernel m b a' s').2 (readKernel_buff m b hb a' s') k hk
      exact ⟨data, by simp only [reads, List.getElem?_cons_succ]; exact h1, h2, h3⟩

/-- A concrete read: three bytes at an address, eight readable. -/
example : (readKernel (fun a => if a < 0x1008#64 then some (a.setWidth 8) else none) fresh 0x1000#64 3#32).1 =
    .ok [0#8, 1#8, 2#8] := by
  obtain ⟨data, h1, h2, h3⟩ := read_exact (fun a => if a < 0x1008#64 then some (a.setWidth 8) else none) fresh
    List.length_replicate 0x1000#64 3#32 (by decide) (by decide)
  rw [h1]
  match data, h2 with
  | [x, y, z], _ =>
    have e0 := h3 0 (by decide)
    have e1 := h3 1 (by decide)
    have e2 := h3 2 (by decide)
    simp at e0 e1 e2
    rw [e0, e1, e2]

/-- Reading four bytes just below an unmapped page returns zeros although all four can be read. -/
example : (readKernel (fun a => if a < 0x1004#64 then some 0xff#8 else none) fresh 0x1000#64 4#32).1 =
    .ok (List.replicate 4 0#8) :=
  fault_zeros_violated _ _ List.length_replicate _ _ (by decide) ⟨4, by decide, by decide⟩

end Bpfsnoop.KRead
