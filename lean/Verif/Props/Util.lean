import Verif.Model.Util
/-
C29 C30 C31 C32 C33: utility functions.
-/
namespace Bpfsnoop.Util

/-! ## C32: `Mask` -/

theorem wrap64_id (x : Int) (h0 : 0 ≤ x) (h : x < 2 ^ 63) : wrap64 x = x := by
  unfold wrap64; rw [Int.bmod_def]; omega

theorem wrap64_minInt : wrap64 (2 ^ 63) = -2 ^ 63 := by decide
theorem wrap64_two_minInt : wrap64 (2 * -2 ^ 63) = 0 := by decide

/-- From a power of two at most `2^62`, with `v ≤ 2^62`, the loop ends at the least power of two that is
at least both the start and `v`. -/
theorem maskLoop_spec (v : Int) (hv : v ≤ 2 ^ 62) :
    ∀ (d k : Nat), k + d = 62 → ∀ fuel, d ≤ fuel →
      ∃ j, k ≤ j ∧ j ≤ 62 ∧ maskLoop fuel (2 ^ k) v = some (2 ^ j) ∧ v ≤ 2 ^ j ∧
        ∀ i, k ≤ i → i < j → (2 : Int) ^ i < v := by
  intro d
  induction d with
  | zero =>
    intro k hk fuel _
    have : k = 62 := by omega
    subst this
    refine ⟨62, Nat.le_refl _, Nat.le_refl _, ?_, hv, by omega⟩
    cases fuel <;> simp [maskLoop] <;> omega
  | succ d ih =>
    intro k hk fuel hf
    obtain ⟨f, rfl⟩ : ∃ f, fuel = f + 1 := ⟨fuel - 1, by omega⟩
    by_cases hlt : (2 : Int) ^ k < v
    · obtain ⟨j, hj1, hj2, hj3, hj4, hj5⟩ := ih (k + 1) (by omega) f (by omega)
      refine ⟨j, by omega, hj2, ?_, hj4, ?_⟩
      · have hw : wrap64 (2 * 2 ^ k) = 2 ^ (k + 1) := by
          have hp : (2 : Int) * 2 ^ k = 2 ^ (k + 1) := by rw [Int.pow_succ]; omega
          rw [hp]
          apply wrap64_id
          · exact Int.pow_nonneg (by decide)
          · have : (2 : Int) ^ (k + 1) ≤ 2 ^ 62 := by
              exact_mod_cast Nat.pow_le_pow_right (by decide) (by omega : k + 1 ≤ 62)
            omega
        simp only [maskLoop, if_pos hlt, hw]
        exact hj3
      · intro i hi hij
        by_cases hik : i = k
        · subst hik; exact hlt
        · exact hj5 i (by omega) hij
    · refine ⟨k, Nat.le_refl _, by omega, ?_, by omega, by omega⟩
      simp [maskLoop, if_neg hlt]

/-- C32 (partial: `v ≤ 2^62`). `Mask v` ends and returns `2^j - 1` with `j` the least exponent such that
every index below `v` is at most the result; in particular masking any CPU number below `v` leaves it
unchanged (that is what `CPU_MASK` is used for). -/
theorem mask_least_partial (v : Int) (hv : v ≤ 2 ^ 62) (fuel : Nat) (hf : 62 ≤ fuel) :
    ∃ j : Nat, mask fuel v = some (2 ^ j - 1) ∧
      (∀ cpu : Nat, (cpu : Int) < v → cpu &&& (2 ^ j - 1) = cpu) ∧
      (∀ i : Nat, i < j → ∃ cpu : Nat, (cpu : Int) < v ∧ cpu &&& (2 ^ i - 1) ≠ cpu) := by
  obtain ⟨j, -, hj2, hj3, hj4, hj5⟩ := maskLoop_spec v hv 62 0 rfl fuel hf
  refine ⟨j, ?_, ?_, ?_⟩
  · have : v ≠ maxInt := by unfold maxInt; omega
    unfold mask; rw [if_neg this]
    have h1 : (2 : Int) ^ 0 = 1 := by decide
    rw [h1] at hj3; rw [hj3]; rfl
  · intro cpu hc
    rw [Nat.and_two_pow_sub_one_eq_mod]
    apply Nat.mod_eq_of_lt
    have : (cpu : Int) < (2 : Int) ^ j := by omega
    exact_mod_cast this
  · intro i hi
    have h := hj5 i (Nat.zero_le _) hi
    refine ⟨2 ^ i, by exact_mod_cast h, ?_⟩
    rw [Nat.and_two_pow_sub_one_eq_mod, Nat.mod_self]
    exact fun e => absurd e.symm (Nat.ne_of_gt (Nat.two_pow_pos i))

/-- A buffer of `v` entries indexed by a masked number, which is what the verifier of the kernel looks at, is large enough for every number
exactly if `v` is a power of two: on a machine with six CPUs index 7 is possible as far as the program shows. -/
theorem mask_fits_iff_violated (v : Nat) (hv : v ≤ 2 ^ 62) (h0 : 0 < v) (fuel : Nat) (hf : 62 ≤ fuel) :
    ∃ j : Nat, mask fuel v = some (2 ^ j - 1) ∧ ((∀ cpu : Nat, cpu &&& (2 ^ j - 1) < v) ↔ v = 2 ^ j) := by
  obtain ⟨j, h1, h2, -⟩ := mask_least_partial v (by exact_mod_cast hv) fuel hf
  have h4 : v ≤ 2 ^ j := by
    have h5 := h2 (v - 1) (by omega)
    rw [Nat.and_two_pow_sub_one_eq_mod] at h5
    have := Nat.mod_lt (v - 1) (Nat.two_pow_pos j)
    omega
  refine ⟨j, h1, fun h => ?_, ?_⟩
  · have h3 := h (2 ^ j - 1)
    rw [Nat.and_two_pow_sub_one_eq_mod, Nat.mod_eq_of_lt (Nat.sub_lt (Nat.two_pow_pos j) (by decide))] at h3
    omega
  · intro h3 cpu
    rw [Nat.and_two_pow_sub_one_eq_mod]
    rw [h3]
    exact Nat.mod_lt _ (Nat.two_pow_pos j)

example : mask 62 6 = some 7 ∧ ¬ 13 &&& (2 ^ 3 - 1) < 5 := by decide

example : ∃ v : Int, v ≤ 2 ^ 62 ∧ mask 62 v = some 7 := ⟨5, by decide, by decide⟩

theorem maskLoop_zero (v : Int) (hv : 0 < v) : ∀ fuel, maskLoop fuel 0 v = none := by
  intro fuel
  induction fuel with
  | zero => simp [maskLoop, hv]
  | succ f ih =>
    have : wrap64 (2 * 0) = 0 := by decide
    simp only [maskLoop, if_pos hv, this, ih]

theorem maskLoop_big (v : Int) (hv : 2 ^ 62 < v) :
    ∀ (d k : Nat), k + d = 62 → ∀ fuel, maskLoop fuel (2 ^ k) v = none := by
  intro d
  induction d with
  | zero =>
    intro k hk fuel
    have : k = 62 := by omega
    subst this
    have h1 : wrap64 (2 * 2 ^ 62) = -2 ^ 63 := by decide
    match fuel with
    | 0 => simp [maskLoop]; omega
    | 1 => simp only [maskLoop, if_pos hv, h1]; rw [if_pos (by omega)]
    | f + 2 =>
      simp only [maskLoop, if_pos hv, h1]
      rw [if_pos (by omega), wrap64_two_minInt]
      exact maskLoop_zero v (by omega) f
  | succ d ih =>
    intro k hk fuel
    have hle : (2 : Int) ^ k ≤ 2 ^ 62 := by
      exact_mod_cast Nat.pow_le_pow_right (by decide) (by omega : k ≤ 62)
    have hlt : (2 : Int) ^ k < v := by omega
    cases fuel with
    | zero => simp [maskLoop, hlt]
    | succ f =>
      have hw : wrap64 (2 * 2 ^ k) = 2 ^ (k + 1) := by
        have hp : (2 : Int) * 2 ^ k = 2 ^ (k + 1) := by rw [Int.pow_succ]; omega
        rw [hp]
        apply wrap64_id
        · exact Int.pow_nonneg (by decide)
        · have : (2 : Int) ^ (k + 1) ≤ 2 ^ 62 := by
            exact_mod_cast Nat.pow_le_pow_right (by decide) (by omega : k + 1 ≤ 62)
          omega
      simp only [maskLoop, if_pos hlt, hw]
      exact ih (k + 1) (by omega) f

/-- C32 violated: for every `v` strictly between `2^62` and `MaxInt` the loop never ends, whatever the
number of iterations allowed. -/
theorem mask_diverges_violated (v : Int) (h1 : 2 ^ 62 < v) (h2 : v < maxInt) :
    ∀ fuel, mask fuel v = none := by
  intro fuel
  have : v ≠ maxInt := by omega
  unfold mask; rw [if_neg this]
  have h0 : (2 : Int) ^ 0 = 1 := by decide
  rw [← h0, maskLoop_big v h1 62 0 rfl fuel]; rfl

example : ∃ v : Int, 2 ^ 62 < v ∧ v < maxInt := ⟨2 ^ 62 + 1, by decide, by decide⟩

/-! ## C31: `NullTerminated` -/

/-- C31. The result is a prefix of the buffer, has no zero byte, and is the longest such prefix: it is the
whole buffer or is followed by a zero byte. -/
theorem nullTerminated_longest_prefix (b : List UInt8) :
    (∀ x ∈ nullTerminated b, x ≠ 0) ∧
    (nullTerminated b = b ∨ ∃ rest, b = nullTerminated b ++ 0 :: rest) := by
  have key : nullTerminated b = b.take (scanIdx b) := by
    unfold nullTerminated; split
    · next h => simp [h]
    · rfl
  rw [key]; clear key
  induction b with
  | nil => simp [scanIdx]
  | cons x xs ih =>
    by_cases hx : x = 0
    · subst hx; simp [scanIdx]
    · simp only [scanIdx, if_pos (show x ≠ 0 from hx), List.take_succ_cons]
      obtain ⟨h1, h2⟩ := ih
      refine ⟨?_, ?_⟩
      · intro y hy
        rcases List.mem_cons.1 hy with h | h
        · subst h; exact hx
        · exact h1 y h
      · rcases h2 with h | ⟨r, h⟩
        · left; rw [h]
        · right; exact ⟨r, by rw [List.cons_append, ← h]⟩

example : nullTerminated [104, 105, 0, 7] = [104, 105] := by decide

/-! ## C33: `bufferReaderAt.ReadAt` -/

/-- C33. For every non-negative offset: exactly the requested bytes that exist are delivered (all of
`min (len p) (len data - off)`), the rest of the destination is untouched, its length is unchanged, and
`EOF` is reported exactly when fewer bytes than asked were delivered or the offset is at or past the end. -/
theorem readAt_contract (data p : List UInt8) (off : Nat) :
    let r := readAt data p off
    r.2.1 = min p.length (data.length - off) ∧
    r.1 = (data.drop off).take r.2.1 ++ p.drop r.2.1 ∧
    r.1.length = p.length ∧
    (r.2.2 = .eof ↔ (r.2.1 < p.length ∨ data.length ≤ off)) ∧
    r.2.2 ≠ .negative := by
  simp only [readAt]
  rw [if_neg (by omega)]
  by_cases h : (off : Int) ≥ (data.length : Int)
  · have h' : data.length ≤ off := by omega
    rw [if_pos h]
    simp [h', Nat.sub_eq_zero_of_le h']
  · have h' : off < data.length := by omega
    rw [if_neg h]
    simp only [Int.toNat_natCast, List.length_drop]
    refine ⟨trivial, trivial, ?_, ?_, ?_⟩
    · simp; omega
    · by_cases hn : min p.length (data.length - off) < p.length
      · simp [hn]
      · simp [hn]; omega
    · split <;> simp

/-- C33, error branch: a negative offset is refused and nothing is written. -/
theorem readAt_negative (data p : List UInt8) (off : Int) (h : off < 0) :
    readAt data p off = (p, 0, .negative) := by
  simp [readAt, h]

example : readAt [1, 2, 3] [9, 9, 9, 9] 1 = ([2, 3, 9, 9], 2, .eof) := by decide

/-! ## C29: ENDBR detection -/

theorem leU32_eq_iff (b0 b1 b2 b3 : UInt8) (c0 c1 c2 c3 : UInt8) :
    leU32 b0 b1 b2 b3 = leU32 c0 c1 c2 c3 ↔ b0 = c0 ∧ b1 = c1 ∧ b2 = c2 ∧ b3 = c3 := by
  constructor
  · intro h
    have h := congrArg BitVec.toNat h
    simp only [leU32, BitVec.toNat_ofNat] at h
    have l0 := b0.toNat_lt; have l1 := b1.toNat_lt; have l2 := b2.toNat_lt; have l3 := b3.toNat_lt
    have m0 := c0.toNat_lt; have m1 := c1.toNat_lt; have m2 := c2.toNat_lt; have m3 := c3.toNat_lt
    refine ⟨UInt8.toNat_inj.1 ?_, UInt8.toNat_inj.1 ?_, UInt8.toNat_inj.1 ?_, UInt8.toNat_inj.1 ?_⟩ <;>
      omega
  · rintro ⟨rfl, rfl, rfl, rfl⟩; rfl

theorem isEndbrInsn_iff (v : BitVec 32) :
    isEndbrInsn v = true ↔ v = 0xfa1e0ff3#32 ∨ v = 0xfb1e0ff3#32 ∨ v = 0x001f0f66#32 := by
  unfold isEndbrInsn genEndbrPoison
  split
  · next h => simp [h]
  · next h =>
    rw [beq_iff_eq]
    constructor
    · intro hm
      have hsplit : v = (v &&& ~~~0x01000000#32) ||| (v &&& 0x01000000#32) := by
        rw [← BitVec.and_or_distrib_left]
        have : (~~~0x01000000#32 ||| 0x01000000#32) = BitVec.allOnes 32 := by decide
        rw [this, BitVec.and_allOnes]
      have htp : (0x01000000#32) = BitVec.twoPow 32 24 := by decide
      have hbit : v &&& 0x01000000#32 = if v.getLsbD 24 then 0x01000000#32 else 0#32 := by
        rw [htp, BitVec.and_twoPow]
      rw [hm, hbit] at hsplit
      split at hsplit
      · right; left; rw [hsplit]; decide
      · left; rw [hsplit]; decide
    · rintro (rfl | rfl | rfl)
      · decide
      · decide
      · exact absurd rfl h

/-- C29. For every byte string: recognised exactly when at least four bytes are there and they are
`f3 0f 1e fa` (endbr64), `f3 0f 1e fb` (endbr32) or `66 0f 1f 00` (sealed endbr). -/
theorem endbr_exact (bytes : List UInt8) :
    haveEndbrInsn (some bytes) = true ↔
      ∃ rest, bytes = [0xf3, 0x0f, 0x1e, 0xfa] ++ rest ∨ bytes = [0xf3, 0x0f, 0x1e, 0xfb] ++ rest ∨
        bytes = [0x66, 0x0f, 0x1f, 0x00] ++ rest := by
  rcases bytes with _ | ⟨b0, _ | ⟨b1, _ | ⟨b2, _ | ⟨b3, rest⟩⟩⟩⟩ <;> simp [haveEndbrInsn]
  have e1 : (0xfa1e0ff3#32) = leU32 0xf3 0x0f 0x1e 0xfa := by decide
  have e2 : (0xfb1e0ff3#32) = leU32 0xf3 0x0f 0x1e 0xfb := by decide
  have e3 : (0x001f0f66#32) = leU32 0x66 0x0f 0x1f 0x00 := by decide
  rw [isEndbrInsn_iff, e1, e2, e3, leU32_eq_iff, leU32_eq_iff, leU32_eq_iff]
  constructor
  · intro h; exact ⟨rest, by simpa using h⟩
  · rintro ⟨r, h⟩
    rcases h with h | h | h
    · exact .inl ⟨h.1, h.2.1, h.2.2.1, h.2.2.2.1⟩
    · exact .inr (.inl ⟨h.1, h.2.1, h.2.2.1, h.2.2.2.1⟩)
    · exact .inr (.inr ⟨h.1, h.2.1, h.2.2.1, h.2.2.2.1⟩)

/-- C29, remaining cases: no JIT image, no ENDBR. -/
theorem endbr_none : haveEndbrInsn none = false := rfl

example : haveEndbrInsn (some [0xf3, 0x0f, 0x1e, 0xfb, 0x55]) = true := by decide
example : haveEndbrInsn (some [0x0f, 0x1f, 0x44, 0x00, 0x00]) = false := by decide

/-! ## C30: direct call targets -/

/-- Architectural target of `call rel32` at `kaddr` (Intel SDM: next instruction address plus the
sign-extended 32-bit displacement). Specification. -/
def callTarget (kaddr : BitVec 64) (rel : BitVec 32) : BitVec 64 :=
  kaddr + 5#64 + rel.signExtend 64

theorem calleeIP_low (kaddr : BitVec 64) (rel : BitVec 32) :
    (getCalleeIP kaddr rel).setWidth 32 = (callTarget kaddr rel).setWidth 32 := by
  unfold getCalleeIP callTarget
  rw [BitVec.setWidth_or]
  have h0 : (0xFFFFFFFF00000000#64).setWidth 32 = 0#32 := by decide
  rw [h0, BitVec.or_zero]
  simp only [BitVec.setWidth_add _ _ (show 32 ≤ 64 by decide)]
  congr 1
  apply BitVec.eq_of_getLsbD_eq
  intro i hi
  have h64 : i < 64 := by omega
  simp only [BitVec.getLsbD_setWidth, BitVec.getLsbD_signExtend, hi, h64]
  simp

theorem calleeIP_high (kaddr : BitVec 64) (rel : BitVec 32) (i : Nat) (h : 32 ≤ i) (h2 : i < 64) :
    (getCalleeIP kaddr rel).getLsbD i = true := by
  unfold getCalleeIP
  rw [BitVec.getLsbD_or]
  have : (0xFFFFFFFF00000000#64).getLsbD i = true := by
    have : ∀ j : Fin 64, 32 ≤ j.val → (0xFFFFFFFF00000000#64).getLsbD j.val = true := by decide
    exact this ⟨i, h2⟩ h
  rw [this, Bool.or_true]

/-- C30 (exact domain). For all addresses and displacements, the computed callee equals the architectural
target iff that target lies in the top 4 GiB of the address space (where x86-64 kernel text and modules
live). -/
theorem calleeIP_correct_iff (kaddr : BitVec 64) (rel : BitVec 32) :
    getCalleeIP kaddr rel = callTarget kaddr rel ↔
      0xFFFFFFFF00000000#64 ≤ callTarget kaddr rel := by
  have hi : ∀ t : BitVec 64, (0xFFFFFFFF00000000#64 ≤ t) ↔ ∀ i, 32 ≤ i → i < 64 → t.getLsbD i = true := by
    intro t
    have hb : (0xFFFFFFFF00000000#64 ≤ t) ↔ t.toNat >>> 32 = 2 ^ 32 - 1 := by
      rw [BitVec.le_def]
      have : (0xFFFFFFFF00000000#64).toNat = 0xFFFFFFFF00000000 := rfl
      rw [this, Nat.shiftRight_eq_div_pow]
      have := t.isLt
      omega
    rw [hb]
    constructor
    · intro h i h1 h2
      have := congrArg (fun n => n.testBit (i - 32)) h
      simp only [Nat.testBit_shiftRight, Nat.testBit_two_pow_sub_one] at this
      rw [show 32 + (i - 32) = i by omega] at this
      rw [BitVec.getLsbD, this]; simp; omega
    · intro h
      apply Nat.eq_of_testBit_eq
      intro i
      rw [Nat.testBit_shiftRight, Nat.testBit_two_pow_sub_one]
      by_cases hi : i < 32
      · have := h (32 + i) (by omega) (by omega)
        rw [BitVec.getLsbD] at this
        simp [this, hi]
      · have : t.toNat < 2 ^ (32 + i) := Nat.lt_of_lt_of_le t.isLt (Nat.pow_le_pow_right (by decide) (by omega))
        rw [Nat.testBit_lt_two_pow this]; simp [hi]
  rw [hi]
  constructor
  · intro h i h1 h2; rw [← h]; exact calleeIP_high kaddr rel i h1 h2
  · intro h
    apply BitVec.eq_of_getLsbD_eq
    intro i hi
    by_cases h32 : i < 32
    · have := congrArg (fun b => b.getLsbD i) (calleeIP_low kaddr rel)
      simpa [h32] using this
    · rw [calleeIP_high kaddr rel i (by omega) hi, h i (by omega) hi]

/-- C30: an instruction that is not a 5-byte `e8` call yields no callee. -/
theorem calleeIP_only_calls (addr : BitVec 64) (bytes : List UInt8)
    (h : ¬ ∃ b0 b1 b2 b3, bytes = [0xe8, b0, b1, b2, b3]) : getCalleeIPFromInsn addr bytes = 0#64 := by
  unfold getCalleeIPFromInsn
  split
  · next op b0 b1 b2 b3 =>
    split
    · next h8 => subst h8; exact absurd ⟨b0, b1, b2, b3, rfl⟩ h
    · rfl
  · rfl

-- a backward call inside kernel text: 0xffffffff81000100: e8 fb fe ff ff
example : getCalleeIPFromInsn 0xffffffff81000100#64 [0xe8, 0xfb, 0xfe, 0xff, 0xff] = 0xffffffff81000000#64
    ∧ 0xFFFFFFFF00000000#64 ≤ callTarget 0xffffffff81000100#64 (leU32 0xfb 0xfe 0xff 0xff) := by decide

/-- C30 violated outside kernel text: a call whose target lies below the top 4 GiB (for instance code in
vmalloc/module space of a KASLR layout at `0xffffc900...`, where BPF dispatchers may live) is reported
with a wrong callee. -/
theorem calleeIP_violated : ∃ kaddr rel,
    callTarget kaddr rel = 0xffffc90000000105#64 ∧ getCalleeIP kaddr rel ≠ callTarget kaddr rel :=
  ⟨0xffffc90000000000#64, 0x100#32, by decide, by decide⟩

end Bpfsnoop.Util
