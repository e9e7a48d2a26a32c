import Verif.Props.CcChain

/-
C09, C10: bringing a value into a register. Widths, bit-fields, and `materialize` as a whole.
-/
namespace Bpfsnoop.Cc

/-! ### Memory -/

theorem bytes_low {m : Mem} : ∀ {s k : Nat} {a : BitVec 64} {v : Nat}, bytes m (s + k) a = some v →
    bytes m s a = some (v % 256 ^ s) := by
  intro s
  induction s with
  | zero => intro k a v _; simp [bytes, Nat.mod_one]
  | succ s ih =>
    intro k a v h
    rw [show s + 1 + k = (s + k) + 1 by omega] at h
    simp only [bytes] at h ⊢
    cases hb : m a with
    | none => rw [hb] at h; simp at h
    | some b =>
      rw [hb] at h
      simp only [Option.bind_eq_bind, Option.bind_some] at h ⊢
      cases hr : bytes m (s + k) (a + 1) with
      | none => rw [hr] at h; simp at h
      | some r =>
        rw [hr] at h
        simp only [Option.bind_some, Option.some.injEq] at h
        rw [ih hr]
        simp only [Option.bind_some, Option.some.injEq]
        subst h
        have hb : b.toNat < 256 := b.isLt
        rw [Nat.pow_succ, Nat.mul_comm (256 ^ s) 256, Nat.mod_mul]
        rw [Nat.add_mul_mod_self_left, Nat.mod_eq_of_lt hb, Nat.add_mul_div_left _ _ (by omega),
          Nat.div_eq_of_lt hb, Nat.zero_add]

theorem bytes_lt {m : Mem} : ∀ {s : Nat} {a : BitVec 64} {v : Nat}, bytes m s a = some v → v < 256 ^ s := by
  intro s
  induction s with
  | zero => intro a v h; simp [bytes] at h; subst h; simp
  | succ s ih =>
    intro a v h
    simp only [bytes] at h
    cases hb : m a with
    | none => rw [hb] at h; simp at h
    | some b =>
      rw [hb] at h
      simp only [Option.bind_eq_bind, Option.bind_some] at h
      cases hr : bytes m s (a + 1) with
      | none => rw [hr] at h; simp at h
      | some r =>
        rw [hr] at h
        simp only [Option.bind_some, Option.some.injEq] at h
        have := ih hr
        have hb : b.toNat < 256 := b.isLt
        rw [Nat.pow_succ]; omega

/-- Whenever the first 1, 2 or 4 bytes of a word are readable, all 8 are (a page boundary is the only way
this can fail). -/
def WordReadable (m : Mem) : Prop :=
  ∀ a s, (s = 1 ∨ s = 2 ∨ s = 4) → (bytes m s a).isSome → (bytes m 8 a).isSome

theorem lowBytes_8 (x : BitVec 64) : lowBytes 8 x = x := by
  unfold lowBytes
  apply BitVec.eq_of_toNat_eq
  have := x.isLt
  rw [BitVec.toNat_ofNat, Nat.mod_eq_of_lt (show x.toNat < 2 ^ (8 * 8) by omega), Nat.mod_eq_of_lt this]

theorem lowBytes_toNat (s : Nat) (x : BitVec 64) : (lowBytes s x).toNat = x.toNat % 2 ^ (8 * s) := by
  unfold lowBytes
  rw [BitVec.toNat_ofNat]
  apply Nat.mod_eq_of_lt
  exact Nat.lt_of_le_of_lt (Nat.mod_le _ _) x.isLt

/-- A narrow load is the low part of the 8-byte load. -/
theorem load_low {m : Mem} (hm : WordReadable m) {s : Nat} (hs : s = 1 ∨ s = 2 ∨ s = 4 ∨ s = 8)
    (a : BitVec 64) : load m s a = lowBytes s (load m 8 a) := by
  have hle : ∃ k, s + k = 8 := ⟨8 - s, by omega⟩
  obtain ⟨k, hk⟩ := hle
  unfold load
  cases h8 : bytes m 8 a with
  | some v =>
    rw [← hk] at h8
    rw [bytes_low h8]
    apply BitVec.eq_of_toNat_eq
    rw [lowBytes_toNat]
    have h256 : 256 ^ s = 2 ^ (8 * s) := by rw [Nat.pow_mul]
    have hv : v < 2 ^ 64 := by
      have := bytes_lt h8; rw [hk] at this; exact this
    simp only [BitVec.toNat_ofNat]
    rw [h256, Nat.mod_eq_of_lt hv, Nat.mod_eq_of_lt]
    exact Nat.lt_of_le_of_lt (Nat.mod_le _ _) hv
  | none =>
    cases hn : bytes m s a with
    | none => simp only []; apply BitVec.eq_of_toNat_eq; rw [lowBytes_toNat]; simp
    | some v =>
      rcases hs with h | h | h | h
      · have := hm a s (.inl h) (by rw [hn]; rfl); rw [h8] at this; simp at this
      · have := hm a s (.inr (.inl h)) (by rw [hn]; rfl); rw [h8] at this; simp at this
      · have := hm a s (.inr (.inr h)) (by rw [hn]; rfl); rw [h8] at this; simp at this
      · subst h; rw [h8] at hn; simp at hn

/-! ### Widths -/

/-- What `adjustRegisterSize` leaves: the low bytes for sizes 1, 2 and 4, everything otherwise. -/
def adjReg (Γ : Btf) (t : Ty) (x : BitVec 64) : BitVec 64 :=
  match Γ.sizeOf t with
  | some 1 => lowBytes 1 x
  | some 2 => lowBytes 2 x
  | some 4 => lowBytes 4 x
  | _ => x

theorem and_ff (x : BitVec 64) : x &&& 0xFF = lowBytes 1 x := by
  apply BitVec.eq_of_toNat_eq
  rw [lowBytes_toNat, BitVec.toNat_and]
  exact Nat.and_two_pow_sub_one_eq_mod x.toNat 8

theorem and_ffff (x : BitVec 64) : x &&& 0xFFFF = lowBytes 2 x := by
  apply BitVec.eq_of_toNat_eq
  rw [lowBytes_toNat, BitVec.toNat_and]
  exact Nat.and_two_pow_sub_one_eq_mod x.toNat 16

theorem shl_shr (x : BitVec 64) : (x <<< (32 : Nat)) >>> (32 : Nat) = lowBytes 4 x := by
  apply BitVec.eq_of_toNat_eq
  rw [lowBytes_toNat, BitVec.toNat_ushiftRight, BitVec.toNat_shiftLeft, Nat.shiftLeft_eq,
    Nat.shiftRight_eq_div_pow]
  have := x.isLt
  omega

/-- C10: after loading, sizes 1, 2 and 4 are cut to their bytes and everything else is unchanged. -/
theorem adjustSize_cuts {Γ : Btf} {t : Ty} {m : Mem} {reg : Nat} {st : St} {K : Nat → Prop} (hK : ¬ K reg) :
    Puts m (adjustSize Γ t reg) st false K reg (adjReg Γ t (st.regs reg)) := by
  by_cases h1 : Γ.sizeOf t = some 1
  · simp only [adjustSize, adjReg, h1]
    refine puts_set ?_ hK
    have h : sx32 0xFF = 0xFF := by decide
    simp only [stepI, aluEval, h, and_ff]
  by_cases h2 : Γ.sizeOf t = some 2
  · simp only [adjustSize, adjReg, h2]
    refine puts_set ?_ hK
    have h : sx32 0xFFFF = 0xFFFF := by decide
    simp only [stepI, aluEval, h, and_ffff]
  by_cases h4 : Γ.sizeOf t = some 4
  · simp only [adjustSize, adjReg, h4]
    have h : sx32 32 = 32 := by decide
    have h1 : Puts m [.aluImm .lsh reg 32] st false K reg (st.regs reg <<< (32 : Nat)) := by
      refine puts_set ?_ hK
      simp only [stepI, aluEval, h]
      rfl
    have := puts_append h1 (c2 := [.aluImm .rsh reg 32]) (a2 := false) (r2 := reg)
      (x2 := lowBytes 4 (st.regs reg)) fun s1 _ hx => by
        refine puts_set ?_ hK
        simp only [stepI, aluEval, h, hx]
        rw [← shl_shr]
        rfl
    exact this
  · have ha : adjustSize Γ t reg = [] := by
      unfold adjustSize; split <;> simp_all
    have hb : adjReg Γ t (st.regs reg) = st.regs reg := by
      unfold adjReg; split <;> simp_all
    rw [ha, hb]
    exact puts_nil rfl

/-! ### Bit-fields -/

/-- `n` bits from bit `d`. -/
def bits (d n : Nat) (x : BitVec 64) : BitVec 64 := BitVec.ofNat 64 (x.toNat / 2 ^ d % 2 ^ n)

theorem mask_and (n : Nat) (x : BitVec 64) : x &&& bfMask n = bits 0 n x := by
  unfold bits bfMask
  apply BitVec.eq_of_toNat_eq
  have hx := x.isLt
  rw [BitVec.toNat_ofNat, Nat.pow_zero, Nat.div_one, BitVec.toNat_and]
  by_cases hn : n < 64
  · have h1 : ((1#64 <<< n) - 1).toNat = 2 ^ n - 1 := by
      have hp : 2 ^ n < 2 ^ 64 := Nat.pow_lt_pow_right (by decide) hn
      have hp1 : 1 ≤ 2 ^ n := Nat.one_le_two_pow
      have hs : (1#64 <<< n).toNat = 2 ^ n := by
        rw [BitVec.toNat_shiftLeft, Nat.shiftLeft_eq]
        simp [Nat.mod_eq_of_lt hp]
      rw [BitVec.toNat_sub, hs]
      show (2 ^ 64 - 1 + 2 ^ n) % 2 ^ 64 = _
      rw [show 2 ^ 64 - 1 + 2 ^ n = (2 ^ n - 1) + 2 ^ 64 by omega, Nat.add_mod_right]
      exact Nat.mod_eq_of_lt (by omega)
    show x.toNat &&& ((1#64 <<< n) - 1).toNat = _
    rw [h1, Nat.and_two_pow_sub_one_eq_mod]
    exact (Nat.mod_eq_of_lt (Nat.lt_of_le_of_lt (Nat.mod_le _ _) hx)).symm
  · have h0 : 1#64 <<< n = 0#64 := by
      apply BitVec.eq_of_toNat_eq
      rw [BitVec.toNat_shiftLeft, Nat.shiftLeft_eq]
      have : 2 ^ 64 ∣ 2 ^ n := Nat.pow_dvd_pow 2 (by omega)
      simp [Nat.mod_eq_zero_of_dvd this]
    have h1 : ((1#64 <<< n) - 1).toNat = 2 ^ 64 - 1 := by rw [h0]; rfl
    show x.toNat &&& ((1#64 <<< n) - 1).toNat = _
    rw [h1, Nat.and_two_pow_sub_one_eq_mod]
    have hle : 2 ^ 64 ≤ 2 ^ n := Nat.pow_le_pow_right (by decide) (by omega)
    rw [Nat.mod_eq_of_lt hx, Nat.mod_eq_of_lt (Nat.lt_of_lt_of_le hx hle), Nat.mod_eq_of_lt hx]

theorem bits_shift (d n : Nat) (hd : d < 64) (x : BitVec 64) : bits 0 n (x >>> d) = bits d n x := by
  unfold bits
  rw [BitVec.toNat_ushiftRight, Nat.shiftRight_eq_div_pow, Nat.pow_zero, Nat.div_one]

/-- C09: extracting a bit-field leaves exactly its bits, provided the mask fits its immediate. -/
theorem bitfield_extracts {mem : Member} {m : Mem} {reg : Nat} {st : St} {K : Nat → Prop} (hK : ¬ K reg)
    (he : Exact (bitfieldExtract mem reg)) :
    Puts m (bitfieldExtract mem reg) st false K reg (bits (mem.bitOff % 8) mem.bfSize (st.regs reg)) := by
  unfold bitfieldExtract at he ⊢
  rw [exact_append] at he
  have hlt : mem.bitOff % 8 < 8 := Nat.mod_lt _ (by decide)
  have hmask : sx32 (bfMask mem.bfSize) = bfMask mem.bfSize := he.2 _ List.mem_cons_self
  have h2 : ∀ s1 : St, s1.regs reg = st.regs reg >>> (mem.bitOff % 8) →
      Puts m [.aluImm .and reg (bfMask mem.bfSize)] s1 false K reg
        (bits (mem.bitOff % 8) mem.bfSize (st.regs reg)) := by
    intro s1 hx
    refine puts_set ?_ hK
    simp only [stepI, aluEval, hmask, hx, mask_and]
    rw [bits_shift _ _ (by omega)]
  refine puts_append (a1 := false) (r1 := reg) (x1 := st.regs reg >>> (mem.bitOff % 8)) ?_ fun s1 _ hx => h2 s1 hx
  split
  · rename_i hne
    refine puts_set ?_ hK
    have hs : sx32 (BitVec.ofNat 64 (mem.bitOff % 8)) = BitVec.ofNat 64 (mem.bitOff % 8) := by
      generalize hg : mem.bitOff % 8 = g at hlt
      have hc : g = 0 ∨ g = 1 ∨ g = 2 ∨ g = 3 ∨ g = 4 ∨ g = 5 ∨ g = 6 ∨ g = 7 := by omega
      rcases hc with rfl | rfl | rfl | rfl | rfl | rfl | rfl | rfl <;> decide
    have ht : (BitVec.ofNat 64 (mem.bitOff % 8)).toNat % 64 = mem.bitOff % 8 := by
      rw [BitVec.toNat_ofNat, Nat.mod_eq_of_lt (show mem.bitOff % 8 < 2 ^ 64 by omega)]
      omega
    simp only [stepI, aluEval, hs, ht]
  · rename_i hz
    have hz : mem.bitOff % 8 = 0 := by simpa using hz
    rw [hz]
    exact puts_nil (by simp)

/-- Bits of the low bytes. -/
theorem bits_low {d n s : Nat} (h : d + n ≤ 8 * s) (x : BitVec 64) : bits d n (lowBytes s x) = bits d n x := by
  unfold bits
  rw [lowBytes_toNat]
  congr 1
  have h1 : 2 ^ (8 * s) = 2 ^ d * 2 ^ (8 * s - d) := by rw [← Nat.pow_add]; congr 1; omega
  rw [h1, Nat.mod_mul_right_div_self]
  exact Nat.mod_mod_of_dvd _ (Nat.pow_dvd_pow 2 (by omega))

end Bpfsnoop.Cc
