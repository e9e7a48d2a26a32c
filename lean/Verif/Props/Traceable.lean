import Verif.Model.Traceable
import Verif.Props.KRead
import Verif.Props.Disasm
import Verif.Props.KSess
import Verif.Props.Repr

/-
C63: a kernel function is kept exactly if its code can be hooked, and its calls are recognised in a stack.
-/
namespace Bpfsnoop.Tr
open KRead (Mem Byte)
open Flg (KFunc)

/-! ### Specification -/

/-- These bytes are in memory from `a` on. -/
def Code (m : Mem) (a : Addr) (l : List Byte) : Prop := ∀ i b, l[i]? = some b → m (a + BitVec.ofNat 64 i) = some b

/-- The sixteen bytes from `a` on can be read. -/
def Readable (m : Mem) (a : Addr) : Prop := ∀ i, i < 16 → (m (a + BitVec.ofNat 64 i)).isSome

/-- Where the compiler puts the call of the tracer (x86): after an endbr instruction if the kernel is built with them. -/
def site (c : Cpu) (a : Addr) : Addr := if c.endbr then a + 4#64 else a

/-- x86: a five-byte nop, a call or a jump. -/
def HookX86 (m : Mem) (a : Addr) : Prop :=
  Code m a [0x0F#8, 0x1F#8, 0x44#8, 0x00#8, 0x00#8] ∨ Code m a [0xE8#8] ∨ Code m a [0xE9#8]

/-- arm64: a nop. -/
def NopArm (m : Mem) (a : Addr) : Prop := Code m a [0x1F#8, 0x20#8, 0x03#8, 0xD5#8]

/-- arm64: an instruction `bl`, the upper six bits of which are 100101. -/
def Bl (m : Mem) (a : Addr) (top : Byte) : Prop := Code m (a + 3#64) [top] ∧ top >>> 2 = 0x25#8

/-- arm64: the offset of the `bl` is less than 64 MiB, forwards or backwards (the two upper bits of its 26 agree). -/
def NearBl (m : Mem) (a : Addr) : Prop := ∃ top, Bl m a top ∧ (top &&& 3#8 = 0#8 ∨ top &&& 3#8 = 3#8)

/-! ### Bytes -/

theorem add_ofNat (a : Addr) (i j : Nat) : a + BitVec.ofNat 64 i + BitVec.ofNat 64 j = a + BitVec.ofNat 64 (i + j) := by
  rw [BitVec.add_assoc]
  congr 1
  apply BitVec.eq_of_toNat_eq
  simp

theorem code_iff (m : Mem) (a : Addr) (buff : List Byte) (n : Nat) (h : m.get a n = some buff) (k : Nat) (l : List Byte) (hl : k + l.length ≤ n) :
    Code m (a + BitVec.ofNat 64 k) l ↔ (buff.drop k).take l.length = l := by
  have hlen := KRead.get_length m n a buff h
  have hg := KRead.get_getElem m n a buff h
  constructor
  · intro hc
    apply List.ext_getElem?
    intro i
    by_cases hi : i < l.length
    · rw [List.getElem?_take_of_lt hi, List.getElem?_drop, (hg (k + i) (by omega)).1]
      have := hc i l[i] (by simp [hi])
      rw [add_ofNat] at this
      rw [this]
      simp [hi]
    · rw [List.getElem?_eq_none (by simp; omega), List.getElem?_eq_none (by omega)]
  · intro he i b hb
    have hi : i < l.length := Kallsyms.lt_of_get hb
    rw [add_ofNat, ← (hg (k + i) (by omega)).1, ← List.getElem?_drop, ← List.getElem?_take_of_lt hi, he, hb]

theorem or_shift (a b : Nat) (ha : a < 2 ^ 32) (hb : b < 256) :
    (((BitVec.ofNat 8 b).setWidth 64 <<< 32) ||| BitVec.ofNat 64 a) = BitVec.ofNat 64 (a + 2 ^ 32 * b) := by
  apply BitVec.eq_of_toNat_eq
  rw [BitVec.toNat_or, BitVec.toNat_shiftLeft, BitVec.toNat_setWidth, BitVec.toNat_ofNat, BitVec.toNat_ofNat, BitVec.toNat_ofNat,
    Nat.mod_eq_of_lt (show b < 2 ^ 8 by omega), Nat.mod_eq_of_lt (show b < 2 ^ 64 by omega), Nat.mod_eq_of_lt (show a < 2 ^ 64 by omega),
    Nat.shiftLeft_eq, Nat.mod_eq_of_lt (show b * 2 ^ 32 < 2 ^ 64 by omega), Nat.mod_eq_of_lt (show a + 2 ^ 32 * b < 2 ^ 64 by omega)]
  rw [Nat.mul_comm b, ← Nat.two_pow_add_eq_or_of_lt ha, Nat.add_comm]

theorem five (p0 p1 p2 p3 p4 : Byte) : ((p4.setWidth 64 <<< 32) ||| le [p0, p1, p2, p3]) = BitVec.ofNat 64 (Arg.leVal [p0, p1, p2, p3, p4]) := by
  have h0 := p0.isLt
  have h1 := p1.isLt
  have h2 := p2.isLt
  have h3 := p3.isLt
  have h4 := p4.isLt
  have := or_shift (Arg.leVal [p0, p1, p2, p3]) p4.toNat (by simp only [Arg.leVal]; omega) h4
  rw [BitVec.ofNat_toNat, BitVec.setWidth_eq] at this
  rw [le, this]
  congr 1
  simp only [Arg.leVal]
  omega

theorem five_nop (p0 p1 p2 p3 p4 : Byte) :
    (((p4.setWidth 64 <<< 32) ||| le [p0, p1, p2, p3]) == 0x0000441F0F#64) = true ↔ [p0, p1, p2, p3, p4] = [0x0F#8, 0x1F#8, 0x44#8, 0x00#8, 0x00#8] := by
  have h0 := p0.isLt
  have h1 := p1.isLt
  have h2 := p2.isLt
  have h3 := p3.isLt
  have h4 := p4.isLt
  rw [five, beq_iff_eq]
  constructor
  · intro h
    have := congrArg BitVec.toNat h
    rw [BitVec.toNat_ofNat, Nat.mod_eq_of_lt (by simp only [Arg.leVal]; omega)] at this
    simp only [Arg.leVal] at this
    simp only [BitVec.toNat_ofNat] at this
    simp only [List.cons.injEq, and_true]
    refine ⟨?_, ?_, ?_, ?_, ?_⟩ <;> apply BitVec.eq_of_toNat_eq <;> simp only [BitVec.toNat_ofNat] <;> omega
  · intro h
    rw [h]
    decide

theorem five_rel (p0 p1 p2 p3 p4 : Byte) :
    ((((p4.setWidth 64 <<< 32) ||| le [p0, p1, p2, p3]) >>> 8) &&& 0xFFFFFFFF#64).setWidth 32 = BitVec.ofNat 32 (Arg.leVal [p1, p2, p3, p4]) := by
  have h0 := p0.isLt
  have h1 := p1.isLt
  have h2 := p2.isLt
  have h3 := p3.isLt
  have h4 := p4.isLt
  rw [five]
  apply BitVec.eq_of_toNat_eq
  have hlt : Arg.leVal [p0, p1, p2, p3, p4] < 2 ^ 64 := by simp only [Arg.leVal]; omega
  rw [BitVec.toNat_setWidth, BitVec.toNat_and, BitVec.toNat_ushiftRight, BitVec.toNat_ofNat,
    Nat.mod_eq_of_lt hlt, Nat.shiftRight_eq_div_pow]
  have e : (0xFFFFFFFF#64).toNat = 2 ^ 32 - 1 := rfl
  rw [e, Nat.and_two_pow_sub_one_eq_mod, BitVec.toNat_ofNat]
  simp only [Arg.leVal]
  omega

theorem arm_top : ∀ b : Byte, (b = 0x97#8 ∨ b = 0x94#8) ↔ (b >>> 2 = 0x25#8 ∧ (b &&& 3#8 = 0#8 ∨ b &&& 3#8 = 3#8)) := by decide

theorem arm_nop (p0 p1 p2 p3 : Byte) :
    ((le [p0, p1, p2, p3]).setWidth 32 == 0xD503201F#32) = true ↔ [p0, p1, p2, p3] = [0x1F#8, 0x20#8, 0x03#8, 0xD5#8] := by
  have h0 := p0.isLt
  have h1 := p1.isLt
  have h2 := p2.isLt
  have h3 := p3.isLt
  rw [beq_iff_eq]
  constructor
  · intro h
    have := congrArg BitVec.toNat h
    rw [le, BitVec.toNat_setWidth, BitVec.toNat_ofNat] at this
    simp only [Arg.leVal] at this
    simp only [BitVec.toNat_ofNat] at this
    simp only [List.cons.injEq, and_true]
    refine ⟨?_, ?_, ?_, ?_⟩ <;> apply BitVec.eq_of_toNat_eq <;> simp only [BitVec.toNat_ofNat] <;> omega
  · intro h
    rw [h]
    decide

theorem readable_get (m : Mem) (a : Addr) : Readable m a ↔ ∃ buff, m.get a 16 = some buff := by
  constructor
  · exact KRead.get_some m 16 a
  · rintro ⟨b, h⟩ i hi
    exact (KRead.get_getElem m 16 a b h i hi).2

/-- Five bytes of sixteen. -/
theorem split5 (l : List Byte) (h : 5 ≤ l.length) : ∃ p0 p1 p2 p3 p4 r, l = p0 :: p1 :: p2 :: p3 :: p4 :: r := by
  match l, h with
  | p0 :: p1 :: p2 :: p3 :: p4 :: r, _ => exact ⟨p0, p1, p2, p3, p4, r, rfl⟩

/-! ### Which functions are kept -/

/-- x86: a function is reported traceable exactly if its first sixteen bytes can be read and at the place of the tracer's call
is a five-byte nop, a call or a jump. -/
theorem probe_x86_iff (c : Cpu) (hc : c.arm64 = false) (m : Mem) (a : Addr) :
    (probe c m a).1 = true ↔ Readable m a ∧ HookX86 m (site c a) := by
  rw [readable_get]
  cases hg : m.get a 16 with
  | none => simp [probe, hg]
  | some buff =>
    have hlen := KRead.get_length m 16 a buff hg
    have key : ∀ (k : Nat), k ≤ 4 → ∀ ptr, ptr = buff.drop k →
        ((((((ptr.getD 4 0).setWidth 64 <<< 32) ||| le (ptr.take 4)) == 0x0000441F0F#64) || ptr.getD 0 0 == 0xE8#8 || ptr.getD 0 0 == 0xE9#8) = true ↔
          HookX86 m (a + BitVec.ofNat 64 k)) := by
      intro k hk ptr he
      unfold HookX86
      rw [code_iff m a buff 16 hg k _ (by simp; omega), code_iff m a buff 16 hg k _ (by simp; omega),
        code_iff m a buff 16 hg k _ (by simp; omega), ← he]
      obtain ⟨p0, p1, p2, p3, p4, r, hp⟩ := split5 ptr (by rw [he, List.length_drop]; omega)
      rw [hp]
      have := five_nop p0 p1 p2 p3 p4
      simp only [List.getD_eq_getElem?_getD, List.getElem?_cons_succ, List.getElem?_cons_zero, Option.getD_some, List.take_succ_cons,
        List.take_zero, Bool.or_eq_true, this, beq_iff_eq, List.length_cons, List.length_nil, List.cons.injEq, and_true, or_assoc]
    simp only [probe, hg, hc, Bool.false_eq_true, if_false, Option.some.injEq, exists_eq', true_and]
    unfold site
    by_cases hb : c.endbr = true
    · rw [if_pos hb, if_pos hb]
      exact key 4 (by omega) _ rfl
    · rw [if_neg hb, if_neg hb]
      have := key 0 (by omega) buff (by simp)
      simpa using this

/-- arm64: exactly if its first sixteen bytes can be read and its second instruction is a nop or a near `bl`. -/
theorem probe_arm_iff (c : Cpu) (hc : c.arm64 = true) (m : Mem) (a : Addr) :
    (probe c m a).1 = true ↔ Readable m a ∧ (NopArm m (a + 4#64) ∨ NearBl m (a + 4#64)) := by
  rw [readable_get]
  cases hg : m.get a 16 with
  | none => simp [probe, hg]
  | some buff =>
    have hlen := KRead.get_length m 16 a buff hg
    simp only [probe, hg, hc, if_true, Option.some.injEq, exists_eq', true_and]
    have hn : NopArm m (a + 4#64) ↔ (buff.drop 4).take 4 = [0x1F#8, 0x20#8, 0x03#8, 0xD5#8] :=
      code_iff m a buff 16 hg 4 _ (by simp)
    have hb : NearBl m (a + 4#64) ↔ ∃ top, (buff.drop 7).take 1 = [top] ∧ top >>> 2 = 0x25#8 ∧ (top &&& 3#8 = 0#8 ∨ top &&& 3#8 = 3#8) := by
      unfold NearBl Bl
      have e : a + 4#64 + 3#64 = a + BitVec.ofNat 64 7 := add_ofNat a 4 3
      rw [e]
      constructor
      · rintro ⟨t, ⟨h1, h2⟩, h3⟩
        exact ⟨t, (code_iff m a buff 16 hg 7 _ (by simp)).mp h1, h2, h3⟩
      · rintro ⟨t, h1, h2, h3⟩
        exact ⟨t, ⟨(code_iff m a buff 16 hg 7 [t] (by simp)).mpr h1, h2⟩, h3⟩
    rw [hn, hb]
    obtain ⟨p0, p1, p2, p3, p4, r, hp⟩ := split5 (buff.drop 4) (by rw [List.length_drop]; omega)
    have h7 : buff.drop 7 = p3 :: p4 :: r := by
      rw [show (7 : Nat) = 4 + 3 from rfl, ← List.drop_drop, hp]
      rfl
    rw [hp, h7]
    have h1 := arm_nop p0 p1 p2 p3
    have h2 := arm_top p3
    simp only [List.getD_eq_getElem?_getD, List.getElem?_cons_succ, List.getElem?_cons_zero, Option.getD_some, List.take_succ_cons,
      List.take_zero, Bool.or_eq_true, h1, beq_iff_eq, List.cons.injEq, and_true, exists_eq_left', ← h2, or_assoc]

/-- **Violated**: on a kernel built with endbr instructions, a function that has none (one whose address is never taken) is not
traced, although the call of the tracer is there. -/
theorem no_endbr_violated (c : Cpu) (hc : c.arm64 = false) (he : c.endbr = true) (m : Mem) (a : Addr)
    (h : Code m a [0x0F#8, 0x1F#8, 0x44#8, 0x00#8, 0x00#8]) : (probe c m a).1 = false := by
  rw [Bool.eq_false_iff]
  intro hp
  obtain ⟨_, h'⟩ := (probe_x86_iff c hc m a).mp hp
  have h4 : m (a + BitVec.ofNat 64 4) = some 0x00#8 := h 4 _ rfl
  rw [site, if_pos he] at h'
  have key : ∀ (b : Byte) (l : List Byte), Code m (a + 4#64) (b :: l) → b = 0x00#8 := by
    intro b l hcd
    have := hcd 0 b rfl
    rw [show a + 4#64 + BitVec.ofNat 64 0 = a + BitVec.ofNat 64 4 from add_ofNat a 4 0, h4] at this
    exact (Option.some.inj this).symm
  rcases h' with h' | h' | h'
  · exact absurd (key _ _ h') (by decide)
  · exact absurd (key _ _ h') (by decide)
  · exact absurd (key _ _ h') (by decide)

/-- **Violated**: on arm64 a function that is traced already, with a `bl` reaching 64 MiB or more, is reported as not
traceable. -/
theorem far_bl_violated (c : Cpu) (hc : c.arm64 = true) (m : Mem) (a : Addr) (top : Byte) (h : Bl m (a + 4#64) top)
    (hf : top &&& 3#8 = 1#8 ∨ top &&& 3#8 = 2#8) : (probe c m a).1 = false := by
  rw [Bool.eq_false_iff]
  intro hp
  have ht := h.1 0 top rfl
  rcases ((probe_arm_iff c hc m a).mp hp).2 with h' | ⟨t, h1, h2⟩
  · have h3 := h' 3 0xD5#8 rfl
    have e : a + 4#64 + 3#64 + BitVec.ofNat 64 0 = a + 4#64 + BitVec.ofNat 64 3 := add_ofNat (a + 4#64) 3 0
    rw [e, h3] at ht
    have := Option.some.inj ht
    subst this
    exact absurd h.2 (by decide)
  · have h3 := h1.1 0 t rfl
    rw [ht] at h3
    have := Option.some.inj h3
    subst this
    rcases h2 with h2 | h2 <;> rcases hf with hf | hf <;> rw [h2] at hf <;> exact absurd hf (by decide)

/-- **Violated**: a function without a call of the tracer whose own code begins with a call or a jump is reported traceable. -/
theorem own_call_violated (c : Cpu) (hc : c.arm64 = false) (m : Mem) (a : Addr) (hr : Readable m a)
    (h : Code m (site c a) [0xE8#8] ∨ Code m (site c a) [0xE9#8]) : (probe c m a).1 = true :=
  (probe_x86_iff c hc m a).mpr ⟨hr, .inr h⟩

theorem drop_spec : ∀ (l : List (Addr × Bool × Addr)) (kf : KFuncs) (x : Addr),
    drop l kf x = if ∃ t, (x, false, t) ∈ l then none else kf x
  | [], kf, x => by simp [drop]
  | (a, t, tr) :: r, kf, x => by
    rw [drop, drop_spec r]
    by_cases h : ∃ t, (x, false, t) ∈ r
    · rw [if_pos h, if_pos (by obtain ⟨t', ht⟩ := h; exact ⟨t', by simp [ht]⟩)]
    · rw [if_neg h]
      cases t with
      | true =>
        have hn : ¬ ∃ t, (x, false, t) ∈ (a, true, tr) :: r := by
          rintro ⟨t', ht⟩
          rcases List.mem_cons.mp ht with e | e
          · simp at e
          · exact h ⟨t', e⟩
        rw [if_neg hn, if_pos rfl]
      | false =>
        simp only [Bool.false_eq_true, if_false]
        by_cases hx : x = a
        · rw [if_pos hx, if_pos ⟨tr, by simp [hx]⟩]
        · rw [if_neg hx, if_neg]
          rintro ⟨t', ht⟩
          rcases List.mem_cons.mp ht with e | e
          · simp [hx] at e
          · exact h ⟨t', e⟩

theorem zip_map_mem {β : Type} (f : Addr → β) : ∀ (l : List Addr) (x : Addr) (b : β), (x, b) ∈ l.zip (l.map f) ↔ x ∈ l ∧ b = f x
  | [], x, b => by simp
  | a :: l, x, b => by
    rw [List.map_cons, List.zip_cons_cons, List.mem_cons, zip_map_mem f l, List.mem_cons, Prod.mk.injEq]
    constructor
    · rintro (⟨rfl, rfl⟩ | ⟨h1, h2⟩)
      · exact ⟨.inl rfl, rfl⟩
      · exact ⟨.inr h1, h2⟩
    · rintro ⟨rfl | h1, h2⟩
      · exact .inl ⟨rfl, h2⟩
      · exact .inr ⟨h1, h2⟩

theorem detect_ok (c : Cpu) (m : Mem) (l : List Addr) (h : l.length ≤ 1024) : detect c m l = some (l.map (probe c m)) := by
  have : addrCap = 1024 := rfl
  rw [detect, if_neg (by omega), List.take_of_length_le (by omega)]

theorem detectAll_spec (c : Cpu) (m : Mem) : ∀ (n : Nat) (l : List Addr) (kf : KFuncs), l.length ≤ n →
    ∃ kf', detectAll c m l kf = some kf' ∧ ∀ x, kf' x = if x ∈ l ∧ (probe c m x).1 = false then none else kf x
  | n, [], kf, _ => ⟨kf, by rw [detectAll]; simp, by simp⟩
  | 0, a :: l, kf, h => by simp at h
  | n + 1, a :: l, kf, h => by
    have hcap : addrCap = 1024 := rfl
    rw [detectAll]
    simp only [List.isEmpty_cons, Bool.false_eq_true, if_false]
    generalize hl : a :: l = l' at *
    have hpos : 0 < l'.length := by rw [← hl]; simp
    by_cases hbig : l'.length > addrCap
    · simp only [if_pos hbig]
      rw [detect_ok c m _ (by rw [List.length_take]; omega)]
      simp only []
      obtain ⟨kf', h1, h2⟩ := detectAll_spec c m n (l'.drop addrCap) (drop ((l'.take addrCap).zip ((l'.take addrCap).map (probe c m))) kf)
        (by rw [List.length_drop]; omega)
      refine ⟨kf', h1, fun x => ?_⟩
      rw [h2, drop_spec]
      have hm : x ∈ l' ↔ x ∈ l'.take addrCap ∨ x ∈ l'.drop addrCap := by
        rw [← List.mem_append, List.take_append_drop]
      have hz : (∃ t, (x, false, t) ∈ (l'.take addrCap).zip ((l'.take addrCap).map (probe c m))) ↔ x ∈ l'.take addrCap ∧ (probe c m x).1 = false := by
        constructor
        · rintro ⟨t, ht⟩
          obtain ⟨h3, h4⟩ := (zip_map_mem _ _ _ _).mp ht
          exact ⟨h3, by rw [← h4]⟩
        · rintro ⟨h3, h4⟩
          exact ⟨(probe c m x).2, (zip_map_mem _ _ _ _).mpr ⟨h3, by rw [← h4]⟩⟩
      by_cases hp : (probe c m x).1 = false
      · by_cases hx1 : x ∈ l'.drop addrCap
        · rw [if_pos ⟨hx1, hp⟩, if_pos ⟨hm.mpr (.inr hx1), hp⟩]
        · rw [if_neg (fun h => hx1 h.1)]
          by_cases hx2 : x ∈ l'.take addrCap
          · rw [if_pos (hz.mpr ⟨hx2, hp⟩), if_pos ⟨hm.mpr (.inl hx2), hp⟩]
          · rw [if_neg (fun h => hx2 (hz.mp h).1), if_neg (fun h => (hm.mp h.1).elim hx2 hx1)]
      · rw [if_neg (fun h => hp h.2), if_neg (fun h => hp (hz.mp h).2), if_neg (fun h => hp h.2)]
    · simp only [if_neg hbig]
      rw [detect_ok c m _ (by omega)]
      simp only []
      refine ⟨drop (l'.zip (l'.map (probe c m))) kf, by rw [detectAll]; simp only [List.isEmpty_nil, if_true], fun x => ?_⟩
      rw [drop_spec]
      congr 1
      apply propext
      constructor
      · rintro ⟨t, ht⟩
        obtain ⟨h3, h4⟩ := (zip_map_mem _ _ _ _).mp ht
        exact ⟨h3, by rw [← h4]⟩
      · rintro ⟨h3, h4⟩
        exact ⟨(probe c m x).2, (zip_map_mem _ _ _ _).mpr ⟨h3, by rw [← h4]⟩⟩

theorem kept_probe (c : Cpu) (m : Mem) (addrs : List Addr) (kf : KFuncs) (hk : ∀ a, a ∈ addrs ↔ kf a ≠ none) :
    ∃ kf', detectAll c m addrs kf = some kf' ∧ ∀ a f, kf' a = some f ↔ kf a = some f ∧ (probe c m a).1 = true := by
  obtain ⟨kf', h1, h2⟩ := detectAll_spec c m _ addrs kf (Nat.le_refl _)
  refine ⟨kf', h1, fun a f => ?_⟩
  rw [h2]
  by_cases hp : (probe c m a).1 = true
  · rw [if_neg (by simp [hp])]
    simp [hp]
  · by_cases ha : a ∈ addrs
    · rw [if_pos ⟨ha, by simpa using hp⟩]
      simp [hp]
    · have : kf a = none := Classical.byContradiction fun h => ha ((hk a).mpr h)
      rw [if_neg (fun h => ha h.1), this]
      simp

/-- However many functions there are, exactly those are dropped that cannot be hooked; the rest is unchanged. -/
theorem kept_iff (c : Cpu) (hc : c.arm64 = false) (m : Mem) (addrs : List Addr) (kf : KFuncs) (hk : ∀ a, a ∈ addrs ↔ kf a ≠ none) :
    ∃ kf', detectAll c m addrs kf = some kf' ∧ ∀ a f, kf' a = some f ↔ kf a = some f ∧ Readable m a ∧ HookX86 m (site c a) := by
  obtain ⟨kf', h1, h2⟩ := kept_probe c m addrs kf hk
  exact ⟨kf', h1, fun a f => by rw [h2, probe_x86_iff c hc]⟩

/-- The same on arm64. -/
theorem kept_arm_iff (c : Cpu) (hc : c.arm64 = true) (m : Mem) (addrs : List Addr) (kf : KFuncs) (hk : ∀ a, a ∈ addrs ↔ kf a ≠ none) :
    ∃ kf', detectAll c m addrs kf = some kf' ∧
      ∀ a f, kf' a = some f ↔ kf a = some f ∧ Readable m a ∧ (NopArm m (a + 4#64) ∨ NearBl m (a + 4#64)) := by
  obtain ⟨kf', h1, h2⟩ := kept_probe c m addrs kf hk
  exact ⟨kf', h1, fun a f => by rw [h2, probe_arm_iff c hc]⟩

/-- **Violated**: code of fewer than sixteen bytes at the end of mapped memory is not traceable, whatever it is. -/
theorem short_read_violated (c : Cpu) (m : Mem) (a : Addr) (i : Nat) (hi : i < 16) (h : m (a + BitVec.ofNat 64 i) = none) :
    (probe c m a).1 = false := by
  rw [Bool.eq_false_iff]
  intro hp
  have hr : Readable m a := by
    cases hc : c.arm64 with
    | true => exact ((probe_arm_iff c hc m a).mp hp).1
    | false => exact ((probe_x86_iff c hc m a).mp hp).1
  have := hr i hi
  rw [h] at this
  cases this

/-! ### Trampolines -/

/-- x86: at `a` is a jump to `t`: 0xE9 and the distance from the next instruction, 32 bits, little endian. -/
def JumpTo (m : Mem) (a t : Addr) : Prop :=
  ∃ r0 r1 r2 r3, Code m a [0xE9#8, r0, r1, r2, r3] ∧
    t = a + 5#64 + (BitVec.ofNat 32 (r0.toNat + 256 * r1.toNat + 65536 * r2.toNat + 16777216 * r3.toNat)).signExtend 64

/-- Where functions are hooked by jumps, the trampoline found is the target of the jump. -/
theorem tramp_target (c : Cpu) (hc : c.arm64 = false) (hj : c.jmp = true) (m : Mem) (a t : Addr) (hr : Readable m a)
    (h : JumpTo m (site c a) t) : probe c m a = (true, t) := by
  obtain ⟨buff, hg⟩ := (readable_get m a).mp hr
  have hlen := KRead.get_length m 16 a buff hg
  obtain ⟨r0, r1, r2, r3, hcode, ht⟩ := h
  have h1 : (probe c m a).1 = true := (probe_x86_iff c hc m a).mpr ⟨hr, .inr (.inr (by
    intro i b hb
    cases i with
    | zero => exact hcode 0 b hb
    | succ i => simp at hb))⟩
  have key : ∀ (k : Nat), k ≤ 4 → Code m (a + BitVec.ofNat 64 k) [0xE9#8, r0, r1, r2, r3] →
      (buff.drop k).getD 0 0 = 0xE9#8 ∧ (((((((buff.drop k).getD 4 0).setWidth 64 <<< 32) ||| le ((buff.drop k).take 4)) >>> 8) &&& 0xFFFFFFFF#64).setWidth 32) =
        BitVec.ofNat 32 (r0.toNat + 256 * r1.toNat + 65536 * r2.toNat + 16777216 * r3.toNat) := by
    intro k hk hcd
    rw [code_iff m a buff 16 hg k _ (by simp; omega)] at hcd
    obtain ⟨p0, p1, p2, p3, p4, r, hp⟩ := split5 (buff.drop k) (by rw [List.length_drop]; omega)
    rw [hp] at hcd ⊢
    simp only [List.length_cons, List.length_nil, List.take_succ_cons, List.take_zero, List.cons.injEq, and_true] at hcd
    obtain ⟨rfl, rfl, rfl, rfl, rfl⟩ := hcd
    have := five_rel 0xE9#8 p1 p2 p3 p4
    simp only [List.getD_eq_getElem?_getD, List.getElem?_cons_succ, List.getElem?_cons_zero, Option.getD_some, List.take_succ_cons,
      List.take_zero, true_and]
    rw [this]
    congr 1
    simp only [Arg.leVal]
    omega
  have h2 : (probe c m a).2 = t := by
    simp only [probe, hg, hc, Bool.false_eq_true, if_false, hj, Bool.true_and]
    rw [ht]
    unfold site at hcode ⊢
    by_cases hb : c.endbr = true
    · simp only [if_pos hb] at hcode ⊢
      obtain ⟨h3, h4⟩ := key 4 (by omega) hcode
      rw [h3, h4]
      simp
    · simp only [if_neg hb] at hcode ⊢
      obtain ⟨h3, h4⟩ := key 0 (by omega) (by simpa using hcode)
      rw [List.drop_zero] at h3 h4
      rw [h3, h4]
      simp
  rw [← h1, ← h2]

/-- Otherwise there is none. -/
theorem no_tramp (c : Cpu) (m : Mem) (a : Addr) (h : c.arm64 = true ∨ c.jmp = false ∨ ¬ Code m (site c a) [0xE9#8]) : (probe c m a).2 = 0 := by
  cases hg : m.get a 16 with
  | none => simp [probe, hg]
  | some buff =>
    have hlen := KRead.get_length m 16 a buff hg
    cases hc : c.arm64 with
    | true => simp [probe, hg, hc]
    | false =>
      simp only [probe, hg, hc, Bool.false_eq_true, if_false]
      rcases h with h | h | h
      · rw [hc] at h; cases h
      · simp [h]
      · rw [if_neg]
        intro h'
        simp only [Bool.and_eq_true, beq_iff_eq] at h'
        apply h
        have key : ∀ (k : Nat), k ≤ 4 → (buff.drop k).getD 0 0 = 0xE9#8 → Code m (a + BitVec.ofNat 64 k) [0xE9#8] := by
          intro k hk he
          rw [code_iff m a buff 16 hg k _ (by simp; omega)]
          obtain ⟨p0, p1, p2, p3, p4, r, hp⟩ := split5 (buff.drop k) (by rw [List.length_drop]; omega)
          rw [hp] at he ⊢
          simp only [List.getD_eq_getElem?_getD, List.getElem?_cons_zero, Option.getD_some] at he
          simp [he]
        unfold site
        by_cases hb : c.endbr = true
        · rw [if_pos hb] at h' ⊢
          exact key 4 (by omega) h'.2
        · rw [if_neg hb] at h' ⊢
          simpa using key 0 (by omega) (by simpa using h'.2)

/-- The mode is read from the code of a traced program: a jump after the optional endbr. -/
theorem jmpMode_iff (old : Bool) (p0 p1 p2 p3 p4 : Byte) (r : List Byte) (h : 4 ≤ r.length) :
    jmpMode false old (p0 :: p1 :: p2 :: p3 :: p4 :: r) = true ↔
      if Util.isEndbrInsn (BitVec.ofNat 32 (Arg.leVal [p0, p1, p2, p3])) then p4 = 0xE9#8 else p0 = 0xE9#8 := by
  have e : (le [p0, p1, p2, p3]).setWidth 32 = BitVec.ofNat 32 (Arg.leVal [p0, p1, p2, p3]) := by
    rw [le]
    apply BitVec.eq_of_toNat_eq
    have h0 := p0.isLt
    have h1 := p1.isLt
    have h2 := p2.isLt
    have h3 := p3.isLt
    rw [BitVec.toNat_setWidth, BitVec.toNat_ofNat, BitVec.toNat_ofNat]
    simp only [Arg.leVal]
    omega
  unfold jmpMode
  rw [if_neg (by simp; omega)]
  simp only [List.take_succ_cons, List.take_zero, e]
  split <;> simp

/-! ### Return addresses -/

theorem mem_zip_probe (c : Cpu) (m : Mem) (l : List Addr) (t f : Addr) :
    (t, f) ∈ trampsOf (l.zip (l.map (probe c m))) ↔ f ∈ l ∧ probe c m f = (true, t) := by
  have h : ∀ (z : List (Addr × Bool × Addr)), (t, f) ∈ trampsOf z ↔ (f, true, t) ∈ z := by
    intro z
    induction z with
    | nil => simp [trampsOf]
    | cons x z ih =>
      obtain ⟨a, b, tr⟩ := x
      rw [trampsOf]
      cases b with
      | true => simp [ih, and_comm]
      | false => simp [ih]
  rw [h, zip_map_mem]
  constructor
  · rintro ⟨h1, h2⟩; exact ⟨h1, h2.symm⟩
  · rintro ⟨h1, h2⟩; exact ⟨h1, h2.symm⟩

theorem probeTramps_spec (c : Cpu) (m : Mem) : ∀ (n : Nat) (l : List Addr), l.length ≤ n →
    ∃ ts, probeTramps c m l = some ts ∧ ∀ t f, (t, f) ∈ ts ↔ f ∈ l ∧ probe c m f = (true, t)
  | n, [], _ => ⟨[], by rw [probeTramps]; simp, by simp⟩
  | 0, a :: l, h => by simp at h
  | n + 1, a :: l, h => by
    have hcap : addrCap = 1024 := rfl
    rw [probeTramps]
    simp only [List.isEmpty_cons, Bool.false_eq_true, if_false]
    generalize hl : a :: l = l' at *
    have hpos : 0 < l'.length := by rw [← hl]; simp
    by_cases hbig : l'.length > addrCap
    · simp only [if_pos hbig]
      rw [detect_ok c m _ (by rw [List.length_take]; omega)]
      obtain ⟨ts, h1, h2⟩ := probeTramps_spec c m n (l'.drop addrCap) (by rw [List.length_drop]; omega)
      simp only [h1, Option.map_some]
      refine ⟨_, rfl, fun t f => ?_⟩
      rw [List.mem_append, mem_zip_probe, h2]
      have hm : f ∈ l' ↔ f ∈ l'.take addrCap ∨ f ∈ l'.drop addrCap := by
        rw [← List.mem_append, List.take_append_drop]
      rw [hm, or_and_right]
    · simp only [if_neg hbig]
      rw [detect_ok c m _ (by omega), probeTramps]
      simp only [List.isEmpty_nil, if_true, Option.map_some, List.append_nil]
      exact ⟨_, rfl, fun t f => mem_zip_probe c m l' t f⟩

/-- The distance of the return address from the function's. -/
def dist (c : Cpu) : Addr := callSize c + (if c.endbr then 4 else 0) + (if c.arm64 then 4 else 0)

/-- The functions of the graph: of the kernel and of programs. -/
def InGraph (fns : List Fn) (f : Addr) : Prop := Fn.kernel f ∈ fns ∨ Fn.prog f ∈ fns

theorem traceeIP_eq (c : Cpu) (f : Addr) : traceeIP c f = f + dist c := by
  unfold traceeIP dist
  rw [BitVec.add_assoc, BitVec.add_assoc, BitVec.add_assoc]

theorem traceeIP_inj (c : Cpu) (f g : Addr) (h : traceeIP c f = traceeIP c g) : f = g := by
  rw [traceeIP_eq, traceeIP_eq] at h
  simpa using h

theorem traceeIPs_spec (c : Cpu) : ∀ (fns : List Fn) (m : IpMap), (∀ ip f, m ip = some f → ip = traceeIP c f) →
    ∀ ip f, traceeIPs c fns m ip = some f ↔ ip = traceeIP c f ∧ (InGraph fns f ∨ m ip = some f)
  | [], m, hm, ip, f => by
    simp only [traceeIPs, InGraph, List.not_mem_nil, or_self, false_or]
    exact ⟨fun h => ⟨hm ip f h, h⟩, fun h => h.2⟩
  | .unknown :: r, m, hm, ip, f => by
    rw [traceeIPs, traceeIPs_spec c r m hm]
    simp [InGraph]
  | .kernel g :: r, m, hm, ip, f => by
    have hp : ∀ ip f, put m (traceeIP c g) g ip = some f → ip = traceeIP c f := by
      intro ip f h
      unfold put at h
      split at h
      · cases h; assumption
      · exact hm ip f h
    rw [traceeIPs, traceeIPs_spec c r _ hp]
    constructor
    · rintro ⟨rfl, h⟩
      refine ⟨rfl, ?_⟩
      rcases h with (h | h) | h
      · exact .inl (.inl (by simp [h]))
      · exact .inl (.inr (by simp [h]))
      · unfold put at h
        split at h
        · cases h; exact .inl (.inl (by simp))
        · exact .inr h
    · rintro ⟨rfl, h⟩
      refine ⟨rfl, ?_⟩
      by_cases hfg : f = g
      · exact .inr (by rw [put, if_pos (by rw [hfg]), hfg])
      · rcases h with (h | h) | h
        · exact .inl (.inl (by simpa [hfg] using h))
        · exact .inl (.inr (by simpa using h))
        · exact .inr (by rw [put, if_neg (fun e => hfg (traceeIP_inj c f g e)), h])
  | .prog g :: r, m, hm, ip, f => by
    have hp : ∀ ip f, put m (traceeIP c g) g ip = some f → ip = traceeIP c f := by
      intro ip f h
      unfold put at h
      split at h
      · cases h; assumption
      · exact hm ip f h
    rw [traceeIPs, traceeIPs_spec c r _ hp]
    constructor
    · rintro ⟨rfl, h⟩
      refine ⟨rfl, ?_⟩
      rcases h with (h | h) | h
      · exact .inl (.inl (by simp [h]))
      · exact .inl (.inr (by simp [h]))
      · unfold put at h
        split at h
        · cases h; exact .inl (.inr (by simp))
        · exact .inr h
    · rintro ⟨rfl, h⟩
      refine ⟨rfl, ?_⟩
      by_cases hfg : f = g
      · exact .inr (by rw [put, if_pos (by rw [hfg]), hfg])
      · rcases h with (h | h) | h
        · exact .inl (.inl (by simpa using h))
        · exact .inl (.inr (by simpa [hfg] using h))
        · exact .inr (by rw [put, if_neg (fun e => hfg (traceeIP_inj c f g e)), h])

/-- Without jumps an address of a stack is taken for a call of `f` exactly if it is the address after the call of the tracer in
`f`, and `f` is a function of the graph. -/
theorem tracee_iff (c : Cpu) (hj : c.jmp = false) (m : Mem) (D : Dis.Decoder) (code : Addr → Option (List Byte)) (fns : List Fn) (addrs : List Addr) :
    ∃ t, populate c m D code fns addrs = some t ∧ ∀ ip f, t ip = some f ↔ InGraph fns f ∧
      ip = f + (if c.arm64 then 4#64 else 5#64) + (if c.endbr then 4#64 else 0#64) + (if c.arm64 then 4#64 else 0#64) := by
  refine ⟨traceeIPs c fns fun _ => none, by simp [populate, hj], fun ip f => ?_⟩
  rw [traceeIPs_spec c fns _ (by simp)]
  constructor
  · rintro ⟨h1, h2⟩
    exact ⟨h2.resolve_right (by simp), h1⟩
  · rintro ⟨h1, h2⟩
    exact ⟨h2, .inl h1⟩

/-- Specification: in this listing an instruction that ends at `ip` is a direct call. -/
def CallEndsAt (insts : List (Nat × List Byte)) (ip : Addr) : Prop :=
  ∃ i ∈ insts, i.2.head? = some 0xE8#8 ∧ ip = BitVec.ofNat 64 (i.1 + i.2.length)

/-- The instructions of a listing follow each other. -/
def Consecutive : Nat → List (Nat × List Byte) → Prop
  | _, [] => True
  | pc, i :: r => i.1 = pc ∧ Consecutive (pc + i.2.length) r

theorem insnsOf_consecutive (D : Dis.Decoder) : ∀ (n pc : Nat) (b : List Byte), b.length ≤ n → Consecutive pc (Dis.insnsOf D pc b)
  | n, pc, b, h => by
    rw [Dis.insnsOf]
    split
    · trivial
    · rename_i k hk
      have hb := D.ok _ _ _ hk
      refine ⟨rfl, ?_⟩
      have e : (b.take k).length = k := by rw [List.length_take]; omega
      simp only [e]
      cases n with
      | zero => omega
      | succ n => exact insnsOf_consecutive D n (pc + k) (b.drop k) (by rw [List.length_drop]; omega)

theorem calls_spec : ∀ (insts : List (Nat × List Byte)) (pc : Nat), Consecutive pc insts → ∀ ip : Addr,
    ip ∈ extract.calls insts (BitVec.ofNat 64 pc) ↔ CallEndsAt insts ip
  | [], pc, _, ip => by simp [extract.calls, CallEndsAt]
  | i :: r, pc, h, ip => by
    obtain ⟨h1, h2⟩ := h
    have e : BitVec.ofNat 64 pc + BitVec.ofNat 64 i.2.length = BitVec.ofNat 64 (pc + i.2.length) := by
      apply BitVec.eq_of_toNat_eq
      simp
    have hh : (i.2.headD 0 == 0xE8#8) = true ↔ i.2.head? = some 0xE8#8 := by
      cases i.2 with
      | nil => simp
      | cons a l => simp
    have ih := calls_spec r _ h2 ip
    rw [extract.calls]
    simp only [e]
    unfold CallEndsAt at ih ⊢
    by_cases hc : (i.2.headD 0 == 0xE8#8) = true
    · rw [if_pos hc, List.mem_cons, ih]
      constructor
      · rintro (rfl | ⟨x, hx, h3⟩)
        · exact ⟨i, by simp, hh.mp hc, by rw [h1]⟩
        · exact ⟨x, by simp [hx], h3⟩
      · rintro ⟨x, hx, h3, h4⟩
        rcases List.mem_cons.mp hx with rfl | hx
        · exact .inl (by rw [h4, h1])
        · exact .inr ⟨x, hx, h3, h4⟩
    · rw [if_neg hc, ih]
      constructor
      · rintro ⟨x, hx, h3⟩
        exact ⟨x, by simp [hx], h3⟩
      · rintro ⟨x, hx, h3, h4⟩
        rcases List.mem_cons.mp hx with rfl | hx
        · exact absurd (hh.mpr h3) hc
        · exact ⟨x, hx, h3, h4⟩

/-- The addresses taken from a trampoline are those after its direct calls. -/
theorem extract_iff (D : Dis.Decoder) (code : Addr → Option (List Byte)) (t : Addr) (ips : List Addr) (h : extract D code t = some ips) :
    ∃ b, code t = some b ∧ ∀ ip, ip ∈ ips ↔ CallEndsAt (Dis.insnsOf D t.toNat b) ip := by
  unfold extract at h
  split at h
  · cases h
  · rename_i b hb
    simp only at h
    split at h
    · cases h
    · cases h
      refine ⟨b, hb, fun ip => ?_⟩
      have := calls_spec (Dis.insnsOf D t.toNat b) t.toNat (insnsOf_consecutive D _ _ _ (Nat.le_refl _)) ip
      rwa [BitVec.ofNat_toNat, BitVec.setWidth_eq] at this

/-- The address after a call in the trampoline of a function. -/
def TrampIp (D : Dis.Decoder) (code : Addr → Option (List Byte)) (ts : List (Addr × Addr)) (ip f : Addr) : Prop :=
  ∃ t b, (t, f) ∈ ts ∧ code t = some b ∧ CallEndsAt (Dis.insnsOf D t.toNat b) ip

theorem foldl_put (f : Addr) : ∀ (ips : List Addr) (m : IpMap) (ip : Addr),
    ips.foldl (fun m ip => put m ip f) m ip = if ip ∈ ips then some f else m ip
  | [], m, ip => by simp
  | a :: l, m, ip => by
    rw [List.foldl_cons, foldl_put f l]
    by_cases h : ip ∈ l
    · rw [if_pos h, if_pos (by simp [h])]
    · rw [if_neg h]
      unfold put
      by_cases ha : ip = a
      · rw [if_pos ha, if_pos (by simp [ha])]
      · rw [if_neg ha, if_neg (by simp [ha, h])]

theorem trampIPs_spec (D : Dis.Decoder) (code : Addr → Option (List Byte)) :
    ∀ (ts : List (Addr × Addr)) (m m' : IpMap), trampIPs D code ts m = some m' →
      (∀ ip f, m' ip = some f → TrampIp D code ts ip f ∨ m ip = some f) ∧
      (∀ ip, (∃ f, TrampIp D code ts ip f) → ∃ f, TrampIp D code ts ip f ∧ m' ip = some f) ∧
      (∀ ip, (¬ ∃ f, TrampIp D code ts ip f) → m' ip = m ip)
  | [], m, m', h => by
    cases h
    refine ⟨fun ip f h => .inr h, ?_, fun _ _ => rfl⟩
    rintro ip ⟨f, t, b, h, _⟩
    cases h
  | (t, f) :: r, m, m', h => by
    rw [trampIPs] at h
    cases he : extract D code t with
    | none => rw [he] at h; cases h
    | some ips =>
      rw [he] at h
      obtain ⟨b, hb, hi⟩ := extract_iff D code t ips he
      obtain ⟨h1, h2, h3⟩ := trampIPs_spec D code r _ m' h
      have up : ∀ ip g, TrampIp D code r ip g → TrampIp D code ((t, f) :: r) ip g := by
        rintro ip g ⟨t', b', h4, h5⟩
        exact ⟨t', b', by simp [h4], h5⟩
      have here : ∀ ip, ip ∈ ips → TrampIp D code ((t, f) :: r) ip f := fun ip hip => ⟨t, b, by simp, hb, (hi ip).mp hip⟩
      have inv : ∀ ip g, TrampIp D code ((t, f) :: r) ip g → TrampIp D code r ip g ∨ ip ∈ ips := by
        rintro ip g ⟨t', b', h4, h5, h6⟩
        rcases List.mem_cons.mp h4 with e | h4
        · cases e
          rw [hb] at h5
          cases h5
          exact .inr ((hi ip).mpr h6)
        · exact .inl ⟨t', b', h4, h5, h6⟩
      refine ⟨fun ip g hg => ?_, fun ip hex => ?_, fun ip hn => ?_⟩
      · rcases h1 ip g hg with h4 | h4
        · exact .inl (up ip g h4)
        · rw [foldl_put] at h4
          split at h4
          · cases h4; exact .inl (here ip (by assumption))
          · exact .inr h4
      · by_cases hr : ∃ g, TrampIp D code r ip g
        · obtain ⟨g, h4, h5⟩ := h2 ip hr
          exact ⟨g, up ip g h4, h5⟩
        · obtain ⟨g, hg⟩ := hex
          have hip := (inv ip g hg).resolve_left (fun h => hr ⟨g, h⟩)
          exact ⟨f, here ip hip, by rw [h3 ip hr, foldl_put, if_pos hip]⟩
      · have hr : ¬ ∃ g, TrampIp D code r ip g := fun ⟨g, hg⟩ => hn ⟨g, up ip g hg⟩
        rw [h3 ip hr, foldl_put, if_neg (fun hip => hn ⟨f, here ip hip⟩)]

/-- A graph function hooked by a jump to a trampoline with this call. -/
def JmpIp (c : Cpu) (m : Mem) (D : Dis.Decoder) (code : Addr → Option (List Byte)) (addrs : List Addr) (ip f : Addr) : Prop :=
  ∃ t b, f ∈ addrs ∧ probe c m f = (true, t) ∧ code t = some b ∧ CallEndsAt (Dis.insnsOf D t.toNat b) ip

/-- With jumps an address is taken for a call of `f` if it is the address after a call in the trampoline of `f`, provided that no
other function has the same; any other address is treated as without jumps. -/
theorem jmp_iff_partial (c : Cpu) (hj : c.jmp = true) (m : Mem) (D : Dis.Decoder) (code : Addr → Option (List Byte)) (fns : List Fn) (addrs : List Addr)
    (t : IpMap) (h : populate c m D code fns addrs = some t)
    (hu : ∀ ip f g, JmpIp c m D code addrs ip f → JmpIp c m D code addrs ip g → f = g) :
    (∀ ip f, JmpIp c m D code addrs ip f → t ip = some f) ∧
    (∀ ip, (¬ ∃ f, JmpIp c m D code addrs ip f) → ∀ f, t ip = some f ↔ InGraph fns f ∧ ip = f + dist c) := by
  unfold populate at h
  obtain ⟨ts, h1, h2⟩ := probeTramps_spec c m _ addrs (Nat.le_refl _)
  simp only [hj, Bool.not_true, Bool.false_eq_true, if_false, h1] at h
  cases ht : trampIPs D code ts fun _ => none with
  | none => rw [ht] at h; cases h
  | some m' =>
    rw [ht, Option.map_some] at h
    cases h
    obtain ⟨h3, h4, h5⟩ := trampIPs_spec D code ts _ m' ht
    have eq : ∀ ip f, TrampIp D code ts ip f ↔ JmpIp c m D code addrs ip f := by
      intro ip f
      constructor
      · rintro ⟨t, b, h6, h7, h8⟩
        exact ⟨t, b, ((h2 t f).mp h6).1, ((h2 t f).mp h6).2, h7, h8⟩
      · rintro ⟨t, b, h6, h7, h8, h9⟩
        exact ⟨t, b, (h2 t f).mpr ⟨h6, h7⟩, h8, h9⟩
    refine ⟨fun ip f hf => ?_, fun ip hn f => ?_⟩
    · obtain ⟨g, hg, hm⟩ := h4 ip ⟨f, (eq ip f).mpr hf⟩
      have := hu ip f g hf ((eq ip g).mp hg)
      subst this
      simp only [hm, Option.some_or]
    · simp only [h5 ip (fun ⟨f, hf⟩ => hn ⟨f, (eq ip f).mp hf⟩), Option.none_or]
      rw [traceeIPs_spec c fns _ (by simp), traceeIP_eq]
      constructor
      · rintro ⟨h6, h7⟩
        exact ⟨h7.resolve_right (by simp), h6⟩
      · rintro ⟨h6, h7⟩
        exact ⟨h7, .inl h6⟩

/-! ### The depth shown -/

/-- A frame of a stack: in a traced function of the graph (after the call of the tracer), or elsewhere. -/
inductive Frame where
  | call (f : Addr)
  | other (ip : Addr)

def Frame.ip (c : Cpu) : Frame → Addr
  | .call f => f + dist c
  | .other ip => ip

def Frame.isCall : Frame → Bool
  | .call _ => true
  | .other _ => false

/-- The frames name functions of the graph where they are in one, and only there. -/
def FramesOk (c : Cpu) (fns : List Fn) (fr : Frame) : Prop :=
  match fr with
  | .call f => InGraph fns f ∧ f ≠ 0
  | .other ip => ∀ f, InGraph fns f → ip ≠ f + dist c

theorem funcIp_call (c : Cpu) (fns : List Fn) (t : IpMap) (ht : ∀ ip f, t ip = some f ↔ InGraph fns f ∧ ip = f + dist c) (f : Addr)
    (h : FramesOk c fns (.call f)) : funcIp t (Frame.ip c (.call f)) = f := by
  have : t (f + dist c) = some f := (ht _ f).mpr ⟨h.1, rfl⟩
  simp [funcIp, Frame.ip, this]

theorem funcIp_other (c : Cpu) (fns : List Fn) (t : IpMap) (ht : ∀ ip f, t ip = some f ↔ InGraph fns f ∧ ip = f + dist c) (ip : Addr)
    (h : FramesOk c fns (.other ip)) : funcIp t (Frame.ip c (.other ip)) = 0 := by
  unfold funcIp
  cases he : t ip with
  | none => simp [Frame.ip, he]
  | some f => exact absurd ((ht ip f).mp he).2 (h f ((ht ip f).mp he).1)

/-- The event of a function of the graph carries the session of the caller that has one and, as its depth, the number of traced
calls down from it, if that is within the limits. -/
theorem depth_shown (c : Cpu) (hj : c.jmp = false) (m : Mem) (D : Dis.Decoder) (code : Addr → Option (List Byte)) (fns : List Fn) (addrs : List Addr)
    (sess : Addr → Addr) (cur root : Addr) (pre mid post : List Frame) (maxDepth maxStack : Nat)
    (hok : ∀ fr ∈ pre ++ .call cur :: mid ++ .call root :: post, FramesOk c fns fr)
    (hpre : Frame.call cur ∉ pre) (hmid : ∀ f, Frame.call f ∈ mid → sess f = 0) (hroot : sess root ≠ 0)
    (hd : (mid.filter Frame.isCall).length + 1 ≤ maxDepth ∨ mid.filter Frame.isCall = [])
    (hs : (pre ++ .call cur :: mid ++ .call root :: post).length ≤ maxStack) :
    ∃ t, populate c m D code fns addrs = some t ∧
      KSess.tryGetSession (funcIp t) sess cur maxDepth maxStack ((pre ++ .call cur :: mid ++ .call root :: post).map (Frame.ip c)) =
        some (sess root, (mid.filter Frame.isCall).length + 1) := by
  obtain ⟨t, h1, h2⟩ := tracee_iff c hj m D code fns addrs
  have ht : ∀ ip f, t ip = some f ↔ InGraph fns f ∧ ip = f + dist c := by
    intro ip f
    rw [h2]
    unfold dist
    have e : f + (callSize c + (if c.endbr then 4 else 0) + (if c.arm64 then 4 else 0)) =
        f + (if c.arm64 then 4#64 else 5#64) + (if c.endbr then 4#64 else 0#64) + (if c.arm64 then 4#64 else 0#64) := by
      unfold callSize
      rw [BitVec.add_assoc, BitVec.add_assoc, BitVec.add_assoc]
      rfl
    rw [e]
  refine ⟨t, h1, ?_⟩
  have hcall : ∀ f, FramesOk c fns (.call f) → funcIp t (f + dist c) = f := fun f => funcIp_call c fns t ht f
  have hother : ∀ ip, FramesOk c fns (.other ip) → funcIp t ip = 0 := fun ip => funcIp_other c fns t ht ip
  have hcur := hok (.call cur) (by simp)
  have hr := hok (.call root) (by simp)
  rw [KSess.graph_depth_iff (funcIp t) sess cur hcur.2]
  refine ⟨⟨pre.map (Frame.ip c), cur + dist c, mid.map (Frame.ip c), root + dist c, post.map (Frame.ip c), ?_, ?_, hcall cur hcur, ?_, ?_, ?_, hroot, ?_⟩, ?_⟩
  · rw [List.take_of_length_le (by simpa using hs)]
    simp [Frame.ip]
  · intro x hx
    obtain ⟨fr, hfr, rfl⟩ := List.mem_map.mp hx
    have hk := hok fr (by simp [hfr])
    cases fr with
    | other ip => exact .inl (hother ip hk)
    | call f =>
      right
      rw [show Frame.ip c (.call f) = f + dist c from rfl, hcall f hk]
      rintro rfl
      exact hpre hfr
  · intro x hx hne
    obtain ⟨fr, hfr, rfl⟩ := List.mem_map.mp hx
    have hk := hok fr (by simp [hfr])
    cases fr with
    | other ip => exact absurd (hother ip hk) hne
    | call f =>
      rw [show Frame.ip c (.call f) = f + dist c from rfl, hcall f hk]
      exact hmid f hfr
  · rw [hcall root hr]; exact hr.2
  · rw [hcall root hr]
  · have hlen : ∀ l : List Frame, (∀ fr ∈ l, FramesOk c fns fr) →
        ((l.map (Frame.ip c)).filter fun x => decide (funcIp t x ≠ 0)).length = (l.filter Frame.isCall).length := by
      intro l
      induction l with
      | nil => intro _; rfl
      | cons fr l ih =>
        intro hl
        have hk := hl fr (by simp)
        have ih := ih (fun x hx => hl x (by simp [hx]))
        rw [List.map_cons, List.filter_cons, List.filter_cons]
        cases fr with
        | other ip =>
          have : funcIp t (Frame.ip c (.other ip)) = 0 := hother ip hk
          rw [this]
          simpa [Frame.isCall] using ih
        | call f =>
          have : funcIp t (Frame.ip c (.call f)) = f := hcall f hk
          have hne : f ≠ 0#64 := hk.2
          rw [this, if_pos (by simpa using hne), if_pos (show (Frame.call f).isCall = true from rfl), List.length_cons, List.length_cons, ih]
    rw [hlen mid (fun fr hfr => hok fr (by simp [hfr]))]
    omega
  · rcases hd with hd | hd
    · exact .inl hd
    · right; rw [hd]; rfl

/-! ### Examples -/

/-- A kernel with two functions, one not yet traced and one hooked by a jump 0x100 bytes back. -/
def exMem : Mem := fun a =>
  if a.toNat < 0x1000 ∨ 0x1060 ≤ a.toNat then none
  else some ([0xF3#8, 0x0F#8, 0x1E#8, 0xFA#8, 0x0F#8, 0x1F#8, 0x44#8, 0x00#8, 0x00#8, 0xC3#8, 0xCC#8, 0xCC#8, 0xCC#8, 0xCC#8, 0xCC#8, 0xCC#8,
    0xF3#8, 0x0F#8, 0x1E#8, 0xFA#8, 0xE9#8, 0x00#8, 0xFF#8, 0xFF#8, 0xFF#8, 0xC3#8].getD (a.toNat - 0x1000) 0xCC#8)

def exCpu : Cpu := ⟨false, true, true⟩

example : probe exCpu exMem 0x1000 = (true, 0) := by decide +kernel
example : probe exCpu exMem 0x1010 = (true, 0xF19) := by decide +kernel
example : probe exCpu exMem 0x1020 = (false, 0) := by decide +kernel
example : probe { exCpu with endbr := false } exMem 0x1000 = (false, 0) := by decide +kernel

example : JumpTo exMem (site exCpu 0x1010) 0xF19 := by
  refine ⟨0x00#8, 0xFF#8, 0xFF#8, 0xFF#8, ?_, by decide +kernel⟩
  intro i b h
  match i, h with
  | 0, h => cases h; decide +kernel
  | 1, h => cases h; decide +kernel
  | 2, h => cases h; decide +kernel
  | 3, h => cases h; decide +kernel
  | 4, h => cases h; decide +kernel

/-- The hypotheses of `depth_shown`: 0x3000 called by 0x2000, which is called by the root 0x1000. -/
example : ∀ fr ∈ [Frame.other 0x9999] ++ .call 0x3000 :: [.other 0x5000, .call 0x2000] ++ .call 0x1000 :: [.other 0x6000],
    FramesOk { exCpu with jmp := false } [.kernel 0x1000, .kernel 0x2000, .prog 0x3000, .unknown] fr := by
  have key : ∀ ip : Addr, ip ≠ 0x1009 → ip ≠ 0x2009 → ip ≠ 0x3009 →
      FramesOk { exCpu with jmp := false } [.kernel 0x1000, .kernel 0x2000, .prog 0x3000, .unknown] (.other ip) := by
    intro ip h1 h2 h3 f hf
    have : f = 0x1000 ∨ f = 0x2000 ∨ f = 0x3000 := by
      simpa [InGraph, or_assoc] using hf
    rcases this with rfl | rfl | rfl
    · exact h1
    · exact h2
    · exact h3
  intro fr h
  simp only [List.cons_append, List.nil_append, List.mem_cons, List.not_mem_nil, or_false] at h
  rcases h with rfl | rfl | rfl | rfl | rfl | rfl
  · exact key _ (by decide) (by decide) (by decide)
  · exact ⟨.inr (by simp), by decide⟩
  · exact key _ (by decide) (by decide) (by decide)
  · exact ⟨.inl (by simp), by decide⟩
  · exact ⟨.inl (by simp), by decide⟩
  · exact key _ (by decide) (by decide) (by decide)

end Bpfsnoop.Tr
