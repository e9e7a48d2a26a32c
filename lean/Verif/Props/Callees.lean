import Verif.Model.Callees
import Verif.Props.Disasm
import Verif.Props.KRead
import Verif.Props.Util

/-! C100: which functions a function of a call graph calls. -/
namespace Bpfsnoop.Cal
open KRead (Mem Byte readKernel)
open Dis (Decoder guessBytes insnsOf trimTail NthInsn Unpadded)

/-- Specification: a 32-bit number as the four bytes of an operand, lowest first. -/
def operand (r : BitVec 32) : List Byte :=
  [r.setWidth 8, (r >>> 8).setWidth 8, (r >>> 16).setWidth 8, (r >>> 24).setWidth 8]

/-- Specification: the instruction `bs` at `pc` is a call of `x`: the byte E8 and the distance from the next instruction. -/
def CallAt (pc : Nat) (bs : List Byte) (x : BitVec 64) : Prop :=
  ∃ r, bs = 0xE8#8 :: operand r ∧ x = BitVec.ofNat 64 pc + 5#64 + r.signExtend 64

/-- Specification: the instruction `bs` at `pc` is a jump to `x`. -/
def JumpAt (pc : Nat) (bs : List Byte) (x : BitVec 64) : Prop :=
  ∃ r, bs = 0xE9#8 :: operand r ∧ x = BitVec.ofNat 64 pc + 5#64 + r.signExtend 64

/-- Specification: an address of kernel code, the upper 4 GiB. -/
def Text (x : BitVec 64) : Prop := 0xFFFFFFFF00000000#64 ≤ x

/-- Specification: the code at `a`, as long as can be read at once, in readable memory (reads are of eight bytes). -/
structure CodeAt (m : Mem) (a : Nat) (fn : List Byte) : Prop where
  some : fn ≠ []
  short : fn.length ≤ 65528
  mem : ∃ rest : List Byte, rest.length < 8 ∧ (fn.length + rest.length) % 8 = 0 ∧ Dis.Holds m a (fn ++ rest)

theorem leU32_operand (r : BitVec 32) : Util.leU32 (UInt8.ofBitVec (r.setWidth 8)) (UInt8.ofBitVec ((r >>> 8).setWidth 8))
    (UInt8.ofBitVec ((r >>> 16).setWidth 8)) (UInt8.ofBitVec ((r >>> 24).setWidth 8)) = r := by
  apply BitVec.eq_of_toNat_eq
  unfold Util.leU32
  simp only [UInt8.toNat_ofBitVec, BitVec.toNat_setWidth, BitVec.toNat_ofNat, BitVec.toNat_ushiftRight, Nat.shiftRight_eq_div_pow]
  have := r.isLt
  omega

theorem operand_leU32 (b0 b1 b2 b3 : Byte) :
    operand (Util.leU32 (UInt8.ofBitVec b0) (UInt8.ofBitVec b1) (UInt8.ofBitVec b2) (UInt8.ofBitVec b3)) = [b0, b1, b2, b3] := by
  have h0 := b0.isLt
  have h1 := b1.isLt
  have h2 := b2.isLt
  have h3 := b3.isLt
  unfold operand Util.leU32
  simp only [List.cons.injEq, and_true]
  refine ⟨?_, ?_, ?_, ?_⟩ <;> apply BitVec.eq_of_toNat_eq <;>
    simp only [UInt8.toNat_ofBitVec, BitVec.toNat_setWidth, BitVec.toNat_ofNat, BitVec.toNat_ushiftRight, Nat.shiftRight_eq_div_pow] <;> omega

theorem callee_ne (k : BitVec 64) (r : BitVec 32) : Util.getCalleeIP k r ≠ 0#64 := by
  intro h
  have := Util.calleeIP_high k r 32 (by omega) (by omega)
  rw [h] at this
  simp at this

theorem callee_call (pc : Nat) (r : BitVec 32) : callee (pc, 0xE8#8 :: operand r) = Util.getCalleeIP (BitVec.ofNat 64 pc) r := by
  unfold callee operand
  simp only [List.map_cons, List.map_nil, Util.getCalleeIPFromInsn]
  rw [leU32_operand, if_pos (by decide)]

theorem callee_inv (pc : Nat) (bs : List Byte) (h : callee (pc, bs) ≠ 0#64) : ∃ r, bs = 0xE8#8 :: operand r := by
  unfold callee at h
  match bs, h with
  | [], h => simp [Util.getCalleeIPFromInsn] at h
  | [_], h => simp [Util.getCalleeIPFromInsn] at h
  | [_, _], h => simp [Util.getCalleeIPFromInsn] at h
  | [_, _, _], h => simp [Util.getCalleeIPFromInsn] at h
  | [_, _, _, _], h => simp [Util.getCalleeIPFromInsn] at h
  | [op, b0, b1, b2, b3], h =>
    simp only [List.map_cons, List.map_nil, Util.getCalleeIPFromInsn] at h
    split at h
    · rename_i ho
      have : op = 0xE8#8 := congrArg UInt8.toBitVec ho
      exact ⟨_, by rw [operand_leU32, this]⟩
    · exact absurd rfl h
  | _ :: _ :: _ :: _ :: _ :: _ :: _, h => simp [Util.getCalleeIPFromInsn] at h

theorem code_read {m : Mem} {a : Nat} {fn : List Byte} (h : CodeAt m a fn) (t : Kallsyms.Tables) (buff : List Byte)
    (hb : buff.length = KRead.buffSize) (D : Decoder) (isBPF : Bool) :
    look D m t buff a fn.length isBPF = scan isBPF (insnsOf D a (trimTail fn)) := by
  obtain ⟨h0, h1, rest, hr1, hr2, hm⟩ := h
  have hl : fn.length ≠ 0 := by
    intro h; exact h0 (List.length_eq_zero_iff.1 h)
  unfold look guessBytes
  rw [if_pos hl]
  simp only []
  rw [Dis.read_holds m buff hb a fn.length (by omega) (fn ++ rest) (by rw [List.length_append]; omega) hm]
  simp

theorem head_insn {D : Decoder} {a : Nat} {code : List Byte} {ip : Nat} {bs : List Byte} (h : NthInsn D 0 a code ip bs) :
    bs.head? = code.head? := by
  obtain ⟨_, n, hn, rfl⟩ := h
  have := (D.ok _ _ _ hn).1
  cases code with
  | nil => simp
  | cons x r => cases n with
    | zero => omega
    | succ n => rfl

theorem scan_first {D : Decoder} {a : Nat} {code : List Byte} (h : ∃ ip bs, NthInsn D 0 a code ip bs) :
    ∃ i r, insnsOf D a code = i :: r ∧ NthInsn D 0 a code i.1 i.2 := by
  obtain ⟨ip, bs, h⟩ := h
  have := (Dis.insnsOf_nth D 0 a code ip bs).2 h
  cases hi : insnsOf D a code with
  | nil => rw [hi] at this; cases this
  | cons i r =>
    rw [hi] at this
    have e : i = (ip, bs) := by simpa using this
    subst e
    exact ⟨_, r, rfl, h⟩

/-- **C100.** The functions found are exactly the targets of the call instructions, wherever they are in the code, for code that calls into the
kernel and is no BPF program that begins with a jump. -/
theorem calls_found (D : Decoder) (m : Mem) (t : Kallsyms.Tables) (buff : List Byte) (hb : buff.length = KRead.buffSize)
    (a : Nat) (fn code : List Byte) (hc : CodeAt m a fn) (hu : Unpadded fn code) (h0 : ∃ ip bs, NthInsn D 0 a code ip bs)
    (isBPF : Bool) (hj : isBPF = true → code.head? ≠ some 0xE9#8)
    (hk : ∀ i pc bs x, NthInsn D i a code pc bs → CallAt pc bs x → Text x) :
    ∃ l, look D m t buff a fn.length isBPF = .calls l ∧ ∀ x, x ∈ l ↔ ∃ i pc bs, NthInsn D i a code pc bs ∧ CallAt pc bs x := by
  have hcode : trimTail fn = code := Dis.unpadded_unique (Dis.trimTail_spec fn) hu
  obtain ⟨i, r, hi, hn⟩ := scan_first h0
  refine ⟨((insnsOf D a code).map callee).filter (· ≠ 0#64), ?_, ?_⟩
  · rw [code_read hc t buff hb, hcode, hi]
    unfold scan
    simp only []
    rw [if_neg]
    intro h
    simp only [Bool.and_eq_true, beq_iff_eq] at h
    rw [head_insn hn] at h
    exact hj h.1 h.2
  · intro x
    simp only [List.mem_filter, List.mem_map, decide_eq_true_eq, Prod.exists]
    have key : ∀ pc bs i, NthInsn D i a code pc bs → ∀ r, bs = 0xE8#8 :: operand r →
        callee (pc, bs) = BitVec.ofNat 64 pc + 5#64 + r.signExtend 64 := by
      intro pc bs i hn r hr
      rw [hr, callee_call]
      exact (Util.calleeIP_correct_iff _ r).2 (hk i pc bs _ hn ⟨r, hr, rfl⟩)
    constructor
    · rintro ⟨⟨pc, bs, hm, rfl⟩, hne⟩
      obtain ⟨r, hr⟩ := callee_inv pc bs hne
      obtain ⟨k, hk'⟩ := List.mem_iff_getElem?.1 hm
      have hn := (Dis.insnsOf_nth D _ _ _ _ _).1 hk'
      exact ⟨k, pc, bs, hn, r, hr, key pc bs k hn r hr⟩
    · rintro ⟨k, pc, bs, hn, r, hr, rfl⟩
      have h1 := key pc bs k hn r hr
      refine ⟨⟨pc, bs, List.mem_iff_getElem?.2 ⟨k, (Dis.insnsOf_nth D _ _ _ _ _).2 hn⟩, h1⟩, ?_⟩
      rw [← h1, hr, callee_call]
      exact callee_ne _ _

/-- **C100.** A BPF program that begins with a jump counts as replaced by what it jumps to. -/
theorem replaced_found (D : Decoder) (m : Mem) (t : Kallsyms.Tables) (buff : List Byte) (hb : buff.length = KRead.buffSize)
    (a : Nat) (fn code : List Byte) (hc : CodeAt m a fn) (hu : Unpadded fn code) (ip : Nat) (bs : List Byte)
    (h0 : NthInsn D 0 a code ip bs) (x : BitVec 64) (hj : JumpAt a bs x) (hx : Text x) :
    look D m t buff a fn.length true = .replaced x := by
  have hcode : trimTail fn = code := Dis.unpadded_unique (Dis.trimTail_spec fn) hu
  obtain ⟨r, hr, rfl⟩ := hj
  have h1 := (Dis.insnsOf_nth D _ _ _ _ _).2 h0
  have hip : ip = a := h0.1
  rw [code_read hc t buff hb, hcode]
  cases hi : insnsOf D a code with
  | nil => rw [hi] at h1; cases h1
  | cons i rs =>
    rw [hi] at h1
    have e : i = (ip, bs) := by simpa using h1
    subst e
    unfold scan
    simp only [hr, operand]
    rw [if_pos (by simp), leU32_operand, hip]
    exact congrArg _ ((Util.calleeIP_correct_iff _ r).2 hx)

/-- **C100, violated.** Jumps are not followed: a function that a kernel function calls by a jump, as its last call, is not found unless it
is also called. -/
theorem jump_violated (D : Decoder) (m : Mem) (t : Kallsyms.Tables) (buff : List Byte) (hb : buff.length = KRead.buffSize)
    (a : Nat) (fn code : List Byte) (hc : CodeAt m a fn) (hu : Unpadded fn code) (h0 : ∃ ip bs, NthInsn D 0 a code ip bs)
    (hn : ∀ i pc bs x, NthInsn D i a code pc bs → ¬ CallAt pc bs x) : look D m t buff a fn.length false = .calls [] := by
  obtain ⟨l, h1, h2⟩ := calls_found D m t buff hb a fn code hc hu h0 false (by simp) (fun i pc bs x h1 h2 => absurd h2 (hn i pc bs x h1))
  rw [h1]
  cases l with
  | nil => rfl
  | cons x r =>
    obtain ⟨i, pc, bs, h3, h4⟩ := (h2 x).1 (by simp)
    exact absurd h4 (hn i pc bs x h3)

/-- **C100, violated.** A BPF program compiled with an endbr instruction before the jump that replaces it is not recognised as replaced: what
its old code calls is found, and the program that replaces it is not. -/
theorem endbr_violated (D : Decoder) (m : Mem) (t : Kallsyms.Tables) (buff : List Byte) (hb : buff.length = KRead.buffSize)
    (a : Nat) (fn code : List Byte) (hc : CodeAt m a fn) (hu : Unpadded fn code) (h0 : ∃ ip bs, NthInsn D 0 a code ip bs)
    (he : [0xF3#8, 0x0F#8, 0x1E#8, 0xFA#8, 0xE9#8] <+: code) (x : BitVec 64) : look D m t buff a fn.length true ≠ .replaced x := by
  have hcode : trimTail fn = code := Dis.unpadded_unique (Dis.trimTail_spec fn) hu
  obtain ⟨i, r, hi, hn⟩ := scan_first h0
  rw [code_read hc t buff hb, hcode, hi]
  unfold scan
  simp only []
  rw [if_neg]
  · simp
  · intro h
    simp only [Bool.and_eq_true, beq_iff_eq] at h
    rw [head_insn hn] at h
    obtain ⟨s, hs⟩ := he
    rw [← hs] at h
    simp at h

/-- **C100, violated.** A BPF program of more than 64 KiB is an error, which ends bpfsnoop. -/
theorem large_violated (D : Decoder) (m : Mem) (t : Kallsyms.Tables) (buff : List Byte) (a n : Nat) (h1 : 65536 < n) (h2 : n ≤ 2 ^ 32 - 8)
    (isBPF : Bool) : look D m t buff a n isBPF = .error := by
  unfold look guessBytes
  rw [if_pos (by omega)]
  simp only []
  have : (readKernel m buff (BitVec.ofNat 64 a) (BitVec.ofNat 32 n)) = (.tooLarge, buff) := by
    apply KRead.large_refused
    all_goals (simp; omega)
  rw [this]

/-- **C100, violated.** Of a kernel function longer than 4096 bytes only these are looked at. -/
theorem long_violated {sysBPF : String} {ls : List Kallsyms.Line} {t : Kallsyms.Tables}
    (hs : Kallsyms.scan sysBPF ls Kallsyms.Tables.empty = some t) (s : Kallsyms.Sym) (hm : s ∈ Kallsyms.texts ls)
    (hl : ∀ u ∈ Kallsyms.texts ls, s.addr < u.addr → s.addr + 4096 ≤ u.addr) : guessBytes t s.addr 0 = some 4096 := by
  rcases Dis.guess_next hs s hm with ⟨_, h⟩ | ⟨u, hu, hu1, _, h⟩
  · exact h
  · rw [h]
    have := hl u hu hu1
    congr 1
    omega

/-- **C100, violated.** Code of which the first instruction cannot be decoded is an error, which ends bpfsnoop. -/
theorem undecodable_violated (D : Decoder) (m : Mem) (t : Kallsyms.Tables) (buff : List Byte) (hb : buff.length = KRead.buffSize)
    (a : Nat) (fn code : List Byte) (hc : CodeAt m a fn) (hu : Unpadded fn code) (h0 : D.dec a code = none) (isBPF : Bool) :
    look D m t buff a fn.length isBPF = .error := by
  have hcode : trimTail fn = code := Dis.unpadded_unique (Dis.trimTail_spec fn) hu
  rw [code_read hc t buff hb, hcode]
  have : insnsOf D a code = [] := by
    rw [insnsOf]
    split
    · rfl
    · rename_i h; rw [h0] at h; cases h
  rw [this]
  rfl

/-- Calls and jumps are five bytes long, everything else is one byte. -/
def fiveOrOne : Decoder where
  dec _ b := if b.isEmpty then none else if (b.head? = some 0xE8#8 ∨ b.head? = some 0xE9#8) ∧ 5 ≤ b.length then some 5 else some 1
  ok := by
    intro pc b n h
    split at h
    · cases h
    · rename_i hb
      have : 0 < b.length := by
        cases b with
        | nil => simp at hb
        | cons x r => simp
      split at h
      · rename_i h5; cases h; exact ⟨by omega, h5.2⟩
      · cases h; exact ⟨by omega, by omega⟩

/-- `push %rbp`, a call of the next address but four, `ret`, padding. -/
def body : List Byte := [0x55#8, 0xE8#8, 0xFB#8, 0xFF#8, 0xFF#8, 0xFF#8, 0xC3#8, 0xCC#8]

def bodyMem : Mem := fun a => body[a.toNat - 0xFFFFFFFF81000000]?

/-- Witness: of this function exactly one callee is found. -/
theorem calls_witness (t : Kallsyms.Tables) : ∃ l, look fiveOrOne bodyMem t KRead.fresh 0xFFFFFFFF81000000 8 false = .calls l ∧
    ∀ x, x ∈ l ↔ x = 0xFFFFFFFF81000001#64 := by
  have hc : CodeAt bodyMem 0xFFFFFFFF81000000 body := by
    refine ⟨by decide, by decide, [], by decide, by decide, ?_⟩
    intro i h
    rw [List.append_nil] at h
    have : ∀ i : Fin 8, bodyMem (BitVec.ofNat 64 (0xFFFFFFFF81000000 + i.val)) = some ((body ++ [])[i.val]'(by have := i.isLt; simp [body])) := by
      decide +kernel
    exact this ⟨i, h⟩
  have hu : Unpadded body [0x55#8, 0xE8#8, 0xFB#8, 0xFF#8, 0xFF#8, 0xFF#8, 0xC3#8] := ⟨[0xCC#8], rfl, by decide, by decide⟩
  have only : ∀ i pc bs, NthInsn fiveOrOne i 0xFFFFFFFF81000000 [0x55#8, 0xE8#8, 0xFB#8, 0xFF#8, 0xFF#8, 0xFF#8, 0xC3#8] pc bs →
      bs = [0x55#8] ∨ bs = [0xC3#8] ∨ pc = 0xFFFFFFFF81000001 ∧ bs = [0xE8#8, 0xFB#8, 0xFF#8, 0xFF#8, 0xFF#8] := by
    intro i pc bs h
    rcases i with _ | _ | _ | i
    · obtain ⟨_, n, hn, rfl⟩ := h; cases hn; exact Or.inl rfl
    · obtain ⟨n, hn, rfl, k, hk, rfl⟩ := h; cases hn; cases hk; exact Or.inr (Or.inr ⟨rfl, rfl⟩)
    · obtain ⟨n, hn, k, hk, rfl, j, hj, rfl⟩ := h; cases hn; cases hk; cases hj; exact Or.inr (Or.inl rfl)
    · obtain ⟨n, hn, k, hk, j, hj, h⟩ := h
      cases hn; cases hk; cases hj
      cases i with
      | zero => obtain ⟨_, n, hn, _⟩ := h; cases hn
      | succ i => obtain ⟨n, hn, _⟩ := h; cases hn
  have target : ∀ pc bs x, pc = 0xFFFFFFFF81000001 → bs = [0xE8#8, 0xFB#8, 0xFF#8, 0xFF#8, 0xFF#8] → CallAt pc bs x →
      x = 0xFFFFFFFF81000001#64 := by
    rintro pc bs x rfl rfl ⟨r, hr, rfl⟩
    have h1 : operand r = operand 0xFFFFFFFB#32 := by
      have : operand 0xFFFFFFFB#32 = [0xFB#8, 0xFF#8, 0xFF#8, 0xFF#8] := by decide +kernel
      rw [this]
      exact (List.cons.inj hr).2.symm
    have h2 : r = 0xFFFFFFFB#32 := by
      rw [← leU32_operand r, ← leU32_operand 0xFFFFFFFB#32]
      unfold operand at h1
      simp only [List.cons.injEq] at h1
      rw [h1.1, h1.2.1, h1.2.2.1, h1.2.2.2.1]
    rw [h2]
    decide +kernel
  have none1 : ∀ b pc x, b = 0x55#8 ∨ b = 0xC3#8 → ¬ CallAt pc [b] x := by
    rintro b pc x hb ⟨r, hr, _⟩
    simp [operand] at hr
  obtain ⟨l, h1, h2⟩ := calls_found fiveOrOne bodyMem t KRead.fresh List.length_replicate 0xFFFFFFFF81000000 body _ hc hu
    ⟨_, _, rfl, 1, rfl, rfl⟩ false (by simp) (by
      intro i pc bs x hn hx
      rcases only i pc bs hn with rfl | rfl | ⟨hp, hb⟩
      · exact absurd hx (none1 _ _ _ (Or.inl rfl))
      · exact absurd hx (none1 _ _ _ (Or.inr rfl))
      · rw [target pc bs x hp hb hx]; unfold Text; decide)
  refine ⟨l, h1, fun x => ?_⟩
  rw [h2]
  constructor
  · rintro ⟨i, pc, bs, hn, hx⟩
    rcases only i pc bs hn with rfl | rfl | ⟨hp, hb⟩
    · exact absurd hx (none1 _ _ _ (Or.inl rfl))
    · exact absurd hx (none1 _ _ _ (Or.inr rfl))
    · exact target pc bs x hp hb hx
  · rintro rfl
    exact ⟨1, 0xFFFFFFFF81000001, [0xE8#8, 0xFB#8, 0xFF#8, 0xFF#8, 0xFF#8], ⟨1, rfl, rfl, 5, rfl, rfl⟩, 0xFFFFFFFB#32,
      by decide +kernel, by decide +kernel⟩

end Bpfsnoop.Cal
