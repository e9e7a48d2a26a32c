/-
The BPF instructions that `internal/cc` emits, and a machine that runs them.

Instruction constructors correspond to the `asm.*` calls in `internal/cc`; immediates are kept as
the 64-bit values the Go code computes and are cut to 32 bits (offsets to 16 bits) when executed,
as the `int32(..)`/`int16(..)` conversions and the instruction encoding do.

Not modelled: instruction encoding, the kernel verifier, 32-bit ALU instructions (none emitted).
-/
namespace Bpfsnoop.Cc

/-- ALU operations (64-bit) emitted by the compiler. -/
inductive Alu | add | sub | mul | div | mod | and | or | xor | lsh | rsh
deriving DecidableEq, Repr

/-- Conditional jumps emitted by the compiler, all unsigned (`asm.JEq` .. `asm.JLE`). -/
inductive Cmp | eq | ne | gt | ge | lt | le
deriving DecidableEq, Repr

/-- Instructions. Registers are 0 to 10, R10 is the frame pointer. -/
inductive Insn
  /-- `asm.Mov.Imm`, and the explicit `asm.Mov.Op(asm.ImmSource)` of materialize.go 42-46, 64-68 -/
  | movImm (d : Nat) (k : BitVec 64)
  | movReg (d s : Nat)
  | aluImm (op : Alu) (d : Nat) (k : BitVec 64)
  | aluReg (op : Alu) (d s : Nat)
  /-- `asm.Neg.Reg(d, d)` (evaluate.go 1662) -/
  | neg (d : Nat)
  /-- `JmpOff` (insn.go 8-15) -/
  | jmpImm (c : Cmp) (d : Nat) (k : BitVec 64) (off : Nat)
  /-- `JmpReg` (insn.go 17-24) -/
  | jmpReg (c : Cmp) (d s : Nat) (off : Nat)
  /-- `Ja` (insn.go 26-31) -/
  | ja (off : Nat)
  /-- `asm.JEq.Imm(d, 0, labelExit)` -/
  | jexit (d : Nat)
  /-- `asm.LoadMem(d, s, off, size)`, `s` not the frame pointer; size in bytes -/
  | ldx (d s : Nat) (off : BitVec 64) (size : Nat)
  /-- `asm.LoadMem(d, asm.RFP, off, asm.DWord)` -/
  | ldStack (d : Nat) (off : Int)
  /-- `asm.StoreMem(asm.RFP, off, s, asm.DWord)` -/
  | stStack (off : Int) (s : Nat)
  /-- `asm.FnProbeReadKernel.Call()` -/
  | callProbe
  /-- call of the kfunc `bpf_rdonly_cast` -/
  | callCast
  /-- `asm.Return()` -/
  | ret
deriving DecidableEq, Repr

/-- Kernel memory: `none` is an unreadable byte. It does not change while a filter runs. -/
abbrev Mem := BitVec 64 → Option (BitVec 8)

/-- `n` bytes at `a`, little endian. -/
def bytes (m : Mem) : Nat → BitVec 64 → Option Nat
  | 0, _ => some 0
  | n + 1, a => do
    let b ← m a
    let r ← bytes m n (a + 1)
    some (b.toNat + 256 * r)

/-- A load of `n` bytes, zero-extended; an unreadable address gives 0 (`bpf_probe_read_kernel` clears
its destination, and faulting BTF-pointer loads give 0). -/
def load (m : Mem) (n : Nat) (a : BitVec 64) : BitVec 64 :=
  match bytes m n a with
  | some v => BitVec.ofNat 64 v
  | none => 0

/-- Machine state: registers, 8-byte stack slots by offset from R10, and an oracle for the values a
helper leaves in the caller-saved registers. -/
structure St where
  regs : Nat → BitVec 64
  stack : Int → BitVec 64
  orc : Nat → BitVec 64

/-- A 32-bit immediate as it is executed. -/
def sx32 (k : BitVec 64) : BitVec 64 := (k.setWidth 32).signExtend 64

/-- A 16-bit offset as it is executed. -/
def sx16 (k : BitVec 64) : BitVec 64 := (k.setWidth 16).signExtend 64

/-- `regs[d] = v`. -/
def St.set (st : St) (d : Nat) (v : BitVec 64) : St :=
  { st with regs := fun r => if r = d then v else st.regs r }

/-- BPF ALU64 semantics: division by zero gives 0, modulo by zero leaves the destination, shift
counts are taken modulo 64. -/
def aluEval : Alu → BitVec 64 → BitVec 64 → BitVec 64
  | .add, x, y => x + y
  | .sub, x, y => x - y
  | .mul, x, y => x * y
  | .div, x, y => if y = 0 then 0 else x / y
  | .mod, x, y => if y = 0 then x else x % y
  | .and, x, y => x &&& y
  | .or, x, y => x ||| y
  | .xor, x, y => x ^^^ y
  | .lsh, x, y => x <<< (y.toNat % 64)
  | .rsh, x, y => x >>> (y.toNat % 64)

/-- Unsigned comparison of a conditional jump. -/
def cmpEval : Cmp → BitVec 64 → BitVec 64 → Bool
  | .eq, x, y => x == y
  | .ne, x, y => x != y
  | .gt, x, y => y.ult x
  | .ge, x, y => y.ule x
  | .lt, x, y => x.ult y
  | .le, x, y => x.ule y

/-- What an instruction does next. -/
inductive Next
  | seq (st : St)
  | jump (off : Nat) (st : St)
  | label (st : St)
  | ret (st : St)
  | stuck

/-- After a call R1 to `R_n` and R0 hold arbitrary values. -/
def St.clobber (st : St) (n : Nat) : St :=
  { st with regs := fun r => if r ≤ n then st.orc r else st.regs r, orc := fun k => st.orc (k + 6) }

/-- A taken jump. Offsets are 16 bits wide (`int16(..)` in insn.go and evaluate.go 1769-1785): one that
does not fit would be encoded as a backward jump and is modelled as a failure. -/
def jumpTo (off : Nat) (st : St) : Next := if off < 2 ^ 15 then .jump off st else .stuck

/-- One instruction. `callProbe` insists on the arguments the compiler must set up:
R1 = R10-8, R2 = 8; R3 is the address. `callCast` returns its first argument in R0. -/
def stepI (m : Mem) (i : Insn) (st : St) : Next :=
  match i with
  | .movImm d k => .seq (st.set d (sx32 k))
  | .movReg d s => .seq (st.set d (st.regs s))
  | .aluImm op d k => .seq (st.set d (aluEval op (st.regs d) (sx32 k)))
  | .aluReg op d s => .seq (st.set d (aluEval op (st.regs d) (st.regs s)))
  | .neg d => .seq (st.set d (-(st.regs d)))
  | .jmpImm c d k off => if cmpEval c (st.regs d) (sx32 k) then jumpTo off st else .seq st
  | .jmpReg c d s off => if cmpEval c (st.regs d) (st.regs s) then jumpTo off st else .seq st
  | .ja off => jumpTo off st
  | .jexit d => if st.regs d = 0 then .label st else .seq st
  | .ldx d s off size => .seq (st.set d (load m size (st.regs s + sx16 off)))
  | .ldStack d off => .seq (st.set d (st.stack off))
  | .stStack off s => .seq { st with stack := fun o => if o = off then st.regs s else st.stack o }
  | .callProbe =>
    if st.regs 1 = st.regs 10 - 8 ∧ st.regs 2 = 8 then
      let v := load m 8 (st.regs 3)
      .seq { st.clobber 5 with stack := fun o => if o = -8 then v else st.stack o }
    else .stuck
  | .callCast => .seq ((st.clobber 5).set 0 (st.regs 1))
  | .ret => .ret st

/-- Outcome of a block of code that is entered at its first instruction. -/
inductive Out
  /-- fell off the end -/
  | done (st : St)
  /-- jumped to the exit label -/
  | exit (st : St)
  /-- returned -/
  | ret (st : St)
  /-- jumped out of the block or called a helper with wrong arguments -/
  | stuck

/-- Run a block; the second argument is the number of instructions still to be skipped by a forward
jump. -/
def execK (m : Mem) : List Insn → Nat → St → Out
  | [], 0, st => .done st
  | [], _ + 1, _ => .stuck
  | _ :: r, k + 1, st => execK m r k st
  | i :: r, 0, st =>
    match stepI m i st with
    | .seq st' => execK m r 0 st'
    | .jump off st' => execK m r off st'
    | .label st' => .exit st'
    | .ret st' => .ret st'
    | .stuck => .stuck

def exec (m : Mem) (c : List Insn) (st : St) : Out := execK m c 0 st

/-- A whole program: its instructions and the position of the exit label. -/
structure Prog where
  code : List Insn
  label : Nat
deriving DecidableEq, Repr

/-- Run a program from position `pc` for at most `fuel` instructions; the result is R0 at the
return instruction. -/
def Prog.run (m : Mem) (p : Prog) : Nat → Nat → St → Option (BitVec 64)
  | 0, _, _ => none
  | fuel + 1, pc, st =>
    match p.code[pc]? with
    | none => none
    | some i =>
      match stepI m i st with
      | .seq st' => p.run m fuel (pc + 1) st'
      | .jump off st' => p.run m fuel (pc + 1 + off) st'
      | .label st' => p.run m fuel p.label st'
      | .ret st' => some (st'.regs 0)
      | .stuck => none

end Bpfsnoop.Cc
