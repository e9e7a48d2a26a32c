import Verif.Props.CcTop

/-
What the kernel asks of a program before it runs it, for the instructions the expression compiler emits: on every path
from the entry each register and stack slot is written before it is read, a call forgets R1 to R5, the frame pointer is not
written, and no path leaves the program. Both sides of every conditional jump count as paths, whatever the values compared.

This is a specification: it describes rules of the kernel's verifier (kernel/bpf/verifier.c, check_reg_arg, check_stack_read,
clear_caller_saved_regs) and models no code of the repository. Types of registers, bounds of pointers and the size of the
stack are not described.
-/
namespace Bpfsnoop.Cc

/-- The registers and the 8-byte stack slots that have been written. -/
structure Ini where
  reg : Nat → Bool
  slot : Int → Bool

/-- At the entry R1 points to the arguments and R10 to the frame. -/
def Ini.entry : Ini := ⟨fun r => r == 1 || r == 10, fun _ => false⟩

def Ini.wr (d : Ini) (r : Nat) : Ini := { d with reg := fun x => x == r || d.reg x }

def Ini.wrSlot (d : Ini) (k : Int) : Ini := { d with slot := fun x => x == k || d.slot x }

/-- A call gives R0 a value and forgets R1 to R5. -/
def Ini.call (d : Ini) : Ini := { d with reg := fun x => x == 0 || (decide (5 < x) && d.reg x) }

/-- The registers an instruction reads; a call reads its arguments. -/
def Insn.srcs : Insn → List Nat
  | .movImm _ _ => []
  | .movReg _ s => [s]
  | .aluImm _ d _ => [d]
  | .aluReg _ d s => [d, s]
  | .neg d => [d]
  | .jmpImm _ d _ _ => [d]
  | .jmpReg _ d s _ => [d, s]
  | .ja _ => []
  | .jexit d => [d]
  | .ldx _ s _ _ => [s]
  | .ldStack _ _ => [10]
  | .stStack _ s => [10, s]
  | .callProbe => [1, 2, 3]
  | .callCast => [1, 2]
  | .ret => [0]

/-- The register an instruction names as its destination. -/
def Insn.dst : Insn → Option Nat
  | .movImm d _ | .movReg d _ | .aluImm _ d _ | .aluReg _ d _ | .neg d | .ldx d _ _ _ | .ldStack d _ => some d
  | _ => none

/-- Everything the instruction reads has been written, and it does not write the frame pointer. -/
def Insn.sound (i : Insn) (d : Ini) : Bool :=
  i.srcs.all d.reg && i.dst != some 10 &&
    match i with
    | .ldStack _ k => d.slot k
    | _ => true

/-- What has been written after an instruction. -/
def Insn.after (i : Insn) (d : Ini) : Ini :=
  match i with
  | .movImm r _ | .movReg r _ | .aluImm _ r _ | .aluReg _ r _ | .neg r | .ldx r _ _ _ | .ldStack r _ => d.wr r
  | .stStack k _ => d.wrSlot k
  | .callProbe => d.call.wrSlot (-8)
  | .callCast => d.call
  | _ => d

/-- Where execution may go after the instruction at `pc`. -/
def Prog.succs (p : Prog) (pc : Nat) : Insn → List Nat
  | .jmpImm _ _ _ off | .jmpReg _ _ _ off => [pc + 1, pc + 1 + off]
  | .ja off => [pc + 1 + off]
  | .jexit _ => [pc + 1, p.label]
  | .ret => []
  | _ => [pc + 1]

/-- Points a path from the entry gets to, with what has been written on that path. -/
inductive Prog.Gets (p : Prog) : Nat → Ini → Prop
  | entry : p.Gets 0 .entry
  | step {pc t : Nat} {d : Ini} {i : Insn} : p.Gets pc d → p.code[pc]? = some i → t ∈ p.succs pc i → p.Gets t (i.after d)

/-- On every path, every instruction reads only what has been written, and the path stays inside the program. -/
def Prog.Initialised (p : Prog) : Prop :=
  ∀ pc d, p.Gets pc d → ∃ i, p.code[pc]? = some i ∧ i.sound d = true

/-- The expression casts the literal 0 to a pointer or another type. -/
def Expr.castsZero : Expr → Bool
  | .name _ | .num _ | .unsup => false
  | .arrow e _ | .dot e _ | .indir e | .addr e | .un _ e => e.castsZero
  | .index e _ => e.castsZero
  | .cast _ e =>
    match e with
    | .num text => (parseUnsigned text).map (BitVec.ofNat 64) == some 0
    | e => e.castsZero
  | .bin _ l r => l.castsZero || r.castsZero
  | .cond c l r => c.castsZero || l.castsZero || r.castsZero

/-- No jump to the exit label. -/
def noExits (c : List Insn) : Bool := c.all fun i => match i with | .jexit _ => false | _ => true

def Val.inReg : Val → Bool
  | .mat .. => true
  | _ => false

/-- Whenever a NULL pointer ends the evaluation of `e` early, the register of the result of `e` has been loaded: operands that
may end it early are compiled after the register has been chosen, that is, they are (in) the left operand, or the left operand
is in a register already. -/
def timely (o : Opts) : Expr → CSt → Bool
  | .bin _ l r, s =>
    match evaluate o l s with
    | .ok (vl, s1, cl) =>
      match evaluate o r s1 with
      | .ok (_, _, cr) => (noExits cl || (vl.inReg && timely o l s)) && (noExits cr || vl.inReg)
      | .error _ => true
    | .error _ => true
  | .un _ e, s =>
    match evaluate o e s with
    | .ok (v, _, c) => noExits c || (v.inReg && timely o e s)
    | .error _ => true
  | e, s =>
    match evaluate o e s with
    | .ok (_, _, c) => noExits c
    | .error _ => true

end Bpfsnoop.Cc
