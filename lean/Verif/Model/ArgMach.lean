import Verif.Model.CcMach

/-
The machine on which the generated argument-output subprograms run: the machine of `CcMach` plus a
writable buffer (the event in the ring buffer), stores into it, and the helper
`bpf_probe_read_kernel_str`.
-/
namespace Bpfsnoop.Arg
open Cc

/-- Writable memory, by address. -/
abbrev Buf := BitVec 64 → BitVec 8

/-- Instructions used by func_arg.go 19-132, 150-175 and output_arg.go 105-331, 372-393. -/
inductive OI
  /-- an instruction of the expression compiler; `callProbe` is `asm.FnProbeReadKernel.Call()` -/
  | cc (i : Insn)
  /-- `asm.StoreMem(d, off, s, size)`, `d` not the frame pointer; size in bytes -/
  | stx (d : Nat) (off : BitVec 64) (s n : Nat)
  /-- `asm.FnProbeReadKernelStr.Call()` -/
  | probeStr
deriving DecidableEq, Repr

structure OSt where
  st : St
  out : Buf

/-- Store a list of bytes. -/
def wr (b : Buf) (a : BitVec 64) (bs : List (BitVec 8)) : Buf :=
  fun x => (bs[(x - a).toNat]?).getD (b x)

/-- `n` bytes of the buffer. -/
def reads (b : Buf) : Nat → BitVec 64 → List (BitVec 8)
  | 0, _ => []
  | n + 1, a => b a :: reads b n (a + 1)

/-- The low `n` bytes of a register, little endian. -/
def le : Nat → BitVec 64 → List (BitVec 8)
  | 0, _ => []
  | n + 1, v => v.setWidth 8 :: le n (v >>> 8)

/-- `n` bytes of kernel memory, if all are readable. -/
def readN (m : Mem) : Nat → BitVec 64 → Option (List (BitVec 8))
  | 0, _ => some []
  | n + 1, a =>
    match m a with
    | none => none
    | some b => (readN m n (a + 1)).map (b :: ·)

/-- What `bpf_probe_read_kernel` writes: the bytes, or zeros if they cannot all be read. -/
def probeBytes (m : Mem) (n : Nat) (a : BitVec 64) : List (BitVec 8) :=
  (readN m n a).getD (List.replicate n 0)

/-- The loop of the kernel's `strncpy_from_kernel_nofault`: up to `n` bytes, up to and including the
first NUL, the last byte always NUL. -/
def strLoop (m : Mem) : Nat → BitVec 64 → Option (List (BitVec 8))
  | 0, _ => some []
  | n + 1, a =>
    match m a with
    | none => none
    | some b => if b = 0 ∨ n = 0 then some [0] else (strLoop m n (a + 1)).map (b :: ·)

/-- What `bpf_probe_read_kernel_str` writes: on a fault all `n` bytes are cleared, otherwise the bytes
after the NUL are left alone. -/
def strBytes (m : Mem) (n : Nat) (a : BitVec 64) : List (BitVec 8) :=
  (strLoop m n a).getD (List.replicate n 0)

inductive ONext
  | seq (s : OSt)
  | jump (off : Nat) (s : OSt)
  | label (s : OSt)
  | ret (s : OSt)
  | stuck

def lift (out : Buf) : Next → ONext
  | .seq st => .seq ⟨st, out⟩
  | .jump off st => .jump off ⟨st, out⟩
  | .label st => .label ⟨st, out⟩
  | .ret st => .ret ⟨st, out⟩
  | .stuck => .stuck

/-- One instruction. The helpers write to the 8-byte stack slot at R10-8 if called for it and to the
buffer otherwise; a negative size is a failure (the verifier rejects it). -/
def stepO (m : Mem) (i : OI) (s : OSt) : ONext :=
  match i with
  | .cc .callProbe =>
    if s.st.regs 1 = s.st.regs 10 - 8 ∧ s.st.regs 2 = 8 then lift s.out (stepI m .callProbe s.st)
    else if (s.st.regs 2).msb then .stuck
    else .seq ⟨s.st.clobber 5, wr s.out (s.st.regs 1) (probeBytes m (s.st.regs 2).toNat (s.st.regs 3))⟩
  | .cc i => lift s.out (stepI m i s.st)
  | .stx d off src n => .seq ⟨s.st, wr s.out (s.st.regs d + sx16 off) (le n (s.st.regs src))⟩
  | .probeStr =>
    if (s.st.regs 2).msb then .stuck
    else .seq ⟨s.st.clobber 5, wr s.out (s.st.regs 1) (strBytes m (s.st.regs 2).toNat (s.st.regs 3))⟩

inductive OOut
  | done (s : OSt)
  | exit (s : OSt)
  | ret (s : OSt)
  | stuck

/-- Run a block; the second argument is the number of instructions still to be skipped by a forward jump. -/
def execOK (m : Mem) : List OI → Nat → OSt → OOut
  | [], 0, s => .done s
  | [], _ + 1, _ => .stuck
  | _ :: r, k + 1, s => execOK m r k s
  | i :: r, 0, s =>
    match stepO m i s with
    | .seq s' => execOK m r 0 s'
    | .jump off s' => execOK m r off s'
    | .label s' => .exit s'
    | .ret s' => .ret s'
    | .stuck => .stuck

def execO (m : Mem) (c : List OI) (s : OSt) : OOut := execOK m c 0 s

end Bpfsnoop.Arg
