import Verif.Model.Util
/-
Tail-call detection: internal/bpfsnoop/bpf_tail_call.go, and its use in internal/bpfsnoop/bpf_tracing_info.go 141-159.

Outside the model: the kernel (reading its memory is a function argument), the disassembler (a function argument that
returns the bytes of the first instruction of a byte string), and the loading of the probe programs.
-/
namespace Bpfsnoop.Tc

abbrev Bytes := List UInt8

/-- Go `b[lo:hi]` on a slice whose capacity is its length; `none` is a panic. -/
def slice (b : Bytes) (lo hi : Nat) : Option Bytes :=
  if lo ≤ hi ∧ hi ≤ b.length then some ((b.drop lo).take (hi - lo)) else none

/-- `binary.NativeEndian.Uint32(b)` on little-endian machines; `none` is a panic (fewer than four bytes). -/
def u32 : Bytes → Option (BitVec 32)
  | b0 :: b1 :: b2 :: b3 :: _ => some (Util.leU32 b0 b1 b2 b3)
  | _ => none

/-- `isTailcallReachable` (bpf_tail_call.go 29-45); `none` is a panic. -/
def isTailcallReachable (insns : Bytes) : Option Bool :=
  if insns.length = 0 ∨ insns.length < 4 + 5 + 3 then some false
  else
    match (slice insns 0 4).bind u32 with
    | none => none
    | some v =>
      let offset := if Util.isEndbrInsn v then 5 + 4 else 5
      match slice insns offset (offset + 2) with
      | none => none
      | some s2 =>
        if s2 == [0x31, 0xc0] then some true
        else (slice insns offset (offset + 3)).map (· == [0x48, 0x31, 0xc0])

/-- `TailcallInfo` (bpf_tail_call.go 24-27). -/
structure Info where
  support : Bool
  fixed : Bool
deriving DecidableEq, Repr

/-- How `probeTailcallInfo` ends. -/
inductive Res where
  | ok (i : Info)
  | err
  | panic
deriving DecidableEq, Repr

/-- The loop over the trampoline (bpf_tail_call.go 92-119): `some fixed`, or `none` when an instruction cannot be
decoded. `fuel` bounds the number of instructions; every instruction has at least one byte. -/
def scan (disasm : Bytes → BitVec 64 → Option Bytes) : Nat → Bytes → BitVec 64 → Option Bool
  | 0, _, _ => some false
  | _, [], _ => some false
  | fuel + 1, b, pc =>
    match disasm b pc with
    | none => if b.length ≤ 10 then some false else none
    | some insn =>
      if insn = [0x50] then some true
      else if insn = [0xc3] then some false
      else scan disasm fuel (b.drop insn.length) (pc + BitVec.ofNat 64 insn.length)

/-- `probeTailcallInfo` (bpf_tail_call.go 47-122) after `prog.Info()`. `haveTrampolineJmpMode` (bpf_feature.go 131-143)
sets a variable that is not modelled here, and cannot panic. -/
def probe (readKernel : BitVec 64 → Option Bytes) (disasm : Bytes → BitVec 64 → Option Bytes) (kaddr : BitVec 64)
    (jited : Bytes) : Res :=
  if jited.length = 0 then .ok ⟨false, false⟩
  else
    match u32 jited with
    | none => .panic
    | some v =>
      let (ka, j) := if Util.isEndbrInsn v then (kaddr + 4#64, jited.drop 4) else (kaddr, jited)
      match isTailcallReachable j with
      | none => .panic
      | some false => .ok ⟨false, false⟩
      | some true =>
        match u32 (j.drop 1) with
        | none => .panic
        | some off =>
          let pc := ka + 5#64 + off.zeroExtend 64
          match readKernel pc with
          | none => .err
          | some [] => .err
          | some data =>
            match scan disasm data.length data pc with
            | none => .err
            | some f => .ok ⟨false, f⟩

/-- `ProbeTailcallIssue` (bpf_tail_call.go 124-200), without the loading of programs: `refused` is the kernel refusing tail
calls in programs with bpf-to-bpf calls. -/
def probeIssue (refused arm64 : Bool) (p : Res) : Res :=
  if refused then .ok ⟨false, false⟩
  else if arm64 then .ok ⟨true, true⟩
  else match p with
    | .ok i => .ok { i with support := true }
    | r => r

/-- `haveTailcallInfiniteLoopIssue` (bpf_tail_call.go 202-205). -/
def haveIssue (i : Info) : Bool := i.support && !i.fixed

/-- What `addTracing` does about tail calls (bpf_tracing_info.go 141-159): `idx` is the position of the function in its
program, `jited` the code of the program (all its functions, the entry function first), if it can be read. -/
inductive Decision where
  | trace
  | skip
  | err
  | panic
deriving DecidableEq, Repr

def decision (i : Info) (idx : Nat) (jited : Option Bytes) : Decision :=
  if idx ≠ 0 ∧ haveIssue i then
    match jited with
    | none => .err
    | some b =>
      match isTailcallReachable b with
      | none => .panic
      | some true => .skip
      | some false => .trace
  else .trace

end Bpfsnoop.Tc
