import Verif.Model.OutArg
/-
`--read`: internal/bpfsnoop/bpf_read_data.go and the program `read_data` of bpf/read.c.

Loading and attaching the program are not modelled, nor is the verifier, which rejects code that writes beyond the buffer.
-/
namespace Bpfsnoop.RdD
open Cc Arg

/-- A call of `bpf_fentry_test1` while the program is attached: process and thread, the memory of the kernel at that time, the
registers with which `read_stub` begins (R1 is set by its caller). -/
structure Event where
  pidTgid : BitVec 64
  mem : Mem
  st : St

/-- The variables of read.c (10-14). -/
structure Vars where
  buff : Buf
  run : Bool

/-- `read_stub` after `injectInsns` (bpf_read_data.go 46-53): R8 is the buffer, then the code of the expression. -/
def runStub (m : Mem) (a : OArg) (s : OSt) : OOut :=
  match execO m [.cc (.movReg 8 1)] s with
  | .done s1 =>
    match runArg m a s1 with
    | .done s2 => execO m [.cc .ret] s2
    | x => x
  | x => x

/-- `read_data` (read.c 37-55), with the buffer at `B`; `none` if the code gets stuck. -/
def fire (target B : BitVec 64) (a : OArg) (e : Event) (v : Vars) : Option Vars :=
  if e.pidTgid ≠ target then some v
  else if v.run then some v
  else
    match runStub e.mem a ⟨e.st.set 1 B, v.buff⟩ with
    | .ret s => some ⟨s.out, true⟩
    | _ => none

/-- All calls while the program is attached. -/
def fires (target B : BitVec 64) (a : OArg) : List Event → Vars → Option Vars
  | [], v => some v
  | e :: es, v =>
    match fire target B a e v with
    | none => none
    | some v => fires target B a es v

/-- What `readKernelData` (bpf_read_data.go 29-114) comes to. -/
inductive Out where
  | shown (items : List Item)
  /-- the expression is not accepted -/
  | reject
  /-- "reading kernel was not triggered" -/
  | notRun
  /-- the program cannot be loaded, or a slice is out of range -/
  | fail

/-- `readKernelData` (bpf_read_data.go 29-114): the compiled expression, the calls while attached; the buffer is cleared when
the program is loaded. -/
def readData (q : TyQ) (r : TopRes) (target B : BitVec 64) (es : List Event) : Out :=
  match compileArg q r 0 with
  | .error _ => .reject
  | .ok (total, a) =>
    match fires target B a es ⟨fun _ => 0, false⟩ with
    | none => .fail
    | some v =>
      if !v.run then .notRun
      else
        match decodeArgs [a] (reads v.buff total.toNat B) with
        | none => .fail
        | some items => .shown items

end Bpfsnoop.RdD
