import Verif.Model.KSess
import Verif.Model.KRead
import Verif.Model.FnArgs

/-
Model of how the id of a call is made: bpf/bpfsnoop_stack.h and bpf/bpfsnoop.c 38-56 (`gen_session_id` itself is
`KSess.genSessionId`).

The trampoline of the kernel and the frames of the traced functions are a specification (`Verif.Props.Sid`); kernel memory is
a parameter.
-/
namespace Bpfsnoop.Sid
open KRead (Mem Byte)

/-- `bpf_probe_read_kernel(&x, 8, a)`: the variable afterwards (cleared if the address faults). -/
def read64 (m : Mem) (a : BitVec 64) : BitVec 64 := BitVec.ofNat 64 (Arg.leVal (KRead.probeRead m a 8 []))

/-- `bpf_probe_read_kernel`: what it returns, 0 or -EFAULT. -/
def readRet (m : Mem) (a : BitVec 64) : BitVec 64 := if (m.get a 8).isSome then 0#64 else -14#64

/-- `__get_ptr` (bpfsnoop_stack.h 51-59). -/
def getPtr (ctx : BitVec 64) (argsNr : BitVec 32) (retval : Bool) : BitVec 64 :=
  ctx + (((argsNr &&& 0xF#32) * 8#32) + if retval then 8#32 else 0#32).setWidth 64

/-- `get_tramp_fp` for x86 (bpfsnoop_stack.h 62-66). -/
def trampFpX86 (ctx : BitVec 64) (argsNr : BitVec 32) (retval : Bool) : BitVec 64 := getPtr ctx argsNr retval

/-- The loop of `detect_tramp_fp_offset` (bpfsnoop_stack.h 101-107) from `i` on, `n` rounds left: the new offset and the result
of the function if it ends here. The variable compared is what the helper returns, not what it read. -/
def detectLoop (m : Mem) (ptr ip : BitVec 64) (i : Nat) : Nat → Option (BitVec 32 × BitVec 64)
  | 0 => none
  | n + 1 =>
    let fp := readRet m (ptr + BitVec.ofNat 64 (i * 8))
    if fp = ip then some (BitVec.ofNat 32 (i * 8) - 8#32, fp - 8#64) else detectLoop m ptr ip (i + 1) n

/-- `detect_tramp_fp_offset` (bpfsnoop_stack.h 90-110): `tramp_fp_offset` afterwards and the result. -/
def detectOffset (m : Mem) (ctx : BitVec 64) (nregs : BitVec 32) (funcIp : BitVec 64) (retval : Bool) (off : BitVec 32) : BitVec 32 × BitVec 64 :=
  let ptr := getPtr ctx nregs retval + 16#64
  match detectLoop m ptr (funcIp + 8#64) 0 6 with
  | some r => r
  | none => (off, ptr)

/-- `get_tramp_fp` for arm64 (bpfsnoop_stack.h 112-124): `tramp_fp_offset` afterwards and the result. -/
def trampFpArm (m : Mem) (ctx : BitVec 64) (nregs : BitVec 32) (funcIp : BitVec 64) (retval : Bool) (off : BitVec 32) : BitVec 32 × BitVec 64 :=
  if off ≠ 0 then (off, read64 m (ctx + off.setWidth 64)) else detectOffset m ctx nregs funcIp retval off

/-- `get_tracee_caller_fp` (bpfsnoop.c 38-48) for x86; `funcIP` is the constant of the program. -/
def callerFp (m : Mem) (isTp : Bool) (funcIP ctx : BitVec 64) (argsNr : BitVec 32) (retval : Bool) : BitVec 64 :=
  if isTp then funcIP else read64 m (trampFpX86 ctx argsNr retval)

/-- `get_tracee_caller_fp` (bpfsnoop.c 38-48) for arm64. -/
def callerFpArm (m : Mem) (isTp : Bool) (funcIP ctx : BitVec 64) (nregs : BitVec 32) (bpfFuncIp : BitVec 64) (retval : Bool) (off : BitVec 32) :
    BitVec 32 × BitVec 64 :=
  if isTp then (off, funcIP)
  else ((trampFpArm m ctx nregs bpfFuncIp retval off).1, read64 m (trampFpArm m ctx nregs bpfFuncIp retval off).2)

/-- The id of a call at its entry (bpfsnoop.c 103-108, 125): whether there is a slot for the return value is
`both_entry_exit || with_retval`. -/
def sessionId (m : Mem) (isTp both withRet : Bool) (funcIP ctx : BitVec 64) (argsNr rnd : BitVec 32) : BitVec 64 :=
  KSess.genSessionId rnd (callerFp m isTp funcIP ctx argsNr (both || withRet))

/-- The id of a call seen by a kprobe.multi program (bpfsnoop_kmulti.c 70-80, 124, 144): the function instead of a frame. -/
def kmultiId (funcIp : BitVec 64) (rnd : BitVec 32) : BitVec 64 := KSess.genSessionId rnd funcIp

/-- Runs of one program on arm64, one after the other: `tramp_fp_offset` is a variable of the program. -/
def armRuns (retval : Bool) : List (Mem × BitVec 64 × BitVec 32 × BitVec 64) → BitVec 32 → BitVec 32 × List (BitVec 64)
  | [], off => (off, [])
  | (m, ctx, nregs, ip) :: rs, off =>
    let r := callerFpArm m false 0 ctx nregs ip retval off
    ((armRuns retval rs r.1).1, r.2 :: (armRuns retval rs r.1).2)

end Bpfsnoop.Sid
