/-
Model of bpf_read_kernel.go and of `read` in bpf/read.c: reading kernel memory through a bpf program.
Not modelled: loading and attaching the program (`initReadKernel`), the mutex, and runs of the program started by
other threads (the program compares pid_tgid and the `run` flag, so only the own run counts).
-/
namespace Bpfsnoop.KRead

abbrev Byte := BitVec 8

/-- Kernel memory: `none` is an address that faults. -/
abbrev Mem := BitVec 64 → Option Byte

/-- `BUFF_SIZE` (bpf/read.c 8) and `readLimit` (bpf_read_kernel.go 24). -/
def buffSize : Nat := 65536

/-- The bytes of memory from `addr` on, if all of them can be read. -/
def Mem.get (m : Mem) (addr : BitVec 64) : Nat → Option (List Byte)
  | 0 => some []
  | n + 1 =>
    match m addr, m.get (addr + 1#64) n with
    | some b, some bs => some (b :: bs)
    | _, _ => none

/-- `bpf_probe_read_kernel(dst, n, addr)`: copies `n` bytes, or clears the `n` bytes if one of them faults (the helper
of the kernel, assumed). -/
def probeRead (m : Mem) (addr : BitVec 64) (n : Nat) (buff : List Byte) : List Byte :=
  (m.get addr n).getD (List.replicate n 0#8) ++ buff.drop n

/-- The size written to `target_size` (bpf_read_kernel.go 89). -/
def readSize (size : BitVec 32) : BitVec 32 := (size + 7#32) &&& ~~~7#32

/-- One run of the program `read` (bpf/read.c 17-30): `target_size & (BUFF_SIZE - 1)` bytes are read. -/
def bpfRead (m : Mem) (addr : BitVec 64) (targetSize : BitVec 32) (buff : List Byte) : List Byte :=
  probeRead m addr (targetSize &&& 0xffff#32).toNat buff

/-- Outcome of a read. -/
inductive Out where
  | ok (data : List Byte)
  | tooLarge
  | panic
deriving DecidableEq, Repr

/-- `readKernel` (bpf_read_kernel.go 76-119) with the buffer as it is left by earlier reads; `Variable.clone` (138-140)
slices the memory of the buffer, which is `buffSize` bytes long, and panics beyond it. -/
def readKernel (m : Mem) (buff : List Byte) (addr : BitVec 64) (size : BitVec 32) : Out × List Byte :=
  if (readSize size).toNat > buffSize then (.tooLarge, buff)
  else
    let buff' := bpfRead m addr (readSize size) buff
    (if size.toNat ≤ buff'.length then .ok (buff'.take size.toNat) else .panic, buff')

/-- The buffer of a fresh collection (`initReadKernel`, bpf_read_kernel.go 33-59): zeros. -/
def fresh : List Byte := List.replicate buffSize 0#8

/-- A sequence of reads between two `FlushReadObjs` (bpf_read_kernel.go 62-74). -/
def reads (m : Mem) : List (BitVec 64 × BitVec 32) → List Byte → List Out × List Byte
  | [], b => ([], b)
  | (a, s) :: rs, b =>
    let (o, b) := readKernel m b a s
    let (os, b) := reads m rs b
    (o :: os, b)

end Bpfsnoop.KRead
