import Verif.Model.Util

/-
Model of the sizes of the maps the programs share: bpfsnoop_maps.go, kernel_sysctl.go, `setupFgraphStack` (bpf_tracing_graph.go 170-192), the
constant `CPU_MASK` (main.go 89-93, bpf_tracing_func_multi.go 172-178), and of the places the programs reach in them: bpf/bpfsnoop.c 74-75
(bpfsnoop_kmulti.c 99-100), bpf/bpfsnoop_fgraph.c 97-131, bpf/bpfsnoop_lbr.h 12-18, bpf/bpfsnoop_stack_map.h, bpf/bpfsnoop_event_output.h 54-57,
and `fnStack` (bpfsnoop_func_stack.go 16-45). Maps of a fixed size (`bpfsnoop_lbrs`, `bpfsnoop_sessions`, `bpfsnoop_events`) take no part.
The library's and the kernel's rules for creating maps are assumptions (`arrayOk`, `stackOk`).
-/
namespace Bpfsnoop.Mp

/-- What is looked at in `ebpf.MapSpec`: `BPF_F_MMAPABLE`, the size of a value, the lengths of the values it is filled with. -/
structure MapSpec where
  mmapable : Bool
  valueSize : Nat
  contents : List Nat
deriving DecidableEq, Repr

/-- `spec.Maps`. -/
abbrev Maps := String → Option MapSpec

def Maps.put (ms : Maps) (n : String) (m : MapSpec) : Maps := fun x => if x = n then some m else ms x

/-- What the running system answers: `ebpf.PossibleCPU()`, and `kernel.perf_event_max_stack` as read the k-th time (`none`: error). -/
structure Sys where
  cpus : Option Nat
  maxStack : Nat → Option Int

/-- `updateMMapableMapSpec` (bpfsnoop_maps.go 16-38). -/
def mmapable (ms : Maps) (n : String) (size : BitVec 32) : Option Maps :=
  match ms n with
  | none => none
  | some m =>
    let m := { m with mmapable := true }
    if size = 0 then some (ms.put n m)
    else some (ms.put n { m with valueSize := size.toNat, contents := match m.contents with | [] => [size.toNat] | _ :: r => size.toNat :: r })

/-- `unsafe.Sizeof(LbrData{})`, and `sizeof(struct bpfsnoop_lbr_data)` (bpf/bpfsnoop_lbr.h 12-16; bpfsnoop_lbr.go 15-24): 32 entries of 24 bytes and 8 bytes. -/
def lbrSize : Nat := 32 * 24 + 8

/-- `updateLbrsDataMapSpec` (bpfsnoop_maps.go 40-48). -/
def lbrsData (s : Sys) (ms : Maps) : Option Maps :=
  match s.cpus with
  | none => none
  | some n => mmapable ms ".data.lbrs" (BitVec.ofNat 32 lbrSize * BitVec.ofNat 32 n)

/-- `uint32(maxStack) * 8`. -/
def stackBytes (n : Int) : Nat := (BitVec.ofInt 32 n * 8).toNat

/-- `updateStacksMapSpec` (bpfsnoop_maps.go 50-63). -/
def stacks (s : Sys) (k : Nat) (ms : Maps) : Option Maps :=
  match s.maxStack k with
  | none => none
  | some n =>
    match ms "bpfsnoop_stacks" with
    | none => none
    | some m => some (ms.put "bpfsnoop_stacks" { m with valueSize := stackBytes n })

/-- `updateMapsSpec` (bpfsnoop_maps.go 65-76); `k` counts the reads of the sysctl. -/
def update (s : Sys) (k : Nat) (ms : Maps) : Option Maps :=
  match lbrsData s ms with
  | none => none
  | some a =>
    match stacks s k a with
    | none => none
    | some b => mmapable b ".data.ready" 0

/-- A map of one element is created (`ebpf.NewMap`; assumed): its values are not empty, and what it is filled with has their size. -/
def arrayOk (m : MapSpec) : Bool := decide (0 < m.valueSize) && m.contents.all (· == m.valueSize)

/-- A map of stacks is created (Linux, kernel/bpf/stackmap.c `stack_map_alloc`; assumed), `cur` being the sysctl at that moment. -/
def stackOk (cur : Int) (m : MapSpec) : Bool :=
  decide (8 ≤ m.valueSize) && m.valueSize % 8 == 0 && decide ((m.valueSize / 8 : Nat) ≤ cur)

/-- `PrepareBPFMaps` (bpfsnoop_maps.go 78-109): `none` if bpfsnoop ends because of an error. -/
def prepare (s : Sys) (k : Nat) (cur : Int) (ms : Maps) : Option Maps :=
  match update s k ms with
  | none => none
  | some u =>
    match u ".data.lbrs", u "bpfsnoop_stacks", u ".data.ready" with
    | some l, some st, some r => if arrayOk l && stackOk cur st && arrayOk r then some u else none
    | _, _, _ => none

/-- The maps in the object of the tracing programs: one `struct bpfsnoop_lbr_data` (bpf/bpfsnoop_lbr.h 18), stacks of 127 addresses
(bpf/bpfsnoop_stack_map.h 11-17), `ready` (bpf/bpfsnoop.c 29). -/
def object : Maps := fun n =>
  if n = ".data.lbrs" then some ⟨false, lbrSize, [lbrSize]⟩
  else if n = "bpfsnoop_stacks" then some ⟨false, 127 * 8, []⟩
  else if n = ".data.ready" then some ⟨false, 4, [4]⟩
  else none

/-! ### The programs -/

/-- `CPU_MASK` (main.go 92, bpf_tracing_func_multi.go 176): `uint32(mathx.Mask(numCPU))`. -/
def cpuMask (n : Nat) : Option (BitVec 32) := (Util.mask 62 n).map (BitVec.ofInt 32)

/-- The place of the branch buffer of a CPU in the value of `.data.lbrs` (bpf/bpfsnoop.c 74-75, bpf/bpfsnoop_kmulti.c 99-100):
`&bpfsnoop_lbr_buff[cpu & CPU_MASK]`; from its start to behind its end. -/
def lbrPlace (mask cpu : BitVec 32) : Nat × Nat :=
  ((cpu &&& mask).toNat * lbrSize, (cpu &&& mask).toNat * lbrSize + lbrSize)

/-- The verifier accepts an access if it lies in the value whatever the helper returns (Linux; assumed): of the CPU number it knows that it is
32 bits and what the mask leaves of it. -/
def Accepted (mask : BitVec 32) (valueSize : Nat) : Prop := ∀ cpu : BitVec 32, (lbrPlace mask cpu).2 ≤ valueSize

/-- `setupFgraphStack` (bpf_tracing_graph.go 170-192): the size of a value of `bpfsnoop_fgraph_stack`, the elements of its type, `STACK_DEPTH`. -/
def fgraphStack (s : Sys) (k : Nat) : Option (Nat × BitVec 32 × BitVec 32) :=
  (s.maxStack k).map fun n => (stackBytes n, BitVec.ofInt 32 n, BitVec.ofInt 32 n)

/-- The loop of `try_get_session` (bpf/bpfsnoop_fgraph.c 106-119): which elements of the buffer are read for an answer of `bytes` bytes of
`bpf_get_stack`; the helper is asked for `8 * STACK_DEPTH` bytes (`__u64 * __u32`, passed as `__u32`). -/
def fgraphReads (depth : BitVec 32) (bytes : Int) : List Nat :=
  if bytes ≤ 0 then [] else (List.range depth.toNat).takeWhile fun i => decide (i < bytes.toNat / 8)

/-- The bytes the helper may write (bpf/bpfsnoop_fgraph.c 107). -/
def fgraphAsked (depth : BitVec 32) : Nat := (8 * depth).toNat

/-- `fnStack.get` (bpfsnoop_func_stack.go 38): the lookup of a stack works if the slice is as long as the value (`ebpf.Map.Lookup` into a slice of
`uint64`; assumed). The slice has the length `kernel.perf_event_max_stack` had when it was read the last time (kernel_sysctl.go 26). -/
def lookupFits (n : Int) (m : MapSpec) : Bool := decide (8 * n.toNat = m.valueSize)

end Bpfsnoop.Mp
