import Verif.Model.Flags
import Verif.Model.Disasm
import Verif.Model.KSess
import Verif.Model.FnArgs

/-
Model of how bpfsnoop finds out which kernel functions can be traced, and by which return addresses their calls are
recognised in a stack: bpf/traceable.c, bpf_kfuncs.go, bpf_feature.go 131-143, bpf_tracing_graph.go 280-421.

Kernel memory is a parameter and does not change meanwhile; that the programs load, attach and run is assumed.
-/
namespace Bpfsnoop.Tr
open KRead (Mem Byte)
open Flg (KFunc)

abbrev Addr := BitVec 64

/-- `onArm64`, `hasEndbr` (bpf_feature.go 18) and `trampJmpMode` (bpf_feature.go 23). -/
structure Cpu where
  arm64 : Bool
  endbr : Bool
  jmp : Bool

/-- A little-endian number of up to eight bytes. -/
def le (b : List Byte) : Addr := BitVec.ofNat 64 (Arg.leVal b)

/-- `haveTrampolineJmpMode` (bpf_feature.go 131-143): the new value of `trampJmpMode`. -/
def jmpMode (arm64 old : Bool) (insns : List Byte) : Bool :=
  if arm64 || insns.length < 9 then old
  else
    let insns := if Util.isEndbrInsn ((le (insns.take 4)).setWidth 32) then insns.drop 4 else insns
    insns.headD 0 == 0xE9#8

/-- `AddrCap` (bpf_kfuncs.go 20) and `ADDR_CAP` (traceable.c 8). -/
def addrCap : Nat := 1024

/-- `probe_addr_info` (traceable.c 18-57): `traceables[i]` and `tramps[i]`, which are zero at first. -/
def probe (c : Cpu) (m : Mem) (addr : Addr) : Bool × Addr :=
  match m.get addr 16 with
  | none => (false, 0)
  | some buff =>
    if c.arm64 then
      let ptr := buff.drop 4
      let insn := (le (ptr.take 4)).setWidth 32
      (insn == 0xD503201F#32 || ptr.getD 3 0 == 0x97#8 || ptr.getD 3 0 == 0x94#8, 0)
    else
      let ptr := if c.endbr then buff.drop 4 else buff
      let a := le (ptr.take 4)
      let b := (ptr.getD 4 0).setWidth 64
      let v := (b <<< 32) ||| a
      let t := if c.jmp && ptr.getD 0 0 == 0xE9#8 then
          addr + (if c.endbr then 4#64 else 0#64) + 5#64 + (((v >>> 8) &&& 0xFFFFFFFF#64).setWidth 32).signExtend 64
        else 0
      (v == 0x0000441F0F#64 || ptr.getD 0 0 == 0xE8#8 || ptr.getD 0 0 == 0xE9#8, t)

/-- `detectTraceable` (bpf_kfuncs.go 29-90) with the program `detect` (traceable.c 58-73); `none` is a panic, the array of
addresses has `addrCap` places. -/
def detect (c : Cpu) (m : Mem) (addrs : List Addr) : Option (List (Bool × Addr)) :=
  if addrs.length > addrCap then none else some ((addrs.take addrCap).map (probe c m))

/-- The functions found, by address. -/
abbrev KFuncs := Addr → Option KFunc

/-- The inner loop of `detectTraceables` (bpf_kfuncs.go 116-121). -/
def drop : List (Addr × Bool × Addr) → KFuncs → KFuncs
  | [], kf => kf
  | (a, t, _) :: r, kf => drop r (if t then kf else fun x => if x = a then none else kf x)

/-- `detectTraceables` (bpf_kfuncs.go 92-125) after sorting the addresses. -/
def detectAll (c : Cpu) (m : Mem) (addrs : List Addr) (kf : KFuncs) : Option KFuncs :=
  if addrs.isEmpty then some kf
  else
    let now := if addrs.length > addrCap then addrs.take addrCap else addrs
    let rest := if addrs.length > addrCap then addrs.drop addrCap else []
    match detect c m now with
    | none => none
    | some ts => detectAll c m rest (drop (now.zip ts) kf)
termination_by addrs.length
decreasing_by
  have : 0 < addrs.length := by
    cases addrs with
    | nil => simp_all
    | cons a l => simp
  split
  · simp only [List.length_drop]
    have : addrCap = 1024 := rfl
    omega
  · simpa using this

/-! ### Return addresses of the function graph -/

/-- A function of the graph: of the kernel, of a BPF program, or neither. -/
inductive Fn where
  | kernel (addr : Addr)
  | prog (start : Addr)
  | unknown

/-- `insnCallqSize` (func_graph_parser.go 26-38). -/
def callSize (c : Cpu) : Addr := if c.arm64 then 4 else 5

abbrev IpMap := Addr → Option Addr

def put (m : IpMap) (k v : Addr) : IpMap := fun x => if x = k then some v else m x

/-- The address after the call of the trampoline (bpf_tracing_graph.go 295-301). -/
def traceeIP (c : Cpu) (f : Addr) : Addr := f + callSize c + (if c.endbr then 4 else 0) + (if c.arm64 then 4 else 0)

/-- `populateFgraphTraceeIPs` (bpf_tracing_graph.go 280-319); the order of the map is the order of the list. -/
def traceeIPs (c : Cpu) : List Fn → IpMap → IpMap
  | [], m => m
  | .unknown :: r, m => traceeIPs c r m
  | .kernel f :: r, m => traceeIPs c r (put m (traceeIP c f) f)
  | .prog f :: r, m => traceeIPs c r (put m (traceeIP c f) f)

/-- The last loop of `probeTrampAddrs` (bpf_tracing_graph.go 347-355): trampoline and function. -/
def trampsOf : List (Addr × Bool × Addr) → List (Addr × Addr)
  | [] => []
  | (a, t, tr) :: r => if t then (tr, a) :: trampsOf r else trampsOf r

/-- `probeTrampAddrs` (bpf_tracing_graph.go 321-359) after sorting the addresses. -/
def probeTramps (c : Cpu) (m : Mem) (addrs : List Addr) : Option (List (Addr × Addr)) :=
  if addrs.isEmpty then some []
  else
    let now := if addrs.length > addrCap then addrs.take addrCap else addrs
    let rest := if addrs.length > addrCap then addrs.drop addrCap else []
    match detect c m now with
    | none => none
    | some ts => (probeTramps c m rest).map (trampsOf (now.zip ts) ++ ·)
termination_by addrs.length
decreasing_by
  have : 0 < addrs.length := by
    cases addrs with
    | nil => simp_all
    | cons a l => simp
  split
  · simp only [List.length_drop]
    have : addrCap = 1024 := rfl
    omega
  · simpa using this

/-- `extractTrampolineIPs` (bpf_tracing_graph.go 361-375): `code` is the trampoline as read and without padding
(`disasmKfuncAt`, bpf_disasm.go 12-26); `none` is an error. -/
def extract (D : Dis.Decoder) (code : Addr → Option (List Byte)) (addr : Addr) : Option (List Addr) :=
  match code addr with
  | none => none
  | some b =>
    let insts := Dis.insnsOf D addr.toNat b
    if insts.isEmpty then none
    else some (calls insts addr)
where
  calls : List (Nat × List Byte) → Addr → List Addr
    | [], _ => []
    | i :: r, pc =>
      let pc' := pc + BitVec.ofNat 64 i.2.length
      if i.2.headD 0 == 0xE8#8 then pc' :: calls r pc' else calls r pc'

/-- The loop of `populateFgraphTrampolineIPs` (bpf_tracing_graph.go 399-408). -/
def trampIPs (D : Dis.Decoder) (code : Addr → Option (List Byte)) : List (Addr × Addr) → IpMap → Option IpMap
  | [], m => some m
  | (t, f) :: r, m =>
    match extract D code t with
    | none => none
    | some ips => trampIPs D code r (ips.foldl (fun m ip => put m ip f) m)

/-- `populateFgraphTraceeIPs` and `populateFgraphTrampolineIPs` (bpf_tracing_graph.go 377-421), as called by `traceGraphs`
(269-275): `addrs` are the sorted keys of the graph. -/
def populate (c : Cpu) (m : Mem) (D : Dis.Decoder) (code : Addr → Option (List Byte)) (fns : List Fn) (addrs : List Addr) : Option IpMap :=
  let m1 := traceeIPs c fns fun _ => none
  if !c.jmp then some m1
  else
    match probeTramps c m addrs with
    | none => none
    | some ts => (trampIPs D code ts fun _ => none).map fun t x => (t x).or (m1 x)

/-- `get_fgraph_func_ip` (bpfsnoop_fgraph.c 85-92). -/
def funcIp (m : IpMap) (ip : Addr) : Addr := (m ip).getD 0

end Bpfsnoop.Tr
