import Verif.Model.Flags
import Verif.Model.Kallsyms

/-
Model of how tracepoints are found and selected: kernel_tracepoints.go, bpf_tracepoints.go, bpf_tracepoints_module.go,
bpf/tracepoint.c, bpf/tracepoint_module.c.
Kernel memory is a parameter: the records (`struct bpf_raw_event_map`) at their addresses and the list of modules.
Addresses are numbers; a read never faults. Names are ASCII without NUL. A failing system call is not modelled.
-/
namespace Bpfsnoop.Tp
open Kallsyms (put lookup)
open Flg (Str Imm KfuncFlag BFunc)

/-- A record of the kernel: name of the tracepoint, address of its prototype function, number of arguments
(bpf/tracepoint.c 15-33; `TpInfo`, bpf_tracepoints.go 29-33). -/
structure Raw where
  name : Str
  sym : Nat
  nargs : Nat
deriving DecidableEq, Repr

/-- The prototype function in BTF: parameters (name, type) and whether `getFuncParams` accepts those after the first. -/
structure Proto where
  params : List (Str × Str)
  ok : Bool
deriving DecidableEq, Repr

/-- `tracepointInfo` (bpf_tracepoints.go 20-27); the name is the key. -/
structure Info where
  sym : Nat
  nargs : Nat
  fn : Proto
  kmod : Str
deriving DecidableEq, Repr

/-- `TP_MAX`, `tpMax` (bpf/tracepoint.c 9, bpf_tracepoints.go 18). -/
def tpMax : Nat := 256

/-- `probe_tp_info` (bpf/tracepoint.c 24-33): the name is cut to 63 characters. -/
def cutName (r : Raw) : Raw := { r with name := r.name.take 63 }

/-- The program `probe` (bpf/tracepoint.c 35-53): `stride` is the size of the record it was compiled for. -/
def readChunk (mem : Nat → Raw) (stride start cnt : Nat) : List Raw :=
  (List.range (min cnt tpMax)).map fun i => cutName (mem (start + i * stride))

/-- The end of `probeTracepointInfos` (bpf_tracepoints.go 84-95). The unused part of the array is zero and skipped. -/
def infosOf (rs : List Raw) : List (Str × Raw) :=
  rs.foldl (fun m r => if r.sym = 0 then m else put m r.name r) []

/-- The inner loop of `probeTracepoints` (bpf_tracepoints.go 114-136): `a2s` is the table of symbols, `funcs` the functions
of the BTF; `none` is an error, in whatever order the map is iterated. -/
def resolveAll (a2s : Nat → Option Str) (funcs : Str → Option Proto) : List (Str × Raw) → List (Str × Info) → Option (List (Str × Info))
  | [], t => some t
  | (n, r) :: xs, t =>
    match (a2s r.sym).bind funcs with
    | none => none
    | some p => resolveAll a2s funcs xs (put t n ⟨r.sym, r.nargs, p, []⟩)

/-- `probeTracepoints` (bpf_tracepoints.go 99-143) for a nonzero size. -/
def probeLoop (mem : Nat → Raw) (stride size : Nat) (a2s : Nat → Option Str) (funcs : Str → Option Proto) (start total : Nat)
    (t : List (Str × Info)) : Option (List (Str × Info)) :=
  if h : total = 0 then some t
  else
    match resolveAll a2s funcs (infosOf (readChunk mem stride start (min total tpMax))) t with
    | none => none
    | some t => probeLoop mem stride size a2s funcs (start + size * min total tpMax) (total - min total tpMax) t
termination_by total
decreasing_by simp only [tpMax]; omega

/-- `ProbeTracepoints` (bpf_tracepoints.go 145-168): the records of the kernel itself. -/
def probeKernel (mem : Nat → Raw) (stride size : Nat) (a2s : Nat → Option Str) (funcs : Str → Option Proto) (start stop : Nat) :
    Option (List (Str × Info)) :=
  if start = 0 ∨ stop = 0 ∨ start ≥ stop then none
  else if size = 0 then none
  else probeLoop mem stride size a2s funcs start ((stop - start) / size) []

/-! ### Modules -/

/-- A module: name, number and address of its records (bpf/tracepoint_module.c 25-29). -/
structure Mod where
  name : Str
  nr : Nat
  events : Nat
deriving DecidableEq, Repr

/-- The loop of `probe` (bpf/tracepoint_module.c 57-65): the nodes visited and where it stopped. -/
def walk (next : Nat → Nat) (head : Nat) : Nat → Nat → List Nat × Nat
  | 0, cur => ([], cur)
  | n + 1, cur =>
    if cur = head then ([], cur)
    else ((cur :: (walk next head n (next cur)).1), (walk next head n (next cur)).2)

/-- Modules by their BTF: absent, unreadable, or its functions. -/
inductive ModBtf where
  | absent
  | broken
  | funcs (f : Str → Option Proto)

/-- The loop over the modules (bpf_tracepoints_module.go 114-139). -/
def probeMods (mem : Nat → Raw) (stride size : Nat) (a2s : Nat → Option Str) (btf : Str → ModBtf) :
    List Mod → List (Str × List (Str × Info)) → Option (List (Str × List (Str × Info)))
  | [], t => some t
  | m :: ms, t =>
    if m.nr = 0 ∨ m.nr > 65536 then probeMods mem stride size a2s btf ms t
    else
      match btf m.name with
      | .absent => probeMods mem stride size a2s btf ms t
      | .broken => none
      | .funcs f =>
        match probeLoop mem stride size a2s f m.events m.nr [] with
        | none => none
        | some tps => probeMods mem stride size a2s btf ms (put t m.name tps)

/-- `probeTracepointModuleInfos` (bpf_tracepoints_module.go 35-142): more than 256 modules are an error. -/
def probeModules (mem : Nat → Raw) (stride size : Nat) (a2s : Nat → Option Str) (btf : Str → ModBtf) (next : Nat → Nat) (info : Nat → Mod)
    (head : Nat) : Option (List (Str × List (Str × Info))) :=
  let w := walk next head 256 (next head)
  if w.2 ≠ head then none else probeMods mem stride size a2s btf (w.1.map info) []

/-- Adding the tracepoints of one module (kernel_tracepoints.go 117-122). -/
def addMod (t : List (Str × Info)) (m : Str × List (Str × Info)) : List (Str × Info) :=
  m.2.foldl (fun t x => if (lookup t x.1).isSome then t else put t x.1 { x.2 with kmod := m.1 }) t

/-- Adding those of all modules (kernel_tracepoints.go 116-123), in the order in which the map is iterated. -/
def addMods (t : List (Str × Info)) (ms : List (Str × List (Str × Info))) : List (Str × Info) := ms.foldl addMod t

/-! ### Selection -/

/-- `MAX_BPF_FUNC_ARGS` (kernel_functions.go 17). -/
def maxArgs : Nat := 12

/-- A selected tracepoint (`KFunc` with `IsTp`, kernel_tracepoints.go 76-85). -/
structure KTp where
  name : Str
  params : List (Str × Str)
  kmod : Str
  flag : Imm
deriving DecidableEq, Repr

/-- Outcome for one tracepoint. -/
inductive One where
  | skip
  | panic
  | sel (k : KTp)
deriving DecidableEq, Repr

/-- The body of the loop of `matchKernelTracepoints` (kernel_tracepoints.go 32-85); slicing an empty list panics. The flags
`insn` and `graph` have been cleared (kernel_tracepoints.go 23-26). -/
def matchOne (glob : Str → Str → Bool) (ms : List KfuncFlag) (name : Str) (i : Info) : One :=
  match i.fn.params with
  | [] => .panic
  | _ :: ps =>
    if ps.length < i.nargs then .skip
    else if ps.length > maxArgs then .skip
    else
      match Flg.matchKfunc glob ⟨name, ps, false, false, i.fn.ok⟩ ms with
      | none => .skip
      | some m => if !i.fn.ok then .skip else .sel ⟨name, ps, i.kmod, { m.imm with graph := false }⟩

/-- The loop (kernel_tracepoints.go 32-86): the selected tracepoints; `none` is a panic. -/
def matchAll (glob : Str → Str → Bool) (ms : List KfuncFlag) : List (Str × Info) → List (Str × KTp) → Option (List (Str × KTp))
  | [], t => some t
  | (n, i) :: xs, t =>
    match matchOne glob ms n i with
    | .panic => none
    | .skip => matchAll glob ms xs t
    | .sel k => matchAll glob ms xs (put t n k)

/-- `MergeTracepointsToKfuncs` (kernel_tracepoints.go 132-144): random ids, drawn until one is free. -/
inductive Merged {α : Type} : List α → List (Nat × α) → List (Nat × α) → Prop
  | nil (m) : Merged [] m m
  | cons (x xs m m' id) : id < 2 ^ 64 → lookup m id = none → Merged xs (put m id x) m' → Merged (x :: xs) m m'

end Bpfsnoop.Tp
