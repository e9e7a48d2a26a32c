import Verif.Model.Flags
import Verif.Model.Traceable

/-
How many parameters a traced function may have: internal/bpfsnoop/kernel_functions_max_arg.go 14-58 and the branch of
`matchKernelFunc` (kernel_functions.go 124-193) it takes.

Whether a tracing program for a function loads (kernel_functions_max_arg.go 44-54) is a parameter; so are the functions of the kernel and its modules,
its symbols and its memory. That the patterns compile, that the BTF can be read and that the program that reads
kernel memory loads and runs is assumed.
-/
namespace Bpfsnoop.Mx
open Flg (Str KFunc KfuncFlag Ksym BFunc)

/-- `MAX_BPF_FUNC_ARGS` (kernel_functions.go 17). -/
def maxArgs : Nat := 12

/-- `MAX_BPF_FUNC_ARGS_PREV` (kernel_functions.go 18). -/
def maxArgsPrev : Nat := 6

/-- The patterns (kernel_functions_max_arg.go 15). -/
def patterns : List Str := ["ip_*".toList, "tcp_*".toList]

/-- `parseKfuncFlags` (flags_kfunc.go 115-126) of the patterns under the global options. -/
def parse (g : Flg.Glob) : List Str → Option (List KfuncFlag)
  | [] => some []
  | k :: r =>
    match Flg.parseKfuncFlag g k with
    | .error _ => none
    | .ok m => (parse g r).map (m :: ·)

/-- `matchKernelFunc` (kernel_functions.go 124-193) with `findManyArgs`. -/
def matchMany (glob : Str → Str → Bool) (ksyms : Str → Option Ksym) (ms : List KfuncFlag) (fn : BFunc) : Option KFunc :=
  if ms.isEmpty then none
  else
    match Flg.matchKfunc glob fn ms with
    | none => none
    | some m =>
      match Flg.checkTraceable ksyms fn m.imm.multi with
      | none => none
      | some k =>
        if !fn.paramsOk then none
        else if maxArgsPrev < fn.params.length && fn.params.length ≤ maxArgs then some ⟨k.addr, fn, m.insn, m.imm⟩
        else none

/-- `findKernelFuncs` (kernel_functions.go 197-222) with `findManyArgs`; `fns` are the functions of the kernel and all its modules. -/
def findMany (glob : Str → Str → Bool) (ksyms : Str → Option Ksym) (ms : List KfuncFlag) (fns : List BFunc) : Tr.KFuncs :=
  fns.foldl (fun acc fn =>
    match matchMany glob ksyms ms fn with
    | none => acc
    | some kf => fun a => if a = kf.addr then some kf else acc a) (fun _ => none)

/-- A system: global options, `glob` pattern name, symbols, functions, memory, and whether the tracing program loads for a function. -/
structure Sys where
  g : Flg.Glob
  glob : Str → Str → Bool
  ksyms : Str → Option Ksym
  fns : List BFunc
  cpu : Tr.Cpu
  mem : KRead.Mem
  loads : BFunc → Bool

/-- `DetectSupportedMaxArg` (kernel_functions_max_arg.go 14-58): the answers it may give, `none` for an error. `addrs` are the sorted
keys of the map found (bpf_kfuncs.go 98-99); which of the functions left is `maps.Values(kfuncs)[0]` is not determined. -/
inductive Detect (s : Sys) : Option Nat → Prop
  | badFlag : parse s.g patterns = none → Detect s none
  | nothing (ms : List KfuncFlag) (addrs : List Tr.Addr) (left : Tr.KFuncs) :
      parse s.g patterns = some ms →
      (∀ a, a ∈ addrs ↔ findMany s.glob s.ksyms ms s.fns a ≠ none) →
      Tr.detectAll s.cpu s.mem addrs (findMany s.glob s.ksyms ms s.fns) = some left →
      (∀ a, left a = none) → Detect s none
  | tried (ms : List KfuncFlag) (addrs : List Tr.Addr) (left : Tr.KFuncs) (a : Tr.Addr) (kf : KFunc) :
      parse s.g patterns = some ms →
      (∀ a, a ∈ addrs ↔ findMany s.glob s.ksyms ms s.fns a ≠ none) →
      Tr.detectAll s.cpu s.mem addrs (findMany s.glob s.ksyms ms s.fns) = some left →
      left a = some kf → Detect s (some (if s.loads kf.fn then maxArgs else maxArgsPrev))

end Bpfsnoop.Mx
