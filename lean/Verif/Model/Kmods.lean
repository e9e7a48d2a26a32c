import Verif.Model.Flags

/-
Model of which BTF is searched for kernel functions: kernel_btf.go, kernel_functions.go 195-292, func_proto.go 117-135,
func_graph_proto.go 57-146, slice.go. The contents of /sys/kernel/btf and of its files are parameters, and so are kallsyms
(`findBySymbol` and the list of modules) and whether the code at an address can be patched (see `Traceable`).
A name given with --kfunc-kmods is a file name without slash.
-/
namespace Bpfsnoop.Km
open Flg (Str BFunc KfuncFlag Ksym KFunc Glob)

/-- Outcome of a Go function: a panic, an error, a value. -/
inductive Out (α : Type) where
  | panic
  | err
  | ok (a : α)

/-- `slices.Compact`: of equal neighbours the first is kept. -/
def compact : List Str → List Str
  | [] => []
  | [a] => [a]
  | a :: b :: l => if a = b then compact (b :: l) else a :: compact (b :: l)

/-- `sortCompact` (slice.go 11-14) and `slicex.SortCompact` (internal/slicex/slice.go 12-15). -/
def sortCompact (l : List Str) : List Str := compact (l.mergeSort fun a b => decide (a ≤ b))

/-- `slices.Delete(l, i, j)`: panics unless `i ≤ j ≤ len(l)`. -/
def delete (l : List Str) (i j : Nat) : Option (List Str) := if i ≤ j ∧ j ≤ l.length then some (l.take i ++ l.drop j) else none

/-- What `AnyTypeByName` finds. -/
inductive Named where
  | absent
  | many
  | other
  | func (f : BFunc)

/-- A BTF: its functions, and look-up by name. -/
structure Spec where
  funcs : List BFunc
  byName : Str → Named

/-- /sys/kernel/btf: its entries (name, is it a directory), the files when loaded (`none` is an error), and the BTF loaded at
the start (bpf_btf.go 17-32). -/
structure Fs where
  files : List (Str × Bool)
  load : Str → Option Spec
  kernel : Spec

/-- `fileExists` (fs.go 8-11). -/
def Fs.has (fs : Fs) (n : Str) : Bool := fs.files.any fun f => f.1 = n && !f.2

/-- `ks.mods` (kallsyms.go 93, 225) and the module of the symbol `findBySymbol` finds, empty for the kernel itself. -/
structure Syms where
  mods : List Str
  modOf : Str → Option Str

def vmlinux : Str := "vmlinux".toList

/-- The inner loop of `inferenceKfuncKmods` (kernel_functions.go 248-254). -/
def matchedKmod (mods : List Str) (fn : Str) : Str := (mods.find? fun m => m.isPrefixOf fn).getD []

/-- `inferenceKfuncKmods` (kernel_functions.go 245-262); the functions are the options as given. -/
def infer (ks : Syms) (funcs kmods : List Str) : List Str :=
  sortCompact (funcs.foldl (fun acc fn =>
    if matchedKmod ks.mods fn ≠ [] ∧ matchedKmod ks.mods fn ∉ acc then acc ++ [matchedKmod ks.mods fn] else acc) kmods)

/-- `prepareKmods` (kernel_functions.go 264-279). -/
def prepare (ks : Syms) (funcs kmods : List Str) : List Str :=
  sortCompact (funcs.foldl (fun acc fn =>
    if (ks.modOf fn).getD [] ≠ [] ∧ (ks.modOf fn).getD [] ∉ acc then acc ++ [(ks.modOf fn).getD []] else acc) (infer ks funcs kmods))

/-- The names `iterateKernelBtfs` goes through (kernel_btf.go 21-35 and 47-60); `none` is a panic. -/
def names (fs : Fs) (all : Bool) (kmods : List Str) : Option (List Str) :=
  if all then
    some (vmlinux :: ((fs.files.filter fun f => !f.2 && f.1 ≠ vmlinux).map Prod.fst).mergeSort fun a b => decide (a ≤ b))
  else
    let ks := sortCompact kmods
    let l := if vmlinux ∈ ks then (delete ks (ks.idxOf vmlinux) 1).map (vmlinux :: ·) else some (vmlinux :: ks)
    l.map fun l => l.filter fs.has

/-- The loops of `iterateKernelBtfs` (kernel_btf.go 37-46, 57-70). -/
def walk {σ : Type} (load : Str → Option Spec) (iter : σ → Spec → σ × Bool) : List Str → σ → Out σ
  | [], s => .ok s
  | n :: ns, s =>
    match load n with
    | none => .err
    | some sp => if (iter s sp).2 then .ok (iter s sp).1 else walk load iter ns (iter s sp).1

/-- `iterateKernelBtfs` (kernel_btf.go 19-77). -/
def iterate {σ : Type} (fs : Fs) (all : Bool) (kmods : List Str) (iter : σ → Spec → σ × Bool) (s : σ) : Out σ :=
  if all || !kmods.isEmpty then
    match names fs all kmods with
    | none => .panic
    | some ns => walk fs.load iter ns s
  else .ok (iter s fs.kernel).1

/-- The callback of `findKernelFuncs` (kernel_functions.go 204-216). -/
def collect (glob : Str → Str → Bool) (ksyms : Str → Option Ksym) (maxArgs : Nat) (ms : List KfuncFlag)
    (acc : BitVec 64 → Option KFunc) (sp : Spec) : (BitVec 64 → Option KFunc) × Bool :=
  (sp.funcs.foldl (fun acc fn =>
    match Flg.matchKernelFunc glob ksyms maxArgs ms fn with
    | none => acc
    | some kf => fun a => if a = kf.addr then some kf else acc a) acc, false)

/-- `findKernelFuncs` (kernel_functions.go 197-222) with `findManyArgs` false, for parsed options. -/
def findFuncs (fs : Fs) (all : Bool) (kmods : List Str) (glob : Str → Str → Bool) (ksyms : Str → Option Ksym) (maxArgs : Nat)
    (ms : List KfuncFlag) : Out (BitVec 64 → Option KFunc) :=
  iterate fs all kmods (collect glob ksyms maxArgs ms) fun _ => none

/-- `FindKernelFuncs` (kernel_functions.go 281-292) and `searchKernelFuncs` (kernel_functions.go 224-243); `opts` are the options
as given, `ms` the same parsed. -/
def findKernelFuncs (fs : Fs) (all : Bool) (given : List Str) (ks : Syms) (g : Glob) (glob : Str → Str → Bool)
    (ksyms : Str → Option Ksym) (maxArgs : Nat) (opts : List Str) (ms : List KfuncFlag) : Out (BitVec 64 → Option KFunc) :=
  if opts.isEmpty then .ok fun _ => none
  else
    match findFuncs fs all (prepare ks opts given) glob ksyms maxArgs ms with
    | .panic => .panic
    | .err => .err
    | .ok t => .ok fun a =>
      match t a with
      | none => none
      | some kf =>
        if ((g.exit || kf.flag.both || kf.insn || kf.flag.graph) && Flg.noreturnFuncs.contains kf.fn.name) ||
            Flg.tracingDenyFuncs.contains kf.fn.name then none
        else some kf

/-- The modules searched by --show-func-proto (func_proto.go 125-133). -/
def protoKmods (ks : Syms) (given : List Str) (first : Str) (opts : List Str) : List Str :=
  let l := match ks.modOf first with
    | some m => if m ≠ [] then [m] else infer ks opts given
    | none => infer ks opts given
  sortCompact (vmlinux :: l)

/-- The callback of `findBtfOfKfunc` (func_graph_proto.go 118-140): the function found and whether there was an error. -/
def seek (name : Str) (s : Option BFunc × Bool) (sp : Spec) : (Option BFunc × Bool) × Bool :=
  if s.1.isSome || s.2 then (s, true)
  else
    match sp.byName name with
    | .absent => (s, false)
    | .many => ((none, true), true)
    | .other => ((none, true), true)
    | .func f => ((some f, false), true)

/-- `detectKfuncTraceable` (func_graph_proto.go 57-90): with an error `fn` is nil and `fn.Name` panics. -/
def detect (fs : Fs) (ksyms : Str → Option Ksym) (patchable : BitVec 64 → Bool) (fexit : Bool) (name : Str) : Out Bool :=
  if fexit && Flg.noreturnFuncs.contains name then .ok false
  else if Flg.tracingDenyFuncs.contains name then .ok false
  else
    match iterate fs true [] (seek name) (none, false) with
    | .panic => .panic
    | .err => .panic
    | .ok (_, true) => .panic
    | .ok (none, false) => .ok false
    | .ok (some fn, false) =>
      match Flg.checkTraceable ksyms fn false with
      | none => .ok false
      | some k => .ok (patchable k.addr)

end Bpfsnoop.Km
