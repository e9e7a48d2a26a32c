import Verif.Model.Graph
import Verif.Model.Flags

/-
Which functions a call graph consists of, given the options: the checks of `FuncGraphParser.add`
(internal/bpfsnoop/func_graph_parser.go 216-316, 359-435), `--fgraph-include`, `--fgraph-exclude` and `--fgraph-extra`, the list
of functions never shown (func_graph.go 11-101) and the roots (125-214). The exploration itself is Model/Graph.

Simplifications: the functions at addresses, their callees and the programs that replace others are parameters; `duped` and the
tables by address and by name are those of Model/Kallsyms; `btf.Spec.AnyTypeByName` is a function from names to what it finds; the
map of names already used (413-424) is left out, as in Model/Graph; a failed clone of a BPF program (368-371) and a cancelled context
are not modelled.
-/
namespace Bpfsnoop.Gs
open Flg

abbrev Ip := Gr.Ip

/-- What `spec.AnyTypeByName(name)` (func_graph_parser.go 224, 257) gives: an error, a type that is not a function, or a function. -/
inductive Look
  | absent
  | other
  | func (fn : BFunc)
deriving DecidableEq, Repr

/-- The type information of vmlinux or of a module. -/
abbrev Spec := Str → Look

/-- `KsymEntry` (kallsyms.go) as far as `add` looks at it: name, `duped`, and whether `mod` is `bpf`. -/
structure Sym where
  name : Str
  duped : Bool
  bpf : Bool
deriving DecidableEq, Repr

/-- What the parser works with (func_graph_parser.go 47-71) and the kernel it looks at. `specs`: vmlinux and all modules
(`iterateKernelBtfs(true, ..)`, kernel_btf.go 19-46), `none` if one cannot be loaded; `slots`: the number of registers the
parameters take (`len(params)` of `getFuncParams`, bpf_tracing_info.go 29-70); `bpf`: the functions of BPF programs and whether
`canTrace` (82-99). -/
structure Env where
  specs : List (Option Spec)
  glob : Str → Str → Bool
  ksyms : Str → Option Ksym
  slots : BFunc → Nat
  maxArgs : Nat
  includes : List KfuncFlag
  excludes : List KfuncFlag
  bpf : Ip → Option Bool
  a2s : Ip → Option Sym
  repl : Ip → Option Ip
  callees : Ip → List Ip

/-- `iterateKernelBtfs(true, nil, iter)` (kernel_btf.go 19-46): `iter` is called until it returns true; `none` is an error. -/
def walk {σ : Type} (iter : σ → Spec → σ × Bool) : List (Option Spec) → σ → Option σ
  | [], s => some s
  | none :: _, _ => none
  | some b :: r, s =>
    match iter s b with
    | (s', true) => some s'
    | (s', false) => walk iter r s'

/-- The closure of `isExcludedKfunc` (func_graph_parser.go 219-241). -/
def exStep (E : Env) (name : Str) (excluded : Bool) (b : Spec) : Bool × Bool :=
  if excluded then (true, true)
  else
    match b name with
    | .func fn =>
      match matchKernelFunc E.glob E.ksyms E.maxArgs E.excludes fn with
      | some _ => (true, true)
      | none => (false, false)
    | _ => (false, false)

/-- `isExcludedKfunc` (func_graph_parser.go 218-249). -/
def isExcluded (E : Env) (name : Str) : Option Bool := walk (exStep E name) E.specs false

/-- The closure of `checkIncludedKfunc` (func_graph_parser.go 256-309); the state is `kfunc` and whether `errIter` is set. -/
def incStep (E : Env) (name : Str) (s : Option BFunc × Bool) (b : Spec) : (Option BFunc × Bool) × Bool :=
  if s.1.isSome || s.2 then (s, true)
  else
    match b name with
    | .func fn =>
      match checkTraceable E.ksyms fn false with
      | none => (s, false)
      | some _ =>
        if E.includes.isEmpty then
          if !fn.paramsOk then ((s.1, true), true)
          else if E.slots fn ≤ E.maxArgs then ((some fn, s.2), true)
          else (s, false)
        else
          match matchKernelFunc E.glob E.ksyms E.maxArgs E.includes fn with
          | some kf => ((some kf.fn, s.2), true)
          | none => ((none, s.2), false)
    | _ => (s, false)

/-- `checkIncludedKfunc` (func_graph_parser.go 251-316): the outer `none` is an error. -/
def checkIncluded (E : Env) (name : Str) : Option (Option BFunc) :=
  match walk (incStep E name) E.specs (none, false) with
  | none => none
  | some (_, true) => none
  | some (kf, false) => some kf

/-- The checks of `add` (func_graph_parser.go 359-435): whether the function is put into the graph; `none` is an error, which
ends the search for functions. -/
def verdict (E : Env) (ip : Ip) : Option Bool :=
  match E.bpf ip with
  | some canTrace => some canTrace
  | none =>
    match E.a2s ip with
    | none => some false
    | some s =>
      if s.duped then some false
      else if s.bpf then some false
      else if tracingDenyFuncs.contains s.name || noreturnFuncs.contains s.name then some false
      else
        match isExcluded E s.name with
        | none => none
        | some true => some false
        | some false =>
          match checkIncluded E s.name with
          | none => none
          | some none => some false
          | some (some _) => some true

/-- The world the parser explores (Model/Graph). -/
def world (E : Env) : Gr.World := ⟨fun ip => verdict E ip == some true, E.repl, E.callees⟩

/-- `fgraphDenyList` (func_graph.go 11-101). -/
def fgraphDenyList : List Str :=
  ["*htab_map_lookup_elem", "bpf_ringbuf_reserve", "bpf_ringbuf_submit", "bpf_ktime_get_ns", "bpf_get_smp_processor_id",
   "bpf_probe_read_kernel", "bpf_probe_read_kernel_str", "bpf_dispatcher_xdp_func"].map String.toList

/-- The patterns of `fgraphDenyList`, parsed like those of `-k` with the global options (`FindKernelFuncs`, func_graph.go 165;
kernel_functions_match.go 21-41). -/
def denyFlags (g : Glob) : List KfuncFlag :=
  fgraphDenyList.filterMap fun n => match parseKfuncFlag g n with
    | .ok f => some f
    | .error _ => none

/-- `denyKfuncs` (func_graph.go 165-168, 178-183): whether the search finds a function at the address for `fgraphDenyList`. `fns`: the
functions of the type information searched (Model/Kmods). -/
def isDeny (g : Glob) (E : Env) (fns : List BFunc) (ip : Ip) : Bool :=
  (searchKernelFuncs g E.glob E.ksyms E.maxArgs (denyFlags g) fns (BitVec.ofNat 64 ip)).isSome

/-- A function or program selected for tracing: its address and whether its graph was asked for (func_graph.go 126-139). -/
structure Traced where
  ip : Ip
  graph : Bool
deriving DecidableEq, Repr

/-- The roots: kernel functions and BPF programs whose graph was asked for at depth 0, the functions of `--fgraph-extra` at depth 1
(func_graph.go 126-139, 192-214). -/
def roots (kfuncs progs : List Traced) (extra : List Ip) : List (Ip × Nat) :=
  ((kfuncs.filter (·.graph)).map fun t => (t.ip, 0)) ++ ((progs.filter (·.graph)).map fun t => (t.ip, 0)) ++
    extra.map fun ip => (ip, 1)

/-- The options given to `FindGraphFuncs` (func_graph.go 125): what is traced, `--fgraph-extra`, `--fgraph-max-depth`,
`--fgraph-debug`, and the functions found for `fgraphDenyList` (165-168). -/
structure Ask where
  kfuncs : List Traced
  progs : List Traced
  extra : List Ip
  deny : List Ip
  depth : Nat
  debug : Bool

/-- `FindGraphFuncs` (func_graph.go 125-235) when no check fails, for a schedule of the goroutines that explore the denied functions
(178-187) and one of those that explore the roots (192-219): whether a function is in the result. -/
def shown (E : Env) (A : Ask) (sDeny sRoots : List Nat) (ip : Ip) : Bool :=
  if !(A.kfuncs.any (·.graph)) && !(A.progs.any (·.graph)) then false
  else
    Gr.found (Gr.run (world E) A.depth (Gr.initial (roots A.kfuncs A.progs A.extra)) sRoots)
      (Gr.run (world E) A.depth (Gr.initial (A.deny.map fun ip => (ip, 0))) sDeny) A.debug ip

end Bpfsnoop.Gs
