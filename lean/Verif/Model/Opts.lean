import Verif.Model.Flags

/-
Model of what `ParseFlags` (flags.go 88-247) decides once the options have been read: the modes, which combinations are
refused, the histogram and t-digest expressions, whether LBR and vmlinux are needed, and how the `-k` selectors are
divided. Option reading itself (package pflag), `--kernel-vmlinux`, `--find-vmlinux`, colours, `--show-type-proto` and
`--read` are not modelled.
-/
namespace Bpfsnoop.Opt
open Flg

/-- The options that matter here (flags.go 24-86): `-m`, `-k`, `-t`, `-p`, `--filter-arg`, `--filter-pkt`,
`--output-arg`, `--output-pkt`, `--output-lbr`, `--output-stack`, `--output-flamegraph`, `--no-vmlinux`,
`--fgraph-max-depth`, `--fgraph-include`, `--fgraph-exclude`, `--fgraph-extra`. -/
structure Opts where
  modes : List String := []
  kfuncs : List Str := []
  ktps : List Str := []
  progs : List Str := []
  filterArg : List Str := []
  filterPkt : Str := []
  outputArg : List Str := []
  outputPkt : Bool := false
  outputLbr : Bool := false
  outputStack : Bool := false
  flameGraph : Str := []
  noVmlinux : Bool := false
  depth : Nat := 5
  incl : List Str := []
  excl : List Str := []
  extra : List Str := []

/-- What the checks leave behind: `modes`, `histExpr`, `tdigestExpr` (`none`: not asked for), `requiredLbr`,
`requiredVmlinux`, `outputFuncStack`. -/
structure Res where
  modes : List String
  hist : Option Str
  tdig : Option Str
  lbr : Bool
  vmlinux : Bool
  stack : Bool
deriving DecidableEq, Repr

/-- Why the options are refused. -/
inductive OErr where
  | mode | multiExit | depth | fgraphMulti | hist | tdigest
deriving DecidableEq, Repr

/-- `Kfuncs` (flags.go 358-366). -/
def kfuncs (o : Opts) : List Str := o.kfuncs.filter fun k => !hasM k

/-- `KfuncsMulti` (flags.go 368-376). -/
def kfuncsMulti (o : Opts) : List Str := o.kfuncs.filter hasM

/-- `checkMultiExitFilterConflict` (flags.go 329-356): refused? -/
def multiExitConflict (o : Opts) (modes : List String) : Bool :=
  if (kfuncsMulti o).isEmpty then false
  else if !modes.contains "exit" || modes.contains "entry" then false
  else !o.filterArg.isEmpty || !o.filterPkt.isEmpty || !o.outputArg.isEmpty || o.outputPkt

/-- `checkFgraphMultiUnsupported` (flags.go 293-319): refused? -/
def fgraphMulti (o : Opts) : Bool :=
  o.kfuncs.any (fun k => hasM k && contains "(g)".toList k) || o.incl.any hasM || o.excl.any hasM || o.extra.any hasM

/-- `strings.TrimSuffix(s, ")")`. -/
def trimParen (s : Str) : Str := if s.getLast? = some ')' then s.dropLast else s

/-- The loops over `outputArg` (flags.go 196-219): the expression between `name(` and `)`; `error` if there are two. -/
def findAgg (name : Str) : List Str → Option Str → Except Unit (Option Str)
  | [], acc => .ok acc
  | s :: ss, acc =>
    if !(name ++ ['(']).isPrefixOf s then findAgg name ss acc
    else if acc.isSome then .error ()
    else findAgg name ss (some (trimParen (s.drop (name.length + 1))))

/-- `ParseFlags` after reading the options (flags.go 147, 175-235). -/
def check (o : Opts) : Except OErr Res :=
  let stack := o.outputStack || !o.flameGraph.isEmpty
  let modes := setDefaultModes o.modes o.kfuncs
  if !checkMode modes then .error .mode
  else if multiExitConflict o modes then .error .multiExit
  else if o.depth = 0 ∨ 500 < o.depth then .error .depth
  else if fgraphMulti o then .error .fgraphMulti
  else
    match findAgg "hist".toList o.outputArg none with
    | .error _ => .error .hist
    | .ok hist =>
      match findAgg "tdigest".toList o.outputArg none with
      | .error _ => .error .tdigest
      | .ok tdig =>
        let lbr := o.outputLbr || (o.kfuncs ++ o.progs).any (contains "(l)".toList)
        let wantS := (o.kfuncs ++ o.ktps ++ o.progs).any (contains "(s)".toList)
        .ok ⟨modes, hist, tdig, lbr, !o.noVmlinux && (wantS || stack || o.outputLbr || lbr), stack⟩

end Bpfsnoop.Opt
