import Verif.Model.Proto
import Verif.Model.Kmods
import Verif.Model.ListText

/-
The whole listing of `--show-func-proto`: `ShowFuncProto`, `printFuncProto`, `printKfuncProto` (internal/bpfsnoop/func_proto.go 61-205).
The text of one prototype is `Pt.showFunc` (Model/Proto), the modules searched `Km.protoKmods`, the kernel functions found
`Km.findFuncs`, the mark `Km.detect` (Model/Kmods).

Simplifications: no colours; which programs and which tracepoints are selected are parameters (Model/Flags, Model/Tp); the file with
debug information and the options are read without error. A map is walked in any order: `order` is the order in which the map of the
kernel functions found is walked, and the order in which the two sorts are fed with the keys is that of the lists given.
`slices.SortFunc` is not stable, but as every order of the map is considered, the results of a stable sort are all its results.
-/
namespace Bpfsnoop.Pl
open Pt (T Ps showFunc s)
open Rp (Text dec)
open Km (Out)

/-- `*btf.Func`: name, result, parameters. -/
structure Decl where
  name : Text
  ret : T
  ps : Ps

/-- `printFuncProto` (func_proto.go 61-64); a type whose text is empty is a panic. -/
def printFunc (list : Bool) (d : Decl) : Out Text :=
  match showFunc d.name d.ret d.ps list with
  | none => .panic
  | some x => .ok (x ++ s ";\n")

/-- The comment before a kernel function (func_proto.go 71-81). -/
def comment (p : Lt.Ep) : Text :=
  s "; " ++ p.func ++ s "+" ++ Lt.hex p.off ++
  (if p.file ≠ [] then s " " ++ p.file ++ s ":" ++ dec p.line else []) ++
  (if p.inline then s " [inline]" else []) ++ s "\n"

/-- `printKfuncProto` (func_proto.go 66-90): `a2l` is what `getLineInfo` knows of an address, if there is debug information; a name
without symbol is a fatal error. -/
def printKfunc (list : Bool) (a2l : Option (BitVec 64 → Lt.Ep)) (ksyms : Text → Option Flg.Ksym) (traceable : Bool) (d : Decl) :
    Out Text :=
  match a2l.map fun f => (ksyms d.name).map fun k => comment (f k.addr) with
  | some none => .err
  | c =>
    match showFunc d.name d.ret d.ps list with
    | none => .panic
    | some x => .ok ((c.getD none).getD [] ++ x ++ s ";" ++ (if traceable then s " [traceable]" else []) ++ s "\n")

/-- A loop that prints. -/
def each {α : Type} (f : α → Out Text) : List α → Out Text
  | [] => .ok []
  | a :: as =>
    match f a with
    | .panic => .panic
    | .err => .err
    | .ok x =>
      match each f as with
      | .panic => .panic
      | .err => .err
      | .ok y => .ok (x ++ y)

/-- The line above a list (func_proto.go 103-104, 137-138, 193-194). -/
def title (x : String) (n : Nat) : Text := s x ++ s ":" ++ s " (total " ++ dec n ++ s ")\n"

/-- `sort.Strings(keys)`, `slices.SortFunc` and `slices.Sort` (func_proto.go 106-107, 140-146, 196-197). -/
def sortBy {α : Type} (key : α → Text) (l : List α) : List α := l.mergeSort fun a b => decide (key a ≤ key b)

/-- What is known of the system and the options. `progs` is `none` if `NewBPFProgs` fails, `nprogs`, `ktps` and `opts` are the options
given. -/
structure Env where
  list : Bool
  nprogs : Nat
  progs : Option (List (Text × Decl))
  fs : Km.Fs
  all : Bool
  given : List Flg.Str
  ks : Km.Syms
  glob : Flg.Str → Flg.Str → Bool
  ksyms : Flg.Str → Option Flg.Ksym
  patchable : BitVec 64 → Bool
  entry : Bool
  opts : List Flg.Str
  ms : List Flg.KfuncFlag
  decl : Flg.BFunc → Decl
  a2l : Option (BitVec 64 → Lt.Ep)
  ntps : Nat
  tps : Out (List (Text × Decl))

/-- func_proto.go 97-115: the error of `NewBPFProgs` is not looked at, and `progs` is nil with it. -/
def programs (E : Env) : Out Text :=
  if E.nprogs = 0 then .ok []
  else
    match E.progs with
    | none => .panic
    | some [] => .ok []
    | some (p :: ps) =>
      match each (fun x => printFunc E.list x.2) (sortBy (·.1) (p :: ps)) with
      | .ok y => .ok (title "BPF functions" (p :: ps).length ++ y)
      | e => e

/-- The kernel functions found (func_proto.go 125-135). -/
def found (E : Env) : Out (BitVec 64 → Option Flg.KFunc) :=
  Km.findFuncs E.fs E.all (Km.protoKmods E.ks E.given (E.opts.headD []) E.opts) E.glob E.ksyms 12 E.ms

/-- One kernel function (func_proto.go 173-177). -/
def kline (E : Env) (kf : Flg.KFunc) : Out Text :=
  match Km.detect E.fs E.ksyms E.patchable (!E.entry) kf.fn.name with
  | .panic => .panic
  | .err => .err
  | .ok b => printKfunc E.list (if E.list then E.a2l else none) E.ksyms b (E.decl kf.fn)

/-- func_proto.go 117-180, `order` the functions found in the order of the map. -/
def kernel (E : Env) (order : List Flg.KFunc) : Out Text :=
  match found E with
  | .panic => .panic
  | .err => .err
  | .ok _ =>
    match each (kline E) (sortBy (·.fn.name) order) with
    | .ok y => .ok (title "Kernel functions" order.length ++ y)
    | e => e

/-- func_proto.go 182-202. -/
def tracepoints (E : Env) : Out Text :=
  match E.tps with
  | .panic => .panic
  | .err => .err
  | .ok l =>
    match each (fun x => printFunc E.list x.2) (sortBy (·.1) l) with
    | .ok y => .ok (title "Kernel tracepoints" l.length ++ y)
    | e => e

/-- `ShowFuncProto` (func_proto.go 92-205): what ends up on standard output. -/
def showAll (E : Env) (order : List Flg.KFunc) : Out Text :=
  match programs E with
  | .panic => .panic
  | .err => .err
  | .ok p =>
    match (if E.opts = [] then .ok [] else kernel E order) with
    | .panic => .panic
    | .err => .err
    | .ok k =>
      match (if E.ntps = 0 then .ok [] else tracepoints E) with
      | .panic => .panic
      | .err => .err
      | .ok t =>
        .ok (p ++ (if E.opts ≠ [] ∧ p ≠ [] then s "\n" else []) ++ k ++
          (if E.ntps ≠ 0 ∧ (p ≠ [] ∨ E.opts ≠ []) then s "\n" else []) ++ t)

end Bpfsnoop.Pl
