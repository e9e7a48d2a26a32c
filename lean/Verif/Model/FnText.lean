import Verif.Model.FnArgs
import Verif.Model.Repr
import Verif.Model.Line
import Verif.Model.OutText

/-
The text of the arguments and the return value in the line of an event: `outputFnRetval`, `outputFnArgs`, `outputFnArgsKmulti`,
`outputFnRetvalKmulti`, `findSymbolHelper` (internal/bpfsnoop/bpfsnoop_func_args.go 92-128, 162-293) and the end of `outputFuncInfo` with
`outputEmptyArgs` and `outputFuncArgsKmulti` (bpfsnoop_func.go 106-147).

Which bytes are taken for which value is Model/FnArgs, the text of one value is Model/Repr. Colours are off; in colour mode the same text
is printed with escape sequences, and a 13th word of arguments ends the program (`funcParamColors[i]`, 195), but the kernel passes at most
12. `none` is a panic.
-/
namespace Bpfsnoop.Ft
open Rp (Text Env W)
open Arg (PFlag Shown ShownRet RetKind)
open Ot (PType)

abbrev Byte := BitVec 8

def t (x : String) : Text := x.toList

/-- `btfx.IsNumberPointer` (internal/btfx/types.go 35-49). -/
def numberPtr : Rp.T → Bool
  | .ptr (.int _ _ _) => true
  | .ptr (.enum _ _) => true
  | _ => false

/-- A parameter of a prototype: its name, the text of its type (`btfx.Repr`), its underlying type, `mybtf.IsConstCharPtr`. -/
structure Prm where
  name : Text
  tname : Text
  t : Rp.T
  cstr : Bool

/-- What `getFuncParams` (bpf_tracing_info.go 34-63) asks about a parameter. -/
def Prm.pty (p : Prm) : Arg.PTy := ⟨p.t.sizeof, p.cstr, numberPtr p.t⟩

/-- The type of the return value: the text of its underlying type (types.go 366, 377), that type, whether it is `void`,
`mybtf.IsConstCharPtr`. -/
structure Ret where
  tname : Text
  t : Rp.T
  void : Bool
  cstr : Bool

/-- What `getFuncParams` (bpf_tracing_info.go 64-68) asks about the return type. -/
def Ret.pty (r : Ret) : Arg.PTy := ⟨r.t.sizeof, r.cstr, numberPtr r.t⟩

/-- `btf.FuncProto`. -/
structure Proto where
  params : List Prm
  ret : Ret

/-- `funcInfo` (bpfsnoop_func.go 15-23) without its name: prototype, what `getFuncParams` found, program type. -/
structure Info where
  proto : Option Proto
  params : List PFlag
  retParam : PFlag
  ptype : PType

/-- `findSymbolHelper` (bpfsnoop_func_args.go 286-293); `exact` is `Kallsyms.findSymbol`: the symbol at this very address, empty if there is
none. -/
def findSymbol (progs : W → Option Text) (exact : W → Text) (addr : W) : Text :=
  match progs addr with
  | some p => p ++ t "[bpf]"
  | none => exact addr

/-- The loop of `outputFnArgs` (bpfsnoop_func_args.go 168-202): what is shown of each value. -/
def argsLoop (e : Env) (ps : List Prm) : List Shown → Option Text
  | [] => some []
  | sh :: r =>
    match ps[sh.idx]? with
    | none => none
    | some p =>
      match Rp.reprParam e p.tname p.name p.t sh.isStr sh.isPtr sh.arg sh.val sh.next (sh.str.map Ot.chr), argsLoop e ps r with
      | some x, some y => some ((if sh.idx ≠ 0 then t ", " else []) ++ x ++ y)
      | _, _ => none

/-- The branches of `outputFnRetval` (bpfsnoop_func_args.go 95-118) by program type. -/
def retKind : PType → RetKind
  | .xdp | .tc => .action
  | .other => .typed

/-- `outputFnRetval` (bpfsnoop_func_args.go 92-128) of a function with a prototype. -/
def retval (e : Env) (pt : PType) (ret : Ret) (r : ShownRet) : Option Text :=
  (match r with
    | .action a => some (match pt with | .xdp => Ot.xdpText a | _ => Ot.tcText a)
    | .typed isStr isPtr n1 n2 s => Rp.reprReturn e ret.tname ret.t ret.void isStr isPtr n1 n2 (s.map Ot.chr)).map (t " retval=" ++ ·)

/-- The end of `outputFnArgs` (bpfsnoop_func_args.go 204-212). -/
def retPart (e : Env) (pt : PType) (ret : Ret) : Option ShownRet → Option Text
  | none => some []
  | some r => retval e pt ret r

/-- `outputFnArgs` (bpfsnoop_func_args.go 162-213). -/
def fnArgs (e : Env) (i : Info) (withRetval : Bool) (data : List Byte) : Option Text :=
  match i.proto with
  | none => none
  | some pr =>
    match Arg.outputFnArgs pr.params.length i.params (retKind i.ptype) i.retParam withRetval data with
    | none => none
    | some (l, r) =>
      match argsLoop e pr.params l, retPart e i.ptype pr.ret r with
      | some x, some y => some (t "=(" ++ x ++ t ")" ++ y)
      | _, _ => none

/-- The loop of `outputFnArgsKmulti` (bpfsnoop_func_args.go 232-255) from parameter `i` on. -/
def kmultiLoop (e : Env) (maxArgs : Nat) (data : List Byte) : Nat → List Prm → Option Text
  | _, [] => some []
  | i, p :: ps =>
    match Rp.reprParam e p.tname p.name p.t false false (Arg.kmultiShow maxArgs data i).1 0 (Arg.kmultiShow maxArgs data i).2 [],
      kmultiLoop e maxArgs data (i + 1) ps with
    | some x, some y => some ((if i ≠ 0 then t ", " else []) ++ x ++ y)
    | _, _ => none

/-- `outputFnArgsKmulti` (bpfsnoop_func_args.go 215-263). -/
def kmultiArgs (e : Env) (maxArgs : Nat) (i : Info) (data : List Byte) : Option Text :=
  match i.proto with
  | none => some (t "=()")
  | some pr =>
    (kmultiLoop e maxArgs data 0 (pr.params.take maxArgs)).map fun x =>
      t "=(" ++ x ++ (if maxArgs < pr.params.length then (if maxArgs ≠ 0 then t ", " else []) ++ t "..." else []) ++ t ")"

/-- `outputFnRetvalKmulti` (bpfsnoop_func_args.go 265-284). -/
def kmultiRetval (e : Env) (i : Info) (num : W) : Option Text :=
  (match i.proto with
    | none => some (Rp.hexDec num.toNat)
    | some pr => Rp.reprReturn e pr.ret.tname pr.ret.t pr.ret.void false false num 0 []).map (t " retval=" ++ ·)

/-- The end of `outputFuncArgsKmulti` (bpfsnoop_func.go 141-146). -/
def kmultiPart (e : Env) (i : Info) : Option W → Option Text
  | none => some []
  | some n => kmultiRetval e i n

/-- `outputFuncArgsKmulti` (bpfsnoop_func.go 138-147). -/
def kmulti (e : Env) (maxArgs : Nat) (i : Info) (withRetval : Bool) (data : List Byte) : Option Text :=
  match kmultiArgs e maxArgs i data, kmultiPart e i (Arg.kmultiRet maxArgs withRetval data) with
  | some x, some y => some (x ++ y)
  | _, _ => none

/-- `outputEmptyArgs` (bpfsnoop_func.go 131-136). -/
def emptyArgs (withRetval isKmulti : Bool) : Text :=
  t "=()" ++ (if withRetval && !isKmulti then t " retval=(void)" else [])

/-- The rest of `outputFuncInfo` (bpfsnoop_func.go 106-117); `data` are the `argSz` bytes. -/
def args (e : Env) (maxArgs : Nat) (i : Info) (exit isKmulti : Bool) (data : List Byte) : Option Text :=
  if data.length = 0 then some (emptyArgs exit isKmulti)
  else if isKmulti then kmulti e maxArgs i exit data
  else fnArgs e i exit data

end Bpfsnoop.Ft
