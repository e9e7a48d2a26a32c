import Verif.Model.OutArg
import Verif.Model.Kmods
import Verif.Model.Asm

/-
Model of which functions the expressions of --filter-arg and --output-arg apply to: internal/cc/variable.go, filter_arg.go 51-146,
output_arg.go 69-104, 333-370. The parser is not modelled: an option is given as its parsed expression. Names below an operator the
compiler does not know are not represented (`Expr.unsup`; every such expression is rejected, see `unsup_rejected`).
-/
namespace Bpfsnoop.Sel
open Cc (Expr Top Ty Opts Err Prog TopRes)
open Flg (Str)

/-- `cc.Walk` with the function of `ExtractVarNames` (variable.go 23-30): the names of the variables in an expression, not of members
and types. -/
def walk : Expr → List String
  | .name s => [s]
  | .num _ => []
  | .arrow e _ => walk e
  | .dot e _ => walk e
  | .index e i => walk e ++ walk i
  | .indir e => walk e
  | .addr e => walk e
  | .cast _ e => walk e
  | .un _ e => walk e
  | .bin _ l r => walk l ++ walk r
  | .cond c l r => walk c ++ walk l ++ walk r
  | .unsup => []

/-- Why preparing the options fails: a crash (`e.List[0]` of a call without arguments) or `log.Fatalf`. -/
inductive Stop where
  | panic
  | fatal
deriving DecidableEq, Repr

/-- `ExtractVarNames` (variable.go 13-35): of a call only the first argument counts. `none` is a panic. -/
def extractVarNames : Top → Option (List Str)
  | .plain e => some (Km.sortCompact ((walk e).map String.toList))
  | .call _ [] => none
  | .call _ (e :: _) => some (Km.sortCompact ((walk e).map String.toList))

/-- `funcArgument` (filter_arg.go 28-31) and the fields of `funcArgumentOutput` known before compilation. -/
structure Arg where
  expr : Top
  vars : List Str

/-- `prepareFuncArgument` (filter_arg.go 51-65) and `prepareArgOutput` (output_arg.go 69-83). -/
def prepare (x : Top) : Except Stop Arg :=
  match extractVarNames x with
  | none => .error .panic
  | some vars => if vars.length = 0 then .error .fatal else .ok ⟨x, vars⟩

/-- `prepareFuncArguments` (filter_arg.go 67-79) and `prepareFuncArgOutput` (output_arg.go 85-99). -/
def prepareAll : List Top → Except Stop (List Arg)
  | [] => .ok []
  | x :: xs =>
    match prepare x with
    | .error z => .error z
    | .ok a =>
      match prepareAll xs with
      | .error z => .error z
      | .ok as => .ok (a :: as)

/-- `funcArgument.matchParams` (filter_arg.go 89-97) and `funcArgumentOutput.match` (output_arg.go 333-341). -/
def Arg.hits (a : Arg) (params : List (String × Ty)) : Bool := params.any fun p => a.vars.contains p.1.toList

/-- `cc.CompileFilterExpr` (expr.go 46-62) of a parsed option: a call is not among the operators a filter may have. -/
def compileFilterTop (o : Opts) : Top → Except Err Prog
  | .plain e => Cc.compileFilter o e
  | .call _ _ => .error .reject

/-- `argumentFilter.inject` (filter_arg.go 126-146) from position `i` on: `none` is `errSkipped`, and an error makes tracing the function
fail. -/
def filterFrom (o : Opts) : List Arg → Nat → Except Err (Option (Nat × Prog))
  | [], _ => .ok none
  | a :: as, i =>
    if !a.hits o.vars then filterFrom o as (i + 1)
    else
      match compileFilterTop o a.expr with
      | .error z => .error z
      | .ok p => .ok (some (i, p))

/-- `argumentFilter.inject` (filter_arg.go 126-146) for a function whose parameters are `o.vars`. -/
def filterFor (o : Opts) (as : List Arg) : Except Err (Option (Nat × Prog)) := filterFrom o as 0

/-- `argDataOutput.matchParams` (output_arg.go 349-370) without the layout of the buffer (`compileArgs`): the compiled expressions. R8
and R9 are in use (output_arg.go 281-290). -/
def outputsFor (o : Opts) (nelems : Ty → Nat) : List Arg → Except Err (List TopRes)
  | [] => .ok []
  | a :: as =>
    if !a.hits o.vars then outputsFor o nelems as
    else
      match Cc.compileTop o nelems [8, 9] false a.expr with
      | .error z => .error z
      | .ok r =>
        match outputsFor o nelems as with
        | .error z => .error z
        | .ok rs => .ok (r :: rs)

end Bpfsnoop.Sel
