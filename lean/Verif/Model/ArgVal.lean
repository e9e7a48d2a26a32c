import Verif.Model.ArgSel
import Verif.Model.FnArgs
import Verif.Model.Proto

/-
Model of where the programs take the arguments from that --filter-arg and --output-arg speak about: bpf/bpfsnoop.c 60-97,
bpf/bpfsnoop_kmulti.c 31-62, 82-110, bpf_tracing_func_multi.go 96-139, 315-341, bpf_tracing_prog.go 30-75.

How a call passes its arguments is not code of bpfsnoop and is stated in the specification (`Passed`, Props/ArgVal).
-/
namespace Bpfsnoop.Av
open Cc (Expr Top Ty Btf Opts Err Prog TopRes)

abbrev W := BitVec 64

/-- What `getFuncParams` sees of a parameter (bpf_tracing_info.go 34-63); `cs` and `ns` are `mybtf.IsConstCharPtr` and
`btfx.IsNumberPointer`. -/
def pty (Γ : Btf) (cs ns : Ty → Bool) (p : String × Ty) : Bpfsnoop.Arg.PTy := ⟨Γ.sizeOf p.2, cs p.2, ns p.2⟩

/-- `fnArgsNr` (bpf_tracing_func.go 116, bpf_tracing_prog.go 125): the number of entries `getFuncParams` (bpf_tracing_info.go 29-70)
makes, `none` if it fails. -/
def argsNr (Γ : Btf) (cs ns : Ty → Bool) (ret : Bpfsnoop.Arg.PTy) (params : List (String × Ty)) : Option Nat :=
  (Bpfsnoop.Arg.getFuncParams (params.map (pty Γ cs ns)) ret).map fun q => q.1.length

/-- `args` in `emit_bpfsnoop_event` (bpfsnoop.c 93): the first `nr` words of the context; the others are not written (`junk`). -/
def readCtx (nr : Nat) (ctx : List W) (junk : Nat → W) (i : Nat) : W := if i < nr then ctx.getD i 0 else junk i

/-- How many registers `read_args_from_ctx` reads (bpfsnoop_kmulti.c 32-62). -/
def regsNr (arm64 : Bool) : Nat := if arm64 then 8 else 6

/-- `args` in `emit_bpfsnoop_kmulti_event` (bpfsnoop_kmulti.c 83-110, 32-62): zero beyond the registers. -/
def readRegs (arm64 : Bool) (regs : Nat → W) (i : Nat) : W := if i < regsNr arm64 then regs i else 0

/-- A function selected with `(m)`: its parameters and the argument named by its selector. -/
structure MFun where
  params : List (String × Ty)
  arg : String

/-- `findMatchedArgIndex` (bpf_tracing_func_multi.go 333-341); `none` is -1, which ends bpfsnoop (104). -/
def matchedIndex (f : MFun) : Option Nat := (Cc.findVar f.arg f.params 0).map (·.1)

/-- The function of the group (`g.fn`, bpf_tracing_func_multi.go 102-117) of the functions with this index: the first one. -/
def leader (fns : List MFun) (i : Nat) : Option MFun := fns.find? fun f => matchedIndex f = some i

/-- `validateKmultiArgOutput` (bpf_tracing_func_multi.go 315-329). -/
def validateOutput (f : MFun) (as : List Sel.Arg) : Bool := as.all fun a => a.vars.all fun v => v == f.arg.toList

/-- The filter that runs for `f` when it is traced with the functions `fns` (bpf_tracing_func_multi.go 184-207): compiled for the function
of the group. The outer `none`: bpfsnoop ends. -/
def multiFilter (o : Opts) (fns : List MFun) (as outs : List Sel.Arg) (f : MFun) : Option (Except Err (Option (Nat × Prog))) :=
  match matchedIndex f with
  | none => none
  | some i =>
    match leader fns i with
    | none => none
    | some g => if validateOutput g outs then some (Sel.filterFor { o with vars := g.params } as) else none

/-- The outputs that run for `f` (bpf_tracing_func_multi.go 184-213); `none`: bpfsnoop ends. -/
def multiOutputs (o : Opts) (nelems : Ty → Nat) (fns : List MFun) (as : List Sel.Arg) (f : MFun) : Option (Except Err (List TopRes)) :=
  match matchedIndex f with
  | none => none
  | some i =>
    match leader fns i with
    | none => none
    | some g => if validateOutput g as then some (Sel.outputsFor { o with vars := g.params } nelems as) else none

open Pt (T)
open Flg (Str)

/-- `correctArgType` (bpf_tracing_prog.go 30-57); `kernel name` is the pointer to the kernel's struct of that name
(`btfx.GetStructBtfPointer`), `none` if there is none. -/
def correctArgType (kernel : Str → Option T) (t : T) : Option T :=
  match t.under with
  | .ptr (.comp false n _ _) =>
    if n = "__sk_buff".toList then kernel "sk_buff".toList
    else if n = "xdp_md".toList then kernel "xdp_buff".toList
    else some t
  | _ => some t

/-- `correctArgTypeInParams` (bpf_tracing_prog.go 59-71). -/
def correctParams (kernel : Str → Option T) : List (String × T) → Option (List (String × T))
  | [] => some []
  | p :: ps =>
    match correctArgType kernel p.2 with
    | none => none
    | some t =>
      match correctParams kernel ps with
      | none => none
      | some r => some ((p.1, t) :: r)

end Bpfsnoop.Av
