import Verif.Model.CcComp
/-
How a compiler is made: internal/cc/compiler.go 48-99. The caller says how much of the stack is its own; the compiler rounds that and looks
up the kfunc with which it may read memory.
-/
namespace Bpfsnoop.Cc.New
open Bpfsnoop.Cc

/-- What asking the kernel's BTF for `bpf_rdonly_cast` and then for the id of what was found gives (compiler.go 77-93). -/
inductive Cast
  /-- `btf.ErrNotFound` -/
  | missing
  /-- another error -/
  | broken
  /-- found, but not a function -/
  | other
  /-- a function without an id -/
  | noId
  /-- a function, its id and its declaration tags -/
  | func (id : Nat) (tags : List String)

/-- `CompileExprOptions` (expr.go 34-44) as far as `newCompiler` looks at it: whether the expression and the label are empty and the two BTF
specs are there, `ReservedStack`, a Go `int`, and the kernel's answer. -/
structure Req where
  expr : String
  label : String
  spec : Bool
  kernel : Bool
  reserved : BitVec 64
  cast : Cast

/-- Why there is no compiler. -/
inductive Fail | empty | noSpec | lookup | notFunc | noId
deriving DecidableEq, Repr

/-- The fields of `compiler` that `newCompiler` computes. -/
structure Made where
  reserved : BitVec 64
  castId : Nat
  fastcall : Bool
deriving DecidableEq, Repr

/-- compiler.go 71-75. -/
def round (r : BitVec 64) : BitVec 64 := if r.sle 0 then 8 else (r + 7) &&& (-8 : BitVec 64)

/-- `newCompiler` (compiler.go 48-99). `kfuncFastcall` is "bpf_fastcall" (compiler.go 18). -/
def newCompiler (q : Req) : Except Fail Made :=
  if q.expr == "" || q.label == "" then .error .empty
  else if !q.spec || !q.kernel then .error .noSpec
  else
    let r := round q.reserved
    match q.cast with
    | .missing => .ok ⟨r, 0, false⟩
    | .broken => .error .lookup
    | .other => .error .notFunc
    | .noId => .error .noId
    | .func id tags => .ok ⟨r, id, tags.contains "bpf_fastcall"⟩

/-- The compiler that was made, for the parts of the compiler that are modelled with `Opts`: parameters and read mode are copied
(compiler.go 56-69). -/
def Made.opts (c : Made) (Γ : Btf) (vars : List (String × Ty)) (mode : Mode) : Opts :=
  { Γ := Γ, vars := vars, mode := mode, reserved := c.reserved.toNat, fastcall := c.fastcall, lo := 0 }

end Bpfsnoop.Cc.New
