import Verif.Model.CcComp

/-
Model of `internal/cc/expr_func.go` (output functions such as `buf(skb->data, 16)`) and of the parts
of `CompileEvalExpr` (expr.go 140-214) that choose and check them.

`BTF` arrays are given with their number of elements as a separate table. `int` and `int64` are both
64 bits wide (amd64/arm64).
-/
namespace Bpfsnoop.Cc

/-- `EvalResultType` (expr.go 107-122). -/
inductive FTyp
  | dflt | deref | buf | str | pkt | addr | port | slice | hex | int | hist | tdigest
deriving DecidableEq, Repr

/-- `funcCallValue` (expr_func.go 63-71). -/
structure FCall where
  typ : FTyp
  expr : Expr
  off : BitVec 64
  size : BitVec 64
  pkt : String
  addr : String
  port : String
deriving DecidableEq, Repr

/-- `parseExprNumber` (expr_func.go 73-84): `none` is an error. -/
def parseExprNumber : Expr → Option (BitVec 64)
  | .num t => parseNumber t
  | _ => none

/-- `allowedPktTypes` (expr_func.go 149-154). -/
def pktTypes : List String := ["eth", "ip", "ip4", "ip6", "icmp", "icmp6", "tcp", "udp"]

/-- Names of the address and port functions with their sizes (expr_func.go 26-61, 224-279). -/
def addrFns : List (String × BitVec 64) :=
  [("eth", 6), ("eth2", 12), ("ip4", 4), ("ip42", 8), ("ip6", 16), ("ip62", 32), ("port", 2), ("port2", 4)]

/-- Names of the integer functions with their sizes (expr_func.go 38-53, 281-312). -/
def intFns : List (String × BitVec 64) :=
  [("u8", 1), ("s8", 1), ("u16", 2), ("s16", 2), ("le16", 2), ("be16", 2), ("u32", 4), ("s32", 4), ("le32", 4),
   ("be32", 4), ("u64", 8), ("s64", 8), ("le64", 8), ("be64", 8)]

/-- `val.dataSize <= 0` is an error (expr_func.go 117-119, 141-143, 218-220). -/
def positive (c : FCall) : Except Err FCall := if c.size.sle 0 then .error .reject else .ok c

/-- The cases `buf`, `slice`, `hex` (expr_func.go 96-128). -/
def callBuf (t : FTyp) (e : Expr) : List Expr → Except Err FCall
  | [n] =>
    match parseExprNumber n with
    | some size => positive ⟨t, e, 0, size, "", "", ""⟩
    | none => .error .reject
  | [n1, n2] =>
    match parseExprNumber n1, parseExprNumber n2 with
    | some off, some size => positive ⟨t, e, off, size, "", "", ""⟩
    | _, _ => .error .reject
  | _ => .error .reject

/-- The case `str` (expr_func.go 130-146). -/
def callStr (e : Expr) : List Expr → Except Err FCall
  | [] => .ok ⟨.str, e, 0, -1, "", "", ""⟩
  | [n] =>
    match parseExprNumber n with
    | some size => positive ⟨.str, e, 0, size, "", "", ""⟩
    | none => .error .reject
  | _ => .error .reject

/-- The case `pkt` (expr_func.go 148-222). -/
def callPkt (e : Expr) : List Expr → Except Err FCall
  | [n] =>
    match parseExprNumber n with
    | some size => positive ⟨.pkt, e, 0, size, "eth", "", ""⟩
    | none => .error .reject
  | [n, x] =>
    match parseExprNumber n with
    | none => .error .reject
    | some k =>
      match x with
      | .name t => if t ∈ pktTypes then positive ⟨.pkt, e, 0, k, t, "", ""⟩ else .error .reject
      | .num t =>
        match parseNumber t with
        | some size => positive ⟨.pkt, e, k, size, "eth", "", ""⟩
        | none => .error .reject
      | _ => .error .reject
  | [n1, n2, x] =>
    match parseExprNumber n1, parseExprNumber n2 with
    | some off, some size =>
      match x with
      | .name t => if t ∈ pktTypes then positive ⟨.pkt, e, off, size, t, "", ""⟩ else .error .reject
      | _ => .error .reject
    | _, _ => .error .reject
  | _ => .error .reject

/-- The cases with an optional offset and a fixed size (expr_func.go 224-312). -/
def callFixed (t : FTyp) (size : BitVec 64) (addr port : String) (e : Expr) : List Expr → Except Err FCall
  | [] => .ok ⟨t, e, 0, size, "", addr, port⟩
  | [n] =>
    match parseExprNumber n with
    | some off => .ok ⟨t, e, off, size, "", addr, port⟩
    | none => .error .reject
  | _ => .error .reject

/-- `compileFuncCall` (expr_func.go 86-330). `expr.List[0]` on a call without arguments is a panic. -/
def compileFuncCall (f : String) : List Expr → Except Err FCall
  | [] => .error .panic
  | e :: r =>
    if f = "buf" then callBuf .buf e r
    else if f = "slice" then callBuf .slice e r
    else if f = "hex" then callBuf .hex e r
    else if f = "str" then callStr e r
    else if f = "pkt" then callPkt e r
    else
      match addrFns.lookup f with
      | some n =>
        if f = "port" ∨ f = "port2" then callFixed .port n "" f e r else callFixed .addr n f "" e r
      | none =>
        match intFns.lookup f with
        | some n => callFixed .int n "" "" e r
        | none =>
          if f = "hist" ∨ f = "tdigest" then
            match r with
            | [] => .ok ⟨if f = "tdigest" then .tdigest else .hist, e, 0, 8, "", "", ""⟩
            | _ => .error .reject
          else .error .reject

/-- What `postCheckFuncCall` stores in the `EvalResult` (expr.go 124-138): type, member, `Size`, `Off`. -/
structure FRes where
  ty : Option Ty
  mem : Option Member
  size : BitVec 64
  off : BitVec 64
deriving DecidableEq, Repr

def Kind.isPtr : Kind → Bool
  | .ptr _ => true
  | _ => false

def Kind.isArr : Kind → Bool
  | .array _ => true
  | _ => false

/-- `postCheckFuncCall` (expr_func.go 332-453). `nelems` is `arr.Nelems`. -/
def postCheck (Γ : Btf) (nelems : Ty → Nat) (typ : FTyp) (t : Option Ty) (m : Option Member) (off size : BitVec 64) :
    Except Err FRes :=
  if typ ≠ .dflt ∧ isBf m = true then .error .reject
  else
    match typ with
    | .deref =>
      match Γ.kindO t with
      | .ptr t' => if Γ.size0 t' = 0 then .error .reject else .ok ⟨some t', none, BitVec.ofNat 64 (Γ.size0 t'), 0⟩
      | _ => .error .reject
    | .buf | .hex | .int =>
      if (Γ.kindO t).isPtr || (Γ.kindO t).isArr then .ok ⟨t, none, size, off⟩ else .error .reject
    | .str =>
      match Γ.kindO t with
      | .ptr _ => .ok ⟨t, none, if size = -1 then 64 else size, 0⟩
      | .array t' =>
        if size = -1 then
          if Γ.size0 t' ≠ 1 then .error .reject
          else .ok ⟨t, none, BitVec.ofNat 64 (t.elim 0 nelems), 0⟩
        else .ok ⟨t, none, size, 0⟩
      | _ => .error .reject
    | .pkt | .addr | .port =>
      if (Γ.kindO t).isPtr then .ok ⟨t, none, size, off⟩ else .error .reject
    | .slice =>
      match Γ.kindO t with
      | .ptr t' | .array t' =>
        if Γ.size0 t' = 0 then .error .reject
        else .ok ⟨some t', none, size * BitVec.ofNat 64 (Γ.size0 t'), off * BitVec.ofNat 64 (Γ.size0 t')⟩
      | _ => .error .reject
    | .hist | .tdigest =>
      match Γ.kindO t with
      | .int => .ok ⟨t, none, BitVec.ofNat 64 (Γ.sizeO t), 0⟩
      | _ => .error .reject
    | .dflt => .ok ⟨t, m, 0, 0⟩

/-- A parsed output expression: an ordinary one, or a call `f(args)`; `none` is a callee that is not a
name. `*e` is the ordinary expression `.indir e`. -/
inductive Top
  | plain (e : Expr)
  | call (f : Option String) (args : List Expr)
deriving DecidableEq, Repr

/-- `EvalResult` (expr.go 124-138) without `LabelUsed` being merged: compiled code and checked request. -/
structure TopRes where
  typ : FTyp
  code : EvalRes
  res : FRes
  pkt : String
  addr : String
  port : String
  /-- `res.Int` -/
  int : String

/-- `CompileEvalExpr` (expr.go 140-214) after the switch on the form of the expression: evaluate, materialize,
check. -/
def finishTop (o : Opts) (nelems : Ty → Nat) (usedRegs : List Nat) (force : Bool) (typ : FTyp) (e : Expr)
    (off size : BitVec 64) (pkt addr port int : String) : Except Err TopRes :=
  match compileEval o usedRegs force e with
  | .error z => .error z
  | .ok p =>
    match postCheck o.Γ nelems typ p.ty p.mem off size with
    | .error z => .error z
    | .ok r => .ok ⟨typ, p, r, pkt, addr, port, int⟩

/-- `CompileEvalExpr` (expr.go 140-214) from the parsed expression on. -/
def compileTop (o : Opts) (nelems : Ty → Nat) (usedRegs : List Nat) (force : Bool) (x : Top) : Except Err TopRes :=
  match x with
  | .plain (.indir e) => finishTop o nelems usedRegs force .deref e 0 0 "" "" "" ""
  | .plain e => finishTop o nelems usedRegs force .dflt e 0 0 "" "" "" ""
  | .call none _ => .error .reject
  | .call (some f) args =>
    match compileFuncCall f args with
    | .error z => .error z
    | .ok c =>
      finishTop o nelems usedRegs force c.typ c.expr c.off c.size c.pkt c.addr c.port (if c.typ = .int then f else "")

end Bpfsnoop.Cc
