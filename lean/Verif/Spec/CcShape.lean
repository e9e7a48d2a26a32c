import Verif.Spec.CcSpec

/-
The verified fragment of the expression language: a static check `shape` of an expression against
the parameter types. It depends only on the expression, the types and the read mode, never on
argument values or memory. Expressions it turns down are those on which the compiler is wrong
(see the theorems named `..._violated`) or that have no meaning.
-/
namespace Bpfsnoop.Cc

/-- How the compiler will hold an expression: a constant, a name, a computed value (`ann` is the type the
compiler notes, `ct` the type it has), an argument or an address, or an object (`loads`: using it
reads memory; `cst`: it was reached through a pointer to a struct). -/
inductive Sh
  | num (n : BitVec 64) (t : Option Ty)
  | name (s : String)
  | comp (ann ct : Option Ty)
  | lazy (t : Ty)
  | obj (t : Ty) (bf : Option (Nat × Nat)) (loads cst : Bool)
deriving DecidableEq, Repr

/-- Sizes the compiler reads and converts correctly. -/
def okSize (Γ : Btf) (t : Ty) : Bool :=
  Γ.sizeOf t == some 1 || Γ.sizeOf t == some 2 || Γ.sizeOf t == some 4 || Γ.sizeOf t == some 8

/-- Types whose values are not cut when they are brought into a register. -/
def wide (Γ : Btf) (t : Ty) : Bool :=
  !(Γ.sizeOf t == some 1 || Γ.sizeOf t == some 2 || Γ.sizeOf t == some 4)

/-- The factor the compiler puts on the right operand of + and -. -/
def scaleOf (Γ : Btf) (t : Option Ty) : Nat :=
  match Γ.kindO t with
  | .ptr t' => if Γ.size0 t' > 1 then Γ.size0 t' else 1
  | .array t' => if Γ.size0 t' > 1 then Γ.size0 t' else 1
  | _ => 1

/-- The type the compiler notes. -/
def Sh.ann : Sh → Option Ty
  | .num _ t => t
  | .name _ => none
  | .comp t _ => t
  | .lazy t => some t
  | .obj t _ _ _ => some t

/-- The type it has. -/
def Sh.ct : Sh → Option Ty
  | .num _ t => t
  | .name _ => none
  | .comp _ t => t
  | .lazy t => some t
  | .obj t _ _ _ => some t

def Sh.isNum : Sh → Bool
  | .num _ _ => true
  | _ => false

def Sh.bf : Sh → Option (Nat × Nat)
  | .obj _ bf _ _ => bf
  | _ => none

/-- The expression can be used as a value. -/
def Sh.usable (o : Opts) : Sh → Bool
  | .num _ _ => true
  | .name _ => false
  | .comp _ _ => true
  | .lazy _ => true
  | .obj t none true _ => isScalar o.Γ t && okSize o.Γ t
  | .obj t (some (d, n)) true c =>
    isScalar o.Γ t && okSize o.Γ t && decide (d + n ≤ 64) &&
      (o.mode != .core || (c && decide (d + n ≤ 8 * o.Γ.size0 t)))
  | .obj t none false _ => isArray o.Γ t && wide o.Γ t
  | .obj _ (some _) false _ => false

/-- The expression can be followed as a pointer; what it points to. -/
def Sh.target (o : Opts) (σ : Sh) : Option Ty :=
  let go (t : Ty) : Option Ty :=
    match o.Γ.kindOf t with
    | .ptr t' => if o.Γ.sizeOf t = some 8 then some t' else none
    | _ => none
  match σ with
  | .comp (some a) ct => if ct = some a then go a else none
  | .lazy t => go t
  | .obj t none true c => if o.mode = .core ∧ !c then none else go t
  | _ => none

/-- The expression can be indexed; its element type. -/
def Sh.elem (o : Opts) (σ : Sh) : Option Ty :=
  let arr (t : Ty) : Option Ty :=
    match o.Γ.kindOf t with
    | .array t' => some t'
    | _ => none
  match σ with
  | .comp (some a) (some ct) =>
    match arr a with
    | some t' => if ct = a then some t' else none
    | none => σ.target o
  | .lazy t =>
    match arr t with
    | some t' => if wide o.Γ t then some t' else none
    | none => σ.target o
  | .obj t none false _ => arr t
  | .obj t none true _ =>
    match arr t with
    | some _ => none
    | none => σ.target o
  | _ => none

/-- Member access. -/
def memberSh (o : Opts) (t : Ty) (f : String) (loads : Bool) : Option Sh :=
  match o.Γ.kindOf t with
  | .comp id =>
    (o.Γ.member id f).map fun mem =>
      .obj mem.ty (bfOf o.Γ mem) (loads && !isArray o.Γ mem.ty) true
  | _ => none

def resolveSh (Γ : Btf) (v other : Sh) : Option Sh :=
  match v, other with
  | .name s, .comp a c =>
    if extractEnum Γ a s = extractEnum Γ c s then (extractEnum Γ a s).map fun n => .num n none else none
  | .name s, .lazy t => (extractEnum Γ (some t) s).map fun n => .num n none
  | .name s, .obj t _ _ _ => (extractEnum Γ (some t) s).map fun n => .num n none
  | .name _, _ => none
  | v, _ => some v

/-- The constant `n` compared with an operand is not changed by `adjustNum`. -/
def fits (Γ : Btf) (n : BitVec 64) (σ : Sh) : Bool :=
  match σ with
  | .obj _ (some (_, k)) _ _ => n &&& bfMask k == n
  | .num _ _ => true
  | σ =>
    match Γ.sizeO σ.ann with
    | 1 => n &&& 0xFF == n
    | 2 => n &&& 0xFFFF == n
    | 4 => n &&& 0xFFFFFFFF == n
    | _ => true

/-- Address plus constant: the operand must not be read from memory, and must be 8 bytes wide. -/
def addConstSh (o : Opts) (σ : Sh) (n : BitVec 64) : Option Sh :=
  if n = 0 then none
  else match σ with
    | .lazy t =>
      if wide o.Γ t && (stride o.Γ (some t) != some 0) then some (.lazy t) else none
    | .obj t none false _ =>
      if isArray o.Γ t && wide o.Γ t && (stride o.Γ (some t) != some 0) then some (.lazy t) else none
    | _ => none

/-- A binary operator on operands at least one of which is not a constant. -/
def runSh (o : Opts) (op : Bop) (l r : Sh) : Option Sh :=
  let res : Option Sh := some (.comp l.ann (binTy o.Γ op l.isNum l.ct r.ct))
  match op with
  | .add =>
    match l, r with
    | .lazy _, .num n t => if stride o.Γ t = none then addConstSh o l n else none
    | .obj _ _ _ _, .num n t => if stride o.Γ t = none then addConstSh o l n else none
    | .num n t, .lazy _ => if stride o.Γ t = none then addConstSh o r n else none
    | .num n t, .obj _ _ _ _ => if stride o.Γ t = none then addConstSh o r n else none
    | l, r =>
      if stride o.Γ r.ct = none ∧ scaleOf o.Γ l.ann = (stride o.Γ l.ct).getD 1 then res else none
  | .sub =>
    match l, r with
    | .lazy _, .num n t => if stride o.Γ t = none then addConstSh o l (-n) else none
    | .obj _ _ _ _, .num n t => if stride o.Γ t = none then addConstSh o l (-n) else none
    | l, r =>
      if stride o.Γ r.ct = none ∧ scaleOf o.Γ l.ann = (stride o.Γ l.ct).getD 1 then res else none
  | .mul | .and | .or | .xor => res
  | .div | .mod =>
    match r with
    | .num b _ => if b = 0 then none else res
    | _ => res
  | .lsh | .rsh =>
    match r with
    | .num b _ => if b = 0 ∨ b.toNat ≥ 64 then none else res
    | _ => res
  | .eq | .ne | .lt | .le | .gt | .ge =>
    match l, r with
    | .num n _, r => if fits o.Γ n r then res else none
    | l, .num n _ => if fits o.Γ n l then res else none
    | _, _ => res
  | .andand =>
    match l, r with
    | .num n _, r => if n = 0 then none else some (.comp r.ann none)
    | l, .num n _ => if n = 0 then none else some (.comp l.ann none)
    | _, _ => res
  | .oror =>
    match l, r with
    | .num n _, r => if n ≠ 0 then none else some (.comp r.ann none)
    | l, .num n _ => if n ≠ 0 then none else some (.comp l.ann none)
    | _, _ => res

def binSh (o : Opts) (op : Bop) (l0 r0 : Sh) : Option Sh := do
  let l ← resolveSh o.Γ l0 r0
  let r ← resolveSh o.Γ r0 l0
  match l, r with
  | .num a _, .num b _ => (onConsts op a b).map fun n => .num n none
  | _, _ => if l.usable o && r.usable o then runSh o op l r else none

def unSh (o : Opts) (op : Uop) (σ : Sh) : Option Sh :=
  match op with
  | .paren | .plus => some σ
  | _ =>
    match σ with
    | .num n _ => some (.num (unOn op 1 n) none)
    | σ =>
      if !σ.usable o then none
      else if (op = .preinc ∨ op = .predec) ∧ stride o.Γ σ.ct ≠ none then none
      else some (.comp σ.ann (if op = .not then none else σ.ct))

/-- Casts: values that are already in a register are not cut by the compiler, objects are only narrowed. -/
def castSh (o : Opts) (t : Ty) (σ : Sh) : Option Sh :=
  if !(isScalar o.Γ t && okSize o.Γ t) then none
  else match σ with
    | .num n _ => if convert o.Γ t n = n then some (.num n (some t)) else none
    | .name _ => none
    | .comp _ _ => if o.Γ.sizeOf t = some 8 then some (.comp (some t) (some t)) else none
    | .lazy t0 =>
      if isScalar o.Γ t0 && okSize o.Γ t0 && decide (o.Γ.size0 t ≤ o.Γ.size0 t0) then some (.lazy t)
      else if isArray o.Γ t0 && wide o.Γ t0 then some (.lazy t) else none
    | .obj t0 none true c =>
      if isScalar o.Γ t0 && okSize o.Γ t0 && decide (o.Γ.size0 t ≤ o.Γ.size0 t0) then
        some (.obj t none true c)
      else none
    | .obj t0 none false _ => if isArray o.Γ t0 && wide o.Γ t0 then some (.lazy t) else none
    | .obj _ (some _) _ _ => none

/-- No pointer read from memory is followed in the expression. -/
def noLoads : Expr → Bool
  | .name _ | .num _ => true
  | .arrow _ _ | .dot _ _ | .index _ _ | .indir _ | .addr _ | .unsup => false
  | .cast _ e => noLoads e
  | .un _ e => noLoads e
  | .bin _ l r => noLoads l && noLoads r
  | .cond c l r => noLoads c && noLoads l && noLoads r

/-- The expression is a chain of member accesses, casts and address operators on an argument: nothing is
emitted for it before its value is needed. -/
def chainOnly : Expr → Bool
  | .name _ | .num _ => true
  | .arrow e _ | .dot e _ | .index e _ | .indir e | .addr e | .cast _ e => chainOnly e
  | .un .paren e | .un .plus e => chainOnly e
  | _ => false

/-- The expression designates an object. -/
def isLval : Expr → Bool
  | .arrow _ _ | .dot _ _ | .index _ _ | .indir _ => true
  | .un .paren e | .un .plus e => isLval e
  | _ => false

def nameSh (o : Opts) (s : String) : Option Sh :=
  if s = "NULL" ∨ s = "false" then some (.num 0 none)
  else if s = "true" then some (.num 1 none)
  else match findVar s o.vars 0 with
    | some (_, t) => if isScalar o.Γ t && okSize o.Γ t then some (.lazy t) else none
    | none => some (.name s)

/-- The check: `some _` if the expression is in the verified fragment. -/
def shape (o : Opts) : Expr → Option Sh
  | .name s => nameSh o s
  | .num text => (parseNumber text).map fun n => .num n none
  | .arrow e f => do
    let σ ← shape o e
    let t ← σ.target o
    memberSh o t f true
  | .dot e f => do
    let σ ← shape o e
    match σ with
    | .obj t none loads _ => memberSh o t f loads
    | _ => none
  | .index e i =>
    match i with
    | .num text => do
      let σ ← shape o e
      let t ← σ.elem o
      let _ ← parseNumber text
      some (.obj t none false true)
    | _ => none
  | .indir e => do
    let σ ← shape o e
    let t ← σ.target o
    some (.obj t none true (match o.Γ.kindOf t with | .comp _ => true | _ => false))
  | .addr e => do
    let σ ← shape o e
    match σ with
    | .obj t none _ _ => if isLval e then some (.lazy (.ptr t)) else none
    | _ => none
  | .cast t (.num text) => do
    let t ← t
    let n ← parseUnsigned text
    if isScalar o.Γ t && okSize o.Γ t && n != 0 then some (.lazy t) else none
  | .cast t e => do
    let σ ← shape o e
    let t ← t
    castSh o t σ
  | .un op e => do
    let σ ← shape o e
    unSh o op σ
  | .bin op l r => do
    let a ← shape o l
    let b ← shape o r
    binSh o op a b
  | .cond c l r => do
    let σc ← shape o c
    let σl ← shape o l
    let σr ← shape o r
    if σc.usable o && σl.usable o && σr.usable o && !σc.isNum
        && (noLoads l || chainOnly l) && (noLoads r || chainOnly r) then
      some (.comp σc.ann (match σl with | .num _ _ => σr.ct | _ => σl.ct))
    else none
  | .unsup => none

end Bpfsnoop.Cc
