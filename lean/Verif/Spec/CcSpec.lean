import Verif.Model.CcComp

/-
What an expression means, independent of how it is compiled.

An expression denotes a constant, an unresolved name, a 64-bit value, or an object in memory (an
lvalue). Arithmetic is 64-bit wrap-around; arguments and objects are zero-extended from their
declared width; expressions built from literals only are evaluated with signed 64-bit arithmetic;
everything else is unsigned. The second component of a denotation is `true` if a pointer that
had to be followed was read from memory and is NULL. `&&` and `||` look at both operands.
-/
namespace Bpfsnoop.Cc

/-- The traced function's arguments (8 bytes each) and kernel memory. -/
structure World where
  arg : Nat → BitVec 64
  mem : Mem

/-- The low `s` bytes of a value. -/
def lowBytes (s : Nat) (x : BitVec 64) : BitVec 64 := BitVec.ofNat 64 (x.toNat % 2 ^ (8 * s))

/-- A value converted to an integer or pointer type. -/
def convert (Γ : Btf) (t : Ty) (x : BitVec 64) : BitVec 64 :=
  match Γ.sizeOf t with
  | some s => if s < 8 then lowBytes s x else x
  | none => x

/-- Bits `d` to `d + n - 1` of the little-endian word at `a`. -/
def bitsAt (m : Mem) (a : BitVec 64) (d n : Nat) : BitVec 64 :=
  BitVec.ofNat 64 ((load m 8 a).toNat / 2 ^ d % 2 ^ n)

/-- Denotations. `rv` carries a flag saying that the value was just read from memory; `lv` is the
object of type `t` at address `a`, with bit position and width if it is a bit-field. -/
inductive CV
  | num (n : BitVec 64) (t : Option Ty)
  | name (s : String)
  | rv (x : BitVec 64) (t : Option Ty) (ld : Bool)
  | lv (a : BitVec 64) (t : Ty) (bf : Option (Nat × Nat))
deriving DecidableEq, Repr

def CV.ty : CV → Option Ty
  | .num _ t => t
  | .name _ => none
  | .rv _ t _ => t
  | .lv _ t _ => some t

/-- The value of a denotation: objects of integer, enum and pointer type are read from memory, arrays
stand for their address, structs have no value. -/
def CV.value (Γ : Btf) (m : Mem) : CV → Option (BitVec 64)
  | .num n _ => some n
  | .name _ => none
  | .rv x _ _ => some x
  | .lv a _ (some (d, n)) => some (bitsAt m a d n)
  | .lv a t none =>
    match Γ.kindOf t with
    | .array _ => some a
    | .int | .enum _ | .ptr _ =>
      match Γ.sizeOf t with
      | some s => if s = 1 ∨ s = 2 ∨ s = 4 ∨ s = 8 then some (load m s a) else none
      | none => none
    | _ => none

/-- A pointer that is followed: its value, what it points to, and whether it is NULL although it was
read from memory. -/
def CV.pointer (Γ : Btf) (m : Mem) : CV → Option (BitVec 64 × Ty × Bool)
  | .rv x (some t) ld =>
    match Γ.kindOf t with
    | .ptr t' => some (x, t', ld && x == 0)
    | _ => none
  | .lv a t none =>
    match Γ.kindOf t with
    | .ptr t' => some (load m 8 a, t', load m 8 a == 0)
    | _ => none
  | _ => none

/-- What can be indexed: a pointer, or an array object. -/
def CV.elements (Γ : Btf) (m : Mem) (v : CV) : Option (BitVec 64 × Ty × Bool) :=
  match v with
  | .lv a t none =>
    match Γ.kindOf t with
    | .array t' => some (a, t', false)
    | _ => CV.pointer Γ m v
  | .rv x (some t) _ =>
    match Γ.kindOf t with
    | .array t' => some (x, t', false)
    | _ => CV.pointer Γ m v
  | _ => none

/-- Position and width of a bit-field member; `none` for other members. -/
def bfOf (Γ : Btf) (mem : Member) : Option (Nat × Nat) :=
  if isArray Γ mem.ty || mem.bfSize == 0 then none else some (mem.bitOff % 8, mem.bfSize)

/-- The member `f` of a struct or union type, as an object in the struct at `a`. -/
def memberAt (Γ : Btf) (t : Ty) (f : String) (a : BitVec 64) : Option CV :=
  match Γ.kindOf t with
  | .comp id => (Γ.member id f).map fun mem => .lv (a + BitVec.ofNat 64 mem.byteOff) mem.ty (bfOf Γ mem)
  | _ => none

/-- Distance in bytes between `p` and `p + 1`; `none` if the type is not a pointer or array. -/
def stride (Γ : Btf) (t : Option Ty) : Option Nat :=
  match Γ.kindO t with
  | .ptr t' => if Γ.kindOf t' = .void then some 1 else some (Γ.size0 t')
  | .array t' => some (Γ.size0 t')
  | _ => none

/-- A name that is not an argument is an enumerator of the other operand's type. -/
def resolve (Γ : Btf) (v other : CV) : Option CV :=
  match v, other with
  | .name s, .rv _ t _ => (extractEnum Γ t s).map fun n => .num n none
  | .name s, .lv _ t _ => (extractEnum Γ (some t) s).map fun n => .num n none
  | .name _, _ => none
  | v, _ => some v

/-- Operators on constants: signed 64-bit arithmetic; `none` for division by zero and for negative
shift counts. -/
def onConsts (op : Bop) (a b : BitVec 64) : Option (BitVec 64) :=
  match op with
  | .add => some (a + b)
  | .sub => some (a - b)
  | .mul => some (a * b)
  | .div => if b = 0 then none else some (a.sdiv b)
  | .mod => if b = 0 then none else some (a.srem b)
  | .and => some (a &&& b)
  | .or => some (a ||| b)
  | .xor => some (a ^^^ b)
  | .lsh => if b.slt 0 then none else some (a <<< b.toNat)
  | .rsh => if b.slt 0 then none else some (a.sshiftRight b.toNat)
  | .eq => some (if a = b then 1 else 0)
  | .ne => some (if a = b then 0 else 1)
  | .lt => some (if a.slt b then 1 else 0)
  | .le => some (if a.sle b then 1 else 0)
  | .gt => some (if b.slt a then 1 else 0)
  | .ge => some (if b.sle a then 1 else 0)
  | .andand => some (if a ≠ 0 ∧ b ≠ 0 then 1 else 0)
  | .oror => some (if a ≠ 0 ∨ b ≠ 0 then 1 else 0)

/-- Operators on run-time values: unsigned 64-bit arithmetic, division and remainder by zero give 0,
shift counts are taken modulo 64, pointers move by elements. -/
def onValues (op : Bop) (sx sy : Option Nat) (x y : BitVec 64) : Option (BitVec 64) :=
  match op with
  | .add =>
    match sx, sy with
    | none, none => some (x + y)
    | some s, none => some (x + y * BitVec.ofNat 64 s)
    | none, some s => some (y + x * BitVec.ofNat 64 s)
    | some _, some _ => none
  | .sub =>
    match sx, sy with
    | none, none => some (x - y)
    | some s, none => some (x - y * BitVec.ofNat 64 s)
    | some s, some s' => if s = s' ∧ s ≠ 0 then some ((x - y).sdiv (BitVec.ofNat 64 s)) else none
    | none, some _ => none
  | .mul => some (x * y)
  | .div => some (if y = 0 then 0 else x / y)
  | .mod => some (if y = 0 then 0 else x % y)
  | .and => some (x &&& y)
  | .or => some (x ||| y)
  | .xor => some (x ^^^ y)
  | .lsh => some (x <<< (y.toNat % 64))
  | .rsh => some (x >>> (y.toNat % 64))
  | .eq => some (if x = y then 1 else 0)
  | .ne => some (if x = y then 0 else 1)
  | .lt => some (if x.toNat < y.toNat then 1 else 0)
  | .le => some (if x.toNat ≤ y.toNat then 1 else 0)
  | .gt => some (if x.toNat > y.toNat then 1 else 0)
  | .ge => some (if x.toNat ≥ y.toNat then 1 else 0)
  | .andand => some (if x ≠ 0 ∧ y ≠ 0 then 1 else 0)
  | .oror => some (if x ≠ 0 ∨ y ≠ 0 then 1 else 0)

/-- Comparisons and logical operators give an integer. -/
def Bop.isBool : Bop → Bool
  | .eq | .ne | .lt | .le | .gt | .ge | .andand | .oror => true
  | _ => false

/-- The type of the result: pointer ± integer and integer + pointer are pointers, constant + x has the
type of x, other arithmetic has the type of its left operand. `lc`: the left operand is a constant. -/
def binTy (Γ : Btf) (op : Bop) (lc : Bool) (tl tr : Option Ty) : Option Ty :=
  if op.isBool then none
  else if op = .add ∧ (stride Γ tl).isNone ∧ (lc ∨ (stride Γ tr).isSome) then tr
  else if op = .sub ∧ (stride Γ tl).isSome ∧ (stride Γ tr).isSome then none
  else tl

def CV.isNum : CV → Bool
  | .num _ _ => true
  | _ => false

/-- Binary operators. -/
def binC (Γ : Btf) (m : Mem) (op : Bop) (l0 r0 : CV) : Option CV := do
  let l ← resolve Γ l0 r0
  let r ← resolve Γ r0 l0
  match l, r with
  | .num a _, .num b _ => (onConsts op a b).map fun n => .num n none
  | _, _ =>
    let x ← l.value Γ m
    let y ← r.value Γ m
    let z ← onValues op (stride Γ l.ty) (stride Γ r.ty) x y
    some (.rv z (binTy Γ op l.isNum l.ty r.ty) false)

/-- Unary operators on a value; `k` is the distance ++ and -- move (the element size for pointers). -/
def unOn (op : Uop) (k : BitVec 64) (x : BitVec 64) : BitVec 64 :=
  match op with
  | .paren | .plus => x
  | .not => if x = 0 then 1 else 0
  | .minus => -x
  | .twid => ~~~x
  | .preinc => x + k
  | .predec => x - k

def unC (Γ : Btf) (m : Mem) (op : Uop) (v : CV) : Option CV :=
  match op with
  | .paren | .plus => some v
  | _ =>
    match v with
    | .num n _ => some (.num (unOn op 1 n) none)
    | v => (v.value Γ m).map fun x =>
        .rv (unOn op (BitVec.ofNat 64 ((stride Γ v.ty).getD 1)) x) (if op = .not then none else v.ty) false

/-- Types a value can be converted to. -/
def isScalar (Γ : Btf) (t : Ty) : Bool :=
  match Γ.kindOf t with
  | .int | .enum _ | .ptr _ => true
  | _ => false

/-- Conversion of a value. -/
def castC (Γ : Btf) (m : Mem) (t : Ty) (v : CV) : Option CV :=
  if isScalar Γ t then
    match v with
    | .num n _ => some (.num (convert Γ t n) (some t))
    | .name _ => none
    | .rv x _ ld => some (.rv (convert Γ t x) (some t) ld)
    | .lv a t0 bf => (CV.value Γ m (.lv a t0 bf)).map fun x => .rv (convert Γ t x) (some t) (!isArray Γ t0)
  else none

/-- The meaning of a name. -/
def nameC (o : Opts) (w : World) (s : String) : CV :=
  if s = "NULL" ∨ s = "false" then .num 0 none
  else if s = "true" then .num 1 none
  else match findVar s o.vars 0 with
    | some (i, t) => .rv (convert o.Γ t (w.arg i)) (some t) false
    | none => .name s

/-- The meaning of an expression, and whether a NULL pointer read from memory had to be followed. -/
def ceval (o : Opts) (w : World) : Expr → Option (CV × Bool)
  | .name s => some (nameC o w s, false)
  | .num text => (parseNumber text).map fun n => (.num n none, false)
  | .arrow e f => do
    let (v, n) ← ceval o w e
    let (p, t, z) ← v.pointer o.Γ w.mem
    let r ← memberAt o.Γ t f p
    some (r, n || z)
  | .dot e f => do
    let (v, n) ← ceval o w e
    match v with
    | .lv a t none => (memberAt o.Γ t f a).map fun r => (r, n)
    | _ => none
  | .index e i =>
    match i with
    | .num text => do
      let (v, n) ← ceval o w e
      let (p, t, z) ← v.elements o.Γ w.mem
      let k ← parseNumber text
      some (.lv (p + k * BitVec.ofNat 64 (o.Γ.size0 t)) t none, n || z)
    | _ => none
  | .indir e => do
    let (v, n) ← ceval o w e
    let (p, t, z) ← v.pointer o.Γ w.mem
    some (.lv p t none, n || z)
  | .addr e => do
    let (v, n) ← ceval o w e
    match v with
    | .lv a t none => some (.rv a (some (.ptr t)) false, n)
    | _ => none
  | .cast t (.num text) => do
    let t ← t
    let n ← parseUnsigned text
    if isScalar o.Γ t then some (.rv (convert o.Γ t (BitVec.ofNat 64 n)) (some t) false, false) else none
  | .cast t e => do
    let (v, n) ← ceval o w e
    let t ← t
    let r ← castC o.Γ w.mem t v
    some (r, n)
  | .un op e => do
    let (v, n) ← ceval o w e
    let r ← unC o.Γ w.mem op v
    some (r, n)
  | .bin op l r => do
    let (a, n) ← ceval o w l
    let (b, k) ← ceval o w r
    let z ← binC o.Γ w.mem op a b
    some (z, n || k)
  | .cond c l r => do
    let (vc, nc) ← ceval o w c
    let (vl, nl) ← ceval o w l
    let (vr, nr) ← ceval o w r
    let x ← vc.value o.Γ w.mem
    let y ← vl.value o.Γ w.mem
    let z ← vr.value o.Γ w.mem
    some (.rv (if x ≠ 0 then y else z) (match vl with | .num _ _ => vr.ty | _ => vl.ty) false,
      nc || (if x ≠ 0 then nl else nr))
  | .unsup => none

end Bpfsnoop.Cc
