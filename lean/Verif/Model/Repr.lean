import Verif.Model.FnArgs
/-
Rendering of captured values as text: internal/btfx/types.go 191-381.

Types are given as `mybtf.UnderlyingType` leaves them (no typedefs or qualifiers); the name of a type, the rendering of a
bit-field's bytes (`mybtf.DumpBitfield`) and the symbol table are parameters. Text is a list of characters. `none` is a
panic.
-/
namespace Bpfsnoop.Rp
open Arg (le leVal)

abbrev W := BitVec 64
abbrev Text := List Char

mutual
/-- A BTF type. `int`: name is irrelevant except for `_Bool`; `isBool` is `IsBool` (types.go 57-65). `comp` is a struct or a
union. `other` is any other type with the result of `btf.Sizeof`. -/
inductive T where
  | int (size : Nat) (signed isBool : Bool)
  | enum (size : Nat) (values : List (Text × W))
  | ptr (target : T)
  | func
  | comp (name : Text) (size : Nat) (ms : Ms)
  | other (size : Option Nat)

/-- The members of a struct or union: name, type, offset in bits, bit-field size (0 if none). -/
inductive Ms where
  | nil
  | cons (name : Text) (t : T) (bitOff bitSize : Nat) (rest : Ms)
end

/-- `btf.Sizeof`; `none` is an error. -/
def T.sizeof : T → Option Nat
  | .int s _ _ => some s
  | .enum s _ => some s
  | .ptr _ => some 8
  | .func => none
  | .comp _ s _ => some s
  | .other s => s

/-- What the renderer is given: `find` (types.go 14), `mybtf.DumpBitfield(0, size, data)`, and the bytes that follow a
`[24]byte` variable in memory. -/
structure Env where
  find : W → Text
  dumpBits : Nat → List (BitVec 8) → Text
  beyond : List (BitVec 8)

/-- `%d` of an unsigned number. -/
def dec (n : Nat) : Text := Nat.toDigits 10 n

/-- `%d` of a signed number. -/
def decI : Int → Text
  | .ofNat n => dec n
  | .negSucc n => '-' :: dec (n + 1)

/-- `%#x` of an unsigned number. -/
def hex (n : Nat) : Text := '0' :: 'x' :: Nat.toDigits 16 n

/-- `%#x/%d`. -/
def hexDec (n : Nat) : Text := hex n ++ '/' :: dec n

/-- `GetU64` (types.go 205-207): the index is checked, the seven bytes after it are not. -/
def getU64 (e : Env) (data : List (BitVec 8)) (off : Nat) : Option W :=
  if off < data.length then some (BitVec.ofNat 64 (leVal (((data ++ e.beyond).drop off).take 8))) else none

/-- `ReprEnumValue` (types.go 191-203) on an enum. -/
def reprEnum (vals : List (Text × W)) (v : W) : Text :=
  match vals.find? (·.2 = v) with
  | some (n, _) => n
  | none => dec v.toNat

/-- `IsFuncPtr` (types.go 88-102) of a pointer. -/
def T.isFunc : T → Bool
  | .func => true
  | _ => false

/-- The case of size 8 (types.go 266-284). -/
def repr8 (e : Env) (t : T) (v : W) : Text :=
  match t with
  | .ptr tgt =>
    hex v.toNat ++ (if tgt.isFunc ∧ e.find v ≠ [] then '(' :: e.find v ++ [')'] else [])
  | .int _ true _ => decI v.toInt
  | _ => if v.toInt < 0 then hex v.toNat else hexDec v.toNat

/-- The switch on the size (types.go 265-314). -/
def reprScalar (e : Env) (t : T) (size : Nat) (v : W) : Text :=
  if size = 8 then repr8 e t v
  else if size = 4 then
    match t with
    | .enum _ vals => reprEnum vals v
    | .int _ true _ => decI (v.setWidth 32).toInt
    | _ => hexDec (v.setWidth 32).toNat
  else if size = 2 then
    match t with
    | .int _ true _ => decI (v.setWidth 16).toInt
    | _ => hexDec (v.setWidth 16).toNat
  else if size = 1 then
    match t with
    | .int _ true _ => decI (v.setWidth 8).toInt
    | .int _ false true => (if v ≠ 0 then "true" else "false").toList
    | _ => hexDec (v.setWidth 8).toNat
  else "..UNK..".toList

mutual
/-- `ReprValue` (types.go 237-317). -/
def reprValue (e : Env) : T → W → W → Option Text
  | .comp name _ ms, v, n =>
    (reprMembers e (le 8 v ++ le 8 n ++ List.replicate 8 0) true ms).map fun x => name ++ '{' :: x ++ ['}']
  | .int s a b, v, _ => some (reprScalar e (.int s a b) s v)
  | .enum s vs, v, _ => some (reprScalar e (.enum s vs) s v)
  | .ptr t, v, _ => some (reprScalar e (.ptr t) 8 v)
  | .func, _, _ => some "..ERR..".toList
  | .other none, _, _ => some "..ERR..".toList
  | .other (some s), v, _ => some (reprScalar e (.other (some s)) s v)

/-- `reprStructUnionMembers` and `reprMember` (types.go 213-235). -/
def reprMembers (e : Env) (data : List (BitVec 8)) : Bool → Ms → Option Text
  | _, .nil => some []
  | first, .cons name t bitOff bitSize rest =>
    let head : Option Text :=
      if bitSize ≠ 0 then some (e.dumpBits bitSize data)
      else
        match getU64 e data (bitOff / 8), getU64 e data (bitOff / 8 + 8) with
        | some v, some n => reprValue e t v n
        | _, _ => none
    match head, reprMembers e data false rest with
    | some h, some r => some ((if first then [] else [',']) ++ (if name ≠ [] then name ++ ['='] else []) ++ h ++ r)
    | _, _ => none
end

/-- `reprValue` (types.go 319-332) with `t` the underlying type: a string, a pointer to a number with the number read
through it, or a value. -/
def reprArg (e : Env) (t : T) (isStr isNumPtr : Bool) (data data2 next : W) (s : Text) : Option Text :=
  if isStr then some ('"' :: s ++ ['"'])
  else if isNumPtr then
    if data ≠ 0 then
      match t with
      | .ptr tgt => (reprValue e tgt data2 next).map fun x => hex data.toNat ++ '(' :: x ++ [')']
      | _ => none
    else some (hex data.toNat)
  else reprValue e t data next

/-- `ReprFuncParam` and `ReprValueType` (types.go 351-363); `tname` is `Repr(t)`. -/
def reprParam (e : Env) (tname name : Text) (t : T) (isStr isNumPtr : Bool) (data data2 next : W) (s : Text) : Option Text :=
  (reprArg e t isStr isNumPtr data data2 next s).map fun x => '(' :: tname ++ ')' :: name ++ '=' :: x

/-- `ReprFuncReturn` (types.go 365-381); `isVoid` says that the type is `void`. -/
def reprReturn (e : Env) (tname : Text) (t : T) (isVoid isStr isNumPtr : Bool) (data data2 : W) (s : Text) : Option Text :=
  if isVoid then some "(void)".toList
  else if isStr then some ('"' :: s ++ ['"'])
  else (reprArg e t false isNumPtr data data2 0 s).map fun x => '(' :: tname ++ ')' :: x

/-- `ReprExprType` (types.go 334-349): `bits` is the size of the bit-field the expression denotes, 0 if none. -/
def reprExpr (e : Env) (tname expr : Text) (t : T) (bits : Nat) (isStr isNumPtr : Bool) (data data2 next : W) (s : Text) :
    Option Text :=
  (if bits ≠ 0 then some (e.dumpBits bits (le 8 data ++ le 8 data2 ++ List.replicate 8 0))
    else reprArg e t isStr isNumPtr data data2 next s).map fun x => '(' :: tname ++ ')' :: '\'' :: expr ++ '\'' :: '=' :: x

end Bpfsnoop.Rp
