import Verif.Model.Repr
/-
The texts of `--show-type-proto` and `--show-func-proto`: internal/btfx/types.go 118-189 (`Repr`),
internal/bpfsnoop/type_proto.go and internal/bpfsnoop/func_proto.go 22-65.

Types are finite trees. BTF types may refer to themselves, but only through pointers, and the functions modelled here look at
no more of the target of a pointer than its name: a cyclic type is represented by any of its unfoldings. Colours are not
modelled. `none` is a Go panic (index -1 of an empty string); writing to a string builder does not fail. Identifiers are
ASCII, so widths in `fmt` (runes) and `len` (bytes) agree.
-/
namespace Bpfsnoop.Pt
open Rp (Text dec)

mutual
/-- A BTF type. `comp` is a struct or (`union = true`) a union; `qual` is `const`, `volatile`, `restrict` or a type tag with
the word that is printed for it (types.go 123-136); `other` is printed with `%v`. -/
inductive T where
  | void
  | int (name : Text) (size : Nat)
  | float (size : Nat)
  | enum (name : Text) (size : Nat) (vals : List (Text × BitVec 64))
  | comp (union : Bool) (name : Text) (size : Nat) (ms : Ms)
  | ptr (t : T)
  | typedef (name : Text) (t : T)
  | qual (word : Text) (t : T)
  | array (t : T) (n : Nat)
  | func (name : Text) (ret : T) (ps : Ps)
  | proto (ret : T) (ps : Ps)
  | other (text : Text)

/-- Members: name, type, offset in bits, bit-field size (0 if none). -/
inductive Ms where
  | nil
  | cons (name : Text) (t : T) (off bits : Nat) (rest : Ms)

/-- Parameters: name (may be empty), type. -/
inductive Ps where
  | nil
  | cons (name : Text) (t : T) (rest : Ps)
end

def Ms.toList : Ms → List (Text × T × Nat × Nat)
  | .nil => []
  | .cons n t o b r => (n, t, o, b) :: r.toList

def Ps.toList : Ps → List (Text × T)
  | .nil => []
  | .cons n t r => (n, t) :: r.toList

def s (x : String) : Text := x.toList

/-- `Repr` (btfx/types.go 118-189); `sb` is what has been printed so far. A typedef returns its name alone. -/
def reprAcc (sb : Text) : T → Option Text
  | .typedef n _ => some n
  | .qual w t => reprAcc (sb ++ w ++ s " ") t
  | .ptr t =>
    match reprAcc [] t with
    | none => none
    | some r =>
      match r.getLast? with
      | none => none
      | some c => some (sb ++ r ++ if c ≠ '*' then s " *" else s "*")
  | .void => some (sb ++ s "void")
  | .int n _ => some (sb ++ n)
  | .enum n _ _ => some (sb ++ s "enum " ++ n)
  | .comp u n _ _ => some (sb ++ (if u then s "union " else s "struct ") ++ n)
  | .func n _ _ => some (sb ++ s "func " ++ n)
  | .proto _ _ => some (sb ++ s "func")
  | .float _ => some (sb ++ s "float")
  | .array t n => (reprAcc [] t).map fun r => sb ++ s "array(" ++ r ++ s "[" ++ dec n ++ s "])"
  | .other x => some (sb ++ x)

def reprT (t : T) : Option Text := reprAcc [] t

/-- `mybtf.UnderlyingType`: typedefs, qualifiers and type tags removed. -/
def T.under : T → T
  | .typedef _ t => t.under
  | .qual _ t => t.under
  | .void => .void
  | .int n z => .int n z
  | .float z => .float z
  | .enum n z v => .enum n z v
  | .comp u n z ms => .comp u n z ms
  | .ptr t => .ptr t
  | .array t n => .array t n
  | .func n r ps => .func n r ps
  | .proto r ps => .proto r ps
  | .other x => .other x

/-- `btf.Sizeof`; `none` is an error. -/
def T.sizeof : T → Option Nat
  | .typedef _ t => t.sizeof
  | .qual _ t => t.sizeof
  | .void => some 0
  | .int _ z => some z
  | .float z => some z
  | .enum _ z _ => some z
  | .comp _ _ z _ => some z
  | .ptr _ => some 8
  | .array t n => t.sizeof.map (· * n)
  | .func _ _ _ => none
  | .proto _ _ => none
  | .other _ => none

/-- A type text followed by a name: no blank after a `*`. `none` if the type text is empty and the code indexes it. -/
def beside (r name : Text) : Text := if r.getLast? = some '*' then r ++ name else r ++ s " " ++ name

/-- The parameters of a function pointer (type_proto.go 87-98); `strings.HasSuffix` does not panic. -/
def ptrParams : Bool → Ps → Option Text
  | _, .nil => some []
  | first, .cons n t rest =>
    match reprT t, ptrParams false rest with
    | some r, some x => some ((if first then [] else s ", ") ++ beside r n ++ x)
    | _, _ => none

/-- `getFuncPointerProto` (type_proto.go 71-102). -/
def fnPtr (ret : T) (ps : Ps) (name : Text) : Option Text :=
  match reprT ret, ptrParams true ps with
  | some r, some x =>
    some ((if r.getLast? = some '*' then r else r ++ s " ") ++ s "(* " ++ name ++ s ")" ++ s "(" ++ x ++ s ")")
  | _, _ => none

/-- `%-Ns`. -/
def padRight (n : Nat) (x : Text) : Text := x ++ List.replicate (n - x.length) ' '

/-- `%Nd`. -/
def padLeft (n : Nat) (x : Text) : Text := List.replicate (n - x.length) ' ' ++ x

/-- `genDepthPrefix` (type_proto.go 47-52). -/
def indent (depth : Nat) : Text := (List.replicate depth (s "        ")).flatten

/-- `printStructUnionMemberOffsetSize` (type_proto.go 54-69); `btf.Bits` is 32 bits wide. -/
def offsetSize (t : T) (off bits prev : Nat) : Text :=
  s "/* " ++ padLeft 5 (dec ((off + prev) % 2 ^ 32 / 8)) ++
  (if bits ≠ 0 then s ":" ++ padLeft 2 (dec (off % 8)) ++ s " " ++ padLeft 2 (dec bits)
   else s "    " ++ padLeft 2 (dec (t.sizeof.getD 0))) ++ s " */\n"

/-- What `printStructUnionMember` (type_proto.go 104-129) prints for type and name. -/
def memberText (name : Text) (t : T) : Option Text :=
  match t.under with
  | .ptr (.proto ret ps) => (fnPtr ret ps name).map fun x => x ++ s ";"
  | .ptr _ => (reprT t).map fun r => r ++ name ++ s ";"
  | .array e n => (reprT e).map fun r => r ++ s " " ++ name ++ s "[" ++ dec n ++ s "]"
  | _ => (reprT t).map fun r => r ++ s " " ++ name ++ s ";"

/-- `printStructUnionMember` (type_proto.go 104-129). From depth 8 on the width is negative, which `fmt` takes for a second
minus flag. -/
def printMember (name : Text) (t : T) (off bits prev depth : Nat) : Option Text :=
  match reprT t, memberText name t with
  | some _, some x =>
    some (indent depth ++ padRight ((58 : Int) - 8 * depth).natAbs x ++ s " " ++ offsetSize t off bits prev)
  | _, _ => none

/-- The first line of `showStructProto` and `showUnionProto` (type_proto.go 151-156, 164-169). -/
def header (union : Bool) (name : Text) (depth : Nat) : Text :=
  indent depth ++ (if union then s "union " else s "struct ") ++ (if name ≠ [] then name ++ s " {\n" else s "{\n")

/-- What follows the brace of a nested struct or union (type_proto.go 134-138, 141-145). -/
def after (name : Text) : Text := if name ≠ [] then s " " ++ name ++ s ";\n" else s ";\n"

mutual
/-- `showStructUnionMemberProto` (type_proto.go 131-149) with `showStructProto` and `showUnionProto` (151-175). -/
def showMember (prev depth : Nat) (name : Text) (off bits : Nat) : T → Option Text
  | .comp u n _ ms =>
    (showMs ((off + prev) % 2 ^ 32) (depth + 1) ms).map fun x =>
      header u n depth ++ x ++ indent depth ++ s "}" ++ after name
  | .void => printMember name .void off bits prev depth
  | .int n z => printMember name (.int n z) off bits prev depth
  | .float z => printMember name (.float z) off bits prev depth
  | .enum n z v => printMember name (.enum n z v) off bits prev depth
  | .ptr t => printMember name (.ptr t) off bits prev depth
  | .typedef n t => printMember name (.typedef n t) off bits prev depth
  | .qual w t => printMember name (.qual w t) off bits prev depth
  | .array t n => printMember name (.array t n) off bits prev depth
  | .func n r ps => printMember name (.func n r ps) off bits prev depth
  | .proto r ps => printMember name (.proto r ps) off bits prev depth
  | .other x => printMember name (.other x) off bits prev depth

/-- The loop over the members (type_proto.go 159-161, 172-174). -/
def showMs (prev depth : Nat) : Ms → Option Text
  | .nil => some []
  | .cons name t off bits rest =>
    match showMember prev depth name off bits t, showMs prev depth rest with
    | some x, some y => some (x ++ y)
    | _, _ => none
end

/-- `showStructProto(w, s, 0, 0)`, `showUnionProto(w, u, 0, 0)` (type_proto.go 151-175). -/
def showComp (union : Bool) (name : Text) (ms : Ms) : Option Text :=
  (showMs 0 1 ms).map fun x => header union name 0 ++ x ++ s "}"

/-- `showEnumProto` (type_proto.go 177-190). -/
def showEnum (name : Text) (vals : List (Text × BitVec 64)) : Text :=
  let w := (vals.map fun v => v.1.length).foldl max 0
  s "enum " ++ name ++ s " {\n" ++
  (vals.map fun v => s "        " ++ padRight w v.1 ++ s " = " ++ dec v.2.toNat ++ s ",\n").flatten ++ s "}"

/-- The parameters of `showFuncProto` (func_proto.go 36-54). -/
def protoParams (list : Bool) (i : Nat) : Ps → Option Text
  | .nil => some []
  | .cons n t rest =>
    match reprT t, protoParams list (i + 1) rest with
    | some r, some x =>
      if n ≠ [] ∧ r = [] then none
      else some ((if i ≠ 0 then s ", " else []) ++ (if list then s "\n" ++ dec i ++ s ":\t" else []) ++
        (if n ≠ [] then beside r n else r) ++ x)
    | _, _ => none

/-- `showFuncProto` (func_proto.go 22-59). -/
def showFunc (name : Text) (ret : T) (ps : Ps) (list : Bool) : Option Text :=
  match reprT ret, protoParams list 0 ps with
  | some r, some x =>
    if r = [] then none
    else
      some ((if r.getLast? = some '*' then r else r ++ s " ") ++ name ++ s "(" ++ x ++
        (if list ∧ ps.toList ≠ [] then s "\n" else []) ++ s ")")
  | _, _ => none

/-- `spec.AnyTypeByName` of one BTF: no type of the name, one, or several (an error). -/
inductive Found
  | none
  | one (t : T)
  | many

/-- `findStructUnionType` (type_proto.go 26-45) over the BTF of the kernel and of its modules in that order
(kernel_btf.go 18-46): the error of the callback is assigned to a variable of its own, so a name with several types gives no
type and no error. -/
def findType (name : Text) : List (Text → Found) → Option T
  | [] => Option.none
  | b :: bs =>
    match b name with
    | .none => findType name bs
    | .one t => some t
    | .many => Option.none

/-- What ends up on standard output, in order: `direct` is what `showFnProto` writes there at once (type_proto.go 192-195),
`built` the string builder printed at the end. -/
structure Shown where
  direct : Text
  built : Text
deriving DecidableEq

/-- `showTypeProto` (type_proto.go 197-227); `none` is a fatal error or a panic. -/
def showTypes (btfs : List (Text → Found)) : Bool → List Text → Option Shown
  | _, [] => some ⟨[], []⟩
  | first, n :: ns =>
    let piece : Option Shown :=
      match (findType n btfs).map T.under with
      | some (.comp u c _ ms) => (showComp u c ms).map fun x => ⟨[], x⟩
      | some (.enum c _ v) => some ⟨[], showEnum c v⟩
      | some (.func c r ps) => (showFunc c r ps false).map fun x => ⟨x, []⟩
      | _ => Option.none
    match piece, showTypes btfs false ns with
    | some p, some q =>
      some ⟨p.direct ++ q.direct, (if first then [] else s "\n") ++ p.built ++ s ";\n" ++ q.built⟩
    | _, _ => Option.none

/-- Standard output of `--show-type-proto` (type_proto.go 226). -/
def stdout (x : Shown) : Text := x.direct ++ x.built ++ s "\n"

end Bpfsnoop.Pt
