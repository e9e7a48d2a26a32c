/-
Model of `internal/cc/number.go` (integer literals) and `internal/cc/register.go` (register
allocator).

Text is a list of characters; a character outside ASCII takes more than one byte, so it never is
a digit and never forms a three-byte character literal. Invalid UTF-8 is not modelled.
-/
namespace Bpfsnoop.Cc

/-! ### number.go -/

/-- The digit value used by Go's `strconv.ParseUint`. -/
def digitVal (c : Char) : Option Nat :=
  if '0' ≤ c ∧ c ≤ '9' then some (c.toNat - '0'.toNat)
  else if 'a' ≤ c ∧ c ≤ 'z' then some (c.toNat - 'a'.toNat + 10)
  else if 'A' ≤ c ∧ c ≤ 'Z' then some (c.toNat - 'A'.toNat + 10)
  else none

/-- The digit loop of `strconv.ParseUint(s, base, 64)`: any invalid digit or overflow is an error. -/
def parseDigits (base : Nat) : Nat → List Char → Option Nat
  | n, [] => some n
  | n, c :: cs =>
    match digitVal c with
    | none => none
    | some d =>
      if d ≥ base then none
      else if n * base + d ≥ 2 ^ 64 then none
      else parseDigits base (n * base + d) cs

/-- `strconv.ParseUint(s, base, 64)` for an explicit base: the empty string is an error. -/
def parseUint (base : Nat) (s : List Char) : Option Nat :=
  match s with
  | [] => none
  | s => parseDigits base 0 s

/-- `parseUnsigned` (number.go 11-33). -/
def parseUnsigned (text : List Char) : Option Nat :=
  match text with
  | '0' :: 'x' :: r => parseUint 16 r
  | '0' :: 'o' :: r => parseUint 8 r
  | '0' :: 'b' :: r => parseUint 2 r
  | '0' :: c :: r => parseUint 8 (c :: r)
  | '\'' :: r =>
    match r with
    | [c, '\''] => if c.toNat < 128 then some c.toNat else none
    | _ => none
  | t => parseUint 10 t

/-- `strings.TrimPrefix(text, "+")`. -/
def trimPlus (text : List Char) : List Char :=
  match text with
  | '+' :: r => r
  | t => t

/-- `parseNumber` (number.go 35-50): the result is an `int64`. -/
def parseNumber (text : List Char) : Option (BitVec 64) :=
  match text with
  | '-' :: r => (parseUnsigned (trimPlus r)).map fun n => -(BitVec.ofNat 64 n)
  | t => (parseUnsigned (trimPlus t)).map fun n => BitVec.ofNat 64 n

/-! ### register.go -/

/-- `RegisterAllocator` (register.go 12-14): R0 to R9. -/
abbrev Regs := Nat → Bool

/-- `ra.registers[r] = b`. -/
def setReg (u : Regs) (r : Nat) (b : Bool) : Regs := fun r' => if r' = r then b else u r'

/-- The search of `Alloc` (register.go 16-25) from register `hi - 1` down to `lo`. -/
def allocFrom (lo : Nat) (u : Regs) : Nat → Option (Nat × Regs)
  | 0 => none
  | r + 1 => if r < lo then none else if !u r then some (r, setReg u r true) else allocFrom lo u r

/-- `Alloc` (register.go 16-25): `none` is `ErrRegisterNotEnough`. The code searches from R8 down to
R0, `lo = 0`; the parameter `lo` is only used to express "never needs a register below `lo`". -/
def alloc (lo : Nat) (u : Regs) : Option (Nat × Regs) := allocFrom lo u 9

/-- `Free` (register.go 27-31). -/
def free (u : Regs) (r : Nat) : Regs := if r ≤ 9 then setReg u r false else u

/-- `IsUsed` (register.go 33-39): `none` is a panic. -/
def isUsed (u : Regs) (r : Nat) : Option Bool := if r ≤ 9 then some (u r) else none

/-- `MarkUsed` (register.go 41-47): `none` is a panic. -/
def markUsed (u : Regs) (r : Nat) : Option Regs := if r ≤ 9 then some (setReg u r true) else none

end Bpfsnoop.Cc
