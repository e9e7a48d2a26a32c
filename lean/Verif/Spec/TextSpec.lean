import Verif.Props.Repr

/-
Specification: how the texts printed for captured values are to be read, independently of how they are produced.
-/
namespace Bpfsnoop.Ot
open Rp (Text numeral)

/-- The fields of a text between separators. -/
def fields (c : Char) : Text → List Text
  | [] => [[]]
  | x :: r =>
    if x = c then [] :: fields c r
    else
      match fields c r with
      | [] => [[x]]
      | f :: fs => (x :: f) :: fs

/-- `a.b.c.d`, `aa:bb:..`: the numbers between separators, in a base. -/
def numbers (c : Char) (base : Nat) (x : Text) : List Nat := (fields c x).map (numeral base)

/-- An IPv6 address (RFC 4291, 2.2): eight groups between colons, or the groups before and after a gap `::` that stands for as many
zero groups as are missing. -/
def readIp6 (x : Text) : List Nat :=
  let fs := fields ':' x
  let l := fs.takeWhile (· ≠ [])
  let r := (fs.reverse.takeWhile (· ≠ [])).reverse
  if l.length = fs.length then l.map (numeral 16)
  else l.map (numeral 16) ++ List.replicate (8 - l.length - r.length) 0 ++ r.map (numeral 16)

/-- The bytes of 16-bit groups in network order. -/
def bytesOf (g : List Nat) : List Nat := g.flatMap fun n => [n / 256, n % 256]

/-- The number whose bytes are these, least significant first. -/
def little (b : List (BitVec 8)) : Nat := b.foldr (fun x n => x.toNat + 256 * n) 0

/-- The number whose bytes are these, most significant first. -/
def big (b : List (BitVec 8)) : Nat := little b.reverse

/-- A text for an unsigned number: `0x`, hexadecimal digits, `/`, decimal digits. -/
def ReadsUnsigned (x : Text) (n : Nat) : Prop :=
  ∃ h d, x = '0' :: 'x' :: h ++ '/' :: d ∧ numeral 16 h = n ∧ numeral 10 d = n

/-- A text for a signed number: decimal digits, after a minus sign if the number is negative. -/
def ReadsSigned (x : Text) (n : Int) : Prop :=
  (0 ≤ n ∧ (numeral 10 x : Int) = n ∧ '-' ∉ x) ∨ (n < 0 ∧ ∃ d, x = '-' :: d ∧ (numeral 10 d : Int) = -n)

end Bpfsnoop.Ot
