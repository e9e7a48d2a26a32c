import Verif.Spec.TextSpec

/-
Specification: how a person reads the list of branches and the call stack behind an event.
-/
namespace Bpfsnoop.Lt
open Rp (Text numeral)

/-- The words of a line, between blanks. -/
def words (x : Text) : List Text := (Ot.fields ' ' x).filter (· ≠ [])

/-- The lines of a text that ends with a new line. -/
def lines (x : Text) : List Text := (Ot.fields '\n' x).dropLast

/-- What is before and after the first `c`. -/
def cut (c : Char) (x : Text) : Text × Text := (x.takeWhile (· ≠ c), (x.dropWhile (· ≠ c)).drop 1)

/-- What is before and after the last `c`. -/
def cutLast (c : Char) (x : Text) : Text × Text := ((cut c x.reverse).2.reverse, (cut c x.reverse).1.reverse)

/-- A place in the code: its address (shown only with `-v`), its function, the offset in it, and its source line if known. -/
structure Place where
  addr : Option Nat
  func : Text
  off : Nat
  src : Option (Text × Nat)
deriving DecidableEq, Repr

/-- `name+0x12`, and with `-v` `0xffffffff81000012:name+0x12`. -/
def readName (verbose : Bool) (w : Text) : Option Nat × Text × Nat :=
  if verbose then
    (some (numeral 16 ((cut ':' w).1.drop 2)), (cutLast '+' (cut ':' w).2).1, numeral 16 ((cutLast '+' (cut ':' w).2).2.drop 2))
  else (none, (cutLast '+' w).1, numeral 16 ((cutLast '+' w).2.drop 2))

/-- `file:12`. -/
def readSrc (w : Text) : Text × Nat := ((cutLast ':' w).1, numeral 10 ((cutLast ':' w).2.takeWhile Char.isDigit))

/-- A place of a branch: `name+0x12` or `name+0x12 (file:12)`. -/
def readPlace (verbose : Bool) : List Text → Option Place
  | [n] => some ⟨(readName verbose n).1, (readName verbose n).2.1, (readName verbose n).2.2, none⟩
  | [n, s] => some ⟨(readName verbose n).1, (readName verbose n).2.1, (readName verbose n).2.2, some (readSrc (s.drop 1))⟩
  | _ => none

/-- `[#31]` or blanks, and the two places with an arrow between them. -/
def readBranch (verbose : Bool) (x : Text) : Option Nat × Option Place × Option Place :=
  (if x.take 2 = "[#".toList then some (numeral 10 ((x.drop 2).take 2)) else none,
   readPlace verbose ((words (x.drop 6)).takeWhile (· ≠ "->".toList)),
   readPlace verbose (((words (x.drop 6)).dropWhile (· ≠ "->".toList)).drop 1))

/-- `  name+0x12`, after blanks and a tab `; file:12`. -/
def readFrame (verbose : Bool) (x : Text) : Place :=
  let n := readName verbose ((words (cut '\t' (x.drop 2)).1).headD [])
  ⟨n.1, n.2.1, n.2.2, if '\t' ∈ x then some (readSrc ((cut '\t' x).2.drop 2)) else none⟩

/-- The branches of groups in the order shown, the first of each group with the number of the group, which goes down from `n`. -/
def numbered {α : Type} : List (List α) → Nat → List (Option Nat × α)
  | [], _ => []
  | [] :: gs, n => numbered gs (n - 1)
  | (b :: bs) :: gs, n => (some n, b) :: bs.map (none, ·) ++ numbered gs (n - 1)

end Bpfsnoop.Lt
