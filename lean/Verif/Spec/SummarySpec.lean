import Verif.Spec.TextSpec

/-
Specification: how the texts written at the end are to be read.
-/
namespace Bpfsnoop.Ht
open Rp (Text numeral)

/-- The words of a text: what stands between spaces. -/
def wordsOf (x : Text) : List Text := (Ot.fields ' ' x).filter (· ≠ [])

/-- The lines of a text that ends with a line feed. -/
def linesOf (x : Text) : List Text := (Ot.fields '\n' x).dropLast

/-- The number of stars of a line. -/
def stars (x : Text) : Nat := (x.filter (· = '*')).length

/-- `lo -> hi : n |****  |`: a line of a histogram. -/
def ReadsBucket (x : Text) (lo hi n : Nat) : Prop :=
  ∃ a b c, wordsOf (x.takeWhile (· ≠ '|')) = [a, ['-', '>'], b, [':'], c] ∧
    numeral 10 a = lo ∧ numeral 10 b = hi ∧ numeral 10 c = n

/-- The `k`-th range of a histogram: 0 to 1, 2 to 3, 4 to 7, 8 to 15, ... -/
def lowest (k : Nat) : Nat := if k = 0 then 0 else 2 ^ k
def highest (k : Nat) : Nat := 2 ^ (k + 1) - 1

/-- How many of the samples are in the `k`-th range. -/
def samples (vs : List Nat) (k : Nat) : Nat := vs.countP fun v => decide (lowest k ≤ v ∧ v ≤ highest k)

/-- `mean : n |****  |`: a line of a t-digest. -/
def ReadsCentroid (x : Text) (mean n : Nat) : Prop :=
  ∃ a c, wordsOf (x.takeWhile (· ≠ '|')) = [a, [':'], c] ∧ numeral 10 a = mean ∧ numeral 10 c = n

/-- `f1;f2;f3 n`: a line of a flame graph file: the frames and the count behind the last space (the format of flamegraph.pl). -/
def readFold (x : Text) : List Text × Nat :=
  (Ot.fields ';' ((x.reverse.dropWhile (· ≠ ' ')).drop 1).reverse, numeral 10 (x.reverse.takeWhile (· ≠ ' ')).reverse)

end Bpfsnoop.Ht
