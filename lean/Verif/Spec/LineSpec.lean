import Verif.Model.Line
/-
How a person reads the numbers in the line of an event.
-/
namespace Bpfsnoop.Ln
open Rp (Text)

/-- The number a row of decimal digits stands for. -/
def value (x : Text) : Nat := Nat.ofDigitChars 10 x 0

/-- Nanoseconds of a unit. -/
def scale (u : Text) : Option Nat :=
  if u = t "ns" then some 1 else if u = micro ++ t "s" then some 1000 else if u = t "ms" then some 1000000
  else if u = t "s" then some 1000000000 else none

/-- `w`, or `w.f`, of a unit, in nanoseconds. -/
def readDuration (x : Text) : Option Nat :=
  let w := x.takeWhile (·.isDigit)
  let r := x.dropWhile (·.isDigit)
  let f := if r.head? = some '.' then r.tail.takeWhile (·.isDigit) else []
  let u := if r.head? = some '.' then r.tail.dropWhile (·.isDigit) else r
  (scale u).map fun k => (value w * 10 ^ f.length + value f) * k / 10 ^ f.length

/-- Hours, minutes, seconds and nanoseconds of `hh:mm:ss` or `hh:mm:ss.f`. -/
def readClock : Text → Option (Nat × Nat × Nat × Nat)
  | a :: b :: ':' :: c :: d :: ':' :: e :: f :: r =>
    some (value [a, b], value [c, d], value [e, f], value r.tail * 10 ^ (9 - r.tail.length))
  | _ => none

end Bpfsnoop.Ln
