import Verif.Spec.ListSpec

/-
Specification: how a person reads the listing of `--show-func-proto`.
-/
namespace Bpfsnoop.Pl
open Rp (Text numeral)

/-- `void f(int a); [traceable]` or `void f(int a);`: the prototype, and whether it has the mark. -/
def readLine (x : Text) : Text × Bool :=
  if x.drop (x.length - 13) = "; [traceable]".toList then (x.take (x.length - 13), true) else (x.take (x.length - 1), false)

/-- `Kernel functions: (total 3)` and the lines below. -/
structure Sec where
  title : Text
  total : Nat
  entries : List (Text × Bool)
deriving DecidableEq, Repr

/-- The lines between empty lines. -/
def paragraphs : List Text → List (List Text)
  | [] => [[]]
  | l :: ls =>
    if l = [] then [] :: paragraphs ls
    else match paragraphs ls with
      | [] => [[l]]
      | p :: ps => (l :: p) :: ps

/-- A section: its first line is the title. -/
def readSec : List Text → Option Sec
  | [] => none
  | h :: ls =>
    some ⟨(Lt.cut ':' h).1, numeral 10 (((Lt.cut ':' h).2.drop " (total ".toList.length).takeWhile Char.isDigit), ls.map readLine⟩

/-- The sections of the listing. -/
def read (x : Text) : List Sec := (paragraphs (Lt.lines x)).filterMap readSec

/-- `es` has one entry for each element of `l` and no other, in the order of their keys. -/
def Lists {α β : Type} (key : α → Text) (l : List α) (entry : α → β → Prop) (es : List β) : Prop :=
  ∃ l' : List α, l'.Perm l ∧ l'.Pairwise (fun a b => key a ≤ key b) ∧ es.length = l'.length ∧
    ∀ (i : Nat) (a : α) (e : β), l'[i]? = some a → es[i]? = some e → entry a e

/-- `order` has each entry of the map `t` once. -/
def Walks {α : Type} (t : BitVec 64 → Option α) (addr : α → BitVec 64) (order : List α) : Prop :=
  order.Nodup ∧ ∀ a, a ∈ order ↔ t (addr a) = some a

end Bpfsnoop.Pl
