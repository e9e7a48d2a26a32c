import Verif.Model.Lbr
import Verif.Model.Repr

/-
The text of the list of branches and of the call stack behind an event: `branchEndpoint.updateInfo` and `format`, the widths of the
columns, `lbrStack.output` (internal/bpfsnoop/lbr_stack.go 28-204, bpfsnoop_lbr.go 100-101) and the lines of `fnStack`
(bpfsnoop_func_stack.go 70-96, 110-114). Which branches are in which group is Model/Lbr, which frames are shown Model/StackMap, what is
known of an address Model/LineInfo.

Simplifications: texts are lists of characters and a name has as many bytes as characters (`len` and `%-*s` agree), as the names of
kernel functions; of colours, only the text between the escape sequences is kept.
-/
namespace Bpfsnoop.Lt
open Rp (Text dec)

def t (x : String) : Text := x.toList

/-- `%#x` (Go, fmt) of an unsigned number. -/
def hex (n : Nat) : Text := '0' :: 'x' :: Nat.toDigits 16 n

/-- `branchEndpoint` (lbr_stack.go 13-26), without the two texts made from it. -/
structure Ep where
  addr : Nat
  func : Text
  off : Nat
  file : Text
  line : Nat
  inline : Bool
deriving DecidableEq, Repr

/-- `endpointName` as made by `updateInfo` (lbr_stack.go 28-33). -/
def nameText (verbose : Bool) (e : Ep) : Text :=
  if verbose then hex e.addr ++ t ":" ++ e.func ++ t "+" ++ hex e.off
  else e.func ++ t "+" ++ hex e.off

/-- `lineInfo` as made by `updateInfo` (lbr_stack.go 34-41). -/
def infoText (e : Ep) : Text :=
  if e.file ≠ [] then
    if e.inline then t "(" ++ e.file ++ t ":" ++ dec e.line ++ t ")[inline]"
    else t "(" ++ e.file ++ t ":" ++ dec e.line ++ t ")"
  else []

/-- `%-*s` (Go, fmt): the text, and blanks up to the width. -/
def left (n : Nat) (x : Text) : Text := x ++ List.replicate (n - x.length) ' '

/-- `branchEndpoint.format` without colours (lbr_stack.go 44-49). -/
def plainEp (verbose : Bool) (nameLen infoLen : Nat) (e : Ep) : Text :=
  left nameLen (nameText verbose e) ++ t " " ++ left infoLen (infoText e)

/-- `branchEndpoint.format` with colours (lbr_stack.go 51-74), without the escape sequences. -/
def colourEp (verbose : Bool) (nameLen infoLen : Nat) (e : Ep) : Text :=
  (if verbose then hex e.addr ++ t ":" else []) ++ e.func ++ t "+" ++ hex e.off ++
    (if nameLen > (nameText verbose e).length then left (nameLen - (nameText verbose e).length) [] else []) ++
    t " " ++
    (if e.file ≠ [] then
      t "(" ++ (e.file ++ t ":" ++ dec e.line) ++ t ")" ++ (if e.inline then t "[inline]" else []) ++
        (if infoLen > (infoText e).length then left (infoLen - (infoText e).length) [] else [])
    else left infoLen [])

/-- `branchEndpoint.format` (lbr_stack.go 44-75). -/
def formatEp (colour verbose : Bool) (nameLen infoLen : Nat) (e : Ep) : Text :=
  if colour then colourEp verbose nameLen infoLen e else plainEp verbose nameLen infoLen e

/-- The widths of the four columns (lbr_stack.go 91-92). -/
structure Widths where
  fromName : Nat
  fromInfo : Nat
  toName : Nat
  toInfo : Nat
deriving DecidableEq, Repr

/-- `branchEntry` (lbr_stack.go 77-79). -/
abbrev Branch := Ep × Ep

/-- `branchEntry.format` (lbr_stack.go 81-85). -/
def formatBranch (colour verbose : Bool) (w : Widths) (b : Branch) : Text :=
  formatEp colour verbose w.fromName w.fromInfo b.1 ++ t " -> " ++ formatEp colour verbose w.toName w.toInfo b.2

/-- `branchRecord` (lbr_stack.go 87-93). -/
structure Rec where
  entries : List Branch
  w : Widths

/-- `branchRecord.addEntry` (lbr_stack.go 104-112). -/
def Rec.addEntry (verbose : Bool) (r : Rec) (b : Branch) : Rec :=
  ⟨r.entries ++ [b],
   ⟨max r.w.fromName (nameText verbose b.1).length, max r.w.fromInfo (infoText b.1).length,
    max r.w.toName (nameText verbose b.2).length, max r.w.toInfo (infoText b.2).length⟩⟩

/-- A record of these branches: `newBranchRecord` of the first, `addEntry` of the others (lbr_stack.go 95-102, 149-159). -/
def record (verbose : Bool) (bs : List Branch) : Rec := bs.foldl (Rec.addEntry verbose) ⟨[], ⟨0, 0, 0, 0⟩⟩

/-- `getLeftFmt` and `getRightFmt` (lbr_stack.go 175-193). -/
def widths (rs : List Rec) : Widths :=
  rs.foldl (fun w r => ⟨max w.fromName r.w.fromName, max w.fromInfo r.w.fromInfo, max w.toName r.w.toName, max w.toInfo r.w.toInfo⟩)
    ⟨0, 0, 0, 0⟩

/-- `%02d` (Go, fmt). -/
def num2 (i : Int) : Text :=
  if i < 0 then '-' :: dec i.natAbs else if i < 10 then '0' :: dec i.toNat else dec i.toNat

/-- `lbrStack.outputRecord` (lbr_stack.go 161-173); `entries[0]` of an empty record panics, but there is none. -/
def outputRecord (colour verbose : Bool) (w : Widths) (r : Rec) (idx : Int) : Text :=
  match r.entries with
  | [] => []
  | b :: bs =>
    t "[#" ++ num2 idx ++ t "] " ++ formatBranch colour verbose w b ++ t "\n" ++
      (bs.map fun b => t "      " ++ formatBranch colour verbose w b ++ t "\n").flatten

/-- The loop of `lbrStack.output` (lbr_stack.go 200-203). -/
def outputRecords (colour verbose : Bool) (w : Widths) : List Rec → Int → Text
  | [], _ => []
  | r :: rs, idx => outputRecord colour verbose w r idx ++ outputRecords colour verbose w rs (idx - 1)

/-- The list of branches (bpfsnoop_lbr.go 100-101, lbr_stack.go 195-204) for groups of branches; `lbrNr` is the number of branches the
processor records. -/
def branches (colour verbose : Bool) (lbrNr : Nat) (groups : List (List Branch)) : Text :=
  let rs := groups.map (record verbose)
  t "LBR stack:\n" ++ outputRecords colour verbose (widths rs) rs ((lbrNr : Int) - 1)

/-! ### The call stack -/

/-- The source behind a frame (bpfsnoop_func_stack.go 76-78, 88-90). -/
def frameSrc (e : Ep) : Text := if e.file ≠ [] then t "\t; " ++ e.file ++ t ":" ++ dec e.line else []

/-- `%-*s` (Go, fmt) with a width given as argument: a negative one counts as positive, to the left. -/
def star (n : Int) (x : Text) : Text := left n.natAbs x

/-- A line of the call stack (bpfsnoop_func_stack.go 70-94), with colours without the escape sequences. -/
def frame (colour verbose : Bool) (e : Ep) : Text :=
  t "  " ++
    (if colour then
      (if verbose then hex e.addr ++ t ":" else []) ++ e.func ++ star (50 - e.func.length) (t "+" ++ hex e.off) ++ frameSrc e
    else
      (if verbose then t "0x" ++ Nat.toDigits 16 e.addr ++ t ":" else []) ++ left 50 (e.func ++ t "+" ++ hex e.off) ++ frameSrc e) ++
    t "\n"

/-- `fnStack.output` (bpfsnoop_func_stack.go 101-114) without a flame graph, for the frames to show. -/
def frames (colour verbose : Bool) (es : List Ep) : Text :=
  if es.isEmpty then [] else t "Func stack:\n" ++ (es.map (frame colour verbose)).flatten

end Bpfsnoop.Lt
