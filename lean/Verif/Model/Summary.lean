import Verif.Model.Hist
import Verif.Model.Flame
import Verif.Model.OutText
import Verif.Model.Proto

/-
What is written when tracing ends: the histogram, the t-digest and the flame graph (internal/bpfsnoop/bpfsnoop_arg_histogram.go 50-115,
bpfsnoop_arg_tdigest.go 36-84, flamegraph.go 70-132). Counters are `uint64` in Go and numbers here (exact below 2^64 samples). `none` is
a panic.
-/
namespace Bpfsnoop.Ht
open Rp (Text dec)
open Pt (padLeft padRight)
open Ot (join t)

/-- `printStars` (bpfsnoop_arg_histogram.go 60-74). -/
def bar (val maxVal width : Nat) : Option Text :=
  match Hist.printStars (BitVec.ofNat 64 val) (BitVec.ofNat 64 maxVal) width with
  | none => none
  | some (n, sp, plus) => some (List.replicate n '*' ++ List.replicate sp ' ' ++ (if plus then ['+'] else []))

/-- Lines one after the other; a panic in one is a panic. -/
def concatO : List (Option Text) → Option Text
  | [] => some []
  | none :: _ => none
  | some x :: r => (concatO r).map (x ++ ·)

/-- One line of `log2hist` (bpfsnoop_arg_histogram.go 98-114), with the width of its numbers and of its bar. -/
def bucketLine (w stars : Nat) (vals : List Nat) (i : Nat) : Option Text :=
  (bar (vals.getD i 0) (Hist.valMax vals) stars).map fun b =>
    padLeft w (dec (Hist.label i).1.toNat) ++ t " -> " ++ padRight w (dec (Hist.label i).2.toNat) ++ t " : " ++
      padRight 13 (dec (vals.getD i 0)) ++ t " |" ++ b ++ t "|\n"

/-- `log2hist` (bpfsnoop_arg_histogram.go 76-115). -/
def log2hist (vals : List Nat) : Option Text :=
  if Hist.idxMaxFrom vals 0 (-1) < 0 then some []
  else
    concatO ((Hist.printedLines vals).map
      (if Hist.idxMaxFrom vals 0 (-1) ≤ 32 then bucketLine 10 40 vals else bucketLine 20 20 vals))

/-- `histogram.render` (bpfsnoop_arg_histogram.go 50-58). -/
def render (expr : Text) (h : Hist.Histogram) : Option Text :=
  if h.total = 0 then some []
  else (log2hist h.log2).map fun x => t "Histogram for '" ++ expr ++ t "' (total " ++ dec h.total ++ t "):\n" ++ x ++ t "\n"

/-- One line of `tdigest2hist` (bpfsnoop_arg_tdigest.go 78-83). -/
def digestLine (maxVal : Nat) (p : Nat × Nat) : Option Text :=
  (bar p.2 maxVal 40).map fun b => padLeft 10 (dec p.1) ++ t " : " ++ padRight 13 (dec p.2) ++ t " |" ++ b ++ t "|\n"

/-- `TDigest.render` (bpfsnoop_arg_tdigest.go 36-68) and `tdigest2hist` (70-84). `cs` are the centroids of the library, means already
converted by `uint64(..)`, `count` is its `Count()`. Without centroids `means[:1]` panics. -/
def renderT (expr : Text) (count : Nat) (cs : List (Nat × Nat)) : Option Text :=
  if count = 0 then some []
  else
    let cs := cs.filter fun p => p.2 ≠ 0
    if cs = [] then none
    else
      let r := Hist.mergeCentroids (cs.map Prod.fst) (cs.map Prod.snd)
      (concatO ((r.1.zip r.2).map (digestLine (Hist.valMax r.2)))).map fun x =>
        t "T-Digest for '" ++ expr ++ t "' (total " ++ dec count ++ t "):\n" ++ x ++ t "\n"

/-- A folded line (flamegraph.go 91). -/
def foldLine (p : List String × Int) : Text := join (t ";") (p.1.map String.toList) ++ t " " ++ Rp.decI p.2

/-- `FlameGraph.Save` (flamegraph.go 110-132): the file afterwards and whether an error is returned. `old` is the file before, `none` if
there is none; `canOpen` says whether it can be opened for writing. -/
def save (g : Flame.Graph) (old : Option Text) (canOpen : Bool) : Option Text × Bool :=
  if g.root.children = [] then (old, false)
  else if g.folded = [] then (old, false)
  else if !canOpen then (old, true)
  else (some (join (t "\n") (g.folded.map foldLine) ++ t "\n"), false)

end Bpfsnoop.Ht
