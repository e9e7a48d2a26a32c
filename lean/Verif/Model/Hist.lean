/-
Histograms and t-digest rendering: internal/bpfsnoop/bpfsnoop_arg_histogram.go,
internal/bpfsnoop/bpfsnoop_arg_tdigest.go.
-/
namespace Bpfsnoop.Hist

/-- bpfsnoop_arg_histogram.go 25-36 `bytes2i`. The index loop is structural recursion over the first `size`
bytes; `i` is the loop index. Go shifts of 64 or more give 0, as do BitVec shifts. -/
def bytes2iLoop : List UInt8 → Nat → BitVec 64 → BitVec 64
  | [], _, v => v
  | b :: bs, i, v => bytes2iLoop bs (i + 1) (v ||| (b.toBitVec.zeroExtend 64 <<< (8 * i)))

/-- bpfsnoop_arg_histogram.go 25-36 `bytes2i`. -/
def bytes2i (b : List UInt8) (size : Int) : BitVec 64 :=
  if size ≤ 0 ∨ size > (b.length : Int) then 0#64
  else bytes2iLoop (b.take size.toNat) 0 0#64

/-- `math/bits.LeadingZeros64` (Go standard library). -/
def leadingZeros64 (v : BitVec 64) : Nat :=
  if v = 0#64 then 64 else 63 - v.toNat.log2

/-- bpfsnoop_arg_histogram.go 38-42 `i2h`. -/
def i2h (v : BitVec 64) : Int := 63 - (leadingZeros64 v : Int)

/-- bpfsnoop_arg_histogram.go 12-17. `log2` is the 64-entry array; counters are unbounded here
(uint64 in Go: exact below 2^64 samples). -/
structure Histogram where
  log2 : List Nat
  total : Nat
  deriving Repr, DecidableEq

/-- bpfsnoop_arg_histogram.go 19-23 `newHistogram` (the label expression is not modelled). -/
def newHistogram : Histogram := { log2 := List.replicate 64 0, total := 0 }

/-- bpfsnoop_arg_histogram.go 44-47 `add`. `none` is the run-time panic "index out of range". -/
def Histogram.add (h : Histogram) (data : List UInt8) (size : Int) : Option Histogram :=
  let idx := i2h (bytes2i data size)
  if idx < 0 ∨ idx ≥ (h.log2.length : Int) then none
  else some { log2 := h.log2.set idx.toNat (h.log2.getD idx.toNat 0 + 1), total := h.total + 1 }

/-- Adding a sequence of samples (one `add` per event). -/
def Histogram.addAll (h : Histogram) : List (List UInt8 × Int) → Option Histogram
  | [] => some h
  | (d, s) :: rest => (h.add d s).bind (fun h' => h'.addAll rest)

/-- bpfsnoop_arg_histogram.go 99-102: the two numbers printed as label of bucket `i`. -/
def label (i : Nat) : BitVec 64 × BitVec 64 :=
  let low := (1#64 <<< (i + 1)) >>> 1
  let high := (1#64 <<< (i + 1)) - 1#64
  if low = high then (low - 1#64, high) else (low, high)

/-- bpfsnoop_arg_histogram.go 73-84: `idxMax`, the last index whose counter is positive (-1 if none). -/
def idxMaxFrom : List Nat → Nat → Int → Int
  | [], _, m => m
  | v :: vs, i, m => idxMaxFrom vs (i + 1) (if v > 0 then (i : Int) else m)

/-- bpfsnoop_arg_histogram.go 73-84: `valMax`. -/
def valMax (vals : List Nat) : Nat := vals.foldl (fun m v => if v > m then v else m) 0

/-- bpfsnoop_arg_histogram.go 98-113: the indices of the lines printed. -/
def printedLines (vals : List Nat) : List Nat :=
  List.range (idxMaxFrom vals 0 (-1) + 1).toNat

/-- bpfsnoop_arg_histogram.go 59-71 `printStars`: number of stars, number of spaces, plus sign. The product
is a uint64 product. `none` is the division-by-zero or negative-repeat panic. -/
def printStars (val maxVal : BitVec 64) (width : Nat) : Option (Nat × Nat × Bool) :=
  if maxVal = 0#64 then none
  else
    let m := if val ≤ maxVal then val else maxVal
    let nStars := ((m * BitVec.ofNat 64 width) / maxVal).toNat
    if nStars > width then none   -- strings.Repeat with a negative count panics
    else some (nStars, width - nStars, decide (maxVal < val))

/-- State of the in-place merge loop of bpfsnoop_arg_tdigest.go 50-60 (`means`, `counts`, `j`). -/
structure MergeSt where
  means : List Nat
  counts : List Nat
  j : Nat

/-- bpfsnoop_arg_tdigest.go 51-58: one iteration for index `i`. -/
def mergeStep (s : MergeSt) (i : Nat) : MergeSt :=
  if s.means.getD (i - 1) 0 = s.means.getD i 0 then
    { s with counts := s.counts.set s.j (s.counts.getD s.j 0 + s.counts.getD i 0) }
  else
    { means := s.means.set (s.j + 1) (s.means.getD i 0)
      counts := s.counts.set (s.j + 1) (s.counts.getD i 0)
      j := s.j + 1 }

/-- bpfsnoop_arg_tdigest.go 50-60: merge equal neighbouring means in place, then cut to `j+1`.
The centroids come from the external t-digest library; any lists of equal length are allowed here. -/
def mergeCentroids (means counts : List Nat) : List Nat × List Nat :=
  let s := ((List.range (means.length - 1)).map (· + 1)).foldl mergeStep { means, counts, j := 0 }
  (s.means.take (s.j + 1), s.counts.take (s.j + 1))

end Bpfsnoop.Hist
