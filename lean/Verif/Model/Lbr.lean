/-
Model of the LBR (last branch record) display:
`internal/bpfsnoop/bpfsnoop_lbr.go` and `internal/bpfsnoop/lbr_stack.go`.
A Go run-time panic (index out of range) is modelled as `none`.
-/
namespace Bpfsnoop.Lbr

/-- `branchEndpoint` (lbr_stack.go 13-26). Only the two fields the grouping looks at are kept: the
address and the resolved function name; formatting fields are not modelled. -/
structure Endpoint where
  addr : Nat
  funcName : String
deriving DecidableEq, Repr

/-- `branchEntry` (lbr_stack.go 77-79). -/
structure Entry where
  src : Endpoint
  dst : Endpoint
deriving DecidableEq, Repr

/-- `branchRecord` (lbr_stack.go 87-93): a group of entries and the index of its last one.
The column widths are not modelled. -/
structure Rec where
  entries : List Entry
  last : Int
deriving DecidableEq, Repr

/-- `branchRecord.addEntry` (lbr_stack.go 104-112). -/
def Rec.addEntry (r : Rec) (e : Entry) : Rec :=
  { entries := r.entries ++ [e], last := r.last + 1 }

/-- `newBranchRecord` (lbr_stack.go 95-102). -/
def newRec (e : Entry) : Rec := Rec.addEntry { entries := [], last := -1 } e

/-- `lbrStack` (lbr_stack.go 124-127). -/
structure Stack where
  last : Nat
  stack : List Rec
deriving DecidableEq, Repr

/-- `newLBRStack` / `lbrStack.reset` (lbr_stack.go 129-138). -/
def Stack.empty : Stack := { last := 0, stack := [] }

/-- `lbrStack.addRecord` (lbr_stack.go 140-143). -/
def Stack.addRecord (s : Stack) (r : Rec) : Stack :=
  { last := s.last + 1, stack := s.stack ++ [r] }

/-- `lbrStack.pushFirstEntry` (lbr_stack.go 145-147): appends without touching `last`. -/
def Stack.pushFirstEntry (s : Stack) (e : Entry) : Stack :=
  { s with stack := s.stack ++ [newRec e] }

/-- Go slice indexing with a possibly negative index; `none` is the run-time panic. -/
def goIndex {α} (l : List α) (i : Int) : Option α :=
  if i < 0 then none else l[i.toNat]?

/-- `lbrStack.pushEntry` (lbr_stack.go 149-159). `lastRecord` is a pointer, so `addEntry` updates the
record inside the stack. -/
def Stack.pushEntry (s : Stack) (e : Entry) : Option Stack := do
  let lastRecord ← s.stack[s.last]?
  let lastEntry ← goIndex lastRecord.entries lastRecord.last
  if lastEntry.dst.funcName = e.src.funcName then
    some { s with stack := s.stack.set s.last (lastRecord.addEntry e) }
  else
    some (s.addRecord (newRec e))

/-- A raw `LbrEntry` (bpfsnoop_lbr.go 15-19) without its flags. -/
structure Raw where
  src : Nat
  dst : Nat
deriving DecidableEq, Repr

/-- `for i := range entries { if p(entries[i]) { entries = entries[i:]; break } }`
(bpfsnoop_lbr.go 34-39, 41-46, 55-60): the slice is unchanged when nothing matches. -/
def cutFront (p : Raw → Bool) (l : List Raw) : List Raw :=
  if l.any p then l.dropWhile (fun e => !p e) else l

/-- `for i := len(entries)-1; i >= 0; i-- { if p(entries[i]) { entries = entries[:i+1]; break } }`
(bpfsnoop_lbr.go 48-53). -/
def cutBack (p : Raw → Bool) (l : List Raw) : List Raw :=
  if l.any p then (l.reverse.dropWhile (fun e => !p e)).reverse else l

/-- What `lbrStack.get` consults: verbosity, whether the traced function is a bpf program, whether
the exit mode is active, `progInfo.contains`, and the kallsyms start address of an address. -/
structure Ctx where
  verbose : Bool
  isProg : Bool
  modeExit : Bool
  funcIP : Nat
  contains : Nat → Bool
  symAddr : Nat → Option Nat
  /-- `getLineInfo` (lineinfo.go 9-62), an opaque function of the address -/
  lineInfo : Nat → Endpoint

/-- The trimming part of `lbrStack.get` (bpfsnoop_lbr.go 32-66). -/
def select (c : Ctx) (l : List Raw) : List Raw :=
  if c.verbose then l
  else if !c.isProg then cutFront (fun e => c.symAddr e.src == some c.funcIP) l
  else if c.modeExit then
    cutBack (fun e => c.contains e.src || c.contains e.dst)
      (cutFront (fun e => c.contains e.src || c.contains e.dst) l)
  else cutFront (fun e => c.contains e.src) l

/-- Pushing the remaining entries, newest last (bpfsnoop_lbr.go 77-79). -/
def pushAll : List Entry → Stack → Option Stack
  | [], s => some s
  | e :: es, s => do pushAll es (← s.pushEntry e)

/-- `lbrStack.get` (bpfsnoop_lbr.go 26-82): outer `none` = panic, inner `none` = returned `false`.
The slice `Entries[:nrEntries]` panics beyond 32 entries. -/
def get (c : Ctx) (s : Stack) (all : List Raw) (nrEntries : Nat) : Option (Option Stack) :=
  if all.length < nrEntries then none
  else
    let entries := select c (all.take nrEntries)
    if !c.verbose && entries.isEmpty then some none
    else
      let lbrEntries := entries.map fun e => { src := c.lineInfo e.src, dst := c.lineInfo e.dst : Entry }
      match lbrEntries.reverse with
      | [] => none            -- lbrEntries[-1]
      | e :: es => (pushAll es (s.pushFirstEntry e)).map some

/-- One printed line: the `[#NN]` index only in front of the first entry of a group. -/
structure Line where
  idx : Option Int
  entry : Entry
deriving DecidableEq, Repr

/-- `lbrStack.outputRecord` (lbr_stack.go 161-173): `entries[0]` panics on an empty group. -/
def outputRecord (r : Rec) (idx : Int) : Option (List Line) :=
  match r.entries with
  | [] => none
  | e :: es => some (⟨some idx, e⟩ :: es.map fun x => ⟨none, x⟩)

/-- `lbrStack.output` (lbr_stack.go 195-204): the index starts at `lbrNr-1` and decreases per group. -/
def output : List Rec → Int → Option (List Line)
  | [], _ => some []
  | r :: rs, idx => do
    let a ← outputRecord r idx
    let b ← output rs (idx - 1)
    some (a ++ b)

end Bpfsnoop.Lbr
