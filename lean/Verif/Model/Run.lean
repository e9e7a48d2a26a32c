/-
Model of the user-space event loop: `Run` in `internal/bpfsnoop/bpfsnoop.go`, the session table in
`bpfsnoop_sess.go`, `outputInsnEvent` (bpfsnoop_insn.go) and `outputGraphEvent` (bpfsnoop_graph.go).

The text of an event is not modelled: every record carries an opaque `tag` standing for the text
produced for it, and an `Item` is that tag with the durations printed beside it.
`none` results are Go run-time panics.
-/
namespace Bpfsnoop.Run

/-- `Event` (bpfsnoop.go 34-49) with the flags the loop reads (bpfsnoop.go 134-140). -/
structure FuncEv where
  /-- 1 = entry, 2 = exit (bpfsnoop.go 25-32) -/
  typ : Nat
  kernNs : BitVec 32
  sessID : BitVec 64
  isTp : Bool
  isGraph : Bool
  insnMode : Bool
  bothMode : Bool
  session : Bool
  tag : Nat
deriving DecidableEq, Repr

/-- A ring buffer record. `known` says whether the instruction or graph address is in the helper
tables; `short` is a record shorter than an `Event` (bpfsnoop.go 124-126). -/
inductive Rec
  | func (e : FuncEv)
  | insn (known : Bool) (sessID : BitVec 64) (kernNs : BitVec 32) (tag : Nat)
  | graph (known : Bool) (isExit : Bool) (sessID : BitVec 64) (kernNs : BitVec 32) (tag : Nat)
  | short
deriving DecidableEq, Repr

/-- A printed fragment: the event's text and the durations in it. -/
inductive Item
  | func (tag : Nat) (duration : Option (BitVec 32))
  | insn (tag : Nat) (duration : BitVec 32)
  | graph (tag : Nat) (cost duration : BitVec 32)
deriving DecidableEq, Repr

/-- `Session` (bpfsnoop_sess.go 6-11). -/
structure Session where
  started : BitVec 32
  outputs : List Item
  tstamps : List (BitVec 32)
  lastidx : Nat
deriving DecidableEq, Repr

/-- `Sessions` (bpfsnoop_sess.go 13-15), a Go map. -/
abbrev Sessions := BitVec 64 → Option Session

/-- `NewSessions` (bpfsnoop_sess.go 17-21). -/
def newSessions : Sessions := fun _ => none

/-- `s.sessions[k] = v` / `delete(s.sessions, k)`. -/
def set (s : Sessions) (k : BitVec 64) (v : Option Session) : Sessions :=
  fun k' => if k' = k then v else s k'

/-- `Sessions.Add` (bpfsnoop_sess.go 23-33): overwrites. -/
def mkSession (started : BitVec 32) (graph : Bool) : Session :=
  { started, outputs := [], tstamps := if graph then [started] else [], lastidx := 0 }

/-- `Session.lastTstamp` (bpfsnoop_sess.go 48-50): may panic. -/
def Session.lastTstamp (s : Session) : Option (BitVec 32) := s.tstamps[s.lastidx]?

/-- `Session.pushTstamp` (bpfsnoop_sess.go 52-55). -/
def Session.pushTstamp (s : Session) (ts : BitVec 32) : Session :=
  { s with tstamps := s.tstamps ++ [ts], lastidx := s.lastidx + 1 }

/-- `Session.popTstamp` (bpfsnoop_sess.go 57-63). Re-slicing to `lastidx` of a slice of length at least
`lastidx` never panics. -/
def Session.popTstamp (s : Session) : Session :=
  if s.lastidx = 0 then s
  else { s with tstamps := s.tstamps.take s.lastidx, lastidx := s.lastidx - 1 }

/-- `requiredSession` (bpfsnoop.go 137-140). -/
def FuncEv.requiredSession (e : FuncEv) : Bool :=
  e.insnMode || (e.isGraph && !e.isTp) || (e.bothMode && !e.isTp) || e.session

/-- `outputInsnEvent` (bpfsnoop_insn.go 23-45). -/
def outputInsn (ss : Sessions) (known : Bool) (k : BitVec 64) (ns : BitVec 32) (tag : Nat) : Sessions :=
  if !known then ss
  else match ss k with
    | none => ss
    | some s => set ss k (some { s with outputs := s.outputs ++ [.insn tag (ns - s.started)] })

/-- `outputGraphEvent` (bpfsnoop_graph.go 29-55). -/
def outputGraph (ss : Sessions) (k : BitVec 64) (ns : BitVec 32) (tag : Nat) (isEntry : Bool) :
    Option Sessions :=
  match ss k with
  | none => some ss
  | some s => do
    let last ← s.lastTstamp
    let s := if isEntry then s.pushTstamp ns else s.popTstamp
    some (set ss k (some { s with outputs := s.outputs ++ [.graph tag (ns - last) (ns - s.started)] }))

/-- The record handler (bpfsnoop.go 94-226): new session table and the block printed, if any
(`outputEvent` is true exactly when a block is printed). `runDelta` is the duration threshold. -/
def handle (runDelta : Int) (ss : Sessions) : Rec → Option (Sessions × Option (List Item))
  | .short => some (ss, none)
  | .insn known k ns tag => some (outputInsn ss known k ns tag, none)
  | .graph known isExit k ns tag =>
    if !known then some (ss, none)
    else (outputGraph ss k ns tag (!isExit)).map fun ss => (ss, none)
  | .func e =>
    let haveRetval := e.typ == 2
    if e.requiredSession then
      if e.typ = 1 then
        -- sess.outputs = append(sess.outputs, sb.String()); nothing printed
        let s := mkSession e.kernNs e.isGraph
        some (set ss e.sessID (some { s with outputs := s.outputs ++ [.func e.tag none] }), none)
      else
        match ss (e.sessID + 1) with
        | none => some (ss, none)
        | some s =>
          let ss := set ss (e.sessID + 1) none
          let duration := e.kernNs - s.started
          if (duration.toNat : Int) < runDelta then some (ss, none)
          else
            let outputs := s.outputs ++ [.func e.tag (if haveRetval then some duration else none)]
            some (ss, if haveRetval then some outputs else none)
    else some (ss, some [.func e.tag none])

/-- How `Run` ends. -/
inductive End | closed | finished
deriving DecidableEq, Repr

/-- The reading loop (bpfsnoop.go 228-246); `i` is the Go `int64` counter, the record list is what the
ring buffer delivers before it is closed. -/
def loop (runDelta : Int) (unlimited : Bool) : Int → Sessions → List Rec → Option (List (List Item) × End)
  | i, ss, recs =>
    if unlimited || decide (i > 0) then
      match recs with
      | [] => some ([], .closed)
      | r :: rs => do
        let (ss', out) ← handle runDelta ss r
        match out with
        | some b => do
          let (bs, e) ← loop runDelta unlimited (i - 1) ss' rs
          some (b :: bs, e)
        | none => loop runDelta unlimited i ss' rs
    else some ([], .finished)
termination_by _ _ recs => recs.length

/-- `Run` (bpfsnoop.go 66-247) with `limitEvents : uint`. `i - 1` cannot wrap: when the limit is 0 the
counter starts at 0 and would need 2^63 printed events. -/
def run (runDelta : Int) (limitEvents : BitVec 64) (recs : List Rec) : Option (List (List Item) × End) :=
  loop runDelta (limitEvents == 0) limitEvents.toInt newSessions recs

end Bpfsnoop.Run
