import Verif.Model.GraphRun
/-
What `--fgraph` has to print, written without the programs and without the session tables.
-/
namespace Bpfsnoop.Cg

/-- The lines of these calls, made at depth `d` of the graph of a call that began at `st`; `last` is the beginning of the innermost call around
them that has a line (or of the root). A function of the graph has a line at its beginning and one at its end, if it is not too deep. A function
that is not traced is not seen. A call of another root has a graph of its own if it is recorded, and is not shown itself here; if it is not
recorded it only counts. The first duration on the line of an exit is that of the call. -/
def lines (S : Sys) (d : Nat) (st last : BitVec 32) : Calls → List Run.Item
  | .nil => []
  | .cons c inner rest =>
    (match S.kind c.ip with
      | .node =>
        if d ≤ S.maxDepth then
          [.graph (S.texts.graph false c.ip c.enter.cpu (BitVec.ofNat 32 d) c.enter.args) (c.enter.ns - last) (c.enter.ns - st)] ++
            lines S (d + 1) st c.enter.ns inner ++
          [.graph (S.texts.graph true c.ip c.leave.cpu (BitVec.ofNat 32 d) c.leave.args) (c.leave.ns - c.enter.ns) (c.leave.ns - st)]
        else []
      | .other => lines S d st last inner
      | .root => if c.pass then [] else lines S (d + 1) st last inner) ++
    lines S d st last rest

/-- What is printed for a recorded call of a root. -/
def block (S : Sys) (c : Call) (inner : Calls) : List Run.Item :=
  [.func (S.texts.func false c.ip c.enter.cpu c.enter.args) none] ++ lines S 1 c.enter.ns c.enter.ns inner ++
    [.func (S.texts.func true c.ip c.leave.cpu c.leave.args) (some (c.leave.ns - c.enter.ns))]

/-- What is printed at the beginning or end of a call: at the end of a recorded call of a root that took at least `limit` its lines. -/
def printed (S : Sys) (limit : Int) (h : Hit) : Option (List Run.Item) :=
  if h.exit = true ∧ S.kind h.c.ip = .root ∧ h.c.pass = true ∧ limit ≤ ((h.c.leave.ns - h.c.enter.ns).toNat : Int) then
    some (block S h.c h.inner)
  else none

/-- A call of a root that the filters accept. -/
def Call.recorded (S : Sys) (c : Call) : Bool := decide (S.kind c.ip = .root) && c.pass

/-- The calls of a task are as assumed: the id of a recorded call is not 0, less than 64 recorded calls of its function are open around it, and a
call that is not recorded is not made within a recorded call of the same function. `around`: the calls around. -/
def Fits (S : Sys) (around : List Call) : Calls → Prop
  | .nil => True
  | .cons c inner rest =>
    (S.kind c.ip = .root →
      let same := around.filter fun a => a.recorded S && decide (a.ip = c.ip)
      if c.pass then c.sid ≠ 0 ∧ same.length < 64 else same = []) ∧
    Fits S (c :: around) inner ∧ Fits S around rest

/-- The recorded calls open in a task. -/
def open_ (S : Sys) (t : Task) : List Call := (t.stack.map (·.c)).filter (Call.recorded S)

/-- Whenever a recorded call begins, no recorded call with its id is open in any task. -/
def Distinct (S : Sys) : World → List (BitVec 64) → Prop
  | _, [] => True
  | w, p :: ps =>
    match next (w p) with
    | none => Distinct S w ps
    | some (h, t) =>
      (h.exit = false → h.c.recorded S = true → ∀ q, ∀ c ∈ open_ S (w q), c.sid ≠ h.c.sid) ∧ Distinct S (w.set p t) ps

/-- The addresses on the stack tell the open calls of the functions traced: each of them is there once, in order, by an address in the map. -/
def Unwound (S : Sys) (p : BitVec 64) (h : Hit) : Prop :=
  (S.stack p h).length ≤ S.maxStack ∧
  ((S.stack p h).map S.fip).filter (fun f => decide (f ≠ 0)) =
    ((h.c :: h.around).filter fun c => decide (S.kind c.ip ≠ .other)).map (·.ip)

end Bpfsnoop.Cg
