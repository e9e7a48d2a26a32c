import Verif.Model.KSess
/-
The stack that a program of a function graph walks, when programs interrupt each other: `get_fgraph_stack_buf` and `try_get_session`
(bpf/bpfsnoop_fgraph.c 52-135) step by step. The buffer `bpfsnoop_fgraph_stack` is one per CPU and shared by all programs of the graph. A step is one
word written by `bpf_get_stack` into the buffer, or one word read from it. In `KSess.tryGetSession` a run of a program is one step.

What `get_session` says to a run is given with the run (how the map of sessions behaves when programs interrupt each other is `SessConc`); the map
`bpfsnoop_fgraph_tracee_ips` is filled before the programs run and does not change. Order and size of the writes of `bpf_get_stack` are those of
`memcpy` of words (Linux; assumed).
-/
namespace Bpfsnoop.Sk

abbrev Addr := BitVec 64

/-- Where a run is: `j` words of the stack are in the buffer (line 107); the loop is at index `i` (lines 114-132); it has the session id and the
depth, or none. -/
inductive Pc
  | copy (j : Nat)
  | walk (i : Nat) (after : Bool) (depth : Nat)
  | done (r : Option (Addr × Nat))
deriving DecidableEq, Repr

/-- A run of the program: its CPU, `cfg->func_ip`, `cfg->max_depth`, what `get_session` says, the stack of the task it runs for. -/
structure Run where
  cpu : Nat
  cur : Addr
  maxDepth : Nat
  sess : Addr → BitVec 64
  stack : List Addr
  pc : Pc

/-- The buffers of the CPUs and the runs. -/
structure World where
  buf : Nat → Nat → Addr
  runs : Nat → Option Run

/-- `nr_ips` (line 111): `bpf_get_stack` stores at most `STACK_DEPTH` addresses. -/
def Run.nr (mx : Nat) (r : Run) : Nat := min r.stack.length mx

/-- Run `i`, which is `r`, is now at `pc`. -/
def World.goto (w : World) (i : Nat) (r : Run) (pc : Pc) : World :=
  { w with runs := fun x => if x = i then some { r with pc := pc } else w.runs x }

/-- The buffer of CPU `c` has `v` at index `j`. -/
def World.put (w : World) (c j : Nat) (v : Addr) : World :=
  { w with buf := fun x y => if x = c ∧ y = j then v else w.buf x y }

/-- The body of the loop (lines 114-132) for the address read. -/
def look (fip : Addr → Addr) (r : Run) (i : Nat) (after : Bool) (depth : Nat) (ip : Addr) : Pc :=
  let f := fip ip
  if f = 0 then .walk (i + 1) after depth
  else if after then
    let sid := r.sess f
    if sid ≠ 0 then .done (some (sid, depth))
    else if depth + 1 > r.maxDepth then .done none
    else .walk (i + 1) true (depth + 1)
  else if f = r.cur then .walk (i + 1) true depth
  else .walk (i + 1) false depth

/-- One step of a run. -/
def advance (fip : Addr → Addr) (mx : Nat) (w : World) (i : Nat) (r : Run) : World :=
  match r.pc with
  | .copy j =>
    if h : j < r.stack.length then
      if j < mx then (w.put r.cpu j r.stack[j]).goto i r (.copy (j + 1)) else w.goto i r (.walk 0 false 1)
    -- lines 108-109
    else if j = 0 then w.goto i r (.done none)
    else w.goto i r (.walk 0 false 1)
  | .walk k after d =>
    -- lines 114-116
    if k < r.nr mx then w.goto i r (look fip r k after d (w.buf r.cpu k)) else w.goto i r (.done none)
  | .done _ => w

/-- What happens: a run starts, or goes on by one step. -/
inductive Act
  | start (i : Nat) (r : Run)
  | go (i : Nat)

/-- What happens, happens. -/
def step (fip : Addr → Addr) (mx : Nat) (w : World) : Act → World
  | .start i r => w.goto i r (.copy 0)
  | .go i =>
    match w.runs i with
    | none => w
    | some r => advance fip mx w i r

def exec (fip : Addr → Addr) (mx : Nat) (w : World) (acts : List Act) : World := acts.foldl (step fip mx) w

/-- What run `i` has found. -/
def World.result (w : World) (i : Nat) : Option (Option (Addr × Nat)) :=
  match w.runs i with
  | some r => match r.pc with
    | .done x => some x
    | _ => none
  | none => none

end Bpfsnoop.Sk
