import Verif.Model.KSess
/-
The kernel side of sessions when programs interrupt each other: `add_session`, `get_session`, `get_and_del_session` (bpf/bpfsnoop_sess.h
52-105) as called from bpf/bpfsnoop_session.h 15-54, bpf/bpfsnoop_insn.c 25-32 and bpf/bpfsnoop_fgraph.c 118, step by step. A step is one access to
memory that programs share: a look-up, update or deletion in the map `bpfsnoop_sessions`, a read or write of an element of the map, a write of
the buffer of the CPU (`bpfsnoop_session_buff`). In `KSess` a run of a program is one step.

The map holds addresses of elements, because a program keeps the address it has looked up. Assumed of the kernel: look-up, update and deletion are
atomic; an element that is deleted may be used again at once for another key (preallocated hash maps), elements in use are distinct.
Simplification: `SESS_ID(sess, sess->depth)` uses the value of `depth` read or written before (the compiler keeps it in a register).
-/
namespace Bpfsnoop.Sc
open KSess (Key Sess slot setId)

/-- What a run of a program does with the sessions: the entry of a call with the verdict of the filters, the exit of a call, an instruction or a
function of a graph inside the call. -/
inductive Kind
  | enter (sid : BitVec 64) (pass : Bool)
  | exit
  | look
deriving DecidableEq, Repr

/-- Where a run is. -/
inductive Pc
  /-- before the look-up -/
  | start
  /-- has the element at `p` (bpfsnoop_sess.h 60, 82, 95) -/
  | found (p : Nat)
  /-- has read `depth` (bpfsnoop_sess.h 62, 83, 97) -/
  | read (p : Nat) (d : BitVec 32)
  /-- `add_session`: has written `depth + 1` (bpfsnoop_sess.h 62) -/
  | wrote (p : Nat) (d : BitVec 32)
  /-- `add_session`: there is no element (bpfsnoop_sess.h 65) -/
  | fresh
  /-- `add_session`: has written `depth` of the buffer (bpfsnoop_sess.h 67) -/
  | zeroed
  /-- `add_session`: has written the id into the buffer (bpfsnoop_sess.h 68) -/
  | filled
  /-- has read the id (bpfsnoop_sess.h 83, 97) -/
  | got (p : Nat) (d : BitVec 32) (v : BitVec 64)
  /-- has the session id `v` -/
  | done (v : BitVec 64)
deriving DecidableEq, Repr

/-- A run of a program: its CPU, the task and function, what it does. -/
structure Run where
  cpu : Nat
  key : Key
  kind : Kind
  pc : Pc
deriving DecidableEq, Repr

/-- What programs share: the map, the elements, the buffers of the CPUs; and the runs. -/
structure World where
  map : Key → Option Nat
  mem : Nat → Sess
  buf : Nat → Sess
  runs : Nat → Option Run

/-- Assignment to one place. -/
def set {α β : Type} [DecidableEq α] (f : α → β) (a : α) (b : β) : α → β := fun x => if x = a then b else f x

/-- Run `i`, which is `r`, is now at `pc`. -/
def World.goto (w : World) (i : Nat) (r : Run) (pc : Pc) : World := { w with runs := set w.runs i (some { r with pc := pc }) }

/-- What happens: program `i` starts, or goes on by one step. `a` and `full` are the kernel's answer if this step is the update of the map: the
element that is used, and that there is none (`BPFSNOOP_MAX_ENTRIES`). -/
inductive Act
  | start (i cpu : Nat) (key : Key) (kind : Kind)
  | go (i : Nat) (a : Nat) (full : Bool)
deriving DecidableEq, Repr

/-- One step of a run. -/
def advance (w : World) (i : Nat) (r : Run) (a : Nat) (full : Bool) : World :=
  match r.kind, r.pc with
  | _, .done _ => w
  -- rejected by the filters (bpfsnoop_session.h 18-19)
  | .enter _ false, _ => w.goto i r (.done 0)
  -- add_session (bpfsnoop_sess.h 52-72)
  | .enter _ true, .start => match w.map r.key with | some p => w.goto i r (.found p) | none => w.goto i r .fresh
  | .enter _ true, .found p => w.goto i r (.read p (w.mem p).depth)
  | .enter _ true, .read p d => { w.goto i r (.wrote p d) with mem := set w.mem p ⟨d + 1, (w.mem p).ids⟩ }
  | .enter sid true, .wrote p d =>
    { w.goto i r (.done sid) with mem := set w.mem p ⟨(w.mem p).depth, setId (w.mem p).ids (slot (d + 1)) sid⟩ }
  | .enter _ true, .fresh => { w.goto i r .zeroed with buf := set w.buf r.cpu ⟨0, (w.buf r.cpu).ids⟩ }
  | .enter sid true, .zeroed =>
    { w.goto i r .filled with buf := set w.buf r.cpu ⟨(w.buf r.cpu).depth, setId (w.buf r.cpu).ids 0 sid⟩ }
  | .enter sid true, .filled =>
    if full then w.goto i r (.done sid)
    -- also if another program has made an element for the key meanwhile (BPF_ANY)
    else { w.goto i r (.done sid) with map := set w.map r.key (some a), mem := set w.mem a (w.buf r.cpu) }
  -- get_and_del_session (bpfsnoop_sess.h 86-105)
  | .exit, .start => match w.map r.key with | some p => w.goto i r (.found p) | none => w.goto i r (.done 0)
  | .exit, .found p => w.goto i r (.read p (w.mem p).depth)
  | .exit, .read p d => w.goto i r (.got p d ((w.mem p).ids (slot d)))
  | .exit, .got p d v =>
    if d ≠ 0 then { w.goto i r (.done v) with mem := set w.mem p ⟨d - 1, (w.mem p).ids⟩ }
    else { w.goto i r (.done v) with map := set w.map r.key none }
  -- get_session (bpfsnoop_sess.h 74-84)
  | .look, .start => match w.map r.key with | some p => w.goto i r (.found p) | none => w.goto i r (.done 0)
  | .look, .found p => w.goto i r (.read p (w.mem p).depth)
  | .look, .read p d => w.goto i r (.done ((w.mem p).ids (slot d)))
  -- not reached
  | _, _ => w

/-- What happens, happens. -/
def step (w : World) : Act → World
  | .start i c k q => { w with runs := set w.runs i (some ⟨c, k, q, .start⟩) }
  | .go i a full =>
    match w.runs i with
    | none => w
    | some r => advance w i r a full

/-- The event a run sends when it has its session id (bpfsnoop_session.h 15-54, bpfsnoop.c 118-141, bpfsnoop_insn.c 40-57). -/
def eventOf (r : Run) (v : BitVec 64) : Option KSess.Out :=
  match r.kind with
  | .enter sid true => some (.entry r.key sid)
  | .enter _ false => none
  | .exit => if v = 0 then none else some (.exit r.key (v - 1))
  | .look => if v = 0 then none else some (.insn r.key v)

/-- The run that has its session id after this step and had not before. -/
def finished (w : World) : Act → Option (Run × BitVec 64)
  | .start .. => none
  | .go i a full =>
    match w.runs i, (step w (.go i a full)).runs i with
    | some r, some r' =>
      match r.pc, r'.pc with
      | .done _, _ => none
      | _, .done v => some (r, v)
      | _, _ => none
    | _, _ => none

/-- The runs in the order in which they finish, with the events they send. -/
def log (w : World) : List Act → List (Run × Option KSess.Out)
  | [] => []
  | x :: xs =>
    match finished w x with
    | some (r, v) => (r, eventOf r v) :: log (step w x) xs
    | none => log (step w x) xs

/-- All is done. -/
def exec (w : World) (acts : List Act) : World := acts.foldl step w

/-- At the beginning: no sessions, anything in the memory and in the buffers, no runs. -/
def init (mem buf : Nat → Sess) : World := ⟨fun _ => none, mem, buf, fun _ => none⟩

end Bpfsnoop.Sc
