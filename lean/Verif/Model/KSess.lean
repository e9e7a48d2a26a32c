/-
Model of the kernel side of sessions: `bpf/bpfsnoop_sess.h`, `bpf/bpfsnoop_session.h`,
`bpf/bpfsnoop_mode.h`, the session handling of `bpf/bpfsnoop.c`, `bpf/bpfsnoop_kmulti.c` and
`bpf/bpfsnoop_insn.c`, and the stack walk of `bpf/bpfsnoop_fgraph.c`.

Simplifications: one run of a BPF program is one atomic step (programs of one task never overlap
themselves except by nesting, and the maps are keyed by task); the ring buffer, the event
contents and the stack trace helper are parameters.
-/
namespace Bpfsnoop.KSess

/-- `struct bpfsnoop_sess_key` (bpfsnoop_sess.h 18-21). -/
structure Key where
  pidTgid : BitVec 64
  funcIP : BitVec 64
deriving DecidableEq, Repr

/-- `struct bpfsnoop_sess` (bpfsnoop_sess.h 23-26): `ids i` is `session_ids[i]` for `i < 64`. -/
structure Sess where
  depth : BitVec 32
  ids : Nat → BitVec 64

/-- `MASK_RECUR_DEPTH` applied to a depth, the index of `SESS_ID` (bpfsnoop_sess.h 15-16, 28). -/
def slot (d : BitVec 32) : Nat := (d &&& 63#32).toNat

/-- The map `bpfsnoop_sessions` (bpfsnoop_sess.h 45-50). -/
abbrev Map := Key → Option Sess

/-- `bpf_map_update_elem` / `bpf_map_delete_elem`. -/
def upd (m : Map) (k : Key) (v : Option Sess) : Map := fun k' => if k' = k then v else m k'

/-- `SESS_ID(s, i) = v`. -/
def setId (ids : Nat → BitVec 64) (i : Nat) (v : BitVec 64) : Nat → BitVec 64 :=
  fun j => if j = i then v else ids j

/-- `add_session` (bpfsnoop_sess.h 53-72). `stale` is what the per-CPU scratch buffer holds,
`full` says that the map update fails (the map has `BPFSNOOP_MAX_ENTRIES` entries). -/
def addSession (m : Map) (k : Key) (sid : BitVec 64) (stale : Nat → BitVec 64) (full : Bool) :
    Map :=
  match m k with
  | some s => upd m k (some ⟨s.depth + 1, setId s.ids (slot (s.depth + 1)) sid⟩)
  | none => if full then m else upd m k (some ⟨0, setId stale 0 sid⟩)

/-- `get_session` (bpfsnoop_sess.h 75-84). -/
def getSession (m : Map) (k : Key) : BitVec 64 :=
  match m k with
  | some s => s.ids (slot s.depth)
  | none => 0

/-- `get_and_del_session` (bpfsnoop_sess.h 87-105). -/
def getAndDel (m : Map) (k : Key) : BitVec 64 × Map :=
  match m k with
  | some s =>
    (s.ids (slot s.depth),
      if s.depth ≠ 0 then upd m k (some ⟨s.depth - 1, s.ids⟩) else upd m k none)
  | none => (0, m)

/-- `gen_session_id` (bpfsnoop.c 51-56, bpfsnoop_kmulti.c 70-80). -/
def genSessionId (rnd : BitVec 32) (fp : BitVec 64) : BitVec 64 :=
  (rnd.zeroExtend 64 <<< 32) ||| (fp &&& 0xFFFFFFFF#64)

/-- A probe hit in "both entry and exit" mode without the kernel's session programs. -/
inductive Op
  /-- entry probe; `pass` is the verdict of the filters -/
  | enter (k : Key) (sid : BitVec 64) (pass : Bool) (stale : Nat → BitVec 64) (full : Bool)
  /-- exit probe -/
  | exit (k : Key)
  /-- instruction probe inside the function -/
  | insn (k : Key)

/-- An event put into the ring buffer, with its `session_id` field. -/
inductive Out
  | entry (k : Key) (sid : BitVec 64)
  | exit (k : Key) (sid : BitVec 64)
  | insn (k : Key) (sid : BitVec 64)
deriving DecidableEq, Repr

/-- One probe hit: `bpfsnoop_session_enter` / `bpfsnoop_session_exit` with `is_session` false
(bpfsnoop_session.h 15-54), called from `emit_bpfsnoop_event` (bpfsnoop.c 106-137), and
`bpfsnoop_insn` (bpfsnoop_insn.c 25-61). -/
def step (m : Map) : Op → Map × Option Out
  | .enter k sid pass stale full =>
    if pass then (addSession m k sid stale full, some (.entry k sid)) else (m, none)
  | .exit k =>
    let r := getAndDel m k
    (r.2, if r.1 = 0 then none else some (.exit k (r.1 - 1)))
  | .insn k =>
    let sid := getSession m k
    (m, if sid = 0 then none else some (.insn k sid))

/-- A history of probe hits. -/
def run (m : Map) : List Op → List (Option Out)
  | [] => []
  | o :: os => (step m o).2 :: run (step m o).1 os

/-- The empty map. -/
def empty : Map := fun _ => none

/-- What user space takes the session id of an exit event to be (`Run` in
internal/bpfsnoop/bpfsnoop.go 145 adds the 1 that `bpfsnoop_session_exit` took away). -/
def userSid (sid : BitVec 64) : BitVec 64 := sid + 1

/-! ### The session-program variant -/

/-- A probe hit of a `fsession`/`kprobe.session` program. Each invocation `call` of the traced
function has its own kernel-provided cookie, initially 0. -/
inductive COp
  | enter (call : Nat) (sid : BitVec 64) (pass : Bool)
  | exit (call : Nat)

/-- `bpfsnoop_session_enter` / `bpfsnoop_session_exit` with `is_session` true
(bpfsnoop_session.h 15-54). Events carry the invocation they belong to as key. -/
def cstep (cookies : Nat → BitVec 64) : COp → (Nat → BitVec 64) × Option (Bool × Nat × BitVec 64)
  | .enter c sid pass =>
    if pass then ((fun c' => if c' = c then sid else cookies c'), some (true, c, sid))
    else (cookies, none)
  | .exit c =>
    (cookies, if cookies c = 0 then none else some (false, c, cookies c - 1))

def crun (cookies : Nat → BitVec 64) : List COp → List (Option (Bool × Nat × BitVec 64))
  | [] => []
  | o :: os => (cstep cookies o).2 :: crun (cstep cookies o).1 os

/-! ### Mode selection -/

/-- `enum bpfsnoop_mode` (bpfsnoop_mode.h 14-19). -/
inductive Mode
  | entry | exit | sessionEntry | sessionExit
deriving DecidableEq, Repr

/-- `get_bpfsnoop_mode` (bpfsnoop_mode.h 22-33). -/
def getMode (isEntry both isSession isReturn : Bool) : Mode :=
  let isEntry := if both && isSession then !isReturn else isEntry
  if both then (if isEntry then .sessionEntry else .sessionExit)
  else if isEntry then .entry else .exit

/-! ### Function graph -/

/-- The loop of `try_get_session` (bpfsnoop_fgraph.c 114-132) over the captured return
addresses. `fip` is the map `bpfsnoop_fgraph_tracee_ips` (0 for unknown addresses), `sess` is
`get_session` for the current task. Returns session id and depth. -/
def walk (fip sess : BitVec 64 → BitVec 64) (cur : BitVec 64) (maxDepth : Nat) :
    Bool → Nat → List (BitVec 64) → Option (BitVec 64 × Nat)
  | _, _, [] => none
  | after, depth, ip :: rest =>
    let f := fip ip
    if f = 0 then walk fip sess cur maxDepth after depth rest
    else if after then
      let sid := sess f
      if sid ≠ 0 then some (sid, depth)
      else if depth + 1 > maxDepth then none
      else walk fip sess cur maxDepth after (depth + 1) rest
    else if f = cur then walk fip sess cur maxDepth true depth rest
    else walk fip sess cur maxDepth after depth rest

/-- `try_get_session` (bpfsnoop_fgraph.c 95-135): `maxStack` is `STACK_DEPTH`, set from
`kernel.perf_event_max_stack` in bpf_tracing_graph.go 187; the depth starts at 1. -/
def tryGetSession (fip sess : BitVec 64 → BitVec 64) (cur : BitVec 64) (maxDepth maxStack : Nat)
    (stack : List (BitVec 64)) : Option (BitVec 64 × Nat) :=
  walk fip sess cur maxDepth false 1 (stack.take maxStack)

end Bpfsnoop.KSess
