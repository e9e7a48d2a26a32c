import Verif.Model.KSess
import Verif.Model.Run
import Verif.Model.Attach
/-
Model of `--fgraph` from the calls of the running tasks to what is printed: the program attached to the functions of a call graph
(`bpf/bpfsnoop_fgraph.c`), the session handling of the program attached to the roots (`bpf/bpfsnoop.c`, through `Att.sstep`), the header of a
graph event and its reading in `internal/bpfsnoop/bpfsnoop.go`. The loop that prints is `Run.steps` (Model/Run).

Simplifications: a run of a BPF program is one step; the ring buffer loses nothing and delivers the records in the order of the runs; the
map of sessions is never full; the filters are a verdict given with the call (`pass`), the generated session id is given with the call too.
The text of a line is an arbitrary function of what the event holds (Model/Line and Model/ArgOut model the texts).
-/
namespace Bpfsnoop.Cg

abbrev Byte := BitVec 8
abbrev Addr := BitVec 64

/-- How a function is traced (`traceGraphs`, bpf_tracing_graph.go 228-267: the roots by the ordinary programs, the other functions of the graphs
by `bpfsnoop_fgraph`). -/
inductive Kind
  | root | node | other
deriving DecidableEq, Repr

/-- What a probe of a call finds: the clock, the processor, and the bytes written by `output_fn_args` (bpfsnoop_fn_args_output.h 11-16). -/
structure Probe where
  ns : BitVec 32
  cpu : BitVec 32
  args : List Byte
deriving DecidableEq, Repr

/-- A call of the function at `ip`: at its beginning and its end, and for a root the verdict of the filters and the id `gen_session_id`
(bpfsnoop.c 51-56) makes. -/
structure Call where
  ip : Addr
  pass : Bool
  sid : BitVec 64
  enter : Probe
  leave : Probe
deriving DecidableEq, Repr

/-- Calls one after the other, each with the calls made during it. -/
inductive Calls
  | nil
  | cons (c : Call) (inner rest : Calls)
deriving DecidableEq, Repr

/-- A call that has begun, with the calls made during it and those after it. -/
structure Frame where
  c : Call
  inner : Calls
  rest : Calls
deriving DecidableEq, Repr

/-- A task: the calls that have begun, innermost first, and the calls it still makes before the innermost one ends. -/
structure Task where
  stack : List Frame
  cur : Calls
deriving DecidableEq, Repr

/-- The beginning or the end of a call: the calls made during it, and the calls around it, innermost first. -/
structure Hit where
  c : Call
  inner : Calls
  around : List Call
  exit : Bool
deriving DecidableEq, Repr

/-- What a task does next; `none`: it has made all its calls. -/
def next (t : Task) : Option (Hit × Task) :=
  match t.cur, t.stack with
  | .cons c inner rest, fs => some (⟨c, inner, fs.map (·.c), false⟩, ⟨⟨c, inner, rest⟩ :: fs, inner⟩)
  | .nil, f :: fs => some (⟨f.c, f.inner, fs.map (·.c), true⟩, ⟨fs, f.rest⟩)
  | .nil, [] => none

/-- The tasks by `pid_tgid`. -/
abbrev World := BitVec 64 → Task

/-- One task goes on. -/
def World.set (w : World) (p : BitVec 64) (t : Task) : World := fun q => if q = p then t else w q

/-- The beginnings and ends of calls when the tasks are scheduled like this: at each turn a task does one thing, if it has anything to do. -/
def hits (w : World) : List (BitVec 64) → List (BitVec 64 × Hit)
  | [] => []
  | p :: ps =>
    match next (w p) with
    | none => hits w ps
    | some (h, t) => (p, h) :: hits (w.set p t) ps

/-! ### The program in the graph -/

/-- `enum bpfsnoop_hook_mode` (bpfsnoop_fgraph.c 14-18). -/
inductive Hook
  | entry | exit | session
deriving DecidableEq, Repr

/-- `struct bpfsnoop_fgraph_configs` (bpfsnoop_fgraph.c 20-35) without the parts nobody reads. -/
structure GCfg where
  funcIP : Addr
  maxDepth : Nat
  hook : Hook
  mypid : BitVec 32
deriving DecidableEq, Repr

/-- `struct bpfsnoop_fgraph_event` (bpfsnoop_fgraph.c 42-50). -/
structure GEvt where
  typ : BitVec 16
  length : BitVec 16
  kernNs : BitVec 32
  sessID : BitVec 64
  funcIP : BitVec 64
  cpu : BitVec 32
  depth : BitVec 32
deriving DecidableEq, Repr

/-- The size of the header: `sizeof(*evt)` (bpfsnoop_fgraph.c 42-50) and `sizeOfGraphEvent` (bpfsnoop_graph.go 25-27). -/
def sizeOfGraphEvent : Nat := 32

/-- The header in memory (bpfsnoop_fgraph.c 42-50), without padding. -/
def GEvt.bytes (e : GEvt) : List Byte :=
  Arg.le 2 (e.typ.setWidth 64) ++ Arg.le 2 (e.length.setWidth 64) ++ Att.le32 e.kernNs ++ Arg.le 8 e.sessID ++ Arg.le 8 e.funcIP ++
    Att.le32 e.cpu ++ Att.le32 e.depth

/-- `BPFSNOOP_EVENT_TYPE_GRAPH_ENTRY`, `BPFSNOOP_EVENT_TYPE_GRAPH_EXIT` (bpfsnoop_event.h 12-19) and `eventTypeGraphEntry`, `eventTypeGraphExit`
(bpfsnoop.go 25-32). -/
def typEntry : BitVec 16 := 4
def typExit : BitVec 16 := 5

/-- `bpfsnoop_fgraph` (bpfsnoop_fgraph.c 138-190), with `try_get_session` (94-135) on `stack` and the map `sess` of sessions of the task; `isReturn`
is `bpfsnoop_session_is_return`. The record put into the ring buffer. -/
def fgraph (cfg : GCfg) (ready : Bool) (pidTgid : BitVec 64) (isReturn : Bool) (fip : Addr → Addr) (sess : Addr → BitVec 64) (maxStack : Nat)
    (stack : List Addr) (p : Probe) : Option (List Byte) :=
  if !ready then none
  else if cfg.mypid = (pidTgid >>> 32).setWidth 32 then none
  else
    match KSess.tryGetSession fip sess cfg.funcIP cfg.maxDepth maxStack stack with
    | none => none
    | some (sid, depth) =>
      let isEntry := match cfg.hook with
        | .entry => true
        | .exit => false
        | .session => !isReturn
      let e : GEvt :=
        { typ := if isEntry then typEntry else typExit, length := BitVec.ofNat 16 (sizeOfGraphEvent + p.args.length), kernNs := p.ns, sessID := sid
          funcIP := cfg.funcIP, cpu := p.cpu, depth := BitVec.ofNat 32 depth }
      some (e.bytes ++ p.args)

/-- `(*GraphEvent)(unsafe.Pointer(&data[0]))` (bpfsnoop.go 106, bpfsnoop_graph.go 15-23). -/
def readGEvt (b : List Byte) : GEvt where
  typ := Att.u16At b 0
  length := Att.u16At b 2
  kernNs := Att.u32At b 4
  sessID := Att.u64At b 8
  funcIP := Att.u64At b 16
  cpu := Att.u32At b 24
  depth := Att.u32At b 28

/-- The text of the line of a graph event without its durations, and of the line of a function event: they depend on whether it is an exit,
on the function, the processor, the depth and the captured bytes (bpfsnoop_graph.go 41-53, bpfsnoop.go 155-171). -/
structure Texts where
  graph : Bool → Addr → BitVec 32 → BitVec 32 → List Byte → Nat
  func : Bool → Addr → BitVec 32 → List Byte → Nat

/-- A graph event as the reader takes it (bpfsnoop.go 99-122). The programs are attached to the functions in `helpers.Graphs`, so it is
known. The bytes shown are modelled by `Att.readGraph`. -/
def readGraphRec (T : Texts) (b : List Byte) : Run.Rec :=
  let e := readGEvt b
  .graph true (e.typ == typExit) e.sessID e.kernNs (T.graph (e.typ == typExit) e.funcIP e.cpu e.depth (b.drop sizeOfGraphEvent))

/-! ### The tracing programs together -/

/-- What is loaded and attached. -/
structure Sys where
  kind : Addr → Kind
  /-- `bpfsnoop_fgraph_tracee_ips` (0: not in the map) -/
  fip : Addr → Addr
  /-- `--fgraph-max-depth` -/
  maxDepth : Nat
  /-- `STACK_DEPTH` -/
  maxStack : Nat
  /-- what `bpf_get_stack` delivers -/
  stack : BitVec 64 → Hit → List Addr
  /-- the old contents of the scratch buffer of `add_session` -/
  stale : Nat → BitVec 64
  mypid : BitVec 32
  /-- `fsession` programs are used (`hasFsession`) -/
  session : Bool
  texts : Texts

/-- The record of a function event as the reader takes it (bpfsnoop.go 128-150): a root is traced at entry and exit with the flag of graphs
(bpf_tracing_func.go 195-220, bpf_tracing_prog.go 196-220). -/
def funcRec (S : Sys) (c : Call) (exit : Bool) (sid : BitVec 64) : Run.Rec :=
  let p := if exit then c.leave else c.enter
  .func { typ := if exit then 2 else 1, kernNs := p.ns, sessID := sid, isTp := false, isGraph := true, insnMode := false, bothMode := true
          session := S.session, tag := S.texts.func exit c.ip p.cpu p.args }

/-- The configuration of the program at a function of the graph (`traceGraph`, bpf_tracing_graph.go 69-89; 234-267). -/
def gcfg (S : Sys) (c : Call) (exit : Bool) : GCfg :=
  { funcIP := c.ip, maxDepth := S.maxDepth, hook := if S.session then .session else if exit then .exit else .entry, mypid := S.mypid }

/-- The programs run at the beginning or the end of a call, once `ready` is set: the maps afterwards and the record as it is read. `emit_bpfsnoop_event` (bpfsnoop.c 58-137),
`bpfsnoop_fgraph` (bpfsnoop_fgraph.c 138-190). With `fsession` each call has a cookie of its own that is 0 at first: task and number of calls around
it name the cookies of the open calls, cleared at the entry. That the traced process is not the one asked for (bpfsnoop.c 97-98) is part of `pass`. -/
def kstep (S : Sys) (st : Att.SSt) (p : BitVec 64) (h : Hit) : Att.SSt × Option Run.Rec :=
  if S.mypid = (p >>> 32).setWidth 32 then (st, none)
  else
    match S.kind h.c.ip with
    | .other => (st, none)
    | .node =>
      (st, (fgraph (gcfg S h.c h.exit) true p h.exit S.fip (fun f => KSess.getSession st.1 ⟨p, f⟩) S.maxStack (S.stack p h)
        (if h.exit then h.c.leave else h.c.enter)).map (readGraphRec S.texts))
    | .root =>
      let ck := p.toNat + 2 ^ 64 * h.around.length
      let r := if h.exit then Att.sstep S.session st (.exit ck ⟨p, h.c.ip⟩)
        else Att.sstep S.session (st.1, fun c => if c = ck then 0 else st.2 c) (.enter ck ⟨p, h.c.ip⟩ h.c.sid h.c.pass S.stale false)
      (r.1, match r.2 with
        | some (.entry _ sid) => some (funcRec S h.c false sid)
        | some (.exit _ sid) => some (funcRec S h.c true sid)
        | _ => none)

/-- The records in the ring buffer. -/
def records (S : Sys) (st : Att.SSt) : List (BitVec 64 × Hit) → List Run.Rec
  | [] => []
  | (p, h) :: hs =>
    let r := kstep S st p h
    r.2.toList ++ records S r.1 hs

/-- No session at all. -/
def noSessions : Att.SSt := (KSess.empty, fun _ => 0)

end Bpfsnoop.Cg
