import Verif.Model.Attach
import Verif.Model.ArgVal
import Verif.Model.Asm
import Verif.Model.Run
import Verif.Model.FnText
import Verif.Model.Pkt
import Verif.Model.InsnRun
import Verif.Model.GraphRun

/-
The way of an event from a traced call to the terminal, put together from the models of its parts: the tracing programs
`emit_bpfsnoop_event` (bpf/bpfsnoop.c 59-137) and, for functions traced with `(m)`, `emit_bpfsnoop_kmulti_event` (bpf/bpfsnoop_kmulti.c 83-156), `output_event` (bpf/bpfsnoop_event_output.h 21-75), and the record handler of `Run`
(internal/bpfsnoop/bpfsnoop.go 94-226) with the texts it prints.

The programs of instructions and of the functions of graphs and their records are those of Model/InsnRun and Model/GraphRun.

Simplifications: the code of the pcap library is a predicate on memory; the ring buffer is not full and keeps the order; a program that the verifier has accepted ends; a run of
a program is one atomic step.
-/
namespace Bpfsnoop.Wh
open Rp (Text W)
open Att (Att Phase Hdr Sections CConfig Rt)

abbrev Byte := BitVec 8

def t (x : String) : Text := x.toList

/-! ### The tracing program -/

/-- Where the fields of packets are (`BPF_CORE_READ` in bpfsnoop_pkt_filter.h 33-67): `sk_buff` (Model/Asm), `xdp_buff`, `xdp_frame`. -/
structure PktLayout where
  skb : Asm.SkbLayout
  xdpData : W
  xdpEnd : W
  frameData : W
  frameLen : W
  frameLenSz : Nat

/-- The packet filter put into `filter_pkt` (filter_pkt.go 40-120): which argument is taken for which kind of packet, and what the two codes of the
pcap library answer for a packet from one address to another. -/
structure PktCheck where
  kind : Asm.PKind
  index : Nat
  l2 : Cc.Mem → W → W → Bool
  l3 : Cc.Mem → W → W → Bool

/-- What `filter_pkt` is in the program: cleared, which answers yes (filter_pkt.go 127-135); the C source; a filter. -/
inductive PktCode
  | none
  | dflt
  | pcap (f : PktCheck)

/-- A traced function: its address (`FUNC_IP`, bpfsnoop.c 30; `bpf_get_func_ip`, bpfsnoop_kmulti.c 115), the attached programs, what
`getFuncParams` found (bpf_tracing_info.go 29-70), the code of `filter_arg` if there is a filter for it (without one `filter_arg` is cleared,
C50; bpf_tracing_func_multi.go 189-194), what `filter_pkt` is, whether the programs are those of `(m)`, which the functions of a group share. -/
structure Target where
  ip : W
  atts : List Att
  params : List Arg.PFlag
  ret : Arg.PFlag
  filter : Option Cc.Prog
  multi : Bool := false
  pkt : PktCode := .none

/-- The constants of the programs: `ready`, `PID`, the option `--filter-pid`, `CPU_MASK` (bpfsnoop.c 28-32, bpfsnoop_kmulti.c 25-29,
bpfsnoop_cfg.h); the machine they are compiled for (bpfsnoop_kmulti.c 34-61); `SKIP_TUNNEL`, which is not set
for `(m)` (bpf_tracing.go 80, bpf_tracing_func_multi.go 172-182); the layout of packets in the kernel. For the functions of graphs (bpfsnoop_fgraph.c 20-76): the map
`bpfsnoop_fgraph_tracee_ips` (0: not in the map), the depth, `STACK_DEPTH`, and whether they are traced with session programs. -/
structure Globals where
  ready : Bool
  self : BitVec 32
  filterPid : BitVec 32
  cpuMask : BitVec 32
  arm64 : Bool := false
  skipTunnel : Bool := false
  layout : PktLayout := ⟨⟨0, 0, 0, 0, 0⟩, 0, 0, 0, 0, 4⟩
  fip : W → W := fun _ => 0
  maxDepth : Nat := 0
  maxStack : Nat := 127
  fsession : Bool := false

/-- One moment at which a traced function is called or returns, as the program sees it: the words at `ctx`; memory, with the array `args`
at its address, filled from `ctx` (bpfsnoop.c 93; bpfsnoop_kmulti.c 110); the address at which the arguments go in the reserved record; registers and old contents;
CPU, thread (`bpf_get_current_pid_tgid`), time, the generated session id, and the packet and data of `--output-arg` as written; which call of
the function it is; what `add_session` finds in its scratch buffer and whether the map is full (Model/KSess). With `(m)` instead of the words the registers of the
arguments and `PT_REGS_RC`. -/
structure Occ where
  phase : Phase
  ctx : List W
  mem : Cc.Mem
  argsAt : W
  bufAt : W
  st : Cc.St
  out : Arg.Buf
  cpu : BitVec 32
  pidTgid : W
  comm : List Byte
  ns : BitVec 32
  sid : W
  stackID : W
  nrBytes : W
  pkt : List Byte
  data : List Byte
  stale : List Byte
  call : Nat
  staleIds : Nat → W
  full : Bool
  regs : Nat → W := fun _ => 0
  rc : W := 0

/-- `pid` (bpfsnoop.c 99-100). -/
def Occ.pid (o : Occ) : BitVec 32 := (o.pidTgid >>> 32).truncate 32

/-- `filter_arg(args)` (bpfsnoop.c 37; bpfsnoop_kmulti.c 64-68; the code injected by filter_arg.go 126-146). -/
def filterArg (τ : Target) (o : Occ) : Bool :=
  match τ.filter with
  | none => true
  | some p =>
    match p.run o.mem p.code.length 0 (o.st.set 1 o.argsAt) with
    | some x => x != 0
    | none => false

/-- The calls of `filter_pcap_l2` and `filter_pcap_l3` in `filter_skb`, `filter_xdp_buff` and `filter_xdp_frame` (bpfsnoop_pkt_filter.h 33-67). -/
def pktRun (L : PktLayout) (skip : Bool) (k : Asm.PKind) (l2 l3 : Cc.Mem → W → W → Bool) (m : Cc.Mem) (a : W) : Bool :=
  match k with
  | .skb =>
    let head := Asm.field m 8 (a + L.skb.head)
    let macLen := Asm.field m 2 (a + L.skb.macLen)
    let data := head + (if macLen ≠ 0 then Asm.field m 2 (a + L.skb.macHdr) else Asm.field m 2 (a + L.skb.netHdr))
    let dataEnd := head + Asm.field m 4 (a + L.skb.tail)
    if macLen ≠ 0 then l2 m (Pkt.skipTunnel skip m data false) dataEnd else l3 m (Pkt.skipTunnel skip m data true) dataEnd
  | .xdp => l2 m (Pkt.skipTunnel skip m (Asm.field m 8 (a + L.xdpData)) false) (Asm.field m 8 (a + L.xdpEnd))
  | .xdpFrame =>
    let data := Asm.field m 8 (a + L.frameData)
    l2 m (Pkt.skipTunnel skip m data false) (data + Asm.field m L.frameLenSz (a + L.frameLen))

/-- The C body of `filter_pcap_l2` and `filter_pcap_l3` (bpfsnoop_pkt_filter.h 20-30). -/
def pcapStub (_ : Cc.Mem) (data dataEnd : W) : Bool := data != dataEnd

/-- The switch of the C source of `filter_pkt` (bpfsnoop_pkt_filter.h 69-83), whose second argument is the session id as `int`. -/
def stubKind (sid : W) : Asm.PKind :=
  if sid.truncate 32 = (1 : BitVec 32) then .xdp else if sid.truncate 32 = (2 : BitVec 32) then .xdpFrame else .skb

/-- `args[i]` (bpfsnoop_pkt_filter.h 75-82; `genAccessArg`, filter_pkt.go 73, 105). -/
def argAt (o : Occ) (i : Nat) : W := Cc.load o.mem 8 (o.argsAt + BitVec.ofNat 64 (i * 8))

/-- `filter_pkt(args, session_id)` (bpfsnoop.c 37; bpfsnoop_kmulti.c 67). -/
def filterPkt (g : Globals) (τ : Target) (o : Occ) : Bool :=
  match τ.pkt with
  | .none => true
  | .dflt => pktRun g.layout (g.skipTunnel && !τ.multi) (stubKind o.sid) pcapStub pcapStub o.mem (argAt o 0)
  | .pcap f => pktRun g.layout (g.skipTunnel && !τ.multi) f.kind f.l2 f.l3 o.mem (argAt o f.index)

/-- `filter` and `filter_kmulti` (bpfsnoop.c 34-38; bpfsnoop_kmulti.c 64-68). -/
def filters (g : Globals) (τ : Target) (o : Occ) : Bool := filterArg τ o && filterPkt g τ o

/-- `retval` (bpfsnoop.c 67, 94-96; bpfsnoop_kmulti.c 88, 111-113). -/
def retval (τ : Target) (a : Att) (mode : KSess.Mode) (o : Occ) : W :=
  if τ.multi then (if decide (mode = .exit) || decide (mode = .sessionExit) then o.rc else 0)
  else if a.cfg.withRet && (decide (mode = .exit) || decide (mode = .sessionExit)) then o.ctx.getD a.cfg.fnArgsNr 0 else 0

/-- The code of `output_fn_args` (func_arg.go 19-148; with `(m)`, for as many arguments as there are registers, 150-186). -/
def outputCode (τ : Target) (a : Att) : List Arg.OI :=
  if τ.multi then (Arg.genKmulti a.cfg.fnArgsNr a.cfg.withRet).1 else (Arg.injectOutputFuncArgs τ.params τ.ret a.cfg.withRet).1

/-- `output_event` as called in bpfsnoop.c 134-136 and bpfsnoop_kmulti.c 154-156 (bpfsnoop_event_output.h 21-75): the record with this
session id. -/
def record (g : Globals) (τ : Target) (a : Att) (o : Occ) (mode : KSess.Mode) (sid : W) : Option (List Byte) :=
  match Arg.execO o.mem (outputCode τ a) ⟨((o.st.set 1 o.argsAt).set 2 o.bufAt).set 3 (retval τ a mode o), o.out⟩ with
  | .ret s => some (Att.outputEvent (Att.cConfig g.filterPid a.cfg) τ.multi mode
      { kernNs := o.ns, sessID := sid, funcIP := τ.ip, cpu := o.cpu &&& g.cpuMask, pid := o.pid, comm := o.comm,
        stackID := o.stackID, nrBytes := o.nrBytes, args := Arg.reads s.out a.cfg.fnArgsBufSz o.bufAt,
        pkt := o.pkt, data := o.data, stale := o.stale })
  | _ => none

/-- The session id of an accepted event. -/
def sidOf : KSess.Out → W
  | .entry _ sid => sid
  | .exit _ sid => sid
  | .insn _ sid => sid

/-- `emit_bpfsnoop_event` (bpfsnoop.c 59-137), `emit_bpfsnoop_kmulti_event` (bpfsnoop_kmulti.c 83-156) of one attached program: the sessions afterwards and the record sent, if any. -/
def emit (g : Globals) (τ : Target) (a : Att) (o : Occ) (s : Att.SSt) : Att.SSt × Option (List Byte) :=
  match a.hook.fires o.phase with
  | none => (s, none)
  | some r =>
    let cc := Att.cConfig g.filterPid a.cfg
    let mode := Att.mode cc r
    if !(g.ready && Asm.pidOk g.self g.filterPid o.pid) then (s, none)
    else match mode with
    | .sessionEntry =>
      let r := Att.sstep (cc.flag .is_session) s (.enter o.call ⟨o.pidTgid, τ.ip⟩ o.sid (filters g τ o) o.staleIds o.full)
      (r.1, r.2.bind fun e => record g τ a o mode (sidOf e))
    | .sessionExit =>
      let r := Att.sstep (cc.flag .is_session) s (.exit o.call ⟨o.pidTgid, τ.ip⟩)
      (r.1, r.2.bind fun e => record g τ a o mode (sidOf e))
    | .entry => (s, if filters g τ o then record g τ a o mode o.sid else none)
    | .exit => (s, if filters g τ o then record g τ a o mode o.sid else none)

/-- All attached programs of the function, one after the other. -/
def emits (g : Globals) (τ : Target) (o : Occ) : List Att → Att.SSt → Att.SSt × List (List Byte)
  | [], s => (s, [])
  | a :: as, s =>
    let r := emit g τ a o s
    let q := emits g τ o as r.1
    (q.1, r.2.toList ++ q.2)

/-- The program of a function of a graph (`bpfsnoop_fgraph`, bpfsnoop_fgraph.c 138-190) at its call or its return: loaded twice, or with `fsession` once
(`traceGraph`, bpf_tracing_graph.go 54-93, 228-262). -/
def gemit (g : Globals) (τ : Target) (o : Occ) (stack : List W) (s : Att.SSt) : Option (List Byte) :=
  let exit := decide (o.phase = .ret)
  let code := Arg.injectOutputFuncArgs τ.params τ.ret (exit || g.fsession)
  match Arg.execO o.mem code.1 ⟨((o.st.set 1 o.argsAt).set 2 o.bufAt).set 3 (if exit then o.ctx.getD τ.params.length 0 else 0), o.out⟩ with
  | .ret x => Cg.fgraph ⟨τ.ip, g.maxDepth, if g.fsession then .session else if exit then .exit else .entry, g.self⟩ g.ready o.pidTgid exit g.fip
      (fun f => KSess.getSession s.1 ⟨o.pidTgid, f⟩) g.maxStack stack ⟨o.ns, o.cpu, Arg.reads x.out code.2 o.bufAt⟩
  | _ => none

/-! ### The reader -/

/-- What the reader knows of a function of a graph (`FuncGraph`, func_graph.go 103-113): what `getFuncInfo` takes from it (Model/Line), the other fields of what it
finds, and `ArgsEnSz`, `ArgsExSz`. -/
structure Graph where
  fn : Ln.GFn
  info : Ft.Info
  argsSz : Nat × Nat

/-- What the reader knows: the tables of `getFuncInfo` (names in Model/Line; `info` are the other fields of the entry found there), the
symbols, `maxArgsKmulti`, and the texts of the parts behind the line (C39, C75, C28, C27): packet, `--output-arg` (`none`: error), branches,
stack; and of the instructions in `FuncInsns` by address (func_insn.go 13-22; C84), the name of the function and the description; `helpers.Graphs`
by address; and what lies behind a record in the memory of the ring buffer, as far as the slice of its bytes can be extended. -/
structure Reader where
  tables : Ln.Tables
  info : W → Bool → Ft.Info
  env : Rp.Env
  maxArgs : Nat
  pktText : List Byte → Text
  attrsText : W → List Byte → Option Text
  lbrText : Hdr → Text
  stackText : Hdr → Text
  insns : W → Option (Text × Text) := fun _ => none
  graphs : W → Option Graph := fun _ => none
  behind : List Byte → List Byte := fun _ => []

/-- `event.Comm` (bpfsnoop.go 41): an array of 16 bytes. -/
def commVec (l : List Byte) : Vector UInt8 16 := Vector.ofFn fun i => UInt8.ofBitVec (l.getD i 0)

/-- The line of the event (bpfsnoop.go 128-176): function, arguments, CPU, process, duration, time. -/
def line (R : Reader) (s : Sections) (dur : Option (BitVec 32)) (c : Ln.Clock) : Option Text :=
  let isTp := Att.haveFlag s.hdr.flags (Att.mask Att.idxIsTp)
  let kmulti := Att.haveFlag s.hdr.flags (Att.mask Att.idxKmultiMode)
  (Ft.args R.env R.maxArgs (R.info s.hdr.funcIP kmulti) s.exit kmulti s.args).map fun x =>
    Ln.event s.exit isTp (Ln.name R.tables s.hdr.funcIP none kmulti) x ⟨s.hdr.cpu, s.hdr.pid, commVec s.hdr.comm, dur, c⟩

/-- The packet (bpfsnoop.go 178-181). -/
def pktPart (R : Reader) : Option (List Byte) → Text
  | none => []
  | some p => R.pktText p

/-- `--output-arg` (bpfsnoop.go 183-191). -/
def dataPart (R : Reader) (ip : W) : Option (List Byte) → Option Text
  | none => some []
  | some d => R.attrsText ip d

/-- The parts behind the line (bpfsnoop.go 178-205). -/
def rest (R : Reader) (s : Sections) : Option Text :=
  (dataPart R s.hdr.funcIP s.data).map fun x =>
    pktPart R s.pkt ++ x ++
    (if Att.haveFlag s.hdr.flags (Att.mask Att.idxOutputLbr) && decide (0 < s.hdr.lbrRetval.toInt) then R.lbrText s.hdr else []) ++
    (if Att.haveFlag s.hdr.flags (Att.mask Att.idxOutputStack) && decide (0 ≤ s.hdr.stackID.toInt) then R.stackText s.hdr else [])

/-- The flags the loop looks at (bpfsnoop.go 132-140); `tag` is the number of the record. -/
def funcEv (h : Hdr) (tag : Nat) : Run.FuncEv :=
  { typ := h.typ.toNat, kernNs := h.kernNs, sessID := h.sessID
    isTp := Att.haveFlag h.flags (Att.mask Att.idxIsTp)
    isGraph := Att.haveFlag h.flags (Att.mask Att.idxGraphMode)
    insnMode := Att.haveFlag h.flags (Att.mask Att.idxInsnMode)
    bothMode := Att.haveFlag h.flags (Att.mask Att.idxBothEntryExit)
    session := Att.haveFlag h.flags (Att.mask Att.idxIsSession)
    tag := tag }

/-- The kind of a record (bpfsnoop.go 96-126): of an instruction (bpfsnoop.go 99-104, bpfsnoop_insn.go 24-27), of a graph (types 4 and 5, bpfsnoop.go 25-32, 105-122), or of a
function. -/
def recOf (R : Reader) (tag : Nat) (b : List Byte) : Run.Rec :=
  let typ := (Att.u16At b 0).toNat
  if typ = 3 then
    let e := Ir.readIEvt b
    .insn (R.insns e.insnIP).isSome e.sessID e.kernNs tag
  else if typ = 4 ∨ typ = 5 then
    let e := Cg.readGEvt b
    .graph (R.graphs e.funcIP).isSome (decide (typ = 5)) e.sessID e.kernNs tag
  else if b.length < Att.sizeOfEvent then .short
  else .func (funcEv (Att.readHdr b) tag)

/-- The text of one event of a function (bpfsnoop.go 158-205). -/
def text (R : Reader) (b : List Byte) (dur : Option (BitVec 32)) (c : Ln.Clock) : Option Text :=
  match Att.readEvent b with
  | none => none
  | some s =>
    match line R s dur c, rest R s with
    | some x, some y => some (x ++ y)
    | _, _ => none

/-- The line of an instruction (bpfsnoop_insn.go 34-42). -/
def insnText (R : Reader) (b : List Byte) (d : BitVec 32) : Option Text :=
  let e := Ir.readIEvt b
  (R.insns e.insnIP).map fun x => Ln.insn x.1 e.cpu d x.2 ++ t "\n"

/-- The line of a function of a graph (bpfsnoop.go 105-122, bpfsnoop_func.go 86-122, bpfsnoop_graph.go 29-54): `data[32 : 32+Length]`, where `Length` counts the header too, and
of it the arguments. -/
def graphText (R : Reader) (b : List Byte) (cost total : BitVec 32) : Option Text :=
  let e := Cg.readGEvt b
  let exit := decide (e.typ = Cg.typExit)
  match R.graphs e.funcIP, Att.slice e.length.toNat ((b ++ R.behind b).drop Cg.sizeOfGraphEvent) with
  | some G, some (d, _) =>
    match Att.readGraph G.argsSz exit d with
    | none => none
    | some a => (Ft.args R.env R.maxArgs G.info exit false a).map fun x =>
      Ln.graph e.depth.toNat (Ln.func exit false (Ln.name R.tables e.funcIP (some G.fn) false) x) e.cpu cost total ++ t "\n"
  | _, _ => none

/-- The text of a part of a block. -/
def itemText (R : Reader) (evs : List (List Byte × Ln.Clock)) : Run.Item → Option Text
  | .func tag d =>
    match evs[tag]? with
    | none => none
    | some (b, c) => text R b d c
  | .insn tag d =>
    match evs[tag]? with
    | none => none
    | some (b, _) => insnText R b d
  | .graph tag cost d =>
    match evs[tag]? with
    | none => none
    | some (b, _) => graphText R b cost d

/-- The parts of a block one after the other, and an empty line (bpfsnoop.go 207-219). -/
def blockText (R : Reader) (evs : List (List Byte × Ln.Clock)) : List Run.Item → Option Text
  | [] => some (t "\n")
  | i :: is =>
    match itemText R evs i, blockText R evs is with
    | some x, some y => some (x ++ y)
    | _, _ => none

/-- Blocks one after the other. -/
def blocks (R : Reader) (evs : List (List Byte × Ln.Clock)) : List (List Run.Item) → Option (List Text)
  | [] => some []
  | b :: bs =>
    match blockText R evs b, blocks R evs bs with
    | some x, some y => some (x :: y)
    | _, _ => none

/-- The records, numbered from `k` on. -/
def recs (R : Reader) : Nat → List (List Byte × Ln.Clock) → List Run.Rec
  | _, [] => []
  | k, (b, _) :: r => recOf R k b :: recs R (k + 1) r

/-- The text of the record can be made (bpfsnoop.go 105-205), whatever the durations in it. -/
def shows (R : Reader) (x : List Byte × Ln.Clock) : Bool :=
  match recOf R 0 x.1 with
  | .func _ => (text R x.1 none x.2).isSome
  | .graph known _ _ _ _ => !known || (graphText R x.1 0 0).isSome
  | _ => true

/-- What `Run` (bpfsnoop.go 66-247) prints, block by block, for the records with the times at which they are read; `none`: it ends with an
error or a panic. Simplification: also if a record cannot be shown that is not read any more or not shown. -/
def printed (R : Reader) (delta : Int) (limit : BitVec 64)
    (evs : List (List Byte × Ln.Clock)) : Option (List Text) :=
  if !evs.all (shows R) then none else
  match Run.run delta limit (recs R 0 evs) with
  | none => none
  | some (bs, _) => blocks R evs bs

end Bpfsnoop.Wh
