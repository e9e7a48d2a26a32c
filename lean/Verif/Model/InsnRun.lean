import Verif.Model.GraphRun
import Verif.Model.Disasm
import Verif.Model.OutText
import Verif.Model.Line
/-
Model of instruction tracing (`(i)`) from the instructions the tasks execute to what is printed: which instructions get a probe
(`internal/bpfsnoop/func_insn.go`, `bpf_tracing_insn.go`), the program of the probes (`bpf/bpfsnoop_insn.c`), the session handling of the program
attached to the functions (`bpf/bpfsnoop.c`, through `Att.sstep`), the reading of the records (`bpfsnoop.go`) and the text of an instruction
(`dump.go`). The loop that prints is `Run.steps` (Model/Run).

Simplifications as in Model/GraphRun: a run of a BPF program is one step; the ring buffer loses nothing and delivers the records in the
order of the runs; the map of sessions is never full; the filters are a verdict given with the call, the generated session id is
given with the call too. The disassembler is a parameter.
-/
namespace Bpfsnoop.Ir
open Cg (Addr Byte Probe Call)

/-- The execution of an instruction: its address, the clock and the processor. -/
structure Insn where
  ip : Addr
  ns : BitVec 32
  cpu : BitVec 32
deriving DecidableEq, Repr

/-- What a function does: it executes instructions and makes calls. -/
inductive Body
  | nil
  | insn (i : Insn) (rest : Body)
  | call (c : Call) (inner rest : Body)
deriving DecidableEq, Repr

/-- A call that has begun, with what is done during it and what is done after it. -/
structure Frame where
  c : Call
  inner : Body
  rest : Body
deriving DecidableEq, Repr

/-- A task: the calls that have begun, innermost first, and what it still does before the innermost one ends. -/
structure Task where
  stack : List Frame
  cur : Body
deriving DecidableEq, Repr

/-- What can happen. -/
inductive Ev
  | enter (c : Call)
  | exit (c : Call) (inner : Body)
  | insn (i : Insn)
deriving DecidableEq, Repr

/-- What happens, and the calls around it, innermost first. -/
structure Hit where
  ev : Ev
  around : List Call
deriving DecidableEq, Repr

/-- What a task does next; `none`: it has done everything. -/
def next (t : Task) : Option (Hit × Task) :=
  match t.cur, t.stack with
  | .insn i rest, fs => some (⟨.insn i, fs.map (·.c)⟩, ⟨fs, rest⟩)
  | .call c inner rest, fs => some (⟨.enter c, fs.map (·.c)⟩, ⟨⟨c, inner, rest⟩ :: fs, inner⟩)
  | .nil, f :: fs => some (⟨.exit f.c f.inner, fs.map (·.c)⟩, ⟨fs, f.rest⟩)
  | .nil, [] => none

/-- The tasks by `pid_tgid`. -/
abbrev World := BitVec 64 → Task

/-- One task goes on. -/
def World.set (w : World) (p : BitVec 64) (t : Task) : World := fun q => if q = p then t else w q

/-- What happens when the tasks are scheduled like this: at each turn a task does one thing, if it has anything to do. -/
def hits (w : World) : List (BitVec 64) → List (BitVec 64 × Hit)
  | [] => []
  | p :: ps =>
    match next (w p) with
    | none => hits w ps
    | some (h, t) => (p, h) :: hits (w.set p t) ps

/-! ### The instructions that get a probe -/

/-- `FuncInsns` (func_insn.go 22), a Go map by address. -/
abbrev Table := List (Nat × Dis.FInsn)

/-- Outcome of `NewFuncInsns`. -/
inductive NOut
  | ok (t : Table)
  | error
  | panic
deriving DecidableEq, Repr

/-- The buffer `parseFuncInsns` leaves (func_insn.go 24-34, bpf_disasm.go 12-18). -/
def bufAfter (m : KRead.Mem) (t : Kallsyms.Tables) (buff : List Byte) (kaddr : Nat) : List Byte :=
  match Dis.guessBytes t kaddr 0 with
  | none => buff
  | some n => (KRead.readKernel m buff (BitVec.ofNat 64 kaddr) (BitVec.ofNat 32 n)).2

/-- The loop of `NewFuncInsns` (func_insn.go 79-88) over the functions in the order in which the map is iterated: address and whether
their instructions are to be traced (those that are not are left out at 61-66). -/
def newFuncInsns (D : Dis.Decoder) (m : KRead.Mem) (t : Kallsyms.Tables) (limit : Nat) :
    List (Nat × Bool) → List Byte → Table → NOut
  | [], _, tab => .ok tab
  | (_, false) :: fs, buff, tab => newFuncInsns D m t limit fs buff tab
  | (a, true) :: fs, buff, tab =>
    match Dis.parseFuncInsns D m t buff limit a with
    | .panic => .panic
    | .error => .error
    | .ok l => newFuncInsns D m t limit fs (bufAfter m t buff a) (l.foldl (fun tab i => Kallsyms.put tab i.ip i) tab)

/-! ### The program of the probes -/

/-- `struct bpfsnoop_insn_event` (bpfsnoop_insn.c 16-23), `InsnEvent` (bpfsnoop_insn.go 14-21). -/
structure IEvt where
  typ : BitVec 16
  length : BitVec 16
  kernNs : BitVec 32
  sessID : BitVec 64
  insnIP : BitVec 64
  cpu : BitVec 32
deriving DecidableEq, Repr

/-- `sizeof(*evt)` (bpfsnoop_insn.c 47): four bytes of padding at the end. -/
def sizeOfInsnEvent : Nat := 32

/-- The event in memory (bpfsnoop_insn.c 16-23) before its padding. -/
def IEvt.bytes (e : IEvt) : List Byte :=
  Arg.le 2 (e.typ.setWidth 64) ++ Arg.le 2 (e.length.setWidth 64) ++ Att.le32 e.kernNs ++ Arg.le 8 e.sessID ++ Arg.le 8 e.insnIP ++
    Att.le32 e.cpu

/-- `BPFSNOOP_EVENT_TYPE_INSN` (bpfsnoop_event.h 12-19), `eventTypeInsn` (bpfsnoop.go 25-32). -/
def typInsn : BitVec 16 := 3

/-- `bpfsnoop_insn` (bpfsnoop_insn.c 35-61) with `try_get_session` (25-32): the record put into the ring buffer; `pad` is what the padding holds. -/
def insnProg (insnIP funcIP : Addr) (ready : Bool) (sess : KSess.Map) (pidTgid : BitVec 64) (i : Insn) (pad : List Byte) : Option (List Byte) :=
  if !ready then none
  else
    let sid := KSess.getSession sess ⟨pidTgid, funcIP⟩
    if sid = 0 then none
    else
      let e : IEvt := { typ := typInsn, length := BitVec.ofNat 16 sizeOfInsnEvent, kernNs := i.ns, sessID := sid, insnIP := insnIP, cpu := i.cpu }
      some (e.bytes ++ pad)

/-- `(*InsnEvent)(unsafe.Pointer(&data[0]))` (bpfsnoop.go 100). -/
def readIEvt (b : List Byte) : IEvt where
  typ := Att.u16At b 0
  length := Att.u16At b 2
  kernNs := Att.u32At b 4
  sessID := Att.u64At b 8
  insnIP := Att.u64At b 16
  cpu := Att.u32At b 24

/-- The text of the line of an instruction without its duration depends on the instruction and the processor (bpfsnoop_insn.go 34-42); that of the
line of a call on whether it is the exit, on the function, the processor and the captured bytes (bpfsnoop.go 155-171). -/
structure Texts where
  insn : Dis.FInsn → BitVec 32 → Nat
  func : Bool → Addr → BitVec 32 → List Byte → Nat

/-- An instruction event as the reader takes it (bpfsnoop.go 99-104, bpfsnoop_insn.go 24-27): the instruction is looked up by its address. The record
is of another kind if its type is not that of instructions (bpfsnoop.go 99), which `Cg.readGraphRec` and `Att` model. -/
def readInsnRec (T : Texts) (tab : Table) (b : List Byte) : Option Run.Rec :=
  let e := readIEvt b
  if e.typ = typInsn then
    some (match Kallsyms.lookup tab e.insnIP.toNat with
      | some fi => .insn true e.sessID e.kernNs (T.insn fi e.cpu)
      | none => .insn false e.sessID e.kernNs 0)
  else none

/-! ### The programs together -/

/-- What is loaded and attached. -/
structure Sys where
  /-- functions traced at entry and exit -/
  traced : Addr → Bool
  /-- those traced with `(i)` -/
  insnMode : Addr → Bool
  /-- the instructions to trace -/
  insns : Table
  /-- where the kernel places the probe of an instruction, which is asked for by the name of the function and the offset (`traceInsn`,
  bpf_tracing_insn.go 51-61); `none`: it refuses with one of the errors that are ignored -/
  place : Dis.FInsn → Option Addr
  /-- the old contents of the scratch buffer of `add_session` -/
  stale : Nat → BitVec 64
  /-- what the padding of the records holds -/
  pad : List Byte
  mypid : BitVec 32
  /-- `fsession` programs are used (`hasFsession`) -/
  session : Bool
  texts : Texts

/-- The record of a function event as the reader takes it (bpfsnoop.go 128-150): entry and exit are traced (bpf_tracing_func.go 195-220). -/
def funcRec (S : Sys) (c : Call) (exit : Bool) (sid : BitVec 64) : Run.Rec :=
  let p := if exit then c.leave else c.enter
  .func { typ := if exit then 2 else 1, kernNs := p.ns, sessID := sid, isTp := false, isGraph := false, insnMode := S.insnMode c.ip, bothMode := true
          session := S.session, tag := S.texts.func exit c.ip p.cpu p.args }

/-- The programs run when something happens, once `ready` is set: the maps afterwards and the records as they are read. `emit_bpfsnoop_event`
(bpfsnoop.c 58-137); each probe placed at the instruction runs `bpfsnoop_insn` with its own constants (`traceInsn`, bpf_tracing_insn.go 31-36). Cookies of
`fsession` as in `Cg.kstep`. -/
def kstep (S : Sys) (st : Att.SSt) (p : BitVec 64) (h : Hit) : Att.SSt × List Run.Rec :=
  let ck := p.toNat + 2 ^ 64 * h.around.length
  match h.ev with
  | .insn i =>
    (st, S.insns.filterMap fun x =>
      if S.place x.2 = some i.ip then
        (insnProg (BitVec.ofNat 64 x.2.ip) (BitVec.ofNat 64 x.2.func) true st.1 p i S.pad).bind (readInsnRec S.texts S.insns)
      else none)
  | .enter c =>
    if S.mypid = (p >>> 32).setWidth 32 ∨ S.traced c.ip = false then (st, [])
    else
      let r := Att.sstep S.session (st.1, fun x => if x = ck then 0 else st.2 x) (.enter ck ⟨p, c.ip⟩ c.sid c.pass S.stale false)
      (r.1, match r.2 with
        | some (.entry _ sid) => [funcRec S c false sid]
        | _ => [])
  | .exit c _ =>
    if S.mypid = (p >>> 32).setWidth 32 ∨ S.traced c.ip = false then (st, [])
    else
      let r := Att.sstep S.session st (.exit ck ⟨p, c.ip⟩)
      (r.1, match r.2 with
        | some (.exit _ sid) => [funcRec S c true sid]
        | _ => [])

/-- The records in the ring buffer. -/
def records (S : Sys) (st : Att.SSt) : List (BitVec 64 × Hit) → List Run.Rec
  | [] => []
  | (p, h) :: hs =>
    let r := kstep S st p h
    r.2 ++ records S r.1 hs

/-! ### The text of an instruction -/

/-- The opcode bytes (dump.go 19-23). -/
def opcode (b : List Byte) : Rp.Text := Ot.join (Ot.t " ") (b.map Ot.hex2)

/-- The offset (dump.go 24). -/
def offset (off : Nat) : Rp.Text := Ot.t "<+" ++ Rp.dec off ++ Ot.t "/" ++ Rp.hex off ++ Ot.t ">:"

/-- `printInsnInfo` (dump.go 18-33) without colours. -/
def insnInfo (pc off : Nat) (bytes : List Byte) (mnemonic opstr : Rp.Text) : Rp.Text :=
  Rp.hex pc ++ Ot.t " " ++ Ln.pad 14 (offset off) (offset off).length ++ Ot.t " " ++ Ln.pad 19 (opcode bytes) (opcode bytes).length ++ Ot.t "\t" ++
    mnemonic ++ Ot.t "\t" ++ opstr

end Bpfsnoop.Ir
