import Verif.Model.Whole
import Verif.Props.FnText
import Verif.Props.Attach
import Verif.Props.ArgVal
import Verif.Props.Run
import Verif.Props.KSess
import Verif.Props.Line
import Verif.Props.InsnRun
import Verif.Props.GraphRun

/-
C83: what is printed is exactly the calls asked for, in order, each with its own arguments.
-/
namespace Bpfsnoop.Wh
open Rp (Text W dec)
open Att (Att Phase Hdr Sections CConfig Rt)
open Ft (Prm Ret)
open Ot (join PType)

/-! ### Specification -/

/-- What the user knows of a traced function: its kind and the options it is traced with, the name it is shown under, its prototype, the
type of the program, the filter expression for it, and the pcap expression for the packet in one of its arguments. -/
structure Src where
  fn : Att.Fn
  name : Text
  prms : List Prm
  ret : Ret
  ptype : PType
  filter : Option (Cc.Opts × Cc.Expr)
  pkt : Option PktCheck := none

/-- What the kernel has: session programs for functions, and for functions traced with `(m)`. -/
structure Feats where
  fsession : Bool
  ksession : Bool

/-- The function is traced with one session program if it is traced at both ends. -/
def Feats.session (F : Feats) (τ : Target) : Bool := if τ.multi then F.ksession else F.fsession

/-- The compiled filter `p` is that of the expression: the hypotheses are those of C01, and each name in the expression stands for the
parameter of that name, one of the first `n`. -/
structure FilterOf (prms : List Prm) (n : Nat) (f : Cc.Opts × Cc.Expr) (p : Cc.Prog) : Prop where
  lo : f.1.lo = 0
  ok : Cc.compileFilter f.1 f.2 = .ok p
  live : Cc.FewLive f.1 f.2
  shape : (Cc.shape f.1 f.2).isSome
  exact_ : Cc.Exact p.code
  names : ∀ x, Sel.Occurs x f.2 → ∀ i ty, Cc.findVar x f.1.vars 0 = some (i, ty) → i < n ∧ (prms[i]?).map Prm.name = some x.toList

/-- The function is traced at its call and at its return, which it also is with `(i)` and `(g)`; a tracepoint has no return. -/
def Src.paired (S : Src) : Bool := (S.fn.insn || S.fn.flag.graph || S.fn.flag.both) && !S.fn.isTp

/-- The packet at `a` begins at `data`, with an Ethernet header if `l2`, and ends at `e`: `sk_buff`, at the MAC header if it has one, else at the network
header; `xdp_buff`; `xdp_frame`. -/
def Packet (L : PktLayout) (m : Cc.Mem) (k : Asm.PKind) (a : W) (l2 : Bool) (data e : W) : Prop :=
  match k with
  | .skb => (l2 = true ↔ Asm.field m 2 (a + L.skb.macLen) ≠ 0) ∧
      data = Asm.field m 8 (a + L.skb.head) + Asm.field m 2 (a + if l2 then L.skb.macHdr else L.skb.netHdr) ∧
      e = Asm.field m 8 (a + L.skb.head) + Asm.field m 4 (a + L.skb.tail)
  | .xdp => l2 = true ∧ data = Asm.field m 8 (a + L.xdpData) ∧ e = Asm.field m 8 (a + L.xdpEnd)
  | .xdpFrame => l2 = true ∧ data = Asm.field m 8 (a + L.frameData) ∧ e = data + Asm.field m L.frameLenSz (a + L.frameLen)

/-- What the C source of the packet filter takes its argument for, by the lower half of the session id. -/
def takenFor (sid : W) : Asm.PKind :=
  match sid.toNat % 2 ^ 32 with
  | 1 => .xdp
  | 2 => .xdpFrame
  | _ => .skb

/-- The packet at `a` passes the pcap expression; with `skip`, of a VXLAN packet the part behind 50 bytes. -/
def Passes (L : PktLayout) (skip : Bool) (m : Cc.Mem) (f : PktCheck) (a : W) : Prop :=
  ∃ l2 data e start, Packet L m f.kind a l2 data e ∧
    start = (if skip = true ∧ (if l2 then Pkt.isVxlan m data else Pkt.isIpVxlan m data) = true then data + 50 else data) ∧
    (if l2 then f.l2 else f.l3) m start e = true

/-- The prototype of `S` is one that the reader shows as it is (C42, C17), and the target has the flags of its parameters. Partial: the types are `Simple`, XDP and
TC programs do not return strings. -/
structure Typed (S : Src) (τ : Target) : Prop where
  params : Arg.getFuncParams (S.prms.map Prm.pty) S.ret.pty = some (τ.params, τ.ret)
  len : S.prms.length ≤ 400
  simple : ∀ p ∈ S.prms, Ft.Simple p.t
  simpleRet : S.ret.void = false → (S.ret.cstr = false ∨ τ.multi = true) → Ft.Simple S.ret.t
  retStr : S.ptype ≠ .other → S.ret.cstr = false

/-- The target `τ` is that of the function `S`, which is traced with `(i)` and `(g)` only without `(m)`; the reader has its prototype and its name. Partial: `Typed`; a
filter for a function traced with `(m)` is not for returns alone (`multi_exit_filter_violated`) and is about arguments in registers; without a packet
filter the C source of it stays in programs of `(m)`. -/
structure Fits (R : Reader) (modeExit : Bool) (S : Src) (τ : Target) : Prop extends Typed S τ where
  insn : S.fn.insn = true ∨ S.fn.flag.graph = true → τ.multi = false ∧ S.fn.isTp = false
  prms : S.fn.prms = τ.params
  ret : S.fn.ret = τ.ret
  info : R.info τ.ip τ.multi = ⟨some ⟨S.prms, S.ret⟩, τ.params, τ.ret, S.ptype⟩
  name : Ln.name R.tables τ.ip none τ.multi = S.name
  filter : (S.filter = none ∧ τ.filter = none) ∨ ∃ f p, S.filter = some f ∧ τ.filter = some p ∧
    FilterOf S.prms (if τ.multi then R.maxArgs else S.prms.length) f p ∧ (τ.multi = true → modeExit = false ∨ S.paired = true)
  pkt : (S.pkt = none ∧ (τ.pkt = .none ∨ τ.pkt = .dflt ∧ τ.multi = true ∧ (modeExit = false ∨ S.paired = true))) ∨
    ∃ f, S.pkt = some f ∧ τ.pkt = .pcap f ∧ f.index < S.prms.length ∧
      (τ.multi = true → f.index < R.maxArgs ∧ (modeExit = false ∨ S.paired = true))
  data : S.fn.data < 2 ^ 32

/-- `τ` has the programs attached for the function `S`, in any order. With `(m)` the options are those of the group. -/
structure Attached (R : Reader) (F : Feats) (modeExit : Bool) (S : Src) (τ : Target) : Prop extends Fits R modeExit S τ where
  att : (τ.multi = false ∧ τ.atts.Perm (Att.traceFuncs F.fsession modeExit S.fn)) ∨
    (τ.multi = false ∧ τ.atts.Perm (Att.traceProgs F.fsession modeExit S.fn) ∧ S.fn.isTp = false ∧ S.fn.insn = false) ∨
    (τ.multi = true ∧ τ.atts.Perm (Att.traceKfuncMulti F.ksession modeExit R.maxArgs S.fn) ∧ S.fn.isTp = false)

/-- What the kernel hands over at a moment of a call with these arguments and this result: the arguments, and at the return the result
behind them; with `(m)`, at the call the arguments in the registers as far as they go, at the return the result in its register; the program
has copied them to its array. -/
structure Hands (g : Globals) (S : Src) (τ : Target) (o : Occ) (args : List W) (res : W) : Prop where
  len : args.length = S.prms.length
  ctx : τ.multi = false → o.ctx = args ++ (if o.phase = .ret then [res] else [])
  stored : τ.multi = false → ∃ junk, Av.Stored o.mem o.argsAt args.length (Av.readCtx args.length o.ctx junk)
  call : τ.multi = true → o.phase = .call → ∀ i v, i < Av.regsNr g.arm64 → args[i]? = some v → o.regs i = v
  rc : τ.multi = true → o.phase = .ret → o.rc = res
  storedRegs : τ.multi = true → Av.Stored o.mem o.argsAt (Av.regsNr g.arm64) (Av.readRegs g.arm64 o.regs)

/-- What the program sees at a moment of a call: that, and the fixed-size fields have their sizes. Partial: with `(m)` and a packet filter no `--skip-tunnel`
(`multi_skip_tunnel_violated`), and without a packet filter what is taken for a packet is not empty (`default_packet_violated`). -/
structure Sees (g : Globals) (S : Src) (τ : Target) (o : Occ) (args : List W) (res : W) : Prop extends Hands g S τ o args res where
  comm : o.comm.length = 16
  pkt : o.pkt.length = 16
  data : o.data.length = if τ.multi = true ∧ S.paired = false ∧ o.phase = .ret then 0 else S.fn.data
  cpu : o.cpu &&& g.cpuMask = o.cpu
  readable : Cc.WordReadable o.mem
  noSkip : τ.multi = true → S.pkt ≠ none → g.skipTunnel = false
  dflt : τ.pkt = .dflt → o.phase = .call → ∃ l2 data e, Packet g.layout o.mem (takenFor o.sid) (o.regs 0) l2 data e ∧ data ≠ e
  noNull : ∀ f x, S.filter = some f → Cc.meaning f.1 ⟨fun i => args.getD i 0, o.mem⟩ f.2 ≠ some (x, true)

/-- The user asks for this moment of this call: tracing is on; the process is not bpfsnoop, and is the one of `--filter-pid` if given; it is the
return if mode "exit" is asked for and the function is not traced at both ends, which tracepoints do not have, else the call; the filter
expression is true of the arguments; and the packet passes the pcap expression. -/
def Wanted (g : Globals) (modeExit : Bool) (S : Src) (o : Occ) (args : List W) : Prop :=
  g.ready = true ∧ o.pid ≠ g.self ∧ (g.filterPid = 0 ∨ o.pid = g.filterPid) ∧
  (o.phase = .ret ↔ modeExit = true ∧ S.fn.isTp = false ∧ S.paired = false) ∧
  (∀ f, S.filter = some f → ∃ x, Cc.meaning f.1 ⟨fun i => args.getD i 0, o.mem⟩ f.2 = some (x, false) ∧ x ≠ 0) ∧
  ∀ f, S.pkt = some f → Passes g.layout g.skipTunnel o.mem f (args.getD f.index 0)

/-- What follows the line: packet, `--output-arg`, branches, stack, each if asked for; with `(m)`, the first two at the call only. Of a function
traced at both ends the branches are those of the call, and the stack is that of the return (with session programs or `(m)`, of both). -/
def Extra (R : Reader) (F : Feats) (S : Src) (τ : Target) (o : Occ) (x : Text) : Prop :=
  ∃ (h : Hdr) (a : Text) (lbr stack : Bool),
    (lbr = true ↔ S.fn.flag.lbr = true ∧ (S.paired = true → o.phase = .call)) ∧
    (stack = true ↔ S.fn.flag.stack = true ∧ (S.paired = true → o.phase = .call → F.session τ = true ∨ τ.multi = true)) ∧
    h.funcIP = τ.ip ∧ h.cpu = o.cpu ∧ h.pid = o.pid ∧ ((S.paired = true → o.phase = .call) → h.sessID = o.sid) ∧
    h.stackID = (if stack then o.stackID else -1) ∧ h.lbrRetval = (if lbr then o.nrBytes else 0) ∧
    (if S.fn.data ≠ 0 ∧ ¬ (τ.multi = true ∧ o.phase = .ret) then R.attrsText τ.ip o.data = some a else a = []) ∧
    x = (if (S.fn.flag.pkt && S.fn.hasPkt) = true ∧ ¬ (τ.multi = true ∧ o.phase = .ret) then R.pktText o.pkt else []) ++ a ++
      (if lbr = true ∧ 0 < o.nrBytes.toInt then R.lbrText h else []) ++
      (if stack = true ∧ 0 ≤ o.stackID.toInt then R.stackText h else [])

/-- An argument `v`; with `(m)` pointers are not followed, and at the return it is what is in the register then. -/
def ArgShown (R : Reader) (S : Src) (τ : Target) (o : Occ) (i : Nat) (p : Prm) (v : W) (x : Text) : Prop :=
  if τ.multi then x = t "(" ++ p.tname ++ t ")" ++ p.name ++ t "=" ++ Rp.Show R.env.find p.t (Arg.le 8 (if o.phase = .ret then o.regs i else v))
  else Ft.ArgReads R.env.find o.mem S.prms i p v x

/-- The result; with `(m)` pointers are not followed. -/
def ResShown (R : Reader) (S : Src) (τ : Target) (o : Occ) (v : W) (x : Text) : Prop :=
  if τ.multi then x = if S.ret.void then t "(void)" else t "(" ++ S.ret.tname ++ t ")" ++ Rp.Show R.env.find S.ret.t (Arg.le 8 v)
  else Ft.RetShown R.env.find o.mem S.ptype S.ret v x

/-- The text of a moment of a call: mark, name, the arguments one by one, at the return the result, CPU, process, if given the duration, time
of reading; what else is asked for. With `(m)` the arguments beyond those in registers are replaced by `...`. -/
def Block (R : Reader) (F : Feats) (S : Src) (τ : Target) (o : Occ) (args : List W) (res : W) (c : Ln.Clock) (dur : Text) (txt : Text) : Prop :=
  ∃ (xs : List Text) (y extra : Text),
    txt = Ln.mark (decide (o.phase = .ret)) S.fn.isTp ++ t " " ++ S.name ++ t " args=(" ++
      join (t ", ") (xs ++ if τ.multi = true ∧ R.maxArgs < S.prms.length then [t "..."] else []) ++ t ")" ++ y ++
      t " cpu=" ++ dec o.cpu.toNat ++ t " process=(" ++ dec o.pid.toNat ++ t ":" ++ (o.comm.takeWhile (· ≠ 0)).map Ot.chr ++ t ")" ++
      dur ++ t " timestamp=" ++ Ln.clock c ++ t "\n" ++ extra ∧
    xs.length = (if τ.multi then min S.prms.length R.maxArgs else S.prms.length) ∧
    (∀ i p v a, S.prms[i]? = some p → args[i]? = some v → xs[i]? = some a → ArgShown R S τ o i p v a) ∧
    (o.phase = .call → y = []) ∧
    (o.phase = .ret → ∃ z, y = t " retval=" ++ z ∧ ResShown R S τ o res z) ∧
    Extra R F S τ o extra

/-- A moment of a call of a traced function, with what happened there and when the record, if any, is read. -/
structure Moment where
  S : Src
  τ : Target
  o : Occ
  args : List W
  res : W
  clock : Ln.Clock

/-- A task executes an instruction that has a probe (C84, C85), in the call `call` of the function at `func`: address of the instruction, clock and
processor; `name` and `desc` are what the function and the instruction are shown as; `pad` is what the padding of the record holds. -/
structure IMoment where
  func : W
  name : Text
  ip : W
  desc : Text
  pidTgid : W
  call : Nat
  ns : BitVec 32
  cpu : BitVec 32
  pad : List Byte
  clock : Ln.Clock

/-- A function of a graph that is not a root is called or returns (C79): `around` are the calls around it of functions of graphs, innermost first, each with its number and
function; `stack` is what `bpf_get_stack` delivers. -/
structure GMoment extends Moment where
  around : List (Nat × W)
  stack : List W

/-- What happens in the kernel. -/
inductive Ev
  | fn (x : Moment)
  | insn (x : IMoment)
  | graph (x : GMoment)

/-- A wanted call that has not returned: its call moment; the calls of functions of its graph shown in it that have not returned, innermost first, with their number and
time; the lines shown in it so far. -/
structure Open where
  e : Moment
  inner : List (Nat × BitVec 32)
  lines : List Text

/-- The innermost call around that is open and wanted, and its distance. -/
def inside (op : Nat → Option Open) : Nat → List (Nat × W) → Option (Nat × Nat)
  | _, [] => none
  | d, (c, _) :: r => if (op c).isSome then some (c, d) else inside op (d + 1) r

/-- The line of a function of a graph, at depth `d` in the call `e`: mark, name, arguments, at the return the result, processor, depth, `cost` and the time since the call `e`. -/
def GLine (R : Reader) (e : Moment) (d : Nat) (cost : BitVec 32) (x : GMoment) (txt : Text) : Prop :=
  ∃ (xs : List Text) (y : Text),
    txt = (List.replicate d (t "  ")).flatten ++ Ln.mark (decide (x.o.phase = .ret)) false ++ t " " ++ x.S.name ++ t " args=(" ++ join (t ", ") xs ++ t ")" ++ y ++
      t " cpu=" ++ dec x.o.cpu.toNat ++ t " depth=" ++ dec d ++ t " duration=" ++ Ln.duration cost ++ t "|" ++ Ln.duration (x.o.ns - e.o.ns) ++ t "\n" ∧
    xs.length = x.S.prms.length ∧
    (∀ i p v a, x.S.prms[i]? = some p → x.args[i]? = some v → xs[i]? = some a → Ft.ArgReads R.env.find x.o.mem x.S.prms i p v a) ∧
    (x.o.phase = .call → y = []) ∧
    (x.o.phase = .ret → ∃ z, y = t " retval=" ++ z ∧ Ft.RetShown R.env.find x.o.mem x.S.ptype x.S.ret x.res z)

/-- The line of an instruction in the call `e`: function, processor, the time since the call, instruction. -/
def insnLine (e : Moment) (x : IMoment) : Text :=
  x.name ++ t " cpu=" ++ Ln.pad 2 (dec x.cpu.toNat) (dec x.cpu.toNat).length ++
    t " duration=" ++ Ln.pad 12 (Ln.duration (x.ns - e.o.ns)) (Ln.runes (Ln.duration (x.ns - e.o.ns))) ++ t " insn=" ++ x.desc ++ t "\n"

/-- The text of a duration in a line. -/
def durText (d : BitVec 32) : Text := t " duration=" ++ Ln.duration d

/-- Write at one place. -/
def put {α : Type} [DecidableEq α] {β : Type} (f : α → β) (a : α) (b : β) : α → β := fun x => if x = a then b else f x

/-- The blocks printed for a history, in order, and no others; `op c` is the call `c` if it was wanted and has not returned. A function traced at one end: a block for each
wanted moment. A function traced at both ends: at the return, if the call was wanted and took at least `delta` nanoseconds, one block with the call, the
instructions executed in it and the calls and returns of functions of its graph in it, and the return of this call. A function of a graph is
shown in the innermost wanted call around it, if that is not further away than the greatest depth; with the time since the call around it that is shown
last, at its return with its own time. -/
inductive Shown (R : Reader) (g : Globals) (F : Feats) (modeExit : Bool) (delta : Int) : (Nat → Option Open) → List Ev → List Text → Prop
  | nil {op} : Shown R g F modeExit delta op [] []
  | skip {op} {x : Moment} {r ts} : ¬ Wanted g modeExit x.S x.o x.args → (x.S.paired = true → x.o.phase = .call) →
      Shown R g F modeExit delta op r ts → Shown R g F modeExit delta op (.fn x :: r) ts
  | show {op} {x : Moment} {r ts b} : x.S.paired = false → Wanted g modeExit x.S x.o x.args →
      Block R F x.S x.τ x.o x.args x.res x.clock [] b → Shown R g F modeExit delta op r ts →
      Shown R g F modeExit delta op (.fn x :: r) ((b ++ t "\n") :: ts)
  | enter {op} {x : Moment} {r ts} : x.S.paired = true → Wanted g modeExit x.S x.o x.args →
      Shown R g F modeExit delta (put op x.o.call (some ⟨x, [], []⟩)) r ts → Shown R g F modeExit delta op (.fn x :: r) ts
  | exit {op} {x : Moment} {q : Open} {r ts b c} : x.S.paired = true → x.o.phase = .ret → op x.o.call = some q →
      delta ≤ (x.o.ns - q.e.o.ns).toNat →
      Block R F q.e.S q.e.τ q.e.o q.e.args q.e.res q.e.clock [] b → Block R F x.S x.τ x.o x.args x.res x.clock (durText (x.o.ns - q.e.o.ns)) c →
      Shown R g F modeExit delta (put op x.o.call none) r ts →
      Shown R g F modeExit delta op (.fn x :: r) ((b ++ q.lines.flatten ++ c ++ t "\n") :: ts)
  | short {op} {x : Moment} {q : Open} {r ts} : x.S.paired = true → x.o.phase = .ret → op x.o.call = some q →
      (x.o.ns - q.e.o.ns).toNat < delta →
      Shown R g F modeExit delta (put op x.o.call none) r ts → Shown R g F modeExit delta op (.fn x :: r) ts
  | unknown {op} {x : Moment} {r ts} : x.S.paired = true → x.o.phase = .ret → op x.o.call = none →
      Shown R g F modeExit delta op r ts → Shown R g F modeExit delta op (.fn x :: r) ts
  | insn {op} {x : IMoment} {q : Open} {r ts} : op x.call = some q →
      Shown R g F modeExit delta (put op x.call (some { q with lines := q.lines ++ [insnLine q.e x] })) r ts → Shown R g F modeExit delta op (.insn x :: r) ts
  | aside {op} {x : IMoment} {r ts} : op x.call = none →
      Shown R g F modeExit delta op r ts → Shown R g F modeExit delta op (.insn x :: r) ts
  | call {op} {x : GMoment} {c d} {q : Open} {l r ts} : x.o.phase = .call → inside op 1 x.around = some (c, d) → d ≤ g.maxDepth → op c = some q →
      GLine R q.e d (x.o.ns - (q.inner.head?.map (·.2)).getD q.e.o.ns) x l →
      Shown R g F modeExit delta (put op c (some ⟨q.e, (x.o.call, x.o.ns) :: q.inner, q.lines ++ [l]⟩)) r ts → Shown R g F modeExit delta op (.graph x :: r) ts
  | ret {op} {x : GMoment} {c d} {q : Open} {began inner l r ts} : x.o.phase = .ret → inside op 1 x.around = some (c, d) → d ≤ g.maxDepth → op c = some q →
      q.inner = (x.o.call, began) :: inner → GLine R q.e d (x.o.ns - began) x l →
      Shown R g F modeExit delta (put op c (some ⟨q.e, inner, q.lines ++ [l]⟩)) r ts → Shown R g F modeExit delta op (.graph x :: r) ts
  | outside {op} {x : GMoment} {r ts} : (∀ c d, inside op 1 x.around = some (c, d) → g.maxDepth < d) →
      Shown R g F modeExit delta op r ts → Shown R g F modeExit delta op (.graph x :: r) ts

/-- Task and function. -/
def Moment.key (x : Moment) : KSess.Key := ⟨x.o.pidTgid, x.τ.ip⟩

/-- Task and function of an instruction. -/
def IMoment.key (x : IMoment) : KSess.Key := ⟨x.pidTgid, x.func⟩

/-- The wanted ones of a stack of calls. -/
def taken (l : List (Nat × Option W)) : List W := l.filterMap (·.2)

/-- The stack and `around` tell the open calls of functions of graphs: the function itself and those around it, in each function the ones of the history before those from before
the trace. -/
structure Around (g : Globals) (st : KSess.Key → List (Nat × Option W)) (x : GMoment) : Prop where
  length : x.stack.length ≤ g.maxStack
  stack : (x.stack.map g.fip).filter (fun f => decide (f ≠ 0)) = x.τ.ip :: x.around.map (·.2)
  calls : ∀ f ∈ x.around.map (·.2), ∃ old, (x.around.filter fun p => decide (p.2 = f)).map (·.1) = (st ⟨x.o.pidTgid, f⟩).map (·.1) ++ old ∧
    ∀ c ∈ old, ∀ k v, (c, v) ∉ st k

/-- What is assumed of the calls of functions traced at both ends: `st k` are the open calls of a function in a task, innermost first, each with
its session id if it was wanted, `seen` the calls so far, `nt` the open calls of functions of graphs that are not roots in a task, innermost first. Calls nest; a return
without call is of a call from before the trace, as is an
instruction without call; the other instructions are of the innermost call; the generated
session id is not 0 and not that of an open call. Partial (C22): without session programs also that the map of sessions is not full, no
more than 64 wanted calls of a function are open in a task, and no unwanted call is inside a wanted one of the same function in the same task. -/
inductive Proper (g : Globals) (F : Feats) (modeExit : Bool) : (KSess.Key → List (Nat × Option W)) → List Nat → (W → List GMoment) → List Ev → Prop
  | nil {st seen nt} : Proper g F modeExit st seen nt []
  | single {st seen nt} {x : Moment} {r} : x.S.paired = false → Proper g F modeExit st seen nt r → Proper g F modeExit st seen nt (.fn x :: r)
  | wanted {st seen nt} {x : Moment} {r} : x.S.paired = true → x.o.phase = .call → Wanted g modeExit x.S x.o x.args → x.o.call ∉ seen → x.o.sid ≠ 0 →
      (∀ k c, (c, some x.o.sid) ∉ st k) → (F.session x.τ = false → x.o.full = false ∧ (taken (st x.key)).length < 64) →
      Proper g F modeExit (put st x.key ((x.o.call, some x.o.sid) :: st x.key)) (x.o.call :: seen) nt r → Proper g F modeExit st seen nt (.fn x :: r)
  | unwanted {st seen nt} {x : Moment} {r} : x.S.paired = true → x.o.phase = .call → ¬ Wanted g modeExit x.S x.o x.args → x.o.call ∉ seen →
      (F.session x.τ = false → taken (st x.key) = []) →
      Proper g F modeExit (put st x.key ((x.o.call, none) :: st x.key)) (x.o.call :: seen) nt r → Proper g F modeExit st seen nt (.fn x :: r)
  | back {st seen nt} {x : Moment} {v l r} : x.S.paired = true → x.o.phase = .ret → st x.key = (x.o.call, v) :: l →
      (∀ y ∈ nt x.o.pidTgid, x.o.call ∉ y.around.map (·.1)) →
      Proper g F modeExit (put st x.key l) seen nt r → Proper g F modeExit st seen nt (.fn x :: r)
  | before {st seen nt} {x : Moment} {r} : x.S.paired = true → x.o.phase = .ret → st x.key = [] → x.o.call ∉ seen →
      Proper g F modeExit st (x.o.call :: seen) nt r → Proper g F modeExit st seen nt (.fn x :: r)
  | within {st seen nt} {x : IMoment} {v l r} : st x.key = (x.call, v) :: l → Proper g F modeExit st seen nt r → Proper g F modeExit st seen nt (.insn x :: r)
  | early {st seen nt} {x : IMoment} {r} : st x.key = [] → x.call ∉ seen → Proper g F modeExit st seen nt r → Proper g F modeExit st seen nt (.insn x :: r)
  | down {st seen nt} {x : GMoment} {r} : x.o.phase = .call → Around g st x →
      Proper g F modeExit st (x.around.map (·.1) ++ seen) (put nt x.o.pidTgid (x :: nt x.o.pidTgid)) r → Proper g F modeExit st seen nt (.graph x :: r)
  | up {st seen nt} {x y : GMoment} {l r} : x.o.phase = .ret → nt x.o.pidTgid = y :: l → y.o.call = x.o.call → y.around = x.around → Around g st x →
      Proper g F modeExit st seen (put nt x.o.pidTgid l) r → Proper g F modeExit st seen nt (.graph x :: r)
  | past {st seen nt} {x : GMoment} {r} : x.o.phase = .ret → nt x.o.pidTgid = [] → Around g st x → (∀ p ∈ x.around, ∀ k v, (p.1, v) ∉ st k) →
      Proper g F modeExit st seen nt r → Proper g F modeExit st seen nt (.graph x :: r)

/-- The records of a history, in order. -/
def sent (g : Globals) : Att.SSt → List Ev → List (List Byte × Ln.Clock)
  | _, [] => []
  | s, .insn x :: r =>
    (Ir.insnProg x.ip x.func g.ready s.1 x.pidTgid ⟨x.ip, x.ns, x.cpu⟩ x.pad).toList.map (·, x.clock) ++ sent g s r
  | s, .graph x :: r => (gemit g x.τ x.o x.stack s).toList.map (·, x.clock) ++ sent g s r
  | s, .fn x :: r =>
    (emits g x.τ x.o x.τ.atts s).2.map (·, x.clock) ++ sent g (emits g x.τ x.o x.τ.atts s).1 r

/-! ### One moment -/

theorem params_length {ps : List Prm} {ret : Arg.PTy} {fs : List Arg.PFlag} {fr : Arg.PFlag} (hs : ∀ p ∈ ps, Ft.Simple p.t)
    (h : Arg.getFuncParams (ps.map Prm.pty) ret = some (fs, fr)) : fs.length = ps.length := by
  obtain ⟨sizes, h1, _, h2⟩ := (Arg.params_taken_iff _ ret fs.length).1 ⟨fs, fr, h, rfl⟩
  have h3 : ∀ k ∈ sizes, Arg.regsOf k = 1 := by
    intro k hk
    have : some k ∈ (ps.map Prm.pty).map (·.size) := by rw [h1]; exact List.mem_map_of_mem hk
    simp only [List.map_map, List.mem_map] at this
    obtain ⟨p, hp, he⟩ := this
    have := Ft.simple_narrow (hs p hp) (show p.t.sizeof = some k from he)
    simp [Arg.regsOf, this]
  have h4 : ∀ l : List Nat, (∀ k ∈ l, Arg.regsOf k = 1) → (l.map Arg.regsOf).sum = l.length := by
    intro l
    induction l with
    | nil => intro _; rfl
    | cons a l ih =>
      intro h
      have e := ih fun k hk => h k (by simp [hk])
      have e1 := h a (by simp)
      simp only [List.map_cons, List.sum_cons, List.length_cons, e, e1]
      omega
  rw [h2, h4 _ h3]
  have := congrArg List.length h1
  simpa using this.symm

theorem arg_read {R : Reader} {g : Globals} {S : Src} {τ : Target} {o : Occ} {args : List W} {res : W}
    (hs : Sees g S τ o args res) (hr : R.maxArgs = Av.regsNr g.arm64) {i : Nat} (hi : i < args.length)
    (hn : τ.multi = true → i < R.maxArgs ∧ o.phase = .call) : argAt o i = args.getD i 0 := by
  unfold argAt
  cases hmu : τ.multi with
  | false =>
    obtain ⟨junk, hst⟩ := hs.stored hmu
    rw [hst i hi, Av.readCtx, if_pos hi, hs.ctx hmu]
    simp [List.getD, List.getElem?_append_left hi]
  | true =>
    obtain ⟨hn, hc⟩ := hn hmu
    rw [hr] at hn
    rw [hs.storedRegs hmu i hn, Av.readRegs, if_pos hn, hs.call hmu hc i args[i] hn (List.getElem?_eq_getElem hi)]
    simp [List.getD, hi]

theorem filter_answer {R : Reader} {g : Globals} {F : Feats} {me : Bool} {S : Src} {τ : Target} {o : Occ} {args : List W} {res : W}
    (h : Attached R F me S τ) (hs : Sees g S τ o args res) (hr : R.maxArgs = Av.regsNr g.arm64)
    (hc : τ.multi = true → o.phase = .call ∨ S.filter = none) :
    filterArg τ o = true ↔
      ∀ f, S.filter = some f → ∃ x, Cc.meaning f.1 ⟨fun i => args.getD i 0, o.mem⟩ f.2 = some (x, false) ∧ x ≠ 0 := by
  rcases h.filter with ⟨h1, h2⟩ | ⟨f, p, h1, h2, hf, _⟩
  · simp [filterArg, h1, h2]
  · obtain ⟨x, nul, hm, hx, hn⟩ := Cc.filter_computes_partial
      (w := ⟨fun i => Cc.load o.mem 8 (o.argsAt + BitVec.ofNat 64 (i * 8)), o.mem⟩) (st := o.st.set 1 o.argsAt) hf.lo hf.ok hf.live hf.shape hf.exact_
      (fun i _ => by simp [Cc.St.set]) hs.readable
    have hag := Av.meaning_agree (o := f.1) (w := ⟨fun i => args.getD i 0, o.mem⟩)
      (arg := fun i => Cc.load o.mem 8 (o.argsAt + BitVec.ofNat 64 (i * 8))) f.2 (by
        intro s hoc i ty hi
        obtain ⟨hn, hp⟩ := hf.names s hoc i ty hi
        have hi : i < args.length := by
          rw [hs.len]
          cases hq : S.prms[i]? with
          | none => rw [hq] at hp; cases hp
          | some q => exact (List.getElem?_eq_some_iff.1 hq).1
        exact Eq.symm <| arg_read hs hr hi fun hmu => ⟨by rwa [hmu, if_pos rfl] at hn, (hc hmu).resolve_right (by rw [h1]; simp)⟩)
    dsimp only at hag
    rw [hag] at hm
    cases nul with
    | true => exact absurd hm (hs.noNull f x h1)
    | false =>
      obtain ⟨_, hx⟩ := hx rfl
      simp only [filterArg, h2, hx _ (Nat.le_refl _), h1, Option.some.injEq, forall_eq', hm, Prod.mk.injEq, and_true, bne_iff_ne]
      constructor
      · intro h; exact ⟨x, rfl, h⟩
      · rintro ⟨y, rfl, h⟩; exact h

theorem pktRun_skb {L : PktLayout} {skip : Bool} {l2 l3 : Cc.Mem → W → W → Bool} {m : Cc.Mem} {a : W} :
    pktRun L skip .skb l2 l3 m a = true ↔ Passes L skip m ⟨.skb, 0, l2, l3⟩ a := by
  unfold pktRun Passes Packet
  by_cases hm : Asm.field m 2 (a + L.skb.macLen) = 0
  · simp only [hm, ne_eq, not_true_eq_false, if_false]
    constructor
    · intro h
      refine ⟨false, _, _, _, ⟨⟨nofun, fun h => absurd h id⟩, rfl, rfl⟩, rfl, ?_⟩
      unfold Pkt.skipTunnel at h
      cases skip <;> simpa using h
    · rintro ⟨b, data, e, start, ⟨hb, rfl, rfl⟩, rfl, h⟩
      cases b with
      | true => exact (hb.1 rfl).elim
      | false =>
        unfold Pkt.skipTunnel
        cases skip <;> simpa using h
  · simp only [hm, ne_eq, not_false_eq_true, if_true]
    constructor
    · intro h
      refine ⟨true, _, _, _, ⟨⟨fun _ => trivial, fun _ => rfl⟩, rfl, rfl⟩, rfl, ?_⟩
      unfold Pkt.skipTunnel at h
      cases skip <;> simpa using h
    · rintro ⟨b, data, e, start, ⟨hb, rfl, rfl⟩, rfl, h⟩
      cases b with
      | false => exact absurd (hb.2 trivial) (by simp)
      | true =>
        unfold Pkt.skipTunnel
        cases skip <;> simpa using h

theorem passes_iff {L : PktLayout} {skip : Bool} {m : Cc.Mem} {f : PktCheck} {a : W} :
    pktRun L skip f.kind f.l2 f.l3 m a = true ↔ Passes L skip m f a := by
  obtain ⟨k, i, l2, l3⟩ := f
  cases k with
  | skb => exact pktRun_skb
  | xdp =>
    unfold pktRun Passes Packet
    constructor
    · intro h
      refine ⟨true, _, _, _, ⟨rfl, rfl, rfl⟩, rfl, ?_⟩
      unfold Pkt.skipTunnel at h
      cases skip <;> simpa using h
    · rintro ⟨b, data, e, start, ⟨rfl, rfl, rfl⟩, rfl, h⟩
      unfold Pkt.skipTunnel
      cases skip <;> simpa using h
  | xdpFrame =>
    unfold pktRun Passes Packet
    constructor
    · intro h
      refine ⟨true, _, _, _, ⟨rfl, rfl, rfl⟩, rfl, ?_⟩
      unfold Pkt.skipTunnel at h
      cases skip <;> simpa using h
    · rintro ⟨b, data, e, start, ⟨rfl, rfl, rfl⟩, rfl, h⟩
      unfold Pkt.skipTunnel
      cases skip <;> simpa using h

theorem stubKind_eq (sid : W) : stubKind sid = takenFor sid := by
  have h : ∀ n : Nat, n < 2 ^ 32 → (sid.truncate 32 = BitVec.ofNat 32 n ↔ sid.toNat % 2 ^ 32 = n) := by
    intro n hn
    rw [← BitVec.toNat_inj]
    show (sid.setWidth 32).toNat = _ ↔ _
    rw [BitVec.toNat_setWidth, BitVec.toNat_ofNat, Nat.mod_eq_of_lt hn]
  have h1 : sid.truncate 32 = (1 : BitVec 32) ↔ sid.toNat % 2 ^ 32 = 1 := h 1 (by decide)
  have h2 : sid.truncate 32 = (2 : BitVec 32) ↔ sid.toNat % 2 ^ 32 = 2 := h 2 (by decide)
  unfold stubKind takenFor
  by_cases e1 : sid.toNat % 2 ^ 32 = 1
  · rw [if_pos (h1.2 e1), e1]; rfl
  · rw [if_neg (fun x => e1 (h1.1 x))]
    by_cases e2 : sid.toNat % 2 ^ 32 = 2
    · rw [if_pos (h2.2 e2), e2]; rfl
    · rw [if_neg (fun x => e2 (h2.1 x))]
      split
      · contradiction
      · contradiction
      · rfl

theorem packet_answer {R : Reader} {g : Globals} {F : Feats} {me : Bool} {S : Src} {τ : Target} {o : Occ} {args : List W} {res : W}
    (h : Attached R F me S τ) (hs : Sees g S τ o args res) (hr : R.maxArgs = Av.regsNr g.arm64) (h0 : 0 < Av.regsNr g.arm64)
    (hc : τ.multi = true → o.phase = .call ∨ S.pkt = none ∧ τ.pkt = .none) :
    filterPkt g τ o = true ↔ ∀ f, S.pkt = some f → Passes g.layout g.skipTunnel o.mem f (args.getD f.index 0) := by
  rcases h.pkt with ⟨h1, h2 | ⟨h2, h3, _⟩⟩ | ⟨f, h1, h2, h3, h4⟩
  · simp [filterPkt, h1, h2]
  · have hph : o.phase = .call := (hc h3).resolve_right (by rw [h2]; rintro ⟨_, h⟩; cases h)
    have ha : argAt o 0 = o.regs 0 := by
      unfold argAt
      rw [hs.storedRegs h3 0 h0, Av.readRegs, if_pos h0]
    simp only [filterPkt, h1, h2, h3, Bool.not_true, Bool.and_false, reduceCtorEq, false_implies, implies_true, iff_true]
    rw [ha]
    obtain ⟨b, data, e, hp, hne⟩ := hs.dflt h2 hph
    rw [stubKind_eq]
    refine (passes_iff (f := ⟨takenFor o.sid, 0, pcapStub, pcapStub⟩)).2 ⟨b, data, e, data, hp, by simp, ?_⟩
    cases b <;> simpa [pcapStub] using hne
  · simp only [filterPkt, h1, h2, Option.some.injEq, forall_eq']
    have hph : τ.multi = true → o.phase = .call := fun hm => (hc hm).resolve_right (by rw [h2]; rintro ⟨_, h⟩; cases h)
    rw [arg_read hs hr (by rw [hs.len]; exact h3) (fun hm => ⟨(h4 hm).1, hph hm⟩), passes_iff]
    cases hm : τ.multi with
    | false => simp
    | true => rw [hs.noSkip hm (by rw [h1]; simp)]; simp

theorem comm_text (l : List Byte) (h : l.length = 16) : Ln.comm (commVec l) = (l.takeWhile (· ≠ 0)).map Ot.chr := by
  have hl : (commVec l).toList = l.map UInt8.ofBitVec := by
    apply List.ext_getElem
    · simp [h]
    · intro i h1 h2
      simp [commVec, List.getD]
      rw [List.getElem?_eq_getElem (by simpa using h2)]
      rfl
  unfold Ln.comm
  rw [hl]
  clear h hl
  induction l with
  | nil => rfl
  | cons b l ih =>
    by_cases hb : b = 0
    · subst hb; rfl
    · have h1 : UInt8.ofBitVec b ≠ 0 := fun he => hb (congrArg UInt8.toBitVec he)
      simp only [List.map_cons, List.takeWhile_cons, ne_eq, hb, h1, not_false_eq_true, decide_true, if_true]
      rw [ih]
      rfl

/-- The code that copies the arguments, and the size of the copy. -/
def code (R : Reader) (τ : Target) (wr : Bool) : List Arg.OI × Nat :=
  if τ.multi then Arg.genKmulti R.maxArgs wr else Arg.injectOutputFuncArgs τ.params τ.ret wr

/-- The configuration of an attached program. -/
structure Prog (R : Reader) (S : Src) (τ : Target) (a : Att) (paired wr session stack : Bool) : Prop where
  traced : Att.Traced a
  nr : a.cfg.fnArgsNr = if τ.multi then R.maxArgs else τ.params.length
  buf : a.cfg.fnArgsBufSz = (code R τ wr).2
  data : a.cfg.argDataSz = if τ.multi = true ∧ paired = false ∧ wr = true then 0 else S.fn.data
  pkt : a.cfg.outputPkt = (S.fn.pkt && !(τ.multi && !paired && wr))
  lbr : a.cfg.outputLbr = S.fn.flag.lbr
  stack : a.cfg.outputStack = stack
  insn : a.cfg.insnMode = S.fn.insn
  graph : a.cfg.graphMode = S.fn.flag.graph
  both : a.cfg.bothEntryExit = paired
  tp : a.cfg.isTp = S.fn.isTp
  multi : a.cfg.kmultiMode = τ.multi
  ret : a.cfg.withRet = wr
  session : a.cfg.session = session

theorem perm_two {α : Type} {l : List α} {a b : α} (h : l.Perm [a, b]) : l = [a, b] ∨ l = [b, a] := by
  match l, h.length_eq with
  | [x, y], _ =>
    have hx := h.mem_iff.mp (show x ∈ [x, y] by simp)
    simp only [List.mem_cons, List.not_mem_nil, or_false] at hx
    rcases hx with rfl | rfl
    · exact .inl (by rw [List.perm_singleton.mp (List.perm_cons x |>.mp h)])
    · exact .inr (by rw [List.perm_singleton.mp (List.perm_cons x |>.mp (h.trans (List.Perm.swap ..)))])

theorem attached_cases {R : Reader} {F : Feats} {me : Bool} {S : Src} {τ : Target} (h : Attached R F me S τ) :
    (S.paired = false ∧ ∃ a b, τ.atts = [a] ∧ Prog R S τ a false b false S.fn.flag.stack ∧ b = (!S.fn.isTp && me) ∧
      a.hook.fires .call = (if b then none else some false) ∧ a.hook.fires .ret = (if b then some true else none)) ∨
    (S.paired = true ∧ F.session τ = true ∧ ∃ a, τ.atts = [a] ∧ Prog R S τ a true true true S.fn.flag.stack ∧
      a.hook.fires .call = some false ∧ a.hook.fires .ret = some true) ∨
    (S.paired = true ∧ F.session τ = false ∧ ∃ a1 a2, (τ.atts = [a1, a2] ∨ τ.atts = [a2, a1]) ∧ Prog R S τ a1 true false false (S.fn.flag.stack && τ.multi) ∧
      Prog R S τ a2 true true false S.fn.flag.stack ∧
      a1.hook.fires .call = some false ∧ a1.hook.fires .ret = none ∧ a2.hook.fires .call = none ∧ a2.hook.fires .ret = some true) := by
  have h0 := h.insn
  unfold Src.paired Feats.session
  rcases h.att with ⟨hmu, hf⟩ | ⟨hmu, hf, htp, h1⟩ | ⟨hmu, hf, htp⟩
  · rw [hmu]
    have hT : ∀ a ∈ τ.atts, Att.Traced a := fun a ha => Att.Traced.func F.fsession me S.fn _ (hf.mem_iff.mp ha)
    unfold Att.traceFuncs at hf
    simp only [] at hf
    simp only [Bool.and_false, Bool.false_eq_true, if_false]
    cases htp : S.fn.isTp with
    | true =>
      simp only [htp, if_true] at hf
      refine .inl ⟨by simp, _, false, List.perm_singleton.mp hf, ?_, by simp, ?_, ?_⟩
      · constructor <;> first | exact hT _ (hf.mem_iff.mpr (by simp)) | simp [code, hmu, Att.traceFunc, htp, h.prms, h.ret]
      · simp [Att.traceFunc, htp, Att.Hook.fires]
      · simp [Att.traceFunc, htp, Att.Hook.fires]
    | false =>
      simp only [htp, Bool.false_eq_true, if_false] at hf
      cases hb : (S.fn.insn || S.fn.flag.graph || S.fn.flag.both) with
      | false =>
        simp only [hb, Bool.false_eq_true, if_false] at hf
        refine .inl ⟨by simp, _, me, List.perm_singleton.mp hf, ?_, by simp, ?_, ?_⟩
        · constructor <;> first | exact hT _ (hf.mem_iff.mpr (by simp)) | (cases me <;> simp [code, hmu, Att.traceFunc, htp, h.prms, h.ret])
        · cases me <;> simp [Att.traceFunc, htp, Att.Hook.fires]
        · cases me <;> simp [Att.traceFunc, htp, Att.Hook.fires]
      | true =>
        simp only [hb, if_true] at hf
        cases hfs : F.fsession with
        | true =>
          simp only [hfs, if_true] at hf
          refine .inr (.inl ⟨by simp, rfl, _, List.perm_singleton.mp hf, ?_, ?_, ?_⟩)
          · constructor <;> first | exact hT _ (hf.mem_iff.mpr (by simp)) | simp [code, hmu, Att.traceFunc, htp, h.prms, h.ret]
          · simp [Att.traceFunc, htp, Att.Hook.fires]
          · simp [Att.traceFunc, htp, Att.Hook.fires]
        | false =>
          simp only [hfs, Bool.false_eq_true, if_false] at hf
          refine .inr (.inr ⟨by simp, rfl, _, _, perm_two hf, ?_, ?_, ?_, ?_, ?_, ?_⟩)
          · constructor <;> first | exact hT _ (hf.mem_iff.mpr (by simp)) | simp [code, hmu, Att.traceFunc, htp, h.prms, h.ret]
          · constructor <;> first | exact hT _ (hf.mem_iff.mpr (by simp)) | simp [code, hmu, Att.traceFunc, htp, h.prms, h.ret]
          all_goals simp [Att.traceFunc, htp, Att.Hook.fires]
  · rw [hmu]
    have hT : ∀ a ∈ τ.atts, Att.Traced a := fun a ha => Att.Traced.prog F.fsession me S.fn _ (hf.mem_iff.mp ha)
    unfold Att.traceProgs at hf
    simp only [] at hf
    rw [h1, Bool.false_or]
    simp only [Bool.and_false, Bool.false_eq_true, if_false]
    cases hb : (S.fn.flag.graph || S.fn.flag.both) with
    | false =>
      simp only [hb, Bool.false_eq_true, if_false] at hf
      refine .inl ⟨by simp, _, me, List.perm_singleton.mp hf, ?_, by simp [htp], ?_, ?_⟩
      · constructor <;> first | exact hT _ (hf.mem_iff.mpr (by simp)) | (cases me <;> simp [code, hmu, Att.traceProg, htp, h1, h.prms, h.ret])
      · cases me <;> simp [Att.traceProg, Att.Hook.fires]
      · cases me <;> simp [Att.traceProg, Att.Hook.fires]
    | true =>
      simp only [hb, if_true] at hf
      cases hfs : F.fsession with
      | true =>
        simp only [hfs, if_true] at hf
        refine .inr (.inl ⟨by simp [htp], rfl, _, List.perm_singleton.mp hf, ?_, ?_, ?_⟩)
        · constructor <;> first | exact hT _ (hf.mem_iff.mpr (by simp)) | simp [code, hmu, Att.traceProg, htp, h1, h.prms, h.ret]
        · simp [Att.traceProg, Att.Hook.fires]
        · simp [Att.traceProg, Att.Hook.fires]
      | false =>
        simp only [hfs, Bool.false_eq_true, if_false] at hf
        refine .inr (.inr ⟨by simp [htp], rfl, _, _, perm_two hf, ?_, ?_, ?_, ?_, ?_, ?_⟩)
        · constructor <;> first | exact hT _ (hf.mem_iff.mpr (by simp)) | simp [code, hmu, Att.traceProg, htp, h1, h.prms, h.ret]
        · constructor <;> first | exact hT _ (hf.mem_iff.mpr (by simp)) | simp [code, hmu, Att.traceProg, htp, h1, h.prms, h.ret]
        all_goals simp [Att.traceProg, Att.Hook.fires]
  · rw [hmu]
    have hT : ∀ a ∈ τ.atts, Att.Traced a := fun a ha => Att.Traced.multi F.ksession me R.maxArgs S.fn _ (hf.mem_iff.mp ha)
    unfold Att.traceKfuncMulti at hf
    have h1 : S.fn.insn = false := by
      cases hh : S.fn.insn with
      | false => rfl
      | true => rw [(h0 (.inl hh)).1] at hmu; cases hmu
    have h2 : S.fn.flag.graph = false := by
      cases hh : S.fn.flag.graph with
      | false => rfl
      | true => rw [(h0 (.inr hh)).1] at hmu; cases hmu
    rw [h1, h2, Bool.false_or, Bool.false_or]
    simp only [Bool.and_true, if_true]
    cases hb : S.fn.flag.both with
    | false =>
      simp only [hb, Bool.false_and, Bool.false_eq_true, if_false] at hf
      cases me with
      | false =>
        simp only [Bool.false_eq_true, if_false] at hf
        refine .inl ⟨by simp, _, false, List.perm_singleton.mp hf, ?_, by simp [htp], ?_, ?_⟩
        · constructor <;> first | exact hT _ (hf.mem_iff.mpr (by simp)) | simp [code, hmu, Att.traceKfuncMultiMode, htp, h1, h2, hb]
        · simp [Att.traceKfuncMultiMode, Att.Hook.fires]
        · simp [Att.traceKfuncMultiMode, Att.Hook.fires]
      | true =>
        simp only [if_true] at hf
        refine .inl ⟨by simp, _, true, List.perm_singleton.mp hf, ?_, by simp [htp], ?_, ?_⟩
        · constructor <;> first | exact hT _ (hf.mem_iff.mpr (by simp)) | simp [code, hmu, Att.traceKfuncMultiMode, htp, h1, h2, hb]
        · simp [Att.traceKfuncMultiMode, Att.Hook.fires]
        · simp [Att.traceKfuncMultiMode, Att.Hook.fires]
    | true =>
      cases hfs : F.ksession with
      | true =>
        simp only [hb, hfs, Bool.and_self, if_true] at hf
        refine .inr (.inl ⟨by simp [htp], rfl, _, List.perm_singleton.mp hf, ?_, ?_, ?_⟩)
        · constructor <;> first | exact hT _ (hf.mem_iff.mpr (by simp)) | simp [code, hmu, Att.traceKfuncMultiMode, htp, h1, h2, hb]
        · simp [Att.traceKfuncMultiMode, Att.Hook.fires]
        · simp [Att.traceKfuncMultiMode, Att.Hook.fires]
      | false =>
        simp only [hb, hfs, Bool.and_false, Bool.false_eq_true, if_false, if_true] at hf
        refine .inr (.inr ⟨by simp [htp], rfl, _, _, perm_two hf, ?_, ?_, ?_, ?_, ?_, ?_⟩)
        · constructor <;> first | exact hT _ (hf.mem_iff.mpr (by simp)) | simp [code, hmu, Att.traceKfuncMultiMode, htp, h1, h2, hb]
        · constructor <;> first | exact hT _ (hf.mem_iff.mpr (by simp)) | simp [code, hmu, Att.traceKfuncMultiMode, htp, h1, h2, hb]
        all_goals simp [Att.traceKfuncMultiMode, Att.Hook.fires]

theorem prog_mode {R : Reader} {S : Src} {τ : Target} {a : Att} {paired wr session stack : Bool} (h : Prog R S τ a paired wr session stack)
    (pid : BitVec 32) (p : Phase) (hw : p = .ret → wr = true) (hs : session = false → wr = true → p = .ret) (hp : session = true → paired = true) :
    Att.mode (Att.cConfig pid a.cfg) (decide (p = .ret)) =
      if paired then (if p = .ret then .sessionExit else .sessionEntry) else (if p = .ret then .exit else .entry) := by
  unfold Att.mode
  rw [Att.cConfig_flag, Att.cConfig_flag, Att.cConfig_flag]
  simp only [Att.option, h.both, h.ret, h.session]
  cases p <;> cases wr <;> cases session <;> cases paired <;> simp_all [KSess.getMode]

/-- The header of a record is read back. -/
theorem sent_header (cc : CConfig) (km : Bool) (md : KSess.Mode) (rt : Rt) (hc : rt.comm.length = 16) :
    ((Att.readHdr (Att.outputEvent cc km md rt)).typ = 1 ∨ (Att.readHdr (Att.outputEvent cc km md rt)).typ = 2) ∧
    ((Att.readHdr (Att.outputEvent cc km md rt)).typ = 2 ↔ Att.evType md = .exit) ∧
    (∃ l k a, (Att.readHdr (Att.outputEvent cc km md rt)).flags = Att.evtFlags cc l k a ∧
      l = ((!cc.flag .both_entry_exit || decide (md = .sessionEntry)) && cc.flag .output_lbr)) ∧
    (Att.readHdr (Att.outputEvent cc km md rt)).sessID = rt.sessID ∧ (Att.readHdr (Att.outputEvent cc km md rt)).kernNs = rt.kernNs ∧
    Att.sizeOfEvent ≤ (Att.outputEvent cc km md rt).length := by
  unfold Att.outputEvent
  simp only []
  generalize hh : Hdr.mk _ _ _ _ _ _ _ _ _ _ _ _ _ _ = hdr
  have hcm : hdr.comm.length = 16 := by rw [← hh]; exact hc
  simp only [List.append_assoc]
  rw [Att.hdr_read_back hdr hcm]
  refine ⟨?_, ?_, ?_, by rw [← hh], by rw [← hh], ?_⟩
  · rw [← hh]; dsimp only; cases Att.evType md <;> simp
  · rw [← hh]; dsimp only; cases Att.evType md <;> simp
  · rw [← hh]; exact ⟨_, _, _, rfl, rfl⟩
  · simp only [List.length_append, Att.hdr_length hdr hcm]; omega

theorem readEvent_hdr {b : List Byte} {s : Sections} (h : Att.readEvent b = some s) : s.hdr = Att.readHdr b := by
  unfold Att.readEvent at h
  simp only [] at h
  repeat' split at h
  all_goals first | (cases h; done) | (cases h; rfl)

theorem rest_text (R : Reader) (s : Sections) {lbr stack : Bool} {nb sid : W} {a : Text}
    (h1 : Att.haveFlag s.hdr.flags (Att.mask Att.idxOutputLbr) = lbr) (h2 : Att.haveFlag s.hdr.flags (Att.mask Att.idxOutputStack) = stack)
    (h3 : s.hdr.lbrRetval = if lbr then nb else 0) (h4 : s.hdr.stackID = if stack then sid else -1)
    (ha : dataPart R s.hdr.funcIP s.data = some a) :
    rest R s = some (pktPart R s.pkt ++ a ++
      (if lbr = true ∧ 0 < nb.toInt then R.lbrText s.hdr else []) ++ (if stack = true ∧ 0 ≤ sid.toInt then R.stackText s.hdr else [])) := by
  have e1 : (Att.haveFlag s.hdr.flags (Att.mask Att.idxOutputLbr) && decide (0 < s.hdr.lbrRetval.toInt)) = decide (lbr = true ∧ 0 < nb.toInt) := by
    rw [h1, h3]; cases lbr <;> simp
  have e2 : (Att.haveFlag s.hdr.flags (Att.mask Att.idxOutputStack) && decide (0 ≤ s.hdr.stackID.toInt)) =
      decide (stack = true ∧ 0 ≤ sid.toInt) := by
    rw [h2, h4]; cases stack <;> simp
  unfold rest
  rw [e1, e2]
  simp only [decide_eq_true_eq, ha, Option.map_some]

theorem multi_size (R : Reader) {g : Globals} {τ : Target} (hr : R.maxArgs = Av.regsNr g.arm64) (hmu : τ.multi = true) (wr : Bool) :
    (code R τ wr).2 < 2 ^ 32 := by
  unfold code Arg.genKmulti
  rw [hmu, if_pos rfl, hr]
  cases wr <;> cases g.arm64 <;> decide

/-- The text of the arguments and the result, read from the copy that the program makes of them. -/
theorem args_text {R : Reader} {g : Globals} {S : Src} {τ : Target} {o : Occ} {args : List W} {res : W} (h : Typed S τ)
    (hs : Hands g S τ o args res) (hb : 8 ≤ R.env.beyond.length) (hr : R.maxArgs = Av.regsNr g.arm64) {wr : Bool} (hw : o.phase = .ret → wr = true)
    (v : W) (hv : o.phase = .ret → v = res) :
    ∃ s' xs y, Arg.execO o.mem (code R τ wr).1 ⟨((o.st.set 1 o.argsAt).set 2 o.bufAt).set 3 v, o.out⟩ = .ret s' ∧
      Ft.args R.env R.maxArgs ⟨some ⟨S.prms, S.ret⟩, τ.params, τ.ret, S.ptype⟩ (decide (o.phase = .ret)) τ.multi
        (Arg.reads s'.out (code R τ wr).2 o.bufAt) =
        some (t "=(" ++ join (t ", ") (xs ++ if τ.multi = true ∧ R.maxArgs < S.prms.length then [t "..."] else []) ++ t ")" ++ y) ∧
      xs.length = (if τ.multi then min S.prms.length R.maxArgs else S.prms.length) ∧
      (∀ i p v a, S.prms[i]? = some p → args[i]? = some v → xs[i]? = some a → ArgShown R S τ o i p v a) ∧
      (o.phase = .call → y = []) ∧
      (o.phase = .ret → ∃ z, y = t " retval=" ++ z ∧ ResShown R S τ o res z) := by
  have r1 : (((o.st.set 1 o.argsAt).set 2 o.bufAt).set 3 v).regs 1 = o.argsAt := by simp [Cc.St.set]
  have r2 : (((o.st.set 1 o.argsAt).set 2 o.bufAt).set 3 v).regs 2 = o.bufAt := by simp [Cc.St.set]
  have r3 : (((o.st.set 1 o.argsAt).set 2 o.bufAt).set 3 v).regs 3 = v := by simp [Cc.St.set]
  unfold code
  cases hmu : τ.multi with
  | false =>
    simp only [Bool.false_eq_true, if_false, false_and, List.append_nil]
    obtain ⟨junk, hst⟩ := hs.stored hmu
    obtain ⟨s', xs, y, hx, hargs, hxl, hxs, hy0, hy1⟩ := Ft.args_kept_partial R.env hb R.maxArgs (m := o.mem) (wr := wr)
      (exit := decide (o.phase = .ret)) (pt := S.ptype)
      (x := ⟨((o.st.set 1 o.argsAt).set 2 o.bufAt).set 3 v, o.out⟩)
      (by simpa using hw) h.params h.len h.simple (fun h1 h2 => h.simpleRet h1 (.inl h2)) h.retStr
    simp only [r1, r2, r3] at hx hargs hxs hy1
    refine ⟨s', xs, y, hx, hargs, hxl, ?_, ?_, ?_⟩
    · intro i p v x hp hv hxi
      have hi : i < args.length := (List.getElem?_eq_some_iff.1 hv).1
      have := hxs i p x hp hxi
      rw [hst i hi, Av.readCtx, if_pos hi, hs.ctx hmu] at this
      unfold ArgShown
      rw [hmu]
      simpa [List.getD, List.getElem?_append_left hi, hv] using this
    · intro hp
      apply hy0
      rw [hp]; rfl
    · intro hp
      obtain ⟨z, hz, hz'⟩ := hy1 (by rw [hp]; rfl)
      rw [hv hp] at hz'
      refine ⟨z, hz, ?_⟩
      unfold ResShown
      rw [hmu]
      exact hz'
  | true =>
    simp only [if_true, true_and]
    have h0 : 0 < R.maxArgs ∧ R.maxArgs ≤ 400 := by rw [hr]; unfold Av.regsNr; split <;> decide
    obtain ⟨s', xs, y, hx, hargs, hxl, hxs, hy0, hy1⟩ := Ft.kmulti_shown_partial R.env hb h0.1 h0.2 (m := o.mem) (wr := wr) (ps := S.prms) (ret := S.ret)
      (fs := τ.params) (fr := τ.ret) (exit := decide (o.phase = .ret)) (pt := S.ptype)
      (x := ⟨((o.st.set 1 o.argsAt).set 2 o.bufAt).set 3 v, o.out⟩)
      (by simpa using hw) (fun p hp => (h.simple p hp).1) (fun h1 => (h.simpleRet h1 (.inr hmu)).1)
    simp only [r1, r2, r3] at hx hargs hxs hy1
    refine ⟨s', xs, y, hx, hargs, hxl, ?_, ?_, ?_⟩
    · intro i p v x hp hv hxi
      have hi : i < Av.regsNr g.arm64 := by
        have := (List.getElem?_eq_some_iff.1 hxi).1
        omega
      have := hxs i p x hp hxi
      rw [hs.storedRegs hmu i hi, Av.readRegs, if_pos hi] at this
      unfold ArgShown
      rw [hmu, if_pos rfl, this]
      cases hph : o.phase with
      | ret => rfl
      | call => rw [hs.call hmu hph i v hi hv]; rfl
    · intro hp
      apply hy0
      rw [hp]; rfl
    · intro hp
      have := hy1 (by rw [hp]; rfl)
      rw [hv hp] at this
      refine ⟨_, this, ?_⟩
      unfold ResShown
      rw [hmu]
      rfl

set_option maxHeartbeats 800000 in
/-- The record of a moment reads back as the text of the moment, whatever the session id. -/
theorem record_text {R : Reader} {g : Globals} {F : Feats} {me : Bool} {S : Src} {τ : Target} {o : Occ} {args : List W} {res : W} (h : Attached R F me S τ)
    (hs : Sees g S τ o args res) (hb : 8 ≤ R.env.beyond.length) (hr : R.maxArgs = Av.regsNr g.arm64)
    (hsz : ∀ wr, (Arg.injectOutputFuncArgs τ.params τ.ret wr).2 < 2 ^ 32)
    (hat : S.fn.data ≠ 0 → ∃ a, R.attrsText τ.ip o.data = some a) (k : Nat) (c : Ln.Clock)
    {a : Att} {wr session stack : Bool} (hP : Prog R S τ a S.paired wr session stack) (hf : a.hook.fires o.phase = some (decide (o.phase = .ret)))
    (hw : o.phase = .ret → wr = true) (hse : session = false → wr = true → o.phase = .ret) (hsp : session = true → S.paired = true)
    (hstk : stack = true ↔ S.fn.flag.stack = true ∧ (S.paired = true → o.phase = .call → F.session τ = true ∨ τ.multi = true)) (sid : W)
    (hsid : (S.paired = true → o.phase = .call) → sid = o.sid) (dur : Option (BitVec 32)) :
    ∃ b x e, record g τ a o (Att.mode (Att.cConfig g.filterPid a.cfg) (decide (o.phase = .ret))) sid = some b ∧
      text R b dur c = some x ∧ Block R F S τ o args res c (Ln.withDuration dur) x ∧
      recOf R k b = .func e ∧ e.typ = (if o.phase = .ret then 2 else 1) ∧ e.kernNs = o.ns ∧ e.sessID = sid ∧ e.isTp = S.fn.isTp ∧
      e.isGraph = S.fn.flag.graph ∧ e.insnMode = S.fn.insn ∧ e.bothMode = S.paired ∧ e.session = session ∧ e.tag = k := by
  have hT := hP.traced
  have hnr : τ.multi = false → a.cfg.fnArgsNr = args.length := by
    intro hmu
    rw [hP.nr, hmu, if_neg (by decide), params_length h.simple h.params, hs.len]
  obtain ⟨t1, t2, t3, t4, t5⟩ := Att.traced_sizes a hT g.filterPid o.phase _ hf
  have hmode := prog_mode hP g.filterPid o.phase hw hse hsp
  generalize hmd : Att.mode (Att.cConfig g.filterPid a.cfg) (decide (o.phase = .ret)) = md at hmode t1 t3 t4 t5 ⊢
  -- the arguments
  have hret : o.phase = .ret → retval τ a md o = res := by
    intro hp
    unfold retval
    have hm : (decide (md = .exit) || decide (md = .sessionExit)) = true := by
      rw [hmode, hp]; cases S.paired <;> simp
    cases hmu : τ.multi with
    | true => rw [if_pos rfl, if_pos hm]; exact hs.rc hmu hp
    | false =>
      rw [hP.ret, hw hp, hm]
      simp only [Bool.and_self, if_true, Bool.false_eq_true, if_false]
      rw [hnr hmu, hs.ctx hmu, if_pos hp]
      simp [List.getD]
  obtain ⟨s', xs, y, hx, hargs, hxl, hxs, hy0, hy1⟩ := args_text h.toTyped hs.toHands hb hr hw (retval τ a md o) hret
  -- the record
  have hcode : outputCode τ a = (code R τ wr).1 := by
    unfold outputCode code
    rw [hP.nr, hP.ret]
    cases τ.multi <;> rfl
  have hemit : record g τ a o md sid = some (Att.outputEvent (Att.cConfig g.filterPid a.cfg) τ.multi md
        { kernNs := o.ns, sessID := sid, funcIP := τ.ip, cpu := o.cpu &&& g.cpuMask, pid := o.pid, comm := o.comm,
          stackID := o.stackID, nrBytes := o.nrBytes, args := Arg.reads s'.out a.cfg.fnArgsBufSz o.bufAt,
          pkt := o.pkt, data := o.data, stale := o.stale }) := by
    unfold record
    rw [hcode, hx]
  generalize hrt : Rt.mk _ _ _ _ _ _ _ _ _ _ _ _ = rt at hemit
  have hsing : τ.multi = true ∧ S.paired = false ∧ wr = true ↔ τ.multi = true ∧ S.paired = false ∧ o.phase = .ret := by
    constructor
    · rintro ⟨h1, h2, h3⟩
      refine ⟨h1, h2, hse ?_ h3⟩
      cases session with
      | false => rfl
      | true => rw [hsp rfl] at h2; cases h2
    · rintro ⟨h1, h2, h3⟩; exact ⟨h1, h2, hw h3⟩
  have hdsz : a.cfg.argDataSz = if τ.multi = true ∧ S.paired = false ∧ o.phase = .ret then 0 else S.fn.data := by
    rw [hP.data]
    by_cases hh : τ.multi = true ∧ S.paired = false ∧ o.phase = .ret
    · rw [if_pos (hsing.2 hh), if_pos hh]
    · rw [if_neg (fun hc => hh (hsing.1 hc)), if_neg hh]
  have hbuf : a.cfg.fnArgsBufSz < 2 ^ 32 := by
    rw [hP.buf]
    cases hmu : τ.multi with
    | true => exact multi_size R hr hmu wr
    | false => unfold code; rw [hmu, if_neg (by decide)]; exact hsz wr
  obtain ⟨hdr, hre, h1, h2, h3, h4, h5, h6, h7, h8, h9⟩ := Att.event_layout a hT g.filterPid o.phase _ hf rt (by rw [← hrt]; exact hs.comm)
    (by rw [← hrt]; exact Arg.reads_length _ _ _) (by rw [← hrt]; exact hs.pkt) (by rw [← hrt, hdsz]; exact hs.data)
    hbuf (by rw [hdsz]; split <;> first | decide | exact h.data)
  rw [hP.multi, hmd] at hre
  obtain ⟨g1, g2, ⟨l, k', a', g3, g3'⟩, g4, g5, g6⟩ := sent_header (Att.cConfig g.filterPid a.cfg) τ.multi md rt (by rw [← hrt]; exact hs.comm)
  have hhdr : hdr = Att.readHdr (Att.outputEvent (Att.cConfig g.filterPid a.cfg) τ.multi md rt) := readEvent_hdr hre
  rw [← hhdr] at g1 g2 g3 g4 g5
  have fl := fun f => Att.event_flags g.filterPid a.cfg l k' a' f
  have f1 : Att.haveFlag hdr.flags (Att.mask Att.idxIsTp) = S.fn.isTp := by
    rw [g3]; exact (fl .is_tp).trans (by simp [Att.option, hP.tp])
  have f2 : Att.haveFlag hdr.flags (Att.mask Att.idxKmultiMode) = τ.multi := by
    rw [g3]; exact (fl .kmulti_mode).trans (by simp [Att.option, hP.multi])
  have f3 : Att.haveFlag hdr.flags (Att.mask Att.idxOutputStack) = stack := by
    rw [g3]; exact (fl .output_stack).trans (by simp [Att.option, hP.stack])
  have hse' : decide (md = .sessionEntry) = (S.paired && decide (o.phase = .call)) := by
    rw [hmode]; cases S.paired <;> cases o.phase <;> simp
  have f4 : Att.haveFlag hdr.flags (Att.mask Att.idxOutputLbr) = l := by
    rw [g3]
    refine (fl .output_lbr).trans ?_
    rw [g3', Att.cConfig_flag, Att.cConfig_flag]
    simp [Att.option, hP.lbr, hP.both]
  have hl : l = true ↔ S.fn.flag.lbr = true ∧ (S.paired = true → o.phase = .call) := by
    rw [g3', hse', Att.cConfig_flag, Att.cConfig_flag]
    simp only [Att.option, hP.lbr, hP.both]
    cases S.paired <;> cases o.phase <;> simp
  have f5 : Att.haveFlag hdr.flags (Att.mask Att.idxInsnMode) = S.fn.insn := by
    rw [g3]; exact (fl .insn_mode).trans (by simp [Att.option, hP.insn])
  have f5' : Att.haveFlag hdr.flags (Att.mask Att.idxGraphMode) = S.fn.flag.graph := by
    rw [g3]; exact (fl .graph_mode).trans (by simp [Att.option, hP.graph])
  have f6 : Att.haveFlag hdr.flags (Att.mask Att.idxBothEntryExit) = S.paired := by
    rw [g3]; exact (fl .both_entry_exit).trans (by simp [Att.option, hP.both])
  have f7 : Att.haveFlag hdr.flags (Att.mask Att.idxIsSession) = session := by
    rw [g3]; exact (fl .is_session).trans (by simp [Att.option, hP.session])
  -- the parts behind the line
  have hdata : ∃ a : Text, (if S.fn.data ≠ 0 ∧ ¬ (τ.multi = true ∧ o.phase = .ret) then R.attrsText τ.ip o.data = some a else a = []) := by
    by_cases h0 : S.fn.data ≠ 0 ∧ ¬ (τ.multi = true ∧ o.phase = .ret)
    · obtain ⟨a, ha⟩ := hat h0.1
      exact ⟨a, by rw [if_pos h0]; exact ha⟩
    · exact ⟨[], by rw [if_neg h0]⟩
  obtain ⟨at', ha⟩ := hdata
  have e1 : rt.pkt = o.pkt := by rw [← hrt]
  have e2 : rt.data = o.data := by rw [← hrt]
  have e3 : hdr.funcIP = τ.ip := by rw [h3, ← hrt]
  have e4 : hdr.cpu = o.cpu := by rw [h4, ← hrt]; exact hs.cpu
  have e5 : hdr.pid = o.pid := by rw [h5, ← hrt]
  have e6 : hdr.comm = o.comm := by rw [h6, ← hrt]
  have e7 : hdr.stackID = if stack then o.stackID else -1 := by rw [h7, ← hrt, hP.stack]
  have e8 : hdr.lbrRetval = if l then o.nrBytes else 0 := by
    rw [h8, ← hrt, hP.lbr, hP.both]
    by_cases hl' : S.fn.flag.lbr = true ∧ (S.paired = true → o.phase = .call)
    · rw [if_pos hl', if_pos (hl.2 hl')]
    · rw [if_neg hl', if_neg fun hh => hl' (hl.1 hh)]
  have e9 : hdr.sessID = sid := by rw [h2, ← hrt]
  have e10 : hdr.kernNs = o.ns := by rw [g5, ← hrt]
  have eargs : rt.args = Arg.reads s'.out (code R τ wr).2 o.bufAt := by rw [← hrt, hP.buf]
  refine ⟨_, _, funcEv hdr k, hemit, ?_, ⟨xs, y, _, rfl, hxl, hxs, hy0, hy1, hdr, at', l, stack, hl, hstk, e3, e4, e5, fun hh => e9.trans (hsid hh), e7, e8,
    ha, rfl⟩, ?_, ?_, e10, e9, f1, f5', f5, f6, f7, rfl⟩
  · unfold text
    rw [hre]
    dsimp only
    generalize hpk : (if (a.cfg.outputPkt && !(τ.multi && decide (o.phase = .ret))) = true then some rt.pkt else none) = pk
    generalize hdt : (if a.cfg.argDataSz ≠ 0 ∧ ¬ (τ.multi = true ∧ o.phase = .ret) then some rt.data else none) = dt
    have hline : line R ⟨hdr, decide (o.phase = .ret), rt.args, pk, dt⟩ dur c =
        some (Ln.event (decide (o.phase = .ret)) S.fn.isTp S.name
          (t "=(" ++ join (t ", ") (xs ++ if τ.multi = true ∧ R.maxArgs < S.prms.length then [t "..."] else []) ++ t ")" ++ y)
          ⟨o.cpu, o.pid, commVec o.comm, dur, c⟩) := by
      unfold line
      dsimp only
      rw [f1, f2, e3, h.info, h.name, eargs, hargs, e4, e5, e6]
      rfl
    rw [hline]
    have hpk' : pk = if (S.fn.flag.pkt && S.fn.hasPkt) = true ∧ ¬ (τ.multi = true ∧ o.phase = .ret) then some o.pkt else none := by
      rw [← hpk, hP.pkt, e1]
      have : ((S.fn.pkt && !(τ.multi && !S.paired && wr)) && !(τ.multi && decide (o.phase = .ret))) =
          decide ((S.fn.flag.pkt && S.fn.hasPkt) = true ∧ ¬ (τ.multi = true ∧ o.phase = .ret)) := by
        rw [show S.fn.pkt = (S.fn.flag.pkt && S.fn.hasPkt) from by simp [Att.Fn.pkt]]
        by_cases hh : τ.multi = true ∧ o.phase = .ret
        · simp [hh.1, hh.2]
        · have h1 : ¬ (τ.multi = true ∧ S.paired = false ∧ wr = true) := fun hc => hh ⟨hc.1, (hsing.1 hc).2.2⟩
          have h2 : (τ.multi && !S.paired && wr) = false := by
            cases hA : τ.multi <;> cases hB : S.paired <;> cases hC : wr <;> simp_all
          have h3 : (τ.multi && decide (o.phase = .ret)) = false := by
            cases hA : τ.multi <;> simp_all
          rw [h2, h3]
          simp [hh]
      rw [this]
      simp only [decide_eq_true_eq]
    have hdt' : dt = if S.fn.data ≠ 0 ∧ ¬ (τ.multi = true ∧ o.phase = .ret) then some o.data else none := by
      rw [← hdt, hdsz, e2]
      by_cases hh : τ.multi = true ∧ o.phase = .ret
      · rw [if_neg (fun hc => hc.2 hh), if_neg (fun hc => hc.2 hh)]
      · rw [if_neg (show ¬ (τ.multi = true ∧ S.paired = false ∧ o.phase = .ret) from fun hc => hh ⟨hc.1, hc.2.2⟩)]
    have hrest : rest R ⟨hdr, decide (o.phase = .ret), rt.args, pk, dt⟩ =
        some ((if (S.fn.flag.pkt && S.fn.hasPkt) = true ∧ ¬ (τ.multi = true ∧ o.phase = .ret) then R.pktText o.pkt else []) ++ at' ++
          (if l = true ∧ 0 < o.nrBytes.toInt then R.lbrText hdr else []) ++
          (if stack = true ∧ 0 ≤ o.stackID.toInt then R.stackText hdr else [])) := by
      have := rest_text R ⟨hdr, decide (o.phase = .ret), rt.args, pk, dt⟩ f4 f3 e8 e7 (a := at') (by
        rw [e3]
        show dataPart R τ.ip dt = some at'
        rw [hdt']
        by_cases h0 : S.fn.data ≠ 0 ∧ ¬ (τ.multi = true ∧ o.phase = .ret)
        · rw [if_pos h0] at ha ⊢; exact ha
        · rw [if_neg h0] at ha ⊢; rw [ha]; rfl)
      rw [this, hpk']
      by_cases h0 : (S.fn.flag.pkt && S.fn.hasPkt) = true ∧ ¬ (τ.multi = true ∧ o.phase = .ret)
      · simp only [if_pos h0]; rfl
      · simp only [if_neg h0]; rfl
    rw [hrest]
    simp only [Ln.event, Ln.func, Ln.head, comm_text _ hs.comm]
    simp [t, Ln.t]
  · unfold recOf
    dsimp only
    rw [if_neg, if_neg, if_neg (by omega), hhdr]
    · show ¬ ((Att.readHdr _).typ.toNat = 4 ∨ (Att.readHdr _).typ.toNat = 5)
      rw [← hhdr]
      rcases g1 with g1 | g1 <;> rw [g1] <;> decide
    · show ¬ ((Att.readHdr _).typ.toNat = 3)
      rw [← hhdr]
      rcases g1 with g1 | g1 <;> rw [g1] <;> decide
  · show hdr.typ.toNat = _
    rw [t1] at g2
    cases hp : o.phase with
    | ret => rw [g2.2 (by rw [hp]; rfl)]; rfl
    | call =>
      rcases g1 with g1 | g1
      · rw [g1]; rfl
      · have := g2.1 g1
        rw [hp] at this
        cases this

theorem text_isSome {R : Reader} {b : List Byte} {d d' : Option (BitVec 32)} {c : Ln.Clock} {x : Text} (h : text R b d c = some x) :
    (text R b d' c).isSome = true := by
  unfold text at h ⊢
  split at h
  · cases h
  · next s hs =>
    cases hl : line R s d c with
    | none => rw [hl] at h; cases h
    | some y =>
      have hl' : ∃ z, line R s d' c = some z := by
        unfold line at hl ⊢
        simp only [Option.map_eq_some_iff] at hl ⊢
        obtain ⟨a, ha, _⟩ := hl
        exact ⟨_, a, ha, rfl⟩
      obtain ⟨z, hz⟩ := hl'
      rw [hl] at h
      rw [hz]
      cases hr : rest R s with
      | none => rw [hr] at h; cases h
      | some w => rfl

theorem shows_func {R : Reader} {k : Nat} {b : List Byte} {e : Run.FuncEv} {d : Option (BitVec 32)} {c : Ln.Clock} {x : Text}
    (hr : recOf R k b = .func e) (h : text R b d c = some x) : shows R (b, c) = true := by
  have : ∃ e', recOf R 0 b = .func e' := by
    unfold recOf at hr ⊢
    simp only [] at hr ⊢
    split at hr
    · cases hr
    · split at hr
      · cases hr
      · split at hr
        · cases hr
        · next h1 h2 h3 =>
          rw [if_neg h1, if_neg h2, if_neg h3]
          exact ⟨_, rfl⟩
  obtain ⟨e', he⟩ := this
  unfold shows
  rw [he]
  exact text_isSome h

/-- Tracing is on and the process is one to be traced. -/
def Pass (g : Globals) (o : Occ) : Prop := g.ready = true ∧ o.pid ≠ g.self ∧ (g.filterPid = 0 ∨ o.pid = g.filterPid)

theorem pass_iff (g : Globals) (o : Occ) : (g.ready && Asm.pidOk g.self g.filterPid o.pid) = true ↔ Pass g o := by
  simp only [Asm.pidOk, Bool.and_eq_true, Bool.not_eq_true', beq_eq_false_iff_ne, Bool.and_eq_false_iff, bne_eq_false_iff_eq, Pass]

theorem wanted_iff {R : Reader} {g : Globals} {F : Feats} {me : Bool} {S : Src} {τ : Target} {o : Occ} {args : List W} {res : W}
    (h : Attached R F me S τ) (hs : Sees g S τ o args res) (hr : R.maxArgs = Av.regsNr g.arm64) :
    Wanted g me S o args ↔ Pass g o ∧ (o.phase = .ret ↔ me = true ∧ S.fn.isTp = false ∧ S.paired = false) ∧ filters g τ o = true := by
  unfold Wanted Pass
  by_cases hc : o.phase = .ret ↔ me = true ∧ S.fn.isTp = false ∧ S.paired = false
  · unfold filters
    rw [Bool.and_eq_true, packet_answer h hs hr (by unfold Av.regsNr; split <;> omega) (by
      intro hmu
      cases hph : o.phase with
      | call => exact .inl rfl
      | ret =>
        obtain ⟨c1, _, c3⟩ := hc.1 hph
        have hno : ¬ (me = false ∨ S.paired = true) := by rw [c1, c3]; simp
        rcases h.pkt with ⟨h1, h2 | ⟨_, _, h2⟩⟩ | ⟨f, _, _, _, h2⟩
        · exact .inr ⟨h1, h2⟩
        · exact absurd h2 hno
        · exact absurd (h2 hmu).2 hno), filter_answer h hs hr (by
      intro hmu
      cases hph : o.phase with
      | call => exact .inl rfl
      | ret =>
        obtain ⟨c1, _, c3⟩ := hc.1 hph
        rcases h.filter with ⟨h1, _⟩ | ⟨f, p, _, _, _, h1⟩
        · exact .inr h1
        · rcases h1 hmu with h1 | h1
          · rw [c1] at h1; cases h1
          · rw [c3] at h1; cases h1)]
    constructor
    · rintro ⟨h1, h2, h3, h4, h5, h6⟩; exact ⟨⟨h1, h2, h3⟩, h4, h5, h6⟩
    · rintro ⟨⟨h1, h2, h3⟩, h4, h5, h6⟩; exact ⟨h1, h2, h3, h4, h5, h6⟩
  · constructor
    · rintro ⟨_, _, _, h4, _⟩; exact absurd h4 hc
    · rintro ⟨_, h4, _⟩; exact absurd h4 hc

theorem emit_off (g : Globals) (τ : Target) (a : Att) (o : Occ) (s : Att.SSt) (h : a.hook.fires o.phase = none ∨ ¬ Pass g o) :
    emit g τ a o s = (s, none) := by
  unfold emit
  rcases h with h | h
  · rw [h]
  · split
    · rfl
    · dsimp only
      rw [if_pos]
      rw [← pass_iff, Bool.not_eq_true] at h
      rw [h]; rfl

theorem emit_on {R : Reader} {g : Globals} {S : Src} {τ : Target} {a : Att} {o : Occ} (s : Att.SSt) {wr session stack : Bool}
    (hP : Prog R S τ a S.paired wr session stack) (hf : a.hook.fires o.phase = some (decide (o.phase = .ret)))
    (hw : o.phase = .ret → wr = true) (hse : session = false → wr = true → o.phase = .ret) (hsp : session = true → S.paired = true)
    (hp : Pass g o) :
    emit g τ a o s =
      if S.paired then
        ((Att.sstep session s (if o.phase = .ret then .exit o.call ⟨o.pidTgid, τ.ip⟩
            else .enter o.call ⟨o.pidTgid, τ.ip⟩ o.sid (filters g τ o) o.staleIds o.full)).1,
          (Att.sstep session s (if o.phase = .ret then .exit o.call ⟨o.pidTgid, τ.ip⟩
            else .enter o.call ⟨o.pidTgid, τ.ip⟩ o.sid (filters g τ o) o.staleIds o.full)).2.bind
              fun e => record g τ a o (Att.mode (Att.cConfig g.filterPid a.cfg) (decide (o.phase = .ret))) (sidOf e))
      else (s, if filters g τ o then record g τ a o (Att.mode (Att.cConfig g.filterPid a.cfg) (decide (o.phase = .ret))) o.sid else none) := by
  have hfl : (Att.cConfig g.filterPid a.cfg).flag .is_session = session := by
    rw [Att.cConfig_flag]; exact hP.session
  have hmode := prog_mode hP g.filterPid o.phase hw hse hsp
  unfold emit
  rw [hf]
  dsimp only
  rw [if_neg (by rw [(pass_iff g o).2 hp]; decide), hfl]
  generalize Att.mode (Att.cConfig g.filterPid a.cfg) (decide (o.phase = .ret)) = md at hmode ⊢
  subst hmode
  cases S.paired <;> cases o.phase <;> simp

theorem single_moment {R : Reader} {g : Globals} {F : Feats} {me : Bool} {S : Src} {τ : Target} {o : Occ} {args : List W} {res : W} (h : Attached R F me S τ)
    (hs : Sees g S τ o args res) (hb : 8 ≤ R.env.beyond.length) (hr : R.maxArgs = Av.regsNr g.arm64)
    (hsz : ∀ wr, (Arg.injectOutputFuncArgs τ.params τ.ret wr).2 < 2 ^ 32)
    (hat : S.fn.data ≠ 0 → ∃ a, R.attrsText τ.ip o.data = some a) (k : Nat) (c : Ln.Clock)
    (hpr : S.paired = false) (s : Att.SSt) :
    (¬ Wanted g me S o args → emits g τ o τ.atts s = (s, [])) ∧
    (Wanted g me S o args → ∃ b x, emits g τ o τ.atts s = (s, [b]) ∧ shows R (b, c) = true ∧ text R b none c = some x ∧ Block R F S τ o args res c [] x ∧
      ∀ d ss, Run.handle d ss (recOf R k b) = some (ss, some [.func k none])) := by
  rcases attached_cases h with ⟨_, a, b, hat', hP, hbe, hf1, hf2⟩ | ⟨hc, _⟩ | ⟨hc, _⟩
  case inr.inl => rw [hpr] at hc; cases hc
  case inr.inr => rw [hpr] at hc; cases hc
  have hphase : (o.phase = .ret ↔ me = true ∧ S.fn.isTp = false ∧ S.paired = false) ↔ (o.phase = .ret ↔ b = true) := by
    rw [hbe, hpr]; cases S.fn.isTp <;> cases me <;> simp
  have hfires : (o.phase = .ret ↔ b = true) → a.hook.fires o.phase = some (decide (o.phase = .ret)) := by
    intro hh
    cases hp : o.phase with
    | call =>
      have : b = false := by
        cases b with
        | false => rfl
        | true => have := hh.2 rfl; rw [hp] at this; cases this
      rw [hf1, this]; rfl
    | ret => rw [hf2, hh.1 hp]; rfl
  have hnone : ¬ (o.phase = .ret ↔ b = true) → a.hook.fires o.phase = none := by
    intro hh
    cases hp : o.phase with
    | call =>
      have : b = true := by
        cases b with
        | true => rfl
        | false => exact absurd (by rw [hp]; simp) hh
      rw [hf1, this]; rfl
    | ret =>
      have : b = false := by
        cases b with
        | false => rfl
        | true => exact absurd (by rw [hp]; simp) hh
      rw [hf2, this]; rfl
  have hP' : Prog R S τ a S.paired b false S.fn.flag.stack := by rw [hpr]; exact hP
  rw [wanted_iff h hs hr, hphase, hat']
  simp only [emits, List.append_nil]
  constructor
  · intro hn
    have : emit g τ a o s = (s, none) := by
      by_cases h1 : Pass g o
      · by_cases h2 : o.phase = .ret ↔ b = true
        · rw [emit_on s hP' (hfires h2) h2.1 (fun _ hh => h2.2 hh) (by simp) h1, hpr]
          simp only [Bool.false_eq_true, if_false]
          rw [if_neg fun h3 => hn ⟨h1, h2, h3⟩]
        · exact emit_off _ _ _ _ _ (.inl (hnone h2))
      · exact emit_off _ _ _ _ _ (.inr h1)
    rw [this]
    rfl
  · rintro ⟨h1, h2, h3⟩
    obtain ⟨bb, x, e, i1, i2, i3, i4, i5, i6, i7, i8, i9, i10, i11, i12, i13⟩ := record_text h hs hb hr hsz hat k c hP' (hfires h2) h2.1
      (fun _ hh => h2.2 hh) (by simp) (by rw [hpr]; simp) o.sid (fun _ => rfl) none
    refine ⟨bb, x, ?_, shows_func i4 i2, i2, i3, ?_⟩
    · rw [emit_on s hP' (hfires h2) h2.1 (fun _ hh => h2.2 hh) (by simp) h1, hpr]
      simp only [Bool.false_eq_true, if_false, h3, if_true, i1]
      rfl
    · intro d ss
      rw [i4, ← i13]
      have hin : S.fn.insn = false := by
        cases hh : S.fn.insn with
        | false => rfl
        | true => simp [Src.paired, hh, (h.insn (.inl hh)).2] at hpr
      have hgr : S.fn.flag.graph = false := by
        cases hh : S.fn.flag.graph with
        | false => rfl
        | true => simp [Src.paired, hh, (h.insn (.inr hh)).2] at hpr
      exact (Run.printed_at_once_iff d ss _).1 ⟨i10.trans hin, i12, .inr ⟨i9.trans hgr, i11.trans hpr⟩⟩

/-- The call of a function traced at both ends. -/
theorem call_moment {R : Reader} {g : Globals} {F : Feats} {me : Bool} {S : Src} {τ : Target} {o : Occ} {args : List W} {res : W} (h : Attached R F me S τ)
    (hs : Sees g S τ o args res) (hb : 8 ≤ R.env.beyond.length) (hr : R.maxArgs = Av.regsNr g.arm64)
    (hsz : ∀ wr, (Arg.injectOutputFuncArgs τ.params τ.ret wr).2 < 2 ^ 32)
    (hat : S.fn.data ≠ 0 → ∃ a, R.attrsText τ.ip o.data = some a) (k : Nat) (c : Ln.Clock)
    (hpr : S.paired = true) (hph : o.phase = .call) (s : Att.SSt) :
    (¬ Wanted g me S o args → emits g τ o τ.atts s = (s, [])) ∧
    (Wanted g me S o args → ∃ b x,
      emits g τ o τ.atts s = ((Att.sstep (F.session τ) s (.enter o.call ⟨o.pidTgid, τ.ip⟩ o.sid true o.staleIds o.full)).1, [b]) ∧
      shows R (b, c) = true ∧ text R b none c = some x ∧ Block R F S τ o args res c [] x ∧
      ∀ d ss, Run.handle d ss (recOf R k b) = some (Run.set ss o.sid (some ⟨o.ns, [.func k none], if S.fn.flag.graph then [o.ns] else [], 0⟩), none)) := by
  have hne : o.phase ≠ .ret := by rw [hph]; decide
  have key : ∃ a wr stack, Prog R S τ a S.paired wr (F.session τ) stack ∧ a.hook.fires o.phase = some (decide (o.phase = .ret)) ∧
      (F.session τ = false → wr = true → o.phase = .ret) ∧ (stack = true ↔ S.fn.flag.stack = true ∧ (S.paired = true → o.phase = .call → F.session τ = true ∨ τ.multi = true)) ∧
      ∀ q, emit g τ a o s = q → emits g τ o τ.atts s = (q.1, q.2.toList) := by
    rcases attached_cases h with ⟨hc, _⟩ | ⟨_, hfs, a, hat', hP, hf1, hf2⟩ | ⟨_, hfs, a1, a2, hat', hP1, hP2, hf1, hf2, hf3, hf4⟩
    · rw [hpr] at hc; cases hc
    · refine ⟨a, true, _, by rw [hpr, hfs]; exact hP, by rw [hph, hf1]; rfl, by rw [hfs]; simp, by rw [hfs]; simp, ?_⟩
      intro q hq
      rw [hat']
      simp only [emits, hq, List.append_nil]
    · refine ⟨a1, false, _, by rw [hpr, hfs]; exact hP1, by rw [hph, hf1]; rfl, by simp, by rw [hfs, hpr, hph]; cases τ.multi <;> simp, ?_⟩
      intro q hq
      rcases hat' with hat' | hat' <;> rw [hat']
      · simp only [emits, hq, emit_off g τ a2 o q.1 (.inl (by rw [hph, hf3])), Option.toList_none, List.append_nil]
      · simp only [emits, emit_off g τ a2 o s (.inl (by rw [hph, hf3])), hq, List.append_nil]
        rfl
  obtain ⟨a, wr, stack, hP, hf, hse, hstk, hq⟩ := key
  rw [wanted_iff h hs hr]
  have hcond : (o.phase = .ret ↔ me = true ∧ S.fn.isTp = false ∧ S.paired = false) := by rw [hph, hpr]; simp
  constructor
  · intro hn
    by_cases h1 : Pass g o
    · have h3 : filters g τ o = false := by
        cases hh : filters g τ o with
        | false => rfl
        | true => exact absurd ⟨h1, hcond, hh⟩ hn
      rw [hq _ (emit_on s hP hf (fun hh => absurd hh hne) hse (fun _ => hpr) h1), hpr, h3]
      simp only [if_true, if_neg hne]
      rfl
    · rw [hq _ (emit_off g τ a o s (.inr h1))]
      rfl
  · rintro ⟨h1, _, h3⟩
    obtain ⟨bb, x, e, i1, i2, i3, i4, i5, i6, i7, i8, i9, i10, i11, i12, i13⟩ := record_text h hs hb hr hsz hat k c hP hf
      (fun hh => absurd hh hne) hse (fun _ => hpr) hstk o.sid (fun _ => rfl) none
    refine ⟨bb, x, ?_, shows_func i4 i2, i2, i3, ?_⟩
    · rw [hq _ (emit_on s hP hf (fun hh => absurd hh hne) hse (fun _ => hpr) h1), hpr, h3]
      simp only [if_true, if_neg hne]
      have : (Att.sstep (F.session τ) s (.enter o.call ⟨o.pidTgid, τ.ip⟩ o.sid true o.staleIds o.full)).2 = some (.entry ⟨o.pidTgid, τ.ip⟩ o.sid) := by
        unfold Att.sstep; cases F.session τ <;> rfl
      rw [this]
      simp only [Option.bind_some, sidOf, i1]
      rfl
    · intro d ss
      rw [i4]
      rw [if_neg hne] at i5
      have htp : S.fn.isTp = false := by
        have := hpr; simp only [Src.paired, Bool.and_eq_true, Bool.not_eq_true'] at this; exact this.2
      have hreq : e.requiredSession = true := by
        unfold Run.FuncEv.requiredSession
        rw [i11, hpr, i8, htp]; simp
      unfold Run.handle
      simp only [hreq, if_true, i5, i7, i6, i9, i13, Run.mkSession, Bool.false_eq_true, if_false, List.nil_append]

/-- The return of a function traced at both ends. -/
theorem return_moment {R : Reader} {g : Globals} {F : Feats} {me : Bool} {S : Src} {τ : Target} {o : Occ} {args : List W} {res : W} (h : Attached R F me S τ)
    (hs : Sees g S τ o args res) (hb : 8 ≤ R.env.beyond.length) (hr : R.maxArgs = Av.regsNr g.arm64)
    (hsz : ∀ wr, (Arg.injectOutputFuncArgs τ.params τ.ret wr).2 < 2 ^ 32)
    (hat : S.fn.data ≠ 0 → ∃ a, R.attrsText τ.ip o.data = some a) (k : Nat) (c : Ln.Clock)
    (hpr : S.paired = true) (hph : o.phase = .ret) (s : Att.SSt) :
    (¬ Pass g o → emits g τ o τ.atts s = (s, [])) ∧
    (Pass g o → (Att.sstep (F.session τ) s (.exit o.call ⟨o.pidTgid, τ.ip⟩)).2 = none →
      emits g τ o τ.atts s = ((Att.sstep (F.session τ) s (.exit o.call ⟨o.pidTgid, τ.ip⟩)).1, [])) ∧
    (Pass g o → ∀ q sid dur, (Att.sstep (F.session τ) s (.exit o.call ⟨o.pidTgid, τ.ip⟩)).2 = some (.exit q sid) →
      ∃ b x e, emits g τ o τ.atts s = ((Att.sstep (F.session τ) s (.exit o.call ⟨o.pidTgid, τ.ip⟩)).1, [b]) ∧
        shows R (b, c) = true ∧ text R b (some dur) c = some x ∧ Block R F S τ o args res c (durText dur) x ∧ recOf R k b = .func e ∧ e.requiredSession = true ∧
        e.typ = 2 ∧ e.kernNs = o.ns ∧ e.sessID = sid ∧ e.tag = k) := by
  have key : ∃ a wr stack, Prog R S τ a S.paired wr (F.session τ) stack ∧ a.hook.fires o.phase = some (decide (o.phase = .ret)) ∧
      (o.phase = .ret → wr = true) ∧ (stack = true ↔ S.fn.flag.stack = true ∧ (S.paired = true → o.phase = .call → F.session τ = true ∨ τ.multi = true)) ∧
      ∀ q, emit g τ a o s = q → emits g τ o τ.atts s = (q.1, q.2.toList) := by
    rcases attached_cases h with ⟨hc, _⟩ | ⟨_, hfs, a, hat', hP, hf1, hf2⟩ | ⟨_, hfs, a1, a2, hat', hP1, hP2, hf1, hf2, hf3, hf4⟩
    · rw [hpr] at hc; cases hc
    · refine ⟨a, true, _, by rw [hpr, hfs]; exact hP, by rw [hph, hf2]; rfl, fun _ => rfl, by rw [hph]; simp, ?_⟩
      intro q hq
      rw [hat']
      simp only [emits, hq, List.append_nil]
    · refine ⟨a2, true, _, by rw [hpr, hfs]; exact hP2, by rw [hph, hf4]; rfl, fun _ => rfl, by rw [hph]; simp, ?_⟩
      intro q hq
      rcases hat' with hat' | hat' <;> rw [hat']
      · simp only [emits, emit_off g τ a1 o s (.inl (by rw [hph, hf2])), hq, List.append_nil]
        rfl
      · simp only [emits, hq, emit_off g τ a1 o q.1 (.inl (by rw [hph, hf2])), Option.toList_none, List.append_nil]
  obtain ⟨a, wr, stack, hP, hf, hw, hstk, hq⟩ := key
  have hon := fun h1 => hq _ (emit_on s hP hf hw (fun _ _ => hph) (fun _ => hpr) h1)
  rw [hpr, if_pos rfl, if_pos hph] at hon
  refine ⟨fun h1 => ?_, fun h1 h2 => ?_, fun h1 q sid dur h2 => ?_⟩
  · rw [hq _ (emit_off g τ a o s (.inr h1))]
    rfl
  · rw [hon h1, h2]; rfl
  · obtain ⟨bb, x, e, i1, i2, i3, i4, i5, i6, i7, i8, i9, i10, i11, i12, i13⟩ := record_text h hs hb hr hsz hat k c hP hf
      hw (fun _ _ => hph) (fun _ => hpr) hstk sid (fun hh => by rw [hph] at hh; cases hh hpr) (some dur)
    refine ⟨bb, x, e, ?_, shows_func i4 i2, i2, i3, i4, ?_, by rw [i5, if_pos hph], i6, i7, i13⟩
    · rw [hon h1, h2]
      simp only [Option.bind_some, sidOf, i1]
      rfl
    · have htp : S.fn.isTp = false := by
        have := hpr; simp only [Src.paired, Bool.and_eq_true, Bool.not_eq_true'] at this; exact this.2
      unfold Run.FuncEv.requiredSession
      rw [i11, hpr, i8, htp]; simp

/-! ### A history -/

theorem recs_append (a b : List (List Byte × Ln.Clock)) : ∀ k,
    recs R k (a ++ b) = recs R k a ++ recs R (k + a.length) b := by
  induction a with
  | nil => intro k; simp [recs]
  | cons x a ih =>
    intro k
    obtain ⟨x1, x2⟩ := x
    simp only [List.cons_append, recs, ih, List.length_cons]
    rw [show k + 1 + a.length = k + (a.length + 1) from by omega]

/-- The conditions under which the theorems speak of a moment: the programs are those that are attached, the kernel hands over the call, sizes
fit, and the outputs of `--output-arg` can be shown; a function that is traced both with and without `(m)` is traced with session programs
both times or none (`ses`); one that is traced at both ends and is in the map of the functions of graphs is the root of one (else
`Run.graph_on_plain_session_violated`). -/
structure Moment.Ok (R : Reader) (g : Globals) (F : Feats) (me : Bool) (ses : W → Bool) (x : Moment) : Prop where
  attached : Attached R F me x.S x.τ
  sees : Sees g x.S x.τ x.o x.args x.res
  size : ∀ wr, (Arg.injectOutputFuncArgs x.τ.params x.τ.ret wr).2 < 2 ^ 32
  attrs : x.S.fn.data ≠ 0 → ∃ a, R.attrsText x.τ.ip x.o.data = some a
  same : F.session x.τ = ses x.τ.ip
  root : ∀ a, g.fip a = x.τ.ip → x.S.paired = true → x.S.fn.flag.graph = true

/-- The conditions under which the theorems speak of an instruction: the reader has it in its table, under the name of its function. Partial: the
function is not traced with session programs (`Ir.fsession_violated`). -/
structure IMoment.Ok (R : Reader) (ses : W → Bool) (x : IMoment) : Prop where
  table : R.insns x.ip = some (x.name, x.desc)
  noSession : ses x.func = false

/-- The conditions under which the theorems speak of a function of a graph: the reader knows it, with its name and prototype and the sizes of what its programs copy; the
record is less than 64 KiB, which is the field for its size, and has 32 bytes behind it (`graph_record_violated`). Partial: no session programs (`Cg.fsession_violated`,
`Att.graph_fsession_violated`). -/
structure GMoment.Ok (R : Reader) (g : Globals) (ses : W → Bool) (x : GMoment) : Prop where
  typed : Typed x.S x.τ
  hands : Hands g x.S x.τ x.o x.args x.res
  single : x.τ.multi = false
  known : ∃ G, R.graphs x.τ.ip = some G ∧ G.info = ⟨some ⟨x.S.prms, x.S.ret⟩, x.τ.params, x.τ.ret, x.S.ptype⟩ ∧
    G.argsSz = (Att.graphSizes false x.τ.params x.τ.ret).1 ∧ Ln.name R.tables x.τ.ip (some G.fn) false = x.S.name
  size : ∀ wr, 32 + (Arg.injectOutputFuncArgs x.τ.params x.τ.ret wr).2 < 2 ^ 16
  behind : ∀ b, 32 ≤ (R.behind b).length
  noSession : g.fsession = false ∧ ∀ p ∈ x.around, ses p.2 = false
  depth : 1 ≤ g.maxDepth ∧ g.maxDepth < 2 ^ 32

/-- The conditions on what happens. -/
def Ev.Ok (R : Reader) (g : Globals) (F : Feats) (me : Bool) (ses : W → Bool) : Ev → Prop
  | .fn x => x.Ok R g F me ses
  | .insn x => x.Ok R ses
  | .graph x => x.Ok R g ses

/-- What has to be shown, from a point of the history on: `pre` are the records read before. -/
def Goes (R : Reader) (g : Globals) (F : Feats) (me : Bool) (d : Int)
    (pre : List (List Byte × Ln.Clock)) (s : Att.SSt) (ss : Run.Sessions) (op : Nat → Option Open) (ms : List Ev) : Prop :=
  ∃ bs ts ss', Run.steps d ss (recs R pre.length (sent g s ms)) = some (ss', bs) ∧
    blocks R (pre ++ sent g s ms) bs = some ts ∧ Shown R g F me d op ms ts ∧ ∀ r ∈ sent g s ms, shows R r = true

section
variable {R : Reader} {g : Globals} {F : Feats} {me : Bool} {d : Int}
  {pre : List (List Byte × Ln.Clock)} {s s' : Att.SSt} {ss ss' : Run.Sessions} {op op' : Nat → Option Open} {x : Moment} {ev : Ev} {ms : List Ev}

theorem sent_none (h : emits g x.τ x.o x.τ.atts s = (s', [])) (ms : List Ev) : sent g s (.fn x :: ms) = sent g s' ms := by
  simp only [sent, h]; rfl

theorem sent_one {b : List Byte} (h : emits g x.τ x.o x.τ.atts s = (s', [b])) (ms : List Ev) : sent g s (.fn x :: ms) = (b, x.clock) :: sent g s' ms := by
  simp only [sent, h]; rfl

theorem sent_insn {i : IMoment} (h : Ir.insnProg i.ip i.func g.ready s.1 i.pidTgid ⟨i.ip, i.ns, i.cpu⟩ i.pad = none) (ms : List Ev) :
    sent g s (.insn i :: ms) = sent g s ms := by
  simp only [sent, h]; rfl

theorem sent_insn_one {i : IMoment} {b : List Byte} (h : Ir.insnProg i.ip i.func g.ready s.1 i.pidTgid ⟨i.ip, i.ns, i.cpu⟩ i.pad = some b) (ms : List Ev) :
    sent g s (.insn i :: ms) = (b, i.clock) :: sent g s ms := by
  simp only [sent, h]; rfl

theorem sent_graph {i : GMoment} (h : gemit g i.τ i.o i.stack s = none) (ms : List Ev) : sent g s (.graph i :: ms) = sent g s ms := by
  simp only [sent, h]; rfl

theorem sent_graph_one {i : GMoment} {b : List Byte} (h : gemit g i.τ i.o i.stack s = some b) (ms : List Ev) :
    sent g s (.graph i :: ms) = (b, i.clock) :: sent g s ms := by
  simp only [sent, h]; rfl

theorem step_none (h : sent g s (ev :: ms) = sent g s' ms) (hg : Goes R g F me d pre s' ss op' ms)
    (hs : ∀ ts, Shown R g F me d op' ms ts → Shown R g F me d op (ev :: ms) ts) : Goes R g F me d pre s ss op (ev :: ms) := by
  obtain ⟨bs, ts, ss1, h1, h2, h3, h4⟩ := hg
  exact ⟨bs, ts, ss1, by rw [h]; exact h1, by rw [h]; exact h2, hs _ h3, by rw [h]; exact h4⟩

theorem step_quiet {b : List Byte} {c : Ln.Clock} (h : sent g s (ev :: ms) = (b, c) :: sent g s' ms) (hsh : shows R (b, c) = true)
    (hh : Run.handle d ss (recOf R pre.length b) = some (ss', none))
    (hg : Goes R g F me d (pre ++ [(b, c)]) s' ss' op' ms)
    (hs : ∀ ts, Shown R g F me d op' ms ts → Shown R g F me d op (ev :: ms) ts) : Goes R g F me d pre s ss op (ev :: ms) := by
  obtain ⟨bs, ts, ss1, h1, h2, h3, h4⟩ := hg
  refine ⟨bs, ts, ss1, ?_, ?_, hs _ h3, ?_⟩
  · simp only [h, recs, Run.steps, hh, Option.bind_eq_bind, Option.bind_some]
    rw [List.length_append] at h1
    rw [show pre.length + [(b, c)].length = pre.length + 1 from rfl] at h1
    rw [h1]
    rfl
  · rw [h]
    rw [List.append_assoc] at h2
    exact h2
  · intro r hr
    rw [h] at hr
    rcases List.mem_cons.1 hr with rfl | hr
    · exact hsh
    · exact h4 r hr

theorem step_loud {b : List Byte} {c : Ln.Clock} {items : List Run.Item} {y : Text} (h : sent g s (ev :: ms) = (b, c) :: sent g s' ms) (hsh : shows R (b, c) = true)
    (hh : Run.handle d ss (recOf R pre.length b) = some (ss', some items))
    (hy : ∀ suf, blockText R (pre ++ (b, c) :: suf) items = some y)
    (hg : Goes R g F me d (pre ++ [(b, c)]) s' ss' op' ms)
    (hs : ∀ ts, Shown R g F me d op' ms ts → Shown R g F me d op (ev :: ms) (y :: ts)) : Goes R g F me d pre s ss op (ev :: ms) := by
  obtain ⟨bs, ts, ss1, h1, h2, h3, h4⟩ := hg
  refine ⟨items :: bs, y :: ts, ss1, ?_, ?_, hs _ h3, ?_⟩
  · simp only [h, recs, Run.steps, hh, Option.bind_eq_bind, Option.bind_some]
    rw [List.length_append] at h1
    rw [show pre.length + [(b, c)].length = pre.length + 1 from rfl] at h1
    rw [h1]
    rfl
  · rw [List.append_assoc] at h2
    have h2' : blocks R (pre ++ (b, c) :: sent g s' ms) bs = some ts := h2
    rw [h]
    simp only [blocks, hy, h2']
  · intro r hr
    rw [h] at hr
    rcases List.mem_cons.1 hr with rfl | hr
    · exact hsh
    · exact h4 r hr

end

theorem blocks_take {R : Reader} {evs : List (List Byte × Ln.Clock)} : ∀ {bs : List (List Run.Item)} {ts : List Text} (n : Nat),
    blocks R evs bs = some ts → blocks R evs (bs.take n) = some (ts.take n)
  | [], ts, n, h => by cases h; simp [blocks]
  | b :: bs, ts, 0, h => by simp [blocks]
  | b :: bs, ts, n + 1, h => by
    unfold blocks at h
    split at h
    · next x y hx hy =>
      cases h
      rw [List.take_succ_cons, List.take_succ_cons, blocks, hx, blocks_take n hy]
    · cases h

/-! ### Calls and returns -/

theorem put_same {α : Type} [DecidableEq α] {β : Type} (f : α → β) (a : α) (b : β) : put f a b a = b := by simp [put]

theorem put_other {α : Type} [DecidableEq α] {β : Type} (f : α → β) {a c : α} (b : β) (h : c ≠ a) : put f a b c = f c := by simp [put, h]

/-- The open calls that are in the map of sessions. -/
def inMap (ses : W → Bool) (st : KSess.Key → List (Nat × Option W)) : KSess.Calls := fun k => if ses k.funcIP then [] else (st k).map (·.2)

theorem item_more {R : Reader} {evs : List (List Byte × Ln.Clock)} (l : List (List Byte × Ln.Clock)) {j : Run.Item} {x : Text}
    (h : itemText R evs j = some x) : itemText R (evs ++ l) j = some x := by
  have key : ∀ {tag : Nat} {p : List Byte × Ln.Clock}, evs[tag]? = some p → (evs ++ l)[tag]? = some p := by
    intro tag p he
    rw [List.getElem?_append_left (List.getElem?_eq_some_iff.1 he).1, he]
  cases j with
  | func tag d =>
    simp only [itemText] at h ⊢
    cases he : evs[tag]? with
    | none => rw [he] at h; cases h
    | some p => rw [he] at h; rw [key he]; exact h
  | insn tag d =>
    simp only [itemText] at h ⊢
    cases he : evs[tag]? with
    | none => rw [he] at h; cases h
    | some p => rw [he] at h; rw [key he]; exact h
  | graph tag c d =>
    simp only [itemText] at h ⊢
    cases he : evs[tag]? with
    | none => rw [he] at h; cases h
    | some p => rw [he] at h; rw [key he]; exact h

/-- The texts of parts of a session. -/
def Lines (R : Reader) (evs : List (List Byte × Ln.Clock)) : List Text → List Run.Item → Prop
  | [], [] => True
  | x :: xs, j :: js => itemText R evs j = some x ∧ Lines R evs xs js
  | _, _ => False

theorem Lines.more {R : Reader} {evs : List (List Byte × Ln.Clock)} (l : List (List Byte × Ln.Clock)) :
    ∀ {xs : List Text} {js : List Run.Item}, Lines R evs xs js → Lines R (evs ++ l) xs js
  | [], [], _ => trivial
  | _ :: _, _ :: _, ⟨h1, h⟩ => ⟨item_more l h1, Lines.more l h⟩

theorem Lines.snoc {R : Reader} {evs : List (List Byte × Ln.Clock)} {x : Text} {j : Run.Item} (h1 : itemText R evs j = some x) :
    ∀ {xs : List Text} {js : List Run.Item}, Lines R evs xs js → Lines R evs (xs ++ [x]) (js ++ [j])
  | [], [], _ => ⟨h1, trivial⟩
  | _ :: _, _ :: _, ⟨h, hr⟩ => ⟨h, Lines.snoc h1 hr⟩

theorem Lines.text {R : Reader} {evs : List (List Byte × Ln.Clock)} {rest : List Run.Item} {y : Text}
    (hy : blockText R evs rest = some y) :
    ∀ {xs : List Text} {js : List Run.Item}, Lines R evs xs js → blockText R evs (js ++ rest) = some (xs.flatten ++ y)
  | [], [], _ => by simpa using hy
  | x :: xs, j :: js, ⟨h1, h⟩ => by
    rw [List.cons_append, blockText, Lines.text hy h, h1]
    simp only [List.flatten_cons, List.append_assoc]

/-- The innermost wanted open call around is `c`, and not too far away. -/
def within (op : Nat → Option Open) (max c : Nat) (l : List (Nat × W)) : Bool :=
  match inside op 1 l with
  | some (c', d) => decide (c' = c ∧ d ≤ max)
  | none => false

theorem inside_congr {op op' : Nat → Option Open} : ∀ {l : List (Nat × W)} {d : Nat}, (∀ z ∈ l, (op z.1).isSome = (op' z.1).isSome) →
    inside op d l = inside op' d l
  | [], _, _ => rfl
  | (c, f) :: l, d, h => by
    unfold inside
    rw [h (c, f) (by simp), inside_congr fun z hz => h z (by simp [hz])]

theorem inside_mem {op : Nat → Option Open} : ∀ {l : List (Nat × W)} {d c d' : Nat}, inside op d l = some (c, d') → (op c).isSome ∧ d ≤ d' ∧ ∃ f, (c, f) ∈ l
  | [], _, _, _, h => by cases h
  | (c0, f) :: l, d, c, d', h => by
    unfold inside at h
    split at h
    · next h0 => cases h; exact ⟨h0, Nat.le_refl _, f, by simp⟩
    · obtain ⟨h1, h2, f', h3⟩ := inside_mem h
      exact ⟨h1, by omega, f', by simp [h3]⟩

theorem within_congr {op op' : Nat → Option Open} {max c : Nat} {l : List (Nat × W)} (h : ∀ z ∈ l, (op z.1).isSome = (op' z.1).isSome) :
    within op max c l = within op' max c l := by
  unfold within
  rw [inside_congr h]

theorem within_mem {op : Nat → Option Open} {max c : Nat} {l : List (Nat × W)} (h : within op max c l = true) : ∃ f, (c, f) ∈ l := by
  unfold within at h
  split at h
  · next c' d hi =>
    obtain ⟨h1, _⟩ := of_decide_eq_true h
    rw [← h1]
    exact (inside_mem hi).2.2
  · cases h

/-- The state of kernel and reader at a point of a history. -/
structure Rel (R : Reader) (g : Globals) (F : Feats) (ses : W → Bool) (evs : List (List Byte × Ln.Clock)) (s : Att.SSt) (ss : Run.Sessions)
    (op : Nat → Option Open) (st : KSess.Key → List (Nat × Option W)) (sn : List Nat) (nt : W → List GMoment) : Prop where
  map : KSess.Inv s.1 (inMap ses st)
  fresh : ∀ c, c ∉ sn → s.2 c = 0
  cookie : ∀ k c v, ses k.funcIP = true → (c, v) ∈ st k → s.2 c = v.getD 0
  seen : ∀ k c v, (c, v) ∈ st k → c ∈ sn
  nodup : ∀ k, ((st k).map (·.1)).Nodup
  uniq : ∀ k k' c v v', (c, v) ∈ st k → (c, v') ∈ st k' → k = k'
  opIn : ∀ c q, op c = some q → (c, some q.e.o.sid) ∈ st q.e.key
  opAll : ∀ k c sid, (c, some sid) ∈ st k → ∃ q, op c = some q ∧ q.e.o.sid = sid ∧ q.e.key = k ∧ sid ≠ 0 ∧ Pass g q.e.o
  sids : ∀ k k' c c' sid, (c, some sid) ∈ st k → (c', some sid) ∈ st k' → c = c'
  sess : ∀ c q, op c = some q → ∃ tag b x js ts n, ss q.e.o.sid = some ⟨q.e.o.ns, .func tag none :: js, ts, n⟩ ∧ evs[tag]? = some (b, q.e.clock) ∧
    text R b none q.e.clock = some x ∧ Block R F q.e.S q.e.τ q.e.o q.e.args q.e.res q.e.clock [] x ∧ Lines R evs q.lines js ∧
    (q.e.S.fn.flag.graph = true → ts = q.e.o.ns :: (q.inner.map (·.2)).reverse ∧ n = q.inner.length)
  root : ∀ c q, op c = some q → ∀ a, g.fip a = q.e.τ.ip → q.e.S.fn.flag.graph = true
  ntSeen : ∀ p, ∀ y ∈ nt p, ∀ z ∈ y.around, z.1 ∈ sn
  ntKey : ∀ p, ∀ y ∈ nt p, ∀ z ∈ y.around, ∀ k v, (z.1, v) ∈ st k → k.pidTgid = p
  inner : ∀ c q, op c = some q → q.inner = ((nt q.e.o.pidTgid).filter fun y => within op g.maxDepth c y.around).map fun y => (y.o.call, y.o.ns)

section
variable {R : Reader} {g : Globals} {F : Feats} {ses : W → Bool} {evs : List (List Byte × Ln.Clock)} {s : Att.SSt} {ss : Run.Sessions}
  {op : Nat → Option Open} {st : KSess.Key → List (Nat × Option W)} {seen : List Nat} {nt : W → List GMoment}

theorem Rel.more (h : Rel R g F ses evs s ss op st seen nt) (l : List (List Byte × Ln.Clock)) : Rel R g F ses (evs ++ l) s ss op st seen nt :=
  { h with
    sess := by
      intro c q hc
      obtain ⟨tag, b, x, js, ts, n, h1, h2, h3, h4, h5, h6⟩ := h.sess c q hc
      refine ⟨tag, b, x, js, ts, n, h1, ?_, h3, h4, h5.more l, h6⟩
      rw [List.getElem?_append_left (List.getElem?_eq_some_iff.1 h2).1]
      exact h2 }

theorem mem_put {k0 k : KSess.Key} {q p : Nat × Option W} (h : p ∈ put st k0 (q :: st k0) k) :
    (p = q ∧ k = k0) ∨ p ∈ st k := by
  by_cases hk : k = k0
  · subst hk
    rw [put_same] at h
    rcases List.mem_cons.1 h with h | h
    · exact .inl ⟨h, rfl⟩
    · exact .inr h
  · rw [put_other _ _ hk] at h
    exact .inr h

theorem put_mem {k0 k : KSess.Key} {q p : Nat × Option W} (h : p ∈ st k) : p ∈ put st k0 (q :: st k0) k := by
  by_cases hk : k = k0
  · subst hk
    rw [put_same]
    exact List.mem_cons_of_mem _ h
  · rw [put_other _ _ hk]
    exact h

/-- The kernel's side of a new call, and what does not depend on whether it is wanted. -/
theorem Rel.push (h : Rel R g F ses evs s ss op st seen nt) {k0 : KSess.Key} {c0 : Nat} {v0 : Option W} (hc : c0 ∉ seen) :
    (∀ k c v, (c, v) ∈ put st k0 ((c0, v0) :: st k0) k → c ∈ c0 :: seen) ∧
    (∀ k, ((put st k0 ((c0, v0) :: st k0) k).map (·.1)).Nodup) ∧
    (∀ k k' c v v', (c, v) ∈ put st k0 ((c0, v0) :: st k0) k → (c, v') ∈ put st k0 ((c0, v0) :: st k0) k' → k = k') := by
  refine ⟨?_, ?_, ?_⟩
  · intro k c v hm
    rcases mem_put hm with ⟨h1, _⟩ | h1
    · cases h1; exact List.mem_cons_self
    · exact List.mem_cons_of_mem _ (h.seen k c v h1)
  · intro k
    by_cases hk : k = k0
    · subst hk
      rw [put_same, List.map_cons, List.nodup_cons]
      refine ⟨?_, h.nodup k⟩
      intro hm
      obtain ⟨p, hp, he⟩ := List.mem_map.1 hm
      obtain ⟨c, v⟩ := p
      cases he
      exact hc (h.seen k _ _ hp)
    · rw [put_other _ _ hk]; exact h.nodup k
  · intro k k' c v v' hm hm'
    rcases mem_put hm with ⟨h1, h2⟩ | h1
    · cases h1
      rcases mem_put hm' with ⟨_, h4⟩ | h3
      · rw [h2, h4]
      · exact absurd (h.seen _ _ _ h3) hc
    · rcases mem_put hm' with ⟨h3, _⟩ | h3
      · cases h3; exact absurd (h.seen _ _ _ h1) hc
      · exact h.uniq k k' c v v' h1 h3

theorem map_push (k0 : KSess.Key) (q : Nat × Option W) (h : ses k0.funcIP = false) :
    inMap ses (put st k0 (q :: st k0)) = KSess.pushCall (inMap ses st) k0 q.2 := by
  funext k
  by_cases hk : k = k0
  · subst hk; simp [inMap, put, KSess.pushCall, h]
  · simp [inMap, put, KSess.pushCall, hk]

theorem map_pop {k0 : KSess.Key} {q : Nat × Option W} {l : List (Nat × Option W)} (h : st k0 = q :: l) (hs : ses k0.funcIP = false) :
    inMap ses (put st k0 l) = KSess.popCall (inMap ses st) k0 := by
  funext k
  by_cases hk : k = k0
  · subst hk; simp [inMap, put, KSess.popCall, h, hs]
  · simp [inMap, put, KSess.popCall, hk]

theorem map_same {k0 : KSess.Key} (l : List (Nat × Option W)) (h : ses k0.funcIP = true) : inMap ses (put st k0 l) = inMap ses st := by
  funext k
  by_cases hk : k = k0
  · subst hk; simp [inMap, h]
  · simp [inMap, put, hk]

theorem map_at {k0 : KSess.Key} (h : ses k0.funcIP = false) : inMap ses st k0 = (st k0).map (·.2) := by simp [inMap, h]

theorem taken_eq (l : List (Nat × Option W)) : (l.map (·.2)).filterMap id = taken l := by
  simp [taken, List.filterMap_map]

theorem Rel.key_push (h : Rel R g F ses evs s ss op st seen nt) {k0 : KSess.Key} {c0 : Nat} {v0 : Option W} (hc : c0 ∉ seen) :
    ∀ p, ∀ y ∈ nt p, ∀ z ∈ y.around, ∀ k v, (z.1, v) ∈ put st k0 ((c0, v0) :: st k0) k → k.pidTgid = p := by
  intro p y hy z hz k v hm
  rcases mem_put hm with ⟨h1, _⟩ | h1
  · have e : z.1 = c0 := congrArg Prod.fst h1
    exact absurd (e ▸ h.ntSeen p y hy z hz) hc
  · exact h.ntKey p y hy z hz k v h1

theorem Rel.unwanted (h : Rel R g F ses evs s ss op st seen nt) {k0 : KSess.Key} {c0 : Nat} (hc : c0 ∉ seen) (ht : ses k0.funcIP = false → taken (st k0) = []) :
    Rel R g F ses evs s ss op (put st k0 ((c0, none) :: st k0)) (c0 :: seen) nt := by
  obtain ⟨p1, p2, p3⟩ := h.push (k0 := k0) (v0 := none) hc
  refine ⟨?_, ?_, ?_, p1, p2, p3, ?_, ?_, ?_, h.sess, h.root, ?_, ?_, h.inner⟩
  · cases hf : ses k0.funcIP with
    | true => rw [map_same _ hf]; exact h.map
    | false =>
      have := (KSess.step_sim s.1 _ (.enter k0 0 false (fun _ => 0) false) [] h.map ⟨by
        simp only [Bool.false_eq_true, if_false]
        rw [map_at hf, taken_eq]; exact ht hf, trivial⟩).2
      rw [map_push _ _ hf]
      exact this
  · intro c hcs
    exact h.fresh c fun hh => hcs (List.mem_cons_of_mem _ hh)
  · intro k c v hk hm
    rcases mem_put hm with ⟨h1, _⟩ | h1
    · cases h1; exact h.fresh _ hc
    · exact h.cookie k c v hk h1
  · intro c q he
    exact put_mem (h.opIn c q he)
  · intro k c sid hm
    rcases mem_put hm with ⟨h1, _⟩ | h1
    · cases h1
    · exact h.opAll k c sid h1
  · intro k k' c c' sid hm hm'
    rcases mem_put hm with ⟨h1, _⟩ | h1
    · cases h1
    · rcases mem_put hm' with ⟨h3, _⟩ | h3
      · cases h3
      · exact h.sids k k' c c' sid h1 h3
  · exact fun p y hy z hz => List.mem_cons_of_mem _ (h.ntSeen p y hy z hz)
  · exact h.key_push hc

theorem Rel.wanted (h : Rel R g F ses evs s ss op st seen nt) {x : Moment} (hc : x.o.call ∉ seen) (h0 : x.o.sid ≠ 0)
    (hsid : ∀ k c, (c, some x.o.sid) ∉ st k) (hf : ses x.τ.ip = false → x.o.full = false ∧ (taken (st x.key)).length < 64) (hp : Pass g x.o)
    (hroot : ∀ a, g.fip a = x.τ.ip → x.S.fn.flag.graph = true) {b : List Byte} {y : Text} (ht : text R b none x.clock = some y) (hb : Block R F x.S x.τ x.o x.args x.res x.clock [] y) :
    Rel R g F ses (evs ++ [(b, x.clock)]) (Att.sstep (ses x.τ.ip) s (.enter x.o.call x.key x.o.sid true x.o.staleIds x.o.full)).1
      (Run.set ss x.o.sid (some ⟨x.o.ns, [.func evs.length none], if x.S.fn.flag.graph then [x.o.ns] else [], 0⟩)) (put op x.o.call (some ⟨x, [], []⟩))
      (put st x.key ((x.o.call, some x.o.sid) :: st x.key)) (x.o.call :: seen) nt := by
  obtain ⟨p1, p2, p3⟩ := h.push (k0 := x.key) (v0 := some x.o.sid) hc
  have hopc : ∀ c q, op c = some q → c ≠ x.o.call := by
    intro c q he hcc
    subst hcc
    exact hc (h.seen _ _ _ (h.opIn _ _ he))
  have hsame : ∀ p, ∀ y ∈ nt p, ∀ z ∈ y.around, (op z.1).isSome = (put op x.o.call (some ⟨x, [], []⟩) z.1).isSome := by
    intro p y hy z hz
    rw [put_other]
    intro hh
    exact hc (hh ▸ h.ntSeen p y hy z hz)
  refine ⟨?_, ?_, ?_, p1, p2, p3, ?_, ?_, ?_, ?_, ?_, ?_, ?_, ?_⟩
  · cases hff : ses x.τ.ip with
    | true => rw [map_same (k0 := x.key) _ hff]; exact h.map
    | false =>
      have := (KSess.step_sim s.1 _ (.enter x.key x.o.sid true x.o.staleIds x.o.full) [] h.map ⟨by
        simp only [if_true]
        rw [map_at (k0 := x.key) hff, taken_eq]; exact ⟨h0, hf hff⟩, trivial⟩).2
      rw [map_push x.key _ hff]
      exact this
  · intro c hcs
    rw [List.mem_cons, not_or] at hcs
    cases ses x.τ.ip with
    | true =>
      show (if c = x.o.call then x.o.sid else s.2 c) = 0
      rw [if_neg hcs.1]
      exact h.fresh c hcs.2
    | false => exact h.fresh c hcs.2
  · intro k c v hk hm
    have hne : (c, v) ∈ st k → c ≠ x.o.call := by
      rintro h1 rfl
      exact hc (h.seen k _ v h1)
    cases hff : ses x.τ.ip with
    | true =>
      show (if c = x.o.call then x.o.sid else s.2 c) = v.getD 0
      rcases mem_put hm with ⟨h1, _⟩ | h1
      · cases h1; rw [if_pos rfl]; rfl
      · rw [if_neg (hne h1)]
        exact h.cookie k c v hk h1
    | false =>
      rcases mem_put hm with ⟨_, h2⟩ | h1
      · rw [h2, show x.key.funcIP = x.τ.ip from rfl, hff] at hk; cases hk
      · exact h.cookie k c v hk h1
  · intro c q he
    by_cases hcc : c = x.o.call
    · subst hcc
      rw [put_same] at he
      cases he
      rw [put_same]
      exact List.mem_cons_self
    · rw [put_other _ _ hcc] at he
      exact put_mem (h.opIn c q he)
  · intro k c sid hm
    rcases mem_put hm with ⟨h1, h2⟩ | h1
    · cases h1
      exact ⟨⟨x, [], []⟩, by rw [put_same], rfl, h2.symm, h0, hp⟩
    · obtain ⟨q, he, r⟩ := h.opAll k c sid h1
      exact ⟨q, by rw [put_other _ _ (hopc c q he)]; exact he, r⟩
  · intro k k' c c' sid hm hm'
    rcases mem_put hm with ⟨h1, _⟩ | h1
    · cases h1
      rcases mem_put hm' with ⟨h3, _⟩ | h3
      · cases h3; rfl
      · exact absurd h3 (hsid _ _)
    · rcases mem_put hm' with ⟨h3, _⟩ | h3
      · cases h3; exact absurd h1 (hsid _ _)
      · exact h.sids k k' c c' sid h1 h3
  · intro c q he
    by_cases hcc : c = x.o.call
    · subst hcc
      rw [put_same] at he
      cases he
      exact ⟨evs.length, b, y, [], _, _, if_pos rfl, by simp, ht, hb, trivial, fun hg => by rw [if_pos hg]; exact ⟨rfl, rfl⟩⟩
    · rw [put_other _ _ hcc] at he
      obtain ⟨tag, b', x', js, ts, n, h1, h2, h3⟩ := (h.more [(b, x.clock)]).sess c q he
      refine ⟨tag, b', x', js, ts, n, ?_, h2, h3⟩
      have hne : q.e.o.sid ≠ x.o.sid := by
        intro hh
        exact hsid _ _ (hh ▸ h.opIn c q he)
      simp only [Run.set, if_neg hne]
      exact h1
  · intro c q he
    by_cases hcc : c = x.o.call
    · subst hcc
      rw [put_same] at he
      cases he
      exact hroot
    · rw [put_other _ _ hcc] at he
      exact h.root c q he
  · exact fun p y hy z hz => List.mem_cons_of_mem _ (h.ntSeen p y hy z hz)
  · exact h.key_push hc
  · intro c q he
    by_cases hcc : c = x.o.call
    · subst hcc
      rw [put_same] at he
      cases he
      rw [List.filter_eq_nil_iff.2]
      · rfl
      · intro y hy hw
        obtain ⟨f, hf⟩ := within_mem hw
        exact hc (h.ntSeen _ y hy _ hf)
    · rw [put_other _ _ hcc] at he
      rw [h.inner c q he]
      congr 1
      exact List.filter_congr fun y hy => within_congr (hsame _ y hy)

/-- What the kernel's table says at a return. -/
theorem Rel.exitOut (h : Rel R g F ses evs s ss op st seen nt) {k0 : KSess.Key} {c0 : Nat} {v : Option W} {l : List (Nat × Option W)}
    (hst : st k0 = (c0, v) :: l) :
    (Att.sstep (ses k0.funcIP) s (.exit c0 k0)).2 = v.map fun sid => .exit k0 (sid - 1) := by
  have hmem : (c0, v) ∈ st k0 := by rw [hst]; exact List.mem_cons_self
  cases hf : ses k0.funcIP with
  | true =>
    have hc := h.cookie k0 c0 v hf hmem
    show (if s.2 c0 = 0 then none else some (KSess.Out.exit k0 (s.2 c0 - 1))) = _
    rw [hc]
    cases v with
    | none => rfl
    | some sid =>
      obtain ⟨_, _, _, _, h0, _⟩ := h.opAll k0 c0 sid hmem
      rw [if_neg (show (some sid).getD 0 ≠ 0 from h0)]
      rfl
  | false =>
    have := (KSess.step_sim s.1 _ (.exit k0) [] h.map ⟨trivial, trivial⟩).1
    have e : (Att.sstep false s (.exit c0 k0)).2 = (KSess.step s.1 (.exit k0)).2 := rfl
    rw [e, this]
    simp only [KSess.expect, map_at hf, hst, List.map_cons, List.head?_cons]
    cases v <;> rfl

theorem mem_pop {k0 k : KSess.Key} {q p : Nat × Option W} {l : List (Nat × Option W)} (hst : st k0 = q :: l) (h : p ∈ put st k0 l k) : p ∈ st k := by
  by_cases hk : k = k0
  · subst hk
    rw [put_same] at h
    rw [hst]
    exact List.mem_cons_of_mem _ h
  · rwa [put_other _ _ hk] at h

theorem Rel.gone (h : Rel R g F ses evs s ss op st seen nt) {k0 : KSess.Key} {c0 : Nat} {v : Option W} {l : List (Nat × Option W)}
    (hst : st k0 = (c0, v) :: l) (k : KSess.Key) (w : Option W) : (c0, w) ∉ put st k0 l k := by
  intro hm
  have hk : k = k0 := h.uniq k k0 c0 w v (mem_pop hst hm) (by rw [hst]; exact List.mem_cons_self)
  subst hk
  rw [put_same] at hm
  have := h.nodup k
  rw [hst, List.map_cons, List.nodup_cons] at this
  exact this.1 (List.mem_map_of_mem hm (f := (·.1)))

theorem pop_mem {k0 k : KSess.Key} {c0 c : Nat} {v w : Option W} {l : List (Nat × Option W)} (hst : st k0 = (c0, v) :: l) (h : (c, w) ∈ st k)
    (hc : c ≠ c0) : (c, w) ∈ put st k0 l k := by
  by_cases hk : k = k0
  · subst hk
    rw [put_same]
    rw [hst] at h
    rcases List.mem_cons.1 h with h | h
    · cases h; exact absurd rfl hc
    · exact h
  · rwa [put_other _ _ hk]

/-- What a return leaves behind. -/
theorem Rel.pop (h : Rel R g F ses evs s ss op st seen nt) {k0 : KSess.Key} {c0 : Nat} {v : Option W} {l : List (Nat × Option W)}
    (hst : st k0 = (c0, v) :: l) (ss' : Run.Sessions) (op' : Nat → Option Open) (hop : op' = put op c0 none)
    (hss : ∀ sid, v ≠ some sid → ss' sid = ss sid) (hnt : ∀ y ∈ nt k0.pidTgid, c0 ∉ y.around.map (·.1)) :
    Rel R g F ses evs (Att.sstep (ses k0.funcIP) s (.exit c0 k0)).1 ss' op' (put st k0 l) seen nt := by
  subst hop
  have hmem : (c0, v) ∈ st k0 := by rw [hst]; exact List.mem_cons_self
  have hsame : ∀ p, ∀ y ∈ nt p, ∀ z ∈ y.around, (op z.1).isSome = (put op c0 none z.1).isSome := by
    intro p y hy z hz
    rw [put_other]
    intro hh
    have := h.ntKey p y hy z hz k0 v (by rw [hh]; exact hmem)
    subst this
    exact hnt y hy (by rw [← hh]; exact List.mem_map_of_mem hz)
  refine ⟨?_, ?_, ?_, ?_, ?_, ?_, ?_, ?_, ?_, ?_, ?_, h.ntSeen, ?_, ?_⟩
  · cases hf : ses k0.funcIP with
    | true => rw [map_same _ hf]; exact h.map
    | false =>
      have := (KSess.step_sim s.1 _ (.exit k0) [] h.map ⟨trivial, trivial⟩).2
      rw [map_pop hst hf]
      exact this
  · intro c hc
    have := h.fresh c hc
    cases ses k0.funcIP <;> exact this
  · intro k c w hk hm
    have := h.cookie k c w hk (mem_pop hst hm)
    cases ses k0.funcIP <;> exact this
  · intro k c w hm
    exact h.seen k c w (mem_pop hst hm)
  · intro k
    by_cases hk : k = k0
    · subst hk
      rw [put_same]
      have := h.nodup k
      rw [hst, List.map_cons, List.nodup_cons] at this
      exact this.2
    · rw [put_other _ _ hk]; exact h.nodup k
  · intro k k' c w w' hm hm'
    exact h.uniq k k' c w w' (mem_pop hst hm) (mem_pop hst hm')
  · intro c q he
    by_cases hc : c = c0
    · subst hc; rw [put_same] at he; cases he
    · rw [put_other _ _ hc] at he
      exact pop_mem hst (h.opIn c q he) hc
  · intro k c sid hm
    obtain ⟨q, he, r⟩ := h.opAll k c sid (mem_pop hst hm)
    refine ⟨q, ?_, r⟩
    rw [put_other]
    · exact he
    · intro hc
      subst hc
      exact h.gone hst k _ hm
  · intro k k' c c' sid hm hm'
    exact h.sids k k' c c' sid (mem_pop hst hm) (mem_pop hst hm')
  · intro c q he
    by_cases hc : c = c0
    · subst hc; rw [put_same] at he; cases he
    · rw [put_other _ _ hc] at he
      obtain ⟨tag, b, x, js, ts, n, h1, r⟩ := h.sess c q he
      refine ⟨tag, b, x, js, ts, n, ?_, r⟩
      rw [hss]
      · exact h1
      · rintro rfl
        exact hc (h.sids _ _ _ _ _ (h.opIn c q he) hmem)
  · intro c q he
    by_cases hc : c = c0
    · subst hc; rw [put_same] at he; cases he
    · rw [put_other _ _ hc] at he
      exact h.root c q he
  · exact fun p y hy z hz k w hm => h.ntKey p y hy z hz k w (mem_pop hst hm)
  · intro c q he
    by_cases hc : c = c0
    · subst hc; rw [put_same] at he; cases he
    · rw [put_other _ _ hc] at he
      rw [h.inner c q he]
      congr 1
      exact List.filter_congr fun y hy => within_congr (hsame _ y hy)

/-- A return of a process that is not traced changes nothing in the kernel's tables. -/
theorem Rel.exit_idle (h : Rel R g F ses evs s ss op st seen nt) {k0 : KSess.Key} {c0 : Nat} {l : List (Nat × Option W)}
    (hst : st k0 = (c0, none) :: l) : (Att.sstep (ses k0.funcIP) s (.exit c0 k0)).1 = s := by
  cases hf : ses k0.funcIP with
  | true => rfl
  | false =>
    obtain ⟨h1, h2, n, h3⟩ := h.map k0
    rw [map_at hf, hst] at h1 h3
    have hnil : (((c0, (none : Option W)) :: l).map (·.2)).filterMap id = [] := by
      generalize (((c0, (none : Option W)) :: l).map (·.2)).filterMap id = f at h3
      cases f with
      | nil => rfl
      | cons a f => simp at h3
    rw [hnil] at h1
    have hm : s.1 k0 = none := by
      cases hm : s.1 k0 with
      | none => rfl
      | some q => rw [hm] at h1; exact absurd rfl h1.1
    show ((KSess.getAndDel s.1 k0).2, s.2) = s
    unfold KSess.getAndDel
    rw [hm]

/-- A return of a call from before the trace. -/
theorem Rel.before (h : Rel R g F ses evs s ss op st seen nt) {k0 : KSess.Key} {c0 : Nat} (hst : st k0 = []) (hc : c0 ∉ seen) :
    (Att.sstep (ses k0.funcIP) s (.exit c0 k0)).2 = none ∧ (Att.sstep (ses k0.funcIP) s (.exit c0 k0)).1 = s ∧ Rel R g F ses evs s ss op st (c0 :: seen) nt ∧ op c0 = none := by
  refine ⟨?_, ?_, ⟨h.map, ?_, h.cookie, ?_, h.nodup, h.uniq, h.opIn, h.opAll, h.sids, h.sess, h.root,
    fun p y hy z hz => List.mem_cons_of_mem _ (h.ntSeen p y hy z hz), h.ntKey, h.inner⟩, ?_⟩
  · cases hf : ses k0.funcIP with
    | true =>
      show (if s.2 c0 = 0 then none else some (KSess.Out.exit k0 (s.2 c0 - 1))) = none
      rw [if_pos (h.fresh c0 hc)]
    | false =>
      have := (KSess.step_sim s.1 _ (.exit k0) [] h.map ⟨trivial, trivial⟩).1
      have e : (Att.sstep false s (.exit c0 k0)).2 = (KSess.step s.1 (.exit k0)).2 := rfl
      rw [e, this]
      simp [KSess.expect, map_at hf, hst]
  · cases hf : ses k0.funcIP with
    | true => rfl
    | false =>
      obtain ⟨h1, _⟩ := h.map k0
      have hm : s.1 k0 = none := by
        cases hm : s.1 k0 with
        | none => rfl
        | some q => rw [hm, map_at hf, hst] at h1; exact absurd rfl h1.1
      show ((KSess.getAndDel s.1 k0).2, s.2) = s
      unfold KSess.getAndDel
      rw [hm]
  · intro c hcs
    exact h.fresh c fun hh => hcs (List.mem_cons_of_mem _ hh)
  · intro k c v hm
    exact List.mem_cons_of_mem _ (h.seen k c v hm)
  · cases ho : op c0 with
    | none => rfl
    | some q => exact absurd (h.seen _ _ _ (h.opIn c0 q ho)) hc

theorem Rel.op_none (h : Rel R g F ses evs s ss op st seen nt) {k0 : KSess.Key} {c0 : Nat} {l : List (Nat × Option W)}
    (hst : st k0 = (c0, none) :: l) : op c0 = none := by
  cases ho : op c0 with
  | none => rfl
  | some e =>
    exfalso
    have h1 := h.opIn c0 e ho
    have hk := h.uniq _ k0 c0 _ none h1 (by rw [hst]; exact List.mem_cons_self)
    rw [hk, hst] at h1
    rcases List.mem_cons.1 h1 with h2 | h2
    · cases h2
    · have := h.nodup k0
      rw [hst, List.map_cons, List.nodup_cons] at this
      exact this.1 (List.mem_map_of_mem h2 (f := (·.1)))

/-- What the program of an instruction finds. -/
theorem Rel.session (h : Rel R g F ses evs s ss op st seen nt) {k0 : KSess.Key} (hf : ses k0.funcIP = false) :
    KSess.getSession s.1 k0 = match st k0 with
      | (_, some sid) :: _ => sid
      | _ => 0 := by
  rw [Cg.getS h.map, map_at hf]
  obtain ⟨_, _, n, h3⟩ := h.map k0
  rw [map_at hf] at h3
  generalize st k0 = l at h3 ⊢
  match l, h3 with
  | [], _ => rfl
  | (c, some sid) :: l, _ => simp
  | (c, none) :: l, h3 =>
    have hnil : (((c, (none : Option W)) :: l).map (·.2)).filterMap id = [] := by
      generalize (((c, (none : Option W)) :: l).map (·.2)).filterMap id = f at h3
      cases f with
      | nil => rfl
      | cons a f => simp at h3
    rw [hnil]
    rfl

/-- A part is put into the session of an open call. -/
theorem Rel.add (h : Rel R g F ses evs s ss op st seen nt) {c0 : Nat} {q : Open} (hop : op c0 = some q) {b : List Byte} {c : Ln.Clock} {l : Text} (ss' : Run.Sessions)
    (inner : List (Nat × BitVec 32)) (seen' : List Nat) (nt' : W → List GMoment)
    (hss : ∀ tag js ts n, ss q.e.o.sid = some ⟨q.e.o.ns, .func tag none :: js, ts, n⟩ →
      (q.e.S.fn.flag.graph = true → ts = q.e.o.ns :: (q.inner.map (·.2)).reverse ∧ n = q.inner.length) →
      ∃ j ts' n', ss' = Run.set ss q.e.o.sid (some ⟨q.e.o.ns, .func tag none :: (js ++ [j]), ts', n'⟩) ∧ itemText R (evs ++ [(b, c)]) j = some l ∧
        (q.e.S.fn.flag.graph = true → ts' = q.e.o.ns :: (inner.map (·.2)).reverse ∧ n' = inner.length))
    (hseen : ∀ x ∈ seen, x ∈ seen')
    (h1 : ∀ p, ∀ y ∈ nt' p, ∀ z ∈ y.around, z.1 ∈ seen') (h2 : ∀ p, ∀ y ∈ nt' p, ∀ z ∈ y.around, ∀ k v, (z.1, v) ∈ st k → k.pidTgid = p)
    (h3 : ∀ c' q', op c' = some q' → c' ≠ c0 → (nt' q'.e.o.pidTgid).filter (fun y => within op g.maxDepth c' y.around) =
      (nt q'.e.o.pidTgid).filter (fun y => within op g.maxDepth c' y.around))
    (h4 : inner = ((nt' q.e.o.pidTgid).filter fun y => within op g.maxDepth c0 y.around).map fun y => (y.o.call, y.o.ns)) :
    Rel R g F ses (evs ++ [(b, c)]) s ss' (put op c0 (some ⟨q.e, inner, q.lines ++ [l]⟩)) st seen' nt' := by
  obtain ⟨tag, b0, y0, js, ts, n, g1, g2, g3, g4, g5, g6⟩ := (h.more [(b, c)]).sess _ _ hop
  obtain ⟨j, ts', n', rfl, hj, hts⟩ := hss tag js ts n g1 g6
  have hsame : ∀ c', (put op c0 (some ⟨q.e, inner, q.lines ++ [l]⟩) c').isSome = (op c').isSome := by
    intro c'
    by_cases hc : c' = c0
    · subst hc; rw [put_same, hop]; rfl
    · rw [put_other _ _ hc]
  refine ⟨h.map, fun c hc => h.fresh c fun hh => hc (hseen c hh), h.cookie, fun k c v hm => hseen _ (h.seen k c v hm), h.nodup, h.uniq, ?_, ?_, h.sids, ?_, ?_, h1, h2, ?_⟩
  · intro c' q' hc
    by_cases hcc : c' = c0
    · subst hcc
      rw [put_same] at hc
      cases hc
      exact h.opIn _ q hop
    · rw [put_other _ _ hcc] at hc
      exact h.opIn _ _ hc
  · intro k c' sid hm
    obtain ⟨q', he, r⟩ := h.opAll k c' sid hm
    by_cases hcc : c' = c0
    · subst hcc
      rw [hop] at he
      cases he
      exact ⟨⟨q.e, inner, q.lines ++ [l]⟩, put_same .., r⟩
    · exact ⟨q', by rw [put_other _ _ hcc]; exact he, r⟩
  · intro c' q' hc
    by_cases hcc : c' = c0
    · subst hcc
      rw [put_same] at hc
      cases hc
      exact ⟨tag, b0, y0, _, ts', n', if_pos rfl, g2, g3, g4, g5.snoc hj, hts⟩
    · rw [put_other _ _ hcc] at hc
      obtain ⟨tag', b', y', js', ts1, n1, q1, q2⟩ := (h.more [(b, c)]).sess _ _ hc
      refine ⟨tag', b', y', js', ts1, n1, ?_, q2⟩
      simp only [Run.set]
      rw [if_neg]
      · exact q1
      · intro hs
        have hq := h.opIn _ _ hc
        rw [hs] at hq
        exact hcc (h.sids _ _ _ _ _ hq (h.opIn _ _ hop))
  · intro c' q' hc
    by_cases hcc : c' = c0
    · subst hcc
      rw [put_same] at hc
      cases hc
      exact h.root _ q hop
    · rw [put_other _ _ hcc] at hc
      exact h.root _ _ hc
  · intro c' q' hc
    have hw : (fun y : GMoment => within (put op c0 (some ⟨q.e, inner, q.lines ++ [l]⟩)) g.maxDepth c' y.around) = fun y => within op g.maxDepth c' y.around := by
      funext y
      exact within_congr fun z _ => hsame z.1
    rw [hw]
    by_cases hcc : c' = c0
    · subst hcc
      rw [put_same] at hc
      cases hc
      exact h4
    · rw [put_other _ _ hcc] at hc
      rw [h3 c' q' hc hcc]
      exact h.inner _ _ hc

/-- An instruction is put into the session of its call. -/
theorem Rel.insn (h : Rel R g F ses evs s ss op st seen nt) {x : IMoment} {q : Open} (hop : op x.call = some q)
    {b : List Byte} (hb : insnText R b (x.ns - q.e.o.ns) = some (insnLine q.e x)) :
    Rel R g F ses (evs ++ [(b, x.clock)]) s (Run.outputInsn ss true q.e.o.sid x.ns evs.length) (put op x.call (some { q with lines := q.lines ++ [insnLine q.e x] })) st seen nt := by
  refine h.add hop _ q.inner seen nt ?_ (fun _ hx => hx) h.ntSeen h.ntKey (fun _ _ _ _ => rfl) (h.inner _ _ hop)
  intro tag js ts n h1 h6
  refine ⟨.insn evs.length (x.ns - q.e.o.ns), ts, n, ?_, ?_, h6⟩
  · simp [Run.outputInsn, h1]
  · simp [itemText, hb]


/-! ### Functions of graphs -/

/-- If the innermost call of a function in a task is not wanted, none of its open ones is. -/
theorem Rel.only (h : Rel R g F ses evs s ss op st seen nt) {k0 : KSess.Key} (hf : ses k0.funcIP = false) {c0 : Nat} {l : List (Nat × Option W)}
    (hst : st k0 = (c0, none) :: l) (c : Nat) (sid : W) : (c, some sid) ∉ st k0 := by
  obtain ⟨_, _, n, h3⟩ := h.map k0
  rw [map_at hf] at h3
  have hnil : ((st k0).map (·.2)).filterMap id = [] := by
    rw [hst] at h3 ⊢
    generalize (((c0, (none : Option W)) :: l).map (·.2)).filterMap id = f at h3
    cases f with
    | nil => rfl
    | cons a f => simp at h3
  intro hm
  have : sid ∈ ((st k0).map (·.2)).filterMap id := by
    rw [List.mem_filterMap]
    exact ⟨some sid, List.mem_map_of_mem hm (f := (·.2)), rfl⟩
  rw [hnil] at this
  cases this

theorem Rel.aroundKey (h : Rel R g F ses evs s ss op st seen nt) {x : GMoment} (ha : Around g st x) :
    ∀ z ∈ x.around, ∀ k v, (z.1, v) ∈ st k → k = ⟨x.o.pidTgid, z.2⟩ := by
  intro z hz k v hm
  obtain ⟨old, h1, h2⟩ := ha.calls z.2 (List.mem_map_of_mem hz)
  have hmem : z.1 ∈ (x.around.filter fun p => decide (p.2 = z.2)).map (·.1) :=
    List.mem_map_of_mem (List.mem_filter.2 ⟨hz, by simp⟩)
  rw [h1] at hmem
  rcases List.mem_append.1 hmem with h3 | h3
  · obtain ⟨p, hp, he⟩ := List.mem_map.1 h3
    obtain ⟨c, w⟩ := p
    cases he
    exact h.uniq _ _ _ _ _ hm hp
  · exact absurd hm (h2 _ h3 k v)

/-- What the search finds in the map of sessions for a call around, when those inside it are not wanted. -/
theorem Rel.tells (h : Rel R g F ses evs s ss op st seen nt) {x : GMoment} (ha : Around g st x) (hn : ∀ p ∈ x.around, ses p.2 = false)
    {pre post : List (Nat × W)} {c : Nat} {f : W} (he : x.around = pre ++ (c, f) :: post) (hp : ∀ z ∈ pre, op z.1 = none) :
    KSess.getSession s.1 ⟨x.o.pidTgid, f⟩ = ((op c).map fun q => q.e.o.sid).getD 0 ∧ ∀ q, op c = some q → q.e.o.sid ≠ 0 := by
  have hz : (c, f) ∈ x.around := by rw [he]; simp
  have hf : ses f = false := hn _ hz
  refine ⟨?_, fun q hq => ?_⟩
  · rw [h.session (k0 := ⟨x.o.pidTgid, f⟩) hf]
    obtain ⟨old, h1, h2⟩ := ha.calls f (List.mem_map_of_mem hz)
    have hin : ∀ q, op c = some q → (c, some q.e.o.sid) ∈ st ⟨x.o.pidTgid, f⟩ := by
      intro q hq
      have h3 := h.opIn c q hq
      have := h.aroundKey ha _ hz _ _ h3
      rw [this] at h3
      exact h3
    match hst : st ⟨x.o.pidTgid, f⟩ with
    | [] =>
      cases hq : op c with
      | none => rfl
      | some q => have := hin q hq; rw [hst] at this; cases this
    | (c1, none) :: l =>
      cases hq : op c with
      | none => rfl
      | some q => exact absurd (hin q hq) (h.only hf hst _ _)
    | (c1, some sid) :: l =>
      obtain ⟨q1, hq1, hs1, _⟩ := h.opAll ⟨x.o.pidTgid, f⟩ c1 sid (by rw [hst]; simp)
      have hcc : c = c1 := by
        rw [he, hst, List.filter_append, List.filter_cons, if_pos (by simp)] at h1
        cases hpre : pre.filter (fun p => decide (p.2 = f)) with
        | nil => rw [hpre] at h1; simp at h1; exact h1.1
        | cons z zs =>
          rw [hpre] at h1
          simp at h1
          have hzm : z ∈ pre := (List.mem_filter.1 (by rw [hpre]; simp : z ∈ pre.filter _)).1
          have := hp z hzm
          rw [h1.1, hq1] at this
          cases this
      rw [hcc, hq1]
      exact hs1.symm
  · obtain ⟨q', hq', hs', _, h0, _⟩ := h.opAll _ _ _ (h.opIn c q hq)
    exact h0

theorem look_inside {op : Nat → Option Open} {sess : W → W} {cur : W} {max : Nat} : ∀ (l : List (Nat × W)) (d : Nat), d ≤ max →
    (∀ pre c f post, l = pre ++ (c, f) :: post → (∀ z ∈ pre, op z.1 = none) →
      sess f = ((op c).map fun q => q.e.o.sid).getD 0 ∧ ∀ q, op c = some q → q.e.o.sid ≠ 0) →
    Cg.look sess cur max true d (l.map (·.2)) =
      match inside op d l with
      | some (c, d') => if d' ≤ max then (op c).map (fun q => (q.e.o.sid, d')) else none
      | none => none
  | [], _, _, _ => rfl
  | (c, f) :: l, d, hd, h => by
    obtain ⟨h1, h2⟩ := h [] c f l rfl (by simp)
    simp only [List.map_cons, Cg.look, inside]
    cases hq : op c with
    | some q =>
      rw [hq] at h1
      have h0 := h2 q hq
      simp only [Option.map_some, Option.getD_some] at h1
      simp only [h1, ne_eq, h0, not_false_eq_true, if_true, Option.isSome_some, hd, hq, Option.map_some]
    | none =>
      rw [hq] at h1
      simp only [Option.map_none, Option.getD_none] at h1
      simp only [h1, ne_eq, not_true_eq_false, if_false, Option.isSome_none, Bool.false_eq_true]
      by_cases hm : d + 1 > max
      · rw [if_pos hm]
        cases hi : inside op (d + 1) l with
        | none => rfl
        | some p =>
          obtain ⟨c', d'⟩ := p
          have := (inside_mem hi).2.1
          simp only []
          rw [if_neg (by omega)]
      · rw [if_neg hm]
        refine look_inside l (d + 1) (by omega) ?_
        intro pre c' f' post he hp
        refine h ((c, f) :: pre) c' f' post (by rw [he]; rfl) ?_
        intro z hz
        rcases List.mem_cons.1 hz with rfl | hz
        · exact hq
        · exact hp z hz

/-- The program of a function of a graph finds the innermost wanted call around it. -/
theorem Rel.seek (h : Rel R g F ses evs s ss op st seen nt) {x : GMoment} (ha : Around g st x) (hn : ∀ p ∈ x.around, ses p.2 = false)
    (hd : 1 ≤ g.maxDepth) :
    KSess.tryGetSession g.fip (fun f => KSess.getSession s.1 ⟨x.o.pidTgid, f⟩) x.τ.ip g.maxDepth g.maxStack x.stack =
      match inside op 1 x.around with
      | some (c, d') => if d' ≤ g.maxDepth then (op c).map (fun q => (q.e.o.sid, d')) else none
      | none => none := by
  unfold KSess.tryGetSession
  rw [List.take_of_length_le ha.length, Cg.walk_look, ha.stack]
  rw [Cg.look, if_pos rfl]
  exact look_inside x.around 1 hd fun pre c f post he hp => h.tells ha hn he hp

/-- No session, no record. -/
theorem gemit_none {x : GMoment}
    (h : KSess.tryGetSession g.fip (fun f => KSess.getSession s.1 ⟨x.o.pidTgid, f⟩) x.τ.ip g.maxDepth g.maxStack x.stack = none) :
    gemit g x.τ x.o x.stack s = none := by
  unfold gemit
  simp only []
  split
  · unfold Cg.fgraph
    simp only [h]
    split
    · rfl
    · split <;> rfl
  · rfl

/-- The record of a function of a graph reads back as its line. -/
theorem graph_record {x : GMoment} (hx : x.Ok R g ses) (hb : 8 ≤ R.env.beyond.length) (hr : R.maxArgs = Av.regsNr g.arm64) (hp : Pass g x.o) {sid : W} {d : Nat}
    (hd : d ≤ g.maxDepth)
    (h : KSess.tryGetSession g.fip (fun f => KSess.getSession s.1 ⟨x.o.pidTgid, f⟩) x.τ.ip g.maxDepth g.maxStack x.stack = some (sid, d)) :
    ∃ b, gemit g x.τ x.o x.stack s = some b ∧ (∀ k, recOf R k b = .graph true (decide (x.o.phase = .ret)) sid x.o.ns k) ∧
      ∀ cost total, ∃ l, graphText R b cost total = some l ∧ ∀ e : Moment, total = x.o.ns - e.o.ns → GLine R e d cost x l := by
  obtain ⟨G, hG1, hG2, hG3, hG4⟩ := hx.known
  have hmu := hx.single
  have hfs := hx.noSession.1
  have hlen : x.τ.params.length = x.args.length := by
    rw [params_length hx.typed.simple hx.typed.params, hx.hands.len]
  obtain ⟨s', xs, y, hx1, hargs, hxl, hxs, hy0, hy1⟩ := args_text hx.typed hx.hands hb hr (wr := decide (x.o.phase = .ret) || g.fsession)
    (by intro hh; simp [hh]) (if decide (x.o.phase = .ret) then x.o.ctx.getD x.τ.params.length 0 else 0) (by
      intro hh
      rw [if_pos (by simp [hh]), hx.hands.ctx hmu, if_pos hh, hlen]
      simp [List.getD])
  unfold code at hx1 hargs
  simp only [hmu, Bool.false_eq_true, if_false] at hx1 hargs
  generalize hA : Arg.reads s'.out (Arg.injectOutputFuncArgs x.τ.params x.τ.ret (decide (x.o.phase = .ret) || g.fsession)).2 x.o.bufAt = A at hargs
  have hAl : A.length = (Arg.injectOutputFuncArgs x.τ.params x.τ.ret (decide (x.o.phase = .ret))).2 := by
    rw [← hA, Arg.reads_length, hfs, Bool.or_false]
  have hsz := hx.size (decide (x.o.phase = .ret))
  rw [← hAl] at hsz
  let ev : Cg.GEvt :=
    { typ := if x.o.phase = .ret then Cg.typExit else Cg.typEntry, length := BitVec.ofNat 16 (Cg.sizeOfGraphEvent + A.length), kernNs := x.o.ns, sessID := sid
      funcIP := x.τ.ip, cpu := x.o.cpu, depth := BitVec.ofNat 32 d }
  have hem : gemit g x.τ x.o x.stack s = some (ev.bytes ++ A) := by
    unfold gemit
    simp only [hx1, hA]
    unfold Cg.fgraph
    simp only [hp.1, Bool.not_true, Bool.false_eq_true, if_false, h, hfs]
    rw [if_neg (show ¬ g.self = (x.o.pidTgid >>> 32).setWidth 32 from fun hh => hp.2.1 hh.symm)]
    show some (_ ++ A) = some (ev.bytes ++ A)
    cases hph : x.o.phase <;> simp [ev, hph]
  have hread : Cg.readGEvt (ev.bytes ++ A) = ev := Cg.gevt_read_back ev A
  have htyp : (Att.u16At (ev.bytes ++ A) 0) = ev.typ := congrArg Cg.GEvt.typ hread
  refine ⟨_, hem, ?_, ?_⟩
  · intro k
    unfold recOf
    simp only [htyp, hread]
    have h3 : ¬ ev.typ.toNat = 3 := by
      show ¬ (if x.o.phase = .ret then Cg.typExit else Cg.typEntry).toNat = 3
      cases x.o.phase <;> decide
    have h4 : ev.typ.toNat = 4 ∨ ev.typ.toNat = 5 := by
      show (if x.o.phase = .ret then Cg.typExit else Cg.typEntry).toNat = 4 ∨ (if x.o.phase = .ret then Cg.typExit else Cg.typEntry).toNat = 5
      cases x.o.phase <;> decide
    have h5 : decide (ev.typ.toNat = 5) = decide (x.o.phase = .ret) := by
      show decide ((if x.o.phase = .ret then Cg.typExit else Cg.typEntry).toNat = 5) = _
      cases x.o.phase <;> decide
    rw [if_neg h3, if_pos h4, h5]
    show Run.Rec.graph (R.graphs x.τ.ip).isSome _ sid x.o.ns k = _
    rw [hG1]
    rfl
  · intro cost total
    have hsl : Att.slice ev.length.toNat ((ev.bytes ++ A ++ R.behind (ev.bytes ++ A)).drop Cg.sizeOfGraphEvent) =
        some (A ++ (R.behind (ev.bytes ++ A)).take 32, (R.behind (ev.bytes ++ A)).drop 32) := by
      rw [List.append_assoc, Cg.gevt_length]
      have hl : ev.length.toNat = (A ++ (R.behind (ev.bytes ++ A)).take 32).length := by
        show (BitVec.ofNat 16 (32 + A.length)).toNat = _
        rw [BitVec.toNat_ofNat, Nat.mod_eq_of_lt hsz, List.length_append, List.length_take, Nat.min_eq_left (hx.behind _)]
        omega
      rw [← Att.slice_left _ _ _ hl.symm, List.append_assoc, List.take_append_drop]
    have hex : decide (ev.typ = Cg.typExit) = decide (x.o.phase = .ret) := by
      show decide ((if x.o.phase = .ret then Cg.typExit else Cg.typEntry) = Cg.typExit) = _
      cases x.o.phase <;> decide
    have hrg : Att.readGraph G.argsSz (decide (x.o.phase = .ret)) (A ++ (R.behind (ev.bytes ++ A)).take 32) = some A := by
      rw [hG3]
      apply Att.graph_layout
      rw [hAl]
      cases x.o.phase <;> rfl
    have hdep : ev.depth.toNat = d := by
      show (BitVec.ofNat 32 d).toNat = d
      rw [BitVec.toNat_ofNat, Nat.mod_eq_of_lt (Nat.lt_of_le_of_lt hd hx.depth.2)]
    refine ⟨Ln.graph d (Ln.func (decide (x.o.phase = .ret)) false x.S.name (t "=(" ++ join (t ", ") xs ++ t ")" ++ y)) x.o.cpu cost total ++ t "\n", ?_, ?_⟩
    · unfold graphText
      simp only [hread]
      have hG1' : R.graphs ev.funcIP = some G := hG1
      have hnm : Ln.name R.tables ev.funcIP (some G.fn) false = x.S.name := hG4
      simp only [hsl, hG1', hex, hrg, hG2, hnm, hdep]
      simp only [hargs, Option.map_some, false_and, if_false, List.append_nil]
      simp [ev]
    · intro e he
      subst he
      refine ⟨xs, y, ?_, by simpa [hmu] using hxl, ?_, hy0, ?_⟩
      · simp [Ln.graph, Ln.func, t, Ln.t]
      · intro i p v a h1 h2 h3
        have := hxs i p v a h1 h2 h3
        unfold ArgShown at this
        rwa [hmu, if_neg (by decide)] at this
      · intro hh
        obtain ⟨z, hz1, hz2⟩ := hy1 hh
        refine ⟨z, hz1, ?_⟩
        unfold ResShown at hz2
        rwa [hmu, if_neg (by decide)] at hz2

/-- The time of the call around that is shown last. -/
theorem stamp_last (t0 : BitVec 32) (l : List (Nat × BitVec 32)) :
    (t0 :: (l.map (·.2)).reverse)[l.length]? = some ((l.head?.map (·.2)).getD t0) := by
  cases l with
  | nil => rfl
  | cons a l =>
    have : (t0 :: (l.map (·.2)).reverse).length = (a :: l).length := by simp
    show ((t0 :: (List.map (·.2) (a :: l)).reverse))[(a :: l).length]? = some a.2
    rw [List.map_cons, List.reverse_cons, ← List.cons_append, List.getElem?_append_right (by omega)]
    rw [this]
    simp

/-- The wanted call around that the program finds is of the same task, and the root of a graph. -/
theorem Rel.found (h : Rel R g F ses evs s ss op st seen nt) {x : GMoment} (ha : Around g st x) {c d : Nat} (hi : inside op 1 x.around = some (c, d)) :
    ∃ q, op c = some q ∧ q.e.o.pidTgid = x.o.pidTgid ∧ Pass g x.o ∧ q.e.S.fn.flag.graph = true := by
  obtain ⟨h1, _, f, hf⟩ := inside_mem hi
  obtain ⟨q, hq⟩ := Option.isSome_iff_exists.1 h1
  have hin := h.opIn c q hq
  have hk : q.e.key = ⟨x.o.pidTgid, f⟩ := h.aroundKey ha _ hf _ _ hin
  have hpt : q.e.o.pidTgid = x.o.pidTgid := congrArg KSess.Key.pidTgid hk
  have hip : q.e.τ.ip = f := congrArg KSess.Key.funcIP hk
  refine ⟨q, hq, hpt, ?_, ?_⟩
  · obtain ⟨q', hq', _, _, _, hp⟩ := h.opAll _ _ _ hin
    rw [hq] at hq'
    cases hq'
    have hpid : q.e.o.pid = x.o.pid := by unfold Occ.pid; rw [hpt]
    unfold Pass at hp ⊢
    rw [← hpid]; exact hp
  · have hm : f ∈ (x.stack.map g.fip).filter (fun f => decide (f ≠ 0)) := by
      rw [ha.stack]
      exact List.mem_cons_of_mem _ (List.mem_map_of_mem hf (f := (·.2)))
    obtain ⟨a, _, hfa⟩ := List.mem_map.1 (List.mem_filter.1 hm).1
    exact h.root c q hq a (hfa.trans hip.symm)

theorem graph_enter {sid : W} {ns0 ns : BitVec 32} {tag k c : Nat} {js : List Run.Item} {inner : List (Nat × BitVec 32)}
    (h : ss sid = some ⟨ns0, .func tag none :: js, ns0 :: (inner.map (·.2)).reverse, inner.length⟩) :
    Run.outputGraph ss sid ns k true = some (Run.set ss sid (some ⟨ns0,
      .func tag none :: (js ++ [.graph k (ns - (inner.head?.map (·.2)).getD ns0) (ns - ns0)]), ns0 :: (((c, ns) :: inner).map (·.2)).reverse, inner.length + 1⟩)) := by
  unfold Run.outputGraph
  simp only [h, Run.Session.lastTstamp, stamp_last, Option.bind_eq_bind, Option.bind_some, if_true, Run.Session.pushTstamp]
  simp

theorem graph_leave {sid : W} {ns0 ns : BitVec 32} {tag k c : Nat} {began : BitVec 32} {js : List Run.Item} {inner : List (Nat × BitVec 32)}
    (h : ss sid = some ⟨ns0, .func tag none :: js, ns0 :: (((c, began) :: inner).map (·.2)).reverse, ((c, began) :: inner).length⟩) :
    Run.outputGraph ss sid ns k false = some (Run.set ss sid (some ⟨ns0,
      .func tag none :: (js ++ [.graph k (ns - began) (ns - ns0)]), ns0 :: (inner.map (·.2)).reverse, inner.length⟩)) := by
  unfold Run.outputGraph
  simp only [h, Run.Session.lastTstamp, stamp_last, Option.bind_eq_bind, Option.bind_some, Bool.false_eq_true, if_false, Run.Session.popTstamp]
  have ht : (List.map (·.2) inner).reverse.length = inner.length := by simp
  rw [if_neg (by simp)]
  simp only [List.length_cons, Nat.add_sub_cancel, List.map_cons, List.reverse_cons, List.take_succ_cons, List.head?_cons, Option.map_some, Option.getD_some]
  rw [List.take_append_of_le_length (by omega), List.take_of_length_le (by omega)]
  simp

theorem within_in {op : Nat → Option Open} {max c d : Nat} {l : List (Nat × W)} (h : inside op 1 l = some (c, d)) (hd : d ≤ max) (c' : Nat) :
    within op max c' l = decide (c = c') := by
  unfold within
  simp [h, hd]

theorem within_out {op : Nat → Option Open} {max : Nat} {l : List (Nat × W)} (h : ∀ c d, inside op 1 l = some (c, d) → max < d) (c' : Nat) :
    within op max c' l = false := by
  unfold within
  split
  · next c d hi => have := h c d hi; simp; omega
  · rfl

/-- A call or return that is not shown. -/
theorem Rel.nodes (h : Rel R g F ses evs s ss op st seen nt) (seen' : List Nat) (nt' : W → List GMoment) (hseen : ∀ x ∈ seen, x ∈ seen')
    (h1 : ∀ p, ∀ y ∈ nt' p, ∀ z ∈ y.around, z.1 ∈ seen') (h2 : ∀ p, ∀ y ∈ nt' p, ∀ z ∈ y.around, ∀ k v, (z.1, v) ∈ st k → k.pidTgid = p)
    (h3 : ∀ c' q', op c' = some q' → (nt' q'.e.o.pidTgid).filter (fun y => within op g.maxDepth c' y.around) =
      (nt q'.e.o.pidTgid).filter (fun y => within op g.maxDepth c' y.around)) :
    Rel R g F ses evs s ss op st seen' nt' :=
  { h with
    fresh := fun c hc => h.fresh c fun hh => hc (hseen c hh)
    seen := fun k c v hm => hseen _ (h.seen k c v hm)
    ntSeen := h1
    ntKey := h2
    inner := fun c q hc => by rw [h3 c q hc]; exact h.inner c q hc }

theorem Rel.downSeen (h : Rel R g F ses evs s ss op st seen nt) (x : GMoment) :
    ∀ p, ∀ y ∈ put nt x.o.pidTgid (x :: nt x.o.pidTgid) p, ∀ z ∈ y.around, z.1 ∈ x.around.map (·.1) ++ seen := by
  intro p y hy z hz
  by_cases hp : p = x.o.pidTgid
  · subst hp
    rw [put_same] at hy
    rcases List.mem_cons.1 hy with rfl | hy
    · exact List.mem_append_left _ (List.mem_map_of_mem hz)
    · exact List.mem_append_right _ (h.ntSeen _ _ hy _ hz)
  · rw [put_other _ _ hp] at hy
    exact List.mem_append_right _ (h.ntSeen _ _ hy _ hz)

theorem Rel.downKey (h : Rel R g F ses evs s ss op st seen nt) {x : GMoment} (ha : Around g st x) :
    ∀ p, ∀ y ∈ put nt x.o.pidTgid (x :: nt x.o.pidTgid) p, ∀ z ∈ y.around, ∀ k v, (z.1, v) ∈ st k → k.pidTgid = p := by
  intro p y hy z hz k v hm
  by_cases hp : p = x.o.pidTgid
  · subst hp
    rw [put_same] at hy
    rcases List.mem_cons.1 hy with rfl | hy
    · rw [h.aroundKey ha z hz k v hm]
    · exact h.ntKey _ _ hy _ hz k v hm
  · rw [put_other _ _ hp] at hy
    exact h.ntKey _ _ hy _ hz k v hm

theorem Rel.upSeen (h : Rel R g F ses evs s ss op st seen nt) {p0 : W} {y0 : GMoment} {l : List GMoment} (hnt : nt p0 = y0 :: l) :
    ∀ p, ∀ y ∈ put nt p0 l p, y ∈ nt p := by
  intro p y hy
  by_cases hp : p = p0
  · subst hp
    rw [put_same] at hy
    rw [hnt]
    exact List.mem_cons_of_mem _ hy
  · rw [put_other _ _ hp] at hy
    exact hy

/-- What a record of a function of a graph does in the reader. -/
theorem graph_shows {b : List Byte} {c : Ln.Clock} {isRet : Bool} {sid : W} {ns : BitVec 32} (hrec : ∀ k, recOf R k b = .graph true isRet sid ns k)
    (hl : ∃ l, graphText R b 0 0 = some l) : shows R (b, c) = true := by
  obtain ⟨l, hl⟩ := hl
  unfold shows
  simp only [hrec 0, hl]
  rfl

end

theorem history (R : Reader) (g : Globals) (F : Feats) (me : Bool) (d : Int)
    (ses : W → Bool) (hb : 8 ≤ R.env.beyond.length) (hr : R.maxArgs = Av.regsNr g.arm64) {st : KSess.Key → List (Nat × Option W)} {seen : List Nat} {nt : W → List GMoment} {ms : List Ev} (hpr : Proper g F me st seen nt ms) :
    ∀ (pre : List (List Byte × Ln.Clock)) (s : Att.SSt) (ss : Run.Sessions) (op : Nat → Option Open), Rel R g F ses pre s ss op st seen nt →
      (∀ x ∈ ms, x.Ok R g F me ses) → Goes R g F me d pre s ss op ms := by
  induction hpr with
  | nil => intro pre s ss op _ _; exact ⟨[], [], ss, rfl, rfl, .nil, by simp [sent]⟩
  | @single st seen nt x ms hp _ ih =>
    intro pre s ss op hrel hok
    have hx : x.Ok R g F me ses := hok (.fn x) (by simp)
    have hms : ∀ z ∈ ms, z.Ok R g F me ses := fun z hz => hok z (by simp [hz])
    obtain ⟨m1, m2⟩ := single_moment hx.attached hx.sees hb hr hx.size hx.attrs pre.length x.clock hp s
    by_cases hw : Wanted g me x.S x.o x.args
    · obtain ⟨b, y, he, hsh, ht, hblk, hh⟩ := m2 hw
      refine step_loud (y := y ++ t "\n") (sent_one he _) hsh (hh d ss) ?_ (ih _ _ _ _ (hrel.more [(b, x.clock)]) hms) fun ts hs => .show hp hw hblk hs
      intro suf
      have hev : (pre ++ (b, x.clock) :: suf)[pre.length]? = some (b, x.clock) := by simp
      simp only [blockText, itemText, hev, ht]
    · exact step_none (sent_none (m1 hw) _) (ih _ _ _ _ hrel hms) fun ts hs => .skip hw (fun hc => by rw [hp] at hc; cases hc) hs
  | @wanted st seen nt x ms hp hph hw hc h0 hsid hf _ ih =>
    intro pre s ss op hrel hok
    have hx : x.Ok R g F me ses := hok (.fn x) (by simp)
    have hms : ∀ z ∈ ms, z.Ok R g F me ses := fun z hz => hok z (by simp [hz])
    obtain ⟨b, y, he, hsh, ht, hblk, hh⟩ := (call_moment hx.attached hx.sees hb hr hx.size hx.attrs pre.length x.clock hp hph s).2 hw
    rw [hx.same] at he
    exact step_quiet (sent_one he _) hsh (hh d ss) (ih _ _ _ _ (hrel.wanted hc h0 hsid (hx.same ▸ hf) ⟨hw.1, hw.2.1, hw.2.2.1⟩ (fun a ha => hx.root a ha hp) ht hblk) hms) fun ts hs => .enter hp hw hs
  | @unwanted st seen nt x ms hp hph hw hc hf _ ih =>
    intro pre s ss op hrel hok
    have hx : x.Ok R g F me ses := hok (.fn x) (by simp)
    have hms : ∀ z ∈ ms, z.Ok R g F me ses := fun z hz => hok z (by simp [hz])
    exact step_none (sent_none ((call_moment hx.attached hx.sees hb hr hx.size hx.attrs pre.length x.clock hp hph s).1 hw) _)
      (ih _ _ _ _ (hrel.unwanted hc (k0 := x.key) (hx.same ▸ hf)) hms) fun ts hs => .skip hw (fun _ => hph) hs
  | @back st seen nt x v l ms hp hph hst hnt _ ih =>
    intro pre s ss op hrel hok
    have hx : x.Ok R g F me ses := hok (.fn x) (by simp)
    have hms : ∀ z ∈ ms, z.Ok R g F me ses := fun z hz => hok z (by simp [hz])
    obtain ⟨m1, m2, m3⟩ := return_moment hx.attached hx.sees hb hr hx.size hx.attrs pre.length x.clock hp hph s
    rw [hx.same] at m2 m3
    have hout := hrel.exitOut hst
    cases v with
    | none =>
      have hopn := hrel.op_none hst
      have hop : op = put op x.o.call none := by
        funext c
        by_cases hc : c = x.o.call
        · subst hc; rw [put_same]; exact hopn
        · rw [put_other _ _ hc]
      have hrel' := hrel.pop hst ss op hop (fun _ _ => rfl) hnt
      by_cases hps : Pass g x.o
      · exact step_none (sent_none (m2 hps hout) _) (ih _ _ _ _ hrel' hms) fun ts hs => .unknown hp hph hopn hs
      · rw [hrel.exit_idle hst] at hrel'
        exact step_none (sent_none (m1 hps) _) (ih _ _ _ _ hrel' hms) fun ts hs => .unknown hp hph hopn hs
    | some sid =>
      obtain ⟨⟨e, inner, is⟩, he, hes, hek, h0, hpe⟩ := hrel.opAll x.key x.o.call sid (by rw [hst]; exact List.mem_cons_self)
      have hps : Pass g x.o := by
        have hpt : e.o.pidTgid = x.o.pidTgid := congrArg KSess.Key.pidTgid hek
        have hpid : e.o.pid = x.o.pid := by unfold Occ.pid; rw [hpt]
        unfold Pass at hpe ⊢
        rw [← hpid]; exact hpe
      dsimp only at hes hek hpe
      obtain ⟨tag, b0, y0, js, tst, nst, hse, hev0, ht0, hblk0, hlines, _⟩ := hrel.sess _ _ he
      dsimp only at hse hev0 ht0 hblk0 hlines
      obtain ⟨b, y, ev, hem, hsh, ht, hblk, hrec, hreq, htyp, hns, hsid, htag⟩ := m3 hps _ _ (x.o.ns - e.o.ns) hout
      have hsid' : ev.sessID + 1 = e.o.sid := by
        rw [hsid, hes]; exact BitVec.sub_add_cancel _ _
      have hrel' := (hrel.pop hst (Run.set ss e.o.sid none) (put op x.o.call none) rfl (fun sid' hne => by
        simp only [Run.set]
        rw [if_neg]
        rintro rfl
        exact hne (by rw [hes])) hnt)
      have hh : Run.handle d ss (recOf R pre.length b) = some (Run.set ss e.o.sid none,
          if ((x.o.ns - e.o.ns).toNat : Int) < d then none else some (.func tag none :: (js ++ [.func pre.length (some (x.o.ns - e.o.ns))]))) := by
        rw [hrec]
        unfold Run.handle
        simp only [hreq, if_true, htyp, hsid', hse, hns, htag]
        by_cases hd : ((x.o.ns - e.o.ns).toNat : Int) < d
        · rw [if_pos hd, if_pos hd]; rfl
        · rw [if_neg hd, if_neg hd]; rfl
      by_cases hd : ((x.o.ns - e.o.ns).toNat : Int) < d
      · rw [if_pos hd] at hh
        exact step_quiet (sent_one hem _) hsh hh (ih _ _ _ _ (hrel'.more [(b, x.clock)]) hms) fun ts hs => .short hp hph he hd hs
      · rw [if_neg hd] at hh
        refine step_loud (y := y0 ++ is.flatten ++ y ++ t "\n") (sent_one hem _) hsh hh ?_ (ih _ _ _ _ (hrel'.more [(b, x.clock)]) hms)
          fun ts hs => .exit hp hph he (show d ≤ ((x.o.ns - e.o.ns).toNat : Int) by omega) hblk0 hblk hs
        intro suf
        have hev : (pre ++ (b, x.clock) :: suf)[pre.length]? = some (b, x.clock) := by simp
        have hev' : (pre ++ (b, x.clock) :: suf)[tag]? = some (b0, e.clock) := by
          rw [List.getElem?_append_left (List.getElem?_eq_some_iff.1 hev0).1]; exact hev0
        have hret : blockText R (pre ++ (b, x.clock) :: suf) [.func pre.length (some (x.o.ns - e.o.ns))] = some (y ++ t "\n") := by
          simp only [blockText, itemText, hev, ht]
        rw [blockText, (hlines.more ((b, x.clock) :: suf)).text hret]
        simp only [itemText, hev', ht0, List.append_assoc]
  | @before st seen nt x ms hp hph hst hc _ ih =>
    intro pre s ss op hrel hok
    have hx : x.Ok R g F me ses := hok (.fn x) (by simp)
    have hms : ∀ z ∈ ms, z.Ok R g F me ses := fun z hz => hok z (by simp [hz])
    obtain ⟨m1, m2, m3⟩ := return_moment hx.attached hx.sees hb hr hx.size hx.attrs pre.length x.clock hp hph s
    rw [hx.same] at m2 m3
    obtain ⟨h1, h2, h3, h4⟩ := hrel.before hst hc
    by_cases hps : Pass g x.o
    · have := m2 hps h1
      rw [show (⟨x.o.pidTgid, x.τ.ip⟩ : KSess.Key) = x.key from rfl, show ses x.τ.ip = ses x.key.funcIP from rfl, h2] at this
      exact step_none (sent_none this _) (ih _ _ _ _ h3 hms) fun ts hs => .unknown hp hph h4 hs
    · exact step_none (sent_none (m1 hps) _) (ih _ _ _ _ h3 hms) fun ts hs => .unknown hp hph h4 hs
  | @within st seen nt x v l ms hst _ ih =>
    intro pre s ss op hrel hok
    have hx : x.Ok R ses := hok (.insn x) (by simp)
    have hms : ∀ z ∈ ms, z.Ok R g F me ses := fun z hz => hok z (by simp [hz])
    have hsess := hrel.session (k0 := x.key) hx.noSession
    rw [hst] at hsess
    cases v with
    | none =>
      refine step_none (sent_insn ?_ _) (ih _ _ _ _ hrel hms) fun ts hs => .aside (hrel.op_none hst) hs
      unfold Ir.insnProg
      rw [show KSess.getSession s.1 ⟨x.pidTgid, x.func⟩ = 0 from hsess]
      cases g.ready <;> rfl
    | some sid =>
      obtain ⟨q, he, hes, hek, h0, hpe⟩ := hrel.opAll x.key x.call sid (by rw [hst]; exact List.mem_cons_self)
      have hrd : g.ready = true := hpe.1
      let ev : Ir.IEvt := { typ := Ir.typInsn, length := BitVec.ofNat 16 Ir.sizeOfInsnEvent, kernNs := x.ns, sessID := sid, insnIP := x.ip, cpu := x.cpu }
      have hp : Ir.insnProg x.ip x.func g.ready s.1 x.pidTgid ⟨x.ip, x.ns, x.cpu⟩ x.pad = some (ev.bytes ++ x.pad) := by
        unfold Ir.insnProg
        rw [show KSess.getSession s.1 ⟨x.pidTgid, x.func⟩ = sid from hsess, hrd]
        simp only [Bool.not_true, Bool.false_eq_true, if_false, if_neg h0]
        rfl
      have hread : Ir.readIEvt (ev.bytes ++ x.pad) = ev := Ir.ievt_read_back ev x.pad
      have hrec : ∀ k, recOf R k (ev.bytes ++ x.pad) = .insn true sid x.ns k := by
        intro k
        have ht : (Att.u16At (ev.bytes ++ x.pad) 0).toNat = 3 := by
          have := congrArg Ir.IEvt.typ hread
          exact (congrArg BitVec.toNat this).trans rfl
        unfold recOf
        simp only [ht, if_true, hread]
        show Run.Rec.insn (R.insns x.ip).isSome sid x.ns k = _
        rw [hx.table]
        rfl
      have hline : insnText R (ev.bytes ++ x.pad) (x.ns - q.e.o.ns) = some (insnLine q.e x) := by
        unfold insnText
        simp only [hread]
        show (R.insns x.ip).map _ = _
        rw [hx.table]
        simp [insnLine, Ln.insn, ev, t, Ln.t]
      refine step_quiet (sent_insn_one hp _) (by unfold shows; rw [show recOf R 0 (ev.bytes ++ x.pad) = .insn true sid x.ns 0 from hrec 0])
        (ss' := Run.outputInsn ss true q.e.o.sid x.ns pre.length) ?_ (ih _ _ _ _ (hrel.insn he hline) hms) fun ts hs => .insn he hs
      rw [hrec, hes]
      rfl
  | @early st seen nt x ms hst hc _ ih =>
    intro pre s ss op hrel hok
    have hx : x.Ok R ses := hok (.insn x) (by simp)
    have hms : ∀ z ∈ ms, z.Ok R g F me ses := fun z hz => hok z (by simp [hz])
    have hsess := hrel.session (k0 := x.key) hx.noSession
    rw [hst] at hsess
    have ho : op x.call = none := by
      cases ho : op x.call with
      | none => rfl
      | some q => exact absurd (hrel.seen _ _ _ (hrel.opIn x.call q ho)) hc
    refine step_none (sent_insn ?_ _) (ih _ _ _ _ hrel hms) fun ts hs => .aside ho hs
    unfold Ir.insnProg
    rw [show KSess.getSession s.1 ⟨x.pidTgid, x.func⟩ = 0 from hsess]
    cases g.ready <;> rfl
  | @down st seen nt x ms hph ha _ ih =>
    intro pre s ss op hrel hok
    have hx : x.Ok R g ses := hok (.graph x) (by simp)
    have hms : ∀ z ∈ ms, z.Ok R g F me ses := fun z hz => hok z (by simp [hz])
    have hseek := hrel.seek ha hx.noSession.2 hx.depth.1
    by_cases hin : ∃ c d, inside op 1 x.around = some (c, d) ∧ d ≤ g.maxDepth
    · obtain ⟨c, dd, hi, hd⟩ := hin
      obtain ⟨q, hq, hpt, hps, hgr⟩ := hrel.found ha hi
      rw [hi] at hseek
      simp only [hd, if_true, hq, Option.map_some] at hseek
      obtain ⟨b, hem, hrec, htxt⟩ := graph_record hx hb hr hps hd hseek
      obtain ⟨l, hl, hgl⟩ := htxt (x.o.ns - (q.inner.head?.map (·.2)).getD q.e.o.ns) (x.o.ns - q.e.o.ns)
      obtain ⟨tag, _, _, js, ts, n, hse, _, _, _, _, htn⟩ := hrel.sess _ _ hq
      obtain ⟨rfl, rfl⟩ := htn hgr
      have hog := graph_enter (k := pre.length) (ns := x.o.ns) (c := x.o.call) hse
      refine step_quiet (sent_graph_one hem _) (graph_shows hrec ((htxt 0 0).imp fun _ h => h.1))
        (ss' := (Run.outputGraph ss q.e.o.sid x.o.ns pre.length true).getD ss) ?_
        (ih _ _ _ _ (hrel.add hq (b := b) (c := x.clock) (l := l) _ ((x.o.call, x.o.ns) :: q.inner) _ _ ?_ (fun _ h => List.mem_append_right _ h) (hrel.downSeen x) (hrel.downKey ha) ?_ ?_) hms)
        fun ts hs => .call hph hi hd hq (hgl q.e rfl) hs
      · rw [hrec]
        unfold Run.handle
        have hdec : decide (x.o.phase = .ret) = false := by rw [hph]; rfl
        simp only [hdec, Bool.not_false, hog]
        rfl
      · intro tag' js' ts' n' h1 h6
        obtain ⟨rfl, rfl⟩ := h6 hgr
        have hog' := graph_enter (k := pre.length) (ns := x.o.ns) (c := x.o.call) h1
        refine ⟨.graph pre.length (x.o.ns - (q.inner.head?.map (·.2)).getD q.e.o.ns) (x.o.ns - q.e.o.ns), _, _, ?_, ?_, fun _ => ⟨rfl, rfl⟩⟩
        · rw [hog']; rfl
        · simp [itemText, hl]
      · intro c' q' hc' hne
        by_cases hp : q'.e.o.pidTgid = x.o.pidTgid
        · rw [hp, put_same, List.filter_cons, within_in hi hd, if_neg (by simpa using fun hh => hne hh.symm)]
        · rw [put_other _ _ hp]
      · rw [hpt, put_same, List.filter_cons, within_in hi hd, if_pos (by simp), List.map_cons, ← hpt, ← hrel.inner _ _ hq]
    · have hout : ∀ c d, inside op 1 x.around = some (c, d) → g.maxDepth < d := by
        intro c d hi
        exact Nat.lt_of_not_le fun hd => hin ⟨c, d, hi, hd⟩
      refine step_none (sent_graph (gemit_none ?_) _) (ih _ _ _ _ (hrel.nodes _ _ (fun _ h => List.mem_append_right _ h) (hrel.downSeen x) (hrel.downKey ha) ?_) hms)
        fun ts hs => .outside hout hs
      · rw [hseek]
        split
        · next c d hi => rw [if_neg (by have := hout c d hi; omega)]
        · rfl
      · intro c' q' hc'
        by_cases hp : q'.e.o.pidTgid = x.o.pidTgid
        · rw [hp, put_same, List.filter_cons, within_out hout, if_neg (by simp)]
        · rw [put_other _ _ hp]
  | @up st seen nt x y l0 ms hph hnt hyc hya ha _ ih =>
    intro pre s ss op hrel hok
    have hx : x.Ok R g ses := hok (.graph x) (by simp)
    have hms : ∀ z ∈ ms, z.Ok R g F me ses := fun z hz => hok z (by simp [hz])
    have hseek := hrel.seek ha hx.noSession.2 hx.depth.1
    by_cases hin : ∃ c d, inside op 1 x.around = some (c, d) ∧ d ≤ g.maxDepth
    · obtain ⟨c, dd, hi, hd⟩ := hin
      obtain ⟨q, hq, hpt, hps, hgr⟩ := hrel.found ha hi
      rw [hi] at hseek
      simp only [hd, if_true, hq, Option.map_some] at hseek
      obtain ⟨b, hem, hrec, htxt⟩ := graph_record hx hb hr hps hd hseek
      have hinner := hrel.inner _ _ hq
      rw [hpt, hnt, List.filter_cons, hya, within_in hi hd, if_pos (by simp), List.map_cons, hyc] at hinner
      generalize hrest : ((l0.filter fun y => within op g.maxDepth c y.around).map fun y => (y.o.call, y.o.ns)) = rest at hinner
      obtain ⟨l, hl, hgl⟩ := htxt (x.o.ns - y.o.ns) (x.o.ns - q.e.o.ns)
      obtain ⟨tag, _, _, js, ts, n, hse, _, _, _, _, htn⟩ := hrel.sess _ _ hq
      obtain ⟨rfl, rfl⟩ := htn hgr
      rw [hinner] at hse
      have hog := graph_leave (k := pre.length) (ns := x.o.ns) hse
      refine step_quiet (sent_graph_one hem _) (graph_shows hrec ((htxt 0 0).imp fun _ h => h.1))
        (ss' := (Run.outputGraph ss q.e.o.sid x.o.ns pre.length false).getD ss) ?_
        (ih _ _ _ _ (hrel.add hq (b := b) (c := x.clock) (l := l) _ rest _ _ ?_ (fun _ h => h) (fun p y' hy' => hrel.ntSeen p y' (hrel.upSeen hnt p y' hy'))
          (fun p y' hy' => hrel.ntKey p y' (hrel.upSeen hnt p y' hy')) ?_ ?_) hms)
        fun ts hs => .ret hph hi hd hq hinner (hgl q.e rfl) hs
      · rw [hrec]
        unfold Run.handle
        simp only [hph, decide_true, Bool.not_true, hog]
        rfl
      · intro tag' js' ts' n' h1 h6
        obtain ⟨rfl, rfl⟩ := h6 hgr
        rw [hinner] at h1
        have hog' := graph_leave (k := pre.length) (ns := x.o.ns) h1
        refine ⟨.graph pre.length (x.o.ns - y.o.ns) (x.o.ns - q.e.o.ns), _, _, ?_, ?_, fun _ => ⟨rfl, rfl⟩⟩
        · rw [hog']; rfl
        · simp [itemText, hl]
      · intro c' q' hc' hne
        by_cases hp : q'.e.o.pidTgid = x.o.pidTgid
        · rw [hp, put_same, hnt, List.filter_cons, hya, within_in hi hd, if_neg (by simpa using fun hh => hne hh.symm)]
        · rw [put_other _ _ hp]
      · rw [hpt, put_same, hrest]
    · have hout : ∀ c d, inside op 1 x.around = some (c, d) → g.maxDepth < d := by
        intro c d hi
        exact Nat.lt_of_not_le fun hd => hin ⟨c, d, hi, hd⟩
      refine step_none (sent_graph (gemit_none ?_) _) (ih _ _ _ _ (hrel.nodes _ _ (fun _ h => h) (fun p y' hy' => hrel.ntSeen p y' (hrel.upSeen hnt p y' hy'))
          (fun p y' hy' => hrel.ntKey p y' (hrel.upSeen hnt p y' hy')) ?_) hms)
        fun ts hs => .outside hout hs
      · rw [hseek]
        split
        · next c d hi => rw [if_neg (by have := hout c d hi; omega)]
        · rfl
      · intro c' q' hc'
        by_cases hp : q'.e.o.pidTgid = x.o.pidTgid
        · rw [hp, put_same, hnt, List.filter_cons, hya, within_out hout, if_neg (by simp)]
        · rw [put_other _ _ hp]
  | @past st seen nt x ms hph hnt ha hno _ ih =>
    intro pre s ss op hrel hok
    have hx : x.Ok R g ses := hok (.graph x) (by simp)
    have hms : ∀ z ∈ ms, z.Ok R g F me ses := fun z hz => hok z (by simp [hz])
    have hseek := hrel.seek ha hx.noSession.2 hx.depth.1
    have hnone : inside op 1 x.around = none := by
      cases hi : inside op 1 x.around with
      | none => rfl
      | some p =>
        obtain ⟨c, d⟩ := p
        obtain ⟨h1, _, f, hf⟩ := inside_mem hi
        obtain ⟨q, hq⟩ := Option.isSome_iff_exists.1 h1
        exact absurd (hrel.opIn _ _ hq) (hno _ hf _ _)
    refine step_none (sent_graph (gemit_none ?_) _) (ih _ _ _ _ hrel hms) fun ts hs => .outside (fun c d hi => by rw [hnone] at hi; cases hi) hs
    rw [hseek, hnone]

/-- The kernel's tables at the start. -/
def start : Att.SSt := (KSess.empty, fun _ => 0)

/-- **C83.** For every history of calls of functions, programs and tracepoints, some traced at one end, some at both, some with `(m)`, some with `(i)` or `(g)`, of
instructions and of functions of graphs: what is printed is one block for each wanted moment and for each wanted and long enough call, in order, each with the
arguments, result and duration of that very call, and with the instructions and the functions of the graph in it; with `--limit-events` the first ones of
these. Partial: the types of `Simple`, filters of the fragment of C01, histories that are
`Proper`; with `(m)`, what a return shows as arguments is in the registers then (`multi_return_args_violated`); with `(i)` or `(g)` no session programs; with `(g)`,
32 bytes behind the record (`graph_record_violated`). -/
theorem wanted_shown_partial (R : Reader) (g : Globals) (F : Feats) (me : Bool) (d : Int)
    (ses : W → Bool) (hb : 8 ≤ R.env.beyond.length) (hr : R.maxArgs = Av.regsNr g.arm64) (ms : List Ev) (hm : ∀ x ∈ ms, x.Ok R g F me ses)
    (hp : Proper g F me (fun _ => []) [] (fun _ => []) ms) :
    ∃ ts, Shown R g F me d (fun _ => none) ms ts ∧ printed R d 0 (sent g start ms) = some ts ∧
      ∀ n, 0 < n → n < 2 ^ 63 → printed R d (BitVec.ofNat 64 n) (sent g start ms) = some (ts.take n) := by
  have hrel : Rel R g F ses [] start Run.newSessions (fun _ => none) (fun _ => []) [] (fun _ => []) :=
    { map := fun k => by
        have : inMap ses (fun _ => []) k = [] := by unfold inMap; split <;> rfl
        rw [this]
        exact ⟨rfl, by simp, 0, rfl⟩
      fresh := fun _ _ => rfl
      cookie := by intro _ _ _ _ h; cases h
      seen := by intro _ _ _ h; cases h
      nodup := by intro _; simp
      uniq := by intro _ _ _ _ _ h; cases h
      opIn := by intro _ _ h; cases h
      opAll := by intro _ _ _ h; cases h
      sids := by intro _ _ _ _ _ h; cases h
      sess := by intro _ _ h; cases h
      root := by intro _ _ h; cases h
      ntSeen := by intro _ _ h; cases h
      ntKey := by intro _ _ h; cases h
      inner := by intro _ _ h; cases h }
  obtain ⟨bs, ts, ss', h1, h2, h3, h4⟩ := history R g F me d ses hb hr hp [] start Run.newSessions _ hrel hm
  rw [List.length_nil] at h1
  refine ⟨ts, h3, ?_, fun n h0 h63 => ?_⟩
  · unfold printed
    rw [List.all_eq_true.2 h4, Run.run_unlimited, h1]
    exact h2
  · unfold printed
    rw [List.all_eq_true.2 h4, Run.run_limited_partial d n h0 h63 _ _ _ h1]
    exact blocks_take n h2

/-! ### Example -/

/-- A function of two parameters traced with the filter `n == 5`, at one end or at both, with `(m)` or without; its programs as bpfsnoop
attaches them. -/
def exSrc (both : Bool) : Src where
  fn := ⟨false, false, { both := both }, [⟨true, false, false⟩, ⟨false, false, false⟩], ⟨false, false, false⟩, false, 0⟩
  name := t "f"
  prms := [⟨t "p", t "int *", .ptr (.int 4 true false), false⟩, ⟨t "n", t "int", .int 4 true false, false⟩]
  ret := ⟨t "int", .int 4 true false, false, false⟩
  ptype := .other
  filter := some (Av.yOpts .direct Av.pA, Av.isFive "n")

def exProg : Cc.Prog := match Cc.compileFilter (Av.yOpts .direct Av.pA) (Av.isFive "n") with | .ok p => p | .error _ => ⟨[], 0⟩

/-- One target for each way; the addresses are different. -/
def exIp (multi : Bool) : W := if multi then 0xffffffff81000040 else 0xffffffff81000000

def exTarget (F : Feats) (multi both : Bool) : Target where
  ip := exIp multi
  atts := if multi then Att.traceKfuncMulti F.ksession true 6 (exSrc both).fn else Att.traceFuncs F.fsession true (exSrc both).fn
  params := [⟨true, false, false⟩, ⟨false, false, false⟩]
  ret := ⟨false, false, false⟩
  filter := some exProg
  multi := multi
  pkt := if multi && both then .dflt else .none

def exReader : Reader where
  tables := ⟨fun _ => none, fun a => if a = exIp false ∨ a = exIp true then some (t "f") else none,
    fun a => if a = exIp false ∨ a = exIp true then some ⟨t "f", false⟩ else none, []⟩
  info _ _ := ⟨some ⟨(exSrc false).prms, (exSrc false).ret⟩, [⟨true, false, false⟩, ⟨false, false, false⟩], ⟨false, false, false⟩, .other⟩
  env := ⟨fun _ => [], fun _ _ => [], List.replicate 8 0⟩
  maxArgs := 6
  pktText _ := []
  attrsText _ _ := none
  lbrText _ := []
  stackText _ := []

/-- The field `tail` of an `sk_buff` is where it has the array of the arguments in the memory of the example. -/
def exGlobals : Globals := { ready := true, self := 4242, filterPid := 0, cpuMask := 127, layout := ⟨⟨0, 8, 10, 12, -0xf00⟩, 0, 8, 0, 8, 4⟩ }

/-- A moment of a call with this `n`; with `(m)`, at the return the register of `n` holds 9. -/
def exMoment (F : Feats) (multi both ret : Bool) (call n : Nat) (ns : BitVec 32) : Moment where
  S := exSrc both
  τ := exTarget F multi both
  o := { phase := if ret then .ret else .call, ctx := [0x1000, BitVec.ofNat 64 n] ++ (if ret then [-2] else [])
         mem := if multi then Av.yMem [0x1000, if ret then 9 else n, 0, 0, 0, 0] else Av.yMem [0x1000, n]
         argsAt := 0x100, bufAt := 0x5000, st := Cc.vSt
         out := fun _ => 0, cpu := 3, pidTgid := 0x1100000012, comm := [0x73, 0x68] ++ List.replicate 14 0, ns := ns, sid := BitVec.ofNat 32 (77 + call) ++ 0x81000040#32
         stackID := 0, nrBytes := 0
         pkt := List.replicate 16 0, data := [], stale := [1, 2, 3], call := call, staleIds := fun _ => 9, full := false
         regs := fun i => if i = 0 then 0x1000 else if i = 1 then (if ret then 9 else BitVec.ofNat 64 n) else 0
         rc := -2 }
  args := [0x1000, BitVec.ofNat 64 n]
  res := -2
  clock := ⟨9, 5, 7, 500000000⟩

/-- Which of the two is traced with session programs. -/
def exSes (F : Feats) (a : W) : Bool := if a = exIp true then F.ksession else F.fsession

theorem ex_low (x : BitVec 32) : (x ++ 0x81000040#32 : BitVec (32 + 32)).truncate 32 = 0x81000040#32 := by
  show BitVec.setWidth 32 (x ++ 0x81000040#32) = _
  rw [BitVec.setWidth_append]
  simp

theorem ex_kind (x : BitVec 32) : stubKind (x ++ 0x81000040#32) = .skb := by
  unfold stubKind
  rw [ex_low]
  decide

theorem ex_sid (x : BitVec 32) : x ++ 0x81000040#32 ≠ (0 : W) := by
  intro h
  have := congrArg (BitVec.truncate 32) h
  rw [ex_low] at this
  exact absurd this (by decide)

theorem ex_attached (F : Feats) (multi both : Bool) (h : multi = true → both = true) :
    Attached exReader F true (exSrc both) (exTarget F multi both) where
  att := by
    cases multi
    · exact .inl ⟨rfl, .rfl⟩
    · exact .inr (.inr ⟨rfl, .rfl, rfl⟩)
  insn := nofun
  params := rfl
  prms := rfl
  ret := rfl
  len := by simp [exSrc]
  simple := by
    intro p hp
    simp only [exSrc, List.mem_cons, List.not_mem_nil, or_false] at hp
    rcases hp with rfl | rfl <;> refine ⟨?_, ?_, ?_⟩ <;> simp [Rp.Plain]
  simpleRet := by
    intro _ _
    refine ⟨?_, ?_, ?_⟩ <;> simp [exSrc, Rp.Plain]
  retStr := by intro h; exact absurd rfl h
  info := rfl
  name := by
    show Ln.name exReader.tables (exIp multi) none multi = t "f"
    cases multi <;> decide +kernel
  filter := .inr ⟨_, _, rfl, rfl, ⟨rfl, rfl, .inl rfl, rfl, by decide +kernel, by
    intro x hx i ty hi
    have hx : x = "n" := by
      have : ∀ e, Sel.Occurs x e → e = Av.isFive "n" → x = "n" := by
        intro e he hq
        unfold Av.isFive at hq
        cases he <;> first | (cases hq; done) | skip
        all_goals injection hq with q1 q2 q3
        all_goals subst_vars
        all_goals rename_i hh
        all_goals cases hh
        all_goals rfl
      exact this _ hx rfl
    subst hx
    have hi' : Cc.findVar "n" (Av.yOpts .direct Av.pA).vars 0 = some (i, ty) := hi
    have e : (Cc.findVar "n" (Av.yOpts .direct Av.pA).vars 0).map (·.1) = some 1 := by decide +kernel
    rw [hi'] at e
    cases e
    show (1 < if multi = true then 6 else 2) ∧ some (t "n") = some "n".toList
    cases multi <;> decide +kernel⟩, fun hm => .inr (by rw [h hm]; rfl)⟩
  pkt := by
    refine .inl ⟨rfl, ?_⟩
    cases multi with
    | false => exact .inl rfl
    | true => rw [h rfl]; exact .inr ⟨rfl, rfl, .inr rfl⟩
  data := by simp [exSrc]

theorem ex_stored (ret : Bool) (n : Nat) (h : n = 5 ∨ n = 7) : ∃ junk, Av.Stored (Av.yMem [0x1000, n]) 0x100 2
    (Av.readCtx 2 ([0x1000, BitVec.ofNat 64 n] ++ (if ret then [-2] else [])) junk) := by
  refine ⟨fun _ => 0, ?_⟩
  rcases h with rfl | rfl <;> cases ret <;> decide +kernel

theorem ex_sees (F : Feats) (multi both ret : Bool) (call n : Nat) (ns : BitVec 32) (h : n = 5 ∨ n = 7) :
    Sees exGlobals (exSrc both) (exTarget F multi both) (exMoment F multi both ret call n ns).o (exMoment F multi both ret call n ns).args (-2) where
  len := rfl
  ctx := by intro _; cases ret <;> rfl
  stored := by
    intro hm
    cases multi with
    | true => cases hm
    | false => exact ex_stored ret n h
  call := by
    intro _ hp i v _ hv
    cases ret with
    | true => cases hp
    | false =>
      match i, hv with
      | 0, hv => cases hv; rfl
      | 1, hv => cases hv; rfl
      | i + 2, hv => cases hv
  rc := fun _ _ => rfl
  storedRegs := by
    intro hm
    cases multi with
    | false => cases hm
    | true => rcases h with rfl | rfl <;> cases ret <;> (dsimp only [exMoment]; decide +kernel)
  comm := rfl
  pkt := rfl
  data := by
    have : (exSrc both).fn.data = 0 := rfl
    rw [this]
    simp [exMoment]
  cpu := (by decide : (3 : BitVec 32) &&& 127 = 3)
  readable := by cases multi <;> exact Av.yMem_readable _
  noSkip := fun _ h => absurd rfl h
  dflt := fun _ _ => by
    simp only [exMoment, ← stubKind_eq, ex_kind]
    refine ⟨false, _, _, ⟨?_, rfl, rfl⟩, ?_⟩
    · rcases h with rfl | rfl <;> cases multi <;> cases ret <;> decide +kernel
    · rcases h with rfl | rfl <;> cases multi <;> cases ret <;> decide +kernel
  noNull := by
    intro f x hf
    cases hf
    intro h'
    have := congrArg (Option.map Prod.snd) h'
    rw [Option.map_some] at this
    rcases h with rfl | rfl <;> cases multi <;> cases ret <;> exact absurd this (by dsimp only [exMoment]; decide +kernel)

theorem ex_ok (F : Feats) (multi both ret : Bool) (call n : Nat) (ns : BitVec 32) (h : n = 5 ∨ n = 7) (hm : multi = true → both = true) :
    (exMoment F multi both ret call n ns).Ok exReader exGlobals F true (exSes F) where
  attached := ex_attached F multi both hm
  sees := ex_sees F multi both ret call n ns h
  size := by
    intro wr
    cases wr <;> simp only [exMoment, exTarget] <;> decide +kernel
  attrs := fun h => absurd rfl h
  same := by
    show (if multi = true then F.ksession else F.fsession) = exSes F (exIp multi)
    unfold exSes
    cases multi
    · rw [if_neg (by decide), if_neg (by decide)]
    · rw [if_pos rfl, if_pos rfl]
  root := by
    intro a h
    have h0 : (0 : W) = exIp multi := h
    cases multi <;> exact absurd h0 (by decide)

/-- The hypotheses hold for three returns, of which the first and the last are wanted; and what is printed for them. -/
example (F : Feats) (hF : F = ⟨false, false⟩) :
    (∀ x ∈ ([.fn (exMoment F false false true 0 5 1), .fn (exMoment F false false true 1 7 2), .fn (exMoment F false false true 2 5 3)] : List Ev),
      x.Ok exReader exGlobals F true (exSes F)) ∧
    Proper exGlobals F true (fun _ => []) [] (fun _ => [])
      [.fn (exMoment F false false true 0 5 1), .fn (exMoment F false false true 1 7 2), .fn (exMoment F false false true 2 5 3)] ∧
    printed exReader 0 0
      (sent exGlobals start [.fn (exMoment F false false true 0 5 1), .fn (exMoment F false false true 1 7 2), .fn (exMoment F false false true 2 5 3)]) =
      some (List.replicate 2 (Ln.arrowOut ++
        t " f args=((int *)p=0x1000(0), (int)n=5) retval=(int)-2 cpu=3 process=(17:sh) timestamp=09:05:07.5\n\n")) := by
  refine ⟨?_, .single rfl (.single rfl (.single rfl .nil)), by subst hF; decide +kernel⟩
  intro x hx
  simp only [List.mem_cons, List.not_mem_nil, or_false] at hx
  rcases hx with rfl | rfl | rfl
  · exact ex_ok _ _ _ _ _ _ _ (.inl rfl) nofun
  · exact ex_ok _ _ _ _ _ _ _ (.inr rfl) nofun
  · exact ex_ok _ _ _ _ _ _ _ (.inl rfl) nofun

/-- Two calls of a function traced at both ends, one of them wanted, inside a call that began before the trace. -/
def exHist (F : Feats) (multi : Bool) : List Ev :=
  [.fn (exMoment F multi true false 1 7 10), .fn (exMoment F multi true true 1 7 20), .fn (exMoment F multi true false 2 5 1000),
   .fn (exMoment F multi true true 2 5 2500), .fn (exMoment F multi true true 3 5 4000)]

theorem ex_wanted (F : Feats) (multi : Bool) (call n : Nat) (ns : BitVec 32) (h : n = 5 ∨ n = 7) :
    Wanted exGlobals true (exSrc true) (exMoment F multi true false call n ns).o (exMoment F multi true false call n ns).args ↔ n = 5 := by
  rw [wanted_iff (ex_attached F multi true (fun _ => rfl)) (ex_sees F multi true false call n ns h) rfl]
  rcases h with rfl | rfl
  · refine ⟨fun _ => rfl, fun _ => ⟨⟨rfl, ?_, .inl rfl⟩, ?_, ?_⟩⟩
    · show (exMoment ⟨false, false⟩ false true false 0 5 0).o.pid ≠ exGlobals.self
      decide +kernel
    · simp [exMoment, exSrc, Src.paired]
    · cases multi <;> simp only [filters, filterArg, filterPkt, argAt, exTarget, exMoment, ex_kind] <;> decide +kernel
  · constructor
    · rintro ⟨_, _, h⟩
      cases multi <;> simp only [filters, filterArg, filterPkt, argAt, exTarget, exMoment, ex_kind] at h <;> exact absurd h (by decide +kernel)
    · intro h; cases h

theorem ex_proper (F : Feats) (multi : Bool) : Proper exGlobals F true (fun _ => []) [] (fun _ => []) (exHist F multi) := by
  refine .unwanted rfl rfl (fun h => ?_) (by simp) (fun _ => rfl) ?_
  · exact absurd ((ex_wanted F multi 1 7 10 (.inr rfl)).1 h) (by decide)
  refine .back rfl rfl (put_same _ _ _) (fun _ hy => absurd hy List.not_mem_nil) ?_
  refine .wanted rfl rfl ((ex_wanted F multi 2 5 1000 (.inl rfl)).2 rfl) (by simp [exMoment]) (by simp [exMoment]) (fun k c h => ?_) (fun _ => ⟨rfl, ?_⟩) ?_
  · simp only [put] at h
    repeat' split at h
    all_goals simp at h
  · show (taken (put (put (fun _ => []) _ _) _ _ _)).length < 64
    rw [show (exMoment F multi true false 2 5 1000).key = (exMoment F multi true true 1 7 20).key from rfl, put_same]
    show (taken (List.nil)).length < 64
    decide
  refine .back rfl rfl (put_same _ _ _) (fun _ hy => absurd hy List.not_mem_nil) ?_
  refine .before rfl rfl ?_ (by simp [exMoment]) .nil
  rw [show (exMoment F multi true true 3 5 4000).key = (exMoment F multi true true 2 5 2500).key from rfl, put_same]
  rw [show (exMoment F multi true false 2 5 1000).key = (exMoment F multi true true 1 7 20).key from rfl, put_same]

theorem ex_hist_ok (F : Feats) (multi : Bool) : ∀ x ∈ exHist F multi, x.Ok exReader exGlobals F true (exSes F) := by
  intro x hx
  simp only [exHist, List.mem_cons, List.not_mem_nil, or_false] at hx
  rcases hx with rfl | rfl | rfl | rfl | rfl
  · exact ex_ok _ _ _ _ _ _ _ (.inr rfl) (fun _ => rfl)
  · exact ex_ok _ _ _ _ _ _ _ (.inr rfl) (fun _ => rfl)
  · exact ex_ok _ _ _ _ _ _ _ (.inl rfl) (fun _ => rfl)
  · exact ex_ok _ _ _ _ _ _ _ (.inl rfl) (fun _ => rfl)
  · exact ex_ok _ _ _ _ _ _ _ (.inl rfl) (fun _ => rfl)

/-- The hypotheses hold, and what is printed, with and without session programs. -/
example (F : Feats) : (∀ x ∈ exHist F false, x.Ok exReader exGlobals F true (exSes F)) ∧ Proper exGlobals F true (fun _ => []) [] (fun _ => []) (exHist F false) ∧
    printed exReader 0 0 (sent exGlobals start (exHist F false)) =
      some [Ln.arrowIn ++ t " f args=((int *)p=0x1000(0), (int)n=5) cpu=3 process=(17:sh) timestamp=09:05:07.5\n" ++ Ln.arrowOut ++
        t " f args=((int *)p=0x1000(0), (int)n=5) retval=(int)-2 cpu=3 process=(17:sh) duration=1.5" ++ [Ot.chr 0xC2, Ot.chr 0xB5] ++
        t "s timestamp=09:05:07.5\n\n"] := by
  refine ⟨ex_hist_ok F false, ex_proper F false, ?_⟩
  obtain ⟨a, b⟩ := F
  cases a <;> cases b <;> decide +kernel

/-- **C83 violated.** With `(m)` the line of the return of a call `f(p, 5)` says `n=9`: what is in the register of the second argument at
that time. With and without session programs. -/
theorem multi_return_args_violated (F : Feats) : (∀ x ∈ exHist F true, x.Ok exReader exGlobals F true (exSes F)) ∧
    Proper exGlobals F true (fun _ => []) [] (fun _ => []) (exHist F true) ∧
    (∀ x, .fn x ∈ exHist F true → x.o.call = 2 → x.args = [0x1000, 5]) ∧
    printed exReader 0 0 (sent exGlobals start (exHist F true)) =
      some [Ln.arrowIn ++ t " f args=((int *)p=0x1000, (int)n=5) cpu=3 process=(17:sh) timestamp=09:05:07.5\n" ++ Ln.arrowOut ++
        t " f args=((int *)p=0x1000, (int)n=9) retval=(int)-2 cpu=3 process=(17:sh) duration=1.5" ++ [Ot.chr 0xC2, Ot.chr 0xB5] ++
        t "s timestamp=09:05:07.5\n\n"] := by
  refine ⟨ex_hist_ok F true, ex_proper F true, ?_, ?_⟩
  · intro x hx hc
    simp only [exHist, List.mem_cons, List.not_mem_nil, or_false, Ev.fn.injEq] at hx
    rcases hx with rfl | rfl | rfl | rfl | rfl <;> first | rfl | (simp [exMoment] at hc)
  · obtain ⟨a, b⟩ := F
    cases a <;> cases b <;> decide +kernel

/-- **C83 violated.** With `(m)`, mode "exit" and the filter `n == 5`, which is not put into the program then (`filter` is `none`): the return
of `f(p, 7)` is printed. -/
theorem multi_exit_filter_violated (F : Feats) :
    printed exReader 0 0
      (sent exGlobals start [.fn { exMoment F true false true 1 7 10 with τ := { exTarget F true false with filter := none } }]) =
      some [Ln.arrowOut ++ t " f args=((int *)p=0x1000, (int)n=9) retval=(int)-2 cpu=3 process=(17:sh) timestamp=09:05:07.5\n\n"] ∧
    ¬ Wanted exGlobals true (exSrc false) (exMoment F true false true 1 7 10).o (exMoment F true false true 1 7 10).args ∧
    (∀ a ∈ (exTarget F true false).atts, a.code = false) := by
  refine ⟨?_, ?_, ?_⟩
  · obtain ⟨a, b⟩ := F
    cases a <;> cases b <;> decide +kernel
  · rintro ⟨_, _, _, _, h, _⟩
    obtain ⟨x, h1, h2⟩ := h _ rfl
    have h3 : Cc.meaning (Av.yOpts .direct Av.pA) ⟨fun i => [0x1000, 7#64].getD i 0, Av.yMem [0x1000, 9, 0, 0, 0, 0]⟩ (Av.isFive "n") = some (x, false) := h1
    have h4 : (Cc.meaning (Av.yOpts .direct Av.pA) ⟨fun i => [0x1000, 7#64].getD i 0, Av.yMem [0x1000, 9, 0, 0, 0, 0]⟩ (Av.isFive "n")).map Prod.fst =
      some 0 := by decide +kernel
    rw [h3] at h4
    cases h4
    exact h2 rfl
  · intro a ha
    simp only [exTarget, if_true, Att.traceKfuncMulti, exSrc, Bool.false_and, Bool.false_eq_true, if_false, List.mem_singleton] at ha
    subst ha
    rfl

/-- Calls of both functions, one inside the other, on a kernel that has session programs for one of them only. -/
def exMixed (F : Feats) : List Ev :=
  [.fn (exMoment F false true false 1 5 10), .fn (exMoment F true true false 2 5 1000), .fn (exMoment F true true true 2 5 2500),
   .fn (exMoment F false true true 1 5 5010)]

/-- The hypotheses hold for a mixed history, and what is printed. -/
example (F : Feats) : (∀ x ∈ exMixed F, x.Ok exReader exGlobals F true (exSes F)) ∧ Proper exGlobals F true (fun _ => []) [] (fun _ => []) (exMixed F) ∧
    (printed exReader 0 0 (sent exGlobals start (exMixed F))).map List.length = some 2 := by
  refine ⟨?_, ?_, ?_⟩
  · intro x hx
    simp only [exMixed, List.mem_cons, List.not_mem_nil, or_false] at hx
    rcases hx with rfl | rfl | rfl | rfl <;> exact ex_ok _ _ _ _ _ _ _ (.inl rfl) (fun _ => rfl)
  · have hk : (exMoment F true true false 2 5 1000).key ≠ (exMoment F false true false 1 5 10).key := by
      intro h
      have := congrArg KSess.Key.funcIP h
      have : exIp true = exIp false := this
      exact absurd this (by decide)
    refine .wanted rfl rfl ((ex_wanted F false 1 5 10 (.inl rfl)).2 rfl) (by simp) (by simp [exMoment]) (fun k c h => by cases h) (fun _ => ⟨rfl, by simp [taken]⟩) ?_
    refine .wanted rfl rfl ((ex_wanted F true 2 5 1000 (.inl rfl)).2 rfl) (by simp [exMoment]) (by simp [exMoment]) (fun k c h => ?_) (fun _ => ⟨rfl, ?_⟩) ?_
    · simp only [put] at h
      split at h
      · simp [exMoment] at h
      · cases h
    · rw [put_other _ _ hk]
      simp [taken]
    refine .back rfl rfl (put_same _ _ _) (fun _ hy => absurd hy List.not_mem_nil) ?_
    refine .back (v := some (exMoment F false true false 1 5 10).o.sid) (l := []) rfl rfl ?_ (fun _ hy => absurd hy List.not_mem_nil) .nil
    rw [show (exMoment F false true true 1 5 5010).key = (exMoment F false true false 1 5 10).key from rfl,
      show (exMoment F true true true 2 5 2500).key = (exMoment F true true false 2 5 1000).key from rfl,
      put_other _ _ (Ne.symm hk), put_other _ _ (Ne.symm hk), put_same]
    rfl
  · obtain ⟨a, b⟩ := F
    cases a <;> cases b <;> decide +kernel

/-- With `(m)` nothing depends on `--skip-tunnel`. -/
theorem multi_skip_ignored (g : Globals) (b : Bool) (τ : Target) (o : Occ) (hm : τ.multi = true) (l : List Att) (s : Att.SSt) :
    emits { g with skipTunnel := b } τ o l s = emits g τ o l s := by
  have hf : filters { g with skipTunnel := b } τ o = filters g τ o := by
    unfold filters filterPkt
    simp only [hm, Bool.not_true, Bool.and_false]
  have he : ∀ a s, emit { g with skipTunnel := b } τ a o s = emit g τ a o s := by
    intro a s
    unfold emit
    rw [hf]
    rfl
  induction l generalizing s with
  | nil => rfl
  | cons a l ih => simp only [emits, he, ih]

theorem emits_refused (g : Globals) (τ : Target) (o : Occ) (hf : filters g τ o = false) (l : List Att)
    (hm : ∀ a ∈ l, ∀ r, a.hook.fires o.phase = some r → Att.mode (Att.cConfig g.filterPid a.cfg) r ≠ .sessionExit) (s : Att.SSt) :
    emits g τ o l s = (s, []) := by
  induction l generalizing s with
  | nil => rfl
  | cons a l ih =>
    have he : emit g τ a o s = (s, none) := by
      have := hm a (by simp)
      unfold emit
      split
      · rfl
      · rename_i r hr
        dsimp only
        split
        · rfl
        · split
          · rw [hf]
            unfold Att.sstep
            cases (Att.cConfig g.filterPid a.cfg).flag .is_session <;> rfl
          · exact absurd ‹_› (this r hr)
          · rw [hf]; rfl
          · rw [hf]; rfl
    simp only [emits, he, ih fun b hb => hm b (by simp [hb])]
    rfl

theorem ex_modes (F : Feats) : ∀ a ∈ (exTarget F true true).atts, ∀ r, a.hook.fires .call = some r → Att.mode (Att.cConfig 0 a.cfg) r ≠ .sessionExit := by
  obtain ⟨a, b⟩ := F
  cases a <;> cases b <;> decide +kernel

/-- The same kernel, with an `sk_buff` as it is. -/
def exPlain : Globals := { exGlobals with layout := ⟨⟨0, 8, 10, 12, 16⟩, 0, 8, 0, 8, 4⟩ }

/-- **C83 violated.** With `(m)` and without a packet filter, a call `f(p, 5)` that the options ask for is not shown when `p` is not an `sk_buff`: the C source
of `filter_pkt`, which is in the program, takes it for one, here an empty one. -/
theorem default_packet_violated (F : Feats) : Attached exReader F true (exSrc true) (exTarget F true true) ∧ (exSrc true).pkt = none ∧
    Wanted exPlain true (exSrc true) (exMoment F true true false 1 5 10).o (exMoment F true true false 1 5 10).args ∧
    ∀ s, emits exPlain (exTarget F true true) (exMoment F true true false 1 5 10).o (exTarget F true true).atts s = (s, []) := by
  refine ⟨ex_attached F true true fun _ => rfl, rfl, ?_, fun s => emits_refused _ _ _ ?_ _ (ex_modes F) s⟩
  · obtain ⟨h1, h2, h3, h4, h5, _⟩ := (ex_wanted F true 1 5 10 (.inl rfl)).2 rfl
    exact ⟨h1, h2, h3, h4, h5, nofun⟩
  · unfold filters
    rw [show filterPkt exPlain (exTarget F true true) (exMoment F true true false 1 5 10).o = false from by
      show filterPkt exPlain (exTarget ⟨false, false⟩ true true) (exMoment ⟨false, false⟩ true true false 1 5 10).o = false
      decide +kernel]
    simp

/-- A call of a function traced with `(m)` whose first argument is an `sk_buff` with an IP packet at 0x2000, which is VXLAN; the pcap expression is true of the
packet in it. -/
def exTunnel (F : Feats) : Moment :=
  let x := exMoment F true true false 1 5 10
  let f : PktCheck := ⟨.skb, 0, fun _ _ _ => false, fun _ d _ => d == 0x2032⟩
  { x with S := { exSrc true with pkt := some f }, τ := { exTarget F true true with pkt := .pcap f }
           o := { x.o with mem := Cc.vMem [(0x100, 0x1000), (0x108, 5), (0x1000, 0x2000), (0x2000, 0x45), (0x2008, 17 * 256), (0x2010, 0xB512 * 2 ^ 48)] } }

/-- **C83 violated.** With `(m)` and `--skip-tunnel`, a call is not shown although the packet in the tunnel passes the filter. -/
theorem multi_skip_tunnel_violated (F : Feats) :
    Wanted { exGlobals with skipTunnel := true } true (exTunnel F).S (exTunnel F).o (exTunnel F).args ∧
    ∀ s, emits { exGlobals with skipTunnel := true } (exTunnel F).τ (exTunnel F).o (exTunnel F).τ.atts s = (s, []) := by
  constructor
  · refine ⟨rfl, ?_, .inl rfl, ?_, ?_, ?_⟩
    · show (exTunnel ⟨false, false⟩).o.pid ≠ exGlobals.self
      decide +kernel
    · simp [exTunnel, exMoment, exSrc, Src.paired]
    · intro f hf
      cases hf
      exact ⟨1, rfl, by decide⟩
    · intro f hf
      cases hf
      rw [← passes_iff]
      show pktRun exGlobals.layout true .skb (fun _ _ _ => false) (fun _ d _ => d == 0x2032)
        (Cc.vMem [(0x100, 0x1000), (0x108, 5), (0x1000, 0x2000), (0x2000, 0x45), (0x2008, 17 * 256), (0x2010, 0xB512 * 2 ^ 48)]) 0x1000 = true
      decide +kernel
  · intro s
    have hf : filters { exGlobals with skipTunnel := true } (exTunnel F).τ (exTunnel F).o = false := by
      unfold filters
      rw [show filterPkt { exGlobals with skipTunnel := true } (exTunnel F).τ (exTunnel F).o = false from by
        show filterPkt { exGlobals with skipTunnel := true } (exTunnel ⟨false, false⟩).τ (exTunnel ⟨false, false⟩).o = false
        decide +kernel]
      simp
    exact emits_refused _ _ _ hf _ (ex_modes F) s

/-- The same call of the same function traced without `(m)`, with an IP packet of which the pcap expression is true if it is read behind the tunnel. -/
def exPacket (F : Feats) : Moment :=
  { exTunnel F with
    τ := { exTarget F false true with pkt := (exTunnel F).τ.pkt }
    o := { (exTunnel F).o with ctx := [0x1000, 5] } }

/-- The hypotheses hold with a packet filter and `--skip-tunnel`, and the call is wanted; without `--skip-tunnel` it is not. -/
example (F : Feats) : (exPacket F).Ok exReader { exGlobals with skipTunnel := true } F true (exSes F) ∧
    Wanted { exGlobals with skipTunnel := true } true (exPacket F).S (exPacket F).o (exPacket F).args ∧
    ¬ Wanted exGlobals true (exPacket F).S (exPacket F).o (exPacket F).args := by
  refine ⟨⟨?_, ?_, ?_, fun h => absurd rfl h, ?_, fun _ h => absurd (show (0 : W) = exIp false from h) (by decide)⟩, (multi_skip_tunnel_violated F).1, fun h => ?_⟩
  · have h := ex_attached F false true nofun
    exact { insn := h.insn, params := h.params, prms := h.prms, ret := h.ret, len := h.len, simple := h.simple, simpleRet := h.simpleRet
            retStr := h.retStr, info := h.info, name := h.name, filter := h.filter, data := h.data, att := h.att
            pkt := .inr ⟨_, rfl, rfl, (by decide : 0 < 2), nofun⟩ }
  · exact { len := rfl, ctx := fun _ => rfl
            stored := fun _ => ⟨fun _ => 0, by
              show Av.Stored (exTunnel ⟨false, false⟩).o.mem 0x100 2 (Av.readCtx 2 [0x1000, 5] fun _ => 0)
              decide +kernel⟩
            call := nofun, rc := nofun, storedRegs := nofun, comm := rfl, pkt := rfl, data := rfl
            cpu := (by decide : (3 : BitVec 32) &&& 127 = 3)
            readable := fun a _ _ _ => Cc.bytes_total (fun _ => rfl) 8 a
            noSkip := nofun, dflt := nofun
            noNull := by
              intro f x hf h'
              cases hf
              have := congrArg (Option.map Prod.snd) h'
              rw [Option.map_some] at this
              exact absurd this (by
                show ¬ Option.map Prod.snd (Cc.meaning (Av.yOpts .direct Av.pA) ⟨fun i => [0x1000, 5].getD i 0, (exTunnel ⟨false, false⟩).o.mem⟩ (Av.isFive "n")) = some true
                decide +kernel) }
  · intro wr
    cases wr <;> simp only [exPacket, exTarget] <;> decide +kernel
  · show (if false = true then F.ksession else F.fsession) = exSes F (exIp false)
    unfold exSes
    rw [if_neg (by decide), if_neg (by decide)]
  · have := passes_iff.2 (h.2.2.2.2.2 _ rfl)
    have h2 : pktRun exGlobals.layout false .skb (fun _ _ _ => false) (fun _ d _ => d == 0x2032)
        (Cc.vMem [(0x100, 0x1000), (0x108, 5), (0x1000, 0x2000), (0x2000, 0x45), (0x2008, 17 * 256), (0x2010, 0xB512 * 2 ^ 48)]) 0x1000 = true := this
    exact absurd h2 (by decide +kernel)

/-! ### Instructions -/

/-- The function traced with `(i)`. -/
def exISrc : Src := { exSrc false with fn := { (exSrc false).fn with insn := true } }

/-- The reader that has an instruction of it in its table. -/
def exIReader : Reader := { exReader with insns := fun a => if a = exIp false + 20 then some (t "f", t "nop") else none }

/-- A moment of a call of it, on a kernel without session programs. -/
def exIMoment (ret : Bool) (call n : Nat) (ns : BitVec 32) : Moment :=
  { exMoment ⟨false, false⟩ false true ret call n ns with
    S := exISrc
    τ := { exTarget ⟨false, false⟩ false true with atts := Att.traceFuncs false true exISrc.fn } }

/-- The instruction is executed in this call. -/
def exInsn (call : Nat) (ns : BitVec 32) : IMoment :=
  ⟨exIp false, t "f", exIp false + 20, t "nop", 0x1100000012, call, ns, 3, [1, 2, 3, 4], ⟨9, 5, 7, 500000000⟩⟩

/-- A call from before the trace executes the instruction; a call that is not wanted, and one that is, which executes it twice. -/
def exIHist : List Ev :=
  [.insn (exInsn 9 5), .fn (exIMoment false 1 7 10), .insn (exInsn 1 12), .fn (exIMoment true 1 7 20), .fn (exIMoment false 2 5 1000),
   .insn (exInsn 2 1200), .insn (exInsn 2 1300), .fn (exIMoment true 2 5 2500)]

theorem exI_ok (ret : Bool) (call n : Nat) (ns : BitVec 32) (h : n = 5 ∨ n = 7) :
    (exIMoment ret call n ns).Ok exIReader exGlobals ⟨false, false⟩ true (fun _ => false) where
  attached :=
    { insn := fun _ => ⟨rfl, rfl⟩, params := rfl, prms := rfl, ret := rfl
      len := (ex_attached ⟨false, false⟩ false true nofun).len
      simple := (ex_attached ⟨false, false⟩ false true nofun).simple
      simpleRet := (ex_attached ⟨false, false⟩ false true nofun).simpleRet
      retStr := (ex_attached ⟨false, false⟩ false true nofun).retStr
      info := rfl
      name := (ex_attached ⟨false, false⟩ false true nofun).name
      filter := by
        rcases (ex_attached ⟨false, false⟩ false true nofun).filter with ⟨h, _⟩ | ⟨f, p, h1, h2, h3, _⟩
        · cases h
        · exact .inr ⟨f, p, h1, h2, h3, nofun⟩
      pkt := .inl ⟨rfl, .inl rfl⟩
      data := (by decide : 0 < 2 ^ 32)
      att := .inl ⟨rfl, .rfl⟩ }
  sees :=
    have h := ex_sees ⟨false, false⟩ false true ret call n ns h
    { len := h.len, ctx := h.ctx, stored := h.stored, call := nofun, rc := nofun, storedRegs := nofun, comm := h.comm, pkt := h.pkt
      data := h.data, cpu := h.cpu, readable := h.readable, noSkip := nofun, dflt := nofun, noNull := h.noNull }
  size := (ex_ok ⟨false, false⟩ false true ret call n ns h nofun).size
  attrs := fun h => absurd rfl h
  same := rfl
  root := fun _ h => absurd (show (0 : W) = exIp false from h) (by decide)

theorem exI_wanted (call n : Nat) (ns : BitVec 32) (h : n = 5 ∨ n = 7) :
    Wanted exGlobals true exISrc (exIMoment false call n ns).o (exIMoment false call n ns).args ↔ n = 5 := by
  rw [← ex_wanted ⟨false, false⟩ false call n ns h]
  unfold Wanted
  have e : (exSrc true).paired = true ∧ exISrc.paired = true := ⟨rfl, rfl⟩
  rw [e.1, e.2]
  rfl

/-- The hypotheses hold, and what is printed: the instructions of the wanted call between its call and its return. -/
example : (∀ x ∈ exIHist, x.Ok exIReader exGlobals ⟨false, false⟩ true (fun _ => false)) ∧
    Proper exGlobals ⟨false, false⟩ true (fun _ => []) [] (fun _ => []) exIHist ∧
    printed exIReader 0 0 (sent exGlobals start exIHist) =
      some [Ln.arrowIn ++ t " f args=((int *)p=0x1000(0), (int)n=5) cpu=3 process=(17:sh) timestamp=09:05:07.5\n" ++
        t "f cpu=3  duration=200ns        insn=nop\nf cpu=3  duration=300ns        insn=nop\n" ++ Ln.arrowOut ++
        t " f args=((int *)p=0x1000(0), (int)n=5) retval=(int)-2 cpu=3 process=(17:sh) duration=1.5" ++ [Ot.chr 0xC2, Ot.chr 0xB5] ++
        t "s timestamp=09:05:07.5\n\n"] := by
  refine ⟨?_, ?_, by decide +kernel⟩
  · intro x hx
    simp only [exIHist, List.mem_cons, List.not_mem_nil, or_false] at hx
    have hi : ∀ c ns, (Ev.insn (exInsn c ns)).Ok exIReader exGlobals ⟨false, false⟩ true (fun _ => false) := fun c ns =>
      ⟨(if_pos rfl : (if exIp false + 20 = exIp false + 20 then some (t "f", t "nop") else none) = some (t "f", t "nop")), rfl⟩
    rcases hx with rfl | rfl | rfl | rfl | rfl | rfl | rfl | rfl
    · exact hi _ _
    · exact exI_ok _ _ _ _ (.inr rfl)
    · exact hi _ _
    · exact exI_ok _ _ _ _ (.inr rfl)
    · exact exI_ok _ _ _ _ (.inl rfl)
    · exact hi _ _
    · exact hi _ _
    · exact exI_ok _ _ _ _ (.inl rfl)
  · refine .early rfl (by simp) ?_
    refine .unwanted rfl rfl (fun h => ?_) (by simp) (fun _ => rfl) ?_
    · exact absurd ((exI_wanted 1 7 10 (.inr rfl)).1 h) (by decide)
    refine .within (put_same _ _ _) ?_
    refine .back rfl rfl (put_same _ _ _) (fun _ hy => absurd hy List.not_mem_nil) ?_
    refine .wanted rfl rfl ((exI_wanted 2 5 1000 (.inl rfl)).2 rfl) (by simp [exIMoment, exMoment]) (by simp [exIMoment, exMoment]) (fun k c h => ?_) (fun _ => ⟨rfl, ?_⟩) ?_
    · simp only [put] at h
      repeat' split at h
      all_goals simp at h
    · show (taken (put (put (fun _ => []) _ _) _ _ _)).length < 64
      rw [show (exIMoment false 2 5 1000).key = (exIMoment true 1 7 20).key from rfl, put_same]
      show (taken (List.nil)).length < 64
      decide
    refine .within (put_same _ _ _) ?_
    refine .within (put_same _ _ _) ?_
    exact .back rfl rfl (put_same _ _ _) (fun _ hy => absurd hy List.not_mem_nil) .nil

/-! ### Graphs -/

/-- The function traced with `(g)`. -/
def exGSrc : Src := { exSrc false with fn := { (exSrc false).fn with flag := { graph := true } } }

/-- The address of a function of its graph. -/
def exNode : W := 0xffffffff81000080

/-- The kernel: these return addresses are in `f` and in `g`. -/
def exGGlobals : Globals := { exGlobals with fip := fun a => if a = 0x10 then exIp false else if a = 0x20 then exNode else 0, maxDepth := 5 }

/-- The reader that knows `g`. -/
def exGReader (behind : Nat) : Reader :=
  { exReader with
    tables := { exReader.tables with ksym := fun a => if a = exNode then some (t "g") else some (t "f") }
    graphs := fun a => if a = exNode then some ⟨⟨none, some ⟨t "g", false⟩⟩, exReader.info 0 false, (Att.graphSizes false (exSrc false).fn.prms (exSrc false).fn.ret).1⟩ else none
    behind := fun _ => List.replicate behind 7 }

/-- A moment of a call of `f`, on a kernel without session programs. -/
def exGMoment (ret : Bool) (call n : Nat) (ns : BitVec 32) : Moment :=
  { exMoment ⟨false, false⟩ false true ret call n ns with
    S := exGSrc
    τ := { exTarget ⟨false, false⟩ false true with atts := Att.traceFuncs false true exGSrc.fn } }

/-- A moment of a call of `g`. -/
def exNMoment (ret : Bool) (call n : Nat) (ns : BitVec 32) (around : List (Nat × W)) (stack : List W) : GMoment :=
  { exMoment ⟨false, false⟩ false true ret call n ns with
    S := { exSrc true with name := t "g" }
    τ := { exTarget ⟨false, false⟩ false true with ip := exNode }
    around, stack }

/-- `g` is called outside of `f`; a call of `f` that is not wanted, and one that is, both call `g`, which in the second calls itself. -/
def exGHist : List Ev :=
  [.graph (exNMoment true 9 7 1 [] [0x20]), .graph (exNMoment false 0 5 2 [] [0x20]), .graph (exNMoment true 0 5 4 [] [0x20]),
   .fn (exGMoment false 1 7 10), .graph (exNMoment false 2 5 12 [(1, exIp false)] [0x20, 0x30, 0x10]), .graph (exNMoment true 2 5 14 [(1, exIp false)] [0x20, 0x30, 0x10]), .fn (exGMoment true 1 7 20),
   .fn (exGMoment false 3 5 1000), .graph (exNMoment false 4 5 1100 [(3, exIp false)] [0x20, 0x30, 0x10]),
   .graph (exNMoment false 5 7 1200 [(4, exNode), (3, exIp false)] [0x20, 0x20, 0x30, 0x10]), .graph (exNMoment true 5 7 1250 [(4, exNode), (3, exIp false)] [0x20, 0x20, 0x30, 0x10]),
   .graph (exNMoment true 4 5 1400 [(3, exIp false)] [0x20, 0x30, 0x10]), .fn (exGMoment true 3 5 2500)]

theorem exG_ok (ret : Bool) (call n : Nat) (ns : BitVec 32) (h : n = 5 ∨ n = 7) :
    (exGMoment ret call n ns).Ok (exGReader 32) exGGlobals ⟨false, false⟩ true (fun _ => false) where
  attached :=
    { insn := fun _ => ⟨rfl, rfl⟩, params := rfl, prms := rfl, ret := rfl
      len := (ex_attached ⟨false, false⟩ false true nofun).len
      simple := (ex_attached ⟨false, false⟩ false true nofun).simple
      simpleRet := (ex_attached ⟨false, false⟩ false true nofun).simpleRet
      retStr := (ex_attached ⟨false, false⟩ false true nofun).retStr
      info := rfl
      name := by
        show Ln.name (exGReader 32).tables (exIp false) none false = t "f"
        decide +kernel
      filter := by
        rcases (ex_attached ⟨false, false⟩ false true nofun).filter with ⟨h, _⟩ | ⟨f, p, h1, h2, h3, _⟩
        · cases h
        · exact .inr ⟨f, p, h1, h2, h3, nofun⟩
      pkt := .inl ⟨rfl, .inl rfl⟩
      data := (by decide : 0 < 2 ^ 32)
      att := .inl ⟨rfl, .rfl⟩ }
  sees :=
    have h := ex_sees ⟨false, false⟩ false true ret call n ns h
    { len := h.len, ctx := h.ctx, stored := h.stored, call := nofun, rc := nofun, storedRegs := nofun, comm := h.comm, pkt := h.pkt
      data := h.data, cpu := h.cpu, readable := h.readable, noSkip := nofun, dflt := nofun, noNull := h.noNull }
  size := (ex_ok ⟨false, false⟩ false true ret call n ns h nofun).size
  attrs := fun h => absurd rfl h
  same := rfl
  root := fun _ _ _ => rfl

theorem exN_ok (ret : Bool) (call n : Nat) (ns : BitVec 32) (around : List (Nat × W)) (stack : List W) (h : n = 5 ∨ n = 7) :
    (exNMoment ret call n ns around stack).Ok (exGReader 32) exGGlobals (fun _ => false) where
  typed :=
    have h := ex_attached ⟨false, false⟩ false true nofun
    { params := h.params, len := h.len, simple := h.simple, simpleRet := h.simpleRet, retStr := h.retStr }
  hands :=
    have h := ex_sees ⟨false, false⟩ false true ret call n ns h
    { len := h.len, ctx := h.ctx, stored := h.stored, call := nofun, rc := nofun, storedRegs := nofun }
  single := rfl
  known := ⟨⟨⟨none, some ⟨t "g", false⟩⟩, exReader.info 0 false, (Att.graphSizes false (exSrc false).fn.prms (exSrc false).fn.ret).1⟩, rfl, rfl, rfl, rfl⟩
  size := by
    intro wr
    cases wr <;> simp only [exNMoment, exTarget] <;> decide +kernel
  behind := by intro b; simp [exGReader]
  noSession := ⟨rfl, fun _ _ => rfl⟩
  depth := ⟨by decide, by decide⟩

theorem exG_wanted (call n : Nat) (ns : BitVec 32) (h : n = 5 ∨ n = 7) :
    Wanted exGGlobals true exGSrc (exGMoment false call n ns).o (exGMoment false call n ns).args ↔ n = 5 := by
  rw [← ex_wanted ⟨false, false⟩ false call n ns h]
  unfold Wanted
  have e : (exSrc true).paired = true ∧ exGSrc.paired = true := ⟨rfl, rfl⟩
  rw [e.1, e.2]
  rfl

theorem exN_around (st : KSess.Key → List (Nat × Option W)) (ret : Bool) (call n : Nat) (ns : BitVec 32) (c0 : Nat) (v : Option W)
    (hst : ∀ k, st k = if k = ⟨0x1100000012, exIp false⟩ then [(c0, v)] else []) :
    Around exGGlobals st (exNMoment ret call n ns [(c0, exIp false)] [0x20, 0x30, 0x10]) where
  length := (by decide : 3 ≤ 127)
  stack := by
    show (([0x20, 0x30, 0x10] : List W).map exGGlobals.fip).filter (fun f => decide (f ≠ 0)) = [exNode, exIp false]
    decide +kernel
  calls := by
    intro f hf
    have hf : f ∈ [exIp false] := hf
    obtain rfl := List.mem_singleton.1 hf
    refine ⟨[], ?_, nofun⟩
    show _ = (st ⟨0x1100000012, exIp false⟩).map (·.1) ++ []
    rw [hst, if_pos rfl]
    rfl

theorem exN_around2 (st : KSess.Key → List (Nat × Option W)) (ret : Bool) (call n : Nat) (ns : BitVec 32) (c0 c1 : Nat) (v : Option W) (hc : c1 ≠ c0)
    (hst : ∀ k, st k = if k = ⟨0x1100000012, exIp false⟩ then [(c0, v)] else []) :
    Around exGGlobals st (exNMoment ret call n ns [(c1, exNode), (c0, exIp false)] [0x20, 0x20, 0x30, 0x10]) where
  length := (by decide : 4 ≤ 127)
  stack := by
    show (([0x20, 0x20, 0x30, 0x10] : List W).map exGGlobals.fip).filter (fun f => decide (f ≠ 0)) = [exNode, exNode, exIp false]
    decide +kernel
  calls := by
    intro f hf
    have hf : f ∈ [exNode, exIp false] := hf
    have e : ¬ exNode = exIp false := by decide
    simp only [List.mem_cons, List.not_mem_nil, or_false] at hf
    rcases hf with rfl | rfl
    · refine ⟨[c1], ?_, ?_⟩
      · show ([(c1, exNode), (c0, exIp false)].filter fun p => decide (p.2 = exNode)).map (·.1) = (st ⟨0x1100000012, exNode⟩).map (·.1) ++ [c1]
        rw [hst, if_neg (by intro h; exact e (congrArg KSess.Key.funcIP h))]
        simp [Ne.symm e]
      · intro c hc' k w hm
        obtain rfl := List.mem_singleton.1 hc'
        rw [hst] at hm
        split at hm
        · cases List.mem_singleton.1 hm; exact hc rfl
        · cases hm
    · refine ⟨[], ?_, nofun⟩
      show ([(c1, exNode), (c0, exIp false)].filter fun p => decide (p.2 = exIp false)).map (·.1) = (st ⟨0x1100000012, exIp false⟩).map (·.1) ++ []
      rw [hst, if_pos rfl]
      simp [e]

theorem exN_outside (st : KSess.Key → List (Nat × Option W)) (ret : Bool) (call n : Nat) (ns : BitVec 32) :
    Around exGGlobals st (exNMoment ret call n ns [] [0x20]) where
  length := (by decide : 1 ≤ 127)
  stack := by
    show (([0x20] : List W).map exGGlobals.fip).filter (fun f => decide (f ≠ 0)) = [exNode]
    decide +kernel
  calls := by intro f hf; cases hf

/-- The hypotheses hold, and what is printed: the calls of `g` in the wanted call of `f` between its call and its return, with the time since the
call around, or its own time, and the time since the call of `f`. -/
example : (∀ x ∈ exGHist, x.Ok (exGReader 32) exGGlobals ⟨false, false⟩ true (fun _ => false)) ∧
    Proper exGGlobals ⟨false, false⟩ true (fun _ => []) [] (fun _ => []) exGHist ∧
    printed (exGReader 32) 0 0 (sent exGGlobals start exGHist) =
      some [Ln.arrowIn ++ t " f args=((int *)p=0x1000(0), (int)n=5) cpu=3 process=(17:sh) timestamp=09:05:07.5\n" ++
        t "  " ++ Ln.arrowIn ++ t " g args=((int *)p=0x1000(0), (int)n=5) cpu=3 depth=1 duration=100ns|100ns\n" ++
        t "    " ++ Ln.arrowIn ++ t " g args=((int *)p=0x1000(0), (int)n=7) cpu=3 depth=2 duration=100ns|200ns\n" ++
        t "    " ++ Ln.arrowOut ++ t " g args=((int *)p=0x1000(0), (int)n=7) retval=(int)-2 cpu=3 depth=2 duration=50ns|250ns\n" ++
        t "  " ++ Ln.arrowOut ++ t " g args=((int *)p=0x1000(0), (int)n=5) retval=(int)-2 cpu=3 depth=1 duration=300ns|400ns\n" ++ Ln.arrowOut ++
        t " f args=((int *)p=0x1000(0), (int)n=5) retval=(int)-2 cpu=3 process=(17:sh) duration=1.5" ++ [Ot.chr 0xC2, Ot.chr 0xB5] ++
        t "s timestamp=09:05:07.5\n\n"] := by
  refine ⟨?_, ?_, by decide +kernel⟩
  · intro x hx
    simp only [exGHist, List.mem_cons, List.not_mem_nil, or_false] at hx
    rcases hx with rfl | rfl | rfl | rfl | rfl | rfl | rfl | rfl | rfl | rfl | rfl | rfl | rfl
    all_goals first
      | exact exN_ok _ _ _ _ _ _ (.inl rfl)
      | exact exN_ok _ _ _ _ _ _ (.inr rfl)
      | exact exG_ok _ _ _ _ (.inl rfl)
      | exact exG_ok _ _ _ _ (.inr rfl)
  · have hput : ∀ (c0 : Nat) (v : Option W) (k : KSess.Key), put (fun _ : KSess.Key => ([] : List (Nat × Option W))) ⟨0x1100000012, exIp false⟩ [(c0, v)] k = if k = ⟨0x1100000012, exIp false⟩ then [(c0, v)] else [] := fun _ _ _ => rfl
    refine .past rfl rfl (exN_outside _ _ _ _ _) nofun ?_
    refine .down rfl (exN_outside _ _ _ _ _) ?_
    refine .up rfl (put_same _ _ _) rfl rfl (exN_outside _ _ _ _ _) ?_
    refine .unwanted rfl rfl (fun h => ?_) (by simp [exNMoment]) (fun _ => rfl) ?_
    · exact absurd ((exG_wanted 1 7 10 (.inr rfl)).1 h) (by decide)
    refine .down rfl (exN_around _ _ _ _ _ _ _ (hput 1 none)) ?_
    refine .up rfl (put_same _ _ _) rfl rfl (exN_around _ _ _ _ _ _ _ (hput 1 none)) ?_
    refine .back rfl rfl (put_same _ _ _) ?_ ?_
    · intro y hy
      exact absurd hy (by simp [put, exGMoment, exNMoment, exMoment])
    refine .wanted rfl rfl ((exG_wanted 3 5 1000 (.inl rfl)).2 rfl) (by simp [exGMoment, exNMoment, exMoment]) (by simp [exGMoment, exMoment]) (fun k c h => ?_) (fun _ => ⟨rfl, ?_⟩) ?_
    · simp only [put] at h
      repeat' split at h
      all_goals simp at h
    · show (taken (put (put (fun _ => []) _ _) _ _ _)).length < 64
      rw [show (exGMoment false 3 5 1000).key = (exGMoment true 1 7 20).key from rfl, put_same]
      show (taken (List.nil)).length < 64
      decide
    have hst : ∀ k, put (put (put (fun _ => []) (exGMoment false 1 7 10).key ((1, (none : Option W)) :: [])) (exGMoment true 1 7 20).key []) (exGMoment false 3 5 1000).key
        ((3, some (exGMoment false 3 5 1000).o.sid) :: put (put (fun _ => []) (exGMoment false 1 7 10).key ((1, none) :: [])) (exGMoment true 1 7 20).key [] (exGMoment false 3 5 1000).key) k =
        if k = ⟨0x1100000012, exIp false⟩ then [(3, some (exGMoment false 3 5 1000).o.sid)] else [] := by
      intro k
      have e1 : (exGMoment false 1 7 10).key = ⟨0x1100000012, exIp false⟩ := rfl
      have e2 : (exGMoment true 1 7 20).key = ⟨0x1100000012, exIp false⟩ := rfl
      have e3 : (exGMoment false 3 5 1000).key = ⟨0x1100000012, exIp false⟩ := rfl
      rw [e1, e2, e3]
      simp only [put]
      split <;> simp
    refine .down rfl (exN_around _ _ _ _ _ _ _ hst) ?_
    refine .down rfl (exN_around2 _ _ _ _ _ _ _ _ (by decide) hst) ?_
    refine .up rfl (put_same _ _ _) rfl rfl (exN_around2 _ _ _ _ _ _ _ _ (by decide) hst) ?_
    refine .up rfl (put_same _ _ _) rfl rfl (exN_around _ _ _ _ _ _ _ hst) ?_
    refine .back (v := some (exGMoment false 3 5 1000).o.sid) (l := []) rfl rfl ((hst _).trans (if_pos rfl)) ?_ .nil
    intro y hy
    exact absurd hy (by simp [put, exGMoment, exNMoment, exMoment])

/-- **C83 violated.** The field of the size of a record of a function of a graph counts the header of 32 bytes, and the reader takes so many bytes behind the header: with fewer than 32
bytes behind the record in the memory it is read from, here 31, slicing panics, and nothing is printed any more. -/
theorem graph_record_violated : printed (exGReader 31) 0 0 (sent exGGlobals start exGHist) = none ∧
    ∃ c d cost total, graphText (exGReader 31) c cost total = none ∧ (c, d) ∈ sent exGGlobals start exGHist ∧ c.length = 32 + 32 ∧ (Cg.readGEvt c).length.toNat = c.length := by
  refine ⟨by decide +kernel, ?_⟩
  have h : ∃ x ∈ sent exGGlobals start exGHist, graphText (exGReader 31) x.1 0 0 = none ∧ x.1.length = 32 + 32 ∧ (Cg.readGEvt x.1).length.toNat = x.1.length := by
    decide +kernel
  obtain ⟨⟨c, d⟩, h1, h2, h3, h4⟩ := h
  exact ⟨c, d, 0, 0, h2, h1, h3, h4⟩

end Bpfsnoop.Wh
