import Verif.Model.Flags
import Verif.Model.ArgMach
import Verif.Model.FnArgs
import Verif.Model.KSess

/-
Surgery on the tracing programs: internal/bpfsnoop/bpf_asm.go, bpf_session.go 62-91, bpf_spec.go, filter_arg.go 81-146,
filter_pkt.go 34-135, output_pkt.go, output_arg.go 340-411, func_arg.go 134-186 and the injections of bpf_tracing.go
171-327; the decision of the BPF programs to emit an event (bpf/bpfsnoop.c 31-132, bpf/bpfsnoop_kmulti.c 64-155).

Not modelled: the code `elibpcap` (a dependency) puts into `filter_pcap_l2` and `filter_pcap_l3`, a parameter; errors of
compilation, which end bpfsnoop.
-/
namespace Bpfsnoop.Asm
open Flg (Str)

/-- Instructions as far as the surgery looks at them. `other` stands for every other instruction. -/
inductive Op
  | movR0 (v : Bool)
  | loadArg (index : Nat)
  | call
  | exit
  | kfunc (id : Nat)
  | other (n : Nat)
deriving DecidableEq, Repr

/-- `asm.Instruction` with its symbol (the start of a function or a label) and its reference (a function called, a
label jumped to, or a map). -/
structure Insn where
  sym : Option Str
  ref : Option Str
  op : Op
deriving DecidableEq, Repr

abbrev Prog := List Insn

/-- `findStartIndex` (bpf_asm.go 11-18). -/
def findStart (p : Prog) (stub : Str) : Option Nat := p.findIdx? (fun i => i.sym == some stub)

/-- The loop of `findEndIndex` (bpf_asm.go 20-28): how many instructions follow that have no symbol. -/
def bodyLen (p : Prog) : Nat := (p.takeWhile (fun i => i.sym.isNone)).length

/-- `insns[0].WithMetadata(..)` (bpf_asm.go 38-40): symbol and reference are those of the old first instruction. -/
def withMeta (old : Insn) : Prog → Prog
  | [] => []
  | i :: r => { i with sym := old.sym, ref := old.ref } :: r

/-- `injectInsns` (bpf_asm.go 30-43). -/
def inject (p : Prog) (stub : Str) (insns : Prog) : Prog :=
  match findStart p stub with
  | none => p
  | some i =>
    match p.drop i with
    | [] => p
    | first :: rest => p.take i ++ withMeta first insns ++ rest.drop (bodyLen rest)

/-- The loop of `__clearSubprog` (bpf_asm.go 48-52). -/
def replaceCalls (stub : Str) (new : Insn) (p : Prog) : Prog := p.map fun i => if i.ref = some stub then new else i

/-- `__clearSubprog` (bpf_asm.go 45-53). -/
def clear (isFilter : Bool) (p : Prog) (stub : Str) : Prog :=
  replaceCalls stub ⟨none, none, .movR0 isFilter⟩ (inject p stub [])

/-- `patchBPFSessionInsns` (bpf_session.go 70-91) when the kernel has session kfuncs with these ids. -/
def patchSession (cookieId isRetId : Nat) (p : Prog) : Prog :=
  let q := p.map fun i =>
    if i.ref = some "bpfsnoop_session_cookie".toList then ⟨none, none, .kfunc cookieId⟩
    else if i.ref = some "bpfsnoop_session_is_return".toList then ⟨none, none, .kfunc isRetId⟩
    else i
  inject (inject q "bpfsnoop_session_cookie".toList []) "bpfsnoop_session_is_return".toList []

/-! ### Names -/

/-- filter_arg.go 18-20 -/
def sFilterArg : Str := "filter_arg".toList
/-- filter_pkt.go 15-27 -/
def sL2 : Str := "filter_pcap_l2".toList
/-- filter_pkt.go 17 -/
def sL3 : Str := "filter_pcap_l3".toList
/-- filter_pkt.go 19 -/
def sL2s : Str := "filter_pcap_l2.specialized.1".toList
/-- filter_pkt.go 20 -/
def sL3s : Str := "filter_pcap_l3.specialized.1".toList
/-- filter_pkt.go 22 -/
def sFSkb : Str := "filter_skb".toList
/-- filter_pkt.go 23 -/
def sFXdp : Str := "filter_xdp_buff".toList
/-- filter_pkt.go 24 -/
def sFXdpF : Str := "filter_xdp_frame".toList
/-- filter_pkt.go 25 -/
def sFPkt : Str := "filter_pkt".toList
/-- output_pkt.go 11-16 -/
def sOPkt : Str := "output_pkt".toList
/-- output_pkt.go 13 -/
def sOSkb : Str := "output_skb".toList
/-- output_pkt.go 14 -/
def sOXdp : Str := "output_xdp_buff".toList
/-- output_pkt.go 15 -/
def sOXdpF : Str := "output_xdp_frame".toList
/-- output_arg.go 25 -/
def sOArg : Str := "output_arg".toList
/-- func_arg.go 12 -/
def sOFn : Str := "output_fn_args".toList

/-! ### Packet parameters -/

/-- The kinds of packets (bpf_tracing.go 246-275, 303-319). -/
inductive PKind
  | skb | xdp | xdpFrame
deriving DecidableEq, Repr

/-- A parameter: its name, and the struct it points to, if it is a pointer to a struct. -/
structure Param where
  name : Str
  target : Option Str
deriving DecidableEq, Repr

/-- The switch on the name of the struct (bpf_tracing.go 246-275, 303-319). -/
def kindOf (s : Str) : Option PKind :=
  if s = "sk_buff".toList ∨ s = "__sk_buff".toList then some .skb
  else if s = "xdp_buff".toList ∨ s = "xdp_md".toList then some .xdp
  else if s = "xdp_frame".toList then some .xdpFrame
  else none

/-- The loops over the parameters (bpf_tracing.go 233-281, 294-320): the first packet and its index. -/
def packetParam : List Param → Option (Nat × PKind)
  | [] => none
  | p :: ps =>
    match p.target.bind kindOf with
    | some k => some (0, k)
    | none => (packetParam ps).map fun (i, k) => (i + 1, k)

/-- `genAccessArg(index, R1)`, a call, a return (filter_pkt.go 75-78, 107-110, output_pkt.go 31-36). -/
def callStub (index : Nat) (stub : Str) : Prog :=
  [⟨none, none, .loadArg index⟩, ⟨none, some stub, .call⟩, ⟨none, none, .exit⟩]

/-- `packetFilter.clear` (filter_pkt.go 127-135). -/
def clearPktFilter (p : Prog) : Prog := [sL2s, sL3s, sL2, sL3, sFSkb, sFXdp, sFXdpF, sFPkt].foldl (clear true) p

/-- `elibpcap.Inject` with `AtBpf2Bpf` (called in filter_pkt.go 46-66, 89-94; the library is not in the repository): the
code of the filter is put in front of the body of the stub and takes over its symbol. -/
def pcapAt (code : Prog) (stub : Str) (p : Prog) : Prog :=
  match findStart p stub with
  | none => p
  | some i =>
    match p.drop i with
    | [] => p
    | first :: rest => p.take i ++ withMeta first code ++ { first with sym := none, ref := none } :: rest

/-- `filterSkb` and `injectFilterXdp` (filter_pkt.go 40-112). -/
def filterPktProg (code : Str → Prog) (k : PKind) (index : Nat) (p : Prog) : Prog :=
  match k with
  | .skb =>
    inject ([sL2s, sL3s, sFXdp, sFXdpF].foldl (clear true) (pcapAt (code sL3) sL3 (pcapAt (code sL2) sL2 p))) sFPkt (callStub index sFSkb)
  | .xdp => inject ([sL2s, sL3s, sFSkb, sFXdpF, sL3].foldl (clear true) (pcapAt (code sL2) sL2 p)) sFPkt (callStub index sFXdp)
  | .xdpFrame => inject ([sL2s, sL3s, sFSkb, sFXdp, sL3].foldl (clear true) (pcapAt (code sL2) sL2 p)) sFPkt (callStub index sFXdpF)

/-- `injectPktFilter` (bpf_tracing.go 227-286); `given` says whether there is a `--filter-pkt`. -/
def injectPktFilter (pcap : Str → Prog) (given : Bool) (params : List Param) (p : Prog) : Prog :=
  if !given then p
  else
    match packetParam params with
    | some (i, k) => filterPktProg pcap k i p
    | none => clearPktFilter p

/-- `clearOutputPktSubprogs` and `packetOutput.clear` (output_pkt.go 53-62). -/
def clearPktOutput (p : Prog) : Prog := [sOPkt, sOSkb, sOXdp, sOXdpF].foldl (clear false) p

/-- `injectPktOutput` (bpf_tracing.go 288-327) with `injectStub` (output_pkt.go 22-39). -/
def injectPktOutput (pkt : Bool) (params : List Param) (p : Prog) : Prog :=
  if !pkt then clearPktOutput p
  else
    match packetParam params with
    | some (i, .skb) => inject ([sOXdp, sOXdpF].foldl (clear false) p) sOPkt (callStub i sOSkb)
    | some (i, .xdp) => inject ([sOSkb, sOXdpF].foldl (clear false) p) sOPkt (callStub i sOXdp)
    | some (i, .xdpFrame) => inject ([sOSkb, sOXdp].foldl (clear false) p) sOPkt (callStub i sOXdpF)
    | none => clearPktOutput p

/-- `funcArgument` (filter_arg.go 28-31). -/
structure FExpr where
  expr : Str
  vars : List Str
deriving DecidableEq, Repr

/-- `funcArgument.matchParams` (filter_arg.go 89-97). -/
def FExpr.mentions (e : FExpr) (params : List Param) : Bool := params.any fun p => e.vars.contains p.name

/-- `argumentFilter.inject` (filter_arg.go 126-146): the expression compiled into the program. -/
def chosen (exprs : List FExpr) (params : List Param) : Option FExpr := exprs.find? fun e => e.mentions params

/-- `injectArgFilter` (bpf_tracing.go 171-184); `compile` is `CompileFilterExpr` for these parameters. -/
def injectArgFilter (compile : Str → Prog) (exprs : List FExpr) (params : List Param) (p : Prog) : Prog :=
  match chosen exprs params with
  | some e => inject p sFilterArg (compile e.expr)
  | none => clear true p sFilterArg

/-- `injectArgOutput` (bpf_tracing.go 186-201) with `argDataOutput.inject` (output_arg.go 403-411); `code` is the code
of the expressions that mention a parameter, if any. -/
def injectArgOutput (given : Bool) (code : Option Prog) (p : Prog) : Prog :=
  if !given then p
  else
    match code with
    | none => clear false p sOArg
    | some c => inject p sOArg c

/-- `injectOutputFuncArgs` and `injectOutputKmultiFnArgs` (func_arg.go 134-148, 177-186): `none` if there is nothing to
output. -/
def injectFnArgs (code : Option Prog) (p : Prog) : Prog :=
  match code with
  | none => clear false p sOFn
  | some c => inject p sOFn c

/-- `TrimSpec` (bpf_spec.go 10-24). -/
def trim (pktGiven argGiven outGiven : Bool) (p : Prog) : Prog :=
  let p := if pktGiven then p else clearPktFilter p
  let p := if argGiven then p else clear true p sFilterArg
  if outGiven then p else clear false p sOArg

/-- What the options, the target and the compilers contribute. -/
structure Job where
  pktGiven : Bool
  exprs : List FExpr
  outGiven : Bool
  pkt : Bool
  params : List Param
  pcap : Str → Prog
  compile : Str → Prog
  outArg : Option Prog
  fnArgs : Option Prog

/-- The program loaded for a function, tracepoint or BPF program (bpf_tracing_func.go 67-95, bpf_tracing_prog.go 84-105):
`spec` is the program of the trimmed specification. -/
def build (j : Job) (spec : Prog) : Prog :=
  injectFnArgs j.fnArgs <| injectArgOutput j.outGiven j.outArg <| injectArgFilter j.compile j.exprs j.params <|
    injectPktFilter j.pcap j.pktGiven j.params <| injectPktOutput j.pkt j.params <|
    trim j.pktGiven (!j.exprs.isEmpty) j.outGiven spec

/-- The program loaded for `(m)` targets (bpf_tracing_func_multi.go 195-231): the specification is loaded afresh and
not trimmed; in the exit program everything is cleared. -/
def buildMulti (j : Job) (isExit : Bool) (spec : Prog) : Prog :=
  injectFnArgs j.fnArgs <|
    if isExit then clearPktOutput (clear false (clearPktFilter (clear true spec sFilterArg)) sOArg)
    else injectArgOutput j.outGiven j.outArg <| injectArgFilter j.compile j.exprs j.params <|
      injectPktFilter j.pcap j.pktGiven j.params <| injectPktOutput j.pkt j.params spec

/-! ### Emission -/

/-- What the default `filter_pkt` of the C sources answers (bpfsnoop_pkt_filter.h 20-83) for `args[0]`, when the
second argument is neither 1 nor 2: `filter_skb` with the stub of `filter_pcap_l2` or `filter_pcap_l3`. The offsets of
`sk_buff` are parameters; `skip` is the effect of `--skip-tunnel` on the start of the data. -/
structure SkbLayout where
  head : BitVec 64
  macLen : BitVec 64
  macHdr : BitVec 64
  netHdr : BitVec 64
  tail : BitVec 64

/-- A field of `n` bytes read with `BPF_CORE_READ`, which gives 0 where memory cannot be read. -/
def field (m : Cc.Mem) (n : Nat) (a : BitVec 64) : BitVec 64 := BitVec.ofNat 64 (Arg.leVal (Arg.probeBytes m n a))

/-- `filter_skb` (bpfsnoop_pkt_filter.h 33-47) with the C bodies of the two stubs (20-30). -/
def defaultFilterSkb (l : SkbLayout) (skip : Bool → BitVec 64 → BitVec 64) (m : Cc.Mem) (skb : BitVec 64) : Bool :=
  let head := field m 8 (skb + l.head)
  let macLen := field m 2 (skb + l.macLen)
  let data := head + (if macLen ≠ 0 then field m 2 (skb + l.macHdr) else field m 2 (skb + l.netHdr))
  let dataEnd := head + field m 4 (skb + l.tail)
  skip (macLen = 0) data ≠ dataEnd

/-- The tests before the switch of `emit_bpfsnoop_event` (bpfsnoop.c 93-98): `self` is bpfsnoop itself, `filterPid` the
option (0 if not given). -/
def pidOk (self filterPid pid : BitVec 32) : Bool := !(pid == self) && !(filterPid != 0 && pid != filterPid)

/-- `emit_bpfsnoop_event` (bpfsnoop.c 60-132) without the session: `ready` and the answers of `filter_arg` and
`filter_pkt`. -/
def emits (ready : Bool) (self filterPid pid : BitVec 32) (filterArg filterPkt : Bool) : Bool :=
  ready && pidOk self filterPid pid && (filterArg && filterPkt)

end Bpfsnoop.Asm
