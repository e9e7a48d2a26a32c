import Verif.Model.Flags
import Verif.Model.FnArgs
import Verif.Model.KSess

/-
Configuration of one tracing program (internal/bpfsnoop/bpfsnoop_config.go, bpf_tracing.go 27-85,
bpf/bpfsnoop_cfg.h, bpf/bpfsnoop_cfg_flags.h), the choice of probes (bpf_tracing_func.go 67-228,
bpf_tracing_prog.go 73-221, bpf_tracing_func_multi.go 96-313) and the layout of function events
(bpf/bpfsnoop_event.h, bpf/bpfsnoop_event_output.h, bpfsnoop.go 34-205, bpfsnoop_func.go 86-122).

Not modelled: loading and verification of the programs by the kernel, and errors of these steps.
-/
namespace Bpfsnoop.Att
open Cc (Mem)

abbrev Byte := BitVec 8

/-! ### Configuration words -/

/-- The bit of each flag in user space (bpfsnoop_config.go 6-19). -/
def idxOutputLbr : Nat := 0
/-- bpfsnoop_config.go 8 -/
def idxOutputStack : Nat := 1
/-- bpfsnoop_config.go 9 -/
def idxOutputPkt : Nat := 2
/-- bpfsnoop_config.go 10 -/
def idxOutputArg : Nat := 3
/-- bpfsnoop_config.go 11 -/
def idxBothEntryExit : Nat := 4
/-- bpfsnoop_config.go 12 -/
def idxIsEntry : Nat := 5
/-- bpfsnoop_config.go 13 -/
def idxIsSession : Nat := 6
/-- bpfsnoop_config.go 14 -/
def idxInsnMode : Nat := 7
/-- bpfsnoop_config.go 15 -/
def idxGraphMode : Nat := 8
/-- bpfsnoop_config.go 16 -/
def idxIsTp : Nat := 9
/-- bpfsnoop_config.go 17 -/
def idxIsProg : Nat := 10
/-- bpfsnoop_config.go 18 -/
def idxKmultiMode : Nat := 11

/-- `traceeFlag..` masks (bpfsnoop_config.go 21-32). -/
def mask (idx : Nat) : BitVec 32 := 1#32 <<< idx

/-- `haveFlag` (bpfsnoop_config.go 47-49). -/
def haveFlag (flags flag : BitVec 32) : Bool := flags &&& flag != 0

/-- `setFlags` and the `Set..` methods (bpfsnoop_config.go 51-115), which all have this shape. -/
def setFlag (v : Bool) (idx : Nat) (flags : BitVec 32) : BitVec 32 :=
  if v then flags ||| (1#32 <<< idx) else flags

/-- `traceeConfig` (bpf_tracing.go 27-45) without `funcIP`. The `int`s are never negative. -/
structure Cfg where
  fnArgsNr : Nat
  fnArgsBufSz : Nat
  argEntrySz : Nat
  argExitSz : Nat
  argDataSz : Nat
  outputLbr : Bool
  outputStack : Bool
  outputPkt : Bool
  insnMode : Bool
  graphMode : Bool
  bothEntryExit : Bool
  isTp : Bool
  isProg : Bool
  kmultiMode : Bool
  withRet : Bool
  session : Bool
deriving DecidableEq, Repr

/-- `BpfsnoopConfig` (bpfsnoop_config.go 34-45). -/
structure GoConfig where
  flags : BitVec 32
  filterPid : BitVec 32
  fnArgsNr : BitVec 32
  withRet : Bool
  fnArgsBuf : BitVec 32
  argDataSz : BitVec 32
  entrySz : BitVec 32
  exitSz : BitVec 32
  dataSz : BitVec 32

/-- `setBpfsnoopConfig` (bpf_tracing.go 51-85); `filterPid` is the global of flags.go. -/
def goConfig (filterPid : BitVec 32) (c : Cfg) : GoConfig where
  flags := setFlag c.kmultiMode idxKmultiMode <| setFlag c.isProg idxIsProg <| setFlag c.isTp idxIsTp <|
    setFlag c.graphMode idxGraphMode <| setFlag c.insnMode idxInsnMode <| setFlag c.session idxIsSession <|
    setFlag (!c.withRet) idxIsEntry <| setFlag c.bothEntryExit idxBothEntryExit <|
    setFlag (c.argDataSz != 0) idxOutputArg <| setFlag c.outputPkt idxOutputPkt <|
    setFlag c.outputStack idxOutputStack <| setFlag c.outputLbr idxOutputLbr 0
  filterPid := filterPid
  fnArgsNr := BitVec.ofNat 32 c.fnArgsNr
  withRet := c.withRet
  fnArgsBuf := BitVec.ofNat 32 c.fnArgsBufSz
  argDataSz := BitVec.ofNat 32 c.argDataSz
  entrySz := BitVec.ofNat 32 c.argEntrySz
  exitSz := BitVec.ofNat 32 c.argExitSz
  dataSz := BitVec.ofNat 32 c.argDataSz

/-- Little-endian bytes of a 32-bit word. -/
def le32 (v : BitVec 32) : List Byte := Arg.le 4 (v.setWidth 64)

/-- The bytes `Variables["bpfsnoop_config"].Set` writes (bpf_tracing.go 74): the fields of the Go struct in order,
`Pad` being zero (bpfsnoop_config.go 34-45). -/
def GoConfig.bytes (g : GoConfig) : List Byte :=
  le32 g.flags ++ le32 g.filterPid ++ le32 g.fnArgsNr ++ [if g.withRet then 1 else 0] ++ [0, 0, 0] ++
    le32 g.fnArgsBuf ++ le32 g.argDataSz ++ le32 g.entrySz ++ le32 g.exitSz ++ le32 g.dataSz

/-- A `__u32` at an offset in C. -/
def u32At (b : List Byte) (off : Nat) : BitVec 32 := BitVec.ofNat 32 (Arg.leVal ((b.drop off).take 4))

/-- The bit-fields of `TRACEE_FLAGS` in order of declaration (bpfsnoop_cfg_flags.h 12-23). -/
inductive CFlag
  | output_lbr | output_stack | output_pkt | output_arg | both_entry_exit | is_entry | is_session | insn_mode
  | graph_mode | is_tp | is_prog | kmulti_mode
deriving DecidableEq, Repr

/-- Position of a bit-field: on a little-endian BPF target, bit-fields of width 1 are laid out from the least
significant bit on, in order of declaration (bpfsnoop_cfg_flags.h 12-23). -/
def CFlag.pos : CFlag → Nat
  | .output_lbr => 0
  | .output_stack => 1
  | .output_pkt => 2
  | .output_arg => 3
  | .both_entry_exit => 4
  | .is_entry => 5
  | .is_session => 6
  | .insn_mode => 7
  | .graph_mode => 8
  | .is_tp => 9
  | .is_prog => 10
  | .kmulti_mode => 11

/-- `cfg->flags.f`: a bit-field of the word at offset 0 (bpfsnoop_cfg.h 20-29). -/
def cFlag (b : List Byte) (f : CFlag) : Bool := (u32At b 0).getLsbD f.pos

/-- `struct bpfsnoop_config`, packed, as BPF programs see it (bpfsnoop_cfg.h 12-28). -/
structure CConfig where
  flag : CFlag → Bool
  word : BitVec 32
  pid : BitVec 32
  args_nr : BitVec 32
  with_retval : Bool
  buf_size : BitVec 32
  data_size : BitVec 32
  arg_entry_size : BitVec 32
  arg_exit_size : BitVec 32
  arg_data_size : BitVec 32

/-- Reading the packed struct: offsets follow from the declaration (bpfsnoop_cfg.h 12-28). -/
def readC (b : List Byte) : CConfig where
  flag := cFlag b
  word := u32At b 0
  pid := u32At b 4
  args_nr := u32At b 8
  with_retval := (b[12]?.getD 0) != 0
  buf_size := u32At b 16
  data_size := u32At b 20
  arg_entry_size := u32At b 24
  arg_exit_size := u32At b 28
  arg_data_size := u32At b 32

/-- The configuration as the BPF program sees it. -/
def cConfig (filterPid : BitVec 32) (c : Cfg) : CConfig := readC (goConfig filterPid c).bytes

/-- `evt->flags.f &= v` (bpfsnoop_event_output.h 47-49). -/
def andFlag (w : BitVec 32) (f : CFlag) (v : Bool) : BitVec 32 := if v then w else w &&& ~~~(1#32 <<< f.pos)

/-- `evt->tracee_flags` (bpfsnoop_event_output.h 46-49). -/
def evtFlags (cc : CConfig) (canLbr canPkt canArg : Bool) : BitVec 32 :=
  andFlag (andFlag (andFlag cc.word .output_lbr canLbr) .output_pkt canPkt) .output_arg canArg

/-! ### Probes -/

/-- Attachments used: `AttachTraceFEntry`, `AttachTraceFExit`, `AttachTraceFSession`, `AttachTraceRawTp`
(bpf_tracing_func.go 133-142), `KprobeMulti`, `KretprobeMulti` and `KprobeMulti` with `Session`
(bpf_tracing_func_multi.go 279-290). -/
inductive Hook
  | fentry | fexit | fsession | rawTp | kprobe | kretprobe | ksession
deriving DecidableEq, Repr

/-- The two moments of a call. A tracepoint has only the first. -/
inductive Phase
  | call | ret
deriving DecidableEq, Repr

/-- What the kernel does (trusted): whether the program runs, and then the value of
`bpf_session_is_return()`. -/
def Hook.fires : Hook → Phase → Option Bool
  | .fentry, .call | .rawTp, .call | .kprobe, .call => some false
  | .fexit, .ret | .kretprobe, .ret => some true
  | .fsession, .call | .ksession, .call => some false
  | .fsession, .ret | .ksession, .ret => some true
  | _, _ => none

/-- A loaded and attached program: hook, configuration, and whether the filter and output code was injected (in the
exit program of `(m)` it is cleared, bpf_tracing_func_multi.go 195-199). -/
structure Att where
  hook : Hook
  cfg : Cfg
  code : Bool
deriving DecidableEq, Repr

/-- What tracing a kernel function needs of `KFunc` (kernel_functions.go 73-87) and the results of
`injectPktOutput` (does it have a packet parameter) and `injectArgOutput` (size of the data of `--output-arg`). -/
structure Fn where
  isTp : Bool
  insn : Bool
  flag : Flg.Imm
  prms : List Arg.PFlag
  ret : Arg.PFlag
  hasPkt : Bool
  data : Nat

/-- `injectPktOutput` (bpf_tracing.go 288-325): its result. -/
def Fn.pkt (fn : Fn) : Bool := fn.flag.pkt && fn.hasPkt

/-- `traceFunc` (bpf_tracing_func.go 67-187). -/
def traceFunc (fn : Fn) (both isExit fsession stack : Bool) : Att :=
  let withRet := !fn.isTp && isExit
  let sz := (Arg.injectOutputFuncArgs fn.prms fn.ret withRet).2
  let entrySz := if both then sz else if withRet then 0 else sz
  let exitSz := if both then sz else if withRet then sz else 0
  { hook := if fn.isTp then .rawTp else if both && fsession then .fsession else if isExit then .fexit else .fentry
    cfg := { fnArgsNr := fn.prms.length, fnArgsBufSz := sz, argEntrySz := entrySz, argExitSz := exitSz
             argDataSz := fn.data, outputLbr := fn.flag.lbr, outputStack := stack, outputPkt := fn.pkt
             insnMode := fn.insn, graphMode := fn.flag.graph, bothEntryExit := both, isTp := fn.isTp
             isProg := false, kmultiMode := false, withRet := withRet, session := fsession }
    code := true }

/-- The body of the loop of `traceFuncs` (bpf_tracing_func.go 194-226). -/
def traceFuncs (hasFsession modeExit : Bool) (fn : Fn) : List Att :=
  let both := fn.insn || fn.flag.graph || fn.flag.both
  if fn.isTp then [traceFunc fn false false false fn.flag.stack]
  else if both then
    if hasFsession then [traceFunc fn true true true fn.flag.stack]
    else [traceFunc fn true false false false, traceFunc fn true true false fn.flag.stack]
  else [traceFunc fn false modeExit false fn.flag.stack]

/-- `traceProg` (bpf_tracing_prog.go 73-189). -/
def traceProg (fn : Fn) (both fexit fsession stack : Bool) : Att :=
  let sz := (Arg.injectOutputFuncArgs fn.prms fn.ret fexit).2
  let entrySz := if both then sz else if fexit then 0 else sz
  let exitSz := if both then sz else if fexit then sz else 0
  { hook := if both && fsession then .fsession else if !fexit then .fentry else .fexit
    cfg := { fnArgsNr := fn.prms.length, fnArgsBufSz := sz, argEntrySz := entrySz, argExitSz := exitSz
             argDataSz := fn.data, outputLbr := fn.flag.lbr, outputStack := stack, outputPkt := fn.pkt
             insnMode := false, graphMode := fn.flag.graph, bothEntryExit := both, isTp := false
             isProg := true, kmultiMode := false, withRet := fexit, session := fsession }
    code := true }

/-- The body of the loop of `traceProgs` (bpf_tracing_prog.go 196-220). -/
def traceProgs (hasFsession modeExit : Bool) (fn : Fn) : List Att :=
  let both := fn.flag.graph || fn.flag.both
  if both then
    if hasFsession then [traceProg fn true true true fn.flag.stack]
    else [traceProg fn true false false false, traceProg fn true true false fn.flag.stack]
  else [traceProg fn false modeExit false fn.flag.stack]

/-- `traceKfuncMultiMode` (bpf_tracing_func_multi.go 158-313) for a group whose first function is `fn`; `maxArgs` is
`maxArgsKmulti`; `data` and `pkt` are `fn.Data` and `fn.Pkt` when the configuration is written. -/
def traceKfuncMultiMode (maxArgs : Nat) (fn : Fn) (pkt : Bool) (data : Nat) (isExit sessionMode : Bool) : Att :=
  let withRet := sessionMode || isExit
  let sz := (Arg.genKmulti maxArgs withRet).2
  let entrySz := if sessionMode then sz else if isExit then 0 else sz
  let exitSz := if sessionMode then sz else if isExit then sz else 0
  { hook := if isExit && !sessionMode then .kretprobe else if sessionMode then .ksession else .kprobe
    cfg := { fnArgsNr := maxArgs, fnArgsBufSz := sz, argEntrySz := entrySz, argExitSz := exitSz
             argDataSz := data, outputLbr := fn.flag.lbr, outputStack := fn.flag.stack, outputPkt := pkt
             insnMode := false, graphMode := fn.flag.graph, bothEntryExit := fn.flag.both, isTp := false
             isProg := false, kmultiMode := true, withRet := withRet, session := sessionMode }
    code := !isExit }

/-- `traceKfuncMulti` (bpf_tracing_func_multi.go 141-156). `fn.Pkt` and `fn.Data` are set by the first call that is
not for the exit (bpf_tracing_func_multi.go 201-213) and otherwise keep their zero values. -/
def traceKfuncMulti (hasKprobeSession modeExit : Bool) (maxArgs : Nat) (fn : Fn) : List Att :=
  if fn.flag.both && hasKprobeSession then [traceKfuncMultiMode maxArgs fn fn.pkt fn.data false true]
  else if fn.flag.both then
    [traceKfuncMultiMode maxArgs fn fn.pkt fn.data false false, traceKfuncMultiMode maxArgs fn fn.pkt fn.data true false]
  else if modeExit then [traceKfuncMultiMode maxArgs fn false 0 true false]
  else [traceKfuncMultiMode maxArgs fn fn.pkt fn.data false false]

/-- A function selected with `(m)`: its symbol and the index of the parameter the selector names
(`findMatchedArgIndex`, bpf_tracing_func_multi.go 333-341). -/
structure MFn where
  sym : Flg.Str
  arg : Nat
  fn : Fn

/-- `skipKprobeMultiSymbol` (bpf_tracing_func_multi.go 23-37). -/
def skipSym (s : Flg.Str) : Bool :=
  ["arch_cpu_idle", "default_idle", "rcu_", "__ftrace_invalid_address__"].any fun p => p.toList.isPrefixOf s

/-- `traceFuncsMulti` (bpf_tracing_func_multi.go 96-139): the attachments of a function are those of the first
function of its group, the functions with the same index, if its symbol can be attached to. `avail` is
`available_filter_functions`. The order of the functions of one selector is that of a Go map, so `fns` stands for any
of its orders. -/
def traceFuncsMulti (hasKprobeSession modeExit : Bool) (maxArgs : Nat) (avail : Flg.Str → Bool) (fns : List MFn) (f : MFn) :
    List Att :=
  match fns.find? (·.arg = f.arg) with
  | none => []
  | some g => if !skipSym f.sym && avail f.sym then traceKfuncMulti hasKprobeSession modeExit maxArgs g.fn else []

/-- `get_bpfsnoop_mode` on the configuration read by the program (bpfsnoop_mode.h 21-33). -/
def mode (cc : CConfig) (isReturn : Bool) : KSess.Mode :=
  KSess.getMode (cc.flag .is_entry) (cc.flag .both_entry_exit) (cc.flag .is_session) isReturn

/-- `BPFSNOOP_EVENT_TYPE_FUNC_ENTRY` and `.._EXIT` (bpfsnoop_event.h 12-19). -/
inductive EvType
  | entry | exit
deriving DecidableEq, Repr

/-- The event type chosen by the switch of `emit_bpfsnoop_event` (bpfsnoop.c 106-132) and of
`emit_bpfsnoop_kmulti_event` (bpfsnoop_kmulti.c 119-149). -/
def evType : KSess.Mode → EvType
  | .entry => .entry
  | .exit => .exit
  | .sessionEntry => .entry
  | .sessionExit => .exit

/-- The kind of event a program produces at a moment of a call, if it runs then and its filters or its session
accept. -/
def Att.event (pid : BitVec 32) (a : Att) (p : Phase) : Option EvType :=
  (a.hook.fires p).map fun r => evType (mode (cConfig pid a.cfg) r)

/-! ### Layout of function events -/

/-- The header of an event: `struct event` (bpfsnoop_event.h 21-36) and `Event` (bpfsnoop.go 34-49). -/
structure Hdr where
  typ : BitVec 16
  length : BitVec 16
  kernNs : BitVec 32
  sessID : BitVec 64
  funcIP : BitVec 64
  cpu : BitVec 32
  pid : BitVec 32
  comm : List Byte
  stackID : BitVec 64
  flags : BitVec 32
  entrySz : BitVec 32
  exitSz : BitVec 32
  dataSz : BitVec 32
  lbrRetval : BitVec 64
deriving DecidableEq, Repr

/-- `sizeof(struct event)` (bpfsnoop_event.h 21-36) and `sizeOfEvent` (bpfsnoop.go 22-24). -/
def sizeOfEvent : Nat := 80

/-- `struct event` in memory (bpfsnoop_event.h 21-36): all fields are naturally aligned without padding. -/
def Hdr.bytes (h : Hdr) : List Byte :=
  Arg.le 2 (h.typ.setWidth 64) ++ Arg.le 2 (h.length.setWidth 64) ++ le32 h.kernNs ++ Arg.le 8 h.sessID ++
    Arg.le 8 h.funcIP ++ le32 h.cpu ++ le32 h.pid ++ h.comm ++ Arg.le 8 h.stackID ++ le32 h.flags ++ le32 h.entrySz ++
    le32 h.exitSz ++ le32 h.dataSz ++ Arg.le 8 h.lbrRetval

/-- A 16-bit field. -/
def u16At (b : List Byte) (off : Nat) : BitVec 16 := BitVec.ofNat 16 (Arg.leVal ((b.drop off).take 2))
/-- A 64-bit field. -/
def u64At (b : List Byte) (off : Nat) : BitVec 64 := BitVec.ofNat 64 (Arg.leVal ((b.drop off).take 8))

/-- `(*Event)(unsafe.Pointer(&data[0]))` (bpfsnoop.go 128): offsets of the Go struct (bpfsnoop.go 34-49) on a
64-bit machine. -/
def readHdr (b : List Byte) : Hdr where
  typ := u16At b 0
  length := u16At b 2
  kernNs := u32At b 4
  sessID := u64At b 8
  funcIP := u64At b 16
  cpu := u32At b 24
  pid := u32At b 28
  comm := (b.drop 32).take 16
  stackID := u64At b 48
  flags := u32At b 56
  entrySz := u32At b 60
  exitSz := u32At b 64
  dataSz := u32At b 68
  lbrRetval := u64At b 72

/-- `sizeof(struct bpfsnoop_pkt_data)` (bpfsnoop_pkt_output.h 22-28). -/
def sizeOfPkt : Nat := 16

/-- What varies from event to event: the header fields taken from the context, the captured bytes, and what the ring
buffer held before. -/
structure Rt where
  kernNs : BitVec 32
  sessID : BitVec 64
  funcIP : BitVec 64
  cpu : BitVec 32
  pid : BitVec 32
  comm : List Byte
  stackID : BitVec 64
  nrBytes : BitVec 64
  /-- written by `output_fn_args` -/
  args : List Byte
  /-- written by `output_pkt` -/
  pkt : List Byte
  /-- written by `output_arg` -/
  data : List Byte
  /-- old contents of the reserved memory behind what is written -/
  stale : List Byte

/-- The record submitted by `output_event` (bpfsnoop_event_output.h 21-75). `mode` is the mode of the program,
`kmulti` whether it is `bpfsnoop_kmulti`, which turns packet and argument output off at the exit
(bpfsnoop_kmulti.c 131-138). -/
def outputEvent (cc : CConfig) (kmulti : Bool) (mode : KSess.Mode) (rt : Rt) : List Byte :=
  let off := kmulti && decide (mode = .sessionExit)
  let canLbr := (!cc.flag .both_entry_exit || decide (mode = .sessionEntry)) && cc.flag .output_lbr
  let canPkt := cc.flag .output_pkt && !off
  let canArg := cc.flag .output_arg && !off
  let h : Hdr :=
    { typ := match evType mode with | .entry => 1 | .exit => 2
      length := BitVec.ofNat 16 sizeOfEvent
      kernNs := rt.kernNs, sessID := rt.sessID, funcIP := rt.funcIP, cpu := rt.cpu, pid := rt.pid, comm := rt.comm
      stackID := if cc.flag .output_stack then rt.stackID else -1
      flags := evtFlags cc canLbr canPkt canArg
      entrySz := cc.arg_entry_size, exitSz := cc.arg_exit_size
      dataSz := if canArg then cc.arg_data_size else 0
      lbrRetval := if canLbr then rt.nrBytes else 0 }
  h.bytes ++ rt.args ++ (if canPkt then rt.pkt else []) ++ (if canArg then rt.data else []) ++ rt.stale

/-- The slices of a function event that the reader decodes. -/
structure Sections where
  hdr : Hdr
  exit : Bool
  args : List Byte
  pkt : Option (List Byte)
  data : Option (List Byte)
deriving DecidableEq, Repr

/-- `data[:n]` and `data[n:]`; `none` is the run-time panic. -/
def slice (n : Nat) (b : List Byte) : Option (List Byte × List Byte) :=
  if n ≤ b.length then some (b.take n, b.drop n) else none

/-- The slicing done by the reader (bpfsnoop.go 124-191 with `outputFuncInfo`, bpfsnoop_func.go 86-122): the header,
then the arguments (`TraceeArgExitSz` bytes in an exit event, else `TraceeArgEntrySz`), the packet if its flag is set,
the data of `--output-arg` if its size is not 0. -/
def readEvent (b : List Byte) : Option Sections :=
  if b.length < sizeOfEvent then none
  else
    let h := readHdr b
    let exit := h.typ == 2
    let argSz := (if exit then h.exitSz else h.entrySz).toNat
    match slice argSz (b.drop sizeOfEvent) with
    | none => none
    | some (args, rest) =>
      match (if haveFlag h.flags (mask idxOutputPkt) then (slice sizeOfPkt rest).map fun p => (some p.1, p.2)
             else some (none, rest)) with
      | none => none
      | some (pkt, rest) =>
        match (if h.dataSz ≠ 0 then (slice h.dataSz.toNat rest).map fun p => (some p.1, p.2) else some (none, rest)) with
        | none => none
        | some (data, _) => some { hdr := h, exit := exit, args := args, pkt := pkt, data := data }

/-! ### Graph events -/

/-- `traceGraph` (bpf_tracing_graph.go 54-137): the sizes kept for the reader (`ArgsEnSz`, `ArgsExSz`) before and
after, and the size of the arguments in the events of the program. -/
def traceGraph (prms : List Arg.PFlag) (ret : Arg.PFlag) (entry fsession : Bool) (sz : Nat × Nat) : (Nat × Nat) × Nat :=
  let n := (Arg.injectOutputFuncArgs prms ret (!entry || fsession)).2
  (if entry then (n, sz.2) else (sz.1, n), n)

/-- The programs attached to a function in a graph (bpf_tracing_graph.go 245-282): the sizes kept, and the argument
bytes in an entry and in an exit event (both from the one `fsession` program, if there is one). -/
def graphSizes (hasFsession : Bool) (prms : List Arg.PFlag) (ret : Arg.PFlag) : (Nat × Nat) × Nat × Nat :=
  if hasFsession then
    let r := traceGraph prms ret false true (0, 0)
    (r.1, r.2, r.2)
  else
    let r := traceGraph prms ret true false (0, 0)
    let s := traceGraph prms ret false false r.1
    (s.1, r.2, s.2)

/-- The argument bytes of a graph event that the reader shows (bpfsnoop.go 113-115, bpfsnoop_func.go 107-124), given
the sizes kept and the bytes behind the header. -/
def readGraph (sz : Nat × Nat) (isExit : Bool) (b : List Byte) : Option (List Byte) :=
  (slice (if isExit then sz.2 else sz.1) b).map (·.1)

/-! ### Sessions under `fsession` -/

/-- A probe hit of the program traced with `fsession` or of its instruction and graph probes. -/
inductive SOp
  | enter (call : Nat) (k : KSess.Key) (sid : BitVec 64) (pass : Bool) (stale : Nat → BitVec 64) (full : Bool)
  | exit (call : Nat) (k : KSess.Key)
  | insn (k : KSess.Key)

/-- The state: the session map and the per-call cookies. -/
abbrev SSt := KSess.Map × (Nat → BitVec 64)

/-- `bpfsnoop_session_enter` and `bpfsnoop_session_exit` with the configured `is_session` (bpfsnoop_session.h 15-54);
instruction probes look the session up in the map (bpfsnoop_insn.c 25-32). -/
def sstep (isSession : Bool) (s : SSt) : SOp → SSt × Option KSess.Out
  | .enter c k sid pass stale full =>
    if !pass then (s, none)
    else if isSession then ((s.1, fun c' => if c' = c then sid else s.2 c'), some (.entry k sid))
    else ((KSess.addSession s.1 k sid stale full, s.2), some (.entry k sid))
  | .exit c k =>
    if isSession then (s, if s.2 c = 0 then none else some (.exit k (s.2 c - 1)))
    else
      let r := KSess.getAndDel s.1 k
      ((r.2, s.2), if r.1 = 0 then none else some (.exit k (r.1 - 1)))
  | .insn k =>
    let sid := KSess.getSession s.1 k
    (s, if sid = 0 then none else some (.insn k sid))

/-- A history of probe hits. -/
def srun (isSession : Bool) : SSt → List SOp → SSt × List (Option KSess.Out)
  | s, [] => (s, [])
  | s, o :: os =>
    let r := sstep isSession s o
    let t := srun isSession r.1 os
    (t.1, r.2 :: t.2)

end Bpfsnoop.Att
