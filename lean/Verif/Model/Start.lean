import Verif.Model.Opts

/-
How a run starts and ends: `main` (main.go 27-247), `DetectBPFFeatures` (internal/bpfsnoop/bpf_feature.go 33-108) and
`NewBPFTracing`/`Close` (internal/bpfsnoop/bpf_tracing.go 87-165) seen from outside.

What a step finds in the system is given by the environment (`Env`): whether it succeeds, what becomes of each target
in `NewBPFTracing`, the order in which the concurrent attachments and detachments happen, whether a signal came early,
and how `Run` ends. A failed step is `log.Fatalf`: the process ends at once and no deferred call is made (internal/assert).
Not modelled here: what the steps compute (the other modules), logging.
-/
namespace Bpfsnoop.Sta
open Flg Opt

/-! ### Feature gates -/

/-- What `DetectBPFFeatures` finds: whether its program could be loaded, attached and run, the bytes of `.bss`
(feature.c 9-14), the enumerators of an enum of the kernel (`none`: no such enum), and the first bytes of the JITed
program (`none`: `prog.Info` fails). -/
structure Kern where
  runs : Bool
  run : Bool
  ringbuf : Bool
  stackid : Bool
  enums : String → Option (List String)
  endbr : Option Bool

/-- `btfEnumValue` (bpf_feature.go 110-129): `none` is an error. -/
def enumValue (k : Kern) (enum value : String) : Option Bool := (k.enums enum).map fun vs => vs.any (· == value)

/-- The globals set (bpf_feature.go 17-24). -/
structure Feats where
  fsession : Bool
  kprobeMulti : Bool
  kprobeSession : Bool
  endbr : Bool
deriving DecidableEq, Repr

/-- `DetectBPFFeatures` (bpf_feature.go 33-108): `none` is an error. -/
def detect (requiredLbr outputStack : Bool) (k : Kern) : Option Feats :=
  if !k.runs then none
  else if !k.run then none
  else if !k.ringbuf then none
  else
    match enumValue k "bpf_func_id" "BPF_FUNC_get_branch_snapshot" with
    | none => none
    | some snap =>
      if requiredLbr && !snap then none
      else if outputStack && !k.stackid then none
      else
        match enumValue k "bpf_attach_type" "BPF_TRACE_FSESSION" with
        | none => none
        | some fs =>
          match enumValue k "bpf_attach_type" "BPF_TRACE_KPROBE_MULTI" with
          | none => none
          | some km =>
            match enumValue k "bpf_attach_type" "BPF_TRACE_KPROBE_SESSION" with
            | none => none
            | some ks =>
              match k.endbr with
              | none => none
              | some e => some ⟨fs, km, ks, e⟩

/-! ### The run -/

/-- The steps of `main` that can fail, in order (main.go 28-215). -/
inductive Step
  | flags | memlock | kernelBtf | detect | rlimit | kallsyms | progsFlag | openLbr | lbrNr | loadSpec | patch | cpus | cpuMask
  | tailcall | pid | maxArg | kfuncs | traceable | kmulti | tracepoints | vmlinux | textAddr | addr2line | insns | bpfProgs
  | graphs | targets | maps | attach | haveTracing | addProgs | kallsymsAgain | reader | outFile | ready
deriving DecidableEq, Repr

/-- What is open and closed again: the deferred calls of `main` (main.go 60-61, 77, 98, 152, 157, 177, 187-189, 202, 208, 215). -/
inductive Res
  | signals | lbr | readObjs | bpfProgs | graphs | maps | links | reader | file | ready
deriving DecidableEq, Repr

/-- What can be observed of a run. `attached i`: the probe of target `i` is in place. -/
inductive Ev
  | did (s : Step)
  | attached (i : Nat)
  | detached (i : Nat)
  | opened (r : Res)
  | closed (r : Res)
  | ready (b : Bool)
  | showed (what : String)
  | ran
deriving DecidableEq, Repr

/-- What becomes of a target in `NewBPFTracing`: attached, left out with a message (bpf_tracing_func.go 38-65), or an
error. -/
inductive Fate | attach | skip | fail
deriving DecidableEq, Repr

/-- How `Run` ends (main.go 221-247): on a signal, when the limit of events is reached (`ErrFinished`), or in error. -/
inductive End | signal | finished | error
deriving DecidableEq, Repr

/-- The options that `main` looks at, besides those of `Opt.check`. -/
structure Cmdline where
  opts : Opts
  disasm : Bool := false
  showFuncProto : Bool := false
  showFgraphProto : Bool := false
  outputFile : Bool := false

/-- The system. `up` and `down` are the orders in which the attachments and detachments happen. `vmlinuxFound`: whether
`FindVmlinux` found a file, `none` for an error other than `ErrNotFound`. -/
structure Env where
  fails : Step → Bool
  kern : Kern
  vmlinuxFound : Option Bool
  up : List (Nat × Fate)
  down : List Nat → List Nat
  cancelled : Bool
  finish : End

/-- A statement of `main`. -/
inductive Cmd
  /-- a call whose error is fatal -/
  | step (s : Step)
  /-- `defer` -/
  | later (r : Res)
  /-- print something and `return` -/
  | show (what : String)
  /-- the `select` on the context (main.go 160-165) -/
  | early
  /-- `Run` until it ends (main.go 221-247) -/
  | run
deriving DecidableEq, Repr

/-- The targets attached by `NewBPFTracing`, in order (bpf_tracing.go 87-117). -/
def attachedBy (up : List (Nat × Fate)) : List Nat := (up.filter fun x => x.2 == .attach).map (·.1)

/-- Whether a step fails. -/
def failed (c : Cmdline) (e : Env) (r : Opt.Res) : Step → Bool
  | .detect => (detect r.lbr r.stack e.kern).isNone
  | .vmlinux => e.vmlinuxFound.isNone
  | .attach => e.up.any fun x => x.2 == .fail
  | .haveTracing => (attachedBy e.up).isEmpty
  | s => e.fails s

/-- What a successful step does. -/
def effect (e : Env) : Step → List Ev
  | .openLbr => [.opened .lbr]
  | .bpfProgs => [.opened .bpfProgs]
  | .graphs => [.opened .graphs]
  | .maps => [.opened .maps]
  | .attach => .opened .links :: (attachedBy e.up).map .attached
  | .reader => [.opened .reader]
  | .outFile => [.opened .file]
  | .ready => [.ready true]
  | _ => []

/-- What a failing step leaves: `NewBPFTracing` detaches what it has attached (bpf_tracing.go 111-114). -/
def failEffect (e : Env) : Step → List Ev
  | .attach => (attachedBy e.up).map .attached ++ (e.down (attachedBy e.up)).map .detached
  | _ => []

/-- A deferred call. `tracings.Close` closes all links (bpf_tracing.go 126-165). -/
def undo (e : Env) : Res → List Ev
  | .links => (e.down (attachedBy e.up)).map .detached ++ [.closed .links]
  | .ready => [.ready false]
  | r => [.closed r]

/-- How the process ends: exit status 0 or 1. -/
inductive Outcome | success | fatal
deriving DecidableEq, Repr

/-- `return`: the deferred calls, last first. -/
def ret (e : Env) (d : List Res) : List Ev := d.flatMap (undo e)

/-- The statements one after the other, `d` the pending deferred calls. -/
def exec (c : Cmdline) (e : Env) (r : Opt.Res) : List Cmd → List Res → List Ev × Outcome
  | [], d => (ret e d, .success)
  | .step s :: cs, d =>
    if failed c e r s then (failEffect e s, .fatal)
    else
      let x := exec c e r cs d
      (.did s :: (effect e s ++ x.1), x.2)
  | .later q :: cs, d => exec c e r cs (q :: d)
  | .show w :: _, d => (.showed w :: ret e d, .success)
  | .early :: cs, d => if e.cancelled then (ret e d, .success) else exec c e r cs d
  | .run :: cs, d =>
    if e.finish = .error then ([.ran], .fatal)
    else
      let x := exec c e r cs d
      (.ran :: x.1, x.2)

/-- The statements of `main` (main.go 31-247) after the options have been read. -/
def prog (c : Cmdline) (e : Env) (r : Opt.Res) : List Cmd :=
  [.step .flags, .step .memlock, .step .kernelBtf, .step .detect] ++
  (if c.disasm then [.show "disasm"] else if c.showFuncProto then [.show "func proto"]
   else if c.showFgraphProto then [.show "fgraph proto"] else
    [.step .rlimit, .later .signals, .step .kallsyms, .step .progsFlag] ++
    (if r.lbr then [.step .openLbr, .later .lbr, .step .lbrNr] else []) ++
    [.step .loadSpec, .step .patch, .step .cpus, .step .cpuMask, .step .tailcall, .later .readObjs, .step .pid, .step .maxArg,
     .step .kfuncs, .step .traceable, .step .kmulti, .step .tracepoints, .step .vmlinux] ++
    (if e.vmlinuxFound = some true ∧ r.vmlinux = true then [.step .textAddr, .step .addr2line] else []) ++
    [.step .insns, .step .bpfProgs, .later .bpfProgs, .step .graphs, .later .graphs, .early, .step .targets, .step .maps,
     .later .maps, .step .attach, .later .links, .step .haveTracing, .step .addProgs, .step .kallsymsAgain, .step .reader,
     .later .reader] ++
    (if c.outputFile then [.step .outFile, .later .file] else []) ++
    [.step .ready, .later .ready, .run])

/-- `main` (main.go 27-247). -/
def main (c : Cmdline) (e : Env) : List Ev × Outcome :=
  match check c.opts with
  | .error _ => ([], .fatal)
  | .ok r => exec c e r (prog c e r) []

end Bpfsnoop.Sta
