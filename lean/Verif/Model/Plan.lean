import Verif.Model.Kmods
import Verif.Model.Traceable
import Verif.Model.Tp
import Verif.Model.Attach
import Verif.Model.Start

/-
From the options to the programs attached: the part of `main` (main.go 100-195) that finds the targets and
`NewBPFTracing` (internal/bpfsnoop/bpf_tracing.go 87-117) with what becomes of every program it wants to load.

The search, the detection, the tracepoints, the merge and the choice of hooks are those of the modules `Kmods`, `Traceable`,
`Tp` and `Attach`. The answer of the kernel to every program is given (`Answer`). Go leaves open the order in which maps are
iterated, the random ids of tracepoints and the order in which the goroutines end: all are quantified over.

Not modelled here: which BPF programs are selected (C47), which instructions (C56, C84) and which functions of graphs (C40,
C74); they come as lists. `DetectSupportedMaxArg` (its result is a parameter, 6 or 12).
-/
namespace Bpfsnoop.Pn
open Flg (Str KFunc KfuncFlag Ksym Glob)
open Kallsyms (put lookup)

/-! ### The answers of the kernel -/

/-- The error numbers that are told apart (bpf_tracing_func.go 29-42, bpf_tracing_insn.go 57); `notSupported` is
`ebpf.ErrNotSupported`. -/
inductive Errno | enoent | einval | eopnotsupp | notSupported | ebusy | eaddrnotavail | other
deriving DecidableEq, Repr

/-- An error: its number and its text, which for a program refused by the verifier contains the end of the log. -/
structure Err where
  errno : Errno
  text : Str
deriving DecidableEq, Repr

/-- What happens to a program: it is attached, code could not be injected or the configuration not be written, loading failed,
attaching failed. -/
inductive Answer
  | ok
  | prep
  | load (e : Err)
  | link (e : Err)
deriving DecidableEq, Repr

/-- The kinds of programs. -/
inductive Kind | func | prog | multi | insn | graph
deriving DecidableEq, Repr

/-- `ignoreFuncTraceErr` (bpf_tracing_func.go 28-38). -/
def ignoreLink (e : Err) : Bool :=
  e.errno = .enoent || e.errno = .einval || e.errno = .eopnotsupp || e.errno = .notSupported || e.errno = .ebusy

/-- `ignoreFuncTraceVerifierErr` (bpf_tracing_func.go 40-65). -/
def ignoreLoad (e : Err) : Bool :=
  if e.errno = .enoent then true
  else if Flg.contains "type STRUCT is unsupported".toList e.text then true
  else Flg.contains "type UNION is unsupported".toList e.text

/-- The ends of `traceFunc` (bpf_tracing_func.go 147-186), `traceProg` (bpf_tracing_prog.go 154-188), `traceKfuncMultiMode`
(bpf_tracing_func_multi.go 262-312), `traceInsn` (bpf_tracing_insn.go 38-74) and `traceGraph` (bpf_tracing_graph.go 105-141). -/
def fate : Kind → Answer → Sta.Fate
  | _, .ok => .attach
  | _, .prep => .fail
  | .func, .load e => if ignoreLoad e then .skip else .fail
  | .func, .link e => if ignoreLink e then .skip else .fail
  | .prog, .load _ => .fail
  | .prog, .link e => if Flg.contains "Cannot recursively attach".toList e.text then .skip else .fail
  | .multi, .load _ => .fail
  | .multi, .link _ => .fail
  | .insn, .load _ => .fail
  | .insn, .link e => if e.errno = .enoent || e.errno = .einval || e.errno = .eaddrnotavail then .skip else .fail
  | .graph, .load e => if ignoreLoad e then .skip else .fail
  | .graph, .link e => if ignoreLink e then .skip else .fail

/-! ### Targets and programs -/

/-- An entry of the map of targets (`KFunc`, kernel_functions.go 73-87): a kernel function or a tracepoint. -/
inductive Tgt
  | func (k : KFunc)
  | tp (t : Tp.KTp)
deriving DecidableEq, Repr

/-- What else a `KFunc` holds: `Prms`, `Ret` and the results of the injections. -/
structure Shape where
  prms : List Arg.PFlag
  ret : Arg.PFlag
  hasPkt : Bool
  data : Nat

/-- The `KFunc` seen by `traceFunc`. -/
def Tgt.fn (sh : Shape) : Tgt → Att.Fn
  | .func k => ⟨false, k.insn, k.flag, sh.prms, sh.ret, sh.hasPkt, sh.data⟩
  | .tp t => ⟨true, false, t.flag, sh.prms, sh.ret, sh.hasPkt, sh.data⟩

/-- A program to be loaded and attached: for an entry of the map of targets, a BPF program, a group of `(m)` functions given by
their symbols, an instruction or a function of a graph. -/
inductive Job
  | func (id : Nat) (t : Tgt) (a : Att.Att)
  | prog (t : Flg.Tracing) (a : Att.Att)
  | multi (idx : Nat) (syms : List Str) (a : Att.Att)
  | insn (n : Nat)
  | graph (n : Nat)

def Job.kind : Job → Kind
  | .func .. => .func
  | .prog .. => .prog
  | .multi .. => .multi
  | .insn .. => .insn
  | .graph .. => .graph

/-! ### Groups of `(m)` functions -/

/-- `kfuncMultiGroupInfo` (bpf_tracing_func_multi.go 39-44): the first function and all, in order. -/
structure Group where
  first : Att.MFn
  all : List Att.MFn

/-- The body of the loop over the functions (bpf_tracing_func_multi.go 105-119). -/
def addGroup (gs : List (Nat × Group)) (f : Att.MFn) : List (Nat × Group) :=
  match lookup gs f.arg with
  | none => put gs f.arg ⟨f, [f]⟩
  | some g => put gs f.arg { g with all := g.all ++ [f] }

/-- All groups (bpf_tracing_func_multi.go 102-120); `fns` are the functions of all selectors. -/
def groupsOf (fns : List Att.MFn) : List (Nat × Group) := fns.foldl addGroup []

/-- `filterKprobeMultiSymbols` (bpf_tracing_func_multi.go 78-94): what it keeps. -/
def keepSyms (avail : Str → Bool) (syms : List Str) : List Str := syms.filter fun s => !Att.skipSym s && avail s

/-- The body of the loop over the groups (bpf_tracing_func_multi.go 122-136) and `traceKfuncMulti`. -/
def groupJobs (hasKprobeSession modeExit : Bool) (maxArgs : Nat) (avail : Str → Bool) (x : Nat × Group) : List Job :=
  let syms := keepSyms avail (x.2.all.map (·.sym))
  if syms.isEmpty then []
  else (Att.traceKfuncMulti hasKprobeSession modeExit maxArgs x.2.first.fn).map (.multi x.1 syms)

/-- `searchKernelFuncs` (kernel_functions.go 224-243) in given modules. -/
def search (fs : Km.Fs) (all : Bool) (kmods : List Str) (g : Glob) (glob : Str → Str → Bool) (ksyms : Str → Option Ksym)
    (maxArgs : Nat) (ms : List KfuncFlag) : Km.Out (BitVec 64 → Option KFunc) :=
  match Km.findFuncs fs all kmods glob ksyms maxArgs ms with
  | .panic => .panic
  | .err => .err
  | .ok t => .ok fun a =>
    match t a with
    | none => none
    | some kf =>
      if ((g.exit || kf.flag.both || kf.insn || kf.flag.graph) && Flg.noreturnFuncs.contains kf.fn.name) ||
          Flg.tracingDenyFuncs.contains kf.fn.name then none
      else some kf

/-- The loop of `FindKernelFuncsMulti` (kernel_functions_multi.go 42-54): every selector by itself. -/
def searchEach (fs : Km.Fs) (all : Bool) (kmods : List Str) (g : Glob) (glob : Str → Str → Bool) (ksyms : Str → Option Ksym)
    (maxArgs : Nat) : List KfuncFlag → Km.Out (List (BitVec 64 → Option KFunc))
  | [] => .ok []
  | m :: ms =>
    match search fs all kmods g glob ksyms maxArgs [m] with
    | .panic => .panic
    | .err => .err
    | .ok t =>
      match searchEach fs all kmods g glob ksyms maxArgs ms with
      | .panic => .panic
      | .err => .err
      | .ok ts => .ok (t :: ts)

/-- `FindKernelFuncsMulti` (kernel_functions_multi.go 28-57). -/
def findMulti (hasKprobeMulti : Bool) (fs : Km.Fs) (all : Bool) (given : List Str) (ks : Km.Syms) (g : Glob)
    (glob : Str → Str → Bool) (ksyms : Str → Option Ksym) (maxArgs : Nat) (opts : List Str) (ms : List KfuncFlag) :
    Km.Out (List (BitVec 64 → Option KFunc)) :=
  if opts.isEmpty then .ok []
  else if !hasKprobeMulti then .err
  else searchEach fs all (Km.prepare ks opts given) g glob ksyms maxArgs ms

/-- `findMatchedArgIndex` (bpf_tracing_func_multi.go 333-341); `none` stands for -1. -/
def argIndex (k : KFunc) : Option Nat := k.fn.params.findIdx? (·.1 = k.flag.argName)

/-! ### The start -/

/-- What the start depends on: kernel, options, the targets of the other kinds, the answers. `avail`: the symbols of
available_filter_functions, `none` if it cannot be read. -/
structure World where
  fs : Km.Fs
  ks : Km.Syms
  ksyms : Str → Option Ksym
  glob : Str → Str → Bool
  cpu : Tr.Cpu
  mem : KRead.Mem
  avail : Option (Str → Bool)
  feats : Sta.Feats
  maxArgs : Nat
  maxMulti : Nat
  /-- the tracepoints found (C61), in the order of the map -/
  tps : List (Str × Tp.Info)
  shape : Tgt → Shape
  /-- options -/
  g : Glob
  all : Bool
  given : List Str
  k : List Str
  t : List Str
  globOk : Str → Bool
  progs : List Flg.Tracing
  progShape : Flg.Tracing → Shape
  insns : List Nat
  graphs : List Nat
  answer : Job → Answer

/-- `parseKfuncFlags` (flags_kfunc.go 115-126) and `kfuncFlags2matches` (kernel_functions_match.go 21-41): `none` is an error;
`globOk`: the pattern compiles. -/
def parseAll (g : Glob) (globOk : Str → Bool) : List Str → Option (List KfuncFlag)
  | [] => some []
  | k :: r =>
    match Flg.parseKfuncFlag g k with
    | .error _ => none
    | .ok m =>
      if !globOk m.name then none
      else
        match parseAll g globOk r with
        | none => none
        | some ms => some (m :: ms)

/-- `Kfuncs` (flags.go 358-366). -/
def World.kopts (w : World) : List Str := w.k.filter fun o => !Flg.hasM o

/-- `KfuncsMulti` (flags.go 368-376). -/
def World.mopts (w : World) : List Str := w.k.filter Flg.hasM

/-- `l` lists the map `kf` in some order. -/
def Lists (kf : Tr.KFuncs) (l : List KFunc) : Prop := (l.map (·.addr)).Nodup ∧ ∀ a k, kf a = some k ↔ k ∈ l ∧ k.addr = a

/-- `probeKernelTracepoints` (kernel_tracepoints.go 91-126) with the tracepoints given: `none` is a panic. -/
def findTps (w : World) (tm : List KfuncFlag) : Option (List (Str × Tp.KTp)) :=
  if w.t.isEmpty then some [] else Tp.matchAll w.glob tm w.tps []

/-- The programs for the entries of the map of targets (`traceFuncs`, bpf_tracing_func.go 189-228). -/
def funcJobs (w : World) (l : List (Nat × Tgt)) : List Job :=
  l.flatMap fun x => (Att.traceFuncs w.feats.fsession w.g.exit (x.2.fn (w.shape x.2))).map (.func x.1 x.2)

/-- The `Fn` of a BPF program (`bpfTracingInfo`). -/
def progFn (sh : Shape) (t : Flg.Tracing) : Att.Fn := ⟨false, false, t.imm, sh.prms, sh.ret, sh.hasPkt, sh.data⟩

/-- The programs for BPF programs (`traceProgs`, bpf_tracing_prog.go 191-221). -/
def progJobs (w : World) : List Job :=
  w.progs.flatMap fun t => (Att.traceProgs w.feats.fsession w.g.exit (progFn (w.progShape t) t)).map (.prog t)

/-- The functions of a selector of `(m)` as they are grouped: `none` is the failed assertion (bpf_tracing_func_multi.go 106). -/
def toMulti (w : World) (symOf : KFunc → Str) : List KFunc → Option (List Att.MFn)
  | [] => some []
  | k :: r =>
    match argIndex k, toMulti w symOf r with
    | some i, some l => some (⟨symOf k, i, (Tgt.func k).fn (w.shape (.func k))⟩ :: l)
    | _, _ => none

/-- The way to the programs that are to be loaded (main.go 100-176, bpf_tracing.go 87-112): `kfs` the kernel functions that are
kept, `ts` the map of targets, `mfs` the `(m)` functions, `jobs` the programs in the order in which their goroutines end. -/
inductive Planned (w : World) (kfs : List KFunc) (ts : List (Nat × Tgt)) (mfs : List Att.MFn) (jobs : List Job) : Prop
  | intro (kf kf' : Tr.KFuncs) (addrs : List Tr.Addr) (ktps : List (Str × Tp.KTp)) (ktps' : List Tp.KTp)
      (multi : List (BitVec 64 → Option KFunc)) (mkfs : List (List KFunc)) (avail : Str → Bool) (gs : List (Nat × Group))
      (km mm tm : List KfuncFlag) :
      parseAll w.g w.globOk w.kopts = some km → parseAll w.g w.globOk w.mopts = some mm → parseAll w.g w.globOk w.t = some tm →
      Km.findKernelFuncs w.fs w.all w.given w.ks w.g w.glob w.ksyms w.maxArgs w.kopts km = .ok kf →
      (∀ a, a ∈ addrs ↔ kf a ≠ none) →
      Tr.detectAll w.cpu w.mem addrs kf = some kf' →
      Lists kf' kfs →
      findMulti w.feats.kprobeMulti w.fs w.all w.given w.ks w.g w.glob w.ksyms w.maxMulti w.mopts mm = .ok multi →
      findTps w tm = some ktps →
      List.Perm ktps' (ktps.map (·.2)) →
      Tp.Merged (ktps'.map .tp) (kfs.map fun k => (k.addr.toNat, .func k)) ts →
      w.avail = some avail →
      mkfs.length = multi.length → (∀ (i : Nat) t l, multi[i]? = some t → mkfs[i]? = some l → Lists t l) →
      toMulti w (fun k => k.fn.name) mkfs.flatten = some mfs →
      List.Perm gs (groupsOf mfs) →
      List.Perm jobs (progJobs w ++ funcJobs w ts ++ gs.flatMap (groupJobs w.feats.kprobeSession w.g.exit w.maxMulti avail) ++
        w.insns.map .insn ++ w.graphs.map .graph) →
      Planned w kfs ts mfs jobs

/-- The end of `NewBPFTracing` (bpf_tracing.go 112-117) and `HaveTracing` (main.go 190): the programs attached when tracing
begins; `none`: it ends with an error, everything detached. -/
def finish (w : World) (jobs : List Job) : Option (List Job) :=
  if jobs.any fun j => fate j.kind (w.answer j) = .fail then none
  else
    let up := jobs.filter fun j => fate j.kind (w.answer j) = .attach
    if up.isEmpty then none else some up

end Bpfsnoop.Pn
