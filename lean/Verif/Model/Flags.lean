import Verif.Model.CcNum

/-
Model of internal/bpfsnoop/flags_kfunc.go, flags_prog.go, of the mode handling in flags.go, of
bpf_prog_flag.go (which programs are selected), kernel_functions_match.go and the selecting part of
kernel_functions.go. A Go string is a list of characters (simplification: no invalid UTF-8, and
`strings.ToLower` only matters for ASCII letters). Maps with Go's `make(map...)` are association lists in
which the last insertion wins.
-/
namespace Bpfsnoop.Flg
open Cc

abbrev Str := List Char

/-- `strings.Cut(s, ":")`: before, after, found. -/
def cut : Str → Str × Str × Bool
  | [] => ([], [], false)
  | c :: r => if c = ':' then ([], r, true) else let (a, b, f) := cut r; (c :: a, b, f)

/-- `strings.Split(s, ":")`. -/
def split : Str → List Str
  | [] => [[]]
  | c :: r =>
    if c = ':' then [] :: split r
    else
      match split r with
      | [] => [[c]]
      | a :: as => (c :: a) :: as

/-- `unicode.IsSpace`. -/
def isSpace (c : Char) : Bool :=
  c ∈ ['\t', '\n', '\x0b', '\x0c', '\r', ' ', '\u0085', '\u00a0', '\u1680', '\u2028', '\u2029', '\u202f', '\u205f', '\u3000'] ||
    (0x2000 ≤ c.toNat && c.toNat ≤ 0x200a)

/-- `strings.TrimSpace`. -/
def trim (s : Str) : Str := ((s.dropWhile isSpace).reverse.dropWhile isSpace).reverse

/-- `strconv.ParseUint(s, 10, 32)`; `none` is an error. -/
def parseU32 (s : Str) : Option (BitVec 32) :=
  match parseUint 10 s with
  | some n => if n < 2 ^ 32 then some (BitVec.ofNat 32 n) else none
  | none => none

/-- Global options that targets inherit (flags.go 24-56): `--output-insns`, `-g`, `--output-stack` (or a flame
graph), `--output-lbr`, `--output-pkt`, and the modes after `setDefaultModes`. -/
structure Glob where
  insns : Bool
  graph : Bool
  stack : Bool
  lbr : Bool
  pkt : Bool
  modes : List String

/-- `hasModeEntry` (flags.go 321-323). -/
def Glob.entry (g : Glob) : Bool := g.modes.contains "entry"
/-- `hasModeExit` (flags.go 325-327). -/
def Glob.exit (g : Glob) : Bool := g.modes.contains "exit"

/-- The flags set by prefixes: `insn` of `KfuncFlag` (flags_kfunc.go 11-17), the booleans of `progFlagImmInfo`
(bpf_prog_flag.go 19-30) and the local `skbMode`. -/
structure Pre where
  insn : Bool := false
  graph : Bool := false
  stack : Bool := false
  lbr : Bool := false
  both : Bool := false
  pkt : Bool := false
  multi : Bool := false
  skb : Bool := false
deriving DecidableEq, Repr

/-- `if strings.HasPrefix(k, p) { flag = true; k = k[len(p):] }`. -/
def strip (p : Str) (set : Pre → Pre) (x : Pre × Str) : Pre × Str :=
  if p.isPrefixOf x.2 then (set x.1, x.2.drop p.length) else x

/-- The last `if` of the loop, for `(skb)` in any case (flags_kfunc.go 52-55). -/
def stripSkb (x : Pre × Str) : Pre × Str :=
  if "(skb)".toList.isPrefixOf (x.2.map Char.toLower) then ({ x.1 with skb := true }, x.2.drop 5) else x

/-- One iteration of the loop of `parseKfuncFlag` (flags_kfunc.go 23-56). -/
def passK (x : Pre × Str) : Pre × Str :=
  stripSkb <| strip "(m)".toList (fun f => { f with multi := true }) <| strip "(p)".toList (fun f => { f with pkt := true }) <|
    strip "(b)".toList (fun f => { f with both := true }) <| strip "(l)".toList (fun f => { f with lbr := true }) <|
    strip "(s)".toList (fun f => { f with stack := true }) <| strip "(g)".toList (fun f => { f with graph := true }) <|
    strip "(i)".toList (fun f => { f with insn := true }) x

/-- One iteration of the loop of `parseProgFlag` (flags_prog.go 37-58). -/
def passP (x : Pre × Str) : Pre × Str :=
  strip "(p)".toList (fun f => { f with pkt := true }) <| strip "(b)".toList (fun f => { f with both := true }) <|
    strip "(l)".toList (fun f => { f with lbr := true }) <| strip "(s)".toList (fun f => { f with stack := true }) <|
    strip "(g)".toList (fun f => { f with graph := true }) x

/-- `for strings.HasPrefix(k, "(") { .. }`; `none` is a loop that does not end: an iteration that consumes nothing
is repeated forever. -/
def loop (pass : Pre × Str → Pre × Str) (x : Pre × Str) : Option (Pre × Str) :=
  if "(".toList.isPrefixOf x.2 then
    if _h : (pass x).2.length < x.2.length then loop pass (pass x) else none
  else some x
termination_by x.2.length

/-- Errors of the parsers; `hang` is the endless loop. -/
inductive FErr
  | reject
  | hang
deriving DecidableEq, Repr

/-- `progFlagImmInfo` (bpf_prog_flag.go 19-30). -/
structure Imm where
  fltrExpr : Str := []
  funcName : Str := []
  graph : Bool := false
  stack : Bool := false
  lbr : Bool := false
  both : Bool := false
  pkt : Bool := false
  multi : Bool := false
  argName : Str := []
  argType : Str := []
deriving DecidableEq, Repr

/-- `KfuncFlag` (flags_kfunc.go 11-17). -/
structure KfuncFlag where
  name : Str := []
  arg : Str := []
  typ : Str := []
  insn : Bool := false
  imm : Imm := {}
deriving DecidableEq, Repr

/-- `getTypeDescFrom` (filter_arg.go 33-45): `none` is an error. -/
def getTypeDesc (s : Str) : Option Str :=
  match s with
  | '(' :: r => if ')' ∈ r then some (r.takeWhile (· ≠ ')')) else none
  | _ => some []

/-- The switch over the fields of `parseKfuncFlag` (flags_kfunc.go 75-101): name, arg, typ. -/
def kfuncFields (arg0 typ0 : Str) (k : Str) : Option (Str × Str × Str) :=
  match split k with
  | [a] => some (trim a, arg0, typ0)
  | [a, b] =>
    let arg := trim b
    match arg with
    | '(' :: _ =>
      match getTypeDesc arg with
      | none => none
      | some t => some (trim a, trim (arg.drop (t.length + 2)), trim t)
    | _ => some (trim a, arg, typ0)
  | [a, b, c] => some (trim a, trim b, trim c)
  | _ => none

/-- `parseKfuncFlag` (flags_kfunc.go 19-113). -/
def parseKfuncFlag (g : Glob) (k : Str) : Except FErr KfuncFlag :=
  match loop passK ({}, k) with
  | none => .error .hang
  | some (p, k) =>
    let insn := p.insn || g.insns
    let graph := p.graph || g.graph
    if insn && graph then .error .reject
    else if p.multi && insn then .error .reject
    else
      match kfuncFields (if p.skb then "skb".toList else []) (if p.skb then "struct sk_buff *".toList else []) k with
      | none => .error .reject
      | some (name, arg, typ) =>
        if p.multi && typ.isEmpty then .error .reject
        else
          .ok { name := name, arg := arg, typ := typ, insn := insn,
                imm := { fltrExpr := k, graph := graph, stack := p.stack || g.stack, lbr := p.lbr || g.lbr,
                         both := p.both || (g.entry && g.exit), pkt := p.pkt || g.pkt, multi := p.multi,
                         argName := if p.multi then arg else [], argType := if p.multi then typ else [] } }

/-- What a program selector names. -/
inductive Sel
  | all
  | id (n : BitVec 32)
  | pinned (path : Str)
  | tag (t : Str)
  | name (n : Str)
  | pid (n : BitVec 32)
deriving DecidableEq, Repr

/-- `ProgFlag` (flags_prog.go 21-32); the descriptor and the field it selects are one `Sel`. -/
structure ProgFlag where
  sel : Sel
  imm : Imm
deriving DecidableEq, Repr

/-- The part of `parseProgFlag` after the prefixes (flags_prog.go 66-123): selector and function name. -/
def parseSel (fileExists : Str → Bool) (p : Str) : Option (Sel × Str) :=
  if p = ['*'] then some (.all, [])
  else
    let (id, rest, ok) := cut p
    if id = "i".toList ∨ id = "id".toList then
      let (id, fn, ok) := cut rest
      (parseU32 id).map fun n => (.id n, if ok then fn else [])
    else if id = "p".toList ∨ id = "pinned".toList then
      let (path, fn, _) := cut rest
      if fileExists path then some (.pinned path, fn) else none
    else if id = "t".toList ∨ id = "tag".toList then
      let (t, fn, _) := cut rest
      if t.isEmpty then none else some (.tag t, fn)
    else if id = "n".toList ∨ id = "name".toList then
      let (n, fn, _) := cut rest
      if n.isEmpty then none else some (.name n, fn)
    else if id = "pid".toList then
      let (n, fn, _) := cut rest
      (parseU32 n).map fun n => (.pid n, fn)
    else (parseU32 id).map fun n => (.id n, if ok then rest else [])

/-- `parseProgFlag` (flags_prog.go 34-126). `fltrExpr`, `multi`, `argName` and `argType` stay empty. -/
def parseProgFlag (g : Glob) (fileExists : Str → Bool) (p : Str) : Except FErr ProgFlag :=
  match loop passP ({}, p) with
  | none => .error .hang
  | some (f, p) =>
    match parseSel fileExists p with
    | none => .error .reject
    | some (sel, fn) =>
      .ok { sel := sel,
            imm := { funcName := fn, graph := f.graph || g.graph, stack := f.stack || g.stack, lbr := f.lbr || g.lbr,
                     both := f.both || (g.entry && g.exit), pkt := f.pkt || g.pkt } }

/-! ### Modes -/

/-- `strings.Contains(s, p)`. -/
def contains (p : Str) : Str → Bool
  | [] => p.isEmpty
  | c :: r => p.isPrefixOf (c :: r) || contains p r

/-- `strings.Contains(s, "(m)")`. -/
def hasM (s : Str) : Bool := contains "(m)".toList s

/-- `multiModeOnly` (flags.go 253-260). -/
def multiModeOnly (kfuncs : List Str) : Bool := kfuncs.all hasM

/-- `setDefaultModes` (flags.go 262-270). -/
def setDefaultModes (modes : List String) (kfuncs : List Str) : List String :=
  if !modes.isEmpty then modes else if multiModeOnly kfuncs then ["entry"] else ["exit"]

/-- `checkMode` (flags.go 272-291): accepted? -/
def checkMode (modes : List String) : Bool :=
  match modes with
  | [a] => ["entry", "exit"].contains a
  | [a, b] => ["entry", "exit"].contains a && ["entry", "exit"].contains b
  | _ => false

/-! ### Selecting programs -/

/-- A loaded bpf program as the kernel shows it: id, tag, name of its first function (`none` without BTF or
symbol), its functions, and whether it can be traced (`canTrace`, bpf_tracing_info.go 82-99). -/
structure Prog where
  id : BitVec 32
  tag : Str
  hasBtf : Bool
  entry : Option Str
  funcs : List Str
  ok : Bool
deriving DecidableEq, Repr

/-- `progFlags` (bpf_prog_flag.go 32-40). -/
structure ProgFlags where
  all : Bool := false
  flag : Imm := {}
  ids : List (BitVec 32 × Imm) := []
  tags : List (Str × Imm) := []
  names : List (Str × Imm) := []
  pinned : List (Str × Imm) := []
  pids : List (BitVec 32 × Imm) := []
deriving DecidableEq, Repr

/-- The copy made in `newProgFlags` (bpf_prog_flag.go 51-58): `pkt` is not copied. -/
def copyImm (f : Imm) : Imm :=
  { fltrExpr := f.fltrExpr, funcName := f.funcName, graph := f.graph, stack := f.stack, lbr := f.lbr, both := f.both }

/-- The loop of `newProgFlags` (bpf_prog_flag.go 50-84); insertions go to the front. -/
def newProgFlags : ProgFlags → List ProgFlag → ProgFlags
  | pf, [] => pf
  | pf, f :: fs =>
    let imm := copyImm f.imm
    match f.sel with
    | .all => { pf with all := true, flag := imm }
    | .id n => newProgFlags { pf with ids := (n, imm) :: pf.ids } fs
    | .tag t => newProgFlags { pf with tags := (t, imm) :: pf.tags } fs
    | .name n => newProgFlags { pf with names := (n, imm) :: pf.names } fs
    | .pinned p => newProgFlags { pf with pinned := (p, imm) :: pf.pinned } fs
    | .pid n => newProgFlags { pf with pids := (n, imm) :: pf.pids } fs

/-- `allID` (bpf_prog_flag.go 87-94). -/
def ProgFlags.allID (p : ProgFlags) : Bool :=
  !p.ids.isEmpty && p.tags.isEmpty && p.names.isEmpty && p.pinned.isEmpty && p.pids.isEmpty && !p.all

/-- One entry of `tracings` (bpf_tracing_info.go 101-191): program, function, flags. -/
structure Tracing where
  id : BitVec 32
  func : Str
  imm : Imm
deriving DecidableEq, Repr

/-- The system: all loaded programs in id order, the program behind a pinned file, the ids of the programs a
process holds. -/
structure Sys where
  progs : List Prog
  pinned : Str → Option (BitVec 32)
  fds : BitVec 32 → List (BitVec 32)

def Sys.find (s : Sys) (id : BitVec 32) : Option Prog := s.progs.find? (·.id = id)

/-- `addTracing` (bpf_tracing_info.go 101-191) without the check for tail-call reachable subprograms and for odd
parameters; `none` is an error. -/
def addTracing (p : Prog) (func : Str) (imm : Imm) (ts : List Tracing) : Option (List Tracing) :=
  if !p.ok then some ts
  else if ts.any (fun t => t.id = p.id ∧ t.func = func) then some ts
  else if p.funcs.contains func then some (ts ++ [⟨p.id, func, imm⟩]) else none

/-- `getProgFuncName` (bpf_prog_flag.go 318-324) and the same choice elsewhere. -/
def funcOf (p : Prog) (imm : Imm) : Option Str :=
  if imm.funcName.isEmpty then (if p.hasBtf then p.entry else none) else some imm.funcName

/-- `prepareProgInfoByID`, `prepareProgInfoByPinnedPath`, `addProgByID` (bpf_prog_flag.go 96-173): trace one
program by id. -/
def addByID (s : Sys) (id : BitVec 32) (imm : Imm) (ts : List Tracing) : Option (List Tracing) :=
  match s.find id with
  | none => none
  | some p =>
    match funcOf p imm with
    | none => none
    | some f => addTracing p f imm ts

/-- Fold with early return. -/
def foldO {α : Type} (f : α → List Tracing → Option (List Tracing)) : List α → List Tracing → Option (List Tracing)
  | [], ts => some ts
  | a :: as, ts =>
    match f a ts with
    | none => none
    | some ts' => foldO f as ts'

/-- The three lookups of `prepareProgInfo` (bpf_prog_flag.go 228-287). -/
def prepareProgInfo (flags : ProgFlags) (p : Prog) (ts : List Tracing) : Option (List Tracing) :=
  if !p.hasBtf then some ts
  else
    match p.entry with
    | none => none
    | some e =>
      let name (i : Imm) := if i.funcName.isEmpty then e else i.funcName
      if flags.all then addTracing p e flags.flag ts
      else
        foldO (fun (x : Option Imm) ts => match x with | none => some ts | some i => addTracing p (name i) i ts)
          [flags.ids.lookup p.id, flags.tags.lookup p.tag, flags.names.lookup e] ts

/-- One iteration of the loop over the selectors in `prepareProgInfos` (bpf_prog_flag.go 295-307). -/
def prepareSel (s : Sys) (f : ProgFlag) (ts : List Tracing) : Option (List Tracing) :=
  match f.sel with
  | .pinned path =>
    match s.pinned path with
    | none => none
    | some id => addByID s id f.imm ts
  | .pid n => foldO (fun id ts => addByID s id f.imm ts) (s.fds n) ts
  | _ => some ts

/-- `prepareProgInfos` (bpf_prog_flag.go 289-316). -/
def prepareProgInfos (s : Sys) (fs : List ProgFlag) : Option (List Tracing) :=
  let flags := newProgFlags {} fs
  if flags.allID then
    foldO (fun (f : ProgFlag) ts => match f.sel with | .id n => addByID s n f.imm ts | _ => some ts) fs []
  else
    match foldO (prepareSel s) fs [] with
    | none => none
    | some ts => foldO (prepareProgInfo flags) s.progs ts

/-! ### Selecting kernel functions -/

/-- A function in BTF: name, parameters (name, printed type), whether the last parameter stands for `...`, whether
it returns a struct, whether `getFuncParams` accepts it. -/
structure BFunc where
  name : Str
  params : List (Str × Str)
  variadic : Bool
  structRet : Bool
  paramsOk : Bool
deriving DecidableEq, Repr

/-- A symbol of kallsyms: address and whether several addresses have this name. -/
structure Ksym where
  addr : BitVec 64
  duped : Bool
deriving DecidableEq, Repr

/-- `kfuncMatch.match` (kernel_functions_match.go 43-64); `glob pattern name` is the match of package glob. -/
def kmatch (glob : Str → Str → Bool) (m : KfuncFlag) (fn : BFunc) : Bool :=
  if !glob m.name fn.name then false
  else if m.arg.isEmpty then true
  else
    match fn.params.find? (·.1 = m.arg) with
    | none => false
    | some p => m.typ.isEmpty || p.2 = m.typ

/-- `matchKfunc` (kernel_functions_match.go 66-73). -/
def matchKfunc (glob : Str → Str → Bool) (fn : BFunc) (ms : List KfuncFlag) : Option KfuncFlag :=
  ms.find? fun m => kmatch glob m fn

/-- `checkKfuncTraceable` (kernel_functions.go 98-122). -/
def checkTraceable (ksyms : Str → Option Ksym) (fn : BFunc) (allowDuped : Bool) : Option Ksym :=
  if fn.variadic || fn.structRet then none
  else
    match ksyms fn.name with
    | none => none
    | some k => if k.duped && !allowDuped then none else some k

/-- A selected kernel function (`KFunc`, kernel_functions.go 73-87). -/
structure KFunc where
  addr : BitVec 64
  fn : BFunc
  insn : Bool
  flag : Imm
deriving DecidableEq, Repr

/-- `matchKernelFunc` (kernel_functions.go 124-193) with `findManyArgs` false. -/
def matchKernelFunc (glob : Str → Str → Bool) (ksyms : Str → Option Ksym) (maxArgs : Nat) (ms : List KfuncFlag) (fn : BFunc) :
    Option KFunc :=
  match matchKfunc glob fn ms with
  | none => none
  | some m =>
    match checkTraceable ksyms fn m.imm.multi with
    | none => none
    | some k =>
      if !fn.paramsOk then none
      else if fn.params.length ≤ maxArgs then some ⟨k.addr, fn, m.insn, m.imm⟩
      else if m.imm.multi then
        match fn.params.findIdx? (·.1 = m.imm.argName) with
        | none => none
        | some i => if i < maxArgs then some ⟨k.addr, fn, m.insn, m.imm⟩ else none
      else none

/-- `findKernelFuncs` (kernel_functions.go 195-222): the map from addresses to functions, over all BTF functions. -/
def findKernelFuncs (glob : Str → Str → Bool) (ksyms : Str → Option Ksym) (maxArgs : Nat) (ms : List KfuncFlag)
    (fns : List BFunc) : BitVec 64 → Option KFunc :=
  fns.foldl (fun acc fn =>
    match matchKernelFunc glob ksyms maxArgs ms fn with
    | none => acc
    | some kf => fun a => if a = kf.addr then some kf else acc a) (fun _ => none)

/-- `noreturnFuncs` (kernel_functions.go 23-40). -/
def noreturnFuncs : List Str :=
  ["__ia32_sys_exit", "__ia32_sys_exit_group", "__kunit_abort", "kunit_try_catch_throw", "__module_put_and_kthread_exit",
   "__x64_sys_exit", "__x64_sys_exit_group", "do_exit", "do_group_exit", "kthread_complete_and_exit", "kthread_exit",
   "make_task_dead"].map String.toList

/-- `tracingDenyFuncs` (kernel_functions.go 44-61). -/
def tracingDenyFuncs : List Str :=
  ["migrate_disable", "migrate_enable", "rcu_read_unlock_strict", "preempt_count_add", "preempt_count_sub",
   "__rcu_read_lock", "__rcu_read_unlock", "bpf_get_numa_node_id", "bpf_dispatcher_xdp_func"].map String.toList

/-- `searchKernelFuncs` (kernel_functions.go 224-243). -/
def searchKernelFuncs (g : Glob) (glob : Str → Str → Bool) (ksyms : Str → Option Ksym) (maxArgs : Nat) (ms : List KfuncFlag)
    (fns : List BFunc) : BitVec 64 → Option KFunc := fun a =>
  match findKernelFuncs glob ksyms maxArgs ms fns a with
  | none => none
  | some kf =>
    if ((g.exit || kf.flag.both || kf.insn || kf.flag.graph) && noreturnFuncs.contains kf.fn.name) ||
        tracingDenyFuncs.contains kf.fn.name then none
    else some kf

end Bpfsnoop.Flg
