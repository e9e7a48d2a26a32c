/-
Model of the debug-symbol cache (`internal/bpfsnoop/addr2line_cache.go`), of KASLR translation
(`kaslr.go`) and of the asynchronous symbol loader (`addr2line.go` 49-81, 304-334).
-/
namespace Bpfsnoop.Cache

/-! ### dbgsymCache -/

/-- The cache map: run-time (KASLR-relocated) address to debug entry; entries are opaque numbers. -/
abbrev Map := Nat → Option Nat

/-- One running process: `dbgsymCache` (addr2line_cache.go 26-32). -/
structure Proc where
  cache : Map
  newEntriesCnt : Nat

/-- The cache file: absent, undecodable, or holding a map. `synced` is false when its bytes may still be
only in the page cache: `saveFile` renames without fsync. Left-over temporary files are never read
back (the name pattern differs from `dbgsym.json.xz`) and are not modelled. -/
inductive File
  | absent
  | corrupt
  | data (m : Map)

/-- Machine state: the shared cache file and the running bpfsnoop processes. -/
structure St where
  file : File
  synced : Bool
  procs : Nat → Option Proc

/-- How one execution of `saveFile` (addr2line_cache.go 80-118) ends: completely, with an error at any
of its steps before the rename, by the process being killed before the rename, or killed after it. -/
inductive Outcome | ok | failed | killedBefore | killedAfter
deriving DecidableEq, Repr

/-- Steps of the system. -/
inductive Op
  /-- a process starts: `newDbgsymCache` -/
  | start (p : Nat)
  /-- a running process resolves an address and calls `add`; `o` is used only if this triggers a save -/
  | add (p : Nat) (a v : Nat) (o : Outcome)
  /-- a process exits or is killed -/
  | kill (p : Nat)
  /-- power loss; `torn` says whether unsynced file data was lost -/
  | powerLoss (torn : Bool)
  /-- the kernel writes back its page cache -/
  | sync
deriving DecidableEq, Repr

/-- `cacheBatchLimit` (addr2line_cache.go 19). -/
def batch : Nat := 30

/-- `d.cache[addr] = entry`. -/
def Map.set (m : Map) (a v : Nat) : Map := fun x => if x = a then some v else m x

def setProc (procs : Nat → Option Proc) (p : Nat) (q : Option Proc) : Nat → Option Proc :=
  fun x => if x = p then q else procs x

/-- `loadFile` (addr2line_cache.go 53-78); `none` = error, the program does not start. -/
def load : File → Option Map
  | .absent => some fun _ => none
  | .corrupt => none
  | .data m => some m

/-- `saveFile` (addr2line_cache.go 80-118) followed by what is left of the process. -/
def save (s : St) (p : Nat) (q : Proc) : Outcome → St
  | .ok => { file := .data q.cache, synced := false, procs := setProc s.procs p (some q) }
  | .failed => { s with procs := setProc s.procs p (some q) }
  | .killedBefore => { s with procs := setProc s.procs p none }
  | .killedAfter => { file := .data q.cache, synced := false, procs := setProc s.procs p none }

/-- `add` (addr2line_cache.go 125-141) of the running process `q`. -/
def add (s : St) (p : Nat) (q : Proc) (a v : Nat) (o : Outcome) : St :=
  match q.cache a with
  | some _ => s
  | none =>
    let q' : Proc := { cache := q.cache.set a v, newEntriesCnt := q.newEntriesCnt + 1 }
    if q'.newEntriesCnt % batch = 0 then save s p q' o
    else { s with procs := setProc s.procs p (some q') }

/-- One step of the system. -/
def step (s : St) : Op → St
  | .start p =>
    match load s.file with
    | none => { s with procs := setProc s.procs p none }
    | some m => { s with procs := setProc s.procs p (some { cache := m, newEntriesCnt := 0 }) }
  | .add p a v o =>
    match s.procs p with
    | none => s
    | some q => add s p q a v o
  | .kill p => { s with procs := setProc s.procs p none }
  | .powerLoss torn =>
    { file := if torn && !s.synced then .corrupt else s.file, synced := true, procs := fun _ => none }
  | .sync => { s with synced := true }

def init : St := { file := .absent, synced := true, procs := fun _ => none }

def runOps (s : St) (ops : List Op) : St := ops.foldl step s

/-- `get` (addr2line_cache.go 120-123) in process `p`. -/
def get (s : St) (p a : Nat) : Option Nat := (s.procs p).bind fun q => q.cache a

/-! ### KASLR -/

/-- `Kaslr` (kaslr.go 5-8): a run-time address and the corresponding address in vmlinux. -/
structure Kaslr where
  kaddr : BitVec 64
  saddr : BitVec 64

/-- `effectiveAddr` (kaslr.go 14-20). -/
def Kaslr.effectiveAddr (k : Kaslr) (a : BitVec 64) : BitVec 64 :=
  if k.saddr < k.kaddr then a - (k.kaddr - k.saddr) else a + (k.saddr - k.kaddr)

/-- `revertAddr` (kaslr.go 22-28). -/
def Kaslr.revertAddr (k : Kaslr) (s : BitVec 64) : BitVec 64 :=
  if k.saddr < k.kaddr then s + (k.kaddr - k.saddr) else s - (k.saddr - k.kaddr)

/-- `offset` (kaslr.go 30-36). -/
def Kaslr.offset (k : Kaslr) : BitVec 64 :=
  if k.saddr < k.kaddr then k.kaddr - k.saddr else k.saddr - k.kaddr

/-! ### The asynchronous loader -/

/-- The statements of `Addr2Line.create` (addr2line.go 49-73), in order; `ok` says whether opening the
debug symbols succeeded. -/
inductive LoaderPc | start | closing | settingReady | settingA2l | finished
deriving DecidableEq, Repr

/-- The statements of `Addr2Line.get` up to the lookup (addr2line.go 305-324) executed by the event loop:
not yet in `wait`, blocked on `<-a2l.done`, past `wait`, and the result. -/
inductive ReaderPc | checkReady | blocked | readErr | readA2l | gotHandle | gotNil | gotErr
deriving DecidableEq, Repr

/-- Shared variables of `Addr2Line` (addr2line.go 33-47) with both program counters.
Memory is sequentially consistent; the Go memory model allows even more outcomes. -/
structure Loader where
  ok : Bool
  err : Bool := false
  doneClosed : Bool := false
  ready : Bool := false
  a2l : Bool := false
  lpc : LoaderPc := .start
  rpc : ReaderPc := .checkReady
deriving DecidableEq, Repr

/-- A step of the loading goroutine (addr2line.go 49-73). -/
def stepLoader (s : Loader) : Loader :=
  match s.lpc with
  | .start => if s.ok then { s with lpc := .closing } else { s with err := true, lpc := .finished }
  | .closing => { s with doneClosed := true, lpc := .settingReady }
  | .settingReady => { s with ready := true, lpc := .settingA2l }
  | .settingA2l => { s with a2l := true, lpc := .finished }
  | .finished => s

/-- A step of the event loop in `get`/`wait` (addr2line.go 75-81, 310-321). -/
def stepReader (s : Loader) : Loader :=
  match s.rpc with
  | .checkReady => { s with rpc := if s.ready then .readErr else .blocked }
  | .blocked => if s.doneClosed then { s with rpc := .readErr } else s
  | .readErr => { s with rpc := if s.err then .gotErr else .readA2l }
  | .readA2l => { s with rpc := if s.a2l then .gotHandle else .gotNil }
  | _ => s

/-- A schedule: `true` lets the loader run, `false` the event loop. -/
def schedule (s : Loader) (sch : List Bool) : Loader :=
  sch.foldl (fun s b => if b then stepLoader s else stepReader s) s

/-- `Addr2Line.get` after the handle was obtained (addr2line.go 306-334) for a resolved or unresolved
symbol: `none` is the nil-pointer panic of `ksym.mod`. `lookup` is the DWARF lookup; the Boolean
says whether the result was put in the cache. -/
def getEntry (cached : Option Nat) (ksymMod : Option String) (lookup : Option Nat) : Option (Option Nat × Bool) :=
  match cached with
  | some e => some (some e, false)
  | none =>
    match lookup with
    | none => some (none, false)
    | some e =>
      match ksymMod with
      | none => none
      | some m => some (some e, m ≠ "bpf")

end Bpfsnoop.Cache
