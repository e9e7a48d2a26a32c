import Verif.Model.Kallsyms

/-
Model of what bpfsnoop knows about the code of BPF programs and of how it names an address: bpf_prog_info.go,
bpf_prog.go, lineinfo.go. A Go run-time panic is a constructor `panic`.
Not modelled: parameters and prototypes of the functions (`getFuncParams`), text of an endpoint, debug information of
modules and its cache (parameters here; see `Cache`). Names of functions carry no blanks (`TrimSpace` leaves them).
Addresses are numbers below 2^64.
-/
namespace Bpfsnoop.Li
open Kallsyms (Entry Tables)

abbrev Str := List Char

/-- A source line: `btf.Line.FileName()`, `LineNumber()`. -/
structure Src where
  file : Str
  line : Nat
deriving DecidableEq, Repr

/-- What the kernel reports of a program (`ebpf.ProgramInfo`, read in bpf_prog_info.go 98-107): names of its functions,
addresses and lengths of their machine code, address and source of each line record, length of the machine code. -/
structure PInfo where
  names : List String
  ksyms : List Nat
  lens : List Nat
  jlines : List Nat
  lines : List Src
  insns : Nat
deriving Repr

/-- `bpfProgFuncInfo` (bpf_prog_info.go 24-43): range of addresses, name, line records, and the options of tracing. -/
structure PFunc where
  start : Nat
  stop : Nat
  name : String
  lines : List (Nat × Src)
  flag : Option Nat
deriving DecidableEq, Repr

/-- Result of reading the information of a program. -/
inductive Res (α : Type) where
  | err
  | panic
  | ok (a : α)
deriving DecidableEq, Repr

/-- The loop of `newBPFProgInfo` (bpf_prog_info.go 124-150); `insns[funcLen:]` panics when fewer bytes are left. The
function is appended before that, but a panic ends bpfsnoop. -/
def splitFuncs (jl : List (Nat × Src)) : List (String × Nat × Nat) → Nat → Res (List PFunc)
  | [], _ => .ok []
  | (n, a, len) :: fs, left =>
    if left < len then .panic
    else
      match splitFuncs jl fs (left - len) with
      | .ok r => .ok (⟨a, a + len, n, jl.filter (fun l => a ≤ l.1 && l.1 < a + len), none⟩ :: r)
      | .err => .err
      | .panic => .panic

/-- `newBPFProgInfo` (bpf_prog_info.go 86-151) once the information could be read. -/
def newInfo (p : PInfo) : Res (List PFunc) :=
  if p.names.length ≠ p.lens.length then .err
  else if p.ksyms.length ≠ p.lens.length then .err
  else if p.jlines.length ≠ p.lines.length then .err
  else splitFuncs (p.jlines.zip p.lines) (p.names.zip (p.ksyms.zip p.lens)) p.insns

/-- The loop of `slices.BinarySearch` (Go's library): the smallest index from `i` on whose element is not below `x`, if
the list is sorted. -/
def search (l : List Nat) (x i j : Nat) : Nat :=
  if i < j then
    match l[(i + j) / 2]? with
    | none => i
    | some y => if y < x then search l x ((i + j) / 2 + 1) j else search l x i ((i + j) / 2)
  else i
termination_by j - i
decreasing_by all_goals omega

/-- The file name as shown (bpf_prog_info.go 66-69): if it starts with a dot, all leading dots and slashes are removed. -/
def trimFile (f : Str) : Str := if f.head? = some '.' then f.dropWhile (fun c => c = '.' || c = '/') else f

/-- `bpfProgLineInfo` (bpf_prog_info.go 45-51). -/
structure PLine where
  func : String
  ksym : Nat
  file : Str
  line : Nat
deriving DecidableEq, Repr

/-- Outcome of a look-up. -/
inductive Got (α : Type) where
  | miss
  | panic
  | hit (a : α)
deriving DecidableEq, Repr

/-- `bpfProgFuncInfo.get` (bpf_prog_info.go 57-77); the index before the first is -1, which panics. -/
def PFunc.get (f : PFunc) (addr : Nat) : Got PLine :=
  if ¬ (f.start ≤ addr ∧ addr < f.stop) then .miss
  else
    let keys := f.lines.map Prod.fst
    let i := search keys addr 0 keys.length
    let idx := if keys[i]? = some addr then some i else if i = 0 then none else some (i - 1)
    match idx.bind (f.lines[·]?) with
    | none => .panic
    | some (_, s) => .hit ⟨f.name, f.start, trimFile s.file, s.line⟩

/-- The loop of `bpfProgs.get` (bpf_prog.go 149-153): over the functions in whatever order the map is iterated. -/
def getProg : List PFunc → Nat → Got PLine
  | [], _ => .miss
  | f :: fs, addr =>
    match f.get addr with
    | .miss => getProg fs addr
    | g => g

/-! ### Loading -/

/-- `addProg` for one function (bpf_prog.go 97-99). -/
def addFuncs (t : List (Nat × PFunc)) (fs : List PFunc) : List (Nat × PFunc) :=
  fs.foldl (fun t f => Kallsyms.put t f.start f) t

/-- The goroutines of `parseProgs` (bpf_prog.go 71-78), in the order in which they get the lock: the table and whether one
of them failed. -/
def parseAll : List PInfo → List (Nat × PFunc) → Res (List (Nat × PFunc) × Bool)
  | [], t => .ok (t, false)
  | p :: ps, t =>
    match newInfo p with
    | .panic => .panic
    | .err =>
      match parseAll ps t with
      | .ok (t, _) => .ok (t, true)
      | r => r
    | .ok fs => parseAll ps (addFuncs t fs)

/-- The loop over the traced functions (bpf_prog.go 80-82): address and options of each; the entry of a function that is
not in the table is nil. -/
def setFlags : List (Nat × Nat) → List (Nat × PFunc) → Res (List (Nat × PFunc))
  | [], t => .ok t
  | (ip, fl) :: r, t =>
    match Kallsyms.lookup t ip with
    | none => .panic
    | some f => setFlags r (Kallsyms.put t ip { f with flag := some fl })

/-- `parseProgs` (bpf_prog.go 70-86): `err` is the error that `get` reports later (bpf_prog.go 143-147). -/
def load (ps : List PInfo) (tr : List (Nat × Nat)) : Res (List (Nat × PFunc)) :=
  match parseAll ps [] with
  | .panic => .panic
  | .err => .err
  | .ok (t, failed) =>
    match setFlags tr t with
    | .ok t => if failed then .err else .ok t
    | r => r

/-! ### Naming an address -/

/-- A line of debug information (`addr2line.Addr2LineEntry`). -/
structure Dbg where
  file : Str
  func : String
  line : Nat
deriving DecidableEq, Repr

/-- `Addr2Line` (addr2line.go 33-47): entries in the cache, the answer once loading is done, and the build directory, which
is known then. -/
structure A2l where
  cached : Nat → Option Dbg
  lookup : Nat → Option Entry → Res Dbg
  dir : Str

/-- `branchEndpoint` (lbr_stack.go 13-26). -/
structure Ep where
  addr : Nat
  func : String
  off : Nat
  file : Str
  line : Nat
  isProg : Bool
  vmlinux : Bool
deriving DecidableEq, Repr

/-- Removing the build directory (lineinfo.go 49-52). -/
def cutDir (dir f : Str) : Str := if dir.isPrefixOf f then f.drop dir.length else f

/-- `getLineInfo` (lineinfo.go 9-62); `done` says whether the debug information has been loaded by the time of the call. A
look-up that misses the cache waits for it (addr2line.go 304-335); one that hits does not, and the build directory may
still be empty. Errors of the look-up leave the endpoint without a line. -/
def lineInfo (fs : List PFunc) (t : Tables) (a2l : Option A2l) (done : Bool) (addr : Nat) : Res Ep :=
  match getProg fs addr with
  | .panic => .panic
  | .hit l => .ok ⟨addr, l.func, addr - l.ksym, l.file, l.line, true, false⟩
  | .miss =>
    match Kallsyms.find t addr with
    | none => .panic
    | some ksym =>
      let name := match ksym with | some e => e.name | none => ""
      let off := match ksym with | some e => addr - e.addr | none => 0
      let plain : Ep := ⟨addr, name, off, [], 0, false, false⟩
      let withLine (d : Dbg) (dir : Str) : Ep := ⟨addr, if name = "" then d.func else name, off, cutDir dir d.file, d.line, false, true⟩
      match a2l with
      | none => .ok plain
      | some a =>
        match a.cached addr with
        | some d => .ok (withLine d (if done then a.dir else []))
        | none =>
          match a.lookup addr ksym with
          | .panic => .panic
          | .err => .ok plain
          | .ok d => .ok (withLine d a.dir)

end Bpfsnoop.Li
