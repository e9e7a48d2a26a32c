import Verif.Model.Kallsyms
import Verif.Model.Flags
import Verif.Model.Attach
import Verif.Model.KRead
/-
Model of how the files of the running kernel are read: /proc/kallsyms (`internal/bpfsnoop/kallsyms.go`), the list of functions that can be
attached to (`bpf_tracing_func_multi.go`), the open files of a process (`bpf_prog_flag.go`), and of reading the number of branch records
(`lbr_nr.go`).

Simplifications: the files are ASCII text, a character is a byte; opening and reading them succeeds unless said otherwise.
-/
namespace Bpfsnoop.Sf

abbrev Str := List Char

/-! ### bufio.Scanner, strings.Fields -/

/-- `bufio.MaxScanTokenSize`: a line has to fit into it with its end. -/
def maxToken : Nat := 65536

/-- The lines of a text; what is behind the last end of line is a line if it is not empty (`bufio.ScanLines`, used in kallsyms.go 120-121). `acc`: the line so far,
reversed. -/
def rawLines (acc : Str) : Str → List Str
  | [] => if acc = [] then [] else [acc.reverse]
  | c :: cs => if c = '\n' then acc.reverse :: rawLines [] cs else rawLines (c :: acc) cs

/-- `dropCR` of `bufio.ScanLines` (kallsyms.go 120-121). -/
def dropCR (l : Str) : Str := if l.getLast? = some '\r' then l.dropLast else l

/-- `for scanner.Scan() { scanner.Text() }` and `scanner.Err() != nil` (kallsyms.go 120-121, 217): scanning stops at a line that is too long. -/
def scanLines (t : Str) : List Str × Bool :=
  let ls := rawLines [] t
  ((ls.takeWhile fun l => decide (l.length < maxToken)).map dropCR, ls.any fun l => decide (maxToken ≤ l.length))

/-- `strings.Fields` (kallsyms.go 127). `acc`: the field so far, reversed. -/
def fields (acc : Str) : Str → List Str
  | [] => if acc = [] then [] else [acc.reverse]
  | c :: cs =>
    if Flg.isSpace c then (if acc = [] then fields [] cs else acc.reverse :: fields [] cs) else fields (c :: acc) cs

/-! ### /proc/kallsyms -/

/-- `strings.Trim(s, "[]")` (kallsyms.go 171). -/
def trimBr (s : Str) : Str :=
  ((s.dropWhile fun c => c == '[' || c == ']').reverse.dropWhile fun c => c == '[' || c == ']').reverse

/-- A line of the file (kallsyms.go 122-130 and the fields used in 162-214); `none`: it is skipped. -/
def kline (l : Str) : Option Kallsyms.Line :=
  let l := Flg.trim l
  if l = [] then none
  else
    match fields [] l with
    | a :: t :: n :: rest =>
      some { addr := Cc.parseUint 16 a, typ := String.ofList t, name := String.ofList (Flg.trim n)
             mod := match rest with
               | m :: _ => String.ofList (trimBr m)
               | [] => "" }
    | _ => none

/-- `NewKallsyms` (kallsyms.go 108-228) on the contents of the file; `none` is an error. `sysBPF` is the name of the system call. -/
def newKallsyms (sysBPF : String) (text : Str) : Option Kallsyms.Tables :=
  let s := scanLines text
  match Kallsyms.scan sysBPF (s.1.filterMap kline) Kallsyms.Tables.empty with
  | none => none
  | some t => if s.2 then none else some t

/-! ### available_filter_functions -/

/-- The name on a line (bpf_tracing_func_multi.go 62-68). `strings.Fields(line)[0]` is there, the line is not blank. -/
def aline (l : Str) : Option Str :=
  let l := Flg.trim l
  if l = [] then none else (fields [] l)[0]?

/-- `loadAvailableFilterFunctions` (bpf_tracing_func_multi.go 46-76): the files under the two paths, `none` if it cannot be opened; `none`: an error. -/
def loadAvailable (tracing debug : Option Str) : Option (List Str) :=
  match tracing.or debug with
  | none => none
  | some text =>
    let s := scanLines text
    if s.2 then none else some (s.1.filterMap aline)

/-- `filterKprobeMultiSymbols` (bpf_tracing_func_multi.go 78-94). -/
def filterSymbols (funcs : List Str) : List Str → List Str × List Str
  | [] => ([], [])
  | s :: ss =>
    let r := filterSymbols funcs ss
    if Att.skipSym s then (r.1, s :: r.2)
    else if funcs.contains s then (s :: r.1, r.2)
    else (r.1, s :: r.2)

/-! ### /proc/pid/fd -/

/-- An entry of /proc/pid/fd: its link (`none`: it cannot be read) and the contents of the file in /proc/pid/fdinfo. -/
structure Fd where
  link : Option Str
  info : Option Str
deriving DecidableEq, Repr

/-- What an entry says. -/
inductive FdOut
  | skip
  | prog (id : BitVec 32)
  | err
  | panic
deriving DecidableEq, Repr

/-- `strings.HasPrefix(line, "prog_id:")` and what follows (bpf_prog_flag.go 199-217). -/
def infoLines (tooLong : Bool) : List Str → FdOut
  | [] => if tooLong then .err else .skip
  | l :: ls =>
    if "prog_id:".toList.isPrefixOf l then
      match (fields [] l)[1]? with
      | none => .panic
      | some f =>
        match Flg.parseU32 f with
        | none => .err
        | some n => .prog n
    else infoLines tooLong ls

/-- The function given to `fs.WalkDir` (bpf_prog_flag.go 177-226) up to `addProgByID`. -/
def fdEntry (e : Fd) : FdOut :=
  match e.link with
  | none => .skip
  | some l =>
    if Flg.trim l ≠ "anon_inode:bpf-prog".toList then .skip
    else
      match e.info with
      | none => .skip
      | some t =>
        let s := scanLines t
        infoLines s.2 s.1

/-- How adding the programs of a process ends. -/
inductive PidOut
  | ok (ts : List Flg.Tracing)
  | err
  | panic
deriving DecidableEq, Repr

/-- `prepareProgInfoByPid` (bpf_prog_flag.go 175-226) for the entries of the directory in order. -/
def byPid (s : Flg.Sys) (imm : Flg.Imm) : List Fd → List Flg.Tracing → PidOut
  | [], ts => .ok ts
  | e :: es, ts =>
    match fdEntry e with
    | .skip => byPid s imm es ts
    | .err => .err
    | .panic => .panic
    | .prog id =>
      match Flg.addByID s id imm ts with
      | none => .err
      | some ts => byPid s imm es ts

/-! ### The number of branch records -/

/-- A member of a struct: its name and offset in bytes. -/
structure Member where
  name : Str
  off : BitVec 32
deriving DecidableEq, Repr

/-- How `ReadLbrNr` ends: `fatal` is the failed assertion that stops the tool. -/
inductive LbrOut
  | ok (n : BitVec 32)
  | err
  | fatal
  | panic
deriving DecidableEq, Repr

/-- `ReadLbrNr` (lbr_nr.go 20-62). `btf` is the type `x86_pmu` (`none`: not found or not a struct), `nr` is the initial value 32. -/
def readLbrNr (amd64 : Bool) (pmu : BitVec 64) (btf : Option (List Member)) (m : KRead.Mem) (buff : List KRead.Byte) : LbrOut :=
  if !amd64 then .ok 32
  else if pmu = 0 then .err
  else
    match btf with
    | none => .err
    | some ms =>
      match ms.find? (fun x => x.name = "lbr_nr".toList) with
      | none => .err
      | some x =>
        match (KRead.readKernel m buff (pmu + x.off.setWidth 64) 4).1 with
        | .ok d => let n := Att.u32At d 0; if n = 0 then .fatal else .ok n
        | .tooLarge => .err
        | .panic => .panic

end Bpfsnoop.Sf
