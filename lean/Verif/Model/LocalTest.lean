import Verif.Model.Flags
/-
Model of cmd/localtest: the runner of the test files of the project (file.go, test.go, main.go). Files of test cases are lists of lines (what
`bufio.Scanner` gives); output, colors and elapsed times are left out.

Simplifications: lines of a test file are shorter than 64 KiB. `time.ParseDuration` is a parameter. Processes required or triggered
(`runCmd`) are left out: they only add output to the terminal. The length of a line of output is its number of characters. A pipe holds whatever
is written. What is read from a pipe at a time are whole lines.
-/
namespace Bpfsnoop.Lt
open Flg

/-! ### Test files -/

/-- `testCase` (test.go 17-25), after `reset` (27-29); the timeout is in nanoseconds. -/
structure Case where
  name : Str := []
  tag : Str := []
  test : Str := []
  mtch : Str := []
  timeout : Int := 5000000000
  req : Str := []
  trig : Str := []
deriving DecidableEq, Repr

/-- `testCase.valid` (test.go 31-33). -/
def Case.valid (t : Case) : Bool := t.tag ≠ [] && t.test ≠ [] && t.mtch ≠ [] && 0 < t.timeout

/-- The `switch` of `parseTestCase` (file.go 36-74) for `a: b`; `none` is an error. -/
def setField (arch : Str) (dur : Str → Option Int) (t : Case) (a b : Str) : Option Case :=
  if a = "name".toList then some { t with name := b }
  else if a = "tag".toList then some { t with tag := b }
  else if a = "test".toList then some { t with test := "./bpfsnoop ".toList ++ b }
  else if a = "match".toList ∨ a = "match_".toList ++ arch then some { t with mtch := b }
  else if a = "timeout".toList then (dur b).map fun d => { t with timeout := d }
  else if a = "prerequisite".toList then some { t with req := b }
  else if a = "trigger".toList then some { t with trig := b }
  else if "match_".toList.isPrefixOf a then some t
  else none

/-- `parseTestCase` (file.go 16-78) from the case so far: the case, and the lines after `---` if that is what ended it; `none` is an error. -/
def parseCase (arch : Str) (dur : Str → Option Int) : Case → List Str → Option (Case × Option (List Str))
  | t, [] => some (t, none)
  | t, l :: ls =>
    let line := trim l
    if line = [] ∨ "#".toList.isPrefixOf line then parseCase arch dur t ls
    else if "---".toList.isPrefixOf line then some (t, some ls)
    else
      match cut line with
      | (a, b, true) =>
        match setField arch dur t (trim a) (trim b) with
        | some t' => parseCase arch dur t' ls
        | none => none
      | (_, _, false) => none

theorem parseCase_shorter {arch : Str} {dur : Str → Option Int} : ∀ {ls : List Str} {t t' : Case} {r : List Str},
    parseCase arch dur t ls = some (t', some r) → r.length < ls.length
  | [], t, t', r, h => by simp [parseCase] at h
  | l :: ls, t, t', r, h => by
    rw [parseCase] at h
    split at h
    · have := parseCase_shorter h; simp; omega
    · split at h
      · simp only [Option.some.injEq, Prod.mk.injEq] at h; simp [← h.2]
      · split at h
        · split at h
          · have := parseCase_shorter h; simp; omega
          · simp at h
        · simp at h

/-- The loop of `testFile` (file.go 94-113) from the `n`-th run on: the cases that are run and the verdict. `sel` is `--name`, `run n` the verdict of
the `n`-th run. -/
def testFile (arch : Str) (dur : Str → Option Int) (sel : Str) (run : Nat → Case → Bool) (n : Nat) (passed : Bool) (ls : List Str) :
    List Case × Bool :=
  match h : parseCase arch dur {} ls with
  | none => ([], false)
  | some (t, none) =>
    if t.valid = false then ([], false)
    else if sel = [] ∨ sel = t.name then ([t], run n t && passed)
    else ([], passed)
  | some (t, some q) =>
    if t.valid = false then ([], false)
    else if sel = [] ∨ sel = t.name then
      let r := testFile arch dur sel run (n + 1) (run n t && passed) q
      (t :: r.1, r.2)
    else testFile arch dur sel run n passed q
termination_by ls.length
decreasing_by
  · exact parseCase_shorter h
  · exact parseCase_shorter h

/-- The loop of `main` over the sorted files of a directory (main.go 72-79), each with its own verdict. -/
def testDir (verdicts : List Bool) : Bool := verdicts.foldl (fun passed v => v && passed) true

/-! ### A run -/

/-- Which of its two outputs the command writes to. -/
inductive Fd | out | err
deriving DecidableEq, Repr

/-- A goroutine that reads an output (test.go 87-99, 101-116): reading, sending on `matched` (the line announces the start, or not), or ended. -/
inductive Rd
  | reading
  | sending (announces : Bool)
  | stopped
deriving DecidableEq, Repr

/-- Where `test` is: the first `select` (118-136), the second (144-151), `errg.Wait` (155), or returned. -/
inductive Phase
  | start
  | waitMatch
  | join (passed : Bool)
  | done (passed : Bool)
deriving DecidableEq, Repr

/-- What holds for both outputs. -/
structure Both (α : Type) where
  out : α
  err : α

def Both.get {α : Type} (b : Both α) : Fd → α
  | .out => b.out
  | .err => b.err

def Both.set {α : Type} (b : Both α) (f : Fd) (x : α) : Both α :=
  match f with
  | .out => { b with out := x }
  | .err => { b with err := x }

/-- A run: what the command has printed and will print, whether it has ended (with success), what is in the pipes, whether `Wait` has closed them, what
the scanners hold, the goroutines, the number of elements in `matched` (capacity 10), whether `ready` is closed, what is in `errCh`, whether the
goroutine of `Wait` has ended, `test` itself, whether a timer has fired, whether the program has panicked. -/
structure St where
  printed : List (Fd × Str)
  left : List (Fd × Str)
  dead : Option Bool
  pipe : Both (List Str)
  closed : Bool
  buf : Both (List Str)
  rd : Both Rd
  cnt : Nat
  ready : Bool
  errCh : Option Bool
  waited : Bool
  phase : Phase
  timedOut : Bool
  panic : Bool

/-- `test` has started the command `prog` and its goroutines (test.go 49-116). -/
def init (prog : List (Fd × Str)) : St :=
  ⟨[], prog, none, ⟨[], []⟩, false, ⟨[], []⟩, ⟨.reading, .reading⟩, 0, false, none, false, .start, false, false⟩

/-- What the runner takes as the start of bpfsnoop (test.go 110). -/
def running : Str := "bpfsnoop is running..".toList

/-- `killCmd` (command.go 28-33). -/
def St.kill (s : St) : St := { s with dead := some (s.dead.getD false), left := [] }

/-- `close(ready)` (test.go 111): closing it again panics. -/
def St.announce (s : St) : St := if s.ready then { s with panic := true } else { s with ready := true }

/-- Who does the next step: the command prints or ends; a scanner reads `k` lines, hands out a line or ends; a goroutine sends; `Wait` returns;
`test` takes a case of a `select`, or a timer fires, or `errg.Wait` returns. -/
inductive Act
  | print
  | exit
  | fill (f : Fd) (k : Nat)
  | line (f : Fd)
  | eof (f : Fd)
  | send (f : Fd)
  | wait
  | selErr
  | selReady
  | timeout
  | selMatch
  | join
deriving Repr

/-- The longest line a `bufio.Scanner` gives (`MaxScanTokenSize`). -/
def maxLine : Nat := 65536

/-- One step of a run whose case has `match: m` and whose command ends with `ok` if it is not killed; what cannot happen changes nothing. -/
def step (m : Str) (ok : Bool) (s : St) (a : Act) : St :=
  if s.panic then s else
  match s.phase with
  | .done _ => s
  | ph =>
    match a with
    | .print =>
      match s.dead, s.left with
      | none, (f, l) :: r => { s with left := r, printed := s.printed ++ [(f, l)],
                                      pipe := if s.closed then s.pipe else s.pipe.set f (s.pipe.get f ++ [l]) }
      | _, _ => s
    | .exit => if s.dead = none ∧ s.left = [] then { s with dead := some ok } else s
    | .fill f k =>
      if s.rd.get f = .reading ∧ s.closed = false then
        { s with buf := s.buf.set f (s.buf.get f ++ (s.pipe.get f).take k), pipe := s.pipe.set f ((s.pipe.get f).drop k) }
      else s
    | .line f =>
      match s.rd.get f, s.buf.get f with
      | .reading, l :: r =>
        if l.length ≥ maxLine then { s with rd := s.rd.set f .stopped, buf := s.buf.set f [] }
        else
          let ann := f = .err && contains running l
          let s' := { s with buf := s.buf.set f r }
          if contains m l then { s' with rd := s.rd.set f (.sending ann) }
          else if ann then s'.announce
          else s'
      | _, _ => s
    | .eof f =>
      if s.rd.get f = .reading ∧ s.buf.get f = [] ∧ (s.closed = true ∨ (s.pipe.get f = [] ∧ s.dead ≠ none)) then
        { s with rd := s.rd.set f .stopped }
      else s
    | .send f =>
      match s.rd.get f with
      | .sending ann =>
        if s.cnt < 10 then
          let s' := { s with cnt := s.cnt + 1, rd := s.rd.set f .reading }
          if ann then s'.announce else s'
        else s
      | _ => s
    | .wait =>
      match s.dead with
      | some b => if s.waited then s else { s with waited := true, closed := true, pipe := ⟨[], []⟩, errCh := some b }
      | none => s
    | .selErr =>
      match ph, s.errCh with
      | .start, some true => { s with errCh := none, phase := .waitMatch }
      | .start, some false => { s with errCh := none, phase := .done false }
      | _, _ => s
    | .selReady => if ph = .start ∧ s.ready then { s with phase := .waitMatch } else s
    | .timeout =>
      match ph with
      | .start => { s.kill with timedOut := true, phase := .done false }
      | .waitMatch => { s.kill with timedOut := true, phase := .join false }
      | _ => s
    | .selMatch => if ph = .waitMatch ∧ 0 < s.cnt then { s.kill with cnt := s.cnt - 1, phase := .join true } else s
    | .join =>
      match ph with
      | .join p => if s.waited ∧ s.rd.out = .stopped ∧ s.rd.err = .stopped then { s with phase := .done p } else s
      | _ => s

def exec (m : Str) (ok : Bool) (s : St) (acts : List Act) : St := acts.foldl (step m ok) s

end Bpfsnoop.Lt
