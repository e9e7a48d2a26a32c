import Verif.Model.LineInfo

/-
Model of how the table of BPF functions is filled while tracing starts: bpf_prog.go 35-123, the look-up in
bpf_tracing_prog.go 87-88, main.go 150-193. Goroutines interleave step by step (sequentially consistent). An assignment to an
entry of a Go map is two steps, between which the runtime marks the map as being written: an access by another goroutine in
between is fatal ("concurrent map read and map write"), as in Go's runtime. Reading an entry is one step.

What a tracer writes into the entry it finds (expressions, sizes) is left out.
-/
namespace Bpfsnoop.Bg
open Li (PInfo PFunc)

/-- Why bpfsnoop crashed. -/
inductive Crash where
  /-- the information of a program made `newBPFProgInfo` panic -/
  | info
  /-- the entry looked up is not there, and the nil pointer is used -/
  | nil
  /-- the map was accessed while it was written -/
  | race
deriving DecidableEq, Repr

/-- What a goroutine that adds a program is doing (`addProg`, bpf_prog.go 88-102). -/
inductive W where
  /-- before `newBPFProgInfo` (89) -/
  | start (p : PInfo)
  /-- before `flock.Lock` (94) -/
  | want (fs : List PFunc)
  /-- holds the lock; these are still to be entered (98) -/
  | hold (fs : List PFunc)
  /-- in the middle of `b.funcs[…] = p` (99) -/
  | wr (f : PFunc) (fs : List PFunc)
  | done
deriving Repr

/-- `parseProgs` (bpf_prog.go 70-86). -/
inductive P where
  /-- `wg.Wait` (78) -/
  | wait
  /-- the loop over the traced functions (80-82), those left: address and options -/
  | flags (tr : List (Nat × Nat))
  /-- `done` is closed (84) -/
  | closed
  /-- `ready` is set (85) -/
  | ready
deriving Repr

/-- The main goroutine from the moment the tracers have been started (`NewBPFTracing`, main.go 180). -/
inductive M where
  /-- `errg.Wait` (bpf_tracing.go 110) -/
  | trace
  /-- `AddProgs` (main.go 192): the program being added, those left -/
  | add (w : W) (rest : List PInfo)
  /-- events are shown -/
  | show
  /-- ended with an error message -/
  | failed
deriving Repr

/-- A tracer (`traceProg`, bpf_tracing_prog.go 73-189): the address of its function, and whether it has looked it up. -/
structure T where
  ip : Nat
  fin : Bool
deriving DecidableEq, Repr

/-- State of the process. `lock` is `flock`, `writing` the mark of the map. -/
structure St where
  table : List (Nat × PFunc)
  lock : Bool
  writing : Bool
  ws : List W
  err : Bool
  parser : P
  ts : List T
  main : M
  crash : Option Crash
deriving Repr

/-- `NewBPFProgs` (bpf_prog.go 35-68) has started `parseProgs` for the programs `ps`; a tracer each for `ips` is about to start. -/
def init (ps : List PInfo) (ips : List Nat) : St :=
  { table := [], lock := false, writing := false, ws := ps.map .start, err := false, parser := .wait, ts := ips.map (⟨·, false⟩),
    main := .trace, crash := none }

/-- Steps of a goroutine in `addProg`: what it does next, the table, the lock and the mark afterwards. `err` if the information
of the program is refused. -/
inductive WStep (table : List (Nat × PFunc)) (lock writing : Bool) : W → W → List (Nat × PFunc) → Bool → Bool → Bool → Option Crash → Prop
  | parse (p fs) : Li.newInfo p = .ok fs → WStep table lock writing (.start p) (.want fs) table lock writing false none
  | refuse (p) : Li.newInfo p = .err → WStep table lock writing (.start p) .done table lock writing true none
  | panic (p) : Li.newInfo p = .panic → WStep table lock writing (.start p) .done table lock writing false (some .info)
  | acquire (fs) : lock = false → WStep table lock writing (.want fs) (.hold fs) table true writing false none
  | begin (f fs) : writing = false → WStep table lock writing (.hold (f :: fs)) (.wr f fs) table lock true false none
  | clash (f fs) : writing = true → WStep table lock writing (.hold (f :: fs)) (.wr f fs) table lock writing false (some .race)
  | commit (f fs) : WStep table lock writing (.wr f fs) (.hold fs) (Kallsyms.put table f.start f) lock false false none
  | release : WStep table lock writing (.hold []) .done table false writing false none

/-- A look-up of the entry of a traced function, which is then written to. -/
def look (table : List (Nat × PFunc)) (writing : Bool) (ip : Nat) : Option Crash :=
  if writing then some .race else if (Kallsyms.lookup table ip).isNone then some .nil else none

/-- The assignment of the options (bpf_prog.go 81). -/
def setFlag (table : List (Nat × PFunc)) (ip fl : Nat) : List (Nat × PFunc) :=
  match Kallsyms.lookup table ip with
  | some f => Kallsyms.put table ip { f with flag := some fl }
  | none => table

/-- Who makes a step. -/
inductive Who where
  | worker | parser | tracer | main
deriving DecidableEq, Repr

/-- One step of the process. `tr` are the traced functions (`b.tracings`), `mine` the programs of bpfsnoop itself
(`tracings.Progs()`). -/
inductive Step (tr : List (Nat × Nat)) (mine : List PInfo) : St → Who → St → Prop
  /-- a goroutine of `parseProgs` (73-77) -/
  | worker (s : St) (a b : List W) (w w' : W) (t lk wg e c) : s.crash = none → s.ws = a ++ w :: b →
      WStep s.table s.lock s.writing w w' t lk wg e c →
      Step tr mine s .worker { s with table := t, lock := lk, writing := wg, ws := a ++ w' :: b, err := s.err || e, crash := c }
  /-- all goroutines have ended; the map of traced functions is iterated in any order (78-80) -/
  | waited (s : St) (tr' : List (Nat × Nat)) : s.crash = none → s.parser = .wait → (∀ w ∈ s.ws, w = .done) → tr'.Perm tr →
      Step tr mine s .parser { s with parser := .flags tr' }
  /-- the options of one function (81), without the lock -/
  | flag (s : St) (ip fl : Nat) (rest : List (Nat × Nat)) : s.crash = none → s.parser = .flags ((ip, fl) :: rest) →
      Step tr mine s .parser { s with parser := .flags rest, table := setFlag s.table ip fl, crash := look s.table s.writing ip }
  | close (s : St) : s.crash = none → s.parser = .flags [] → Step tr mine s .parser { s with parser := .closed }
  | ready (s : St) : s.crash = none → s.parser = .closed → Step tr mine s .parser { s with parser := .ready }
  /-- a tracer looks its function up (bpf_tracing_prog.go 87-88), without the lock and without waiting -/
  | tracer (s : St) (a b : List T) (ip : Nat) : s.crash = none → s.ts = a ++ ⟨ip, false⟩ :: b →
      Step tr mine s .tracer { s with ts := a ++ ⟨ip, true⟩ :: b, crash := look s.table s.writing ip }
  /-- all tracers have ended -/
  | traced (s : St) : s.crash = none → s.main = .trace → (∀ t ∈ s.ts, t.fin = true) → Step tr mine s .main { s with main := .add .done mine }
  /-- `AddProgs`: a step of adding the program at hand; refused information ends bpfsnoop -/
  | adding (s : St) (rest : List PInfo) (w w' : W) (t lk wg e c) : s.crash = none → s.main = .add w rest →
      WStep s.table s.lock s.writing w w' t lk wg e c →
      Step tr mine s .main { s with table := t, lock := lk, writing := wg, main := if e then .failed else .add w' rest, crash := c }
  | next (s : St) (p : PInfo) (rest : List PInfo) : s.crash = none → s.main = .add .done (p :: rest) →
      Step tr mine s .main { s with main := .add (.start p) rest }
  | added (s : St) : s.crash = none → s.main = .add .done [] → Step tr mine s .main { s with main := .show }

/-- Executions: any interleaving of steps. -/
inductive Run (tr : List (Nat × Nat)) (mine : List PInfo) (s : St) : St → Prop
  | refl : Run tr mine s s
  | step (a b : St) (w : Who) : Run tr mine s a → Step tr mine a w b → Run tr mine s b

end Bpfsnoop.Bg
