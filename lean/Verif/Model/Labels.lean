import Verif.Model.OutArg

/-
The exit labels of `--output-arg` expressions: `genExitLabel` (internal/bpfsnoop/output_arg.go 343-347), called by `matchParams` (output_arg.go
349-370) in the goroutines that `NewBPFTracing` starts (bpf_tracing.go 87-117), one for each program to be attached, all with the one variable
`argOutput` (output_arg.go 31); and the assembler's treatment of labels.

Simplification: memory is sequentially consistent, each read and write of `labelCnt` is one step. (Go promises less for races.) `labelCnt` does not overflow.
-/
namespace Bpfsnoop.Lbl

/-- Where a goroutine is in `genExitLabel` (output_arg.go 343-347): outside; behind the `Sprintf`, which reads `labelCnt`; in the middle of
`arg.labelCnt++`, which has read this value. -/
inductive Pc
  | out
  | named
  | loaded (m : Nat)
deriving DecidableEq, Repr

/-- A goroutine in `matchParams` (output_arg.go 349-370): the expressions it still has to compile, where it is, and the numbers of the labels
it has got. -/
structure Gor where
  left : Nat
  pc : Pc
  got : List Nat
deriving DecidableEq, Repr

/-- `labelCnt` (output_arg.go 66) and the goroutines. -/
structure World where
  cnt : Nat
  gs : Nat → Gor

/-- One step of a goroutine with this value of the counter (output_arg.go 343-347, 361). -/
def stepG (cnt : Nat) (g : Gor) : Nat × Gor :=
  match g.pc with
  | .out =>
    match g.left with
    | 0 => (cnt, g)
    | k + 1 => (cnt, ⟨k, .named, g.got ++ [cnt]⟩)
  | .named => (cnt, { g with pc := .loaded cnt })
  | .loaded m => (m + 1, { g with pc := .out })

/-- Goroutine `i` goes on. -/
def World.step (w : World) (i : Nat) : World :=
  let r := stepG w.cnt (w.gs i)
  ⟨r.1, fun j => if j = i then r.2 else w.gs j⟩

/-- The goroutines are scheduled like this. -/
def World.run (w : World) : List Nat → World
  | [] => w
  | i :: is => (w.step i).run is

/-- At the start (`prepareFuncArgOutput`, output_arg.go 85-99): goroutine `i` has `n i` expressions that mention a parameter of its function. -/
def start (n : Nat → Nat) : World := ⟨0, fun i => ⟨n i, .out, []⟩⟩

/-! ### The assembler -/

/-- An instruction as the assembler of the eBPF library sees it: its symbol and the symbol it jumps to. -/
structure AI where
  sym : Option Nat
  ref : Option Nat
deriving DecidableEq, Repr

/-- The position of a symbol in code that begins at position `k`. -/
def find (n : Nat) : List AI → Nat → Option Nat
  | [], _ => none
  | i :: is, k => if i.sym = some n then some k else find n is (k + 1)

/-- The symbols. -/
def syms (c : List AI) : List Nat := c.filterMap (·.sym)

/-- Where the jumps go; `none`: a symbol is not there. -/
def targets (all : List AI) : List AI → Option (List (Option Nat))
  | [] => some []
  | i :: is =>
    match i.ref with
    | none => (targets all is).map (none :: ·)
    | some n =>
      match find n all 0, targets all is with
      | some t, some ts => some (some t :: ts)
      | _, _ => none

/-- The library (trusted): a symbol that is there twice or not at all is an error and the program is not loaded; otherwise each jump gets the
position of its symbol. -/
def assemble (c : List AI) : Option (List (Option Nat)) :=
  if (syms c).Nodup then targets c c else none

/-- A jump to the exit label. -/
def isExit : Arg.OI → Bool
  | .cc (.jexit _) => true
  | _ => false

/-- The instructions of one expression (output_arg.go 244-331) with the label it was given. -/
def block (label : Option Nat) (n : Nat) : List Arg.OI → Nat → List AI
  | [], _ => []
  | i :: is, k => ⟨if label = some k then some n else none, if isExit i then some n else none⟩ :: block label n is (k + 1)

/-- The expressions one after the other. -/
def blocks : List Arg.OArg → List Nat → List AI
  | a :: as, n :: ns => block a.label n a.code 0 ++ blocks as ns
  | _, _ => []

/-- `genInsns` (output_arg.go 372-393): two moves, the expressions, the return. -/
def program (as : List Arg.OArg) (ns : List Nat) : List AI := [⟨none, none⟩, ⟨none, none⟩] ++ blocks as ns ++ [⟨none, none⟩]

end Bpfsnoop.Lbl
