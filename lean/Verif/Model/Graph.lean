/-
Discovery of the functions of a call graph: internal/bpfsnoop/func_graph_parser.go and FindGraphFuncs in func_graph.go
125-235, as a state machine over the steps of concurrent goroutines.

Not modelled: errors and cancellation, which make bpfsnoop give up; the map of symbol names (func_graph_parser.go 414-424),
which only skips a second symbol of the same name, and symbols whose name is not unique are refused before (376-380); the
disassembler, which is the parameter `callees`; that a goroutine may see `bytes` of a BPF function before `Bprog` (366-368).
-/
namespace Bpfsnoop.Gr

abbrev Ip := Nat

/-- What the parser finds out about addresses. `accept`: the checks of `add` (func_graph_parser.go 359-435) let the
function be traced (a traceable BPF function, or a kernel function with a unique symbol that is neither denied nor excluded
and that is included). `repl`: the BPF program has been replaced by another (174-193). `callees`: the targets of its call
instructions (195-209). -/
structure World where
  accept : Ip → Bool
  repl : Ip → Option Ip
  callees : Ip → List Ip

/-- `FuncGraph` (func_graph.go 103-113) as far as the parser looks at it: whether `bytes` has been set (the empty graph is
put into the map first), and `Root`. -/
structure G where
  filled : Bool
  root : Bool
deriving DecidableEq, Repr

/-- Where a goroutine is. `start` and `lookup` are the beginning of `parse` (func_graph_parser.go 150-172), `loop` the loops
over callees there (161-165, 195-209) and the loops over roots of `FindGraphFuncs` (func_graph.go 178-214), `enter`, `check`
and `fill` the parts of `add` (336-342, 344-349 and 351-446); `store` says for which function the callees are stored at the
end (211-213). -/
inductive Th
  | start (ip : Ip) (d : Nat)
  | lookup (ip : Ip) (d : Nat)
  | loop (todo : List (Ip × Nat)) (store : Option Ip)
  | enter (ip : Ip) (d : Nat) (todo : List (Ip × Nat)) (store : Option Ip)
  | check (ip : Ip) (d : Nat) (todo : List (Ip × Nat)) (store : Option Ip)
  | fill (ip : Ip) (d : Nat) (todo : List (Ip × Nat)) (store : Option Ip)
  | fin
deriving DecidableEq, Repr

/-- `FuncGraphParser` (func_graph_parser.go 47-71) and its goroutines. -/
structure St where
  graphs : Ip → Option G
  callee : Ip → Option (List Ip)
  parsed : List (Ip × Nat)
  threads : List Th

/-- What one step of a goroutine does: the new state of the parser, where the goroutine is then, and the goroutine it
starts (`addParse`, func_graph_parser.go 449-453), if any. -/
structure Res where
  graphs : Ip → Option G
  callee : Ip → Option (List Ip)
  parsed : List (Ip × Nat)
  next : Th
  spawn : Option Th

def upd {β : Type} (f : Ip → Option β) (a : Ip) (b : β) : Ip → Option β := fun x => if x = a then some b else f x

/-- One step. `D` is `--fgraph-max-depth`. -/
def act (W : World) (D : Nat) (s : St) : Th → Res
  -- `checkParsed` (func_graph_parser.go 106-115, 151-153)
  | .start ip d =>
    if (ip, d) ∈ s.parsed then ⟨s.graphs, s.callee, s.parsed, .fin, none⟩
    else ⟨s.graphs, s.callee, (ip, d) :: s.parsed, .lookup ip d, none⟩
  -- known callees (157-167), else a replaced program (174-193), else the instructions (169-172, 195-209)
  | .lookup ip d =>
    match s.callee ip with
    | some l => ⟨s.graphs, s.callee, s.parsed, .loop (l.map fun c => (c, d + 1)) none, none⟩
    | none =>
      match W.repl ip with
      | some c => ⟨s.graphs, s.callee, s.parsed, .loop [(c, d)] none, none⟩
      | none => ⟨s.graphs, s.callee, s.parsed, .loop ((W.callees ip).map fun c => (c, d + 1)) (some ip), none⟩
  | .loop [] none => ⟨s.graphs, s.callee, s.parsed, .fin, none⟩
  -- 211-213
  | .loop [] (some ip) => ⟨s.graphs, upd s.callee ip (W.callees ip), s.parsed, .fin, none⟩
  -- the test of the depth (332-334)
  | .loop ((c, d) :: t) st =>
    if D < d then ⟨s.graphs, s.callee, s.parsed, .loop t st, none⟩
    else ⟨s.graphs, s.callee, s.parsed, .enter c d t st, none⟩
  -- 336-342
  | .enter c d t st =>
    match s.graphs c with
    | some _ => ⟨s.graphs, s.callee, s.parsed, .check c d t st, none⟩
    | none => ⟨upd s.graphs c ⟨false, false⟩, s.callee, s.parsed, .fill c d t st, none⟩
  -- 344-349
  | .check c d t st =>
    match s.graphs c with
    | some ⟨true, _⟩ => ⟨s.graphs, s.callee, s.parsed, .loop t st, some (.start c d)⟩
    | _ => ⟨s.graphs, s.callee, s.parsed, .loop t st, none⟩
  -- 351-446
  | .fill c d t st =>
    if W.accept c then ⟨upd s.graphs c ⟨true, d == 0⟩, s.callee, s.parsed, .loop t st, some (.start c d)⟩
    else ⟨s.graphs, s.callee, s.parsed, .loop t st, none⟩
  | .fin => ⟨s.graphs, s.callee, s.parsed, .fin, none⟩

/-- Goroutine `i` takes a step. -/
def step (W : World) (D : Nat) (s : St) (i : Nat) : St :=
  match s.threads[i]? with
  | none => s
  | some th =>
    let r := act W D s th
    { graphs := r.graphs, callee := r.callee, parsed := r.parsed, threads := s.threads.set i r.next ++ r.spawn.toList }

/-- `newFuncGraphParser` and the loops over the roots with depth 0 and the extra functions with depth 1
(func_graph_parser.go 73-94, func_graph.go 192-214). -/
def initial (roots : List (Ip × Nat)) : St := ⟨fun _ => none, fun _ => none, [], [.loop roots none]⟩

/-- A schedule: which goroutine takes the next step. -/
def run (W : World) (D : Nat) (s : St) (sched : List Nat) : St := sched.foldl (step W D) s

/-- All goroutines have finished: `parser.wait()` (func_graph.go 216-219). -/
def Quiet (s : St) : Prop := ∀ th ∈ s.threads, th = .fin

/-- What `FindGraphFuncs` returns (func_graph.go 221-234): functions whose graph has been filled, without those the parser
met below the denied functions. -/
def found (s : St) (deny : St) (debug : Bool) (ip : Ip) : Bool :=
  match s.graphs ip with
  | some ⟨true, _⟩ => debug || (deny.graphs ip).isNone
  | _ => false

end Bpfsnoop.Gr
