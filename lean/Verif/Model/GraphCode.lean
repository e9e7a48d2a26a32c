import Verif.Model.Graph
import Verif.Model.Callees

/-
The parser of call graphs on real code: internal/bpfsnoop/func_graph_parser.go 150-214 puts together what the module `Callees` models (which
functions the code of a function calls) and what the module `Graph` models (what is done with them).
-/
namespace Bpfsnoop.Gc

/-- What `parse` (func_graph_parser.go 150-214) finds out with: the disassembler, kernel memory, the kernel's symbols, the buffer for reading;
the length of each function (func_graph_parser.go 351-446, `bytes`), whether it is a BPF program, and whether `add` (func_graph_parser.go
312-349) lets it into the graph. -/
structure Env where
  dis : Dis.Decoder
  mem : KRead.Mem
  syms : Kallsyms.Tables
  buff : List KRead.Byte
  len : Nat → Nat
  isBPF : Nat → Bool
  accept : Nat → Bool

/-- `disasmKfuncAt` and the loops over instructions (func_graph_parser.go 169-209). -/
def Env.look (e : Env) (ip : Nat) : Cal.Found := Cal.look e.dis e.mem e.syms e.buff ip (e.len ip) (e.isBPF ip)

/-- The parser's view of the code: a replaced program (func_graph_parser.go 174-193), else the functions called (func_graph_parser.go 195-209).
Simplified: errors, which end bpfsnoop, are a function without callees here; the theorems are about code without errors. -/
def Env.world (e : Env) : Gr.World where
  accept := e.accept
  repl ip := match e.look ip with
    | .replaced a => some a.toNat
    | _ => none
  callees ip := match e.look ip with
    | .calls l => l.map BitVec.toNat
    | _ => []

end Bpfsnoop.Gc
