import Verif.Model.Disasm
import Verif.Model.Util

/-
Which functions a function calls, as the parser of call graphs finds them: internal/bpfsnoop/func_graph_parser.go 100-129, 150-214 on
amd64. That a function was looked at before, and what is done with the functions found, is in the module `Graph`.
-/
namespace Bpfsnoop.Cal
open KRead (Mem Byte readKernel)
open Dis (Decoder guessBytes insnsOf trimTail)

/-- `ne.Uint32` and `getCalleeIPFromInsn` (func_graph_parser.go 117-129) of an instruction, its address and its bytes. -/
def callee (i : Nat × List Byte) : BitVec 64 :=
  Util.getCalleeIPFromInsn (BitVec.ofNat 64 i.1) (i.2.map UInt8.ofBitVec)

/-- What `parse` makes of the code: it adds the program that replaces this one, at the same depth, or the functions called, one deeper. -/
inductive Found
  | panic
  | error
  | replaced (a : BitVec 64)
  | calls (l : List (BitVec 64))
deriving DecidableEq, Repr

/-- The switch for BPF programs (func_graph_parser.go 174-193) and the loop over the instructions (func_graph_parser.go 195-209). `calleeIP` is never zero
after the switch, see `Util.calleeIP_high`. -/
def scan (isBPF : Bool) (insns : List (Nat × List Byte)) : Found :=
  match insns with
  | [] => .error
  | i :: _ =>
    if isBPF && i.2.head? == some 0xE9#8 then
      match i.2 with
      | _ :: b0 :: b1 :: b2 :: b3 :: _ =>
        .replaced (Util.getCalleeIP (BitVec.ofNat 64 i.1)
          (Util.leU32 (UInt8.ofBitVec b0) (UInt8.ofBitVec b1) (UInt8.ofBitVec b2) (UInt8.ofBitVec b3)))
      | _ => .panic
    else .calls ((insns.map callee).filter (· ≠ 0#64))

/-- `parse` (func_graph_parser.go 167-214) with `disasmKfuncAt` (bpf_disasm.go 12-26); code without any instruction is an error of the
disassembler. -/
def look (D : Decoder) (m : Mem) (t : Kallsyms.Tables) (buff : List Byte) (ip bytes : Nat) (isBPF : Bool) : Found :=
  match guessBytes t ip bytes with
  | none => .panic
  | some n =>
    match (readKernel m buff (BitVec.ofNat 64 ip) (BitVec.ofNat 32 n)).1 with
    | .panic => .panic
    | .tooLarge => .error
    | .ok data => scan isBPF (insnsOf D ip (trimTail data))

end Bpfsnoop.Cal
