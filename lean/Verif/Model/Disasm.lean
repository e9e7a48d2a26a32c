import Verif.Model.Kallsyms
import Verif.Model.KRead
import Verif.Model.CcNum

/-
Model of disasm.go, bpf_disasm.go, func_insn.go and of the loop of dump.go on amd64: which bytes are disassembled and
which instructions are traced. The disassembler (capstone) is a parameter that tells the length of the first
instruction. Text, colours and line information are not modelled. Addresses are numbers below 2^64.
-/
namespace Bpfsnoop.Dis
open KRead

/-- `guessBytes` (disasm.go 48-59); `none` is a panic (no symbols). The difference is not negative because `next`
returns a symbol above the address. -/
def guessBytes (t : Kallsyms.Tables) (kaddr bytes : Nat) : Option Nat :=
  if bytes ≠ 0 then some bytes
  else
    match Kallsyms.next t kaddr with
    | none => none
    | some none => some 4096
    | some (some e) => some (min (e.addr - kaddr) 4096)

/-- `skipInsns` (disasm.go 65-68): int3 and nop. -/
def isPad (b : Byte) : Bool := b = 0xcc#8 || b = 0x90#8

/-- `trimTailingInsns` (disasm.go 61-78) on amd64. -/
def trimTail (b : List Byte) : List Byte := (b.reverse.dropWhile isPad).reverse

/-- The disassembler: the length of the instruction at the start of the bytes, if there is one. Capstone returns
instructions that are not empty and lie within the bytes given (assumed). -/
structure Decoder where
  dec : Nat → List Byte → Option Nat
  ok : ∀ pc b n, dec pc b = some n → 0 < n ∧ n ≤ b.length

/-- A line of the listing: address, offset, opcode bytes, and whether it is shown as `(bad)`. -/
structure Line where
  pc : Nat
  off : Nat
  bytes : List Byte
  bad : Bool
deriving DecidableEq, Repr

/-- How the listing ends: everything shown, a rest of at most ten bytes dropped, or a fatal error. -/
inductive End where
  | done
  | cut (left : List Byte)
  | fatal (left : List Byte)
deriving DecidableEq, Repr

/-- The loop of `dumpKfunc` (disasm.go 232-293). `bytes == 0` never holds there, because `guessBytes` has replaced it, so
the loop does not stop at `ret` or `int3`. -/
def dump (D : Decoder) (pc off : Nat) (b : List Byte) : List Line × End :=
  match hb : b with
  | [] => ([], .done)
  | x :: r =>
    match hd : D.dec pc (x :: r) with
    | none =>
      if (x :: r).length ≤ 10 then ([], .cut (x :: r))
      else if x = 0x82#8 then
        let (ls, e) := dump D (pc + 1) (off + 1) r
        (⟨pc, off, [x], true⟩ :: ls, e)
      else ([], .fatal (x :: r))
    | some n =>
      let (ls, e) := dump D (pc + n) (off + n) ((x :: r).drop n)
      (⟨pc, off, (x :: r).take n, false⟩ :: ls, e)
termination_by b.length
decreasing_by
  · simp
  · have := D.ok _ _ _ hd
    simp only [List.length_drop, List.length_cons]
    omega

/-- What `dumpKfunc` shows for an address (disasm.go 186-188, 193, 231-293). -/
inductive Shown where
  | panic
  | tooMany
  | refused
  | listing (lines : List Line) (e : End)
deriving DecidableEq, Repr

/-- `dumpKfunc` (disasm.go 154-296) from the resolved address on. -/
def dumpKfunc (D : Decoder) (m : Mem) (t : Kallsyms.Tables) (kaddr bytes : Nat) : Shown :=
  match guessBytes t kaddr bytes with
  | none => .panic
  | some n =>
    if n > buffSize then .tooMany
    else
      match (readKernel m fresh (BitVec.ofNat 64 kaddr) (BitVec.ofNat 32 n)).1 with
      | .panic => .panic
      | .tooLarge => .refused
      | .ok data =>
        let (ls, e) := dump D kaddr 0 (trimTail data)
        .listing ls e

/-! ### Addresses given as text -/

/-- `underscoreOK` of strconv after the prefix `0x`: an underscore must be followed by a digit; the prefix counts as a
digit before it. -/
def underscoreOk : List Char → Bool
  | [] => true
  | '_' :: c :: r => c ≠ '_' && underscoreOk (c :: r)
  | ['_'] => false
  | _ :: r => underscoreOk r

/-- The number a selector of `-d -k` stands for (disasm.go 106-112): `strconv.ParseUint` with base 0 of the text with
`0x` put before it unless it is there. -/
def parseAddr (s : List Char) : Option Nat :=
  let r := if "0x".toList.isPrefixOf s then s.drop 2 else s
  if underscoreOk r then Cc.parseUint 16 (r.filter (· ≠ '_')) else none

/-- What `parseDisasmKfunc` looks for first (disasm.go 106-130): an address in a symbol, an address without symbol
(searched in modules' debug information, not modelled), or a name. -/
inductive Target where
  | addr (a : Nat) (name : String)
  | noSymbol (a : Nat)
  | byName
  | panic
deriving DecidableEq, Repr

/-- `parseDisasmKfunc` up to the search by name (disasm.go 106-123). -/
def target (t : Kallsyms.Tables) (s : List Char) : Target :=
  match parseAddr s with
  | none => .byName
  | some a =>
    match Kallsyms.find t a with
    | none => .panic
    | some none => .noSymbol a
    | some (some e) => .addr a e.name

/-! ### Instruction tracing -/

/-- `engine.Disasm(data, pc, 0)`: all instructions up to the first that cannot be decoded. -/
def insnsOf (D : Decoder) (pc : Nat) (b : List Byte) : List (Nat × List Byte) :=
  match hd : D.dec pc b with
  | none => []
  | some n => (pc, b.take n) :: insnsOf D (pc + n) (b.drop n)
termination_by b.length
decreasing_by
  have := D.ok _ _ _ hd
  simp only [List.length_drop]
  omega

/-- An instruction to trace (`FuncInsn`, func_insn.go 13-20). -/
structure FInsn where
  func : Nat
  ip : Nat
  off : Nat
  bytes : List Byte
deriving DecidableEq, Repr

/-- Outcome of `parseFuncInsns`. -/
inductive IOut where
  | ok (l : List FInsn)
  | error
  | panic
deriving DecidableEq, Repr

/-- `parseFuncInsns` (func_insn.go 24-58) with `disasmKfuncAt` (bpf_disasm.go 12-26); `limit` is
`--trace-insn-debug-cnt`. -/
def parseFuncInsns (D : Decoder) (m : Mem) (t : Kallsyms.Tables) (buff : List Byte) (limit kaddr : Nat) : IOut :=
  match guessBytes t kaddr 0 with
  | none => .panic
  | some n =>
    match (readKernel m buff (BitVec.ofNat 64 kaddr) (BitVec.ofNat 32 n)).1 with
    | .panic => .panic
    | .tooLarge => .error
    | .ok data =>
      let insns := insnsOf D kaddr (trimTail data)
      if insns.isEmpty then .error
      else if insns.length < 4 then .panic
      else
        let insns := insns.drop 4
        let insns := if limit ≠ 0 ∧ insns.length > limit then insns.take limit else insns
        .ok ((insns.filter fun i => i.2 ≠ [0xc3#8]).map fun i => ⟨kaddr, i.1, i.1 - kaddr, i.2⟩)

end Bpfsnoop.Dis
