import Verif.Model.Disasm
import Verif.Model.LineInfo
import Verif.Model.Flags

/-
Model of `DumpProg` (internal/bpfsnoop/dump.go 35-198): the listing of the machine code of a BPF program, which is shown with
`-d -p`. The disassembler is a parameter, and so is what is known of an address (`getLineInfo`, modelled in `LineInfo`).
Prototypes of functions are shown by name here (their text is in `FuncProto`), colours are not modelled. A fatal error ends the
process before anything is printed, because the text is printed at the end (dump.go 197). Addresses are numbers below 2^64.
-/
namespace Bpfsnoop.Dp
open KRead Dis Li

/-- A source line: `btf.Line` (dump.go 156-163). -/
structure Source where
  file : Str
  line : Nat
  col : Nat
  text : Str
deriving DecidableEq, Repr

/-- What the kernel reports of the program (dump.go 88-105): its machine code, addresses, lengths and names of its functions,
address and source of each line record. -/
structure Info where
  code : List Byte
  ksyms : List Nat
  lens : List Nat
  names : List String
  jlines : List Nat
  lines : List Source
deriving Repr

/-- What is known of the system: the disassembler with the operands it prints, and what `getLineInfo` says. -/
structure Env where
  D : Decoder
  mnemonic : Nat → List Byte → Str
  op : Nat → List Byte → Str
  at_ : Nat → Res Ep

/-- A part of the text: the head of a function (dump.go 150-152), a source line (dump.go 161-163), an instruction with what lies
at its operand (dump.go 169-185), the blank line after a function (dump.go 192). -/
inductive Item where
  | func (name : String)
  | source (s : Source)
  | insn (l : Line) (mnemonic op : Str) (target : Option Ep)
  | blank
deriving DecidableEq, Repr

/-- `strings.TrimSpace` (dump.go 163) for ASCII. -/
def trimSpace (s : Str) : Str := (((s.dropWhile Char.isWhitespace).reverse).dropWhile Char.isWhitespace).reverse

/-- The line as it is shown (dump.go 156-163). -/
def shownSource (s : Source) : Source := { s with file := trimFile s.file, text := trimSpace s.text }

/-- The map from addresses to line records (dump.go 115-118). -/
def lineMap (p : Info) : List (Nat × Source) := (p.jlines.zip p.lines).foldl (fun m x => Kallsyms.put m x.1 x.2) []

/-- The address an operand is (dump.go 171-179): `0x` or `#0x` and a number. -/
def operand (s : Str) : Option Nat :=
  if "0x".toList.isPrefixOf s then parseAddr s
  else if "#0x".toList.isPrefixOf s then parseAddr (s.drop 1)
  else none

/-- The loop over the instructions of a function (dump.go 153-190). -/
def dumpFn (E : Env) (m : List (Nat × Source)) (ksym pc : Nat) (b : List Byte) : Res (List Item) :=
  match hb : b with
  | [] => .ok []
  | x :: r =>
    match hd : E.D.dec (ksym + pc) (x :: r) with
    | none => .err
    | some n =>
      let src := match Kallsyms.lookup m (ksym + pc) with | none => [] | some s => [Item.source (shownSource s)]
      let op := E.op (ksym + pc) (x :: r)
      let item (t : Option Ep) := Item.insn ⟨ksym + pc, pc, (x :: r).take n, false⟩ (E.mnemonic (ksym + pc) (x :: r)) op t
      let rest (t : Option Ep) : Res (List Item) :=
        match dumpFn E m ksym (pc + n) ((x :: r).drop n) with
        | .ok l => .ok (src ++ item t :: l)
        | .err => .err
        | .panic => .panic
      match operand op with
      | none => rest none
      | some a =>
        match E.at_ a with
        | .ok e => rest (some e)
        | .err => .err
        | .panic => .panic
termination_by b.length
decreasing_by
  have := E.D.ok _ _ _ hd
  simp only [List.length_drop, List.length_cons]
  omega

/-- The loop over the functions (dump.go 137-195): lengths and addresses of the functions still to do, and the number of the
first of them. A slice beyond the code and a missing name are panics. -/
def dumpFns (E : Env) (p : Info) (all : Bool) (func : String) : Nat → List (Nat × Nat) → List Byte → Res (List Item)
  | _, [], _ => .ok []
  | i, (len, ksym) :: fs, code =>
    if code.length < len then .panic
    else
      match p.names[i]? with
      | none => .panic
      | some name =>
        if all || name == func then
          match dumpFn E (lineMap p) ksym 0 (code.take len) with
          | .err => .err
          | .panic => .panic
          | .ok l =>
            match dumpFns E p all func (i + 1) fs (code.drop len) with
            | .ok r => .ok (Item.func name :: l ++ Item.blank :: r)
            | .err => .err
            | .panic => .panic
        else dumpFns E p all func (i + 1) fs (code.drop len)

/-- `DumpProg` from the chosen program on (dump.go 88-197). -/
def dumpInfo (E : Env) (p : Info) (all : Bool) (func : String) : Res (List Item) :=
  if p.code.isEmpty then .err
  else if p.lens.length ≠ p.ksyms.length then .err
  else if p.lines.length ≠ p.jlines.length then .err
  else dumpFns E p all func 0 (p.lens.zip p.ksyms) p.code

/-- `DumpProg` (dump.go 35-198): `tracings` in the order in which the map is iterated, of which the first is shown (dump.go
42-48); `disAll` is `flag.funcName == ""` (bpf_tracing_info.go 184). -/
def dumpProg (E : Env) (infoOf : BitVec 32 → Option Info) (tracings : List Flg.Tracing) : Res (List Item) :=
  match tracings with
  | [] => .err
  | t :: _ =>
    match infoOf t.id with
    | none => .err
    | some p => dumpInfo E p t.imm.funcName.isEmpty (String.ofList t.func)

end Bpfsnoop.Dp
