import Verif.Model.SysText
/-
What the kernel writes into the files bpfsnoop reads.
-/
namespace Bpfsnoop.Sf

/-- A word: some characters, none of them blank or an end of line. -/
def Word (s : Str) : Prop := s ≠ [] ∧ ∀ c ∈ s, Flg.isSpace c = false

/-- A symbol of the kernel. -/
structure KSym where
  addr : BitVec 64
  typ : Char
  name : Str
  mod : Option Str
deriving DecidableEq, Repr

/-- Sixteen digits, as `%px` prints an address. -/
def hex16 (a : BitVec 64) : Str := List.replicate (16 - (Nat.toDigits 16 a.toNat).length) '0' ++ Nat.toDigits 16 a.toNat

/-- The line of a symbol in /proc/kallsyms (`s_show` of the kernel: `%px %c %s\n`, or `%px %c %s\t[%s]\n` for one of a module). -/
def KSym.line (s : KSym) : Str :=
  hex16 s.addr ++ ' ' :: s.typ :: ' ' :: s.name ++
    match s.mod with
    | none => []
    | some m => '\t' :: '[' :: m ++ [']']

/-- The type, the name and the module are words, the module has no bracket, and the line fits into the buffer of the scanner. -/
def KSym.Ok (s : KSym) : Prop :=
  Flg.isSpace s.typ = false ∧ Word s.name ∧ (∀ m, s.mod = some m → Word m ∧ '[' ∉ m ∧ ']' ∉ m) ∧ s.line.length < 65536

/-- A file of these lines. -/
def file (ls : List Str) : Str := (ls.map fun l => l ++ ['\n']).flatten

/-- What has to be known of the symbol. -/
def KSym.read (s : KSym) : Kallsyms.Line :=
  ⟨some s.addr.toNat, String.ofList [s.typ], String.ofList s.name, String.ofList (s.mod.getD [])⟩

/-- A line of `available_filter_functions` (`%ps`): the name, for a function of a module with its name in brackets. -/
def availLine (f : Str × Option Str) : Str :=
  f.1 ++ match f.2 with
    | none => []
    | some m => " [".toList ++ m ++ [']']

/-- The file fdinfo of a program: lines, the first of `prog_id:` with the id. -/
def IsInfo (id : BitVec 32) (text : Str) : Prop :=
  ∃ pre post, text = file (pre ++ ("prog_id:\t".toList ++ Nat.toDigits 10 id.toNat) :: post) ∧
    ∀ l ∈ pre, '\n' ∉ l ∧ l.length < 65536 ∧ ¬ "prog_id:".toList <+: l

/-- An entry of /proc/pid/fd as the kernel shows it: not a program, or a program with its file. -/
def FdIs (e : Fd) (prog : Option (BitVec 32)) : Prop :=
  match prog with
  | some id => e.link = some "anon_inode:bpf-prog".toList ∧ ∃ t, e.info = some t ∧ IsInfo id t
  | none => ∀ l, e.link = some l → Flg.trim l ≠ "anon_inode:bpf-prog".toList

end Bpfsnoop.Sf
