import Verif.Model.Disasm
import Verif.Model.Kmods
import Verif.Model.Cache
/-
Which function `bpfsnoop -d -k` disassembles: the whole of `parseDisasmKfunc` (disasm.go 106-152) with `findDisasmKfuncInKmods` (disasm.go 80-104). The number a
selector may be is in Model/Disasm.
-/
namespace Bpfsnoop.Dis
open Kallsyms (Tables Entry)
open Flg (Str)

/-- The debug information of a module: the address in the entry that `addr2line.Get` and `FindBySymbol` answer with (a library, not modelled). -/
structure Debug where
  get : BitVec 64 → Option (BitVec 64)
  sym : Str → Option (BitVec 64)

/-- What `addKmod` puts in `a2l.kmods` (addr2line.go 217-275). It logs and goes on if the debug information cannot be parsed; the embedded pointer is
then nil, and its methods panic. -/
structure Mod where
  debug : Option Debug
  kaslr : Cache.Kaslr

/-- Debug symbols: `none` if there are none (`a2l == nil`), otherwise what `addKmod` does for each module, `none` being an error. -/
abbrev Dbg := Option (Str → Option Mod)

/-- What is disassembled, or how the program ends. -/
inductive Sel
  | shows (a : Nat) (name : String)
  /-- "Failed to parse addr2line of kmod" -/
  | noModule (m : Str)
  /-- "Symbol .. not found" -/
  | notFound
  | panic
deriving DecidableEq, Repr

/-- The loop of `findDisasmKfuncInKmods` (disasm.go 87-101). -/
def inMods (K : Str → Option Mod) (name : Str) (a : BitVec 64) : List Str → Sel
  | [] => .notFound
  | m :: ms =>
    match K m with
    | none => .noModule m
    | some k =>
      match k.debug with
      | none => .panic
      | some d =>
        match (if a ≠ 0 then d.get a else d.sym name) with
        | some s => .shows (k.kaslr.revertAddr s).toNat (String.ofList name)
        | none => inMods K name a ms

/-- `findDisasmKfuncInKmods` (disasm.go 80-104) with the assertion after its calls (118, 150). -/
def inKmods (K : Dbg) (name : Str) (a : BitVec 64) (ms : List Str) : Sel :=
  match K with
  | none => .notFound
  | some K => inMods K name a ms

/-- The first of the functions sorted by name (disasm.go 140-145); of several with one name any may be first. -/
def First (fs : List (String × Nat)) (f : String × Nat) : Prop := f ∈ fs ∧ ∀ g ∈ fs, f.1 ≤ g.1

/-- `parseDisasmKfunc` (disasm.go 106-152). `findBySymbol` walks a map, so what its two calls find (124, 129) and which of several functions with the
least name comes first is not determined; `funcs` are the functions `findKernelFuncs` finds for the selector in some modules, an error counting as
what was found before it. `ks` are the modules of the symbol table for `inferenceKfuncKmods` (132), `flags` the value of `--kmods`, which is also
`kmods` (disasm.go 43). -/
inductive Selects (t : Tables) (ks : Km.Syms) (flags : List Str) (K : Dbg) (funcs : List Str → List (String × Nat)) (s : Str) : Sel → Prop
  | number (a n) : target t s = .addr a n → Selects t ks flags K funcs s (.shows a n)
  | numberPanic : target t s = .panic → Selects t ks flags K funcs s .panic
  | numberMods (a) : target t s = .noSymbol a → Selects t ks flags K funcs s (inKmods K s (BitVec.ofNat 64 a) flags)
  | symbol (i e) : target t s = .byName → Kallsyms.FindBySymbol t (String.ofList s) (some i) → t.heap[i]? = some e →
      Selects t ks flags K funcs s (.shows e.addr e.name)
  | ofModule (i e f) : target t s = .byName → Kallsyms.FindBySymbol t (String.ofList s) none →
      Kallsyms.FindBySymbol t (String.ofList s) (some i) → t.heap[i]? = some e → e.mod ≠ "" → First (funcs [e.mod.toList]) f →
      Selects t ks flags K funcs s (.shows f.2 f.1)
  | ofModuleMods (i e) : target t s = .byName → Kallsyms.FindBySymbol t (String.ofList s) none →
      Kallsyms.FindBySymbol t (String.ofList s) (some i) → t.heap[i]? = some e → e.mod ≠ "" → funcs [e.mod.toList] = [] →
      Selects t ks flags K funcs s (inKmods K s 0 [e.mod.toList])
  | glob (f) : target t s = .byName → Kallsyms.FindBySymbol t (String.ofList s) none → First (funcs (Km.infer ks [s] flags)) f →
      Selects t ks flags K funcs s (.shows f.2 f.1)
  | mods : target t s = .byName → Kallsyms.FindBySymbol t (String.ofList s) none → funcs (Km.infer ks [s] flags) = [] →
      Selects t ks flags K funcs s (inKmods K s 0 (Km.infer ks [s] flags))

end Bpfsnoop.Dis
