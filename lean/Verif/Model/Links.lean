/-
Which BPF programs may be traced: internal/bpfsnoop/bpf_link.go 12-49 and `canTrace` (bpf_tracing_info.go 82-99).
-/
namespace Bpfsnoop.Ln

/-- What the kernel says of a link (`link.Info`): its program and, for tracing links, the way of attaching and the id of the object attached to. -/
structure Info where
  prog : Nat
  tracing : Option (Nat × Nat)
deriving DecidableEq, Repr

/-- `bpfLinkInfo` (bpf_link.go 12-17); `isTracing` is always true. -/
structure Entry where
  attach : Nat
  prog : Nat
deriving DecidableEq, Repr

/-- `links`, a map by program (bpf_link.go 19-21); a later entry replaces an earlier one. -/
abbrev Table := Nat → Option Entry

/-- The loop of `newBPFLinks` (bpf_link.go 28-46) over what the iterator gives; `none` is a link whose `Info` fails, which ends it. -/
def loop : Table → List (Option Info) → Option Table
  | t, [] => some t
  | _, none :: _ => none
  | t, some i :: ls =>
    match i.tracing with
    | none => loop t ls
    | some (a, o) => loop (fun p => if p = i.prog then some ⟨a, o⟩ else t p) ls

/-- `newBPFLinks` (bpf_link.go 24-49). -/
def newLinks (ls : List (Option Info)) : Option Table := loop (fun _ => none) ls

/-- `BPF_TRACE_FENTRY` and `BPF_TRACE_FEXIT`. -/
def fentry : Nat := 24
def fexit : Nat := 25

/-- `canTrace` (bpf_tracing_info.go 82-99) of a program that is of type `Tracing` or not. -/
def canTrace (t : Table) (tracing : Bool) (id : Nat) : Bool :=
  if !tracing then true
  else
    match t id with
    | none => true
    | some l => if l.attach = fentry ∨ l.attach = fexit then l.prog = 0 else true

/-- The first test of `addTracing` (bpf_tracing_info.go 102-104): whether the program is passed over. -/
def passedOver (t : Table) (disasm tracing : Bool) (id : Nat) : Bool := !canTrace t tracing id && !disasm

end Bpfsnoop.Ln
