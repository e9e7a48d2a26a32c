/-
Model of the stacks shown under events: `bpf_get_stackid` as called in bpf/bpfsnoop_event_output.h 54-55 on the map of
bpf/bpfsnoop_stack_map.h, and bpfsnoop_func_stack.go. The naming of an address (`getLineInfo`) is a parameter (see
`LineInfo`); text and colours are not modelled. Failure of the helper for lack of memory is not modelled.
-/
namespace Bpfsnoop.Stk

/-- A call stack: addresses, innermost first. -/
abbrev Stack := List Nat

/-- A bucket of a `BPF_MAP_TYPE_STACK_TRACE` map (Linux kernel/bpf/stackmap.c): hash and addresses. -/
structure Bucket where
  hash : Nat
  ips : Stack
deriving DecidableEq, Repr

/-- The map `bpfsnoop_stacks` (bpf/bpfsnoop_stack_map.h 12-17). -/
abbrev SMap := Nat → Option Bucket

/-- The kernel's hash of a stack and the number of buckets (256, bpf/bpfsnoop_stack_map.h 14). -/
structure Hash where
  h : Stack → Nat
  n : Nat

/-- The bucket of a stack. -/
def Hash.bucket (H : Hash) (s : Stack) : Nat := H.h s % H.n

def set (m : SMap) (id : Nat) (b : Option Bucket) : SMap := fun i => if i = id then b else m i

/-- `bpf_get_stackid(ctx, map, BPF_F_FAST_STACK_CMP)` (bpf/bpfsnoop_event_output.h 55; Linux stackmap.c, assumed): a bucket
with the same hash is taken as holding the same stack; an occupied bucket with another hash is an error (`none`, a
negative id), because `BPF_F_REUSE_STACKID` is not given. -/
def capture (H : Hash) (m : SMap) (s : Stack) : Option Nat × SMap :=
  match m (H.bucket s) with
  | none => (some (H.bucket s), set m (H.bucket s) (some ⟨H.h s, s⟩))
  | some b => if b.hash = H.h s then (some (H.bucket s), m) else (none, m)

/-- Looking a stack up and deleting it (bpfsnoop_func_stack.go 38-45). -/
def fetch (m : SMap) (id : Nat) : Option Stack × SMap := ((m id).map Bucket.ips, set m id none)

/-- Is this the frame of the code that calls the tracing program? (bpfsnoop_func_stack.go 58-59) -/
def isEntryFrame (name : String) : Bool := name.startsWith "bpf_trampoline_" || name.startsWith "bpf_trace_run"

/-- The loop of `fnStack.get` (bpfsnoop_func_stack.go 47-97): the addresses that are shown. -/
def frames (verbose : Bool) (name : Nat → String) : Stack → Bool → Stack
  | [], _ => []
  | ip :: r, skip =>
    if ip = 0 then frames verbose name r skip
    else if skip && !verbose then frames verbose name r (!isEntryFrame (name ip))
    else ip :: frames verbose name r skip

/-- What is printed for an event with this stack (bpfsnoop_func_stack.go 101-122): the stack, for a flame graph turned
round; nothing if no frame is left. -/
def shown (verbose flame : Bool) (name : Nat → String) (s : Stack) : Stack :=
  let f := frames verbose name s true
  if flame then f.reverse else f

/-! ### Histories -/

/-- What happens: an event with this stack is submitted; the next event in the ring buffer is shown; the next event is
dropped before its stack is looked up (bpfsnoop.go 137-151: session unknown, or the call was shorter than
`--duration-threshold`). -/
inductive Op where
  | emit (s : Stack)
  | handle
  | skip
deriving DecidableEq, Repr

/-- An event in the ring buffer: its stack and the id it carries. -/
structure Ev where
  stack : Stack
  id : Option Nat
deriving DecidableEq, Repr

structure St where
  map : SMap
  queue : List Ev

/-- Initially everything is empty. -/
def init : St := ⟨fun _ => none, []⟩

/-- One step; handling an event gives its true stack and the one found for it (bpfsnoop.go 200-205: only if the id is not
negative). -/
def step (H : Hash) (st : St) : Op → Option (Stack × Option Stack) × St
  | .emit s =>
    let (id, m) := capture H st.map s
    (none, ⟨m, st.queue ++ [⟨s, id⟩]⟩)
  | .handle =>
    match st.queue with
    | [] => (none, st)
    | e :: q =>
      match e.id with
      | none => (some (e.stack, none), ⟨st.map, q⟩)
      | some id =>
        let (s, m) := fetch st.map id
        (some (e.stack, s), ⟨m, q⟩)
  | .skip => (none, ⟨st.map, st.queue.tail⟩)

/-- All handled events of a history: true stack and stack found. -/
def run (H : Hash) : St → List Op → List (Stack × Option Stack)
  | _, [] => []
  | st, o :: os =>
    match step H st o with
    | (some r, st) => r :: run H st os
    | (none, st) => run H st os

end Bpfsnoop.Stk
