/-
Model of how branch records (LBR) travel from the tracing programs to the event they are shown under:
bpf/bpfsnoop.c 60-137, bpf/bpfsnoop_kmulti.c 84-156, bpf/bpfsnoop_mode.h, bpf/bpfsnoop_lbr.h, bpf/bpfsnoop_event_output.h 23-78,
bpfsnoop.go 120-198, bpfsnoop_lbr.go 84-104. What is printed of the records is modelled in `Lbr`.
The flags of a program are set by `setBpfsnoopConfig` (bpf_tracing.go 51-70).
A tracing program may be interrupted, on its CPU, by another one between any two of its steps; only the steps that touch
shared memory are steps here. Events that find the ring buffer full take no part (bpfsnoop_event_output.h 36-38).
-/
namespace Bpfsnoop.LbrM

/-- `LbrEntry` (bpfsnoop_lbr.go 15-19). -/
structure Ent where
  src : Nat
  dst : Nat
  flags : Nat
deriving DecidableEq, Repr

/-- `struct bpfsnoop_lbr_data` (bpf/bpfsnoop_lbr.h 12-16), `LbrData` (bpfsnoop_lbr.go 21-24). -/
structure Buf where
  ents : List Ent
  nr : Int
deriving DecidableEq, Repr

/-- `MAX_LBR_ENTRIES` (bpf/bpfsnoop_lbr.h 12). -/
def maxEnts : Nat := 32

/-- `bpf_get_branch_snapshot(entries, sizeof(entries), 0)` (bpf/bpfsnoop.c 82; Linux, assumed): writes at most 32 entries
over the first ones of the buffer and returns their size in bytes, or an error (`none`). -/
def Buf.snap (b : Buf) : Option (List Ent) → Buf
  | none => { b with nr := -2 }
  | some es => ⟨es.take maxEnts ++ b.ents.drop (min es.length maxEnts), 24 * (min es.length maxEnts : Nat)⟩

/-- The hash map `bpfsnoop_lbrs` (bpf/bpfsnoop_lbr.h 20-25). -/
abbrev HMap := List (Nat × Buf)

def HMap.get (m : HMap) (k : Nat) : Option Buf := (m.find? (fun x => x.1 = k)).map Prod.snd

/-- `bpf_map_update_elem(.., BPF_ANY)` on a map of `cap` entries; the error of a full map is ignored
(bpf/bpfsnoop_lbr.h 30-31). -/
def HMap.update (cap : Nat) (m : HMap) (k : Nat) (b : Buf) : HMap :=
  if (m.get k).isSome then m.map (fun x => if x.1 = k then (k, b) else x)
  else if m.length < cap then m ++ [(k, b)]
  else m

/-- Deleting a key (bpfsnoop_lbr.go 86). -/
def HMap.del (m : HMap) (k : Nat) : HMap := m.filter (fun x => x.1 ≠ k)

/-- An event in the ring buffer: which run of a tracing program sent it, its session id, `lbr_retval`. -/
structure Ev where
  inv : Nat
  sid : Nat
  retval : Int
deriving DecidableEq, Repr

/-- Buffers of the CPUs (`bpfsnoop_lbr_buff`, bpf/bpfsnoop_lbr.h 18), map, ring buffer; and what each run of a tracing
program read (for the specification only). -/
structure St where
  buf : Nat → Buf
  map : HMap
  queue : List Ev
  took : Nat → Option (List Ent)

/-- What happens: a run of a tracing program takes its snapshot (bpf/bpfsnoop.c 82); a program that shows no LBR clears the
size (bpf/bpfsnoop.c 84); a run sends its event (bpf/bpfsnoop.c 134); the next event is shown; the next event is dropped
before its LBR is looked up (bpfsnoop.go 141-155). -/
inductive Op where
  | snap (cpu inv : Nat) (es : Option (List Ent))
  | clear (cpu : Nat)
  | out (cpu inv sid : Nat)
  | handle
  | skip
deriving DecidableEq, Repr

def setB (f : Nat → Buf) (c : Nat) (b : Buf) : Nat → Buf := fun i => if i = c then b else f i

/-- `output_event` of a program that shows LBR (bpf/bpfsnoop_event_output.h 40-57, bpf/bpfsnoop_lbr.h 27-32). -/
def output (cap : Nat) (st : St) (cpu inv sid : Nat) : St :=
  let b := st.buf cpu
  { st with map := if b.nr > 0 then st.map.update cap sid b else st.map, queue := st.queue ++ [⟨inv, sid, b.nr⟩] }

/-- The entries that go to the display (bpfsnoop_lbr.go 95-96 and 30-31). -/
def Buf.shown (b : Buf) : Option (List Ent) :=
  if b.nr > 0 ∧ b.ents.head? ≠ some ⟨0, 0, 0⟩ then some (b.ents.take (b.nr.toNat / 24)) else none

/-- Showing an event (bpfsnoop.go 193-198, bpfsnoop_lbr.go 84-104): which run it is of, and the entries. -/
def show1 (st : St) (e : Ev) : Option (List Ent) × HMap :=
  if e.retval > 0 then
    match st.map.get e.sid with
    | none => (none, st.map)
    | some b => (b.shown, st.map.del e.sid)
  else (none, st.map)

def step (cap : Nat) (st : St) : Op → Option (Nat × Option (List Ent)) × St
  | .snap c i es => (none, { st with buf := setB st.buf c ((st.buf c).snap es), took := fun j => if j = i then es else st.took j })
  | .clear c => (none, { st with buf := setB st.buf c { st.buf c with nr := 0 } })
  | .out c i s => (none, output cap st c i s)
  | .handle =>
    match st.queue with
    | [] => (none, st)
    | e :: q =>
      let (r, m) := show1 st e
      (some (e.inv, r), { st with map := m, queue := q })
  | .skip => (none, { st with queue := st.queue.tail })

/-- The events shown: run and entries. -/
def run (cap : Nat) : St → List Op → List (Nat × Option (List Ent))
  | _, [] => []
  | st, o :: os =>
    match step cap st o with
    | (some r, st) => r :: run cap st os
    | (none, st) => run cap st os

/-- Initially everything is zero (bpfsnoop_maps.go 28-33). -/
def init : St := ⟨fun _ => ⟨List.replicate maxEnts ⟨0, 0, 0⟩, 0⟩, [], [], fun _ => none⟩

/-! ### Which events are dropped -/

/-- The flags of a tracing program (bpf/bpfsnoop_cfg_flags.h 9-27). -/
structure Flags where
  outputLbr : Bool
  both : Bool
  isEntry : Bool
  session : Bool
  insn : Bool
  graph : Bool
  tp : Bool
deriving DecidableEq, Repr

/-- Is this run one at the entry of the function? (bpf/bpfsnoop_mode.h 23-35); `ret` is what `bpfsnoop_session_is_return`
says. -/
def atEntry (f : Flags) (ret : Bool) : Bool := if f.both && f.session then !ret else f.isEntry

/-- `can_output_lbr` (bpf/bpfsnoop.c 79-80, bpf/bpfsnoop_kmulti.c 103-104). -/
def canLbr (f : Flags) (ret : Bool) : Bool := (!f.both || atEntry f ret) && f.outputLbr

/-- Must the event belong to a session? (bpfsnoop.go 137-140) -/
def needsSession (f : Flags) : Bool := f.insn || (f.graph && !f.tp) || (f.both && !f.tp) || f.session

/-- May the event be dropped? (bpfsnoop.go 141-155): only at an exit. -/
def droppable (f : Flags) (ret : Bool) : Bool := needsSession f && !atEntry f ret

/-- The flags with which a function is traced (bpf_tracing_func.go 194-226): one or two programs. -/
def funcProgs (lbr insn graph both tp modeExit hasFsession : Bool) : List Flags :=
  if tp then [⟨lbr, false, true, false, insn, graph, true⟩]
  else if insn || graph || both then
    if hasFsession then [⟨lbr, true, false, true, insn, graph, false⟩]
    else [⟨lbr, true, true, false, insn, graph, false⟩, ⟨lbr, true, false, false, insn, graph, false⟩]
  else [⟨lbr, false, !modeExit, false, insn, graph, false⟩]

/-- The same for functions marked `(m)` (bpf_tracing_func_multi.go 127-142, 185, 221, 239-258); `isEntry` is the negation of
`withRet` (bpf_tracing.go 58). -/
def multiProgs (lbr graph both modeExit hasSession : Bool) : List Flags :=
  if both then
    if hasSession then [⟨lbr, true, false, true, false, graph, false⟩]
    else [⟨lbr, true, true, false, false, graph, false⟩, ⟨lbr, true, false, false, false, graph, false⟩]
  else [⟨lbr, false, !modeExit, false, false, graph, false⟩]

end Bpfsnoop.LbrM
