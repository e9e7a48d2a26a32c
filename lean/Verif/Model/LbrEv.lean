/-
Model of opening the perf events that record branches (LBR): lbr_perf_event.go, lbr_perf_event_linux.go and main.go 70-81.

The system call and the number of possible CPUs are parameters. Texts of errors are not modelled.
-/
namespace Bpfsnoop.LbrEv

abbrev Text := List Char

/-- `unix.PerfEventAttr`, the fields that are set (lbr_perf_event_linux.go 16-23); the others are zero. -/
structure Attr where
  typ : Nat
  config : Nat
  sample : Nat
  freq : Bool
  sampleType : BitVec 64
  branch : BitVec 64
deriving DecidableEq, Repr

/-- The arguments of `perf_event_open` (lbr_perf_event_linux.go 65). -/
structure Call where
  attr : Attr
  pid : Int
  cpu : Nat
  group : Int
  flags : Nat
deriving DecidableEq, Repr

/-- The cases of the `switch` (lbr_perf_event_linux.go 26-62): what a branch type adds; `none` is the default case. The constants are
those of include/uapi/linux/perf_event.h. -/
def addType (m : BitVec 64) (s : Text) : Option (BitVec 64) :=
  if s = "any".toList then some (m ||| (1#64 <<< 3))
  else if s = "any_call".toList then some (m ||| (1#64 <<< 4))
  else if s = "any_return".toList then some (m ||| (1#64 <<< 5))
  else if s = "ind_call".toList then some (m ||| (1#64 <<< 6))
  else if s = "abort_tx".toList then some (m ||| (1#64 <<< 7))
  else if s = "in_tx".toList then some (m ||| (1#64 <<< 8))
  else if s = "no_tx".toList then some (m ||| (1#64 <<< 9))
  else if s = "cond".toList then some (m ||| (1#64 <<< 10))
  else if s = "call_stack".toList then some (m ||| (1#64 <<< 11))
  else if s = "ind_jump".toList then some (m ||| (1#64 <<< 12))
  else if s = "call".toList then some (m ||| (1#64 <<< 13))
  else none

/-- The loop over the branch types (lbr_perf_event_linux.go 25-63). -/
def addTypes : BitVec 64 → List Text → Option (BitVec 64)
  | m, [] => some m
  | m, s :: r =>
    match addType m s with
    | none => none
    | some m => addTypes m r

/-- What went wrong: the number of CPUs could not be found, an unknown branch type, an error of the system call. -/
inductive Err where
  | cpus
  | unknown
  | sys (errno : Nat)
deriving DecidableEq, Repr

/-- What is done to the system. -/
inductive Act where
  | opened (c : Call) (fd : Nat)
  | refused (c : Call) (errno : Nat)
  | closed (fd : Nat)
deriving DecidableEq, Repr

/-- `perf_event_open`: a descriptor or an error number. -/
abbrev Sys := Call → Except Nat Nat

/-- `openLbrPerfEvent` (lbr_perf_event_linux.go 15-66). -/
def openOne (sys : Sys) (cpu : Nat) (types : List Text) : List Act × Except Err Nat :=
  match addTypes (1#64 <<< 1) types with
  | none => ([], .error .unknown)
  | some b =>
    let c : Call := ⟨⟨0, 0, 4000, true, 1#64 <<< 11, b⟩, -1, cpu, -1, 8⟩
    match sys c with
    | .error e => ([.refused c e], .error (.sys e))
    | .ok fd => ([.opened c fd], .ok fd)

/-- The loop of `OpenLbrPerfEvent` (lbr_perf_event.go 33-40) from CPU `i` on, `n` CPUs left: what is done, the descriptors. -/
def openLoop (sys : Sys) (types : List Text) (i : Nat) : Nat → List Nat → List Act × List Nat × Option Err
  | 0, fds => ([], fds, none)
  | n + 1, fds =>
    match openOne sys i types with
    | (a, .error e) => (a, fds, some e)
    | (a, .ok fd) =>
      match openLoop sys types (i + 1) n (fds ++ [fd]) with
      | (b, r) => (a ++ b, r)

/-- `Close` (lbr_perf_event.go 45-49). -/
def close (fds : List Nat) : List Act := fds.map .closed

/-- `OpenLbrPerfEvent` (lbr_perf_event.go 17-43). The deferred function looks at the variable `err` of the function; the one of the loop
is another variable (`fd, err :=`, line 34), so after an error of the loop nothing is closed. -/
def openAll (sys : Sys) (numCPU : Option Nat) (types : List Text) : List Act × Except Err (List Nat) :=
  match numCPU with
  | none => (close [], .error .cpus)
  | some n =>
    match openLoop sys types 0 n [] with
    | (a, _, some e) => (a, .error e)
    | (a, fds, none) => (a, .ok fds)

/-- What main does with the result (main.go 70-78): it goes on, says that LBR is not supported (ENOENT, EOPNOTSUPP), or says what
failed. -/
inductive Answer where
  | go (fds : List Nat)
  | unsupported
  | failed (e : Err)
deriving DecidableEq, Repr

/-- main.go 71-76. -/
def answer : Except Err (List Nat) → Answer
  | .ok fds => .go fds
  | .error (.sys 2) => .unsupported
  | .error (.sys 95) => .unsupported
  | .error e => .failed e

end Bpfsnoop.LbrEv
