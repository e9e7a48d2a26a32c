import Verif.Model.Repr
/-
The text of one event without colours: `getFuncInfo` and the beginning of `outputFuncInfo` (internal/bpfsnoop/bpfsnoop_func.go
25-106), the rest of the line (bpfsnoop.go 160-177), graph lines (bpfsnoop_graph.go 44-48), instruction lines
(bpfsnoop_insn.go 31-41).

A text is a list of bytes, written as characters below 256. The text of the arguments is a parameter (it is in `FnArgs` and
`Repr`). `time.Duration.String` and `Time.Format` are those of the Go standard library, for what is printed here: 32-bit
numbers of nanoseconds, and the layout `15:04:05.999999999`.
-/
namespace Bpfsnoop.Ln
open Rp (Text dec)

def t (x : String) : Text := x.toList

/-- A byte as a character. -/
def chr (b : UInt8) : Char := Char.ofNat b.toNat

/-- The UTF-8 bytes of `→`, `←` and `µ`. -/
def arrowIn : Text := [chr 0xE2, chr 0x86, chr 0x92]
def arrowOut : Text := [chr 0xE2, chr 0x86, chr 0x90]
def micro : Text := [chr 0xC2, chr 0xB5]

/-- `strx.NullTerminated` (internal/strx/string.go 8-16) of `event.Comm` (bpfsnoop.go 41). -/
def comm (c : Vector UInt8 16) : Text := (c.toList.takeWhile (· ≠ 0)).map chr

/-- `fmtFrac` (Go, time/time.go): `k` digits of `v` from the right, without trailing zeros, and a dot. -/
def fmtFrac : Nat → Nat → Bool → Text → Text × Nat
  | 0, v, p, acc => (if p then '.' :: acc else acc, v)
  | k + 1, v, p, acc =>
    if p || v % 10 ≠ 0 then fmtFrac k (v / 10) true (Nat.digitChar (v % 10) :: acc) else fmtFrac k (v / 10) false acc

/-- A number of `unit`s with `k` digits after the dot. -/
def fixed (k v : Nat) (unit : Text) : Text := dec (fmtFrac k v false []).2 ++ (fmtFrac k v false []).1 ++ unit

/-- `Duration.String` (Go, time/time.go) of less than a minute, which all 32-bit durations are. -/
def duration (d : BitVec 32) : Text :=
  if d.toNat < 1000000000 then
    if d.toNat = 0 then t "0s"
    else if d.toNat < 1000 then fixed 0 d.toNat (t "ns")
    else if d.toNat < 1000000 then fixed 3 d.toNat (micro ++ t "s")
    else fixed 6 d.toNat (t "ms")
  else fixed 9 d.toNat (t "s")

/-- A time of day. -/
structure Clock where
  hour : Fin 24
  min : Fin 60
  sec : Fin 60
  ns : Fin 1000000000

/-- Two digits. -/
def two (n : Nat) : Text := [Nat.digitChar (n / 10), Nat.digitChar (n % 10)]

/-- `Time.Format("15:04:05.999999999")` (Go, time/format.go): no trailing zeros, no dot without digits. -/
def clock (c : Clock) : Text :=
  two c.hour ++ t ":" ++ two c.min ++ t ":" ++ two c.sec ++ (fmtFrac 9 c.ns false []).1

/-- What the line of an event shows besides function and arguments; `duration` is `none` unless `requiredSession &&
haveRetval` (bpfsnoop.go 164-177). -/
structure Head where
  cpu : BitVec 32
  pid : BitVec 32
  comm : Vector UInt8 16
  duration : Option (BitVec 32)
  clock : Clock

/-- ` duration=%s` (bpfsnoop.go 173-175). -/
def withDuration : Option (BitVec 32) → Text
  | none => []
  | some d => t " duration=" ++ duration d

/-- bpfsnoop.go 172-178. -/
def head (h : Head) : Text :=
  t " cpu=" ++ dec h.cpu.toNat ++ t " process=(" ++ dec h.pid.toNat ++ t ":" ++ comm h.comm ++ t ")" ++
  withDuration h.duration ++ t " timestamp=" ++ clock h.clock ++ t "\n"

/-- The mark before the name (bpfsnoop_func.go 88-96). -/
def mark (exit isTp : Bool) : Text :=
  if exit then arrowOut else if !isTp then arrowIn else t "-"

/-- `outputFuncInfo` (bpfsnoop_func.go 86-122): mark, name, arguments (`=()` or what `FnArgs` shows). -/
def func (exit isTp : Bool) (name args : Text) : Text := mark exit isTp ++ t " " ++ name ++ t " args" ++ args

/-- The line of an event (bpfsnoop.go 160-178). -/
def event (exit isTp : Bool) (name args : Text) (h : Head) : Text := func exit isTp name args ++ head h

/-- The line of a graph event (bpfsnoop_graph.go 36-50) without its newline; `shown` is the text of function and arguments. -/
def graph (depth : Nat) (shown : Text) (cpu : BitVec 32) (cost total : BitVec 32) : Text :=
  (List.replicate depth (t "  ")).flatten ++ shown ++ t " cpu=" ++ dec cpu.toNat ++ t " depth=" ++ dec depth ++
  t " duration=" ++ duration cost ++ t "|" ++ duration total

/-- `%-Ns` (`µ` is one character). -/
def pad (n : Nat) (shown : Text) (width : Nat) : Text := shown ++ List.replicate (n - width) ' '

/-- The number of characters of a duration text: `µ` is two bytes. -/
def runes (x : Text) : Nat := (x.filter fun c => c ≠ chr 0xB5).length

/-- The line of an instruction (bpfsnoop_insn.go 31-41) without its newline. -/
def insn (name : Text) (cpu d : BitVec 32) (desc : Text) : Text :=
  name ++ t " cpu=" ++ pad 2 (dec cpu.toNat) (dec cpu.toNat).length ++ t " duration=" ++ pad 12 (duration d) (runes (duration d)) ++
  t " insn=" ++ desc

/-! ### Which function an event is shown under -/

abbrev Addr := BitVec 64

/-- A traced kernel function or tracepoint (`KFunc`): name in BTF, whether it is a tracepoint. -/
structure KF where
  name : Text
  isTp : Bool
deriving DecidableEq, Repr

/-- The tables of `Helpers` (bpfsnoop.go 55-64) used by `getFuncInfo`; `ksym` is `Kallsyms.find`. -/
structure Tables where
  progs : Addr → Option Text
  ksym : Addr → Option Text
  kfuncs : Addr → Option KF
  multi : List (Addr → Option KF)

/-- `findKfuncInMulti` (bpfsnoop_func.go 25-32). -/
def findMulti (ip : Addr) : List (Addr → Option KF) → Option KF
  | [] => none
  | m :: ms => match m ip with | some f => some f | none => findMulti ip ms

/-- A function of a graph (`FuncGraph`): it is a program or a kernel function, or neither has been found. -/
structure GFn where
  bprog : Option Text
  kfunc : Option KF

/-- What `getFuncInfo` finds out about the function (bpfsnoop_func.go 34-84): a program, or a kernel function or
tracepoint, or nothing. -/
inductive Who
  | prog (name : Text)
  | kernel (f : KF)
  | unknown
deriving DecidableEq, Repr

/-- The lookups of `getFuncInfo` (bpfsnoop_func.go 38-73). -/
def who (T : Tables) (ip : Addr) (g : Option GFn) (kmulti : Bool) : Who :=
  match (match T.progs ip with | some p => some p | none => g.bind (·.bprog)) with
  | some p => .prog p
  | none =>
    match (match (if kmulti then findMulti ip T.multi else none) with
      | some f => some f
      | none => match T.kfuncs ip with | some f => some f | none => g.bind (·.kfunc)) with
    | some f => .kernel f
    | none => .unknown

/-- `%x`. -/
def hex (n : Nat) : Text := Nat.toDigits 16 n

/-- The name shown (bpfsnoop_func.go 42-60, 79-81). -/
def name (T : Tables) (ip : Addr) (g : Option GFn) (kmulti : Bool) : Text :=
  match who T ip g kmulti with
  | .prog p => p ++ t "[bpf]"
  | .kernel f => if f.isTp then f.name ++ t "[tp]" else (T.ksym ip).getD (t "0x" ++ hex ip.toNat)
  | .unknown => (T.ksym ip).getD (t "0x" ++ hex ip.toNat)

end Bpfsnoop.Ln
