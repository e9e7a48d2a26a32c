import Verif.Model.InsnRun
/-
What `(i)` has to print, written without the programs and without the session tables.
-/
namespace Bpfsnoop.Ir
open Cg (Addr Call)

/-- The traced instruction at this address, if the kernel has put a probe on it. -/
def probed (S : Sys) (ip : Addr) : Option Dis.FInsn := (S.insns.map (·.2)).find? fun f => decide (f.ip = ip.toNat) && (S.place f).isSome

/-- The lines of the instructions that a call of `c` executes itself: those with a probe of its function, in order, each with the time since the
beginning of the call. What is done in the calls it makes is not among them. -/
def own (S : Sys) (c : Call) : Body → List Run.Item
  | .nil => []
  | .insn i rest =>
    (match probed S i.ip with
      | some f => if f.func = c.ip.toNat then [.insn (S.texts.insn f i.cpu) (i.ns - c.enter.ns)] else []
      | none => []) ++ own S c rest
  | .call _ _ rest => own S c rest

/-- What is printed for a recorded call. -/
def block (S : Sys) (c : Call) (inner : Body) : List Run.Item :=
  [.func (S.texts.func false c.ip c.enter.cpu c.enter.args) none] ++ own S c inner ++
    [.func (S.texts.func true c.ip c.leave.cpu c.leave.args) (some (c.leave.ns - c.enter.ns))]

/-- A traced call that the filters accept. -/
def recorded (S : Sys) (c : Call) : Bool := S.traced c.ip && c.pass

/-- What is printed when something happens: at the end of a recorded call that took at least `limit` its lines. -/
def printed (S : Sys) (limit : Int) (h : Hit) : Option (List Run.Item) :=
  match h.ev with
  | .exit c inner => if recorded S c = true ∧ limit ≤ ((c.leave.ns - c.enter.ns).toNat : Int) then some (block S c inner) else none
  | _ => none

/-- What a task does is as assumed: the id of a recorded call is not 0, less than 64 recorded calls of its function are open around it, and a
call that is not recorded is not made within a recorded call of the same function; an instruction with a probe is executed by its function, or
while no recorded call of that function is open. `around`: the calls around. -/
def Fits (S : Sys) (around : List Call) : Body → Prop
  | .nil => True
  | .insn i rest =>
    (∀ f, probed S i.ip = some f →
      (∃ c cs, around = c :: cs ∧ f.func = c.ip.toNat ∧ S.traced c.ip = true) ∨ ∀ c ∈ around, recorded S c = true → f.func ≠ c.ip.toNat) ∧
    Fits S around rest
  | .call c inner rest =>
    (S.traced c.ip = true →
      let same := around.filter fun a => recorded S a && decide (a.ip = c.ip)
      if c.pass then c.sid ≠ 0 ∧ same.length < 64 else same = []) ∧
    Fits S (c :: around) inner ∧ Fits S around rest

/-- The recorded calls open in a task. -/
def open_ (S : Sys) (t : Task) : List Call := (t.stack.map (·.c)).filter (recorded S)

/-- Whenever a recorded call begins, no recorded call with its id is open in any task. -/
def Distinct (S : Sys) : World → List (BitVec 64) → Prop
  | _, [] => True
  | w, p :: ps =>
    match next (w p) with
    | none => Distinct S w ps
    | some (h, t) =>
      (∀ c, h.ev = .enter c → recorded S c = true → ∀ q, ∀ a ∈ open_ S (w q), a.sid ≠ c.sid) ∧ Distinct S (w.set p t) ps

/-- The table holds each instruction under its address, each address once, and the kernel puts the probe of an instruction where it belongs or
refuses it. -/
structure Placed (S : Sys) : Prop where
  keys : ∀ x ∈ S.insns, x.1 = x.2.ip
  once : S.insns.Pairwise fun x y => x.1 ≠ y.1
  small : ∀ x ∈ S.insns, x.2.ip < 2 ^ 64 ∧ x.2.func < 2 ^ 64
  place : ∀ x ∈ S.insns, ∀ a, S.place x.2 = some a → a.toNat = x.2.ip

/-- The tasks before they do anything. -/
def start (F : BitVec 64 → Body) : World := fun p => ⟨[], F p⟩

end Bpfsnoop.Ir
