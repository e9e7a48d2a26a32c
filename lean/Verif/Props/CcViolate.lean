import Verif.Props.CcTop

/-
Expressions the compiler accepts and gets wrong: each theorem exhibits an accepted filter, argument values and
memory for which the program's answer differs from the meaning of the expression.
-/
namespace Bpfsnoop.Cc

/-- Types: 0 struct, 1 to 4 unsigned integers of 1, 2, 4, 8 bytes, 5 an array of 4 bytes, 6 struct. -/
def vBtf : Btf where
  kind n := if n = 0 then .comp 0 else if n = 6 then .comp 1 else if n = 5 then .array (.base 1)
    else if n ≤ 4 then .int else .other
  size n := [some 100, some 1, some 2, some 4, some 8, some 4, some 16].getD n none
  member id f :=
    if id = 0 then
      [("a", ⟨.base 3, 4, 32, 0⟩), ("next", ⟨.ptr (.base 0), 8, 64, 0⟩), ("b", ⟨.base 1, 16, 128, 0⟩),
       ("wide", ⟨.base 4, 24, 192, 40⟩), ("bits", ⟨.base 3, 32, 260, 5⟩), ("arr", ⟨.base 5, 36, 288, 0⟩),
       ("far", ⟨.base 3, 40000, 320000, 0⟩), ("inner", ⟨.base 6, 48, 384, 0⟩)].lookup f
    else if id = 1 then [("z", (⟨.base 3, 4, 32, 0⟩ : Member))].lookup f else none
  castId id := some (id + 1)

def vVars : List (String × Ty) :=
  [("p", .ptr (.base 0)), ("q", .ptr (.base 0)), ("n", .base 3), ("k", .base 4), ("c", .base 1),
   ("pp", .ptr (.ptr (.base 0)))]

def vOpts (mode : Mode) : Opts := { Γ := vBtf, vars := vVars, mode := mode, reserved := 8, fastcall := false, lo := 0 }

/-- Memory holding the given 8-byte words, 0 elsewhere, everything readable. -/
def vMem (l : List (Nat × Nat)) : Mem := fun a =>
  some (match l.find? (fun p => p.1 ≤ a.toNat && a.toNat < p.1 + 8) with
    | some (b, v) => BitVec.ofNat 8 (v / 256 ^ (a.toNat - b))
    | none => 0)

/-- A world: argument values and memory words; arguments are stored from address 0x100. -/
def vWorld (args : List Nat) (l : List (Nat × Nat)) : World :=
  { arg := fun i => BitVec.ofNat 64 (args.getD i 0)
    mem := vMem ((args.zipIdx.map fun (v, i) => (0x100 + i * 8, v)) ++ l) }

/-- Start state: R1 points to the arguments, the other registers and what helpers leave behind hold junk. -/
def vSt : St := { regs := fun r => if r = 1 then 0x100 else 0xBAD0000, stack := fun _ => 0xBAD1111, orc := fun _ => 0xBAD2222 }

/-- The program for `e` is accepted and answers `y`, although the value of `e` is `x` and no NULL pointer is met. -/
def Wrong (o : Opts) (w : World) (e : Expr) (x y : BitVec 64) : Prop :=
  x ≠ y ∧ ArgsAt o w (vSt.regs 1) ∧ WordReadable w.mem ∧ meaning o w e = some (x, false) ∧
  ∃ p, compileFilter o e = .ok p ∧ p.run w.mem 200 0 vSt = some y

def runOf (o : Opts) (w : World) (e : Expr) : Option (BitVec 64) :=
  match compileFilter o e with
  | .ok p => p.run w.mem 200 0 vSt
  | .error _ => none

instance (o : Opts) (w : World) (a : BitVec 64) : Decidable (ArgsAt o w a) := by unfold ArgsAt; infer_instance

theorem wrong_of {o : Opts} {args : List Nat} {l : List (Nat × Nat)} {e : Expr} {x y : BitVec 64}
    (h : x ≠ y ∧ ArgsAt o (vWorld args l) 0x100 ∧ meaning o (vWorld args l) e = some (x, false) ∧
      runOf o (vWorld args l) e = some y) : Wrong o (vWorld args l) e x y := by
  obtain ⟨h1, h2, h3, h4⟩ := h
  refine ⟨h1, h2, fun a s _ _ => bytes_total (fun _ => rfl) 8 a, h3, ?_⟩
  unfold runOf at h4
  cases hp : compileFilter o e with
  | error z => rw [hp] at h4; simp at h4
  | ok p => rw [hp] at h4; exact ⟨p, rfl, h4⟩

abbrev V (s : String) : Expr := .name s
abbrev N (s : String) : Expr := .num s.toList

/-- `n == 0x80000000` for a 4-byte `n` is never true: the immediate is sign-extended. -/
theorem high_bit_literal_violated :
    Wrong (vOpts .direct) (vWorld [0, 0, 0x80000000] [])
      (.bin .eq (V "n") (N "0x80000000")) 1 0 :=
  wrong_of (by decide +kernel)

/-- `c + 1 > 255` for a 1-byte `c` is never true: the sum is cut to the argument's width. -/
theorem narrow_sum_violated :
    Wrong (vOpts .direct) (vWorld [0, 0, 0, 0, 255] [])
      (.bin .gt (.bin .add (V "c") (N "1")) (N "255")) 1 0 :=
  wrong_of (by decide +kernel)

/-- `c == 300` for a 1-byte `c` is true for 44: the literal is cut to the argument's width. -/
theorem masked_literal_violated :
    Wrong (vOpts .direct) (vWorld [0, 0, 0, 0, 44] [])
      (.bin .eq (V "c") (N "300")) 0 1 :=
  wrong_of (by decide +kernel)

/-- A bit-field of 40 bits keeps the bits of its neighbours: the mask does not fit an immediate. -/
theorem wide_bitfield_violated :
    Wrong (vOpts .direct) (vWorld [0x1000] [(0x1018, 0xFF0000000001)])
      (.bin .eq (.arrow (V "p") "wide") (N "1")) 1 0 :=
  wrong_of (by decide +kernel)

/-- `(u64)0` is whatever R0 holds. -/
theorem cast_zero_violated :
    Wrong (vOpts .direct) (vWorld [] [])
      (.bin .eq (.cast (some (.base 4)) (N "0")) (V "k")) 1 0 :=
  wrong_of (by decide +kernel)

/-- A literal kernel address is cut to 32 bits. -/
theorem literal_address_violated :
    Wrong (vOpts .direct) (vWorld [] [(0xffff888000001000, 0x500000000)])
      (.bin .eq (.arrow (.cast (some (.ptr (.base 0))) (N "0xffff888000001000")) "a") (N "5")) 1 0 :=
  wrong_of (by decide +kernel)

/-- `p->a + 1 == 1` with `p->a` = 0: the loaded integer is checked like a pointer and the filter gives up. -/
theorem member_plus_constant_violated :
    Wrong (vOpts .direct) (vWorld [0x1000] [])
      (.bin .eq (.bin .add (.arrow (V "p") "a") (N "1")) (N "1")) 1 0 :=
  wrong_of (by decide +kernel)

/-- A bit-field plus a constant is not extracted. -/
theorem bitfield_plus_constant_violated :
    Wrong (vOpts .direct) (vWorld [0x1000] [(0x1020, 0xFFFFFFFF)])
      (.bin .eq (.bin .add (.arrow (V "p") "bits") (N "1")) (N "32")) 1 0 :=
  wrong_of (by decide +kernel)

/-- `p->arr[1] == 4`: indexing yields the address, the element is never read. -/
theorem index_reads_violated :
    Wrong (vOpts .direct) (vWorld [0x1000] [(0x1020, 0x0605040302010000)])
      (.bin .eq (.index (.arrow (V "p") "arr") (N "1")) (N "4")) 1 0 :=
  wrong_of (by decide +kernel)

/-- `(u64)p->a` reads 8 bytes instead of 4. -/
theorem widening_cast_violated :
    Wrong (vOpts .direct) (vWorld [0x1000] [(0x1000, 0x700000000), (0x1008, 1)])
      (.bin .eq (.cast (some (.base 4)) (.arrow (V "p") "a")) (N "7")) 1 0 :=
  wrong_of (by decide +kernel)

/-- `(u8)(k + n)` is not cut to 8 bits. -/
theorem narrowing_cast_violated :
    Wrong (vOpts .direct) (vWorld [0, 0, 1, 255] [])
      (.bin .eq (.cast (some (.base 1)) (.bin .add (V "k") (V "n"))) (N "0")) 1 0 :=
  wrong_of (by decide +kernel)

/-- The address of an array of 4 bytes is cut to 32 bits. -/
theorem small_array_violated :
    Wrong (vOpts .direct) (vWorld [0x100001000, 0, 0, 0x100001024] [])
      (.bin .eq (.arrow (V "p") "arr") (V "k")) 1 0 :=
  wrong_of (by decide +kernel)

/-- `(p == q) + n` scales `n` by the size of `*p`. -/
theorem bool_scaled_violated :
    Wrong (vOpts .direct) (vWorld [0x1000, 0x1000, 1] [])
      (.bin .eq (.bin .add (.bin .eq (V "p") (V "q")) (V "n")) (N "2")) 1 0 :=
  wrong_of (by decide +kernel)

/-- `n + p` does not scale `n`. -/
theorem int_plus_pointer_violated :
    Wrong (vOpts .direct) (vWorld [0x1000, 0x1064, 1] [])
      (.bin .eq (.bin .add (V "n") (V "p")) (V "q")) 1 0 :=
  wrong_of (by decide +kernel)

/-- `q - p` multiplies `p` by the element size. -/
theorem pointer_difference_violated :
    Wrong (vOpts .direct) (vWorld [0x1000, 0x1064, 1] [])
      (.bin .eq (.bin .sub (V "q") (V "p")) (V "n")) 1 0 :=
  wrong_of (by decide +kernel)

/-- `++p` adds 1. -/
theorem increment_pointer_violated :
    Wrong (vOpts .direct) (vWorld [0x1000, 0x1064] [])
      (.bin .eq (.un .preinc (V "p")) (V "q")) 1 0 :=
  wrong_of (by decide +kernel)

/-- `k / 4294967296` divides by 0. -/
theorem wide_divisor_violated :
    Wrong (vOpts .direct) (vWorld [0, 0, 0, 0x500000000] [])
      (.bin .eq (.bin .div (V "k") (N "4294967296")) (N "5")) 1 0 :=
  wrong_of (by decide +kernel)

/-- `k == 4294967296` compares with 0. -/
theorem wide_literal_violated :
    Wrong (vOpts .direct) (vWorld [0, 0, 5, 0x100000000] [])
      (.bin .eq (V "k") (N "4294967296")) 1 0 :=
  wrong_of (by decide +kernel)

/-- A member 40000 bytes into a struct is read at a negative offset. -/
theorem far_member_violated :
    Wrong (vOpts .direct) (vWorld [0x10000] [(0x19C40, 5)])
      (.bin .eq (.arrow (V "p") "far") (N "5")) 1 0 :=
  wrong_of (by decide +kernel)

/-- `n ? 1 : p->next->a + n` evaluates the arm that is not taken and gives up on its NULL pointer. -/
theorem cond_arm_violated :
    Wrong (vOpts .direct) (vWorld [0, 0, 1] [])
      (.bin .eq (.cond (V "n") (N "1") (.bin .add (.arrow (.arrow (V "p") "next") "a") (V "n"))) (N "1")) 1 0 :=
  wrong_of (by decide +kernel)

/-- C11: with four values in registers, the helper call of `p->a` destroys one of them. -/
theorem live_values_lost_probe_violated :
    Wrong (vOpts .probe) (vWorld [0x1000, 0, 1, 2] [(0x1000, 0x700000000)])
      (.bin .eq (.bin .add (.bin .mul (V "n") (V "k")) (.bin .add (.bin .mul (V "n") (V "k")) (.bin .add (.bin .mul (V "n") (V "k")) (.bin .mul (V "k") (.arrow (V "p") "a"))))) (N "20")) 1 0 :=
  wrong_of (by decide +kernel)

/-- C11: the same with `bpf_rdonly_cast`. -/
theorem live_values_lost_core_violated :
    Wrong (vOpts .core) (vWorld [0x1000, 0, 1, 2] [(0x1000, 0x700000000)])
      (.bin .eq (.bin .add (.bin .mul (V "n") (V "k")) (.bin .add (.bin .mul (V "n") (V "k")) (.bin .add (.bin .mul (V "n") (V "k")) (.bin .mul (V "k") (.arrow (V "p") "a"))))) (N "20")) 1 0 :=
  wrong_of (by decide +kernel)

/-- C07: `p->next->a == 1 || n == 2` is true when `p->next` is NULL and `n` is 0. -/
theorem oror_null_violated :
    ∃ p, compileFilter (vOpts .direct) (.bin .oror (.bin .eq (.arrow (.arrow (V "p") "next") "a") (N "1"))
      (.bin .eq (V "n") (N "2"))) = .ok p ∧
    (∃ x, meaning (vOpts .direct) (vWorld [0x1000, 0, 0] []) (.bin .oror (.bin .eq (.arrow (.arrow (V "p") "next") "a") (N "1"))
      (.bin .eq (V "n") (N "2"))) = some (x, true)) ∧
    p.run (vWorld [0x1000, 0, 0] []).mem 200 0 vSt = some 1 :=
  ⟨_, rfl, ⟨0, by decide +kernel⟩, by decide +kernel⟩

/-- C07: with `bpf_rdonly_cast`, `(*pp)->a == 0` is true when `*pp` is NULL: the pointer is not checked. -/
theorem indirect_null_core_violated :
    ∃ p, compileFilter (vOpts .core) (.bin .eq (.arrow (.indir (V "pp")) "a") (N "0")) = .ok p ∧
    (∃ x, meaning (vOpts .core) (vWorld [0, 0, 0, 0, 0, 0x3000] []) (.bin .eq (.arrow (.indir (V "pp")) "a") (N "0"))
      = some (x, true)) ∧
    p.run (vWorld [0, 0, 0, 0, 0, 0x3000] []).mem 200 0 vSt = some 1 :=
  ⟨_, rfl, ⟨1, by decide +kernel⟩, by decide +kernel⟩

/-- C16: `n == -1` for a 4-byte `n` that is 0xFFFFFFFF is false, although the literal is cut to 4 bytes. -/
theorem minus_one_violated :
    ∃ p, compileFilter (vOpts .direct) (.bin .eq (V "n") (.un .minus (N "1"))) = .ok p ∧
    p.run (vWorld [0, 0, 0xFFFFFFFF] []).mem 200 0 vSt = some 0 :=
  ⟨_, rfl, by decide +kernel⟩

/-- `k == 1 << -1` makes the compiler panic. -/
theorem negative_shift_panics_violated :
    compileFilter (vOpts .direct) (.bin .eq (V "k") (.bin .lsh (N "1") (.un .minus (N "1")))) = .error .panic := by
  decide +kernel

/-- The address of a cast is accepted although it designates no object. -/
theorem address_of_cast_violated :
    (∃ p, compileFilter (vOpts .direct) (.bin .eq (.addr (.cast (some (.base 4)) (.arrow (V "p") "a"))) (V "k")) = .ok p) ∧
    ∀ w, meaning (vOpts .direct) w (.bin .eq (.addr (.cast (some (.base 4)) (.arrow (V "p") "a"))) (V "k")) = none := by
  refine ⟨⟨_, rfl⟩, fun w => ?_⟩
  rfl

/-- In core mode the member offset is dropped when a struct-typed member is read (as an output expression):
`p->inner` at offset 48 gives the word at offset 0. -/
theorem struct_member_core_violated :
    ∃ p st', compileEval (vOpts .core) [8, 9] false (.arrow (V "p") "inner") = .ok p ∧
      exec (vWorld [0x1000] [(0x1000, 11), (0x1030, 22)]).mem p.code { vSt with regs := fun r => if r = 9 then 0x100 else 0 }
        = .done st' ∧ st'.regs p.reg = 11 :=
  ⟨_, _, rfl, rfl, by decide +kernel⟩

end Bpfsnoop.Cc
