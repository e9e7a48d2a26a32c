import Verif.Props.CcViolate

/-
C02: folding of constants at compile time against evaluation of the same operator at run time.
-/
namespace Bpfsnoop.Cc

theorem cm_bind_run {α β : Type} {x : CM α} {f : α → CM β} {s s1 : CSt} {a : α} {c1 : List Insn}
    (h : x s = .ok (a, s1, c1)) :
    (x >>= f) s = match f a s1 with
      | Except.error e => Except.error e
      | Except.ok (b, s2, c2) => Except.ok (b, s2, c1 ++ c2) := by
  change (match x s with
    | Except.error e => (Except.error e : Except Err (β × CSt × List Insn))
    | Except.ok (a, s1, c1) =>
      match f a s1 with
      | Except.error e => Except.error e
      | Except.ok (b, s2, c2) => Except.ok (b, s2, c1 ++ c2)) = _
  rw [h]

/-- What the compiler does with a binary operator whose operands are constants: it folds to `onConsts`, rejects
division by zero, and panics on negative shift counts. -/
theorem fold_exact {o : Opts} {op : Bop} {e1 e2 : Expr} {a b : BitVec 64} {t1 t2 : Option Ty} {s s1 s2 : CSt}
    {c1 c2 : List Insn} (h1 : evaluate o e1 s = .ok (.const a t1, s1, c1))
    (h2 : evaluate o e2 s1 = .ok (.const b t2, s2, c2)) :
    (∀ n, onConsts op a b = some n → evaluate o (.bin op e1 e2) s = .ok (.const n none, s2, c1 ++ c2)) ∧
    (onConsts op a b = none → evaluate o (.bin op e1 e2) s =
      .error (if op = .lsh ∨ op = .rsh then .panic else .reject)) := by
  have key : evaluate o (.bin op e1 e2) s =
      match binVals o op (.const a t1) (.const b t2) s2 with
      | .error x => .error x
      | .ok (v, s3, c3) => .ok (v, s3, c1 ++ (c2 ++ c3)) := by
    simp only [evaluate]
    rw [cm_bind_run h1, cm_bind_run h2]
    cases binVals o op (.const a t1) (.const b t2) s2 with
    | error x => rfl
    | ok q => rfl
  have val : binVals o op (.const a t1) (.const b t2) s2 =
      match onConsts op a b with
      | some n => .ok (.const n none, s2, [])
      | none => .error (if op = .lsh ∨ op = .rsh then .panic else .reject) := by
    have e0 : binVals o op (.const a t1) (.const b t2) s2 =
      (match op with
        | .add => addVals o (.const a t1) (.const b t2) | .sub => subVals o (.const a t1) (.const b t2)
        | .mul => mulVals o (.const a t1) (.const b t2) | .div => divVals o (.const a t1) (.const b t2)
        | .mod => modVals o (.const a t1) (.const b t2) | .and => bitVals o .and (.const a t1) (.const b t2)
        | .or => bitVals o .or (.const a t1) (.const b t2) | .xor => bitVals o .xor (.const a t1) (.const b t2)
        | .lsh => shiftVals o true (.const a t1) (.const b t2) | .rsh => shiftVals o false (.const a t1) (.const b t2)
        | .eq => cmpVals o .eq (.const a t1) (.const b t2) | .ne => cmpVals o .ne (.const a t1) (.const b t2)
        | .lt => cmpVals o .lt (.const a t1) (.const b t2) | .le => cmpVals o .le (.const a t1) (.const b t2)
        | .gt => cmpVals o .gt (.const a t1) (.const b t2) | .ge => cmpVals o .ge (.const a t1) (.const b t2)
        | .andand => andandVals o (.const a t1) (.const b t2) | .oror => ororVals o (.const a t1) (.const b t2)) s2 := by
      have : resolveEnums o (.const a t1) (.const b t2) s2 = .ok ((.const a t1, .const b t2), s2, []) := rfl
      unfold binVals
      rw [cm_bind_run this]
      simp only [List.nil_append]
      cases op <;> (simp only; split <;> rename_i hh <;> rw [hh])
    rw [e0]
    cases op with
    | add => rfl
    | sub => rfl
    | mul => rfl
    | div =>
      simp only [divVals, onConsts]
      by_cases hb : b = 0
      · rw [if_pos hb, if_pos hb]; rfl
      · rw [if_neg hb, if_neg hb]; rfl
    | mod =>
      simp only [modVals, onConsts]
      by_cases hb : b = 0
      · rw [if_pos hb, if_pos hb]; rfl
      · rw [if_neg hb, if_neg hb]; rfl
    | and => rfl
    | or => rfl
    | xor => rfl
    | lsh =>
      simp only [shiftVals, foldShift, onConsts]
      cases hb : b.slt 0
      · rfl
      · rfl
    | rsh =>
      simp only [shiftVals, foldShift, onConsts]
      cases hb : b.slt 0
      · rfl
      · rfl
    | eq =>
      have : b2n (a == b) = if a = b then 1 else 0 := by
        by_cases hb : a = b
        · subst hb; rw [if_pos rfl, BEq.rfl]; rfl
        · rw [if_neg hb, beq_eq_false_iff_ne.mpr hb]; rfl
      show Except.ok (Val.const (b2n (a == b)) none, s2, []) = _
      rw [this]; rfl
    | ne =>
      have : b2n (a != b) = if a = b then 0 else 1 := by
        by_cases hb : a = b
        · subst hb; rw [if_pos rfl, bne_self_eq_false]; rfl
        · rw [if_neg hb, bne_iff_ne.mpr hb]; rfl
      show Except.ok (Val.const (b2n (a != b)) none, s2, []) = _
      rw [this]; rfl
    | lt => rfl
    | le => rfl
    | gt => rfl
    | ge => rfl
    | andand =>
      have : b2n (a != 0 && b != 0) = if a ≠ 0 ∧ b ≠ 0 then 1 else 0 := by
        by_cases h : a ≠ 0 ∧ b ≠ 0
        · rw [if_pos h, bne_iff_ne.mpr h.1, bne_iff_ne.mpr h.2]; rfl
        · rw [if_neg h]
          have : (a != 0 && b != 0) = false := by
            rw [Bool.eq_false_iff]
            intro hh
            rw [Bool.and_eq_true, bne_iff_ne, bne_iff_ne] at hh
            exact h hh
          rw [this]; rfl
      show Except.ok (Val.const (b2n (a != 0 && b != 0)) none, s2, []) = _
      rw [this]; rfl
    | oror =>
      have : b2n (a != 0 || b != 0) = if a ≠ 0 ∨ b ≠ 0 then 1 else 0 := by
        by_cases h : a ≠ 0 ∨ b ≠ 0
        · have : (a != 0 || b != 0) = true := by
            rw [Bool.or_eq_true, bne_iff_ne, bne_iff_ne]; exact h
          rw [if_pos h, this]; rfl
        · rw [if_neg h]
          have : (a != 0 || b != 0) = false := by
            rw [Bool.eq_false_iff]
            intro hh
            rw [Bool.or_eq_true, bne_iff_ne, bne_iff_ne] at hh
            exact h hh
          rw [this]; rfl
      show Except.ok (Val.const (b2n (a != 0 || b != 0)) none, s2, []) = _
      rw [this]; rfl
  rw [key, val]
  constructor
  · intro n hn
    rw [hn]
    simp
  · intro hn
    rw [hn]

/-- Two arguments `x` and `y` of an 8-byte integer type. -/
def kOpts (mode : Mode) : Opts :=
  { Γ := { kind := fun _ => .int, size := fun _ => some 8, member := fun _ _ => none, castId := fun _ => none }
    vars := [("x", .base 0), ("y", .base 0)], mode := mode, reserved := 8, fastcall := false, lo := 0 }

/-- The code for `x op y` computes `v` when `x` is `a` and `y` is `b`. -/
def RunsTo (mode : Mode) (op : Bop) (a b v : BitVec 64) : Prop :=
  ∃ p, compileEval (kOpts mode) [8, 9] false (.bin op (V "x") (V "y")) = .ok p ∧
    ∀ m : Mem, ∀ st : St, WordReadable m → load m 8 (st.regs 9) = a → load m 8 (st.regs 9 + 8) = b →
      ∃ st', exec m p.code st = .done st' ∧ st'.regs p.reg = v

/-- What `x op y` computes at run time. -/
theorem runs_to (mode : Mode) (op : Bop) (a b v : BitVec 64) (hv : onValues op none none a b = some v) :
    RunsTo mode op a b v := by
  have hc : ∃ p, compileEval (kOpts mode) [8, 9] false (.bin op (V "x") (V "y")) = .ok p ∧
      (∃ q, compileEval (kOpts mode).few [8, 9] false (.bin op (V "x") (V "y")) = .ok q) ∧ Exact p.code := by
    cases mode <;> cases op <;> exact ⟨_, rfl, ⟨_, rfl⟩, by decide +kernel⟩
  obtain ⟨p, h1, h2, h3⟩ := hc
  refine ⟨p, h1, fun m st hm ha hb => ?_⟩
  obtain ⟨σ, hσ, hu, hn⟩ : ∃ σ, shape (kOpts mode) (.bin op (V "x") (V "y")) = some σ ∧
      σ.usable (kOpts mode) = true ∧ σ.isNum = false := by
    cases mode <;> cases op <;> exact ⟨_, rfl, rfl, rfl⟩
  have hargs : ArgsAt (kOpts mode) { arg := fun i => if i = 0 then a else b, mem := m } (st.regs 9) := by
    intro i hi
    have hi : i < 2 := hi
    have : i = 0 ∨ i = 1 := by omega
    rcases this with rfl | rfl
    · simp [ha]
    · simp only [Nat.one_mul]
      exact hb.symm
  obtain ⟨x, nul, hx, hd, _⟩ := eval_computes_partial rfl h1 (.inr h2) hσ hu hn h3 hargs hm
  have hmean : meaning (kOpts mode) { arg := fun i => if i = 0 then a else b, mem := m } (.bin op (V "x") (V "y"))
      = some (v, false) := by
    have hstr : ∀ t, stride (kOpts mode).Γ (some (.base t)) = none := fun _ => rfl
    have h : ceval (kOpts mode) { arg := fun i => if i = 0 then a else b, mem := m } (.bin op (V "x") (V "y"))
        = (binC (kOpts mode).Γ m op (.rv a (some (.base 0)) false) (.rv b (some (.base 0)) false)).map fun z => (z, false) := by
      show Option.bind (binC (kOpts mode).Γ m op (.rv a (some (.base 0)) false) (.rv b (some (.base 0)) false)) (fun z => some (z, false)) = _
      cases binC (kOpts mode).Γ m op (.rv a (some (.base 0)) false) (.rv b (some (.base 0)) false) <;> rfl
    have h2 : binC (kOpts mode).Γ m op (.rv a (some (.base 0)) false) (.rv b (some (.base 0)) false)
        = some (.rv v (binTy (kOpts mode).Γ op false (some (.base 0)) (some (.base 0))) false) := by
      simp only [binC, resolve, Option.bind_eq_bind, Option.bind_some, CV.value, CV.ty, hstr, hv, CV.isNum]
    simp only [meaning, h, h2, Option.map_some, Option.bind_some, CV.value]
  rw [hmean] at hx
  simp only [Option.some.injEq, Prod.mk.injEq] at hx
  obtain ⟨rfl, rfl⟩ := hx
  obtain ⟨st', h4, h5, _⟩ := hd rfl
  exact ⟨st', h4, h5⟩

/-- The operands for which signed folding and unsigned evaluation agree: always for + - * & | ^ == != && ||;
operands of the same sign for < <= > >=; non-negative operands for / and %; counts 0 to 63 for <<, and
also a non-negative left operand for >>. -/
def Agree (op : Bop) (a b : BitVec 64) : Prop :=
  match op with
  | .div | .mod => 0 ≤ a.toInt ∧ 0 < b.toInt
  | .lsh => 0 ≤ b.toInt ∧ b.toInt < 64
  | .rsh => 0 ≤ a.toInt ∧ 0 ≤ b.toInt ∧ b.toInt < 64
  | .lt | .le | .gt | .ge => (0 ≤ a.toInt ↔ 0 ≤ b.toInt)
  | _ => True

theorem msb_of_nonneg {a : BitVec 64} (h : 0 ≤ a.toInt) : a.msb = false := by
  rw [BitVec.msb_eq_toInt]; simp; exact h

theorem msb_eq {a b : BitVec 64} (h : 0 ≤ a.toInt ↔ 0 ≤ b.toInt) : a.msb = b.msb := by
  rw [BitVec.msb_eq_toInt, BitVec.msb_eq_toInt]
  simp only [decide_eq_decide]
  omega

/-- On those operands the two specifications agree. -/
theorem agree_values {op : Bop} {a b : BitVec 64} (h : Agree op a b) : onConsts op a b = onValues op none none a b := by
  cases op with
  | div =>
    have hb : b ≠ 0 := by rintro rfl; exact absurd h.2 (by decide)
    simp only [onConsts, onValues]
    rw [if_neg hb, if_neg hb, BitVec.sdiv_eq, msb_of_nonneg h.1, msb_of_nonneg (Int.le_of_lt h.2)]
    rfl
  | mod =>
    have hb : b ≠ 0 := by rintro rfl; exact absurd h.2 (by decide)
    simp only [onConsts, onValues]
    rw [if_neg hb, if_neg hb, BitVec.srem_eq, msb_of_nonneg h.1, msb_of_nonneg (Int.le_of_lt h.2)]
  | lsh =>
    have hs : b.slt 0 = false := by
      simp only [BitVec.slt, decide_eq_false_iff_not]
      have := h.1
      simp; omega
    have hn : b.toNat % 64 = b.toNat := by
      apply Nat.mod_eq_of_lt
      have := BitVec.toInt_eq_toNat_of_msb (msb_of_nonneg h.1)
      have h2 := h.2
      omega
    simp only [onConsts, onValues, hs, hn]
    rfl
  | rsh =>
    have hs : b.slt 0 = false := by
      simp only [BitVec.slt, decide_eq_false_iff_not]
      have := h.2.1
      simp; omega
    have hn : b.toNat % 64 = b.toNat := by
      apply Nat.mod_eq_of_lt
      have := BitVec.toInt_eq_toNat_of_msb (msb_of_nonneg h.2.1)
      have h2 := h.2.2
      omega
    simp only [onConsts, onValues, hs, hn]
    rw [BitVec.sshiftRight_eq_of_msb_false (msb_of_nonneg h.1)]
    rfl
  | lt =>
    simp only [onConsts, onValues, BitVec.slt_eq_ult_of_msb_eq (msb_eq h)]
    simp only [BitVec.ult, decide_eq_true_eq]
  | le =>
    simp only [onConsts, onValues, BitVec.sle_eq_ule_of_msb_eq (msb_eq h)]
    simp only [BitVec.ule, decide_eq_true_eq]
  | gt =>
    simp only [onConsts, onValues, BitVec.slt_eq_ult_of_msb_eq (msb_eq h).symm]
    simp only [BitVec.ult, decide_eq_true_eq, GT.gt]
  | ge =>
    simp only [onConsts, onValues, BitVec.sle_eq_ule_of_msb_eq (msb_eq h).symm]
    simp only [BitVec.ule, decide_eq_true_eq, GE.ge]
  | _ => rfl

/-- C02: on those operands, a constant expression folds to the value the code for the same operator computes. -/
theorem fold_agrees_partial {o : Opts} {op : Bop} {e1 e2 : Expr} {a b : BitVec 64} {t1 t2 : Option Ty} {s s1 s2 : CSt}
    {c1 c2 : List Insn} (h1 : evaluate o e1 s = .ok (.const a t1, s1, c1))
    (h2 : evaluate o e2 s1 = .ok (.const b t2, s2, c2)) (h : Agree op a b) :
    ∃ n, evaluate o (.bin op e1 e2) s = .ok (.const n none, s2, c1 ++ c2) ∧ ∀ mode, RunsTo mode op a b n := by
  have hsome : ∃ n, onValues op none none a b = some n := by cases op <;> exact ⟨_, rfl⟩
  obtain ⟨n, hn⟩ := hsome
  refine ⟨n, (fold_exact h1 h2).1 n ?_, fun mode => runs_to mode op a b n hn⟩
  rw [agree_values h, hn]

/-- Memory with `a` at address 0 and `b` at address 8. -/
def twoWords (a b : BitVec 64) : Mem := fun x =>
  some (BitVec.ofNat 8 ((if x.toNat < 8 then a else b).toNat / 256 ^ (x.toNat % 8)))

theorem twoWords_load (a b : BitVec 64) : load (twoWords a b) 8 0 = a ∧ load (twoWords a b) 8 8 = b := by
  have key : ∀ x : BitVec 64, BitVec.ofNat 64 (x.toNat / 1 % 256 + 256 * (x.toNat / 256 % 256 + 256 * (x.toNat / 65536 % 256 +
      256 * (x.toNat / 16777216 % 256 + 256 * (x.toNat / 4294967296 % 256 + 256 * (x.toNat / 1099511627776 % 256 +
      256 * (x.toNat / 281474976710656 % 256 + 256 * (x.toNat / 72057594037927936 % 256 + 256 * 0)))))))) = x := by
    intro x
    have : x.toNat / 1 % 256 + 256 * (x.toNat / 256 % 256 + 256 * (x.toNat / 65536 % 256 +
      256 * (x.toNat / 16777216 % 256 + 256 * (x.toNat / 4294967296 % 256 + 256 * (x.toNat / 1099511627776 % 256 +
      256 * (x.toNat / 281474976710656 % 256 + 256 * (x.toNat / 72057594037927936 % 256 + 256 * 0))))))) = x.toNat := by
      have := x.isLt
      omega
    rw [this, BitVec.ofNat_toNat, BitVec.setWidth_eq]
  exact ⟨key a, key b⟩

/-- What the code computes is determined. -/
theorem runs_to_unique {mode : Mode} {op : Bop} {a b v v' : BitVec 64} (h : RunsTo mode op a b v)
    (h' : RunsTo mode op a b v') : v = v' := by
  obtain ⟨p, h1, h2⟩ := h
  obtain ⟨p', h1', h2'⟩ := h'
  rw [h1] at h1'
  obtain rfl := Except.ok.inj h1'
  have hw : WordReadable (twoWords a b) := fun x s _ _ => bytes_total (fun _ => rfl) 8 x
  obtain ⟨s1, e1, r1⟩ := h2 (twoWords a b) ⟨fun _ => 0, fun _ => 0, fun _ => 0⟩ hw (twoWords_load a b).1 (twoWords_load a b).2
  obtain ⟨s2, e2, r2⟩ := h2' (twoWords a b) ⟨fun _ => 0, fun _ => 0, fun _ => 0⟩ hw (twoWords_load a b).1 (twoWords_load a b).2
  rw [e1] at e2
  obtain rfl := Out.done.inj e2
  rw [← r1, ← r2]

/-- C02 fails elsewhere: `-6 / 2`, `-6 % 4`, `-1 < 1`, `-8 >> 1` and `1 << 64` fold to values the code does not
compute. -/
theorem fold_signed_violated (mode : Mode) :
    (∃ n, onConsts .div (-6) 2 = some n ∧ ¬ RunsTo mode .div (-6) 2 n) ∧
    (∃ n, onConsts .mod (-6) 4 = some n ∧ ¬ RunsTo mode .mod (-6) 4 n) ∧
    (∃ n, onConsts .lt (-1) 1 = some n ∧ ¬ RunsTo mode .lt (-1) 1 n) ∧
    (∃ n, onConsts .rsh (-8) 1 = some n ∧ ¬ RunsTo mode .rsh (-8) 1 n) ∧
    (∃ n, onConsts .lsh 1 64 = some n ∧ ¬ RunsTo mode .lsh 1 64 n) := by
  refine ⟨⟨_, rfl, fun h => ?_⟩, ⟨_, rfl, fun h => ?_⟩, ⟨_, rfl, fun h => ?_⟩, ⟨_, rfl, fun h => ?_⟩, ⟨_, rfl, fun h => ?_⟩⟩
  · exact absurd (runs_to_unique h (runs_to mode .div _ _ _ rfl)) (by decide +kernel)
  · exact absurd (runs_to_unique h (runs_to mode .mod _ _ _ rfl)) (by decide +kernel)
  · exact absurd (runs_to_unique h (runs_to mode .lt _ _ _ rfl)) (by decide +kernel)
  · exact absurd (runs_to_unique h (runs_to mode .rsh _ _ _ rfl)) (by decide +kernel)
  · exact absurd (runs_to_unique h (runs_to mode .lsh _ _ _ rfl)) (by decide +kernel)

/-- `7 / 2`: both literals are constants and the operands agree. -/
theorem fold_witness (o : Opts) (s : CSt) :
    evaluate o (N "7") s = .ok (.const 7 none, s, []) ∧ evaluate o (N "2") s = .ok (.const 2 none, s, []) ∧
    Agree .div 7 2 ∧ evaluate o (.bin .div (N "7") (N "2")) s = .ok (.const 3 none, s, []) := by
  refine ⟨rfl, rfl, ⟨by decide, by decide⟩, rfl⟩

end Bpfsnoop.Cc
