import Verif.Props.CcEval

/-
Register budget: an expression that can be compiled with the registers R6 to R8 only is compiled to the same
code when all registers may be used.
-/
namespace Bpfsnoop.Cc

/-- The compiler of the code: `Alloc` may go down to R0. -/
def Opts.low (o : Opts) : Opts := { o with lo := 0 }

/-- Whatever `x` produces, `y` produces. -/
def Ref {α : Type} (x y : CM α) : Prop := ∀ s r, x s = .ok r → y s = .ok r

theorem Ref.refl {α : Type} (x : CM α) : Ref x x := fun _ _ h => h

theorem Ref.bind {α β : Type} {x y : CM α} {f g : α → CM β} (h : Ref x y) (hf : ∀ a, Ref (f a) (g a)) :
    Ref (x >>= f) (y >>= g) := by
  rintro s ⟨b, s2, c⟩ hr
  obtain ⟨a, s1, c1, c2, h1, h2, rfl⟩ := bind_ok hr
  have h1' := h _ _ h1
  have h2' := hf a _ _ h2
  simp only [Bind.bind, h1', h2']

theorem Ref.capture {α : Type} {x y : CM α} (h : Ref x y) : Ref (capture x) (capture y) := by
  rintro s ⟨⟨a, cc⟩, s2, c⟩ hr
  obtain ⟨h1, rfl⟩ := capture_ok hr
  simp only [Cc.capture, h _ _ h1]

theorem ref_alloc (o : Opts) : Ref (allocM o) (allocM o.low) := by
  rintro s ⟨r, s2, c⟩ h
  obtain ⟨u, hu, rfl, rfl⟩ := allocM_ok h
  simp only [allocM, Opts.low, alloc_lo _ _ _ _ hu]

theorem coreLoop_low (o : Opts) (reg : Nat) : ∀ offs, coreLoop o.low reg offs = coreLoop o reg offs := by
  intro offs
  induction offs with
  | nil => rfl
  | cons x r ih => simp only [coreLoop, ih]; rfl

theorem chain_low (o : Opts) (offs : List Off) (reg : Nat) :
    emitOffsetChain o.low offs reg = emitOffsetChain o offs reg := by
  unfold emitOffsetChain
  split
  · rfl
  · show (match o.mode with | .core => _ | .direct => _ | .probe => _) = _
    cases o.mode with
    | core => simp only [emitCoreRead, coreLoop_low]; rfl
    | direct => rfl
    | probe => rfl

theorem ref_materialize (o : Opts) (v : Val) : Ref (materialize o v) (materialize o.low v) := by
  cases v with
  | mat r t m => exact Ref.refl _
  | const n t => exact Ref.bind (ref_alloc o) fun _ => Ref.refl _
  | pend b offs t m =>
    refine Ref.bind (ref_alloc o) fun r => Ref.bind (Ref.refl _) fun _ => Ref.bind ?_ fun _ => Ref.refl _
    rw [chain_low]
    exact Ref.refl _
  | enumMaybe s t => exact Ref.refl _

theorem ref_binRun (o : Opts) (l r : Val) (k : Nat → Option Ty → Nat → List Insn) :
    Ref (binRun o l r k) (binRun o.low l r k) :=
  Ref.bind (ref_materialize o l) fun _ => Ref.bind (ref_materialize o r) fun _ => Ref.refl _

theorem ref_unRun (o : Opts) (v : Val) (k : Nat → List Insn) : Ref (unRun o v k) (unRun o.low v k) :=
  Ref.bind (ref_materialize o v) fun _ => Ref.refl _

theorem checkCalc_low (o : Opts) (v : Val) : checkCalc o.low v = checkCalc o v := by
  cases v <;> rfl

/-- Two checks, then `x`. -/
theorem ref_check2 {o : Opts} {l r : Val} {x y : CM Val} (h : Ref x y) :
    Ref (do checkCalc o l; checkCalc o r; x) (do checkCalc o.low l; checkCalc o.low r; y) := by
  rw [checkCalc_low, checkCalc_low]
  exact Ref.bind (Ref.refl _) fun _ => Ref.bind (Ref.refl _) fun _ => h

theorem ref_check1 {o : Opts} {l : Val} {x y : CM Val} (h : Ref x y) :
    Ref (do checkCalc o l; x) (do checkCalc o.low l; y) := by
  rw [checkCalc_low]
  exact Ref.bind (Ref.refl _) fun _ => h

theorem ref_addVals (o : Opts) (l r : Val) : Ref (addVals o l r) (addVals o.low l r) := by
  cases l <;> cases r <;> first
    | exact Ref.refl _
    | exact ref_check2 (Ref.refl _)
    | exact ref_check2 (ref_binRun o _ _ _)

theorem ref_subVals (o : Opts) (l r : Val) : Ref (subVals o l r) (subVals o.low l r) := by
  cases l <;> cases r <;> first
    | exact Ref.refl _
    | exact ref_check2 (Ref.refl _)
    | exact ref_check2 (ref_binRun o _ _ _)

theorem ref_mulVals (o : Opts) (l r : Val) : Ref (mulVals o l r) (mulVals o.low l r) := by
  cases l <;> cases r <;> first
    | exact Ref.refl _
    | exact ref_check2 (ref_binRun o _ _ _)

theorem ref_ite {α : Type} {p : Prop} [Decidable p] {x y x' y' : CM α} (h1 : Ref x x') (h2 : Ref y y') :
    Ref (if p then x else y) (if p then x' else y') := by
  split
  · exact h1
  · exact h2

theorem ref_divVals (o : Opts) (l r : Val) : Ref (divVals o l r) (divVals o.low l r) := by
  cases l <;> cases r <;> first
    | exact Ref.refl _
    | exact ref_ite (Ref.refl _) (ref_check1 (ref_unRun o _ _))
    | exact ref_check2 (ref_binRun o _ _ _)

theorem ref_modVals (o : Opts) (l r : Val) : Ref (modVals o l r) (modVals o.low l r) := by
  cases l <;> cases r <;> first
    | exact Ref.refl _
    | exact ref_ite (Ref.refl _) (ref_check1 (ref_unRun o _ _))
    | exact ref_check2 (ref_binRun o _ _ _)

theorem ref_bitVals (o : Opts) (op : Alu) (l r : Val) : Ref (bitVals o op l r) (bitVals o.low op l r) := by
  cases l <;> cases r <;> first
    | exact Ref.refl _
    | exact ref_check1 (ref_unRun o _ _)
    | exact ref_check2 (ref_binRun o _ _ _)

theorem ref_shiftVals (o : Opts) (left : Bool) (l r : Val) : Ref (shiftVals o left l r) (shiftVals o.low left l r) := by
  cases l <;> cases r <;> first
    | exact Ref.refl _
    | exact ref_check1 (Ref.bind (ref_materialize o _) fun _ => Ref.refl _)
    | exact ref_check2 (ref_binRun o _ _ _)

theorem ref_cmpVals (o : Opts) (c : Cmp) (l r : Val) : Ref (cmpVals o c l r) (cmpVals o.low c l r) := by
  unfold cmpVals
  show Ref _ (match adjustNums o.Γ l r with
    | (.const a _, .const b _) => _
    | (l, .const b _) => _
    | (l, r) => _)
  generalize adjustNums o.Γ l r = p
  obtain ⟨a, b⟩ := p
  cases a <;> cases b <;> first
    | exact Ref.refl _
    | exact ref_check1 (ref_unRun o _ _)
    | exact ref_check2 (ref_binRun o _ _ _)

theorem ref_andand (o : Opts) (l r : Val) : Ref (andandVals o l r) (andandVals o.low l r) := by
  cases l <;> cases r <;> first
    | exact Ref.refl _
    | exact ref_check1 (ref_ite (Ref.refl _) (ref_unRun o _ _))
    | exact ref_check2 (ref_binRun o _ _ _)

theorem ref_oror (o : Opts) (l r : Val) : Ref (ororVals o l r) (ororVals o.low l r) := by
  cases l <;> cases r <;> first
    | exact Ref.refl _
    | exact ref_check1 (ref_ite (Ref.refl _) (ref_unRun o _ _))
    | exact ref_check2 (ref_binRun o _ _ _)

theorem ref_binVals (o : Opts) (op : Bop) (l r : Val) : Ref (binVals o op l r) (binVals o.low op l r) := by
  refine Ref.bind (by cases l <;> cases r <;> exact Ref.refl _) fun p => ?_
  obtain ⟨a, b⟩ := p
  cases op
  · exact ref_addVals o a b
  · exact ref_subVals o a b
  · exact ref_mulVals o a b
  · exact ref_divVals o a b
  · exact ref_modVals o a b
  · exact ref_bitVals o _ a b
  · exact ref_bitVals o _ a b
  · exact ref_bitVals o _ a b
  · exact ref_shiftVals o _ a b
  · exact ref_shiftVals o _ a b
  · exact ref_cmpVals o _ a b
  · exact ref_cmpVals o _ a b
  · exact ref_cmpVals o _ a b
  · exact ref_cmpVals o _ a b
  · exact ref_cmpVals o _ a b
  · exact ref_cmpVals o _ a b
  · exact ref_andand o a b
  · exact ref_oror o a b

theorem ref_unVals (o : Opts) (op : Uop) (v : Val) : Ref (unVals o op v) (unVals o.low op v) := by
  cases op <;> cases v <;> simp only [unVals] <;> first
    | exact Ref.refl _
    | exact ref_unRun o _ _
    | exact ref_check1 (ref_unRun o _ _)

theorem ref_condArm (o : Opts) (rc : Nat) (v : Val) : Ref (condArm o rc v) (condArm o.low rc v) := by
  cases v <;> first
    | exact Ref.refl _
    | exact Ref.bind (ref_materialize o _) fun _ => Ref.refl _

theorem ref_condVals (o : Opts) (c l r : Val) : Ref (condVals o c l r) (condVals o.low c l r) := by
  unfold condVals
  rw [checkCalc_low, checkCalc_low, checkCalc_low]
  refine Ref.bind (Ref.refl _) fun _ => Ref.bind (Ref.refl _) fun _ => Ref.bind (Ref.refl _) fun _ => ?_
  cases c <;> first
    | exact Ref.refl _
    | exact Ref.bind (ref_materialize o _) fun _ => Ref.bind (Ref.capture (ref_condArm o _ _)) fun _ =>
        Ref.bind (Ref.capture (ref_condArm o _ _)) fun _ => Ref.refl _

theorem ref_evaluate (o : Opts) : ∀ e, Ref (evaluate o e) (evaluate o.low e) := by
  intro e
  induction e with
  | name s => exact Ref.refl _
  | num t => exact Ref.refl _
  | arrow e f ih => exact Ref.bind ih fun _ => Ref.refl _
  | dot e f ih => exact Ref.bind ih fun _ => Ref.refl _
  | index e i ih _ => exact Ref.bind ih fun _ => Ref.refl _
  | indir e ih => exact Ref.bind ih fun _ => Ref.refl _
  | addr e ih => exact Ref.bind ih fun _ => Ref.refl _
  | cast t e ih =>
    cases e <;> first
      | exact Ref.refl _
      | exact Ref.bind ih fun _ => Ref.refl _
  | un op e ih => exact Ref.bind ih fun _ => ref_unVals o op _
  | bin op l r ihl ihr => exact Ref.bind ihl fun _ => Ref.bind ihr fun _ => ref_binVals o op _ _
  | cond c l r ihc ihl ihr =>
    exact Ref.bind ihc fun _ => Ref.bind ihl fun _ => Ref.bind ihr fun _ => ref_condVals o _ _ _
  | unsup => exact Ref.refl _

/-- The compiler makes the same program when it may use more registers. -/
theorem compileFilter_low {o : Opts} {e : Expr} {p : Prog} (h : compileFilter o e = .ok p) :
    compileFilter o.low e = .ok p := by
  unfold compileFilter at h ⊢
  split at h
  · simp at h
  · rename_i ht
    rw [if_neg ht]
    cases he : evaluate o e initFilter with
    | error x => rw [he] at h; simp at h
    | ok q =>
      rw [he] at h
      rw [ref_evaluate o e _ _ he]
      exact h

end Bpfsnoop.Cc
