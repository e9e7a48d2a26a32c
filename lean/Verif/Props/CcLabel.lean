import Verif.Props.CcAccept
/-
C52: the code of `--output-arg` expressions and their exit labels. This file: the compiler notes that it used the exit label whenever it emits a
jump to it.
-/
namespace Bpfsnoop.Cc

/-- No jump to the exit label. -/
def NoExit (c : List Insn) : Prop := ∀ r, Insn.jexit r ∉ c

/-- An action notes the exit label when it jumps to it, and never forgets. -/
def Lab {α : Type} (x : CM α) : Prop :=
  ∀ s b s' c, x s = .ok (b, s', c) → (s.exitUsed = true → s'.exitUsed = true) ∧ (¬ NoExit c → s'.exitUsed = true)

theorem noExit_append {a b : List Insn} : NoExit (a ++ b) ↔ NoExit a ∧ NoExit b := by
  simp only [NoExit, List.mem_append, not_or]
  exact ⟨fun h => ⟨fun r => (h r).1, fun r => (h r).2⟩, fun h r => ⟨h.1 r, h.2 r⟩⟩

theorem noExit_nil : NoExit [] := by simp [NoExit]

theorem lab_pure {α : Type} (a : α) : Lab (pure a : CM α) := by
  intro s b s' c h
  obtain ⟨_, rfl, rfl⟩ := pure_ok h
  exact ⟨id, fun h => (h noExit_nil).elim⟩

theorem lab_bind {α β : Type} {x : CM α} {f : α → CM β} (hx : Lab x) (hf : ∀ a, Lab (f a)) : Lab (x >>= f) := by
  intro s b s' c h
  obtain ⟨a, s1, c1, c2, h1, h2, rfl⟩ := bind_ok h
  obtain ⟨p1, q1⟩ := hx _ _ _ _ h1
  obtain ⟨p2, q2⟩ := hf a _ _ _ _ h2
  refine ⟨fun h => p2 (p1 h), fun h => ?_⟩
  rw [noExit_append, Classical.not_and_iff_not_or_not] at h
  rcases h with h | h
  · exact p2 (q1 h)
  · exact q2 h

theorem lab_reject {α : Type} : Lab (reject : CM α) := fun _ _ _ _ h => (reject_ok h).elim
theorem lab_panic {α : Type} : Lab (panic : CM α) := fun _ _ _ _ h => (panic_ok h).elim

theorem lab_emit {c : List Insn} (h : NoExit c) : Lab (emit c) := by
  intro s b s' c' h1
  obtain ⟨rfl, rfl⟩ := emit_ok h1
  exact ⟨id, fun h2 => (h2 h).elim⟩

theorem lab_alloc (o : Opts) : Lab (allocM o) := by
  intro s b s' c h
  unfold allocM at h
  split at h
  · cases h
  · cases h; exact ⟨id, fun h => (h noExit_nil).elim⟩

theorem lab_free (r : Nat) : Lab (freeM r) := by
  intro s b s' c h
  cases h
  exact ⟨id, fun h => (h noExit_nil).elim⟩

theorem lab_use : Lab useExit := by
  intro s b s' c h
  cases h
  exact ⟨fun _ => rfl, fun h => (h noExit_nil).elim⟩

theorem lab_when {b : Bool} {x : CM Unit} (h : Lab x) : Lab (whenM b x) := by
  unfold whenM
  split
  · exact h
  · exact lab_pure _

theorem lab_push (o : Opts) (n : Nat) : Lab (pushRegs o n) := by
  intro s b s' c h
  cases h
  refine ⟨id, fun h => (h fun r hr => ?_).elim⟩
  rcases List.mem_append.mp hr with h | h
  · split at h <;> simp at h
  · simp at h

theorem lab_pop (o : Opts) (n : Nat) : Lab (popRegs o n) := by
  intro s b s' c h
  cases h
  refine ⟨id, fun h => (h fun r hr => ?_).elim⟩
  rcases List.mem_append.mp hr with h | h
  · simp at h
  · split at h <;> simp at h

theorem noExit_addOff (r : Nat) (k : BitVec 64) : NoExit (addOff r k) := by
  unfold addOff; split <;> simp [NoExit]

theorem noExit_probeLoop (reg : Nat) : ∀ offs, nonLastDeref offs = false → NoExit (probeLoop reg offs)
  | [], _ => noExit_nil
  | [x], _ => by
    unfold probeLoop
    refine noExit_append.mpr ⟨noExit_addOff _ _, ?_⟩
    split
    · split <;> simp [NoExit]
    · simp [NoExit]
  | x :: y :: r, h => by
    simp only [nonLastDeref, Bool.or_eq_false_iff] at h
    unfold probeLoop
    refine noExit_append.mpr ⟨noExit_append.mpr ⟨noExit_addOff _ _, ?_⟩, noExit_probeLoop reg _ h.2⟩
    rw [h.1]
    exact noExit_nil

theorem noExit_directLoop (reg : Nat) : ∀ offs, nonLastDeref offs = false → NoExit (directLoop reg offs)
  | [], _ => noExit_nil
  | [x], _ => by
    unfold directLoop
    split
    · exact noExit_addOff _ _
    · simp [NoExit]
  | x :: y :: r, h => by
    simp only [nonLastDeref, Bool.or_eq_false_iff] at h
    unfold directLoop
    refine noExit_append.mpr ⟨?_, noExit_directLoop reg _ h.2⟩
    rw [h.1]
    exact noExit_addOff _ _

/-- Code that may jump to the label, and then the note. -/
theorem lab_noted {c : List Insn} {b : Bool} (h : b = false → NoExit c) {k : CM Unit} (hk : Lab k) : Lab (do emit c; whenM b useExit; k) := by
  intro s u s' c' h1
  obtain ⟨_, s1, c1, c2, h2, h5, rfl⟩ := bind_ok h1
  obtain ⟨_, s2, c3, c4, h3, h4, rfl⟩ := bind_ok h5
  obtain ⟨rfl, rfl⟩ := emit_ok h2
  obtain ⟨p, q⟩ := hk _ _ _ _ h4
  cases b with
  | true =>
    cases h3
    exact ⟨fun _ => p rfl, fun _ => p rfl⟩
  | false =>
    obtain ⟨_, rfl, rfl⟩ := pure_ok (show (pure () : CM Unit) s1 = _ from h3)
    refine ⟨p, fun hn => q fun h4 => hn ?_⟩
    exact noExit_append.mpr ⟨h rfl, by simpa using h4⟩

theorem lab_probe (o : Opts) (offs : List Off) (reg : Nat) : Lab (emitProbeRead o offs reg) := by
  refine lab_bind (lab_push o 5) fun _ => lab_bind (lab_emit ?_) fun _ => lab_noted (noExit_probeLoop reg offs) (lab_pop o 5)
  split <;> simp [NoExit]

theorem lab_direct (offs : List Off) (reg : Nat) : Lab (emitDirectRead offs reg) := by
  have := lab_noted (noExit_directLoop reg offs) (lab_pure ())
  intro s u s' c h
  obtain ⟨p, q⟩ := this s u s' c (by
    obtain ⟨_, s1, c1, c2, h1, h2, rfl⟩ := bind_ok h
    simp only [bind, h1, h2, pure, List.append_nil])
  exact ⟨p, q⟩

theorem noExit_coreProbe (reg : Nat) (last : Bool) : NoExit (coreProbe reg last) := by simp [NoExit, coreProbe]

theorem lab_coreStep (o : Opts) (reg : Nat) (x : Off) (last : Bool) : Lab (coreStep o reg x last) := by
  unfold coreStep
  split
  · refine lab_emit (noExit_append.mpr ⟨noExit_addOff _ _, ?_⟩)
    split <;> simp [NoExit]
  · split
    · exact lab_reject
    · exact lab_emit (noExit_coreProbe _ _)
    · split
      · exact lab_reject
      · split
        · exact lab_emit (noExit_coreProbe _ _)
        · split
          · refine lab_emit (noExit_append.mpr ⟨by simp [NoExit], ?_⟩)
            split <;> simp [NoExit]
          · intro s u s' c h
            obtain ⟨_, s1, c1, c2, h1, h2, rfl⟩ := bind_ok h
            cases h1
            obtain ⟨rfl, rfl⟩ := emit_ok h2
            exact ⟨fun _ => rfl, fun _ => rfl⟩

theorem lab_coreLoop (o : Opts) (reg : Nat) : ∀ offs, Lab (coreLoop o reg offs)
  | [] => lab_pure _
  | x :: r => lab_bind (lab_coreStep o reg x r.isEmpty) fun _ => lab_coreLoop o reg r

theorem lab_core (o : Opts) (offs : List Off) (reg : Nat) : Lab (emitCoreRead o offs reg) := by
  unfold emitCoreRead
  dsimp only
  refine lab_bind (lab_push _ _) fun _ => lab_bind (lab_emit ?_) fun _ => lab_bind (lab_coreLoop _ _ _) fun _ => lab_pop _ _
  split <;> simp [NoExit]

theorem lab_chain (o : Opts) (offs : List Off) (reg : Nat) : Lab (emitOffsetChain o offs reg) := by
  unfold emitOffsetChain
  split
  · refine lab_emit fun r h => ?_
    obtain ⟨x, _, hx⟩ := List.mem_flatMap.mp h
    exact noExit_addOff _ _ _ hx
  · split
    · exact lab_core _ _ _
    · exact lab_direct _ _
    · exact lab_probe _ _ _

theorem noExit_bf (m : Member) (r : Nat) : NoExit (bitfieldExtract m r) := by
  unfold bitfieldExtract
  refine noExit_append.mpr ⟨?_, by simp [NoExit]⟩
  split <;> simp [NoExit]

theorem noExit_adjust (Γ : Btf) (t : Ty) (r : Nat) : NoExit (adjustSize Γ t r) := by
  unfold adjustSize; split <;> simp [NoExit]

theorem lab_materialize (o : Opts) (v : Val) : Lab (materialize o v) := by
  unfold materialize
  split
  · exact lab_pure _
  · exact lab_bind (lab_alloc o) fun _ => lab_bind (lab_emit (by simp [NoExit])) fun _ => lab_pure _
  · refine lab_bind (lab_alloc o) fun _ => lab_bind (lab_emit ?_) fun _ => lab_bind (lab_when (lab_chain _ _ _)) fun _ =>
      lab_bind (lab_emit ?_) fun _ => lab_pure _
    · unfold loadBase; split <;> simp [NoExit]
    · split
      · split
        · exact noExit_bf _ _
        · exact noExit_adjust _ _ _
      · exact noExit_adjust _ _ _
  · exact lab_reject

theorem lab_binRun (o : Opts) (l r : Val) {k : Nat → Option Ty → Nat → List Insn} (h : ∀ a t b, NoExit (k a t b)) : Lab (binRun o l r k) :=
  lab_bind (lab_materialize _ _) fun _ => lab_bind (lab_materialize _ _) fun _ => lab_bind (lab_emit (h _ _ _)) fun _ =>
    lab_bind (lab_free _) fun _ => lab_pure _

theorem lab_unRun (o : Opts) (v : Val) {k : Nat → List Insn} (h : ∀ a, NoExit (k a)) : Lab (unRun o v k) :=
  lab_bind (lab_materialize _ _) fun _ => lab_bind (lab_emit (h _)) fun _ => lab_pure _

theorem lab_check (o : Opts) (v : Val) : Lab (checkCalc o v) := by
  unfold checkCalc
  split
  · split
    · exact lab_pure _
    · exact lab_reject
  · exact lab_pure _

theorem lab_check2 {o : Opts} {l r : Val} {k : CM Val} (h : Lab k) : Lab (do checkCalc o l; checkCalc o r; k) :=
  lab_bind (lab_check _ _) fun _ => lab_bind (lab_check _ _) fun _ => h

theorem lab_check1 {o : Opts} {l : Val} {k : CM Val} (h : Lab k) : Lab (do checkCalc o l; k) :=
  lab_bind (lab_check _ _) fun _ => h

theorem lab_addConst (o : Opts) (b : Base) (offs : List Off) (t : Ty) (m : Option Member) (n : BitVec 64) : Lab (addConst o b offs t m n) := by
  unfold addConst
  split
  · exact lab_pure _
  · split
    · split
      · exact lab_pure _
      · split
        · exact lab_reject
        · exact lab_pure _
    · split
      · exact lab_reject
      · exact lab_pure _
    · exact lab_pure _

theorem noExit_scale (Γ : Btf) (t : Option Ty) (r : Nat) : NoExit (scale Γ t r) := by
  unfold scale
  split
  · split <;> simp [NoExit]
  · split <;> simp [NoExit]
  · exact noExit_nil

theorem lab_freeIf (v : Val) : Lab (freeIfMat v) := by
  unfold freeIfMat; split
  · exact lab_free _
  · exact lab_pure _

theorem lab_resolve (o : Opts) (l r : Val) : Lab (resolveEnums o l r) := by
  intro s b s' c h
  obtain ⟨rfl, rfl⟩ := resolveEnums_ok h
  exact ⟨id, fun h => (h noExit_nil).elim⟩

theorem lab_cmp (o : Opts) (k : Cmp) (l r : Val) : Lab (cmpVals o k l r) := by
  unfold cmpVals
  generalize adjustNums o.Γ l r = p
  obtain ⟨a, b⟩ := p
  cases b with
  | const n t => cases a with
    | const n' t' => exact lab_pure _
    | _ => exact lab_check1 (lab_unRun _ _ fun _ => by simp [NoExit, reg2bool])
  | _ => cases a <;> exact lab_check2 (lab_binRun _ _ _ fun _ _ _ => by simp [NoExit, reg2bool])

theorem lab_binVals (o : Opts) (op : Bop) (l0 r0 : Val) : Lab (binVals o op l0 r0) := by
  refine lab_bind (lab_resolve _ _ _) fun q => ?_
  obtain ⟨l, r⟩ := q
  have bit : ∀ k, Lab (bitVals o k l r) := by
    intro k
    unfold bitVals
    split
    · exact lab_pure _
    · exact lab_check1 (lab_unRun _ _ fun _ => by simp [NoExit])
    · exact lab_check2 (lab_binRun _ _ _ fun _ _ _ => by simp [NoExit])
  have sh : ∀ k, Lab (shiftVals o k l r) := by
    intro k
    unfold shiftVals
    dsimp only
    split
    · unfold foldShift
      split
      · exact lab_panic
      · exact lab_pure _
    · refine lab_check1 (lab_bind (lab_materialize _ _) fun _ => ?_)
      split
      · exact lab_reject
      · split
        · exact lab_pure _
        · exact lab_bind (lab_emit (by simp [NoExit])) fun _ => lab_pure _
    · exact lab_check2 (lab_binRun _ _ _ fun _ _ _ => by simp [NoExit])
  cases op <;> dsimp only
  case add =>
    unfold addVals
    split
    · exact lab_pure _
    · refine lab_check2 ?_
      split
      · exact lab_addConst _ _ _ _ _ _
      · exact lab_addConst _ _ _ _ _ _
      · exact lab_binRun _ _ _ fun _ _ _ => noExit_append.mpr ⟨noExit_scale _ _ _, by simp [NoExit]⟩
  case sub =>
    unfold subVals
    split
    · exact lab_pure _
    · refine lab_check2 ?_
      split
      · exact lab_addConst _ _ _ _ _ _
      · exact lab_binRun _ _ _ fun _ _ _ => noExit_append.mpr ⟨noExit_scale _ _ _, by simp [NoExit]⟩
  case mul =>
    unfold mulVals
    split
    · exact lab_pure _
    · exact lab_check2 (lab_binRun _ _ _ fun _ _ _ => by simp [NoExit])
  case div =>
    unfold divVals
    split
    · split
      · exact lab_reject
      · exact lab_pure _
    · split
      · exact lab_reject
      · exact lab_check1 (lab_unRun _ _ fun _ => by simp [NoExit])
    · exact lab_check2 (lab_binRun _ _ _ fun _ _ _ => by simp [NoExit, guarded])
  case mod =>
    unfold modVals
    split
    · split
      · exact lab_reject
      · exact lab_pure _
    · split
      · exact lab_reject
      · refine lab_check1 (lab_unRun _ _ fun _ => ?_)
        split <;> simp [NoExit]
    · exact lab_check2 (lab_binRun _ _ _ fun _ _ _ => by simp [NoExit, guarded])
  case and => exact bit _
  case or => exact bit _
  case xor => exact bit _
  case lsh => exact sh _
  case rsh => exact sh _
  case eq => exact lab_cmp _ _ _ _
  case ne => exact lab_cmp _ _ _ _
  case lt => exact lab_cmp _ _ _ _
  case le => exact lab_cmp _ _ _ _
  case gt => exact lab_cmp _ _ _ _
  case ge => exact lab_cmp _ _ _ _
  case andand =>
    unfold andandVals
    split
    · exact lab_pure _
    · refine lab_check1 ?_
      split
      · exact lab_pure _
      · exact lab_unRun _ _ fun _ => by simp [NoExit, truthy, reg2bool]
    · refine lab_check1 ?_
      split
      · exact lab_bind (lab_freeIf _) fun _ => lab_pure _
      · exact lab_unRun _ _ fun _ => by simp [NoExit, truthy, reg2bool]
    · exact lab_check2 (lab_binRun _ _ _ fun _ _ _ => by simp [NoExit, reg2bool])
  case oror =>
    unfold ororVals
    split
    · exact lab_pure _
    · refine lab_check1 ?_
      split
      · exact lab_pure _
      · exact lab_unRun _ _ fun _ => by simp [NoExit, truthy, reg2bool]
    · refine lab_check1 ?_
      split
      · exact lab_bind (lab_freeIf _) fun _ => lab_pure _
      · exact lab_unRun _ _ fun _ => by simp [NoExit, truthy, reg2bool]
    · exact lab_check2 (lab_binRun _ _ _ fun _ _ _ => by simp [NoExit])

theorem lab_unVals (o : Opts) (op : Uop) (v : Val) : Lab (unVals o op v) := by
  unfold unVals
  split
  all_goals first
    | exact lab_pure _
    | exact lab_check1 (lab_unRun _ _ fun _ => by simp [NoExit])
    | exact lab_unRun _ _ fun _ => by simp [NoExit, reg2bool]

theorem lab_condArm (o : Opts) (rc : Nat) (v : Val) : Lab (condArm o rc v) := by
  unfold condArm
  split
  · exact lab_emit (by simp [NoExit])
  · exact lab_bind (lab_materialize _ _) fun _ => lab_bind (lab_emit (by simp [NoExit])) fun _ => lab_free _

theorem lab_condVals (o : Opts) (c l r : Val) : Lab (condVals o c l r) := by
  refine lab_bind (lab_check _ _) fun _ => lab_bind (lab_check _ _) fun _ => lab_bind (lab_check _ _) fun _ => ?_
  split
  · exact lab_pure _
  · refine lab_bind (lab_materialize _ _) fun q => ?_
    intro s b s' code h
    obtain ⟨⟨_, cl⟩, s1, _, _, h1, h5, rfl⟩ := bind_ok h
    obtain ⟨⟨_, cr⟩, s2, _, _, h2, h6, rfl⟩ := bind_ok h5
    obtain ⟨_, s3, _, _, h3, h7, rfl⟩ := bind_ok h6
    obtain ⟨h8, rfl⟩ := capture_ok h1
    obtain ⟨h9, rfl⟩ := capture_ok h2
    obtain ⟨rfl, rfl⟩ := emit_ok h3
    obtain ⟨_, rfl, rfl⟩ := pure_ok h7
    obtain ⟨p1, q1⟩ := lab_condArm _ _ _ _ _ _ _ h8
    obtain ⟨p2, q2⟩ := lab_condArm _ _ _ _ _ _ _ h9
    refine ⟨fun h => p2 (p1 h), fun h => ?_⟩
    by_cases hl : NoExit cl
    · refine q2 fun hr => h fun x hx => ?_
      simp only [List.nil_append, List.append_nil, List.cons_append, List.mem_cons, List.mem_append, reduceCtorEq, false_or] at hx
      rcases hx with hx | hx
      · exact hl x hx
      · exact hr x hx
    · exact p2 (q1 hl)

theorem lab_member (o : Opts) (b : Val) (f : String) (arrow : Bool) : Lab (accessMember o b f arrow) := by
  intro s v s' c h
  obtain ⟨rfl, rfl⟩ := accessMember_nil h
  exact ⟨id, fun h => (h noExit_nil).elim⟩

theorem lab_nil {α : Type} {x : CM α} (h : ∀ s b s' c, x s = .ok (b, s', c) → c = [] ∧ s' = s) : Lab x := by
  intro s b s' c h1
  obtain ⟨rfl, rfl⟩ := h _ _ _ _ h1
  exact ⟨id, fun h => (h noExit_nil).elim⟩

theorem lab_evaluate (o : Opts) : ∀ e : Expr, Lab (evaluate o e) := by
  intro e
  induction e with
  | name x => rw [evaluate]; exact lab_pure _
  | num t =>
    rw [evaluate]
    split
    · exact lab_reject
    · exact lab_pure _
  | arrow e f ih => rw [evaluate]; exact lab_bind ih fun _ => lab_member _ _ _ _
  | dot e f ih => rw [evaluate]; exact lab_bind ih fun _ => lab_member _ _ _ _
  | index e i ih _ => rw [evaluate]; exact lab_bind ih fun _ => lab_nil fun _ _ _ _ => evaluateIndex_nil
  | indir e ih => rw [evaluate]; exact lab_bind ih fun _ => lab_nil fun _ _ _ _ => evaluateIndir_nil
  | addr e ih => rw [evaluate]; exact lab_bind ih fun _ => lab_nil fun _ _ _ _ => evaluateAddr_nil
  | cast t e ih =>
    intro s b s' c h
    rcases evaluate_cast h with ⟨_, _, _, _, _, _, rfl, rfl, _⟩ | ⟨_, v0, _, h, _⟩
    · exact ⟨id, fun h => (h noExit_nil).elim⟩
    · exact ih _ _ _ _ h
  | un op e ih => rw [evaluate]; exact lab_bind ih fun _ => lab_unVals _ _ _
  | bin op l r ih1 ih2 => rw [evaluate]; exact lab_bind ih1 fun _ => lab_bind ih2 fun _ => lab_binVals _ _ _ _
  | cond c l r ih1 ih2 ih3 => rw [evaluate]; exact lab_bind ih1 fun _ => lab_bind ih2 fun _ => lab_bind ih3 fun _ => lab_condVals _ _ _ _
  | unsup => rw [evaluate]; exact lab_reject

/-- **C52.** If the code of an expression jumps to its exit label, `LabelUsed` says so. -/
theorem label_noted {o : Opts} {us : List Nat} {force : Bool} {e : Expr} {r : EvalRes} (h : compileEval o us force e = .ok r)
    {d : Nat} (hj : Insn.jexit d ∈ r.code) : r.labelUsed = true := by
  unfold compileEval at h
  split at h
  · cases h
  · split at h
    · cases h
    · rename_i u _ t s body h1
      split at h
      · cases h
        exact (lab_evaluate o e _ _ _ _ h1).2 fun hn => hn d hj
      · cases h
    · rename_i u _ v s body _ h1
      split at h
      · cases h
      · rename_i r' t m s' c h2
        cases h
        obtain ⟨p1, q1⟩ := lab_evaluate o e _ _ _ _ h1
        obtain ⟨p2, q2⟩ := lab_materialize o _ _ _ _ _ h2
        rcases List.mem_append.mp hj with hj | hj
        · exact p2 (q1 fun hn => hn d hj)
        · exact q2 fun hn => hn d hj
end Bpfsnoop.Cc
