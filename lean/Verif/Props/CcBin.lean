import Verif.Props.CcOps

/-
Binary operators.
-/
namespace Bpfsnoop.Cc

/-! ### Names and types of operands -/

theorem rep_ct {o : Opts} {w : World} {st : St} {v : Val} {σ : Sh} {cv : CV} {nul : Bool}
    (h : Rep o w st v σ cv nul) : cv.ty = σ.ct ∧ cv.isNum = σ.isNum := by
  cases σ with
  | num n t => obtain ⟨_, rfl, _⟩ := h; exact ⟨rfl, rfl⟩
  | name s => obtain ⟨_, rfl, _⟩ := h; exact ⟨rfl, rfl⟩
  | comp a ct => obtain ⟨r, _, rfl, _⟩ := h; exact ⟨rfl, rfl⟩
  | lazy t => obtain ⟨b, offs, m, _, _, _, _, _, rfl, _⟩ := h; exact ⟨rfl, rfl⟩
  | obj t bf loads cst =>
    obtain ⟨b, pre, z, m, _, _, _, _, _, _, _, _, rfl | ⟨_, _, _, _, rfl⟩⟩ := h <;> exact ⟨rfl, rfl⟩

/-- Looking up names on either side. -/
theorem resolve_rep {o : Opts} {w : World} {st : St} {l0 r0 l r : Val} {σl0 σr0 σl σr : Sh} {cl0 cr0 cl cr : CV}
    {nl nr : Bool} {s : CSt} (h : resolveEnums o l0 r0 s = .ok ((l, r), s, []))
    (hl : Rep o w st l0 σl0 cl0 nl) (hr : Rep o w st r0 σr0 cr0 nr)
    (h1 : resolveSh o.Γ σl0 σr0 = some σl) (h2 : resolveSh o.Γ σr0 σl0 = some σr)
    (h3 : resolve o.Γ cl0 cr0 = some cl) (h4 : resolve o.Γ cr0 cl0 = some cr) :
    Rep o w st l σl cl nl ∧ Rep o w st r σr cr nr ∧ (l = l0 ∨ l.reg? = none) ∧ (r = r0 ∨ r.reg? = none) := by
  have same : (∀ n, σl0 ≠ .name n) → (∀ n, σr0 ≠ .name n) →
      Rep o w st l σl cl nl ∧ Rep o w st r σr cr nr ∧ (l = l0 ∨ l.reg? = none) ∧ (r = r0 ∨ r.reg? = none) := by
    intro ha hb
    have e1 : σl = σl0 := by
      cases σl0 <;> simp_all [resolveSh]
    have e2 : σr = σr0 := by
      cases σr0 <;> simp_all [resolveSh]
    have e3 : cl = cl0 := by
      cases σl0 with
      | name n => exact absurd rfl (ha n)
      | num n t => obtain ⟨_, rfl, _⟩ := hl; simpa [resolve] using h3.symm
      | comp a ct => obtain ⟨r, _, rfl, _⟩ := hl; simpa [resolve] using h3.symm
      | lazy t => obtain ⟨b, offs, m, _, _, _, _, _, rfl, _⟩ := hl; simpa [resolve] using h3.symm
      | obj t bf loads cst =>
        obtain ⟨b, pre, z, m, _, _, _, _, _, _, _, _, rfl | ⟨_, _, _, _, rfl⟩⟩ := hl <;> simpa [resolve] using h3.symm
    have e4 : cr = cr0 := by
      cases σr0 with
      | name n => exact absurd rfl (hb n)
      | num n t => obtain ⟨_, rfl, _⟩ := hr; simpa [resolve] using h4.symm
      | comp a ct => obtain ⟨r, _, rfl, _⟩ := hr; simpa [resolve] using h4.symm
      | lazy t => obtain ⟨b, offs, m, _, _, _, _, _, rfl, _⟩ := hr; simpa [resolve] using h4.symm
      | obj t bf loads cst =>
        obtain ⟨b, pre, z, m, _, _, _, _, _, _, _, _, rfl | ⟨_, _, _, _, rfl⟩⟩ := hr <;> simpa [resolve] using h4.symm
    have hne : ∀ {v : Val} {σ : Sh} {cv : CV} {n : Bool}, Rep o w st v σ cv n → (∀ n, σ ≠ .name n) →
        ∀ x t, v ≠ .enumMaybe x t := by
      intro v σ cv n hv hσ x t hc
      subst hc
      cases σ with
      | name n => exact hσ n rfl
      | num n t => obtain ⟨h, _⟩ := hv; simp at h
      | comp a ct => obtain ⟨r, h, _⟩ := hv; simp at h
      | lazy t => obtain ⟨b, offs, m, h, _⟩ := hv; simp at h
      | obj t bf loads cst => obtain ⟨b, pre, z, m, h, _⟩ := hv; simp at h
    have e5 : l = l0 ∧ r = r0 := by
      have n1 := hne hl ha
      have n2 := hne hr hb
      unfold resolveEnums at h
      split at h
      · exact absurd rfl (n1 _ _)
      · exact absurd rfl (n1 _ _)
      · exact absurd rfl (n2 _ _)
      · exact absurd rfl (n2 _ _)
      · have := (pure_ok h).1
        simp only [Prod.mk.injEq] at this
        exact this
    subst e1; subst e2; subst e3; subst e4
    obtain ⟨rfl, rfl⟩ := e5
    exact ⟨hl, hr, .inl rfl, .inl rfl⟩
  -- the name `n` looked up in the type `ta` noted for a run-time value
  have left : ∀ {n : String} {ta : Option Ty}, σl0 = .name n → r0.ty = ta → (∀ x t, r0 ≠ .const x t) →
      (∀ x t, r0 ≠ .enumMaybe x t) → σr = σr0 → cr = cr0 →
      (∃ k, extractEnum o.Γ ta n = some k ∧ σl = .num k none ∧ cl = .num k none) →
      Rep o w st l σl cl nl ∧ Rep o w st r σr cr nr ∧ (l = l0 ∨ l.reg? = none) ∧ (r = r0 ∨ r.reg? = none) := by
    rintro n ta rfl hty hc he rfl rfl ⟨k, hk, rfl, rfl⟩
    obtain ⟨rfl, rfl, rfl⟩ := hl
    have : l = .const k none ∧ r = r0 := by
      cases r0 with
      | const x t => exact absurd rfl (hc _ _)
      | enumMaybe x t => exact absurd rfl (he _ _)
      | mat q t m =>
        subst hty
        simp only [Val.ty] at hk
        simp only [resolveEnums, hk] at h
        have := (pure_ok h).1
        simp only [Prod.mk.injEq] at this
        exact this
      | pend b offs t m =>
        subst hty
        simp only [Val.ty] at hk
        simp only [resolveEnums, hk] at h
        have := (pure_ok h).1
        simp only [Prod.mk.injEq] at this
        exact this
    obtain ⟨rfl, rfl⟩ := this
    exact ⟨⟨rfl, rfl, rfl⟩, hr, .inr rfl, .inl rfl⟩
  have right : ∀ {n : String} {ta : Option Ty}, σr0 = .name n → l0.ty = ta → (∀ x t, l0 ≠ .const x t) →
      (∀ x t, l0 ≠ .enumMaybe x t) → σl = σl0 → cl = cl0 →
      (∃ k, extractEnum o.Γ ta n = some k ∧ σr = .num k none ∧ cr = .num k none) →
      Rep o w st l σl cl nl ∧ Rep o w st r σr cr nr ∧ (l = l0 ∨ l.reg? = none) ∧ (r = r0 ∨ r.reg? = none) := by
    rintro n ta rfl hty hc he rfl rfl ⟨k, hk, rfl, rfl⟩
    obtain ⟨rfl, rfl, rfl⟩ := hr
    have : l = l0 ∧ r = .const k none := by
      cases l0 with
      | const x t => exact absurd rfl (hc _ _)
      | enumMaybe x t => exact absurd rfl (he _ _)
      | mat q t m =>
        subst hty
        simp only [Val.ty] at hk
        simp only [resolveEnums, hk] at h
        have := (pure_ok h).1
        simp only [Prod.mk.injEq] at this
        exact this
      | pend b offs t m =>
        subst hty
        simp only [Val.ty] at hk
        simp only [resolveEnums, hk] at h
        have := (pure_ok h).1
        simp only [Prod.mk.injEq] at this
        exact this
    obtain ⟨rfl, rfl⟩ := this
    exact ⟨hl, ⟨rfl, rfl, rfl⟩, .inl rfl, .inr rfl⟩
  cases σl0 with
  | name n =>
    have hcl := hl.2.1
    subst hcl
    cases σr0 with
    | name n' => simp [resolveSh] at h1
    | num k t => simp [resolveSh] at h1
    | comp a ct =>
      obtain ⟨q, hv, hc, _⟩ := id hr
      subst hc
      simp only [resolveSh] at h1 h2
      split at h1
      · rename_i heq
        cases hx : extractEnum o.Γ a n with
        | none => rw [hx] at h1; simp at h1
        | some k =>
          rw [hx] at h1 heq
          simp only [resolve, ← heq, Option.map_some, Option.some.injEq] at h1 h2 h3 h4
          exact left rfl (ta := a) (by rw [hv]; rfl) (by rw [hv]; simp) (by rw [hv]; simp) h2.symm h4.symm
            ⟨k, hx, h1.symm, h3.symm⟩
      · simp at h1
    | lazy t =>
      obtain ⟨b, offs, m, hv, _, _, _, _, hc, _⟩ := id hr
      subst hc
      simp only [resolveSh] at h1 h2
      cases hx : extractEnum o.Γ (some t) n with
      | none => rw [hx] at h1; simp at h1
      | some k =>
        rw [hx] at h1
        simp only [resolve, hx, Option.map_some, Option.some.injEq] at h1 h2 h3 h4
        exact left rfl (ta := some t) (by rw [hv]; rfl) (by rw [hv]; simp) (by rw [hv]; simp) h2.symm h4.symm
          ⟨k, hx, h1.symm, h3.symm⟩
    | obj t bf loads cst =>
      obtain ⟨b, pre, z, m, hv, _, _, _, _, _, _, _, hc⟩ := id hr
      simp only [resolveSh] at h1 h2
      cases hx : extractEnum o.Γ (some t) n with
      | none => rw [hx] at h1; simp at h1
      | some k =>
        rw [hx] at h1
        rcases hc with hc | ⟨_, _, _, _, hc⟩ <;> subst hc <;>
        simp only [resolve, hx, Option.map_some, Option.some.injEq] at h1 h2 h3 h4 <;>
        exact left rfl (ta := some t) (by rw [hv]; rfl) (by rw [hv]; simp) (by rw [hv]; simp) h2.symm h4.symm
          ⟨k, hx, h1.symm, h3.symm⟩
  | num k t =>
    cases σr0 with
    | name n => simp [resolveSh] at h2
    | _ => exact same (by simp) (by simp)
  | comp a ct =>
    cases σr0 with
    | name n =>
      have hcr := hr.2.1
      subst hcr
      obtain ⟨q, hv, hc, _⟩ := id hl
      subst hc
      simp only [resolveSh] at h1 h2
      split at h2
      · rename_i heq
        cases hx : extractEnum o.Γ a n with
        | none => rw [hx] at h2; simp at h2
        | some k =>
          rw [hx] at h2 heq
          simp only [resolve, ← heq, Option.map_some, Option.some.injEq] at h1 h2 h3 h4
          exact right rfl (ta := a) (by rw [hv]; rfl) (by rw [hv]; simp) (by rw [hv]; simp) h1.symm h3.symm
            ⟨k, hx, h2.symm, h4.symm⟩
      · simp at h2
    | _ => exact same (by simp) (by simp)
  | lazy t =>
    cases σr0 with
    | name n =>
      have hcr := hr.2.1
      subst hcr
      obtain ⟨b, offs, m, hv, _, _, _, _, hc, _⟩ := id hl
      subst hc
      simp only [resolveSh] at h1 h2
      cases hx : extractEnum o.Γ (some t) n with
      | none => rw [hx] at h2; simp at h2
      | some k =>
        rw [hx] at h2
        simp only [resolve, hx, Option.map_some, Option.some.injEq] at h1 h2 h3 h4
        exact right rfl (ta := some t) (by rw [hv]; rfl) (by rw [hv]; simp) (by rw [hv]; simp) h1.symm h3.symm
          ⟨k, hx, h2.symm, h4.symm⟩
    | _ => exact same (by simp) (by simp)
  | obj t bf loads cst =>
    cases σr0 with
    | name n =>
      have hcr := hr.2.1
      subst hcr
      obtain ⟨b, pre, z, m, hv, _, _, _, _, _, _, _, hc⟩ := id hl
      simp only [resolveSh] at h1 h2
      cases hx : extractEnum o.Γ (some t) n with
      | none => rw [hx] at h2; simp at h2
      | some k =>
        rw [hx] at h2
        rcases hc with hc | ⟨_, _, _, _, hc⟩ <;> subst hc <;>
        simp only [resolve, hx, Option.map_some, Option.some.injEq] at h1 h2 h3 h4 <;>
        exact right rfl (ta := some t) (by rw [hv]; rfl) (by rw [hv]; simp) (by rw [hv]; simp) h1.symm h3.symm
          ⟨k, hx, h2.symm, h4.symm⟩
    | _ => exact same (by simp) (by simp)

/-! ### What each operator runs -/

def Val.isConst : Val → Bool
  | .const _ _ => true
  | _ => false

def Val.isPend : Val → Bool
  | .pend _ _ _ _ => true
  | _ => false

theorem mulVals_run {o : Opts} {l r v : Val} {s s' : CSt} {c : List Insn} (h : mulVals o l r s = .ok (v, s', c))
    (hn : (l.isConst && r.isConst) = false) :
    binRun o l r (fun rl _ rr => [.aluReg .mul rl rr]) s = .ok (v, s', c) := by
  cases l <;> cases r <;> first | simp [Val.isConst] at hn; done | exact check1_ok (check1_ok h)

theorem addVals_run {o : Opts} {l r v : Val} {s s' : CSt} {c : List Insn} (h : addVals o l r s = .ok (v, s', c))
    (hn : (l.isConst && r.isConst) = false) :
    (∃ b offs t m n t', l = .pend b offs t m ∧ r = .const n t' ∧ addConst o b offs t m n s = .ok (v, s', c)) ∨
    (∃ b offs t m n t', r = .pend b offs t m ∧ l = .const n t' ∧ addConst o b offs t m n s = .ok (v, s', c)) ∨
    (((l.isPend && r.isConst) || (l.isConst && r.isPend)) = false ∧
      binRun o l r (fun rl tl rr => scale o.Γ tl rr ++ [.aluReg .add rl rr]) s = .ok (v, s', c)) := by
  cases l <;> cases r <;> first
    | simp [Val.isConst] at hn; done
    | exact .inr (.inr ⟨rfl, check1_ok (check1_ok h)⟩)
    | exact .inl ⟨_, _, _, _, _, _, rfl, rfl, check1_ok (check1_ok h)⟩
    | exact .inr (.inl ⟨_, _, _, _, _, _, rfl, rfl, check1_ok (check1_ok h)⟩)

theorem subVals_run {o : Opts} {l r v : Val} {s s' : CSt} {c : List Insn} (h : subVals o l r s = .ok (v, s', c))
    (hn : (l.isConst && r.isConst) = false) :
    (∃ b offs t m n t', l = .pend b offs t m ∧ r = .const n t' ∧ addConst o b offs t m (-n) s = .ok (v, s', c)) ∨
    ((l.isPend && r.isConst) = false ∧
      binRun o l r (fun rl tl rr => scale o.Γ tl rr ++ [.aluReg .sub rl rr]) s = .ok (v, s', c)) := by
  cases l <;> cases r <;> first
    | simp [Val.isConst] at hn; done
    | exact .inr ⟨rfl, check1_ok (check1_ok h)⟩
    | exact .inl ⟨_, _, _, _, _, _, rfl, rfl, check1_ok (check1_ok h)⟩

theorem divVals_run {o : Opts} {l r v : Val} {s s' : CSt} {c : List Insn} (h : divVals o l r s = .ok (v, s', c))
    (hn : (l.isConst && r.isConst) = false) :
    (∃ b t, r = .const b t ∧ b ≠ 0 ∧ unRun o l (fun rl => [.aluImm .div rl b]) s = .ok (v, s', c)) ∨
    (r.isConst = false ∧ binRun o l r (fun rl _ rr => guarded .div rl rr) s = .ok (v, s', c)) := by
  have key : ∀ (b : BitVec 64) (x : CM Val), (if b = 0 then reject else x) s = .ok (v, s', c) → b ≠ 0 ∧ x s = .ok (v, s', c) := by
    intro b x h
    split at h
    · exact (reject_ok h).elim
    · exact ⟨‹_›, h⟩
  cases r with
  | const b t =>
    cases l with
    | const a t' => simp [Val.isConst] at hn
    | _ => obtain ⟨h1, h2⟩ := key _ _ h; exact .inl ⟨b, t, rfl, h1, check1_ok h2⟩
  | _ => cases l <;> exact .inr ⟨rfl, check1_ok (check1_ok h)⟩

theorem modVals_run {o : Opts} {l r v : Val} {s s' : CSt} {c : List Insn} (h : modVals o l r s = .ok (v, s', c))
    (hn : (l.isConst && r.isConst) = false) :
    (∃ b t, r = .const b t ∧ b ≠ 0 ∧
      unRun o l (fun rl => if b = 1 then [.movImm rl 0] else [.aluImm .mod rl b]) s = .ok (v, s', c)) ∨
    (r.isConst = false ∧ binRun o l r (fun rl _ rr => guarded .mod rl rr) s = .ok (v, s', c)) := by
  have key : ∀ (b : BitVec 64) (x : CM Val), (if b = 0 then reject else x) s = .ok (v, s', c) → b ≠ 0 ∧ x s = .ok (v, s', c) := by
    intro b x h
    split at h
    · exact (reject_ok h).elim
    · exact ⟨‹_›, h⟩
  cases r with
  | const b t =>
    cases l with
    | const a t' => simp [Val.isConst] at hn
    | _ => obtain ⟨h1, h2⟩ := key _ _ h; exact .inl ⟨b, t, rfl, h1, check1_ok h2⟩
  | _ => cases l <;> exact .inr ⟨rfl, check1_ok (check1_ok h)⟩

theorem bitVals_run {o : Opts} {op : Alu} {l r v : Val} {s s' : CSt} {c : List Insn}
    (h : bitVals o op l r s = .ok (v, s', c)) (hn : (l.isConst && r.isConst) = false) :
    (∃ b t, r = .const b t ∧ unRun o l (fun rl => [.aluImm op rl b]) s = .ok (v, s', c)) ∨
    (r.isConst = false ∧ binRun o l r (fun rl _ rr => [.aluReg op rl rr]) s = .ok (v, s', c)) := by
  cases r with
  | const b t =>
    cases l with
    | const a t' => simp [Val.isConst] at hn
    | _ => exact .inl ⟨b, t, rfl, check1_ok h⟩
  | _ => cases l <;> exact .inr ⟨rfl, check1_ok (check1_ok h)⟩

theorem shiftVals_run {o : Opts} {left : Bool} {l r v : Val} {s s' : CSt} {c : List Insn}
    (h : shiftVals o left l r s = .ok (v, s', c)) (hn : (l.isConst && r.isConst) = false) :
    (∃ b t, r = .const b t ∧ (b ≠ 0 → unRun o l (fun rl => [.aluImm (if left then .lsh else .rsh) rl b]) s = .ok (v, s', c))) ∨
    (r.isConst = false ∧ binRun o l r (fun rl _ rr => [.jmpImm .le rr 0 1, .aluReg (if left then .lsh else .rsh) rl rr]) s
      = .ok (v, s', c)) := by
  have key : ∀ (b : BitVec 64), ((do
      let (rl, tl, ml) ← materialize o l
      if b.slt 0 then reject
      else if b = 0 then pure (.mat rl tl ml)
      else do
        emit [.aluImm (if left then .lsh else .rsh) rl b]
        pure (.mat rl tl none)) : CM Val) s = .ok (v, s', c) →
      b ≠ 0 → unRun o l (fun rl => [.aluImm (if left then .lsh else .rsh) rl b]) s = .ok (v, s', c) := by
    intro b h hb
    obtain ⟨⟨rl, tl, ml⟩, s1, c1, c2, h1, h2, rfl⟩ := bind_ok h
    simp only [] at h2
    split at h2
    · exact (reject_ok h2).elim
    · simp only [unRun, bind, h1] at h2 ⊢
      rw [h2]
  cases r with
  | const b t =>
    cases l with
    | const a t' => simp [Val.isConst] at hn
    | _ => exact .inl ⟨b, t, rfl, key b (check1_ok h)⟩
  | _ => cases l <;> exact .inr ⟨rfl, check1_ok (check1_ok h)⟩

theorem cmpVals_run {o : Opts} {cm : Cmp} {l r v : Val} {s s' : CSt} {c : List Insn}
    (h : cmpVals o cm l r s = .ok (v, s', c)) (hn : (l.isConst && r.isConst) = false)
    (hid : adjustNums o.Γ l r = (l, r)) :
    (∃ b t, r = .const b t ∧ unRun o l (fun rl => .jmpImm (negCmp cm) rl b 2 :: reg2bool rl) s = .ok (v, s', c)) ∨
    (r.isConst = false ∧ binRun o l r (fun rl _ rr => .jmpReg (negCmp cm) rl rr 2 :: reg2bool rl) s = .ok (v, s', c)) := by
  unfold cmpVals at h
  rw [hid] at h
  cases r with
  | const b t =>
    cases l with
    | const a t' => simp [Val.isConst] at hn
    | _ => exact .inl ⟨b, t, rfl, check1_ok h⟩
  | _ => cases l <;> exact .inr ⟨rfl, check1_ok (check1_ok h)⟩

theorem andandVals_run {o : Opts} {l r v : Val} {s s' : CSt} {c : List Insn}
    (h : andandVals o l r s = .ok (v, s', c)) (hn : (l.isConst && r.isConst) = false) :
    (∃ a t, l = .const a t ∧ (a ≠ 0 → unRun o r truthy s = .ok (v, s', c))) ∨
    (∃ b t, r = .const b t ∧ (b ≠ 0 → unRun o l truthy s = .ok (v, s', c))) ∨
    (l.isConst = false ∧ r.isConst = false ∧ binRun o l r
      (fun rl _ rr => .jmpImm .eq rl 0 3 :: .jmpImm .eq rr 0 2 :: reg2bool rl) s = .ok (v, s', c)) := by
  cases r with
  | const b t =>
    cases l with
    | const a t' => simp [Val.isConst] at hn
    | _ => exact .inr (.inl ⟨b, t, rfl, fun hb => by have := check1_ok h; rw [if_neg hb] at this; exact this⟩)
  | _ =>
    cases l with
    | const a t' => exact .inl ⟨a, t', rfl, fun hb => by have := check1_ok h; rw [if_neg hb] at this; exact this⟩
    | _ => exact .inr (.inr ⟨rfl, rfl, check1_ok (check1_ok h)⟩)

theorem ororVals_run {o : Opts} {l r v : Val} {s s' : CSt} {c : List Insn}
    (h : ororVals o l r s = .ok (v, s', c)) (hn : (l.isConst && r.isConst) = false) :
    (∃ a t, l = .const a t ∧ (a = 0 → unRun o r truthy s = .ok (v, s', c))) ∨
    (∃ b t, r = .const b t ∧ (b = 0 → unRun o l truthy s = .ok (v, s', c))) ∨
    (l.isConst = false ∧ r.isConst = false ∧ binRun o l r (fun rl _ rr => ororTail rl rr) s = .ok (v, s', c)) := by
  cases r with
  | const b t =>
    cases l with
    | const a t' => simp [Val.isConst] at hn
    | _ => exact .inr (.inl ⟨b, t, rfl, fun hb => by have := check1_ok h; rw [if_neg (not_not_intro hb)] at this; exact this⟩)
  | _ =>
    cases l with
    | const a t' => exact .inl ⟨a, t', rfl, fun hb => by have := check1_ok h; rw [if_neg (not_not_intro hb)] at this; exact this⟩
    | _ => exact .inr (.inr ⟨rfl, rfl, check1_ok (check1_ok h)⟩)

/-! ### Code fragments -/

theorem puts_st {m : Mem} {c : List Insn} {st : St} {K : Nat → Prop} {r : Nat} {z : BitVec 64}
    (h : exec m c st = .done (st.set r z)) (hK : ¬ K r) : Puts m c st false K r z :=
  puts_done ⟨_, h, fun q hq => by simp only [St.set]; rw [if_neg]; rintro rfl; exact hK hq, set_same _ _ _⟩

theorem puts_aluReg {m : Mem} {op : Alu} {st : St} {rl rr : Nat} {x y : BitVec 64} (hx : st.regs rl = x)
    (hy : st.regs rr = y) : Puts m [.aluReg op rl rr] st false (fun q => q ≠ rl ∧ q ≠ rr) rl (aluEval op x y) :=
  puts_set (by simp only [stepI, hx, hy]) (fun h => h.1 rfl)

theorem puts_aluImm {m : Mem} {op : Alu} {st : St} {r : Nat} {x k : BitVec 64} (hx : st.regs r = x)
    (he : Exact [.aluImm op r k]) : Puts m [.aluImm op r k] st false (fun q => q ≠ r) r (aluEval op x k) := by
  have : sx32 k = k := he _ List.mem_cons_self
  exact puts_set (by simp only [stepI, hx, this]) (fun h => h rfl)

/-- Scaling the right operand. -/
theorem puts_scale {m : Mem} {Γ : Btf} {t : Option Ty} {st : St} {rr : Nat} {K : Nat → Prop} {y : BitVec 64}
    (hy : st.regs rr = y) (he : Exact (scale Γ t rr)) (hK : ¬ K rr) :
    Puts m (scale Γ t rr) st false K rr (y * BitVec.ofNat 64 (scaleOf Γ t)) := by
  have one : ∀ {st : St}, st.regs rr = y → Puts m [] st false K rr (y * BitVec.ofNat 64 1) := by
    intro st h
    refine puts_nil ?_
    rw [h]; exact (BitVec.mul_one y).symm
  have key : ∀ (n : Nat), Exact (if n > 1 then [.aluImm .mul rr (BitVec.ofNat 64 n)] else []) →
      Puts m (if n > 1 then [.aluImm .mul rr (BitVec.ofNat 64 n)] else []) st false K rr
        (y * BitVec.ofNat 64 (if n > 1 then n else 1)) := by
    intro n he
    split
    · rename_i hn
      rw [if_pos hn] at he
      have : sx32 (BitVec.ofNat 64 n) = BitVec.ofNat 64 n := he _ List.mem_cons_self
      exact puts_set (by simp only [stepI, hy, this, aluEval]) hK
    · exact one hy
  unfold scale scaleOf at *
  cases hk : Γ.kindO t <;> simp only [hk] at he ⊢ <;> first | exact one hy | exact key _ he

/-- Comparison codes. -/
def Bop.cmp? : Bop → Option Cmp
  | .eq => some .eq | .ne => some .ne | .lt => some .lt | .le => some .le | .gt => some .gt | .ge => some .ge
  | _ => none

theorem cmp_values {op : Bop} {cm : Cmp} (h : op.cmp? = some cm) {sx sy : Option Nat} {x y z : BitVec 64}
    (hz : onValues op sx sy x y = some z) : b2n (!(cmpEval (negCmp cm) x y)) = z := by
  have key : ∀ (b : Bool) (p : Prop) [Decidable p], (b = false ↔ p) → b2n (!b) = if p then 1 else 0 := by
    intro b p _ hb
    cases b with
    | true => rw [if_neg (fun h => by simpa using hb.mpr h)]; rfl
    | false => rw [if_pos (hb.mp rfl)]; rfl
  cases op <;> simp only [Bop.cmp?, Option.some.injEq, reduceCtorEq] at h <;> subst h <;>
    simp only [onValues, Option.some.injEq] at hz <;> subst hz
  · exact key _ _ (by simp [negCmp, cmpEval])
  · have := key (cmpEval (negCmp .ne) x y) (¬ x = y) (by simp [negCmp, cmpEval])
    rw [this]
    by_cases h : x = y
    · rw [if_neg (not_not_intro h), if_pos h]
    · rw [if_pos h, if_neg h]
  · exact key _ _ (by simp [negCmp, cmpEval, BitVec.ule])
  · exact key _ _ (by simp [negCmp, cmpEval, BitVec.ult])
  · exact key _ _ (by simp [negCmp, cmpEval, BitVec.ule])
  · exact key _ _ (by simp [negCmp, cmpEval, BitVec.ult])

theorem truthy_puts {m : Mem} {r : Nat} {st : St} {x : BitVec 64} (hx : st.regs r = x) :
    Puts m (truthy r) st false (fun q => q ≠ r) r (if x ≠ 0 then 1 else 0) := by
  have h := exec_cmpImm m .eq r 0 st
  rw [hx] at h
  have : b2n (!(cmpEval .eq x (sx32 0))) = if x ≠ 0 then 1 else 0 := by
    by_cases h : x = 0
    · rw [cmp_eq0 h, if_neg (not_not_intro h)]; rfl
    · rw [cmp_eq0' h, if_pos h]; rfl
  rw [this] at h
  exact puts_st h (fun h => h rfl)

/-! ### Correctness -/

theorem rep_const {o : Opts} {w : World} {st : St} {v : Val} {σ : Sh} {cv : CV} {nul : Bool}
    (h : Rep o w st v σ cv nul) : v.isConst = σ.isNum := by
  cases σ with
  | num n t => obtain ⟨rfl, _⟩ := h; rfl
  | name s => obtain ⟨rfl, _⟩ := h; rfl
  | comp a ct => obtain ⟨r, rfl, _⟩ := h; rfl
  | lazy t => obtain ⟨b, offs, m, rfl, _⟩ := h; rfl
  | obj t bf loads cst => obtain ⟨b, pre, z, m, rfl, _⟩ := h; rfl

def Sh.isPend : Sh → Bool
  | .lazy _ | .obj _ _ _ _ => true
  | _ => false

theorem rep_pend {o : Opts} {w : World} {st : St} {v : Val} {σ : Sh} {cv : CV} {nul : Bool}
    (h : Rep o w st v σ cv nul) : v.isPend = σ.isPend := by
  cases σ with
  | num n t => obtain ⟨rfl, _⟩ := h; rfl
  | name s => obtain ⟨rfl, _⟩ := h; rfl
  | comp a ct => obtain ⟨r, rfl, _⟩ := h; rfl
  | lazy t => obtain ⟨b, offs, m, rfl, _⟩ := h; rfl
  | obj t bf loads cst => obtain ⟨b, pre, z, m, rfl, _⟩ := h; rfl

theorem binSh_runtime {o : Opts} {op : Bop} {l0 r0 σ : Sh} (h : binSh o op l0 r0 = some σ) :
    ∃ l r, resolveSh o.Γ l0 r0 = some l ∧ resolveSh o.Γ r0 l0 = some r ∧
      ((∃ a ta b tb n, l = .num a ta ∧ r = .num b tb ∧ onConsts op a b = some n ∧ σ = .num n none) ∨
       ((l.isNum && r.isNum) = false ∧ l.usable o = true ∧ r.usable o = true ∧ runSh o op l r = some σ)) := by
  simp only [binSh, Option.bind_eq_bind, Option.bind_eq_some_iff] at h
  obtain ⟨l, h1, r, h2, h3⟩ := h
  refine ⟨l, r, h1, h2, ?_⟩
  split at h3
  · simp only [Option.map_eq_some_iff] at h3
    obtain ⟨n, h4, rfl⟩ := h3
    exact .inl ⟨_, _, _, _, n, rfl, rfl, h4, rfl⟩
  · rename_i hne
    split at h3
    · rename_i hu
      simp only [Bool.and_eq_true] at hu
      refine .inr ⟨?_, hu.1, hu.2, h3⟩
      cases l with
      | num a ta =>
        cases r with
        | num b tb => exact (hne _ _ _ _ rfl rfl).elim
        | _ => rfl
      | _ => rfl
    · simp at h3

theorem binC_runtime {Γ : Btf} {m : Mem} {op : Bop} {l0 r0 cv : CV} (h : binC Γ m op l0 r0 = some cv) :
    ∃ l r, resolve Γ l0 r0 = some l ∧ resolve Γ r0 l0 = some r ∧
      ((∃ a ta b tb n, l = .num a ta ∧ r = .num b tb ∧ onConsts op a b = some n ∧ cv = .num n none) ∨
       ((l.isNum && r.isNum) = false ∧ ∃ x y z, l.value Γ m = some x ∧ r.value Γ m = some y ∧
          onValues op (stride Γ l.ty) (stride Γ r.ty) x y = some z ∧
          cv = .rv z (binTy Γ op l.isNum l.ty r.ty) false)) := by
  simp only [binC, Option.bind_eq_bind, Option.bind_eq_some_iff] at h
  obtain ⟨l, h1, r, h2, h3⟩ := h
  refine ⟨l, r, h1, h2, ?_⟩
  split at h3
  · simp only [Option.map_eq_some_iff] at h3
    obtain ⟨n, h4, rfl⟩ := h3
    exact .inl ⟨_, _, _, _, n, rfl, rfl, h4, rfl⟩
  · rename_i hne
    simp only [Option.bind_eq_some_iff, Option.some.injEq] at h3
    obtain ⟨x, hx, y, hy, z, hz, rfl⟩ := h3
    refine .inr ⟨?_, x, y, z, hx, hy, hz, rfl⟩
    cases l with
    | num a ta =>
      cases r with
      | num b tb => exact (hne _ _ _ _ rfl rfl).elim
      | _ => rfl
    | _ => rfl

/-- Operators on evaluated operands (after `binVals` has looked up names). -/
def opVals (o : Opts) (op : Bop) (l r : Val) : CM Val :=
  match op with
  | .add => addVals o l r
  | .sub => subVals o l r
  | .mul => mulVals o l r
  | .div => divVals o l r
  | .mod => modVals o l r
  | .and => bitVals o .and l r
  | .or => bitVals o .or l r
  | .xor => bitVals o .xor l r
  | .lsh => shiftVals o true l r
  | .rsh => shiftVals o false l r
  | .eq => cmpVals o .eq l r
  | .ne => cmpVals o .ne l r
  | .lt => cmpVals o .lt l r
  | .le => cmpVals o .le l r
  | .gt => cmpVals o .gt l r
  | .ge => cmpVals o .ge l r
  | .andand => andandVals o l r
  | .oror => ororVals o l r

/-- Constant folding. -/
theorem fold_consts {o : Opts} {op : Bop} {a b n : BitVec 64} {ta tb : Option Ty} {v : Val} {s s' : CSt} {c : List Insn}
    (h : opVals o op (.const a ta) (.const b tb) s = .ok (v, s', c)) (hn : onConsts op a b = some n) :
    v = .const n none ∧ s' = s ∧ c = [] := by
  have key : ∀ {x : BitVec 64}, (pure (.const x none) : CM Val) s = .ok (v, s', c) → x = n →
      v = .const n none ∧ s' = s ∧ c = [] := by
    rintro x h rfl
    exact pure_ok h
  have ite : ∀ (p q : Prop) [Decidable p] [Decidable q] (x : BitVec 64), (p ↔ q) → (if p then x else 0) = (if q then x else 0) := by
    intro p q _ _ x hpq
    by_cases hp : p
    · rw [if_pos hp, if_pos (hpq.mp hp)]
    · rw [if_neg hp, if_neg (fun hq => hp (hpq.mpr hq))]
  cases op <;> simp only [onConsts, Option.some.injEq] at hn
  case add => exact key h hn
  case sub => exact key h hn
  case mul => exact key h hn
  case div =>
    simp only [opVals, divVals] at h
    split at hn
    · simp at hn
    · rename_i hb
      simp only [Option.some.injEq] at hn
      simp only [hb, if_false] at h
      exact key h hn
  case mod =>
    simp only [opVals, modVals] at h
    split at hn
    · simp at hn
    · rename_i hb
      simp only [Option.some.injEq] at hn
      simp only [hb, if_false] at h
      exact key h hn
  case and => exact key h hn
  case or => exact key h hn
  case xor => exact key h hn
  case lsh =>
    simp only [opVals, shiftVals, foldShift] at h
    split at hn
    · simp at hn
    · rename_i hb
      simp only [Option.some.injEq] at hn
      rw [if_neg hb] at h
      exact key h hn
  case rsh =>
    simp only [opVals, shiftVals, foldShift] at h
    split at hn
    · simp at hn
    · rename_i hb
      simp only [Option.some.injEq] at hn
      rw [if_neg hb] at h
      exact key h hn
  case eq => exact key h (by rw [← hn]; exact ite _ _ 1 (by simp [foldCmp]))
  case ne =>
    refine key h ?_
    rw [← hn]
    by_cases hab : a = b <;> simp [foldCmp, b2n, hab]
  case lt => exact key h (by rw [← hn]; exact ite _ _ 1 (by simp [foldCmp]))
  case le => exact key h (by rw [← hn]; exact ite _ _ 1 (by simp [foldCmp]))
  case gt => exact key h (by rw [← hn]; exact ite _ _ 1 (by simp [foldCmp]))
  case ge => exact key h (by rw [← hn]; exact ite _ _ 1 (by simp [foldCmp]))
  case andand => exact key h (by rw [← hn]; exact ite _ _ 1 (by simp))
  case oror => exact key h (by rw [← hn]; exact ite _ _ 1 (by simp))

/-- `adjustNums`: the constant compared with a run-time value that fits its width stays as it is. -/
theorem adjust_id {o : Opts} {w : World} {st : St} {v : Val} {σ : Sh} {cv : CV} {nul : Bool} {n : BitVec 64}
    (h : Rep o w st v σ cv nul) (hn : σ.isNum = false) (hf : fits o.Γ n σ = true) :
    adjustNum o.Γ n v.ty v.mem = n := by
  have size : ∀ (t : Option Ty), (match o.Γ.sizeO t with
      | 1 => n &&& 0xFF == n
      | 2 => n &&& 0xFFFF == n
      | 4 => n &&& 0xFFFFFFFF == n
      | _ => true) = true → ∀ m, isBf m = false → adjustNum o.Γ n t m = n := by
    intro t ht m hm
    unfold adjustNum
    rw [if_neg (by rw [hm]; simp)]
    split at ht
    · rename_i hs; rw [hs]; exact eq_of_beq ht
    · rename_i hs; rw [hs]; exact eq_of_beq ht
    · rename_i hs; rw [hs]; exact eq_of_beq ht
    · rename_i h1 h2 h4
      split
      · exact absurd ‹_› h1
      · exact absurd ‹_› h2
      · exact absurd ‹_› h4
      · rfl
  cases σ with
  | num n t => simp [Sh.isNum] at hn
  | name s => obtain ⟨rfl, _⟩ := h; exact size none hf _ rfl
  | comp a ct => obtain ⟨r, rfl, _⟩ := h; exact size _ hf _ rfl
  | lazy t => obtain ⟨b, offs, m, rfl, hm, _⟩ := h; exact size _ hf _ hm
  | obj t bf loads cst =>
    obtain ⟨b, pre, z, m, rfl, hm, _⟩ := h
    cases bf with
    | none => exact size _ hf _ hm
    | some p =>
      obtain ⟨d, k⟩ := p
      obtain ⟨mem, rfl, hb, rfl, rfl⟩ := hm
      unfold adjustNum
      rw [if_pos (by simp [Val.mem, isBf, hb])]
      exact eq_of_beq hf

/-- Adding a constant to an address that has not been read yet. -/
theorem addConst_correct {o : Opts} {w : World} {st : St} {v : Val} {b : Base} {offs : List Off} {t : Ty}
    {m : Option Member} {n x : BitVec 64} {σ σ' : Sh} {cv : CV} {nul : Bool} {s s' : CSt} {c : List Insn}
    (h : addConst o b offs t m n s = .ok (v, s', c)) (hrep : Rep o w st (.pend b offs t m) σ cv nul)
    (hsh : addConstSh o σ n = some σ') (hx : cv.value o.Γ w.mem = some x) :
    s' = s ∧ c = [] ∧ v.reg? = (Val.pend b offs t m).reg? ∧ n ≠ 0 ∧ σ.ct = some t ∧
      Rep o w st v σ' (.rv (x + n * BitVec.ofNat 64 ((stride o.Γ (some t)).getD 1)) (some t) false) nul := by
  unfold addConstSh at hsh
  split at hsh
  · simp at hsh
  rename_i hn0
  -- the operand: an address computed by a chain that does not end in a read
  have hop : σ' = .lazy t ∧ isBf m = false ∧ baseOK o b ∧ preOK o offs ∧ lastPlain offs ∧ wide o.Γ t = true ∧
      stride o.Γ (some t) ≠ some 0 ∧ x = chainW w8 w.mem offs (baseVal w st b) ∧
      nul = nulAll w8 w.mem offs (baseVal w st b) ∧ σ.ct = some t ∧
      ((isScalar o.Γ t = true ∧ okSize o.Γ t = true) ∨ (isArray o.Γ t = true ∧ wide o.Γ t = true)) := by
    split at hsh
    · rename_i t0
      split at hsh
      · rename_i hw
        simp only [Bool.and_eq_true, bne_iff_ne] at hw
        obtain ⟨b', offs', m', hv, hm, hb, hp, hl, hc, hnl, hty⟩ := hrep
        simp only [Val.pend.injEq] at hv
        obtain ⟨rfl, rfl, rfl, rfl⟩ := hv
        subst hc
        simp only [CV.value, Option.some.injEq] at hx
        rw [adjReg_wide hw.1] at hx
        exact ⟨(Option.some.inj hsh).symm, hm, hb, hp, hl, hw.1, hw.2, hx.symm, hnl, rfl, hty⟩
      · simp at hsh
    · rename_i t0 cst
      split at hsh
      · rename_i hw
        simp only [Bool.and_eq_true, bne_iff_ne] at hw
        obtain ⟨b', pre, z, m', hv, hm, hb, hp, hd, hzt, hnl, hcr, hc⟩ := hrep
        simp only [Val.pend.injEq] at hv
        obtain ⟨rfl, rfl, rfl, rfl⟩ := hv
        refine ⟨(Option.some.inj hsh).symm, hm, hb, preOK_snoc hp (by simp [hd]), .inr ⟨pre, z, rfl, hd⟩, hw.1.2, hw.2, ?_, ?_,
          rfl, .inr hw.1⟩
        · rcases hc with hc | ⟨hf, _⟩
          · subst hc
            simp only [CV.value] at hx
            have har := hw.1.1
            unfold isArray at har
            rw [chainW_snoc]
            unfold stepW
            rw [hd]
            cases hk : o.Γ.kindOf t <;> rw [hk] at hx har <;> first | exact (Option.some.inj hx).symm | simp at har
          · simp at hf
        · rw [hnl, nulAll_append]; simp [nulAll, hd]
      · simp at hsh
    · simp at hsh
  obtain ⟨rfl, hm, hb, hp, hl, hw, hst, rfl, hnl, hct, hty⟩ := hop
  -- the compiler appends one step
  have hrun : ∃ tz, s' = s ∧ c = [] ∧
      v = .pend b (offs ++ [⟨n * BitVec.ofNat 64 ((stride o.Γ (some t)).getD 1), false, tz, prevBtf offs⟩]) t none := by
    unfold addConst at h
    rw [if_neg hn0] at h
    have key : ∀ {k : BitVec 64} {tz : Ty},
        (pure (.pend b (offs ++ [⟨k, false, tz, prevBtf offs⟩]) t none) : CM Val) s = .ok (v, s', c) →
        k = n * BitVec.ofNat 64 ((stride o.Γ (some t)).getD 1) → ∃ tz, s' = s ∧ c = [] ∧
          v = .pend b (offs ++ [⟨n * BitVec.ofNat 64 ((stride o.Γ (some t)).getD 1), false, tz, prevBtf offs⟩]) t none := by
      intro k tz h hk
      obtain ⟨h1, h2, h3⟩ := pure_ok h
      rw [hk] at h1
      exact ⟨tz, h2, h3, h1⟩
    cases hk : o.Γ.kindOf t with
    | ptr t' =>
      simp only [hk] at h
      by_cases hv : o.Γ.kindOf t' = .void
      · simp only [hv] at h
        refine key h ?_
        simp only [stride, Btf.kindO, hk, hv, if_true, Option.getD_some]
        exact (BitVec.mul_one n).symm
      · have h' : (if o.Γ.size0 t' = 0 then reject
            else pure (.pend b (offs ++ [⟨n * BitVec.ofNat 64 (o.Γ.size0 t'), false, t, prevBtf offs⟩]) t none) : CM Val) s
            = .ok (v, s', c) := by
          cases hk' : o.Γ.kindOf t' <;> simp only [hk'] at h <;> first | exact absurd hk' hv | exact h
        split at h'
        · exact (reject_ok h').elim
        · refine key h' ?_
          simp only [stride, Btf.kindO, hk, hv, if_false, Option.getD_some]
    | array t' =>
      simp only [hk] at h
      split at h
      · exact (reject_ok h).elim
      · refine key h ?_
        simp only [stride, Btf.kindO, hk, Option.getD_some]
    | _ =>
      simp only [hk] at h
      refine key h ?_
      simp only [stride, Btf.kindO, hk, Option.getD_none]
      exact (BitVec.mul_one n).symm
  obtain ⟨tz, rfl, rfl, rfl⟩ := hrun
  refine ⟨rfl, rfl, by cases b <;> rfl, hn0, hct, b, _, none, rfl, rfl, hb, preOK_snoc hp (by simp), .inr ⟨_, _, rfl, rfl⟩, ?_, ?_, hty⟩
  · rw [adjReg_wide hw, chainW_snoc]
    rfl
  · rw [nulAll_append]; simp [nulAll, hnl]

theorem adjustNums_id {o : Opts} {l r : Val} (hl : ∀ n t, l = .const n t → r.isConst = false → adjustNum o.Γ n r.ty r.mem = n)
    (hr : ∀ n t, r = .const n t → l.isConst = false → adjustNum o.Γ n l.ty l.mem = n) : adjustNums o.Γ l r = (l, r) := by
  cases l with
  | const n t =>
    have := hl n t rfl
    cases r with
    | const => rfl
    | enumMaybe => rfl
    | mat q t m =>
      have := this rfl
      simp only [Val.ty, Val.mem] at this
      simp only [adjustNums, this]
    | pend b offs t m =>
      have := this rfl
      simp only [Val.ty, Val.mem] at this
      simp only [adjustNums, this]
  | enumMaybe n t => cases r <;> rfl
  | mat q t m =>
    cases r with
    | const n t' =>
      have := hr n t' rfl rfl
      simp only [Val.ty, Val.mem] at this
      simp only [adjustNums, this]
    | _ => rfl
  | pend b offs t m =>
    cases r with
    | const n t' =>
      have := hr n t' rfl rfl
      simp only [Val.ty, Val.mem] at this
      simp only [adjustNums, this]
    | _ => rfl

theorem rep_num_const {o : Opts} {w : World} {st : St} {n : BitVec 64} {t : Option Ty} {σ : Sh} {cv : CV} {nul : Bool}
    (h : Rep o w st (.const n t) σ cv nul) : σ = .num n t ∧ cv = .num n t ∧ nul = false := by
  cases σ with
  | num n' t' => obtain ⟨h, rfl, rfl⟩ := h; simp only [Val.const.injEq] at h; obtain ⟨rfl, rfl⟩ := h; exact ⟨rfl, rfl, rfl⟩
  | name s => obtain ⟨h, _⟩ := h; simp at h
  | comp a ct => obtain ⟨r, h, _⟩ := h; simp at h
  | lazy t => obtain ⟨b, offs, m, h, _⟩ := h; simp at h
  | obj t bf loads cst => obtain ⟨b, pre, z, m, h, _⟩ := h; simp at h

theorem rep_pend_sh {o : Opts} {w : World} {st : St} {b : Base} {offs : List Off} {t : Ty} {m : Option Member} {σ : Sh}
    {cv : CV} {nul : Bool} (h : Rep o w st (.pend b offs t m) σ cv nul) :
    σ = .lazy t ∨ ∃ bf loads cst, σ = .obj t bf loads cst := by
  cases σ with
  | num n' t' => obtain ⟨h, _⟩ := h; simp at h
  | name s => obtain ⟨h, _⟩ := h; simp at h
  | comp a ct => obtain ⟨r, h, _⟩ := h; simp at h
  | lazy t => obtain ⟨b, offs, m, h, _⟩ := h; simp only [Val.pend.injEq] at h; exact .inl (by rw [h.2.2.1])
  | obj t bf loads cst =>
    obtain ⟨b, pre, z, m, h, _⟩ := h; simp only [Val.pend.injEq] at h; exact .inr ⟨bf, loads, cst, by rw [h.2.2.1]⟩

/-- Correctness of a binary operator on two operands that are not both constants. -/
theorem opVals_correct {o : Opts} {w : World} {a9 : BitVec 64} (env : Env o w a9) {s0 s s' : CSt} {st : St}
    {l r v : Val} {σl σr σ : Sh} {cl cr : CV} {nl nr : Bool} {op : Bop} {c : List Insn}
    {x y z : BitVec 64} (H : Two o w a9 s0 s st l r σl σr cl cr nl nr)
    (h : opVals o op l r s = .ok (v, s', c)) (he : Exact c) (hn : (σl.isNum && σr.isNum) = false)
    (hul : σl.usable o = true) (hur : σr.usable o = true) (hsh : runSh o op σl σr = some σ)
    (hx : cl.value o.Γ w.mem = some x) (hy : cr.value o.Γ w.mem = some y)
    (hz : onValues op (stride o.Γ σl.ct) (stride o.Γ σr.ct) x y = some z) :
    Stat o s0 s' v ∧ Good o w s0 c st v σ (.rv z (binTy o.Γ op σl.isNum σl.ct σr.ct) false) (nl || nr) := by
  have hnc : (l.isConst && r.isConst) = false := by rw [rep_const H.lrep, rep_const H.rrep]; exact hn
  -- both operands in registers
  have two : ∀ {k : Nat → Option Ty → Nat → List Insn}, binRun o l r k s = .ok (v, s', c) →
      runSh o op σl σr = some (.comp σl.ann (binTy o.Γ op σl.isNum σl.ct σr.ct)) →
      (∀ (rl rr : Nat) (st : St), rl ≠ rr → st.regs rl = x → st.regs rr = y → Exact (k rl σl.ann rr) →
        Puts w.mem (k rl σl.ann rr) st false (fun q => q ≠ rl ∧ q ≠ rr) rl z) →
      Stat o s0 s' v ∧ Good o w s0 c st v σ (.rv z (binTy o.Γ op σl.isNum σl.ct σr.ct) false) (nl || nr) := by
    intro k hk hσ hputs
    obtain ⟨h1, rl, rfl, h2⟩ := binRun_correct env H hk he hul hur hx hy hputs
    rw [hσ] at hsh
    rw [← Option.some.inj hsh]
    exact ⟨h1, good_of_puts h2⟩
  -- the right operand is a constant
  have one : ∀ {k : Nat → List Insn} {b : BitVec 64} {t : Option Ty}, r = .const b t →
      unRun o l k s = .ok (v, s', c) → runSh o op σl (.num b t) = some (.comp σl.ann (binTy o.Γ op σl.isNum σl.ct σr.ct)) →
      (∀ (rl : Nat) (st : St), st.regs rl = x → y = b → Exact (k rl) →
        Puts w.mem (k rl) st false (fun q => q ≠ rl) rl z) →
      Stat o s0 s' v ∧ Good o w s0 c st v σ (.rv z (binTy o.Γ op σl.isNum σl.ct σr.ct) false) (nl || nr) := by
    rintro k b t rfl hk hσ hputs
    obtain ⟨rfl, rfl, rfl⟩ := rep_num_const H.rrep
    simp only [CV.value, Option.some.injEq] at hy
    obtain ⟨h1, rl, rfl, h2⟩ := unRun_correct env H.sub H.lfresh H.lo H.st9 H.lrep hk he hul hx
      fun rl st hx he => hputs rl st hx hy.symm he
    rw [hσ] at hsh
    rw [← Option.some.inj hsh, Bool.or_false]
    exact ⟨h1, good_of_puts h2⟩
  -- the left operand is a constant and the code only looks at the right one
  have oneR : ∀ {k : Nat → List Insn} {a : BitVec 64} {t : Option Ty}, l = .const a t →
      unRun o r k s = .ok (v, s', c) → runSh o op (.num a t) σr = some (.comp σr.ann (binTy o.Γ op σl.isNum σl.ct σr.ct)) →
      (∀ (rr : Nat) (st : St), st.regs rr = y → x = a → Exact (k rr) →
        Puts w.mem (k rr) st false (fun q => q ≠ rr) rr z) →
      Stat o s0 s' v ∧ Good o w s0 c st v σ (.rv z (binTy o.Γ op σl.isNum σl.ct σr.ct) false) (nl || nr) := by
    rintro k a t rfl hk hσ hputs
    obtain ⟨rfl, rfl, rfl⟩ := rep_num_const H.lrep
    simp only [CV.value, Option.some.injEq] at hx
    obtain ⟨h1, rl, rfl, h2⟩ := unRun_correct env H.sub H.rfresh H.lo H.st9 H.rrep hk he hur hy
      fun rl st hy he => hputs rl st hy hx.symm he
    rw [hσ] at hsh
    rw [← Option.some.inj hsh, Bool.false_or]
    exact ⟨h1, good_of_puts h2⟩
  -- scaled addition and subtraction
  have scaled : ∀ {alu : Alu}, binRun o l r (fun rl tl rr => scale o.Γ tl rr ++ [.aluReg alu rl rr]) s = .ok (v, s', c) →
      runSh o op σl σr = some (.comp σl.ann (binTy o.Γ op σl.isNum σl.ct σr.ct)) →
      z = aluEval alu x (y * BitVec.ofNat 64 (scaleOf o.Γ σl.ann)) →
      Stat o s0 s' v ∧ Good o w s0 c st v σ (.rv z (binTy o.Γ op σl.isNum σl.ct σr.ct) false) (nl || nr) := by
    rintro alu hk hσ rfl
    refine two hk hσ fun rl rr st hne hx hy he => ?_
    rw [exact_append] at he
    have p1 := puts_scale (m := w.mem) (K := fun q => q ≠ rr) hy he.1 (fun h => h rfl)
    rcases puts_cases p1 with ⟨hf, _⟩ | ⟨_, st1, e1, k1, x1⟩
    · simp at hf
    · have p2 := puts_aluReg (m := w.mem) (op := alu) (st := st1) (rl := rl) (rr := rr) (x := x)
        (by rw [k1 rl hne]; exact hx) x1
      rcases puts_cases p2 with ⟨hf, _⟩ | ⟨_, st2, e2, k2, x2⟩
      · simp at hf
      · exact puts_done ⟨st2, by rw [exec_append_done e1]; exact e2, fun q hq => by rw [k2 q hq, k1 q hq.2], x2⟩
  -- comparisons
  have compare : ∀ {cm : Cmp}, op.cmp? = some cm → cmpVals o cm l r s = .ok (v, s', c) →
      (∀ l r, runSh o op l r = (match l, r with
        | .num n _, r => if fits o.Γ n r then some (.comp l.ann (binTy o.Γ op l.isNum l.ct r.ct)) else none
        | l, .num n _ => if fits o.Γ n l then some (.comp l.ann (binTy o.Γ op l.isNum l.ct r.ct)) else none
        | _, _ => some (.comp l.ann (binTy o.Γ op l.isNum l.ct r.ct)))) →
      Stat o s0 s' v ∧ Good o w s0 c st v σ (.rv z (binTy o.Γ op σl.isNum σl.ct σr.ct) false) (nl || nr) := by
    intro cm hcm hk hr
    have hσ : runSh o op σl σr = some (.comp σl.ann (binTy o.Γ op σl.isNum σl.ct σr.ct)) := by
      have := hr σl σr
      rw [hsh] at this
      rw [hsh]
      rw [this]
      split at this <;> rename_i heq
      · split at this
        · rename_i hf; rw [hf]; rfl
        · simp at this
      · split at this
        · rename_i hf; rw [hf]; rfl
        · simp at this
      · rfl
    have hid : adjustNums o.Γ l r = (l, r) := by
      apply adjustNums_id
      · rintro n t rfl hrc
        obtain ⟨rfl, _, _⟩ := rep_num_const H.lrep
        have := hr (.num n t) σr
        rw [hsh] at this
        simp only at this
        split at this
        · rename_i hf
          exact adjust_id H.rrep (by rw [← rep_const H.rrep]; exact hrc) hf
        · simp at this
      · rintro n t rfl hlc
        obtain ⟨rfl, _, _⟩ := rep_num_const H.rrep
        have hl := rep_const H.lrep
        rw [hlc] at hl
        have := hr σl (.num n t)
        rw [hsh] at this
        split at this
        · simp [Sh.isNum] at hl
        · rename_i heq1
          simp only [Sh.num.injEq] at heq1
          split at this
          · rename_i hf
            rw [← heq1.1] at hf
            exact adjust_id H.lrep hl.symm hf
          · simp at this
        · rename_i hne
          exact absurd rfl (hne n t)
    rcases cmpVals_run hk hnc hid with ⟨b, t, hrc, hrun⟩ | ⟨_, hrun⟩
    · subst hrc
      obtain ⟨rfl, _, _⟩ := rep_num_const H.rrep
      refine one rfl hrun hσ fun rl st hx hy he => ?_
      have hb : sx32 b = b := (he _ List.mem_cons_self).1
      have hex := exec_cmpImm w.mem (negCmp cm) rl b st
      rw [hx, hb, ← hy, cmp_values hcm hz] at hex
      rw [← hy]
      exact puts_st hex (fun h => h rfl)
    · refine two hrun hσ fun rl rr st hne hx hy he => ?_
      have hex := exec_cmpReg w.mem (negCmp cm) rl rr st
      rw [hx, hy, cmp_values hcm hz] at hex
      exact puts_st hex (fun h => h.1 rfl)
  cases op with
  | eq => exact compare rfl h fun l r => by cases l <;> cases r <;> rfl
  | ne => exact compare rfl h fun l r => by cases l <;> cases r <;> rfl
  | lt => exact compare rfl h fun l r => by cases l <;> cases r <;> rfl
  | le => exact compare rfl h fun l r => by cases l <;> cases r <;> rfl
  | gt => exact compare rfl h fun l r => by cases l <;> cases r <;> rfl
  | ge => exact compare rfl h fun l r => by cases l <;> cases r <;> rfl
  | mul =>
    simp only [onValues, Option.some.injEq] at hz
    subst hz
    exact two (mulVals_run h hnc) rfl fun rl rr st _ hx hy _ => puts_aluReg hx hy
  | and =>
    simp only [onValues, Option.some.injEq] at hz
    subst hz
    rcases bitVals_run h hnc with ⟨b, t, hr, hk⟩ | ⟨_, hk⟩
    · exact one hr hk (by subst hr; obtain ⟨rfl, _, _⟩ := rep_num_const H.rrep; rfl)
        fun rl st hx hy he => by subst hy; exact puts_aluImm hx he
    · exact two hk rfl fun rl rr st _ hx hy _ => puts_aluReg hx hy
  | or =>
    simp only [onValues, Option.some.injEq] at hz
    subst hz
    rcases bitVals_run h hnc with ⟨b, t, hr, hk⟩ | ⟨_, hk⟩
    · exact one hr hk (by subst hr; obtain ⟨rfl, _, _⟩ := rep_num_const H.rrep; rfl)
        fun rl st hx hy he => by subst hy; exact puts_aluImm hx he
    · exact two hk rfl fun rl rr st _ hx hy _ => puts_aluReg hx hy
  | xor =>
    simp only [onValues, Option.some.injEq] at hz
    subst hz
    rcases bitVals_run h hnc with ⟨b, t, hr, hk⟩ | ⟨_, hk⟩
    · exact one hr hk (by subst hr; obtain ⟨rfl, _, _⟩ := rep_num_const H.rrep; rfl)
        fun rl st hx hy he => by subst hy; exact puts_aluImm hx he
    · exact two hk rfl fun rl rr st _ hx hy _ => puts_aluReg hx hy
  | div =>
    simp only [onValues, Option.some.injEq] at hz
    subst hz
    rcases divVals_run h hnc with ⟨b, t, hr, hb, hk⟩ | ⟨hrc, hk⟩
    · refine one hr hk ?_ fun rl st hx hy he => by subst hy; exact puts_aluImm hx he
      subst hr; obtain ⟨rfl, _, _⟩ := rep_num_const H.rrep
      simp only [runSh, hb, if_false]
    · refine two hk ?_ fun rl rr st _ hx hy _ => ?_
      · have := rep_const H.rrep
        rw [hrc] at this
        simp only [runSh]
        cases σr <;> first | rfl | simp [Sh.isNum] at this
      · have hex := exec_guarded w.mem .div rl rr st
        rw [hx, hy] at hex
        have : (if y = 0 then 0 else aluEval .div x y) = if y = 0 then 0 else x / y := by
          by_cases h0 : y = 0
          · rw [if_pos h0, if_pos h0]
          · rw [if_neg h0, if_neg h0]; simp only [aluEval]; rw [if_neg h0]
        rw [this] at hex
        exact puts_st hex (fun h => h.1 rfl)
  | mod =>
    simp only [onValues, Option.some.injEq] at hz
    subst hz
    rcases modVals_run h hnc with ⟨b, t, hr, hb, hk⟩ | ⟨hrc, hk⟩
    · refine one hr hk ?_ fun rl st hx hy he => ?_
      · subst hr; obtain ⟨rfl, _, _⟩ := rep_num_const H.rrep
        simp only [runSh, hb, if_false]
      · subst hy
        rw [if_neg hb]
        by_cases h1 : y = 1
        · rw [if_pos h1]
          refine puts_set ?_ (fun h => h rfl)
          have : x % y = 0 := by
            subst h1
            apply BitVec.eq_of_toNat_eq
            simp [BitVec.toNat_umod, Nat.mod_one]
          rw [this]
          exact step_mov0 _ _ _
        · rw [if_neg h1] at he ⊢
          have := puts_aluImm (m := w.mem) (op := .mod) hx he
          simp only [aluEval] at this
          rw [if_neg hb] at this
          exact this
    · refine two hk ?_ fun rl rr st _ hx hy _ => ?_
      · have := rep_const H.rrep
        rw [hrc] at this
        simp only [runSh]
        cases σr <;> first | rfl | simp [Sh.isNum] at this
      · have hex := exec_guarded w.mem .mod rl rr st
        rw [hx, hy] at hex
        have : (if y = 0 then 0 else aluEval .mod x y) = if y = 0 then 0 else x % y := by
          by_cases h0 : y = 0
          · rw [if_pos h0, if_pos h0]
          · rw [if_neg h0, if_neg h0]; simp only [aluEval]; rw [if_neg h0]
        rw [this] at hex
        exact puts_st hex (fun h => h.1 rfl)
  | lsh =>
    simp only [onValues, Option.some.injEq] at hz
    subst hz
    rcases shiftVals_run h hnc with ⟨b, t, hr, hk⟩ | ⟨hrc, hk⟩
    · subst hr; obtain ⟨rfl, _, _⟩ := rep_num_const H.rrep
      have hb : ¬ (b = 0 ∨ b.toNat ≥ 64) := by
        intro hb
        simp only [runSh] at hsh
        rw [if_pos hb] at hsh
        simp at hsh
      refine one rfl (hk fun h => hb (.inl h)) ?_ fun rl st hx hy he => by subst hy; exact puts_aluImm hx he
      simp only [runSh]; rw [if_neg hb]
    · refine two hk ?_ fun rl rr st _ hx hy _ => ?_
      · have := rep_const H.rrep
        rw [hrc] at this
        simp only [runSh]
        cases σr <;> first | rfl | simp [Sh.isNum] at this
      · have hex := exec_shift w.mem .lsh rl rr st
        rw [hx, hy] at hex
        by_cases h0 : y = 0
        · rw [if_pos h0] at hex
          refine puts_done ⟨st, hex, Same.refl _ _, ?_⟩
          rw [hx, h0]; simp
        · rw [if_neg h0] at hex
          exact puts_st hex (fun h => h.1 rfl)
  | rsh =>
    simp only [onValues, Option.some.injEq] at hz
    subst hz
    rcases shiftVals_run h hnc with ⟨b, t, hr, hk⟩ | ⟨hrc, hk⟩
    · subst hr; obtain ⟨rfl, _, _⟩ := rep_num_const H.rrep
      have hb : ¬ (b = 0 ∨ b.toNat ≥ 64) := by
        intro hb
        simp only [runSh] at hsh
        rw [if_pos hb] at hsh
        simp at hsh
      refine one rfl (hk fun h => hb (.inl h)) ?_ fun rl st hx hy he => by subst hy; exact puts_aluImm hx he
      simp only [runSh]; rw [if_neg hb]
    · refine two hk ?_ fun rl rr st _ hx hy _ => ?_
      · have := rep_const H.rrep
        rw [hrc] at this
        simp only [runSh]
        cases σr <;> first | rfl | simp [Sh.isNum] at this
      · have hex := exec_shift w.mem .rsh rl rr st
        rw [hx, hy] at hex
        by_cases h0 : y = 0
        · rw [if_pos h0] at hex
          refine puts_done ⟨st, hex, Same.refl _ _, ?_⟩
          rw [hx, h0]; simp
        · rw [if_neg h0] at hex
          exact puts_st hex (fun h => h.1 rfl)
  | andand =>
    simp only [onValues, Option.some.injEq] at hz
    subst hz
    rcases andandVals_run h hnc with ⟨a, t, hl, hk⟩ | ⟨b, t, hr, hk⟩ | ⟨hlc, hrc, hk⟩
    · subst hl; obtain ⟨rfl, _, _⟩ := rep_num_const H.lrep
      have ha : a ≠ 0 := by
        rintro rfl
        simp [runSh] at hsh
      refine oneR rfl (hk ha) ?_ fun rl st hy hx he => ?_
      · simp only [runSh]; rw [if_neg ha]; rfl
      · subst hx
        have := truthy_puts (m := w.mem) hy
        have e : (if x ≠ 0 ∧ y ≠ 0 then (1 : BitVec 64) else 0) = if y ≠ 0 then 1 else 0 := by
          by_cases h0 : y = 0
          · rw [if_neg (fun h => h.2 h0), if_neg (not_not_intro h0)]
          · rw [if_pos ⟨ha, h0⟩, if_pos h0]
        rw [e]; exact this
    · subst hr; obtain ⟨rfl, _, _⟩ := rep_num_const H.rrep
      have hln : σl.isNum = false := by simpa [Sh.isNum] using hn
      have hb : b ≠ 0 := by
        rintro rfl
        cases σl <;> simp [runSh, Sh.isNum] at hsh hln
      refine one rfl (hk hb) ?_ fun rl st hx hy he => ?_
      · cases σl <;> simp only [runSh] <;> first | (rw [if_neg hb]; rfl) | simp [Sh.isNum] at hln
      · subst hy
        have := truthy_puts (m := w.mem) hx
        have e : (if x ≠ 0 ∧ y ≠ 0 then (1 : BitVec 64) else 0) = if x ≠ 0 then 1 else 0 := by
          by_cases h0 : x = 0
          · rw [if_neg (fun h => h.1 h0), if_neg (not_not_intro h0)]
          · rw [if_pos ⟨h0, hb⟩, if_pos h0]
        rw [e]; exact this
    · refine two hk ?_ fun rl rr st _ hx hy _ => ?_
      · have h1 := rep_const H.rrep
        have h2 := rep_const H.lrep
        rw [hrc] at h1
        rw [hlc] at h2
        simp only [runSh]
        cases σl <;> cases σr <;> first | rfl | (simp [Sh.isNum] at h1; done) | (simp [Sh.isNum] at h2; done)
      · have hex := exec_andand w.mem rl rr st
        rw [hx, hy] at hex
        exact puts_st hex (fun h => h.1 rfl)
  | oror =>
    simp only [onValues, Option.some.injEq] at hz
    subst hz
    rcases ororVals_run h hnc with ⟨a, t, hl, hk⟩ | ⟨b, t, hr, hk⟩ | ⟨hlc, hrc, hk⟩
    · subst hl; obtain ⟨rfl, _, _⟩ := rep_num_const H.lrep
      have ha : a = 0 := by
        by_cases ha : a = 0
        · exact ha
        · simp only [runSh] at hsh
          rw [if_pos ha] at hsh
          simp at hsh
      refine oneR rfl (hk ha) ?_ fun rl st hy hx he => ?_
      · simp only [runSh]; rw [if_neg (not_not_intro ha)]; rfl
      · subst hx
        have := truthy_puts (m := w.mem) hy
        have e : (if x ≠ 0 ∨ y ≠ 0 then (1 : BitVec 64) else 0) = if y ≠ 0 then 1 else 0 := by
          by_cases h0 : y = 0
          · rw [if_neg (fun h => h.elim (fun h => h ha) (fun h => h h0)), if_neg (not_not_intro h0)]
          · rw [if_pos (.inr h0), if_pos h0]
        rw [e]; exact this
    · subst hr; obtain ⟨rfl, _, _⟩ := rep_num_const H.rrep
      have hln : σl.isNum = false := by simpa [Sh.isNum] using hn
      have hb : b = 0 := by
        by_cases hb : b = 0
        · exact hb
        · cases σl <;> simp only [runSh] at hsh <;>
            first | (rw [if_pos hb] at hsh; simp at hsh; done) | (simp [Sh.isNum] at hln; done)
      refine one rfl (hk hb) ?_ fun rl st hx hy he => ?_
      · cases σl <;> simp only [runSh] <;> first | (rw [if_neg (not_not_intro hb)]; rfl) | simp [Sh.isNum] at hln
      · subst hy
        have := truthy_puts (m := w.mem) hx
        have e : (if x ≠ 0 ∨ y ≠ 0 then (1 : BitVec 64) else 0) = if x ≠ 0 then 1 else 0 := by
          by_cases h0 : x = 0
          · rw [if_neg (fun h => h.elim (fun h => h h0) (fun h => h hb)), if_neg (not_not_intro h0)]
          · rw [if_pos (.inl h0), if_pos h0]
        rw [e]; exact this
    · refine two hk ?_ fun rl rr st _ hx hy _ => ?_
      · have h1 := rep_const H.rrep
        have h2 := rep_const H.lrep
        rw [hrc] at h1
        rw [hlc] at h2
        simp only [runSh]
        cases σl <;> cases σr <;> first | rfl | (simp [Sh.isNum] at h1; done) | (simp [Sh.isNum] at h2; done)
      · have hex := exec_oror w.mem rl rr st
        rw [hx, hy] at hex
        exact puts_st hex (fun h => h.1 rfl)
  | add =>
    rcases addVals_run h hnc with ⟨b, offs, t, m, n, t', rfl, rfl, hk⟩ | ⟨b, offs, t, m, n, t', rfl, rfl, hk⟩ | ⟨hp, hk⟩
    · obtain ⟨rfl, rfl, rfl⟩ := rep_num_const H.rrep
      simp only [CV.value, Option.some.injEq] at hy
      subst hy
      have hst : stride o.Γ t' = none ∧ addConstSh o σl n = some σ := by
        rcases rep_pend_sh H.lrep with rfl | ⟨bf, ld, cst, rfl⟩ <;> simp only [runSh] at hsh <;> split at hsh <;>
          first | exact ⟨‹_›, hsh⟩ | simp at hsh
      obtain ⟨rfl, rfl, hreg, hn0, hct, hrep⟩ := addConst_correct hk H.lrep hst.2 hx
      have hln : σl.isNum = false := by rw [← rep_const H.lrep]; rfl
      have hty : binTy o.Γ .add σl.isNum σl.ct (Sh.num n t').ct = some t := by
        rw [hln, hct]
        simp only [binTy, Bop.isBool, Sh.ct, hst.1]
        simp
      have hval : z = x + n * BitVec.ofNat 64 ((stride o.Γ (some t)).getD 1) := by
        rw [hct] at hz
        simp only [Sh.ct, hst.1, onValues] at hz
        cases hs : stride o.Γ (some t) with
        | none => rw [hs] at hz; simpa using hz.symm
        | some k => rw [hs] at hz; simpa using hz.symm
      rw [hty, hval, Bool.or_false]
      exact ⟨⟨H.sub, fun q hq => H.lfresh q (by rw [← hreg]; exact hq), fun _ => H.lo⟩, good_nil hrep⟩
    · obtain ⟨rfl, rfl, rfl⟩ := rep_num_const H.lrep
      simp only [CV.value, Option.some.injEq] at hx
      subst hx
      have hst : stride o.Γ t' = none ∧ addConstSh o σr n = some σ := by
        rcases rep_pend_sh H.rrep with rfl | ⟨bf, ld, cst, rfl⟩ <;> simp only [runSh] at hsh <;> split at hsh <;>
          first | exact ⟨‹_›, hsh⟩ | simp at hsh
      obtain ⟨rfl, rfl, hreg, hn0, hct, hrep⟩ := addConst_correct hk H.rrep hst.2 hy
      have hty : binTy o.Γ .add (Sh.num n t').isNum (Sh.num n t').ct σr.ct = some t := by
        rw [hct]
        simp only [binTy, Bop.isBool, Sh.ct, hst.1, Sh.isNum]
        simp
      have hval : z = y + n * BitVec.ofNat 64 ((stride o.Γ (some t)).getD 1) := by
        rw [hct] at hz
        simp only [Sh.ct, hst.1, onValues] at hz
        cases hs : stride o.Γ (some t) with
        | none => rw [hs] at hz; simp only [Option.some.injEq] at hz; rw [← hz, BitVec.add_comm]; simp
        | some k => rw [hs] at hz; simpa using hz.symm
      rw [hty, hval, Bool.false_or]
      exact ⟨⟨H.sub, fun q hq => H.rfresh q (by rw [← hreg]; exact hq), fun _ => H.lo⟩, good_nil hrep⟩
    · have hcond : (stride o.Γ σr.ct = none ∧ scaleOf o.Γ σl.ann = (stride o.Γ σl.ct).getD 1) ∧
          runSh o .add σl σr = some (.comp σl.ann (binTy o.Γ .add σl.isNum σl.ct σr.ct)) := by
        rw [rep_pend H.lrep, rep_const H.rrep] at hp
        rw [rep_const H.lrep, rep_pend H.rrep] at hp
        cases σl <;> cases σr <;> simp only [runSh] at hsh ⊢ <;> first
          | (simp [Sh.isPend, Sh.isNum] at hp; done)
          | (split at hsh
             · rename_i hc; exact ⟨hc, if_pos hc⟩
             · simp at hsh)
      refine scaled hk hcond.2 ?_
      simp only [onValues, hcond.1.1] at hz
      rw [hcond.1.2]
      cases hs : stride o.Γ σl.ct with
      | none => rw [hs] at hz; simpa [aluEval] using hz.symm
      | some k => rw [hs] at hz; simpa [aluEval] using hz.symm
  | sub =>
    rcases subVals_run h hnc with ⟨b, offs, t, m, n, t', rfl, rfl, hk⟩ | ⟨hp, hk⟩
    · obtain ⟨rfl, rfl, rfl⟩ := rep_num_const H.rrep
      simp only [CV.value, Option.some.injEq] at hy
      subst hy
      have hst : stride o.Γ t' = none ∧ addConstSh o σl (-n) = some σ := by
        rcases rep_pend_sh H.lrep with rfl | ⟨bf, ld, cst, rfl⟩ <;> simp only [runSh] at hsh <;> split at hsh <;>
          first | exact ⟨‹_›, hsh⟩ | simp at hsh
      obtain ⟨rfl, rfl, hreg, hn0, hct, hrep⟩ := addConst_correct hk H.lrep hst.2 hx
      have hty : binTy o.Γ .sub σl.isNum σl.ct (Sh.num n t').ct = some t := by
        rw [hct]
        simp only [binTy, Bop.isBool, Sh.ct, hst.1]
        simp
      have hval : z = x + -n * BitVec.ofNat 64 ((stride o.Γ (some t)).getD 1) := by
        rw [hct] at hz
        simp only [Sh.ct, hst.1, onValues] at hz
        cases hs : stride o.Γ (some t) with
        | none => rw [hs] at hz; simp only [Option.some.injEq] at hz; rw [← hz]; simp [BitVec.sub_eq_add_neg]
        | some k =>
          rw [hs] at hz; simp only [Option.some.injEq] at hz; rw [← hz, BitVec.sub_eq_add_neg, BitVec.neg_mul]; rfl
      rw [hty, hval, Bool.or_false]
      exact ⟨⟨H.sub, fun q hq => H.lfresh q (by rw [← hreg]; exact hq), fun _ => H.lo⟩, good_nil hrep⟩
    · have hcond : (stride o.Γ σr.ct = none ∧ scaleOf o.Γ σl.ann = (stride o.Γ σl.ct).getD 1) ∧
          runSh o .sub σl σr = some (.comp σl.ann (binTy o.Γ .sub σl.isNum σl.ct σr.ct)) := by
        rw [rep_pend H.lrep, rep_const H.rrep] at hp
        cases σl <;> cases σr <;> simp only [runSh] at hsh ⊢ <;> first
          | (simp [Sh.isPend, Sh.isNum] at hp; done)
          | (split at hsh
             · rename_i hc; exact ⟨hc, if_pos hc⟩
             · simp at hsh)
      refine scaled hk hcond.2 ?_
      simp only [onValues, hcond.1.1] at hz
      rw [hcond.1.2]
      cases hs : stride o.Γ σl.ct with
      | none => rw [hs] at hz; simpa [aluEval] using hz.symm
      | some k => rw [hs] at hz; simpa [aluEval] using hz.symm

/-- Correctness of `binVals`. -/
theorem binVals_correct {o : Opts} {w : World} {a9 : BitVec 64} (env : Env o w a9) {s0 s s' : CSt} {st : St}
    {l0 r0 v : Val} {σl0 σr0 σ : Sh} {cl0 cr0 cv : CV} {nl nr : Bool} {op : Bop} {c : List Insn}
    (H0 : Two o w a9 s0 s st l0 r0 σl0 σr0 cl0 cr0 nl nr)
    (h : binVals o op l0 r0 s = .ok (v, s', c)) (he : Exact c)
    (hsh : binSh o op σl0 σr0 = some σ) (hc : binC o.Γ w.mem op cl0 cr0 = some cv) :
    Stat o s0 s' v ∧ Good o w s0 c st v σ cv (nl || nr) := by
  obtain ⟨l, r, hres, hop⟩ := binVals_ok h
  replace hop : opVals o op l r s = .ok (v, s', c) := hop
  obtain ⟨σl, σr, h1, h2, hsh⟩ := binSh_runtime hsh
  obtain ⟨cl, cr, h3, h4, hc⟩ := binC_runtime hc
  obtain ⟨hl, hr, hll, hrr⟩ := resolve_rep hres H0.lrep H0.rrep h1 h2 h3 h4
  have hlr : ∀ q, l.reg? = some q → l0.reg? = some q := by
    intro q hq
    rcases hll with rfl | h
    · exact hq
    · rw [h] at hq; simp at hq
  have hrr' : ∀ q, r.reg? = some q → r0.reg? = some q := by
    intro q hq
    rcases hrr with rfl | h
    · exact hq
    · rw [h] at hq; simp at hq
  have H : Two o w a9 s0 s st l r σl σr cl cr nl nr :=
    ⟨H0.sub, fun q hq => H0.lfresh q (hlr q hq), fun q hq => H0.rfresh q (hrr' q hq),
      fun q hq hq' => H0.apart q (hlr q hq) (hrr' q hq'), H0.lo, H0.nine, H0.st9, hl, hr⟩
  rcases hsh with ⟨a, ta, b, tb, n, rfl, rfl, hn, rfl⟩ | ⟨hn, hul, hur, hsh⟩
  · obtain ⟨rfl, rfl, rfl⟩ := hl
    obtain ⟨rfl, rfl, rfl⟩ := hr
    obtain ⟨rfl, rfl, rfl⟩ := fold_consts hop hn
    refine ⟨⟨H0.sub, fun q hq => by simp [Val.reg?] at hq, fun _ => H0.lo⟩, good_nil ?_⟩
    rcases hc with ⟨a', ta', b', tb', n', e1, e2, hn', rfl⟩ | ⟨hf, _⟩
    · simp only [CV.num.injEq] at e1 e2
      rw [← e1.1, ← e2.1, hn] at hn'
      rw [← Option.some.inj hn']
      exact ⟨rfl, rfl, rfl⟩
    · simp [CV.isNum] at hf
  · rcases hc with ⟨a', ta', b', tb', n', rfl, rfl, _, _⟩ | ⟨_, x, y, z, hx, hy, hz, rfl⟩
    · have e1 := (rep_ct hl).2
      have e2 := (rep_ct hr).2
      rw [← e1, ← e2] at hn
      simp [CV.isNum] at hn
    · rw [(rep_ct hl).1, (rep_ct hr).1] at hz
      rw [(rep_ct hl).1, (rep_ct hr).1, (rep_ct hl).2]
      exact opVals_correct env H hop he hn hul hur hsh hx hy hz

end Bpfsnoop.Cc
