import Verif.Props.CcLo

/-
Every expression of the verified fragment has a meaning, whatever the arguments and the memory are.
-/
namespace Bpfsnoop.Cc

/-- The form of the meaning of an expression that passed the check. -/
def ShOK (o : Opts) (σ : Sh) (cv : CV) : Prop :=
  match σ with
  | .num n t => cv = .num n t
  | .name s => cv = .name s
  | .comp _ ct => ∃ x, cv = .rv x ct false
  | .lazy t => ∃ x, cv = .rv x (some t) false
  | .obj t bf loads _ => (∃ a, cv = .lv a t bf) ∨
      (loads = true ∧ bf = none ∧ isScalar o.Γ t = true ∧ ∃ x, cv = .rv x (some t) true)

theorem shok_ct {o : Opts} {σ : Sh} {cv : CV} (h : ShOK o σ cv) : cv.ty = σ.ct ∧ cv.isNum = σ.isNum := by
  cases σ with
  | num n t => simp only [ShOK] at h; subst h; exact ⟨rfl, rfl⟩
  | name s => simp only [ShOK] at h; subst h; exact ⟨rfl, rfl⟩
  | comp a t => obtain ⟨x, rfl⟩ := h; exact ⟨rfl, rfl⟩
  | lazy t => obtain ⟨x, rfl⟩ := h; exact ⟨rfl, rfl⟩
  | obj t bf l c => rcases h with ⟨a, rfl⟩ | ⟨_, _, _, x, rfl⟩ <;> exact ⟨rfl, rfl⟩

theorem value_obj {Γ : Btf} {t : Ty} (h1 : isScalar Γ t = true) (h2 : okSize Γ t = true) (m : Mem) (a : BitVec 64) :
    ∃ x, CV.value Γ m (.lv a t none) = some x := by
  obtain ⟨s, hs, hh⟩ := okSize_iff h2
  unfold isScalar at h1
  simp only [CV.value, hs]
  cases hk : Γ.kindOf t with
  | int => simp only; rw [if_pos hh]; exact ⟨_, rfl⟩
  | enum => simp only; rw [if_pos hh]; exact ⟨_, rfl⟩
  | ptr => simp only; rw [if_pos hh]; exact ⟨_, rfl⟩
  | array => exact ⟨_, rfl⟩
  | _ => simp [hk] at h1

theorem value_array {Γ : Btf} {t : Ty} (h1 : isArray Γ t = true) (m : Mem) (a : BitVec 64) :
    CV.value Γ m (.lv a t none) = some a := by
  unfold isArray at h1
  simp only [CV.value]
  cases hk : Γ.kindOf t with
  | array => rfl
  | _ => simp [hk] at h1

/-- What can be used has a value. -/
theorem usable_value {o : Opts} {σ : Sh} {cv : CV} (h : ShOK o σ cv) (hu : σ.usable o = true) (m : Mem) :
    ∃ x, cv.value o.Γ m = some x := by
  cases σ with
  | num n t => simp only [ShOK] at h; subst h; exact ⟨_, rfl⟩
  | name s => simp [Sh.usable] at hu
  | comp a t => obtain ⟨x, rfl⟩ := h; exact ⟨_, rfl⟩
  | lazy t => obtain ⟨x, rfl⟩ := h; exact ⟨_, rfl⟩
  | obj t bf l c =>
    rcases h with ⟨a, rfl⟩ | ⟨_, _, _, x, rfl⟩
    · cases bf with
      | some p => obtain ⟨d, n⟩ := p; exact ⟨_, rfl⟩
      | none =>
        cases l with
        | true =>
          simp only [Sh.usable, Bool.and_eq_true] at hu
          exact value_obj hu.1 hu.2 m a
        | false =>
          simp only [Sh.usable, Bool.and_eq_true] at hu
          exact ⟨_, value_array hu.1 m a⟩
    · exact ⟨_, rfl⟩

theorem target_pointer {o : Opts} {σ : Sh} {cv : CV} {t : Ty} (h : ShOK o σ cv) (ht : σ.target o = some t) (m : Mem) :
    ∃ p z, cv.pointer o.Γ m = some (p, t, z) := by
  have key : ∀ {t0 : Ty}, (match o.Γ.kindOf t0 with
      | .ptr t' => if o.Γ.sizeOf t0 = some 8 then some t' else none
      | _ => none) = some t → o.Γ.kindOf t0 = .ptr t := by
    intro t0 h
    cases hk : o.Γ.kindOf t0 with
    | ptr t' =>
      simp only [hk] at h
      split at h
      · rw [Option.some.inj h]
      · simp at h
    | _ => simp [hk] at h
  cases σ with
  | num n t => simp [Sh.target] at ht
  | name s => simp [Sh.target] at ht
  | comp a ct =>
    obtain ⟨x, rfl⟩ := h
    cases a with
    | none => simp [Sh.target] at ht
    | some a =>
      simp only [Sh.target] at ht
      split at ht
      · rename_i hc
        subst hc
        simp only [CV.pointer, key ht]
        exact ⟨_, _, rfl⟩
      · simp at ht
  | lazy t0 =>
    obtain ⟨x, rfl⟩ := h
    simp only [Sh.target] at ht
    simp only [CV.pointer, key ht]
    exact ⟨_, _, rfl⟩
  | obj t0 bf l c =>
    cases bf with
    | some p => simp [Sh.target] at ht
    | none =>
      cases l with
      | false => simp [Sh.target] at ht
      | true =>
        simp only [Sh.target] at ht
        split at ht
        · simp at ht
        · rcases h with ⟨a, rfl⟩ | ⟨_, _, _, x, rfl⟩ <;> (simp only [CV.pointer, key ht]; exact ⟨_, _, rfl⟩)

theorem elem_elements {o : Opts} {σ : Sh} {cv : CV} {t : Ty} (h : ShOK o σ cv) (ht : σ.elem o = some t) (m : Mem) :
    ∃ p z, cv.elements o.Γ m = some (p, t, z) := by
  cases σ with
  | num n t => simp [Sh.elem] at ht
  | name s => simp [Sh.elem] at ht
  | comp a ct =>
    obtain ⟨x, rfl⟩ := h
    cases a with
    | none => simp [Sh.elem] at ht
    | some a =>
      cases ct with
      | none => simp [Sh.elem] at ht
      | some ct =>
        simp only [Sh.elem] at ht
        cases hk : o.Γ.kindOf a with
        | array t' =>
          simp only [hk] at ht
          split at ht
          · rename_i hc
            subst hc
            simp only [CV.elements, hk]
            rw [Option.some.inj ht]
            exact ⟨_, _, rfl⟩
          · simp at ht
        | _ =>
          simp only [hk] at ht
          have hct : ct = a := by
            simp only [Sh.target] at ht
            split at ht
            · rename_i h; exact Option.some.inj h
            · simp at ht
          subst hct
          simp only [CV.elements, hk]
          exact target_pointer (σ := .comp (some ct) (some ct)) ⟨x, rfl⟩ ht m
  | lazy t0 =>
    obtain ⟨x, rfl⟩ := h
    simp only [Sh.elem] at ht
    cases hk : o.Γ.kindOf t0 with
    | array t' =>
      simp only [hk] at ht
      split at ht
      · simp only [CV.elements, hk]
        rw [Option.some.inj ht]
        exact ⟨_, _, rfl⟩
      · simp at ht
    | _ =>
      simp only [hk] at ht
      simp only [CV.elements, hk]
      exact target_pointer (σ := .lazy t0) ⟨x, rfl⟩ ht m
  | obj t0 bf l c =>
    cases bf with
    | some p => simp [Sh.elem] at ht
    | none =>
      cases l with
      | false =>
        rcases h with ⟨a, rfl⟩ | ⟨hf, _⟩
        · simp only [Sh.elem] at ht
          cases hk : o.Γ.kindOf t0 with
          | array t' =>
            simp only [hk] at ht
            simp only [CV.elements, hk]
            rw [Option.some.inj ht]
            exact ⟨_, _, rfl⟩
          | _ => simp [hk] at ht
        · simp at hf
      | true =>
        simp only [Sh.elem] at ht
        cases hk : o.Γ.kindOf t0 with
        | array t' => simp [hk] at ht
        | _ =>
          simp only [hk] at ht
          have := target_pointer (σ := .obj t0 none true c) h ht m
          rcases h with ⟨a, rfl⟩ | ⟨_, _, _, x, rfl⟩ <;> (simp only [CV.elements, hk]; exact this)

theorem member_at {o : Opts} {t : Ty} {f : String} {l : Bool} {σ : Sh} (h : memberSh o t f l = some σ) (a : BitVec 64) :
    ∃ b t' bf, memberAt o.Γ t f a = some (.lv b t' bf) ∧ ShOK o σ (.lv b t' bf) := by
  unfold memberSh at h
  unfold memberAt
  cases hk : o.Γ.kindOf t with
  | comp id =>
    simp only [hk] at h ⊢
    cases hm : o.Γ.member id f with
    | none => rw [hm] at h; simp at h
    | some mem =>
      rw [hm] at h
      simp only [Option.map_some, Option.some.injEq] at h ⊢
      subst h
      exact ⟨_, _, _, rfl, .inl ⟨_, rfl⟩⟩
  | _ => simp [hk] at h

theorem resolve_ok {o : Opts} {σ σ' τ : Sh} {cv cw : CV} (h1 : ShOK o σ cv) (h2 : ShOK o τ cw)
    (h : resolveSh o.Γ σ τ = some σ') : ∃ cv', resolve o.Γ cv cw = some cv' ∧ ShOK o σ' cv' := by
  cases σ with
  | name s =>
    simp only [ShOK] at h1
    subst h1
    cases τ with
    | num n t => simp [resolveSh] at h
    | name s => simp [resolveSh] at h
    | comp a c =>
      obtain ⟨x, rfl⟩ := h2
      simp only [resolveSh] at h
      split at h
      · rename_i he
        rw [he] at h
        simp only [resolve]
        cases hx : extractEnum o.Γ c s with
        | none => rw [hx] at h; simp at h
        | some n =>
          rw [hx] at h
          simp only [Option.map_some, Option.some.injEq] at h ⊢
          subst h
          exact ⟨_, rfl, rfl⟩
      · simp at h
    | lazy t =>
      obtain ⟨x, rfl⟩ := h2
      simp only [resolveSh, resolve] at h ⊢
      cases hx : extractEnum o.Γ (some t) s with
      | none => rw [hx] at h; simp at h
      | some n =>
        rw [hx] at h
        simp only [Option.map_some, Option.some.injEq] at h ⊢
        subst h
        exact ⟨_, rfl, rfl⟩
    | obj t bf l c =>
      simp only [resolveSh] at h
      cases hx : extractEnum o.Γ (some t) s with
      | none => rw [hx] at h; simp at h
      | some n =>
        rw [hx] at h
        simp only [Option.map_some, Option.some.injEq] at h
        subst h
        rcases h2 with ⟨a, rfl⟩ | ⟨_, _, _, x, rfl⟩ <;>
          (simp only [resolve, hx, Option.map_some]; exact ⟨_, rfl, rfl⟩)
  | num n t =>
    simp only [ShOK] at h1; subst h1
    have : σ' = .num n t := by cases τ <;> exact (Option.some.inj h).symm
    subst this
    exact ⟨.num n t, by cases cw <;> rfl, rfl⟩
  | comp a t =>
    obtain ⟨x, rfl⟩ := h1
    have : σ' = .comp a t := by cases τ <;> exact (Option.some.inj h).symm
    subst this
    exact ⟨_, by cases cw <;> rfl, x, rfl⟩
  | lazy t =>
    obtain ⟨x, rfl⟩ := h1
    have : σ' = .lazy t := by cases τ <;> exact (Option.some.inj h).symm
    subst this
    exact ⟨_, by cases cw <;> rfl, x, rfl⟩
  | obj t bf l c =>
    have : σ' = .obj t bf l c := by cases τ <;> exact (Option.some.inj h).symm
    subst this
    refine ⟨cv, ?_, h1⟩
    rcases h1 with ⟨a, rfl⟩ | ⟨_, _, _, x, rfl⟩ <;> (cases cw <;> rfl)

/-- The conditions of `runSh` make the operator defined on values. -/
theorem runSh_defined {o : Opts} {op : Bop} {l r σ : Sh} (h : runSh o op l r = some σ) (x y : BitVec 64) :
    ∃ z, onValues op (stride o.Γ l.ct) (stride o.Γ r.ct) x y = some z := by
  have one : ∀ {a b : Option Nat}, b = none → ∃ z, onValues .add a b x y = some z := by
    rintro a _ rfl; cases a <;> exact ⟨_, rfl⟩
  have two : ∀ {a b : Option Nat}, a = none → ∃ z, onValues .add a b x y = some z := by
    rintro _ b rfl; cases b <;> exact ⟨_, rfl⟩
  have three : ∀ {a b : Option Nat}, b = none → ∃ z, onValues .sub a b x y = some z := by
    rintro a _ rfl; cases a <;> exact ⟨_, rfl⟩
  cases op with
  | add =>
    simp only [runSh] at h
    split at h
    · split at h
      · exact one ‹_›
      · simp at h
    · split at h
      · exact one ‹_›
      · simp at h
    · split at h
      · exact two ‹_›
      · simp at h
    · split at h
      · exact two ‹_›
      · simp at h
    · split at h
      · rename_i hc; exact one hc.1
      · simp at h
  | sub =>
    simp only [runSh] at h
    split at h
    · split at h
      · exact three ‹_›
      · simp at h
    · split at h
      · exact three ‹_›
      · simp at h
    · split at h
      · rename_i hc; exact three hc.1
      · simp at h
  | _ => exact ⟨_, rfl⟩

/-- Shapes of results of `runSh`. -/
theorem runSh_form {o : Opts} {op : Bop} {l r σ : Sh} (h : runSh o op l r = some σ)
    (hn : (l.isNum && r.isNum) = false) :
    ShOK o σ (.rv 0 (binTy o.Γ op l.isNum l.ct r.ct) false) := by
  have res : ∀ {σ : Sh}, some (.comp l.ann (binTy o.Γ op l.isNum l.ct r.ct)) = some σ →
      ShOK o σ (.rv 0 (binTy o.Γ op l.isNum l.ct r.ct) false) := by
    intro σ h; obtain rfl := Option.some.inj h; exact ⟨0, rfl⟩
  have addC : ∀ {τ : Sh} {n : BitVec 64} {σ : Sh}, addConstSh o τ n = some σ → ∃ t, σ = .lazy t ∧ τ.ct = some t := by
    intro τ n σ h
    unfold addConstSh at h
    split at h
    · simp at h
    · split at h
      · split at h
        · obtain rfl := Option.some.inj h; exact ⟨_, rfl, rfl⟩
        · simp at h
      · split at h
        · obtain rfl := Option.some.inj h; exact ⟨_, rfl, rfl⟩
        · simp at h
      · simp at h
  have hb : op.isBool = true → binTy o.Γ op l.isNum l.ct r.ct = none := by
    intro h; unfold binTy; rw [if_pos h]
  cases op with
  | add =>
    have tyl : ∀ {t}, stride o.Γ r.ct = none → l.isNum = false → l.ct = some t → binTy o.Γ .add l.isNum l.ct r.ct = some t := by
      intro t h1 h2 h3
      rw [h2, h3]
      unfold binTy
      rw [if_neg (by decide), if_neg (by rw [h1]; simp), if_neg (by simp)]
    have tyr : ∀ {t}, stride o.Γ l.ct = none → l.isNum = true → r.ct = some t → binTy o.Γ .add l.isNum l.ct r.ct = some t := by
      intro t h1 h2 h3
      rw [h2, h3]
      unfold binTy
      rw [if_neg (by decide), if_pos (by rw [h1]; simp)]
    simp only [runSh] at h
    split at h
    · split at h
      · obtain ⟨t, rfl, ht⟩ := addC h
        rw [tyl ‹_› rfl ht]; exact ⟨0, rfl⟩
      · simp at h
    · split at h
      · obtain ⟨t, rfl, ht⟩ := addC h
        rw [tyl ‹_› rfl ht]; exact ⟨0, rfl⟩
      · simp at h
    · split at h
      · obtain ⟨t, rfl, ht⟩ := addC h
        rw [tyr ‹_› rfl ht]; exact ⟨0, rfl⟩
      · simp at h
    · split at h
      · obtain ⟨t, rfl, ht⟩ := addC h
        rw [tyr ‹_› rfl ht]; exact ⟨0, rfl⟩
      · simp at h
    · split at h
      · exact res h
      · simp at h
  | sub =>
    have tyl : ∀ {t}, stride o.Γ r.ct = none → l.ct = some t → binTy o.Γ .sub l.isNum l.ct r.ct = some t := by
      intro t h1 h3
      rw [h3]
      unfold binTy
      rw [if_neg (by decide), if_neg (by simp), if_neg (by rw [h1]; simp)]
    simp only [runSh] at h
    split at h
    · split at h
      · obtain ⟨t, rfl, ht⟩ := addC h
        rw [tyl ‹_› ht]; exact ⟨0, rfl⟩
      · simp at h
    · split at h
      · obtain ⟨t, rfl, ht⟩ := addC h
        rw [tyl ‹_› ht]; exact ⟨0, rfl⟩
      · simp at h
    · split at h
      · exact res h
      · simp at h
  | mul => exact res h
  | and => exact res h
  | or => exact res h
  | xor => exact res h
  | div =>
    simp only [runSh] at h
    split at h
    · split at h
      · simp at h
      · exact res h
    · exact res h
  | mod =>
    simp only [runSh] at h
    split at h
    · split at h
      · simp at h
      · exact res h
    · exact res h
  | lsh =>
    simp only [runSh] at h
    split at h
    · split at h
      · simp at h
      · exact res h
    · exact res h
  | rsh =>
    simp only [runSh] at h
    split at h
    · split at h
      · simp at h
      · exact res h
    · exact res h
  | andand =>
    simp only [runSh] at h
    rw [hb rfl]
    split at h
    · split at h
      · simp at h
      · obtain rfl := Option.some.inj h; exact ⟨0, rfl⟩
    · split at h
      · simp at h
      · obtain rfl := Option.some.inj h; exact ⟨0, rfl⟩
    · obtain rfl := Option.some.inj h; rw [hb rfl]; exact ⟨0, rfl⟩
  | oror =>
    simp only [runSh] at h
    rw [hb rfl]
    split at h
    · split at h
      · simp at h
      · obtain rfl := Option.some.inj h; exact ⟨0, rfl⟩
    · split at h
      · simp at h
      · obtain rfl := Option.some.inj h; exact ⟨0, rfl⟩
    · obtain rfl := Option.some.inj h; rw [hb rfl]; exact ⟨0, rfl⟩
  | _ =>
    simp only [runSh] at h
    split at h
    · split at h
      · exact res h
      · simp at h
    · split at h
      · exact res h
      · simp at h
    · exact res h

theorem shok_rv {o : Opts} {σ : Sh} {t : Option Ty} {x y : BitVec 64} (h : ShOK o σ (.rv x t false)) :
    ShOK o σ (.rv y t false) := by
  cases σ with
  | num n t => simp [ShOK] at h
  | name s => simp [ShOK] at h
  | comp a ct => obtain ⟨z, h⟩ := h; simp only [CV.rv.injEq] at h; exact ⟨y, by rw [h.2.1]⟩
  | lazy t0 => obtain ⟨z, h⟩ := h; simp only [CV.rv.injEq] at h; exact ⟨y, by rw [h.2.1]⟩
  | obj t0 bf l c => rcases h with ⟨a, h⟩ | ⟨_, _, _, z, h⟩ <;> simp at h

theorem bin_defined {o : Opts} {op : Bop} {l r σ : Sh} {cl cr : CV} (h : binSh o op l r = some σ) (h1 : ShOK o l cl)
    (h2 : ShOK o r cr) (m : Mem) : ∃ cv, binC o.Γ m op cl cr = some cv ∧ ShOK o σ cv := by
  obtain ⟨l', r', e1, e2, hsh⟩ := binSh_runtime h
  obtain ⟨cl', f1, g1⟩ := resolve_ok h1 h2 e1
  obtain ⟨cr', f2, g2⟩ := resolve_ok h2 h1 e2
  unfold binC
  simp only [f1, f2, Option.bind_eq_bind, Option.bind_some]
  rcases hsh with ⟨a, ta, b, tb, n, rfl, rfl, hn, rfl⟩ | ⟨hn, hul, hur, hsh⟩
  · simp only [ShOK] at g1 g2
    subst g1; subst g2
    simp only [hn, Option.map_some]
    exact ⟨_, rfl, rfl⟩
  · obtain ⟨x, hx⟩ := usable_value g1 hul m
    obtain ⟨y, hy⟩ := usable_value g2 hur m
    obtain ⟨z, hz⟩ := runSh_defined hsh x y
    have hf := runSh_form hsh hn
    rw [← (shok_ct g1).1, ← (shok_ct g2).1] at hz hf
    rw [← (shok_ct g1).2] at hf hn
    rw [← (shok_ct g2).2] at hn
    refine ⟨.rv z (binTy o.Γ op cl'.isNum cl'.ty cr'.ty) false, ?_, shok_rv hf⟩
    cases cl' <;> cases cr' <;> first
      | (simp [CV.isNum] at hn; done)
      | simp only [hx, hy, hz, Option.bind_some]

theorem un_defined {o : Opts} {op : Uop} {σ0 σ : Sh} {cv0 : CV} (h : unSh o op σ0 = some σ) (h1 : ShOK o σ0 cv0) (m : Mem) :
    ∃ cv, unC o.Γ m op cv0 = some cv ∧ ShOK o σ cv := by
  by_cases hp : op = .paren ∨ op = .plus
  · have e1 : unSh o op σ0 = some σ0 := by rcases hp with rfl | rfl <;> rfl
    have e2 : unC o.Γ m op cv0 = some cv0 := by rcases hp with rfl | rfl <;> rfl
    rw [e1] at h
    obtain rfl := Option.some.inj h
    exact ⟨cv0, e2, h1⟩
  have hp1 : op ≠ .paren := fun h => hp (.inl h)
  have hp2 : op ≠ .plus := fun h => hp (.inr h)
  cases hn : σ0.isNum with
  | true =>
    cases σ0 with
    | num n t =>
      simp only [ShOK] at h1; subst h1
      have : σ = .num (unOn op 1 n) none := by
        cases op <;> first | exact absurd rfl hp1 | exact absurd rfl hp2 | exact (Option.some.inj h).symm
      subst this
      refine ⟨.num (unOn op 1 n) none, ?_, rfl⟩
      cases op <;> first | exact absurd rfl hp1 | exact absurd rfl hp2 | rfl
    | _ => simp [Sh.isNum] at hn
  | false =>
    have e : unSh o op σ0 = if !σ0.usable o then none
        else if (op = .preinc ∨ op = .predec) ∧ stride o.Γ σ0.ct ≠ none then none
        else some (.comp σ0.ann (if op = .not then none else σ0.ct)) := by
      cases op <;> first | exact absurd rfl hp1 | exact absurd rfl hp2 | skip
      all_goals (cases σ0 <;> first | (simp [Sh.isNum] at hn; done) | rfl)
    rw [e] at h
    split at h
    · simp at h
    rename_i hu
    split at h
    · simp at h
    obtain rfl := Option.some.inj h
    obtain ⟨x, hx⟩ := usable_value h1 (by simpa using hu) m
    have hcn : cv0.isNum = false := by rw [(shok_ct h1).2]; exact hn
    have e2 : unC o.Γ m op cv0 = (cv0.value o.Γ m).map fun x =>
        .rv (unOn op (BitVec.ofNat 64 ((stride o.Γ cv0.ty).getD 1)) x) (if op = .not then none else cv0.ty) false := by
      cases op <;> first | exact absurd rfl hp1 | exact absurd rfl hp2 | skip
      all_goals (cases cv0 <;> first | (simp [CV.isNum] at hcn; done) | rfl)
    rw [e2, hx, (shok_ct h1).1]
    exact ⟨_, rfl, _, rfl⟩

theorem cast_defined {o : Opts} {t : Ty} {σ0 σ : Sh} {cv0 : CV} (h : castSh o t σ0 = some σ) (h1 : ShOK o σ0 cv0) (m : Mem) :
    ∃ cv, castC o.Γ m t cv0 = some cv ∧ ShOK o σ cv := by
  unfold castSh at h
  split at h
  · simp at h
  rename_i hso
  simp only [Bool.not_eq_true, Bool.not_eq_false', Bool.and_eq_true] at hso
  unfold castC
  rw [if_pos hso.1]
  cases σ0 with
  | num n t0 =>
    simp only [ShOK] at h1; subst h1
    simp only at h ⊢
    split at h
    · rename_i hc
      obtain rfl := Option.some.inj h
      exact ⟨_, rfl, by rw [hc]; rfl⟩
    · simp at h
  | name s => simp at h
  | comp a ct =>
    obtain ⟨x, rfl⟩ := h1
    simp only at h ⊢
    split at h
    · obtain rfl := Option.some.inj h; exact ⟨_, rfl, _, rfl⟩
    · simp at h
  | lazy t0 =>
    obtain ⟨x, rfl⟩ := h1
    simp only at h ⊢
    have : σ = .lazy t := by
      split at h
      · exact (Option.some.inj h).symm
      · split at h
        · exact (Option.some.inj h).symm
        · simp at h
    subst this
    exact ⟨_, rfl, _, rfl⟩
  | obj t0 bf l c =>
    cases bf with
    | some p => simp at h
    | none =>
      cases l with
      | true =>
        simp only at h
        split at h
        · rename_i hc
          obtain rfl := Option.some.inj h
          simp only [Bool.and_eq_true] at hc
          have harr : isArray o.Γ t0 = false := by
            have := hc.1.1
            unfold isScalar at this
            unfold isArray
            cases hk : o.Γ.kindOf t0 <;> simp [hk] at this ⊢
          rcases h1 with ⟨a, rfl⟩ | ⟨_, _, _, x, rfl⟩
          · obtain ⟨x, hx⟩ := value_obj hc.1.1 hc.1.2 m a
            simp only [hx, Option.map_some, harr]
            exact ⟨_, rfl, .inr ⟨rfl, rfl, hso.1, _, rfl⟩⟩
          · exact ⟨_, rfl, .inr ⟨rfl, rfl, hso.1, _, rfl⟩⟩
        · simp at h
      | false =>
        simp only at h
        split at h
        · rename_i hc
          obtain rfl := Option.some.inj h
          simp only [Bool.and_eq_true] at hc
          rcases h1 with ⟨a, rfl⟩ | ⟨hf, _⟩
          · simp only [value_array hc.1 m a, Option.map_some, hc.1]
            exact ⟨_, rfl, _, rfl⟩
          · simp at hf
        · simp at h

/-- Every expression that passes the check has a meaning. -/
theorem shape_defined {o : Opts} (w : World) : ∀ {e : Expr} {σ : Sh}, shape o e = some σ →
    ∃ cv nul, ceval o w e = some (cv, nul) ∧ ShOK o σ cv ∧ (isLval e = true → ∃ a t bf, cv = .lv a t bf) := by
  intro e
  induction e with
  | name n =>
    intro σ h
    refine ⟨_, _, rfl, ?_, by simp [isLval]⟩
    simp only [shape, nameSh] at h
    unfold nameC
    split at h
    · rename_i h0
      obtain rfl := Option.some.inj h
      rw [if_pos h0]; rfl
    · rename_i h0
      rw [if_neg h0]
      split at h
      · rename_i h1
        obtain rfl := Option.some.inj h
        rw [if_pos h1]; rfl
      · rename_i h1
        rw [if_neg h1]
        cases hv : findVar n o.vars 0 with
        | none => simp only [hv] at h ⊢; obtain rfl := Option.some.inj h; rfl
        | some p =>
          obtain ⟨i, t⟩ := p
          simp only [hv] at h ⊢
          split at h
          · obtain rfl := Option.some.inj h; exact ⟨_, rfl⟩
          · simp at h
  | num text =>
    intro σ h
    simp only [shape, Option.map_eq_some_iff] at h
    obtain ⟨n, hn, rfl⟩ := h
    simp only [ceval, hn, Option.map_some]
    exact ⟨_, _, rfl, rfl, by simp [isLval]⟩
  | arrow e f ih =>
    intro σ h
    simp only [shape, Option.bind_eq_bind, Option.bind_eq_some_iff] at h
    obtain ⟨σ0, h1, t, h2, h3⟩ := h
    obtain ⟨cv, n, hc, hok, _⟩ := ih h1
    obtain ⟨p, z, hp⟩ := target_pointer hok h2 w.mem
    obtain ⟨b, t', bf, hm, hs⟩ := member_at h3 p
    simp only [ceval, hc, hp, hm, Option.bind_eq_bind, Option.bind_some]
    exact ⟨_, _, rfl, hs, fun _ => ⟨_, _, _, rfl⟩⟩
  | dot e f ih =>
    intro σ h
    simp only [shape, Option.bind_eq_bind, Option.bind_eq_some_iff] at h
    obtain ⟨σ0, h1, h2⟩ := h
    obtain ⟨cv, n, hc, hok, _⟩ := ih h1
    split at h2
    · rename_i t l c
      have hlv : ∃ a, cv = .lv a t none := by
        rcases hok with ⟨a, rfl⟩ | ⟨_, _, hsc, _⟩
        · exact ⟨a, rfl⟩
        · unfold isScalar at hsc
          unfold memberSh at h2
          cases hk : o.Γ.kindOf t <;> simp [hk] at hsc h2
      obtain ⟨a, rfl⟩ := hlv
      obtain ⟨b, t', bf, hm, hs⟩ := member_at h2 a
      simp only [ceval, hc, hm, Option.bind_eq_bind, Option.bind_some, Option.map_some]
      exact ⟨_, _, rfl, hs, fun _ => ⟨_, _, _, rfl⟩⟩
    · simp at h2
  | index e i ih _ =>
    intro σ h
    cases i with
    | num text =>
      simp only [shape, Option.bind_eq_bind, Option.bind_eq_some_iff] at h
      obtain ⟨σ0, h1, t, h2, k, h3, h4⟩ := h
      obtain rfl := Option.some.inj h4
      obtain ⟨cv, n, hc, hok, _⟩ := ih h1
      obtain ⟨p, z, hp⟩ := elem_elements hok h2 w.mem
      simp only [ceval, hc, hp, h3, Option.bind_eq_bind, Option.bind_some]
      exact ⟨_, _, rfl, .inl ⟨_, rfl⟩, fun _ => ⟨_, _, _, rfl⟩⟩
    | _ => simp [shape] at h
  | indir e ih =>
    intro σ h
    simp only [shape, Option.bind_eq_bind, Option.bind_eq_some_iff] at h
    obtain ⟨σ0, h1, t, h2, h3⟩ := h
    obtain rfl := Option.some.inj h3
    obtain ⟨cv, n, hc, hok, _⟩ := ih h1
    obtain ⟨p, z, hp⟩ := target_pointer hok h2 w.mem
    simp only [ceval, hc, hp, Option.bind_eq_bind, Option.bind_some]
    exact ⟨_, _, rfl, .inl ⟨_, rfl⟩, fun _ => ⟨_, _, _, rfl⟩⟩
  | addr e ih =>
    intro σ h
    simp only [shape, Option.bind_eq_bind, Option.bind_eq_some_iff] at h
    obtain ⟨σ0, h1, h2⟩ := h
    obtain ⟨cv, n, hc, hok, hlv⟩ := ih h1
    split at h2
    · rename_i t l c
      split at h2
      case isFalse => simp at h2
      rename_i hl
      obtain rfl := Option.some.inj h2
      obtain ⟨a, t', bf, rfl⟩ := hlv hl
      have : t' = t ∧ bf = none := by
        rcases hok with ⟨a', h⟩ | ⟨_, _, _, _, h⟩
        · simp only [CV.lv.injEq] at h; exact h.2
        · simp at h
      obtain ⟨rfl, rfl⟩ := this
      simp only [ceval, hc, Option.bind_eq_bind, Option.bind_some]
      exact ⟨_, _, rfl, ⟨_, rfl⟩, by simp [isLval]⟩
    · simp at h2
  | cast t e ih =>
    intro σ h
    by_cases hn : ∃ text, e = .num text
    · obtain ⟨text, rfl⟩ := hn
      simp only [shape, Option.bind_eq_bind, Option.bind_eq_some_iff] at h
      obtain ⟨ty, rfl, n, h2, h3⟩ := h
      split at h3
      · rename_i hc
        obtain rfl := Option.some.inj h3
        simp only [Bool.and_eq_true] at hc
        simp only [ceval, h2, Option.bind_eq_bind, Option.bind_some]
        rw [if_pos hc.1.1]
        exact ⟨_, _, rfl, ⟨_, rfl⟩, by simp [isLval]⟩
      · simp at h3
    · have hn' : ∀ text, e ≠ .num text := fun t h => hn ⟨t, h⟩
      obtain ⟨σ0, ty, h1, rfl, h2⟩ := shape_cast hn' h
      obtain ⟨cv, n, hc, hok, _⟩ := ih h1
      obtain ⟨cv', hc', hok'⟩ := cast_defined h2 hok w.mem
      have : ceval o w (.cast (some ty) e) = (do
        let (v, n) ← ceval o w e
        let t ← (some ty : Option Ty)
        let r ← castC o.Γ w.mem t v
        some (r, n)) := by
        cases e <;> first | rfl | exact absurd rfl (hn' _)
      rw [this, hc]
      simp only [Option.bind_eq_bind, Option.bind_some, hc']
      exact ⟨_, _, rfl, hok', by simp [isLval]⟩
  | un op e ih =>
    intro σ h
    simp only [shape, Option.bind_eq_bind, Option.bind_eq_some_iff] at h
    obtain ⟨σ0, h1, h2⟩ := h
    obtain ⟨cv, n, hc, hok, hlv⟩ := ih h1
    obtain ⟨cv', hc', hok'⟩ := un_defined h2 hok w.mem
    simp only [ceval, hc, hc', Option.bind_eq_bind, Option.bind_some]
    refine ⟨_, _, rfl, hok', fun hl => ?_⟩
    have : (op = .paren ∨ op = .plus) ∧ isLval e = true := by
      cases op <;> simp_all [isLval]
    have e2 : unC o.Γ w.mem op cv = some cv := by rcases this.1 with rfl | rfl <;> rfl
    rw [e2] at hc'
    obtain rfl := Option.some.inj hc'
    exact hlv this.2
  | bin op l r ihl ihr =>
    intro σ h
    simp only [shape, Option.bind_eq_bind, Option.bind_eq_some_iff] at h
    obtain ⟨σl, h1, σr, h2, h3⟩ := h
    obtain ⟨cl, nl, hc1, hok1, _⟩ := ihl h1
    obtain ⟨cr, nr, hc2, hok2, _⟩ := ihr h2
    obtain ⟨cv, hc, hok⟩ := bin_defined h3 hok1 hok2 w.mem
    simp only [ceval, hc1, hc2, hc, Option.bind_eq_bind, Option.bind_some]
    exact ⟨_, _, rfl, hok, by simp [isLval]⟩
  | cond c l r ihc ihl ihr =>
    intro σ h
    simp only [shape, Option.bind_eq_bind, Option.bind_eq_some_iff] at h
    obtain ⟨σc, h1, σl, h2, σr, h3, h4⟩ := h
    split at h4
    · rename_i hok
      obtain rfl := Option.some.inj h4
      simp only [Bool.and_eq_true] at hok
      obtain ⟨cc, nc, hc1, hok1, _⟩ := ihc h1
      obtain ⟨cl, nl, hc2, hok2, _⟩ := ihl h2
      obtain ⟨cr, nr, hc3, hok3, _⟩ := ihr h3
      obtain ⟨x, hx⟩ := usable_value hok1 hok.1.1.1.1.1 w.mem
      obtain ⟨y, hy⟩ := usable_value hok2 hok.1.1.1.1.2 w.mem
      obtain ⟨z, hz⟩ := usable_value hok3 hok.1.1.1.2 w.mem
      simp only [ceval, hc1, hc2, hc3, hx, hy, hz, Option.bind_eq_bind, Option.bind_some]
      have := cond_ct (shok_ct hok2).1 (shok_ct hok3).1 (shok_ct hok2).2
      exact ⟨_, _, rfl, ⟨if x ≠ 0 then y else z,
        congrArg (fun t => CV.rv (if x ≠ 0 then y else z) t false) this.symm⟩, by simp [isLval]⟩
    · simp at h4
  | unsup => intro σ h; simp [shape] at h

end Bpfsnoop.Cc
