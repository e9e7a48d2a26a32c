import Verif.Props.CcBin

/-
Unary and conditional operators, and the whole of `evaluate`.
-/
namespace Bpfsnoop.Cc

theorem puts_un {m : Mem} {i : Insn} {r : Nat} {st : St} {z : BitVec 64} (h : stepI m i st = .seq (st.set r z)) :
    Puts m [i] st false (fun q => q ≠ r) r z :=
  puts_set h (fun h => h rfl)

/-- The code of `unVals` on values that are not constants. -/
theorem unVals_run {o : Opts} {op : Uop} {u v : Val} {s s' : CSt} {c : List Insn}
    (h : unVals o op u s = .ok (v, s', c)) (hn : u.isConst = false) (h1 : op ≠ .paren) (h2 : op ≠ .plus) :
    unRun o u (match op with
      | .not => fun r => .jmpImm .ne r 0 2 :: reg2bool r
      | .minus => fun r => [.neg r]
      | .twid => fun r => [.aluImm .xor r (-1)]
      | .preinc => fun r => [.aluImm .add r 1]
      | _ => fun r => [.aluImm .sub r 1]) s = .ok (v, s', c) := by
  cases op with
  | paren => exact absurd rfl h1
  | plus => exact absurd rfl h2
  | twid =>
    cases u with
    | const => simp [Val.isConst] at hn
    | _ => exact check1_ok h
  | _ =>
    cases u with
    | const => simp [Val.isConst] at hn
    | _ => exact h

/-- Correctness of `unVals`. -/
theorem unVals_correct {o : Opts} {w : World} {a9 : BitVec 64} (env : Env o w a9) {s0 s s' : CSt} {st : St}
    {op : Uop} {u v : Val} {σ0 σ : Sh} {cv0 cv : CV} {nul : Bool} {c : List Insn}
    (hs : Stat o s0 s u) (hlo : LoOK o s.used) (h9 : st.regs 9 = a9) (hrep : Rep o w st u σ0 cv0 nul)
    (h : unVals o op u s = .ok (v, s', c)) (he : Exact c)
    (hsh : unSh o op σ0 = some σ) (hc : unC o.Γ w.mem op cv0 = some cv) :
    Stat o s0 s' v ∧ Good o w s0 c st v σ cv nul := by
  by_cases h1 : op = .paren
  · subst h1
    obtain ⟨rfl, rfl, rfl⟩ := pure_ok h
    simp only [unSh, unC, Option.some.injEq] at hsh hc
    subst hsh; subst hc
    exact ⟨hs, good_nil hrep⟩
  by_cases h2 : op = .plus
  · subst h2
    obtain ⟨rfl, rfl, rfl⟩ := pure_ok h
    simp only [unSh, unC, Option.some.injEq] at hsh hc
    subst hsh; subst hc
    exact ⟨hs, good_nil hrep⟩
  cases hcst : u.isConst with
  | true =>
    have hnum : σ0.isNum = true := by rw [← rep_const hrep]; exact hcst
    cases σ0 with
    | num n t =>
      obtain ⟨rfl, rfl, rfl⟩ := hrep
      have hσ : σ = .num (unOn op 1 n) none := by
        cases op <;> first | exact absurd rfl h1 | exact absurd rfl h2 | exact (Option.some.inj hsh).symm
      have hcv : cv = .num (unOn op 1 n) none := by
        cases op <;> first | exact absurd rfl h1 | exact absurd rfl h2 | exact (Option.some.inj hc).symm
      have key : v = .const (unOn op 1 n) none ∧ s' = s ∧ c = [] := by
        cases op <;> first | exact absurd rfl h1 | exact absurd rfl h2 | skip
        all_goals (obtain ⟨rfl, rfl, rfl⟩ := pure_ok h; refine ⟨?_, rfl, rfl⟩; try rfl)
        simp only [unOn, b2n, beq_iff_eq]
      obtain ⟨rfl, rfl, rfl⟩ := key
      subst hσ; subst hcv
      exact ⟨⟨hs.sub, fun q hq => by simp [Val.reg?] at hq, hs.lo⟩, good_nil ⟨rfl, rfl, rfl⟩⟩
    | _ => simp [Sh.isNum] at hnum
  | false =>
    have hnum : σ0.isNum = false := by rw [← rep_const hrep]; exact hcst
    have hsh' : σ0.usable o = true ∧ ((op = .preinc ∨ op = .predec) → stride o.Γ σ0.ct = none) ∧
        σ = .comp σ0.ann (if op = .not then none else σ0.ct) := by
      have : unSh o op σ0 = if !σ0.usable o then none
          else if (op = .preinc ∨ op = .predec) ∧ stride o.Γ σ0.ct ≠ none then none
          else some (.comp σ0.ann (if op = .not then none else σ0.ct)) := by
        cases op <;> first | exact absurd rfl h1 | exact absurd rfl h2 | skip
        all_goals (cases σ0 <;> first | (simp [Sh.isNum] at hnum; done) | rfl)
      rw [this] at hsh
      split at hsh
      · simp at hsh
      · split at hsh
        · simp at hsh
        · rename_i ha hb
          refine ⟨by simpa using ha, fun h => ?_, (Option.some.inj hsh).symm⟩
          cases hst : stride o.Γ σ0.ct with
          | none => rfl
          | some k => exact absurd ⟨h, by rw [hst]; simp⟩ hb
    obtain ⟨hu, hstr, rfl⟩ := hsh'
    have hcn : cv0.isNum = false := by rw [(rep_ct hrep).2]; exact hnum
    have hc' : ∃ x, cv0.value o.Γ w.mem = some x ∧
        cv = .rv (unOn op (BitVec.ofNat 64 ((stride o.Γ cv0.ty).getD 1)) x) (if op = .not then none else cv0.ty) false := by
      have : unC o.Γ w.mem op cv0 = (cv0.value o.Γ w.mem).map fun x =>
          .rv (unOn op (BitVec.ofNat 64 ((stride o.Γ cv0.ty).getD 1)) x) (if op = .not then none else cv0.ty) false := by
        cases op <;> first | exact absurd rfl h1 | exact absurd rfl h2 | skip
        all_goals (cases cv0 <;> first | (simp [CV.isNum] at hcn; done) | rfl)
      rw [this] at hc
      cases hv : cv0.value o.Γ w.mem with
      | none => rw [hv] at hc; simp at hc
      | some x => rw [hv] at hc; exact ⟨x, rfl, (Option.some.inj hc).symm⟩
    obtain ⟨x, hx, rfl⟩ := hc'
    rw [(rep_ct hrep).1]
    have hrun := unVals_run h hcst h1 h2
    obtain ⟨hst, r, rfl, hp⟩ := unRun_correct env (z := unOn op (BitVec.ofNat 64 ((stride o.Γ σ0.ct).getD 1)) x)
      hs.sub hs.fresh hlo h9 hrep hrun he hu hx (by
        intro r st hr hex
        cases op with
        | paren => exact absurd rfl h1
        | plus => exact absurd rfl h2
        | not =>
          have hex := exec_cmpImm w.mem .ne r 0 st
          rw [hr] at hex
          have : b2n (!(cmpEval .ne x (sx32 0))) = if x = 0 then 1 else 0 := by
            by_cases h : x = 0
            · rw [cmp_ne0 h, if_pos h]; rfl
            · rw [cmp_ne0' h, if_neg h]; rfl
          rw [this] at hex
          exact puts_st hex (fun h => h rfl)
        | minus => exact puts_un (by simp only [stepI, hr]; rfl)
        | twid =>
          have := puts_aluImm (m := w.mem) hr hex
          simp only [aluEval] at this
          have e : x ^^^ -1 = ~~~x := by rw [show (-1 : BitVec 64) = BitVec.allOnes 64 by decide, BitVec.xor_allOnes]
          rw [e] at this
          exact this
        | preinc =>
          have := puts_aluImm (m := w.mem) hr hex
          rw [hstr (.inl rfl)]
          exact this
        | predec =>
          have := puts_aluImm (m := w.mem) hr hex
          rw [hstr (.inr rfl)]
          exact this)
    exact ⟨hst, good_of_puts hp⟩

/-! ### The conditional operator -/

/-- One arm: its value ends up in `rc`. -/
theorem condArm_correct {o : Opts} {w : World} {a9 : BitVec 64} (env : Env o w a9) {s0 s s' : CSt} {st : St}
    {rc : Nat} {v : Val} {σ : Sh} {cv : CV} {nul : Bool} {u : Unit} {c : List Insn} {x : BitVec 64}
    (hsub : ∀ q, s0.used q = true → s.used q = true)
    (hfr : ∀ q, v.reg? = some q → s0.used q = false ∧ s.used q = true ∧ q ≤ 8 ∧ q ≠ rc)
    (hrc : s0.used rc = false) (hrcu : s.used rc = true) (hrc8 : rc ≤ 8)
    (hlo : LoOK o s.used) (h9 : st.regs 9 = a9) (hrep : Rep o w st v σ cv nul)
    (h : condArm o rc v s = .ok (u, s', c)) (he : Exact c) (hu : σ.usable o = true)
    (hx : cv.value o.Γ w.mem = some x) :
    Puts w.mem c st nul (Keep s0.used) rc x ∧ LoOK o s'.used ∧
      (∀ q, s.used q = true → v.reg? ≠ some q → s'.used q = true) := by
  have hK : ¬ Keep s0.used rc := by
    rintro (h | h)
    · rw [hrc] at h; simp at h
    · omega
  rcases condArm_ok h with ⟨n, t, rfl, rfl, rfl⟩ | ⟨r, t, m, s1, c1, h1, rfl, rfl, hne⟩
  · obtain ⟨rfl, rfl, rfl⟩ := rep_num_const hrep
    simp only [CV.value, Option.some.injEq] at hx
    subst hx
    refine ⟨?_, hlo, fun q hq _ => hq⟩
    have : sx32 n = n := he _ List.mem_cons_self
    exact puts_set (by simp only [stepI, this]) hK
  · rw [exact_append] at he
    have m1 := mat_reg h1 hsub (fun q hq => ⟨(hfr q hq).1, (hfr q hq).2.1, (hfr q hq).2.2.1⟩)
    have p1 := materialize_correct env h1 hrep hu hx h9 hlo he.1
    refine ⟨?_, lo_free (m1.lo hlo), fun q hq hq' => ?_⟩
    · have goal := puts_append (K := Keep s0.used) (puts_mono p1 fun q hq => hq.imp (hsub q) id)
        (c2 := [.movReg rc r]) (a2 := false) (r2 := rc) (x2 := x)
        (fun st1 _ hx1 => puts_set (by simp only [stepI, hx1]) hK)
      simpa using goal
    · show free s1.used r q = true
      rw [free_other]
      · exact m1.sub q hq
      · rintro rfl
        rcases m1.how with h | h
        · exact hq' h
        · rw [hq] at h; simp at h

/-- Correctness of `condVals`: the operands have been evaluated, the condition is not a constant. -/
theorem condVals_correct {o : Opts} {w : World} {a9 : BitVec 64} (env : Env o w a9) {s0 s s' : CSt} {st : St}
    {vc vl vr v : Val} {σc σl σr : Sh} {cc cl cr : CV} {nc nl nr : Bool} {c : List Insn} {x y z : BitVec 64}
    {ct : Option Ty}
    (hsub : ∀ q, s0.used q = true → s.used q = true)
    (hcf : ∀ q, vc.reg? = some q → s0.used q = false ∧ s.used q = true ∧ q ≤ 8)
    (hlf : ∀ q, vl.reg? = some q → s0.used q = false ∧ s.used q = true ∧ q ≤ 8)
    (hrf : ∀ q, vr.reg? = some q → s0.used q = false ∧ s.used q = true ∧ q ≤ 8)
    (hcl : ∀ q, vc.reg? = some q → vl.reg? ≠ some q) (hcr : ∀ q, vc.reg? = some q → vr.reg? ≠ some q)
    (hlr : ∀ q, vl.reg? = some q → vr.reg? ≠ some q)
    (hlo : LoOK o s.used) (hnine : s.used 9 = true) (h9 : st.regs 9 = a9)
    (hc : Rep o w st vc σc cc nc) (hl : Rep o w st vl σl cl nl) (hr : Rep o w st vr σr cr nr)
    (h : condVals o vc vl vr s = .ok (v, s', c)) (he : Exact c)
    (huc : σc.usable o = true) (hul : σl.usable o = true) (hur : σr.usable o = true) (hnum : σc.isNum = false)
    (hx : cc.value o.Γ w.mem = some x) (hy : cl.value o.Γ w.mem = some y) (hz : cr.value o.Γ w.mem = some z) :
    Stat o s0 s' v ∧ Good o w s0 c st v (.comp σc.ann ct) (.rv (if x ≠ 0 then y else z) ct false)
      (nc || (if x ≠ 0 then nl else nr)) := by
  rcases condVals_ok h with ⟨n, t, rfl, _⟩ | ⟨_, rc, tc, mc, s1, c1, s2, kl, kr, h1, h2, h3, rfl, rfl⟩
  · obtain ⟨rfl, _⟩ := rep_num_const hc
    simp [Sh.isNum] at hnum
  have hf : Fits (condCode rc kl kr) := (fits_append.mp (exact_fits he)).2
  rw [exact_append] at he
  have hekl : Exact kl := fun i hi => he.2 i (by simp [condCode, hi])
  have hekr : Exact kr := fun i hi => he.2 i (by simp [condCode, hi])
  have htc : tc = σc.ann := by rw [(materialize_static h1).2.1, rep_ty hc]
  subst htc
  have m1 := mat_reg h1 hsub hcf
  have hsub1 : ∀ q, s0.used q = true → s1.used q = true := fun q hq => m1.sub q (hsub q hq)
  have hne : ∀ {u : Val}, (∀ q, u.reg? = some q → s0.used q = false ∧ s.used q = true ∧ q ≤ 8) →
      (∀ q, vc.reg? = some q → u.reg? ≠ some q) → ∀ q, u.reg? = some q → q ≠ rc := by
    rintro u hu hcu q hq rfl
    rcases m1.how with h | h
    · exact hcu _ h hq
    · rw [(hu _ hq).2.1] at h; simp at h
  have p1 := materialize_correct env h1 hc huc hx h9 hlo he.1
  -- static facts about the arms
  have hlfr : ∀ q, vl.reg? = some q → s0.used q = false ∧ s1.used q = true ∧ q ≤ 8 ∧ q ≠ rc :=
    fun q hq => ⟨(hlf q hq).1, m1.sub q (hlf q hq).2.1, (hlf q hq).2.2, hne hlf hcl q hq⟩
  have hlo1 := m1.lo hlo
  -- the state in which the arms start, when there is one
  have arms : ∀ st1, Same (Keep s.used) st st1 →
      (Puts w.mem kl st1 nl (Keep s0.used) rc y ∧ LoOK o s2.used ∧
        (∀ q, s1.used q = true → vl.reg? ≠ some q → s2.used q = true)) ∧
      (Puts w.mem kr st1 nr (Keep s0.used) rc z ∧ LoOK o s'.used ∧
        (∀ q, s2.used q = true → vr.reg? ≠ some q → s'.used q = true)) := by
    intro st1 k1
    have h91 : st1.regs 9 = a9 := by rw [k1 9 (.inl hnine)]; exact h9
    have hl1 : Rep o w st1 vl σl cl nl := rep_same hl fun q hq => k1 q (.inl (hlf q hq).2.1)
    have hr1 : Rep o w st1 vr σr cr nr := rep_same hr fun q hq => k1 q (.inl (hrf q hq).2.1)
    have a1 := condArm_correct env hsub1 hlfr m1.new m1.used m1.le hlo1 h91 hl1 h2 hekl hul hy
    refine ⟨a1, ?_⟩
    have keep2 : ∀ q, s1.used q = true → vl.reg? ≠ some q → s2.used q = true := a1.2.2
    refine condArm_correct env (s := s2) (fun q hq => keep2 q (hsub1 q hq) ?_) (fun q hq => ?_) m1.new
      (keep2 rc m1.used ?_) m1.le a1.2.1 h91 hr1 h3 hekr hur hz
    · intro h; rw [(hlf q h).1] at hq; simp at hq
    · exact ⟨(hrf q hq).1, keep2 q (m1.sub q (hrf q hq).2.1) (fun h => hlr q h hq), (hrf q hq).2.2,
        hne hrf hcr q hq⟩
    · intro h; exact hne hlf hcl rc h rfl
  have A := arms st (Same.refl _ _)
  refine ⟨⟨fun q hq => ?_, fun q hq => ?_, fun _ => A.2.2.1⟩, ?_⟩
  · refine A.2.2.2 q (A.1.2.2 q (hsub1 q hq) ?_) ?_
    · intro h; rw [(hlf q h).1] at hq; simp at hq
    · intro h; rw [(hrf q h).1] at hq; simp at hq
  · simp only [Val.reg?, Option.some.injEq] at hq
    subst hq
    refine ⟨m1.new, A.2.2.2 _ (A.1.2.2 _ m1.used ?_) ?_, m1.le⟩
    · intro h; exact hne hlf hcl _ h rfl
    · intro h; exact hne hrf hcr _ h rfl
  · refine good_of_puts ?_
    rcases puts_cases p1 with ⟨rfl, st1, e1⟩ | ⟨rfl, st1, e1, k1, x1⟩
    · rw [Bool.true_or]
      exact puts_exit ⟨st1, exec_append_exit e1⟩
    · rw [Bool.false_or]
      have B := arms st1 k1
      have lift : ∀ {n : Bool} {k : List Insn} {u : BitVec 64}, Puts w.mem k st1 n (Keep s0.used) rc u →
          (∀ out, ((∃ q, out = .done q) ∨ ∃ q, out = .exit q) → exec w.mem k st1 = out →
            exec w.mem (condCode rc kl kr) st1 = out) →
          Puts w.mem (c1 ++ condCode rc kl kr) st n (Keep s0.used) rc u := by
        intro n k u hp hex
        rcases puts_cases hp with ⟨rfl, q, e⟩ | ⟨rfl, q, e, kk, xx⟩
        · exact puts_exit ⟨q, by rw [exec_append_done e1]; exact hex _ (.inr ⟨_, rfl⟩) e⟩
        · refine puts_done ⟨q, by rw [exec_append_done e1]; exact hex _ (.inl ⟨_, rfl⟩) e, fun r hr => ?_, xx⟩
          rw [kk r hr, k1 r (hr.imp (hsub r) id)]
      by_cases hx0 : x = 0
      · rw [if_neg (not_not_intro hx0), if_neg (not_not_intro hx0)]
        refine lift B.2.1 fun out _ e => ?_
        rw [exec_cond_false (by rw [x1]; exact hx0) hf]; exact e
      · rw [if_pos hx0, if_pos hx0]
        exact lift B.1.1 fun out ho e => exec_cond_true (by rw [x1]; exact hx0) hf e ho

/-! ### Whole expressions -/

/-- Nothing is emitted for a chain. -/
theorem chain_nil {o : Opts} : ∀ {e : Expr} {s s' : CSt} {v : Val} {c : List Insn}, chainOnly e = true →
    evaluate o e s = .ok (v, s', c) → c = [] := by
  intro e
  induction e with
  | name n => intro s s' v c _ h; exact (pure_ok h).2.2
  | num text =>
    intro s s' v c _ h
    simp only [evaluate] at h
    cases hp : parseNumber text with
    | none => simp only [hp] at h; exact (reject_ok h).elim
    | some n => simp only [hp] at h; exact (pure_ok h).2.2
  | arrow e f ih =>
    intro s s' v c hc h
    simp only [evaluate] at h
    obtain ⟨b, s1, c1, c2, h1, h2, rfl⟩ := bind_ok h
    obtain ⟨rfl, _⟩ := accessMember_nil h2
    rw [ih hc h1]; rfl
  | dot e f ih =>
    intro s s' v c hc h
    simp only [evaluate] at h
    obtain ⟨b, s1, c1, c2, h1, h2, rfl⟩ := bind_ok h
    obtain ⟨rfl, _⟩ := accessMember_nil h2
    rw [ih hc h1]; rfl
  | index e i ih _ =>
    intro s s' v c hc h
    simp only [evaluate] at h
    obtain ⟨b, s1, c1, c2, h1, h2, rfl⟩ := bind_ok h
    obtain ⟨rfl, _⟩ := evaluateIndex_nil h2
    rw [ih hc h1]; rfl
  | indir e ih =>
    intro s s' v c hc h
    simp only [evaluate] at h
    obtain ⟨b, s1, c1, c2, h1, h2, rfl⟩ := bind_ok h
    obtain ⟨rfl, _⟩ := evaluateIndir_nil h2
    rw [ih hc h1]; rfl
  | addr e ih =>
    intro s s' v c hc h
    simp only [evaluate] at h
    obtain ⟨b, s1, c1, c2, h1, h2, rfl⟩ := bind_ok h
    obtain ⟨rfl, _⟩ := evaluateAddr_nil h2
    rw [ih hc h1]; rfl
  | cast t e ih =>
    intro s s' v c hc h
    rcases evaluate_cast h with ⟨_, _, _, _, _, _, _, rfl, _⟩ | ⟨_, v0, ty, h1, _, _⟩
    · rfl
    · exact ih hc h1
  | un op e ih =>
    intro s s' v c hc h
    simp only [evaluate] at h
    obtain ⟨b, s1, c1, c2, h1, h2, rfl⟩ := bind_ok h
    have : (op = .paren ∨ op = .plus) ∧ chainOnly e = true := by
      cases op <;> simp_all [chainOnly]
    rcases this with ⟨rfl | rfl, hc⟩
    · rw [ih hc h1, (pure_ok h2).2.2]; rfl
    · rw [ih hc h1, (pure_ok h2).2.2]; rfl
  | bin op l r ihl ihr => intro s s' v c hc h; simp [chainOnly] at hc
  | cond x l r ihx ihl ihr => intro s s' v c hc h; simp [chainOnly] at hc
  | unsup => intro s s' v c hc h; simp [chainOnly] at hc

theorem ceval_cast {o : Opts} {w : World} {t : Option Ty} {e : Expr} (hn : ∀ text, e ≠ .num text) {cv : CV} {nul : Bool}
    (h : ceval o w (.cast t e) = some (cv, nul)) :
    ∃ cv0 ty, ceval o w e = some (cv0, nul) ∧ t = some ty ∧ castC o.Γ w.mem ty cv0 = some cv := by
  have : ceval o w (.cast t e) = (do
    let (v, n) ← ceval o w e
    let t ← t
    let r ← castC o.Γ w.mem t v
    some (r, n)) := by
    cases e <;> first | rfl | exact absurd rfl (hn _)
  rw [this] at h
  cases h1 : ceval o w e with
  | none => rw [h1] at h; simp at h
  | some p =>
    obtain ⟨v, n⟩ := p
    rw [h1] at h
    cases t with
    | none => simp at h
    | some t =>
      simp only [Option.bind_eq_bind, Option.bind_some] at h
      cases h2 : castC o.Γ w.mem t v with
      | none => rw [h2] at h; simp at h
      | some r =>
        rw [h2] at h
        simp only [Option.bind_some, Option.some.injEq, Prod.mk.injEq] at h
        obtain ⟨rfl, rfl⟩ := h
        exact ⟨v, t, rfl, rfl, h2⟩

theorem shape_cast {o : Opts} {t : Option Ty} {e : Expr} (hn : ∀ text, e ≠ .num text) {σ : Sh}
    (h : shape o (.cast t e) = some σ) : ∃ σ0 ty, shape o e = some σ0 ∧ t = some ty ∧ castSh o ty σ0 = some σ := by
  have : shape o (.cast t e) = (do
    let σ ← shape o e
    let t ← t
    castSh o t σ) := by
    cases e <;> first | rfl | exact absurd rfl (hn _)
  rw [this] at h
  cases h1 : shape o e with
  | none => rw [h1] at h; simp at h
  | some v =>
    rw [h1] at h
    cases t with
    | none => simp at h
    | some t => exact ⟨v, t, rfl, rfl, h⟩

/-- Without member accesses and dereferences there is no NULL to meet. -/
theorem noLoads_nul {o : Opts} {w : World} : ∀ {e : Expr} {cv : CV} {nul : Bool}, noLoads e = true →
    ceval o w e = some (cv, nul) → nul = false := by
  intro e
  induction e with
  | name n => intro cv nul _ h; simp only [ceval, Option.some.injEq, Prod.mk.injEq] at h; exact h.2.symm
  | num text =>
    intro cv nul _ h
    simp only [ceval, Option.map_eq_some_iff, Prod.mk.injEq] at h
    obtain ⟨_, _, _, h⟩ := h
    exact h.symm
  | arrow e f ih => intro cv nul hc h; simp [noLoads] at hc
  | dot e f ih => intro cv nul hc h; simp [noLoads] at hc
  | index e i ih _ => intro cv nul hc h; simp [noLoads] at hc
  | indir e ih => intro cv nul hc h; simp [noLoads] at hc
  | addr e ih => intro cv nul hc h; simp [noLoads] at hc
  | cast t e ih =>
    intro cv nul hc h
    by_cases hn : ∃ text, e = .num text
    · obtain ⟨text, rfl⟩ := hn
      simp only [ceval, Option.bind_eq_bind, Option.bind_eq_some_iff] at h
      obtain ⟨t, _, n, _, h⟩ := h
      split at h
      · simp only [Option.some.injEq, Prod.mk.injEq] at h; exact h.2.symm
      · simp at h
    · obtain ⟨cv0, ty, h1, _⟩ := ceval_cast (fun t ht => hn ⟨t, ht⟩) h
      exact ih hc h1
  | un op e ih =>
    intro cv nul hc h
    simp only [ceval, Option.bind_eq_bind, Option.bind_eq_some_iff] at h
    obtain ⟨⟨v, n⟩, h1, r, _, h⟩ := h
    simp only [Option.some.injEq, Prod.mk.injEq] at h
    rw [← h.2]; exact ih hc h1
  | bin op l r ihl ihr =>
    intro cv nul hc h
    simp only [ceval, Option.bind_eq_bind, Option.bind_eq_some_iff] at h
    obtain ⟨⟨a, n⟩, h1, ⟨b, k⟩, h2, z, _, h⟩ := h
    simp only [Option.some.injEq, Prod.mk.injEq] at h
    simp only [noLoads, Bool.and_eq_true] at hc
    rw [← h.2]
    have e1 := ihl hc.1 h1
    have e2 := ihr hc.2 h2
    subst e1; subst e2; rfl
  | cond x l r ihx ihl ihr =>
    intro cv nul hc h
    simp only [ceval, Option.bind_eq_bind, Option.bind_eq_some_iff] at h
    obtain ⟨⟨vc, nc⟩, h1, ⟨vl, nl⟩, h2, ⟨vr, nr⟩, h3, _, _, _, _, _, _, h⟩ := h
    simp only [Option.some.injEq, Prod.mk.injEq] at h
    simp only [noLoads, Bool.and_eq_true] at hc
    have e1 := ihx hc.1.1 h1
    have e2 := ihl hc.1.2 h2
    have e3 := ihr hc.2 h3
    subst e1; subst e2; subst e3
    rw [← h.2]
    simp
  | unsup => intro cv nul hc h; simp [noLoads] at hc

/-- What is proved about `evaluate` on an expression: its code leaves for the exit label because a NULL pointer
had to be followed, or it runs to its end, keeps the registers that were in use, and the compiler's value
stands for the meaning of the expression. -/
def Correct (o : Opts) (w : World) (a9 : BitVec 64) (e : Expr) : Prop :=
  ∀ {s s' : CSt} {v : Val} {c : List Insn} {σ : Sh} {cv : CV} {nul : Bool} {st : St},
    evaluate o e s = .ok (v, s', c) → shape o e = some σ → ceval o w e = some (cv, nul) →
    Exact c → s.used 9 = true → LoOK o s.used → st.regs 9 = a9 →
    (nul = true ∧ ∃ st', exec w.mem c st = .exit st') ∨
    (Stat o s s' v ∧ ∃ st', exec w.mem c st = .done st' ∧ Same (Keep s.used) st st' ∧ Rep o w st' v σ cv nul)

theorem stat_refl {o : Opts} {s : CSt} {v : Val} (h : v.reg? = none) : Stat o s s v :=
  ⟨fun _ h => h, fun q hq => by rw [h] at hq; simp at hq, fun h => h⟩

theorem stat_reg {o : Opts} {s s' : CSt} {v v' : Val} (h : Stat o s s' v) (hr : v'.reg? = v.reg?) : Stat o s s' v' :=
  ⟨h.sub, fun q hq => h.fresh q (by rw [← hr]; exact hq), h.lo⟩

theorem findVar_lt {n : String} : ∀ {vars : List (String × Ty)} {k i : Nat} {t : Ty}, findVar n vars k = some (i, t) →
    k ≤ i ∧ i < k + vars.length := by
  intro vars
  induction vars with
  | nil => intro k i t h; simp [findVar] at h
  | cons a r ih =>
    intro k i t h
    simp only [findVar] at h
    split at h
    · simp only [Option.some.injEq, Prod.mk.injEq] at h
      obtain ⟨rfl, rfl⟩ := h
      simp
    · have := ih h
      simp only [List.length_cons]
      omega

/-- The type of a conditional: that of the first arm that is not a constant. -/
def armTy (σl σr : Sh) : Option Ty := match σl with | .num _ _ => σr.ct | _ => σl.ct

def armCTy (cl cr : CV) : Option Ty := match cl with | .num _ _ => cr.ty | _ => cl.ty

theorem cond_ct {σl σr : Sh} {cl cr : CV} (h1 : cl.ty = σl.ct) (h2 : cr.ty = σr.ct) (h3 : cl.isNum = σl.isNum) :
    armTy σl σr = armCTy cl cr := by
  cases cl <;> cases σl <;> first | exact h1.symm | exact h2.symm | (simp [CV.isNum, Sh.isNum] at h3; done)

theorem correct_name {o : Opts} {w : World} {a9 : BitVec 64} (env : Env o w a9) (n : String) : Correct o w a9 (.name n) := by
  intro s s' v c σ cv nul st h hsh hc _ _ _ h9
  obtain ⟨rfl, rfl, rfl⟩ := pure_ok h
  simp only [ceval, Option.some.injEq, Prod.mk.injEq] at hc
  obtain ⟨rfl, rfl⟩ := hc
  simp only [shape, nameSh] at hsh
  refine .inr ?_
  unfold evaluateName nameC
  split at hsh
  · rename_i h0
    obtain rfl := Option.some.inj hsh
    rw [if_pos h0, if_pos h0]
    exact ⟨stat_refl rfl, st, rfl, Same.refl _ _, rfl, rfl, rfl⟩
  · rename_i h0
    rw [if_neg h0, if_neg h0]
    split at hsh
    · rename_i h1
      obtain rfl := Option.some.inj hsh
      rw [if_pos h1, if_pos h1]
      exact ⟨stat_refl rfl, st, rfl, Same.refl _ _, rfl, rfl, rfl⟩
    · rename_i h1
      rw [if_neg h1, if_neg h1]
      cases hv : findVar n o.vars 0 with
      | none =>
        simp only [hv] at hsh ⊢
        obtain rfl := Option.some.inj hsh
        exact ⟨stat_refl rfl, st, rfl, Same.refl _ _, rfl, rfl, rfl⟩
      | some p =>
        obtain ⟨i, t⟩ := p
        simp only [hv] at hsh ⊢
        split at hsh
        · rename_i hok
          obtain rfl := Option.some.inj hsh
          simp only [Bool.and_eq_true] at hok
          refine ⟨stat_refl rfl, st, rfl, Same.refl _ _, .var i, [], none, rfl, rfl, ?_, preOK_nil o, .inl rfl, ?_, rfl,
            .inl hok⟩
          · have := findVar_lt hv
            simp only [baseOK]; omega
          · obtain ⟨sz, h1, h2⟩ := okSize_iff hok.2
            rw [adjReg_size h1 h2, convert_size h1 h2]
            rfl
        · simp at hsh

theorem correct_num {o : Opts} {w : World} {a9 : BitVec 64} (text : List Char) : Correct o w a9 (.num text) := by
  intro s s' v c σ cv nul st h hsh hc _ _ _ h9
  simp only [evaluate] at h
  cases hp : parseNumber text with
  | none => simp only [hp] at h; exact (reject_ok h).elim
  | some n =>
    simp only [hp] at h
    simp only [ceval, shape, hp, Option.map_some, Option.some.injEq, Prod.mk.injEq] at hc hsh
    obtain ⟨rfl, rfl, rfl⟩ := pure_ok h
    obtain ⟨rfl, rfl⟩ := hc
    subst hsh
    exact .inr ⟨stat_refl rfl, st, rfl, Same.refl _ _, rfl, rfl, rfl⟩

/-- An access to the result of `e`: no code, same register. -/
theorem correct_access {o : Opts} {w : World} {a9 : BitVec 64} {e : Expr} (ih : Correct o w a9 e)
    {s s1 : CSt} {v0 v : Val} {c : List Insn} {σ0 σ : Sh} {cv0 cv : CV} {n z : Bool} {st : St}
    (h : evaluate o e s = .ok (v0, s1, c)) (hsh : shape o e = some σ0) (hc : ceval o w e = some (cv0, n))
    (he : Exact c) (h9 : s.used 9 = true) (hlo : LoOK o s.used) (hs9 : st.regs 9 = a9)
    (hstep : ∀ st, Rep o w st v0 σ0 cv0 n → Rep o w st v σ cv (n || z) ∧ v.reg? = v0.reg?) :
    (n || z) = true ∧ (∃ st', exec w.mem c st = .exit st') ∨
    (Stat o s s1 v ∧ ∃ st', exec w.mem c st = .done st' ∧ Same (Keep s.used) st st' ∧ Rep o w st' v σ cv (n || z)) := by
  rcases ih h hsh hc he h9 hlo hs9 with ⟨rfl, h⟩ | ⟨hst, st', h1, h2, h3⟩
  · exact .inl ⟨by simp, h⟩
  · obtain ⟨r1, r2⟩ := hstep st' h3
    exact .inr ⟨stat_reg hst r2, st', h1, h2, r1⟩

/-- Correctness of `evaluate` on the verified fragment. -/
theorem evaluate_correct {o : Opts} {w : World} {a9 : BitVec 64} (env : Env o w a9) : ∀ e, Correct o w a9 e := by
  intro e
  induction e with
  | name n => exact correct_name env n
  | num text => exact correct_num text
  | arrow e f ih =>
    intro s s' v c σ cv nul st h hsh hc he h9 hlo hs9
    simp only [evaluate] at h
    obtain ⟨b, s1, c1, c2, h1, h2, rfl⟩ := bind_ok h
    obtain ⟨rfl, rfl⟩ := accessMember_nil h2
    rw [List.append_nil] at he ⊢
    simp only [ceval, Option.bind_eq_bind, Option.bind_eq_some_iff] at hc
    obtain ⟨⟨cv0, n⟩, hc1, ⟨p, t, z⟩, hc2, r, hc3, hc⟩ := hc
    simp only [Option.some.injEq, Prod.mk.injEq] at hc
    obtain ⟨rfl, rfl⟩ := hc
    simp only [shape, Option.bind_eq_bind, Option.bind_eq_some_iff] at hsh
    obtain ⟨σ0, hs1, t', hs2, hs3⟩ := hsh
    exact correct_access ih h1 hs1 hc1 he h9 hlo hs9 fun st hr => arrow_correct h2 hr hs2 hs3 hc2 hc3
  | dot e f ih =>
    intro s s' v c σ cv nul st h hsh hc he h9 hlo hs9
    simp only [evaluate] at h
    obtain ⟨b, s1, c1, c2, h1, h2, rfl⟩ := bind_ok h
    obtain ⟨rfl, rfl⟩ := accessMember_nil h2
    rw [List.append_nil] at he ⊢
    simp only [ceval, Option.bind_eq_bind, Option.bind_eq_some_iff] at hc
    obtain ⟨⟨cv0, n⟩, hc1, hc⟩ := hc
    simp only [shape, Option.bind_eq_bind, Option.bind_eq_some_iff] at hsh
    obtain ⟨σ0, hs1, hsh⟩ := hsh
    split at hc
    · rename_i a t heq
      subst heq
      simp only [Option.map_eq_some_iff, Prod.mk.injEq] at hc
      obtain ⟨r, hc2, rfl, rfl⟩ := hc
      split at hsh
      · rename_i t' loads cst
        have := correct_access (z := false) ih h1 hs1 hc1 he h9 hlo hs9 fun st hr => by
          rw [Bool.or_false]; exact dot_correct h2 hr hsh hc2
        rw [Bool.or_false] at this
        exact this
      · simp at hsh
    · simp at hc
  | index e i ih _ =>
    intro s s' v c σ cv nul st h hsh hc he h9 hlo hs9
    simp only [evaluate] at h
    obtain ⟨b, s1, c1, c2, h1, h2, rfl⟩ := bind_ok h
    obtain ⟨rfl, rfl⟩ := evaluateIndex_nil h2
    rw [List.append_nil] at he ⊢
    cases i with
    | num text =>
      simp only [ceval, Option.bind_eq_bind, Option.bind_eq_some_iff] at hc
      obtain ⟨⟨cv0, n⟩, hc1, ⟨p, t, z⟩, hc2, k, hc3, hc⟩ := hc
      simp only [Option.some.injEq, Prod.mk.injEq] at hc
      obtain ⟨rfl, rfl⟩ := hc
      simp only [shape, Option.bind_eq_bind, Option.bind_eq_some_iff] at hsh
      obtain ⟨σ0, hs1, t', hs2, k', hs3, hsh⟩ := hsh
      obtain rfl := Option.some.inj hsh
      exact correct_access ih h1 hs1 hc1 he h9 hlo hs9 fun st hr => index_correct h2 hr hs2 hc3 hc2
    | _ => simp [shape] at hsh
  | indir e ih =>
    intro s s' v c σ cv nul st h hsh hc he h9 hlo hs9
    simp only [evaluate] at h
    obtain ⟨b, s1, c1, c2, h1, h2, rfl⟩ := bind_ok h
    obtain ⟨rfl, rfl⟩ := evaluateIndir_nil h2
    rw [List.append_nil] at he ⊢
    simp only [ceval, Option.bind_eq_bind, Option.bind_eq_some_iff] at hc
    obtain ⟨⟨cv0, n⟩, hc1, ⟨p, t, z⟩, hc2, hc⟩ := hc
    simp only [Option.some.injEq, Prod.mk.injEq] at hc
    obtain ⟨rfl, rfl⟩ := hc
    simp only [shape, Option.bind_eq_bind, Option.bind_eq_some_iff] at hsh
    obtain ⟨σ0, hs1, t', hs2, hsh⟩ := hsh
    obtain rfl := Option.some.inj hsh
    exact correct_access ih h1 hs1 hc1 he h9 hlo hs9 fun st hr => indir_correct h2 hr hs2 hc2
  | addr e ih =>
    intro s s' v c σ cv nul st h hsh hc he h9 hlo hs9
    simp only [evaluate] at h
    obtain ⟨b, s1, c1, c2, h1, h2, rfl⟩ := bind_ok h
    obtain ⟨rfl, rfl⟩ := evaluateAddr_nil h2
    rw [List.append_nil] at he ⊢
    simp only [ceval, Option.bind_eq_bind, Option.bind_eq_some_iff] at hc
    obtain ⟨⟨cv0, n⟩, hc1, hc⟩ := hc
    simp only [shape, Option.bind_eq_bind, Option.bind_eq_some_iff] at hsh
    obtain ⟨σ0, hs1, hsh⟩ := hsh
    split at hc
    · rename_i a t heq
      subst heq
      simp only [Option.some.injEq, Prod.mk.injEq] at hc
      obtain ⟨rfl, rfl⟩ := hc
      split at hsh
      · split at hsh
        case isFalse => simp at hsh
        obtain rfl := Option.some.inj hsh
        have := correct_access (z := false) ih h1 hs1 hc1 he h9 hlo hs9 fun st hr => by
          rw [Bool.or_false]; exact addr_correct h2 hr
        rw [Bool.or_false] at this
        exact this
      · simp at hsh
    · simp at hc
  | cast t e ih =>
    intro s s' v c σ cv nul st h hsh hc he h9 hlo hs9
    rcases evaluate_cast h with ⟨text, n, ty, rfl, hpu, rfl, rfl, rfl, rfl⟩ | ⟨hn, v0, ty, h1, rfl, rfl⟩
    · simp only [ceval, Option.bind_eq_bind, Option.bind_eq_some_iff, hpu, Option.some.injEq] at hc
      obtain ⟨ty', rfl, n', rfl, hc⟩ := hc
      simp only [shape, Option.bind_eq_bind, Option.bind_eq_some_iff, hpu, Option.some.injEq] at hsh
      obtain ⟨ty', rfl, n', rfl, hsh⟩ := hsh
      split at hsh
      · rename_i hok
        obtain rfl := Option.some.inj hsh
        simp only [Bool.and_eq_true, bne_iff_ne, ne_eq] at hok
        rw [if_pos hok.1.1] at hc
        simp only [Option.some.injEq, Prod.mk.injEq] at hc
        obtain ⟨rfl, rfl⟩ := hc
        have hlt := ((parseUnsigned_iff _ _).mp hpu).2
        have hne : BitVec.ofNat 64 n ≠ 0 := by
          intro h0
          have := congrArg BitVec.toNat h0
          rw [BitVec.toNat_ofNat, Nat.mod_eq_of_lt hlt] at this
          exact hok.2 this
        rw [if_neg hne]
        refine .inr ⟨stat_refl rfl, st, rfl, Same.refl _ _, .uptr (BitVec.ofNat 64 n), [], none, rfl, rfl, trivial,
          preOK_nil o, .inl rfl, ?_, rfl, .inl hok.1⟩
        obtain ⟨sz, h1, h2⟩ := okSize_iff hok.1.2
        rw [adjReg_size h1 h2, convert_size h1 h2]
        rfl
      · simp at hsh
    · obtain ⟨cv0, ty1, hc1, e1, hc2⟩ := ceval_cast hn hc
      obtain ⟨σ0, ty2, hs1, e2, hs2⟩ := shape_cast hn hsh
      obtain rfl := Option.some.inj e1
      obtain rfl := Option.some.inj e2
      have := correct_access (z := false) ih h1 hs1 hc1 he h9 hlo hs9 fun st hr => by
        rw [Bool.or_false]; exact cast_correct env hr hs2 hc2
      rw [Bool.or_false] at this
      exact this
  | un op e ih =>
    intro s s' v c σ cv nul st h hsh hc he h9 hlo hs9
    simp only [evaluate] at h
    obtain ⟨b, s1, c1, c2, h1, h2, rfl⟩ := bind_ok h
    rw [exact_append] at he
    simp only [ceval, Option.bind_eq_bind, Option.bind_eq_some_iff] at hc
    obtain ⟨⟨cv0, n⟩, hc1, r, hc2, hc⟩ := hc
    simp only [Option.some.injEq, Prod.mk.injEq] at hc
    obtain ⟨rfl, rfl⟩ := hc
    simp only [shape, Option.bind_eq_bind, Option.bind_eq_some_iff] at hsh
    obtain ⟨σ0, hs1, hs2⟩ := hsh
    rcases ih h1 hs1 hc1 he.1 h9 hlo hs9 with ⟨rfl, q, h⟩ | ⟨hst, st1, e1, k1, r1⟩
    · exact .inl ⟨rfl, q, exec_append_exit h⟩
    · obtain ⟨hst2, hg⟩ := unVals_correct env hst (hst.lo hlo) (by rw [k1 9 (.inl h9)]; exact hs9) r1 h2 he.2 hs2 hc2
      rcases hg with ⟨hn, q, e2⟩ | ⟨q, e2, k2, r2⟩
      · exact .inl ⟨hn, q, by rw [exec_append_done e1]; exact e2⟩
      · exact .inr ⟨hst2, q, by rw [exec_append_done e1]; exact e2, k1.trans k2, r2⟩
  | bin op l r ihl ihr =>
    intro s s' v c σ cv nul st h hsh hc he h9 hlo hs9
    simp only [evaluate] at h
    obtain ⟨a, s1, c1, c2, h1, h2, rfl⟩ := bind_ok h
    obtain ⟨b, s3, c3, c4, h3, h4, rfl⟩ := bind_ok h2
    rw [exact_append, exact_append] at he
    simp only [ceval, Option.bind_eq_bind, Option.bind_eq_some_iff] at hc
    obtain ⟨⟨cl, nl⟩, hc1, ⟨cr, nr⟩, hc2, z, hc3, hc⟩ := hc
    simp only [Option.some.injEq, Prod.mk.injEq] at hc
    obtain ⟨rfl, rfl⟩ := hc
    simp only [shape, Option.bind_eq_bind, Option.bind_eq_some_iff] at hsh
    obtain ⟨σl, hs1, σr, hs2, hs3⟩ := hsh
    rcases ihl h1 hs1 hc1 he.1 h9 hlo hs9 with ⟨rfl, q, h⟩ | ⟨t1, st1, e1, k1, r1⟩
    · exact .inl ⟨rfl, q, exec_append_exit h⟩
    · have h91 : st1.regs 9 = a9 := by rw [k1 9 (.inl h9)]; exact hs9
      rcases ihr h3 hs2 hc2 he.2.1 (t1.sub 9 h9) (t1.lo hlo) h91 with ⟨rfl, q, h⟩ | ⟨t2, st2, e2, k2, r2⟩
      · exact .inl ⟨by simp, q, by rw [exec_append_done e1]; exact exec_append_exit h⟩
      · have H : Two o w a9 s s3 st2 a b σl σr cl cr nl nr := by
          refine ⟨fun q hq => t2.sub q (t1.sub q hq), fun q hq => ?_, fun q hq => ?_, fun q hq hq' => ?_,
            t2.lo (t1.lo hlo), t2.sub 9 (t1.sub 9 h9), ?_, ?_, r2⟩
          · obtain ⟨x1, x2, x3⟩ := t1.fresh q hq
            exact ⟨x1, t2.sub q x2, x3⟩
          · obtain ⟨x1, x2, x3⟩ := t2.fresh q hq
            refine ⟨?_, x2, x3⟩
            cases hu : s.used q with
            | false => rfl
            | true => rw [t1.sub q hu] at x1; simp at x1
          · have y1 := (t1.fresh q hq).2.1
            have y2 := (t2.fresh q hq').1
            rw [y1] at y2; simp at y2
          · rw [k2 9 (.inl (t1.sub 9 h9))]; exact h91
          · exact rep_same r1 fun q hq => k2 q (.inl (t1.fresh q hq).2.1)
        obtain ⟨t3, hg⟩ := binVals_correct env H h4 he.2.2 hs3 hc3
        have k12 : Same (Keep s.used) st st2 := k1.trans (k2.mono fun q hq => hq.imp (t1.sub q) id)
        rcases hg with ⟨hn, q, e3⟩ | ⟨q, e3, k3, r3⟩
        · exact .inl ⟨hn, q, by rw [exec_append_done e1, exec_append_done e2]; exact e3⟩
        · exact .inr ⟨t3, q, by rw [exec_append_done e1, exec_append_done e2]; exact e3, k12.trans k3, r3⟩
  | cond x l r ihx ihl ihr =>
    intro s s' v c σ cv nul st h hsh hc he h9 hlo hs9
    simp only [evaluate] at h
    obtain ⟨a, s1, c1, c2, h1, h2, rfl⟩ := bind_ok h
    obtain ⟨b, s3, c3, c4, h3, h4, rfl⟩ := bind_ok h2
    obtain ⟨d, s5, c5, c6, h5, h6, rfl⟩ := bind_ok h4
    rw [exact_append, exact_append, exact_append] at he
    simp only [ceval, Option.bind_eq_bind, Option.bind_eq_some_iff] at hc
    obtain ⟨⟨cc, nc⟩, hc1, ⟨cl, nl⟩, hc2, ⟨cr, nr⟩, hc3, x0, hx, y0, hy, z0, hz, hc⟩ := hc
    simp only [Option.some.injEq, Prod.mk.injEq] at hc
    obtain ⟨rfl, rfl⟩ := hc
    simp only [shape, Option.bind_eq_bind, Option.bind_eq_some_iff] at hsh
    obtain ⟨σc, hs1, σl, hs2, σr, hs3, hsh⟩ := hsh
    split at hsh
    · rename_i hok
      obtain rfl := Option.some.inj hsh
      simp only [Bool.and_eq_true, Bool.not_eq_true', Bool.or_eq_true] at hok
      obtain ⟨⟨⟨⟨⟨huc, hul⟩, hur⟩, hnum⟩, hla⟩, hra⟩ := hok
      rcases ihx h1 hs1 hc1 he.1 h9 hlo hs9 with ⟨rfl, q, h⟩ | ⟨t1, st1, e1, k1, r1⟩
      · exact .inl ⟨rfl, q, exec_append_exit h⟩
      · have h91 : st1.regs 9 = a9 := by rw [k1 9 (.inl h9)]; exact hs9
        have nex : ∀ {e : Expr} {cv : CV} {n : Bool} {c : List Insn} {s s' : CSt} {v : Val} {st : St}, noLoads e = true ∨ chainOnly e = true →
            ceval o w e = some (cv, n) → evaluate o e s = .ok (v, s', c) → (n = true ∧ ∃ q, exec w.mem c st = .exit q) → False := by
          rintro e cv n c s s' v st (hno | hch) hce hev ⟨rfl, q, hq⟩
          · exact absurd (noLoads_nul hno hce) (by simp)
          · rw [chain_nil hch hev] at hq
            simp [exec_nil] at hq
        rcases ihl h3 hs2 hc2 he.2.1 (t1.sub 9 h9) (t1.lo hlo) h91 with hbad | ⟨t2, st2, e2, k2, r2⟩
        · exact (nex hla hc2 h3 hbad).elim
        · have h92 : st2.regs 9 = a9 := by rw [k2 9 (.inl (t1.sub 9 h9))]; exact h91
          rcases ihr h5 hs3 hc3 he.2.2.1 (t2.sub 9 (t1.sub 9 h9)) (t2.lo (t1.lo hlo)) h92 with hbad | ⟨t3, st3, e3, k3, r3⟩
          · exact (nex hra hc3 h5 hbad).elim
          · have h93 : st3.regs 9 = a9 := by rw [k3 9 (.inl (t2.sub 9 (t1.sub 9 h9)))]; exact h92
            have down : ∀ {s1 s2 : CSt} {q : Nat}, (∀ q, s1.used q = true → s2.used q = true) → s2.used q = false →
                s1.used q = false := by
              intro s1 s2 q hs h
              cases hu : s1.used q with
              | false => rfl
              | true => rw [hs q hu] at h; simp at h
            have hcond := fun ct => condVals_correct env (s0 := s) (s := s5) (st := st3) (ct := ct)
              (fun q hq => t3.sub q (t2.sub q (t1.sub q hq)))
              (fun q hq => ⟨(t1.fresh q hq).1, t3.sub q (t2.sub q (t1.fresh q hq).2.1), (t1.fresh q hq).2.2⟩)
              (fun q hq => ⟨down t1.sub (t2.fresh q hq).1, t3.sub q (t2.fresh q hq).2.1, (t2.fresh q hq).2.2⟩)
              (fun q hq => ⟨down t1.sub (down t2.sub (t3.fresh q hq).1), (t3.fresh q hq).2.1, (t3.fresh q hq).2.2⟩)
              (fun q hq hq' => by
                have := (t2.fresh q hq').1
                rw [(t1.fresh q hq).2.1] at this; simp at this)
              (fun q hq hq' => by
                have := (t3.fresh q hq').1
                rw [t2.sub q (t1.fresh q hq).2.1] at this; simp at this)
              (fun q hq hq' => by
                have := (t3.fresh q hq').1
                rw [(t2.fresh q hq).2.1] at this; simp at this)
              (t3.lo (t2.lo (t1.lo hlo))) (t3.sub 9 (t2.sub 9 (t1.sub 9 h9))) h93
              (rep_same (rep_same r1 fun q hq => k2 q (.inl (t1.fresh q hq).2.1))
                fun q hq => k3 q (.inl (t2.sub q (t1.fresh q hq).2.1)))
              (rep_same r2 fun q hq => k3 q (.inl (t2.fresh q hq).2.1)) r3 h6 he.2.2.2 huc hul hur hnum hx hy hz
            suffices key : ∀ ct1 ct2 : Option Ty, ct1 = ct2 →
                ((nc || if x0 ≠ 0 then nl else nr) = true ∧ ∃ st', exec w.mem (c1 ++ (c3 ++ (c5 ++ c6))) st = Out.exit st') ∨
                (Stat o s s' v ∧ ∃ st', exec w.mem (c1 ++ (c3 ++ (c5 ++ c6))) st = Out.done st' ∧
                  Same (Keep s.used) st st' ∧ Rep o w st' v (.comp σc.ann ct1)
                    (.rv (if x0 ≠ 0 then y0 else z0) ct2 false) (nc || if x0 ≠ 0 then nl else nr)) by
              exact key _ _ (cond_ct (rep_ct r2).1 (rep_ct r3).1 (rep_ct r2).2)
            rintro ct _ rfl
            replace hcond := @hcond ct
            obtain ⟨t4, hg⟩ := hcond
            have k123 : Same (Keep s.used) st st3 := (k1.trans (k2.mono fun q hq => hq.imp (t1.sub q) id)).trans
              (k3.mono fun q hq => hq.imp (fun h => t2.sub q (t1.sub q h)) id)
            rcases hg with ⟨hn, q, e4⟩ | ⟨q, e4, k4, r4⟩
            · exact .inl ⟨hn, q, by rw [exec_append_done e1, exec_append_done e2, exec_append_done e3]; exact e4⟩
            · exact .inr ⟨t4, q, by rw [exec_append_done e1, exec_append_done e2, exec_append_done e3]; exact e4,
                k123.trans k4, r4⟩
    · simp at hsh
  | unsup => intro s s' v c σ cv nul st h; exact (reject_ok h).elim

end Bpfsnoop.Cc
