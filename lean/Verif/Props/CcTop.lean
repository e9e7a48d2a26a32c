import Verif.Props.CcTotal
import Verif.Props.CcFilter

/-
C01, C07, C11: the programs the compiler makes compute the expressions they were made from.
-/
namespace Bpfsnoop.Cc

/-- The value of an expression, and whether a NULL pointer read from memory had to be followed. -/
def meaning (o : Opts) (w : World) (e : Expr) : Option (BitVec 64 × Bool) :=
  (ceval o w e).bind fun p => (p.1.value o.Γ w.mem).map fun x => (x, p.2)

/-- Arguments are stored 8 bytes apart from `a`. -/
def ArgsAt (o : Opts) (w : World) (a : BitVec 64) : Prop :=
  ∀ i, i < o.vars.length → w.arg i = load w.mem 8 (a + BitVec.ofNat 64 (i * 8))

/-- The compiler restricted to the registers from R6 on. -/
def Opts.few (o : Opts) : Opts := { o with lo := 6 }

/-- Direct reads call no helper; with the other read modes at most three values may be live at once. -/
def FewLive (o : Opts) (e : Expr) : Prop := o.mode = .direct ∨ ∃ q, compileFilter o.few e = .ok q

theorem few_low {o : Opts} (h : o.lo = 0) : o.few.low = o := by
  cases o; simp only [Opts.few, Opts.low] at *; rw [← h]

theorem nameSh_few (o : Opts) (s : String) : nameSh o.few s = nameSh o s := rfl

theorem usable_few (o : Opts) (σ : Sh) : σ.usable o.few = σ.usable o := by
  cases σ with
  | obj t bf l c => cases bf <;> cases l <;> rfl
  | _ => rfl

theorem target_few (o : Opts) (σ : Sh) : σ.target o.few = σ.target o := rfl

theorem elem_few (o : Opts) (σ : Sh) : σ.elem o.few = σ.elem o := rfl

theorem addConstSh_few (o : Opts) (σ : Sh) (n : BitVec 64) : addConstSh o.few σ n = addConstSh o σ n := rfl

theorem binSh_few (o : Opts) (op : Bop) (l r : Sh) : binSh o.few op l r = binSh o op l r := by
  unfold binSh
  simp only [usable_few]
  rfl

theorem unSh_few (o : Opts) (op : Uop) (σ : Sh) : unSh o.few op σ = unSh o op σ := by
  unfold unSh
  simp only [usable_few]
  rfl

theorem shape_few (o : Opts) : ∀ e, shape o.few e = shape o e := by
  intro e
  induction e with
  | name s => rfl
  | num t => rfl
  | arrow e f ih => simp only [shape, ih]; rfl
  | dot e f ih => simp only [shape, ih]; rfl
  | index e i ih _ => cases i <;> simp only [shape, ih] <;> rfl
  | indir e ih => simp only [shape, ih]; rfl
  | addr e ih => simp only [shape, ih]
  | cast t e ih =>
    by_cases hn : ∃ text, e = .num text
    · obtain ⟨text, rfl⟩ := hn; rfl
    · have h : ∀ o : Opts, shape o (.cast t e) = (do
        let σ ← shape o e
        let t ← t
        castSh o t σ) := by
        intro o
        cases e <;> first | rfl | exact absurd ⟨_, rfl⟩ hn
      rw [h, h, ih]; rfl
  | un op e ih => simp only [shape, ih, unSh_few]
  | bin op l r ihl ihr => simp only [shape, ihl, ihr, binSh_few]
  | cond c l r ihc ihl ihr => simp only [shape, ihc, ihl, ihr, usable_few]
  | unsup => rfl

theorem ceval_few (o : Opts) (w : World) : ∀ e, ceval o.few w e = ceval o w e := by
  intro e
  induction e with
  | name s => rfl
  | num t => rfl
  | arrow e f ih => simp only [ceval, ih]; rfl
  | dot e f ih => simp only [ceval, ih]; rfl
  | index e i ih _ => cases i <;> simp only [ceval, ih] <;> rfl
  | indir e ih => simp only [ceval, ih]; rfl
  | addr e ih => simp only [ceval, ih]
  | cast t e ih =>
    by_cases hn : ∃ text, e = .num text
    · obtain ⟨text, rfl⟩ := hn; rfl
    · have h : ∀ o : Opts, ceval o w (.cast t e) = (do
        let (v, n) ← ceval o w e
        let t ← t
        let r ← castC o.Γ w.mem t v
        some (r, n)) := by
        intro o
        cases e <;> first | rfl | exact absurd ⟨_, rfl⟩ hn
      rw [h, h, ih]; rfl
  | un op e ih => simp only [ceval, ih]; rfl
  | bin op l r ihl ihr => simp only [ceval, ihl, ihr]; rfl
  | cond c l r ihc ihl ihr => simp only [ceval, ihc, ihl, ihr]; rfl
  | unsup => rfl

/-- The outermost operator of a filter gives a value. -/
theorem topOp_value {o : Opts} {w : World} {e : Expr} {cv : CV} {nul : Bool} (ht : topOp e = true)
    (hc : ceval o w e = some (cv, nul)) : ∃ x, cv.value o.Γ w.mem = some x := by
  cases e with
  | un op e =>
    cases op <;> simp only [topOp, Bool.false_eq_true] at ht
    simp only [ceval, Option.bind_eq_bind, Option.bind_eq_some_iff] at hc
    obtain ⟨⟨v, n⟩, -, r, hr, hc⟩ := hc
    simp only [Option.some.injEq, Prod.mk.injEq] at hc
    obtain ⟨rfl, -⟩ := hc
    simp only [unC] at hr
    split at hr
    · obtain rfl := Option.some.inj hr
      exact ⟨_, rfl⟩
    · simp only [Option.map_eq_some_iff] at hr
      obtain ⟨x, -, rfl⟩ := hr
      exact ⟨_, rfl⟩
  | bin op l r =>
    simp only [ceval, Option.bind_eq_bind, Option.bind_eq_some_iff] at hc
    obtain ⟨⟨a, n⟩, -, ⟨b, k⟩, -, z, hz, hc⟩ := hc
    simp only [Option.some.injEq, Prod.mk.injEq] at hc
    obtain ⟨rfl, -⟩ := hc
    simp only [binC, Option.bind_eq_bind, Option.bind_eq_some_iff] at hz
    obtain ⟨l, -, r, -, hz⟩ := hz
    split at hz
    · simp only [Option.map_eq_some_iff] at hz
      obtain ⟨x, -, rfl⟩ := hz
      exact ⟨_, rfl⟩
    · simp only [Option.bind_eq_some_iff] at hz
      obtain ⟨x, -, y, -, z, -, hz⟩ := hz
      obtain rfl := Option.some.inj hz
      exact ⟨_, rfl⟩
  | _ => simp [topOp] at ht

/-- A filter whose options satisfy the register restriction. -/
theorem filter_computes_aux {o : Opts} {e : Expr} {p : Prog} {w : World} {st : St}
    (hc : compileFilter o e = .ok p) (hlo : LoOK o initFilter.used) (hs : (shape o e).isSome) (hex : Exact p.code)
    (hargs : ArgsAt o w (st.regs 1)) (hw : WordReadable w.mem) :
    ∃ x nul, meaning o w e = some (x, nul) ∧
      (nul = false → (x = 0 ∨ x = 1) ∧ ∀ fuel, p.code.length ≤ fuel → p.run w.mem fuel 0 st = some x) ∧
      (nul = true → ∃ y, (y = 0 ∨ (y = 1 ∧ ∃ l r, e = .bin .oror l r)) ∧
        ∀ fuel, p.code.length ≤ fuel → p.run w.mem fuel 0 st = some y) := by
  obtain ⟨σ, hσ⟩ := Option.isSome_iff_exists.mp hs
  obtain ⟨cv, nul, hcv, -, -⟩ := shape_defined w hσ
  obtain ⟨r, t, s, body, y, hev, hfb, hy, hrun⟩ := filter_run hc (exact_fits hex) w.mem st
  obtain ⟨htop, r', t', s', body', y', hev', _, _, hp⟩ := compileFilter_ok hc
  rw [hev] at hev'
  simp only [Except.ok.injEq, Prod.mk.injEq] at hev'
  obtain ⟨_, _, rfl⟩ := hev'
  have hexb : Exact body := by
    intro i hi
    apply hex
    rw [hp]
    simp [hi]
  have env : Env o w (st.regs 1) := ⟨hargs, hw⟩
  have H := evaluate_correct env e hev hσ hcv hexb (by simp [initFilter, setReg]) hlo (st := st.set 9 (st.regs 1))
    (set_same _ _ _)
  rcases H with ⟨rfl, st1, h1⟩ | ⟨_, st1, h1, _, hrep⟩
  · obtain ⟨x, hx⟩ : ∃ x, meaning o w e = some (x, true) := by
      obtain ⟨x, hx⟩ := topOp_value htop hcv
      exact ⟨x, by simp [meaning, hcv, hx]⟩
    refine ⟨x, true, hx, by simp, fun _ => ⟨y, hy, ?_⟩⟩
    rcases hrun with ⟨st2, h2, _⟩ | ⟨st2, _, h3⟩
    · rw [h1] at h2; simp at h2
    · exact h3
  · have hcomp : cv = .rv (st1.regs r) σ.ct false ∧ nul = false := by
      cases σ with
      | num n t => obtain ⟨h, _⟩ := hrep; simp at h
      | name n => obtain ⟨h, _⟩ := hrep; simp at h
      | comp a ct =>
        obtain ⟨q, h, h2, h3⟩ := hrep
        simp only [Val.mat.injEq] at h
        obtain ⟨rfl, _⟩ := h
        exact ⟨h2, h3⟩
      | lazy t => obtain ⟨b, offs, m, h, _⟩ := hrep; simp at h
      | obj t bf l c => obtain ⟨b, pre, z, m, h, _⟩ := hrep; simp at h
    obtain ⟨rfl, rfl⟩ := hcomp
    refine ⟨st1.regs r, false, by simp [meaning, hcv, CV.value], fun _ => ?_, by simp⟩
    rcases hrun with ⟨st2, h2, h3, h4⟩ | ⟨st2, h2, _⟩
    · rw [h1] at h2
      simp only [Out.done.injEq] at h2
      subst h2
      exact ⟨h3, h4⟩
    · rw [h1] at h2; simp at h2

/-- C01: an accepted filter in the verified fragment, whose immediates and offsets are encoded without loss, answers
exactly the value of its expression; if a NULL pointer read from memory has to be followed it answers 0, or, for
an outermost `||`, possibly 1 (see `oror_null_violated`). -/
theorem filter_computes_partial {o : Opts} {e : Expr} {p : Prog} {w : World} {st : St}
    (hlo : o.lo = 0) (hc : compileFilter o e = .ok p) (hlive : FewLive o e) (hs : (shape o e).isSome)
    (hex : Exact p.code) (hargs : ArgsAt o w (st.regs 1)) (hw : WordReadable w.mem) :
    ∃ x nul, meaning o w e = some (x, nul) ∧
      (nul = false → (x = 0 ∨ x = 1) ∧ ∀ fuel, p.code.length ≤ fuel → p.run w.mem fuel 0 st = some x) ∧
      (nul = true → ∃ y, (y = 0 ∨ (y = 1 ∧ ∃ l r, e = .bin .oror l r)) ∧
        ∀ fuel, p.code.length ≤ fuel → p.run w.mem fuel 0 st = some y) := by
  rcases hlive with hd | ⟨q, hq⟩
  · exact filter_computes_aux hc (.inl hd) hs hex hargs hw
  · have := compileFilter_low hq
    rw [few_low hlo, hc] at this
    obtain rfl := Except.ok.inj this
    have := filter_computes_aux (o := o.few) (w := w) (st := st) hq
      (.inr ⟨Nat.le_refl _, fun r hr => by simp only [initFilter, setReg, noRegs]; rw [if_neg (by omega)]⟩)
      (by rw [shape_few]; exact hs) hex hargs hw
    simp only [meaning, ceval_few] at this
    exact this

/-- C07: a filter of the fragment whose evaluation follows a NULL pointer read from memory rejects the event, unless
its outermost operator is `||`. -/
theorem null_rejects_partial {o : Opts} {e : Expr} {p : Prog} {w : World} {st : St} {x : BitVec 64}
    (hlo : o.lo = 0) (hc : compileFilter o e = .ok p) (hlive : FewLive o e) (hs : (shape o e).isSome)
    (hex : Exact p.code) (hargs : ArgsAt o w (st.regs 1)) (hw : WordReadable w.mem)
    (hnul : meaning o w e = some (x, true)) (htop : ∀ l r, e ≠ .bin .oror l r) :
    ∀ fuel, p.code.length ≤ fuel → p.run w.mem fuel 0 st = some 0 := by
  obtain ⟨x', nul, h1, _, h3⟩ := filter_computes_partial hlo hc hlive hs hex hargs hw
  rw [hnul] at h1
  simp only [Option.some.injEq, Prod.mk.injEq] at h1
  obtain ⟨rfl, rfl⟩ := h1
  obtain ⟨y, hy, hr⟩ := h3 rfl
  rcases hy with rfl | ⟨_, l, r, he⟩
  · exact hr
  · exact absurd he (htop l r)

/-! ### Output expressions -/

theorem compileEval_low {o : Opts} {e : Expr} {us : List Nat} {f : Bool} {p : EvalRes} (h : compileEval o us f e = .ok p) :
    compileEval o.low us f e = .ok p := by
  unfold compileEval at h ⊢
  cases hm : markAll noRegs us with
  | none => rw [hm] at h; simp at h
  | some u =>
    simp only [hm] at h ⊢
    cases he : evaluate o e { used := u, exitUsed := false } with
    | error x => rw [he] at h; simp at h
    | ok q =>
      obtain ⟨v, s, body⟩ := q
      rw [he] at h
      rw [ref_evaluate o e _ _ he]
      cases v with
      | const n t => exact h
      | pend b offs t m =>
        simp only at h ⊢
        cases hmm : materialize o (.pend b offs t m) s with
        | error x => rw [hmm] at h; simp at h
        | ok z => rw [hmm] at h; rw [ref_materialize o _ _ _ hmm]; exact h
      | mat r t m =>
        simp only at h ⊢
        cases hmm : materialize o (.mat r t m) s with
        | error x => rw [hmm] at h; simp at h
        | ok z => rw [hmm] at h; rw [ref_materialize o _ _ _ hmm]; exact h
      | enumMaybe n t =>
        simp only at h ⊢
        cases hmm : materialize o (.enumMaybe n t) s with
        | error x => rw [hmm] at h; simp at h
        | ok z => rw [hmm] at h; rw [ref_materialize o _ _ _ hmm]; exact h

/-- The value of an expression in the fragment. -/
theorem usable_meaning {o : Opts} {e : Expr} {σ : Sh} (w : World) (hσ : shape o e = some σ) (hu : σ.usable o = true) :
    ∃ cv nul x, ceval o w e = some (cv, nul) ∧ cv.value o.Γ w.mem = some x ∧ meaning o w e = some (x, nul) := by
  obtain ⟨cv, nul, hcv, hok, -⟩ := shape_defined w hσ
  obtain ⟨x, hx⟩ := usable_value hok hu w.mem
  exact ⟨cv, nul, x, hcv, hx, by simp [meaning, hcv, hx]⟩

theorem eval_computes_aux {o : Opts} {e : Expr} {σ : Sh} {f : Bool} {p : EvalRes} {w : World} {st : St}
    (hc : compileEval o [8, 9] f e = .ok p) (hlo : o.mode = .direct ∨ 6 ≤ o.lo) (hσ : shape o e = some σ)
    (hu : σ.usable o = true) (hn : σ.isNum = false) (hex : Exact p.code)
    (hargs : ArgsAt o w (st.regs 9)) (hw : WordReadable w.mem) :
    ∃ x nul, meaning o w e = some (x, nul) ∧
      (nul = false → ∃ st', exec w.mem p.code st = .done st' ∧ st'.regs p.reg = x ∧
        st'.regs 8 = st.regs 8 ∧ st'.regs 9 = st.regs 9 ∧ st'.regs 10 = st.regs 10) ∧
      (nul = true → ∃ st', exec w.mem p.code st = .exit st') := by
  obtain ⟨cv, nul, x, hcv, hx, hm⟩ := usable_meaning w hσ hu
  refine ⟨x, nul, hm, ?_⟩
  have hused : markAll noRegs [8, 9] = some (setReg (setReg noRegs 8 true) 9 true) := rfl
  unfold compileEval at hc
  rw [hused] at hc
  simp only at hc
  generalize hU : (setReg (setReg noRegs 8 true) 9 true) = U at hc
  have hU8 : U 8 = true := by subst hU; rfl
  have hU9 : U 9 = true := by subst hU; rfl
  have hLo : LoOK o U := by
    rcases hlo with h | h
    · exact .inl h
    · refine .inr ⟨h, fun r hr => ?_⟩
      subst hU
      simp only [setReg, noRegs]
      rw [if_neg (by omega), if_neg (by omega)]
  have env : Env o w (st.regs 9) := ⟨hargs, hw⟩
  cases he : evaluate o e { used := U, exitUsed := false } with
  | error y => rw [he] at hc; simp at hc
  | ok q =>
    obtain ⟨v, s, body⟩ := q
    rw [he] at hc
    have key : ∀ {r t m s' c}, materialize o v s = .ok ((r, t, m), s', c) →
        p = ⟨body ++ c, r, t, m, s'.exitUsed⟩ →
        (nul = false → ∃ st', exec w.mem p.code st = .done st' ∧ st'.regs p.reg = x ∧
          st'.regs 8 = st.regs 8 ∧ st'.regs 9 = st.regs 9 ∧ st'.regs 10 = st.regs 10) ∧
        (nul = true → ∃ st', exec w.mem p.code st = .exit st') := by
      intro r t m s' c hmat hp
      subst hp
      simp only at hex ⊢
      rw [exact_append] at hex
      rcases evaluate_correct env e he hσ hcv hex.1 hU9 hLo rfl with ⟨rfl, st1, h1⟩ | ⟨hstat, st1, h1, hsame, hrep⟩
      · exact ⟨by simp, fun _ => ⟨st1, exec_append_exit h1⟩⟩
      · have h9 : st1.regs 9 = st.regs 9 := hsame 9 (.inl hU9)
        have hp := materialize_correct env hmat hrep hu hx h9 (hstat.lo hLo) hex.2
        cases nul with
        | true =>
          obtain ⟨st2, h2⟩ := hp
          exact ⟨by simp, fun _ => ⟨st2, by rw [exec_append_done h1]; exact h2⟩⟩
        | false =>
          obtain ⟨st2, h2, hs2, hr2⟩ := hp
          refine ⟨fun _ => ⟨st2, by rw [exec_append_done h1]; exact h2, hr2, ?_, ?_, ?_⟩, by simp⟩
          · rw [hs2 8 (.inl (hstat.sub 8 hU8)), hsame 8 (.inl hU8)]
          · rw [hs2 9 (.inl (hstat.sub 9 hU9)), hsame 9 (.inl hU9)]
          · rw [hs2 10 (.inr rfl), hsame 10 (.inr rfl)]
    have split : (∃ n t, v = .const n t) ∨ (∃ y, (match materialize o v s with
      | .error x => (.error x : Except Err EvalRes)
      | .ok ((r, t, m), s', c) => .ok ⟨body ++ c, r, t, m, s'.exitUsed⟩) = y ∧ y = .ok p) := by
      cases v with
      | const n t => exact .inl ⟨_, _, rfl⟩
      | _ => exact .inr ⟨_, rfl, hc⟩
    rcases split with ⟨n, t, rfl⟩ | ⟨y, h1, h2⟩
    · simp only at hc
      split at hc
      · obtain rfl := Except.ok.inj hc
        rcases evaluate_correct env e he hσ hcv hex hU9 hLo rfl with ⟨rfl, st1, h1⟩ | ⟨hstat, st1, h1, hsame, hrep⟩
        · exact ⟨by simp, fun _ => ⟨st1, h1⟩⟩
        · cases σ with
          | num n t => simp [Sh.isNum] at hn
          | name s => simp [Sh.usable] at hu
          | comp a ct => obtain ⟨r, h, _⟩ := hrep; simp at h
          | lazy t => obtain ⟨b, offs, m, h, _⟩ := hrep; simp at h
          | obj t bf l c => obtain ⟨b, pre, z, m, h, _⟩ := hrep; simp at h
      · simp at hc
    · rw [h2] at h1
      cases hm : materialize o v s with
      | error y => rw [hm] at h1; simp at h1
      | ok z =>
        obtain ⟨⟨r, t, m⟩, s', c⟩ := z
        rw [hm] at h1
        exact key hm (Except.ok.inj h1).symm

/-- C01, for output expressions: the code leaves the value of the expression in the announced register and keeps
the buffer pointer (R8), the argument pointer (R9) and the frame pointer; if a NULL pointer read from memory has
to be followed it jumps to the exit label. -/
theorem eval_computes_partial {o : Opts} {e : Expr} {σ : Sh} {f : Bool} {p : EvalRes} {w : World} {st : St}
    (hlo : o.lo = 0) (hc : compileEval o [8, 9] f e = .ok p)
    (hlive : o.mode = .direct ∨ ∃ q, compileEval o.few [8, 9] f e = .ok q) (hσ : shape o e = some σ)
    (hu : σ.usable o = true) (hn : σ.isNum = false) (hex : Exact p.code)
    (hargs : ArgsAt o w (st.regs 9)) (hw : WordReadable w.mem) :
    ∃ x nul, meaning o w e = some (x, nul) ∧
      (nul = false → ∃ st', exec w.mem p.code st = .done st' ∧ st'.regs p.reg = x ∧
        st'.regs 8 = st.regs 8 ∧ st'.regs 9 = st.regs 9 ∧ st'.regs 10 = st.regs 10) ∧
      (nul = true → ∃ st', exec w.mem p.code st = .exit st') := by
  rcases hlive with hd | ⟨q, hq⟩
  · exact eval_computes_aux hc (.inl hd) hσ hu hn hex hargs hw
  · have := compileEval_low hq
    rw [few_low hlo, hc] at this
    obtain rfl := Except.ok.inj this
    have := eval_computes_aux (o := o.few) (w := w) (st := st) hq (.inr (Nat.le_refl _))
      (by rw [shape_few]; exact hσ) (by rw [usable_few]; exact hu) hn hex hargs hw
    simp only [meaning, ceval_few] at this
    exact this

/-! ### The hypotheses hold for `skb->dev->ifindex == 5` in every read mode -/

instance (i : Insn) : Decidable (exact1 i) := by
  cases i <;> simp only [exact1] <;> infer_instance

instance (c : List Insn) : Decidable (Exact c) := by unfold Exact; infer_instance

/-- Memory with the arguments at 0x100, struct 0 at 0x1000, struct 1 at 0x2000 and `ifindex` = `v`. -/
def exMem (dev : BitVec 64) (v : BitVec 8) : Mem := fun a =>
  some (if a = 0x101 then 0x10 else if a = 0x108 then 7
    else if a = 0x1011 then (dev >>> 8).setWidth 8
    else if a = 0x20D0 then v else 0)

def exWorld (dev : BitVec 64) (v : BitVec 8) : World :=
  { arg := fun i => if i = 0 then 0x1000 else 7, mem := exMem dev v }

theorem bytes_total {m : Mem} (h : ∀ a, (m a).isSome) : ∀ n a, (bytes m n a).isSome := by
  intro n
  induction n with
  | zero => intro a; rfl
  | succ n ih =>
    intro a
    obtain ⟨x, hx⟩ := Option.isSome_iff_exists.mp (h a)
    obtain ⟨y, hy⟩ := Option.isSome_iff_exists.mp (ih (a + 1))
    simp only [bytes, hx, hy, Option.bind_eq_bind, Option.bind_some, Option.isSome_some]

theorem exWorld_ok (dev : BitVec 64) (v : BitVec 8) (mode : Mode) :
    ArgsAt (exOpts mode) (exWorld dev v) 0x100 ∧ WordReadable (exWorld dev v).mem := by
  refine ⟨?_, fun a s _ _ => bytes_total (fun _ => rfl) 8 a⟩
  intro i hi
  have hi : i < 2 := hi
  have h0 : ∀ a, a ≠ 0x1011 → a ≠ 0x20D0 → exMem dev v a = exMem 0 0 a := by
    intro a h1 h2
    simp only [exMem]
    rw [if_neg h1, if_neg h2, if_neg h1, if_neg h2]
  have hb : ∀ b : BitVec 64, b = 0x100 ∨ b = 0x108 → bytes (exMem dev v) 8 b = bytes (exMem 0 0) 8 b := by
    intro b hb
    rcases hb with rfl | rfl <;>
    · simp only [bytes]
      rw [h0 _ (by decide) (by decide), h0 _ (by decide) (by decide), h0 _ (by decide) (by decide),
        h0 _ (by decide) (by decide), h0 _ (by decide) (by decide), h0 _ (by decide) (by decide),
        h0 _ (by decide) (by decide), h0 _ (by decide) (by decide)]
  have : i = 0 ∨ i = 1 := by omega
  rcases this with rfl | rfl
  · simp only [exWorld, load]
    rw [hb _ (.inl (by decide))]
    decide +kernel
  · simp only [exWorld, load]
    rw [hb _ (.inr (by decide))]
    decide +kernel

theorem filter_computes_witness (mode : Mode) :
    ∃ p, compileFilter (exOpts mode) exExpr = .ok p ∧ FewLive (exOpts mode) exExpr ∧
      (shape (exOpts mode) exExpr).isSome ∧ Exact p.code ∧ (exOpts mode).lo = 0 ∧
      meaning (exOpts mode) (exWorld 0x2000 5) exExpr = some (1, false) ∧
      meaning (exOpts mode) (exWorld 0x2000 6) exExpr = some (0, false) ∧
      (∃ x, meaning (exOpts mode) (exWorld 0 5) exExpr = some (x, true)) := by
  cases mode
  · exact ⟨_, rfl, .inr ⟨_, rfl⟩, rfl, by decide +kernel, rfl, by decide +kernel, by decide +kernel,
      ⟨0, by decide +kernel⟩⟩
  · exact ⟨_, rfl, .inr ⟨_, rfl⟩, rfl, by decide +kernel, rfl, by decide +kernel, by decide +kernel,
      ⟨0, by decide +kernel⟩⟩
  · exact ⟨_, rfl, .inl rfl, rfl, by decide +kernel, rfl, by decide +kernel, by decide +kernel,
      ⟨0, by decide +kernel⟩⟩

/-- `skb->len` as an output expression. -/
theorem eval_computes_witness (mode : Mode) :
    ∃ p σ, compileEval (exOpts mode) [8, 9] false (.arrow (.name "skb") "len") = .ok p ∧
      (∃ q, compileEval (exOpts mode).few [8, 9] false (.arrow (.name "skb") "len") = .ok q) ∧
      shape (exOpts mode) (.arrow (.name "skb") "len") = some σ ∧ σ.usable (exOpts mode) = true ∧
      σ.isNum = false ∧ Exact p.code := by
  cases mode
  · exact ⟨_, _, rfl, ⟨_, rfl⟩, rfl, rfl, rfl, by decide +kernel⟩
  · exact ⟨_, _, rfl, ⟨_, rfl⟩, rfl, rfl, rfl, by decide +kernel⟩
  · exact ⟨_, _, rfl, ⟨_, rfl⟩, rfl, rfl, rfl, by decide +kernel⟩

end Bpfsnoop.Cc
