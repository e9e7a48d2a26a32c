import Verif.Props.CcAccess

/-
Operators: what the code emitted for unary, binary and conditional operators computes.
-/
namespace Bpfsnoop.Cc

/-- How the allocator changed while `v` was produced: nothing in use was given up, and the register of `v` is
new. -/
structure Stat (o : Opts) (s s' : CSt) (v : Val) : Prop where
  sub : ∀ q, s.used q = true → s'.used q = true
  fresh : ∀ q, v.reg? = some q → s.used q = false ∧ s'.used q = true ∧ q ≤ 8
  lo : LoOK o s.used → LoOK o s'.used

/-- Running `c` leaves for the exit label because of a NULL pointer, or makes `v` stand for `cv`. -/
def Good (o : Opts) (w : World) (s : CSt) (c : List Insn) (st : St) (v : Val) (σ : Sh) (cv : CV) (nul : Bool) : Prop :=
  (nul = true ∧ ∃ st', exec w.mem c st = .exit st') ∨
  (∃ st', exec w.mem c st = .done st' ∧ Same (Keep s.used) st st' ∧ Rep o w st' v σ cv nul)

theorem good_of_puts {o : Opts} {w : World} {s : CSt} {c : List Insn} {st : St} {r : Nat} {a ct : Option Ty}
    {z : BitVec 64} {nul : Bool} (h : Puts w.mem c st nul (Keep s.used) r z) :
    Good o w s c st (.mat r a none) (.comp a ct) (.rv z ct false) nul := by
  rcases puts_cases h with ⟨rfl, h⟩ | ⟨rfl, st', h1, h2, h3⟩
  · exact .inl ⟨rfl, h⟩
  · exact .inr ⟨st', h1, h2, r, rfl, by rw [h3], rfl⟩

theorem good_nil {o : Opts} {w : World} {s : CSt} {st : St} {v : Val} {σ : Sh} {cv : CV} {nul : Bool}
    (h : Rep o w st v σ cv nul) : Good o w s [] st v σ cv nul := .inr ⟨st, rfl, Same.refl _ _, h⟩

/-! ### Materialized operands -/

theorem lo_set {o : Opts} {u : Regs} {r : Nat} (h : LoOK o u) (hr : o.lo ≤ r) : LoOK o (setReg u r true) := by
  rcases h with h | ⟨h6, hu⟩
  · exact .inl h
  · refine .inr ⟨h6, fun q hq => ?_⟩
    simp only [setReg]
    rw [if_neg (by omega)]
    exact hu q hq

theorem free_other {u : Regs} {r q : Nat} (h : q ≠ r) : free u r q = u q := by
  unfold free
  split
  · simp only [setReg]; rw [if_neg h]
  · rfl

theorem free_false {u : Regs} {r q : Nat} (h : u q = false) : free u r q = false := by
  by_cases hq : q = r
  · subst hq
    unfold free
    split
    · simp [setReg]
    · exact h
  · rw [free_other hq]; exact h

theorem lo_free {o : Opts} {u : Regs} {r : Nat} (h : LoOK o u) : LoOK o (free u r) := by
  rcases h with h | ⟨h6, hu⟩
  · exact .inl h
  · refine .inr ⟨h6, fun q hq => ?_⟩
    exact free_false (hu q hq)

/-- The register `materialize` returns. -/
structure MatReg (o : Opts) (s0 s s1 : CSt) (v : Val) (r : Nat) : Prop where
  sub : ∀ q, s.used q = true → s1.used q = true
  new : s0.used r = false
  used : s1.used r = true
  le : r ≤ 8
  how : v.reg? = some r ∨ s.used r = false
  lo : LoOK o s.used → LoOK o s1.used

theorem mat_reg {o : Opts} {s0 s s1 : CSt} {v : Val} {r : Nat} {t : Option Ty} {m : Option Member} {c : List Insn}
    (h : materialize o v s = .ok ((r, t, m), s1, c)) (hs : ∀ q, s0.used q = true → s.used q = true)
    (hf : ∀ q, v.reg? = some q → s0.used q = false ∧ s.used q = true ∧ q ≤ 8) : MatReg o s0 s s1 v r := by
  rcases (materialize_static h).1 with ⟨⟨t', m', rfl⟩, hu⟩ | ⟨_, hfr, hu, h8, hlo⟩
  · obtain ⟨h1, h2, h3⟩ := hf r rfl
    exact ⟨fun q hq => by rw [hu]; exact hq, h1, by rw [hu]; exact h2, h3, .inl rfl, fun h => by rw [hu]; exact h⟩
  · refine ⟨fun q hq => ?_, ?_, ?_, h8, .inr hfr, fun h => by rw [hu]; exact lo_set h hlo⟩
    · rw [hu]; simp only [setReg]; split
      · rfl
      · exact hq
    · cases hq : s0.used r with
      | false => rfl
      | true => rw [hs r hq] at hfr; simp at hfr
    · rw [hu]; simp [setReg]

/-- What is known about the operands of a binary operator after both have been evaluated. -/
structure Two (o : Opts) (w : World) (a9 : BitVec 64) (s0 s : CSt) (st : St) (l r : Val) (σl σr : Sh) (cl cr : CV)
    (nl nr : Bool) : Prop where
  sub : ∀ q, s0.used q = true → s.used q = true
  lfresh : ∀ q, l.reg? = some q → s0.used q = false ∧ s.used q = true ∧ q ≤ 8
  rfresh : ∀ q, r.reg? = some q → s0.used q = false ∧ s.used q = true ∧ q ≤ 8
  apart : ∀ q, l.reg? = some q → r.reg? ≠ some q
  lo : LoOK o s.used
  nine : s.used 9 = true
  st9 : st.regs 9 = a9
  lrep : Rep o w st l σl cl nl
  rrep : Rep o w st r σr cr nr

/-- `binRun`: both operands are materialized and `k` combines them. -/
theorem binRun_correct {o : Opts} {w : World} {a9 : BitVec 64} (env : Env o w a9) {s0 s s' : CSt} {st : St}
    {l r v : Val} {σl σr : Sh} {cl cr : CV} {nl nr : Bool} {k : Nat → Option Ty → Nat → List Insn} {c : List Insn}
    {x y z : BitVec 64} (H : Two o w a9 s0 s st l r σl σr cl cr nl nr)
    (h : binRun o l r k s = .ok (v, s', c)) (he : Exact c)
    (hul : σl.usable o = true) (hur : σr.usable o = true)
    (hx : cl.value o.Γ w.mem = some x) (hy : cr.value o.Γ w.mem = some y)
    (hk : ∀ (rl rr : Nat) (st : St), rl ≠ rr → st.regs rl = x → st.regs rr = y → Exact (k rl σl.ann rr) →
      Puts w.mem (k rl σl.ann rr) st false (fun q => q ≠ rl ∧ q ≠ rr) rl z) :
    Stat o s0 s' v ∧ ∃ rl, v = .mat rl σl.ann none ∧ Puts w.mem c st (nl || nr) (Keep s0.used) rl z := by
  obtain ⟨rl, tl, ml, rr, tr, mr, s1, s2, c1, c2, h1, h2, rfl, rfl, rfl⟩ := binRun_ok h
  rw [exact_append, exact_append] at he
  have htl : tl = σl.ann := by rw [(materialize_static h1).2.1, rep_ty H.lrep]
  subst htl
  have m1 := mat_reg h1 H.sub H.lfresh
  have m2 := mat_reg h2 (fun q hq => m1.sub q (H.sub q hq))
    (fun q hq => ⟨(H.rfresh q hq).1, m1.sub q (H.rfresh q hq).2.1, (H.rfresh q hq).2.2⟩)
  have hne : rl ≠ rr := by
    intro hlr
    subst hlr
    rcases m2.how with h | h
    · rcases m1.how with h' | h'
      · exact H.apart _ h' h
      · rw [(H.rfresh _ h).2.1] at h'; simp at h'
    · rw [m1.used] at h; simp at h
  refine ⟨⟨fun q hq => ?_, fun q hq => ?_, fun _ => lo_free (m2.lo (m1.lo H.lo))⟩, rl, rfl, ?_⟩
  · show free s2.used rr q = true
    rw [free_other]
    · exact m2.sub q (m1.sub q (H.sub q hq))
    · rintro rfl; rw [m2.new] at hq; simp at hq
  · simp only [Val.reg?, Option.some.injEq] at hq
    subst hq
    refine ⟨m1.new, ?_, m1.le⟩
    show free s2.used rr rl = true
    rw [free_other hne]
    exact m2.sub _ m1.used
  · have p1 := materialize_correct env h1 H.lrep hul hx H.st9 H.lo he.1.1
    have p1' : Puts w.mem c1 st nl (Keep s.used) rl x := p1
    rcases puts_cases p1' with ⟨rfl, st1, e1⟩ | ⟨rfl, st1, e1, k1, x1⟩
    · rw [Bool.true_or]
      exact puts_exit ⟨st1, by rw [List.append_assoc]; exact exec_append_exit e1⟩
    · have hr1 : Rep o w st1 r σr cr nr := rep_same H.rrep fun q hq => k1 q (.inl (H.rfresh q hq).2.1)
      have p2 := materialize_correct env h2 hr1 hur hy (by rw [k1 9 (.inl H.nine)]; exact H.st9) (m1.lo H.lo) he.1.2
      rcases puts_cases p2 with ⟨rfl, st2, e2⟩ | ⟨rfl, st2, e2, k2, x2⟩
      · refine puts_exit ⟨st2, ?_⟩
        exact exec_append_exit (by rw [exec_append_done e1]; exact e2)
      · have e12 : exec w.mem (c1 ++ c2) st = .done st2 := by rw [exec_append_done e1]; exact e2
        have p3 := hk rl rr st2 hne (by rw [k2 rl (.inl m1.used)]; exact x1) x2 he.2
        rcases puts_cases p3 with ⟨hf, _⟩ | ⟨_, st3, e3, k3, x3⟩
        · simp at hf
        · refine puts_done ⟨st3, by rw [exec_append_done e12]; exact e3, fun q hq => ?_, x3⟩
          have hq1 : Keep s.used q := hq.imp (H.sub q) id
          have hq2 : Keep s1.used q := hq1.imp (m1.sub q) id
          have hql : q ≠ rl := by
            rintro rfl
            rcases hq with hq | hq
            · rw [m1.new] at hq; simp at hq
            · have := m1.le; omega
          have hqr : q ≠ rr := by
            rintro rfl
            rcases hq with hq | hq
            · rw [m2.new] at hq; simp at hq
            · have := m2.le; omega
          rw [k3 q ⟨hql, hqr⟩, k2 q hq2, k1 q hq1]

/-- `unRun`: one operand is materialized and changed by `k`. -/
theorem unRun_correct {o : Opts} {w : World} {a9 : BitVec 64} (env : Env o w a9) {s0 s s' : CSt} {st : St}
    {u v : Val} {σ : Sh} {cv : CV} {nul : Bool} {k : Nat → List Insn} {c : List Insn}
    {x z : BitVec 64} (hsub : ∀ q, s0.used q = true → s.used q = true)
    (hfr : ∀ q, u.reg? = some q → s0.used q = false ∧ s.used q = true ∧ q ≤ 8)
    (hlo : LoOK o s.used) (h9 : st.regs 9 = a9) (hrep : Rep o w st u σ cv nul)
    (h : unRun o u k s = .ok (v, s', c)) (he : Exact c) (hu : σ.usable o = true)
    (hx : cv.value o.Γ w.mem = some x)
    (hk : ∀ (r : Nat) (st : St), st.regs r = x → Exact (k r) → Puts w.mem (k r) st false (fun q => q ≠ r) r z) :
    Stat o s0 s' v ∧ ∃ r, v = .mat r σ.ann none ∧ Puts w.mem c st nul (Keep s0.used) r z := by
  obtain ⟨r, t, m, c1, h1, rfl, rfl⟩ := unRun_ok h
  rw [exact_append] at he
  have ht : t = σ.ann := by rw [(materialize_static h1).2.1, rep_ty hrep]
  subst ht
  have m1 := mat_reg h1 hsub hfr
  refine ⟨⟨fun q hq => m1.sub q (hsub q hq), fun q hq => ?_, fun _ => m1.lo hlo⟩, r, rfl, ?_⟩
  · simp only [Val.reg?, Option.some.injEq] at hq
    subst hq
    exact ⟨m1.new, m1.used, m1.le⟩
  · have p1 := materialize_correct env h1 hrep hu hx h9 hlo he.1
    have goal := puts_append (K := Keep s0.used) (puts_mono p1 fun q hq => hq.imp (hsub q) id) (c2 := k r) (a2 := false)
      (r2 := r) (x2 := z) (fun st1 _ hx1 => puts_mono (hk r st1 hx1 he.2) fun q hq => by
        rintro rfl
        rcases hq with hq | hq
        · rw [m1.new] at hq; simp at hq
        · have := m1.le; omega)
    simpa using goal

end Bpfsnoop.Cc
