import Verif.Spec.CcShape

/-
Lemmas about running blocks of instructions, and about whole programs.
-/
namespace Bpfsnoop.Cc

/-! ### Blocks -/

theorem execK_append_done {m : Mem} {c2 : List Insn} : ∀ {c1 : List Insn} {k : Nat} {st st' : St},
    execK m c1 k st = .done st' → execK m (c1 ++ c2) k st = execK m c2 0 st' := by
  intro c1
  induction c1 with
  | nil =>
    intro k st st' h
    cases k with
    | zero => simp only [execK, Out.done.injEq] at h; subst h; rfl
    | succ k => simp [execK] at h
  | cons i r ih =>
    intro k st st' h
    cases k with
    | succ k => exact ih (by simpa [execK] using h)
    | zero =>
      simp only [execK, List.cons_append] at h ⊢
      cases hs : stepI m i st with
      | seq s1 => rw [hs] at h; exact ih h
      | jump off s1 => rw [hs] at h; exact ih h
      | label s1 => rw [hs] at h; simp at h
      | ret s1 => rw [hs] at h; simp at h
      | stuck => rw [hs] at h; simp at h

theorem execK_append_exit {m : Mem} {c2 : List Insn} : ∀ {c1 : List Insn} {k : Nat} {st st' : St},
    execK m c1 k st = .exit st' → execK m (c1 ++ c2) k st = .exit st' := by
  intro c1
  induction c1 with
  | nil => intro k st st' h; cases k <;> simp [execK] at h
  | cons i r ih =>
    intro k st st' h
    cases k with
    | succ k => exact ih (by simpa [execK] using h)
    | zero =>
      simp only [execK, List.cons_append] at h ⊢
      cases hs : stepI m i st with
      | seq s1 => rw [hs] at h; exact ih h
      | jump off s1 => rw [hs] at h; exact ih h
      | label s1 => rw [hs] at h; simpa using h
      | ret s1 => rw [hs] at h; simp at h
      | stuck => rw [hs] at h; simp at h

theorem exec_append_done {m : Mem} {c1 c2 : List Insn} {st st' : St}
    (h : exec m c1 st = .done st') : exec m (c1 ++ c2) st = exec m c2 st' :=
  execK_append_done h

theorem exec_append_exit {m : Mem} {c1 c2 : List Insn} {st st' : St}
    (h : exec m c1 st = .exit st') : exec m (c1 ++ c2) st = .exit st' :=
  execK_append_exit h

/-- Skipping exactly a block's length. -/
theorem execK_skip (m : Mem) (c1 c2 : List Insn) (st : St) :
    execK m (c1 ++ c2) c1.length st = execK m c2 0 st := by
  induction c1 with
  | nil => rfl
  | cons i r ih => simpa [execK] using ih

theorem execK_skip_end (m : Mem) (c : List Insn) (st : St) :
    execK m c c.length st = .done st := by
  have := execK_skip m c [] st
  simpa [execK] using this

/-! ### Whole programs -/

/-- If a block inside a program falls off its end, the program gets to the instruction after it. -/
theorem run_block_done {m : Mem} {p : Prog} : ∀ {c : List Insn} {k pc : Nat} {st st' : St},
    (∀ j, j < c.length → p.code[pc + j]? = c[j]?) →
    execK m c k st = .done st' →
    ∃ n, n ≤ c.length ∧ ∀ fuel, p.run m (fuel + n) (pc + k) st = p.run m fuel (pc + c.length) st' := by
  intro c
  induction c with
  | nil =>
    intro k pc st st' _ h
    cases k with
    | zero => simp only [execK, Out.done.injEq] at h; subst h; exact ⟨0, Nat.le_refl _, fun _ => rfl⟩
    | succ k => simp [execK] at h
  | cons i r ih =>
    intro k pc st st' hc h
    have hr : ∀ j, j < r.length → p.code[pc + 1 + j]? = r[j]? := by
      intro j hj
      have := hc (j + 1) (by simp only [List.length_cons]; omega)
      rw [List.getElem?_cons_succ] at this
      rw [← this]; congr 1; omega
    have h0 : p.code[pc]? = some i := by
      have := hc 0 (by simp)
      simpa using this
    cases k with
    | succ k =>
      have h' : execK m r k st = .done st' := by simpa [execK] using h
      obtain ⟨n, hn, hf⟩ := ih hr h'
      refine ⟨n, by simp only [List.length_cons]; omega, fun fuel => ?_⟩
      have := hf fuel
      rw [List.length_cons]
      rw [show pc + (k + 1) = pc + 1 + k by omega, show pc + (r.length + 1) = pc + 1 + r.length by omega]
      exact this
    | zero =>
      simp only [execK] at h
      have key : ∀ (off : Nat) (s1 : St), execK m r off s1 = .done st' →
          (∀ fuel, p.run m (fuel + 1) pc st = p.run m fuel (pc + 1 + off) s1) →
          ∃ n, n ≤ (i :: r).length ∧
            ∀ fuel, p.run m (fuel + n) (pc + 0) st = p.run m fuel (pc + (i :: r).length) st' := by
        intro off s1 hd hstep
        obtain ⟨n, hn, hf⟩ := ih hr hd
        refine ⟨n + 1, by simp only [List.length_cons]; omega, fun fuel => ?_⟩
        show p.run m (fuel + n + 1) pc st = _
        rw [hstep, hf, List.length_cons]
        congr 1
        omega
      cases hs : stepI m i st with
      | seq s1 =>
        rw [hs] at h
        exact key 0 s1 h (fun fuel => by simp only [Prog.run, h0, hs, Nat.add_zero])
      | jump off s1 =>
        rw [hs] at h
        exact key off s1 h (fun fuel => by simp only [Prog.run, h0, hs])
      | label s1 => rw [hs] at h; simp at h
      | ret s1 => rw [hs] at h; simp at h
      | stuck => rw [hs] at h; simp at h

/-- If a block inside a program jumps to the exit label, so does the program. -/
theorem run_block_exit {m : Mem} {p : Prog} : ∀ {c : List Insn} {k pc : Nat} {st st' : St},
    (∀ j, j < c.length → p.code[pc + j]? = c[j]?) →
    execK m c k st = .exit st' →
    ∃ n, n ≤ c.length ∧ ∀ fuel, p.run m (fuel + n) (pc + k) st = p.run m fuel p.label st' := by
  intro c
  induction c with
  | nil => intro k pc st st' _ h; cases k <;> simp [execK] at h
  | cons i r ih =>
    intro k pc st st' hc h
    have hr : ∀ j, j < r.length → p.code[pc + 1 + j]? = r[j]? := by
      intro j hj
      have := hc (j + 1) (by simp only [List.length_cons]; omega)
      rw [List.getElem?_cons_succ] at this
      rw [← this]; congr 1; omega
    have h0 : p.code[pc]? = some i := by
      have := hc 0 (by simp)
      simpa using this
    cases k with
    | succ k =>
      have h' : execK m r k st = .exit st' := by simpa [execK] using h
      obtain ⟨n, hn, hf⟩ := ih hr h'
      refine ⟨n, by simp only [List.length_cons]; omega, fun fuel => ?_⟩
      rw [show pc + (k + 1) = pc + 1 + k by omega]
      exact hf fuel
    | zero =>
      simp only [execK] at h
      have key : ∀ (off : Nat) (s1 : St), execK m r off s1 = .exit st' →
          (∀ fuel, p.run m (fuel + 1) pc st = p.run m fuel (pc + 1 + off) s1) →
          ∃ n, n ≤ (i :: r).length ∧
            ∀ fuel, p.run m (fuel + n) (pc + 0) st = p.run m fuel p.label st' := by
        intro off s1 hd hstep
        obtain ⟨n, hn, hf⟩ := ih hr hd
        refine ⟨n + 1, by simp only [List.length_cons]; omega, fun fuel => ?_⟩
        show p.run m (fuel + n + 1) pc st = _
        rw [hstep, hf]
      cases hs : stepI m i st with
      | seq s1 =>
        rw [hs] at h
        exact key 0 s1 h (fun fuel => by simp only [Prog.run, h0, hs, Nat.add_zero])
      | jump off s1 =>
        rw [hs] at h
        exact key off s1 h (fun fuel => by simp only [Prog.run, h0, hs])
      | label s1 =>
        rw [hs] at h
        simp only [Out.exit.injEq] at h
        subst h
        refine ⟨1, by simp, fun fuel => ?_⟩
        simp only [Prog.run, Nat.add_zero, h0, hs]
      | ret s1 => rw [hs] at h; simp at h
      | stuck => rw [hs] at h; simp at h

/-- More fuel does not change an answer. -/
theorem run_mono {m : Mem} {p : Prog} : ∀ {f g pc : Nat} {st : St} {v : BitVec 64},
    p.run m f pc st = some v → f ≤ g → p.run m g pc st = some v := by
  intro f
  induction f with
  | zero => intro g pc st v h; simp [Prog.run] at h
  | succ f ih =>
    intro g pc st v h hg
    cases g with
    | zero => omega
    | succ g =>
      simp only [Prog.run] at h ⊢
      cases hc : p.code[pc]? with
      | none => rw [hc] at h; simp at h
      | some i =>
        rw [hc] at h
        simp only at h ⊢
        cases hs : stepI m i st with
        | seq s1 => rw [hs] at h; exact ih h (by omega)
        | jump off s1 => rw [hs] at h; exact ih h (by omega)
        | label s1 => rw [hs] at h; exact ih h (by omega)
        | ret s1 => rw [hs] at h; exact h
        | stuck => rw [hs] at h; simp at h

/-! ### Compiler actions -/

theorem bind_ok {α β : Type} {x : CM α} {f : α → CM β} {s s2 : CSt} {b : β} {c : List Insn}
    (h : (x >>= f) s = .ok (b, s2, c)) :
    ∃ a s1 c1 c2, x s = .ok (a, s1, c1) ∧ f a s1 = .ok (b, s2, c2) ∧ c = c1 ++ c2 := by
  simp only [bind] at h
  cases hx : x s with
  | error e => rw [hx] at h; simp at h
  | ok p =>
    obtain ⟨a, s1, c1⟩ := p
    rw [hx] at h
    simp only at h
    cases hf : f a s1 with
    | error e => rw [hf] at h; simp at h
    | ok q =>
      obtain ⟨b', s2', c2⟩ := q
      rw [hf] at h
      simp only [Except.ok.injEq, Prod.mk.injEq] at h
      obtain ⟨rfl, rfl, rfl⟩ := h
      exact ⟨a, s1, c1, c2, rfl, hf, rfl⟩

theorem pure_ok {α : Type} {a b : α} {s s2 : CSt} {c : List Insn}
    (h : (pure a : CM α) s = .ok (b, s2, c)) : b = a ∧ s2 = s ∧ c = [] := by
  simp only [pure, Except.ok.injEq, Prod.mk.injEq] at h
  exact ⟨h.1.symm, h.2.1.symm, h.2.2.symm⟩

theorem emit_ok {is : List Insn} {u : Unit} {s s2 : CSt} {c : List Insn}
    (h : emit is s = .ok (u, s2, c)) : s2 = s ∧ c = is := by
  simp only [emit, Except.ok.injEq, Prod.mk.injEq] at h
  exact ⟨h.2.1.symm, h.2.2.symm⟩

theorem reject_ok {α : Type} {b : α} {s s2 : CSt} {c : List Insn}
    (h : (reject : CM α) s = .ok (b, s2, c)) : False := by
  simp [reject] at h

theorem panic_ok {α : Type} {b : α} {s s2 : CSt} {c : List Insn}
    (h : (panic : CM α) s = .ok (b, s2, c)) : False := by
  simp [panic] at h

theorem freeM_ok {r : Nat} {u : Unit} {s s2 : CSt} {c : List Insn}
    (h : freeM r s = .ok (u, s2, c)) : s2 = { s with used := free s.used r } ∧ c = [] := by
  simp only [freeM, Except.ok.injEq, Prod.mk.injEq] at h
  exact ⟨h.2.1.symm, h.2.2.symm⟩

theorem useExit_ok {u : Unit} {s s2 : CSt} {c : List Insn}
    (h : useExit s = .ok (u, s2, c)) : s2 = { s with exitUsed := true } ∧ c = [] := by
  simp only [useExit, Except.ok.injEq, Prod.mk.injEq] at h
  exact ⟨h.2.1.symm, h.2.2.symm⟩

theorem capture_ok {α : Type} {x : CM α} {a : α} {cc : List Insn} {s s2 : CSt} {c : List Insn}
    (h : capture x s = .ok ((a, cc), s2, c)) : x s = .ok (a, s2, cc) ∧ c = [] := by
  simp only [capture] at h
  cases hx : x s with
  | error e => rw [hx] at h; simp at h
  | ok p =>
    obtain ⟨a', s1, c1⟩ := p
    rw [hx] at h
    simp only [Except.ok.injEq, Prod.mk.injEq] at h
    obtain ⟨⟨rfl, rfl⟩, rfl, rfl⟩ := h
    exact ⟨rfl, rfl⟩

end Bpfsnoop.Cc
