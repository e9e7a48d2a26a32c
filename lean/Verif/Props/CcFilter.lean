import Verif.Props.CcSafe

/-
C04, C05, C14: what holds for every program the filter compiler produces, whatever the expression.
-/
namespace Bpfsnoop.Cc

/-- The parts of an accepted filter. -/
theorem compileFilter_ok {o : Opts} {e : Expr} {p : Prog} (h : compileFilter o e = .ok p) :
    topOp e = true ∧ ∃ r t s body x, evaluate o e initFilter = .ok (.mat r t none, s, body) ∧
      (x = 0 ∨ (x = 1 ∧ ∃ l r, e = .bin .oror l r)) ∧ BoolCode body r x ∧
      p = { code := .movReg 9 1 :: body ++ (if r ≠ 0 then [.movReg 0 r] else []) ++ [.ret],
            label := body.length } := by
  unfold compileFilter at h
  split at h
  · simp at h
  · rename_i ht
    have ht : topOp e = true := by simpa using ht
    refine ⟨ht, ?_⟩
    cases he : evaluate o e initFilter with
    | error x => rw [he] at h; simp at h
    | ok q =>
      obtain ⟨v, s, body⟩ := q
      rw [he] at h
      obtain ⟨x, hx, hv⟩ := bool_evaluate ht he
      rcases hv with ⟨n, rfl⟩ | ⟨r, t, rfl, hb⟩
      · simp at h
      · simp only [Except.ok.injEq] at h
        exact ⟨r, t, s, body, x, rfl, hx, hb, h.symm⟩

/-- The end of a filter: move the result to R0 if it is elsewhere, return. -/
theorem run_tail {m : Mem} {p : Prog} {pc r : Nat} {st : St}
    (hc : ∀ j, p.code[pc + j]? = ((if r ≠ 0 then [Insn.movReg 0 r] else []) ++ [Insn.ret])[j]?) (fuel : Nat) :
    p.run m (fuel + ((if r ≠ 0 then 1 else 0) + 1)) pc st = some (st.regs r) := by
  by_cases hr : r = 0
  · subst hr
    have h0 := hc 0
    simp at h0
    rw [if_neg (by simp)]
    simp only [Prog.run, h0, stepI]
  · rw [if_pos hr] at hc ⊢
    have h0 := hc 0
    have h1 := hc 1
    simp at h0 h1
    simp only [Prog.run, h0, h1, stepI, set_same]

/-- Running an accepted filter: the body either falls off its end with 0 or 1 in the result register, or
jumps to the exit label, in which case the answer is the value `x` of the last instruction. -/
theorem filter_run {o : Opts} {e : Expr} {p : Prog} (h : compileFilter o e = .ok p) (hf : Fits p.code)
    (m : Mem) (st : St) :
    ∃ r t s body x, evaluate o e initFilter = .ok (.mat r t none, s, body) ∧ Fits body ∧
      (x = 0 ∨ (x = 1 ∧ ∃ l r, e = .bin .oror l r)) ∧
      ((∃ st', exec m body (st.set 9 (st.regs 1)) = .done st' ∧ (st'.regs r = 0 ∨ st'.regs r = 1) ∧
          ∀ fuel, p.code.length ≤ fuel → p.run m fuel 0 st = some (st'.regs r)) ∨
       (∃ st', exec m body (st.set 9 (st.regs 1)) = .exit st' ∧
          ∀ fuel, p.code.length ≤ fuel → p.run m fuel 0 st = some x)) := by
  obtain ⟨_, r, t, s, body, x, he, hx, hb, rfl⟩ := compileFilter_ok h
  have hfb : Fits body := fun i hi => hf i (by simp [hi])
  refine ⟨r, t, s, body, x, he, hfb, hx, ?_⟩
  generalize hT : (if r ≠ 0 then [Insn.movReg 0 r] else []) ++ [Insn.ret] = T
  have hTl : T.length = (if r ≠ 0 then 1 else 0) + 1 := by
    subst hT; by_cases hr : r = 0 <;> simp [hr]
  have hcode : (Insn.movReg 9 1 :: body ++ (if r ≠ 0 then [Insn.movReg 0 r] else []) ++ [Insn.ret])
      = Insn.movReg 9 1 :: (body ++ T) := by subst hT; simp
  rw [hcode]
  generalize hP : ({ code := Insn.movReg 9 1 :: (body ++ T), label := body.length } : Prog) = P
  have hPc : P.code = Insn.movReg 9 1 :: (body ++ T) := by subst hP; rfl
  have hPl : P.label = body.length := by subst hP; rfl
  have hlen : P.code.length = body.length + T.length + 1 := by rw [hPc]; simp
  have hfirst : ∀ fuel, P.run m (fuel + 1) 0 st = P.run m fuel 1 (st.set 9 (st.regs 1)) := by
    intro fuel
    simp only [Prog.run, hPc, List.getElem?_cons_zero, stepI]
  have hbody : ∀ j, j < body.length → P.code[1 + j]? = body[j]? := by
    intro j hj
    rw [hPc, Nat.add_comm, List.getElem?_cons_succ, List.getElem?_append_left hj]
  have htail : ∀ j, P.code[1 + body.length + j]? = T[j]? := by
    intro j
    rw [hPc, show 1 + body.length + j = (body.length + j) + 1 by omega, List.getElem?_cons_succ,
      List.getElem?_append_right (by omega)]
    congr 1; omega
  have hdone : ∀ st' fuel, T.length ≤ fuel → P.run m fuel (1 + body.length) st' = some (st'.regs r) := by
    intro st' fuel hfu
    have := run_tail (m := m) (p := P) (pc := 1 + body.length) (r := r) (st := st')
      (by intro j; rw [htail, hT]) (fuel - T.length)
    rw [← hTl] at this
    rw [← this]; congr 1; omega
  obtain ⟨pre, tl, rfl, hp, hcl, ht, hlast⟩ := hb
  rw [fits_append] at hfb
  rcases hp.2 hfb.1 m (st.set 9 (st.regs 1)) with ⟨s1, h1⟩ | ⟨s1, h1⟩
  · left
    obtain ⟨s2, h2, hv⟩ := ht m s1
    have hall : exec m (pre ++ tl) (st.set 9 (st.regs 1)) = .done s2 := by rw [exec_append_done h1]; exact h2
    refine ⟨s2, hall, hv, ?_⟩
    intro fuel hfu
    obtain ⟨n, hn, hrun⟩ := run_block_done (p := P) hbody hall
    have e1 : fuel = ((fuel - 1 - n) + n) + 1 := by omega
    rw [e1, hfirst, show (1 : Nat) = 1 + 0 from rfl, hrun]
    exact hdone s2 _ (by omega)
  · right
    refine ⟨s1, exec_append_exit h1, ?_⟩
    intro fuel hfu
    have hpre : ∀ j, j < pre.length → P.code[1 + j]? = pre[j]? := by
      intro j hj
      rw [hbody j (by simp; omega), List.getElem?_append_left hj]
    obtain ⟨n, hn, hrun⟩ := run_block_exit (p := P) hpre h1
    have htl : tl ≠ [] := by
      rintro rfl
      rcases hlast with ⟨_, hl⟩ | ⟨_, hl⟩ <;> simp at hl
    have htl' : 1 ≤ tl.length := by cases tl with | nil => exact absurd rfl htl | cons => simp
    have hlab : P.code[(pre ++ tl).length]? = tl.getLast? := by
      have h3 := hbody ((pre ++ tl).length - 1) (by simp only [List.length_append]; omega)
      rw [show 1 + ((pre ++ tl).length - 1) = (pre ++ tl).length by simp only [List.length_append]; omega] at h3
      rw [h3, ← List.getLast?_eq_getElem?, List.getLast?_append]
      cases hg : tl.getLast? with
      | none => exact absurd (List.getLast?_eq_none_iff.mp hg) htl
      | some y => rfl
    have e1 : fuel = ((fuel - 2 - n) + 1 + n) + 1 := by simp only [List.length_append] at *; omega
    rw [e1, hfirst, show (1 : Nat) = 1 + 0 from rfl, hrun, hPl]
    have hstep : ∀ (i : Insn) (s2 : St) (f : Nat), tl.getLast? = some i → stepI m i s1 = .seq s2 →
        P.run m (f + 1) (pre ++ tl).length s1 = P.run m f ((pre ++ tl).length + 1) s2 := by
      intro i s2 f hi hs
      simp only [Prog.run, hlab, hi, hs]
    rcases hlast with ⟨rfl, hl⟩ | ⟨rfl, hl⟩
    · have := hstep _ _ (fuel - 2 - n) hl rfl
      rw [this, Nat.add_comm _ 1, hdone _ _ (by simp only [List.length_append] at *; omega), set_same]
      simp only [aluEval]; rw [BitVec.xor_self]; rfl
    · have := hstep _ _ (fuel - 2 - n) hl rfl
      rw [this, Nat.add_comm _ 1, hdone _ _ (by simp only [List.length_append] at *; omega), set_same]
      rfl

/-! ### C05 -/

/-- All jumps of a filter go forward and stay inside it; the exit label is inside as well. -/
theorem filter_jumps_forward {o : Opts} {e : Expr} {p : Prog} (h : compileFilter o e = .ok p) :
    (∀ k i, p.code[k]? = some i → k + 1 + joff i ≤ p.code.length) ∧ p.label < p.code.length := by
  obtain ⟨_, r, t, s, body, x, he, hx, hb, rfl⟩ := compileFilter_ok h
  have hcl : Closed (.movReg 9 1 :: body ++ (if r ≠ 0 then [.movReg 0 r] else []) ++ [.ret]) := by
    refine closed_append (closed_append ⟨Nat.zero_le _, (safe_of_bool hb).1⟩ ?_) ⟨Nat.le_refl _, trivial⟩
    split
    · exact ⟨Nat.le_refl _, trivial⟩
    · trivial
  refine ⟨fun k i hk => closed_get hcl hk, ?_⟩
  simp only [List.length_append, List.length_cons]; omega

/-- A filter of at most 2^15 instructions has no jump offset that does not fit. -/
theorem filter_fits {o : Opts} {e : Expr} {p : Prog} (h : compileFilter o e = .ok p)
    (hl : p.code.length ≤ 2 ^ 15) : Fits p.code := by
  intro i hi
  obtain ⟨k, hk⟩ := List.getElem?_of_mem hi
  have := (filter_jumps_forward h).1 k i hk
  cases i <;> simp only [jumpFits, joff] at * <;> omega

/-- C05: a filter of at most 2^15 instructions returns after at most as many steps as it has instructions,
whatever it is started with. -/
theorem filter_terminates {o : Opts} {e : Expr} {p : Prog} (h : compileFilter o e = .ok p)
    (hl : p.code.length ≤ 2 ^ 15) (m : Mem) (st : St) :
    ∃ v, ∀ fuel, p.code.length ≤ fuel → p.run m fuel 0 st = some v := by
  obtain ⟨r, t, s, body, x, _, _, _, hr⟩ := filter_run h (filter_fits h hl) m st
  rcases hr with ⟨st', _, _, hr⟩ | ⟨st', _, hr⟩
  · exact ⟨_, hr⟩
  · exact ⟨_, hr⟩

/-! ### C04 -/

/-- C04: whatever a filter returns is 0 or 1. -/
theorem filter_answers_bool {o : Opts} {e : Expr} {p : Prog} (h : compileFilter o e = .ok p)
    (hl : p.code.length ≤ 2 ^ 15) {m : Mem} {st : St} {fuel : Nat} {v : BitVec 64}
    (hv : p.run m fuel 0 st = some v) : v = 0 ∨ v = 1 := by
  obtain ⟨r, t, s, body, x, _, _, hx, hr⟩ := filter_run h (filter_fits h hl) m st
  have key : ∀ w, (∀ fuel, p.code.length ≤ fuel → p.run m fuel 0 st = some w) → v = w := by
    intro w hw
    have h1 := run_mono hv (Nat.le_max_left fuel p.code.length)
    have h2 := hw _ (Nat.le_max_right fuel p.code.length)
    rw [h1] at h2
    exact Option.some.inj h2
  rcases hr with ⟨st', _, hb, hr⟩ | ⟨st', _, hr⟩
  · rw [key _ hr]; exact hb
  · rw [key _ hr]
    rcases hx with hx | ⟨hx, _⟩
    · exact .inl hx
    · exact .inr hx

/-! ### C14 -/

/-- The outermost operator is a comparison, a logical operator or a negation. -/
def Boolean (e : Expr) : Prop :=
  (∃ x, e = .un .not x) ∨ ∃ op l r, e = .bin op l r ∧
    (op = .eq ∨ op = .ne ∨ op = .lt ∨ op = .le ∨ op = .gt ∨ op = .ge ∨ op = .andand ∨ op = .oror)

theorem topOp_iff (e : Expr) : topOp e = true ↔ Boolean e := by
  unfold Boolean
  constructor
  · intro h
    cases e with
    | un op x => cases op <;> simp [topOp] at h; exact .inl ⟨x, rfl⟩
    | bin op l r => right; cases op <;> simp [topOp] at h <;> exact ⟨_, l, r, rfl, by simp⟩
    | _ => simp [topOp] at h
  · rintro (⟨x, rfl⟩ | ⟨op, l, r, rfl, h⟩)
    · rfl
    · rcases h with rfl | rfl | rfl | rfl | rfl | rfl | rfl | rfl <;> rfl

/-- C14: a filter is accepted exactly if its outermost operator is Boolean, its parts compile, and it does
not fold to a constant. -/
theorem filter_accepted_iff (o : Opts) (e : Expr) :
    (∃ p, compileFilter o e = .ok p) ↔
      Boolean e ∧ ∃ v s c, evaluate o e initFilter = .ok (v, s, c) ∧ ∀ n t, v ≠ .const n t := by
  constructor
  · rintro ⟨p, h⟩
    obtain ⟨ht, r, t, s, body, x, he, _⟩ := compileFilter_ok h
    exact ⟨(topOp_iff e).mp ht, _, _, _, he, by simp⟩
  · rintro ⟨hb, v, s, c, he, hv⟩
    have ht := (topOp_iff e).mpr hb
    unfold compileFilter
    rw [if_neg (by simp [ht]), he]
    cases v with
    | const n t => exact absurd rfl (hv n t)
    | pend b offs t m => exact ⟨_, rfl⟩
    | mat r t m => exact ⟨_, rfl⟩
    | enumMaybe n t => exact ⟨_, rfl⟩

/-! ### A concrete filter -/

deriving instance DecidableEq for Except

/-- `skb->dev->ifindex == 5`-like: argument 0 is a pointer to struct 0 with a pointer `dev` at 16 to struct 1
with a 4-byte `ifindex` at 208. Types: 0 struct, 1 struct, 2 u32. -/
def exBtf : Btf where
  kind n := if n = 0 then .comp 0 else if n = 1 then .comp 1 else if n = 2 then .int else .other
  size n := if n = 0 then some 232 else if n = 1 then some 2048 else if n = 2 then some 4 else none
  member id f :=
    if id = 0 ∧ f = "dev" then some ⟨.ptr (.base 1), 16, 128, 0⟩
    else if id = 0 ∧ f = "len" then some ⟨.base 2, 112, 896, 0⟩
    else if id = 0 ∧ f = "bit3" then some ⟨.base 2, 126, 1011, 2⟩
    else if id = 1 ∧ f = "ifindex" then some ⟨.base 2, 208, 1664, 0⟩
    else none
  castId id := some (id + 1)

def exOpts (mode : Mode) : Opts :=
  { Γ := exBtf, vars := [("skb", .ptr (.base 0)), ("n", .base 2)], mode := mode, reserved := 8, fastcall := false, lo := 0 }

def exExpr : Expr := .bin .eq (.arrow (.arrow (.name "skb") "dev") "ifindex") (.num ['5'])

/-- It is accepted in every read mode, with the expected code in direct mode. -/
theorem filter_witness :
    (∀ mode, ∃ p, compileFilter (exOpts mode) exExpr = .ok p ∧ p.code.length ≤ 2 ^ 15) ∧
    compileFilter (exOpts .direct) exExpr = .ok
      { code := [.movReg 9 1, .ldx 8 9 0 8, .ldx 8 8 16 8, .jexit 8, .ldx 8 8 208 8,
          .aluImm .lsh 8 32, .aluImm .rsh 8 32, .jmpImm .ne 8 5 2, .movImm 8 1, .ja 1,
          .aluReg .xor 8 8, .movReg 0 8, .ret], label := 10 } ∧
    compileFilter (exOpts .direct) (.bin .eq (.num ['5']) (.num ['5'])) = .error .reject ∧
    compileFilter (exOpts .direct) (.bin .add (.name "n") (.num ['5'])) = .error .reject := by
  refine ⟨fun mode => ?_, by decide +kernel, by decide +kernel, by decide +kernel⟩
  cases mode
  · exact ⟨_, rfl, by decide⟩
  · exact ⟨_, rfl, by decide⟩
  · exact ⟨_, rfl, by decide⟩

end Bpfsnoop.Cc
