import Verif.Props.CcMat
import Verif.Props.CcNum

/-
How compiler values represent denotations, and correctness of `materialize`.
-/
namespace Bpfsnoop.Cc

/-- The world as the program sees it: arguments are stored 8 bytes apart from `a9`, memory is word-readable. -/
structure Env (o : Opts) (w : World) (a9 : BitVec 64) : Prop where
  args : ∀ i, i < o.vars.length → w.arg i = load w.mem 8 (a9 + BitVec.ofNat 64 (i * 8))
  words : WordReadable w.mem

def baseVal (w : World) (st : St) : Base → BitVec 64
  | .var i => w.arg i
  | .uptr u => u
  | .reg r => st.regs r

def baseOK (o : Opts) : Base → Prop
  | .var i => i < o.vars.length
  | _ => True

/-- The register a value lives in. -/
def Val.reg? : Val → Option Nat
  | .mat r _ _ => some r
  | .pend (.reg r) _ _ _ => some r
  | _ => none

def memOK (m : Option Member) : Option (Nat × Nat) → Prop
  | none => isBf m = false
  | some (d, n) => ∃ mem, m = some mem ∧ mem.bfSize ≠ 0 ∧ d = mem.bitOff % 8 ∧ n = mem.bfSize

def preOK (o : Opts) (pre : List Off) : Prop :=
  o.mode = .core → ∀ y ∈ pre, y.deref = true → castable o.Γ y = true ∧ o.Γ.sizeOf y.ty = some 8

/-- The chain does not end in a read. -/
def lastPlain (offs : List Off) : Prop := offs = [] ∨ ∃ pre z, offs = pre ++ [z] ∧ z.deref = false

def isComp (Γ : Btf) (t : Ty) : Bool := match Γ.kindOf t with | .comp _ => true | _ => false

/-- The value `v` of the compiler stands for the denotation `cv`; `nul`: a NULL pointer will be met when it
is materialized. -/
def Rep (o : Opts) (w : World) (st : St) (v : Val) (σ : Sh) (cv : CV) (nul : Bool) : Prop :=
  match σ with
  | .num n t => v = .const n t ∧ cv = .num n t ∧ nul = false
  | .name s => v = .enumMaybe s none ∧ cv = .name s ∧ nul = false
  | .comp a ct => ∃ r, v = .mat r a none ∧ cv = .rv (st.regs r) ct false ∧ nul = false
  | .lazy t => ∃ b offs m, v = .pend b offs t m ∧ isBf m = false ∧ baseOK o b ∧ preOK o offs ∧ lastPlain offs ∧
      cv = .rv (adjReg o.Γ t (chainW w8 w.mem offs (baseVal w st b))) (some t) false ∧
      nul = nulAll w8 w.mem offs (baseVal w st b) ∧
      ((isScalar o.Γ t = true ∧ okSize o.Γ t = true) ∨ (isArray o.Γ t = true ∧ wide o.Γ t = true))
  | .obj t bf loads cst => ∃ b pre z m, v = .pend b (pre ++ [z]) t m ∧ memOK m bf ∧ baseOK o b ∧ preOK o pre ∧
      z.deref = loads ∧ z.ty = t ∧ nul = nulAll w8 w.mem pre (baseVal w st b) ∧
      (o.mode = .core → loads = true → (cst = true ∨ isComp o.Γ t = true → toComp o.Γ z.prev = true) ∧
        (cst = false → z.off = 0)) ∧
      (cv = .lv (chainW w8 w.mem pre (baseVal w st b) + z.off) t bf ∨
        (loads = true ∧ bf = none ∧ isScalar o.Γ t = true ∧ okSize o.Γ t = true ∧
          cv = .rv (convert o.Γ t (load w.mem 8 (chainW w8 w.mem pre (baseVal w st b) + z.off))) (some t) true))

/-- A representation only depends on the register the value lives in. -/
theorem rep_same {o : Opts} {w : World} {st st' : St} {v : Val} {σ : Sh} {cv : CV} {nul : Bool}
    (h : Rep o w st v σ cv nul) (hs : ∀ q, v.reg? = some q → st'.regs q = st.regs q) :
    Rep o w st' v σ cv nul := by
  have hb : ∀ b offs t m, v = .pend b offs t m → baseVal w st' b = baseVal w st b := by
    intro b offs t m hv
    cases b with
    | reg r => exact hs r (by rw [hv]; rfl)
    | _ => rfl
  cases σ with
  | num n t => exact h
  | name s => exact h
  | comp a ct =>
    obtain ⟨r, h1, h2, h3⟩ := h
    exact ⟨r, h1, by rw [h2, hs r (by rw [h1]; rfl)], h3⟩
  | lazy t =>
    obtain ⟨b, offs, m, h1, h2, h3, h4, h5, h6, h7, h8⟩ := h
    exact ⟨b, offs, m, h1, h2, h3, h4, h5, by rw [hb _ _ _ _ h1]; exact h6, by rw [hb _ _ _ _ h1]; exact h7, h8⟩
  | obj t bf loads cst =>
    obtain ⟨b, pre, z, m, h1, h2, h3, h4, h5, h6, h7, h8, h9⟩ := h
    exact ⟨b, pre, z, m, h1, h2, h3, h4, h5, h6, by rw [hb _ _ _ _ h1]; exact h7, h8,
      by rw [hb _ _ _ _ h1]; exact h9⟩

/-! ### Sizes -/

theorem okSize_iff {Γ : Btf} {t : Ty} (h : okSize Γ t = true) :
    ∃ s, Γ.sizeOf t = some s ∧ (s = 1 ∨ s = 2 ∨ s = 4 ∨ s = 8) := by
  unfold okSize at h
  simp only [Bool.or_eq_true, beq_iff_eq] at h
  rcases h with ((h | h) | h) | h <;> exact ⟨_, h, by simp⟩

theorem adjReg_size {Γ : Btf} {t : Ty} {s : Nat} (h : Γ.sizeOf t = some s) (hs : s = 1 ∨ s = 2 ∨ s = 4 ∨ s = 8)
    (x : BitVec 64) : adjReg Γ t x = lowBytes s x := by
  unfold adjReg
  rcases hs with rfl | rfl | rfl | rfl
  · rw [h]; rfl
  · rw [h]; rfl
  · rw [h]; rfl
  · rw [h, lowBytes_8]; rfl

theorem convert_size {Γ : Btf} {t : Ty} {s : Nat} (h : Γ.sizeOf t = some s) (hs : s = 1 ∨ s = 2 ∨ s = 4 ∨ s = 8)
    (x : BitVec 64) : convert Γ t x = lowBytes s x := by
  unfold convert
  rw [h]
  rcases hs with rfl | rfl | rfl | rfl
  · rfl
  · rfl
  · rfl
  · rw [lowBytes_8]; rfl

theorem adjReg_wide {Γ : Btf} {t : Ty} (h : wide Γ t = true) (x : BitVec 64) : adjReg Γ t x = x := by
  unfold wide at h
  unfold adjReg
  split <;> simp_all

theorem lowBytes_idem {s s' : Nat} (h : s ≤ s') (x : BitVec 64) : lowBytes s (lowBytes s' x) = lowBytes s x := by
  apply BitVec.eq_of_toNat_eq
  rw [lowBytes_toNat, lowBytes_toNat, lowBytes_toNat, Nat.mod_mod_of_dvd _ (Nat.pow_dvd_pow 2 (by omega))]

/-- Cutting a load of the right or the full width. -/
theorem adj_load {Γ : Btf} {t : Ty} {s q : Nat} {m : Mem} (hm : WordReadable m) (h : Γ.sizeOf t = some s)
    (hs : s = 1 ∨ s = 2 ∨ s = 4 ∨ s = 8) (hq : q = 8 ∨ q = s) (a : BitVec 64) :
    adjReg Γ t (load m q a) = load m s a := by
  rw [adjReg_size h hs, load_low hm hs]
  rcases hq with rfl | rfl
  · rfl
  · rw [load_low hm hs, lowBytes_idem (Nat.le_refl _)]

theorem wOf_cases {o : Opts} {z : Off} {s : Nat} (h : o.Γ.sizeOf z.ty = some s) (hs : s = 1 ∨ s = 2 ∨ s = 4 ∨ s = 8) :
    wOf o z = 8 ∨ wOf o z = s := by
  unfold wOf
  cases o.mode with
  | probe => exact .inl rfl
  | direct => exact .inl rfl
  | core =>
    simp only [wCore]
    split
    · split
      · right
        simp only [loadSize, h, Option.map_some, Option.getD_some]
        rcases hs with rfl | rfl | rfl | rfl <;> decide
      · exact .inl rfl
    · exact .inl rfl

/-- On the way all reads are 8 bytes wide. -/
theorem pre_w8 {o : Opts} {m : Mem} {pre : List Off} (h : preOK o pre) (x : BitVec 64) :
    chainW (wOf o) m pre x = chainW w8 m pre x ∧ nulAll (wOf o) m pre x = nulAll w8 m pre x := by
  apply chainW_congr
  intro z hz hd
  by_cases hm : o.mode = .core
  · have := (h hm z hz hd).2
    rcases wOf_cases (o := o) this (by simp) with h | h <;> exact h
  · unfold wOf
    cases hm' : o.mode with
    | core => exact absurd hm' hm
    | _ => rfl

/-! ### Materialize -/

theorem loadBase_puts {o : Opts} {w : World} {a9 : BitVec 64} (env : Env o w a9) {b : Base} {st : St} {reg : Nat}
    {K : Nat → Prop} (hb : baseOK o b) (h9 : st.regs 9 = a9) (hK : ¬ K reg) (he : Exact (loadBase reg b)) :
    Puts w.mem (loadBase reg b) st false K reg (baseVal w st b) := by
  cases b with
  | var i =>
    have hx : sx16 (BitVec.ofNat 64 (i * 8)) = BitVec.ofNat 64 (i * 8) := he _ List.mem_cons_self
    exact puts_set (by simp only [stepI, hx, h9, baseVal, env.args i hb]) hK
  | uptr u =>
    have hx : sx32 u = u := he _ List.mem_cons_self
    exact puts_set (by simp only [stepI, hx, baseVal]) hK
  | reg r => exact puts_set rfl hK

/-- What allocation does. -/
theorem alloc_facts {lo : Nat} {u u' : Regs} {r : Nat} (h : alloc lo u = some (r, u')) :
    u r = false ∧ lo ≤ r ∧ r ≤ 8 ∧ u' = setReg u r true := by
  obtain ⟨h1, h2, h3, h4, _⟩ := allocFrom_spec _ _ _ _ _ h
  exact ⟨h1, h2, by omega, h4⟩

/-- The register and allocator state after `materialize`. -/
def MatSt (o : Opts) (v : Val) (s s' : CSt) (r : Nat) : Prop :=
  ((∃ t m, v = .mat r t m) ∧ s'.used = s.used) ∨
  ((∀ r t m, v ≠ .mat r t m) ∧ s.used r = false ∧ s'.used = setReg s.used r true ∧ r ≤ 8 ∧ o.lo ≤ r)

theorem materialize_static {o : Opts} {v : Val} {s s' : CSt} {r : Nat} {t : Option Ty} {m : Option Member}
    {c : List Insn} (h : materialize o v s = .ok ((r, t, m), s', c)) :
    MatSt o v s s' r ∧ t = v.ty ∧ m = v.mem := by
  cases v with
  | mat r0 t0 m0 =>
    obtain ⟨h1, rfl, _⟩ := pure_ok h
    simp only [Prod.mk.injEq] at h1
    obtain ⟨rfl, rfl, rfl⟩ := h1
    exact ⟨.inl ⟨⟨_, _, rfl⟩, rfl⟩, rfl, rfl⟩
  | const n t0 =>
    simp only [materialize] at h
    obtain ⟨r', s1, c1, c2, h1, h2, rfl⟩ := bind_ok h
    obtain ⟨u, hu, rfl, rfl⟩ := allocM_ok h1
    obtain ⟨_, s3, c3, c4, h3, h4, rfl⟩ := bind_ok h2
    obtain ⟨rfl, rfl⟩ := emit_ok h3
    obtain ⟨h5, rfl, rfl⟩ := pure_ok h4
    simp only [Prod.mk.injEq] at h5
    obtain ⟨rfl, rfl, rfl⟩ := h5
    obtain ⟨a, b, c, rfl⟩ := alloc_facts hu
    exact ⟨.inr ⟨by simp, a, rfl, c, b⟩, rfl, rfl⟩
  | pend b offs t0 m0 =>
    obtain ⟨r', u, s3, c3, h1, h2, h3, rfl, _⟩ := materialize_pend_ok h
    simp only [Prod.mk.injEq] at h2
    obtain ⟨rfl, rfl, rfl⟩ := h2
    obtain ⟨a, b, c, rfl⟩ := alloc_facts h1
    have hu : s'.used = setReg s.used r true := by
      cases he : offs.isEmpty with
      | true => rw [he] at h3; obtain ⟨_, h4, _⟩ := pure_ok h3; rw [h4]
      | false => rw [he] at h3; exact (safe_offsetChain h3).1
    exact ⟨.inr ⟨by simp, a, hu, c, b⟩, rfl, rfl⟩
  | enumMaybe n t0 => exact (reject_ok (s := s) h).elim

theorem chainW_snoc (f : Off → Nat) (m : Mem) (pre : List Off) (z : Off) (x : BitVec 64) :
    chainW f m (pre ++ [z]) x = stepW f m z (chainW f m pre x) := by
  rw [chainW_append]; rfl

/-- Materializing a pending value: base, chain, cut. -/
theorem pend_puts {o : Opts} {w : World} {a9 : BitVec 64} (env : Env o w a9) {b : Base} {offs : List Off} {t : Ty}
    {m : Option Member} {s s' : CSt} {q : Nat × Option Ty × Option Member} {c : List Insn} {st : St}
    (h : materialize o (.pend b offs t m) s = .ok (q, s', c)) (hb : baseOK o b) (h9 : st.regs 9 = a9)
    (hlo : LoOK o s.used) (he : Exact c)
    (hok : ∀ pre z, offs = pre ++ [z] → chainOK o pre z ∧ preOK o pre)
    {x : BitVec 64} {nul : Bool}
    (hnul : (offs = [] ∧ nul = false) ∨ ∃ pre z, offs = pre ++ [z] ∧ nul = nulAll w8 w.mem pre (baseVal w st b))
    (hcut : ∀ (s1 : St) (K : Nat → Prop), ¬ K q.1 → s1.regs q.1 = chainW (wOf o) w.mem offs (baseVal w st b) →
      Exact (cutCode o.Γ t m q.1) →
      Puts w.mem (cutCode o.Γ t m q.1) s1 false K q.1 x) :
    Puts w.mem c st nul (Keep s.used) q.1 x := by
  obtain ⟨r, u, s3, c3, h1, rfl, h3, rfl, rfl⟩ := materialize_pend_ok h
  simp only at hcut ⊢
  obtain ⟨hfree, hlor, hr8, rfl⟩ := alloc_facts h1
  rw [exact_append, exact_append] at he
  have hK : ¬ Keep s.used r := by
    rintro (h | h)
    · rw [hfree] at h; simp at h
    · omega
  rw [List.append_assoc]
  have hbase := loadBase_puts env hb h9 hK he.1.1
  have goal := puts_append (c2 := c3 ++ cutCode o.Γ t m r) (a2 := nul) (r2 := r) (x2 := x) hbase ?_
  · simpa using goal
  · intro s1 hs1 hx1
    have hc3 : Puts w.mem c3 s1 nul (Keep s.used) r (chainW (wOf o) w.mem offs (baseVal w st b)) := by
      rcases hnul with ⟨ho, hn⟩ | ⟨pre, z, ho, hn⟩
      · subst ho; subst hn
        obtain ⟨_, _, rfl⟩ := pure_ok h3
        exact puts_nil hx1
      · subst ho
        have hne : (pre ++ [z]).isEmpty = false := by simp
        rw [hne] at h3
        obtain ⟨hck, hpk⟩ := hok pre z rfl
        have hlo' : LoOK o (setReg s.used r true) := by
          rcases hlo with h | ⟨h6, hu⟩
          · exact .inl h
          · refine .inr ⟨h6, fun r' hr' => ?_⟩
            simp only [setReg]
            rw [if_neg (by omega)]
            exact hu r' hr'
        have := offsetChain_reads (m := w.mem) (s := { s with used := setReg s.used r true }) h3 hlo'
          (by simp [setReg]) hck he.1.2 s1
        rw [hx1, (pre_w8 hpk _).2, ← hn] at this
        refine puts_mono this fun q hq => ⟨?_, ?_⟩
        · rcases hq with hq | hq
          · left; simp only [setReg]; split; rfl; exact hq
          · exact .inr hq
        · rintro rfl; exact hK hq
    have := puts_append hc3 (c2 := cutCode o.Γ t m r) (a2 := false) (r2 := r) (x2 := x)
      fun s2 hs2 hx2 => hcut s2 _ hK hx2 he.2
    simpa using this

/-- Correctness of `materialize`. -/
theorem materialize_correct {o : Opts} {w : World} {a9 : BitVec 64} (env : Env o w a9) {v : Val} {σ : Sh}
    {cv : CV} {nul : Bool} {st : St} {s s' : CSt} {r : Nat} {t : Option Ty} {m : Option Member} {c : List Insn}
    {x : BitVec 64} (h : materialize o v s = .ok ((r, t, m), s', c)) (hrep : Rep o w st v σ cv nul)
    (hu : σ.usable o = true) (hv : cv.value o.Γ w.mem = some x) (h9 : st.regs 9 = a9)
    (hlo : LoOK o s.used) (he : Exact c) : Puts w.mem c st nul (Keep s.used) r x := by
  have hcutPlain : ∀ (t : Ty) (m : Option Member) (r : Nat), isBf m = false → cutCode o.Γ t m r = adjustSize o.Γ t r := by
    intro t m r hm
    unfold cutCode
    cases m with
    | none => rfl
    | some mem =>
      simp only [isBf] at hm
      simp only [hm, Bool.false_eq_true, if_false]
  cases σ with
  | name n => simp [Sh.usable] at hu
  | num n t0 =>
    obtain ⟨rfl, rfl, rfl⟩ := hrep
    simp only [CV.value, Option.some.injEq] at hv
    subst hv
    simp only [materialize] at h
    obtain ⟨r', s1, c1, c2, h1, h2, rfl⟩ := bind_ok h
    obtain ⟨u, hal, rfl, rfl⟩ := allocM_ok h1
    obtain ⟨_, s3, c3, c4, h3, h4, rfl⟩ := bind_ok h2
    obtain ⟨rfl, rfl⟩ := emit_ok h3
    obtain ⟨h5, rfl, rfl⟩ := pure_ok h4
    simp only [Prod.mk.injEq] at h5
    obtain ⟨rfl, rfl, rfl⟩ := h5
    obtain ⟨a, b, c, rfl⟩ := alloc_facts hal
    have hx : sx32 n = n := he (.movImm r n) (by simp)
    refine puts_set (by simp only [stepI, hx]) ?_
    rintro (h | h)
    · rw [a] at h; simp at h
    · omega
  | comp a ct =>
    obtain ⟨r0, rfl, rfl, rfl⟩ := hrep
    obtain ⟨h1, rfl, rfl⟩ := pure_ok h
    simp only [Prod.mk.injEq] at h1
    obtain ⟨rfl, rfl, rfl⟩ := h1
    simp only [CV.value, Option.some.injEq] at hv
    exact puts_nil hv
  | lazy t0 =>
    obtain ⟨b, offs, m0, rfl, hm, hb, hpre, hlast, rfl, hn, hty⟩ := hrep
    simp only [CV.value, Option.some.injEq] at hv
    have hw : chainW (wOf o) w.mem offs (baseVal w st b) = chainW w8 w.mem offs (baseVal w st b) :=
      (pre_w8 hpre _).1
    refine pend_puts env h hb h9 hlo he ?_ ?_ ?_
    · rintro pre z rfl
      have hz : z.deref = false := by
        rcases hlast with h | ⟨pre', z', h, hz⟩
        · simp at h
        · have := List.append_inj' h rfl
          simp only [List.cons.injEq, and_true] at this
          rw [this.2]; exact hz
      have hp' : preOK o pre := fun hm y hy => hpre hm y (by simp [hy])
      exact ⟨fun hm => ⟨fun y hy hd => (hp' hm y hy hd).1, fun hd => by rw [hz] at hd; simp at hd⟩, hp'⟩
    · rcases hlast with rfl | ⟨pre, z, rfl, hz⟩
      · exact .inl ⟨rfl, hn⟩
      · refine .inr ⟨pre, z, rfl, ?_⟩
        rw [hn, nulAll_append]
        simp [nulAll, hz]
    · intro s1 K hK hx1 _
      have hty := (materialize_static h).2
      rw [hcutPlain _ _ _ hm]
      have := adjustSize_cuts (Γ := o.Γ) (t := t0) (m := w.mem) (st := s1) hK
      rw [hx1, hw, hv] at this
      exact this
  | obj t0 bf loads cst =>
    obtain ⟨b, pre, z, m0, rfl, hm, hb, hpre, hd, hzt, hn, hcore, hcv⟩ := hrep
    have hW := (pre_w8 (m := w.mem) hpre (baseVal w st b)).1
    refine pend_puts env h hb h9 hlo he ?_ (.inr ⟨pre, z, rfl, hn⟩) ?_
    · intro pre' z' hpz
      have := List.append_inj' hpz rfl
      simp only [List.cons.injEq, and_true] at this
      obtain ⟨rfl, rfl⟩ := this
      refine ⟨fun hmode => ⟨fun y hy hdy => (hpre hmode y hy hdy).1, fun hdz => ?_⟩, hpre⟩
      have hl : loads = true := by rw [← hd]; exact hdz
      subst hl
      have hsc : isScalar o.Γ t0 = true := by
        cases bf with
        | none => simp only [Sh.usable, Bool.and_eq_true] at hu; exact hu.1
        | some p => simp only [Sh.usable, Bool.and_eq_true] at hu; exact hu.1.1.1
      have hrd : canReadByRdonlyCast o.Γ z.ty = true := by
        rw [hzt]
        unfold isScalar at hsc
        unfold canReadByRdonlyCast
        split at hsc <;> simp_all
      cases cst with
      | true => exact .inl (castable_iff.mpr ⟨(hcore hmode rfl).1 (.inl rfl), hrd⟩)
      | false => exact .inr ((hcore hmode rfl).2 rfl)
    · intro s1 K hK hx1 hex
      rw [chainW_snoc, hW] at hx1
      generalize hA : chainW w8 w.mem pre (baseVal w st b) + z.off = A at hcv
      have hx1 : s1.regs r = if loads = true then load w.mem (wOf o z) A else A := by
        rw [hx1]; unfold stepW; rw [hd, hA]
      cases bf with
      | some p =>
        obtain ⟨d, n⟩ := p
        obtain ⟨mem, rfl, hbf, rfl, rfl⟩ := hm
        cases loads with
        | false => simp [Sh.usable] at hu
        | true =>
          rw [if_pos rfl] at hx1
          simp only [Sh.usable, Bool.and_eq_true, decide_eq_true_eq] at hu
          obtain ⟨⟨⟨hsc, hok⟩, _⟩, hcr⟩ := hu
          obtain ⟨sz, hsz, hs⟩ := okSize_iff hok
          rcases hcv with rfl | ⟨_, hno, _⟩
          · simp only [CV.value, Option.some.injEq] at hv
            have hcc : cutCode o.Γ t0 (some mem) r = bitfieldExtract mem r := by
              simp [cutCode, hbf]
            rw [hcc] at hex ⊢
            have := bitfield_extracts (m := w.mem) (st := s1) hK hex
            rw [hx1] at this
            have hval : bits (mem.bitOff % 8) mem.bfSize (load w.mem (wOf o z) A) = x := by
              rw [← hv]
              show _ = bits (mem.bitOff % 8) mem.bfSize (load w.mem 8 A)
              have hw8 : wOf o z = 8 ∨ (o.mode = .core ∧ wOf o z = sz) := by
                by_cases hmode : o.mode = .core
                · rcases wOf_cases (o := o) (z := z) (by rw [hzt]; exact hsz) hs with h | h
                  · exact .inl h
                  · exact .inr ⟨hmode, h⟩
                · left; unfold wOf; cases hm' : o.mode with
                  | core => exact absurd hm' hmode
                  | _ => rfl
              rcases hw8 with h8 | ⟨hmode, h8⟩
              · rw [h8]
              · rw [h8, load_low env.words hs, bits_low]
                simp only [hmode, bne_self_eq_false, Bool.false_or, Bool.and_eq_true, decide_eq_true_eq] at hcr
                have := hcr.2
                simp only [Btf.size0, hsz, Option.getD_some] at this
                exact this
            rw [hval] at this
            exact this
          · simp at hno
      | none =>
        rw [hcutPlain _ _ _ hm]
        have hadj := adjustSize_cuts (Γ := o.Γ) (t := t0) (m := w.mem) (st := s1) hK
        rw [hx1] at hadj
        cases loads with
        | true =>
          rw [if_pos rfl] at hadj
          simp only [Sh.usable, Bool.and_eq_true] at hu
          obtain ⟨sz, hsz, hs⟩ := okSize_iff hu.2
          have hwz := wOf_cases (o := o) (z := z) (by rw [hzt]; exact hsz) hs
          rw [adj_load env.words hsz hs hwz] at hadj
          have hval : load w.mem sz A = x := by
            rcases hcv with rfl | ⟨_, _, _, _, rfl⟩
            · simp only [CV.value] at hv
              have hsc := hu.1
              unfold isScalar at hsc
              have hval : (match o.Γ.sizeOf t0 with
                | some s => if s = 1 ∨ s = 2 ∨ s = 4 ∨ s = 8 then some (load w.mem s A) else none
                | none => none) = some x := by
                cases hk : o.Γ.kindOf t0 <;> rw [hk] at hv hsc <;> first | exact hv | simp at hsc
              rw [hsz] at hval
              simp only [hs, if_true, Option.some.injEq] at hval
              exact hval
            · simp only [CV.value, Option.some.injEq] at hv
              rw [← hv, convert_size hsz hs, ← load_low env.words hs]
          rw [hval] at hadj
          exact hadj
        | false =>
          rw [if_neg (by simp)] at hadj
          simp only [Sh.usable, Bool.and_eq_true] at hu
          rw [adjReg_wide hu.2] at hadj
          have hval : A = x := by
            rcases hcv with rfl | ⟨hf, _⟩
            · simp only [CV.value] at hv
              have har := hu.1
              unfold isArray at har
              cases hk : o.Γ.kindOf t0 <;> rw [hk] at hv har <;> first | exact Option.some.inj hv | simp at har
            · simp at hf
          rw [hval] at hadj
          exact hadj

end Bpfsnoop.Cc
