import Verif.Props.CcKeep
/-
C96: compiled expressions stay within their part of the stack.
-/
namespace Bpfsnoop.Cc.Stk
open Bpfsnoop.Cc

/-- A slot that compiled code may use when `R` bytes are reserved: the one in which a helper puts what it reads, and at most six below what is
reserved. -/
def Slot (R : Nat) (off : Int) : Prop := off = -8 ∨ (-(R : Int) - 48 ≤ off ∧ off ≤ -(R : Int) - 8 ∧ (8 : Int) ∣ off + R)
instance (R : Nat) (off : Int) : Decidable (Slot R off) := inferInstanceAs (Decidable (_ ∨ _))

@[simp] theorem slot_eight (R : Nat) : Slot R (-8) := .inl rfl

/-- An instruction that touches no other slot. -/
def stkI (R : Nat) : Insn → Bool
  | .movImm d _ | .movReg d _ | .aluImm _ d _ | .aluReg _ d _ | .neg d | .ldx d _ _ _ => decide (d < 9)
  | .ldStack d off => decide (d < 9) && decide (Slot R off)
  | .stStack off _ => decide (Slot R off)
  | .ret => false
  | _ => true

/-- No condition: the registers in use do not matter here. -/
def Held (_ : CSt) : Prop := True

/-- Values in registers are in R0 to R8. -/
def LowV : Val → Prop
  | .mat r _ _ => r < 9
  | _ => True

theorem alloc_owned {o : Opts} {s : CSt} {r : Nat} {u : Regs} (_ : Held s) (h : alloc o.lo s.used = some (r, u)) :
    r < 9 ∧ Held { s with used := u } := by
  obtain ⟨_, _, h3, rfl⟩ := alloc_facts h
  exact ⟨by omega, trivial⟩

theorem lowV_adjustNums {Γ : Btf} {l r : Val} (hl : LowV l) (hr : LowV r) :
    LowV (adjustNums Γ l r).1 ∧ LowV (adjustNums Γ l r).2 := by
  unfold adjustNums
  split <;> first | exact ⟨hl, hr⟩ | exact ⟨trivial, hr⟩ | exact ⟨hl, trivial⟩

theorem lowV_resolveEnums {o : Opts} {l r l' r' : Val} {s s' : CSt} {c : List Insn} (hl : LowV l) (hr : LowV r)
    (h : resolveEnums o l r s = .ok ((l', r'), s', c)) : LowV l' ∧ LowV r' := by
  have key : ∀ (x : Option (BitVec 64)) (f : BitVec 64 → Val × Val), (∀ n, LowV (f n).1 ∧ LowV (f n).2) →
      (match x with | none => reject | some n => pure (f n) : CM (Val × Val)) s = .ok ((l', r'), s', c) →
      LowV l' ∧ LowV r' := by
    intro x f hf h
    cases x with
    | none => exact (reject_ok h).elim
    | some n => obtain ⟨h, _, _⟩ := pure_ok h; have := hf n; rw [← h] at this; exact this
  unfold resolveEnums at h
  split at h
  · exact key _ (fun n => (Val.const n none, _)) (fun _ => ⟨trivial, hr⟩) h
  · exact key _ (fun n => (Val.const n none, _)) (fun _ => ⟨trivial, hr⟩) h
  · exact key _ (fun n => (_, Val.const n none)) (fun _ => ⟨hl, trivial⟩) h
  · exact key _ (fun n => (_, Val.const n none)) (fun _ => ⟨hl, trivial⟩) h
  · obtain ⟨h, _, _⟩ := pure_ok h; cases h; exact ⟨hl, hr⟩

theorem lowV_pend {v : Val} (h : isPend v) : LowV v := by
  cases v <;> simp_all [isPend, LowV]

theorem lowV_castVal {t : Ty} {v : Val} (h : LowV v) : LowV (castVal t v) := by
  cases v <;> first | trivial | exact h

theorem lowV_name (o : Opts) (s : String) : LowV (evaluateName o s) := by
  unfold evaluateName
  split
  · trivial
  · split
    · trivial
    · split <;> trivial

/-- What a part of the compiler may do. -/
structure Keeps (R : Nat) (s s' : CSt) (c : List Insn) : Prop where
  regs : Held s'
  keep : ∀ i ∈ c, stkI R i = true
  mono : s.exitUsed = true → s'.exitUsed = true
  exits : (∃ i ∈ c, isExitI i = true) → s'.exitUsed = true

theorem keeps_trans {R : Nat} {s s1 s2 : CSt} {c1 c2 : List Insn} (h1 : Keeps R s s1 c1) (h2 : Keeps R s1 s2 c2) :
    Keeps R s s2 (c1 ++ c2) := by
  refine ⟨h2.regs, ?_, fun h => h2.mono (h1.mono h), ?_⟩
  · intro i hi
    rcases List.mem_append.mp hi with hi | hi
    · exact h1.keep i hi
    · exact h2.keep i hi
  · rintro ⟨i, hi, hx⟩
    rcases List.mem_append.mp hi with hi | hi
    · exact h2.mono (h1.exits ⟨i, hi, hx⟩)
    · exact h2.exits ⟨i, hi, hx⟩

theorem keeps_nil {R : Nat} {s : CSt} (h : Held s) : Keeps R s s [] :=
  ⟨h, by simp, id, by simp⟩

/-- Code without exits. -/
theorem keeps_code {R : Nat} {s : CSt} {c : List Insn} (h : Held s) (hk : ∀ i ∈ c, stkI R i = true ∧ isExitI i = false) :
    Keeps R s s c := by
  refine ⟨h, fun i hi => (hk i hi).1, id, ?_⟩
  rintro ⟨i, hi, hx⟩
  rw [(hk i hi).2] at hx
  simp at hx

theorem keeps_push {o : Opts} {n : Nat} {s s2 : CSt} {u : Unit} {c : List Insn} (ho : Held s) (hn : n ≤ 5)
    (h : pushRegs o n s = .ok (u, s2, c)) : Keeps o.reserved s s2 c := by
  obtain ⟨rfl, rfl⟩ := pushRegs_ok h
  refine keeps_code ho ?_
  intro i hi
  simp only [List.mem_append, List.mem_map] at hi
  have := usedNr_le s2.used n
  rcases hi with hi | ⟨j, hj, rfl⟩
  · split at hi <;> simp at hi
    subst hi; exact ⟨decide_eq_true (.inr ⟨by omega, by omega, by omega⟩), rfl⟩
  · rw [List.mem_range] at hj
    exact ⟨decide_eq_true (.inr ⟨by omega, by omega, by omega⟩), rfl⟩

theorem keeps_pop {o : Opts} {n : Nat} {s s2 : CSt} {u : Unit} {c : List Insn} (ho : Held s) (hn : n ≤ 5)
    (h : popRegs o n s = .ok (u, s2, c)) : Keeps o.reserved s s2 c := by
  obtain ⟨rfl, rfl⟩ := popRegs_ok h
  refine keeps_code ho ?_
  intro i hi
  simp only [List.mem_append, List.mem_map, List.mem_range] at hi
  have := usedNr_le s2.used n
  rcases hi with ⟨j, hj, rfl⟩ | hi
  · refine ⟨?_, rfl⟩
    exact Bool.and_eq_true_iff.mpr ⟨decide_eq_true (by omega), decide_eq_true (.inr ⟨by omega, by omega, by omega⟩)⟩
  · split at hi <;> simp at hi
    subst hi; exact ⟨Bool.and_eq_true_iff.mpr ⟨rfl, decide_eq_true (.inr ⟨by omega, by omega, by omega⟩)⟩, rfl⟩

theorem addOff_keep {R : Nat} {r : Nat} {k : BitVec 64} (hr : r < 9) : ∀ i ∈ addOff r k, stkI R i = true ∧ isExitI i = false := by
  intro i hi
  unfold addOff at hi
  split at hi <;> simp at hi
  subst hi
  exact ⟨by simp [stkI, hr], rfl⟩

theorem probeLoop_keep {R : Nat} {reg : Nat} (hr : reg < 9) : ∀ offs : List Off,
    (∀ i ∈ probeLoop reg offs, stkI R i = true) ∧
    ((∃ i ∈ probeLoop reg offs, isExitI i = true) → nonLastDeref offs = true) := by
  intro offs
  induction offs with
  | nil => simp [probeLoop]
  | cons x r ih =>
    cases r with
    | nil =>
      have key : ∀ i ∈ probeLoop reg [x], stkI R i = true ∧ isExitI i = false := by
        intro i hi
        simp only [probeLoop, List.mem_append] at hi
        rcases hi with hi | hi
        · exact addOff_keep (by omega) i hi
        · split at hi
          · split at hi <;> simp at hi
            subst hi; exact ⟨by simp [stkI, hr], rfl⟩
          · simp only [List.mem_cons, List.not_mem_nil, or_false] at hi
            rcases hi with rfl | rfl | rfl | rfl | rfl <;> simp [stkI, isExitI, hr]
      refine ⟨fun i hi => (key i hi).1, ?_⟩
      rintro ⟨i, hi, hx⟩
      rw [(key i hi).2] at hx; simp at hx
    | cons y r =>
      refine ⟨?_, ?_⟩
      · intro i hi
        simp only [probeLoop, List.mem_append] at hi
        rcases hi with (hi | hi) | hi
        · exact (addOff_keep (by omega) i hi).1
        · split at hi
          · simp at hi
          · simp only [List.mem_cons, List.not_mem_nil, or_false] at hi
            rcases hi with rfl | rfl | rfl | rfl | rfl | rfl <;> simp [stkI]
        · exact ih.1 i hi
      · rintro ⟨i, hi, hx⟩
        simp only [probeLoop, List.mem_append] at hi
        simp only [nonLastDeref, Bool.or_eq_true]
        rcases hi with (hi | hi) | hi
        · rw [(addOff_keep (R := R) (by omega) i hi).2] at hx; simp at hx
        · split at hi
          · simp at hi
          · rename_i hd; left; simpa using hd
        · exact .inr (ih.2 ⟨i, hi, hx⟩)

theorem directLoop_keep {R : Nat} {reg : Nat} (hr : reg < 9) : ∀ offs : List Off,
    (∀ i ∈ directLoop reg offs, stkI R i = true) ∧
    ((∃ i ∈ directLoop reg offs, isExitI i = true) → nonLastDeref offs = true) := by
  intro offs
  induction offs with
  | nil => simp [directLoop]
  | cons x r ih =>
    cases r with
    | nil =>
      have key : ∀ i ∈ directLoop reg [x], stkI R i = true ∧ isExitI i = false := by
        intro i hi
        simp only [directLoop] at hi
        split at hi
        · exact addOff_keep hr i hi
        · simp only [List.mem_singleton] at hi
          subst hi; exact ⟨by simp [stkI, hr], rfl⟩
      refine ⟨fun i hi => (key i hi).1, ?_⟩
      rintro ⟨i, hi, hx⟩
      rw [(key i hi).2] at hx; simp at hx
    | cons y r =>
      refine ⟨?_, ?_⟩
      · intro i hi
        simp only [directLoop, List.mem_append] at hi
        rcases hi with hi | hi
        · split at hi
          · exact (addOff_keep hr i hi).1
          · simp only [List.mem_cons, List.not_mem_nil, or_false] at hi
            rcases hi with rfl | rfl <;> simp [stkI, hr]
        · exact ih.1 i hi
      · rintro ⟨i, hi, hx⟩
        simp only [directLoop, List.mem_append] at hi
        simp only [nonLastDeref, Bool.or_eq_true]
        rcases hi with hi | hi
        · split at hi
          · rw [(addOff_keep (R := R) hr i hi).2] at hx; simp at hx
          · rename_i hd; left; simpa using hd
        · exact .inr (ih.2 ⟨i, hi, hx⟩)

theorem coreProbe_keep {R : Nat} {reg : Nat} (hr : reg < 9) (last : Bool) :
    ∀ i ∈ coreProbe reg last, stkI R i = true ∧ isExitI i = false := by
  intro i hi
  simp only [coreProbe, List.mem_cons, List.not_mem_nil, or_false] at hi
  rcases hi with rfl | rfl | rfl | rfl | rfl | rfl <;>
    simp only [stkI, isExitI, and_self, and_true, Nat.reduceLT, decide_true, slot_eight, Bool.and_true, decide_eq_true_eq]
  split <;> omega

theorem keeps_coreStep {o : Opts} {reg : Nat} {x : Off} {last : Bool} {s s2 : CSt} {u : Unit}
    {c : List Insn} (ho : Held s) (hr : reg < 9) (h : coreStep o reg x last s = .ok (u, s2, c)) : Keeps o.reserved s s2 c := by
  unfold coreStep at h
  by_cases hd : x.deref = true
  · rw [if_neg (by simp [hd])] at h
    cases hc : canRdonlyCast o.Γ x.prev with
    | none => rw [hc] at h; exact (reject_ok h).elim
    | some q =>
      rw [hc] at h
      cases q with
      | none =>
        obtain ⟨rfl, rfl⟩ := emit_ok h
        exact keeps_code ho (coreProbe_keep hr _)
      | some id =>
        cases hl : loadSize o.Γ x.ty with
        | none => simp only [hl] at h; exact (reject_ok h).elim
        | some size =>
          simp only [hl] at h
          split at h
          · obtain ⟨rfl, rfl⟩ := emit_ok h
            exact keeps_code ho (coreProbe_keep hr _)
          · split at h
            · obtain ⟨rfl, rfl⟩ := emit_ok h
              refine keeps_code ho ?_
              intro i hi
              simp only [List.mem_append, List.mem_cons, List.not_mem_nil, or_false] at hi
              rcases hi with (rfl | rfl) | hi
              · simp [stkI, isExitI]
              · simp [stkI, isExitI]
              · split at hi <;> simp at hi
                subst hi; exact ⟨by simp [stkI, hr], rfl⟩
            · obtain ⟨_, s1, c1, c2, h1, h2, rfl⟩ := bind_ok h
              obtain ⟨rfl, rfl⟩ := useExit_ok h1
              obtain ⟨rfl, rfl⟩ := emit_ok h2
              refine ⟨ho, ?_, fun _ => rfl, fun _ => rfl⟩
              intro i hi
              simp only [List.nil_append, List.mem_cons, List.not_mem_nil, or_false] at hi
              rcases hi with rfl | rfl | rfl | rfl <;> simp [stkI]
  · rw [if_pos (by simp [hd])] at h
    obtain ⟨rfl, rfl⟩ := emit_ok h
    refine keeps_code ho ?_
    intro i hi
    rcases List.mem_append.mp hi with hi | hi
    · exact addOff_keep (by omega) i hi
    · split at hi <;> simp at hi
      subst hi; exact ⟨by simp [stkI, hr], rfl⟩

theorem keeps_coreLoop {o : Opts} {reg : Nat} (hr : reg < 9) : ∀ {offs : List Off} {s s2 : CSt} {u : Unit} {c : List Insn},
    Held s → coreLoop o reg offs s = .ok (u, s2, c) → Keeps o.reserved s s2 c := by
  intro offs
  induction offs with
  | nil =>
    intro s s2 u c ho h
    obtain ⟨_, rfl, rfl⟩ := pure_ok h
    exact keeps_nil ho
  | cons x r ih =>
    intro s s2 u c ho h
    obtain ⟨_, s1, c1, c2, h1, h2, rfl⟩ := bind_ok h
    have g := keeps_coreStep ho hr h1
    exact keeps_trans g (ih g.regs h2)

theorem keeps_offsetChain {o : Opts} {offs : List Off} {reg : Nat} {s s2 : CSt} {u : Unit} {c : List Insn}
    (ho : Held s) (hr : reg < 9) (h : emitOffsetChain o offs reg s = .ok (u, s2, c)) : Keeps o.reserved s s2 c := by
  unfold emitOffsetChain at h
  have mv : ∀ (p : Prop) [Decidable p] (d r : Nat), d < 9 →
      ∀ i ∈ (if p then [Insn.movReg d r] else []), stkI o.reserved i = true ∧ isExitI i = false := by
    intro p _ d r hd i hi
    split at hi <;> simp at hi
    subst hi; exact ⟨by simp [stkI, hd], rfl⟩
  have when : ∀ {s s2 : CSt} {u : Unit} {c3 c4 : List Insn}, Held s → (∀ i ∈ c3, stkI o.reserved i = true) →
      ((∃ i ∈ c3, isExitI i = true) → nonLastDeref offs = true) →
      whenM (nonLastDeref offs) useExit s = .ok (u, s2, c4) → Keeps o.reserved s s2 (c3 ++ c4) := by
    intro s s2 u c3 c4 ho hk he h
    cases hb : nonLastDeref offs with
    | true =>
      rw [hb] at h
      obtain ⟨rfl, rfl⟩ := useExit_ok h
      exact ⟨ho, by simpa using hk, fun _ => rfl, fun _ => rfl⟩
    | false =>
      rw [hb] at h he
      obtain ⟨_, rfl, rfl⟩ := pure_ok h
      refine ⟨ho, by simpa using hk, id, ?_⟩
      rw [List.append_nil]
      intro hx
      simp at he
      obtain ⟨i, hi, hx⟩ := hx
      rw [he i hi] at hx; simp at hx
  split at h
  · obtain ⟨rfl, rfl⟩ := emit_ok h
    refine keeps_code ho ?_
    intro i hi
    rw [List.mem_flatMap] at hi
    obtain ⟨x, _, hx⟩ := hi
    exact addOff_keep hr i hx
  · cases hm : o.mode with
    | core =>
      simp only [hm, emitCoreRead] at h
      obtain ⟨_, s1, c1, c2, h1, h2, rfl⟩ := bind_ok h
      have g1 := keeps_push ho (by first | omega | (split <;> omega)) h1
      obtain ⟨_, s3, c3, c4, h3, h4, rfl⟩ := bind_ok h2
      obtain ⟨rfl, rfl⟩ := emit_ok h3
      obtain ⟨_, s5, c5, c6, h5, h6, rfl⟩ := bind_ok h4
      have g2 := keeps_coreLoop hr g1.regs h5
      have g3 := keeps_pop g2.regs (by split <;> omega) h6
      exact keeps_trans g1 (keeps_trans (keeps_code g1.regs (mv _ _ _ (by omega))) (keeps_trans g2 g3))
    | direct =>
      simp only [hm, emitDirectRead] at h
      obtain ⟨_, s1, c1, c2, h1, h2, rfl⟩ := bind_ok h
      obtain ⟨rfl, rfl⟩ := emit_ok h1
      exact when ho (directLoop_keep hr _).1 (directLoop_keep (R := o.reserved) hr _).2 h2
    | probe =>
      simp only [hm, emitProbeRead] at h
      obtain ⟨_, s1, c1, c2, h1, h2, rfl⟩ := bind_ok h
      have g1 := keeps_push ho (by first | omega | (split <;> omega)) h1
      obtain ⟨_, s3, c3, c4, h3, h4, rfl⟩ := bind_ok h2
      obtain ⟨rfl, rfl⟩ := emit_ok h3
      obtain ⟨_, s5, c5, c6, h5, h6, rfl⟩ := bind_ok h4
      obtain ⟨rfl, rfl⟩ := emit_ok h5
      obtain ⟨_, s7, c7, c8, h7, h8, rfl⟩ := bind_ok h6
      have g2 := when g1.regs (probeLoop_keep hr _).1 (probeLoop_keep (R := o.reserved) hr _).2 h7
      have g3 := keeps_pop g2.regs (by omega) h8
      have := keeps_trans g1 (keeps_trans (keeps_code g1.regs (mv (reg ≠ 3) 3 reg (by omega))) (keeps_trans g2 g3))
      simpa only [List.append_assoc] using this

theorem cut_keep {R : Nat} (Γ : Btf) (t : Ty) (m : Option Member) {r : Nat} (hr : r < 9) :
    ∀ i ∈ cutCode Γ t m r, stkI R i = true ∧ isExitI i = false := by
  have hadj : ∀ i ∈ adjustSize Γ t r, stkI R i = true ∧ isExitI i = false := by
    intro i hi
    unfold adjustSize at hi
    split at hi <;> simp at hi
    · subst hi; exact ⟨by simp [stkI, hr], rfl⟩
    · subst hi; exact ⟨by simp [stkI, hr], rfl⟩
    · rcases hi with rfl | rfl <;> exact ⟨by simp [stkI, hr], rfl⟩
  intro i hi
  unfold cutCode at hi
  split at hi
  · split at hi
    · unfold bitfieldExtract at hi
      simp only [List.mem_append, List.mem_singleton] at hi
      rcases hi with hi | rfl
      · split at hi
        · simp only [List.mem_singleton] at hi; subst hi; exact ⟨by simp [stkI, hr], rfl⟩
        · simp at hi
      · exact ⟨by simp [stkI, hr], rfl⟩
    · exact hadj i hi
  · exact hadj i hi

theorem keeps_materialize {o : Opts} {v : Val} {s s2 : CSt} {q : Nat × Option Ty × Option Member}
    {c : List Insn} (ho : Held s) (hv : LowV v) (h : materialize o v s = .ok (q, s2, c)) :
    Keeps o.reserved s s2 c ∧ q.1 < 9 := by
  cases v with
  | mat r t m => obtain ⟨rfl, rfl, rfl⟩ := pure_ok h; exact ⟨keeps_nil ho, hv⟩
  | const n t =>
    simp only [materialize] at h
    obtain ⟨r, s1, c1, c2, h1, h2, rfl⟩ := bind_ok h
    obtain ⟨u, hu, rfl, rfl⟩ := allocM_ok h1
    obtain ⟨_, s3, c3, c4, h3, h4, rfl⟩ := bind_ok h2
    obtain ⟨rfl, rfl⟩ := emit_ok h3
    obtain ⟨rfl, rfl, rfl⟩ := pure_ok h4
    obtain ⟨hr, ho'⟩ := alloc_owned ho hu
    refine ⟨?_, hr⟩
    refine ⟨ho', ?_, id, ?_⟩ <;> simp [stkI, hr, isExitI]
  | enumMaybe _ _ => exact (reject_ok (s := s) h).elim
  | pend b offs t m =>
    obtain ⟨r, u, s3, c3, hu, rfl, h3, rfl, rfl⟩ := materialize_pend_ok h
    obtain ⟨hr, ho'⟩ := alloc_owned ho hu
    refine ⟨?_, hr⟩
    have g0 : Keeps o.reserved s { s with used := u } [] := ⟨ho', by simp, id, by simp⟩
    have g1 : Keeps o.reserved { s with used := u } { s with used := u } (loadBase r b) := by
      refine keeps_code ho' ?_
      intro i hi
      cases b <;> simp only [loadBase, List.mem_singleton] at hi <;> subst hi <;> exact ⟨by simp [stkI, hr], rfl⟩
    have g2 : Keeps o.reserved { s with used := u } s2 c3 := by
      unfold whenM at h3
      split at h3
      · exact keeps_offsetChain ho' hr h3
      · obtain ⟨_, rfl, rfl⟩ := pure_ok h3; exact keeps_nil ho'
    exact keeps_trans (keeps_trans (keeps_trans g0 g1) g2) (keeps_code g2.regs (cut_keep _ _ _ hr))

theorem keeps_free {R : Nat} {s : CSt} {r : Nat} (_ : Held s) (_ : r < 9) : Keeps R s { s with used := free s.used r } [] := by
  exact ⟨trivial, by simp, id, by simp⟩

/-- Keeps code with a result. -/
def KeepV (R : Nat) (v : Val) (s s' : CSt) (c : List Insn) : Prop := Keeps R s s' c ∧ LowV v

theorem keeps_binRun {o : Opts} {l r : Val} {k : Nat → Option Ty → Nat → List Insn} {s s' : CSt} {v : Val}
    {c : List Insn} (ho : Held s) (hl : LowV l) (hr : LowV r) (h : binRun o l r k s = .ok (v, s', c))
    (hk : ∀ a t b, a < 9 → b < 9 → ∀ i ∈ k a t b, stkI o.reserved i = true ∧ isExitI i = false) : KeepV o.reserved v s s' c := by
  obtain ⟨rl, tl, ml, rr, tr, mr, s1, s2, c1, c2, h1, h2, rfl, rfl, rfl⟩ := binRun_ok h
  obtain ⟨g1, hrl⟩ := keeps_materialize ho hl h1
  obtain ⟨g2, hrr⟩ := keeps_materialize g1.regs hr h2
  have g3 := keeps_code g2.regs (hk rl tl rr hrl hrr)
  refine ⟨?_, hrl⟩
  simpa using keeps_trans (keeps_trans (keeps_trans g1 g2) g3) (keeps_free g2.regs hrr)

theorem keeps_unRun {o : Opts} {x : Val} {k : Nat → List Insn} {s s' : CSt} {v : Val}
    {c : List Insn} (ho : Held s) (hx : LowV x) (h : unRun o x k s = .ok (v, s', c))
    (hk : ∀ a, a < 9 → ∀ i ∈ k a, stkI o.reserved i = true ∧ isExitI i = false) : KeepV o.reserved v s s' c := by
  obtain ⟨r, t, m, c1, h1, rfl, rfl⟩ := unRun_ok h
  obtain ⟨g1, hr⟩ := keeps_materialize ho hx h1
  exact ⟨keeps_trans g1 (keeps_code g1.regs (hk r hr)), hr⟩

theorem keeps_pure {R : Nat} {v v0 : Val} {s s' : CSt} {c : List Insn} (ho : Held s) (hv : LowV v0)
    (h : (pure v0 : CM Val) s = .ok (v, s', c)) : KeepV R v s s' c := by
  obtain ⟨rfl, rfl, rfl⟩ := pure_ok h
  exact ⟨keeps_nil ho, hv⟩

theorem keeps_const {R : Nat} {n : BitVec 64} {t : Option Ty} {v : Val} {s s' : CSt} {c : List Insn} (ho : Held s)
    (h : (pure (.const n t) : CM Val) s = .ok (v, s', c)) : KeepV R v s s' c :=
  keeps_pure (v0 := .const n t) ho trivial h

theorem keeps_addConst {o : Opts} {b : Base} {offs : List Off} {t : Ty} {m : Option Member} {n : BitVec 64}
    {s s' : CSt} {v : Val} {c : List Insn} (ho : Held s) (h : addConst o b offs t m n s = .ok (v, s', c)) :
    KeepV o.reserved v s s' c := by
  obtain ⟨rfl, rfl, _, _, _, rfl⟩ := safe_addConst h
  exact ⟨keeps_nil ho, trivial⟩

theorem scale_keep {R : Nat} (Γ : Btf) (t : Option Ty) {r : Nat} (hr : r < 9) :
    ∀ i ∈ scale Γ t r, stkI R i = true ∧ isExitI i = false := by
  intro i hi
  unfold scale at hi
  split at hi
  · split at hi
    · simp only [List.mem_singleton] at hi; subst hi; exact ⟨by simp [stkI, hr], rfl⟩
    · simp at hi
  · split at hi
    · simp only [List.mem_singleton] at hi; subst hi; exact ⟨by simp [stkI, hr], rfl⟩
    · simp at hi
  · simp at hi

theorem single_keep {R : Nat} {i : Insn} (h : stkI R i = true) (hx : isExitI i = false) :
    ∀ j ∈ [i], stkI R j = true ∧ isExitI j = false := by
  intro j hj
  simp only [List.mem_singleton] at hj
  subst hj; exact ⟨h, hx⟩

theorem append_keep {R : Nat} {a b : List Insn} (ha : ∀ j ∈ a, stkI R j = true ∧ isExitI j = false)
    (hb : ∀ j ∈ b, stkI R j = true ∧ isExitI j = false) : ∀ j ∈ a ++ b, stkI R j = true ∧ isExitI j = false := by
  intro j hj
  rcases List.mem_append.mp hj with hj | hj
  · exact ha j hj
  · exact hb j hj

theorem keeps_addVals {o : Opts} {l r : Val} {s s' : CSt} {v : Val} {c : List Insn} (ho : Held s)
    (hl : LowV l) (hr : LowV r) (h : addVals o l r s = .ok (v, s', c)) : KeepV o.reserved v s s' c := by
  unfold addVals at h
  split at h
  · exact keeps_const ho h
  · replace h := check1_ok (check1_ok h)
    split at h
    · exact keeps_addConst ho h
    · exact keeps_addConst ho h
    · exact keeps_binRun ho hl hr h fun a t b ha hb =>
        append_keep (scale_keep _ _ hb) (single_keep (by simp [stkI, ha]) rfl)

theorem keeps_subVals {o : Opts} {l r : Val} {s s' : CSt} {v : Val} {c : List Insn} (ho : Held s)
    (hl : LowV l) (hr : LowV r) (h : subVals o l r s = .ok (v, s', c)) : KeepV o.reserved v s s' c := by
  unfold subVals at h
  split at h
  · exact keeps_const ho h
  · replace h := check1_ok (check1_ok h)
    split at h
    · exact keeps_addConst ho h
    · exact keeps_binRun ho hl hr h fun a t b ha hb =>
        append_keep (scale_keep _ _ hb) (single_keep (by simp [stkI, ha]) rfl)

theorem guarded_keep {R : Nat} (op : Alu) {r q : Nat} (hr : r < 9) :
    ∀ i ∈ guarded op r q, stkI R i = true ∧ isExitI i = false := by
  intro i hi
  simp only [guarded, List.mem_cons, List.not_mem_nil, or_false] at hi
  rcases hi with rfl | rfl | rfl | rfl <;> simp [stkI, isExitI, hr]

theorem keeps_divVals {o : Opts} {l r : Val} {s s' : CSt} {v : Val} {c : List Insn} (ho : Held s)
    (hl : LowV l) (hr : LowV r) (h : divVals o l r s = .ok (v, s', c)) : KeepV o.reserved v s s' c := by
  unfold divVals at h
  split at h
  · split at h
    · exact (reject_ok h).elim
    · exact keeps_const ho h
  · split at h
    · exact (reject_ok h).elim
    · exact keeps_unRun ho hl (check1_ok h) fun a ha => single_keep (by simp [stkI, ha]) rfl
  · exact keeps_binRun ho hl hr (check1_ok (check1_ok h)) fun _ _ _ ha _ => guarded_keep _ ha

theorem keeps_modVals {o : Opts} {l r : Val} {s s' : CSt} {v : Val} {c : List Insn} (ho : Held s)
    (hl : LowV l) (hr : LowV r) (h : modVals o l r s = .ok (v, s', c)) : KeepV o.reserved v s s' c := by
  unfold modVals at h
  split at h
  · split at h
    · exact (reject_ok h).elim
    · exact keeps_const ho h
  · split at h
    · exact (reject_ok h).elim
    · refine keeps_unRun ho hl (check1_ok h) fun a ha => ?_
      split <;> exact single_keep (by simp [stkI, ha]) rfl
  · exact keeps_binRun ho hl hr (check1_ok (check1_ok h)) fun _ _ _ ha _ => guarded_keep _ ha

theorem keeps_bitVals {o : Opts} {op : Alu} {l r : Val} {s s' : CSt} {v : Val} {c : List Insn} (ho : Held s)
    (hl : LowV l) (hr : LowV r) (h : bitVals o op l r s = .ok (v, s', c)) : KeepV o.reserved v s s' c := by
  unfold bitVals at h
  split at h
  · exact keeps_const ho h
  · exact keeps_unRun ho hl (check1_ok h) fun a ha => single_keep (by simp [stkI, ha]) rfl
  · exact keeps_binRun ho hl hr (check1_ok (check1_ok h)) fun _ _ _ ha _ => single_keep (by simp [stkI, ha]) rfl

theorem keeps_shiftVals {o : Opts} {left : Bool} {l r : Val} {s s' : CSt} {v : Val} {c : List Insn} (ho : Held s)
    (hl : LowV l) (hr : LowV r) (h : shiftVals o left l r s = .ok (v, s', c)) : KeepV o.reserved v s s' c := by
  unfold shiftVals at h
  simp only at h
  split at h
  · unfold foldShift at h
    split at h
    · exact (panic_ok h).elim
    · exact keeps_const ho h
  · replace h := check1_ok h
    obtain ⟨⟨rl, tl, ml⟩, s1, c1, c2, h1, h2, rfl⟩ := bind_ok h
    obtain ⟨g1, hrl⟩ := keeps_materialize ho hl h1
    simp only at h2
    split at h2
    · exact (reject_ok h2).elim
    · split at h2
      · obtain ⟨rfl, rfl, rfl⟩ := pure_ok h2
        exact ⟨keeps_trans g1 (keeps_nil g1.regs), hrl⟩
      · obtain ⟨_, s3, c3, c4, h3, h4, rfl⟩ := bind_ok h2
        obtain ⟨rfl, rfl⟩ := emit_ok h3
        obtain ⟨rfl, rfl, rfl⟩ := pure_ok h4
        refine ⟨keeps_trans g1 (keeps_code g1.regs ?_), hrl⟩
        rw [List.append_nil]
        exact single_keep (by simpa [stkI] using hrl) rfl
  · refine keeps_binRun ho hl hr (check1_ok (check1_ok h)) fun a t b ha _ => ?_
    intro i hi
    simp only [List.mem_cons, List.not_mem_nil, or_false] at hi
    rcases hi with rfl | rfl <;> simp [stkI, isExitI, ha]

theorem keeps_mulVals {o : Opts} {l r : Val} {s s' : CSt} {v : Val} {c : List Insn} (ho : Held s)
    (hl : LowV l) (hr : LowV r) (h : mulVals o l r s = .ok (v, s', c)) : KeepV o.reserved v s s' c := by
  unfold mulVals at h
  split at h
  · exact keeps_const ho h
  · exact keeps_binRun ho hl hr (check1_ok (check1_ok h)) fun _ _ _ ha _ => single_keep (by simp [stkI, ha]) rfl

theorem reg2bool_keep {R : Nat} {r : Nat} (hr : r < 9) : ∀ i ∈ reg2bool r, stkI R i = true ∧ isExitI i = false := by
  intro i hi
  simp only [reg2bool, List.mem_cons, List.not_mem_nil, or_false] at hi
  rcases hi with rfl | rfl | rfl <;> simp [stkI, isExitI, hr]

theorem cons_keep {R : Nat} {i : Insn} {c : List Insn} (h : stkI R i = true) (hx : isExitI i = false)
    (hc : ∀ j ∈ c, stkI R j = true ∧ isExitI j = false) : ∀ j ∈ i :: c, stkI R j = true ∧ isExitI j = false :=
  append_keep (a := [i]) (single_keep h hx) hc

theorem keeps_cmpVals {o : Opts} {cm : Cmp} {l r : Val} {s s' : CSt} {v : Val} {c : List Insn} (ho : Held s)
    (hl : LowV l) (hr : LowV r) (h : cmpVals o cm l r s = .ok (v, s', c)) : KeepV o.reserved v s s' c := by
  unfold cmpVals at h
  have hlow := lowV_adjustNums (Γ := o.Γ) hl hr
  generalize hq : adjustNums o.Γ l r = q at h hlow
  obtain ⟨l', r'⟩ := q
  simp only at hlow
  have hun : ∀ {b : BitVec 64} {x : Val}, LowV x → (do
      checkCalc o x
      unRun o x fun rl => .jmpImm (negCmp cm) rl b 2 :: reg2bool rl : CM Val) s = .ok (v, s', c) →
      KeepV o.reserved v s s' c := by
    intro b x hx h
    exact keeps_unRun ho hx (check1_ok h) fun a ha => cons_keep rfl rfl (reg2bool_keep ha)
  have hbin : ∀ {x y : Val}, LowV x → LowV y → (do
      checkCalc o x
      checkCalc o y
      binRun o x y fun rl _ rr => .jmpReg (negCmp cm) rl rr 2 :: reg2bool rl : CM Val) s = .ok (v, s', c) →
      KeepV o.reserved v s s' c := by
    intro x y hx hy h
    exact keeps_binRun ho hx hy (check1_ok (check1_ok h)) fun a _ _ ha _ => cons_keep rfl rfl (reg2bool_keep ha)
  cases l' with
  | const a ta =>
    cases r' with
    | const b tb => exact keeps_const ho h
    | _ => exact hbin hlow.1 hlow.2 h
  | _ =>
    cases r' with
    | const b tb => exact hun hlow.1 h
    | _ => exact hbin hlow.1 hlow.2 h

theorem truthy_keep {R : Nat} {r : Nat} (hr : r < 9) : ∀ i ∈ truthy r, stkI R i = true ∧ isExitI i = false :=
  cons_keep rfl rfl (reg2bool_keep hr)

theorem keeps_freeIfMat {R : Nat} {l : Val} {s s' : CSt} {u : Unit} {c : List Insn} (ho : Held s) (hl : LowV l)
    (h : freeIfMat l s = .ok (u, s', c)) : Keeps R s s' c := by
  cases l with
  | mat => obtain ⟨rfl, rfl⟩ := freeM_ok h; exact keeps_free ho hl
  | const => obtain ⟨_, rfl, rfl⟩ := pure_ok h; exact keeps_nil ho
  | pend => obtain ⟨_, rfl, rfl⟩ := pure_ok h; exact keeps_nil ho
  | enumMaybe => obtain ⟨_, rfl, rfl⟩ := pure_ok h; exact keeps_nil ho

theorem keeps_andand {o : Opts} {l r : Val} {s s' : CSt} {v : Val} {c : List Insn} (ho : Held s)
    (hl : LowV l) (hr : LowV r) (h : andandVals o l r s = .ok (v, s', c)) : KeepV o.reserved v s s' c := by
  unfold andandVals at h
  split at h
  · exact keeps_const ho h
  · replace h := check1_ok h
    split at h
    · exact keeps_const ho h
    · exact keeps_unRun ho hr h fun a ha => truthy_keep ha
  · replace h := check1_ok h
    split at h
    · obtain ⟨_, s1, c1, c2, h1, h2, rfl⟩ := bind_ok h
      obtain ⟨rfl, rfl, rfl⟩ := pure_ok h2
      have g := keeps_freeIfMat (R := o.reserved) ho hl h1
      exact ⟨keeps_trans g (keeps_nil g.regs), trivial⟩
    · exact keeps_unRun ho hl h fun a ha => truthy_keep ha
  · refine keeps_binRun ho hl hr (check1_ok (check1_ok h)) fun a _ _ ha _ => ?_
    exact cons_keep rfl rfl (cons_keep rfl rfl (reg2bool_keep ha))

theorem keeps_oror {o : Opts} {l r : Val} {s s' : CSt} {v : Val} {c : List Insn} (ho : Held s)
    (hl : LowV l) (hr : LowV r) (h : ororVals o l r s = .ok (v, s', c)) : KeepV o.reserved v s s' c := by
  unfold ororVals at h
  split at h
  · exact keeps_const ho h
  · replace h := check1_ok h
    split at h
    · exact keeps_const ho h
    · exact keeps_unRun ho hr h fun a ha => truthy_keep ha
  · replace h := check1_ok h
    split at h
    · obtain ⟨_, s1, c1, c2, h1, h2, rfl⟩ := bind_ok h
      obtain ⟨rfl, rfl, rfl⟩ := pure_ok h2
      have g := keeps_freeIfMat (R := o.reserved) ho hl h1
      exact ⟨keeps_trans g (keeps_nil g.regs), trivial⟩
    · exact keeps_unRun ho hl h fun a ha => truthy_keep ha
  · refine keeps_binRun ho hl hr (check1_ok (check1_ok h)) fun a _ _ ha _ => ?_
    intro i hi
    simp only [List.mem_cons, List.not_mem_nil, or_false] at hi
    rcases hi with rfl | rfl | rfl | rfl | rfl <;> simp [stkI, isExitI, ha]

theorem keeps_binVals {o : Opts} {op : Bop} {l r : Val} {s s' : CSt} {v : Val} {c : List Insn} (ho : Held s)
    (hl : LowV l) (hr : LowV r) (h : binVals o op l r s = .ok (v, s', c)) : KeepV o.reserved v s s' c := by
  obtain ⟨l', r', he, h⟩ := binVals_ok h
  obtain ⟨hl, hr⟩ := lowV_resolveEnums hl hr he
  cases op with
  | add => exact keeps_addVals ho hl hr h
  | sub => exact keeps_subVals ho hl hr h
  | mul => exact keeps_mulVals ho hl hr h
  | div => exact keeps_divVals ho hl hr h
  | mod => exact keeps_modVals ho hl hr h
  | and => exact keeps_bitVals ho hl hr h
  | or => exact keeps_bitVals ho hl hr h
  | xor => exact keeps_bitVals ho hl hr h
  | lsh => exact keeps_shiftVals ho hl hr h
  | rsh => exact keeps_shiftVals ho hl hr h
  | eq => exact keeps_cmpVals ho hl hr h
  | ne => exact keeps_cmpVals ho hl hr h
  | lt => exact keeps_cmpVals ho hl hr h
  | le => exact keeps_cmpVals ho hl hr h
  | gt => exact keeps_cmpVals ho hl hr h
  | ge => exact keeps_cmpVals ho hl hr h
  | andand => exact keeps_andand ho hl hr h
  | oror => exact keeps_oror ho hl hr h

theorem keeps_unVals {o : Opts} {op : Uop} {x : Val} {s s' : CSt} {v : Val} {c : List Insn} (ho : Held s)
    (hx : LowV x) (h : unVals o op x s = .ok (v, s', c)) : KeepV o.reserved v s s' c := by
  cases op with
  | not =>
    unfold unVals at h
    cases x with
    | const n t => exact keeps_const ho h
    | _ => exact keeps_unRun ho hx h fun a ha => cons_keep rfl rfl (reg2bool_keep ha)
  | paren => exact keeps_pure ho hx h
  | plus => exact keeps_pure ho hx h
  | minus =>
    unfold unVals at h
    cases x with
    | const n t => exact keeps_const ho h
    | _ => exact keeps_unRun ho hx h fun a ha => single_keep (by simp [stkI, ha]) rfl
  | twid =>
    unfold unVals at h
    cases x with
    | const n t => exact keeps_const ho h
    | _ => exact keeps_unRun ho hx (check1_ok h) fun a ha => single_keep (by simp [stkI, ha]) rfl
  | preinc =>
    unfold unVals at h
    cases x with
    | const n t => exact keeps_const ho h
    | _ => exact keeps_unRun ho hx h fun a ha => single_keep (by simp [stkI, ha]) rfl
  | predec =>
    unfold unVals at h
    cases x with
    | const n t => exact keeps_const ho h
    | _ => exact keeps_unRun ho hx h fun a ha => single_keep (by simp [stkI, ha]) rfl

theorem keeps_condArm {o : Opts} {rc : Nat} {x : Val} {s s' : CSt} {u : Unit} {c : List Insn} (ho : Held s)
    (hrc : rc < 9) (hx : LowV x) (h : condArm o rc x s = .ok (u, s', c)) : Keeps o.reserved s s' c := by
  rcases condArm_ok h with ⟨n, t, _, rfl, rfl⟩ | ⟨r, t, m, s1, c1, h1, rfl, rfl, _⟩
  · exact keeps_code ho (single_keep (by simp [stkI, hrc]) rfl)
  · obtain ⟨g, hr⟩ := keeps_materialize ho hx h1
    have := keeps_trans (keeps_trans g (keeps_code g.regs (single_keep (i := .movReg rc r) (by simp [stkI, hrc]) rfl)))
      (keeps_free g.regs hr)
    simpa using this

theorem keeps_condVals {o : Opts} {x l r : Val} {s s' : CSt} {v : Val} {c : List Insn} (ho : Held s)
    (hx : LowV x) (hl : LowV l) (hr : LowV r) (h : condVals o x l r s = .ok (v, s', c)) : KeepV o.reserved v s s' c := by
  rcases condVals_ok h with ⟨n, _, _, rfl, rfl, rfl⟩ | ⟨_, rc, tc, mc, s1, c1, s2, cl, cr, h1, h2, h3, rfl, rfl⟩
  · refine ⟨keeps_nil ho, ?_⟩
    split <;> assumption
  · obtain ⟨g1, hrc⟩ := keeps_materialize ho hx h1
    have g2 := keeps_condArm g1.regs hrc hl h2
    have g3 := keeps_condArm g2.regs hrc hr h3
    refine ⟨?_, hrc⟩
    have ga := keeps_code (R := o.reserved) (c := [.jmpImm .eq rc 0 (cl.length + 1)]) g1.regs (single_keep rfl rfl)
    have gb := keeps_code (R := o.reserved) (c := [.ja cr.length]) g2.regs (single_keep rfl rfl)
    have := keeps_trans g1 (keeps_trans ga (keeps_trans g2 (keeps_trans gb g3)))
    simpa [condCode] using this

theorem keeps_access {R : Nat} {v : Val} {s s' : CSt} {c : List Insn} (ho : Held s) (hc : c = [] ∧ s' = s) (hv : LowV v) :
    KeepV R v s s' c := by
  obtain ⟨rfl, rfl⟩ := hc
  exact ⟨keeps_nil ho, hv⟩

/-- Evaluating any accepted expression keeps R8, R9 and R10, and sets the flag if it emits an exit. -/
theorem keeps_evaluate {o : Opts} : ∀ {e : Expr} {s s' : CSt} {v : Val} {c : List Insn}, Held s →
    evaluate o e s = .ok (v, s', c) → KeepV o.reserved v s s' c := by
  intro e
  have post : ∀ {s s' : CSt} {v w : Val} {c1 c2 : List Insn}, KeepV o.reserved w s s' c1 → (c2 = [] ∧ True) → isPend v →
      KeepV o.reserved v s s' (c1 ++ c2) := by
    intro s s' v w c1 c2 g hc hv
    obtain ⟨rfl, _⟩ := hc
    rw [List.append_nil]
    exact ⟨g.1, lowV_pend hv⟩
  induction e with
  | name n => intro s s' v c ho h; exact keeps_pure ho (lowV_name _ _) h
  | num text =>
    intro s s' v c ho h
    simp only [evaluate] at h
    cases hp : parseNumber text with
    | none => simp only [hp] at h; exact (reject_ok h).elim
    | some n => simp only [hp] at h; exact keeps_const ho h
  | arrow e f ih =>
    intro s s' v c ho h
    simp only [evaluate] at h
    obtain ⟨b, s1, c1, c2, h1, h2, rfl⟩ := bind_ok h
    obtain ⟨hc, rfl⟩ := accessMember_nil h2
    exact post (ih ho h1) ⟨hc, trivial⟩ (accessMember_pend h2)
  | dot e f ih =>
    intro s s' v c ho h
    simp only [evaluate] at h
    obtain ⟨b, s1, c1, c2, h1, h2, rfl⟩ := bind_ok h
    obtain ⟨hc, rfl⟩ := accessMember_nil h2
    exact post (ih ho h1) ⟨hc, trivial⟩ (accessMember_pend h2)
  | index e i ih _ =>
    intro s s' v c ho h
    simp only [evaluate] at h
    obtain ⟨b, s1, c1, c2, h1, h2, rfl⟩ := bind_ok h
    obtain ⟨hc, rfl⟩ := evaluateIndex_nil h2
    exact post (ih ho h1) ⟨hc, trivial⟩ (evaluateIndex_pend h2)
  | indir e ih =>
    intro s s' v c ho h
    simp only [evaluate] at h
    obtain ⟨b, s1, c1, c2, h1, h2, rfl⟩ := bind_ok h
    obtain ⟨hc, rfl⟩ := evaluateIndir_nil h2
    exact post (ih ho h1) ⟨hc, trivial⟩ (evaluateIndir_pend h2)
  | addr e ih =>
    intro s s' v c ho h
    simp only [evaluate] at h
    obtain ⟨b, s1, c1, c2, h1, h2, rfl⟩ := bind_ok h
    obtain ⟨hc, rfl⟩ := evaluateAddr_nil h2
    exact post (ih ho h1) ⟨hc, trivial⟩ (evaluateAddr_pend h2)
  | cast t e ih =>
    intro s s' v c ho h
    rcases evaluate_cast h with ⟨_, _, _, _, _, _, rfl, rfl, rfl⟩ | ⟨_, v0, ty, h1, _, rfl⟩
    · exact ⟨keeps_nil ho, trivial⟩
    · exact ⟨(ih ho h1).1, lowV_castVal (ih ho h1).2⟩
  | un op e ih =>
    intro s s' v c ho h
    simp only [evaluate] at h
    obtain ⟨b, s1, c1, c2, h1, h2, rfl⟩ := bind_ok h
    have g1 := ih ho h1
    have g2 := keeps_unVals g1.1.regs g1.2 h2
    exact ⟨keeps_trans g1.1 g2.1, g2.2⟩
  | bin op l r ihl ihr =>
    intro s s' v c ho h
    simp only [evaluate] at h
    obtain ⟨a, s1, c1, c2, h1, h2, rfl⟩ := bind_ok h
    obtain ⟨b, s3, c3, c4, h3, h4, rfl⟩ := bind_ok h2
    have g1 := ihl ho h1
    have g2 := ihr g1.1.regs h3
    have g3 := keeps_binVals g2.1.regs g1.2 g2.2 h4
    exact ⟨keeps_trans g1.1 (keeps_trans g2.1 g3.1), g3.2⟩
  | cond x l r ihx ihl ihr =>
    intro s s' v c ho h
    simp only [evaluate] at h
    obtain ⟨a, s1, c1, c2, h1, h2, rfl⟩ := bind_ok h
    obtain ⟨b, s3, c3, c4, h3, h4, rfl⟩ := bind_ok h2
    obtain ⟨d, s5, c5, c6, h5, h6, rfl⟩ := bind_ok h4
    have g1 := ihx ho h1
    have g2 := ihl g1.1.regs h3
    have g3 := ihr g2.1.regs h5
    have g4 := keeps_condVals g3.1.regs g1.2 g2.2 g3.2 h6
    exact ⟨keeps_trans g1.1 (keeps_trans g2.1 (keeps_trans g3.1 g4.1)), g4.2⟩
  | unsup => intro s s' v c ho h; exact (reject_ok h).elim


end Bpfsnoop.Cc.Stk
