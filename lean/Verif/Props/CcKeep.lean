import Verif.Props.CcRep
import Verif.Props.CcOps

/-
Compiled code never writes the registers reserved by its caller (R8, R9) nor the frame pointer, and it
jumps to the exit label only if the compiler reports that the label is used. Both hold for every accepted
expression, and both are what lets several compiled expressions be put one after the other.
-/
namespace Bpfsnoop.Cc

/-- An instruction that writes no register from R8 up and does not return. -/
def keepI : Insn → Bool
  | .movImm d _ | .movReg d _ | .aluImm _ d _ | .aluReg _ d _ | .neg d | .ldx d _ _ _ | .ldStack d _ => decide (d < 8)
  | .ret => false
  | _ => true

def isExitI : Insn → Bool
  | .jexit _ => true
  | _ => false

/-- What a part of the compiler may do. -/
structure Keeps (s s' : CSt) (c : List Insn) : Prop where
  regs : s'.used 8 = true ∧ s'.used 9 = true
  keep : ∀ i ∈ c, keepI i = true
  mono : s.exitUsed = true → s'.exitUsed = true
  exits : (∃ i ∈ c, isExitI i = true) → s'.exitUsed = true

def Held (s : CSt) : Prop := s.used 8 = true ∧ s.used 9 = true

/-- Values in registers are below R8. -/
def LowV : Val → Prop
  | .mat r _ _ => r < 8
  | _ => True

theorem keeps_trans {s s1 s2 : CSt} {c1 c2 : List Insn} (h1 : Keeps s s1 c1) (h2 : Keeps s1 s2 c2) :
    Keeps s s2 (c1 ++ c2) := by
  refine ⟨h2.regs, ?_, fun h => h2.mono (h1.mono h), ?_⟩
  · intro i hi
    rcases List.mem_append.mp hi with hi | hi
    · exact h1.keep i hi
    · exact h2.keep i hi
  · rintro ⟨i, hi, hx⟩
    rcases List.mem_append.mp hi with hi | hi
    · exact h2.mono (h1.exits ⟨i, hi, hx⟩)
    · exact h2.exits ⟨i, hi, hx⟩

theorem keeps_nil {s : CSt} (h : Held s) : Keeps s s [] :=
  ⟨h, by simp, id, by simp⟩

/-- Code without exits. -/
theorem keeps_code {s : CSt} {c : List Insn} (h : Held s) (hk : ∀ i ∈ c, keepI i = true ∧ isExitI i = false) :
    Keeps s s c := by
  refine ⟨h, fun i hi => (hk i hi).1, id, ?_⟩
  rintro ⟨i, hi, hx⟩
  rw [(hk i hi).2] at hx
  simp at hx

theorem usedNr_le (u : Regs) (n : Nat) : usedNr u n ≤ n := by
  have := List.length_filter_le (fun i => u (1 + i)) (List.range n)
  simpa [usedNr] using this

theorem keeps_push {o : Opts} {n : Nat} {s s2 : CSt} {u : Unit} {c : List Insn} (ho : Held s)
    (h : pushRegs o n s = .ok (u, s2, c)) : Keeps s s2 c := by
  obtain ⟨rfl, rfl⟩ := pushRegs_ok h
  refine keeps_code ho ?_
  intro i hi
  simp only [List.mem_append, List.mem_map] at hi
  rcases hi with hi | ⟨j, _, rfl⟩
  · split at hi <;> simp at hi
    subst hi; exact ⟨rfl, rfl⟩
  · exact ⟨rfl, rfl⟩

theorem keeps_pop {o : Opts} {n : Nat} {s s2 : CSt} {u : Unit} {c : List Insn} (ho : Held s) (hn : n ≤ 5)
    (h : popRegs o n s = .ok (u, s2, c)) : Keeps s s2 c := by
  obtain ⟨rfl, rfl⟩ := popRegs_ok h
  refine keeps_code ho ?_
  intro i hi
  simp only [List.mem_append, List.mem_map, List.mem_range] at hi
  rcases hi with ⟨j, hj, rfl⟩ | hi
  · have := usedNr_le s2.used n
    refine ⟨?_, rfl⟩
    simp only [keepI, decide_eq_true_eq]; omega
  · split at hi <;> simp at hi
    subst hi; exact ⟨rfl, rfl⟩

theorem addOff_keep {r : Nat} {k : BitVec 64} (hr : r < 8) : ∀ i ∈ addOff r k, keepI i = true ∧ isExitI i = false := by
  intro i hi
  unfold addOff at hi
  split at hi <;> simp at hi
  subst hi
  exact ⟨by simp [keepI, hr], rfl⟩

theorem probeLoop_keep {reg : Nat} (hr : reg < 8) : ∀ offs : List Off,
    (∀ i ∈ probeLoop reg offs, keepI i = true) ∧
    ((∃ i ∈ probeLoop reg offs, isExitI i = true) → nonLastDeref offs = true) := by
  intro offs
  induction offs with
  | nil => simp [probeLoop]
  | cons x r ih =>
    cases r with
    | nil =>
      have key : ∀ i ∈ probeLoop reg [x], keepI i = true ∧ isExitI i = false := by
        intro i hi
        simp only [probeLoop, List.mem_append] at hi
        rcases hi with hi | hi
        · exact addOff_keep (by omega) i hi
        · split at hi
          · split at hi <;> simp at hi
            subst hi; exact ⟨by simp [keepI, hr], rfl⟩
          · simp only [List.mem_cons, List.not_mem_nil, or_false] at hi
            rcases hi with rfl | rfl | rfl | rfl | rfl <;> simp [keepI, isExitI, hr]
      refine ⟨fun i hi => (key i hi).1, ?_⟩
      rintro ⟨i, hi, hx⟩
      rw [(key i hi).2] at hx; simp at hx
    | cons y r =>
      refine ⟨?_, ?_⟩
      · intro i hi
        simp only [probeLoop, List.mem_append] at hi
        rcases hi with (hi | hi) | hi
        · exact (addOff_keep (by omega) i hi).1
        · split at hi
          · simp at hi
          · simp only [List.mem_cons, List.not_mem_nil, or_false] at hi
            rcases hi with rfl | rfl | rfl | rfl | rfl | rfl <;> simp [keepI]
        · exact ih.1 i hi
      · rintro ⟨i, hi, hx⟩
        simp only [probeLoop, List.mem_append] at hi
        simp only [nonLastDeref, Bool.or_eq_true]
        rcases hi with (hi | hi) | hi
        · rw [(addOff_keep (by omega) i hi).2] at hx; simp at hx
        · split at hi
          · simp at hi
          · rename_i hd; left; simpa using hd
        · exact .inr (ih.2 ⟨i, hi, hx⟩)

theorem directLoop_keep {reg : Nat} (hr : reg < 8) : ∀ offs : List Off,
    (∀ i ∈ directLoop reg offs, keepI i = true) ∧
    ((∃ i ∈ directLoop reg offs, isExitI i = true) → nonLastDeref offs = true) := by
  intro offs
  induction offs with
  | nil => simp [directLoop]
  | cons x r ih =>
    cases r with
    | nil =>
      have key : ∀ i ∈ directLoop reg [x], keepI i = true ∧ isExitI i = false := by
        intro i hi
        simp only [directLoop] at hi
        split at hi
        · exact addOff_keep hr i hi
        · simp only [List.mem_singleton] at hi
          subst hi; exact ⟨by simp [keepI, hr], rfl⟩
      refine ⟨fun i hi => (key i hi).1, ?_⟩
      rintro ⟨i, hi, hx⟩
      rw [(key i hi).2] at hx; simp at hx
    | cons y r =>
      refine ⟨?_, ?_⟩
      · intro i hi
        simp only [directLoop, List.mem_append] at hi
        rcases hi with hi | hi
        · split at hi
          · exact (addOff_keep hr i hi).1
          · simp only [List.mem_cons, List.not_mem_nil, or_false] at hi
            rcases hi with rfl | rfl <;> simp [keepI, hr]
        · exact ih.1 i hi
      · rintro ⟨i, hi, hx⟩
        simp only [directLoop, List.mem_append] at hi
        simp only [nonLastDeref, Bool.or_eq_true]
        rcases hi with hi | hi
        · split at hi
          · rw [(addOff_keep hr i hi).2] at hx; simp at hx
          · rename_i hd; left; simpa using hd
        · exact .inr (ih.2 ⟨i, hi, hx⟩)

theorem coreProbe_keep {reg : Nat} (hr : reg < 8) (last : Bool) :
    ∀ i ∈ coreProbe reg last, keepI i = true ∧ isExitI i = false := by
  intro i hi
  simp only [coreProbe, List.mem_cons, List.not_mem_nil, or_false] at hi
  rcases hi with rfl | rfl | rfl | rfl | rfl | rfl <;> simp only [keepI, isExitI, and_self, decide_eq_true_eq, and_true, Nat.reduceLT, decide_true]
  split <;> omega

theorem keeps_coreStep {o : Opts} {reg : Nat} {x : Off} {last : Bool} {s s2 : CSt} {u : Unit}
    {c : List Insn} (ho : Held s) (hr : reg < 8) (h : coreStep o reg x last s = .ok (u, s2, c)) : Keeps s s2 c := by
  unfold coreStep at h
  by_cases hd : x.deref = true
  · rw [if_neg (by simp [hd])] at h
    cases hc : canRdonlyCast o.Γ x.prev with
    | none => rw [hc] at h; exact (reject_ok h).elim
    | some q =>
      rw [hc] at h
      cases q with
      | none =>
        obtain ⟨rfl, rfl⟩ := emit_ok h
        exact keeps_code ho (coreProbe_keep hr _)
      | some id =>
        cases hl : loadSize o.Γ x.ty with
        | none => simp only [hl] at h; exact (reject_ok h).elim
        | some size =>
          simp only [hl] at h
          split at h
          · obtain ⟨rfl, rfl⟩ := emit_ok h
            exact keeps_code ho (coreProbe_keep hr _)
          · split at h
            · obtain ⟨rfl, rfl⟩ := emit_ok h
              refine keeps_code ho ?_
              intro i hi
              simp only [List.mem_append, List.mem_cons, List.not_mem_nil, or_false] at hi
              rcases hi with (rfl | rfl) | hi
              · simp [keepI, isExitI]
              · simp [keepI, isExitI]
              · split at hi <;> simp at hi
                subst hi; exact ⟨by simp [keepI, hr], rfl⟩
            · obtain ⟨_, s1, c1, c2, h1, h2, rfl⟩ := bind_ok h
              obtain ⟨rfl, rfl⟩ := useExit_ok h1
              obtain ⟨rfl, rfl⟩ := emit_ok h2
              refine ⟨ho, ?_, fun _ => rfl, fun _ => rfl⟩
              intro i hi
              simp only [List.nil_append, List.mem_cons, List.not_mem_nil, or_false] at hi
              rcases hi with rfl | rfl | rfl | rfl <;> simp [keepI]
  · rw [if_pos (by simp [hd])] at h
    obtain ⟨rfl, rfl⟩ := emit_ok h
    refine keeps_code ho ?_
    intro i hi
    rcases List.mem_append.mp hi with hi | hi
    · exact addOff_keep (by omega) i hi
    · split at hi <;> simp at hi
      subst hi; exact ⟨by simp [keepI, hr], rfl⟩

theorem keeps_coreLoop {o : Opts} {reg : Nat} (hr : reg < 8) : ∀ {offs : List Off} {s s2 : CSt} {u : Unit} {c : List Insn},
    Held s → coreLoop o reg offs s = .ok (u, s2, c) → Keeps s s2 c := by
  intro offs
  induction offs with
  | nil =>
    intro s s2 u c ho h
    obtain ⟨_, rfl, rfl⟩ := pure_ok h
    exact keeps_nil ho
  | cons x r ih =>
    intro s s2 u c ho h
    obtain ⟨_, s1, c1, c2, h1, h2, rfl⟩ := bind_ok h
    have g := keeps_coreStep ho hr h1
    exact keeps_trans g (ih g.regs h2)

theorem keeps_offsetChain {o : Opts} {offs : List Off} {reg : Nat} {s s2 : CSt} {u : Unit} {c : List Insn}
    (ho : Held s) (hr : reg < 8) (h : emitOffsetChain o offs reg s = .ok (u, s2, c)) : Keeps s s2 c := by
  unfold emitOffsetChain at h
  have mv : ∀ (p : Prop) [Decidable p] (d r : Nat), d < 8 →
      ∀ i ∈ (if p then [Insn.movReg d r] else []), keepI i = true ∧ isExitI i = false := by
    intro p _ d r hd i hi
    split at hi <;> simp at hi
    subst hi; exact ⟨by simp [keepI, hd], rfl⟩
  have when : ∀ {s s2 : CSt} {u : Unit} {c3 c4 : List Insn}, Held s → (∀ i ∈ c3, keepI i = true) →
      ((∃ i ∈ c3, isExitI i = true) → nonLastDeref offs = true) →
      whenM (nonLastDeref offs) useExit s = .ok (u, s2, c4) → Keeps s s2 (c3 ++ c4) := by
    intro s s2 u c3 c4 ho hk he h
    cases hb : nonLastDeref offs with
    | true =>
      rw [hb] at h
      obtain ⟨rfl, rfl⟩ := useExit_ok h
      exact ⟨ho, by simpa using hk, fun _ => rfl, fun _ => rfl⟩
    | false =>
      rw [hb] at h he
      obtain ⟨_, rfl, rfl⟩ := pure_ok h
      refine ⟨ho, by simpa using hk, id, ?_⟩
      rw [List.append_nil]
      intro hx
      simp at he
      obtain ⟨i, hi, hx⟩ := hx
      rw [he i hi] at hx; simp at hx
  split at h
  · obtain ⟨rfl, rfl⟩ := emit_ok h
    refine keeps_code ho ?_
    intro i hi
    rw [List.mem_flatMap] at hi
    obtain ⟨x, _, hx⟩ := hi
    exact addOff_keep hr i hx
  · cases hm : o.mode with
    | core =>
      simp only [hm, emitCoreRead] at h
      obtain ⟨_, s1, c1, c2, h1, h2, rfl⟩ := bind_ok h
      have g1 := keeps_push ho h1
      obtain ⟨_, s3, c3, c4, h3, h4, rfl⟩ := bind_ok h2
      obtain ⟨rfl, rfl⟩ := emit_ok h3
      obtain ⟨_, s5, c5, c6, h5, h6, rfl⟩ := bind_ok h4
      have g2 := keeps_coreLoop hr g1.regs h5
      have g3 := keeps_pop g2.regs (by split <;> omega) h6
      exact keeps_trans g1 (keeps_trans (keeps_code g1.regs (mv _ _ _ (by omega))) (keeps_trans g2 g3))
    | direct =>
      simp only [hm, emitDirectRead] at h
      obtain ⟨_, s1, c1, c2, h1, h2, rfl⟩ := bind_ok h
      obtain ⟨rfl, rfl⟩ := emit_ok h1
      exact when ho (directLoop_keep hr _).1 (directLoop_keep hr _).2 h2
    | probe =>
      simp only [hm, emitProbeRead] at h
      obtain ⟨_, s1, c1, c2, h1, h2, rfl⟩ := bind_ok h
      have g1 := keeps_push ho h1
      obtain ⟨_, s3, c3, c4, h3, h4, rfl⟩ := bind_ok h2
      obtain ⟨rfl, rfl⟩ := emit_ok h3
      obtain ⟨_, s5, c5, c6, h5, h6, rfl⟩ := bind_ok h4
      obtain ⟨rfl, rfl⟩ := emit_ok h5
      obtain ⟨_, s7, c7, c8, h7, h8, rfl⟩ := bind_ok h6
      have g2 := when g1.regs (probeLoop_keep hr _).1 (probeLoop_keep hr _).2 h7
      have g3 := keeps_pop g2.regs (by omega) h8
      have := keeps_trans g1 (keeps_trans (keeps_code g1.regs (mv (reg ≠ 3) 3 reg (by omega))) (keeps_trans g2 g3))
      simpa only [List.append_assoc] using this

theorem alloc_owned {o : Opts} {s : CSt} {r : Nat} {u : Regs} (ho : Held s) (h : alloc o.lo s.used = some (r, u)) :
    r < 8 ∧ Held { s with used := u } := by
  obtain ⟨h1, _, h3, rfl⟩ := alloc_facts h
  have h8 : r ≠ 8 := by rintro rfl; rw [ho.1] at h1; simp at h1
  refine ⟨by omega, ?_, ?_⟩
  · show setReg s.used r true 8 = true
    simp only [setReg, ho.1, ite_self]
  · show setReg s.used r true 9 = true
    simp only [setReg, ho.2, ite_self]

theorem cut_keep (Γ : Btf) (t : Ty) (m : Option Member) {r : Nat} (hr : r < 8) :
    ∀ i ∈ cutCode Γ t m r, keepI i = true ∧ isExitI i = false := by
  have hadj : ∀ i ∈ adjustSize Γ t r, keepI i = true ∧ isExitI i = false := by
    intro i hi
    unfold adjustSize at hi
    split at hi <;> simp at hi
    · subst hi; exact ⟨by simp [keepI, hr], rfl⟩
    · subst hi; exact ⟨by simp [keepI, hr], rfl⟩
    · rcases hi with rfl | rfl <;> exact ⟨by simp [keepI, hr], rfl⟩
  intro i hi
  unfold cutCode at hi
  split at hi
  · split at hi
    · unfold bitfieldExtract at hi
      simp only [List.mem_append, List.mem_singleton] at hi
      rcases hi with hi | rfl
      · split at hi
        · simp only [List.mem_singleton] at hi; subst hi; exact ⟨by simp [keepI, hr], rfl⟩
        · simp at hi
      · exact ⟨by simp [keepI, hr], rfl⟩
    · exact hadj i hi
  · exact hadj i hi

theorem keeps_materialize {o : Opts} {v : Val} {s s2 : CSt} {q : Nat × Option Ty × Option Member}
    {c : List Insn} (ho : Held s) (hv : LowV v) (h : materialize o v s = .ok (q, s2, c)) :
    Keeps s s2 c ∧ q.1 < 8 := by
  cases v with
  | mat r t m => obtain ⟨rfl, rfl, rfl⟩ := pure_ok h; exact ⟨keeps_nil ho, hv⟩
  | const n t =>
    simp only [materialize] at h
    obtain ⟨r, s1, c1, c2, h1, h2, rfl⟩ := bind_ok h
    obtain ⟨u, hu, rfl, rfl⟩ := allocM_ok h1
    obtain ⟨_, s3, c3, c4, h3, h4, rfl⟩ := bind_ok h2
    obtain ⟨rfl, rfl⟩ := emit_ok h3
    obtain ⟨rfl, rfl, rfl⟩ := pure_ok h4
    obtain ⟨hr, ho'⟩ := alloc_owned ho hu
    refine ⟨?_, hr⟩
    refine ⟨ho', ?_, id, ?_⟩ <;> simp [keepI, hr, isExitI]
  | enumMaybe _ _ => exact (reject_ok (s := s) h).elim
  | pend b offs t m =>
    obtain ⟨r, u, s3, c3, hu, rfl, h3, rfl, rfl⟩ := materialize_pend_ok h
    obtain ⟨hr, ho'⟩ := alloc_owned ho hu
    refine ⟨?_, hr⟩
    have g0 : Keeps s { s with used := u } [] := ⟨ho', by simp, id, by simp⟩
    have g1 : Keeps { s with used := u } { s with used := u } (loadBase r b) := by
      refine keeps_code ho' ?_
      intro i hi
      cases b <;> simp only [loadBase, List.mem_singleton] at hi <;> subst hi <;> exact ⟨by simp [keepI, hr], rfl⟩
    have g2 : Keeps { s with used := u } s2 c3 := by
      unfold whenM at h3
      split at h3
      · exact keeps_offsetChain ho' hr h3
      · obtain ⟨_, rfl, rfl⟩ := pure_ok h3; exact keeps_nil ho'
    exact keeps_trans (keeps_trans (keeps_trans g0 g1) g2) (keeps_code g2.regs (cut_keep _ _ _ hr))

theorem keeps_free {s : CSt} {r : Nat} (ho : Held s) (hr : r < 8) : Keeps s { s with used := free s.used r } [] := by
  refine ⟨⟨?_, ?_⟩, by simp, id, by simp⟩
  · show free s.used r 8 = true
    rw [free_other (by omega)]; exact ho.1
  · show free s.used r 9 = true
    rw [free_other (by omega)]; exact ho.2

/-- Keeps code with a result. -/
def KeepV (v : Val) (s s' : CSt) (c : List Insn) : Prop := Keeps s s' c ∧ LowV v

theorem keeps_binRun {o : Opts} {l r : Val} {k : Nat → Option Ty → Nat → List Insn} {s s' : CSt} {v : Val}
    {c : List Insn} (ho : Held s) (hl : LowV l) (hr : LowV r) (h : binRun o l r k s = .ok (v, s', c))
    (hk : ∀ a t b, a < 8 → b < 8 → ∀ i ∈ k a t b, keepI i = true ∧ isExitI i = false) : KeepV v s s' c := by
  obtain ⟨rl, tl, ml, rr, tr, mr, s1, s2, c1, c2, h1, h2, rfl, rfl, rfl⟩ := binRun_ok h
  obtain ⟨g1, hrl⟩ := keeps_materialize ho hl h1
  obtain ⟨g2, hrr⟩ := keeps_materialize g1.regs hr h2
  have g3 := keeps_code g2.regs (hk rl tl rr hrl hrr)
  refine ⟨?_, hrl⟩
  simpa using keeps_trans (keeps_trans (keeps_trans g1 g2) g3) (keeps_free g2.regs hrr)

theorem keeps_unRun {o : Opts} {x : Val} {k : Nat → List Insn} {s s' : CSt} {v : Val}
    {c : List Insn} (ho : Held s) (hx : LowV x) (h : unRun o x k s = .ok (v, s', c))
    (hk : ∀ a, a < 8 → ∀ i ∈ k a, keepI i = true ∧ isExitI i = false) : KeepV v s s' c := by
  obtain ⟨r, t, m, c1, h1, rfl, rfl⟩ := unRun_ok h
  obtain ⟨g1, hr⟩ := keeps_materialize ho hx h1
  exact ⟨keeps_trans g1 (keeps_code g1.regs (hk r hr)), hr⟩

theorem keeps_pure {v v0 : Val} {s s' : CSt} {c : List Insn} (ho : Held s) (hv : LowV v0)
    (h : (pure v0 : CM Val) s = .ok (v, s', c)) : KeepV v s s' c := by
  obtain ⟨rfl, rfl, rfl⟩ := pure_ok h
  exact ⟨keeps_nil ho, hv⟩

theorem keeps_const {n : BitVec 64} {t : Option Ty} {v : Val} {s s' : CSt} {c : List Insn} (ho : Held s)
    (h : (pure (.const n t) : CM Val) s = .ok (v, s', c)) : KeepV v s s' c :=
  keeps_pure (v0 := .const n t) ho trivial h

theorem keeps_addConst {o : Opts} {b : Base} {offs : List Off} {t : Ty} {m : Option Member} {n : BitVec 64}
    {s s' : CSt} {v : Val} {c : List Insn} (ho : Held s) (h : addConst o b offs t m n s = .ok (v, s', c)) :
    KeepV v s s' c := by
  obtain ⟨rfl, rfl, _, _, _, rfl⟩ := safe_addConst h
  exact ⟨keeps_nil ho, trivial⟩

theorem scale_keep (Γ : Btf) (t : Option Ty) {r : Nat} (hr : r < 8) :
    ∀ i ∈ scale Γ t r, keepI i = true ∧ isExitI i = false := by
  intro i hi
  unfold scale at hi
  split at hi
  · split at hi
    · simp only [List.mem_singleton] at hi; subst hi; exact ⟨by simp [keepI, hr], rfl⟩
    · simp at hi
  · split at hi
    · simp only [List.mem_singleton] at hi; subst hi; exact ⟨by simp [keepI, hr], rfl⟩
    · simp at hi
  · simp at hi

theorem single_keep {i : Insn} (h : keepI i = true) (hx : isExitI i = false) :
    ∀ j ∈ [i], keepI j = true ∧ isExitI j = false := by
  intro j hj
  simp only [List.mem_singleton] at hj
  subst hj; exact ⟨h, hx⟩

theorem append_keep {a b : List Insn} (ha : ∀ j ∈ a, keepI j = true ∧ isExitI j = false)
    (hb : ∀ j ∈ b, keepI j = true ∧ isExitI j = false) : ∀ j ∈ a ++ b, keepI j = true ∧ isExitI j = false := by
  intro j hj
  rcases List.mem_append.mp hj with hj | hj
  · exact ha j hj
  · exact hb j hj

theorem keeps_addVals {o : Opts} {l r : Val} {s s' : CSt} {v : Val} {c : List Insn} (ho : Held s)
    (hl : LowV l) (hr : LowV r) (h : addVals o l r s = .ok (v, s', c)) : KeepV v s s' c := by
  unfold addVals at h
  split at h
  · exact keeps_const ho h
  · replace h := check1_ok (check1_ok h)
    split at h
    · exact keeps_addConst ho h
    · exact keeps_addConst ho h
    · exact keeps_binRun ho hl hr h fun a t b ha hb =>
        append_keep (scale_keep _ _ hb) (single_keep (by simp [keepI, ha]) rfl)

theorem keeps_subVals {o : Opts} {l r : Val} {s s' : CSt} {v : Val} {c : List Insn} (ho : Held s)
    (hl : LowV l) (hr : LowV r) (h : subVals o l r s = .ok (v, s', c)) : KeepV v s s' c := by
  unfold subVals at h
  split at h
  · exact keeps_const ho h
  · replace h := check1_ok (check1_ok h)
    split at h
    · exact keeps_addConst ho h
    · exact keeps_binRun ho hl hr h fun a t b ha hb =>
        append_keep (scale_keep _ _ hb) (single_keep (by simp [keepI, ha]) rfl)

theorem guarded_keep (op : Alu) {r q : Nat} (hr : r < 8) :
    ∀ i ∈ guarded op r q, keepI i = true ∧ isExitI i = false := by
  intro i hi
  simp only [guarded, List.mem_cons, List.not_mem_nil, or_false] at hi
  rcases hi with rfl | rfl | rfl | rfl <;> simp [keepI, isExitI, hr]

theorem keeps_divVals {o : Opts} {l r : Val} {s s' : CSt} {v : Val} {c : List Insn} (ho : Held s)
    (hl : LowV l) (hr : LowV r) (h : divVals o l r s = .ok (v, s', c)) : KeepV v s s' c := by
  unfold divVals at h
  split at h
  · split at h
    · exact (reject_ok h).elim
    · exact keeps_const ho h
  · split at h
    · exact (reject_ok h).elim
    · exact keeps_unRun ho hl (check1_ok h) fun a ha => single_keep (by simp [keepI, ha]) rfl
  · exact keeps_binRun ho hl hr (check1_ok (check1_ok h)) fun _ _ _ ha _ => guarded_keep _ ha

theorem keeps_modVals {o : Opts} {l r : Val} {s s' : CSt} {v : Val} {c : List Insn} (ho : Held s)
    (hl : LowV l) (hr : LowV r) (h : modVals o l r s = .ok (v, s', c)) : KeepV v s s' c := by
  unfold modVals at h
  split at h
  · split at h
    · exact (reject_ok h).elim
    · exact keeps_const ho h
  · split at h
    · exact (reject_ok h).elim
    · refine keeps_unRun ho hl (check1_ok h) fun a ha => ?_
      split <;> exact single_keep (by simp [keepI, ha]) rfl
  · exact keeps_binRun ho hl hr (check1_ok (check1_ok h)) fun _ _ _ ha _ => guarded_keep _ ha

theorem keeps_bitVals {o : Opts} {op : Alu} {l r : Val} {s s' : CSt} {v : Val} {c : List Insn} (ho : Held s)
    (hl : LowV l) (hr : LowV r) (h : bitVals o op l r s = .ok (v, s', c)) : KeepV v s s' c := by
  unfold bitVals at h
  split at h
  · exact keeps_const ho h
  · exact keeps_unRun ho hl (check1_ok h) fun a ha => single_keep (by simp [keepI, ha]) rfl
  · exact keeps_binRun ho hl hr (check1_ok (check1_ok h)) fun _ _ _ ha _ => single_keep (by simp [keepI, ha]) rfl

theorem keeps_shiftVals {o : Opts} {left : Bool} {l r : Val} {s s' : CSt} {v : Val} {c : List Insn} (ho : Held s)
    (hl : LowV l) (hr : LowV r) (h : shiftVals o left l r s = .ok (v, s', c)) : KeepV v s s' c := by
  unfold shiftVals at h
  simp only at h
  split at h
  · unfold foldShift at h
    split at h
    · exact (panic_ok h).elim
    · exact keeps_const ho h
  · replace h := check1_ok h
    obtain ⟨⟨rl, tl, ml⟩, s1, c1, c2, h1, h2, rfl⟩ := bind_ok h
    obtain ⟨g1, hrl⟩ := keeps_materialize ho hl h1
    simp only at h2
    split at h2
    · exact (reject_ok h2).elim
    · split at h2
      · obtain ⟨rfl, rfl, rfl⟩ := pure_ok h2
        exact ⟨keeps_trans g1 (keeps_nil g1.regs), hrl⟩
      · obtain ⟨_, s3, c3, c4, h3, h4, rfl⟩ := bind_ok h2
        obtain ⟨rfl, rfl⟩ := emit_ok h3
        obtain ⟨rfl, rfl, rfl⟩ := pure_ok h4
        refine ⟨keeps_trans g1 (keeps_code g1.regs ?_), hrl⟩
        rw [List.append_nil]
        exact single_keep (by simpa [keepI] using hrl) rfl
  · refine keeps_binRun ho hl hr (check1_ok (check1_ok h)) fun a t b ha _ => ?_
    intro i hi
    simp only [List.mem_cons, List.not_mem_nil, or_false] at hi
    rcases hi with rfl | rfl <;> simp [keepI, isExitI, ha]

theorem keeps_mulVals {o : Opts} {l r : Val} {s s' : CSt} {v : Val} {c : List Insn} (ho : Held s)
    (hl : LowV l) (hr : LowV r) (h : mulVals o l r s = .ok (v, s', c)) : KeepV v s s' c := by
  unfold mulVals at h
  split at h
  · exact keeps_const ho h
  · exact keeps_binRun ho hl hr (check1_ok (check1_ok h)) fun _ _ _ ha _ => single_keep (by simp [keepI, ha]) rfl

theorem reg2bool_keep {r : Nat} (hr : r < 8) : ∀ i ∈ reg2bool r, keepI i = true ∧ isExitI i = false := by
  intro i hi
  simp only [reg2bool, List.mem_cons, List.not_mem_nil, or_false] at hi
  rcases hi with rfl | rfl | rfl <;> simp [keepI, isExitI, hr]

theorem cons_keep {i : Insn} {c : List Insn} (h : keepI i = true) (hx : isExitI i = false)
    (hc : ∀ j ∈ c, keepI j = true ∧ isExitI j = false) : ∀ j ∈ i :: c, keepI j = true ∧ isExitI j = false :=
  append_keep (a := [i]) (single_keep h hx) hc

theorem lowV_adjustNums {Γ : Btf} {l r : Val} (hl : LowV l) (hr : LowV r) :
    LowV (adjustNums Γ l r).1 ∧ LowV (adjustNums Γ l r).2 := by
  unfold adjustNums
  split <;> first | exact ⟨hl, hr⟩ | exact ⟨trivial, hr⟩ | exact ⟨hl, trivial⟩

theorem keeps_cmpVals {o : Opts} {cm : Cmp} {l r : Val} {s s' : CSt} {v : Val} {c : List Insn} (ho : Held s)
    (hl : LowV l) (hr : LowV r) (h : cmpVals o cm l r s = .ok (v, s', c)) : KeepV v s s' c := by
  unfold cmpVals at h
  have hlow := lowV_adjustNums (Γ := o.Γ) hl hr
  generalize hq : adjustNums o.Γ l r = q at h hlow
  obtain ⟨l', r'⟩ := q
  simp only at hlow
  have hun : ∀ {b : BitVec 64} {x : Val}, LowV x → (do
      checkCalc o x
      unRun o x fun rl => .jmpImm (negCmp cm) rl b 2 :: reg2bool rl : CM Val) s = .ok (v, s', c) →
      KeepV v s s' c := by
    intro b x hx h
    exact keeps_unRun ho hx (check1_ok h) fun a ha => cons_keep rfl rfl (reg2bool_keep ha)
  have hbin : ∀ {x y : Val}, LowV x → LowV y → (do
      checkCalc o x
      checkCalc o y
      binRun o x y fun rl _ rr => .jmpReg (negCmp cm) rl rr 2 :: reg2bool rl : CM Val) s = .ok (v, s', c) →
      KeepV v s s' c := by
    intro x y hx hy h
    exact keeps_binRun ho hx hy (check1_ok (check1_ok h)) fun a _ _ ha _ => cons_keep rfl rfl (reg2bool_keep ha)
  cases l' with
  | const a ta =>
    cases r' with
    | const b tb => exact keeps_const ho h
    | _ => exact hbin hlow.1 hlow.2 h
  | _ =>
    cases r' with
    | const b tb => exact hun hlow.1 h
    | _ => exact hbin hlow.1 hlow.2 h

theorem truthy_keep {r : Nat} (hr : r < 8) : ∀ i ∈ truthy r, keepI i = true ∧ isExitI i = false :=
  cons_keep rfl rfl (reg2bool_keep hr)

theorem keeps_freeIfMat {l : Val} {s s' : CSt} {u : Unit} {c : List Insn} (ho : Held s) (hl : LowV l)
    (h : freeIfMat l s = .ok (u, s', c)) : Keeps s s' c := by
  cases l with
  | mat => obtain ⟨rfl, rfl⟩ := freeM_ok h; exact keeps_free ho hl
  | const => obtain ⟨_, rfl, rfl⟩ := pure_ok h; exact keeps_nil ho
  | pend => obtain ⟨_, rfl, rfl⟩ := pure_ok h; exact keeps_nil ho
  | enumMaybe => obtain ⟨_, rfl, rfl⟩ := pure_ok h; exact keeps_nil ho

theorem keeps_andand {o : Opts} {l r : Val} {s s' : CSt} {v : Val} {c : List Insn} (ho : Held s)
    (hl : LowV l) (hr : LowV r) (h : andandVals o l r s = .ok (v, s', c)) : KeepV v s s' c := by
  unfold andandVals at h
  split at h
  · exact keeps_const ho h
  · replace h := check1_ok h
    split at h
    · exact keeps_const ho h
    · exact keeps_unRun ho hr h fun a ha => truthy_keep ha
  · replace h := check1_ok h
    split at h
    · obtain ⟨_, s1, c1, c2, h1, h2, rfl⟩ := bind_ok h
      obtain ⟨rfl, rfl, rfl⟩ := pure_ok h2
      have g := keeps_freeIfMat ho hl h1
      exact ⟨keeps_trans g (keeps_nil g.regs), trivial⟩
    · exact keeps_unRun ho hl h fun a ha => truthy_keep ha
  · refine keeps_binRun ho hl hr (check1_ok (check1_ok h)) fun a _ _ ha _ => ?_
    exact cons_keep rfl rfl (cons_keep rfl rfl (reg2bool_keep ha))

theorem keeps_oror {o : Opts} {l r : Val} {s s' : CSt} {v : Val} {c : List Insn} (ho : Held s)
    (hl : LowV l) (hr : LowV r) (h : ororVals o l r s = .ok (v, s', c)) : KeepV v s s' c := by
  unfold ororVals at h
  split at h
  · exact keeps_const ho h
  · replace h := check1_ok h
    split at h
    · exact keeps_const ho h
    · exact keeps_unRun ho hr h fun a ha => truthy_keep ha
  · replace h := check1_ok h
    split at h
    · obtain ⟨_, s1, c1, c2, h1, h2, rfl⟩ := bind_ok h
      obtain ⟨rfl, rfl, rfl⟩ := pure_ok h2
      have g := keeps_freeIfMat ho hl h1
      exact ⟨keeps_trans g (keeps_nil g.regs), trivial⟩
    · exact keeps_unRun ho hl h fun a ha => truthy_keep ha
  · refine keeps_binRun ho hl hr (check1_ok (check1_ok h)) fun a _ _ ha _ => ?_
    intro i hi
    simp only [List.mem_cons, List.not_mem_nil, or_false] at hi
    rcases hi with rfl | rfl | rfl | rfl | rfl <;> simp [keepI, isExitI, ha]

theorem lowV_resolveEnums {o : Opts} {l r l' r' : Val} {s s' : CSt} {c : List Insn} (hl : LowV l) (hr : LowV r)
    (h : resolveEnums o l r s = .ok ((l', r'), s', c)) : LowV l' ∧ LowV r' := by
  have key : ∀ (x : Option (BitVec 64)) (f : BitVec 64 → Val × Val), (∀ n, LowV (f n).1 ∧ LowV (f n).2) →
      (match x with | none => reject | some n => pure (f n) : CM (Val × Val)) s = .ok ((l', r'), s', c) →
      LowV l' ∧ LowV r' := by
    intro x f hf h
    cases x with
    | none => exact (reject_ok h).elim
    | some n => obtain ⟨h, _, _⟩ := pure_ok h; have := hf n; rw [← h] at this; exact this
  unfold resolveEnums at h
  split at h
  · exact key _ (fun n => (Val.const n none, _)) (fun _ => ⟨trivial, hr⟩) h
  · exact key _ (fun n => (Val.const n none, _)) (fun _ => ⟨trivial, hr⟩) h
  · exact key _ (fun n => (_, Val.const n none)) (fun _ => ⟨hl, trivial⟩) h
  · exact key _ (fun n => (_, Val.const n none)) (fun _ => ⟨hl, trivial⟩) h
  · obtain ⟨h, _, _⟩ := pure_ok h; cases h; exact ⟨hl, hr⟩

theorem keeps_binVals {o : Opts} {op : Bop} {l r : Val} {s s' : CSt} {v : Val} {c : List Insn} (ho : Held s)
    (hl : LowV l) (hr : LowV r) (h : binVals o op l r s = .ok (v, s', c)) : KeepV v s s' c := by
  obtain ⟨l', r', he, h⟩ := binVals_ok h
  obtain ⟨hl, hr⟩ := lowV_resolveEnums hl hr he
  cases op with
  | add => exact keeps_addVals ho hl hr h
  | sub => exact keeps_subVals ho hl hr h
  | mul => exact keeps_mulVals ho hl hr h
  | div => exact keeps_divVals ho hl hr h
  | mod => exact keeps_modVals ho hl hr h
  | and => exact keeps_bitVals ho hl hr h
  | or => exact keeps_bitVals ho hl hr h
  | xor => exact keeps_bitVals ho hl hr h
  | lsh => exact keeps_shiftVals ho hl hr h
  | rsh => exact keeps_shiftVals ho hl hr h
  | eq => exact keeps_cmpVals ho hl hr h
  | ne => exact keeps_cmpVals ho hl hr h
  | lt => exact keeps_cmpVals ho hl hr h
  | le => exact keeps_cmpVals ho hl hr h
  | gt => exact keeps_cmpVals ho hl hr h
  | ge => exact keeps_cmpVals ho hl hr h
  | andand => exact keeps_andand ho hl hr h
  | oror => exact keeps_oror ho hl hr h

theorem keeps_unVals {o : Opts} {op : Uop} {x : Val} {s s' : CSt} {v : Val} {c : List Insn} (ho : Held s)
    (hx : LowV x) (h : unVals o op x s = .ok (v, s', c)) : KeepV v s s' c := by
  cases op with
  | not =>
    unfold unVals at h
    cases x with
    | const n t => exact keeps_const ho h
    | _ => exact keeps_unRun ho hx h fun a ha => cons_keep rfl rfl (reg2bool_keep ha)
  | paren => exact keeps_pure ho hx h
  | plus => exact keeps_pure ho hx h
  | minus =>
    unfold unVals at h
    cases x with
    | const n t => exact keeps_const ho h
    | _ => exact keeps_unRun ho hx h fun a ha => single_keep (by simp [keepI, ha]) rfl
  | twid =>
    unfold unVals at h
    cases x with
    | const n t => exact keeps_const ho h
    | _ => exact keeps_unRun ho hx (check1_ok h) fun a ha => single_keep (by simp [keepI, ha]) rfl
  | preinc =>
    unfold unVals at h
    cases x with
    | const n t => exact keeps_const ho h
    | _ => exact keeps_unRun ho hx h fun a ha => single_keep (by simp [keepI, ha]) rfl
  | predec =>
    unfold unVals at h
    cases x with
    | const n t => exact keeps_const ho h
    | _ => exact keeps_unRun ho hx h fun a ha => single_keep (by simp [keepI, ha]) rfl

theorem keeps_condArm {o : Opts} {rc : Nat} {x : Val} {s s' : CSt} {u : Unit} {c : List Insn} (ho : Held s)
    (hrc : rc < 8) (hx : LowV x) (h : condArm o rc x s = .ok (u, s', c)) : Keeps s s' c := by
  rcases condArm_ok h with ⟨n, t, _, rfl, rfl⟩ | ⟨r, t, m, s1, c1, h1, rfl, rfl, _⟩
  · exact keeps_code ho (single_keep (by simp [keepI, hrc]) rfl)
  · obtain ⟨g, hr⟩ := keeps_materialize ho hx h1
    have := keeps_trans (keeps_trans g (keeps_code g.regs (single_keep (i := .movReg rc r) (by simp [keepI, hrc]) rfl)))
      (keeps_free g.regs hr)
    simpa using this

theorem keeps_condVals {o : Opts} {x l r : Val} {s s' : CSt} {v : Val} {c : List Insn} (ho : Held s)
    (hx : LowV x) (hl : LowV l) (hr : LowV r) (h : condVals o x l r s = .ok (v, s', c)) : KeepV v s s' c := by
  rcases condVals_ok h with ⟨n, _, _, rfl, rfl, rfl⟩ | ⟨_, rc, tc, mc, s1, c1, s2, cl, cr, h1, h2, h3, rfl, rfl⟩
  · refine ⟨keeps_nil ho, ?_⟩
    split <;> assumption
  · obtain ⟨g1, hrc⟩ := keeps_materialize ho hx h1
    have g2 := keeps_condArm g1.regs hrc hl h2
    have g3 := keeps_condArm g2.regs hrc hr h3
    refine ⟨?_, hrc⟩
    have ga := keeps_code (c := [.jmpImm .eq rc 0 (cl.length + 1)]) g1.regs (single_keep rfl rfl)
    have gb := keeps_code (c := [.ja cr.length]) g2.regs (single_keep rfl rfl)
    have := keeps_trans g1 (keeps_trans ga (keeps_trans g2 (keeps_trans gb g3)))
    simpa [condCode] using this

theorem keeps_access {v : Val} {s s' : CSt} {c : List Insn} (ho : Held s) (hc : c = [] ∧ s' = s) (hv : LowV v) :
    KeepV v s s' c := by
  obtain ⟨rfl, rfl⟩ := hc
  exact ⟨keeps_nil ho, hv⟩

/-- Member access, indexing, `*` and `&` give a pending value. -/
def isPend : Val → Prop
  | .pend .. => True
  | _ => False

theorem lowV_pend {v : Val} (h : isPend v) : LowV v := by
  cases v <;> simp_all [isPend, LowV]

theorem accessMember_pend {o : Opts} {b : Val} {f : String} {arrow : Bool} {s s' : CSt} {v : Val}
    {c : List Insn} (h : accessMember o b f arrow s = .ok (v, s', c)) : isPend v := by
  have fin : ∀ {b : Base} {l : List Off} {t : Ty} {m : Option Member}, (pure (.pend b l t m) : CM Val) s = .ok (v, s', c) → isPend v := by
    intro b l t m h; obtain ⟨rfl, h1, h2⟩ := pure_ok h; trivial
  have rej : ∀ {P : Prop}, (reject : CM Val) s = .ok (v, s', c) → P := fun h => (reject_ok h).elim
  unfold accessMember at h
  split at h
  · exact rej h
  · dsimp only at h
    generalize hT : (if arrow = true then match o.Γ.kindO b.ty with
      | .ptr t => some (o.Γ.kindOf t) | _ => none else some (o.Γ.kindO b.ty)) = T at h
    cases T with
    | none => exact rej h
    | some k =>
      cases k with
      | comp id =>
        simp only at h
        cases hm : o.Γ.member id f with
        | none => simp only [hm] at h; exact rej h
        | some mem =>
          simp only [hm] at h
          cases b with
          | pend b offs t m =>
            simp only at h
            split at h
            · split at h
              · exact rej h
              · exact fin h
            · exact fin h
          | mat r t m =>
            simp only at h
            split at h
            · exact rej h
            · exact fin h
          | const => exact rej h
          | enumMaybe => exact rej h
      | _ => exact rej h

theorem evaluateIndex_pend {o : Opts} {b : Val} {i : Expr} {s s' : CSt} {v : Val}
    {c : List Insn} (h : evaluateIndex o b i s = .ok (v, s', c)) : isPend v := by
  have fin : ∀ {b : Base} {l : List Off} {t : Ty} {m : Option Member}, (pure (.pend b l t m) : CM Val) s = .ok (v, s', c) → isPend v := by
    intro b l t m h; obtain ⟨rfl, h1, h2⟩ := pure_ok h; trivial
  have rej : ∀ {P : Prop}, (reject : CM Val) s = .ok (v, s', c) → P := fun h => (reject_ok h).elim
  unfold evaluateIndex at h
  split at h
  · exact rej h
  · cases i with
    | num text =>
      simp only at h
      cases hn : parseNumber text with
      | none => simp only [hn] at h; exact rej h
      | some n =>
        simp only [hn] at h
        cases hk : o.Γ.kindO b.ty with
        | ptr t =>
          simp only [hk] at h
          split at h
          · exact rej h
          · cases b with
            | pend b offs t m => exact fin h
            | mat r t m => exact fin h
            | const => exact rej h
            | enumMaybe => exact rej h
        | array t =>
          simp only [hk] at h
          split at h
          · exact rej h
          · cases b with
            | pend b offs t m => exact fin h
            | mat r t m => exact fin h
            | const => exact rej h
            | enumMaybe => exact rej h
        | _ => simp only [hk] at h; exact rej h
    | _ => exact rej h

theorem evaluateIndir_pend {o : Opts} {b : Val} {s s' : CSt} {v : Val}
    {c : List Insn} (h : evaluateIndir o b s = .ok (v, s', c)) : isPend v := by
  have fin : ∀ {b : Base} {l : List Off} {t : Ty} {m : Option Member}, (pure (.pend b l t m) : CM Val) s = .ok (v, s', c) → isPend v := by
    intro b l t m h; obtain ⟨rfl, h1, h2⟩ := pure_ok h; trivial
  have rej : ∀ {P : Prop}, (reject : CM Val) s = .ok (v, s', c) → P := fun h => (reject_ok h).elim
  unfold evaluateIndir at h
  split at h
  · exact rej h
  · cases hk : o.Γ.kindO b.ty with
    | ptr t =>
      simp only [hk] at h
      cases b with
      | pend b offs t m => exact fin h
      | mat r t m => exact fin h
      | const => exact rej h
      | enumMaybe => exact rej h
    | _ => simp only [hk] at h; exact rej h

theorem evaluateAddr_pend {b : Val} {s s' : CSt} {v : Val}
    {c : List Insn} (h : evaluateAddr b s = .ok (v, s', c)) : isPend v := by
  unfold evaluateAddr at h
  cases b with
  | pend b offs t m =>
    simp only at h
    split at h
    · exact (reject_ok h).elim
    · obtain ⟨rfl, h1, h2⟩ := pure_ok h; trivial
  | mat r t m => exact (reject_ok h).elim
  | const => exact (reject_ok h).elim
  | enumMaybe => exact (reject_ok h).elim

theorem lowV_castVal {t : Ty} {v : Val} (h : LowV v) : LowV (castVal t v) := by
  cases v <;> first | trivial | exact h

theorem lowV_name (o : Opts) (s : String) : LowV (evaluateName o s) := by
  unfold evaluateName
  split
  · trivial
  · split
    · trivial
    · split <;> trivial

/-- Evaluating any accepted expression keeps R8, R9 and R10, and sets the flag if it emits an exit. -/
theorem keeps_evaluate {o : Opts} : ∀ {e : Expr} {s s' : CSt} {v : Val} {c : List Insn}, Held s →
    evaluate o e s = .ok (v, s', c) → KeepV v s s' c := by
  intro e
  have post : ∀ {s s' : CSt} {v w : Val} {c1 c2 : List Insn}, KeepV w s s' c1 → (c2 = [] ∧ True) → isPend v →
      KeepV v s s' (c1 ++ c2) := by
    intro s s' v w c1 c2 g hc hv
    obtain ⟨rfl, _⟩ := hc
    rw [List.append_nil]
    exact ⟨g.1, lowV_pend hv⟩
  induction e with
  | name n => intro s s' v c ho h; exact keeps_pure ho (lowV_name _ _) h
  | num text =>
    intro s s' v c ho h
    simp only [evaluate] at h
    cases hp : parseNumber text with
    | none => simp only [hp] at h; exact (reject_ok h).elim
    | some n => simp only [hp] at h; exact keeps_const ho h
  | arrow e f ih =>
    intro s s' v c ho h
    simp only [evaluate] at h
    obtain ⟨b, s1, c1, c2, h1, h2, rfl⟩ := bind_ok h
    obtain ⟨hc, rfl⟩ := accessMember_nil h2
    exact post (ih ho h1) ⟨hc, trivial⟩ (accessMember_pend h2)
  | dot e f ih =>
    intro s s' v c ho h
    simp only [evaluate] at h
    obtain ⟨b, s1, c1, c2, h1, h2, rfl⟩ := bind_ok h
    obtain ⟨hc, rfl⟩ := accessMember_nil h2
    exact post (ih ho h1) ⟨hc, trivial⟩ (accessMember_pend h2)
  | index e i ih _ =>
    intro s s' v c ho h
    simp only [evaluate] at h
    obtain ⟨b, s1, c1, c2, h1, h2, rfl⟩ := bind_ok h
    obtain ⟨hc, rfl⟩ := evaluateIndex_nil h2
    exact post (ih ho h1) ⟨hc, trivial⟩ (evaluateIndex_pend h2)
  | indir e ih =>
    intro s s' v c ho h
    simp only [evaluate] at h
    obtain ⟨b, s1, c1, c2, h1, h2, rfl⟩ := bind_ok h
    obtain ⟨hc, rfl⟩ := evaluateIndir_nil h2
    exact post (ih ho h1) ⟨hc, trivial⟩ (evaluateIndir_pend h2)
  | addr e ih =>
    intro s s' v c ho h
    simp only [evaluate] at h
    obtain ⟨b, s1, c1, c2, h1, h2, rfl⟩ := bind_ok h
    obtain ⟨hc, rfl⟩ := evaluateAddr_nil h2
    exact post (ih ho h1) ⟨hc, trivial⟩ (evaluateAddr_pend h2)
  | cast t e ih =>
    intro s s' v c ho h
    rcases evaluate_cast h with ⟨_, _, _, _, _, _, rfl, rfl, rfl⟩ | ⟨_, v0, ty, h1, _, rfl⟩
    · exact ⟨keeps_nil ho, trivial⟩
    · exact ⟨(ih ho h1).1, lowV_castVal (ih ho h1).2⟩
  | un op e ih =>
    intro s s' v c ho h
    simp only [evaluate] at h
    obtain ⟨b, s1, c1, c2, h1, h2, rfl⟩ := bind_ok h
    have g1 := ih ho h1
    have g2 := keeps_unVals g1.1.regs g1.2 h2
    exact ⟨keeps_trans g1.1 g2.1, g2.2⟩
  | bin op l r ihl ihr =>
    intro s s' v c ho h
    simp only [evaluate] at h
    obtain ⟨a, s1, c1, c2, h1, h2, rfl⟩ := bind_ok h
    obtain ⟨b, s3, c3, c4, h3, h4, rfl⟩ := bind_ok h2
    have g1 := ihl ho h1
    have g2 := ihr g1.1.regs h3
    have g3 := keeps_binVals g2.1.regs g1.2 g2.2 h4
    exact ⟨keeps_trans g1.1 (keeps_trans g2.1 g3.1), g3.2⟩
  | cond x l r ihx ihl ihr =>
    intro s s' v c ho h
    simp only [evaluate] at h
    obtain ⟨a, s1, c1, c2, h1, h2, rfl⟩ := bind_ok h
    obtain ⟨b, s3, c3, c4, h3, h4, rfl⟩ := bind_ok h2
    obtain ⟨d, s5, c5, c6, h5, h6, rfl⟩ := bind_ok h4
    have g1 := ihx ho h1
    have g2 := ihl g1.1.regs h3
    have g3 := ihr g2.1.regs h5
    have g4 := keeps_condVals g3.1.regs g1.2 g2.2 g3.2 h6
    exact ⟨keeps_trans g1.1 (keeps_trans g2.1 (keeps_trans g3.1 g4.1)), g4.2⟩
  | unsup => intro s s' v c ho h; exact (reject_ok h).elim

/-- Code that writes no register from R8 up leaves those registers alone, however it ends. -/
theorem execK_keep {m : Mem} : ∀ {c : List Insn} {k : Nat} {st : St}, (∀ i ∈ c, keepI i = true) → ∀ {r : Nat}, 8 ≤ r →
    (∀ st', execK m c k st = .done st' → st'.regs r = st.regs r) ∧
    (∀ st', execK m c k st = .exit st' → st'.regs r = st.regs r ∧ ∃ i ∈ c, isExitI i = true) ∧
    (∀ st', execK m c k st ≠ .ret st') := by
  intro c
  induction c with
  | nil =>
    intro k st _ r _
    cases k <;> simp [execK]
  | cons i c ih =>
    intro k st hk r hr
    have hc : ∀ i ∈ c, keepI i = true := fun j hj => hk j (List.mem_cons_of_mem _ hj)
    cases k with
    | succ k =>
      simp only [execK]
      obtain ⟨h1, h2, h3⟩ := ih (k := k) (st := st) hc hr
      exact ⟨h1, fun st' h => ⟨(h2 st' h).1, let ⟨j, hj, hx⟩ := (h2 st' h).2; ⟨j, List.mem_cons_of_mem _ hj, hx⟩⟩, h3⟩
    | zero =>
      have hi := hk i List.mem_cons_self
      have go : ∀ {k : Nat} {s1 : St}, s1.regs r = st.regs r → execK m (i :: c) 0 st = execK m c k s1 →
          (∀ st', execK m (i :: c) 0 st = .done st' → st'.regs r = st.regs r) ∧
          (∀ st', execK m (i :: c) 0 st = .exit st' → st'.regs r = st.regs r ∧ ∃ j ∈ i :: c, isExitI j = true) ∧
          (∀ st', execK m (i :: c) 0 st ≠ .ret st') := by
        intro k s1 hs he
        rw [he]
        obtain ⟨h1, h2, h3⟩ := ih (k := k) (st := s1) hc hr
        exact ⟨fun st' h => (h1 st' h).trans hs, fun st' h => ⟨((h2 st' h).1).trans hs,
          let ⟨j, hj, hx⟩ := (h2 st' h).2; ⟨j, List.mem_cons_of_mem _ hj, hx⟩⟩, h3⟩
      have bad : execK m (i :: c) 0 st = .stuck →
          (∀ st', execK m (i :: c) 0 st = .done st' → st'.regs r = st.regs r) ∧
          (∀ st', execK m (i :: c) 0 st = .exit st' → st'.regs r = st.regs r ∧ ∃ j ∈ i :: c, isExitI j = true) ∧
          (∀ st', execK m (i :: c) 0 st ≠ .ret st') := by
        intro h; rw [h]; simp
      have wr : ∀ {d : Nat} {x : BitVec 64}, d < 8 → (st.set d x).regs r = st.regs r := by
        intro d x hd
        simp only [St.set]; rw [if_neg (by omega)]
      have jmp : ∀ {off : Nat}, stepI m i st = jumpTo off st →
          (∀ st', execK m (i :: c) 0 st = .done st' → st'.regs r = st.regs r) ∧
          (∀ st', execK m (i :: c) 0 st = .exit st' → st'.regs r = st.regs r ∧ ∃ j ∈ i :: c, isExitI j = true) ∧
          (∀ st', execK m (i :: c) 0 st ≠ .ret st') := by
        intro off h
        by_cases ho : off < 2 ^ 15
        · rw [jump_small ho] at h
          exact go (k := off) (s1 := st) rfl (by simp only [execK, h])
        · unfold jumpTo at h
          rw [if_neg ho] at h
          exact bad (by simp only [execK, h])
      cases i with
      | movImm d k => exact go (wr (by simpa [keepI] using hi)) rfl
      | movReg d k => exact go (wr (by simpa [keepI] using hi)) rfl
      | aluImm op d k => exact go (wr (by simpa [keepI] using hi)) rfl
      | aluReg op d k => exact go (wr (by simpa [keepI] using hi)) rfl
      | neg d => exact go (wr (by simpa [keepI] using hi)) rfl
      | ldx d _ _ _ => exact go (wr (by simpa [keepI] using hi)) rfl
      | ldStack d _ => exact go (wr (by simpa [keepI] using hi)) rfl
      | stStack off q => exact go (s1 := { st with stack := fun o => if o = off then st.regs q else st.stack o }) rfl rfl
      | callCast =>
        refine go (s1 := (st.clobber 5).set 0 (st.regs 1)) ?_ rfl
        simp only [St.set, St.clobber]
        rw [if_neg (by omega), if_neg (by omega)]
      | callProbe =>
        by_cases h : st.regs 1 = st.regs 10 - 8 ∧ st.regs 2 = 8
        · refine go (k := 0) (s1 := probed m st) ?_ ?_
          · simp only [probed, St.clobber]; rw [if_neg (by omega)]
          · simp only [execK, step_probe m st h.1 h.2]
        · refine bad ?_
          simp only [execK, stepI, if_neg h]
      | ret => simp [keepI] at hi
      | jexit d =>
        by_cases hz : st.regs d = 0
        · have he : execK m (.jexit d :: c) 0 st = .exit st := by simp only [execK, stepI, hz, if_pos]
          rw [he]
          refine ⟨by simp, ?_, by simp⟩
          intro st' h
          cases h
          exact ⟨rfl, _, List.mem_cons_self, rfl⟩
        · exact go (k := 0) rfl (by simp only [execK, stepI, if_neg hz])
      | jmpImm cm d k off =>
        by_cases hz : cmpEval cm (st.regs d) (sx32 k) = true
        · exact jmp (off := off) (by simp only [stepI, hz, if_pos])
        · exact go (k := 0) rfl (by simp only [execK, stepI, if_neg hz])
      | jmpReg cm d q off =>
        by_cases hz : cmpEval cm (st.regs d) (st.regs q) = true
        · exact jmp (off := off) (by simp only [stepI, hz, if_pos])
        · exact go (k := 0) rfl (by simp only [execK, stepI, if_neg hz])
      | ja off => exact jmp (off := off) rfl

/-- What a caller of `CompileEvalExpr` that reserves R8 and R9 may rely on, for every accepted expression. -/
theorem compileEval_keeps {o : Opts} {f : Bool} {e : Expr} {p : EvalRes} (hc : compileEval o [8, 9] f e = .ok p) :
    p.reg < 8 ∧ (∀ i ∈ p.code, keepI i = true) ∧ ((∃ i ∈ p.code, isExitI i = true) → p.labelUsed = true) ∧
      Safe p.code := by
  unfold compileEval at hc
  have hmark : markAll noRegs [8, 9] = some (setReg (setReg noRegs 8 true) 9 true) := rfl
  rw [hmark] at hc
  simp only at hc
  cases he : evaluate o e { used := setReg (setReg noRegs 8 true) 9 true, exitUsed := false } with
  | error x => rw [he] at hc; simp at hc
  | ok z =>
    obtain ⟨v, s, body⟩ := z
    rw [he] at hc
    have g := keeps_evaluate (s := { used := setReg (setReg noRegs 8 true) 9 true, exitUsed := false }) ⟨rfl, rfl⟩ he
    have hs := safe_evaluate he
    have key : ∀ {r : Nat} {t : Option Ty} {m : Option Member} {s' : CSt} {c : List Insn},
        materialize o v s = .ok ((r, t, m), s', c) → p = ⟨body ++ c, r, t, m, s'.exitUsed⟩ →
        p.reg < 8 ∧ (∀ i ∈ p.code, keepI i = true) ∧ ((∃ i ∈ p.code, isExitI i = true) → p.labelUsed = true) ∧
          Safe p.code := by
      rintro r t m s' c hm rfl
      obtain ⟨g2, hr⟩ := keeps_materialize g.1.regs g.2 hm
      have g3 := keeps_trans g.1 g2
      exact ⟨hr, g3.keep, g3.exits, safe_append hs (safe_materialize hm)⟩
    have go : (match materialize o v s with
        | .error x => .error x
        | .ok ((r, t, m), s', c) => .ok ⟨body ++ c, r, t, m, s'.exitUsed⟩ : Except Err EvalRes) = .ok p →
        p.reg < 8 ∧ (∀ i ∈ p.code, keepI i = true) ∧ ((∃ i ∈ p.code, isExitI i = true) → p.labelUsed = true) ∧
          Safe p.code := by
      intro h
      cases hm : materialize o v s with
      | error y => rw [hm] at h; simp at h
      | ok z =>
        obtain ⟨⟨r, t, m⟩, s', c⟩ := z
        rw [hm] at h
        exact key hm (Except.ok.inj h).symm
    cases v with
    | const n t =>
      simp only at hc
      split at hc
      · obtain rfl := Except.ok.inj hc
        exact ⟨by simp, g.1.keep, g.1.exits, hs⟩
      · simp at hc
    | mat r t m => exact go hc
    | pend b offs t m => exact go hc
    | enumMaybe n t => exact go hc

end Bpfsnoop.Cc
