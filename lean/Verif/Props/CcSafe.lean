import Verif.Props.CcExec

/-
Compiled code always terminates inside the program and a filter answers 0 or 1, for every accepted
expression, every memory and every initial register and stack content.
-/
namespace Bpfsnoop.Cc

/-- The jump offset of an instruction fits its 16-bit field. -/
def jumpFits : Insn → Prop
  | .jmpImm _ _ _ off => off < 2 ^ 15
  | .jmpReg _ _ _ off => off < 2 ^ 15
  | .ja off => off < 2 ^ 15
  | _ => True

def Fits (c : List Insn) : Prop := ∀ i ∈ c, jumpFits i

theorem fits_append {a b : List Insn} : Fits (a ++ b) ↔ Fits a ∧ Fits b := by
  simp only [Fits, List.mem_append]
  exact ⟨fun h => ⟨fun i hi => h i (.inl hi), fun i hi => h i (.inr hi)⟩,
    fun h i hi => hi.elim (h.1 i) (h.2 i)⟩

/-- How far an instruction jumps (0 if it does not). -/
def joff : Insn → Nat
  | .jmpImm _ _ _ off => off
  | .jmpReg _ _ _ off => off
  | .ja off => off
  | _ => 0

/-- All jumps stay inside the block or go to its end. -/
def Closed : List Insn → Prop
  | [] => True
  | i :: r => joff i ≤ r.length ∧ Closed r

theorem closed_append {a b : List Insn} (ha : Closed a) (hb : Closed b) : Closed (a ++ b) := by
  induction a with
  | nil => exact hb
  | cons i r ih =>
    refine ⟨?_, ih ha.2⟩
    have := ha.1
    show joff i ≤ (r ++ b).length
    rw [List.length_append]; omega

theorem closed_get {c : List Insn} (h : Closed c) : ∀ {k : Nat} {i : Insn}, c[k]? = some i →
    k + 1 + joff i ≤ c.length := by
  induction c with
  | nil => intro k i hk; simp at hk
  | cons j r ih =>
    intro k i hk
    cases k with
    | zero =>
      simp only [List.getElem?_cons_zero, Option.some.injEq] at hk
      subst hk
      have := h.1
      simp only [List.length_cons]; omega
    | succ k =>
      have := ih h.2 (by simpa using hk)
      simp only [List.length_cons]; omega

theorem closed_fits {c : List Insn} (h : Closed c) (hl : c.length ≤ 2 ^ 15) : Fits c := by
  intro i hi
  obtain ⟨k, hk⟩ := List.getElem?_of_mem hi
  have := closed_get h hk
  cases i <;> simp only [jumpFits, joff] at * <;> omega

/-- A block whose jumps stay inside and that ends by falling off its end or by jumping to the exit label. -/
def Safe (c : List Insn) : Prop :=
  Closed c ∧ (Fits c → ∀ m st, (∃ st', exec m c st = .done st') ∨ (∃ st', exec m c st = .exit st'))

theorem safe_nil : Safe [] := ⟨trivial, fun _ _ st => .inl ⟨st, rfl⟩⟩

theorem safe_append {a b : List Insn} (ha : Safe a) (hb : Safe b) : Safe (a ++ b) := by
  refine ⟨closed_append ha.1 hb.1, ?_⟩
  intro hf m st
  rw [fits_append] at hf
  rcases ha.2 hf.1 m st with ⟨s1, h1⟩ | ⟨s1, h1⟩
  · rw [exec_append_done h1]; exact hb.2 hf.2 m s1
  · exact .inr ⟨s1, exec_append_exit h1⟩

/-- Instructions that neither jump forward nor return nor fail. -/
def plain : Insn → Bool
  | .jmpImm .. | .jmpReg .. | .ja _ | .callProbe | .ret => false
  | _ => true

theorem safe_plain {c : List Insn} (h : ∀ i ∈ c, plain i = true) : Safe c := by
  induction c with
  | nil => exact safe_nil
  | cons i r ih =>
    have hr : Safe r := ih (fun j hj => h j (List.mem_cons_of_mem _ hj))
    refine ⟨⟨?_, hr.1⟩, ?_⟩
    · have hi := h i List.mem_cons_self
      cases i <;> first | exact Nat.zero_le _ | simp [plain] at hi
    intro hf m st
    have hfr : Fits r := fun j hj => hf j (List.mem_cons_of_mem _ hj)
    have hi := h i List.mem_cons_self
    have hseq : ∀ s1, exec m (i :: r) st = exec m r s1 →
        (∃ st', exec m (i :: r) st = .done st') ∨ (∃ st', exec m (i :: r) st = .exit st') := by
      intro s1 he; rw [he]; exact hr.2 hfr m s1
    cases i with
    | jmpImm => simp [plain] at hi
    | jmpReg => simp [plain] at hi
    | ja => simp [plain] at hi
    | callProbe => simp [plain] at hi
    | ret => simp [plain] at hi
    | jexit d =>
      by_cases hz : st.regs d = 0
      · right; exact ⟨st, by simp only [exec, execK, stepI, hz, if_pos]⟩
      · exact hseq st (by simp only [exec, execK, stepI, if_neg hz])
    | movImm d k => exact hseq _ rfl
    | movReg d k => exact hseq _ rfl
    | aluImm d k => exact hseq _ rfl
    | aluReg d k => exact hseq _ rfl
    | neg d => exact hseq _ rfl
    | ldx => exact hseq _ rfl
    | ldStack => exact hseq _ rfl
    | stStack => exact hseq _ rfl
    | callCast => exact hseq _ rfl

/-- The helper call as it is emitted everywhere. -/
def probeCall : List Insn := [.movImm 2 8, .movReg 1 10, .aluImm .add 1 (-8), .callProbe]

theorem set_same (st : St) (r : Nat) (v : BitVec 64) : (st.set r v).regs r = v := by
  simp [St.set]

theorem exec_seq {m : Mem} {i : Insn} {r : List Insn} {st st' : St} (h : stepI m i st = .seq st') :
    exec m (i :: r) st = exec m r st' := by
  simp only [exec, execK, h]

theorem exec_nil (m : Mem) (st : St) : exec m [] st = .done st := rfl

/-- The effect of the helper call: the value at the address in R3 is in the stack slot -8, R0 to R5 hold
anything. -/
def probed (m : Mem) (st : St) : St :=
  St.mk (st.clobber 5).regs (fun o => if o = -8 then load m 8 (st.regs 3) else st.stack o) (st.clobber 5).orc

/-- The state after the helper call. -/
def afterProbe (m : Mem) (st : St) : St :=
  probed m (((st.set 2 8).set 1 (st.regs 10)).set 1 (st.regs 10 - 8))

theorem step_probe (m : Mem) (st : St) (h1 : st.regs 1 = st.regs 10 - 8) (h2 : st.regs 2 = 8) :
    stepI m .callProbe st = .seq (probed m st) := by
  simp only [stepI]
  rw [if_pos ⟨h1, h2⟩]
  rfl

theorem step_sub8 (m : Mem) (d : Nat) (st : St) :
    stepI m (.aluImm .add d (-8)) st = .seq (st.set d (st.regs d - 8)) := by
  have hm8 : sx32 (-8) = -8 := by decide
  simp only [stepI, aluEval, hm8]
  rw [BitVec.add_neg_eq_sub]

theorem step_mov8 (m : Mem) (d : Nat) (st : St) :
    stepI m (.movImm d 8) st = .seq (st.set d 8) := by
  have h8 : sx32 8 = 8 := by decide
  simp only [stepI, h8]

theorem exec_probeCall_eq (m : Mem) (st : St) : exec m probeCall st = .done (afterProbe m st) := by
  unfold probeCall
  rw [exec_seq (step_mov8 m 2 st)]
  rw [exec_seq (st' := (st.set 2 8).set 1 (st.regs 10)) rfl]
  rw [exec_seq (step_sub8 m 1 _)]
  rw [exec_seq (step_probe m _ (by simp [St.set]) (by simp [St.set]))]
  simp only [exec_nil, afterProbe, set_same]

theorem exec_probeCall (m : Mem) (st : St) :
    ∃ st', exec m probeCall st = .done st' ∧ st'.stack (-8) = load m 8 (st.regs 3) ∧
      (∀ r, 5 < r → st'.regs r = st.regs r) := by
  refine ⟨afterProbe m st, exec_probeCall_eq m st, ?_, ?_⟩
  · simp only [afterProbe, probed, if_pos]
    rfl
  · intro r hr
    simp only [afterProbe, probed, St.clobber, St.set]
    rw [if_neg (by omega), if_neg (by omega), if_neg (by omega), if_neg (by omega)]

theorem safe_probeCall : Safe probeCall := by
  refine ⟨by simp [Closed, probeCall, joff], ?_⟩
  intro _ m st
  obtain ⟨st', h, _⟩ := exec_probeCall m st
  exact .inl ⟨st', h⟩

theorem safe_addOff (r : Nat) (k : BitVec 64) : Safe (addOff r k) := by
  unfold addOff
  split
  · exact safe_nil
  · exact safe_plain (by simp [plain])

theorem safe_probeLoop (reg : Nat) : ∀ offs, Safe (probeLoop reg offs) := by
  intro offs
  induction offs with
  | nil => exact safe_nil
  | cons x r ih =>
    cases r with
    | nil =>
      simp only [probeLoop]
      refine safe_append (safe_addOff _ _) ?_
      split
      · split
        · exact safe_plain (by simp [plain])
        · exact safe_nil
      · exact safe_append (a := probeCall) (b := [.ldStack reg (-8)]) safe_probeCall
          (safe_plain (by simp [plain]))
    | cons y r =>
      simp only [probeLoop]
      refine safe_append (safe_append (safe_addOff _ _) ?_) ih
      split
      · exact safe_nil
      · exact safe_append (a := probeCall) (b := [.ldStack 3 (-8), .jexit 3]) safe_probeCall
          (safe_plain (by simp [plain]))

theorem safe_directLoop (reg : Nat) : ∀ offs, Safe (directLoop reg offs) := by
  intro offs
  induction offs with
  | nil => exact safe_nil
  | cons x r ih =>
    cases r with
    | nil =>
      simp only [directLoop]
      split
      · exact safe_addOff _ _
      · exact safe_plain (by simp [plain])
    | cons y r =>
      simp only [directLoop]
      refine safe_append ?_ ih
      split
      · exact safe_addOff _ _
      · exact safe_plain (by simp [plain])

theorem safe_coreProbe (reg : Nat) (last : Bool) : Safe (coreProbe reg last) := by
  have : coreProbe reg last = [.movReg 3 1] ++ (probeCall ++ [.ldStack (if last && reg ≠ 1 then reg else 1) (-8)]) := rfl
  rw [this]
  exact safe_append (safe_plain (by simp [plain])) (safe_append safe_probeCall (safe_plain (by simp [plain])))

/-- `if b { labelExitUsed = true }` emits nothing. -/
theorem whenExit_ok {b : Bool} {s s2 : CSt} {u : Unit} {c : List Insn}
    (h : whenM b useExit s = .ok (u, s2, c)) : s2.used = s.used ∧ c = [] := by
  cases b with
  | true => obtain ⟨rfl, rfl⟩ := useExit_ok h; exact ⟨rfl, rfl⟩
  | false => obtain ⟨_, rfl, rfl⟩ := pure_ok h; exact ⟨rfl, rfl⟩

theorem pushRegs_ok {o : Opts} {n : Nat} {s s2 : CSt} {u : Unit} {c : List Insn}
    (h : pushRegs o n s = .ok (u, s2, c)) :
    s2 = s ∧ c = (if s.used 0 then [.stStack (-((o.reserved : Int) + (usedNr s.used n : Nat) * 8) - 8) 0] else []) ++
      (List.range (usedNr s.used n)).map fun i : Nat =>
        .stStack (-((o.reserved : Int) + (usedNr s.used n : Nat) * 8) + i * 8) (1 + i) := by
  simp only [pushRegs, Except.ok.injEq, Prod.mk.injEq] at h
  exact ⟨h.2.1.symm, h.2.2.symm⟩

theorem popRegs_ok {o : Opts} {n : Nat} {s s2 : CSt} {u : Unit} {c : List Insn}
    (h : popRegs o n s = .ok (u, s2, c)) :
    s2 = s ∧ c = ((List.range (usedNr s.used n)).map fun i : Nat =>
        .ldStack (1 + i) (-((o.reserved : Int) + (usedNr s.used n : Nat) * 8) + i * 8)) ++
      (if s.used 0 then [.ldStack 0 (-((o.reserved : Int) + (usedNr s.used n : Nat) * 8) - 8)] else []) := by
  simp only [popRegs, Except.ok.injEq, Prod.mk.injEq] at h
  exact ⟨h.2.1.symm, h.2.2.symm⟩

theorem safe_push {o : Opts} {n : Nat} {s s2 : CSt} {u : Unit} {c : List Insn}
    (h : pushRegs o n s = .ok (u, s2, c)) : s2 = s ∧ Safe c := by
  obtain ⟨h1, h2⟩ := pushRegs_ok h
  refine ⟨h1, ?_⟩
  rw [h2]
  refine safe_append ?_ (safe_plain ?_)
  · split
    · exact safe_plain (by simp [plain])
    · exact safe_nil
  · intro i hi
    rw [List.mem_map] at hi
    obtain ⟨j, _, rfl⟩ := hi
    rfl

theorem safe_pop {o : Opts} {n : Nat} {s s2 : CSt} {u : Unit} {c : List Insn}
    (h : popRegs o n s = .ok (u, s2, c)) : s2 = s ∧ Safe c := by
  obtain ⟨h1, h2⟩ := popRegs_ok h
  refine ⟨h1, ?_⟩
  rw [h2]
  refine safe_append (safe_plain ?_) ?_
  · intro i hi
    rw [List.mem_map] at hi
    obtain ⟨j, _, rfl⟩ := hi
    rfl
  · split
    · exact safe_plain (by simp [plain])
    · exact safe_nil

theorem safe_coreStep {o : Opts} {reg : Nat} {x : Off} {last : Bool} {s s2 : CSt} {u : Unit}
    {c : List Insn} (h : coreStep o reg x last s = .ok (u, s2, c)) : s2.used = s.used ∧ Safe c := by
  unfold coreStep at h
  by_cases hd : x.deref = true
  · rw [if_neg (by simp [hd])] at h
    cases hc : canRdonlyCast o.Γ x.prev with
    | none => rw [hc] at h; exact (reject_ok h).elim
    | some q =>
      rw [hc] at h
      cases q with
      | none =>
        obtain ⟨rfl, rfl⟩ := emit_ok h
        exact ⟨rfl, safe_coreProbe _ _⟩
      | some id =>
        cases hl : loadSize o.Γ x.ty with
        | none => simp only [hl] at h; exact (reject_ok h).elim
        | some size =>
          simp only [hl] at h
          split at h
          · obtain ⟨rfl, rfl⟩ := emit_ok h
            exact ⟨rfl, safe_coreProbe _ _⟩
          · split at h
            · obtain ⟨rfl, rfl⟩ := emit_ok h
              refine ⟨rfl, safe_append (safe_plain (by simp [plain])) ?_⟩
              split
              · exact safe_plain (by simp [plain])
              · exact safe_nil
            · obtain ⟨_, s1, c1, c2, h1, h2, rfl⟩ := bind_ok h
              obtain ⟨rfl, rfl⟩ := useExit_ok h1
              obtain ⟨rfl, rfl⟩ := emit_ok h2
              exact ⟨rfl, safe_plain (by simp [plain])⟩
  · rw [if_pos (by simp [hd])] at h
    obtain ⟨rfl, rfl⟩ := emit_ok h
    refine ⟨rfl, safe_append (safe_addOff _ _) ?_⟩
    split
    · exact safe_plain (by simp [plain])
    · exact safe_nil

theorem safe_coreLoop {o : Opts} {reg : Nat} : ∀ {offs : List Off} {s s2 : CSt} {u : Unit} {c : List Insn},
    coreLoop o reg offs s = .ok (u, s2, c) → s2.used = s.used ∧ Safe c := by
  intro offs
  induction offs with
  | nil =>
    intro s s2 u c h
    obtain ⟨_, rfl, rfl⟩ := pure_ok h
    exact ⟨rfl, safe_nil⟩
  | cons x r ih =>
    intro s s2 u c h
    obtain ⟨_, s1, c1, c2, h1, h2, rfl⟩ := bind_ok h
    obtain ⟨hu1, hs1⟩ := safe_coreStep h1
    obtain ⟨hu, hs⟩ := ih h2
    exact ⟨hu.trans hu1, safe_append hs1 hs⟩

theorem safe_offsetChain {o : Opts} {offs : List Off} {reg : Nat} {s s2 : CSt} {u : Unit} {c : List Insn}
    (h : emitOffsetChain o offs reg s = .ok (u, s2, c)) : s2.used = s.used ∧ Safe c := by
  unfold emitOffsetChain at h
  split at h
  · obtain ⟨rfl, rfl⟩ := emit_ok h
    refine ⟨rfl, safe_plain ?_⟩
    intro i hi
    rw [List.mem_flatMap] at hi
    obtain ⟨x, _, hx⟩ := hi
    unfold addOff at hx
    split at hx
    · simp at hx
    · simp only [List.mem_singleton] at hx; subst hx; rfl
  · cases hm : o.mode with
    | core =>
      simp only [hm, emitCoreRead] at h
      obtain ⟨_, s1, c1, c2, h1, h2, rfl⟩ := bind_ok h
      obtain ⟨rfl, hp⟩ := safe_push h1
      obtain ⟨_, s3, c3, c4, h3, h4, rfl⟩ := bind_ok h2
      obtain ⟨rfl, rfl⟩ := emit_ok h3
      obtain ⟨_, s5, c5, c6, h5, h6, rfl⟩ := bind_ok h4
      obtain ⟨hu, hs⟩ := safe_coreLoop h5
      obtain ⟨rfl, hq⟩ := safe_pop h6
      refine ⟨hu, safe_append hp (safe_append ?_ (safe_append hs hq))⟩
      split
      · exact safe_plain (by simp [plain])
      · exact safe_nil
    | direct =>
      simp only [hm, emitDirectRead] at h
      obtain ⟨_, s1, c1, c2, h1, h2, rfl⟩ := bind_ok h
      obtain ⟨rfl, rfl⟩ := emit_ok h1
      obtain ⟨hu, rfl⟩ := whenExit_ok h2
      exact ⟨hu, safe_append (safe_directLoop _ _) safe_nil⟩
    | probe =>
      simp only [hm, emitProbeRead] at h
      obtain ⟨_, s1, c1, c2, h1, h2, rfl⟩ := bind_ok h
      obtain ⟨rfl, hp⟩ := safe_push h1
      obtain ⟨_, s3, c3, c4, h3, h4, rfl⟩ := bind_ok h2
      obtain ⟨rfl, rfl⟩ := emit_ok h3
      obtain ⟨_, s5, c5, c6, h5, h6, rfl⟩ := bind_ok h4
      obtain ⟨rfl, rfl⟩ := emit_ok h5
      obtain ⟨_, s7, c7, c8, h7, h8, rfl⟩ := bind_ok h6
      obtain ⟨hu, rfl⟩ := whenExit_ok h7
      obtain ⟨rfl, hq⟩ := safe_pop h8
      refine ⟨hu, safe_append hp (safe_append ?_ (safe_append (safe_probeLoop _ _) (safe_append safe_nil hq)))⟩
      split
      · exact safe_plain (by simp [plain])
      · exact safe_nil

theorem allocM_ok {o : Opts} {s s2 : CSt} {r : Nat} {c : List Insn}
    (h : allocM o s = .ok (r, s2, c)) :
    ∃ u, alloc o.lo s.used = some (r, u) ∧ s2 = { s with used := u } ∧ c = [] := by
  simp only [allocM] at h
  cases ha : alloc o.lo s.used with
  | none => rw [ha] at h; simp at h
  | some p =>
    obtain ⟨r', u⟩ := p
    rw [ha] at h
    simp only [Except.ok.injEq, Prod.mk.injEq] at h
    obtain ⟨rfl, rfl, rfl⟩ := h
    exact ⟨u, rfl, rfl, rfl⟩

/-- The instructions that cut a freshly loaded value to its width. -/
def cutCode (Γ : Btf) (t : Ty) (m : Option Member) (r : Nat) : List Insn :=
  match m with
  | some mem => if mem.bfSize != 0 then bitfieldExtract mem r else adjustSize Γ t r
  | none => adjustSize Γ t r

/-- Materializing a pending value: allocate, load the base, follow the chain, cut. -/
theorem materialize_pend_ok {o : Opts} {b : Base} {offs : List Off} {t : Ty} {m : Option Member}
    {s s2 : CSt} {q : Nat × Option Ty × Option Member} {c : List Insn}
    (h : materialize o (.pend b offs t m) s = .ok (q, s2, c)) :
    ∃ r u s3 c3, alloc o.lo s.used = some (r, u) ∧ q = (r, some t, m) ∧
      whenM (!offs.isEmpty) (emitOffsetChain o offs r) { s with used := u } = .ok ((), s3, c3) ∧
      s2 = s3 ∧ c = loadBase r b ++ c3 ++ cutCode o.Γ t m r := by
  simp only [materialize] at h
  obtain ⟨r, s1, c1, c2, h1, h2, rfl⟩ := bind_ok h
  obtain ⟨u, hu, rfl, rfl⟩ := allocM_ok h1
  obtain ⟨_, s3, c3, c4, h3, h4, rfl⟩ := bind_ok h2
  obtain ⟨rfl, rfl⟩ := emit_ok h3
  obtain ⟨⟨⟩, s5, c5, c6, h5, h6, rfl⟩ := bind_ok h4
  obtain ⟨_, s7, c7, c8, h7, h8, rfl⟩ := bind_ok h6
  obtain ⟨rfl, rfl⟩ := emit_ok h7
  obtain ⟨rfl, rfl, rfl⟩ := pure_ok h8
  refine ⟨r, u, _, _, hu, rfl, h5, rfl, ?_⟩
  simp only [List.nil_append, List.append_nil, List.append_assoc]
  rfl

theorem safe_cut (Γ : Btf) (t : Ty) (m : Option Member) (r : Nat) : Safe (cutCode Γ t m r) := by
  refine safe_plain ?_
  intro i hi
  have hadj : ∀ i ∈ adjustSize Γ t r, plain i = true := by
    intro i hi
    unfold adjustSize at hi
    split at hi <;> simp at hi
    · subst hi; rfl
    · subst hi; rfl
    · rcases hi with rfl | rfl <;> rfl
  unfold cutCode at hi
  split at hi
  · split at hi
    · unfold bitfieldExtract at hi
      simp only [List.mem_append, List.mem_singleton] at hi
      rcases hi with hi | rfl
      · split at hi
        · simp only [List.mem_singleton] at hi; subst hi; rfl
        · simp at hi
      · rfl
    · exact hadj i hi
  · exact hadj i hi

theorem safe_materialize {o : Opts} {v : Val} {s s2 : CSt} {q : Nat × Option Ty × Option Member}
    {c : List Insn} (h : materialize o v s = .ok (q, s2, c)) : Safe c := by
  cases v with
  | mat r t m => obtain ⟨_, _, rfl⟩ := pure_ok h; exact safe_nil
  | const n t =>
    simp only [materialize] at h
    obtain ⟨r, s1, c1, c2, h1, h2, rfl⟩ := bind_ok h
    obtain ⟨_, _, rfl, rfl⟩ := allocM_ok h1
    obtain ⟨_, s3, c3, c4, h3, h4, rfl⟩ := bind_ok h2
    obtain ⟨rfl, rfl⟩ := emit_ok h3
    obtain ⟨_, _, rfl⟩ := pure_ok h4
    exact safe_plain (by simp [plain])
  | enumMaybe _ _ => exact (reject_ok (s := s) h).elim
  | pend b offs t m =>
    obtain ⟨r, u, s3, c3, _, _, h3, _, rfl⟩ := materialize_pend_ok h
    refine safe_append (safe_append ?_ ?_) (safe_cut _ _ _ _)
    · cases b <;> exact safe_plain (by simp [loadBase, plain])
    · unfold whenM at h3
      split at h3
      · exact (safe_offsetChain h3).2
      · obtain ⟨_, _, rfl⟩ := pure_ok h3; exact safe_nil

theorem binRun_ok {o : Opts} {l r : Val} {k : Nat → Option Ty → Nat → List Insn} {s s' : CSt} {v : Val}
    {c : List Insn} (h : binRun o l r k s = .ok (v, s', c)) :
    ∃ rl tl ml rr tr mr s1 s2 c1 c2, materialize o l s = .ok ((rl, tl, ml), s1, c1) ∧
      materialize o r s1 = .ok ((rr, tr, mr), s2, c2) ∧ v = .mat rl tl none ∧
      s' = { s2 with used := free s2.used rr } ∧ c = c1 ++ c2 ++ k rl tl rr := by
  simp only [binRun] at h
  obtain ⟨⟨rl, tl, ml⟩, s1, c1, c2, h1, h2, rfl⟩ := bind_ok h
  obtain ⟨⟨rr, tr, mr⟩, s3, c3, c4, h3, h4, rfl⟩ := bind_ok h2
  obtain ⟨_, s5, c5, c6, h5, h6, rfl⟩ := bind_ok h4
  obtain ⟨rfl, rfl⟩ := emit_ok h5
  obtain ⟨_, s7, c7, c8, h7, h8, rfl⟩ := bind_ok h6
  obtain ⟨rfl, rfl⟩ := freeM_ok h7
  obtain ⟨rfl, rfl, rfl⟩ := pure_ok h8
  exact ⟨rl, tl, ml, rr, tr, mr, s1, _, c1, c3, h1, h3, rfl, rfl, by simp⟩

theorem unRun_ok {o : Opts} {x : Val} {k : Nat → List Insn} {s s' : CSt} {v : Val}
    {c : List Insn} (h : unRun o x k s = .ok (v, s', c)) :
    ∃ r t m c1, materialize o x s = .ok ((r, t, m), s', c1) ∧ v = .mat r t none ∧ c = c1 ++ k r := by
  simp only [unRun] at h
  obtain ⟨⟨r, t, m⟩, s1, c1, c2, h1, h2, rfl⟩ := bind_ok h
  obtain ⟨_, s3, c3, c4, h3, h4, rfl⟩ := bind_ok h2
  obtain ⟨rfl, rfl⟩ := emit_ok h3
  obtain ⟨rfl, rfl, rfl⟩ := pure_ok h4
  exact ⟨r, t, m, c1, h1, rfl, by simp⟩

theorem checkCalc_ok {o : Opts} {v : Val} {s s' : CSt} {u : Unit} {c : List Insn}
    (h : checkCalc o v s = .ok (u, s', c)) : s' = s ∧ c = [] := by
  unfold checkCalc at h
  split at h
  · split at h
    · obtain ⟨_, rfl, rfl⟩ := pure_ok h; exact ⟨rfl, rfl⟩
    · exact (reject_ok h).elim
  · obtain ⟨_, rfl, rfl⟩ := pure_ok h; exact ⟨rfl, rfl⟩

/-- `checkCalc o l; rest`. -/
theorem check1_ok {o : Opts} {l : Val} {x : CM Val} {s s' : CSt} {v : Val} {c : List Insn}
    (h : (do checkCalc o l; x) s = .ok (v, s', c)) : x s = .ok (v, s', c) := by
  obtain ⟨_, s1, c1, c2, h1, h2, rfl⟩ := bind_ok h
  obtain ⟨rfl, rfl⟩ := checkCalc_ok h1
  exact h2

theorem resolveEnums_ok {o : Opts} {l r : Val} {q : Val × Val} {s s' : CSt} {c : List Insn}
    (h : resolveEnums o l r s = .ok (q, s', c)) : s' = s ∧ c = [] := by
  have key : ∀ (x : Option (BitVec 64)) (f : BitVec 64 → Val × Val),
      (match x with | none => reject | some n => pure (f n) : CM (Val × Val)) s = .ok (q, s', c) →
      s' = s ∧ c = [] := by
    intro x f h
    cases x with
    | none => exact (reject_ok h).elim
    | some n => obtain ⟨_, rfl, rfl⟩ := pure_ok h; exact ⟨rfl, rfl⟩
  unfold resolveEnums at h
  split at h
  · exact key _ (fun n => (Val.const n none, _)) h
  · exact key _ (fun n => (Val.const n none, _)) h
  · exact key _ (fun n => (_, Val.const n none)) h
  · exact key _ (fun n => (_, Val.const n none)) h
  · obtain ⟨_, rfl, rfl⟩ := pure_ok h; exact ⟨rfl, rfl⟩

/-- A block that runs to its end whatever the state, when its jumps fit. -/
theorem safe_binRun {o : Opts} {l r : Val} {k : Nat → Option Ty → Nat → List Insn} {s s' : CSt} {v : Val}
    {c : List Insn} (h : binRun o l r k s = .ok (v, s', c)) (hk : ∀ a t b, Safe (k a t b)) : Safe c := by
  obtain ⟨rl, tl, ml, rr, tr, mr, s1, s2, c1, c2, h1, h2, _, _, rfl⟩ := binRun_ok h
  exact safe_append (safe_append (safe_materialize h1) (safe_materialize h2)) (hk _ _ _)

theorem safe_unRun {o : Opts} {x : Val} {k : Nat → List Insn} {s s' : CSt} {v : Val}
    {c : List Insn} (h : unRun o x k s = .ok (v, s', c)) (hk : ∀ a, Safe (k a)) : Safe c := by
  obtain ⟨r, t, m, c1, h1, _, rfl⟩ := unRun_ok h
  exact safe_append (safe_materialize h1) (hk _)

theorem safe_scale (Γ : Btf) (t : Option Ty) (r : Nat) : Safe (scale Γ t r) := by
  unfold scale
  split
  · split
    · exact safe_plain (by simp [plain])
    · exact safe_nil
  · split
    · exact safe_plain (by simp [plain])
    · exact safe_nil
  · exact safe_nil

theorem jump_small {off : Nat} (h : off < 2 ^ 15) (st : St) : jumpTo off st = .jump off st := by
  unfold jumpTo; rw [if_pos h]

theorem exec_reg2bool_false (m : Mem) (r : Nat) (st : St) :
    execK m (reg2bool r) 2 st = .done (st.set r 0) := by
  have : stepI m (.aluReg .xor r r) st = .seq (st.set r 0) := by
    simp only [stepI, aluEval, BitVec.xor_self]; rfl
  show exec m [.aluReg .xor r r] st = _
  rw [exec_seq this]; rfl

theorem exec_reg2bool_true (m : Mem) (r : Nat) (st : St) :
    execK m (reg2bool r) 0 st = .done (st.set r 1) := by
  have h1 : stepI m (.movImm r 1) st = .seq (st.set r 1) := by
    have : sx32 1 = 1 := by decide
    simp only [stepI, this]
  have h2 : stepI m (.ja 1) (st.set r 1) = .jump 1 (st.set r 1) := by
    simp only [stepI, jump_small (show 1 < 2 ^ 15 by decide)]
  simp only [reg2bool, execK, h1, h2]

theorem exec_jump {m : Mem} {i : Insn} {r : List Insn} {st st' : St} {off : Nat}
    (h : stepI m i st = .jump off st') : exec m (i :: r) st = execK m r off st' := by
  simp only [exec, execK, h]

theorem execK_succ (m : Mem) (i : Insn) (r : List Insn) (k : Nat) (st : St) :
    execK m (i :: r) (k + 1) st = execK m r k st := rfl

theorem execK_zero (m : Mem) (c : List Insn) (st : St) : execK m c 0 st = exec m c st := rfl

theorem step_jmpImm (m : Mem) (c : Cmp) (d : Nat) (k : BitVec 64) {off : Nat} (ho : off < 2 ^ 15) (st : St)
    (b : Bool) (h : cmpEval c (st.regs d) (sx32 k) = b) :
    stepI m (.jmpImm c d k off) st = if b then .jump off st else .seq st := by
  simp only [stepI, h, jump_small ho]

theorem step_jmpReg (m : Mem) (c : Cmp) (d q : Nat) {off : Nat} (ho : off < 2 ^ 15) (st : St)
    (b : Bool) (h : cmpEval c (st.regs d) (st.regs q) = b) :
    stepI m (.jmpReg c d q off) st = if b then .jump off st else .seq st := by
  simp only [stepI, h, jump_small ho]

theorem step_ja (m : Mem) {off : Nat} (ho : off < 2 ^ 15) (st : St) :
    stepI m (.ja off) st = .jump off st := by
  simp only [stepI, jump_small ho]

theorem sx32_0 : sx32 0 = 0 := by decide
theorem sx32_1 : sx32 1 = 1 := by decide

theorem cmp_eq0 {x : BitVec 64} (h : x = 0) : cmpEval .eq x (sx32 0) = true := by
  rw [sx32_0, h]; rfl

theorem cmp_eq0' {x : BitVec 64} (h : x ≠ 0) : cmpEval .eq x (sx32 0) = false := by
  rw [sx32_0]; exact beq_eq_false_iff_ne.mpr h

theorem cmp_ne0 {x : BitVec 64} (h : x = 0) : cmpEval .ne x (sx32 0) = false := by
  rw [sx32_0, h]; rfl

theorem cmp_ne0' {x : BitVec 64} (h : x ≠ 0) : cmpEval .ne x (sx32 0) = true := by
  rw [sx32_0]
  show (!(x == 0)) = true
  rw [beq_eq_false_iff_ne.mpr h]; rfl

theorem cmp_le0 {x : BitVec 64} (h : x = 0) : cmpEval .le x (sx32 0) = true := by
  rw [sx32_0, h]; rfl

theorem cmp_le0' {x : BitVec 64} (h : x ≠ 0) : cmpEval .le x (sx32 0) = false := by
  rw [sx32_0]
  show decide (x.toNat ≤ (0 : BitVec 64).toNat) = false
  rw [decide_eq_false_iff_not]
  intro hle
  apply h
  apply BitVec.eq_of_toNat_eq
  have : (0 : BitVec 64).toNat = 0 := rfl
  omega

theorem b2n_true : b2n true = 1 := rfl
theorem b2n_false : b2n false = 0 := rfl

/-- The tails that produce a truth value. -/
theorem exec_cmpImm (m : Mem) (c : Cmp) (r : Nat) (k : BitVec 64) (st : St) :
    exec m (.jmpImm c r k 2 :: reg2bool r) st =
      .done (st.set r (b2n !(cmpEval c (st.regs r) (sx32 k)))) := by
  cases h : cmpEval c (st.regs r) (sx32 k) with
  | true =>
    rw [exec_jump (step_jmpImm m c r k (by decide) st true h)]
    exact exec_reg2bool_false m r st
  | false =>
    rw [exec_seq (step_jmpImm m c r k (by decide) st false h)]
    exact exec_reg2bool_true m r st

theorem exec_cmpReg (m : Mem) (c : Cmp) (r q : Nat) (st : St) :
    exec m (.jmpReg c r q 2 :: reg2bool r) st =
      .done (st.set r (b2n !(cmpEval c (st.regs r) (st.regs q)))) := by
  cases h : cmpEval c (st.regs r) (st.regs q) with
  | true =>
    rw [exec_jump (step_jmpReg m c r q (by decide) st true h)]
    exact exec_reg2bool_false m r st
  | false =>
    rw [exec_seq (step_jmpReg m c r q (by decide) st false h)]
    exact exec_reg2bool_true m r st

theorem exec_andand (m : Mem) (r q : Nat) (st : St) :
    exec m (.jmpImm .eq r 0 3 :: .jmpImm .eq q 0 2 :: reg2bool r) st =
      .done (st.set r (if st.regs r ≠ 0 ∧ st.regs q ≠ 0 then 1 else 0)) := by
  by_cases hr : st.regs r = 0
  · rw [exec_jump (step_jmpImm m .eq r 0 (by decide) st true (cmp_eq0 hr)), execK_succ,
      exec_reg2bool_false, if_neg (fun h => h.1 hr)]
  · rw [exec_seq (step_jmpImm m .eq r 0 (by decide) st false (cmp_eq0' hr))]
    by_cases hq : st.regs q = 0
    · rw [exec_jump (step_jmpImm m .eq q 0 (by decide) st true (cmp_eq0 hq)), exec_reg2bool_false,
        if_neg (fun h => h.2 hq)]
    · rw [exec_seq (step_jmpImm m .eq q 0 (by decide) st false (cmp_eq0' hq)), if_pos ⟨hr, hq⟩]
      exact exec_reg2bool_true m r st

/-- The run-time `||`. -/
def ororTail (r q : Nat) : List Insn :=
  [.jmpImm .ne r 0 3, .jmpImm .ne q 0 2, .aluReg .xor r r, .ja 1, .movImm r 1]

theorem exec_movImm1 (m : Mem) (r : Nat) (st : St) : exec m [.movImm r 1] st = .done (st.set r 1) := by
  have : stepI m (.movImm r 1) st = .seq (st.set r 1) := by simp only [stepI, sx32_1]
  rw [exec_seq this]; rfl

theorem step_xor (m : Mem) (r : Nat) (st : St) : stepI m (.aluReg .xor r r) st = .seq (st.set r 0) := by
  simp only [stepI, aluEval, BitVec.xor_self]; rfl

theorem exec_oror (m : Mem) (r q : Nat) (st : St) :
    exec m (ororTail r q) st = .done (st.set r (if st.regs r ≠ 0 ∨ st.regs q ≠ 0 then 1 else 0)) := by
  unfold ororTail
  by_cases hr : st.regs r = 0
  · rw [exec_seq (step_jmpImm m .ne r 0 (by decide) st false (cmp_ne0 hr))]
    by_cases hq : st.regs q = 0
    · rw [exec_seq (step_jmpImm m .ne q 0 (by decide) st false (cmp_ne0 hq)), exec_seq (step_xor m r st),
        exec_jump (step_ja m (by decide) _), execK_succ,
        if_neg (fun h => h.elim (fun h => h hr) (fun h => h hq))]
      rfl
    · rw [exec_jump (step_jmpImm m .ne q 0 (by decide) st true (cmp_ne0' hq)), execK_succ, execK_succ,
        execK_zero, exec_movImm1, if_pos (.inr hq)]
  · rw [exec_jump (step_jmpImm m .ne r 0 (by decide) st true (cmp_ne0' hr)), execK_succ, execK_succ,
      execK_succ, execK_zero, exec_movImm1, if_pos (.inl hr)]

theorem safe_of_done {c : List Insn} (hc : Closed c) (h : ∀ m st, ∃ st', exec m c st = .done st') :
    Safe c := ⟨hc, fun _ m st => .inl (h m st)⟩

theorem step_mov0 (m : Mem) (r : Nat) (st : St) : stepI m (.movImm r 0) st = .seq (st.set r 0) := by
  simp only [stepI, sx32_0]

theorem exec_guarded (m : Mem) (op : Alu) (r q : Nat) (st : St) :
    exec m (guarded op r q) st =
      .done (st.set r (if st.regs q = 0 then 0 else aluEval op (st.regs r) (st.regs q))) := by
  unfold guarded
  by_cases hq : st.regs q = 0
  · rw [exec_seq (step_jmpImm m .ne q 0 (by decide) st false (cmp_ne0 hq)), exec_seq (step_mov0 m r st),
      exec_jump (step_ja m (by decide) _), execK_succ, if_pos hq]
    rfl
  · rw [exec_jump (step_jmpImm m .ne q 0 (by decide) st true (cmp_ne0' hq)), execK_succ, execK_succ,
      execK_zero, if_neg hq]
    rfl

theorem exec_shift (m : Mem) (op : Alu) (r q : Nat) (st : St) :
    exec m [.jmpImm .le q 0 1, .aluReg op r q] st =
      .done (if st.regs q = 0 then st else st.set r (aluEval op (st.regs r) (st.regs q))) := by
  by_cases hq : st.regs q = 0
  · rw [exec_jump (step_jmpImm m .le q 0 (by decide) st true (cmp_le0 hq)), if_pos hq]
    rfl
  · rw [exec_seq (step_jmpImm m .le q 0 (by decide) st false (cmp_le0' hq)), if_neg hq]
    rfl

theorem safe_shift (op : Alu) (r q : Nat) : Safe [.jmpImm .le q 0 1, .aluReg op r q] :=
  safe_of_done (by simp [Closed, joff]) fun m st => ⟨_, exec_shift m op r q st⟩

theorem safe_addConst {o : Opts} {b : Base} {offs : List Off} {t : Ty} {m : Option Member} {n : BitVec 64}
    {s s' : CSt} {v : Val} {c : List Insn} (h : addConst o b offs t m n s = .ok (v, s', c)) :
    s' = s ∧ c = [] ∧ ∃ offs' t' m', v = .pend b offs' t' m' := by
  have fin : ∀ {v0 : Val}, (pure v0 : CM Val) s = .ok (v, s', c) →
      (∃ offs' t' m', v0 = .pend b offs' t' m') → s' = s ∧ c = [] ∧ ∃ offs' t' m', v = .pend b offs' t' m' := by
    intro v0 h hv
    obtain ⟨rfl, rfl, rfl⟩ := pure_ok h
    exact ⟨rfl, rfl, hv⟩
  unfold addConst at h
  split at h
  · exact fin h ⟨_, _, _, rfl⟩
  · cases hk : o.Γ.kindOf t with
    | ptr t' =>
      simp only [hk] at h
      cases hk' : o.Γ.kindOf t' with
      | void => simp only [hk'] at h; exact fin h ⟨_, _, _, rfl⟩
      | _ =>
        simp only [hk'] at h
        split at h
        · exact (reject_ok h).elim
        · exact fin h ⟨_, _, _, rfl⟩
    | array t' =>
      simp only [hk] at h
      split at h
      · exact (reject_ok h).elim
      · exact fin h ⟨_, _, _, rfl⟩
    | _ => simp only [hk] at h; exact fin h ⟨_, _, _, rfl⟩

theorem safe_addVals {o : Opts} {l r : Val} {s s' : CSt} {v : Val} {c : List Insn}
    (h : addVals o l r s = .ok (v, s', c)) : Safe c := by
  unfold addVals at h
  split at h
  · obtain ⟨_, _, rfl⟩ := pure_ok h; exact safe_nil
  · replace h := check1_ok (check1_ok h)
    split at h
    · obtain ⟨_, rfl, _⟩ := safe_addConst h; exact safe_nil
    · obtain ⟨_, rfl, _⟩ := safe_addConst h; exact safe_nil
    · exact safe_binRun h fun _ _ _ => safe_append (safe_scale _ _ _) (safe_plain (by simp [plain]))

theorem safe_subVals {o : Opts} {l r : Val} {s s' : CSt} {v : Val} {c : List Insn}
    (h : subVals o l r s = .ok (v, s', c)) : Safe c := by
  unfold subVals at h
  split at h
  · obtain ⟨_, _, rfl⟩ := pure_ok h; exact safe_nil
  · replace h := check1_ok (check1_ok h)
    split at h
    · obtain ⟨_, rfl, _⟩ := safe_addConst h; exact safe_nil
    · exact safe_binRun h fun _ _ _ => safe_append (safe_scale _ _ _) (safe_plain (by simp [plain]))

theorem safe_guarded (op : Alu) (r q : Nat) : Safe (guarded op r q) :=
  safe_of_done (by simp [Closed, joff, guarded]) fun m st => ⟨_, exec_guarded m op r q st⟩

theorem safe_divVals {o : Opts} {l r : Val} {s s' : CSt} {v : Val} {c : List Insn}
    (h : divVals o l r s = .ok (v, s', c)) : Safe c := by
  unfold divVals at h
  split at h
  · split at h
    · exact (reject_ok h).elim
    · obtain ⟨_, _, rfl⟩ := pure_ok h; exact safe_nil
  · split at h
    · exact (reject_ok h).elim
    · exact safe_unRun (check1_ok h) fun _ => safe_plain (by simp [plain])
  · exact safe_binRun (check1_ok (check1_ok h)) fun _ _ _ => safe_guarded _ _ _

theorem safe_modVals {o : Opts} {l r : Val} {s s' : CSt} {v : Val} {c : List Insn}
    (h : modVals o l r s = .ok (v, s', c)) : Safe c := by
  unfold modVals at h
  split at h
  · split at h
    · exact (reject_ok h).elim
    · obtain ⟨_, _, rfl⟩ := pure_ok h; exact safe_nil
  · split at h
    · exact (reject_ok h).elim
    · refine safe_unRun (check1_ok h) fun _ => ?_
      split <;> exact safe_plain (by simp [plain])
  · exact safe_binRun (check1_ok (check1_ok h)) fun _ _ _ => safe_guarded _ _ _

theorem safe_bitVals {o : Opts} {op : Alu} {l r : Val} {s s' : CSt} {v : Val} {c : List Insn}
    (h : bitVals o op l r s = .ok (v, s', c)) : Safe c := by
  unfold bitVals at h
  split at h
  · obtain ⟨_, _, rfl⟩ := pure_ok h; exact safe_nil
  · exact safe_unRun (check1_ok h) fun _ => safe_plain (by simp [plain])
  · exact safe_binRun (check1_ok (check1_ok h)) fun _ _ _ => safe_plain (by simp [plain])

theorem safe_shiftVals {o : Opts} {left : Bool} {l r : Val} {s s' : CSt} {v : Val} {c : List Insn}
    (h : shiftVals o left l r s = .ok (v, s', c)) : Safe c := by
  unfold shiftVals at h
  simp only at h
  split at h
  · unfold foldShift at h
    split at h
    · exact (panic_ok h).elim
    · obtain ⟨_, _, rfl⟩ := pure_ok h; exact safe_nil
  · replace h := check1_ok h
    obtain ⟨⟨rl, tl, ml⟩, s1, c1, c2, h1, h2, rfl⟩ := bind_ok h
    refine safe_append (safe_materialize h1) ?_
    simp only at h2
    split at h2
    · exact (reject_ok h2).elim
    · split at h2
      · obtain ⟨_, _, rfl⟩ := pure_ok h2; exact safe_nil
      · obtain ⟨_, s3, c3, c4, h3, h4, rfl⟩ := bind_ok h2
        obtain ⟨rfl, rfl⟩ := emit_ok h3
        obtain ⟨_, _, rfl⟩ := pure_ok h4
        exact safe_plain (by simp [plain])
  · exact safe_binRun (check1_ok (check1_ok h)) fun _ _ _ => safe_shift _ _ _

theorem safe_mulVals {o : Opts} {l r : Val} {s s' : CSt} {v : Val} {c : List Insn}
    (h : mulVals o l r s = .ok (v, s', c)) : Safe c := by
  unfold mulVals at h
  split at h
  · obtain ⟨_, _, rfl⟩ := pure_ok h; exact safe_nil
  · exact safe_binRun (check1_ok (check1_ok h)) fun _ _ _ => safe_plain (by simp [plain])

/-! ### Truth values -/

/-- Code that leaves 0 or 1 in `r`; `x` is the value its last instruction alone leaves there. -/
def BoolCode (c : List Insn) (r : Nat) (x : BitVec 64) : Prop :=
  ∃ pre t, c = pre ++ t ∧ Safe pre ∧ Closed t ∧
    (∀ m st, ∃ st', exec m t st = .done st' ∧ (st'.regs r = 0 ∨ st'.regs r = 1)) ∧
    ((x = 0 ∧ t.getLast? = some (.aluReg .xor r r)) ∨ (x = 1 ∧ t.getLast? = some (.movImm r 1)))

theorem b2n_cases (b : Bool) : b2n b = 0 ∨ b2n b = 1 := by cases b <;> simp [b2n]

theorem ite_cases (p : Prop) [Decidable p] :
    (if p then (1 : BitVec 64) else 0) = 0 ∨ (if p then (1 : BitVec 64) else 0) = 1 := by
  by_cases h : p
  · rw [if_pos h]; exact .inr rfl
  · rw [if_neg h]; exact .inl rfl

theorem safe_of_bool {c : List Insn} {r : Nat} {x : BitVec 64} (h : BoolCode c r x) : Safe c := by
  obtain ⟨pre, t, rfl, hp, hc, ht, _⟩ := h
  exact safe_append hp (safe_of_done hc fun m st => let ⟨st', h, _⟩ := ht m st; ⟨st', h⟩)

theorem bool_cmpImm {pre : List Insn} (hp : Safe pre) (c : Cmp) (r : Nat) (k : BitVec 64) :
    BoolCode (pre ++ (.jmpImm c r k 2 :: reg2bool r)) r 0 :=
  ⟨pre, _, rfl, hp, by simp [Closed, joff, reg2bool], fun m st => ⟨_, exec_cmpImm m c r k st, by rw [set_same]; exact b2n_cases _⟩,
    .inl ⟨rfl, rfl⟩⟩

theorem bool_cmpReg {pre : List Insn} (hp : Safe pre) (c : Cmp) (r q : Nat) :
    BoolCode (pre ++ (.jmpReg c r q 2 :: reg2bool r)) r 0 :=
  ⟨pre, _, rfl, hp, by simp [Closed, joff, reg2bool], fun m st => ⟨_, exec_cmpReg m c r q st, by rw [set_same]; exact b2n_cases _⟩,
    .inl ⟨rfl, rfl⟩⟩

/-- A comparison or logical operator folds to a constant without emitting, or computes a truth value. -/
def BoolRes (v : Val) (c : List Insn) (x : BitVec 64) : Prop :=
  (∃ n, v = .const n none ∧ Safe c) ∨ (∃ r t, v = .mat r t none ∧ BoolCode c r x)

theorem bool_cmpVals {o : Opts} {cm : Cmp} {l r : Val} {s s' : CSt} {v : Val} {c : List Insn}
    (h : cmpVals o cm l r s = .ok (v, s', c)) : BoolRes v c 0 := by
  unfold cmpVals at h
  generalize hq : adjustNums o.Γ l r = q at h
  obtain ⟨l', r'⟩ := q
  have hun : ∀ {b : BitVec 64} {x : Val}, (do
      checkCalc o x
      unRun o x fun rl => .jmpImm (negCmp cm) rl b 2 :: reg2bool rl : CM Val) s = .ok (v, s', c) →
      BoolRes v c 0 := by
    intro b x h
    obtain ⟨rr, t, mm, c1, h1, rfl, rfl⟩ := unRun_ok (check1_ok h)
    exact .inr ⟨_, _, rfl, bool_cmpImm (safe_materialize h1) _ _ _⟩
  have hbin : ∀ {x y : Val}, (do
      checkCalc o x
      checkCalc o y
      binRun o x y fun rl _ rr => .jmpReg (negCmp cm) rl rr 2 :: reg2bool rl : CM Val) s = .ok (v, s', c) →
      BoolRes v c 0 := by
    intro x y h
    obtain ⟨rl, tl, ml, rr, tr, mr, s1, s2, c1, c2, h1, h2, rfl, _, rfl⟩ := binRun_ok (check1_ok (check1_ok h))
    exact .inr ⟨_, _, rfl, bool_cmpReg (safe_append (safe_materialize h1) (safe_materialize h2)) _ _ _⟩
  cases l' with
  | const a ta =>
    cases r' with
    | const b tb => obtain ⟨rfl, _, rfl⟩ := pure_ok h; exact .inl ⟨_, rfl, safe_nil⟩
    | _ => exact hbin h
  | _ =>
    cases r' with
    | const b tb => exact hun h
    | _ => exact hbin h

theorem bool_truthy {o : Opts} {x : Val} {s s' : CSt} {v : Val} {c : List Insn}
    (h : unRun o x truthy s = .ok (v, s', c)) : ∃ r t, v = .mat r t none ∧ BoolCode c r 0 := by
  obtain ⟨rr, t, mm, c1, h1, rfl, rfl⟩ := unRun_ok h
  exact ⟨_, _, rfl, bool_cmpImm (safe_materialize h1) _ _ _⟩

theorem bool_andand {o : Opts} {l r : Val} {s s' : CSt} {v : Val} {c : List Insn}
    (h : andandVals o l r s = .ok (v, s', c)) : BoolRes v c 0 := by
  unfold andandVals at h
  split at h
  · obtain ⟨rfl, _, rfl⟩ := pure_ok h; exact .inl ⟨_, rfl, safe_nil⟩
  · replace h := check1_ok h
    split at h
    · obtain ⟨rfl, _, rfl⟩ := pure_ok h; exact .inl ⟨_, rfl, safe_nil⟩
    · exact .inr (bool_truthy h)
  · replace h := check1_ok h
    split at h
    · obtain ⟨_, s1, c1, c2, h1, h2, rfl⟩ := bind_ok h
      obtain ⟨rfl, _, rfl⟩ := pure_ok h2
      refine .inl ⟨_, rfl, ?_⟩
      cases l with
      | mat => obtain ⟨_, rfl⟩ := freeM_ok h1; exact safe_nil
      | const => obtain ⟨_, _, rfl⟩ := pure_ok h1; exact safe_nil
      | pend => obtain ⟨_, _, rfl⟩ := pure_ok h1; exact safe_nil
      | enumMaybe => obtain ⟨_, _, rfl⟩ := pure_ok h1; exact safe_nil
    · exact .inr (bool_truthy h)
  · obtain ⟨rl, tl, ml, rr, tr, mr, s1, s2, c1, c2, h1, h2, rfl, _, rfl⟩ := binRun_ok (check1_ok (check1_ok h))
    exact .inr ⟨_, _, rfl, _, _, rfl, safe_append (safe_materialize h1) (safe_materialize h2),
      by simp [Closed, joff, reg2bool], fun m st => ⟨_, exec_andand m _ _ st, by rw [set_same]; exact ite_cases _⟩, .inl ⟨rfl, rfl⟩⟩

/-- `||` with two run-time operands ends in `mov r, 1`. -/
theorem bool_oror {o : Opts} {l r : Val} {s s' : CSt} {v : Val} {c : List Insn}
    (h : ororVals o l r s = .ok (v, s', c)) : ∃ x, (x = 0 ∨ x = 1) ∧ BoolRes v c x := by
  unfold ororVals at h
  split at h
  · obtain ⟨rfl, _, rfl⟩ := pure_ok h; exact ⟨0, .inl rfl, .inl ⟨_, rfl, safe_nil⟩⟩
  · replace h := check1_ok h
    split at h
    · obtain ⟨rfl, _, rfl⟩ := pure_ok h; exact ⟨0, .inl rfl, .inl ⟨_, rfl, safe_nil⟩⟩
    · exact ⟨0, .inl rfl, .inr (bool_truthy h)⟩
  · replace h := check1_ok h
    split at h
    · obtain ⟨_, s1, c1, c2, h1, h2, rfl⟩ := bind_ok h
      obtain ⟨rfl, _, rfl⟩ := pure_ok h2
      refine ⟨0, .inl rfl, .inl ⟨_, rfl, ?_⟩⟩
      cases l with
      | mat => obtain ⟨_, rfl⟩ := freeM_ok h1; exact safe_nil
      | const => obtain ⟨_, _, rfl⟩ := pure_ok h1; exact safe_nil
      | pend => obtain ⟨_, _, rfl⟩ := pure_ok h1; exact safe_nil
      | enumMaybe => obtain ⟨_, _, rfl⟩ := pure_ok h1; exact safe_nil
    · exact ⟨0, .inl rfl, .inr (bool_truthy h)⟩
  · obtain ⟨rl, tl, ml, rr, tr, mr, s1, s2, c1, c2, h1, h2, rfl, _, rfl⟩ := binRun_ok (check1_ok (check1_ok h))
    exact ⟨1, .inr rfl, .inr ⟨_, _, rfl, _, _, rfl, safe_append (safe_materialize h1) (safe_materialize h2),
      by simp [Closed, joff, reg2bool], fun m st => ⟨_, exec_oror m _ _ st, by rw [set_same]; exact ite_cases _⟩, .inr ⟨rfl, rfl⟩⟩⟩

theorem safe_of_res {v : Val} {c : List Insn} {x : BitVec 64} (h : BoolRes v c x) : Safe c := by
  rcases h with ⟨_, _, h⟩ | ⟨_, _, _, h⟩
  · exact h
  · exact safe_of_bool h

theorem binVals_ok {o : Opts} {op : Bop} {l0 r0 : Val} {s s' : CSt} {v : Val} {c : List Insn}
    (h : binVals o op l0 r0 s = .ok (v, s', c)) :
    ∃ l r, resolveEnums o l0 r0 s = .ok ((l, r), s, []) ∧
      (match op with
        | .add => addVals o l r
        | .sub => subVals o l r
        | .mul => mulVals o l r
        | .div => divVals o l r
        | .mod => modVals o l r
        | .and => bitVals o .and l r
        | .or => bitVals o .or l r
        | .xor => bitVals o .xor l r
        | .lsh => shiftVals o true l r
        | .rsh => shiftVals o false l r
        | .eq => cmpVals o .eq l r
        | .ne => cmpVals o .ne l r
        | .lt => cmpVals o .lt l r
        | .le => cmpVals o .le l r
        | .gt => cmpVals o .gt l r
        | .ge => cmpVals o .ge l r
        | .andand => andandVals o l r
        | .oror => ororVals o l r) s = .ok (v, s', c) := by
  obtain ⟨⟨l, r⟩, s1, c1, c2, h1, h2, rfl⟩ := bind_ok h
  obtain ⟨rfl, rfl⟩ := resolveEnums_ok h1
  exact ⟨l, r, h1, h2⟩

theorem safe_binVals {o : Opts} {op : Bop} {l r : Val} {s s' : CSt} {v : Val} {c : List Insn}
    (h : binVals o op l r s = .ok (v, s', c)) : Safe c := by
  obtain ⟨l, r, _, h⟩ := binVals_ok h
  cases op with
  | add => exact safe_addVals h
  | sub => exact safe_subVals h
  | mul => exact safe_mulVals h
  | div => exact safe_divVals h
  | mod => exact safe_modVals h
  | and => exact safe_bitVals h
  | or => exact safe_bitVals h
  | xor => exact safe_bitVals h
  | lsh => exact safe_shiftVals h
  | rsh => exact safe_shiftVals h
  | eq => exact safe_of_res (bool_cmpVals h)
  | ne => exact safe_of_res (bool_cmpVals h)
  | lt => exact safe_of_res (bool_cmpVals h)
  | le => exact safe_of_res (bool_cmpVals h)
  | gt => exact safe_of_res (bool_cmpVals h)
  | ge => exact safe_of_res (bool_cmpVals h)
  | andand => exact safe_of_res (bool_andand h)
  | oror => obtain ⟨x, _, hx⟩ := bool_oror h; exact safe_of_res hx

theorem bool_not {o : Opts} {x : Val} {s s' : CSt} {v : Val} {c : List Insn}
    (h : unVals o .not x s = .ok (v, s', c)) : BoolRes v c 0 := by
  unfold unVals at h
  cases x with
  | const n t => obtain ⟨rfl, _, rfl⟩ := pure_ok h; exact .inl ⟨_, rfl, safe_nil⟩
  | pend b offs t m =>
    obtain ⟨rr, t, mm, c1, h1, rfl, rfl⟩ := unRun_ok h
    exact .inr ⟨_, _, rfl, bool_cmpImm (safe_materialize h1) _ _ _⟩
  | mat r t m =>
    obtain ⟨rr, t, mm, c1, h1, rfl, rfl⟩ := unRun_ok h
    exact .inr ⟨_, _, rfl, bool_cmpImm (safe_materialize h1) _ _ _⟩
  | enumMaybe s t =>
    obtain ⟨rr, t, mm, c1, h1, rfl, rfl⟩ := unRun_ok h
    exact .inr ⟨_, _, rfl, bool_cmpImm (safe_materialize h1) _ _ _⟩

theorem safe_unVals {o : Opts} {op : Uop} {x : Val} {s s' : CSt} {v : Val} {c : List Insn}
    (h : unVals o op x s = .ok (v, s', c)) : Safe c := by
  cases op with
  | not => exact safe_of_res (bool_not h)
  | paren => obtain ⟨_, _, rfl⟩ := pure_ok h; exact safe_nil
  | plus => obtain ⟨_, _, rfl⟩ := pure_ok h; exact safe_nil
  | minus =>
    unfold unVals at h
    cases x with
    | const n t => obtain ⟨_, _, rfl⟩ := pure_ok h; exact safe_nil
    | _ => exact safe_unRun h fun _ => safe_plain (by simp [plain])
  | twid =>
    unfold unVals at h
    cases x with
    | const n t => obtain ⟨_, _, rfl⟩ := pure_ok h; exact safe_nil
    | _ => exact safe_unRun (check1_ok h) fun _ => safe_plain (by simp [plain])
  | preinc =>
    unfold unVals at h
    cases x with
    | const n t => obtain ⟨_, _, rfl⟩ := pure_ok h; exact safe_nil
    | _ => exact safe_unRun h fun _ => safe_plain (by simp [plain])
  | predec =>
    unfold unVals at h
    cases x with
    | const n t => obtain ⟨_, _, rfl⟩ := pure_ok h; exact safe_nil
    | _ => exact safe_unRun h fun _ => safe_plain (by simp [plain])

/-- One arm: nothing but its value. -/
theorem condArm_ok {o : Opts} {rc : Nat} {x : Val} {s s' : CSt} {u : Unit} {c : List Insn}
    (h : condArm o rc x s = .ok (u, s', c)) :
    (∃ n t, x = .const n t ∧ s' = s ∧ c = [.movImm rc n]) ∨
    (∃ r t m s1 c1, materialize o x s = .ok ((r, t, m), s1, c1) ∧ s' = { s1 with used := free s1.used r } ∧
      c = c1 ++ [.movReg rc r] ∧ ∀ n t, x ≠ .const n t) := by
  have key : ∀ y : Val, (∀ n t, y ≠ .const n t) → y = x →
      ((do let (r, _, _) ← materialize o y; emit [.movReg rc r]; freeM r) : CM Unit) s = .ok (u, s', c) →
      (∃ r t m s1 c1, materialize o x s = .ok ((r, t, m), s1, c1) ∧ s' = { s1 with used := free s1.used r } ∧
        c = c1 ++ [.movReg rc r] ∧ ∀ n t, x ≠ .const n t) := by
    rintro y hy rfl h
    obtain ⟨⟨r, t, m⟩, s1, c1, c2, h1, h2, rfl⟩ := bind_ok h
    obtain ⟨_, s3, c3, c4, h3, h4, rfl⟩ := bind_ok h2
    obtain ⟨rfl, rfl⟩ := emit_ok h3
    obtain ⟨rfl, rfl⟩ := freeM_ok h4
    exact ⟨r, t, m, _, c1, h1, rfl, by simp, hy⟩
  cases x with
  | const n t => obtain ⟨rfl, rfl⟩ := emit_ok h; exact .inl ⟨n, t, rfl, rfl, rfl⟩
  | pend b offs t m => exact .inr (key _ (by simp) rfl h)
  | mat r t m => exact .inr (key _ (by simp) rfl h)
  | enumMaybe s t => exact .inr (key _ (by simp) rfl h)

theorem safe_condArm {o : Opts} {rc : Nat} {x : Val} {s s' : CSt} {u : Unit} {c : List Insn}
    (h : condArm o rc x s = .ok (u, s', c)) : Safe c := by
  rcases condArm_ok h with ⟨n, t, _, _, rfl⟩ | ⟨r, t, m, s1, c1, h1, _, rfl, _⟩
  · exact safe_plain (by simp [plain])
  · exact safe_append (safe_materialize h1) (safe_plain (by simp [plain]))

/-- The code of a conditional expression after its condition is in `rc`. -/
def condCode (rc : Nat) (cl cr : List Insn) : List Insn :=
  .jmpImm .eq rc 0 (cl.length + 1) :: cl ++ .ja cr.length :: cr

theorem exec_cond_true {m : Mem} {rc : Nat} {cl cr : List Insn} {st : St} (hz : st.regs rc ≠ 0)
    (hf : Fits (condCode rc cl cr)) {out : Out} (h : exec m cl st = out)
    (ho : (∃ s, out = .done s) ∨ (∃ s, out = .exit s)) : exec m (condCode rc cl cr) st = out := by
  have hj : cr.length < 2 ^ 15 := hf (.ja cr.length) (by simp [condCode])
  have hl : cl.length + 1 < 2 ^ 15 := hf (.jmpImm .eq rc 0 (cl.length + 1)) (by simp [condCode])
  unfold condCode
  rw [List.cons_append, exec_seq (step_jmpImm m .eq rc 0 hl st false (cmp_eq0' hz))]
  rcases ho with ⟨s, rfl⟩ | ⟨s, rfl⟩
  · rw [exec_append_done h, exec_jump (step_ja m hj s)]
    exact execK_skip_end m cr s
  · exact exec_append_exit h

theorem exec_cond_false {m : Mem} {rc : Nat} {cl cr : List Insn} {st : St} (hz : st.regs rc = 0)
    (hf : Fits (condCode rc cl cr)) : exec m (condCode rc cl cr) st = exec m cr st := by
  have hj : cl.length + 1 < 2 ^ 15 := hf (.jmpImm .eq rc 0 (cl.length + 1)) (by simp [condCode])
  unfold condCode
  rw [List.cons_append, exec_jump (step_jmpImm m .eq rc 0 hj st true (cmp_eq0 hz))]
  have : cl ++ .ja cr.length :: cr = (cl ++ [.ja cr.length]) ++ cr := by simp
  rw [this]
  have hl : (cl ++ [Insn.ja cr.length]).length = cl.length + 1 := by simp
  rw [← hl]
  exact execK_skip m _ _ st

theorem safe_cond {rc : Nat} {cl cr : List Insn} (hl : Safe cl) (hr : Safe cr) :
    Safe (condCode rc cl cr) := by
  refine ⟨⟨by simp [joff], closed_append hl.1 ⟨by simp [joff], hr.1⟩⟩, ?_⟩
  intro hf m st
  have hfl : Fits cl := fun i hi => hf i (by simp [condCode, hi])
  have hfr : Fits cr := fun i hi => hf i (by simp [condCode, hi])
  by_cases hz : st.regs rc = 0
  · rw [exec_cond_false hz hf]; exact hr.2 hfr m st
  · rcases hl.2 hfl m st with ⟨s, h⟩ | ⟨s, h⟩
    · exact .inl ⟨s, exec_cond_true hz hf h (.inl ⟨s, rfl⟩)⟩
    · exact .inr ⟨s, exec_cond_true hz hf h (.inr ⟨s, rfl⟩)⟩

/-- `evaluateCond` with a run-time condition. -/
theorem condVals_ok {o : Opts} {x l r : Val} {s s' : CSt} {v : Val} {c : List Insn}
    (h : condVals o x l r s = .ok (v, s', c)) :
    (∃ n t, x = .const n t ∧ v = (if n ≠ 0 then l else r) ∧ s' = s ∧ c = []) ∨
    ((∀ n t, x ≠ .const n t) ∧ ∃ rc tc mc s1 c1 s2 cl cr, materialize o x s = .ok ((rc, tc, mc), s1, c1) ∧
      condArm o rc l s1 = .ok ((), s2, cl) ∧ condArm o rc r s2 = .ok ((), s', cr) ∧
      v = .mat rc tc none ∧ c = c1 ++ condCode rc cl cr) := by
  unfold condVals at h
  replace h := check1_ok (check1_ok (check1_ok h))
  have key : ∀ y : Val, (∀ n t, y ≠ .const n t) → y = x →
      ((do
        let (rc, tc, _) ← materialize o y
        let (_, cl) ← capture (condArm o rc l)
        let (_, cr) ← capture (condArm o rc r)
        emit (.jmpImm .eq rc 0 (cl.length + 1) :: cl ++ .ja cr.length :: cr)
        pure (.mat rc tc none)) : CM Val) s = .ok (v, s', c) →
      ((∀ n t, x ≠ .const n t) ∧ ∃ rc tc mc s1 c1 s2 cl cr, materialize o x s = .ok ((rc, tc, mc), s1, c1) ∧
        condArm o rc l s1 = .ok ((), s2, cl) ∧ condArm o rc r s2 = .ok ((), s', cr) ∧
        v = .mat rc tc none ∧ c = c1 ++ condCode rc cl cr) := by
    rintro y hy rfl h
    obtain ⟨⟨rc, tc, mc⟩, s1, c1, c2, h1, h2, rfl⟩ := bind_ok h
    obtain ⟨⟨⟨⟩, cl⟩, s3, c3, c4, h3, h4, rfl⟩ := bind_ok h2
    obtain ⟨h3', rfl⟩ := capture_ok h3
    obtain ⟨⟨⟨⟩, cr⟩, s5, c5, c6, h5, h6, rfl⟩ := bind_ok h4
    obtain ⟨h5', rfl⟩ := capture_ok h5
    obtain ⟨_, s7, c7, c8, h7, h8, rfl⟩ := bind_ok h6
    obtain ⟨rfl, rfl⟩ := emit_ok h7
    obtain ⟨rfl, rfl, rfl⟩ := pure_ok h8
    exact ⟨hy, rc, tc, mc, s1, c1, s3, cl, cr, h1, h3', h5', rfl, by simp [condCode]⟩
  cases x with
  | const n t =>
    obtain ⟨rfl, rfl, rfl⟩ := pure_ok h
    exact .inl ⟨n, t, rfl, rfl, rfl, rfl⟩
  | pend b offs t m => exact .inr (key _ (by simp) rfl h)
  | mat r t m => exact .inr (key _ (by simp) rfl h)
  | enumMaybe s t => exact .inr (key _ (by simp) rfl h)

theorem safe_condVals {o : Opts} {x l r : Val} {s s' : CSt} {v : Val} {c : List Insn}
    (h : condVals o x l r s = .ok (v, s', c)) : Safe c := by
  rcases condVals_ok h with ⟨_, _, _, _, _, rfl⟩ | ⟨_, rc, tc, mc, s1, c1, s2, cl, cr, h1, h2, h3, _, rfl⟩
  · exact safe_nil
  · exact safe_append (safe_materialize h1) (safe_cond (safe_condArm h2) (safe_condArm h3))

/-! ### Evaluation -/

theorem accessMember_nil {o : Opts} {b : Val} {f : String} {arrow : Bool} {s s' : CSt} {v : Val}
    {c : List Insn} (h : accessMember o b f arrow s = .ok (v, s', c)) : c = [] ∧ s' = s := by
  have fin : ∀ {v0 : Val}, (pure v0 : CM Val) s = .ok (v, s', c) → c = [] ∧ s' = s := by
    intro v0 h; obtain ⟨_, h1, h2⟩ := pure_ok h; exact ⟨h2, h1⟩
  have rej : ∀ {P : Prop}, (reject : CM Val) s = .ok (v, s', c) → P := fun h => (reject_ok h).elim
  unfold accessMember at h
  split at h
  · exact rej h
  · dsimp only at h
    generalize hT : (if arrow = true then match o.Γ.kindO b.ty with
      | .ptr t => some (o.Γ.kindOf t) | _ => none else some (o.Γ.kindO b.ty)) = T at h
    cases T with
    | none => exact rej h
    | some k =>
      cases k with
      | comp id =>
        simp only at h
        cases hm : o.Γ.member id f with
        | none => simp only [hm] at h; exact rej h
        | some mem =>
          simp only [hm] at h
          cases b with
          | pend b offs t m =>
            simp only at h
            split at h
            · split at h
              · exact rej h
              · exact fin h
            · exact fin h
          | mat r t m =>
            simp only at h
            split at h
            · exact rej h
            · exact fin h
          | const => exact rej h
          | enumMaybe => exact rej h
      | _ => exact rej h

theorem evaluateIndex_nil {o : Opts} {b : Val} {i : Expr} {s s' : CSt} {v : Val}
    {c : List Insn} (h : evaluateIndex o b i s = .ok (v, s', c)) : c = [] ∧ s' = s := by
  have fin : ∀ {v0 : Val}, (pure v0 : CM Val) s = .ok (v, s', c) → c = [] ∧ s' = s := by
    intro v0 h; obtain ⟨_, h1, h2⟩ := pure_ok h; exact ⟨h2, h1⟩
  have rej : ∀ {P : Prop}, (reject : CM Val) s = .ok (v, s', c) → P := fun h => (reject_ok h).elim
  unfold evaluateIndex at h
  split at h
  · exact rej h
  · cases i with
    | num text =>
      simp only at h
      cases hn : parseNumber text with
      | none => simp only [hn] at h; exact rej h
      | some n =>
        simp only [hn] at h
        cases hk : o.Γ.kindO b.ty with
        | ptr t =>
          simp only [hk] at h
          split at h
          · exact rej h
          · cases b with
            | pend b offs t m => exact fin h
            | mat r t m => exact fin h
            | const => exact rej h
            | enumMaybe => exact rej h
        | array t =>
          simp only [hk] at h
          split at h
          · exact rej h
          · cases b with
            | pend b offs t m => exact fin h
            | mat r t m => exact fin h
            | const => exact rej h
            | enumMaybe => exact rej h
        | _ => simp only [hk] at h; exact rej h
    | _ => exact rej h

theorem evaluateIndir_nil {o : Opts} {b : Val} {s s' : CSt} {v : Val}
    {c : List Insn} (h : evaluateIndir o b s = .ok (v, s', c)) : c = [] ∧ s' = s := by
  have fin : ∀ {v0 : Val}, (pure v0 : CM Val) s = .ok (v, s', c) → c = [] ∧ s' = s := by
    intro v0 h; obtain ⟨_, h1, h2⟩ := pure_ok h; exact ⟨h2, h1⟩
  have rej : ∀ {P : Prop}, (reject : CM Val) s = .ok (v, s', c) → P := fun h => (reject_ok h).elim
  unfold evaluateIndir at h
  split at h
  · exact rej h
  · cases hk : o.Γ.kindO b.ty with
    | ptr t =>
      simp only [hk] at h
      cases b with
      | pend b offs t m => exact fin h
      | mat r t m => exact fin h
      | const => exact rej h
      | enumMaybe => exact rej h
    | _ => simp only [hk] at h; exact rej h

theorem evaluateAddr_nil {b : Val} {s s' : CSt} {v : Val}
    {c : List Insn} (h : evaluateAddr b s = .ok (v, s', c)) : c = [] ∧ s' = s := by
  unfold evaluateAddr at h
  cases b with
  | pend b offs t m =>
    simp only at h
    split at h
    · exact (reject_ok h).elim
    · obtain ⟨_, h1, h2⟩ := pure_ok h; exact ⟨h2, h1⟩
  | mat r t m => exact (reject_ok h).elim
  | const => exact (reject_ok h).elim
  | enumMaybe => exact (reject_ok h).elim

/-- The two forms of a cast. -/
theorem evaluate_cast {o : Opts} {t : Option Ty} {e : Expr} {s s' : CSt} {v : Val} {c : List Insn}
    (h : evaluate o (.cast t e) s = .ok (v, s', c)) :
    (∃ text n ty, e = .num text ∧ parseUnsigned text = some n ∧ t = some ty ∧ s' = s ∧ c = [] ∧
      v = .pend (if BitVec.ofNat 64 n = 0 then .reg 0 else .uptr (BitVec.ofNat 64 n)) [] ty none) ∨
    ((∀ text, e ≠ .num text) ∧ ∃ v0 ty, evaluate o e s = .ok (v0, s', c) ∧ t = some ty ∧ v = castVal ty v0) := by
  have key : (∀ text, e ≠ .num text) → ∀ {f : Val → CM Val},
      (∀ x s, f x s = (match t with | none => reject | some t => pure (castVal t x) : CM Val) s) →
      (evaluate o e >>= f) s = .ok (v, s', c) →
      ((∀ text, e ≠ .num text) ∧ ∃ v0 ty, evaluate o e s = .ok (v0, s', c) ∧ t = some ty ∧ v = castVal ty v0) := by
    intro hn f hf h
    obtain ⟨v0, s1, c1, c2, h1, h2, rfl⟩ := bind_ok h
    rw [hf] at h2
    cases t with
    | none => exact (reject_ok h2).elim
    | some ty =>
      obtain ⟨rfl, rfl, rfl⟩ := pure_ok h2
      exact ⟨hn, v0, ty, by simpa using h1, rfl, rfl⟩
  cases e with
  | num text =>
    left
    simp only [evaluate] at h
    cases hp : parseUnsigned text with
    | none => simp only [hp] at h; exact (reject_ok h).elim
    | some n =>
      cases t with
      | none => simp only [hp] at h; exact (reject_ok h).elim
      | some ty =>
        simp only [hp, castLit] at h
        split at h
        · rename_i hz
          obtain ⟨rfl, rfl, rfl⟩ := pure_ok h
          exact ⟨text, n, ty, rfl, hp, rfl, rfl, rfl, by rw [if_pos hz]⟩
        · rename_i hz
          obtain ⟨rfl, rfl, rfl⟩ := pure_ok h
          exact ⟨text, n, ty, rfl, hp, rfl, rfl, rfl, by rw [if_neg hz]⟩
  | _ => exact .inr (key (by simp) (fun x s => by cases t <;> rfl) h)

/-- All code emitted for an expression is safe. -/
theorem safe_evaluate {o : Opts} : ∀ {e : Expr} {s s' : CSt} {v : Val} {c : List Insn},
    evaluate o e s = .ok (v, s', c) → Safe c := by
  intro e
  induction e with
  | name n => intro s s' v c h; obtain ⟨_, _, rfl⟩ := pure_ok h; exact safe_nil
  | num text =>
    intro s s' v c h
    simp only [evaluate] at h
    cases hp : parseNumber text with
    | none => simp only [hp] at h; exact (reject_ok h).elim
    | some n => simp only [hp] at h; obtain ⟨_, _, rfl⟩ := pure_ok h; exact safe_nil
  | arrow e f ih =>
    intro s s' v c h
    simp only [evaluate] at h
    obtain ⟨b, s1, c1, c2, h1, h2, rfl⟩ := bind_ok h
    obtain ⟨rfl, _⟩ := accessMember_nil h2
    exact safe_append (ih h1) safe_nil
  | dot e f ih =>
    intro s s' v c h
    simp only [evaluate] at h
    obtain ⟨b, s1, c1, c2, h1, h2, rfl⟩ := bind_ok h
    obtain ⟨rfl, _⟩ := accessMember_nil h2
    exact safe_append (ih h1) safe_nil
  | index e i ih _ =>
    intro s s' v c h
    simp only [evaluate] at h
    obtain ⟨b, s1, c1, c2, h1, h2, rfl⟩ := bind_ok h
    obtain ⟨rfl, _⟩ := evaluateIndex_nil h2
    exact safe_append (ih h1) safe_nil
  | indir e ih =>
    intro s s' v c h
    simp only [evaluate] at h
    obtain ⟨b, s1, c1, c2, h1, h2, rfl⟩ := bind_ok h
    obtain ⟨rfl, _⟩ := evaluateIndir_nil h2
    exact safe_append (ih h1) safe_nil
  | addr e ih =>
    intro s s' v c h
    simp only [evaluate] at h
    obtain ⟨b, s1, c1, c2, h1, h2, rfl⟩ := bind_ok h
    obtain ⟨rfl, _⟩ := evaluateAddr_nil h2
    exact safe_append (ih h1) safe_nil
  | cast t e ih =>
    intro s s' v c h
    rcases evaluate_cast h with ⟨_, _, _, _, _, _, _, rfl, _⟩ | ⟨_, v0, ty, h1, _, _⟩
    · exact safe_nil
    · exact ih h1
  | un op e ih =>
    intro s s' v c h
    simp only [evaluate] at h
    obtain ⟨b, s1, c1, c2, h1, h2, rfl⟩ := bind_ok h
    exact safe_append (ih h1) (safe_unVals h2)
  | bin op l r ihl ihr =>
    intro s s' v c h
    simp only [evaluate] at h
    obtain ⟨a, s1, c1, c2, h1, h2, rfl⟩ := bind_ok h
    obtain ⟨b, s3, c3, c4, h3, h4, rfl⟩ := bind_ok h2
    exact safe_append (ihl h1) (safe_append (ihr h3) (safe_binVals h4))
  | cond x l r ihx ihl ihr =>
    intro s s' v c h
    simp only [evaluate] at h
    obtain ⟨a, s1, c1, c2, h1, h2, rfl⟩ := bind_ok h
    obtain ⟨b, s3, c3, c4, h3, h4, rfl⟩ := bind_ok h2
    obtain ⟨d, s5, c5, c6, h5, h6, rfl⟩ := bind_ok h4
    exact safe_append (ihx h1) (safe_append (ihl h3) (safe_append (ihr h5) (safe_condVals h6)))
  | unsup => intro s s' v c h; exact (reject_ok h).elim

/-- Extend the safe part of a truth-value block. -/
theorem bool_append {a b : List Insn} {r : Nat} {x : BitVec 64} (ha : Safe a) (h : BoolCode b r x) :
    BoolCode (a ++ b) r x := by
  obtain ⟨p, q, rfl, hp, hq⟩ := h
  exact ⟨a ++ p, q, by simp, safe_append ha hp, hq⟩

/-- The value of an accepted filter expression: a constant, or a register holding 0 or 1. The exit label
gives 0 except for `||`. -/
theorem bool_evaluate {o : Opts} {e : Expr} (ht : topOp e = true) {s s' : CSt} {v : Val} {c : List Insn}
    (h : evaluate o e s = .ok (v, s', c)) :
    ∃ x, (x = 0 ∨ (x = 1 ∧ ∃ l r, e = .bin .oror l r)) ∧
      ((∃ n, v = .const n none) ∨ ∃ r t, v = .mat r t none ∧ BoolCode c r x) := by
  have fin : ∀ {a b : List Insn} {x : BitVec 64}, Safe a → BoolRes v b x →
      ((∃ n, v = .const n none) ∨ ∃ r t, v = .mat r t none ∧ BoolCode (a ++ b) r x) := by
    intro a b x ha hb
    rcases hb with ⟨n, hn, _⟩ | ⟨r, t, hv, hc⟩
    · exact .inl ⟨n, hn⟩
    · exact .inr ⟨r, t, hv, bool_append ha hc⟩
  cases e with
  | un op e =>
    cases op with
    | not =>
      simp only [evaluate] at h
      obtain ⟨b, s1, c1, c2, h1, h2, rfl⟩ := bind_ok h
      exact ⟨0, .inl rfl, fin (safe_evaluate h1) (bool_not h2)⟩
    | _ => simp [topOp] at ht
  | bin op l r =>
    simp only [evaluate] at h
    obtain ⟨a, s1, c1, c2, h1, h2, rfl⟩ := bind_ok h
    obtain ⟨b, s3, c3, c4, h3, h4, rfl⟩ := bind_ok h2
    obtain ⟨l', r', _, h5⟩ := binVals_ok h4
    have hs := safe_append (safe_evaluate h1) (safe_evaluate h3)
    rw [← List.append_assoc]
    cases op with
    | eq => exact ⟨0, .inl rfl, fin hs (bool_cmpVals h5)⟩
    | ne => exact ⟨0, .inl rfl, fin hs (bool_cmpVals h5)⟩
    | lt => exact ⟨0, .inl rfl, fin hs (bool_cmpVals h5)⟩
    | le => exact ⟨0, .inl rfl, fin hs (bool_cmpVals h5)⟩
    | gt => exact ⟨0, .inl rfl, fin hs (bool_cmpVals h5)⟩
    | ge => exact ⟨0, .inl rfl, fin hs (bool_cmpVals h5)⟩
    | andand => exact ⟨0, .inl rfl, fin hs (bool_andand h5)⟩
    | oror =>
      obtain ⟨x, hx, hb⟩ := bool_oror h5
      refine ⟨x, ?_, fin hs hb⟩
      rcases hx with hx | hx
      · exact .inl hx
      · exact .inr ⟨hx, _, _, rfl⟩
    | _ => simp [topOp] at ht
  | _ => simp [topOp] at ht

end Bpfsnoop.Cc
