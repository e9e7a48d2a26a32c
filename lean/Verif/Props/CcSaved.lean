import Verif.Props.CcViolate
/-
C11, second half: the registers saved around helper calls. When the caller-saved registers in use are R1 to Rk (and perhaps
R0), every register in use but the one read into keeps its value, and the stack
reserved by the caller is not touched. (Otherwise they are not: `live_values_lost_probe_violated`.)
-/
namespace Bpfsnoop.Cc

/-- The caller-saved registers in use are the first `k`. -/
def Prefix (u : Regs) (k : Nat) : Prop := ∀ r, 1 ≤ r → r ≤ 5 → (u r = true ↔ r ≤ k)

theorem usedNr_prefix_aux (u : Regs) (k : Nat) (h : Prefix u k) : ∀ n, n ≤ 5 → usedNr u n = min n k := by
  intro n
  induction n with
  | zero => intro _; simp [usedNr]
  | succ n ih =>
    intro hn
    have ih' := ih (by omega)
    unfold usedNr at ih' ⊢
    rw [List.range_succ, List.filter_append, List.length_append, ih']
    have h1 := h (1 + n) (by omega) (by omega)
    by_cases hk : 1 + n ≤ k
    · have ht : u (1 + n) = true := h1.2 hk
      simp only [List.filter_cons, ht, if_true, List.filter_nil, List.length_singleton]
      omega
    · have hf : u (1 + n) = false := by
        cases hu : u (1 + n) with
        | false => rfl
        | true => exact absurd (h1.1 hu) hk
      simp only [List.filter_cons, hf, Bool.false_eq_true, if_false, List.filter_nil, List.length_nil]
      omega

theorem usedNr_prefix {u : Regs} {k n : Nat} (h : Prefix u k) (hk : k ≤ n) (hn : n ≤ 5) : usedNr u n = k := by
  rw [usedNr_prefix_aux u k h n hn]
  omega

/-- Instructions between saving and restoring: they write `reg` and R0 to R5 only, and the stack only at -8. -/
def midI (reg : Nat) : Insn → Bool
  | .movImm d _ | .movReg d _ | .aluImm _ d _ | .aluReg _ d _ | .neg d | .ldx d _ _ _ | .ldStack d _ => d ≤ 5 || d == reg
  | .jexit _ | .callProbe | .callCast => true
  | _ => false

/-- Instructions that write `reg` only. -/
def onlyI (reg : Nat) : Insn → Bool
  | .aluImm _ d _ | .ldx d _ _ _ => d == reg
  | .jexit _ => true
  | _ => false

theorem clobber_hi (st : St) {n r : Nat} (h : n < r) : (st.clobber n).regs r = st.regs r := by
  simp only [St.clobber]
  rw [if_neg (by omega)]

theorem set_other (st : St) {d r : Nat} (v : BitVec 64) (h : r ≠ d) : (st.set d v).regs r = st.regs r := by
  simp only [St.set]
  rw [if_neg h]

/-- One such instruction. -/
theorem midI_step {m : Mem} {reg : Nat} {i : Insn} {st : St} (h : midI reg i = true) :
    (∃ st', stepI m i st = .seq st' ∧ (∀ r, 5 < r → r ≠ reg → st'.regs r = st.regs r) ∧
      (∀ o, o ≠ -8 → st'.stack o = st.stack o)) ∨ (∃ st', stepI m i st = .label st') ∨ stepI m i st = .stuck := by
  have hd : ∀ d r : Nat, (d ≤ 5 || d == reg) = true → 5 < r → r ≠ reg → r ≠ d := by
    intro d r h1 h2 h3
    simp only [Bool.or_eq_true, decide_eq_true_eq, beq_iff_eq] at h1
    omega
  cases i with
  | movImm d k => exact .inl ⟨_, rfl, fun r h1 h2 => set_other _ _ (hd d r h h1 h2), fun _ _ => rfl⟩
  | movReg d k => exact .inl ⟨_, rfl, fun r h1 h2 => set_other _ _ (hd d r h h1 h2), fun _ _ => rfl⟩
  | aluImm op d k => exact .inl ⟨_, rfl, fun r h1 h2 => set_other _ _ (hd d r h h1 h2), fun _ _ => rfl⟩
  | aluReg op d k => exact .inl ⟨_, rfl, fun r h1 h2 => set_other _ _ (hd d r h h1 h2), fun _ _ => rfl⟩
  | neg d => exact .inl ⟨_, rfl, fun r h1 h2 => set_other _ _ (hd d r h h1 h2), fun _ _ => rfl⟩
  | ldx d a b c => exact .inl ⟨_, rfl, fun r h1 h2 => set_other _ _ (hd d r h h1 h2), fun _ _ => rfl⟩
  | ldStack d a => exact .inl ⟨_, rfl, fun r h1 h2 => set_other _ _ (hd d r h h1 h2), fun _ _ => rfl⟩
  | jexit d =>
    simp only [stepI]
    split
    · exact .inr (.inl ⟨_, rfl⟩)
    · exact .inl ⟨_, rfl, fun _ _ _ => rfl, fun _ _ => rfl⟩
  | callProbe =>
    simp only [stepI]
    split
    · refine .inl ⟨_, rfl, fun r h1 _ => ?_, fun o ho => ?_⟩
      · exact clobber_hi st h1
      · simp only [if_neg ho]
    · exact .inr (.inr rfl)
  | callCast =>
    simp only [stepI]
    refine .inl ⟨_, rfl, fun r h1 _ => ?_, fun o _ => rfl⟩
    rw [set_other _ _ (by omega), clobber_hi st h1]
  | jmpImm _ _ _ _ => cases h
  | jmpReg _ _ _ _ => cases h
  | ja _ => cases h
  | stStack _ _ => cases h
  | ret => cases h

theorem mid_exec {m : Mem} {reg : Nat} : ∀ {c : List Insn} {c2 : List Insn} {st st' : St}, (∀ i ∈ c, midI reg i = true) →
    exec m (c ++ c2) st = .done st' →
    ∃ st1, exec m c2 st1 = .done st' ∧ (∀ r, 5 < r → r ≠ reg → st1.regs r = st.regs r) ∧
      (∀ o, o ≠ -8 → st1.stack o = st.stack o) := by
  intro c
  induction c with
  | nil => intro c2 st st' _ h; exact ⟨st, h, fun _ _ _ => rfl, fun _ _ => rfl⟩
  | cons i r ih =>
    intro c2 st st' hm h
    rcases midI_step (m := m) (st := st) (hm i List.mem_cons_self) with ⟨s1, h1, h2, h3⟩ | ⟨s1, h1⟩ | h1
    · rw [List.cons_append, exec_seq h1] at h
      obtain ⟨s2, g1, g2, g3⟩ := ih (fun j hj => hm j (List.mem_cons_of_mem _ hj)) h
      exact ⟨s2, g1, fun r a b => (g2 r a b).trans (h2 r a b), fun o a => (g3 o a).trans (h3 o a)⟩
    · simp only [exec, List.cons_append, execK, h1] at h; cases h
    · simp only [exec, List.cons_append, execK, h1] at h; cases h

/-- Storing registers. -/
theorem stores_exec {m : Mem} : ∀ {l : List (Int × Nat)} {st : St}, (l.map (·.1)).Nodup →
    ∃ st', exec m (l.map fun p => Insn.stStack p.1 p.2) st = .done st' ∧ st'.regs = st.regs ∧
      (∀ p ∈ l, st'.stack p.1 = st.regs p.2) ∧ (∀ o, o ∉ l.map (·.1) → st'.stack o = st.stack o) := by
  intro l
  induction l with
  | nil => intro st _; exact ⟨st, rfl, rfl, by simp, by simp⟩
  | cons p r ih =>
    intro st hn
    rw [List.map_cons, List.nodup_cons] at hn
    obtain ⟨st', h1, h2, h3, h4⟩ := ih (st := { st with stack := fun o => if o = p.1 then st.regs p.2 else st.stack o }) hn.2
    refine ⟨st', ?_, h2, ?_, ?_⟩
    · rw [List.map_cons, exec_seq (st' := { st with stack := fun o => if o = p.1 then st.regs p.2 else st.stack o }) rfl]
      exact h1
    · intro q hq
      rcases List.mem_cons.1 hq with rfl | hq
      · rw [h4 _ hn.1]; simp
      · exact h3 q hq
    · intro o ho
      rw [List.map_cons, List.mem_cons, not_or] at ho
      rw [h4 o ho.2]
      simp only [if_neg ho.1]

/-- Loading registers. -/
theorem loads_exec {m : Mem} : ∀ {l : List (Int × Nat)} {st : St}, (l.map (·.2)).Nodup →
    ∃ st', exec m (l.map fun p => Insn.ldStack p.2 p.1) st = .done st' ∧ st'.stack = st.stack ∧
      (∀ p ∈ l, st'.regs p.2 = st.stack p.1) ∧ (∀ r, r ∉ l.map (·.2) → st'.regs r = st.regs r) := by
  intro l
  induction l with
  | nil => intro st _; exact ⟨st, rfl, rfl, by simp, by simp⟩
  | cons p r ih =>
    intro st hn
    rw [List.map_cons, List.nodup_cons] at hn
    obtain ⟨st', h1, h2, h3, h4⟩ := ih (st := st.set p.2 (st.stack p.1)) hn.2
    refine ⟨st', ?_, h2, ?_, ?_⟩
    · rw [List.map_cons, exec_seq (st' := st.set p.2 (st.stack p.1)) rfl]
      exact h1
    · intro q hq
      rcases List.mem_cons.1 hq with rfl | hq
      · rw [h4 _ hn.1]; simp [St.set]
      · exact h3 q hq
    · intro o ho
      rw [List.map_cons, List.mem_cons, not_or] at ho
      rw [h4 o ho.2, set_other _ _ ho.1]

/-- The slots: R1 to Rk, then R0. -/
def slots (o : Opts) (u : Regs) (k : Nat) : List (Int × Nat) :=
  ((List.range k).map fun i : Nat => (-((o.reserved : Int) + (k : Nat) * 8) + i * 8, 1 + i)) ++
  (if u 0 then [(-((o.reserved : Int) + (k : Nat) * 8) - 8, 0)] else [])

theorem mem_slots {o : Opts} {u : Regs} {k : Nat} {p : Int × Nat} (h : p ∈ slots o u k) :
    (∃ i, i < k ∧ p = (-((o.reserved : Int) + (k : Nat) * 8) + i * 8, 1 + i)) ∨
    (u 0 = true ∧ p = (-((o.reserved : Int) + (k : Nat) * 8) - 8, 0)) := by
  rw [slots, List.mem_append] at h
  rcases h with h | h
  · obtain ⟨i, hi, rfl⟩ := List.mem_map.1 h
    exact .inl ⟨i, List.mem_range.1 hi, rfl⟩
  · split at h
    · next h0 => exact .inr ⟨h0, List.mem_singleton.1 h⟩
    · cases h

theorem nodup_append_single {α : Type} {l : List α} {a : α} (h : l.Nodup) (ha : a ∉ l) : (l ++ [a]).Nodup := by
  rw [List.nodup_append]
  refine ⟨h, by simp, ?_⟩
  intro x hx y hy
  rw [List.mem_singleton.1 hy]
  rintro rfl
  exact ha hx

theorem nodup_map_range {α : Type} (f : Nat → α) (hf : ∀ i j, f i = f j → i = j) (k : Nat) : ((List.range k).map f).Nodup := by
  induction k with
  | zero => simp
  | succ k ih =>
    rw [List.range_succ, List.map_append]
    refine nodup_append_single ih ?_
    rintro h
    obtain ⟨i, hi, he⟩ := List.mem_map.1 h
    rw [hf _ _ he] at hi
    exact absurd (List.mem_range.1 hi) (by omega)

theorem slots_nodup (o : Opts) (u : Regs) (k : Nat) : ((slots o u k).map (·.1)).Nodup ∧ ((slots o u k).map (·.2)).Nodup := by
  unfold slots
  constructor
  · rw [List.map_append, List.map_map]
    have h1 := nodup_map_range (fun i : Nat => -((o.reserved : Int) + (k : Nat) * 8) + (i : Int) * 8) (by intro i j h; omega) k
    split
    · refine nodup_append_single h1 ?_
      intro h
      obtain ⟨i, _, he⟩ := List.mem_map.1 h
      simp only [Function.comp] at he
      omega
    · rw [List.map_nil, List.append_nil]
      exact h1
  · rw [List.map_append, List.map_map]
    have h1 := nodup_map_range (fun i : Nat => 1 + i) (by intro i j h; omega) k
    split
    · refine nodup_append_single h1 ?_
      intro h
      obtain ⟨i, _, he⟩ := List.mem_map.1 h
      simp only [Function.comp] at he
      omega
    · rw [List.map_nil, List.append_nil]
      exact h1

/-- The emitted code: stores (R0 first), the middle, loads (R0 last). -/
theorem saved_run {o : Opts} {u : Regs} {k reg : Nat} {m : Mem} {mid : List Insn} {st st' : St}
    (hmid : ∀ i ∈ mid, midI reg i = true) (hres : 8 ≤ o.reserved)
    (hrun : exec m ((((if u 0 then [Insn.stStack (-((o.reserved : Int) + (k : Nat) * 8) - 8) 0] else []) ++
      (List.range k).map fun i : Nat => Insn.stStack (-((o.reserved : Int) + (k : Nat) * 8) + i * 8) (1 + i)) ++ mid) ++
      (((List.range k).map fun i : Nat => Insn.ldStack (1 + i) (-((o.reserved : Int) + (k : Nat) * 8) + i * 8)) ++
      (if u 0 then [Insn.ldStack 0 (-((o.reserved : Int) + (k : Nat) * 8) - 8)] else []))) st = .done st') :
    (∀ r, (1 ≤ r ∧ r ≤ k) ∨ (r = 0 ∧ u 0 = true) ∨ (5 < r ∧ r ≠ reg ∧ k ≤ 5) → st'.regs r = st.regs r) ∧
    (∀ a : Int, -(o.reserved : Int) ≤ a → a ≠ -8 → st'.stack a = st.stack a) := by
  -- the stores, with the same slots in another order
  have hst : ∃ s1, exec m ((if u 0 then [Insn.stStack (-((o.reserved : Int) + (k : Nat) * 8) - 8) 0] else []) ++
      (List.range k).map fun i : Nat => Insn.stStack (-((o.reserved : Int) + (k : Nat) * 8) + i * 8) (1 + i)) st = .done s1 ∧
      s1.regs = st.regs ∧ (∀ p ∈ slots o u k, s1.stack p.1 = st.regs p.2) ∧
      (∀ a, a ∉ (slots o u k).map (·.1) → s1.stack a = st.stack a) := by
    let l : List (Int × Nat) := (if u 0 then [(-((o.reserved : Int) + (k : Nat) * 8) - 8, 0)] else []) ++
      (List.range k).map fun i : Nat => (-((o.reserved : Int) + (k : Nat) * 8) + i * 8, 1 + i)
    have hperm : l.Perm (slots o u k) := List.perm_append_comm
    have hn : (l.map (·.1)).Nodup := (hperm.map _).nodup_iff.2 (slots_nodup o u k).1
    obtain ⟨s1, h1, h2, h3, h4⟩ := stores_exec (m := m) (st := st) hn
    refine ⟨s1, ?_, h2, fun p hp => h3 p (hperm.mem_iff.2 hp), fun a ha => h4 a (fun h => ha ((hperm.map _).mem_iff.1 h))⟩
    have he : (l.map fun p => Insn.stStack p.1 p.2) = (if u 0 then [Insn.stStack (-((o.reserved : Int) + (k : Nat) * 8) - 8) 0] else []) ++
      (List.range k).map fun i : Nat => Insn.stStack (-((o.reserved : Int) + (k : Nat) * 8) + i * 8) (1 + i) := by
      simp only [l, List.map_append, List.map_map]
      congr 1
      split <;> rfl
    rw [← he]
    exact h1
  obtain ⟨s1, a1, a2, a3, a4⟩ := hst
  rw [List.append_assoc, exec_append_done a1] at hrun
  obtain ⟨s2, b1, b2, b3⟩ := mid_exec hmid hrun
  obtain ⟨s3, c1, c2, c3, c4⟩ := loads_exec (m := m) (st := s2) (slots_nodup o u k).2
  have he : ((slots o u k).map fun p => Insn.ldStack p.2 p.1) =
      ((List.range k).map fun i : Nat => Insn.ldStack (1 + i) (-((o.reserved : Int) + (k : Nat) * 8) + i * 8)) ++
      (if u 0 then [Insn.ldStack 0 (-((o.reserved : Int) + (k : Nat) * 8) - 8)] else []) := by
    simp only [slots, List.map_append, List.map_map]
    congr 1
    split <;> rfl
  rw [he] at c1
  rw [c1] at b1
  obtain rfl := Out.done.inj b1
  have hslot : ∀ p ∈ slots o u k, p.1 ≠ -8 ∧ p.1 < -(o.reserved : Int) := by
    intro p hp
    rcases mem_slots hp with ⟨i, hi, rfl⟩ | ⟨_, rfl⟩
    · constructor <;> simp only <;> omega
    · constructor <;> simp only <;> omega
  have hval : ∀ p ∈ slots o u k, s3.regs p.2 = st.regs p.2 := by
    intro p hp
    rw [c3 p hp, b3 _ (hslot p hp).1, a3 p hp]
  constructor
  · rintro r (⟨h1, h2⟩ | ⟨rfl, h0⟩ | ⟨h5, hne, hk⟩)
    · have := hval (-((o.reserved : Int) + (k : Nat) * 8) + ((r - 1 : Nat) : Int) * 8, 1 + (r - 1)) (by
        rw [slots, List.mem_append]
        exact .inl (List.mem_map.2 ⟨r - 1, List.mem_range.2 (by omega), rfl⟩))
      have hr : 1 + (r - 1) = r := by omega
      rw [hr] at this
      exact this
    · exact hval (-((o.reserved : Int) + (k : Nat) * 8) - 8, 0) (by
        rw [slots, List.mem_append, if_pos h0]
        exact .inr List.mem_cons_self)
    · rw [c4 r ?_, b2 r h5 hne, a2]
      intro h
      obtain ⟨p, hp, rfl⟩ := List.mem_map.1 h
      rcases mem_slots hp with ⟨i, hi, rfl⟩ | ⟨_, rfl⟩
      · simp only at h5; omega
      · simp at h5
  · intro a ha hne
    rw [c2, b3 a hne]
    apply a4
    intro h
    obtain ⟨p, hp, rfl⟩ := List.mem_map.1 h
    have := (hslot p hp).2
    omega

theorem probeLoop_mid (reg : Nat) : ∀ offs : List Off, ∀ i ∈ probeLoop reg offs, midI reg i = true := by
  have ho : ∀ (k : BitVec 64) (i : Insn), i ∈ addOff 3 k → midI reg i = true := by
    intro k i hi
    unfold addOff at hi
    split at hi
    · cases hi
    · rw [List.mem_singleton.1 hi]; rfl
  intro offs
  induction offs with
  | nil => intro i hi; cases hi
  | cons x r ih =>
    cases r with
    | nil =>
      intro i hi
      rw [probeLoop, List.mem_append] at hi
      rcases hi with hi | hi
      · exact ho _ _ hi
      · split at hi
        · split at hi
          · rw [List.mem_singleton.1 hi]; simp [midI]
          · cases hi
        · simp only [List.mem_cons, List.not_mem_nil, or_false] at hi
          rcases hi with rfl | rfl | rfl | rfl | rfl <;> simp [midI]
    | cons y r =>
      intro i hi
      rw [probeLoop, List.mem_append, List.mem_append] at hi
      rcases hi with (hi | hi) | hi
      · exact ho _ _ hi
      · split at hi
        · cases hi
        · simp only [List.mem_cons, List.not_mem_nil, or_false] at hi
          rcases hi with rfl | rfl | rfl | rfl | rfl | rfl <;> simp [midI]
      · exact ih i hi

theorem coreProbe_mid (reg : Nat) (last : Bool) : ∀ i ∈ coreProbe reg last, midI reg i = true := by
  intro i hi
  simp only [coreProbe, List.mem_cons, List.not_mem_nil, or_false] at hi
  rcases hi with rfl | rfl | rfl | rfl | rfl | rfl
  · rfl
  · rfl
  · rfl
  · rfl
  · rfl
  simp only [midI]
  by_cases h : (last && decide (reg ≠ 1)) = true
  · rw [if_pos h]; simp
  · rw [if_neg h]; simp

theorem coreStep_mid {o : Opts} {reg : Nat} {x : Off} {last : Bool} {s s2 : CSt} {u : Unit} {c : List Insn}
    (h : coreStep o reg x last s = .ok (u, s2, c)) : s2.used = s.used ∧ ∀ i ∈ c, midI reg i = true := by
  unfold coreStep at h
  split at h
  · obtain ⟨rfl, rfl⟩ := emit_ok h
    refine ⟨rfl, fun i hi => ?_⟩
    rw [List.mem_append] at hi
    rcases hi with hi | hi
    · unfold addOff at hi
      split at hi
      · cases hi
      · rw [List.mem_singleton.1 hi]; rfl
    · split at hi
      · rw [List.mem_singleton.1 hi]; simp [midI]
      · cases hi
  · cases hc : canRdonlyCast o.Γ x.prev with
    | none => rw [hc] at h; cases h
    | some z =>
      rw [hc] at h
      cases z with
      | none =>
        obtain ⟨rfl, rfl⟩ := emit_ok h
        exact ⟨rfl, coreProbe_mid reg last⟩
      | some id =>
        simp only at h
        cases hl : loadSize o.Γ x.ty with
        | none => rw [hl] at h; cases h
        | some size =>
          rw [hl] at h
          simp only at h
          split at h
          · obtain ⟨rfl, rfl⟩ := emit_ok h
            exact ⟨rfl, coreProbe_mid reg last⟩
          · split at h
            · obtain ⟨rfl, rfl⟩ := emit_ok h
              refine ⟨rfl, fun i hi => ?_⟩
              simp only [List.mem_append, List.mem_cons, List.not_mem_nil, or_false] at hi
              rcases hi with (rfl | rfl) | hi
              · rfl
              · rfl
              · split at hi
                · rw [List.mem_singleton.1 hi]; simp [midI]
                · cases hi
            · obtain ⟨_, s1, c1, c2, h1, h2, rfl⟩ := bind_ok h
              obtain ⟨rfl, rfl⟩ := useExit_ok h1
              obtain ⟨rfl, rfl⟩ := emit_ok h2
              refine ⟨rfl, fun i hi => ?_⟩
              simp only [List.nil_append, List.mem_cons, List.not_mem_nil, or_false] at hi
              rcases hi with rfl | rfl | rfl | rfl <;> rfl

theorem coreLoop_mid {o : Opts} {reg : Nat} : ∀ {offs : List Off} {s s2 : CSt} {u : Unit} {c : List Insn},
    coreLoop o reg offs s = .ok (u, s2, c) → s2.used = s.used ∧ ∀ i ∈ c, midI reg i = true := by
  intro offs
  induction offs with
  | nil =>
    intro s s2 u c h
    obtain ⟨_, rfl, rfl⟩ := pure_ok h
    exact ⟨rfl, fun i hi => by cases hi⟩
  | cons x r ih =>
    intro s s2 u c h
    obtain ⟨_, s1, c1, c2, h1, h2, rfl⟩ := bind_ok h
    obtain ⟨a1, a2⟩ := coreStep_mid h1
    obtain ⟨b1, b2⟩ := ih h2
    refine ⟨b1.trans a1, fun i hi => ?_⟩
    rcases List.mem_append.1 hi with hi | hi
    · exact a2 i hi
    · exact b2 i hi

/-- C11: reading through a chain of members keeps every register in use but the one read into, if those of R1 to R5 in use
are the first `k`, whatever the number of helper calls; and of the stack reserved by the caller only the
slot at -8 is written. -/
theorem saved_values_survive {o : Opts} {offs : List Off} {reg k : Nat} {s s' : CSt} {u : Unit} {c : List Insn} {m : Mem}
    {st st' : St} (h : emitOffsetChain o offs reg s = .ok (u, s', c)) (hk : Prefix s.used k)
    (hk5 : k ≤ if o.mode = .core ∧ o.fastcall = true then 2 else 5) (hres : 8 ≤ o.reserved)
    (hrun : exec m c st = .done st') :
    (∀ r, s.used r = true ∨ r = 10 → r ≠ reg → st'.regs r = st.regs r) ∧
    (∀ a : Int, -(o.reserved : Int) ≤ a → a ≠ -8 → st'.stack a = st.stack a) := by
  have hk5' : k ≤ 5 := by split at hk5 <;> omega
  -- registers in use are saved, or not caller-saved
  have hcase : ∀ r, s.used r = true ∨ r = 10 → r ≠ reg →
      (1 ≤ r ∧ r ≤ k) ∨ (r = 0 ∧ s.used 0 = true) ∨ (5 < r ∧ r ≠ reg ∧ k ≤ 5) := by
    intro r hr hne
    rcases Nat.lt_or_ge 5 r with h5 | h5
    · exact .inr (.inr ⟨h5, hne, hk5'⟩)
    · rcases hr with hr | rfl
      · cases r with
        | zero => exact .inr (.inl ⟨rfl, hr⟩)
        | succ r => exact .inl ⟨by omega, (hk (r + 1) (by omega) h5).1 hr⟩
      · omega
  -- code that writes only `reg` and stores nothing
  have hplain : (∀ i ∈ c, onlyI reg i = true) →
      (∀ r, s.used r = true ∨ r = 10 → r ≠ reg → st'.regs r = st.regs r) ∧
      (∀ a : Int, -(o.reserved : Int) ≤ a → a ≠ -8 → st'.stack a = st.stack a) := by
    intro hc
    have hgen : ∀ (c : List Insn) (st : St), (∀ i ∈ c, onlyI reg i = true) →
        exec m c st = .done st' → (∀ r, r ≠ reg → st'.regs r = st.regs r) ∧ st'.stack = st.stack := by
      intro c
      induction c with
      | nil => intro st _ h; obtain rfl := Out.done.inj h; exact ⟨fun _ _ => rfl, rfl⟩
      | cons i r ih =>
        intro st hc h
        have hi := hc i List.mem_cons_self
        have hr := fun j hj => hc j (List.mem_cons_of_mem _ hj)
        cases i with
        | aluImm op d x =>
          rw [exec_seq (st' := st.set d (aluEval op (st.regs d) (sx32 x))) rfl] at h
          obtain ⟨g1, g2⟩ := ih _ hr h
          have hd : d = reg := by simpa [onlyI] using hi
          exact ⟨fun r hne => by rw [g1 r hne, set_other _ _ (by omega)], g2⟩
        | ldx d a b z =>
          rw [exec_seq (st' := st.set d (load m z (st.regs a + sx16 b))) rfl] at h
          obtain ⟨g1, g2⟩ := ih _ hr h
          have hd : d = reg := by simpa [onlyI] using hi
          exact ⟨fun r hne => by rw [g1 r hne, set_other _ _ (by omega)], g2⟩
        | jexit d =>
          by_cases h0 : st.regs d = 0
          · simp only [exec, execK, stepI, if_pos h0] at h; cases h
          · rw [exec_seq (st' := st) (by simp only [stepI, if_neg h0])] at h
            exact ih _ hr h
        | _ => cases hi
    obtain ⟨g1, g2⟩ := hgen c st hc hrun
    exact ⟨fun r _ hne => g1 r hne, fun a _ _ => by rw [g2]⟩
  unfold emitOffsetChain at h
  split at h
  · obtain ⟨rfl, rfl⟩ := emit_ok h
    apply hplain
    intro i hi
    obtain ⟨x, _, hx⟩ := List.mem_flatMap.1 hi
    unfold addOff at hx
    split at hx
    · cases hx
    · rw [List.mem_singleton.1 hx]; simp [onlyI]
  · cases hm : o.mode with
    | core =>
      rw [hm] at h
      simp only at h
      obtain ⟨_, s1, c1, c2, h1, h2, rfl⟩ := bind_ok h
      obtain ⟨rfl, rfl⟩ := pushRegs_ok h1
      obtain ⟨_, s2, c3, c4, h3, h4, rfl⟩ := bind_ok h2
      obtain ⟨rfl, rfl⟩ := emit_ok h3
      obtain ⟨_, s3, c5, c6, h5, h6, rfl⟩ := bind_ok h4
      obtain ⟨e1, e2⟩ := coreLoop_mid h5
      obtain ⟨_, rfl⟩ := popRegs_ok h6
      rw [e1] at hrun
      have hn : (if o.fastcall then 2 else 5) ≤ 5 := by split <;> omega
      have hkn : k ≤ if o.fastcall then 2 else 5 := by
        rw [hm] at hk5
        simpa using hk5
      rw [usedNr_prefix hk hkn hn] at hrun
      rw [← List.append_assoc, ← List.append_assoc, List.append_assoc _ _ c5] at hrun
      refine ⟨fun r h1 h2 => (saved_run (reg := reg) ?_ hres hrun).1 r (hcase r h1 h2), (saved_run (reg := reg) ?_ hres hrun).2⟩ <;>
      · intro i hi
        rcases List.mem_append.1 hi with hi | hi
        · split at hi
          · rw [List.mem_singleton.1 hi]; rfl
          · cases hi
        · exact e2 i hi
    | direct =>
      rw [hm] at h
      simp only at h
      apply hplain
      obtain ⟨_, s1, c1, c2, h1, h2, rfl⟩ := bind_ok h
      obtain ⟨rfl, rfl⟩ := emit_ok h1
      have hc2 : c2 = [] := by
        unfold whenM at h2
        split at h2
        · exact (useExit_ok h2).2
        · exact (pure_ok h2).2.2
      subst hc2
      rw [List.append_nil]
      intro i hi
      have hgo : ∀ l : List Off, i ∈ directLoop reg l →
          onlyI reg i = true := by
        intro l
        induction l with
        | nil => intro hi; cases hi
        | cons x r ih =>
          have ho : i ∈ addOff reg x.off →
              onlyI reg i = true := by
            intro hi
            unfold addOff at hi
            split at hi
            · cases hi
            · rw [List.mem_singleton.1 hi]; simp [onlyI]
          cases r with
          | nil =>
            intro hi
            rw [directLoop] at hi
            split at hi
            · exact ho hi
            · rw [List.mem_singleton.1 hi]; simp [onlyI]
          | cons y r =>
            intro hi
            rw [directLoop, List.mem_append] at hi
            rcases hi with hi | hi
            · split at hi
              · exact ho hi
              · simp only [List.mem_cons, List.not_mem_nil, or_false] at hi
                rcases hi with rfl | rfl <;> simp [onlyI]
            · exact ih hi
      exact hgo _ hi
    | probe =>
      rw [hm] at h
      simp only at h
      obtain ⟨_, s1, c1, c2, h1, h2, rfl⟩ := bind_ok h
      obtain ⟨rfl, rfl⟩ := pushRegs_ok h1
      obtain ⟨_, s2, c3, c4, h3, h4, rfl⟩ := bind_ok h2
      obtain ⟨rfl, rfl⟩ := emit_ok h3
      obtain ⟨_, s3, c5, c6, h5, h6, rfl⟩ := bind_ok h4
      obtain ⟨rfl, rfl⟩ := emit_ok h5
      obtain ⟨_, s4, c7, c8, h7, h8, rfl⟩ := bind_ok h6
      have hw : s4.used = s3.used ∧ c7 = [] := by
        unfold whenM at h7
        split at h7
        · obtain ⟨rfl, rfl⟩ := useExit_ok h7; exact ⟨rfl, rfl⟩
        · obtain ⟨_, rfl, rfl⟩ := pure_ok h7; exact ⟨rfl, rfl⟩
      obtain ⟨e1, rfl⟩ := hw
      obtain ⟨_, rfl⟩ := popRegs_ok h8
      rw [e1] at hrun
      rw [usedNr_prefix hk hk5' (Nat.le_refl 5), List.nil_append] at hrun
      rw [← List.append_assoc, ← List.append_assoc, List.append_assoc _ _ (probeLoop reg offs)] at hrun
      refine ⟨fun r h1 h2 => (saved_run (reg := reg) ?_ hres hrun).1 r (hcase r h1 h2), (saved_run (reg := reg) ?_ hres hrun).2⟩ <;>
      · intro i hi
        rcases List.mem_append.1 hi with hi | hi
        · split at hi
          · rw [List.mem_singleton.1 hi]; rfl
          · cases hi
        · exact probeLoop_mid reg offs i hi

/-- With R1 and R2 in use, `p->next->a` is read with two helper calls. -/
theorem saved_values_witness :
    ∃ v s' c, emitOffsetChain (vOpts .probe) [⟨8, true, .ptr (.base 0), none⟩, ⟨4, true, .base 3, none⟩] 8
        { used := setReg (setReg (setReg noRegs 1 true) 2 true) 8 true, exitUsed := false } = .ok (v, s', c) ∧
      Prefix (setReg (setReg (setReg noRegs 1 true) 2 true) 8 true) 2 ∧
      c.count Insn.callProbe = 2 ∧ ∃ st', exec (fun _ => some 1) c vSt = .done st' := by
  refine ⟨_, _, _, rfl, ?_, by decide +kernel, ?_⟩
  · intro r h1 h5
    have : r = 1 ∨ r = 2 ∨ r = 3 ∨ r = 4 ∨ r = 5 := by omega
    rcases this with rfl | rfl | rfl | rfl | rfl <;> decide
  · exact ⟨_, rfl⟩

/-- C10 in core mode: what is loaded from a member is its low eight bytes, or all of it if it is smaller. -/
theorem core_load_width {Γ : Btf} {t : Ty} {n z : Nat} (h : loadSize Γ t = some n) (hz : Γ.sizeOf t = some z)
    (hs : z = 1 ∨ z = 2 ∨ z = 4 ∨ 8 ≤ z) : n = min z 8 := by
  rw [loadSize, hz] at h
  simp only [Option.map_some, Option.some.injEq] at h
  subst h
  split <;> omega

end Bpfsnoop.Cc
