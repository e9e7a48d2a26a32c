import Verif.Props.CcFilter
import Verif.Props.CcChain
import Verif.Props.CcFold

/-
C03: no division or remainder instruction is executed with a zero divisor.
-/
namespace Bpfsnoop.Cc

/-- The instruction divides by zero in this state. -/
def divZero (i : Insn) (st : St) : Prop :=
  match i with
  | .aluImm op _ k => (op = .div ∨ op = .mod) ∧ sx32 k = 0
  | .aluReg op _ q => (op = .div ∨ op = .mod) ∧ st.regs q = 0
  | _ => False

/-- No instruction executed by the block divides by zero. -/
def NoDiv (m : Mem) : List Insn → Nat → St → Prop
  | [], _, _ => True
  | _ :: r, k + 1, st => NoDiv m r k st
  | i :: r, 0, st => ¬ divZero i st ∧
    match stepI m i st with
    | .seq st' => NoDiv m r 0 st'
    | .jump off st' => NoDiv m r off st'
    | _ => True

theorem noDiv_append {m : Mem} {b : List Insn} : ∀ {a : List Insn} {k : Nat} {st : St}, Closed a → k ≤ a.length →
    NoDiv m a k st → (∀ st', execK m a k st = .done st' → NoDiv m b 0 st') → NoDiv m (a ++ b) k st := by
  intro a
  induction a with
  | nil =>
    intro k st _ hk _ h
    obtain rfl : k = 0 := by simpa using hk
    exact h st rfl
  | cons i r ih =>
    intro k st hc hk hn h
    cases k with
    | succ k => exact ih hc.2 (by simpa using hk) hn h
    | zero =>
      refine ⟨hn.1, ?_⟩
      have hn2 := hn.2
      simp only [execK] at h
      cases hs : stepI m i st with
      | seq st' =>
        simp only [hs] at hn2 h ⊢
        exact ih hc.2 (Nat.zero_le _) hn2 h
      | jump off st' =>
        simp only [hs] at hn2 h ⊢
        refine ih hc.2 ?_ hn2 h
        have hj := hc.1
        have : off = joff i := by
          cases i with
          | jmpImm c d k o2 =>
            simp only [stepI, jumpTo] at hs
            split at hs
            · split at hs
              · simp only [Next.jump.injEq] at hs; exact hs.1.symm
              · simp at hs
            · simp at hs
          | jmpReg c d q o2 =>
            simp only [stepI, jumpTo] at hs
            split at hs
            · split at hs
              · simp only [Next.jump.injEq] at hs; exact hs.1.symm
              · simp at hs
            · simp at hs
          | ja o2 =>
            simp only [stepI, jumpTo] at hs
            split at hs
            · simp only [Next.jump.injEq] at hs; exact hs.1.symm
            · simp at hs
          | jexit d => simp only [stepI] at hs; split at hs <;> simp at hs
          | callProbe => simp only [stepI] at hs; split at hs <;> simp at hs
          | _ => simp [stepI] at hs
        omega
      | _ => trivial

/-- Code that never divides by zero, if its immediates are encoded without loss. -/
def DivOK (c : List Insn) : Prop := Closed c ∧ (Exact c → ∀ m st, NoDiv m c 0 st)

theorem divOK_nil : DivOK [] := ⟨trivial, fun _ _ _ => trivial⟩

theorem divOK_append {a b : List Insn} (ha : DivOK a) (hb : DivOK b) : DivOK (a ++ b) := by
  refine ⟨closed_append ha.1 hb.1, fun he m st => ?_⟩
  rw [exact_append] at he
  exact noDiv_append ha.1 (Nat.zero_le _) (ha.2 he.1 m st) fun st' _ => hb.2 he.2 m st'

/-- Not a division or remainder. -/
def noDivI : Insn → Bool
  | .aluImm .div _ _ | .aluImm .mod _ _ | .aluReg .div _ _ | .aluReg .mod _ _ => false
  | _ => true

theorem not_divZero {i : Insn} (h : noDivI i = true) (st : St) : ¬ divZero i st := by
  cases i with
  | aluImm op d k => cases op <;> simp_all [divZero, noDivI]
  | aluReg op d q => cases op <;> simp_all [divZero, noDivI]
  | _ => simp [divZero]

theorem divOK_free {c : List Insn} (hc : Closed c) (h : ∀ i ∈ c, noDivI i = true) : DivOK c := by
  refine ⟨hc, fun _ m st => ?_⟩
  have : ∀ (c : List Insn), (∀ i ∈ c, noDivI i = true) → ∀ k st, NoDiv m c k st := by
    intro c
    induction c with
    | nil => intro _ k st; trivial
    | cons i r ih =>
      intro h k st
      have hr := ih fun j hj => h j (List.mem_cons_of_mem _ hj)
      cases k with
      | succ k => exact hr k st
      | zero =>
        refine ⟨not_divZero (h i List.mem_cons_self) st, ?_⟩
        cases stepI m i st with
        | seq st' => exact hr 0 st'
        | jump off st' => exact hr off st'
        | _ => trivial
  exact this c h 0 st

/-- Straight-line code without divisions. -/
theorem divOK_plain {c : List Insn} (h : ∀ i ∈ c, joff i = 0 ∧ noDivI i = true) : DivOK c := by
  refine divOK_free ?_ fun i hi => (h i hi).2
  induction c with
  | nil => trivial
  | cons i r ih =>
    refine ⟨?_, ih fun j hj => h j (List.mem_cons_of_mem _ hj)⟩
    rw [(h i List.mem_cons_self).1]; exact Nat.zero_le _

theorem divOK_imm {op : Alu} {d : Nat} {k : BitVec 64} (h : k ≠ 0) : DivOK [.aluImm op d k] := by
  refine ⟨⟨Nat.le_refl _, trivial⟩, fun he m st => ?_⟩
  have hx : sx32 k = k := he _ List.mem_cons_self
  refine ⟨?_, ?_⟩
  · rintro ⟨_, h0⟩
    rw [hx] at h0
    exact h h0
  · simp only [stepI]; trivial

theorem divOK_guarded (op : Alu) (rl rr : Nat) : DivOK (guarded op rl rr) := by
  refine ⟨by simp [Closed, joff, guarded], fun _ m st => ?_⟩
  have hj : (2 : Nat) < 2 ^ 15 := by decide
  have hj1 : (1 : Nat) < 2 ^ 15 := by decide
  unfold guarded
  refine ⟨by simp [divZero], ?_⟩
  by_cases h0 : st.regs rr = 0
  · have hs := step_jmpImm m .ne rr 0 hj st false (cmp_ne0 h0)
    simp only [Bool.false_eq_true, if_false] at hs
    rw [hs]
    refine ⟨by simp [divZero], ?_⟩
    rw [step_mov0]
    refine ⟨by simp [divZero], ?_⟩
    rw [step_ja m hj1]
    trivial
  · have hs := step_jmpImm m .ne rr 0 hj st true (cmp_ne0' h0)
    simp only [if_true] at hs
    rw [hs]
    refine ⟨fun h => h0 h.2, ?_⟩
    simp only [stepI]; trivial

/-! ### Everything the compiler emits -/

/-- Every piece of code an action emits satisfies `Q`. -/
def Emits {α : Type} (Q : List Insn → Prop) (x : CM α) : Prop := ∀ s a s' c, x s = .ok (a, s', c) → Q c

/-- Closed code without divisions. -/
def Static (c : List Insn) : Prop := Closed c ∧ ∀ i ∈ c, noDivI i = true

class Cat (Q : List Insn → Prop) : Prop where
  nil : Q []
  app : ∀ {a b}, Q a → Q b → Q (a ++ b)

instance : Cat DivOK := ⟨divOK_nil, divOK_append⟩
instance : Cat Static := ⟨⟨trivial, by simp⟩, fun ha hb => ⟨closed_append ha.1 hb.1, fun i hi => by
  rcases List.mem_append.mp hi with h | h
  · exact ha.2 i h
  · exact hb.2 i h⟩⟩

theorem Static.divOK {c : List Insn} (h : Static c) : DivOK c := divOK_free h.1 h.2

theorem Emits.mono {α : Type} {Q R : List Insn → Prop} {x : CM α} (h : Emits Q x) (hQ : ∀ c, Q c → R c) : Emits R x :=
  fun s a s' c hh => hQ c (h s a s' c hh)

theorem emits_pure {Q : List Insn → Prop} [Cat Q] {α : Type} (a : α) : Emits Q (pure a : CM α) := by
  intro s b s' c h
  obtain ⟨_, _, rfl⟩ := pure_ok h
  exact Cat.nil

theorem emits_bind {Q : List Insn → Prop} [Cat Q] {α β : Type} {x : CM α} {f : α → CM β} (hx : Emits Q x)
    (hf : ∀ a, Emits Q (f a)) : Emits Q (x >>= f) := by
  intro s b s' c h
  obtain ⟨a, s1, c1, c2, h1, h2, rfl⟩ := bind_ok h
  exact Cat.app (hx _ _ _ _ h1) (hf a _ _ _ _ h2)

theorem emits_emit {Q : List Insn → Prop} {is : List Insn} (h : Q is) : Emits Q (emit is) := by
  intro s a s' c hh
  obtain ⟨_, rfl⟩ := emit_ok hh
  exact h

theorem emits_reject {Q : List Insn → Prop} {α : Type} : Emits Q (reject : CM α) := fun _ _ _ _ h => (reject_ok h).elim
theorem emits_panic {Q : List Insn → Prop} {α : Type} : Emits Q (panic : CM α) := fun _ _ _ _ h => by simp [panic] at h

theorem emits_silent {Q : List Insn → Prop} [Cat Q] {α : Type} {x : CM α} (h : ∀ s a s' c, x s = .ok (a, s', c) → c = []) :
    Emits Q x := by
  intro s a s' c hh
  rw [h s a s' c hh]
  exact Cat.nil

theorem emits_alloc {Q : List Insn → Prop} [Cat Q] (o : Opts) : Emits Q (allocM o) :=
  emits_silent fun _ _ _ _ h => let ⟨_, _, _, hc⟩ := allocM_ok h; hc

theorem emits_free {Q : List Insn → Prop} [Cat Q] (r : Nat) : Emits Q (freeM r) :=
  emits_silent fun s a s' c h => by simp only [freeM, Except.ok.injEq, Prod.mk.injEq] at h; exact h.2.2.symm

theorem emits_useExit {Q : List Insn → Prop} [Cat Q] : Emits Q useExit := emits_silent fun _ _ _ _ h => (useExit_ok h).2

theorem emits_when {Q : List Insn → Prop} [Cat Q] {b : Bool} {x : CM Unit} (h : Emits Q x) : Emits Q (whenM b x) := by
  unfold whenM; split
  · exact h
  · exact emits_pure _

theorem static_plain {c : List Insn} (h : ∀ i ∈ c, joff i = 0 ∧ noDivI i = true) : Static c := by
  refine ⟨?_, fun i hi => (h i hi).2⟩
  induction c with
  | nil => trivial
  | cons i r ih =>
    refine ⟨?_, ih fun j hj => h j (List.mem_cons_of_mem _ hj)⟩
    rw [(h i List.mem_cons_self).1]; exact Nat.zero_le _

theorem static_addOff (r : Nat) (k : BitVec 64) : Static (addOff r k) := by
  unfold addOff; split
  · exact Cat.nil
  · exact static_plain (by simp [joff, noDivI])

theorem static_probeLoop (reg : Nat) : ∀ offs, Static (probeLoop reg offs) := by
  intro offs
  induction offs with
  | nil => exact Cat.nil
  | cons x r ih =>
    cases r with
    | nil =>
      simp only [probeLoop]
      refine Cat.app (static_addOff _ _) ?_
      split
      · split <;> exact static_plain (by simp [joff, noDivI])
      · exact static_plain (by simp [joff, noDivI])
    | cons y r =>
      simp only [probeLoop]
      refine Cat.app (Cat.app (static_addOff _ _) ?_) ih
      split
      · exact Cat.nil
      · exact static_plain (by simp [joff, noDivI])

theorem static_directLoop (reg : Nat) : ∀ offs, Static (directLoop reg offs) := by
  intro offs
  induction offs with
  | nil => exact Cat.nil
  | cons x r ih =>
    cases r with
    | nil =>
      simp only [directLoop]
      split
      · exact static_addOff _ _
      · exact static_plain (by simp [joff, noDivI])
    | cons y r =>
      simp only [directLoop]
      refine Cat.app ?_ ih
      split
      · exact static_addOff _ _
      · exact static_plain (by simp [joff, noDivI])

theorem emits_push (o : Opts) (n : Nat) : Emits Static (pushRegs o n) := by
  intro s a s' c h
  obtain ⟨_, rfl⟩ := pushRegs_ok h
  refine static_plain fun i hi => ?_
  rcases List.mem_append.mp hi with h | h
  · split at h
    · rw [List.mem_singleton.mp h]; exact ⟨rfl, rfl⟩
    · simp at h
  · obtain ⟨k, _, rfl⟩ := List.mem_map.mp h
    exact ⟨rfl, rfl⟩

theorem emits_pop (o : Opts) (n : Nat) : Emits Static (popRegs o n) := by
  intro s a s' c h
  obtain ⟨_, rfl⟩ := popRegs_ok h
  refine static_plain fun i hi => ?_
  rcases List.mem_append.mp hi with h | h
  · obtain ⟨k, _, rfl⟩ := List.mem_map.mp h
    exact ⟨rfl, rfl⟩
  · split at h
    · rw [List.mem_singleton.mp h]; exact ⟨rfl, rfl⟩
    · simp at h

theorem emits_coreStep (o : Opts) (reg : Nat) (x : Off) (last : Bool) : Emits Static (coreStep o reg x last) := by
  have hp : Static (coreProbe reg last) := static_plain (by simp [coreProbe, joff, noDivI])
  unfold coreStep
  split
  · refine emits_emit (Cat.app (static_addOff _ _) ?_)
    split <;> exact static_plain (by simp [joff, noDivI])
  · split
    · exact emits_reject
    · exact emits_emit hp
    · split
      · exact emits_reject
      · split
        · exact emits_emit hp
        · split
          · refine emits_emit (Cat.app (static_plain (by simp [joff, noDivI])) ?_)
            split <;> exact static_plain (by simp [joff, noDivI])
          · exact emits_bind emits_useExit fun _ => emits_emit (static_plain (by simp [joff, noDivI]))

theorem emits_coreLoop (o : Opts) (reg : Nat) : ∀ offs, Emits Static (coreLoop o reg offs) := by
  intro offs
  induction offs with
  | nil => exact emits_pure _
  | cons x r ih => exact emits_bind (emits_coreStep o reg x _) fun _ => ih

theorem emits_offsetChain (o : Opts) (offs : List Off) (reg : Nat) : Emits Static (emitOffsetChain o offs reg) := by
  unfold emitOffsetChain
  split
  · refine emits_emit ?_
    refine static_plain fun i hi => ?_
    obtain ⟨x, _, hx⟩ := List.mem_flatMap.mp hi
    unfold addOff at hx
    split at hx
    · simp at hx
    · rw [List.mem_singleton.mp hx]; exact ⟨rfl, rfl⟩
  · split
    · refine emits_bind (emits_push o _) fun _ => emits_bind (emits_emit ?_) fun _ =>
        emits_bind (emits_coreLoop o reg offs) fun _ => emits_pop o _
      split <;> exact static_plain (by simp [joff, noDivI])
    · exact emits_bind (emits_emit (static_directLoop _ _)) fun _ => emits_when emits_useExit
    · refine emits_bind (emits_push o _) fun _ => emits_bind (emits_emit ?_) fun _ =>
        emits_bind (emits_emit (static_probeLoop _ _)) fun _ => emits_bind (emits_when emits_useExit) fun _ => emits_pop o _
      split <;> exact static_plain (by simp [joff, noDivI])

theorem static_adjust (Γ : Btf) (t : Ty) (r : Nat) : Static (adjustSize Γ t r) := by
  unfold adjustSize
  split <;> exact static_plain (by simp [joff, noDivI])

theorem static_bitfield (m : Member) (r : Nat) : Static (bitfieldExtract m r) := by
  unfold bitfieldExtract
  refine Cat.app ?_ (static_plain (by simp [joff, noDivI]))
  split <;> exact static_plain (by simp [joff, noDivI])

theorem emits_materialize (o : Opts) (v : Val) : Emits Static (materialize o v) := by
  unfold materialize
  split
  · exact emits_pure _
  · exact emits_bind (emits_alloc o) fun _ => emits_bind (emits_emit (static_plain (by simp [joff, noDivI]))) fun _ => emits_pure _
  · refine emits_bind (emits_alloc o) fun r => emits_bind (emits_emit ?_) fun _ =>
      emits_bind (emits_when (emits_offsetChain _ _ _)) fun _ => emits_bind (emits_emit ?_) fun _ => emits_pure _
    · unfold loadBase
      split <;> exact static_plain (by simp [joff, noDivI])
    · split
      · split
        · exact static_bitfield _ _
        · exact static_adjust _ _ _
      · exact static_adjust _ _ _
  · exact emits_reject

abbrev EmitsD {α : Type} (x : CM α) : Prop := Emits DivOK x

theorem emitsD_materialize (o : Opts) (v : Val) : EmitsD (materialize o v) := (emits_materialize o v).mono fun _ h => h.divOK

theorem emitsD_binRun (o : Opts) (l r : Val) {k : Nat → Option Ty → Nat → List Insn} (hk : ∀ a t b, DivOK (k a t b)) :
    EmitsD (binRun o l r k) :=
  emits_bind (emitsD_materialize o l) fun _ => emits_bind (emitsD_materialize o r) fun _ =>
    emits_bind (emits_emit (hk _ _ _)) fun _ => emits_bind (emits_free _) fun _ => emits_pure _

theorem emitsD_unRun (o : Opts) (v : Val) {k : Nat → List Insn} (hk : ∀ a, DivOK (k a)) : EmitsD (unRun o v k) :=
  emits_bind (emitsD_materialize o v) fun _ => emits_bind (emits_emit (hk _)) fun _ => emits_pure _

theorem emitsD_check (o : Opts) (v : Val) : EmitsD (checkCalc o v) := emits_silent fun _ _ _ _ h => (checkCalc_ok h).2

theorem emitsD_check1 {o : Opts} {l : Val} {x : CM Val} (h : EmitsD x) : EmitsD (do checkCalc o l; x) :=
  emits_bind (emitsD_check o l) fun _ => h

theorem emitsD_check2 {o : Opts} {l r : Val} {x : CM Val} (h : EmitsD x) : EmitsD (do checkCalc o l; checkCalc o r; x) :=
  emits_bind (emitsD_check o l) fun _ => emits_bind (emitsD_check o r) fun _ => h

theorem divOK_static {c : List Insn} (h : ∀ i ∈ c, noDivI i = true) (hc : Closed c) : DivOK c := divOK_free hc h

theorem divOK_scale (Γ : Btf) (t : Option Ty) (r : Nat) : DivOK (scale Γ t r) := by
  unfold scale
  split
  · split <;> exact divOK_plain (by simp [joff, noDivI])
  · split <;> exact divOK_plain (by simp [joff, noDivI])
  · exact divOK_nil

theorem emitsD_addConst (o : Opts) (b : Base) (offs : List Off) (t : Ty) (m : Option Member) (n : BitVec 64) :
    EmitsD (addConst o b offs t m n) := emits_silent fun _ _ _ _ h => (safe_addConst h).2.1

theorem emitsD_addVals (o : Opts) (l r : Val) : EmitsD (addVals o l r) := by
  unfold addVals
  split
  · exact emits_pure _
  · refine emitsD_check2 ?_
    split
    · exact emitsD_addConst _ _ _ _ _ _
    · exact emitsD_addConst _ _ _ _ _ _
    · exact emitsD_binRun o _ _ fun a t b => divOK_append (divOK_scale _ _ _) (divOK_plain (by simp [joff, noDivI]))

theorem emitsD_subVals (o : Opts) (l r : Val) : EmitsD (subVals o l r) := by
  unfold subVals
  split
  · exact emits_pure _
  · refine emitsD_check2 ?_
    split
    · exact emitsD_addConst _ _ _ _ _ _
    · exact emitsD_binRun o _ _ fun a t b => divOK_append (divOK_scale _ _ _) (divOK_plain (by simp [joff, noDivI]))

theorem emitsD_mulVals (o : Opts) (l r : Val) : EmitsD (mulVals o l r) := by
  unfold mulVals
  split
  · exact emits_pure _
  · exact emitsD_check2 (emitsD_binRun o _ _ fun a t b => divOK_plain (by simp [joff, noDivI]))

theorem emitsD_divVals (o : Opts) (l r : Val) : EmitsD (divVals o l r) := by
  unfold divVals
  split
  · split
    · exact emits_reject
    · exact emits_pure _
  · split
    · exact emits_reject
    · rename_i hb
      exact emitsD_check1 (emitsD_unRun o _ fun a => divOK_imm hb)
  · exact emitsD_check2 (emitsD_binRun o _ _ fun a t b => divOK_guarded _ _ _)

theorem emitsD_modVals (o : Opts) (l r : Val) : EmitsD (modVals o l r) := by
  unfold modVals
  split
  · split
    · exact emits_reject
    · exact emits_pure _
  · split
    · exact emits_reject
    · rename_i hb
      refine emitsD_check1 (emitsD_unRun o _ fun a => ?_)
      split
      · exact divOK_plain (by simp [joff, noDivI])
      · exact divOK_imm hb
  · exact emitsD_check2 (emitsD_binRun o _ _ fun a t b => divOK_guarded _ _ _)

theorem emitsD_bitVals (o : Opts) {op : Alu} (hop : op = .and ∨ op = .or ∨ op = .xor) (l r : Val) : EmitsD (bitVals o op l r) := by
  unfold bitVals
  split
  · exact emits_pure _
  · exact emitsD_check1 (emitsD_unRun o _ fun a => divOK_plain (by rcases hop with rfl | rfl | rfl <;> simp [joff, noDivI]))
  · exact emitsD_check2 (emitsD_binRun o _ _ fun a t b => divOK_plain (by rcases hop with rfl | rfl | rfl <;> simp [joff, noDivI]))

theorem emitsD_shiftVals (o : Opts) (left : Bool) (l r : Val) : EmitsD (shiftVals o left l r) := by
  have hs : ∀ d q, DivOK [.jmpImm .le q 0 1, .aluReg (if left then .lsh else .rsh) d q] := fun d q =>
    divOK_free (by simp [Closed, joff]) (by cases left <;> simp [noDivI])
  have hi : ∀ d b, DivOK [.aluImm (if left then .lsh else .rsh) d b] := fun d b =>
    divOK_free (by simp [Closed, joff]) (by cases left <;> simp [noDivI])
  unfold shiftVals
  simp only
  split
  · unfold foldShift
    split
    · exact emits_panic
    · exact emits_pure _
  · refine emitsD_check1 (emits_bind (emitsD_materialize o _) fun _ => ?_)
    split
    · exact emits_reject
    · split
      · exact emits_pure _
      · exact emits_bind (emits_emit (hi _ _)) fun _ => emits_pure _
  · exact emitsD_check2 (emitsD_binRun o _ _ fun a t b => hs _ _)

theorem divOK_bool {i : Insn} {r : Nat} (hi : noDivI i = true) (hj : joff i ≤ 3) : DivOK (i :: reg2bool r) :=
  divOK_free ⟨hj, by simp [reg2bool, Closed, joff]⟩ fun j hm => by
    rcases List.mem_cons.mp hm with rfl | h
    · exact hi
    · simp only [reg2bool, List.mem_cons, List.not_mem_nil, or_false] at h
      rcases h with rfl | rfl | rfl <;> rfl

theorem emitsD_cmpVals (o : Opts) (c : Cmp) (l r : Val) : EmitsD (cmpVals o c l r) := by
  unfold cmpVals
  split
  · exact emits_pure _
  · exact emitsD_check1 (emitsD_unRun o _ fun a => divOK_bool rfl (by simp [joff]))
  · exact emitsD_check2 (emitsD_binRun o _ _ fun a t b => divOK_bool rfl (by simp [joff]))

theorem emitsD_freeIfMat (v : Val) : EmitsD (freeIfMat v) := by
  unfold freeIfMat; split
  · exact emits_free _
  · exact emits_pure _

theorem emitsD_andand (o : Opts) (l r : Val) : EmitsD (andandVals o l r) := by
  unfold andandVals
  split
  · exact emits_pure _
  · refine emitsD_check1 ?_
    split
    · exact emits_pure _
    · exact emitsD_unRun o _ fun a => divOK_bool rfl (by simp [joff])
  · refine emitsD_check1 ?_
    split
    · exact emits_bind (emitsD_freeIfMat _) fun _ => emits_pure _
    · exact emitsD_unRun o _ fun a => divOK_bool rfl (by simp [joff])
  · exact emitsD_check2 (emitsD_binRun o _ _ fun a t b =>
      divOK_free (by simp [reg2bool, Closed, joff]) (by simp [reg2bool, noDivI]))

theorem emitsD_oror (o : Opts) (l r : Val) : EmitsD (ororVals o l r) := by
  unfold ororVals
  split
  · exact emits_pure _
  · refine emitsD_check1 ?_
    split
    · exact emits_pure _
    · exact emitsD_unRun o _ fun a => divOK_bool rfl (by simp [joff])
  · refine emitsD_check1 ?_
    split
    · exact emits_bind (emitsD_freeIfMat _) fun _ => emits_pure _
    · exact emitsD_unRun o _ fun a => divOK_bool rfl (by simp [joff])
  · exact emitsD_check2 (emitsD_binRun o _ _ fun a t b =>
      divOK_free (by simp [Closed, joff]) (by simp [noDivI]))

theorem emitsD_binVals (o : Opts) (op : Bop) (l r : Val) : EmitsD (binVals o op l r) := by
  unfold binVals
  refine emits_bind (emits_silent fun _ _ _ _ h => (resolveEnums_ok h).2) fun q => ?_
  cases op with
  | add => exact emitsD_addVals _ _ _
  | sub => exact emitsD_subVals _ _ _
  | mul => exact emitsD_mulVals _ _ _
  | div => exact emitsD_divVals _ _ _
  | mod => exact emitsD_modVals _ _ _
  | and => exact emitsD_bitVals _ (.inl rfl) _ _
  | or => exact emitsD_bitVals _ (.inr (.inl rfl)) _ _
  | xor => exact emitsD_bitVals _ (.inr (.inr rfl)) _ _
  | lsh => exact emitsD_shiftVals _ _ _ _
  | rsh => exact emitsD_shiftVals _ _ _ _
  | andand => exact emitsD_andand _ _ _
  | oror => exact emitsD_oror _ _ _
  | _ => exact emitsD_cmpVals _ _ _ _

theorem emitsD_unVals (o : Opts) (op : Uop) (v : Val) : EmitsD (unVals o op v) := by
  unfold unVals
  split <;> first
    | exact emits_pure _
    | exact emitsD_unRun o _ fun a => divOK_bool rfl (by simp [joff])
    | exact emitsD_unRun o _ fun a => divOK_plain (by simp [joff, noDivI])
    | exact emitsD_check1 (emitsD_unRun o _ fun a => divOK_plain (by simp [joff, noDivI]))

theorem emits_condArm (o : Opts) (rc : Nat) (v : Val) : Emits Static (condArm o rc v) := by
  unfold condArm
  split
  · exact emits_emit (static_plain (by simp [joff, noDivI]))
  · exact emits_bind (emits_materialize o _) fun _ => emits_bind (emits_emit (static_plain (by simp [joff, noDivI]))) fun _ =>
      emits_free _

theorem static_cond {rc : Nat} {cl cr : List Insn} (hl : Static cl) (hr : Static cr) :
    Static (.jmpImm .eq rc 0 (cl.length + 1) :: cl ++ .ja cr.length :: cr) := by
  refine ⟨⟨by simp [joff], closed_append hl.1 ⟨by simp [joff], hr.1⟩⟩, fun i hi => ?_⟩
  simp only [List.cons_append, List.mem_cons, List.mem_append] at hi
  rcases hi with rfl | h | rfl | h
  · rfl
  · exact hl.2 i h
  · rfl
  · exact hr.2 i h

theorem emits_capture {Q R : List Insn → Prop} [Cat R] {α β : Type} {x : CM α} {f : α × List Insn → CM β} (hx : Emits Q x)
    (hf : ∀ a c, Q c → Emits R (f (a, c))) : Emits R (capture x >>= f) := by
  intro s b s' c h
  obtain ⟨⟨a, ca⟩, s1, c1, c2, h1, h2, rfl⟩ := bind_ok h
  unfold capture at h1
  cases hx' : x s with
  | error e => rw [hx'] at h1; simp at h1
  | ok q =>
    obtain ⟨a', s1', c'⟩ := q
    rw [hx'] at h1
    simp only [Except.ok.injEq, Prod.mk.injEq] at h1
    obtain ⟨⟨rfl, rfl⟩, rfl, rfl⟩ := h1
    exact hf _ _ (hx _ _ _ _ hx') _ _ _ _ h2

theorem emitsD_condVals (o : Opts) (c l r : Val) : EmitsD (condVals o c l r) := by
  unfold condVals
  refine emits_bind (emitsD_check o c) fun _ => emitsD_check2 ?_
  split
  · exact emits_pure _
  · exact emits_bind (emitsD_materialize o _) fun q => emits_capture (emits_condArm o _ _) fun _ _ hl =>
      emits_capture (emits_condArm o _ _) fun _ _ hr => emits_bind (emits_emit (static_cond hl hr).divOK) fun _ => emits_pure _

theorem emitsD_evaluate (o : Opts) : ∀ e, EmitsD (evaluate o e) := by
  intro e
  induction e with
  | name s => exact emits_pure _
  | num text =>
    unfold evaluate
    split
    · exact emits_reject
    · exact emits_pure _
  | arrow e f ih => exact emits_bind ih fun _ => emits_silent fun _ _ _ _ h => (accessMember_nil h).1
  | dot e f ih => exact emits_bind ih fun _ => emits_silent fun _ _ _ _ h => (accessMember_nil h).1
  | index e i ih _ => exact emits_bind ih fun _ => emits_silent fun _ _ _ _ h => (evaluateIndex_nil h).1
  | indir e ih => exact emits_bind ih fun _ => emits_silent fun _ _ _ _ h => (evaluateIndir_nil h).1
  | addr e ih => exact emits_bind ih fun _ => emits_silent fun _ _ _ _ h => (evaluateAddr_nil h).1
  | cast t e ih =>
    intro s v s' c h
    rcases evaluate_cast h with ⟨_, _, _, _, _, _, _, rfl, _⟩ | ⟨_, v0, ty, h1, _, _⟩
    · exact divOK_nil
    · exact ih _ _ _ _ h1
  | un op e ih => exact emits_bind ih fun _ => emitsD_unVals o op _
  | bin op l r ihl ihr => exact emits_bind ihl fun _ => emits_bind ihr fun _ => emitsD_binVals o op _ _
  | cond c l r ihc ihl ihr =>
    exact emits_bind ihc fun _ => emits_bind ihl fun _ => emits_bind ihr fun _ => emitsD_condVals o _ _ _
  | unsup => exact emits_reject

/-! ### C03 -/

/-- The positions and states a program started in `st0` passes through. -/
inductive Reaches (m : Mem) (p : Prog) (st0 : St) : Nat → St → Prop
  | start : Reaches m p st0 0 st0
  | seq {pc : Nat} {i : Insn} {st st' : St} : Reaches m p st0 pc st → p.code[pc]? = some i →
      stepI m i st = .seq st' → Reaches m p st0 (pc + 1) st'
  | jump {pc off : Nat} {i : Insn} {st st' : St} : Reaches m p st0 pc st → p.code[pc]? = some i →
      stepI m i st = .jump off st' → Reaches m p st0 (pc + 1 + off) st'
  | label {pc : Nat} {i : Insn} {st st' : St} : Reaches m p st0 pc st → p.code[pc]? = some i →
      stepI m i st = .label st' → Reaches m p st0 p.label st'

theorem noDiv_drop {m : Mem} : ∀ {c : List Insn} {k : Nat} {st : St}, NoDiv m c k st → NoDiv m (c.drop k) 0 st := by
  intro c
  induction c with
  | nil => intro k st _; simp [NoDiv]
  | cons i r ih =>
    intro k st h
    cases k with
    | zero => exact h
    | succ k => exact ih h

theorem drop_get {α : Type} {l : List α} {k : Nat} {x : α} (h : l[k]? = some x) : l.drop k = x :: l.drop (k + 1) := by
  obtain ⟨hk, rfl⟩ := List.getElem?_eq_some_iff.mp h
  exact List.drop_eq_getElem_cons hk

theorem filter_noDiv {o : Opts} {e : Expr} {p : Prog} (h : compileFilter o e = .ok p) (hx : Exact p.code)
    {m : Mem} {st0 st : St} {pc : Nat} (hr : Reaches m p st0 pc st) : NoDiv m (p.code.drop pc) 0 st := by
  obtain ⟨_, r, t, s, body, x, he, _, hb, rfl⟩ := compileFilter_ok h
  have htail : DivOK ((if r ≠ 0 then [Insn.movReg 0 r] else []) ++ [Insn.ret]) := divOK_plain (by
    intro i hi
    by_cases h0 : r = 0 <;> simp [h0] at hi <;> rcases hi with rfl | rfl <;> exact ⟨rfl, rfl⟩)
  have hlab : ∀ st, NoDiv m ((Insn.movReg 9 1 :: body ++ (if r ≠ 0 then [Insn.movReg 0 r] else []) ++ [Insn.ret]).drop body.length) 0 st := by
    obtain ⟨pre, tl, rfl, _, _, _, hlast⟩ := hb
    have : ∃ i b', pre ++ tl = b' ++ [i] ∧ noDivI i = true ∧ joff i = 0 := by
      have hne : ∃ i, tl.getLast? = some i ∧ noDivI i = true ∧ joff i = 0 := by
        rcases hlast with ⟨_, hl⟩ | ⟨_, hl⟩
        · exact ⟨_, hl, rfl, rfl⟩
        · exact ⟨_, hl, rfl, rfl⟩
      obtain ⟨i, hi, h1, h2⟩ := hne
      obtain ⟨ys, hys⟩ := List.getLast?_eq_some_iff.mp hi
      exact ⟨i, pre ++ ys, by rw [hys]; simp, h1, h2⟩
    obtain ⟨i, b', hb', h1, h2⟩ := this
    intro st
    rw [hb']
    have : (Insn.movReg 9 1 :: (b' ++ [i]) ++ (if r ≠ 0 then [Insn.movReg 0 r] else []) ++ [Insn.ret]).drop (b' ++ [i]).length
        = [i] ++ ((if r ≠ 0 then [Insn.movReg 0 r] else []) ++ [Insn.ret]) := by simp
    rw [this]
    have hx' : Exact ([i] ++ ((if r ≠ 0 then [Insn.movReg 0 r] else []) ++ [Insn.ret])) := by
      intro j hj
      apply hx j
      rw [hb']
      simp only [List.mem_append, List.mem_cons, List.not_mem_nil, or_false] at hj ⊢
      rcases hj with h | h | h
      · exact .inl (.inl (.inr (.inr h)))
      · exact .inl (.inr h)
      · exact .inr h
    exact (divOK_append (divOK_plain (by simp [h1, h2])) htail).2 hx' m st
  induction hr with
  | start =>
    have : DivOK (Insn.movReg 9 1 :: body ++ (if r ≠ 0 then [Insn.movReg 0 r] else []) ++ [Insn.ret]) := by
      rw [List.append_assoc]
      exact divOK_append (divOK_append (a := [Insn.movReg 9 1]) (divOK_plain (by simp [joff, noDivI])) (emitsD_evaluate o e _ _ _ _ he)) htail
    exact this.2 hx m st0
  | seq _ hi hs ih =>
    rw [drop_get hi] at ih
    have := ih.2
    rw [hs] at this
    exact this
  | jump _ hi hs ih =>
    rw [drop_get hi] at ih
    have := ih.2
    rw [hs] at this
    rw [← List.drop_drop]
    exact noDiv_drop this
  | label _ hi hs ih => exact hlab _

/-- C03: an accepted filter whose immediates are encoded without loss executes no division or remainder
instruction with a zero divisor, whatever memory, arguments and registers it is started with. -/
theorem filter_never_divides_by_zero {o : Opts} {e : Expr} {p : Prog} (h : compileFilter o e = .ok p) (hx : Exact p.code)
    {m : Mem} {st0 st : St} {pc : Nat} {i : Insn} (hr : Reaches m p st0 pc st) (hi : p.code[pc]? = some i) :
    ¬ divZero i st := by
  have := filter_noDiv h hx hr
  rw [drop_get hi] at this
  exact this.1

/-- Unary operators on constants. -/
def unConst (op : Uop) (n : BitVec 64) : BitVec 64 :=
  match op with
  | .paren | .plus => n
  | .not => if n = 0 then 1 else 0
  | .minus => -n
  | .twid => ~~~n
  | .preinc => n + 1
  | .predec => n - 1

/-- The value of an expression made of literals only. -/
def litVal : Expr → Option (BitVec 64)
  | .num text => parseNumber text
  | .un op e => (litVal e).map (unConst op)
  | .bin op l r =>
    match litVal l, litVal r with
    | some a, some b => onConsts op a b
    | _, _ => none
  | _ => none

/-- Somewhere in the expression something is divided, or a remainder taken, by a literal expression of value 0. -/
def zeroDiv : Expr → Prop
  | .arrow e _ | .dot e _ | .index e _ | .indir e | .addr e | .cast _ e | .un _ e => zeroDiv e
  | .bin op l r => ((op = .div ∨ op = .mod) ∧ litVal r = some 0) ∨ zeroDiv l ∨ zeroDiv r
  | .cond c l r => zeroDiv c ∨ zeroDiv l ∨ zeroDiv r
  | _ => False

theorem litVal_evaluate (o : Opts) : ∀ {e : Expr} {n : BitVec 64} (s : CSt), litVal e = some n →
    evaluate o e s = .ok (.const n none, s, []) := by
  intro e
  induction e with
  | num text =>
    intro n s h
    simp only [litVal] at h
    unfold evaluate
    rw [h]; rfl
  | un op e ih =>
    intro n s h
    simp only [litVal, Option.map_eq_some_iff] at h
    obtain ⟨k, hk, rfl⟩ := h
    unfold evaluate
    rw [cm_bind_run (ih s hk)]
    cases op <;> first
      | rfl
      | (simp only [unVals, unConst, b2n]
         by_cases h0 : k = 0 <;> simp [h0, Pure.pure])
  | bin op l r ihl ihr =>
    intro n s h
    simp only [litVal] at h
    cases ha : litVal l with
    | none => simp [ha] at h
    | some a =>
      cases hb : litVal r with
      | none => simp [ha, hb] at h
      | some b =>
        simp only [ha, hb] at h
        exact (fold_exact (ihl s ha) (ihr s hb)).1 n h
  | _ => intro n s h; simp [litVal] at h

theorem divVals_zero (o : Opts) (l : Val) (t : Option Ty) (s : CSt) :
    divVals o l (.const 0 t) s = .error .reject ∧ modVals o l (.const 0 t) s = .error .reject := by
  cases l <;> exact ⟨rfl, rfl⟩

theorem zeroDiv_rejected (o : Opts) : ∀ {e : Expr} {s s' : CSt} {v : Val} {c : List Insn}, zeroDiv e →
    evaluate o e s ≠ .ok (v, s', c) := by
  intro e
  induction e with
  | arrow e f ih | dot e f ih | index e i ih _ | indir e ih | addr e ih | un op e ih =>
    intro s s' v c hz h
    unfold evaluate at h
    obtain ⟨_, _, _, _, h1, _, _⟩ := bind_ok h
    exact ih hz h1
  | cast t e ih =>
    intro s s' v c hz h
    rcases evaluate_cast h with ⟨_, _, _, rfl, _⟩ | ⟨_, v0, ty, h1, _, _⟩
    · exact hz
    · exact ih hz h1
  | bin op l r ihl ihr =>
    intro s s' v c hz h
    unfold evaluate at h
    obtain ⟨a, s1, _, _, h1, h2, _⟩ := bind_ok h
    obtain ⟨b, s2, _, _, h3, h4, _⟩ := bind_ok h2
    rcases hz with ⟨hop, hr⟩ | hz | hz
    · rw [litVal_evaluate o s1 hr] at h3
      simp only [Except.ok.injEq, Prod.mk.injEq] at h3
      obtain ⟨rfl, rfl, _⟩ := h3
      unfold binVals at h4
      obtain ⟨q, s3, _, _, h5, h6, _⟩ := bind_ok h4
      have : q.2 = .const 0 none := by
        cases a <;> simp [resolveEnums, Pure.pure] at h5 <;> (obtain ⟨rfl, _⟩ := h5; rfl)
      obtain ⟨ql, qr⟩ := q
      simp only at this
      subst this
      rcases hop with rfl | rfl
      · simp only [(divVals_zero o ql none s3).1] at h6; simp at h6
      · simp only [(divVals_zero o ql none s3).2] at h6; simp at h6
    · exact ihl hz h1
    · exact ihr hz h3
  | cond k l r ihk ihl ihr =>
    intro s s' v c hz h
    unfold evaluate at h
    obtain ⟨_, _, _, _, h1, h2, _⟩ := bind_ok h
    obtain ⟨_, _, _, _, h3, h4, _⟩ := bind_ok h2
    obtain ⟨_, _, _, _, h5, _, _⟩ := bind_ok h4
    rcases hz with hz | hz | hz
    · exact ihk hz h1
    · exact ihl hz h3
    · exact ihr hz h5
  | _ => intro s s' v c hz h; exact hz

/-- C03: an expression with a constant zero divisor anywhere in it is accepted neither as a filter nor for output. -/
theorem constant_zero_rejected (o : Opts) {e : Expr} (hz : zeroDiv e) :
    (∀ p, compileFilter o e ≠ .ok p) ∧ ∀ us f p, compileEval o us f e ≠ .ok p := by
  constructor
  · intro p h
    obtain ⟨_, r, t, s, body, x, he, _⟩ := compileFilter_ok h
    exact zeroDiv_rejected o hz he
  · intro us f p h
    unfold compileEval at h
    split at h
    · simp at h
    · split at h
      · simp at h
      · rename_i he; exact zeroDiv_rejected o hz he
      · rename_i he; exact zeroDiv_rejected o hz he

/-- C03: dividing, or taking a remainder, by a run-time zero gives 0. -/
theorem division_by_zero_gives_zero (mode : Mode) (a : BitVec 64) :
    RunsTo mode .div a 0 0 ∧ RunsTo mode .mod a 0 0 :=
  ⟨runs_to mode .div a 0 0 rfl, runs_to mode .mod a 0 0 rfl⟩

/-- Both statements are about something: `x / y == 3` is accepted and its immediates are exact, and `x / (1 - 1)`
has a constant zero divisor. -/
theorem never_divides_witness (mode : Mode) :
    (∃ p, compileFilter (kOpts mode) (.bin .eq (.bin .div (V "x") (V "y")) (N "3")) = .ok p ∧ Exact p.code ∧
      .aluReg .div 8 7 ∈ p.code) ∧
    zeroDiv (.bin .eq (.bin .div (V "x") (.un .paren (.bin .sub (N "1") (N "1")))) (N "3")) := by
  constructor
  · cases mode
    all_goals exact ⟨_, rfl, by decide +kernel, by decide +kernel⟩
  · exact .inr (.inl (.inl ⟨.inl rfl, rfl⟩))

end Bpfsnoop.Cc
