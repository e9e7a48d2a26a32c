import Verif.Props.CcSafe
import Verif.Spec.CcShape

/-
C08: offset chains read the addressed bytes, in every read mode.
-/
namespace Bpfsnoop.Cc

/-! ### What a chain means -/

/-- One step: add the offset; if it is a dereference, read `f` bytes there. -/
def stepW (f : Off → Nat) (m : Mem) (z : Off) (x : BitVec 64) : BitVec 64 :=
  if z.deref then load m (f z) (x + z.off) else x + z.off

/-- The value at the end of a chain. -/
def chainW (f : Off → Nat) (m : Mem) : List Off → BitVec 64 → BitVec 64
  | [], x => x
  | z :: r, x => chainW f m r (stepW f m z x)

/-- A dereference in the chain gives NULL. -/
def nulAll (f : Off → Nat) (m : Mem) : List Off → BitVec 64 → Bool
  | [], _ => false
  | z :: r, x => (z.deref && stepW f m z x == 0) || nulAll f m r (stepW f m z x)

/-- Every read is 8 bytes wide. -/
def w8 : Off → Nat := fun _ => 8

theorem chainW_append (f : Off → Nat) (m : Mem) (a b : List Off) (x : BitVec 64) :
    chainW f m (a ++ b) x = chainW f m b (chainW f m a x) := by
  induction a generalizing x with
  | nil => rfl
  | cons z r ih => exact ih _

theorem nulAll_append (f : Off → Nat) (m : Mem) (a b : List Off) (x : BitVec 64) :
    nulAll f m (a ++ b) x = (nulAll f m a x || nulAll f m b (chainW f m a x)) := by
  induction a generalizing x with
  | nil => rfl
  | cons z r ih => simp only [List.cons_append, nulAll, chainW, ih, Bool.or_assoc]

/-- Widths only matter at dereferences. -/
theorem chainW_congr {f g : Off → Nat} {m : Mem} : ∀ {a : List Off} {x : BitVec 64},
    (∀ z ∈ a, z.deref = true → f z = g z) → chainW f m a x = chainW g m a x ∧ nulAll f m a x = nulAll g m a x := by
  intro a
  induction a with
  | nil => intro x _; exact ⟨rfl, rfl⟩
  | cons z r ih =>
    intro x h
    have hs : stepW f m z x = stepW g m z x := by
      unfold stepW
      cases hd : z.deref with
      | true => rw [h z List.mem_cons_self hd]
      | false => rfl
    have := ih (x := stepW g m z x) fun y hy => h y (List.mem_cons_of_mem _ hy)
    simp only [chainW, nulAll, hs, this.1, this.2, and_self]

/-! ### Lossless code -/

/-- No immediate or offset of the instruction is cut when it is encoded. -/
def exact1 : Insn → Prop
  | .movImm _ k => sx32 k = k
  | .aluImm _ _ k => sx32 k = k
  | .jmpImm _ _ k off => sx32 k = k ∧ off < 2 ^ 15
  | .jmpReg _ _ _ off => off < 2 ^ 15
  | .ja off => off < 2 ^ 15
  | .ldx _ _ off _ => sx16 off = off
  | _ => True

def Exact (c : List Insn) : Prop := ∀ i ∈ c, exact1 i

theorem exact_append {a b : List Insn} : Exact (a ++ b) ↔ Exact a ∧ Exact b := by
  simp only [Exact, List.mem_append]
  exact ⟨fun h => ⟨fun i hi => h i (.inl hi), fun i hi => h i (.inr hi)⟩,
    fun h i hi => hi.elim (h.1 i) (h.2 i)⟩

theorem exact_cons {i : Insn} {r : List Insn} : Exact (i :: r) ↔ exact1 i ∧ Exact r := by
  simp [Exact]

theorem exact_fits {c : List Insn} (h : Exact c) : Fits c := by
  intro i hi
  have := h i hi
  cases i <;> simp only [exact1, jumpFits] at * <;> first | exact this.2 | exact this | trivial

/-! ### Blocks -/

/-- Two states agree on the registers in `K`. -/
def Same (K : Nat → Prop) (st st' : St) : Prop := ∀ q, K q → st'.regs q = st.regs q

theorem Same.refl (K : Nat → Prop) (st : St) : Same K st st := fun _ _ => rfl
theorem Same.trans {K : Nat → Prop} {a b c : St} (h1 : Same K a b) (h2 : Same K b c) : Same K a c :=
  fun q hq => (h2 q hq).trans (h1 q hq)
theorem Same.mono {K L : Nat → Prop} {a b : St} (h : Same K a b) (hl : ∀ q, L q → K q) : Same L a b :=
  fun q hq => h q (hl q hq)

/-- A block that leaves for the exit label if `ab`, and otherwise ends with `x` in `reg` and the registers of
`K` unchanged. -/
def Puts (m : Mem) (c : List Insn) (st : St) (ab : Bool) (K : Nat → Prop) (reg : Nat) (x : BitVec 64) : Prop :=
  if ab then ∃ st', exec m c st = .exit st'
  else ∃ st', exec m c st = .done st' ∧ Same K st st' ∧ st'.regs reg = x

theorem puts_exit {m : Mem} {c : List Insn} {st : St} {K : Nat → Prop} {reg : Nat} {x : BitVec 64}
    (h : ∃ st', exec m c st = .exit st') : Puts m c st true K reg x := h

theorem puts_done {m : Mem} {c : List Insn} {st : St} {K : Nat → Prop} {reg : Nat} {x : BitVec 64}
    (h : ∃ st', exec m c st = .done st' ∧ Same K st st' ∧ st'.regs reg = x) : Puts m c st false K reg x := h

theorem puts_cases {m : Mem} {c : List Insn} {st : St} {ab : Bool} {K : Nat → Prop} {reg : Nat} {x : BitVec 64}
    (h : Puts m c st ab K reg x) :
    (ab = true ∧ ∃ st', exec m c st = .exit st') ∨
    (ab = false ∧ ∃ st', exec m c st = .done st' ∧ Same K st st' ∧ st'.regs reg = x) := by
  cases ab with
  | true => exact .inl ⟨rfl, h⟩
  | false => exact .inr ⟨rfl, h⟩

/-- Sequencing. -/
theorem puts_append {m : Mem} {c1 c2 : List Insn} {st : St} {a1 a2 : Bool} {K : Nat → Prop} {r1 r2 : Nat}
    {x1 x2 : BitVec 64} (h1 : Puts m c1 st a1 K r1 x1)
    (h2 : ∀ st1, Same K st st1 → st1.regs r1 = x1 → Puts m c2 st1 a2 K r2 x2) :
    Puts m (c1 ++ c2) st (a1 || a2) K r2 x2 := by
  rcases puts_cases h1 with ⟨rfl, s1, he⟩ | ⟨rfl, s1, he, hs, hx⟩
  · exact puts_exit ⟨s1, exec_append_exit he⟩
  · rcases puts_cases (h2 s1 hs hx) with ⟨rfl, s2, he2⟩ | ⟨rfl, s2, he2, hs2, hx2⟩
    · exact puts_exit ⟨s2, by rw [exec_append_done he]; exact he2⟩
    · exact puts_done ⟨s2, by rw [exec_append_done he]; exact he2, hs.trans hs2, hx2⟩

theorem puts_nil {m : Mem} {st : St} {K : Nat → Prop} {reg : Nat} {x : BitVec 64} (h : st.regs reg = x) :
    Puts m [] st false K reg x := puts_done ⟨st, rfl, Same.refl _ _, h⟩

/-- One instruction that only writes `d`. -/
theorem puts_set {m : Mem} {i : Insn} {st : St} {K : Nat → Prop} {d : Nat} {x : BitVec 64}
    (h : stepI m i st = .seq (st.set d x)) (hd : ¬ K d) : Puts m [i] st false K d x :=
  puts_done ⟨st.set d x, exec_seq h, fun q hq => by
    simp only [St.set]; rw [if_neg]; rintro rfl; exact hd hq, set_same _ _ _⟩

theorem puts_mono {m : Mem} {c : List Insn} {st : St} {ab : Bool} {K L : Nat → Prop} {reg : Nat} {x : BitVec 64}
    (h : Puts m c st ab K reg x) (hl : ∀ q, L q → K q) : Puts m c st ab L reg x := by
  rcases puts_cases h with ⟨rfl, h⟩ | ⟨rfl, s, h1, h2, h3⟩
  · exact h
  · exact puts_done ⟨s, h1, h2.mono hl, h3⟩

/-- `reg += off`. -/
theorem puts_addOff {m : Mem} {st : St} {K : Nat → Prop} {reg : Nat} {k : BitVec 64} (hd : ¬ K reg)
    (he : Exact (addOff reg k)) : Puts m (addOff reg k) st false K reg (st.regs reg + k) := by
  unfold addOff at he ⊢
  split
  · rename_i hk; subst hk; exact puts_nil (by simp)
  · rename_i hk
    rw [if_neg hk] at he
    have : sx32 k = k := he _ List.mem_cons_self
    exact puts_set (by simp only [stepI, aluEval, this]) hd

/-! ### bpf_probe_read_kernel -/

/-- Registers that survive helper calls and are not the result. -/
def Hi (reg : Nat) : Nat → Prop := fun q => 6 ≤ q ∧ q ≠ reg

/-- The helper call followed by a load of its result. -/
theorem puts_probe {m : Mem} {st : St} {reg d : Nat} (hd : d < 6 ∨ d = reg) :
    Puts m (probeCall ++ [.ldStack d (-8)]) st false (Hi reg) d (load m 8 (st.regs 3)) := by
  obtain ⟨s1, he, hv, hk⟩ := exec_probeCall m st
  refine puts_done ⟨s1.set d (s1.stack (-8)), ?_, ?_, ?_⟩
  · rw [exec_append_done he]; rfl
  · intro q hq
    simp only [St.set]
    rw [if_neg (by rintro rfl; rcases hd with hd | hd; exact absurd hq.1 (by omega); exact hq.2 hd)]
    exact hk q (by have := hq.1; omega)
  · rw [set_same, hv]

/-- Jump to the exit label on zero. -/
theorem puts_jexit {m : Mem} {st : St} {K : Nat → Prop} {d : Nat} {x : BitVec 64} (hx : st.regs d = x) :
    Puts m [.jexit d] st (x == 0) K d x := by
  by_cases hz : x = 0
  · have : (x == 0) = true := beq_iff_eq.mpr hz
    rw [this]
    exact puts_exit ⟨st, by simp only [exec, execK, stepI, hx, hz, if_pos]⟩
  · have : (x == 0) = false := beq_eq_false_iff_ne.mpr hz
    rw [this]
    exact puts_done ⟨st, by simp only [exec, execK, stepI, hx, if_neg hz], Same.refl _ _, hx⟩

theorem puts_probeLoop {m : Mem} {reg : Nat} (hr : 6 ≤ reg) : ∀ {pre : List Off} {z : Off} {st : St},
    Exact (probeLoop reg (pre ++ [z])) →
    Puts m (probeLoop reg (pre ++ [z])) st (nulAll w8 m pre (st.regs 3)) (Hi reg) reg
      (chainW w8 m (pre ++ [z]) (st.regs 3)) := by
  have h3 : ∀ r, ¬ Hi r 3 := fun r h => absurd h.1 (by omega)
  have hreg : ¬ Hi reg reg := fun h => h.2 rfl
  intro pre
  induction pre with
  | nil =>
    intro z st he
    simp only [List.nil_append, probeLoop] at he ⊢
    rw [exact_append] at he
    have h1 := puts_addOff (m := m) (st := st) (K := Hi reg) (h3 _) he.1
    have := puts_append (a2 := false) (x2 := chainW w8 m [z] (st.regs 3)) (r2 := reg) h1
      (c2 := (if !z.deref then (if reg ≠ 3 then [.movReg reg 3] else [])
        else [.movImm 2 8, .movReg 1 10, .aluImm .add 1 (-8), .callProbe, .ldStack reg (-8)])) ?_
    · exact this
    · intro s1 _ hx
      cases hd : z.deref with
      | false =>
        simp only [Bool.not_false, if_true]
        rw [if_pos (by omega)]
        simp only [chainW, stepW, hd, Bool.false_eq_true, if_false]
        refine puts_set (by simp only [stepI, hx]) hreg
      | true =>
        simp only [Bool.not_true, Bool.false_eq_true, if_false]
        have := puts_probe (m := m) (st := s1) (reg := reg) (d := reg) (.inr rfl)
        rw [hx] at this
        simp only [chainW, stepW, hd, if_true]
        exact this
  | cons y r ih =>
    intro z st he
    have hne : ∃ z' r', r ++ [z] = z' :: r' := by
      cases r with
      | nil => exact ⟨z, [], rfl⟩
      | cons a b => exact ⟨a, b ++ [z], rfl⟩
    obtain ⟨z', r', hz'⟩ := hne
    have hcode : probeLoop reg (y :: r ++ [z]) = addOff 3 y.off ++
        ((if !y.deref then [] else [.movImm 2 8, .movReg 1 10, .aluImm .add 1 (-8), .callProbe, .ldStack 3 (-8), .jexit 3]) ++
          probeLoop reg (r ++ [z])) := by
      rw [List.cons_append, hz', probeLoop, List.append_assoc]
    rw [hcode] at he ⊢
    rw [exact_append, exact_append] at he
    have h1 := puts_addOff (m := m) (st := st) (K := Hi reg) (h3 _) he.1
    simp only [nulAll, List.cons_append, chainW]
    have := puts_append (a2 := (y.deref && stepW w8 m y (st.regs 3) == 0) || nulAll w8 m r (stepW w8 m y (st.regs 3)))
      (x2 := chainW w8 m (r ++ [z]) (stepW w8 m y (st.regs 3))) (r2 := reg) h1
      (c2 := ((if !y.deref then [] else [.movImm 2 8, .movReg 1 10, .aluImm .add 1 (-8), .callProbe, .ldStack 3 (-8), .jexit 3]) ++
          probeLoop reg (r ++ [z]))) ?_
    · simpa using this
    · intro s1 _ hx
      refine puts_append (r1 := 3) (x1 := stepW w8 m y (st.regs 3)) ?_ ?_
      · cases hd : y.deref with
        | false =>
          simp only [Bool.not_false, if_true, Bool.false_and, stepW, hd, Bool.false_eq_true, if_false]
          exact puts_nil hx
        | true =>
          simp only [Bool.not_true, Bool.false_eq_true, if_false, Bool.true_and, stepW, hd, if_true]
          have h2 := puts_probe (m := m) (st := s1) (reg := reg) (d := 3) (.inl (by omega))
          rw [hx] at h2
          have := puts_append h2 (c2 := [.jexit 3]) (a2 := load m 8 (st.regs 3 + y.off) == 0)
            (fun s2 _ hx2 => puts_jexit hx2)
          rw [Bool.false_or] at this
          exact this
      · intro s2 _ hx2
        have := ih (z := z) (st := s2) he.2.2
        rw [hx2] at this
        exact this

/-! ### Direct loads -/

theorem puts_directLoop {m : Mem} {reg : Nat} : ∀ {pre : List Off} {z : Off} {st : St},
    Exact (directLoop reg (pre ++ [z])) →
    Puts m (directLoop reg (pre ++ [z])) st (nulAll w8 m pre (st.regs reg)) (fun q => q ≠ reg) reg
      (chainW w8 m (pre ++ [z]) (st.regs reg)) := by
  have hreg : ¬ (fun q => q ≠ reg) reg := fun h => h rfl
  have hld : ∀ (z : Off) (st : St), sx16 z.off = z.off →
      Puts m [.ldx reg reg z.off 8] st false (fun q => q ≠ reg) reg (load m 8 (st.regs reg + z.off)) := by
    intro z st hz
    exact puts_set (by simp only [stepI, hz]) hreg
  intro pre
  induction pre with
  | nil =>
    intro z st he
    simp only [List.nil_append, directLoop, nulAll, chainW, stepW] at he ⊢
    cases hd : z.deref with
    | false =>
      simp only [hd, Bool.not_false, if_true, Bool.false_eq_true, if_false] at he ⊢
      exact puts_addOff hreg he
    | true =>
      simp only [hd, Bool.not_true, if_true, Bool.false_eq_true, if_false] at he ⊢
      exact hld z st (he _ List.mem_cons_self)
  | cons y r ih =>
    intro z st he
    have hne : ∃ z' r', r ++ [z] = z' :: r' := by
      cases r with
      | nil => exact ⟨z, [], rfl⟩
      | cons a b => exact ⟨a, b ++ [z], rfl⟩
    obtain ⟨z', r', hz'⟩ := hne
    have hcode : directLoop reg (y :: r ++ [z]) =
        (if !y.deref then addOff reg y.off else [.ldx reg reg y.off 8, .jexit reg]) ++
          directLoop reg (r ++ [z]) := by
      rw [List.cons_append, hz', directLoop]
    rw [hcode] at he ⊢
    rw [exact_append] at he
    simp only [nulAll, List.cons_append, chainW]
    refine puts_append (r1 := reg) (x1 := stepW w8 m y (st.regs reg)) ?_ ?_
    · cases hd : y.deref with
      | false =>
        simp only [hd, Bool.not_false, if_true] at he
        simp only [Bool.not_false, if_true, Bool.false_and, stepW, hd, Bool.false_eq_true, if_false]
        exact puts_addOff hreg he.1
      | true =>
        simp only [hd, Bool.not_true, Bool.false_eq_true, if_false] at he
        simp only [Bool.not_true, Bool.false_eq_true, if_false, Bool.true_and, stepW, hd, if_true]
        have h2 := hld y st (he.1 _ List.mem_cons_self)
        have := puts_append h2 (c2 := [.jexit reg]) (a2 := load m 8 (st.regs reg + y.off) == 0)
            (fun s2 _ hx2 => puts_jexit hx2)
        simpa [w8] using this
    · intro s2 _ hx2
      have := ih (z := z) (st := s2) he.2
      rw [hx2] at this
      exact this

/-! ### bpf_rdonly_cast -/

/-- The width of a read in core mode. -/
def wCore (Γ : Btf) : Off → Nat := fun z =>
  match canRdonlyCast Γ z.prev with
  | some (some _) => if canReadByRdonlyCast Γ z.ty then (loadSize Γ z.ty).getD 8 else 8
  | _ => 8

/-- The type is a pointer to a struct or union. -/
def toComp (Γ : Btf) (t : Option Ty) : Bool :=
  match Γ.kindO t with
  | .ptr t' => match Γ.kindOf t' with | .comp _ => true | _ => false
  | _ => false

/-- A dereference that is compiled to a typed load: of an integer, enum or pointer, through a pointer to a
struct or union. -/
def castable (Γ : Btf) (z : Off) : Bool := toComp Γ z.prev && canReadByRdonlyCast Γ z.ty

theorem toComp_cast {Γ : Btf} {t : Option Ty} (h : toComp Γ t = true) : canRdonlyCast Γ t ≠ some none := by
  unfold toComp at h
  unfold canRdonlyCast
  cases hk : Γ.kindO t with
  | ptr t' =>
    simp only [hk] at h ⊢
    cases hk' : Γ.kindOf t' with
    | comp id => simp only; cases Γ.castId id <;> simp
    | _ => simp [hk'] at h
  | _ => simp [hk] at h

theorem castable_iff {Γ : Btf} {z : Off} :
    castable Γ z = true ↔ toComp Γ z.prev = true ∧ canReadByRdonlyCast Γ z.ty = true := by
  simp [castable]

/-- `bpf_rdonly_cast` and a typed load. -/
theorem puts_cast {m : Mem} {st : St} {reg d id size : Nat} {off : BitVec 64} (hd : d < 6 ∨ d = reg)
    (ho : sx16 off = off) :
    Puts m [.movImm 2 (BitVec.ofNat 64 id), .callCast, .ldx d 0 off size] st false (Hi reg) d
      (load m size (st.regs 1 + off)) := by
  refine puts_done ⟨_, rfl, ?_, ?_⟩
  · intro q hq
    have h6 := hq.1
    simp only [St.set, St.clobber]
    rw [if_neg (by rintro rfl; rcases hd with hd | hd; omega; exact hq.2 hd), if_neg (by omega),
      if_neg (by omega), if_neg (by omega)]
  · rw [set_same, set_same, ho]
    simp [St.set]

theorem puts_coreProbe {m : Mem} {st : St} {reg : Nat} (hr : 6 ≤ reg) :
    Puts m (coreProbe reg true) st false (Hi reg) reg (load m 8 (st.regs 1)) := by
  have h1 : Puts m [.movReg 3 1] st false (Hi reg) 3 (st.regs 1) :=
    puts_set rfl (fun h => absurd h.1 (by omega))
  have := puts_append h1 (c2 := probeCall ++ [.ldStack reg (-8)]) (a2 := false) (r2 := reg)
    (x2 := load m 8 (st.regs 1)) (fun s1 _ hx => by
      have := puts_probe (m := m) (st := s1) (reg := reg) (d := reg) (.inr rfl)
      rw [hx] at this; exact this)
  have hc : coreProbe reg true = [.movReg 3 1] ++ (probeCall ++ [.ldStack reg (-8)]) := by
    have hd : (if (true && decide (reg ≠ 1)) = true then reg else 1) = reg := by
      rw [if_pos]; simp; omega
    unfold coreProbe probeCall
    rw [hd]; rfl
  rw [hc]; exact this

/-- What core mode needs of a chain: dereferences on the way are typed, the last one is typed or has no
offset. -/
def coreOK (Γ : Btf) (pre : List Off) (z : Off) : Prop :=
  (∀ y ∈ pre, y.deref = true → castable Γ y = true) ∧ (z.deref = true → castable Γ z = true ∨ z.off = 0)

theorem puts_coreStep_mid {o : Opts} {m : Mem} {reg : Nat} (y : Off) {st : St} {s s' : CSt}
    {u : Unit} {c : List Insn} (h : coreStep o reg y false s = .ok (u, s', c))
    (hc : y.deref = true → castable o.Γ y = true) (he : Exact c) :
    Puts m c st (y.deref && stepW (wCore o.Γ) m y (st.regs 1) == 0) (Hi reg) 1 (stepW (wCore o.Γ) m y (st.regs 1)) := by
  have h1 : ¬ Hi reg 1 := fun h => absurd h.1 (by omega)
  unfold coreStep at h
  cases hd : y.deref with
  | false =>
    rw [if_pos (by simp [hd])] at h
    obtain ⟨rfl, rfl⟩ := emit_ok h
    simp only [Bool.false_and, Bool.false_eq_true, if_false, List.append_nil] at he ⊢
    simp only [stepW, hd, Bool.false_eq_true, if_false]
    exact puts_addOff h1 he
  | true =>
    rw [if_neg (by simp [hd])] at h
    have hcc := castable_iff.mp (hc hd)
    cases hq : canRdonlyCast o.Γ y.prev with
    | none => rw [hq] at h; exact (reject_ok h).elim
    | some q =>
      cases q with
      | none => exact absurd hq (toComp_cast hcc.1)
      | some id =>
        have hrd : canReadByRdonlyCast o.Γ y.ty = true := hcc.2
        simp only [hq] at h
        cases hl : loadSize o.Γ y.ty with
        | none => simp only [hl] at h; exact (reject_ok h).elim
        | some size =>
          simp only [hl, hrd, Bool.not_true, Bool.false_eq_true, if_false] at h
          obtain ⟨_, s1, c1, c2, h1', h2, rfl⟩ := bind_ok h
          obtain ⟨rfl, rfl⟩ := useExit_ok h1'
          obtain ⟨rfl, rfl⟩ := emit_ok h2
          have hw : wCore o.Γ y = size := by simp [wCore, hq, hrd, hl]
          have ho : sx16 y.off = y.off := he (.ldx 1 0 y.off size) (by simp)
          have h3 := puts_cast (m := m) (st := st) (reg := reg) (d := 1) (id := id) (size := size) (.inl (by omega)) ho
          have := puts_append h3 (c2 := [.jexit 1]) (a2 := load m size (st.regs 1 + y.off) == 0)
            (fun s2 _ hx2 => puts_jexit hx2)
          simpa [stepW, hd, hw] using this

theorem puts_coreStep_last {o : Opts} {m : Mem} {reg : Nat} (hr : 6 ≤ reg) (z : Off) {st : St} {s s' : CSt}
    {u : Unit} {c : List Insn} (h : coreStep o reg z true s = .ok (u, s', c))
    (hc : z.deref = true → castable o.Γ z = true ∨ z.off = 0) (he : Exact c) :
    Puts m c st false (Hi reg) reg (stepW (wCore o.Γ) m z (st.regs 1)) := by
  have h1 : ¬ Hi reg 1 := fun h => absurd h.1 (by omega)
  have hreg : ¬ Hi reg reg := fun h => h.2 rfl
  have hne : (reg ≠ 1) := by omega
  unfold coreStep at h
  cases hd : z.deref with
  | false =>
    rw [if_pos (by simp [hd])] at h
    obtain ⟨rfl, rfl⟩ := emit_ok h
    rw [if_pos (by simp [hne])] at he ⊢
    rw [exact_append] at he
    simp only [stepW, hd, Bool.false_eq_true, if_false]
    exact puts_append (puts_addOff h1 he.1) (fun s1 _ hx => puts_set (by simp only [stepI, hx]) hreg)
  | true =>
    rw [if_neg (by simp [hd])] at h
    have hprobe : z.off = 0 → wCore o.Γ z = 8 → c = coreProbe reg true →
        Puts m c st false (Hi reg) reg (stepW (wCore o.Γ) m z (st.regs 1)) := by
      intro ho hw hcode
      subst hcode
      have := puts_coreProbe (m := m) (st := st) hr
      simpa [stepW, hd, hw, ho] using this
    cases hq : canRdonlyCast o.Γ z.prev with
    | none => rw [hq] at h; exact (reject_ok h).elim
    | some q =>
      cases q with
      | none =>
        simp only [hq] at h
        obtain ⟨rfl, rfl⟩ := emit_ok h
        refine hprobe ?_ (by simp [wCore, hq]) rfl
        rcases hc hd with hcc | ho
        · exact absurd hq (toComp_cast (castable_iff.mp hcc).1)
        · exact ho
      | some id =>
        simp only [hq] at h
        cases hl : loadSize o.Γ z.ty with
        | none => simp only [hl] at h; exact (reject_ok h).elim
        | some size =>
          simp only [hl] at h
          cases hrd : canReadByRdonlyCast o.Γ z.ty with
          | false =>
            simp only [hrd, Bool.not_false, if_true] at h
            obtain ⟨rfl, rfl⟩ := emit_ok h
            refine hprobe ?_ (by simp [wCore, hq, hrd]) rfl
            rcases hc hd with hcc | ho
            · have := (castable_iff.mp hcc).2; simp [hrd] at this
            · exact ho
          | true =>
            simp only [hrd, Bool.not_true, Bool.false_eq_true, if_false, if_true] at h
            obtain ⟨rfl, rfl⟩ := emit_ok h
            rw [if_pos hne] at he ⊢
            have hw : wCore o.Γ z = size := by simp [wCore, hq, hrd, hl]
            have ho : sx16 z.off = z.off := he (.ldx reg 0 z.off size) (by simp)
            have := puts_cast (m := m) (st := st) (reg := reg) (d := reg) (id := id) (size := size) (.inr rfl) ho
            simpa [stepW, hd, hw] using this

theorem puts_coreLoop {o : Opts} {m : Mem} {reg : Nat} (hr : 6 ≤ reg) : ∀ {pre : List Off} {z : Off} {st : St}
    {s s' : CSt} {u : Unit} {c : List Insn}, coreLoop o reg (pre ++ [z]) s = .ok (u, s', c) →
    coreOK o.Γ pre z → Exact c →
    Puts m c st (nulAll (wCore o.Γ) m pre (st.regs 1)) (Hi reg) reg
      (chainW (wCore o.Γ) m (pre ++ [z]) (st.regs 1)) := by
  intro pre
  induction pre with
  | nil =>
    intro z st s s' u c h hok he
    obtain ⟨_, s1, c1, c2, h1, h2, rfl⟩ := bind_ok h
    obtain ⟨_, rfl, rfl⟩ := pure_ok h2
    rw [List.append_nil] at he ⊢
    exact puts_coreStep_last hr z h1 hok.2 he
  | cons y r ih =>
    intro z st s s' u c h hok he
    obtain ⟨_, s1, c1, c2, h1, h2, rfl⟩ := bind_ok h
    have hl : (r ++ [z]).isEmpty = false := by simp
    rw [exact_append] at he
    have h1 : coreStep o reg y false s = .ok ((), s1, c1) := by simpa [hl] using h1
    have hs := puts_coreStep_mid (m := m) (st := st) y h1 (hok.1 y List.mem_cons_self) he.1
    simp only [nulAll, List.cons_append, chainW]
    refine puts_append hs fun s2 _ hx2 => ?_
    have := ih (z := z) (st := s2) h2 ⟨fun q hq => hok.1 q (List.mem_cons_of_mem _ hq), hok.2⟩ he.2
    rw [hx2] at this
    exact this

/-! ### All modes -/

/-- Read width by mode. -/
def wOf (o : Opts) : Off → Nat :=
  match o.mode with
  | .core => wCore o.Γ
  | _ => w8

/-- Only callee-saved registers are handed out, or no helper is ever called. -/
def LoOK (o : Opts) (u : Regs) : Prop :=
  o.mode = .direct ∨ (6 ≤ o.lo ∧ ∀ r, r ≤ 5 → u r = false)

def chainOK (o : Opts) (pre : List Off) (z : Off) : Prop := o.mode = .core → coreOK o.Γ pre z

/-- The registers a block must not change. -/
def Keep (u : Regs) : Nat → Prop := fun q => u q = true ∨ q = 10

theorem nulAll_noDeref {f : Off → Nat} {m : Mem} : ∀ {a : List Off} {x : BitVec 64},
    (∀ z ∈ a, z.deref = false) → nulAll f m a x = false := by
  intro a
  induction a with
  | nil => intro x _; rfl
  | cons z r ih =>
    intro x h
    simp only [nulAll, h z List.mem_cons_self, Bool.false_and, Bool.false_or]
    exact ih fun y hy => h y (List.mem_cons_of_mem _ hy)

theorem usedNr_zero {u : Regs} {n : Nat} (hn : n ≤ 5) (h : ∀ r, r ≤ 5 → u r = false) : usedNr u n = 0 := by
  unfold usedNr
  rw [List.length_eq_zero_iff, List.filter_eq_nil_iff]
  intro i hi
  have := List.mem_range.mp hi
  simp [h (1 + i) (by omega)]

/-- With only callee-saved registers in use nothing is saved around calls. -/
theorem push_nil {o : Opts} {n : Nat} (hn : n ≤ 5) {s s2 : CSt} {u : Unit} {c : List Insn}
    (hu : ∀ r, r ≤ 5 → s.used r = false) (h : pushRegs o n s = .ok (u, s2, c)) : s2 = s ∧ c = [] := by
  obtain ⟨h1, h2⟩ := pushRegs_ok h
  refine ⟨h1, ?_⟩
  rw [h2, usedNr_zero hn hu, hu 0 (by omega)]
  rfl

theorem pop_nil {o : Opts} {n : Nat} (hn : n ≤ 5) {s s2 : CSt} {u : Unit} {c : List Insn}
    (hu : ∀ r, r ≤ 5 → s.used r = false) (h : popRegs o n s = .ok (u, s2, c)) : s2 = s ∧ c = [] := by
  obtain ⟨h1, h2⟩ := popRegs_ok h
  refine ⟨h1, ?_⟩
  rw [h2, usedNr_zero hn hu, hu 0 (by omega)]
  rfl

/-- Adding the offsets of a chain without dereference. -/
theorem puts_adds {m : Mem} {reg : Nat} {f : Off → Nat} {K : Nat → Prop} (hK : ¬ K reg) :
    ∀ {a : List Off} {st : St}, (∀ z ∈ a, z.deref = false) → Exact (a.flatMap fun x => addOff reg x.off) →
    Puts m (a.flatMap fun x => addOff reg x.off) st false K reg (chainW f m a (st.regs reg)) := by
  intro a
  induction a with
  | nil => intro st _ _; exact puts_nil rfl
  | cons z r ih =>
    intro st h he
    simp only [List.flatMap_cons] at he ⊢
    rw [exact_append] at he
    refine puts_append (a1 := false) (a2 := false) (puts_addOff hK he.1) fun s1 _ hx => ?_
    have := ih (st := s1) (fun y hy => h y (List.mem_cons_of_mem _ hy)) he.2
    simp only [chainW, stepW, h z List.mem_cons_self, Bool.false_eq_true, if_false]
    rw [hx] at this
    exact this

/-- C08, for every chain: the emitted code leaves for the exit label exactly if a pointer on the way is
NULL, otherwise `reg` holds the value at the end of the chain and no register in use is disturbed. -/
theorem offsetChain_reads {o : Opts} {m : Mem} {pre : List Off} {z : Off} {reg : Nat} {s s' : CSt} {u : Unit}
    {c : List Insn} (h : emitOffsetChain o (pre ++ [z]) reg s = .ok (u, s', c)) (hlo : LoOK o s.used)
    (hr : s.used reg = true) (hok : chainOK o pre z) (he : Exact c) (st : St) :
    Puts m c st (nulAll (wOf o) m pre (st.regs reg)) (fun q => Keep s.used q ∧ q ≠ reg) reg
      (chainW (wOf o) m (pre ++ [z]) (st.regs reg)) := by
  have hhi : o.mode ≠ .direct → 6 ≤ reg ∧ ∀ q, (Keep s.used q ∧ q ≠ reg) → Hi reg q := by
    intro hm
    rcases hlo with hd | ⟨_, hu⟩
    · exact absurd hd hm
    · constructor
      · rcases Nat.lt_or_ge reg 6 with hlt | hge
        · rw [hu reg (by omega)] at hr; simp at hr
        · exact hge
      · rintro q ⟨hq, hne⟩
        refine ⟨?_, hne⟩
        rcases hq with hq | rfl
        · rcases Nat.lt_or_ge q 6 with hlt | hge
          · rw [hu q (by omega)] at hq; simp at hq
          · exact hge
        · omega
  have husd : o.mode ≠ .direct → ∀ r, r ≤ 5 → s.used r = false := by
    intro hm
    rcases hlo with hd | ⟨_, hu⟩
    · exact absurd hd hm
    · exact hu
  unfold emitOffsetChain at h
  split at h
  · rename_i hall
    obtain ⟨rfl, rfl⟩ := emit_ok h
    have hall' : ∀ y ∈ pre ++ [z], y.deref = false := by
      intro y hy
      have := List.all_eq_true.mp hall y hy
      simpa using this
    rw [nulAll_noDeref fun y hy => hall' y (by simp [hy])]
    exact puts_adds (fun h => h.2 rfl) hall' he
  · cases hm : o.mode with
    | core =>
      simp only [hm, emitCoreRead] at h
      obtain ⟨hr6, hK⟩ := hhi (by rw [hm]; simp)
      have hu5 := husd (by rw [hm]; simp)
      have hn : (if o.fastcall = true then 2 else 5) ≤ 5 := by split <;> omega
      obtain ⟨_, s1, c1, c2, h1, h2, rfl⟩ := bind_ok h
      obtain ⟨rfl, rfl⟩ := push_nil hn hu5 h1
      obtain ⟨_, s3, c3, c4, h3, h4, rfl⟩ := bind_ok h2
      obtain ⟨rfl, rfl⟩ := emit_ok h3
      obtain ⟨_, s5, c5, c6, h5, h6, rfl⟩ := bind_ok h4
      have hu' := (safe_coreLoop h5).1
      obtain ⟨rfl, rfl⟩ := pop_nil hn (by rw [hu']; exact hu5) h6
      rw [if_pos (by omega)] at he ⊢
      rw [List.nil_append, List.append_nil] at he ⊢
      rw [exact_append] at he
      have hw : wOf o = wCore o.Γ := by simp [wOf, hm]
      rw [hw]
      refine puts_mono (K := Hi reg) ?_ hK
      have h7 : Puts m [.movReg 1 reg] st false (Hi reg) 1 (st.regs reg) :=
        puts_set rfl (fun h => absurd h.1 (by omega))
      have := puts_append h7 (c2 := c5) (a2 := nulAll (wCore o.Γ) m pre (st.regs reg)) (r2 := reg)
        (x2 := chainW (wCore o.Γ) m (pre ++ [z]) (st.regs reg)) fun s8 _ hx => by
          have := puts_coreLoop (m := m) (st := s8) hr6 h5 (hok hm) he.2
          rw [hx] at this; exact this
      simpa using this
    | direct =>
      simp only [hm, emitDirectRead] at h
      obtain ⟨_, s1, c1, c2, h1, h2, rfl⟩ := bind_ok h
      obtain ⟨rfl, rfl⟩ := emit_ok h1
      obtain ⟨_, rfl⟩ := whenExit_ok h2
      rw [List.append_nil] at he ⊢
      have hw : wOf o = w8 := by simp [wOf, hm]
      rw [hw]
      exact puts_mono (puts_directLoop he) fun q hq => hq.2
    | probe =>
      simp only [hm, emitProbeRead] at h
      obtain ⟨hr6, hK⟩ := hhi (by rw [hm]; simp)
      have hu5 := husd (by rw [hm]; simp)
      obtain ⟨_, s1, c1, c2, h1, h2, rfl⟩ := bind_ok h
      obtain ⟨rfl, rfl⟩ := push_nil (by omega) hu5 h1
      obtain ⟨_, s3, c3, c4, h3, h4, rfl⟩ := bind_ok h2
      obtain ⟨rfl, rfl⟩ := emit_ok h3
      obtain ⟨_, s5, c5, c6, h5, h6, rfl⟩ := bind_ok h4
      obtain ⟨rfl, rfl⟩ := emit_ok h5
      obtain ⟨_, s7, c7, c8, h7, h8, rfl⟩ := bind_ok h6
      obtain ⟨hu', rfl⟩ := whenExit_ok h7
      obtain ⟨rfl, rfl⟩ := pop_nil (by omega) (by rw [hu']; exact hu5) h8
      rw [if_pos (by omega)] at he ⊢
      rw [List.nil_append, List.append_nil, List.append_nil] at he ⊢
      rw [exact_append] at he
      have hw : wOf o = w8 := by simp [wOf, hm]
      rw [hw]
      refine puts_mono (K := Hi reg) ?_ hK
      have h9 : Puts m [.movReg 3 reg] st false (Hi reg) 3 (st.regs reg) :=
        puts_set rfl (fun h => absurd h.1 (by omega))
      have := puts_append h9 (c2 := probeLoop reg (pre ++ [z])) (a2 := nulAll w8 m pre (st.regs reg)) (r2 := reg)
        (x2 := chainW w8 m (pre ++ [z]) (st.regs reg)) fun s8 _ hx => by
          have := puts_probeLoop (m := m) (st := s8) hr6 he.2
          rw [hx] at this; exact this
      simpa using this

end Bpfsnoop.Cc
