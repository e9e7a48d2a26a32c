import Verif.Model.CcNum

/-!
C12 (integer literals) and C06 (register allocation).
-/
namespace Bpfsnoop.Cc

/-! ## C12 -/

/-- Specification: the integer a digit string denotes in a base, most significant digit first. -/
def digitsValue (base : Nat) (ds : List Nat) : Nat := ds.foldl (fun n d => n * base + d) 0

/-- Specification: the digit a character stands for is its place in one of these two rows. -/
def digitOf (c : Char) : Option Nat :=
  match "0123456789abcdefghijklmnopqrstuvwxyz".toList.idxOf? c with
  | some i => some i
  | none => "0123456789ABCDEFGHIJKLMNOPQRSTUVWXYZ".toList.idxOf? c

/-- Specification: `s` spells the digits `ds`, all smaller than the base. -/
def Spells (base : Nat) (s : List Char) (ds : List Nat) : Prop :=
  s ≠ [] ∧ s.map digitOf = ds.map some ∧ ∀ d ∈ ds, d < base

theorem digit_table : ∀ n < 128, digitVal (Char.ofNat n) = digitOf (Char.ofNat n) := by decide +kernel

theorem digit_rows : (∀ c ∈ "0123456789abcdefghijklmnopqrstuvwxyz".toList, c.toNat < 128) ∧
    (∀ c ∈ "0123456789ABCDEFGHIJKLMNOPQRSTUVWXYZ".toList, c.toNat < 128) := by decide +kernel

/-- The digit values of the code are the places in the rows, for every character. -/
theorem digitVal_eq (c : Char) : digitVal c = digitOf c := by
  by_cases h : c.toNat < 128
  · have := digit_table c.toNat h
    rwa [Char.ofNat_toNat] at this
  · have h1 : ∀ d : Char, d.toNat < 128 → ¬ c ≤ d := by
      intro d hd hle
      have : c.toNat ≤ d.toNat := hle
      omega
    have h2 : digitVal c = none := by
      unfold digitVal
      rw [if_neg (fun hh => h1 '9' (by decide) hh.2), if_neg (fun hh => h1 'z' (by decide) hh.2),
        if_neg (fun hh => h1 'Z' (by decide) hh.2)]
    have h3 : "0123456789abcdefghijklmnopqrstuvwxyz".toList.idxOf? c = none :=
      List.idxOf?_eq_none_iff.mpr fun hm => h (digit_rows.1 c hm)
    have h4 : "0123456789ABCDEFGHIJKLMNOPQRSTUVWXYZ".toList.idxOf? c = none :=
      List.idxOf?_eq_none_iff.mpr fun hm => h (digit_rows.2 c hm)
    unfold digitOf
    rw [h2, h3, h4]

theorem digitVal_fun : digitVal = digitOf := funext digitVal_eq

/-- Specification: unsigned literals and what they denote. -/
inductive Lit : List Char → Nat → Prop
  | hex (s ds) : Spells 16 s ds → Lit ('0' :: 'x' :: s) (digitsValue 16 ds)
  | oct (s ds) : Spells 8 s ds → Lit ('0' :: 'o' :: s) (digitsValue 8 ds)
  | bin (s ds) : Spells 2 s ds → Lit ('0' :: 'b' :: s) (digitsValue 2 ds)
  | oldOct (s ds) : Spells 8 s ds → Lit ('0' :: s) (digitsValue 8 ds)
  | dec (s ds) : Spells 10 s ds → (s = ['0'] ∨ s.head? ≠ some '0') → Lit s (digitsValue 10 ds)
  | chr (c) : c.toNat < 128 → Lit ['\'', c, '\''] c.toNat

theorem foldl_ge (base : Nat) (hb : 0 < base) (ds : List Nat) :
    ∀ n, n ≤ ds.foldl (fun n d => n * base + d) n := by
  induction ds with
  | nil => intro n; exact Nat.le_refl n
  | cons d ds ih =>
    intro n
    simp only [List.foldl_cons]
    refine Nat.le_trans ?_ (ih _)
    exact Nat.le_trans (Nat.le_mul_of_pos_right n hb) (Nat.le_add_right _ _)

theorem parseDigits_iff (base : Nat) (hb : 0 < base) (s : List Char) : ∀ (n v : Nat), n < 2 ^ 64 →
    (parseDigits base n s = some v ↔
      ∃ ds : List Nat, s.map digitVal = ds.map some ∧ (∀ d ∈ ds, d < base) ∧
        v = ds.foldl (fun n d => n * base + d) n ∧ v < 2 ^ 64) := by
  induction s with
  | nil =>
    intro n v hn
    simp only [parseDigits, List.map_nil, Option.some.injEq]
    constructor
    · rintro rfl; exact ⟨[], rfl, by simp, rfl, hn⟩
    · rintro ⟨ds, h1, _, h3, _⟩
      cases ds with
      | nil => exact h3.symm
      | cons d ds => simp at h1
  | cons c cs ih =>
    intro n v hn
    simp only [parseDigits]
    cases hd : digitVal c with
    | none =>
      simp only [reduceCtorEq, false_iff]
      rintro ⟨ds, h1, _⟩
      cases ds with
      | nil => simp at h1
      | cons d ds => simp [hd] at h1
    | some d =>
      dsimp only
      by_cases h1 : d ≥ base
      · rw [if_pos h1]
        simp only [reduceCtorEq, false_iff]
        rintro ⟨ds, h2, h3, _⟩
        cases ds with
        | nil => simp at h2
        | cons d' ds =>
          simp [hd] at h2
          have := h3 d' (by simp)
          omega
      · rw [if_neg h1]
        by_cases h2 : n * base + d ≥ 2 ^ 64
        · rw [if_pos h2]
          simp only [reduceCtorEq, false_iff]
          rintro ⟨ds, h3, h4, h5, h6⟩
          cases ds with
          | nil => simp at h3
          | cons d' ds =>
            simp [hd] at h3
            obtain ⟨rfl, h3⟩ := h3
            simp only [List.foldl_cons] at h5
            have := foldl_ge base hb ds (n * base + d)
            omega
        · rw [if_neg h2, ih _ _ (by omega)]
          constructor
          · rintro ⟨ds, h3, h4, h5, h6⟩
            refine ⟨d :: ds, by simp [hd, h3], ?_, h5, h6⟩
            intro x hx
            rcases List.mem_cons.mp hx with rfl | hx
            · omega
            · exact h4 x hx
          · rintro ⟨ds, h3, h4, h5, h6⟩
            cases ds with
            | nil => simp at h3
            | cons d' ds =>
              simp [hd] at h3
              obtain ⟨rfl, h3⟩ := h3
              exact ⟨ds, h3, fun x hx => h4 x (by simp [hx]), h5, h6⟩

theorem parseUint_iff (base : Nat) (hb : 0 < base) (s : List Char) (v : Nat) :
    parseUint base s = some v ↔ ∃ ds, Spells base s ds ∧ v = digitsValue base ds ∧ v < 2 ^ 64 := by
  unfold Spells
  rw [← digitVal_fun]
  cases s with
  | nil => simp [parseUint]
  | cons c cs =>
    simp only [parseUint]
    rw [parseDigits_iff base hb _ _ _ (by decide)]
    constructor
    · rintro ⟨ds, h1, h2, h3, h4⟩
      exact ⟨ds, ⟨by simp, h1, h2⟩, h3, h4⟩
    · rintro ⟨ds, ⟨_, h1, h2⟩, h3, h4⟩
      exact ⟨ds, h1, h2, h3, h4⟩

theorem digitVal_zero : digitVal '0' = some 0 := by decide

theorem Spells.head {base : Nat} {c : Char} {cs : List Char} {ds : List Nat}
    (h : Spells base (c :: cs) ds) : ∃ d, digitVal c = some d ∧ d < base := by
  obtain ⟨_, h1, h2⟩ := h
  rw [← digitVal_fun] at h1
  cases ds with
  | nil => simp at h1
  | cons d ds => simp at h1; exact ⟨d, h1.1, h2 d (by simp)⟩

/-- C12: `parseUnsigned` accepts exactly the literals that denote an integer below 2^64, and
returns that integer; everything else is rejected. -/
theorem parseUnsigned_iff (t : List Char) (v : Nat) :
    parseUnsigned t = some v ↔ Lit t v ∧ v < 2 ^ 64 := by
  have hx : digitVal 'x' = some 33 := by decide
  have ho : digitVal 'o' = some 24 := by decide
  have hb : digitVal 'b' = some 11 := by decide
  have hq : digitVal '\'' = none := by decide
  constructor
  · intro h
    unfold parseUnsigned at h
    split at h
    · obtain ⟨ds, h1, rfl, h3⟩ := (parseUint_iff _ (by decide) _ _).mp h
      exact ⟨.hex _ _ h1, h3⟩
    · obtain ⟨ds, h1, rfl, h3⟩ := (parseUint_iff _ (by decide) _ _).mp h
      exact ⟨.oct _ _ h1, h3⟩
    · obtain ⟨ds, h1, rfl, h3⟩ := (parseUint_iff _ (by decide) _ _).mp h
      exact ⟨.bin _ _ h1, h3⟩
    · obtain ⟨ds, h1, rfl, h3⟩ := (parseUint_iff _ (by decide) _ _).mp h
      exact ⟨.oldOct _ _ h1, h3⟩
    · split at h
      · split at h
        · simp at h; subst h
          rename_i hc
          exact ⟨.chr _ hc, by omega⟩
        · simp at h
      · simp at h
    · rename_i h1 h2 h3 h4 h5
      obtain ⟨ds, h6, rfl, h7⟩ := (parseUint_iff _ (by decide) _ _).mp h
      refine ⟨.dec _ _ h6 ?_, h7⟩
      cases t with
      | nil => right; simp
      | cons c cs =>
        by_cases hc : c = '0'
        · subst hc
          left
          cases cs with
          | nil => rfl
          | cons c' cs => exact absurd rfl (h4 c' cs)
        · right; simpa using hc
  · rintro ⟨h, hv⟩
    cases h with
    | hex s ds h => exact (parseUint_iff _ (by decide) _ _).mpr ⟨ds, h, rfl, hv⟩
    | oct s ds h => exact (parseUint_iff _ (by decide) _ _).mpr ⟨ds, h, rfl, hv⟩
    | bin s ds h => exact (parseUint_iff _ (by decide) _ _).mpr ⟨ds, h, rfl, hv⟩
    | oldOct s ds h =>
      cases s with
      | nil => exact absurd rfl h.1
      | cons c cs =>
        obtain ⟨d, hd, hlt⟩ := h.head
        have h1 : c ≠ 'x' := by rintro rfl; rw [hx] at hd; simp at hd; omega
        have h2 : c ≠ 'o' := by rintro rfl; rw [ho] at hd; simp at hd; omega
        have h3 : c ≠ 'b' := by rintro rfl; rw [hb] at hd; simp at hd; omega
        have : parseUnsigned ('0' :: c :: cs) = parseUint 8 (c :: cs) := by
          unfold parseUnsigned
          split <;> simp_all
        rw [this]
        exact (parseUint_iff _ (by decide) _ _).mpr ⟨ds, h, rfl, hv⟩
    | dec s ds h h0 =>
      cases t with
      | nil => exact absurd rfl h.1
      | cons c cs =>
        obtain ⟨d, hd, hlt⟩ := h.head
        have h1 : c ≠ '\'' := by rintro rfl; rw [hq] at hd; simp at hd
        have : parseUnsigned (c :: cs) = parseUint 10 (c :: cs) := by
          by_cases hc : c = '0'
          · subst hc
            have : cs = [] := by simpa using h0
            subst this
            rfl
          · unfold parseUnsigned
            split <;> simp_all
        rw [this]
        exact (parseUint_iff _ (by decide) _ _).mpr ⟨ds, h, rfl, hv⟩
    | chr c h => simp [parseUnsigned, h]

/-- Specification: signed literals. A sign may precede an unsigned literal. -/
inductive SLit : List Char → Int → Prop
  | pos (t v) : Lit t v → SLit t v
  | plus (t v) : Lit t v → SLit ('+' :: t) v
  | neg (t v) : Lit t v → SLit ('-' :: t) (-v)
  | negPlus (t v) : Lit t v → SLit ('-' :: '+' :: t) (-v)

theorem Lit.head {t : List Char} {v : Nat} (h : Lit t v) :
    ∃ c cs, t = c :: cs ∧ c ≠ '+' ∧ c ≠ '-' := by
  cases h with
  | hex s ds h => exact ⟨_, _, rfl, by decide, by decide⟩
  | oct s ds h => exact ⟨_, _, rfl, by decide, by decide⟩
  | bin s ds h => exact ⟨_, _, rfl, by decide, by decide⟩
  | oldOct s ds h => exact ⟨_, _, rfl, by decide, by decide⟩
  | dec s ds h h0 =>
    cases t with
    | nil => exact absurd rfl h.1
    | cons c cs =>
      obtain ⟨d, hd, _⟩ := h.head
      refine ⟨c, cs, rfl, ?_, ?_⟩
      · rintro rfl; rw [show digitVal '+' = none by decide] at hd; simp at hd
      · rintro rfl; rw [show digitVal '-' = none by decide] at hd; simp at hd
  | chr c h => exact ⟨_, _, rfl, by decide, by decide⟩

theorem trimPlus_iff (t : List Char) (v : Nat) :
    parseUnsigned (trimPlus t) = some v ↔
      v < 2 ^ 64 ∧ (Lit t v ∨ ∃ t', t = '+' :: t' ∧ Lit t' v) := by
  rw [parseUnsigned_iff]
  unfold trimPlus
  split
  · rename_i r
    constructor
    · rintro ⟨h1, h2⟩; exact ⟨h2, Or.inr ⟨r, rfl, h1⟩⟩
    · rintro ⟨h1, h2 | ⟨t', h2, h3⟩⟩
      · obtain ⟨c, cs, h, h', _⟩ := h2.head
        simp at h
        exact absurd h.1.symm h'
      · simp at h2; subst h2; exact ⟨h3, h1⟩
  · rename_i h
    constructor
    · rintro ⟨h1, h2⟩; exact ⟨h2, Or.inl h1⟩
    · rintro ⟨h1, h2 | ⟨t', h2, h3⟩⟩
      · exact ⟨h2, h1⟩
      · exact absurd h2 (h t')

/-- C12: `parseNumber` accepts exactly the signed literals whose magnitude is below 2^64, and
returns the denoted integer as a 64-bit two's complement number. -/
theorem parseNumber_iff (t : List Char) (b : BitVec 64) :
    parseNumber t = some b ↔
      ∃ v : Int, SLit t v ∧ v.natAbs < 2 ^ 64 ∧ b = BitVec.ofInt 64 v := by
  have key : ∀ n : Nat, BitVec.ofInt 64 (-(n : Int)) = -(BitVec.ofNat 64 n) := by
    intro n
    rw [BitVec.ofInt_neg]; simp
  unfold parseNumber
  split
  · rename_i r
    simp only [Option.map_eq_some_iff, trimPlus_iff]
    constructor
    · rintro ⟨n, ⟨h1, h2 | ⟨t', rfl, h2⟩⟩, rfl⟩
      · exact ⟨-n, .neg _ _ h2, by simpa using h1, (key n).symm⟩
      · exact ⟨-n, .negPlus _ _ h2, by simpa using h1, (key n).symm⟩
    · rintro ⟨v, h1, h2, rfl⟩
      cases h1 with
      | pos t n h =>
        obtain ⟨c, cs, h', _, h''⟩ := h.head
        simp at h'
        exact absurd h'.1.symm h''
      | neg t n h => exact ⟨n, ⟨by simpa using h2, Or.inl h⟩, (key n).symm⟩
      | negPlus t n h => exact ⟨n, ⟨by simpa using h2, Or.inr ⟨_, rfl, h⟩⟩, (key n).symm⟩
  · rename_i hne
    simp only [Option.map_eq_some_iff, trimPlus_iff]
    constructor
    · rintro ⟨n, ⟨h1, h2 | ⟨t', rfl, h2⟩⟩, rfl⟩
      · exact ⟨n, .pos _ _ h2, by simpa using h1, by simp⟩
      · exact ⟨n, .plus _ _ h2, by simpa using h1, by simp⟩
    · rintro ⟨v, h1, h2, rfl⟩
      cases h1 with
      | pos t n h => exact ⟨n, ⟨by simpa using h2, Or.inl h⟩, by simp⟩
      | plus t n h => exact ⟨n, ⟨by simpa using h2, Or.inr ⟨_, rfl, h⟩⟩, by simp⟩
      | neg t n h => exact absurd rfl (hne t)
      | negPlus t n h => exact absurd rfl (hne _)

/-- Literals that fit `int64` denote themselves. -/
theorem parseNumber_value (t : List Char) (v : Int) (h : SLit t v) (hlo : -2 ^ 63 ≤ v)
    (hhi : v < 2 ^ 63) : ∃ b, parseNumber t = some b ∧ b.toInt = v := by
  refine ⟨BitVec.ofInt 64 v, (parseNumber_iff _ _).mpr ⟨v, h, by omega, rfl⟩, ?_⟩
  rw [BitVec.toInt_ofInt]
  apply Int.bmod_eq_of_le <;> omega

/-- "Out of range literals are rejected" fails for signed use: 2^63 and above wrap to negative
numbers, and `-18446744073709551615` is 1. -/
theorem parseNumber_wraps_violated :
    parseNumber "9223372036854775808".toList = some (BitVec.ofInt 64 (-2 ^ 63)) ∧
    parseNumber "-18446744073709551615".toList = some 1 := by decide

/-- Accepted examples of each form, and rejected malformed text. -/
theorem parseNumber_examples :
    parseNumber "0x1F".toList = some 31 ∧ parseNumber "-017".toList = some (BitVec.ofInt 64 (-15)) ∧
    parseNumber "0b101".toList = some 5 ∧ parseNumber "0o17".toList = some 15 ∧
    parseNumber "'A'".toList = some 65 ∧ parseNumber "10".toList = some 10 ∧
    parseNumber "08".toList = none ∧ parseNumber "0X1F".toList = none ∧
    parseNumber "1_000".toList = none ∧ parseNumber "0x".toList = none ∧
    parseNumber "".toList = none ∧ parseNumber "18446744073709551616".toList = none := by decide

/-! ## C06 -/

theorem allocFrom_spec (lo : Nat) (u : Regs) (n r : Nat) (u' : Regs)
    (h : allocFrom lo u n = some (r, u')) :
    u r = false ∧ lo ≤ r ∧ r < n ∧ u' = setReg u r true ∧ ∀ r', r < r' → r' < n → u r' = true := by
  induction n with
  | zero => simp [allocFrom] at h
  | succ k ih =>
    simp only [allocFrom] at h
    split at h
    · simp at h
    · split at h
      · rename_i h1 h2
        simp at h
        obtain ⟨rfl, rfl⟩ := h
        refine ⟨by simpa using h2, by omega, by omega, rfl, ?_⟩
        intro r' h3 h4; omega
      · rename_i h1 h2
        obtain ⟨a, b, c, d, e⟩ := ih h
        refine ⟨a, b, by omega, d, ?_⟩
        intro r' h3 h4
        by_cases h5 : r' = k
        · subst h5; simpa using h2
        · exact e r' h3 (by omega)

theorem allocFrom_none (lo : Nat) (u : Regs) (n : Nat) :
    allocFrom lo u n = none ↔ ∀ r, lo ≤ r → r < n → u r = true := by
  induction n with
  | zero => simp [allocFrom]
  | succ k ih =>
    simp only [allocFrom]
    split
    · simp only [true_iff]; intro r h1 h2; omega
    · split
      · rename_i h1 h2
        simp only [reduceCtorEq, false_iff]
        intro h
        have := h k (by omega) (by omega)
        simp [this] at h2
      · rename_i h1 h2
        rw [ih]
        constructor
        · intro h r h3 h4
          by_cases h5 : r = k
          · subst h5; simpa using h2
          · exact h r h3 (by omega)
        · intro h r h3 h4
          exact h r h3 (by omega)

/-- C06: `Alloc` returns a register that was free and is none of the reserved ones (R9, R10), marks
exactly that one, and picks the highest free one. -/
theorem alloc_exclusive (u : Regs) (r : Nat) (u' : Regs) (h : alloc 0 u = some (r, u')) :
    u r = false ∧ r ≤ 8 ∧ u' r = true ∧ (∀ r', r' ≠ r → u' r' = u r') ∧
      (∀ r', r < r' → r' ≤ 8 → u r' = true) := by
  obtain ⟨h1, _, h2, rfl, h3⟩ := allocFrom_spec _ _ _ _ _ h
  refine ⟨h1, by omega, by simp [setReg], ?_, fun r' a b => h3 r' a (by omega)⟩
  intro r' hr; simp [setReg, hr]

/-- C06: exhaustion is reported exactly when R0 to R8 are all in use. -/
theorem alloc_exhausted_iff (u : Regs) : alloc 0 u = none ↔ ∀ r ≤ 8, u r = true := by
  simp only [alloc, allocFrom_none]
  constructor
  · intro h r hr; exact h r (by omega) (by omega)
  · intro h r _ hr; exact h r (by omega)

/-- C06: `Free` makes exactly that register available. -/
theorem free_exact (u : Regs) (r : Nat) (hr : r ≤ 9) :
    free u r r = false ∧ ∀ r', r' ≠ r → free u r r' = u r' := by
  simp only [free, if_pos hr, setReg, if_true, true_and]
  intro r' h; simp [h]

/-- C06: `MarkUsed` reserves exactly that register; it panics for R10, which `Alloc` never returns. -/
theorem markUsed_exact (u : Regs) (r : Nat) :
    (∀ u', markUsed u r = some u' → u' r = true ∧ ∀ r', r' ≠ r → u' r' = u r') ∧
    (markUsed u r = none ↔ 9 < r) := by
  simp only [markUsed]
  constructor
  · intro u' h
    split at h
    · simp at h; subst h
      simp only [setReg, if_true, true_and]
      intro r' h; simp [h]
    · simp at h
  · split
    · simp; omega
    · simp; omega

/-- A history of the allocator: whatever registers are reserved, allocated or freed, a register is
only handed out when it is not held. `held` is the set of registers handed out or reserved and
not yet freed. -/
inductive AOp | alloc | free (r : Nat) | mark (r : Nat)

def aRun (u : Regs) (held : Nat → Prop) : List AOp → Prop
  | [] => True
  | .alloc :: os =>
    match alloc 0 u with
    | none => (∀ r ≤ 8, held r) ∧ aRun u held os
    | some (r, u') => ¬ held r ∧ aRun u' (fun r' => r' = r ∨ held r') os
  | .free r :: os => r ≤ 9 → aRun (free u r) (fun r' => r' ≠ r ∧ held r') os
  | .mark r :: os =>
    match markUsed u r with
    | none => 9 < r
    | some u' => aRun u' (fun r' => r' = r ∨ held r') os

theorem aRun_ok (ops : List AOp) : ∀ (u : Regs) (held : Nat → Prop),
    (∀ r ≤ 9, u r = true ↔ held r) → aRun u held ops := by
  induction ops with
  | nil => intros; trivial
  | cons o os ih =>
    intro u held h
    cases o with
    | alloc =>
      simp only [aRun]
      cases ha : alloc 0 u with
      | none =>
        refine ⟨?_, ih _ _ h⟩
        intro r hr
        exact (h r (by omega)).mp ((alloc_exhausted_iff u).mp ha r hr)
      | some p =>
        obtain ⟨r, u'⟩ := p
        obtain ⟨h1, h2, h3, h4, _⟩ := alloc_exclusive u r u' ha
        refine ⟨?_, ih _ _ ?_⟩
        · intro hh
          rw [← h r (by omega), h1] at hh
          simp at hh
        · intro r' hr'
          by_cases hrr : r' = r
          · subst hrr; simp [h3]
          · rw [h4 r' hrr, h r' hr']; simp [hrr]
    | free r =>
      intro hr
      apply ih
      intro r' hr'
      obtain ⟨h1, h2⟩ := free_exact u r hr
      by_cases hrr : r' = r
      · subst hrr; simp [h1]
      · rw [h2 r' hrr, h r' hr']; simp [hrr]
    | mark r =>
      simp only [aRun]
      cases hm : markUsed u r with
      | none => exact ((markUsed_exact u r).2).mp hm
      | some u' =>
        apply ih
        obtain ⟨h1, h2⟩ := (markUsed_exact u r).1 u' hm
        intro r' hr'
        by_cases hrr : r' = r
        · subst hrr; simp [h1]
        · rw [h2 r' hrr, h r' hr']; simp [hrr]

/-- C06 over histories, from the empty allocator. -/
theorem allocator_history (ops : List AOp) : aRun (fun _ => false) (fun _ => False) ops :=
  aRun_ok ops _ _ (by simp)

/-- With R9 and R8 reserved the first three allocations are R7, R6, R5. -/
theorem alloc_witness :
    ((alloc 0 (fun r => r == 9 || r == 8)).bind fun p => (alloc 0 p.2).bind fun q =>
      (alloc 0 q.2).map fun s => (p.1, q.1, s.1)) = some (7, 6, 5) := by decide

/-- An allocation that succeeds without going below `lo` is the allocation the code makes. -/
theorem alloc_lo (lo : Nat) (u : Regs) (r : Nat) (u' : Regs) (h : alloc lo u = some (r, u')) :
    alloc 0 u = some (r, u') := by
  have : ∀ n, allocFrom lo u n = some (r, u') → allocFrom 0 u n = some (r, u') := by
    intro n
    induction n with
    | zero => simp [allocFrom]
    | succ k ih =>
      intro h
      simp only [allocFrom] at h ⊢
      split at h
      · simp at h
      · split at h
        · rename_i h1 h2; simp [h2, h]
        · rename_i h1 h2; simp [h2, ih h]
  exact this 9 h

end Bpfsnoop.Cc
