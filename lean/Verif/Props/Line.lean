import Verif.Spec.LineSpec
/-
C69: the line of an event tells what happened.
-/
namespace Bpfsnoop.Ln
open Rp (Text dec)

/-! ### Lists -/

theorem firstCut {c : Char} : ∀ {a a' b b' : Text}, c ∉ a → c ∉ a' → a ++ c :: b = a' ++ c :: b' → a = a' ∧ b = b'
  | [], [], _, _, _, _, h => by simpa using h
  | [], x :: a', _, _, _, h2, h => by
    simp only [List.nil_append, List.cons_append, List.cons.injEq] at h
    exact absurd (by simp [h.1]) h2
  | x :: a, [], _, _, h1, _, h => by
    simp only [List.nil_append, List.cons_append, List.cons.injEq] at h
    exact absurd (by simp [h.1]) h1
  | x :: a, y :: a', b, b', h1, h2, h => by
    simp only [List.cons_append, List.cons.injEq] at h
    obtain ⟨h3, h4⟩ := firstCut (fun hx => h1 (by simp [hx])) (fun hx => h2 (by simp [hx])) h.2
    exact ⟨by rw [h.1, h3], h4⟩

theorem lastCut {c : Char} {a a' b b' : Text} (hb : c ∉ b) (hb' : c ∉ b') (h : a ++ c :: b = a' ++ c :: b') : a = a' ∧ b = b' := by
  have h' := congrArg List.reverse h
  simp only [List.reverse_append, List.reverse_cons, List.append_assoc, List.singleton_append] at h'
  obtain ⟨h1, h2⟩ := firstCut (by simpa using hb) (by simpa using hb') h'
  exact ⟨List.reverse_inj.1 h2, List.reverse_inj.1 h1⟩

/-! ### Digits -/

theorem digitChar_digit {n : Nat} (h : n < 10) : (Nat.digitChar n).isDigit = true := by
  have : n = 0 ∨ n = 1 ∨ n = 2 ∨ n = 3 ∨ n = 4 ∨ n = 5 ∨ n = 6 ∨ n = 7 ∨ n = 8 ∨ n = 9 := by omega
  rcases this with rfl | rfl | rfl | rfl | rfl | rfl | rfl | rfl | rfl | rfl <;> rfl

theorem dec_digits {n : Nat} {c : Char} (h : c ∈ dec n) : c.isDigit = true :=
  Nat.isDigit_of_mem_toDigits (by decide) (by decide) h

theorem value_dec (n : Nat) : value (dec n) = n := Nat.ofDigitChars_ten_toDigits

theorem dec_inj {a b : Nat} (h : dec a = dec b) : a = b := by rw [← value_dec a, h, value_dec]

theorem dec_ne_nil (n : Nat) : dec n ≠ [] := Nat.toDigits_ne_nil

/-- A character that is no digit is not in a number. -/
theorem not_dec {n : Nat} {c : Char} (h : c.isDigit = false) : c ∉ dec n := fun hc => by
  rw [dec_digits hc] at h; cases h

theorem value_cons (d : Nat) (hd : d < 10) (x : Text) : value (Nat.digitChar d :: x) = d * 10 ^ x.length + value x := by
  unfold value
  rw [Nat.ofDigitChars_cons_digitChar_of_lt_ten hd, Nat.ofDigitChars_eq_ofDigitChars_zero]
  simp [Nat.mul_comm]

/-! ### Fractions -/

theorem fmtFrac_true : ∀ (k v : Nat) (acc : Text), (∀ c ∈ acc, c.isDigit = true) →
    ∃ f, fmtFrac k v true acc = ('.' :: f, v / 10 ^ k) ∧ (∀ c ∈ f, c.isDigit = true) ∧ f.length = k + acc.length ∧
      value f = (v % 10 ^ k) * 10 ^ acc.length + value acc
  | 0, v, acc, h => ⟨acc, by simp [fmtFrac], h, by simp, by simp [Nat.mod_one]⟩
  | k + 1, v, acc, h => by
    have hd : v % 10 < 10 := Nat.mod_lt _ (by decide)
    obtain ⟨f, h1, h2, h3, h4⟩ := fmtFrac_true k (v / 10) (Nat.digitChar (v % 10) :: acc) (by
      intro c hc
      simp only [List.mem_cons] at hc
      rcases hc with rfl | hc
      · exact digitChar_digit hd
      · exact h c hc)
    refine ⟨f, ?_, h2, by rw [h3, List.length_cons]; omega, ?_⟩
    · unfold fmtFrac
      rw [if_pos (by simp), h1, Nat.div_div_eq_div_mul, Nat.pow_succ, Nat.mul_comm 10]
    · rw [h4, value_cons _ hd, List.length_cons, Nat.pow_succ 10 k, Nat.mul_comm (10 ^ k) 10, Nat.mod_mul, Nat.pow_succ, Nat.add_mul]
      have : v / 10 % 10 ^ k * (10 ^ acc.length * 10) = 10 * (v / 10 % 10 ^ k) * 10 ^ acc.length := by
        rw [Nat.mul_comm (10 ^ acc.length), ← Nat.mul_assoc, Nat.mul_comm (v / 10 % 10 ^ k)]
      omega

/-- `k` digits after the dot: the integral part, and the fraction without trailing zeros. -/
theorem fmtFrac_false : ∀ (k v : Nat), (fmtFrac k v false []).2 = v / 10 ^ k ∧
    (v % 10 ^ k = 0 ∧ (fmtFrac k v false []).1 = [] ∨
      ∃ f, (fmtFrac k v false []).1 = '.' :: f ∧ (∀ c ∈ f, c.isDigit = true) ∧ f.length ≤ k ∧ value f * 10 ^ (k - f.length) = v % 10 ^ k)
  | 0, v => by simp [fmtFrac, Nat.mod_one]
  | k + 1, v => by
    have hd : v % 10 < 10 := Nat.mod_lt _ (by decide)
    have hm : v % 10 ^ (k + 1) = v % 10 + 10 * (v / 10 % 10 ^ k) := by
      rw [Nat.pow_succ, Nat.mul_comm, Nat.mod_mul]
    have hdiv : v / 10 / 10 ^ k = v / 10 ^ (k + 1) := by
      rw [Nat.div_div_eq_div_mul, Nat.pow_succ, Nat.mul_comm 10]
    by_cases h0 : v % 10 = 0
    · have hf : fmtFrac (k + 1) v false [] = fmtFrac k (v / 10) false [] := by
        rw [fmtFrac, if_neg (by simp [h0])]
      obtain ⟨h1, h2⟩ := fmtFrac_false k (v / 10)
      rw [hf]
      refine ⟨h1.trans hdiv, ?_⟩
      rcases h2 with ⟨h2, h3⟩ | ⟨f, h2, h3, h4, h5⟩
      · exact .inl ⟨by omega, h3⟩
      · refine .inr ⟨f, h2, h3, by omega, ?_⟩
        rw [hm, h0, ← h5, Nat.zero_add, show k + 1 - f.length = (k - f.length) + 1 by omega, Nat.pow_succ]
        rw [← Nat.mul_assoc, Nat.mul_comm]
    · have hf : fmtFrac (k + 1) v false [] = fmtFrac k (v / 10) true [Nat.digitChar (v % 10)] := by
        rw [fmtFrac, if_pos (by simp [h0])]
      obtain ⟨f, h1, h2, h3, h4⟩ := fmtFrac_true k (v / 10) [Nat.digitChar (v % 10)] (by
        intro c hc
        simp only [List.mem_singleton] at hc
        rw [hc]; exact digitChar_digit hd)
      rw [hf, h1]
      refine ⟨hdiv, .inr ⟨f, rfl, h2, by simp at h3; omega, ?_⟩⟩
      have : k + 1 - f.length = 0 := by simp at h3; omega
      rw [this, h4, hm, value_cons _ hd]
      simp [value]
      omega

theorem takeWhile_digits {w r : Text} (hw : ∀ c ∈ w, c.isDigit = true) (hr : ∀ c, r.head? = some c → c.isDigit = false) :
    (w ++ r).takeWhile (·.isDigit) = w ∧ (w ++ r).dropWhile (·.isDigit) = r := by
  induction w with
  | nil =>
    cases r with
    | nil => simp
    | cons c r => simp [hr c rfl]
  | cons c w ih =>
    have := ih fun c hc => hw c (by simp [hc])
    simp [hw c (by simp), this]

theorem read_fixed (k v : Nat) (u : Text) (hs : scale u = some (10 ^ k)) (hu : ∀ c, u.head? = some c → c.isDigit = false ∧ c ≠ '.')
    (hk : k ≤ 9) : readDuration (fixed k v u) = some v := by
  obtain ⟨h1, h2⟩ := fmtFrac_false k v
  unfold fixed
  rw [h1]
  rcases h2 with ⟨h2, h3⟩ | ⟨f, h3, h4, h5, h6⟩
  · rw [h3]
    simp only [List.append_nil]
    obtain ⟨e1, e2⟩ := takeWhile_digits (w := dec (v / 10 ^ k)) (r := u) (fun c hc => dec_digits hc) (fun c hc => (hu c hc).1)
    unfold readDuration
    rw [e1, e2]
    have hd : u.head? ≠ some '.' := fun h => (hu _ h).2 rfl
    simp only [hd, if_false, hs, Option.map_some, value_dec, List.length_nil, Nat.pow_zero, Nat.mul_one, Nat.div_one, Option.some.injEq]
    have := Nat.div_add_mod v (10 ^ k)
    rw [h2, Nat.mul_comm] at this
    simpa [value] using this
  · rw [h3]
    obtain ⟨e1, e2⟩ := takeWhile_digits (w := dec (v / 10 ^ k)) (r := '.' :: (f ++ u)) (fun c hc => dec_digits hc) (by simp)
    obtain ⟨e3, e4⟩ := takeWhile_digits (w := f) (r := u) h4 (fun c hc => (hu c hc).1)
    unfold readDuration
    rw [show dec (v / 10 ^ k) ++ '.' :: f ++ u = dec (v / 10 ^ k) ++ '.' :: (f ++ u) by simp, e1, e2]
    simp only [List.head?_cons, if_true, List.tail_cons, e3, e4, hs, Option.map_some, value_dec, Option.some.injEq]
    have hp : 10 ^ k = 10 ^ (k - f.length) * 10 ^ f.length := by rw [← Nat.pow_add]; congr 1; omega
    have h10 : 0 < 10 ^ f.length := Nat.pow_pos (by decide)
    rw [hp, ← Nat.mul_assoc, Nat.mul_div_cancel _ h10, ← hp, Nat.add_mul, h6, Nat.mul_assoc, Nat.mul_comm (10 ^ f.length), ← hp]
    have := Nat.div_add_mod v (10 ^ k)
    rwa [Nat.mul_comm] at this

/-- **C69.** A duration is shown to the nanosecond. -/
theorem duration_exact (d : BitVec 32) : readDuration (duration d) = some d.toNat := by
  unfold duration
  split
  · split
    · rename_i h; rw [h]; decide
    · split
      · exact read_fixed 0 _ _ (by decide) (by intro c hc; simp [t] at hc; subst hc; decide) (by decide)
      · split
        · exact read_fixed 3 _ _ (by decide) (by intro c hc; simp [micro] at hc; subst hc; decide) (by decide)
        · exact read_fixed 6 _ _ (by decide) (by intro c hc; simp [t] at hc; subst hc; decide) (by decide)
  · exact read_fixed 9 _ _ (by decide) (by intro c hc; simp [t] at hc; subst hc; decide) (by decide)

theorem duration_inj {a b : BitVec 32} (h : duration a = duration b) : a = b := by
  have h1 := duration_exact a
  rw [h, duration_exact b] at h1
  exact (BitVec.eq_of_toNat_eq (Option.some.inj h1)).symm

theorem value_two (n : Nat) (h : n < 100) : value (two n) = n := by
  unfold two
  rw [value_cons _ (by omega), value_cons _ (by omega)]
  simp [value]
  omega

/-- **C69.** The time is shown to the nanosecond. -/
theorem clock_exact (c : Clock) : readClock (clock c) = some (c.hour.1, c.min.1, c.sec.1, c.ns.1) := by
  obtain ⟨h1, h2⟩ := fmtFrac_false 9 c.ns.1
  have hh := value_two c.hour.1 (by omega)
  have hm := value_two c.min.1 (by omega)
  have hs := value_two c.sec.1 (by omega)
  have hns : c.ns.1 % 10 ^ 9 = c.ns.1 := Nat.mod_eq_of_lt c.ns.2
  unfold two at hh hm hs
  unfold clock two
  rcases h2 with ⟨h2, h3⟩ | ⟨f, h3, h4, h5, h6⟩
  · rw [h3]
    simp only [t, List.cons_append, List.nil_append]
    show some (value _, value _, value _, _) = _
    rw [hh, hm, hs]
    rw [hns] at h2
    simp [h2, value]
  · rw [h3]
    show some (value _, value _, value _, _) = _
    rw [hh, hm, hs]
    show some (_, _, _, value f * 10 ^ (9 - f.length)) = _
    rw [h6, hns]

theorem clock_inj {a b : Clock} (h : clock a = clock b) : a = b := by
  have h1 := clock_exact a
  rw [h, clock_exact b] at h1
  simp only [Option.some.injEq, Prod.mk.injEq] at h1
  cases a; cases b
  simp only [Clock.mk.injEq, Fin.ext_iff]
  exact ⟨h1.1.symm, h1.2.1.symm, h1.2.2.1.symm, h1.2.2.2.symm⟩

/-! ### The line -/

theorem fixed_mem {k v : Nat} {u : Text} {c : Char} (h : c ∈ fixed k v u) : c.isDigit = true ∨ c = '.' ∨ c ∈ u := by
  unfold fixed at h
  simp only [List.mem_append] at h
  rcases h with (h | h) | h
  · exact .inl (dec_digits h)
  · rcases (fmtFrac_false k v).2 with ⟨_, h3⟩ | ⟨f, h3, h4, _⟩
    · rw [h3] at h; cases h
    · rw [h3] at h
      simp only [List.mem_cons] at h
      rcases h with rfl | h
      · exact .inr (.inl rfl)
      · exact .inl (h4 c h)
  · exact .inr (.inr h)

theorem duration_mem {d : BitVec 32} {c : Char} (h : c ∈ duration d) : c.isDigit = true ∨ c ∈ ['.', 'n', 's', 'm', chr 0xC2, chr 0xB5] := by
  have key : ∀ k u, (∀ x ∈ u, x ∈ ['.', 'n', 's', 'm', chr 0xC2, chr 0xB5]) → c ∈ fixed k d.toNat u →
      c.isDigit = true ∨ c ∈ ['.', 'n', 's', 'm', chr 0xC2, chr 0xB5] := by
    intro k u hu hc
    rcases fixed_mem hc with hc | rfl | hc
    · exact .inl hc
    · exact .inr (by simp)
    · exact .inr (hu c hc)
  unfold duration at h
  split at h
  · split at h
    · have : c = '0' ∨ c = 's' := by simpa [t] using h
      rcases this with rfl | rfl
      · exact .inl rfl
      · exact .inr (by decide)
    · split at h
      · exact key _ _ (by decide) h
      · split at h
        · exact key _ _ (by decide) h
        · exact key _ _ (by decide) h
  · exact key _ _ (by decide) h

theorem clock_mem {k : Clock} {c : Char} (h : c ∈ clock k) : c.isDigit = true ∨ c = ':' ∨ c = '.' := by
  have htwo : ∀ n, n < 100 → ∀ x ∈ two n, x.isDigit = true := by
    intro n hn x hx
    simp only [two, List.mem_cons, List.not_mem_nil, or_false] at hx
    rcases hx with rfl | rfl <;> exact digitChar_digit (by omega)
  have hcol : ∀ x ∈ t ":", x = ':' := by decide
  unfold clock at h
  simp only [List.mem_append] at h
  rcases h with ((((h | h) | h) | h) | h) | h
  · exact .inl (htwo _ (by omega) _ h)
  · exact .inr (.inl (hcol _ h))
  · exact .inl (htwo _ (by omega) _ h)
  · exact .inr (.inl (hcol _ h))
  · exact .inl (htwo _ (by omega) _ h)
  · rcases (fmtFrac_false 9 k.ns.1).2 with ⟨_, h3⟩ | ⟨f, h3, h4, _⟩
    · rw [h3] at h; cases h
    · rw [h3] at h
      simp only [List.mem_cons] at h
      rcases h with rfl | h
      · exact .inr (.inr rfl)
      · exact .inl (h4 c h)

theorem duration_no {d : BitVec 32} {c : Char} (h1 : c.isDigit = false) (h2 : c ∉ ['.', 'n', 's', 'm', chr 0xC2, chr 0xB5]) :
    c ∉ duration d := fun h => by
  rcases duration_mem h with h | h
  · rw [h] at h1; cases h1
  · exact h2 h

theorem duration_ne_nil (d : BitVec 32) : duration d ≠ [] := by
  intro h
  have := duration_exact d
  rw [h] at this
  cases this

theorem comm_length (c : Vector UInt8 16) : (comm c).length ≤ 16 := by
  unfold comm
  rw [List.length_map]
  have := (List.takeWhile_sublist (l := c.toList) (fun x : UInt8 => decide (x ≠ 0))).length_le
  simpa using this

/-- What is before the process name: fixed text of more than 16 characters whose only colon is the last character. -/
def before (cpu pid : BitVec 32) : Text := t " cpu=" ++ dec cpu.toNat ++ t " process=(" ++ dec pid.toNat

theorem before_colon (cpu pid : BitVec 32) : ':' ∉ before cpu pid := by
  unfold before
  simp only [List.mem_append, not_or]
  exact ⟨⟨⟨by decide, not_dec rfl⟩, by decide⟩, not_dec rfl⟩

theorem before_length (cpu pid : BitVec 32) : 16 < (before cpu pid).length := by
  unfold before
  have h1 := List.length_pos_iff.2 (dec_ne_nil cpu.toNat)
  have h2 := List.length_pos_iff.2 (dec_ne_nil pid.toNat)
  have h3 : (t " cpu=").length = 5 := rfl
  have h4 : (t " process=(").length = 10 := rfl
  simp only [List.length_append, h3, h4]
  omega

theorem before_inj {X X' : Text} {c p c' p' : BitVec 32} (h : X ++ before c p = X' ++ before c' p') : X = X' ∧ c = c' ∧ p = p' := by
  have e : ∀ (X : Text) (c p : BitVec 32), X ++ before c p = (X ++ t " cpu" ++ '=' :: dec c.toNat ++ t " process=") ++ '(' :: dec p.toNat := by
    intro X c p
    simp [before, t]
  rw [e, e] at h
  obtain ⟨h1, h2⟩ := lastCut (not_dec rfl) (not_dec rfl) h
  obtain h1 := List.append_cancel_right h1
  obtain ⟨h3, h4⟩ := lastCut (not_dec rfl) (not_dec rfl) h1
  exact ⟨List.append_cancel_right h3, BitVec.eq_of_toNat_eq (dec_inj h4), BitVec.eq_of_toNat_eq (dec_inj h2)⟩

/-- The process name cannot be confused with what is before it. -/
theorem comm_unique {X X' : Text} {c p c' p' : BitVec 32} {n n' : Text} (hn : n.length ≤ 16) (hn' : n'.length ≤ 16)
    (h : X ++ before c p ++ ':' :: n = X' ++ before c' p' ++ ':' :: n') : X ++ before c p = X' ++ before c' p' ∧ n = n' := by
  have key : ∀ {A A' n n' : Text} {c p : BitVec 32}, n.length ≤ 16 →
      ∀ D, A' ++ before c p = A ++ ':' :: D → n = D ++ ':' :: n' → False := by
    intro A A' n n' c p hn D h1 h2
    have hl := before_length c p
    have hD : D.length < (before c p).length := by
      have := congrArg List.length h2
      simp only [List.length_append, List.length_cons] at this
      omega
    rw [List.append_eq_append_iff] at h1
    rcases h1 with ⟨E, rfl, h3⟩ | ⟨E, rfl, h3⟩
    · exact before_colon c p (by rw [h3]; simp)
    · have := congrArg List.length h3
      cases E with
      | nil =>
        simp only [List.nil_append] at h3
        exact before_colon c p (by rw [← h3]; simp)
      | cons x E =>
        simp only [List.length_append, List.length_cons] at this
        omega
  rw [List.append_eq_append_iff] at h
  rcases h with ⟨E, h1, h2⟩ | ⟨E, h1, h2⟩
  · cases E with
    | nil =>
      simp only [List.append_nil, List.nil_append, List.cons.injEq, true_and] at h1 h2
      exact ⟨h1.symm, h2⟩
    | cons x E =>
      simp only [List.cons_append, List.cons.injEq] at h2
      obtain ⟨rfl, h2⟩ := h2
      exact (key hn E h1 h2).elim
  · cases E with
    | nil =>
      simp only [List.append_nil, List.nil_append, List.cons.injEq, true_and] at h1 h2
      exact ⟨h1, h2.symm⟩
    | cons x E =>
      simp only [List.cons_append, List.cons.injEq] at h2
      obtain ⟨rfl, h2⟩ := h2
      exact (key hn' E h1 h2).elim

theorem head_eq (X : Text) (h : Head) : X ++ head h =
    (X ++ before h.cpu h.pid ++ ':' :: comm h.comm ++ ')' :: withDuration h.duration) ++ ' ' :: (t "timestamp=" ++ clock h.clock) ++ t "\n" := by
  simp [head, before, t]

theorem withDuration_unique {A A' : Text} {d d' : Option (BitVec 32)}
    (h : A ++ ')' :: withDuration d = A' ++ ')' :: withDuration d') : A = A' ∧ d = d' := by
  have e : ∀ d, withDuration (some d) = ' ' :: (t "duration=" ++ duration d) := by intro d; rfl
  have hb : ∀ d : BitVec 32, ' ' ∉ t "duration=" ++ duration d := by
    intro d
    simp only [List.mem_append, not_or]
    exact ⟨by decide, duration_no rfl (by decide)⟩
  have last : ∀ (A A' : Text) (d : BitVec 32), A ++ [')'] ≠ A' ++ ')' :: withDuration (some d) := by
    intro A A' d h
    have h' := congrArg List.reverse h
    rw [e] at h'
    cases hr : (duration d).reverse with
    | nil => exact duration_ne_nil d (List.reverse_eq_nil_iff.1 hr)
    | cons x r =>
      simp only [List.reverse_append, List.reverse_cons, List.append_assoc, hr, List.cons_append, List.reverse_nil, List.nil_append,
        List.cons.injEq] at h'
      have hx : ')' ∈ duration d := by
        rw [← List.mem_reverse, hr, h'.1]; simp
      exact duration_no rfl (by decide) hx
  cases d with
  | none =>
    cases d' with
    | none => exact ⟨List.append_cancel_right h, rfl⟩
    | some d' => exact (last _ _ _ h).elim
  | some d =>
    cases d' with
    | none => exact (last _ _ _ h.symm).elim
    | some d' =>
      rw [e, e] at h
      have h' : (A ++ [')']) ++ ' ' :: (t "duration=" ++ duration d) = (A' ++ [')']) ++ ' ' :: (t "duration=" ++ duration d') := by
        simpa using h
      obtain ⟨h1, h2⟩ := lastCut (hb d) (hb d') h'
      exact ⟨List.append_cancel_right h1, by rw [duration_inj (List.append_cancel_left h2)]⟩

/-- **C69.** Whatever is before it, process names included: the end of a line tells CPU, process, its name, duration and time. -/
theorem head_unique {X X' : Text} {h h' : Head} (e : X ++ head h = X' ++ head h') :
    X = X' ∧ h.cpu = h'.cpu ∧ h.pid = h'.pid ∧ comm h.comm = comm h'.comm ∧ h.duration = h'.duration ∧ h.clock = h'.clock := by
  rw [head_eq, head_eq] at e
  have e1 := List.append_cancel_right e
  have hb : ∀ k : Clock, ' ' ∉ t "timestamp=" ++ clock k := by
    intro k hk
    simp only [List.mem_append] at hk
    rcases hk with hk | hk
    · exact absurd hk (by decide)
    · rcases clock_mem hk with hk | hk | hk <;> cases hk
  obtain ⟨e2, e3⟩ := lastCut (hb _) (hb _) e1
  have hc := clock_inj (List.append_cancel_left e3)
  obtain ⟨e4, hd⟩ := withDuration_unique e2
  obtain ⟨e5, hn⟩ := comm_unique (comm_length _) (comm_length _) e4
  obtain ⟨hX, h1, h2⟩ := before_inj e5
  exact ⟨hX, h1, h2, hn, hd, hc⟩

/-- A name: printable, without blanks. -/
def IsName (n : Text) : Prop := ' ' ∉ n

theorem mark_unique {x y x' y' : Bool} {r r' : Text} (h : mark x y ++ t " " ++ r = mark x' y' ++ t " " ++ r') :
    mark x y = mark x' y' ∧ r = r' := by
  have hb : ∀ x y, ' ' ∉ mark x y := by decide
  have h' : mark x y ++ ' ' :: r = mark x' y' ++ ' ' :: r' := by simpa [t] using h
  exact firstCut (hb x y) (hb x' y') h'

/-- **C69.** The line of an event tells whether it is an entry, an exit or a tracepoint, the function, the text of its arguments
and everything else that is shown: no two events that differ in any of these have the same line. -/
theorem event_unique {x y x' y' : Bool} {n n' a a' : Text} {h h' : Head} (hn : IsName n) (hn' : IsName n')
    (e : event x y n a h = event x' y' n' a' h') :
    x = x' ∧ (x = false → y = y') ∧ n = n' ∧ a = a' ∧ h.cpu = h'.cpu ∧ h.pid = h'.pid ∧ comm h.comm = comm h'.comm ∧
      h.duration = h'.duration ∧ h.clock = h'.clock := by
  obtain ⟨e1, e2⟩ := head_unique e
  unfold func at e1
  rw [List.append_assoc, List.append_assoc, List.append_assoc, List.append_assoc] at e1
  have e1' : mark x y ++ t " " ++ (n ++ (t " args" ++ a)) = mark x' y' ++ t " " ++ (n' ++ (t " args" ++ a')) := by
    simpa using e1
  obtain ⟨e3, e4⟩ := mark_unique e1'
  have e4' : n ++ ' ' :: (t "args" ++ a) = n' ++ ' ' :: (t "args" ++ a') := by simpa [t] using e4
  obtain ⟨e5, e6⟩ := firstCut hn hn' e4'
  have hm : ∀ x y x' y', mark x y = mark x' y' → x = x' ∧ (x = false → y = y') := by decide
  obtain ⟨m1, m2⟩ := hm x y x' y' e3
  exact ⟨m1, m2, e5, List.append_cancel_left e6, e2⟩

/-- **C69.** The line of a graph event tells depth, CPU and both durations. -/
theorem graph_unique {d d' : Nat} {a a' : Text} {c c' k k' u u' : BitVec 32} (h : graph d a c k u = graph d' a' c' k' u') :
    d = d' ∧ a = a' ∧ c = c' ∧ k = k' ∧ u = u' := by
  have e : ∀ (d : Nat) (a : Text) (c k u : BitVec 32), graph d a c k u =
      ((((List.replicate d (t "  ")).flatten ++ a ++ t " cpu") ++ '=' :: dec c.toNat ++ t " depth") ++ '=' :: dec d ++ t " duration") ++
        '=' :: (duration k ++ '|' :: duration u) := by
    intro d a c k u
    simp [graph, t]
  rw [e, e] at h
  have hno : ∀ k u : BitVec 32, '=' ∉ duration k ++ '|' :: duration u := by
    intro k u
    simp only [List.mem_append, List.mem_cons, not_or]
    exact ⟨duration_no rfl (by decide), by decide, duration_no rfl (by decide)⟩
  obtain ⟨h1, h2⟩ := lastCut (hno _ _) (hno _ _) h
  obtain ⟨h3, h4⟩ := lastCut (duration_no rfl (by decide)) (duration_no rfl (by decide)) h2
  obtain ⟨h5, h6⟩ := lastCut (not_dec rfl) (not_dec rfl) (List.append_cancel_right h1)
  obtain ⟨h7, h8⟩ := lastCut (not_dec rfl) (not_dec rfl) (List.append_cancel_right h5)
  have hd := dec_inj h6
  subst hd
  exact ⟨rfl, List.append_cancel_left (List.append_cancel_right h7), BitVec.eq_of_toNat_eq (dec_inj h8), duration_inj h3, duration_inj h4⟩

theorem padded {p : Text} {a b : Nat} {x x' r r' : Text} (hx : ' ' ∉ x) (hx' : ' ' ∉ x')
    (h : x ++ List.replicate a ' ' ++ ' ' :: p ++ r = x' ++ List.replicate b ' ' ++ ' ' :: p ++ r') : x = x' := by
  have e : ∀ (a : Nat) (x r : Text), ∃ z, x ++ List.replicate a ' ' ++ ' ' :: p ++ r = x ++ ' ' :: z := by
    intro a x r
    cases a with
    | zero => exact ⟨p ++ r, by simp⟩
    | succ a => exact ⟨List.replicate a ' ' ++ ' ' :: p ++ r, by simp [List.replicate_succ]⟩
  obtain ⟨z, hz⟩ := e a x r
  obtain ⟨z', hz'⟩ := e b x' r'
  rw [hz, hz'] at h
  exact (firstCut hx hx' h).1

/-- **C69.** The line of an instruction tells function, CPU, duration and instruction. -/
theorem insn_unique {n n' : Text} {c c' d d' : BitVec 32} {i i' : Text} (hn : IsName n) (hn' : IsName n')
    (h : insn n c d i = insn n' c' d' i') : n = n' ∧ c = c' ∧ d = d' ∧ i = i' := by
  unfold insn pad at h
  have h1 : n ++ ' ' :: (t "cpu=" ++ (dec c.toNat ++ List.replicate (2 - (dec c.toNat).length) ' ' ++ ' ' :: t "duration=" ++
      (duration d ++ List.replicate (12 - runes (duration d)) ' ' ++ ' ' :: t "insn=" ++ i))) =
    n' ++ ' ' :: (t "cpu=" ++ (dec c'.toNat ++ List.replicate (2 - (dec c'.toNat).length) ' ' ++ ' ' :: t "duration=" ++
      (duration d' ++ List.replicate (12 - runes (duration d')) ' ' ++ ' ' :: t "insn=" ++ i'))) := by
    simpa [t] using h
  obtain ⟨e1, e2⟩ := firstCut hn hn' h1
  have e3 := List.append_cancel_left e2
  have hc := padded (not_dec rfl) (not_dec rfl) e3
  have hc' := BitVec.eq_of_toNat_eq (dec_inj hc)
  subst hc'
  have e4 := List.append_cancel_left e3
  have hd := padded (duration_no rfl (by decide)) (duration_no rfl (by decide)) e4
  have hd' := duration_inj hd
  subst hd'
  exact ⟨e1, rfl, rfl, List.append_cancel_left e4⟩

/-- One event is one line if no newline is in the name of the process. -/
theorem one_line {x y : Bool} {n a : Text} {h : Head} (hn : '\n' ∉ n) (ha : '\n' ∉ a) (hc : '\n' ∉ comm h.comm) :
    ∃ l, event x y n a h = l ++ ['\n'] ∧ '\n' ∉ l := by
  refine ⟨func x y n a ++ (before h.cpu h.pid ++ ':' :: comm h.comm ++ ')' :: withDuration h.duration) ++
    ' ' :: (t "timestamp=" ++ clock h.clock), ?_, ?_⟩
  · unfold event
    rw [head_eq]
    simp [t]
  · have hm : ∀ x y, '\n' ∉ mark x y := by decide
    have hk : '\n' ∉ clock h.clock := fun hk => by
      rcases clock_mem hk with hk | hk | hk <;> cases hk
    have hd : '\n' ∉ withDuration h.duration := by
      cases h.duration with
      | none => simp [withDuration]
      | some d =>
        simp only [withDuration, List.mem_append, not_or]
        exact ⟨by decide, duration_no rfl (by decide)⟩
    have hb : '\n' ∉ before h.cpu h.pid := by
      unfold before
      simp only [List.mem_append, not_or]
      exact ⟨⟨⟨by decide, not_dec rfl⟩, by decide⟩, not_dec rfl⟩
    unfold func
    simp only [List.mem_append, List.mem_cons, not_or]
    exact ⟨⟨⟨⟨⟨⟨hm _ _, by decide⟩, hn⟩, by decide⟩, ha⟩, ⟨hb, by decide, hc⟩, by decide, hd⟩, by decide, by decide, hk⟩

/-- The name of a process as the kernel keeps it: at most 15 bytes, then zeros. -/
def commOf (x : List UInt8) : Vector UInt8 16 := Vector.ofFn fun i => x.getD i.1 0

/-- The event of the example: an exit on CPU 3 after 1.5 ms. -/
def exHead (c : List UInt8) : Head := ⟨3, 1234, commOf c, some 1500000, ⟨9, 5, 7, 120000000⟩⟩

theorem line_witness : event true false (t "tcp_v4_rcv") (t "=() retval=(void)") (exHead [0x62, 0x61, 0x73, 0x68]) =
    arrowOut ++ t " tcp_v4_rcv args=() retval=(void) cpu=3 process=(1234:bash) duration=1.5ms timestamp=09:05:07.12\n" := by
  decide +kernel

/-- **C69, violated.** A process may put a newline in its name (`prctl(PR_SET_NAME)`); its events then are two lines, the
first of which ends as the process likes. -/
theorem one_line_violated : ∃ h : Head, event false false (t "f") (t "=()") h =
    (arrowIn ++ t " f args=() cpu=3 process=(1234:x)\n") ++ (arrowIn ++ t " g args=) duration=1.5ms timestamp=09:05:07.12\n") :=
  ⟨exHead ([0x78, 0x29, 0x0A, 0xE2, 0x86, 0x92, 0x20, 0x67, 0x20, 0x61, 0x72, 0x67, 0x73, 0x3D]), by decide +kernel⟩

/-! ### The function -/

/-- **C69.** Programs, tracepoints and kernel functions are not confused: events shown under one name are all of functions of
BPF programs of that name, or all of the tracepoint of that name, or all of kernel functions of that name. -/
theorem name_unique {T : Tables} (hk : ∀ ip n, T.ksym ip = some n → ']' ∉ n) {ip ip' : Addr} {g g' : Option GFn} {m m' : Bool}
    (h : name T ip g m = name T ip' g' m') :
    (∃ p, who T ip g m = .prog p ∧ who T ip' g' m' = .prog p) ∨
    (∃ f f', who T ip g m = .kernel f ∧ who T ip' g' m' = .kernel f' ∧ f.isTp = true ∧ f'.isTp = true ∧ f.name = f'.name) ∨
    ((∀ p, who T ip g m ≠ .prog p) ∧ (∀ f, who T ip g m = .kernel f → f.isTp = false) ∧
      (∀ p, who T ip' g' m' ≠ .prog p) ∧ (∀ f, who T ip' g' m' = .kernel f → f.isTp = false) ∧
      (T.ksym ip).getD (t "0x" ++ hex ip.toNat) = (T.ksym ip').getD (t "0x" ++ hex ip'.toNat)) := by
  have hsym : ∀ ip, ']' ∉ (T.ksym ip).getD (t "0x" ++ hex ip.toNat) := by
    intro ip
    cases hs : T.ksym ip with
    | some n => exact hk ip n hs
    | none =>
      simp only [Option.getD_none, List.mem_append, not_or]
      refine ⟨by decide, ?_⟩
      unfold hex
      intro hm
      have key : ∀ n, ']' ∉ Nat.toDigits 16 n := by
        intro n
        have hdc : ∀ d, d < 16 → Nat.digitChar d ≠ ']' := by decide
        induction n using Nat.strongRecOn with
        | _ n ih =>
          by_cases hlt : n < 16
          · rw [Nat.toDigits_of_lt_base hlt]
            simpa using fun h => hdc n hlt h.symm
          · rw [Nat.toDigits_of_base_le (by decide) (by omega)]
            simp only [List.mem_append, List.mem_singleton, not_or]
            exact ⟨ih (n / 16) (by omega), fun h => hdc (n % 16) (Nat.mod_lt _ (by decide)) h.symm⟩
      exact key _ hm
  have hbt : ∀ a b : Text, a ++ t "[bpf]" ≠ b ++ t "[tp]" := by
    intro a b h
    have h2 := congrArg List.reverse h
    simp [t] at h2
  have hm1 : ∀ a : Text, ']' ∈ a ++ t "[bpf]" := by
    intro a; exact List.mem_append_right _ (by decide)
  have hm2 : ∀ a : Text, ']' ∈ a ++ t "[tp]" := by
    intro a; exact List.mem_append_right _ (by decide)
  have hplain : ∀ ip g m, (∃ p, who T ip g m = .prog p ∧ name T ip g m = p ++ t "[bpf]") ∨
      (∃ f, who T ip g m = .kernel f ∧ f.isTp = true ∧ name T ip g m = f.name ++ t "[tp]") ∨
      ((∀ p, who T ip g m ≠ .prog p) ∧ (∀ f, who T ip g m = .kernel f → f.isTp = false) ∧
        name T ip g m = (T.ksym ip).getD (t "0x" ++ hex ip.toNat)) := by
    intro ip g m
    unfold name
    cases hw : who T ip g m with
    | prog p => exact Or.inl ⟨p, rfl, rfl⟩
    | kernel f =>
      cases hf : f.isTp with
      | true => exact Or.inr (Or.inl ⟨f, rfl, hf, by simp [hf]⟩)
      | false =>
        refine Or.inr (Or.inr ⟨nofun, ?_, by simp [hf]⟩)
        intro f' he
        cases he
        exact hf
    | unknown => exact Or.inr (Or.inr ⟨nofun, nofun, rfl⟩)
  rcases hplain ip g m with ⟨p, hw, hn⟩ | ⟨f, hw, hf, hn⟩ | ⟨h1, h2, hn⟩ <;>
    rcases hplain ip' g' m' with ⟨p', hw', hn'⟩ | ⟨f', hw', hf', hn'⟩ | ⟨h1', h2', hn'⟩ <;>
    rw [hn, hn'] at h
  · have := List.append_cancel_right h
    subst this
    exact Or.inl ⟨p, hw, hw'⟩
  · exact absurd h (hbt _ _)
  · exact absurd (h ▸ hm1 p) (hsym ip')
  · exact absurd h.symm (hbt _ _)
  · exact Or.inr (Or.inl ⟨f, f', hw, hw', hf, hf', List.append_cancel_right h⟩)
  · exact absurd (h ▸ hm2 f.name) (hsym ip')
  · exact absurd (h.symm ▸ hm1 p') (hsym ip)
  · exact absurd (h.symm ▸ hm2 f'.name) (hsym ip)
  · exact Or.inr (Or.inr ⟨h1, h2, h1', h2', h⟩)

/-! ### Tightened -/

/-- **C69.** The number before the unit of a duration is at least 1 and less than 1000: the unit is the largest that fits. -/
theorem duration_unit (d : BitVec 32) (h : d ≠ 0) : ∃ q f, 1 ≤ q ∧ q < 1000 ∧ (f = [] ∨ f.head? = some '.') ∧
    (duration d = dec q ++ f ++ t "ns" ∨ duration d = dec q ++ f ++ (micro ++ t "s") ∨ duration d = dec q ++ f ++ t "ms" ∨
      duration d = dec q ++ f ++ t "s" ∧ q < 60) := by
  have h0 : d.toNat ≠ 0 := fun e => h (BitVec.eq_of_toNat_eq e)
  have hl := d.isLt
  have key : ∀ k, (fmtFrac k d.toNat false []).1 = [] ∨ (fmtFrac k d.toNat false []).1.head? = some '.' := by
    intro k
    rcases (fmtFrac_false k d.toNat).2 with ⟨-, h⟩ | ⟨f, h, -⟩
    · exact .inl h
    · exact .inr (by rw [h]; rfl)
  have h2 := fun k => (fmtFrac_false k d.toNat).1
  unfold duration
  by_cases c1 : d.toNat < 1000000000
  · rw [if_pos c1, if_neg h0]
    by_cases c2 : d.toNat < 1000
    · rw [if_pos c2]
      exact ⟨_, _, by have := h2 0; omega, by have := h2 0; omega, key 0, .inl rfl⟩
    · rw [if_neg c2]
      by_cases c3 : d.toNat < 1000000
      · rw [if_pos c3]
        exact ⟨_, _, by have := h2 3; omega, by have := h2 3; omega, key 3, .inr (.inl rfl)⟩
      · rw [if_neg c3]
        exact ⟨_, _, by have := h2 6; omega, by have := h2 6; omega, key 6, .inr (.inr (.inl rfl))⟩
  · rw [if_neg c1]
    have := h2 9
    exact ⟨_, _, by omega, by omega, key 9, .inr (.inr (.inr ⟨rfl, by omega⟩))⟩

example : duration 1000000 = t "1ms" ∧ duration 999999 = t "999.999" ++ micro ++ t "s" := by decide +kernel

/-- The columns a UTF-8 text takes: bytes that continue a character (0x80 to 0xBF) take none. -/
def columns (x : Text) : Nat := (x.filter fun c => !(0x80 ≤ c.toNat && c.toNat < 0xC0)).length

theorem columns_append (a b : Text) : columns (a ++ b) = columns a + columns b := by simp [columns]

theorem columns_plain {x : Text} (h : ∀ c ∈ x, c.toNat < 0x80) : columns x = x.length := by
  unfold columns
  rw [List.filter_eq_self.2]
  intro c hc
  have := h c hc
  simp
  omega

theorem digit_plain {c : Char} (h : c.isDigit = true) : c.toNat < 0x80 := by
  simp only [Char.isDigit, Bool.and_eq_true, decide_eq_true_eq, UInt32.le_iff_toNat_le] at h
  have : c.toNat = c.val.toNat := rfl
  have h2 : (57 : UInt32).toNat = 57 := rfl
  simp at h
  omega

theorem columns_duration (d : BitVec 32) : columns (duration d) = runes (duration d) := by
  unfold columns runes
  congr 1
  apply List.filter_congr
  intro c hc
  rcases duration_mem hc with h | h
  · have := digit_plain h
    have h3 : c ≠ chr 0xB5 := by
      rintro rfl
      exact absurd this (by decide)
    simp [h3]
    omega
  · simp only [List.mem_cons, List.not_mem_nil, or_false] at h
    rcases h with rfl | rfl | rfl | rfl | rfl | rfl <;> decide

/-- **C69.** The lines of instructions are aligned: behind the name of the function the instruction begins in the same column for all CPUs below
100 and all durations that take at most 12 columns. -/
theorem insn_aligned (n : Text) (cpu d : BitVec 32) (i : Text) (hc : cpu.toNat < 100) (hd : columns (duration d) ≤ 12) :
    ∃ x, insn n cpu d i = n ++ x ++ i ∧ columns x = 35 := by
  refine ⟨t " cpu=" ++ pad 2 (dec cpu.toNat) (dec cpu.toNat).length ++ t " duration=" ++ pad 12 (duration d) (runes (duration d)) ++ t " insn=", ?_, ?_⟩
  · unfold insn
    simp only [List.append_assoc]
  · have h1 : ∀ k, columns (List.replicate k ' ') = k := by
      intro k
      rw [columns_plain]
      · simp
      · intro c hc; rw [List.eq_of_mem_replicate hc]; decide
    have h2 : columns (dec cpu.toNat) = (dec cpu.toNat).length := columns_plain fun c hc => digit_plain (Nat.isDigit_of_mem_toDigits (by decide) (by decide) hc)
    have h3 : (dec cpu.toNat).length ≤ 2 := by
      have : ∀ k, k < 100 → (Nat.toDigits 10 k).length ≤ 2 := by decide +kernel
      exact this _ hc
    rw [columns_duration] at hd
    simp only [columns_append, pad, h1, h2, columns_duration]
    have h4 : columns (t " cpu=") = 5 := by decide
    have h5 : columns (t " duration=") = 10 := by decide
    have h6 : columns (t " insn=") = 6 := by decide
    omega

theorem findMulti_iff (ip : Addr) (ms : List (Addr → Option KF)) (f : KF) :
    findMulti ip ms = some f ↔ ∃ a m b, ms = a ++ m :: b ∧ m ip = some f ∧ ∀ x ∈ a, x ip = none := by
  induction ms with
  | nil => simp [findMulti]
  | cons m ms ih =>
    unfold findMulti
    cases hm : m ip with
    | some g =>
      simp only [Option.some.injEq]
      constructor
      · rintro rfl; exact ⟨[], m, ms, rfl, hm, nofun⟩
      · rintro ⟨a, m', b, h1, h2, h3⟩
        cases a with
        | nil => cases h1; rw [hm] at h2; cases h2; rfl
        | cons y a => cases h1; rw [h3 m (by simp)] at hm; cases hm
    | none =>
      simp only
      rw [ih]
      constructor
      · rintro ⟨a, m', b, rfl, h2, h3⟩
        refine ⟨m :: a, m', b, rfl, h2, ?_⟩
        intro x hx
        rcases List.mem_cons.1 hx with rfl | hx
        · exact hm
        · exact h3 x hx
      · rintro ⟨a, m', b, h1, h2, h3⟩
        cases a with
        | nil => cases h1; rw [hm] at h2; cases h2
        | cons y a => cases h1; exact ⟨a, m', b, rfl, h2, fun x hx => h3 x (by simp [hx])⟩

theorem findMulti_none (ip : Addr) (ms : List (Addr → Option KF)) : findMulti ip ms = none ↔ ∀ m ∈ ms, m ip = none := by
  induction ms with
  | nil => simp [findMulti]
  | cons m ms ih =>
    unfold findMulti
    cases hm : m ip with
    | some g => simp [hm]
    | none => simp [hm, ih]

/-- **C69.** Whose event it is: a program traced at the address comes first, then the program of the graph, then for an event of `(m)` the first
group with the address, then the traced kernel functions, then the kernel function of the graph; it is unknown exactly if none of them has it. -/
theorem who_iff (T : Tables) (ip : Addr) (g : Option GFn) (kmulti : Bool) :
    (∀ p, who T ip g kmulti = .prog p ↔ T.progs ip = some p ∨ (T.progs ip = none ∧ ∃ x, g = some x ∧ x.bprog = some p)) ∧
    (∀ f, who T ip g kmulti = .kernel f ↔ (T.progs ip = none ∧ ∀ x, g = some x → x.bprog = none) ∧
      ((kmulti = true ∧ ∃ a m b, T.multi = a ++ m :: b ∧ m ip = some f ∧ ∀ x ∈ a, x ip = none) ∨
       ((kmulti = true → ∀ m ∈ T.multi, m ip = none) ∧
        (T.kfuncs ip = some f ∨ (T.kfuncs ip = none ∧ ∃ x, g = some x ∧ x.kfunc = some f))))) ∧
    (who T ip g kmulti = .unknown ↔ T.progs ip = none ∧ (∀ x, g = some x → x.bprog = none ∧ x.kfunc = none) ∧
      (kmulti = true → ∀ m ∈ T.multi, m ip = none) ∧ T.kfuncs ip = none) := by
  simp only [← findMulti_iff]
  simp only [← findMulti_none]
  unfold who
  cases hp : T.progs ip with
  | some p => simp
  | none =>
    cases g with
    | none =>
      cases kmulti <;> cases hm : findMulti ip T.multi <;> cases hk : T.kfuncs ip <;> simp
    | some g =>
      cases hg : g.bprog <;> cases kmulti <;> cases hm : findMulti ip T.multi <;> cases hk : T.kfuncs ip <;> cases hf : g.kfunc <;> simp [hg, hf]

end Bpfsnoop.Ln
