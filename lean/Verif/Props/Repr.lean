import Verif.Model.Repr
import Verif.Props.FnArgs
/-
C42: a captured value is printed according to its type, from its own bytes.
-/
namespace Bpfsnoop.Rp
open Arg (le leVal le_length leVal_le leVal_le8)

/-! ### Specification -/

/-- The number of `size` bytes in two's complement. -/
def signed (size n : Nat) : Int := if n < 2 ^ (8 * size - 1) then n else (n : Int) - 2 ^ (8 * size)

/-- An integer: signed ones in decimal, unsigned ones in hexadecimal and decimal, except numbers of eight bytes with the top
bit set, which are kernel addresses and shown in hexadecimal only. -/
def showInt (size : Nat) (sgn : Bool) (n : Nat) : Text :=
  if sgn then decI (signed size n)
  else if size = 8 ∧ 2 ^ 63 ≤ n then hex n
  else hex n ++ '/' :: dec n

/-- The name of an enumerator with that value, or the number. -/
def showEnum (size : Nat) (vals : List (Text × W)) (n : Nat) : Text :=
  match vals.find? (fun x => x.2.toNat % 256 ^ size = n) with
  | some x => x.1
  | none => dec n

mutual
/-- How the value of a type held in the given bytes reads. -/
def Show (find : W → Text) : T → List (BitVec 8) → Text
  | .int s sgn b, bs =>
    if b then (if leVal (bs.take s) ≠ 0 then "true" else "false").toList else showInt s sgn (leVal (bs.take s))
  | .enum s vs, bs => showEnum s vs (leVal (bs.take s))
  | .ptr t, bs =>
    let n := leVal (bs.take 8)
    hex n ++ (if t.isFunc ∧ find (BitVec.ofNat 64 n) ≠ [] then '(' :: find (BitVec.ofNat 64 n) ++ [')'] else [])
  | .comp name _ ms, bs => name ++ '{' :: ShowMs find ms bs true ++ ['}']
  | .func, _ => []
  | .other _, _ => []
/-- The members, each from its own bytes. -/
def ShowMs (find : W → Text) : Ms → List (BitVec 8) → Bool → Text
  | .nil, _, _ => []
  | .cons name t bitOff _ rest, bs, first =>
    (if first then [] else [',']) ++ (if name ≠ [] then name ++ ['='] else []) ++ Show find t (bs.drop (bitOff / 8)) ++
      ShowMs find rest bs false
end

mutual
/-- Types of at most `room` bytes made of integers that are not `_Bool`, pointers, and structs and unions of them, without
bit-fields. -/
def Plain : T → Nat → Prop
  | .int s _ b, room => (s = 1 ∨ s = 2 ∨ s = 4 ∨ s = 8) ∧ b = false ∧ s ≤ room
  | .ptr _, room => 8 ≤ room
  | .comp _ s ms, room => s ≤ room ∧ PlainMs ms s
  | .enum _ _, _ => False
  | .func, _ => False
  | .other _, _ => False
/-- Every member lies within the `room` bytes. -/
def PlainMs : Ms → Nat → Prop
  | .nil, _ => True
  | .cons _ t bitOff bitSize rest, room =>
    bitSize = 0 ∧ bitOff / 8 < room ∧ Plain t (room - bitOff / 8) ∧ PlainMs rest room
end

/-! ### Numbers -/

theorem leVal_lt : ∀ l : List (BitVec 8), leVal l < 256 ^ l.length
  | [] => by simp [leVal]
  | b :: bs => by
    have := leVal_lt bs
    have := b.isLt
    simp only [leVal, List.length_cons, Nat.pow_succ]
    omega

theorem leVal_append : ∀ a b : List (BitVec 8), leVal (a ++ b) = leVal a + 256 ^ a.length * leVal b
  | [], b => by simp [leVal]
  | x :: a, b => by
    simp only [List.cons_append, leVal, leVal_append a b, List.length_cons, Nat.pow_succ]
    rw [Nat.mul_add, ← Nat.mul_assoc, Nat.mul_comm 256 (256 ^ _), Nat.add_assoc]

/-- The value of the first bytes is the remainder. -/
theorem leVal_take (l : List (BitVec 8)) (k : Nat) : leVal (l.take k) = leVal l % 256 ^ k := by
  by_cases h : l.length ≤ k
  · rw [List.take_of_length_le h, Nat.mod_eq_of_lt]
    exact Nat.lt_of_lt_of_le (leVal_lt l) (Nat.pow_le_pow_right (by omega) h)
  · have hl : (l.take k).length = k := by rw [List.length_take]; omega
    have := leVal_append (l.take k) (l.drop k)
    rw [List.take_append_drop, hl] at this
    rw [this, Nat.add_mul_mod_self_left, Nat.mod_eq_of_lt]
    have := leVal_lt (l.take k)
    rwa [hl] at this

/-! ### Scalars -/

theorem toInt_signed (w : Nat) (x : BitVec w) (s : Nat) (hw : w = 8 * s) (hs : 1 ≤ s) : x.toInt = signed s x.toNat := by
  subst hw
  unfold signed
  rw [BitVec.toInt_eq_toNat_cond]
  have : 2 ^ (8 * s) = 2 * 2 ^ (8 * s - 1) := by
    rw [← Nat.pow_succ']; congr 1; omega
  by_cases h : x.toNat < 2 ^ (8 * s - 1)
  · rw [if_pos h, if_pos (by omega)]
  · rw [if_neg h, if_neg (by omega)]
    simp

theorem word_toNat (l : List (BitVec 8)) (h : l.length ≤ 8) : (BitVec.ofNat 64 (leVal l)).toNat = leVal l := by
  have := leVal_lt l
  have : 256 ^ l.length ≤ 256 ^ 8 := Nat.pow_le_pow_right (by omega) h
  rw [BitVec.toNat_ofNat, Nat.mod_eq_of_lt]
  omega

/-- Printing a word at an integer type or pointer type shows its low bytes. -/
theorem scalar_show (e : Env) (t : T) (room : Nat) (hp : Plain t room) (hc : ∀ n s ms, t ≠ .comp n s ms) (v : W) (n : W) :
    reprValue e t v n = some (Show e.find t (le 8 v)) := by
  have ht : ∀ s, leVal ((le 8 v).take s) = v.toNat % 256 ^ s := by
    intro s
    rw [leVal_take, leVal_le, Nat.mod_eq_of_lt (a := v.toNat) (by have := v.isLt; omega)]
  have htn : ∀ s, s ≤ 8 → (v.setWidth (8 * s)).toNat = v.toNat % 256 ^ s := by
    intro s _
    rw [BitVec.toNat_setWidth, show (256 : Nat) = 2 ^ 8 from rfl, ← Nat.pow_mul]
  have h8 : v.toNat % 256 ^ 8 = v.toNat := Nat.mod_eq_of_lt (by have := v.isLt; omega)
  cases t with
  | func => exact absurd hp (by simp [Plain])
  | other s => exact absurd hp (by simp [Plain])
  | enum _ _ => exact absurd hp (by simp [Plain])
  | comp n s ms => exact absurd rfl (hc n s ms)
  | ptr tgt =>
    simp only [reprValue, reprScalar, repr8, if_true, Show, ht, h8]
    simp
  | int s sgn b =>
    obtain ⟨hs, rfl, _⟩ := hp
    simp only [reprValue, Show, Bool.false_eq_true, if_false, ht, showInt]
    rcases hs with rfl | rfl | rfl | rfl
    · cases sgn
      · simp [reprScalar, hexDec]
      · simp only [reprScalar]
        rw [if_neg (by decide), if_neg (by decide), if_neg (by decide), if_pos trivial, if_pos trivial,
          toInt_signed 8 (v.setWidth 8) 1 rfl (by omega), htn 1 (by omega)]
    · cases sgn
      · simp [reprScalar, hexDec]
      · simp only [reprScalar]
        rw [if_neg (by decide), if_neg (by decide), if_pos trivial, if_pos trivial,
          toInt_signed 16 (v.setWidth 16) 2 rfl (by omega), htn 2 (by omega)]
    · cases sgn
      · simp [reprScalar, hexDec]
      · simp only [reprScalar]
        rw [if_neg (by decide), if_pos trivial, if_pos trivial,
          toInt_signed 32 (v.setWidth 32) 4 rfl (by omega), htn 4 (by omega)]
    · cases sgn
      · simp only [reprScalar, repr8, if_true, Bool.false_eq_true, if_false, h8]
        have : v.toInt < 0 ↔ 2 ^ 63 ≤ v.toNat := by
          rw [BitVec.toInt_eq_toNat_cond]
          have := v.isLt
          split <;> omega
        by_cases hn : 2 ^ 63 ≤ v.toNat
        · rw [if_pos (this.2 hn), if_pos ⟨trivial, hn⟩]
        · rw [if_neg (fun h => hn (this.1 h)), if_neg (fun h => hn h.2)]; rfl
      · simp only [reprScalar, repr8, if_true, h8]
        rw [toInt_signed 64 v 8 rfl (by omega)]

/-! ### Structs and unions -/

theorem take_eq_of_le {a b : List (BitVec 8)} {k r : Nat} (h : a.take r = b.take r) (hk : k ≤ r) : a.take k = b.take k := by
  rw [← Nat.min_eq_left hk, ← List.take_take, ← List.take_take, h]

theorem drop_take_eq {a b : List (BitVec 8)} {o r : Nat} (h : a.take r = b.take r) : (a.drop o).take (r - o) = (b.drop o).take (r - o) := by
  rw [← List.drop_take, ← List.drop_take, h]

mutual
/-- The text depends only on the bytes of the value. -/
theorem show_congr (find : W → Text) : ∀ (t : T) (room : Nat), Plain t room → ∀ a b : List (BitVec 8), a.take room = b.take room →
    Show find t a = Show find t b
  | .int s sgn bl, room, hp, a, b, h => by
    simp only [Show, take_eq_of_le h hp.2.2]
  | .ptr t, room, hp, a, b, h => by
    simp only [Show, take_eq_of_le h (show 8 ≤ room from hp)]
  | .comp n s ms, room, hp, a, b, h => by
    simp only [Show, showMs_congr find ms s hp.2 a b true (take_eq_of_le h hp.1)]
  | .enum _ _, _, hp, _, _, _ => absurd hp (by simp [Plain])
  | .func, _, hp, _, _, _ => absurd hp (by simp [Plain])
  | .other _, _, hp, _, _, _ => absurd hp (by simp [Plain])
theorem showMs_congr (find : W → Text) : ∀ (ms : Ms) (room : Nat), PlainMs ms room → ∀ (a b : List (BitVec 8)) (f : Bool),
    a.take room = b.take room → ShowMs find ms a f = ShowMs find ms b f
  | .nil, _, _, _, _, _, _ => rfl
  | .cons n t o z rest, room, hp, a, b, f, h => by
    simp only [ShowMs, show_congr find t _ hp.2.2.1 _ _ (drop_take_eq (o := o / 8) h),
      showMs_congr find rest room hp.2.2.2 a b false h]
end

/-- A word read from the data holds the bytes from its offset on. -/
theorem getU64_bytes (e : Env) (data : List (BitVec 8)) (off : Nat) (h : off < data.length) (hb : 8 ≤ e.beyond.length) :
    ∃ v, getU64 e data off = some v ∧ le 8 v = ((data ++ e.beyond).drop off).take 8 := by
  refine ⟨_, by rw [getU64, if_pos h], ?_⟩
  have hl : (((data ++ e.beyond).drop off).take 8).length = 8 := by simp; omega
  generalize ((data ++ e.beyond).drop off).take 8 = l at hl
  have hv : leVal (le 8 (BitVec.ofNat 64 (leVal l))) = leVal l := by
    rw [leVal_le, word_toNat l (by omega), Nat.mod_eq_of_lt]
    have := leVal_lt l; rwa [hl] at this
  have inj : ∀ (a b : List (BitVec 8)), a.length = b.length → leVal a = leVal b → a = b := by
    intro a
    induction a with
    | nil => intro b hb _; cases b <;> simp at hb ⊢
    | cons x a ih =>
      intro b hb hv
      cases b with
      | nil => simp at hb
      | cons y b =>
        simp only [leVal] at hv
        have := x.isLt; have := y.isLt
        rw [ih b (by simpa using hb) (by omega), BitVec.eq_of_toNat_eq (show x.toNat = y.toNat by omega)]
  exact inj _ _ (by rw [le_length, hl]) hv

mutual
theorem repr_show (e : Env) (hb : 8 ≤ e.beyond.length) : ∀ (t : T) (room : Nat), Plain t room → room ≤ 16 → ∀ v n : W,
    reprValue e t v n = some (Show e.find t (le 8 v ++ le 8 n))
  | .int s a b, room, hp, hr, v, n => by
    rw [scalar_show e _ room hp (by simp) v n, show_congr e.find (.int s a b) s ⟨hp.1, hp.2.1, Nat.le_refl _⟩ _ (le 8 v ++ le 8 n)]
    rw [List.take_append_of_le_length]
    rw [le_length]; rcases hp.1 with h | h | h | h <;> omega
  | .ptr t, room, hp, hr, v, n => by
    rw [scalar_show e _ room hp (by simp) v n, show_congr e.find (.ptr t) 8 (Nat.le_refl 8) _ (le 8 v ++ le 8 n)]
    rw [List.take_append_of_le_length]
    rw [le_length]; omega
  | .comp nm s ms, room, hp, hr, v, n => by
    have hs : s ≤ 16 := Nat.le_trans hp.1 hr
    have h16 : (le 8 v ++ le 8 n).length = 16 := by simp [le_length]
    rw [reprValue, reprMs_show e hb ms s hp.2 hs (le 8 v ++ le 8 n) h16 true]
    simp [Show]
  | .enum _ _, _, hp, _, _, _ => absurd hp (by simp [Plain])
  | .func, _, hp, _, _, _ => absurd hp (by simp [Plain])
  | .other _, _, hp, _, _, _ => absurd hp (by simp [Plain])
theorem reprMs_show (e : Env) (hb : 8 ≤ e.beyond.length) : ∀ (ms : Ms) (room : Nat), PlainMs ms room → room ≤ 16 →
    ∀ bs : List (BitVec 8), bs.length = 16 → ∀ f : Bool,
    reprMembers e (bs ++ List.replicate 8 0) f ms = some (ShowMs e.find ms bs f)
  | .nil, _, _, _, _, _, _ => by simp [reprMembers, ShowMs]
  | .cons nm t o z rest, room, hp, hr, bs, hl, f => by
    obtain ⟨rfl, ho, hpt, hpr⟩ := hp
    obtain ⟨v, hv, hlv⟩ := getU64_bytes e (bs ++ List.replicate 8 0) (o / 8) (by simp; omega) hb
    obtain ⟨n, hn, hln⟩ := getU64_bytes e (bs ++ List.replicate 8 0) (o / 8 + 8) (by simp; omega) hb
    have ht := repr_show e hb t (room - o / 8) hpt (by omega) v n
    have hcat : le 8 v ++ le 8 n = (((bs ++ List.replicate 8 0) ++ e.beyond).drop (o / 8)).take 16 := by
      rw [hlv, hln, ← List.drop_drop]
      rw [show (16 : Nat) = 8 + 8 from rfl, List.take_add]
    have hsh : Show e.find t (le 8 v ++ le 8 n) = Show e.find t (bs.drop (o / 8)) := by
      apply show_congr e.find t _ hpt
      rw [hcat, List.take_take, Nat.min_eq_left (by omega), List.append_assoc, List.drop_append_of_le_length (by omega),
        List.take_append_of_le_length (by rw [List.length_drop]; omega)]
    simp only [reprMembers, ne_eq, not_true_eq_false, if_false, hv, hn, ht, hsh,
      reprMs_show e hb rest room hpr hr bs hl false, ShowMs]
end

/-- C42, the part that holds. A value of an integer, pointer, struct or union type of at most sixteen bytes, passed in one or
two registers, is printed as its type says, every part from its own bytes, whatever else is in the registers and in
memory. -/
theorem value_printed_partial (e : Env) (hb : 8 ≤ e.beyond.length) (t : T) (h : Plain t 16) (v n : W) :
    reprValue e t v n = some (Show e.find t (le 8 v ++ le 8 n)) :=
  repr_show e hb t 16 h (Nat.le_refl _) v n

/-! ### Boolean and enum values in a register of their own -/

/-- C42. A Boolean in a register whose other bytes are zero is printed as such. -/
theorem bool_printed (e : Env) (v n : W) (h : v.toNat < 256) :
    reprValue e (.int 1 false true) v n = some (Show e.find (.int 1 false true) (le 8 v)) := by
  have ht : leVal ((le 8 v).take 1) = v.toNat := by
    rw [leVal_take, leVal_le, Nat.mod_mod_of_dvd _ (by exact ⟨256 ^ 7, by decide⟩), Nat.mod_eq_of_lt (by omega)]
  simp only [reprValue, reprScalar, Show, ht, if_true]
  rw [if_neg (by decide), if_neg (by decide), if_neg (by decide)]
  have : v ≠ 0 ↔ v.toNat ≠ 0 := by
    constructor
    · intro h h'; exact h (BitVec.eq_of_toNat_eq (by simpa using h'))
    · rintro h rfl; exact h rfl
  by_cases hz : v = 0
  · subst hz; rfl
  · rw [if_pos hz, if_pos (this.1 hz)]

/-- C42. An enum of four bytes without negative enumerators, in a register whose other bytes are zero, is printed by name. -/
theorem enum_printed (e : Env) (vals : List (Text × W)) (hv : ∀ x ∈ vals, x.2.toNat < 2 ^ 32) (v n : W) (h : v.toNat < 2 ^ 32) :
    reprValue e (.enum 4 vals) v n = some (Show e.find (.enum 4 vals) (le 8 v)) := by
  have ht : leVal ((le 8 v).take 4) = v.toNat := by
    rw [leVal_take, leVal_le, Nat.mod_mod_of_dvd _ (by exact ⟨256 ^ 4, by decide⟩), Nat.mod_eq_of_lt (by omega)]
  simp only [reprValue, reprScalar, Show, showEnum, ht, reprEnum]
  rw [if_neg (by decide), if_pos trivial]
  have hf : vals.find? (fun x => decide (x.2 = v)) = vals.find? (fun x => decide (x.2.toNat % 256 ^ 4 = v.toNat)) := by
    clear ht
    induction vals with
    | nil => rfl
    | cons x l ih =>
      have hx := hv x (by simp)
      have : (x.2 = v) ↔ (x.2.toNat % 256 ^ 4 = v.toNat) := by
        rw [Nat.mod_eq_of_lt (by omega)]
        exact ⟨fun h => by rw [h], BitVec.eq_of_toNat_eq⟩
      simp only [List.find?_cons, this]
      cases hd : decide (x.2.toNat % 256 ^ 4 = v.toNat) with
      | true => rfl
      | false => exact ih fun y hy => hv y (by simp [hy])
  rw [hf]
  cases vals.find? (fun x => decide (x.2.toNat % 256 ^ 4 = v.toNat)) <;> rfl

/-! ### Nothing is lost -/

theorem dec_inj {a b : Nat} (h : dec a = dec b) : a = b := by
  have := congrArg (fun l => Nat.ofDigitChars 10 l 0) h
  simpa [dec, Nat.ofDigitChars_ten_toDigits] using this

theorem dec_digit {a : Nat} {c : Char} (h : c ∈ dec a) : c.isDigit = true :=
  Nat.isDigit_of_mem_toDigits (by omega) (by omega) h

theorem decI_inj {a b : Int} (h : decI a = decI b) : a = b := by
  have nodash : ∀ n, dec n ≠ [] ∧ ∀ t, dec n ≠ '-' :: t := by
    intro n
    refine ⟨Nat.toDigits_ne_nil, fun t ht => ?_⟩
    have := dec_digit (a := n) (c := '-') (by rw [ht]; simp)
    simp at this
  cases a with
  | ofNat a =>
    cases b with
    | ofNat b => rw [dec_inj (show dec a = dec b from h)]
    | negSucc b => exact absurd h ((nodash a).2 _)
  | negSucc a =>
    cases b with
    | ofNat b => exact absurd h.symm ((nodash b).2 _)
    | negSucc b =>
      simp only [decI, List.cons.injEq, true_and] at h
      have := dec_inj h
      rw [show a = b by omega]

theorem digit16 {d : Nat} (h : d < 16) : d.digitChar ≠ '/' ∧ ∀ d', d' < 16 → d.digitChar = d'.digitChar → d = d' := by
  have : ∀ d : Fin 16, d.val.digitChar ≠ '/' ∧ ∀ d' : Fin 16, d.val.digitChar = d'.val.digitChar → d = d' := by decide
  have := this ⟨d, h⟩
  exact ⟨this.1, fun d' h' he => congrArg Fin.val (this.2 ⟨d', h'⟩ he)⟩

theorem hexDigits_inj : ∀ (a b : Nat), Nat.toDigits 16 a = Nat.toDigits 16 b → a = b := by
  intro a
  induction a using Nat.strongRecOn with
  | _ a ih =>
    intro b h
    rw [Nat.toDigits_eq_if (by omega) (n := a), Nat.toDigits_eq_if (by omega) (n := b)] at h
    by_cases ha : a < 16
    · rw [if_pos ha] at h
      by_cases hb : b < 16
      · rw [if_pos hb] at h
        exact (digit16 ha).2 b hb (by simpa using h)
      · rw [if_neg hb] at h
        have := congrArg List.length h
        have hl : Nat.toDigits 16 (b / 16) ≠ [] := Nat.toDigits_ne_nil
        cases hd : Nat.toDigits 16 (b / 16) with
        | nil => exact absurd hd hl
        | cons x t => rw [hd] at this; simp at this
    · rw [if_neg ha] at h
      by_cases hb : b < 16
      · rw [if_pos hb] at h
        have := congrArg List.length h
        have hl : Nat.toDigits 16 (a / 16) ≠ [] := Nat.toDigits_ne_nil
        cases hd : Nat.toDigits 16 (a / 16) with
        | nil => exact absurd hd hl
        | cons x t => rw [hd] at this; simp at this
      · rw [if_neg hb] at h
        have h2 := List.append_inj' h rfl
        have hd := ih (a / 16) (by omega) _ h2.1
        have hm := (digit16 (d := a % 16) (by omega)).2 (b % 16) (by omega) (by simpa using h2.2)
        omega

theorem hexDigits_slash : ∀ a : Nat, '/' ∉ Nat.toDigits 16 a := by
  intro a
  induction a using Nat.strongRecOn with
  | _ a ih =>
    rw [Nat.toDigits_eq_if (by omega)]
    split
    · next h => simp only [List.mem_singleton]; exact fun hc => (digit16 h).1 hc.symm
    · next h =>
      simp only [List.mem_append, List.mem_singleton, not_or]
      exact ⟨ih _ (by omega), fun hc => (digit16 (d := a % 16) (by omega)).1 hc.symm⟩

theorem hex_slash (a : Nat) : '/' ∉ hex a := by
  simp only [hex, List.mem_cons, not_or]
  exact ⟨by decide, by decide, hexDigits_slash a⟩

theorem dec_slash (a : Nat) : '/' ∉ dec a := fun h => by have := dec_digit h; simp at this

theorem signed_inj {s a b : Nat} (ha : a < 2 ^ (8 * s)) (hb : b < 2 ^ (8 * s)) (h : signed s a = signed s b) : a = b := by
  unfold signed at h
  have hp : ((2 ^ (8 * s) : Nat) : Int) = (2 : Int) ^ (8 * s) := by norm_cast
  split at h <;> split at h <;> omega

/-- C42. Two integers of a type that read the same are the same: the text shows the whole value. -/
theorem int_text_injective (find : W → Text) (s : Nat) (sgn : Bool) (x y : List (BitVec 8)) (hx : s ≤ x.length) (hy : s ≤ y.length)
    (h : Show find (.int s sgn false) x = Show find (.int s sgn false) y) : leVal (x.take s) = leVal (y.take s) := by
  have lt : ∀ l : List (BitVec 8), s ≤ l.length → leVal (l.take s) < 2 ^ (8 * s) := by
    intro l hl
    have := leVal_lt (l.take s)
    rw [List.length_take, Nat.min_eq_left hl, show (256 : Nat) = 2 ^ 8 from rfl, ← Nat.pow_mul] at this
    exact this
  have hx := lt x hx
  have hy := lt y hy
  simp only [Show, Bool.false_eq_true, if_false, showInt] at h
  generalize leVal (x.take s) = a at *
  generalize leVal (y.take s) = b at *
  cases sgn with
  | true => exact signed_inj hx hy (decI_inj (by simpa using h))
  | false =>
    simp only [Bool.false_eq_true, if_false] at h
    split at h <;> split at h
    · simp only [hex, List.cons.injEq, true_and] at h; exact hexDigits_inj _ _ h
    · exact absurd (h ▸ (by simp : '/' ∈ hex b ++ '/' :: dec b)) (hex_slash a)
    · exact absurd (h ▸ (by simp : '/' ∈ hex a ++ '/' :: dec a)) (hex_slash b)
    · have hh : '/' :: dec a = '/' :: dec b := by
        have ha := List.dropWhile_append_of_pos (p := (· != '/')) (l₁ := hex a) (l₂ := '/' :: dec a)
          (by intro c hc; simp only [bne_iff_ne, ne_eq]; rintro rfl; exact hex_slash a hc)
        have hb := List.dropWhile_append_of_pos (p := (· != '/')) (l₁ := hex b) (l₂ := '/' :: dec b)
          (by intro c hc; simp only [bne_iff_ne, ne_eq]; rintro rfl; exact hex_slash b hc)
        rw [h, hb] at ha
        simpa using ha.symm
      simp only [List.cons.injEq, true_and] at hh
      exact dec_inj hh

/-! ### Parameters and return values -/

/-- C42. A parameter is printed with its type, its name and its value; a string in quotes; a pointer to a number with the
number read through it, unless it is NULL. -/
theorem param_printed_partial (e : Env) (hb : 8 ≤ e.beyond.length) (tname name s : Text) (data data2 next : W) :
    (∀ t, Plain t 16 → reprParam e tname name t false false data data2 next s =
      some ('(' :: tname ++ ')' :: name ++ '=' :: Show e.find t (le 8 data ++ le 8 next))) ∧
    (∀ t isNumPtr, reprParam e tname name t true isNumPtr data data2 next s =
      some ('(' :: tname ++ ')' :: name ++ '=' :: '"' :: s ++ ['"'])) ∧
    (∀ sz sgn, Plain (.int sz sgn false) 8 → data ≠ 0 → reprParam e tname name (.ptr (.int sz sgn false)) false true data data2 next s =
      some ('(' :: tname ++ ')' :: name ++ '=' :: hex data.toNat ++ '(' :: Show e.find (.int sz sgn false) (le 8 data2) ++ [')'])) ∧
    (∀ tgt, reprParam e tname name (.ptr tgt) false true 0 data2 next s = some ('(' :: tname ++ ')' :: name ++ "=0x0".toList)) := by
  refine ⟨?_, ?_, ?_, ?_⟩
  · intro t ht
    simp [reprParam, reprArg, value_printed_partial e hb t ht]
  · intro t b
    simp [reprParam, reprArg]
  · intro sz sgn hp hd
    simp only [reprParam, reprArg, Bool.false_eq_true, if_false, if_true, if_pos hd, scalar_show e _ 8 hp (by simp) data2 next,
      Option.map_some]
    simp
  · intro tgt
    simp [reprParam, reprArg, hex, Nat.toDigits_zero]

/-- C42. A return value is printed with its type and value; nothing but `(void)` for functions that return nothing. -/
theorem return_printed_partial (e : Env) (tname s : Text) (data data2 : W) :
    (∀ t, Plain t 8 → (∀ n z ms, t ≠ .comp n z ms) → reprReturn e tname t false false false data data2 s =
      some ('(' :: tname ++ ')' :: Show e.find t (le 8 data))) ∧
    (∀ t isNumPtr, reprReturn e tname t false true isNumPtr data data2 s = some ('"' :: s ++ ['"'])) ∧
    (∀ t isStr isNumPtr, reprReturn e tname t true isStr isNumPtr data data2 s = some "(void)".toList) := by
  refine ⟨?_, ?_, ?_⟩
  · intro t hp hc
    simp [reprReturn, reprArg]
    exact scalar_show e t 8 hp hc data 0
  · intro t b; simp [reprReturn]
  · intro t a b; rfl

/-- Specification: the number a text of digits stands for, digits given as by `String.toInt?` and C. -/
def numeral (base : Nat) (s : Text) : Nat :=
  s.foldl (fun n c => n * base + (if c.isDigit then c.toNat - 48 else c.toNat - 87)) 0

theorem numeral_snoc (base : Nat) (s : Text) (c : Char) :
    numeral base (s ++ [c]) = numeral base s * base + (if c.isDigit then c.toNat - 48 else c.toNat - 87) := by
  simp [numeral]

theorem digitChar_value : ∀ d < 16, (if d.digitChar.isDigit then d.digitChar.toNat - 48 else d.digitChar.toNat - 87) = d := by
  decide

/-- C42. Numbers read back: the text of a number in base 10 or 16 stands for that number. -/
theorem digits_value (base : Nat) (hb : 1 < base) (hb' : base ≤ 16) (n : Nat) : numeral base (Nat.toDigits base n) = n := by
  induction n using Nat.strongRecOn with
  | _ n ih =>
    by_cases h : n < base
    · rw [Nat.toDigits_of_lt_base h]
      simp only [numeral, List.foldl_cons, List.foldl_nil, Nat.zero_mul, Nat.zero_add]
      exact digitChar_value n (by omega)
    · rw [Nat.toDigits_of_base_le hb (by omega), numeral_snoc, ih (n / base) (Nat.div_lt_self (by omega) hb),
        digitChar_value _ (by have := Nat.mod_lt n (show base > 0 by omega); omega)]
      rw [Nat.mul_comm]
      exact Nat.div_add_mod n base

/-- C42. What `%d`, `%#x` and `%#x/%d` print: `0x` and `/` as written, a minus sign exactly for negative numbers, and
digits that stand for the number. -/
theorem number_texts (n : Nat) (i : Int) :
    numeral 10 (dec n) = n ∧ (∃ h, hex n = '0' :: 'x' :: h ∧ numeral 16 h = n) ∧
    hexDec n = hex n ++ '/' :: dec n ∧
    (0 ≤ i → numeral 10 (decI i) = i ∧ '-' ∉ decI i) ∧ (i < 0 → ∃ s, decI i = '-' :: s ∧ (numeral 10 s : Int) = - i) := by
  refine ⟨digits_value 10 (by omega) (by omega) n, ⟨_, rfl, digits_value 16 (by omega) (by omega) n⟩, rfl, ?_, ?_⟩
  · intro h
    cases i with
    | ofNat m =>
      refine ⟨congrArg Int.ofNat (digits_value 10 (by omega) (by omega) m), ?_⟩
      intro hm
      have := Nat.isDigit_of_mem_toDigits (b := 10) (by omega) (by omega) hm
      simp at this
    | negSucc m => omega
  · intro h
    cases i with
    | ofNat m => exact absurd h (by simp)
    | negSucc m =>
      refine ⟨_, rfl, ?_⟩
      have := digits_value 10 (by omega) (by omega) (m + 1)
      unfold dec
      rw [this]
      omega

/-- C42. The value of an output expression is printed with its type and the expression in quotes; a bit-field from the
captured words by the bit-field printer. -/
theorem expr_printed_partial (e : Env) (hb : 8 ≤ e.beyond.length) (tname expr s : Text) (data data2 next : W) :
    (∀ t, Plain t 16 → reprExpr e tname expr t 0 false false data data2 next s =
      some ('(' :: tname ++ ')' :: '\'' :: expr ++ '\'' :: '=' :: Show e.find t (le 8 data ++ le 8 next))) ∧
    (∀ t isNumPtr, reprExpr e tname expr t 0 true isNumPtr data data2 next s =
      some ('(' :: tname ++ ')' :: '\'' :: expr ++ '\'' :: '=' :: '"' :: s ++ ['"'])) ∧
    (∀ t bits isStr isNumPtr, bits ≠ 0 → reprExpr e tname expr t bits isStr isNumPtr data data2 next s =
      some ('(' :: tname ++ ')' :: '\'' :: expr ++ '\'' :: '=' ::
        e.dumpBits bits (le 8 data ++ le 8 data2 ++ List.replicate 8 0))) := by
  refine ⟨?_, ?_, ?_⟩
  · intro t ht
    simp [reprExpr, reprArg, value_printed_partial e hb t ht]
  · intro t b
    simp [reprExpr, reprArg]
  · intro t bits a b h
    simp [reprExpr, h]

/-! ### What goes wrong -/

/-- A Boolean followed by a byte. -/
def boolStruct : T := .comp ['s'] 2 (.cons ['a'] (.int 1 false true) 0 0 (.cons ['b'] (.int 1 false false) 8 0 .nil))
def exEnv : Env := ⟨fun _ => [], fun n l => dec (leVal l % 2 ^ n), List.replicate 8 0⟩

/-- C42, violated: a false Boolean member reads `true` when a later byte of the word is not zero. -/
theorem bool_member_violated : reprValue exEnv boolStruct 0x0100#64 0 = some "s{a=true,b=0x1/1}".toList ∧
    Show exEnv.find boolStruct (le 8 0x0100#64 ++ le 8 0#64) = "s{a=false,b=0x1/1}".toList := by decide +kernel

/-- An enum followed by a number. -/
def enumStruct : T := .comp ['s'] 8 (.cons ['a'] (.enum 4 [(['X'], 1)]) 0 0 (.cons ['b'] (.int 4 true false) 32 0 .nil))

/-- C42, violated: an enum member with other members after it is not shown by name but as the whole word. -/
theorem enum_member_violated : reprValue exEnv enumStruct 0x0000000500000001#64 0 = some "s{a=21474836481,b=5}".toList ∧
    Show exEnv.find enumStruct (le 8 0x0000000500000001#64 ++ le 8 0#64) = "s{a=X,b=5}".toList := by decide +kernel

/-- C42, violated: a negative enumerator is not recognised in a register that holds its 32 bits. -/
theorem enum_negative_violated : reprValue exEnv (.enum 4 [(['E'], 0xffffffffffffffff#64)]) 0xffffffff#64 0 =
      some "4294967295".toList ∧
    Show exEnv.find (.enum 4 [(['E'], 0xffffffffffffffff#64)]) (le 8 0xffffffff#64) = ['E'] := by decide +kernel

/-- Two bit-fields of four bits: the first is 1, the second 2. -/
def bitStruct : T := .comp ['s'] 1 (.cons ['a'] (.int 1 false false) 0 4 (.cons ['b'] (.int 1 false false) 4 4 .nil))

/-- C42, violated: every bit-field member shows the bits at offset 0. -/
theorem bitfield_violated : reprValue exEnv bitStruct 0x21#64 0 = some "s{a=1,b=1}".toList := by decide +kernel

/-- C42, violated: a struct of sixteen bytes that ends with an empty array makes the output panic. -/
theorem empty_member_violated : reprValue exEnv (.comp ['s'] 16 (.cons ['a'] (.int 8 false false) 0 0
    (.cons ['b'] (.int 8 false false) 64 0 (.cons ['c'] (.other (some 0)) 128 0 .nil)))) 1 2 = none := by decide +kernel

/-- The hypotheses of the theorems are met by a nested type, and the result is what one expects. -/
theorem repr_witness : Plain (.comp ['s'] 16 (.cons ['a'] (.int 2 true false) 0 0 (.cons [] (.comp ['u'] 8
      (.cons ['x'] (.ptr .func) 0 0 (.cons ['y'] (.int 4 false false) 0 0 .nil))) 64 0 .nil))) 16 ∧
    reprValue exEnv (.comp ['s'] 16 (.cons ['a'] (.int 2 true false) 0 0 (.cons [] (.comp ['u'] 8
      (.cons ['x'] (.ptr .func) 0 0 (.cons ['y'] (.int 4 false false) 0 0 .nil))) 64 0 .nil))) 0x1fffe#64 0x100000002#64 =
      some "s{a=-2,u{x=0x100000002,y=0x2/2}}".toList := by
  refine ⟨?_, by decide +kernel⟩
  simp [Plain, PlainMs]

end Bpfsnoop.Rp
