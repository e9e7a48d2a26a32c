import Verif.Props.CcExec
import Verif.Props.CcSafe
import Verif.Props.CcFilter
import Verif.Props.CcNum

/-!
C01, C08, C15: what the compiler accepts, and the definitions that the meaning of expressions (`Spec/CcSpec.lean`) shares with
the compiler.
-/
namespace Bpfsnoop.Cc

/-! ### Shared definitions -/

/-- A name is the first parameter of that name. -/
theorem findVar_iff (name : String) : ∀ (vars : List (String × Ty)) (k i : Nat) (t : Ty), findVar name vars k = some (i, t) ↔
    ∃ j, i = k + j ∧ vars[j]? = some (name, t) ∧ ∀ j' < j, ∀ x, vars[j']? = some x → x.1 ≠ name
  | [], k, i, t => by simp [findVar]
  | (n, u) :: r, k, i, t => by
    simp only [findVar]
    by_cases hn : n = name
    · subst hn
      simp only [if_true, Option.some.injEq, Prod.mk.injEq]
      constructor
      · rintro ⟨rfl, rfl⟩
        exact ⟨0, rfl, rfl, by simp⟩
      · rintro ⟨j, rfl, hj, hlt⟩
        cases j with
        | zero => simp only [List.getElem?_cons_zero, Option.some.injEq, Prod.mk.injEq, true_and] at hj; exact ⟨rfl, hj⟩
        | succ j => exact absurd rfl (hlt 0 (by omega) (n, u) rfl)
    · simp only [hn, if_false]
      rw [findVar_iff name r (k + 1) i t]
      constructor
      · rintro ⟨j, rfl, hj, hlt⟩
        refine ⟨j + 1, by omega, by simpa using hj, fun j' hj' x hx => ?_⟩
        cases j' with
        | zero => simp only [List.getElem?_cons_zero, Option.some.injEq] at hx; rw [← hx]; exact hn
        | succ j' => exact hlt j' (by omega) x (by simpa using hx)
      · rintro ⟨j, rfl, hj, hlt⟩
        cases j with
        | zero => simp only [List.getElem?_cons_zero, Option.some.injEq, Prod.mk.injEq] at hj; exact absurd hj.1 hn
        | succ j =>
          exact ⟨j, by omega, by simpa using hj, fun j' hj' x hx => hlt (j' + 1) (by omega) x (by simpa using hx)⟩

/-- An enumerator is worth what the first enumerator of that name in the enum is worth; there are none in other types. -/
theorem extractEnum_iff (Γ : Btf) (t : Option Ty) (s : String) (n : BitVec 64) : extractEnum Γ t s = some n ↔
    ∃ ty vals a b, t = some ty ∧ Γ.kindOf ty = .enum vals ∧ vals = a ++ (s, n) :: b ∧ ∀ x ∈ a, x.1 ≠ s := by
  have look : ∀ (vals : List (String × BitVec 64)), vals.lookup s = some n ↔ ∃ a b, vals = a ++ (s, n) :: b ∧ ∀ x ∈ a, x.1 ≠ s := by
    intro vals
    induction vals with
    | nil => simp
    | cons v vs ih =>
      obtain ⟨k, m⟩ := v
      by_cases hk : s = k
      · subst hk
        simp only [List.lookup_cons_self, Option.some.injEq]
        constructor
        · rintro rfl; exact ⟨[], vs, rfl, by simp⟩
        · rintro ⟨a, b, hab, ha⟩
          cases a with
          | nil => simp only [List.nil_append, List.cons.injEq, Prod.mk.injEq, true_and] at hab; exact hab.1
          | cons x a =>
            simp only [List.cons_append, List.cons.injEq] at hab
            exact absurd rfl (hab.1 ▸ ha x (by simp))
      · have : List.lookup s ((k, m) :: vs) = List.lookup s vs := by
          have hb : (s == k) = false := by simp [hk]
          simp only [List.lookup, hb]
        rw [this, ih]
        constructor
        · rintro ⟨a, b, rfl, ha⟩
          refine ⟨(k, m) :: a, b, rfl, ?_⟩
          intro x hx
          simp only [List.mem_cons] at hx
          rcases hx with rfl | hx
          · exact fun h => hk h.symm
          · exact ha x hx
        · rintro ⟨a, b, hab, ha⟩
          cases a with
          | nil =>
            simp only [List.nil_append, List.cons.injEq, Prod.mk.injEq] at hab
            exact absurd hab.1.1.symm hk
          | cons x a =>
            simp only [List.cons_append, List.cons.injEq] at hab
            exact ⟨a, b, hab.2, fun y hy => ha y (by simp [hy])⟩
  unfold extractEnum
  cases t with
  | none => simp [Btf.kindO]
  | some ty =>
    simp only [Btf.kindO]
    cases hk : Γ.kindOf ty with
    | enum vals =>
      simp only [look]
      constructor
      · rintro ⟨a, b, h⟩; exact ⟨ty, vals, a, b, rfl, hk, h⟩
      · rintro ⟨ty', vals', a, b, h1, h2, h3⟩
        cases h1
        rw [hk] at h2; cases h2
        exact ⟨a, b, h3⟩
    | _ =>
      constructor
      · intro h; cases h
      · rintro ⟨ty', vals', a, b, h1, h2, _⟩
        cases h1
        rw [hk] at h2; cases h2

/-- The mask of a bit-field of `n` bits. -/
theorem bfMask_bit (n i : Nat) (hi : i < 64) : (bfMask n).getLsbD i = decide (i < n) := by
  have hm : (bfMask n).toNat = if n < 64 then 2 ^ n - 1 else 2 ^ 64 - 1 := by
    unfold bfMask
    by_cases hn : n < 64
    · have h1 : (BitVec.ofNat 64 (1 <<< n)).toNat = 2 ^ n := by
        have : 2 ^ n < 2 ^ 64 := Nat.pow_lt_pow_right (by omega) hn
        rw [BitVec.toNat_ofNat, Nat.shiftLeft_eq, Nat.one_mul, Nat.mod_eq_of_lt this]
      have hp : 0 < 2 ^ n := Nat.two_pow_pos n
      have hlt : 2 ^ n < 2 ^ 64 := Nat.pow_lt_pow_right (by omega) hn
      have h1' : ((1 <<< n : Nat) : BitVec 64).toNat = 2 ^ n := h1
      rw [BitVec.toNat_sub, h1']
      simp only [hn, if_true]
      show (2 ^ 64 - 1 + 2 ^ n) % 2 ^ 64 = _
      omega
    · have h1 : BitVec.ofNat 64 (1 <<< n) = 0 := by
        apply BitVec.eq_of_toNat_eq
        rw [BitVec.toNat_ofNat, Nat.shiftLeft_eq, Nat.one_mul]
        obtain ⟨k, rfl⟩ : ∃ k, n = 64 + k := ⟨n - 64, by omega⟩
        rw [Nat.pow_add, Nat.mul_mod_right]; rfl
      have h1' : ((1 <<< n : Nat) : BitVec 64) = 0 := h1
      rw [h1']
      simp [hn]
  rw [BitVec.getLsbD, hm]
  by_cases hn : n < 64
  · simp only [hn, if_true]
    rw [Nat.testBit_two_pow_sub_one]
  · simp only [hn, if_false]
    rw [Nat.testBit_two_pow_sub_one]
    simp; omega

theorem isArray_iff (Γ : Btf) (t : Ty) : isArray Γ t = true ↔ ∃ e, Γ.kindOf t = .array e := by
  unfold isArray
  cases Γ.kindOf t <;> simp

/-! ### What is accepted -/

/-- **C15.** `e[i]` is accepted only if `i` is an integer literal and `e` is a pointer to or an array of things that have a
size; it has the type of these. -/
theorem accepted_index {o : Opts} {e i : Expr} {s s' : CSt} {v' : Val} {c : List Insn}
    (h : evaluate o (.index e i) s = .ok (v', s', c)) :
    ∃ v s1 c1 ty t z text n, evaluate o e s = .ok (v, s1, c1) ∧ v.ty = some ty ∧ (o.Γ.kindOf ty = .ptr t ∨ o.Γ.kindOf ty = .array t) ∧
      o.Γ.sizeOf t = some z ∧ 0 < z ∧ i = .num text ∧ parseNumber text = some n ∧ isBf v.mem = false ∧ v'.ty = some t := by
  obtain ⟨v, s1, c1, c2, h1, h2, -⟩ := bind_ok (by rw [evaluate] at h; exact h)
  unfold evaluateIndex at h2
  cases hb : isBf v.mem with
  | true => rw [hb, if_pos rfl] at h2; exact (reject_ok h2).elim
  | false =>
  rw [hb] at h2
  simp only [Bool.false_eq_true, if_false] at h2
  cases i with
  | num text =>
    simp only at h2
    cases hn : parseNumber text with
    | none => rw [hn] at h2; exact (reject_ok h2).elim
    | some n =>
    rw [hn] at h2
    simp only at h2
    cases hty : v.ty with
    | none => rw [hty] at h2; exact (reject_ok h2).elim
    | some ty =>
    rw [hty] at h2
    simp only [Btf.kindO] at h2
    have sized : ∀ t, ¬ o.Γ.size0 t = 0 → ∃ z, o.Γ.sizeOf t = some z ∧ 0 < z := by
      intro t hz
      unfold Btf.size0 at hz
      cases hs : o.Γ.sizeOf t with
      | none => rw [hs] at hz; exact absurd rfl hz
      | some z =>
        rw [hs] at hz
        simp only [Option.getD_some] at hz
        exact ⟨z, rfl, by omega⟩
    cases hk : o.Γ.kindOf ty with
    | ptr t =>
      rw [hk] at h2
      dsimp only at h2
      by_cases hz : o.Γ.size0 t = 0
      · rw [if_pos hz] at h2; exact (reject_ok h2).elim
      rw [if_neg hz] at h2
      obtain ⟨z, hz1, hz2⟩ := sized t hz
      refine ⟨v, s1, c1, ty, t, z, text, n, h1, hty, .inl hk, hz1, hz2, rfl, hn, hb, ?_⟩
      cases v with
      | pend b offs t0 m => obtain ⟨rfl, _⟩ := pure_ok h2; rfl
      | mat r t0 m => obtain ⟨rfl, _⟩ := pure_ok h2; rfl
      | const a b => exact (reject_ok (s := s1) h2).elim
      | enumMaybe a b => exact (reject_ok (s := s1) h2).elim
    | array t =>
      rw [hk] at h2
      dsimp only at h2
      by_cases hz : o.Γ.size0 t = 0
      · rw [if_pos hz] at h2; exact (reject_ok h2).elim
      rw [if_neg hz] at h2
      obtain ⟨z, hz1, hz2⟩ := sized t hz
      refine ⟨v, s1, c1, ty, t, z, text, n, h1, hty, .inr hk, hz1, hz2, rfl, hn, hb, ?_⟩
      cases v with
      | pend b offs t0 m => obtain ⟨rfl, _⟩ := pure_ok h2; rfl
      | mat r t0 m => obtain ⟨rfl, _⟩ := pure_ok h2; rfl
      | const a b => exact (reject_ok (s := s1) h2).elim
      | enumMaybe a b => exact (reject_ok (s := s1) h2).elim
    | _ => rw [hk] at h2; exact (reject_ok h2).elim
  | _ => exact (reject_ok (s := s1) h2).elim

/-- **C08.** `*e` is accepted only if `e` is a pointer; it has the type pointed to. -/
theorem accepted_indir {o : Opts} {e : Expr} {s s' : CSt} {v' : Val} {c : List Insn}
    (h : evaluate o (.indir e) s = .ok (v', s', c)) :
    ∃ v s1 c1 ty t, evaluate o e s = .ok (v, s1, c1) ∧ v.ty = some ty ∧ o.Γ.kindOf ty = .ptr t ∧ isBf v.mem = false ∧ v'.ty = some t := by
  obtain ⟨v, s1, c1, c2, h1, h2, -⟩ := bind_ok (by rw [evaluate] at h; exact h)
  unfold evaluateIndir at h2
  cases hb : isBf v.mem with
  | true => rw [hb, if_pos rfl] at h2; exact (reject_ok h2).elim
  | false =>
  rw [hb] at h2
  simp only [Bool.false_eq_true, if_false] at h2
  cases hty : v.ty with
  | none => rw [hty] at h2; exact (reject_ok h2).elim
  | some ty =>
  rw [hty] at h2
  simp only [Btf.kindO] at h2
  cases hk : o.Γ.kindOf ty with
  | ptr t =>
    rw [hk] at h2
    refine ⟨v, s1, c1, ty, t, h1, hty, hk, hb, ?_⟩
    cases v with
    | pend b offs t0 m => obtain ⟨rfl, _⟩ := pure_ok h2; rfl
    | mat r t0 m => obtain ⟨rfl, _⟩ := pure_ok h2; rfl
    | const a b => exact (reject_ok (s := s1) h2).elim
    | enumMaybe a b => exact (reject_ok (s := s1) h2).elim
  | _ => rw [hk] at h2; exact (reject_ok h2).elim

/-- **C08.** `&e` is accepted only for objects reached through a pointer; it is a pointer to their type. -/
theorem accepted_addr {o : Opts} {e : Expr} {s s' : CSt} {v' : Val} {c : List Insn}
    (h : evaluate o (.addr e) s = .ok (v', s', c)) :
    ∃ b offs t m s1 c1, evaluate o e s = .ok (.pend b offs t m, s1, c1) ∧ offs ≠ [] ∧ v'.ty = some (.ptr t) := by
  obtain ⟨v, s1, c1, c2, h1, h2, -⟩ := bind_ok (by rw [evaluate] at h; exact h)
  cases v with
  | pend b offs t m =>
    unfold evaluateAddr at h2
    simp only at h2
    cases offs with
    | nil => exact (reject_ok (s := s1) h2).elim
    | cons x xs =>
      obtain ⟨rfl, _⟩ := pure_ok (s := s1) h2
      exact ⟨b, _, t, m, s1, c1, h1, by simp, rfl⟩
  | const a b => exact (reject_ok (s := s1) h2).elim
  | mat a b c => exact (reject_ok (s := s1) h2).elim
  | enumMaybe a b => exact (reject_ok (s := s1) h2).elim

/-- **C08.** The address of an argument, of a literal or of the value of an operator is not accepted. -/
theorem addr_rejected (o : Opts) (s s' : CSt) (v : Val) (c : List Insn) (x : String) (text : List Char) :
    evaluate o (.addr (.name x)) s ≠ .ok (v, s', c) ∧ evaluate o (.addr (.num text)) s ≠ .ok (v, s', c) := by
  constructor
  · intro h
    obtain ⟨b, offs, t, m, s1, c1, h1, h2, -⟩ := accepted_addr h
    rw [evaluate] at h1
    obtain ⟨h1, _⟩ := pure_ok h1
    unfold evaluateName at h1
    split at h1
    · cases h1
    split at h1
    · cases h1
    split at h1
    · cases h1
    · cases h1; exact h2 rfl
  · intro h
    obtain ⟨b, offs, t, m, s1, c1, h1, h2, -⟩ := accepted_addr h
    rw [evaluate] at h1
    cases hp : parseNumber text with
    | none => rw [hp] at h1; exact reject_ok h1
    | some n =>
      rw [hp] at h1
      obtain ⟨h1, _⟩ := pure_ok h1
      cases h1

/-- **C08.** `e->f` and `e.f` are accepted only if `e` is a pointer to a struct or union, or for `.` one that was reached
through a pointer, that has the member `f`, and no bit-field; they have the type of the member. -/
theorem accepted_member {o : Opts} {e : Expr} {f : String} {s s' : CSt} {v' : Val} {c : List Insn} (arrow : Bool)
    (h : evaluate o (if arrow then .arrow e f else .dot e f) s = .ok (v', s', c)) :
    ∃ v s1 c1 ty t id mem, evaluate o e s = .ok (v, s1, c1) ∧ v.ty = some ty ∧
      (if arrow then o.Γ.kindOf ty = .ptr t else ty = t ∧ ∃ b offs m, v = .pend b offs ty m ∧ offs ≠ []) ∧
      o.Γ.kindOf t = .comp id ∧ o.Γ.member id f = some mem ∧ isBf v.mem = false ∧ v'.ty = some mem.ty := by
  obtain ⟨v, s1, c1, c2, h1, h2⟩ : ∃ v s1 c1 c2, evaluate o e s = .ok (v, s1, c1) ∧ accessMember o v f arrow s1 = .ok (v', s', c2) := by
    cases arrow with
    | true => obtain ⟨v, s1, c1, c2, h1, h2, -⟩ := bind_ok (by rw [if_pos rfl, evaluate] at h; exact h); exact ⟨v, s1, c1, c2, h1, h2⟩
    | false =>
      obtain ⟨v, s1, c1, c2, h1, h2, -⟩ := bind_ok (by rw [if_neg (by simp), evaluate] at h; exact h); exact ⟨v, s1, c1, c2, h1, h2⟩
  unfold accessMember at h2
  cases hb : isBf v.mem with
  | true => rw [hb, if_pos rfl] at h2; exact (reject_ok h2).elim
  | false =>
  rw [hb] at h2
  simp only [Bool.false_eq_true, if_false] at h2
  cases hty : v.ty with
  | none =>
    rw [hty] at h2
    cases arrow <;> exact (reject_ok h2).elim
  | some ty =>
  rw [hty] at h2
  simp only [Btf.kindO] at h2
  cases arrow with
  | true =>
    simp only [if_true] at h2
    cases hk : o.Γ.kindOf ty with
    | ptr t =>
      rw [hk] at h2
      simp only at h2
      cases hk2 : o.Γ.kindOf t with
      | comp id =>
        rw [hk2] at h2
        simp only at h2
        cases hm : o.Γ.member id f with
        | none => rw [hm] at h2; exact (reject_ok h2).elim
        | some mem =>
          rw [hm] at h2
          refine ⟨v, s1, c1, ty, t, id, mem, h1, hty, hk, hk2, hm, hb, ?_⟩
          cases v with
          | pend b offs t0 m => obtain ⟨rfl, _⟩ := pure_ok h2; rfl
          | mat r t0 m => obtain ⟨rfl, _⟩ := pure_ok h2; rfl
          | const a b => exact (reject_ok (s := s1) h2).elim
          | enumMaybe a b => exact (reject_ok (s := s1) h2).elim
      | _ => rw [hk2] at h2; exact (reject_ok h2).elim
    | _ => rw [hk] at h2; exact (reject_ok h2).elim
  | false =>
    simp only [Bool.false_eq_true, if_false] at h2
    cases hk : o.Γ.kindOf ty with
    | comp id =>
      rw [hk] at h2
      simp only at h2
      cases hm : o.Γ.member id f with
      | none => rw [hm] at h2; exact (reject_ok h2).elim
      | some mem =>
        rw [hm] at h2
        cases v with
        | pend b offs t0 m =>
          cases offs with
          | nil => exact (reject_ok (s := s1) h2).elim
          | cons x xs =>
            obtain ⟨rfl, _⟩ := pure_ok (s := s1) h2
            obtain rfl : t0 = ty := by simpa [Val.ty] using hty
            exact ⟨_, s1, c1, t0, t0, id, mem, h1, rfl, ⟨rfl, b, x :: xs, m, rfl, by simp⟩, hk, hm, hb, rfl⟩
        | mat r t0 m => exact (reject_ok (s := s1) h2).elim
        | const a b => exact (reject_ok (s := s1) h2).elim
        | enumMaybe a b => exact (reject_ok (s := s1) h2).elim
    | _ => rw [hk] at h2; exact (reject_ok h2).elim

/-- What the operands of a binary operator are once names were looked up: a constant stays. -/
theorem resolve_const {o : Opts} {l r l' r' : Val} {s s' : CSt} {c : List Insn} (h : resolveEnums o l r s = .ok ((l', r'), s', c)) :
    (∀ a t, l = .const a t → l' = l) ∧ (∀ b t, r = .const b t → r' = r) := by
  unfold resolveEnums at h
  split at h
  · exact ⟨nofun, nofun⟩
  · exact ⟨nofun, nofun⟩
  · exact ⟨nofun, nofun⟩
  · exact ⟨nofun, nofun⟩
  · obtain ⟨h, _, _⟩ := pure_ok h; cases h; exact ⟨fun _ _ _ => rfl, fun _ _ _ => rfl⟩

/-- **C01, C04.** A constant that decides `&&` or `||`, on either side, makes the result the constant 0 or 1, whatever the other
side is. -/
theorem const_decides {o : Opts} {l r : Expr} {s s1 s2 s' : CSt} {v vl vr : Val} {c cl cr : List Insn} (or : Bool)
    (hl : evaluate o l s = .ok (vl, s1, cl)) (hr : evaluate o r s1 = .ok (vr, s2, cr))
    (hd : (∃ a t, vl = .const a t ∧ (a ≠ 0 ↔ or = true)) ∨ ∃ b t, vr = .const b t ∧ (b ≠ 0 ↔ or = true))
    (h : evaluate o (.bin (if or then .oror else .andand) l r) s = .ok (v, s', c)) :
    v = .const (if or then 1 else 0) none := by
  rw [evaluate] at h
  obtain ⟨_, _, _, _, h1, h, -⟩ := bind_ok h
  rw [hl] at h1; cases h1
  obtain ⟨_, _, _, _, h1, h, -⟩ := bind_ok h
  rw [hr] at h1; cases h1
  obtain ⟨l', r', h1, h⟩ := binVals_ok h
  obtain ⟨e1, e2⟩ := resolve_const h1
  replace hd : (∃ a t, l' = .const a t ∧ (a ≠ 0 ↔ or = true)) ∨ ∃ b t, r' = .const b t ∧ (b ≠ 0 ↔ or = true) := by
    rcases hd with ⟨a, t, ha, hn⟩ | ⟨a, t, ha, hn⟩
    · exact .inl ⟨a, t, (e1 a t ha).trans ha, hn⟩
    · exact .inr ⟨a, t, (e2 a t ha).trans ha, hn⟩
  cases or with
  | true =>
    replace h : ororVals o l' r' s2 = .ok (v, s', _) := h
    simp only [if_true, iff_true] at hd ⊢
    unfold ororVals at h
    split at h
    · rename_i a _ b _
      obtain ⟨rfl, _⟩ := pure_ok h
      rcases hd with ⟨a, t, ha, hn⟩ | ⟨a, t, ha, hn⟩ <;> cases ha <;> simp_all [b2n]
    · rename_i hnc
      replace h := check1_ok h
      rcases hd with ⟨a, t, ha, hn⟩ | ⟨a, t, ha, hn⟩
      · cases ha
        rw [if_pos hn] at h
        obtain ⟨rfl, _⟩ := pure_ok h; rfl
      · exact absurd ha (hnc _ _)
    · rename_i hnc
      replace h := check1_ok h
      rcases hd with ⟨a, t, ha, hn⟩ | ⟨a, t, ha, hn⟩
      · exact absurd ha (hnc _ _)
      · cases ha
        rw [if_pos hn] at h
        obtain ⟨_, _, _, _, _, h, -⟩ := bind_ok h
        obtain ⟨rfl, _⟩ := pure_ok h; rfl
    · rename_i hn1 hn2 _
      rcases hd with ⟨a, t, ha, hn⟩ | ⟨a, t, ha, hn⟩
      · exact absurd ha (hn1 _ _)
      · exact absurd ha (hn2 _ _)
  | false =>
    have hz : ∀ a : BitVec 64, (a ≠ 0 ↔ false = true) ↔ a = 0 := by
      intro a; simp
    simp only [hz] at hd
    replace h : andandVals o l' r' s2 = .ok (v, s', _) := h
    simp only [Bool.false_eq_true, if_false]
    unfold andandVals at h
    split at h
    · obtain ⟨rfl, _⟩ := pure_ok h
      rcases hd with ⟨a, t, ha, hn⟩ | ⟨a, t, ha, hn⟩ <;> cases ha <;> simp_all [b2n]
    · rename_i hnc
      replace h := check1_ok h
      rcases hd with ⟨a, t, ha, hn⟩ | ⟨a, t, ha, hn⟩
      · cases ha
        rw [if_pos hn] at h
        obtain ⟨rfl, _⟩ := pure_ok h; rfl
      · exact absurd ha (hnc _ _)
    · rename_i hnc
      replace h := check1_ok h
      rcases hd with ⟨a, t, ha, hn⟩ | ⟨a, t, ha, hn⟩
      · exact absurd ha (hnc _ _)
      · cases ha
        rw [if_pos hn] at h
        obtain ⟨_, _, _, _, _, h, -⟩ := bind_ok h
        obtain ⟨rfl, _⟩ := pure_ok h; rfl
    · rename_i hn1 hn2 _
      rcases hd with ⟨a, t, ha, hn⟩ | ⟨a, t, ha, hn⟩
      · exact absurd ha (hn1 _ _)
      · exact absurd ha (hn2 _ _)

/-- The hypotheses are met: `skb[1]`, `*skb`, `&skb->dev` and `skb->dev` are accepted, and `skb->nosuch`, `n[1]`, `*n` and
`&skb` are not. -/
theorem accept_witness (mode : Mode) (s : CSt) :
    (∃ r, evaluate (exOpts mode) (.index (.name "skb") (.num ['1'])) s = .ok r) ∧
    (∃ r, evaluate (exOpts mode) (.indir (.name "skb")) s = .ok r) ∧
    (∃ r, evaluate (exOpts mode) (.addr (.arrow (.name "skb") "dev")) s = .ok r) ∧
    (∃ r, evaluate (exOpts mode) (.arrow (.name "skb") "dev") s = .ok r) ∧
    evaluate (exOpts mode) (.arrow (.name "skb") "nosuch") s = .error .reject ∧
    evaluate (exOpts mode) (.index (.name "n") (.num ['1'])) s = .error .reject ∧
    evaluate (exOpts mode) (.indir (.name "n")) s = .error .reject ∧
    evaluate (exOpts mode) (.addr (.name "skb")) s = .error .reject ∧
    (∃ r, evaluate (exOpts mode) (.bin .oror (.num ['5']) (.name "n")) s = .ok r) :=
  ⟨⟨_, rfl⟩, ⟨_, rfl⟩, ⟨_, rfl⟩, ⟨_, rfl⟩, rfl, rfl, rfl, rfl, ⟨_, rfl⟩⟩

/-- **C13.** As an output expression a constant is rejected; only where the caller asks for it (reading memory at a given address)
is it accepted. Whatever is accepted otherwise is no constant. -/
theorem constant_output {o : Opts} {us : List Nat} {u : Regs} {e : Expr} {n : BitVec 64} {t : Option Ty} {s : CSt} {c : List Insn}
    (hu : markAll noRegs us = some u) (h : evaluate o e { used := u, exitUsed := false } = .ok (.const n t, s, c)) :
    compileEval o us false e = .error .reject ∧ ∃ p, compileEval o us true e = .ok p := by
  unfold compileEval
  rw [hu]
  dsimp only
  rw [h]
  exact ⟨rfl, _, rfl⟩

theorem constant_output_witness (mode : Mode) : compileEval (exOpts mode) [8, 9] false (.bin .add (.num ['1']) (.num ['2'])) = .error .reject := rfl

/-- The types one can calculate with: numbers, enumerations, addresses, arrays. Not structures, unions, `void` or functions. -/
def Calculable (Γ : Btf) (t : Ty) : Prop :=
  Γ.kindOf t = .int ∨ (∃ vals, Γ.kindOf t = .enum vals) ∨ (∃ t', Γ.kindOf t = .ptr t') ∨ ∃ t', Γ.kindOf t = .array t'

/-- What is still in memory has a type one can calculate with. -/
def PendCalc (Γ : Btf) (v : Val) : Prop := ∀ b offs t m, v = .pend b offs t m → Calculable Γ t

theorem pendCalc_ok {o : Opts} {v : Val} {s s' : CSt} {c : List Insn} {u : Unit} (h : checkCalc o v s = .ok (u, s', c)) : PendCalc o.Γ v := by
  rintro b offs t m rfl
  simp only [checkCalc] at h
  cases hc : o.Γ.canCalc t with
  | false => rw [hc] at h; exact (reject_ok (s := s) h).elim
  | true =>
    unfold Calculable
    unfold Btf.canCalc at hc
    cases hk : o.Γ.kindOf t <;> rw [hk] at hc <;> simp at hc ⊢

theorem calc2 {o : Opts} {l r v : Val} {s s' : CSt} {c : List Insn} {k : CM Val}
    (h : (checkCalc o l >>= fun _ => checkCalc o r >>= fun _ => k) s = .ok (v, s', c)) : PendCalc o.Γ l ∧ PendCalc o.Γ r := by
  obtain ⟨_, _, _, _, h1, h, -⟩ := bind_ok h
  obtain ⟨_, _, _, _, h2, -, -⟩ := bind_ok h
  exact ⟨pendCalc_ok h1, pendCalc_ok h2⟩

theorem calc1 {o : Opts} {l v : Val} {s s' : CSt} {c : List Insn} {k : CM Val}
    (h : (checkCalc o l >>= fun _ => k) s = .ok (v, s', c)) : PendCalc o.Γ l := by
  obtain ⟨_, _, _, _, h1, -, -⟩ := bind_ok h
  exact pendCalc_ok h1

theorem calc_const (Γ : Btf) (n : BitVec 64) (t : Option Ty) : PendCalc Γ (.const n t) := nofun

theorem calc_vals {o : Opts} {op : Bop} {l r v : Val} {s s' : CSt} {c : List Insn} (h : (match op with
  | .add => addVals o l r
  | .sub => subVals o l r
  | .mul => mulVals o l r
  | .div => divVals o l r
  | .mod => modVals o l r
  | .and => bitVals o .and l r
  | .or => bitVals o .or l r
  | .xor => bitVals o .xor l r
  | .lsh => shiftVals o true l r
  | .rsh => shiftVals o false l r
  | .eq => cmpVals o .eq l r
  | .ne => cmpVals o .ne l r
  | .lt => cmpVals o .lt l r
  | .le => cmpVals o .le l r
  | .gt => cmpVals o .gt l r
  | .ge => cmpVals o .ge l r
  | .andand => andandVals o l r
  | .oror => ororVals o l r) s = .ok (v, s', c)) : PendCalc o.Γ l ∧ PendCalc o.Γ r := by
  have cmp : ∀ k : Cmp, cmpVals o k l r s = .ok (v, s', c) → PendCalc o.Γ l ∧ PendCalc o.Γ r := by
    intro k h
    have e : PendCalc o.Γ (adjustNums o.Γ l r).1 ∧ PendCalc o.Γ (adjustNums o.Γ l r).2 := by
      unfold cmpVals at h
      generalize adjustNums o.Γ l r = p at h ⊢
      obtain ⟨a, b⟩ := p
      cases b with
      | const n t => cases a with
        | const n' t' => exact ⟨calc_const _ _ _, calc_const _ _ _⟩
        | _ => exact ⟨calc1 h, calc_const _ _ _⟩
      | _ => cases a <;> exact calc2 h
    unfold adjustNums at e
    split at e <;> first | exact e | exact ⟨calc_const _ _ _, e.2⟩ | exact ⟨e.1, calc_const _ _ _⟩
  have bit : ∀ k : Alu, bitVals o k l r s = .ok (v, s', c) → PendCalc o.Γ l ∧ PendCalc o.Γ r := by
    intro k h
    unfold bitVals at h
    split at h
    · exact ⟨calc_const _ _ _, calc_const _ _ _⟩
    · exact ⟨calc1 h, calc_const _ _ _⟩
    · exact calc2 h
  have sh : ∀ b : Bool, shiftVals o b l r s = .ok (v, s', c) → PendCalc o.Γ l ∧ PendCalc o.Γ r := by
    intro k h
    unfold shiftVals at h
    dsimp only at h
    split at h
    · exact ⟨calc_const _ _ _, calc_const _ _ _⟩
    · exact ⟨calc1 h, calc_const _ _ _⟩
    · exact calc2 h
  cases op
  case eq => exact cmp _ h
  case ne => exact cmp _ h
  case lt => exact cmp _ h
  case le => exact cmp _ h
  case gt => exact cmp _ h
  case ge => exact cmp _ h
  case and => exact bit _ h
  case or => exact bit _ h
  case xor => exact bit _ h
  case lsh => exact sh _ h
  case rsh => exact sh _ h
  case add =>
    simp only [addVals] at h
    split at h
    · exact ⟨calc_const _ _ _, calc_const _ _ _⟩
    · exact calc2 h
  case sub =>
    simp only [subVals] at h
    split at h
    · exact ⟨calc_const _ _ _, calc_const _ _ _⟩
    · exact calc2 h
  case mul =>
    simp only [mulVals] at h
    split at h
    · exact ⟨calc_const _ _ _, calc_const _ _ _⟩
    · exact calc2 h
  case div =>
    simp only [divVals] at h
    split at h
    · exact ⟨calc_const _ _ _, calc_const _ _ _⟩
    · split at h
      · exact (reject_ok h).elim
      · exact ⟨calc1 h, calc_const _ _ _⟩
    · exact calc2 h
  case mod =>
    simp only [modVals] at h
    split at h
    · exact ⟨calc_const _ _ _, calc_const _ _ _⟩
    · split at h
      · exact (reject_ok h).elim
      · exact ⟨calc1 h, calc_const _ _ _⟩
    · exact calc2 h
  case andand =>
    simp only [andandVals] at h
    split at h
    · exact ⟨calc_const _ _ _, calc_const _ _ _⟩
    · exact ⟨calc_const _ _ _, calc1 h⟩
    · exact ⟨calc1 h, calc_const _ _ _⟩
    · exact calc2 h
  case oror =>
    simp only [ororVals] at h
    split at h
    · exact ⟨calc_const _ _ _, calc_const _ _ _⟩
    · exact ⟨calc_const _ _ _, calc1 h⟩
    · exact ⟨calc1 h, calc_const _ _ _⟩
    · exact calc2 h

/-- **C01.** Every binary operator is refused for an operand in memory whose type one cannot calculate with: a structure, a union, `void`. -/
theorem accepted_bin {o : Opts} {op : Bop} {l r : Expr} {s s' : CSt} {v : Val} {c : List Insn}
    (h : evaluate o (.bin op l r) s = .ok (v, s', c)) :
    ∃ vl s1 cl vr s2 cr, evaluate o l s = .ok (vl, s1, cl) ∧ evaluate o r s1 = .ok (vr, s2, cr) ∧ PendCalc o.Γ vl ∧ PendCalc o.Γ vr := by
  rw [evaluate] at h
  obtain ⟨vl, s1, cl, _, h1, h, -⟩ := bind_ok h
  obtain ⟨vr, s2, cr, _, h2, h, -⟩ := bind_ok h
  refine ⟨vl, s1, cl, vr, s2, cr, h1, h2, ?_⟩
  obtain ⟨l', r', hr, h⟩ := binVals_ok h
  have := calc_vals h
  have key : ∀ {x : Option (BitVec 64)} {f : BitVec 64 → Val × Val} {q : Val × Val} {s s' : CSt} {c : List Insn},
      (match x with | none => (reject : CM (Val × Val)) | some n => pure (f n)) s = .ok (q, s', c) → ∃ n, q = f n := by
    intro x f q s s' c h
    cases x with
    | none => exact (reject_ok h).elim
    | some n => exact ⟨n, (pure_ok h).1⟩
  unfold resolveEnums at hr
  split at hr
  · exact ⟨nofun, nofun⟩
  · obtain ⟨n, hn⟩ := key hr; cases hn; exact ⟨nofun, this.2⟩
  · exact ⟨nofun, nofun⟩
  · obtain ⟨n, hn⟩ := key hr; cases hn; exact ⟨this.1, nofun⟩
  · obtain ⟨hr, _, _⟩ := pure_ok hr; cases hr; exact this

/-- The hypothesis is met by `n + 1`; `*skb == 1` is refused: `*skb` is a structure. -/
theorem calc_witness (mode : Mode) (s : CSt) : (∃ r, evaluate (exOpts mode) (.bin .add (.name "n") (.num ['1'])) s = .ok r) ∧
    evaluate (exOpts mode) (.bin .eq (.indir (.name "skb")) (.num ['1'])) s = .error .reject := ⟨⟨_, rfl⟩, rfl⟩
end Bpfsnoop.Cc
