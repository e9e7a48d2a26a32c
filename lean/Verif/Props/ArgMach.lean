import Verif.Model.FnArgs
import Verif.Props.CcSafe

/-
Lemmas on the machine with an output buffer.
-/
namespace Bpfsnoop.Arg
open Cc

theorem le_length (n : Nat) (v : BitVec 64) : (le n v).length = n := by
  induction n generalizing v with
  | zero => rfl
  | succ n ih => simp [le, ih]

theorem leVal_le (n : Nat) (v : BitVec 64) : leVal (le n v) = v.toNat % 256 ^ n := by
  induction n generalizing v with
  | zero => simp [le, leVal, Nat.mod_one]
  | succ n ih =>
    simp only [le, leVal, ih, BitVec.toNat_setWidth, BitVec.toNat_ushiftRight]
    rw [Nat.pow_succ' (m := 256), Nat.mod_mul (a := 256), Nat.shiftRight_eq_div_pow]

theorem leVal_le8 (v : BitVec 64) : BitVec.ofNat 64 (leVal (le 8 v)) = v := by
  rw [leVal_le]
  apply BitVec.eq_of_toNat_eq
  rw [BitVec.toNat_ofNat]
  have := v.isLt
  omega

theorem reads_length (b : Buf) (n : Nat) (a : BitVec 64) : (reads b n a).length = n := by
  induction n generalizing a with
  | zero => rfl
  | succ n ih => simp [reads, ih]

theorem ofNat_succ_add (a : BitVec 64) (n : Nat) : a + BitVec.ofNat 64 (n + 1) = a + 1 + BitVec.ofNat 64 n := by
  rw [BitVec.ofNat_add, BitVec.add_assoc, BitVec.add_comm (BitVec.ofNat 64 n)]
  rfl

theorem reads_add (b : Buf) (n k : Nat) (a : BitVec 64) :
    reads b (n + k) a = reads b n a ++ reads b k (a + BitVec.ofNat 64 n) := by
  induction n generalizing a with
  | zero => simp [reads]
  | succ n ih =>
    rw [Nat.succ_add, reads, ih, reads, ofNat_succ_add]
    rfl

theorem reads_get (b : Buf) (n k : Nat) (a : BitVec 64) (h : k < n) :
    (reads b n a)[k]? = some (b (a + BitVec.ofNat 64 k)) := by
  induction n generalizing a k with
  | zero => omega
  | succ n ih =>
    cases k with
    | zero => simp [reads]
    | succ k => rw [reads, List.getElem?_cons_succ, ih k (a + 1) (by omega), ofNat_succ_add]

theorem reads_congr {b b' : Buf} {n : Nat} {a : BitVec 64}
    (h : ∀ k, k < n → b (a + BitVec.ofNat 64 k) = b' (a + BitVec.ofNat 64 k)) : reads b n a = reads b' n a := by
  apply List.ext_getElem?
  intro k
  by_cases hk : k < n
  · rw [reads_get _ _ _ _ hk, reads_get _ _ _ _ hk, h k hk]
  · rw [List.getElem?_eq_none (by rw [reads_length]; omega), List.getElem?_eq_none (by rw [reads_length]; omega)]

theorem wr_out {b : Buf} {a : BitVec 64} {bs : List (BitVec 8)} {x : BitVec 64} (h : bs.length ≤ (x - a).toNat) :
    wr b a bs x = b x := by
  unfold wr
  rw [List.getElem?_eq_none h]
  rfl

theorem wr_in {b : Buf} {a : BitVec 64} {bs : List (BitVec 8)} {k : Nat} (hk : k < bs.length) (h : k < 2 ^ 64) :
    wr b a bs (a + BitVec.ofNat 64 k) = bs[k] := by
  have : (a + BitVec.ofNat 64 k - a).toNat = k := by
    rw [BitVec.add_comm, BitVec.add_sub_cancel, BitVec.toNat_ofNat, Nat.mod_eq_of_lt h]
  simp [wr, this, hk]

/-- Reading a region whose beginning has just been written. -/
theorem reads_wr {b : Buf} {a : BitVec 64} {bs : List (BitVec 8)} {n : Nat} (h : bs.length ≤ n) (hn : n ≤ 2 ^ 64) :
    reads (wr b a bs) n a = bs ++ (reads b n a).drop bs.length := by
  apply List.ext_getElem?
  intro k
  by_cases hk : k < n
  · rw [reads_get _ _ _ _ hk]
    by_cases hb : k < bs.length
    · rw [List.getElem?_append_left hb, wr_in hb (by omega), List.getElem?_eq_getElem hb]
    · rw [List.getElem?_append_right (by omega), List.getElem?_drop,
        show bs.length + (k - bs.length) = k by omega, reads_get _ _ _ _ hk, wr_out]
      rw [BitVec.add_comm, BitVec.add_sub_cancel, BitVec.toNat_ofNat, Nat.mod_eq_of_lt (by omega)]
      omega
  · rw [List.getElem?_eq_none (by rw [reads_length]; omega), List.getElem?_eq_none]
    simp [reads_length]; omega

/-- A buffer that agrees with another one outside `n` bytes from `a`. -/
def Same (b b' : Buf) (a : BitVec 64) (n : Nat) : Prop := ∀ x, n ≤ (x - a).toNat → b' x = b x

theorem same_refl (b : Buf) (a : BitVec 64) (n : Nat) : Same b b a n := fun _ _ => rfl

theorem same_wr {b : Buf} {a : BitVec 64} {bs : List (BitVec 8)} {n : Nat} (h : bs.length ≤ n) :
    Same b (wr b a bs) a n := fun _ hx => wr_out (Nat.le_trans h hx)

theorem off_sub (x a : BitVec 64) (k : Nat) : x - (a + BitVec.ofNat 64 k) = x - a - BitVec.ofNat 64 k := by
  rw [BitVec.sub_eq_add_neg, BitVec.sub_eq_add_neg, BitVec.sub_eq_add_neg, BitVec.neg_add, BitVec.sub_eq_add_neg,
    BitVec.add_assoc]

theorem same_trans {b b1 b2 : Buf} {a : BitVec 64} {n k : Nat} (h1 : Same b b1 a n)
    (h2 : Same b1 b2 (a + BitVec.ofNat 64 n) k) (hk : n + k < 2 ^ 64) : Same b b2 a (n + k) := by
  intro x hx
  have hs : (x - (a + BitVec.ofNat 64 n)).toNat = (x - a).toNat - n := by
    rw [off_sub, BitVec.toNat_sub_of_le, BitVec.toNat_ofNat, Nat.mod_eq_of_lt (by omega)]
    rw [BitVec.le_def, BitVec.toNat_ofNat, Nat.mod_eq_of_lt (by omega)]
    omega
  rw [h2 x (by rw [hs]; omega), h1 x (by omega)]

/-- A later region does not disturb an earlier one. -/
theorem same_reads {b b' : Buf} {a : BitVec 64} {n k : Nat} (h : Same b b' (a + BitVec.ofNat 64 n) k)
    (hk : n + k < 2 ^ 64) : reads b' n a = reads b n a := by
  apply reads_congr
  intro j hj
  apply h
  rw [off_sub, BitVec.add_comm, BitVec.add_sub_cancel, BitVec.toNat_sub, BitVec.toNat_ofNat, BitVec.toNat_ofNat,
    Nat.mod_eq_of_lt (show j < 2 ^ 64 by omega), Nat.mod_eq_of_lt (show n < 2 ^ 64 by omega)]
  omega

theorem same_reads_after {b b' : Buf} {a : BitVec 64} {n k : Nat} (h : Same b b' a n) (hk : n + k ≤ 2 ^ 64) :
    reads b' k (a + BitVec.ofNat 64 n) = reads b k (a + BitVec.ofNat 64 n) := by
  apply reads_congr
  intro j hj
  apply h
  rw [BitVec.add_assoc, BitVec.add_comm, BitVec.add_sub_cancel, ← BitVec.ofNat_add, BitVec.toNat_ofNat,
    Nat.mod_eq_of_lt (by omega)]
  omega

theorem sx16_small {k : Nat} (h : k < 2 ^ 15) : sx16 (BitVec.ofNat 64 k) = BitVec.ofNat 64 k := by
  unfold sx16
  apply BitVec.eq_of_toInt_eq
  rw [BitVec.toInt_signExtend_of_le (by omega), BitVec.setWidth_ofNat_of_le (by omega)]
  rw [BitVec.toInt_ofNat', BitVec.toInt_ofNat', Int.bmod_def, Int.bmod_def]
  omega

theorem sx32_small {k : Nat} (h : k < 2 ^ 31) : sx32 (BitVec.ofNat 64 k) = BitVec.ofNat 64 k := by
  unfold sx32
  apply BitVec.eq_of_toInt_eq
  rw [BitVec.toInt_signExtend_of_le (by omega), BitVec.setWidth_ofNat_of_le (by omega)]
  rw [BitVec.toInt_ofNat', BitVec.toInt_ofNat', Int.bmod_def, Int.bmod_def]
  omega

/-! ### Running code -/

theorem execO_seq {m : Mem} {i : OI} {r : List OI} {s s' : OSt} (h : stepO m i s = .seq s') :
    execO m (i :: r) s = execO m r s' := by
  simp only [execO, execOK, h]

theorem execO_nil (m : Mem) (s : OSt) : execO m [] s = .done s := rfl

theorem execO_ret (m : Mem) (r : List OI) (s : OSt) : execO m (.cc .ret :: r) s = .ret s := rfl

theorem execOK_append_done {m : Mem} {c2 : List OI} : ∀ {c1 : List OI} {k : Nat} {s s' : OSt},
    execOK m c1 k s = .done s' → execOK m (c1 ++ c2) k s = execOK m c2 0 s' := by
  intro c1
  induction c1 with
  | nil =>
    intro k s s' h
    cases k with
    | zero => simp only [execOK, OOut.done.injEq] at h; rw [← h]; rfl
    | succ k => simp [execOK] at h
  | cons i r ih =>
    intro k s s' h
    cases k with
    | succ k => simp only [execOK, List.cons_append] at h ⊢; exact ih h
    | zero =>
      simp only [execOK, List.cons_append] at h ⊢
      cases hs : stepO m i s <;> simp only [hs] at h ⊢
      · exact ih h
      · exact ih h
      all_goals simp at h

theorem execO_append_done {m : Mem} {c1 c2 : List OI} {s s' : OSt} (h : execO m c1 s = .done s') :
    execO m (c1 ++ c2) s = execO m c2 s' := execOK_append_done h

theorem execOK_append_exit {m : Mem} {c2 : List OI} : ∀ {c1 : List OI} {k : Nat} {s s' : OSt},
    execOK m c1 k s = .exit s' → execOK m (c1 ++ c2) k s = .exit s' := by
  intro c1
  induction c1 with
  | nil =>
    intro k s s' h
    cases k <;> simp [execOK] at h
  | cons i r ih =>
    intro k s s' h
    cases k with
    | succ k => simp only [execOK, List.cons_append] at h ⊢; exact ih h
    | zero =>
      simp only [execOK, List.cons_append] at h ⊢
      cases hs : stepO m i s <;> simp only [hs] at h ⊢
      · exact ih h
      · exact ih h
      · exact h
      all_goals simp at h

theorem execO_append_exit {m : Mem} {c1 c2 : List OI} {s s' : OSt} (h : execO m c1 s = .exit s') :
    execO m (c1 ++ c2) s = .exit s' := execOK_append_exit h

/-- Compiled expression code runs on this machine as on its own; the buffer is not touched. -/
theorem execOK_cc {m : Mem} (out : Buf) : ∀ {c : List Insn} {k : Nat} {st : St},
    (∀ st', execK m c k st = .done st' → execOK m (c.map .cc) k ⟨st, out⟩ = .done ⟨st', out⟩) ∧
    (∀ st', execK m c k st = .exit st' → execOK m (c.map .cc) k ⟨st, out⟩ = .exit ⟨st', out⟩) := by
  intro c
  induction c with
  | nil =>
    intro k st
    cases k with
    | zero => constructor <;> intro st' h <;> simp [execK] at h; subst h; rfl
    | succ k => constructor <;> intro st' h <;> simp [execK] at h
  | cons i r ih =>
    intro k st
    cases k with
    | succ k => exact ih
    | zero =>
      have key : ∀ n, stepI m i st = n → n ≠ .stuck → stepO m (.cc i) ⟨st, out⟩ = lift out n := by
        intro n h hn
        cases i with
        | callProbe =>
          simp only [stepO]
          rw [if_pos, h]
          simp only [stepI] at h
          by_cases hc : st.regs 1 = st.regs 10 - 8 ∧ st.regs 2 = 8
          · exact hc
          · rw [if_neg hc] at h; exact absurd h.symm hn
        | _ => exact congrArg (lift out) h
      simp only [List.map_cons, execK, execOK]
      cases hs : stepI m i st with
      | seq st1 => rw [key _ hs (by simp)]; exact ih
      | jump off st1 => rw [key _ hs (by simp)]; exact ih
      | label st1 =>
        rw [key _ hs (by simp)]
        constructor <;> intro st' h <;> simp at h
        subst h; rfl
      | ret st1 => constructor <;> intro st' h <;> simp at h
      | stuck => constructor <;> intro st' h <;> simp at h

theorem execO_cc_done {m : Mem} {c : List Insn} {st st' : St} (out : Buf) (h : exec m c st = .done st') :
    execO m (c.map .cc) ⟨st, out⟩ = .done ⟨st', out⟩ := (execOK_cc out).1 st' h

theorem execO_cc_exit {m : Mem} {c : List Insn} {st st' : St} (out : Buf) (h : exec m c st = .exit st') :
    execO m (c.map .cc) ⟨st, out⟩ = .exit ⟨st', out⟩ := (execOK_cc out).2 st' h

/-! ### Bytes written by the helpers -/

theorem readN_length {m : Mem} : ∀ {n : Nat} {a : BitVec 64} {l : List (BitVec 8)}, readN m n a = some l → l.length = n := by
  intro n
  induction n with
  | zero => intro a l h; simp [readN] at h; simp [← h]
  | succ n ih =>
    intro a l h
    simp only [readN] at h
    cases hm : m a with
    | none => simp [hm] at h
    | some b =>
      simp only [hm, Option.map_eq_some_iff] at h
      obtain ⟨l', h', rfl⟩ := h
      simp [ih h']

theorem probeBytes_length (m : Mem) (n : Nat) (a : BitVec 64) : (probeBytes m n a).length = n := by
  unfold probeBytes
  cases h : readN m n a with
  | none => simp
  | some l => simp [readN_length h]

theorem strLoop_length {m : Mem} : ∀ {n : Nat} {a : BitVec 64} {l : List (BitVec 8)}, strLoop m n a = some l → l.length ≤ n := by
  intro n
  induction n with
  | zero => intro a l h; simp [strLoop] at h; simp [← h]
  | succ n ih =>
    intro a l h
    simp only [strLoop] at h
    cases hm : m a with
    | none => simp [hm] at h
    | some b =>
      simp only [hm] at h
      by_cases hb : b = 0 ∨ n = 0
      · rw [if_pos hb] at h; obtain rfl := Option.some.inj h; simp
      · rw [if_neg hb, Option.map_eq_some_iff] at h
        obtain ⟨l', h', rfl⟩ := h
        have := ih h'
        simp; omega

theorem strBytes_length (m : Mem) (n : Nat) (a : BitVec 64) : (strBytes m n a).length ≤ n := by
  unfold strBytes
  cases h : strLoop m n a with
  | none => simp
  | some l => simp [strLoop_length h]

end Bpfsnoop.Arg
