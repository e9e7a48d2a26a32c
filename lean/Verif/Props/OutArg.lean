import Verif.Model.OutArg
import Verif.Props.FnArgs
import Verif.Props.CcKeep
import Verif.Props.CcFunc
import Verif.Props.CcTop

/-
C18: with several output expressions, every printed value is decoded from the bytes that were captured for
its own expression.
-/
namespace Bpfsnoop.Arg
open Cc

/-! ### Specification -/

/-- What is shown of a string of at most `n` bytes at `a`. -/
def StrUpTo (m : Mem) (n : Nat) (a : BitVec 64) (s : List (BitVec 8)) : Prop :=
  if n = 0 then s = [] else StrShown m n a s

/-- The result of running the code of one expression: its value, or `none` if the code left through the exit
label (a NULL pointer would have had to be followed). -/
def Outcome (m : Mem) (p : EvalRes) (st : St) (x : Option (BitVec 64)) : Prop :=
  match x with
  | some v => ∃ st', exec m p.code st = .done st' ∧ st'.regs p.reg = v
  | none => ∃ st', exec m p.code st = .exit st'

/-- A list is cut into elements of `k` elements. -/
def splits (k : Nat) (l : List (BitVec 8)) (es : List (List (BitVec 8))) : Prop :=
  es.length = l.length / k ∧ (∀ e ∈ es, e.length = k) ∧ es.flatten = l.take (l.length / k * k)

/-- What has to be shown for one expression with outcome `x`. Functions that read memory show the memory at the
value of the expression (plus offset), everything else shows the value itself. -/
def Right (q : TyQ) (m : Mem) (r : TopRes) (x : Option (BitVec 64)) (it : Item) : Prop :=
  match x with
  | none => it = .null
  | some p =>
    match r.typ with
    | .deref => it = if p = 0 then .null else .bytes (probeBytes m ((q.size r.res.ty).getD 0).toNat p)
    | .buf | .pkt | .addr | .port | .hex | .int =>
      it = if p = 0 then .null else .bytes (probeBytes m r.res.size.toNat (p + r.res.off))
    | .str => if p = 0 then it = .null else ∃ s, it = .str s ∧ StrUpTo m r.res.size.toNat (p + r.res.off) s
    | .slice =>
      if p = 0 then it = .null
      else ∃ es, it = .elems es ∧ splits ((q.size r.res.ty).getD 0).toNat (probeBytes m r.res.size.toNat (p + r.res.off)) es
    | .hist | .tdigest => it = .sample (le 8 p) ((q.size r.res.ty).getD 0)
    | .dflt =>
      if q.charArr r.res.ty then ∃ s, it = .str s ∧ StrUpTo m (q.nelems r.res.ty).toNat p s
      else if q.charPtr r.res.ty then (if p = 0 then it = .null else ∃ s, it = .str s ∧ StrUpTo m 64 p s)
      else if q.numPtr r.res.ty then it = .numPtr p (if p = 0 then 0 else load m 8 p)
      else it = .num p

/-- Expressions whose bytes the decoder skips after showing them (all but histogram and t-digest samples). -/
def Skips (r : TopRes) : Prop := r.typ ≠ .hist ∧ r.typ ≠ .tdigest

/-- A `TopRes` that `CompileEvalExpr` returns with R8 and R9 reserved, as far as it matters here. -/
structure Ok (q : TyQ) (r : TopRes) : Prop where
  reg : r.code.reg < 8
  keep : ∀ i ∈ r.code.code, keepI i = true
  exits : (∃ i ∈ r.code.code, isExitI i = true) → r.code.labelUsed = true
  safe : Safe r.code.code
  fits : Fits r.code.code
  addr : r.typ = .addr → addrFns.lookup r.addr = some r.res.size
  port : r.typ = .port → addrFns.lookup r.port = some r.res.size
  int : r.typ = .int → intFns.lookup r.int = some r.res.size
  slice : r.typ = .slice → ∀ s, q.size r.res.ty = some s → s ≠ 0 ∧ s.toNat < 2 ^ 63
  sample : r.typ = .hist ∨ r.typ = .tdigest →
    q.charPtr r.res.ty = false ∧ q.charArr r.res.ty = false ∧ q.numPtr r.res.ty = false
  /-- the offset is encoded without loss -/
  off : sx32 r.res.off = r.res.off

/-! ### Helper lemmas -/

theorem nulTerm_strUpTo {m : Mem} {n : Nat} {a : BitVec 64} {seg : List (BitVec 8)} (hl : seg.length = n)
    (h : strBytes m n a <+: seg) : StrUpTo m n a (nulTerm seg) := by
  unfold StrUpTo
  split
  · rename_i h0
    have : seg = [] := List.length_eq_zero_iff.mp (hl.trans h0)
    rw [this]; rfl
  · obtain ⟨k, rfl⟩ : ∃ k, n = k + 1 := ⟨n - 1, by omega⟩
    exact nulTerm_strBytes h

theorem leVal_readN {m : Mem} : ∀ {n : Nat} {a : BitVec 64} {l : List (BitVec 8)}, readN m n a = some l →
    bytes m n a = some (leVal l) := by
  intro n
  induction n with
  | zero => intro a l h; simp [readN] at h; simp [h, bytes, leVal]
  | succ n ih =>
    intro a l h
    simp only [readN] at h
    cases hm : m a with
    | none => simp [hm] at h
    | some b =>
      simp only [hm, Option.map_eq_some_iff] at h
      obtain ⟨l', h', rfl⟩ := h
      simp only [bytes, hm, Option.bind_eq_bind, Option.bind_some, ih h', leVal]

theorem bytes_readN_none {m : Mem} : ∀ {n : Nat} {a : BitVec 64}, readN m n a = none → bytes m n a = none := by
  intro n
  induction n with
  | zero => intro a h; simp [readN] at h
  | succ n ih =>
    intro a h
    simp only [readN] at h
    cases hm : m a with
    | none => simp [bytes, hm]
    | some b =>
      simp only [hm, Option.map_eq_none_iff] at h
      simp only [bytes, hm, Option.bind_eq_bind, Option.bind_some, ih h, Option.bind_none]

theorem leVal_replicate (n : Nat) : leVal (List.replicate n 0) = 0 := by
  induction n with
  | zero => rfl
  | succ n ih => rw [List.replicate_succ, leVal, ih]; rfl

theorem leVal_probe8 (m : Mem) (a : BitVec 64) : BitVec.ofNat 64 (leVal (probeBytes m 8 a)) = load m 8 a := by
  unfold probeBytes load
  cases h : readN m 8 a with
  | none => rw [bytes_readN_none h, Option.getD_none, leVal_replicate]; rfl
  | some l => rw [leVal_readN h, Option.getD_some]

theorem getU64_app {l r : List (BitVec 8)} (h : l.length = 8) : getU64 (l ++ r) = some (BitVec.ofNat 64 (leVal l)) := by
  unfold getU64
  rw [if_pos (by rw [List.length_append]; omega), List.take_left' h]

theorem step_probe_out {m : Mem} {x : OSt} {n : Nat} (hn : n < 2 ^ 63) (h2 : x.st.regs 2 = BitVec.ofNat 64 n)
    (h1 : x.st.regs 1 ≠ x.st.regs 10 - 8) :
    stepO m (.cc .callProbe) x = .seq ⟨x.st.clobber 5, wr x.out (x.st.regs 1) (probeBytes m n (x.st.regs 3))⟩ := by
  have hm : (BitVec.ofNat 64 n).msb = false := by
    rw [BitVec.msb_eq_false_iff_two_mul_lt, BitVec.toNat_ofNat]; omega
  have ht : (BitVec.ofNat 64 n).toNat = n := by rw [BitVec.toNat_ofNat]; omega
  simp only [stepO]
  rw [if_neg (fun h => h1 h.1)]
  simp only [h2, hm, ht]
  rfl

/-- The registers set up for a helper call that writes at `R8 + n`. -/
theorem exec_helperArgs {m : Mem} {n k : Nat} (hn : n < 2 ^ 31) (hk : k < 2 ^ 31) (x : OSt) :
    ∃ st', execO m (helperArgs (BitVec.ofNat 64 n) (BitVec.ofNat 64 k)) x = .done ⟨st', x.out⟩ ∧
      st'.regs 1 = x.st.regs 8 + BitVec.ofNat 64 n ∧ st'.regs 2 = BitVec.ofNat 64 k ∧
      ∀ r, 2 < r → st'.regs r = x.st.regs r := by
  unfold helperArgs
  by_cases h0 : BitVec.ofNat 64 n = 0
  · rw [if_neg (by simp [h0]), List.append_nil, execO_seq (step_movI m 2 hk x), execO_seq (step_mov m 1 8 _), execO_nil]
    refine ⟨_, rfl, ?_, ?_, ?_⟩
    · rw [set_same, set_ne _ _ (by omega), h0]; exact (BitVec.add_zero _).symm
    · rw [set_ne _ _ (by omega), set_same]
    · intro r hr; rw [set_ne _ _ (by omega), set_ne _ _ (by omega)]
  · rw [if_pos h0]
    show ∃ st', execO m [_, _, _] x = _ ∧ _
    rw [execO_seq (step_movI m 2 hk x), execO_seq (step_mov m 1 8 _), execO_seq (step_addI m 1 hn _), execO_nil]
    refine ⟨_, rfl, ?_, ?_, ?_⟩
    · rw [set_same, set_same, set_ne _ _ (by omega)]
    · rw [set_ne _ _ (by omega), set_ne _ _ (by omega), set_same]
    · intro r hr; rw [set_ne _ _ (by omega), set_ne _ _ (by omega), set_ne _ _ (by omega)]

theorem exec_toR3 {m : Mem} (reg : Nat) (x : OSt) :
    ∃ st', execO m (toR3 reg) x = .done ⟨st', x.out⟩ ∧ st'.regs 3 = x.st.regs reg ∧
      ∀ r, r ≠ 3 → st'.regs r = x.st.regs r := by
  unfold toR3
  split
  · rw [execO_seq (step_mov m 3 reg x), execO_nil]
    exact ⟨_, rfl, set_same _ _ _, fun r hr => set_ne _ _ hr⟩
  · rename_i h
    have h : reg = 3 := by omega
    subst h
    exact ⟨x.st, rfl, rfl, fun _ _ => rfl⟩

/-- The part shared by all memory-reading functions: with the address in R3 the helper's bytes go to `R8 + n`. -/
theorem exec_read {m : Mem} {n k : Nat} (hn : n < 2 ^ 15) (hk : k < 2 ^ 15) (isStr : Bool) (x : OSt)
    (hst : x.st.regs 8 + BitVec.ofNat 64 n ≠ x.st.regs 10 - 8) :
    ∃ st', execO m (helperArgs (BitVec.ofNat 64 n) (BitVec.ofNat 64 k) ++
        [if isStr then .probeStr else .cc .callProbe]) x =
      .done ⟨st', wr x.out (x.st.regs 8 + BitVec.ofNat 64 n)
        (if isStr then strBytes m k (x.st.regs 3) else probeBytes m k (x.st.regs 3))⟩ ∧
      ∀ r, 5 < r → st'.regs r = x.st.regs r := by
  obtain ⟨st1, h1, r1, r2, rk⟩ := exec_helperArgs (m := m) (n := n) (k := k) (by omega) (by omega) x
  rw [execO_append_done h1]
  cases isStr with
  | true =>
    rw [if_pos rfl, execO_seq (step_probeStr (n := k) (by omega) r2), execO_nil]
    refine ⟨_, congrArg (fun b => OOut.done ⟨_, b⟩) ?_, ?_⟩
    · show wr x.out (st1.regs 1) (strBytes m k (st1.regs 3)) = _
      rw [r1, rk 3 (by omega)]; rfl
    · intro r hr; rw [clobber_hi _ hr, rk r (by omega)]
  | false =>
    rw [if_neg (by simp), execO_seq (step_probe_out (n := k) (by omega) r2 (by
      show st1.regs 1 ≠ st1.regs 10 - 8
      rw [r1, rk 10 (by omega)]; exact hst)), execO_nil]
    refine ⟨_, congrArg (fun b => OOut.done ⟨_, b⟩) ?_, ?_⟩
    · show wr x.out (st1.regs 1) (probeBytes m k (st1.regs 3)) = _
      rw [r1, rk 3 (by omega)]; rfl
    · intro r hr; rw [clobber_hi _ hr, rk r (by omega)]

theorem step_jexit (m : Mem) (d : Nat) (x : OSt) (c : List OI) :
    execO m (.cc (.jexit d) :: c) x = if x.st.regs d = 0 then .exit x else execO m c x := by
  have : stepO m (.cc (.jexit d)) x = if x.st.regs d = 0 then .label x else .seq x := by
    show lift x.out (if x.st.regs d = 0 then .label x.st else .seq x.st) = _
    split <;> rfl
  by_cases h : x.st.regs d = 0
  · simp only [execO, execOK, this, if_pos h]
  · simp only [execO, execOK, this, if_neg h]

/-! ### What a block writes -/

/-- Registers R8 (buffer), R9 (arguments) and R10 (frame). -/
structure Three (st : St) (B A F : BitVec 64) : Prop where
  r8 : st.regs 8 = B
  r9 : st.regs 9 = A
  r10 : st.regs 10 = F

theorem three_keep {st st' : St} {B A F : BitVec 64} (h : Three st B A F) (hk : ∀ r, 7 < r → st'.regs r = st.regs r) :
    Three st' B A F :=
  ⟨by rw [hk 8 (by omega), h.r8], by rw [hk 9 (by omega), h.r9], by rw [hk 10 (by omega), h.r10]⟩

/-- The bytes captured for a value `p` that is not NULL where it must not be. -/
def Payload (q : TyQ) (m : Mem) (r : TopRes) (size p : BitVec 64) (pl : List (BitVec 8)) : Prop :=
  match r.typ with
  | .deref => p ≠ 0 ∧ pl = probeBytes m size.toNat p
  | .buf | .pkt | .addr | .port | .hex | .int | .slice => p ≠ 0 ∧ pl = probeBytes m r.res.size.toNat (p + r.res.off)
  | .str => p ≠ 0 ∧ strBytes m r.res.size.toNat (p + r.res.off) <+: pl
  | .dflt | .hist | .tdigest =>
    if q.charArr r.res.ty then strBytes m (q.nelems r.res.ty).toNat p <+: pl
    else if q.charPtr r.res.ty then p ≠ 0 ∧ strBytes m 64 p <+: pl
    else if q.numPtr r.res.ty then ∃ w, pl = le 8 p ++ w ∧ w.length = 8 ∧
      BitVec.ofNat 64 (leVal w) = (if p = 0 then 0 else load m 8 p)
    else pl = le 8 p

theorem toNat_small {x : BitVec 64} : x = BitVec.ofNat 64 x.toNat := by
  apply BitVec.eq_of_toNat_eq
  rw [BitVec.toNat_ofNat, Nat.mod_eq_of_lt x.isLt]

theorem exec_addOff {m : Mem} (reg : Nat) (off : BitVec 64) (ho : sx32 off = off) (x : OSt) :
    ∃ st', execO m (if off ≠ 0 then [.cc (.aluImm .add reg off)] else []) x = .done ⟨st', x.out⟩ ∧
      st'.regs reg = x.st.regs reg + off ∧ ∀ r, r ≠ reg → st'.regs r = x.st.regs r := by
  by_cases h : off = 0
  · rw [if_neg (by simp [h])]
    exact ⟨x.st, rfl, by rw [h]; exact (BitVec.add_zero _).symm, fun _ _ => rfl⟩
  · rw [if_pos h]
    have hs : stepO m (.cc (.aluImm .add reg off)) x = .seq ⟨x.st.set reg (x.st.regs reg + off), x.out⟩ := by
      show ONext.seq ⟨x.st.set reg (x.st.regs reg + sx32 off), x.out⟩ = _
      rw [ho]
    rw [execO_seq hs, execO_nil]
    exact ⟨_, rfl, set_same _ _ _, fun r hr => set_ne _ _ hr⟩

/-- The code that `genValue` adds, run with the value of the expression in its register. -/
theorem exec_genValue {q : TyQ} {m : Mem} {r : TopRes} {size : BitVec 64} {g : OGen} {n : Nat} {x : OSt} {B A F : BitVec 64}
    (hok : Ok q r) (hg : genValue q r (BitVec.ofNat 64 n) size = .ok g) (hs : n + g.used.toNat < 2 ^ 15)
    (hx : Three x.st B A F) (hst : ∀ k, k < n + g.used.toNat + 1 → B + BitVec.ofNat 64 k ≠ F - 8) :
    (∃ x' pl, execO m g.code x = .done x' ∧ Three x'.st B A F ∧
      reads x'.out g.used.toNat (B + BitVec.ofNat 64 n) = pl ∧
      Same x.out x'.out (B + BitVec.ofNat 64 n) g.used.toNat ∧ Payload q m r size (x.st.regs r.code.reg) pl) ∨
    (∃ x', execO m g.code x = .exit x' ∧ Three x'.st B A F ∧ x'.out = x.out ∧ g.label = true ∧
      Right q m r (some (x.st.regs r.code.reg)) .null) := by
  have hreg := hok.reg
  have hstn : x.st.regs 8 + BitVec.ofNat 64 n ≠ x.st.regs 10 - 8 := by
    rw [hx.r8, hx.r10]; exact hst n (by omega)
  -- a memory read with the address already in `reg`
  have read : ∀ (k : BitVec 64) (isStr : Bool) (y : OSt), k.toNat = g.used.toNat → Three y.st B A F → y.out = x.out →
      ∃ y', execO m (toR3 r.code.reg ++ (helperArgs (BitVec.ofNat 64 n) k ++
          [if isStr then .probeStr else .cc .callProbe])) y = .done y' ∧ Three y'.st B A F ∧
        Same x.out y'.out (B + BitVec.ofNat 64 n) g.used.toNat ∧
        (if isStr then strBytes m k.toNat (y.st.regs r.code.reg) else probeBytes m k.toNat (y.st.regs r.code.reg)) <+:
          reads y'.out g.used.toNat (B + BitVec.ofNat 64 n) := by
    intro k isStr y hk hy ho
    obtain ⟨st1, h1, r3, rk⟩ := exec_toR3 (m := m) r.code.reg y
    obtain ⟨st2, h2, rk2⟩ := exec_read (m := m) (n := n) (k := k.toNat) (by omega) (by omega) isStr ⟨st1, y.out⟩ (by
      show st1.regs 8 + _ ≠ st1.regs 10 - 8
      rw [rk 8 (by omega), rk 10 (by omega), hy.r8, hy.r10]; exact hst n (by omega))
    rw [← toNat_small] at h2
    have e8 : st1.regs 8 = B := by rw [rk 8 (by omega), hy.r8]
    have hl : (if isStr then strBytes m k.toNat (y.st.regs r.code.reg) else probeBytes m k.toNat (y.st.regs r.code.reg)).length
        ≤ g.used.toNat := by
      split
      · rw [← hk]; exact strBytes_length _ _ _
      · rw [← hk, probeBytes_length]; exact Nat.le_refl _
    refine ⟨_, by rw [execO_append_done h1, h2], ?_, ?_, ?_⟩
    · refine three_keep hy ?_
      intro r hr
      rw [rk2 r (by omega), rk r (by omega)]
    · show Same x.out (wr y.out (st1.regs 8 + BitVec.ofNat 64 n) (if isStr then strBytes m k.toNat (st1.regs 3)
        else probeBytes m k.toNat (st1.regs 3))) _ _
      rw [e8, ho, r3]
      exact same_wr hl
    · show _ <+: reads (wr y.out (st1.regs 8 + BitVec.ofNat 64 n) (if isStr then strBytes m k.toNat (st1.regs 3)
        else probeBytes m k.toNat (st1.regs 3))) _ _
      rw [e8, r3, reads_wr hl (by omega)]
      exact List.prefix_append _ _
  have full : ∀ {a : BitVec 64} {k : Nat} {b : Buf} {c : BitVec 64}, k = g.used.toNat →
      probeBytes m k a <+: reads b g.used.toNat c → reads b g.used.toNat c = probeBytes m k a := by
    intro a k b c hk h
    exact (h.eq_of_length (by rw [probeBytes_length, reads_length, hk])).symm
  -- functions of the form `buf`
  have hbuf : ∀ isStr : Bool, g = ⟨genBuf r.code.reg isStr (BitVec.ofNat 64 n) r.res.off r.res.size, r.res.size, true⟩ →
      (Right q m r (some 0) .null) →
      (∀ pl, x.st.regs r.code.reg ≠ 0 → (isStr = true → strBytes m r.res.size.toNat (x.st.regs r.code.reg + r.res.off) <+: pl) →
        (isStr = false → pl = probeBytes m r.res.size.toNat (x.st.regs r.code.reg + r.res.off)) →
        Payload q m r size (x.st.regs r.code.reg) pl) →
      (∃ x' pl, execO m g.code x = .done x' ∧ Three x'.st B A F ∧
        reads x'.out g.used.toNat (B + BitVec.ofNat 64 n) = pl ∧
        Same x.out x'.out (B + BitVec.ofNat 64 n) g.used.toNat ∧ Payload q m r size (x.st.regs r.code.reg) pl) ∨
      (∃ x', execO m g.code x = .exit x' ∧ Three x'.st B A F ∧ x'.out = x.out ∧ g.label = true ∧
        Right q m r (some (x.st.regs r.code.reg)) .null) := by
    intro isStr hge hnull hpay
    have hu : g.used = r.res.size := by rw [hge]
    have hc : g.code = .cc (.jexit r.code.reg) :: ((if r.res.off ≠ 0 then [.cc (.aluImm .add r.code.reg r.res.off)] else []) ++
        (toR3 r.code.reg ++ (helperArgs (BitVec.ofNat 64 n) r.res.size ++ [if isStr then .probeStr else .cc .callProbe]))) := by
      rw [hge]; simp [genBuf]
    rw [hc, step_jexit]
    by_cases hz : x.st.regs r.code.reg = 0
    · rw [if_pos hz]
      right
      exact ⟨x, rfl, hx, rfl, by rw [hge], by rw [hz]; exact hnull⟩
    · rw [if_neg hz]
      left
      obtain ⟨st1, h1, hr1, hk1⟩ := exec_addOff (m := m) r.code.reg r.res.off hok.off x
      obtain ⟨y', h2, t2, s2, p2⟩ := read r.res.size isStr ⟨st1, x.out⟩ (by rw [hu])
        (three_keep hx fun r hr => hk1 r (by omega)) rfl
      refine ⟨y', _, by rw [execO_append_done h1, h2], t2, rfl, s2, hpay _ hz ?_ ?_⟩
      · rintro rfl
        rw [if_pos rfl] at p2
        simp only [hr1] at p2
        exact p2
      · rintro rfl
        rw [if_neg (by simp)] at p2
        simp only [hr1] at p2
        exact full (by rw [hu]) p2
  -- values of the default kind
  have hdef : r.typ = .dflt ∨ r.typ = .hist ∨ r.typ = .tdigest →
      (if q.charPtr r.res.ty || q.charArr r.res.ty then
        let n' := if q.charArr r.res.ty then q.nelems r.res.ty else BitVec.ofNat 64 maxOutputStrLen
        .ok ⟨genArgStr r.code.reg (q.charArr r.res.ty) (BitVec.ofNat 64 n) n', n', r.code.labelUsed || !q.charArr r.res.ty⟩
      else if size = 0 ∨ (8 : BitVec 64).slt size ∨ (∃ m, r.res.mem = some m ∧ 64 < m.bfSize) then .error .reject
      else
        .ok ⟨genNum r.code.reg (q.numPtr r.res.ty) (BitVec.ofNat 64 n), if q.numPtr r.res.ty then 16 else 8, r.code.labelUsed⟩ :
          Except Err OGen) = .ok g →
      (∃ x' pl, execO m g.code x = .done x' ∧ Three x'.st B A F ∧
        reads x'.out g.used.toNat (B + BitVec.ofNat 64 n) = pl ∧
        Same x.out x'.out (B + BitVec.ofNat 64 n) g.used.toNat ∧ Payload q m r size (x.st.regs r.code.reg) pl) ∨
      (∃ x', execO m g.code x = .exit x' ∧ Three x'.st B A F ∧ x'.out = x.out ∧ g.label = true ∧
        Right q m r (some (x.st.regs r.code.reg)) .null) := by
    intro ht hg
    have hpl : ∀ pl, Payload q m r size (x.st.regs r.code.reg) pl =
        (if q.charArr r.res.ty then strBytes m (q.nelems r.res.ty).toNat (x.st.regs r.code.reg) <+: pl
        else if q.charPtr r.res.ty then x.st.regs r.code.reg ≠ 0 ∧ strBytes m 64 (x.st.regs r.code.reg) <+: pl
        else if q.numPtr r.res.ty then ∃ w, pl = le 8 (x.st.regs r.code.reg) ++ w ∧ w.length = 8 ∧
          BitVec.ofNat 64 (leVal w) = (if x.st.regs r.code.reg = 0 then 0 else load m 8 (x.st.regs r.code.reg))
        else pl = le 8 (x.st.regs r.code.reg)) := by
      intro pl
      rcases ht with h | h | h <;> simp only [Payload, h]
    by_cases hstr : (q.charPtr r.res.ty || q.charArr r.res.ty) = true
    · rw [if_pos hstr] at hg
      simp only [Except.ok.injEq] at hg
      cases ha : q.charArr r.res.ty with
      | true =>
        rw [ha] at hg
        simp only [if_true] at hg
        have hu : g.used = q.nelems r.res.ty := by rw [← hg]
        have hc : g.code = toR3 r.code.reg ++ (helperArgs (BitVec.ofNat 64 n) (q.nelems r.res.ty) ++
            [if true then .probeStr else .cc .callProbe]) := by
          rw [← hg]; simp [genArgStr]
        left
        obtain ⟨y', h2, t2, s2, p2⟩ := read (q.nelems r.res.ty) true x (by rw [hu]) hx rfl
        refine ⟨y', _, by rw [hc]; exact h2, t2, rfl, s2, ?_⟩
        rw [hpl, if_pos ha]
        simpa using p2
      | false =>
        rw [ha] at hg
        have hp : q.charPtr r.res.ty = true := by simpa [ha] using hstr
        simp only [Bool.false_eq_true, if_false, Bool.not_false, Bool.or_true] at hg
        have hu : g.used = BitVec.ofNat 64 maxOutputStrLen := by rw [← hg]
        have hc : g.code = .cc (.jexit r.code.reg) :: (toR3 r.code.reg ++ (helperArgs (BitVec.ofNat 64 n)
            (BitVec.ofNat 64 maxOutputStrLen) ++ [if true then .probeStr else .cc .callProbe])) := by
          rw [← hg]; simp [genArgStr]
        rw [hc, step_jexit]
        by_cases hz : x.st.regs r.code.reg = 0
        · rw [if_pos hz]
          right
          refine ⟨x, rfl, hx, rfl, by rw [← hg], ?_⟩
          rw [hz]
          rcases ht with h | h | h
          · simp only [Right, h, ha, hp, if_true, Bool.false_eq_true, if_false]
          · have := (hok.sample (.inl h)).1; rw [hp] at this; simp at this
          · have := (hok.sample (.inr h)).1; rw [hp] at this; simp at this
        · rw [if_neg hz]
          left
          obtain ⟨y', h2, t2, s2, p2⟩ := read (BitVec.ofNat 64 maxOutputStrLen) true x (by rw [hu]) hx rfl
          refine ⟨y', _, h2, t2, rfl, s2, ?_⟩
          rw [hpl, if_neg (by simp [ha]), if_pos hp]
          exact ⟨hz, by simpa [maxOutputStrLen] using p2⟩
    · rw [if_neg hstr] at hg
      have ha : q.charArr r.res.ty = false := by
        cases h : q.charArr r.res.ty <;> simp_all
      have hp : q.charPtr r.res.ty = false := by
        cases h : q.charPtr r.res.ty <;> simp_all
      split at hg
      · simp at hg
      · obtain rfl := Except.ok.inj hg
        left
        cases hn : q.numPtr r.res.ty with
        | false =>
          simp only [hn, Bool.false_eq_true, if_false] at hs hst ⊢
          have hs8 : n + 8 < 2 ^ 15 := hs
          refine ⟨⟨x.st, wr x.out (B + BitVec.ofNat 64 n) (le 8 (x.st.regs r.code.reg))⟩, _, ?_, hx, rfl, ?_, ?_⟩
          · simp only [genNum, Bool.false_eq_true, if_false]
            rw [execO_seq (step_stx m 8 r.code.reg 8 (by omega) x), execO_nil, hx.r8]
          · exact same_wr (by rw [le_length]; decide)
          · rw [hpl, if_neg (by simp [ha]), if_neg (by simp [hp]), if_neg (by simp [hn])]
            show reads (wr x.out (B + BitVec.ofNat 64 n) (le 8 (x.st.regs r.code.reg))) 8 (B + BitVec.ofNat 64 n) = _
            rw [reads_wr (by rw [le_length]; omega) (by decide), le_length,
              List.drop_eq_nil_of_le (by rw [reads_length]; omega), List.append_nil]
        | true =>
          simp only [hn, if_true] at hs hst ⊢
          have hs16 : n + 16 < 2 ^ 15 := hs
          have hst8 : B + BitVec.ofNat 64 (n + 8) ≠ F - 8 := hst (n + 8) (by show n + 8 < n + 16 + 1; omega)
          have hadd : BitVec.ofNat 64 n + 8 = BitVec.ofNat 64 (n + 8) := by rw [BitVec.ofNat_add]; rfl
          have hassoc : B + BitVec.ofNat 64 (n + 8) = B + BitVec.ofNat 64 n + BitVec.ofNat 64 8 := by
            rw [BitVec.ofNat_add, BitVec.add_assoc]
          have fin : ∀ (w : List (BitVec 8)) (st' : St), (∀ r, 7 < r → st'.regs r = x.st.regs r) → w.length = 8 →
              BitVec.ofNat 64 (leVal w) = (if x.st.regs r.code.reg = 0 then 0 else load m 8 (x.st.regs r.code.reg)) →
              execO m (genNum r.code.reg true (BitVec.ofNat 64 n)) x = .done ⟨st', wr (wr x.out (B + BitVec.ofNat 64 n)
                (le 8 (x.st.regs r.code.reg))) (B + BitVec.ofNat 64 n + BitVec.ofNat 64 8) w⟩ →
              ∃ x' pl, execO m (genNum r.code.reg true (BitVec.ofNat 64 n)) x = .done x' ∧ Three x'.st B A F ∧
                reads x'.out (16#64).toNat (B + BitVec.ofNat 64 n) = pl ∧
                Same x.out x'.out (B + BitVec.ofNat 64 n) (16#64).toNat ∧ Payload q m r size (x.st.regs r.code.reg) pl := by
            intro w st' hk hw hv he
            obtain ⟨w1, w2⟩ := words_prefix (b := x.out) (a := B + BitVec.ofNat 64 n) (le 8 (x.st.regs r.code.reg)) w
              (le_length _ _) hw
            refine ⟨_, _, he, three_keep hx hk, rfl, w2, ?_⟩
            rw [hpl, if_neg (by simp [ha]), if_neg (by simp [hp]), if_pos hn]
            exact ⟨w, w1, hw, hv⟩
          have e0 : genNum r.code.reg true (BitVec.ofNat 64 n) = .stx 8 (BitVec.ofNat 64 n) r.code.reg 8 ::
              (toR3 r.code.reg ++ [.cc (.jmpImm .eq 3 0 5), .cc (.movImm 2 (BitVec.ofNat 64 8)), .cc (.movReg 1 8),
                .cc (.aluImm .add 1 (BitVec.ofNat 64 (n + 8))), .cc .callProbe, .cc (.ja 1),
                .stx 8 (BitVec.ofNat 64 (n + 8)) 3 8]) := by
            simp only [genNum, if_true, hadd]; rfl
          obtain ⟨st1, h1, r3, rk⟩ := exec_toR3 (m := m) r.code.reg
            ⟨x.st, wr x.out (x.st.regs 8 + BitVec.ofNat 64 n) (le 8 (x.st.regs r.code.reg))⟩
          have e8 : st1.regs 8 = B := by rw [rk 8 (by omega)]; exact hx.r8
          have e10 : st1.regs 10 = F := by rw [rk 10 (by omega)]; exact hx.r10
          have e1 := execO_seq (r := toR3 r.code.reg ++ [.cc (.jmpImm .eq 3 0 5), .cc (.movImm 2 (BitVec.ofNat 64 8)), .cc (.movReg 1 8),
                .cc (.aluImm .add 1 (BitVec.ofNat 64 (n + 8))), .cc .callProbe, .cc (.ja 1),
                .stx 8 (BitVec.ofNat 64 (n + 8)) 3 8]) (step_stx m 8 r.code.reg 8 (k := n) (by omega) x)
          by_cases hz : x.st.regs r.code.reg = 0
          · -- NULL: the word is 0
            have hz3 : st1.regs 3 = 0 := by rw [r3]; exact hz
            refine fin (le 8 0) st1 (fun r hr => rk r (by omega)) (le_length _ _) (by rw [if_pos hz, leVal_le8]) ?_
            rw [e0, e1, execO_append_done h1]
            have hj : stepO m (.cc (.jmpImm .eq 3 0 5))
                ⟨st1, wr x.out (x.st.regs 8 + BitVec.ofNat 64 n) (le 8 (x.st.regs r.code.reg))⟩ =
                .jump 5 ⟨st1, wr x.out (x.st.regs 8 + BitVec.ofNat 64 n) (le 8 (x.st.regs r.code.reg))⟩ := by
              show lift _ (if cmpEval .eq (st1.regs 3) (sx32 0) then jumpTo 5 st1 else .seq st1) = _
              rw [if_pos (cmp_eq0 hz3)]; rfl
            have : execO m [.cc (.jmpImm .eq 3 0 5), .cc (.movImm 2 (BitVec.ofNat 64 8)), .cc (.movReg 1 8),
                .cc (.aluImm .add 1 (BitVec.ofNat 64 (n + 8))), .cc .callProbe, .cc (.ja 1),
                .stx 8 (BitVec.ofNat 64 (n + 8)) 3 8]
                ⟨st1, wr x.out (x.st.regs 8 + BitVec.ofNat 64 n) (le 8 (x.st.regs r.code.reg))⟩ =
                execO m [.stx 8 (BitVec.ofNat 64 (n + 8)) 3 8]
                  ⟨st1, wr x.out (x.st.regs 8 + BitVec.ofNat 64 n) (le 8 (x.st.regs r.code.reg))⟩ := by
              simp only [execO, execOK, hj]
            rw [this, execO_seq (step_stx m 8 3 8 (by omega) _), execO_nil]
            simp only
            rw [e8, hz3, hassoc, hx.r8]
          · have hz3 : st1.regs 3 ≠ 0 := by rw [r3]; exact hz
            refine fin (probeBytes m 8 (x.st.regs r.code.reg))
              (((((st1.set 2 (BitVec.ofNat 64 8)).set 1 B).set 1 (B + BitVec.ofNat 64 (n + 8))).clobber 5)) ?_
              (probeBytes_length _ _ _) (by rw [if_neg hz, leVal_probe8]) ?_
            · intro r hr
              rw [clobber_hi _ (by omega), set_ne _ _ (by omega), set_ne _ _ (by omega), set_ne _ _ (by omega), rk r (by omega)]
            · rw [e0, e1, execO_append_done h1]
              have hj : stepO m (.cc (.jmpImm .eq 3 0 5))
                  ⟨st1, wr x.out (x.st.regs 8 + BitVec.ofNat 64 n) (le 8 (x.st.regs r.code.reg))⟩ =
                  .seq ⟨st1, wr x.out (x.st.regs 8 + BitVec.ofNat 64 n) (le 8 (x.st.regs r.code.reg))⟩ := by
                show lift _ (if cmpEval .eq (st1.regs 3) (sx32 0) then jumpTo 5 st1 else .seq st1) = _
                rw [if_neg (by rw [cmp_eq0' hz3]; simp)]; rfl
              rw [execO_seq hj, execO_seq (step_movI m 2 (k := 8) (by decide) _), execO_seq (step_mov m 1 8 _),
                execO_seq (step_addI m 1 (by omega) _), execO_seq (step_probe_out (n := 8) (by decide) ?_ ?_)]
              · have hj2 : ∀ s : OSt, execO m [.cc (.ja 1), .stx 8 (BitVec.ofNat 64 (n + 8)) 3 8] s = .done s := fun s => rfl
                rw [hj2]
                simp only [set_same]
                rw [set_ne _ _ (show 8 ≠ 2 by omega), e8, hassoc, hx.r8]
                have : ∀ v w u : BitVec 64, (((st1.set 2 v).set 1 w).set 1 u).regs 3 = x.st.regs r.code.reg := by
                  intro v w u
                  rw [set_ne _ _ (by omega), set_ne _ _ (by omega), set_ne _ _ (by omega), r3]
                rw [this]
              · rw [set_ne _ _ (by omega), set_ne _ _ (by omega), set_same]
              · simp only [set_same]
                rw [set_ne _ _ (by omega), set_ne _ _ (by omega), set_ne _ _ (by omega), set_ne _ _ (by omega), e8, e10]
                exact hst8
  unfold genValue at hg
  cases ht : r.typ with
  | deref =>
    simp only [ht] at hg
    obtain rfl := Except.ok.inj hg
    have hc : genDeref r.code.reg (BitVec.ofNat 64 n) size = .cc (.jexit r.code.reg) ::
        (toR3 r.code.reg ++ (helperArgs (BitVec.ofNat 64 n) size ++ [if false then .probeStr else .cc .callProbe])) := by
      simp [genDeref]
    simp only
    rw [hc, step_jexit]
    by_cases hz : x.st.regs r.code.reg = 0
    · rw [if_pos hz]
      right
      exact ⟨x, rfl, hx, rfl, trivial, by simp only [Right, ht, hz, if_true]⟩
    · rw [if_neg hz]
      left
      obtain ⟨y', h2, t2, s2, p2⟩ := read size false x rfl hx rfl
      refine ⟨y', _, h2, t2, rfl, s2, ?_⟩
      rw [if_neg (by simp)] at p2
      simp only [Payload, ht]
      exact ⟨hz, full rfl p2⟩
  | buf => simp only [ht] at hg; exact hbuf _ (Except.ok.inj hg).symm (by simp [Right, ht]) (by simp +contextual [Payload, ht])
  | pkt => simp only [ht] at hg; exact hbuf _ (Except.ok.inj hg).symm (by simp [Right, ht]) (by simp +contextual [Payload, ht])
  | addr => simp only [ht] at hg; exact hbuf _ (Except.ok.inj hg).symm (by simp [Right, ht]) (by simp +contextual [Payload, ht])
  | port => simp only [ht] at hg; exact hbuf _ (Except.ok.inj hg).symm (by simp [Right, ht]) (by simp +contextual [Payload, ht])
  | hex => simp only [ht] at hg; exact hbuf _ (Except.ok.inj hg).symm (by simp [Right, ht]) (by simp +contextual [Payload, ht])
  | int => simp only [ht] at hg; exact hbuf _ (Except.ok.inj hg).symm (by simp [Right, ht]) (by simp +contextual [Payload, ht])
  | slice => simp only [ht] at hg; exact hbuf _ (Except.ok.inj hg).symm (by simp [Right, ht]) (by simp +contextual [Payload, ht])
  | str => simp only [ht] at hg; exact hbuf _ (Except.ok.inj hg).symm (by simp [Right, ht]) (by simp +contextual [Payload, ht])
  | dflt => simp only [ht] at hg; exact hdef (.inl ht) hg
  | hist => simp only [ht] at hg; exact hdef (.inr (.inl ht)) hg
  | tdigest => simp only [ht] at hg; exact hdef (.inr (.inr ht)) hg

/-! ### One block -/

theorem le1_0 : le 1 0 = [0] := by decide
theorem le1_1 : le 1 1 = [1] := by decide

theorem execO_ja1 (m : Mem) (i : OI) (c : List OI) (x : OSt) : execO m (.cc (.ja 1) :: i :: c) x = execO m c x := rfl

/-- The end of a block: exception byte 0 when it is reached from above, 1 when it is reached through the label. -/
theorem exec_tail {m : Mem} {n : Nat} (hn : n < 2 ^ 15) (lab : Bool) {x : OSt} {B A F : BitVec 64} (hx : Three x.st B A F) :
    (∃ st', execO m (genTail lab (BitVec.ofNat 64 n)) x = .done ⟨st', wr x.out (B + BitVec.ofNat 64 n) [0]⟩ ∧ Three st' B A F) ∧
    (lab = true → ∃ st', execO m ((genTail lab (BitVec.ofNat 64 n)).drop 2) x =
      .done ⟨st', wr x.out (B + BitVec.ofNat 64 n) [1]⟩ ∧ Three st' B A F) := by
  have st : ∀ k : Nat, k < 2 ^ 31 → execO m [.cc (.movImm 0 (BitVec.ofNat 64 k)), .stx 8 (BitVec.ofNat 64 n) 0 1] x =
      .done ⟨x.st.set 0 (BitVec.ofNat 64 k), wr x.out (B + BitVec.ofNat 64 n) (le 1 (BitVec.ofNat 64 k))⟩ := by
    intro k hk
    rw [execO_seq (step_movI m 0 hk x), execO_seq (step_stx m 8 0 1 hn _), execO_nil]
    simp only [set_same]
    rw [set_ne _ _ (by omega), hx.r8]
  have th : ∀ v, Three (x.st.set 0 v) B A F := fun v => three_keep hx (fun r hr => set_ne _ _ (by omega))
  constructor
  · cases lab with
    | false => exact ⟨_, by rw [← le1_0]; exact st 0 (by decide), th _⟩
    | true =>
      refine ⟨x.st.set 0 0, ?_, th _⟩
      have h0 : execO m (genTail true (BitVec.ofNat 64 n)) x =
          execO m [.cc (.movImm 0 (BitVec.ofNat 64 0)), .stx 8 (BitVec.ofNat 64 n) 0 1] x := by
        show execO m [.cc (.movImm 0 (BitVec.ofNat 64 0)), .cc (.ja 1), _, _] x = _
        rw [execO_seq (step_movI m 0 (by decide) x), execO_ja1, execO_seq (step_movI m 0 (by decide) x)]
      rw [h0, st 0 (by decide), ← le1_0]
      rfl
  · intro hl
    subst hl
    exact ⟨_, by rw [← le1_1]; exact st 1 (by decide), th _⟩

theorem exec_three {m : Mem} {r : TopRes} {q : TyQ} (hok : Ok q r) {st : St} {B A F : BitVec 64} (hx : Three st B A F) :
    (∃ st', exec m r.code.code st = .done st' ∧ Three st' B A F) ∨
    (∃ st', exec m r.code.code st = .exit st' ∧ Three st' B A F ∧ r.code.labelUsed = true) := by
  have hk : ∀ i, 8 ≤ i → _ := fun i hi => execK_keep (m := m) (k := 0) (st := st) hok.keep (r := i) hi
  rcases hok.safe.2 hok.fits m st with ⟨s', h⟩ | ⟨s', h⟩
  · exact .inl ⟨s', h, three_keep hx (fun i hi => (hk i hi).1 s' h)⟩
  · exact .inr ⟨s', h, three_keep hx (fun i hi => ((hk i hi).2.1 s' h).1), hok.exits ((hk 8 (by omega)).2.1 s' h).2⟩

/-- What `compileArg` returns, spelled out. -/
theorem compileArg_inv {q : TyQ} {r : TopRes} {offset off' : BitVec 64} {a : OArg} (h : compileArg q r offset = .ok (off', a)) :
    ∃ size g, q.size r.res.ty = some size ∧ genValue q r offset size = .ok g ∧ off' = offset + g.used + 1 ∧
      a = { typ := r.typ, code := (r.code.code.map .cc ++ g.code) ++ genTail g.label (offset + g.used),
            label := if g.label then some ((r.code.code.map OI.cc ++ g.code).length + 2) else none,
            size := g.used + 1, trueSize := g.used, isNumPtr := q.numPtr r.res.ty,
            isStr := q.charPtr r.res.ty || q.charArr r.res.ty, tsize := size,
            addr := r.addr, port := r.port, int := r.int } := by
  unfold compileArg at h
  cases hq : q.size r.res.ty with
  | none => simp [hq] at h
  | some size =>
    simp only [hq] at h
    cases hg : genValue q r offset size with
    | error z => simp [hg] at h
    | ok g =>
      simp only [hg, Except.ok.injEq, Prod.mk.injEq] at h
      exact ⟨size, g, rfl, hg, h.1.symm, h.2.symm⟩

/-- If the expression itself can leave through the exit label then the block has it. -/
theorem genValue_label {q : TyQ} {r : TopRes} {offset size : BitVec 64} {g : OGen} (hg : genValue q r offset size = .ok g)
    (hl : r.code.labelUsed = true) : g.label = true := by
  unfold genValue at hg
  cases ht : r.typ <;> simp only [ht] at hg <;> try (obtain rfl := Except.ok.inj hg; rfl)
  all_goals
    split at hg
    · obtain rfl := Except.ok.inj hg; simp [hl]
    · split at hg
      · simp at hg
      · obtain rfl := Except.ok.inj hg; exact hl

theorem drop_tail {body tail : List OI} (k : Nat) : (body ++ tail).drop (body.length + k) = tail.drop k := by
  rw [List.drop_append, List.drop_eq_nil_of_le (by omega), List.nil_append]
  congr 1
  omega

theorem ofNat_add' (n : Nat) (u : BitVec 64) : BitVec.ofNat 64 n + u = BitVec.ofNat 64 (n + u.toNat) := by
  rw [BitVec.ofNat_add, ← toNat_small]

theorem run_block {q : TyQ} {m : Mem} {r : TopRes} {n : Nat} {off' : BitVec 64} {a : OArg} {x : OSt} {B A F : BitVec 64}
    (hok : Ok q r) (hc : compileArg q r (BitVec.ofNat 64 n) = .ok (off', a)) (hs : n + a.trueSize.toNat + 1 < 2 ^ 15)
    (hx : Three x.st B A F) (hst : ∀ k, k < n + a.trueSize.toNat + 1 → B + BitVec.ofNat 64 k ≠ F - 8) :
    ∃ x' v, runArg m a x = .done x' ∧ Three x'.st B A F ∧
      Same x.out x'.out (B + BitVec.ofNat 64 n) (a.trueSize.toNat + 1) ∧ Outcome m r.code x.st v ∧
      off' = BitVec.ofNat 64 (n + (a.trueSize.toNat + 1)) ∧
      ((∃ p pl, v = some p ∧ reads x'.out (a.trueSize.toNat + 1) (B + BitVec.ofNat 64 n) = pl ++ [0] ∧
          Payload q m r a.tsize p pl) ∨
        (∃ pl, reads x'.out (a.trueSize.toNat + 1) (B + BitVec.ofNat 64 n) = pl ++ [1] ∧ Right q m r v .null)) := by
  obtain ⟨size, g, hq, hg, ho, ha⟩ := compileArg_inv hc
  have hts : a.trueSize = g.used := by rw [ha]
  have hsz : a.tsize = size := by rw [ha]
  rw [hts] at hs hst ⊢
  rw [hsz]
  have ho' : off' = BitVec.ofNat 64 (n + (g.used.toNat + 1)) := by
    rw [ho, ofNat_add', show (1 : BitVec 64) = BitVec.ofNat 64 1 from rfl, ← BitVec.ofNat_add]; rfl
  have hcode : a.code = (r.code.code.map .cc ++ g.code) ++ genTail g.label (BitVec.ofNat 64 (n + g.used.toNat)) := by
    rw [ha, ofNat_add']
  have hlab : a.label = if g.label then some ((r.code.code.map OI.cc ++ g.code).length + 2) else none := by rw [ha]
  have haddr : B + BitVec.ofNat 64 (n + g.used.toNat) = B + BitVec.ofNat 64 n + BitVec.ofNat 64 g.used.toNat := by
    rw [BitVec.ofNat_add, BitVec.add_assoc]
  -- leaving through the label
  have viaLabel : ∀ x1 : OSt, execO m (r.code.code.map .cc ++ g.code) x = .exit x1 → Three x1.st B A F → g.label = true →
      ∃ x', runArg m a x = .done x' ∧ Three x'.st B A F ∧ x'.out = wr x1.out (B + BitVec.ofNat 64 (n + g.used.toNat)) [1] := by
    intro x1 h1 t1 hl
    obtain ⟨st2, h2, t2⟩ := (exec_tail (m := m) (n := n + g.used.toNat) (by omega) g.label t1).2 hl
    refine ⟨⟨st2, wr x1.out (B + BitVec.ofNat 64 (n + g.used.toNat)) [1]⟩, ?_, t2, rfl⟩
    unfold runArg
    rw [hcode, execO_append_exit h1]
    simp only [hlab, hl, if_true]
    rw [drop_tail, ← hl, h2]
  have thru : ∀ x1 : OSt, execO m (r.code.code.map .cc ++ g.code) x = .done x1 → Three x1.st B A F →
      ∃ x', runArg m a x = .done x' ∧ Three x'.st B A F ∧ x'.out = wr x1.out (B + BitVec.ofNat 64 (n + g.used.toNat)) [0] := by
    intro x1 h1 t1
    obtain ⟨st2, h2, t2⟩ := (exec_tail (m := m) (n := n + g.used.toNat) (by omega) g.label t1).1
    refine ⟨⟨st2, wr x1.out (B + BitVec.ofNat 64 (n + g.used.toNat)) [0]⟩, ?_, t2, rfl⟩
    unfold runArg
    rw [hcode, execO_append_done h1, h2]
  have region : ∀ (b1 : Buf) (e : BitVec 8), Same x.out b1 (B + BitVec.ofNat 64 n) g.used.toNat →
      Same x.out (wr b1 (B + BitVec.ofNat 64 (n + g.used.toNat)) [e]) (B + BitVec.ofNat 64 n) (g.used.toNat + 1) ∧
      reads (wr b1 (B + BitVec.ofNat 64 (n + g.used.toNat)) [e]) (g.used.toNat + 1) (B + BitVec.ofNat 64 n) =
        reads b1 g.used.toNat (B + BitVec.ofNat 64 n) ++ [e] := by
    intro b1 e h1
    rw [haddr]
    have s2 : Same b1 (wr b1 (B + BitVec.ofNat 64 n + BitVec.ofNat 64 g.used.toNat) [e])
        (B + BitVec.ofNat 64 n + BitVec.ofNat 64 g.used.toNat) 1 := same_wr (by simp)
    refine ⟨same_trans h1 s2 (by omega), ?_⟩
    rw [reads_add, same_reads s2 (by omega), reads_wr (by simp) (by omega)]
    rfl
  rcases exec_three (m := m) hok hx with ⟨st1, h1, t1⟩ | ⟨st1, h1, t1, hl⟩
  · have e1 := execO_cc_done x.out h1
    rcases exec_genValue (m := m) (x := ⟨st1, x.out⟩) hok hg (by omega) t1 hst with
      ⟨x2, pl, h2, t2, hp, s2, hpl⟩ | ⟨x2, h2, t2, o2, hl2, hr⟩
    · obtain ⟨x3, h3, t3, o3⟩ := thru x2 (by rw [execO_append_done e1, h2]) t2
      obtain ⟨s3, r3⟩ := region x2.out 0 s2
      refine ⟨x3, some (st1.regs r.code.reg), h3, t3, by rw [o3]; exact s3, ⟨st1, h1, rfl⟩, ho', .inl ⟨_, pl, rfl, ?_, hpl⟩⟩
      rw [o3, r3, hp]
    · obtain ⟨x3, h3, t3, o3⟩ := viaLabel x2 (by rw [execO_append_done e1, h2]) t2 hl2
      obtain ⟨s3, r3⟩ := region x2.out 1 (by rw [o2]; exact same_refl _ _ _)
      refine ⟨x3, some (st1.regs r.code.reg), h3, t3, by rw [o3]; exact s3, ⟨st1, h1, rfl⟩, ho', .inr ⟨reads x2.out g.used.toNat (B + BitVec.ofNat 64 n), ?_, hr⟩⟩
      rw [o3, r3]
  · have e1 := execO_cc_exit x.out h1
    obtain ⟨x3, h3, t3, o3⟩ := viaLabel ⟨st1, x.out⟩ (execO_append_exit e1) t1 (genValue_label hg hl)
    obtain ⟨s3, r3⟩ := region x.out 1 (same_refl _ _ _)
    refine ⟨x3, none, h3, t3, by rw [o3]; exact s3, ⟨st1, h1⟩, ho', .inr ⟨reads x.out g.used.toNat (B + BitVec.ofNat 64 n), ?_, rfl⟩⟩
    rw [o3, r3]

/-! ### Decoding one value -/

theorem small_msb {x : BitVec 64} (h : x.toNat < 2 ^ 63) : x.msb = false := by
  rw [BitVec.msb_eq_false_iff_two_mul_lt]; omega

theorem sliceTo_ok {l r : List (BitVec 8)} {n : BitVec 64} (h : n.toNat < 2 ^ 63) (hl : l.length = n.toNat) :
    sliceTo (l ++ r) n = some l := by
  unfold sliceTo
  rw [if_pos ⟨small_msb h, by rw [List.length_append]; omega⟩, List.take_left' hl]

theorem sliceFrom_ok {l r : List (BitVec 8)} {n : BitVec 64} (h : n.toNat < 2 ^ 63) (hl : l.length = n.toNat) :
    sliceFrom (l ++ r) n = some r := by
  unfold sliceFrom
  rw [if_pos ⟨small_msb h, by rw [List.length_append]; omega⟩, List.drop_left' hl]

theorem index_ok {l r : List (BitVec 8)} {b : BitVec 8} {n : BitVec 64} (h : n.toNat < 2 ^ 63) (hl : l.length = n.toNat) :
    index (l ++ b :: r) n = some b := by
  unfold index
  rw [if_pos (small_msb h), List.getElem?_append_right (by omega), hl, Nat.sub_self]; rfl

theorem chunks_ok {k : Nat} : ∀ {n : Nat} {d : List (BitVec 8)}, n * k ≤ d.length →
    ∃ es, chunks d k n = some es ∧ es.length = n ∧ (∀ e ∈ es, e.length = k) ∧ es.flatten = d.take (n * k) := by
  intro n
  induction n with
  | zero => intro d _; exact ⟨[], rfl, rfl, by simp, by simp⟩
  | succ n ih =>
    intro d h
    rw [Nat.succ_mul] at h
    obtain ⟨es, h1, h2, h3, h4⟩ := ih (d := d.drop k) (by rw [List.length_drop]; omega)
    refine ⟨d.take k :: es, ?_, by simp [h2], ?_, ?_⟩
    · simp only [chunks]
      rw [if_pos (by omega), h1]; rfl
    · intro e he
      rcases List.mem_cons.mp he with rfl | he
      · rw [List.length_take]; omega
      · exact h3 e he
    · rw [List.flatten_cons, h4, Nat.succ_mul, Nat.add_comm, List.take_add]

theorem sdiv_small {a b : BitVec 64} (ha : a.toNat < 2 ^ 63) (hb : b.toNat < 2 ^ 63) : (a.sdiv b).toNat = a.toNat / b.toNat := by
  rw [BitVec.sdiv_eq, small_msb ha, small_msb hb]
  exact BitVec.toNat_udiv

/-- The region of a value decodes to what has to be shown. -/
theorem decode_ok {q : TyQ} {m : Mem} {r : TopRes} {offset off' : BitVec 64} {a : OArg} {p : BitVec 64}
    {pl rest : List (BitVec 8)} (hok : Ok q r) (hc : compileArg q r offset = .ok (off', a)) (hs : a.trueSize.toNat < 2 ^ 15)
    (hl : pl.length = a.trueSize.toNat) (hp : Payload q m r a.tsize p pl) :
    ∃ it d, decodeArg a (pl ++ 0 :: rest) = some (it, d) ∧ Right q m r (some p) it ∧ (Skips r → d = rest) := by
  obtain ⟨size, g, hq, hg, ho, ha⟩ := compileArg_inv hc
  have hts : a.trueSize = g.used := by rw [ha]
  have hsz : a.tsize = size := by rw [ha]
  have hsize : a.size = a.trueSize + 1 := by rw [ha]
  have htyp : a.typ = r.typ := by rw [ha]
  have hq' : (q.size r.res.ty).getD 0 = size := by rw [hq]; rfl
  have h1 : a.size - 1 = a.trueSize := by rw [hsize, BitVec.add_sub_cancel]
  have hsn : a.size.toNat = a.trueSize.toNat + 1 := by
    rw [hsize, BitVec.toNat_add]
    show (a.trueSize.toNat + 1) % 2 ^ 64 = _
    omega
  have hidx : index (pl ++ 0 :: rest) (a.size - 1) = some 0 := by
    rw [h1]; exact index_ok (by omega) hl
  have hto : sliceTo (pl ++ 0 :: rest) a.trueSize = some pl := sliceTo_ok (by omega) hl
  have hfrom : sliceFrom (pl ++ 0 :: rest) a.trueSize = some (0 :: rest) := sliceFrom_ok (by omega) hl
  have hfrom1 : sliceFrom (pl ++ 0 :: rest) a.size = some rest := by
    rw [show pl ++ 0 :: rest = (pl ++ [0]) ++ rest by simp]
    exact sliceFrom_ok (by omega) (by rw [List.length_append, hsn, hl]; rfl)
  have hdec : decodeArg a (pl ++ 0 :: rest) = (match r.typ with
      | .hist | .tdigest => (sliceTo (pl ++ 0 :: rest) a.trueSize).map fun b => (.sample b a.tsize, pl ++ 0 :: rest)
      | .dflt =>
        match showDefault a (pl ++ 0 :: rest) with
        | none => none
        | some (i, rest) => if rest.isEmpty then none else some (i, rest.drop 1)
      | _ =>
        match showBytes a (pl ++ 0 :: rest), sliceFrom (pl ++ 0 :: rest) a.size with
        | some i, some rest => some (i, rest)
        | _, _ => none) := by
    unfold decodeArg
    rw [hidx]
    simp only [htyp, ne_eq, not_true_eq_false, if_false]
    rfl
  -- functions whose text is formed from the bytes
  have viaBytes : ∀ it : Item, r.typ ≠ .hist → r.typ ≠ .tdigest → r.typ ≠ .dflt → showBytes a (pl ++ 0 :: rest) = some it →
      decodeArg a (pl ++ 0 :: rest) = some (it, rest) := by
    intro it n1 n2 n3 hsb
    rw [hdec]
    cases ht : r.typ <;> simp only [ht, hsb, hfrom1] <;> simp_all
  unfold genValue at hg
  cases ht : r.typ with
  | deref =>
    simp only [Payload, ht, hsz] at hp
    refine ⟨.bytes pl, rest, viaBytes _ (by simp [ht]) (by simp [ht]) (by simp [ht]) ?_, ?_, fun _ => rfl⟩
    · simp only [showBytes, htyp, ht, hto]; rfl
    · simp only [Right, ht, hq', if_neg hp.1, hp.2]
  | buf =>
    simp only [Payload, ht] at hp
    refine ⟨.bytes pl, rest, viaBytes _ (by simp [ht]) (by simp [ht]) (by simp [ht]) ?_, ?_, fun _ => rfl⟩
    · simp only [showBytes, htyp, ht, hto]; rfl
    · simp only [Right, ht, if_neg hp.1, hp.2]
  | pkt =>
    simp only [Payload, ht] at hp
    refine ⟨.bytes pl, rest, viaBytes _ (by simp [ht]) (by simp [ht]) (by simp [ht]) ?_, ?_, fun _ => rfl⟩
    · simp only [showBytes, htyp, ht, hto]; rfl
    · simp only [Right, ht, if_neg hp.1, hp.2]
  | hex =>
    simp only [Payload, ht] at hp
    refine ⟨.bytes pl, rest, viaBytes _ (by simp [ht]) (by simp [ht]) (by simp [ht]) ?_, ?_, fun _ => rfl⟩
    · simp only [showBytes, htyp, ht, hto]; rfl
    · simp only [Right, ht, if_neg hp.1, hp.2]
  | addr =>
    simp only [Payload, ht] at hp
    simp only [ht] at hg
    have hu : a.trueSize = r.res.size := by rw [hts, ← Except.ok.inj hg]
    have hlk : addrFns.lookup a.addr = some a.trueSize := by rw [hu, ← hok.addr ht, ha]
    refine ⟨.bytes pl, rest, viaBytes _ (by simp [ht]) (by simp [ht]) (by simp [ht]) ?_, ?_, fun _ => rfl⟩
    · simp only [showBytes, htyp, ht, hlk, Option.bind_some, hto]; rfl
    · simp only [Right, ht, if_neg hp.1, hp.2]
  | port =>
    simp only [Payload, ht] at hp
    simp only [ht] at hg
    have hu : a.trueSize = r.res.size := by rw [hts, ← Except.ok.inj hg]
    have hlk : addrFns.lookup a.port = some a.trueSize := by rw [hu, ← hok.port ht, ha]
    refine ⟨.bytes pl, rest, viaBytes _ (by simp [ht]) (by simp [ht]) (by simp [ht]) ?_, ?_, fun _ => rfl⟩
    · simp only [showBytes, htyp, ht, hlk, Option.bind_some, hto]; rfl
    · simp only [Right, ht, if_neg hp.1, hp.2]
  | int =>
    simp only [Payload, ht] at hp
    simp only [ht] at hg
    have hu : a.trueSize = r.res.size := by rw [hts, ← Except.ok.inj hg]
    have hlk : intFns.lookup a.int = some a.trueSize := by rw [hu, ← hok.int ht, ha]
    refine ⟨.bytes pl, rest, viaBytes _ (by simp [ht]) (by simp [ht]) (by simp [ht]) ?_, ?_, fun _ => rfl⟩
    · simp only [showBytes, htyp, ht, hlk, Option.bind_some, hto]; rfl
    · simp only [Right, ht, if_neg hp.1, hp.2]
  | str =>
    simp only [Payload, ht] at hp
    simp only [ht] at hg
    have hu : a.trueSize = r.res.size := by rw [hts, ← Except.ok.inj hg]
    refine ⟨.str (nulTerm pl), rest, viaBytes _ (by simp [ht]) (by simp [ht]) (by simp [ht]) ?_, ?_, fun _ => rfl⟩
    · simp only [showBytes, htyp, ht, hto]; rfl
    · simp only [Right, ht, if_neg hp.1]
      exact ⟨_, rfl, nulTerm_strUpTo (by rw [hl, hu]) hp.2⟩
  | slice =>
    simp only [Payload, ht] at hp
    simp only [ht] at hg
    have hu : a.trueSize = r.res.size := by rw [hts, ← Except.ok.inj hg]
    obtain ⟨h0, hlt⟩ := hok.slice ht size hq
    have hcnt : (a.trueSize.sdiv size).toNat = pl.length / size.toNat := by
      rw [hl, sdiv_small (by omega) hlt]
    have hle : pl.length / size.toNat * size.toNat ≤ pl.length := Nat.div_mul_le_self _ _
    obtain ⟨es, e1, e2, e3, e4⟩ := chunks_ok (k := size.toNat) (n := pl.length / size.toNat) (d := pl ++ 0 :: rest)
      (by rw [List.length_append]; omega)
    refine ⟨.elems es, rest, viaBytes _ (by simp [ht]) (by simp [ht]) (by simp [ht]) ?_, ?_, fun _ => rfl⟩
    · simp only [showBytes, htyp, ht, hsz, hcnt, if_neg h0, e1]; rfl
    · simp only [Right, ht, if_neg hp.1, hq', ← hp.2]
      exact ⟨es, rfl, e2, e3, by rw [e4, List.take_append_of_le_length hle]⟩
  | dflt =>
    simp only [ht] at hg
    simp only [Payload, ht] at hp
    rw [hdec]
    simp only [ht]
    have hisStr : a.isStr = (q.charPtr r.res.ty || q.charArr r.res.ty) := by rw [ha]
    have hisNum : a.isNumPtr = q.numPtr r.res.ty := by rw [ha]
    cases hca : q.charArr r.res.ty with
    | true =>
      simp only [hca, if_true, Bool.or_true] at hp hg hisStr
      have hu : a.trueSize = q.nelems r.res.ty := by rw [hts, ← Except.ok.inj hg]
      have : showDefault a (pl ++ 0 :: rest) = some (.str (nulTerm pl), 0 :: rest) := by
        simp only [showDefault, hisStr, if_true, hto, hfrom]
      simp only [this]
      refine ⟨_, _, rfl, ?_, fun _ => rfl⟩
      simp only [Right, ht, hca, if_true]
      exact ⟨_, rfl, nulTerm_strUpTo (by rw [hl, hu]) hp⟩
    | false =>
      cases hcp : q.charPtr r.res.ty with
      | true =>
        simp only [hca, hcp, if_true, Bool.or_false, Bool.false_eq_true, if_false] at hp hg hisStr
        have hu : a.trueSize = BitVec.ofNat 64 maxOutputStrLen := by rw [hts, ← Except.ok.inj hg]
        have : showDefault a (pl ++ 0 :: rest) = some (.str (nulTerm pl), 0 :: rest) := by
          simp only [showDefault, hisStr, if_true, hto, hfrom]
        simp only [this]
        refine ⟨_, _, rfl, ?_, fun _ => rfl⟩
        simp only [Right, ht, hca, hcp, if_true, Bool.false_eq_true, if_false, if_neg hp.1]
        exact ⟨_, rfl, nulTerm_strUpTo (by rw [hl, hu]; rfl) hp.2⟩
      | false =>
        simp only [hca, hcp, Bool.or_false, Bool.false_eq_true, if_false] at hp hg hisStr
        cases hnp : q.numPtr r.res.ty with
        | true =>
          simp only [hnp, if_true] at hp
          obtain ⟨w, rfl, hw, hv⟩ := hp
          have : showDefault a (le 8 p ++ w ++ 0 :: rest) =
              some (.numPtr p (if p = 0 then 0 else load m 8 p), 0 :: rest) := by
            simp only [showDefault, hisStr, hisNum, hnp, Bool.false_eq_true, if_false, if_true, List.append_assoc]
            rw [getU64_le, List.drop_left' (le_length 8 _), getU64_app hw, List.drop_left' hw]
            simp only [hv]
          simp only [this]
          refine ⟨_, _, rfl, ?_, fun _ => rfl⟩
          simp only [Right, ht, hca, hcp, hnp, if_true, Bool.false_eq_true, if_false]
        | false =>
          simp only [hnp, Bool.false_eq_true, if_false] at hp
          subst hp
          have : showDefault a (le 8 p ++ 0 :: rest) = some (.num p, 0 :: rest) := by
            simp only [showDefault, hisStr, hisNum, hnp, Bool.false_eq_true, if_false]
            rw [getU64_le, List.drop_left' (le_length 8 _)]
          simp only [this]
          refine ⟨_, _, rfl, ?_, fun _ => rfl⟩
          simp only [Right, ht, hca, hcp, hnp, Bool.false_eq_true, if_false]
  | hist =>
    obtain ⟨h1, h2, h3⟩ := hok.sample (.inl ht)
    simp only [Payload, ht, h1, h2, h3, Bool.false_eq_true, if_false] at hp
    rw [hdec]
    simp only [ht, hto]
    refine ⟨_, _, rfl, ?_, fun h => absurd ht h.1⟩
    simp only [Right, ht, hq', hsz, hp]
  | tdigest =>
    obtain ⟨h1, h2, h3⟩ := hok.sample (.inr ht)
    simp only [Payload, ht, h1, h2, h3, Bool.false_eq_true, if_false] at hp
    rw [hdec]
    simp only [ht, hto]
    refine ⟨_, _, rfl, ?_, fun h => absurd ht h.2⟩
    simp only [Right, ht, hq', hsz, hp]

/-- The region of a value that could not be had decodes to `[NULL]`. -/
theorem decode_null {q : TyQ} {r : TopRes} {offset off' : BitVec 64} {a : OArg} {e : BitVec 8} (he : e ≠ 0)
    {pl rest : List (BitVec 8)} (hc : compileArg q r offset = .ok (off', a)) (hs : a.trueSize.toNat < 2 ^ 15)
    (hl : pl.length = a.trueSize.toNat) : decodeArg a (pl ++ e :: rest) = some (.null, rest) := by
  obtain ⟨size, g, hq, hg, ho, ha⟩ := compileArg_inv hc
  have hsize : a.size = a.trueSize + 1 := by rw [ha]
  have h1 : a.size - 1 = a.trueSize := by rw [hsize, BitVec.add_sub_cancel]
  have hsn : a.size.toNat = a.trueSize.toNat + 1 := by
    rw [hsize, BitVec.toNat_add]
    show (a.trueSize.toNat + 1) % 2 ^ 64 = _
    omega
  have hidx : index (pl ++ e :: rest) (a.size - 1) = some e := by
    rw [h1]; exact index_ok (by omega) hl
  have hfrom1 : sliceFrom (pl ++ e :: rest) a.size = some rest := by
    rw [show pl ++ e :: rest = (pl ++ [e]) ++ rest by simp]
    exact sliceFrom_ok (by omega) (by rw [List.length_append, hsn, hl]; rfl)
  unfold decodeArg
  rw [hidx]
  simp only [hfrom1]
  rw [if_pos he]; rfl

/-! ### All expressions -/

/-- Bytes used by the expressions, with their exception bytes. -/
def outSize (as : List OArg) : Nat := (as.map fun a => a.trueSize.toNat + 1).sum

/-- Every expression shows what its own code computed: `args` is the address of the captured arguments. -/
def AllRight (q : TyQ) (m : Mem) (args : BitVec 64) : List TopRes → List Item → Prop
  | [], [] => True
  | r :: rs, it :: its =>
    (∃ st v, st.regs 9 = args ∧ Outcome m r.code st v ∧ Right q m r v it) ∧ AllRight q m args rs its
  | _, _ => False

/-- All but the last skip their bytes when decoded. -/
def AllSkip : List TopRes → Prop
  | [] => True
  | [_] => True
  | r :: rs => Skips r ∧ AllSkip rs

theorem run_blocks {q : TyQ} {m : Mem} {B A F : BitVec 64} : ∀ {rs : List TopRes} {n : Nat} {total : BitVec 64}
    {as : List OArg} {x : OSt}, (∀ r ∈ rs, Ok q r) → AllSkip rs → compileArgs q rs (BitVec.ofNat 64 n) = .ok (total, as) →
    n + outSize as < 2 ^ 15 → Three x.st B A F → (∀ k, k < n + outSize as → B + BitVec.ofNat 64 k ≠ F - 8) →
    ∃ x', runBlocks m as x = .done x' ∧ total = BitVec.ofNat 64 (n + outSize as) ∧
      Same x.out x'.out (B + BitVec.ofNat 64 n) (outSize as) ∧
      ∀ tail, ∃ items, decodeArgs as (reads x'.out (outSize as) (B + BitVec.ofNat 64 n) ++ tail) = some items ∧
        AllRight q m A rs items := by
  intro rs
  induction rs with
  | nil =>
    intro n total as x _ _ hc _ _ _
    simp only [compileArgs, Except.ok.injEq, Prod.mk.injEq] at hc
    obtain ⟨rfl, rfl⟩ := hc
    exact ⟨x, rfl, rfl, same_refl _ _ _, fun tail => ⟨[], rfl, trivial⟩⟩
  | cons r rs ih =>
    intro n total as x hok hsk hc hs hx hst
    simp only [compileArgs] at hc
    cases h1 : compileArg q r (BitVec.ofNat 64 n) with
    | error z => simp [h1] at hc
    | ok z =>
      obtain ⟨off', a⟩ := z
      simp only [h1] at hc
      cases h2 : compileArgs q rs off' with
      | error z => simp [h2] at hc
      | ok z =>
        obtain ⟨total', as'⟩ := z
        simp only [h2, Except.ok.injEq, Prod.mk.injEq] at hc
        obtain ⟨rfl, rfl⟩ := hc
        have hsum : outSize (a :: as') = (a.trueSize.toNat + 1) + outSize as' := by simp [outSize]
        rw [hsum] at hs hst ⊢
        have hok1 := hok r List.mem_cons_self
        obtain ⟨x1, v, e1, t1, s1, o1, ho, hreg⟩ := run_block (m := m) hok1 h1 (by omega) hx
          (fun k hk => hst k (by omega))
        rw [ho] at h2
        obtain ⟨x2, e2, ht, s2, hdec⟩ := ih (n := n + (a.trueSize.toNat + 1)) (x := x1)
          (fun r' hr => hok r' (List.mem_cons_of_mem _ hr)) (by
            cases rs with
            | nil => trivial
            | cons r' rs => exact hsk.2) h2 (by omega) t1 (fun k hk => hst k (by omega))
        rw [add_off] at s2 hdec
        have hrun : runBlocks m (a :: as') x = .done x2 := by
          simp only [runBlocks, e1, e2]
        refine ⟨x2, hrun, by rw [ht, Nat.add_assoc], same_trans s1 s2 (by omega), ?_⟩
        intro tail
        obtain ⟨items, d1, d2⟩ := hdec tail
        rw [reads_add, same_reads s2 (by omega)]
        have len : (reads x1.out (a.trueSize.toNat + 1) (B + BitVec.ofNat 64 n)).length = a.trueSize.toNat + 1 := reads_length _ _ _
        rcases hreg with ⟨p, pl, rfl, hr, hpl⟩ | ⟨pl, hr, hright⟩
        · rw [hr] at len ⊢
          have hlen : pl.length = a.trueSize.toNat := by simpa using len
          obtain ⟨it, d, hd, hR, hskip⟩ := decode_ok (m := m)
            (rest := reads x2.out (outSize as') (B + BitVec.ofNat 64 n + BitVec.ofNat 64 (a.trueSize.toNat + 1)) ++ tail)
            hok1 h1 (by omega) hlen hpl
          have hall : ∃ its, decodeArgs as' d = some its ∧ AllRight q m A rs its := by
            cases rs with
            | nil =>
              simp only [compileArgs, Except.ok.injEq, Prod.mk.injEq] at h2
              rw [← h2.2]
              exact ⟨[], rfl, trivial⟩
            | cons r' rs' =>
              rw [hskip hsk.1]
              exact ⟨items, d1, d2⟩
          obtain ⟨its, hi, hA⟩ := hall
          refine ⟨it :: its, ?_, ⟨⟨x.st, _, hx.r9, o1, hR⟩, hA⟩⟩
          simp only [decodeArgs]
          rw [show pl ++ [0] ++ reads x2.out (outSize as') (B + BitVec.ofNat 64 n + BitVec.ofNat 64 (a.trueSize.toNat + 1)) ++ tail =
            pl ++ 0 :: (reads x2.out (outSize as') (B + BitVec.ofNat 64 n + BitVec.ofNat 64 (a.trueSize.toNat + 1)) ++ tail) by simp, hd]
          simp only [hi, Option.map_some]
        · rw [hr] at len ⊢
          have hlen : pl.length = a.trueSize.toNat := by simpa using len
          have hd := decode_null (e := 1) (by decide)
            (rest := reads x2.out (outSize as') (B + BitVec.ofNat 64 n + BitVec.ofNat 64 (a.trueSize.toNat + 1)) ++ tail)
            h1 (by omega) hlen
          refine ⟨.null :: items, ?_, ⟨⟨x.st, _, hx.r9, o1, hright⟩, d2⟩⟩
          simp only [decodeArgs]
          rw [show pl ++ [1] ++ reads x2.out (outSize as') (B + BitVec.ofNat 64 n + BitVec.ofNat 64 (a.trueSize.toNat + 1)) ++ tail =
            pl ++ 1 :: (reads x2.out (outSize as') (B + BitVec.ofNat 64 n + BitVec.ofNat 64 (a.trueSize.toNat + 1)) ++ tail) by simp, hd]
          simp only [d1, Option.map_some]

/-- C18: the compiled expressions, run one after the other on the captured arguments, fill a buffer from which
the decoder shows for every expression what that expression's own code computed. Missing: a histogram or t-digest
sample that is not last (`hist_then_violated`) and buffers of 32 KiB or more (`far_offset_violated`). -/
theorem output_args_roundtrip_partial {q : TyQ} {m : Mem} {rs : List TopRes} {total : BitVec 64} {as : List OArg} {x : OSt}
    (hok : ∀ r ∈ rs, Ok q r) (hsk : AllSkip rs) (hc : compileArgs q rs 0 = .ok (total, as)) (hs : outSize as < 2 ^ 15)
    (hst : ∀ k, k < outSize as → x.st.regs 2 + BitVec.ofNat 64 k ≠ x.st.regs 10 - 8) :
    ∃ x', runOutputArg m as x = .ret x' ∧ total.toNat = outSize as ∧
      Same x.out x'.out (x.st.regs 2) total.toNat ∧
      ∀ tail, ∃ items, decodeArgs as (reads x'.out total.toNat (x.st.regs 2) ++ tail) = some items ∧
        AllRight q m (x.st.regs 1) rs items := by
  have h0 : execO m [.cc (.movReg 9 1), .cc (.movReg 8 2)] x =
      .done ⟨(x.st.set 9 (x.st.regs 1)).set 8 (x.st.regs 2), x.out⟩ := by
    rw [execO_seq (step_mov m 9 1 x), execO_seq (step_mov m 8 2 _), execO_nil]
    simp only
    rw [set_ne _ _ (show 2 ≠ 9 by omega)]
  have t0 : Three ((x.st.set 9 (x.st.regs 1)).set 8 (x.st.regs 2)) (x.st.regs 2) (x.st.regs 1) (x.st.regs 10) :=
    ⟨set_same _ _ _, by rw [set_ne _ _ (by omega), set_same], by rw [set_ne _ _ (by omega), set_ne _ _ (by omega)]⟩
  obtain ⟨x', h1, ht, hsame, hdec⟩ := run_blocks (m := m) (n := 0) (x := ⟨_, x.out⟩) hok hsk hc (by omega) t0
    (fun k hk => hst k (by omega))
  have hz : x.st.regs 2 + BitVec.ofNat 64 0 = x.st.regs 2 := BitVec.add_zero _
  rw [hz] at hsame hdec
  have htn : total.toNat = outSize as := by
    rw [ht, BitVec.toNat_ofNat]; omega
  refine ⟨x', ?_, htn, by rw [htn]; exact hsame, by rw [htn]; exact hdec⟩
  have h1' : runBlocks m as ⟨(x.st.set 9 (x.st.regs 1)).set 8 (x.st.regs 2), x.out⟩ = .done x' := h1
  unfold runOutputArg
  rw [h0]
  simp only
  rw [h1']
  rfl

/-! ### Expressions as the compiler returns them -/

/-- The questions about types are answered from the same BTF information that the compiler uses. -/
structure Coh (Γ : Btf) (q : TyQ) : Prop where
  size : ∀ t s, q.size (some t) = some s → s.toNat = Γ.size0 t
  int : ∀ t, Γ.kindO t = .int → q.charPtr t = false ∧ q.charArr t = false ∧ q.numPtr t = false

theorem sx32_toInt {x : BitVec 64} (h1 : -(2 ^ 31) ≤ x.toInt) (h2 : x.toInt < 2 ^ 31) : sx32 x = x := by
  apply BitVec.eq_of_toInt_eq
  unfold sx32
  rw [BitVec.toInt_signExtend_of_le (by decide), BitVec.toInt_setWidth]
  have hlt := x.isLt
  rw [BitVec.toInt_eq_toNat_cond] at h1 h2 ⊢
  rw [Int.bmod_def]
  split at h1 <;> rename_i hc
  · rw [if_pos hc] at h2 ⊢
    split <;> omega
  · rw [if_neg hc] at h2 ⊢
    split <;> omega

/-- Every expression that `CompileEvalExpr` accepts, with R8 and R9 reserved, has the properties required above, if
its code is at most 2^15 instructions long and its offset fits 32 bits. -/
theorem compileTop_ok {o : Opts} {nelems : Ty → Nat} {force : Bool} {t : Top} {r : TopRes} {q : TyQ}
    (hq : Coh o.Γ q) (hΓ : Sane o.Γ) (h : compileTop o nelems [8, 9] force t = .ok r) (hl : r.code.code.length ≤ 2 ^ 15)
    (ho : -(2 ^ 31) ≤ r.res.off.toInt ∧ r.res.off.toInt < 2 ^ 31) : Ok q r := by
  obtain ⟨e, off, size, hc, hp, hx⟩ := compileTop_inv h
  obtain ⟨k1, k2, k3, k4⟩ := compileEval_keeps hc
  have fixed := fixed_size_reads h
  have hmem : ∀ {f : String} {n : BitVec 64}, ((f, n) ∈ intFns ∨ (f, n) ∈ addrFns) →
      (intFns.lookup f = some n ∧ addrFns.lookup f = none) ∨ (addrFns.lookup f = some n ∧ intFns.lookup f = none) := by
    intro f n h
    have d1 : ∀ p ∈ intFns, intFns.lookup p.1 = some p.2 ∧ addrFns.lookup p.1 = none := by decide
    have d2 : ∀ p ∈ addrFns, addrFns.lookup p.1 = some p.2 ∧ intFns.lookup p.1 = none := by decide
    exact h.elim (fun h => .inl (d1 _ h)) (fun h => .inr (d2 _ h))
  -- the request named by the call
  have named : ∀ {f : String} {args : List Expr} {c : FCall}, Asked f args c →
      (c.typ = .int → f ∈ intFns.map (·.1)) ∧ (c.typ = .addr ∨ c.typ = .port → f ∈ addrFns.map (·.1)) := by
    intro f args c ha
    cases ha with
    | int hm | intAt hm _ => exact ⟨fun _ => List.mem_map.mpr ⟨_, hm, rfl⟩, by simp⟩
    | addr hm | addrAt hm _ =>
      refine ⟨by simp, fun _ => ?_⟩
      simp only [List.mem_cons, List.not_mem_nil, or_false, Prod.mk.injEq] at hm
      rcases hm with ⟨h, -⟩ | ⟨h, -⟩ | ⟨h, -⟩ | ⟨h, -⟩ | ⟨h, -⟩ | ⟨h, -⟩ <;> (rw [h]; decide)
    | port hm | portAt hm _ =>
      refine ⟨by simp, fun _ => ?_⟩
      simp only [List.mem_cons, List.not_mem_nil, or_false, Prod.mk.injEq] at hm
      rcases hm with ⟨h, -⟩ | ⟨h, -⟩ <;> (rw [h]; decide)
    | sized hm | sizedAt hm =>
      simp only [List.mem_cons, List.not_mem_nil, or_false, Prod.mk.injEq] at hm
      rcases hm with ⟨-, h⟩ | ⟨-, h⟩ | ⟨-, h⟩ <;> simp [h]
    | _ => simp
  have callOf : ∀ {f : String} {args : List Expr}, t = .call (some f) args → (r.typ = .int → f ∈ intFns.map (·.1)) ∧
      (r.typ = .addr ∨ r.typ = .port → f ∈ addrFns.map (·.1)) := by
    intro f args ht
    rcases hx with ⟨h, -⟩ | ⟨h, -⟩ | ⟨f', args', c, h, ha, -, -, -, htyp, -⟩
    · rw [ht] at h; simp at h
    · rw [ht] at h; simp at h
    · rw [ht] at h
      simp only [Top.call.injEq, Option.some.injEq] at h
      rw [htyp, h.1]
      exact named ha
  have dI : ∀ f ∈ intFns.map (·.1), addrFns.lookup f = none := by decide
  have dA : ∀ f ∈ addrFns.map (·.1), intFns.lookup f = none := by decide
  refine ⟨k1, k2, k3, k4, closed_fits k4.1 hl, ?_, ?_, ?_, ?_, ?_, sx32_toInt ho.1 ho.2⟩
  · intro ht
    obtain ⟨f, args, c, hcall, ha, hn, -, -, h2, -⟩ := fixed (.inr (.inl ht))
    rw [h2 ht]
    rcases hmem hn with ⟨h, -⟩ | ⟨h, -⟩
    · rw [dA f ((callOf hcall).2 (.inl ht))] at h; simp at h
    · exact h
  · intro ht
    obtain ⟨f, args, c, hcall, ha, hn, -, -, -, h3⟩ := fixed (.inr (.inr ht))
    rw [h3 ht]
    rcases hmem hn with ⟨h, -⟩ | ⟨h, -⟩
    · rw [dA f ((callOf hcall).2 (.inr ht))] at h; simp at h
    · exact h
  · intro ht
    obtain ⟨f, args, c, hcall, ha, hn, -, h1, -⟩ := fixed (.inl ht)
    rw [h1 ht]
    rcases hmem hn with ⟨h, -⟩ | ⟨h, -⟩
    · exact h
    · rw [dI f ((callOf hcall).1 ht)] at h; simp at h
  · intro ht s hs
    have : ∃ t', r.res.ty = some t' ∧ o.Γ.size0 t' ≠ 0 := by
      generalize r.res = z at hp ⊢
      unfold postCheck at hp
      split at hp
      · simp at hp
      · rw [ht] at hp
        simp only at hp
        split at hp
        · split at hp
          · simp at hp
          · obtain rfl := Except.ok.inj hp; exact ⟨_, rfl, by assumption⟩
        · split at hp
          · simp at hp
          · obtain rfl := Except.ok.inj hp; exact ⟨_, rfl, by assumption⟩
        · simp at hp
    obtain ⟨t', h1, h2⟩ := this
    rw [h1] at hs
    have := hq.size t' s hs
    have hsm := hΓ.small t'
    refine ⟨?_, by omega⟩
    intro h0
    rw [h0] at this
    exact h2 this.symm
  · intro ht
    have : o.Γ.kindO r.res.ty = .int := by
      generalize r.res = z at hp ⊢
      unfold postCheck at hp
      split at hp
      · simp at hp
      · rcases ht with ht | ht <;> rw [ht] at hp <;> simp only at hp <;> split at hp <;>
          first | (simp at hp; done) | (obtain rfl := Except.ok.inj hp; assumption)
    exact hq.int _ this

/-- The outcome of an expression's code is the meaning of the expression (with the restrictions of C01). -/
theorem outcome_meaning_partial {o : Opts} {e : Expr} {σ : Sh} {f : Bool} {p : EvalRes} {w : World} {st : St}
    {v : Option (BitVec 64)} (hlo : o.lo = 0) (hc : compileEval o [8, 9] f e = .ok p)
    (hlive : o.mode = .direct ∨ ∃ q, compileEval o.few [8, 9] f e = .ok q) (hσ : shape o e = some σ)
    (hu : σ.usable o = true) (hn : σ.isNum = false) (hex : Exact p.code) (hargs : ArgsAt o w (st.regs 9))
    (hw : WordReadable w.mem) (h : Outcome w.mem p st v) :
    ∃ x nul, meaning o w e = some (x, nul) ∧ v = if nul then none else some x := by
  obtain ⟨x, nul, h1, h2, h3⟩ := eval_computes_partial hlo hc hlive hσ hu hn hex hargs hw
  refine ⟨x, nul, h1, ?_⟩
  cases nul with
  | false =>
    obtain ⟨st', he, hv, -⟩ := h2 rfl
    cases v with
    | none => obtain ⟨st2, h⟩ := h; rw [he] at h; simp at h
    | some u =>
      obtain ⟨st2, h, hu⟩ := h
      rw [he] at h
      obtain rfl := Out.done.inj h
      rw [← hu, hv]; rfl
  | true =>
    obtain ⟨st', he⟩ := h3 rfl
    cases v with
    | none => rfl
    | some u => obtain ⟨st2, h, -⟩ := h; rw [he] at h; simp at h

/-! ### Violations -/

/-- A histogram sample followed by a number: the number shown is the sample of the histogram, not the value of its
own expression. -/
theorem hist_then_violated {q : TyQ} {m : Mem} {r1 r2 : TopRes} {total : BitVec 64} {a1 a2 : OArg} {x : OSt} {p : BitVec 64}
    (ok1 : Ok q r1) (ok2 : Ok q r2) (t1 : r1.typ = .hist) (t2 : r2.typ = .dflt)
    (n1 : q.charPtr r2.res.ty = false) (n2 : q.charArr r2.res.ty = false) (n3 : q.numPtr r2.res.ty = false)
    (hc : compileArgs q [r1, r2] 0 = .ok (total, [a1, a2])) (B A F : BitVec 64) (hx : Three x.st B A F)
    (hst : ∀ k, k < 18 → B + BitVec.ofNat 64 k ≠ F - 8) (hp : Outcome m r1.code x.st (some p)) :
    ∃ x', runBlocks m [a1, a2] x = .done x' ∧
      decodeArgs [a1, a2] (reads x'.out 18 B) = some [.sample (le 8 p) ((q.size r1.res.ty).getD 0), .num p] := by
  simp only [compileArgs] at hc
  cases h1 : compileArg q r1 0 with
  | error z => simp only [h1] at hc; simp at hc
  | ok z =>
    obtain ⟨off1, b1⟩ := z
    simp only [h1] at hc
    cases h2 : compileArg q r2 off1 with
    | error z => simp [h2] at hc
    | ok z =>
      obtain ⟨off2, b2⟩ := z
      simp only [h2, Except.ok.injEq, Prod.mk.injEq, List.cons.injEq, and_true] at hc
      obtain ⟨rfl, rfl, rfl⟩ := hc
      obtain ⟨s1, g1, q1, hg1, -, ha1⟩ := compileArg_inv h1
      obtain ⟨s2, g2, q2, hg2, -, ha2⟩ := compileArg_inv h2
      obtain ⟨c1, c2, c3⟩ := ok1.sample (.inl t1)
      have u1 : b1.trueSize = 8 := by
        have : g1.used = 8 := by
          unfold genValue at hg1
          simp only [t1, c1, c2, c3, Bool.or_false, Bool.false_eq_true, if_false] at hg1
          split at hg1
          · simp at hg1
          · rw [← Except.ok.inj hg1]
        rw [ha1]; exact this
      have u2 : b2.trueSize = 8 := by
        have : g2.used = 8 := by
          unfold genValue at hg2
          simp only [t2, n1, n2, n3, Bool.or_false, Bool.false_eq_true, if_false] at hg2
          split at hg2
          · simp at hg2
          · rw [← Except.ok.inj hg2]
        rw [ha2]; exact this
      have v1 : b1.trueSize.toNat = 8 := by rw [u1]; rfl
      have v2 : b2.trueSize.toNat = 8 := by rw [u2]; rfl
      obtain ⟨x1, v, e1, th1, -, o1, ho, hreg⟩ := run_block (m := m) (n := 0) ok1 h1 (by omega) hx (fun k hk => hst k (by omega))
      rw [ho, v1] at h2
      obtain ⟨x2, v', e2, -, sm, -, -, -⟩ := run_block (m := m) (n := 0 + (8 + 1)) ok2 h2 (by omega) th1 (fun k hk => hst k (by omega))
      refine ⟨x2, by simp only [runBlocks, e1, e2], ?_⟩
      have hv : v = some p := by
        obtain ⟨sa, ha, hr⟩ := hp
        cases v with
        | none => obtain ⟨sb, hb⟩ := o1; rw [ha] at hb; simp at hb
        | some u =>
          obtain ⟨sb, hb, hu⟩ := o1
          rw [ha] at hb
          obtain rfl := Out.done.inj hb
          rw [← hu, hr]
      have hz : B + BitVec.ofNat 64 0 = B := BitVec.add_zero _
      rw [hz, v1] at hreg
      rw [v2, Nat.zero_add] at sm
      rcases hreg with ⟨p', pl, hpv, hr, hpl⟩ | ⟨pl, -, hn⟩
      · rw [hv] at hpv
        obtain rfl := Option.some.inj hpv
        simp only [Payload, t1, c1, c2, c3, Bool.false_eq_true, if_false] at hpl
        subst hpl
        have hread : reads x2.out 18 B = le 8 p ++ 0 :: reads x2.out 9 (B + BitVec.ofNat 64 9) := by
          rw [show (18 : Nat) = 9 + 9 from rfl, reads_add, same_reads sm (by omega), show (9 : Nat) = 8 + 1 from rfl, hr]
          simp
        rw [hread]
        have d1 : decodeArg b1 (le 8 p ++ 0 :: reads x2.out 9 (B + BitVec.ofNat 64 9)) =
            some (.sample (le 8 p) s1, le 8 p ++ 0 :: reads x2.out 9 (B + BitVec.ofNat 64 9)) := by
          have hsz : b1.size = 9 := by
            have : g1.used = 8 := by rw [← u1, ha1]
            rw [ha1]; show g1.used + 1 = 9; rw [this]; rfl
          have hts : b1.tsize = s1 := by rw [ha1]
          have hty : b1.typ = .hist := by rw [ha1]; exact t1
          unfold decodeArg
          rw [hsz, show (9 : BitVec 64) - 1 = 8 from rfl, index_ok (n := 8) (by decide) (le_length 8 _)]
          simp only [hty, u1]
          rw [sliceTo_ok (n := 8) (by decide) (le_length 8 _), hts]
          rfl
        have d2 : decodeArg b2 (le 8 p ++ 0 :: reads x2.out 9 (B + BitVec.ofNat 64 9)) =
            some (.num p, reads x2.out 9 (B + BitVec.ofNat 64 9)) := by
          obtain ⟨it, d, hd, hR, hsk⟩ := decode_ok (m := m) (p := p) (rest := reads x2.out 9 (B + BitVec.ofNat 64 9))
            ok2 h2 (by omega) (pl := le 8 p) (by rw [le_length, v2])
            (by simp only [Payload, t2, n1, n2, n3, Bool.false_eq_true, if_false])
          simp only [Right, t2, n1, n2, n3, Bool.false_eq_true, if_false] at hR
          rw [hd, hR, hsk ⟨by simp [t2], by simp [t2]⟩]
        simp only [decodeArgs, d1, d2, q1, Option.getD_some, Option.map_some]
      · rw [hv] at hn
        simp [Right, t1] at hn

/-- Beyond 32 KiB the 16-bit store offset wraps: the store for an expression at offset 32768 goes 32 KiB before
the buffer. (The kernel's verifier refuses to load such a program.) -/
theorem far_offset_violated (m : Mem) (reg : Nat) (x : OSt) :
    execO m (genNum reg false 32768) x =
      .done ⟨x.st, wr x.out (x.st.regs 8 - 32768) (le 8 (x.st.regs reg))⟩ := by
  show OOut.done ⟨x.st, wr x.out (x.st.regs 8 + sx16 32768) (le 8 (x.st.regs reg))⟩ = _
  rw [show sx16 32768 = -32768 from by decide, BitVec.sub_eq_add_neg]

/-- An offset that does not fit 32 bits is truncated: `buf(p, 4294967296, 8)` reads at `p`. -/
theorem far_read_violated (m : Mem) (x : OSt) :
    execO m [.cc (.aluImm .add 3 4294967296)] x = .done ⟨x.st.set 3 (x.st.regs 3), x.out⟩ := by
  show OOut.done ⟨x.st.set 3 (x.st.regs 3 + sx32 4294967296), x.out⟩ = _
  rw [show sx32 4294967296 = 0 from by decide]
  simp

/-! ### Witness -/

def exQ : TyQ where
  size | some t => (exBtf.sizeOf t).map (BitVec.ofNat 64) | none => none
  numPtr _ := false
  charPtr _ := false
  charArr _ := false
  nelems _ := 1

theorem exQ_coh : Coh exBtf exQ := by
  refine ⟨?_, fun _ _ => ⟨rfl, rfl, rfl⟩⟩
  intro t s h
  have hsm := exBtf_sane.small t
  simp only [exQ, Option.map_eq_some_iff] at h
  obtain ⟨n, h1, rfl⟩ := h
  unfold Btf.size0 at hsm ⊢
  rw [h1] at hsm ⊢
  simp only [Option.getD_some] at hsm ⊢
  rw [BitVec.toNat_ofNat]; omega

/-- Three expressions `skb->len`, `buf(skb->dev, 4, 16)` and `hist(n)` are accepted, take 35 bytes and meet all
hypotheses of the round trip. -/
theorem output_args_witness : ∃ r1 r2 r3 as,
    compileTop (exOpts .direct) (fun _ => 1) [8, 9] false (.plain (.arrow (.name "skb") "len")) = .ok r1 ∧
    compileTop (exOpts .direct) (fun _ => 1) [8, 9] false
      (.call (some "buf") [.arrow (.name "skb") "dev", .num ['4'], .num ['1', '6']]) = .ok r2 ∧
    compileTop (exOpts .direct) (fun _ => 1) [8, 9] false (.call (some "hist") [.name "n"]) = .ok r3 ∧
    (∀ r ∈ [r1, r2, r3], Ok exQ r) ∧ AllSkip [r1, r2, r3] ∧ compileArgs exQ [r1, r2, r3] 0 = .ok (35, as) ∧ outSize as = 35 := by
  refine ⟨_, _, _, _, rfl, rfl, rfl, ?_, ?_, rfl, rfl⟩
  · intro r hr
    simp only [List.mem_cons, List.not_mem_nil, or_false] at hr
    have h1 : compileTop (exOpts .direct) (fun _ => 1) [8, 9] false (.plain (.arrow (.name "skb") "len")) = .ok _ := rfl
    have h2 : compileTop (exOpts .direct) (fun _ => 1) [8, 9] false
      (.call (some "buf") [.arrow (.name "skb") "dev", .num ['4'], .num ['1', '6']]) = .ok _ := rfl
    have h3 : compileTop (exOpts .direct) (fun _ => 1) [8, 9] false (.call (some "hist") [.name "n"]) = .ok _ := rfl
    rcases hr with rfl | rfl | rfl
    · exact compileTop_ok (o := exOpts .direct) exQ_coh exBtf_sane h1 (by decide) (by decide)
    · exact compileTop_ok (o := exOpts .direct) exQ_coh exBtf_sane h2 (by decide) (by decide)
    · exact compileTop_ok (o := exOpts .direct) exQ_coh exBtf_sane h3 (by decide) (by decide)
  · exact ⟨⟨by decide, by decide⟩, ⟨by decide, by decide⟩, trivial⟩

end Bpfsnoop.Arg
