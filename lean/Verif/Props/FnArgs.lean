import Verif.Props.ArgMach

/-
C17: function arguments and the return value are displayed as they were captured.
-/
namespace Bpfsnoop.Arg
open Cc

/-! ### Specification -/

/-- The C string of at most `n - 1` characters at address `a`. -/
inductive StrAt (m : Mem) : Nat → BitVec 64 → List (BitVec 8) → Prop
  | nul {n a} : m a = some 0 → StrAt m (n + 1) a []
  | cut {a b} : m a = some b → StrAt m 1 a []
  | cons {n a b s} : m a = some b → b ≠ 0 → StrAt m (n + 1) (a + 1) s → StrAt m (n + 2) a (b :: s)

/-- The string shown for address `a`: the string there, or nothing if it cannot be read. -/
def StrShown (m : Mem) (n : Nat) (a : BitVec 64) (s : List (BitVec 8)) : Prop :=
  StrAt m n a s ∨ ((∀ s', ¬ StrAt m n a s') ∧ s = [])

/-- Parameter `i` is the first `const char *` parameter. -/
def FirstStr (ps : List PTy) (i : Nat) : Prop :=
  (ps[i]?.map (·.constCharPtr)) = some true ∧ ∀ j, j < i → (ps[j]?.map (·.constCharPtr)) = some false

/-- What has to be shown for a parameter of a one-register type whose register held `v`. -/
def Correct (m : Mem) (isStr numberPtr : Bool) (v : BitVec 64) (sh : Shown) : Prop :=
  sh.isStr = isStr ∧ sh.isPtr = numberPtr ∧
  (isStr = true → StrShown m 64 v sh.str) ∧
  (isStr = false → sh.arg = v ∧ (numberPtr = true → sh.val = load m 8 v))

/-! ### The kernel side -/

/-- Registers holding the argument array, the buffer, the return value and the frame pointer. -/
structure Regs (st : St) (args buff rv fp : BitVec 64) : Prop where
  r6 : st.regs 6 = args
  r7 : st.regs 7 = buff
  r8 : st.regs 8 = rv
  r10 : st.regs 10 = fp

/-- Bytes captured for a slot with value `v`. -/
def slotBytes (m : Mem) (p : PFlag) (v : BitVec 64) : List (BitVec 8) :=
  if p.isStr then strBytes m 64 v else le 8 v ++ if p.isNumPtr then le 8 (load m 8 v) else []

theorem step_mov (m : Mem) (d s : Nat) (x : OSt) :
    stepO m (.cc (.movReg d s)) x = .seq ⟨x.st.set d (x.st.regs s), x.out⟩ := rfl

theorem step_movI (m : Mem) (d : Nat) {k : Nat} (h : k < 2 ^ 31) (x : OSt) :
    stepO m (.cc (.movImm d (BitVec.ofNat 64 k))) x = .seq ⟨x.st.set d (BitVec.ofNat 64 k), x.out⟩ := by
  show ONext.seq ⟨x.st.set d (sx32 (BitVec.ofNat 64 k)), x.out⟩ = _
  rw [sx32_small h]

theorem step_addI (m : Mem) (d : Nat) {k : Nat} (h : k < 2 ^ 31) (x : OSt) :
    stepO m (.cc (.aluImm .add d (BitVec.ofNat 64 k))) x =
      .seq ⟨x.st.set d (x.st.regs d + BitVec.ofNat 64 k), x.out⟩ := by
  show ONext.seq ⟨x.st.set d (x.st.regs d + sx32 (BitVec.ofNat 64 k)), x.out⟩ = _
  rw [sx32_small h]

theorem step_stx (m : Mem) (d s n : Nat) {k : Nat} (h : k < 2 ^ 15) (x : OSt) :
    stepO m (.stx d (BitVec.ofNat 64 k) s n) x =
      .seq ⟨x.st, wr x.out (x.st.regs d + BitVec.ofNat 64 k) (le n (x.st.regs s))⟩ := by
  show ONext.seq ⟨x.st, wr x.out (x.st.regs d + sx16 (BitVec.ofNat 64 k)) (le n (x.st.regs s))⟩ = _
  rw [sx16_small h]

theorem step_ldx (m : Mem) (d s n : Nat) {k : Nat} (h : k < 2 ^ 15) (x : OSt) :
    stepO m (.cc (.ldx d s (BitVec.ofNat 64 k) n)) x =
      .seq ⟨x.st.set d (load m n (x.st.regs s + BitVec.ofNat 64 k)), x.out⟩ := by
  show ONext.seq ⟨x.st.set d (load m n (x.st.regs s + sx16 (BitVec.ofNat 64 k))), x.out⟩ = _
  rw [sx16_small h]

theorem set_ne (st : St) {r d : Nat} (v : BitVec 64) (h : r ≠ d) : (st.set d v).regs r = st.regs r := by
  simp [St.set, h]

theorem clobber_hi (st : St) {r : Nat} (h : 5 < r) : (st.clobber 5).regs r = st.regs r := by
  simp [St.clobber]; omega

/-- Registers above R5 are kept. -/
def Keep (st st' : St) : Prop := ∀ r, 5 < r → st'.regs r = st.regs r

theorem keep_regs {st st' : St} {args buff rv fp : BitVec 64} (h : Regs st args buff rv fp) (hk : Keep st st') :
    Regs st' args buff rv fp :=
  ⟨by rw [hk 6 (by omega), h.r6], by rw [hk 7 (by omega), h.r7], by rw [hk 8 (by omega), h.r8],
    by rw [hk 10 (by omega), h.r10]⟩

theorem step_probeStr {m : Mem} {x : OSt} {n : Nat} (hn : n < 2 ^ 63) (h : x.st.regs 2 = BitVec.ofNat 64 n) :
    stepO m .probeStr x = .seq ⟨x.st.clobber 5, wr x.out (x.st.regs 1) (strBytes m n (x.st.regs 3))⟩ := by
  have hm : (BitVec.ofNat 64 n).msb = false := by
    rw [BitVec.msb_eq_false_iff_two_mul_lt, BitVec.toNat_ofNat]; omega
  have ht : (BitVec.ofNat 64 n).toNat = n := by rw [BitVec.toNat_ofNat]; omega
  simp only [stepO, h, hm, ht]
  rfl

theorem exec_genStr {m : Mem} {off : Nat} (ho : off < 2 ^ 31) (x : OSt) :
    ∃ st', execO m (genStr off) x =
      .done ⟨st', wr x.out (x.st.regs 7 + BitVec.ofNat 64 off) (strBytes m 64 (x.st.regs 3))⟩ ∧ Keep x.st st' := by
  unfold genStr
  split
  · rw [execO_seq (step_movI m 2 (by decide) x), execO_seq (step_mov m 1 7 _), execO_seq (step_addI m 1 ho _),
      execO_seq (step_probeStr (n := 64) (by decide) (by simp [St.set]; rfl)), execO_nil]
    refine ⟨_, congrArg (fun b => OOut.done ⟨_, b⟩) (by simp [St.set]), ?_⟩
    intro r hr
    rw [clobber_hi _ hr, set_ne _ _ (by omega), set_ne _ _ (by omega), set_ne _ _ (by omega)]
  · rename_i h0
    have h0 : off = 0 := by omega
    subst h0
    rw [execO_seq (step_movI m 2 (by decide) x), execO_seq (step_mov m 1 7 _),
      execO_seq (step_probeStr (n := 64) (by decide) (by simp [St.set]; rfl)), execO_nil]
    refine ⟨_, congrArg (fun b => OOut.done ⟨_, b⟩) (by simp [St.set]), ?_⟩
    intro r hr
    rw [clobber_hi _ hr, set_ne _ _ (by omega), set_ne _ _ (by omega)]

theorem exec_genPointee {m : Mem} {off d : Nat} (ho : off < 2 ^ 15) (hd : d ≠ 7) (x : OSt) :
    ∃ st', execO m (genPointee off d) x =
      .done ⟨st', wr x.out (x.st.regs 7 + BitVec.ofNat 64 off) (le 8 (load m 8 (x.st.regs 3)))⟩ ∧
      ∀ r, 5 < r → r ≠ d → st'.regs r = x.st.regs r := by
  have h1 := execO_cc_done x.out (exec_probeCall_eq m x.st)
  have e : genPointee off d = probeCall.map .cc ++ [.cc (.ldStack d (-8)), .stx 7 (BitVec.ofNat 64 off) d 8] := rfl
  rw [e, execO_append_done h1, execO_seq (s' := ⟨(afterProbe m x.st).set d ((afterProbe m x.st).stack (-8)), x.out⟩) rfl,
    execO_seq (step_stx m 7 d 8 ho _), execO_nil]
  obtain ⟨st2, h2, h3, h4⟩ := exec_probeCall m x.st
  rw [exec_probeCall_eq] at h2
  obtain rfl := Out.done.inj h2
  refine ⟨_, congrArg (fun b => OOut.done ⟨_, b⟩) ?_, ?_⟩
  · simp only [set_same]
    rw [set_ne _ _ (Ne.symm hd), h4 7 (by omega), h3]
  · intro r hr hrd
    show ((afterProbe m x.st).set d _).regs r = _
    rw [set_ne _ _ hrd, h4 r hr]

/-- Two adjacent words. -/
theorem words_prefix {b : Buf} {a : BitVec 64} (x y : List (BitVec 8)) (hx : x.length = 8) (hy : y.length = 8) :
    reads (wr (wr b a x) (a + BitVec.ofNat 64 8) y) 16 a = x ++ y ∧
    Same b (wr (wr b a x) (a + BitVec.ofNat 64 8) y) a 16 := by
  have s1 : Same b (wr b a x) a 8 := same_wr (by omega)
  have s2 : Same (wr b a x) (wr (wr b a x) (a + BitVec.ofNat 64 8) y) (a + BitVec.ofNat 64 8) 8 := same_wr (by omega)
  refine ⟨?_, same_trans s1 s2 (by omega)⟩
  rw [show (16 : Nat) = 8 + 8 from rfl, reads_add, same_reads s2 (by omega), reads_wr (by omega) (by omega),
    reads_wr (by omega) (by omega), List.drop_eq_nil_of_le (by rw [reads_length]; omega),
    List.drop_eq_nil_of_le (by rw [reads_length]; omega), List.append_nil, List.append_nil]

/-- A captured value sits at its place: its bytes are a prefix of the region, the rest of the buffer is
unchanged. -/
structure Captured (m : Mem) (p : PFlag) (v : BitVec 64) (b b' : Buf) (a : BitVec 64) : Prop where
  pre : slotBytes m p v <+: reads b' (slotSize p) a
  same : Same b b' a (slotSize p)

theorem captured_str {m : Mem} {p : PFlag} (hp : p.isStr = true) (v : BitVec 64) (b : Buf) (a : BitVec 64) :
    Captured m p v b (wr b a (strBytes m 64 v)) a := by
  have hs : slotSize p = 64 := by simp [slotSize, hp, maxOutputStrLen]
  refine ⟨?_, ?_⟩
  · rw [hs, reads_wr (strBytes_length m 64 v) (by omega)]
    simp [slotBytes, hp]
  · rw [hs]; exact same_wr (strBytes_length m 64 v)

theorem captured_num {m : Mem} {p : PFlag} (hp : p.isStr = false) (hn : p.isNumPtr = false) (v : BitVec 64) (b : Buf)
    (a : BitVec 64) : Captured m p v b (wr b a (le 8 v)) a := by
  have hs : slotSize p = 8 := by simp [slotSize, hp, hn]
  refine ⟨?_, ?_⟩
  · rw [hs, reads_wr (by rw [le_length]; omega) (by omega)]
    simp [slotBytes, hp, hn]
  · rw [hs]; exact same_wr (by rw [le_length]; omega)

theorem captured_ptr {m : Mem} {p : PFlag} (hp : p.isStr = false) (hn : p.isNumPtr = true) (v : BitVec 64) (b : Buf)
    (a : BitVec 64) : Captured m p v b (wr (wr b a (le 8 v)) (a + BitVec.ofNat 64 8) (le 8 (load m 8 v))) a := by
  have hs : slotSize p = 16 := by simp [slotSize, hp, hn]
  have := words_prefix (b := b) (a := a) (le 8 v) (le 8 (load m 8 v)) (le_length _ _) (le_length _ _)
  refine ⟨?_, ?_⟩
  · rw [hs, this.1]
    simp [slotBytes, hp, hn]
  · rw [hs]; exact this.2

theorem slotSize_pos (p : PFlag) : 8 ≤ slotSize p := by
  unfold slotSize maxOutputStrLen; split <;> (try split) <;> omega

theorem slotSize_le (p : PFlag) : slotSize p ≤ 64 := by
  unfold slotSize maxOutputStrLen; split <;> (try split) <;> omega

theorem slotSize_ptr {p : PFlag} (hp : p.isStr = false) (hn : p.isNumPtr = true) : slotSize p = 16 := by
  simp [slotSize, hp, hn]

theorem add_off (a : BitVec 64) (n k : Nat) : a + BitVec.ofNat 64 (n + k) = a + BitVec.ofNat 64 n + BitVec.ofNat 64 k := by
  rw [BitVec.ofNat_add, BitVec.add_assoc]

theorem exec_genSlot {m : Mem} {i off : Nat} {p : PFlag} {x : OSt} {args buff rv fp : BitVec 64}
    (hr : Regs x.st args buff rv fp) (hi : i * 8 < 2 ^ 15) (ho : off + slotSize p ≤ 2 ^ 15) :
    ∃ s', execO m (genSlot i off p) x = .done s' ∧ Regs s'.st args buff rv fp ∧
      Captured m p (load m 8 (args + BitVec.ofNat 64 (i * 8))) x.out s'.out (buff + BitVec.ofNat 64 off) := by
  have h8 := slotSize_pos p
  have h3 : execO m (genSlot i off p) x = execO m (if !p.isStr then
      .stx 7 (BitVec.ofNat 64 off) 3 8 :: if p.isNumPtr then genPointee (off + 8) 3 else []
    else genStr off) ⟨x.st.set 3 (load m 8 (args + BitVec.ofNat 64 (i * 8))), x.out⟩ := by
    unfold genSlot
    rw [execO_seq (step_ldx m 3 6 8 hi x), hr.r6]
  rw [h3]
  generalize load m 8 (args + BitVec.ofNat 64 (i * 8)) = v
  have hr' : Regs (x.st.set 3 v) args buff rv fp := keep_regs hr (fun r h => set_ne _ _ (by omega))
  by_cases hp : p.isStr = true
  · simp only [hp]
    obtain ⟨st', h1, h2⟩ := exec_genStr (m := m) (off := off) (by omega) ⟨x.st.set 3 v, x.out⟩
    rw [if_neg (by simp), h1]
    refine ⟨_, rfl, keep_regs hr' h2, ?_⟩
    simp only [set_same, hr'.r7]
    exact captured_str hp _ _ _
  · have hp : p.isStr = false := by simpa using hp
    simp only [hp]
    rw [if_pos (by simp), execO_seq (step_stx m 7 3 8 (by omega) _)]
    simp only [set_same, hr'.r7]
    by_cases hn : p.isNumPtr = true
    · rw [if_pos hn]
      have := slotSize_ptr hp hn
      obtain ⟨st', h1, h2⟩ := exec_genPointee (m := m) (off := off + 8) (d := 3) (by omega) (by omega)
        ⟨x.st.set 3 v, wr x.out (buff + BitVec.ofNat 64 off) (le 8 v)⟩
      rw [h1]
      refine ⟨_, rfl, keep_regs hr' (fun r h => h2 r h (by omega)), ?_⟩
      simp only [set_same, hr'.r7, add_off]
      exact captured_ptr hp hn _ _ _
    · have hn : p.isNumPtr = false := by simpa using hn
      rw [if_neg (by simp [hn]), execO_nil]
      exact ⟨_, rfl, hr', captured_num hp hn _ _ _⟩

theorem exec_genRet {m : Mem} {off : Nat} {p : PFlag} {x : OSt} {args buff rv fp : BitVec 64}
    (hr : Regs x.st args buff rv fp) (ho : off + slotSize p ≤ 2 ^ 15) :
    ∃ s', execO m (genRet off p) x = .done s' ∧ Captured m p rv x.out s'.out (buff + BitVec.ofNat 64 off) := by
  have h8 := slotSize_pos p
  unfold genRet
  by_cases hp : p.isStr = true
  · simp only [hp]
    rw [if_neg (by simp), execO_seq (step_mov m 3 8 x), hr.r8]
    obtain ⟨st', h1, h2⟩ := exec_genStr (m := m) (off := off) (by omega) ⟨x.st.set 3 rv, x.out⟩
    rw [h1]
    refine ⟨_, rfl, ?_⟩
    simp only [set_same, set_ne _ _ (show 7 ≠ 3 by decide), hr.r7]
    exact captured_str hp _ _ _
  · have hp : p.isStr = false := by simpa using hp
    simp only [hp]
    rw [if_pos (by simp), execO_seq (step_stx m 7 8 8 (by omega) _), hr.r7, hr.r8]
    by_cases hn : p.isNumPtr = true
    · rw [if_pos hn]
      have := slotSize_ptr hp hn
      rw [execO_seq (step_mov m 3 8 _), hr.r8]
      obtain ⟨st', h1, h2⟩ := exec_genPointee (m := m) (off := off + 8) (d := 8) (by omega) (by omega)
        ⟨x.st.set 3 rv, wr x.out (buff + BitVec.ofNat 64 off) (le 8 rv)⟩
      rw [h1]
      refine ⟨_, rfl, ?_⟩
      simp only [set_same, set_ne _ _ (show 7 ≠ 3 by decide), hr.r7, add_off]
      exact captured_ptr hp hn _ _ _
    · have hn : p.isNumPtr = false := by simpa using hn
      rw [if_neg (by simp [hn]), execO_nil]
      exact ⟨_, rfl, captured_num hp hn _ _ _⟩

/-- The regions of the captured slots, in order. -/
inductive Regions (m : Mem) (vals : Nat → BitVec 64) : Nat → List PFlag → List (BitVec 8) → Prop
  | nil {i} : Regions m vals i [] []
  | cons {i p ps seg data} : seg.length = slotSize p → slotBytes m p (vals i) <+: seg →
      Regions m vals (i + 1) ps data → Regions m vals i (p :: ps) (seg ++ data)

/-- Total size of the captured slots. -/
def slotsSize (ps : List PFlag) : Nat := (ps.map slotSize).sum

theorem genSlots_size : ∀ (ps : List PFlag) (i off : Nat), (genSlots i off ps).2 = off + slotsSize ps := by
  intro ps
  induction ps with
  | nil => intro i off; simp [genSlots, slotsSize]
  | cons p ps ih => intro i off; simp [genSlots, slotsSize, ih] at *; omega

theorem exec_genSlots {m : Mem} {args buff rv fp : BitVec 64} : ∀ {ps : List PFlag} {i off : Nat} {x : OSt},
    Regs x.st args buff rv fp → (i + ps.length) * 8 ≤ 2 ^ 15 → off + slotsSize ps ≤ 2 ^ 15 →
    ∃ s', execO m (genSlots i off ps).1 x = .done s' ∧ Regs s'.st args buff rv fp ∧
      Same x.out s'.out (buff + BitVec.ofNat 64 off) (slotsSize ps) ∧
      Regions m (fun k => load m 8 (args + BitVec.ofNat 64 (k * 8))) i ps
        (reads s'.out (slotsSize ps) (buff + BitVec.ofNat 64 off)) := by
  intro ps
  induction ps with
  | nil =>
    intro i off x hr _ _
    exact ⟨x, rfl, hr, same_refl _ _ _, .nil⟩
  | cons p ps ih =>
    intro i off x hr hi ho
    have hsz : slotsSize (p :: ps) = slotSize p + slotsSize ps := by simp [slotsSize]
    simp only [List.length_cons] at hi
    obtain ⟨s1, h1, hr1, hc⟩ := exec_genSlot (m := m) (i := i) (off := off) (p := p) hr (by omega) (by omega)
    obtain ⟨s2, h2, hr2, hs2, hg⟩ := ih (i := i + 1) (off := off + slotSize p) hr1 (by omega) (by omega)
    rw [add_off] at hs2 hg
    refine ⟨s2, ?_, hr2, ?_, ?_⟩
    · show execO m (genSlot i off p ++ (genSlots (i + 1) (off + slotSize p) ps).1) x = _
      rw [execO_append_done h1, h2]
    · rw [hsz]; exact same_trans hc.same hs2 (by omega)
    · rw [hsz, reads_add]
      refine .cons (reads_length _ _ _) ?_ hg
      rw [same_reads hs2 (by omega)]
      exact hc.pre

/-! ### The user side -/

theorem strLoop_at {m : Mem} : ∀ {n : Nat} {a : BitVec 64} {l : List (BitVec 8)},
    strLoop m (n + 1) a = some l → ∃ s, l = s ++ [0] ∧ (∀ b ∈ s, b ≠ 0) ∧ StrAt m (n + 1) a s := by
  intro n
  induction n with
  | zero =>
    intro a l h
    simp only [strLoop] at h
    cases hm : m a with
    | none => simp [hm] at h
    | some b => simp [hm] at h; exact ⟨[], by simp [← h], by simp, .cut hm⟩
  | succ n ih =>
    intro a l h
    rw [strLoop] at h
    cases hm : m a with
    | none => simp [hm] at h
    | some b =>
      simp only [hm] at h
      by_cases hb : b = 0
      · subst hb
        rw [if_pos (.inl rfl)] at h
        exact ⟨[], by simp [← Option.some.inj h], by simp, .nul hm⟩
      · rw [if_neg (not_or.mpr ⟨hb, by omega⟩), Option.map_eq_some_iff] at h
        obtain ⟨l', h', rfl⟩ := h
        obtain ⟨s, rfl, hz, hs⟩ := ih h'
        refine ⟨b :: s, rfl, ?_, .cons hm hb hs⟩
        intro c hc
        cases hc with
        | head => exact hb
        | tail _ hc => exact hz c hc

theorem strLoop_none {m : Mem} : ∀ {n : Nat} {a : BitVec 64} {s : List (BitVec 8)},
    strLoop m n a = none → ¬ StrAt m n a s := by
  intro n a s h hs
  induction hs with
  | nul hm => simp [strLoop, hm] at h
  | cut hm => simp [strLoop, hm] at h
  | @cons n a b s hm hb _ ih =>
    rw [strLoop, hm] at h
    simp only at h
    rw [if_neg (not_or.mpr ⟨hb, by omega⟩), Option.map_eq_none_iff] at h
    exact ih h

theorem takeWhile_stop : ∀ (s r : List (BitVec 8)), (∀ b ∈ s, b ≠ 0) → nulTerm (s ++ 0 :: r) = s := by
  intro s r h
  unfold nulTerm
  rw [List.takeWhile_append_of_pos (by simpa using h)]
  simp

/-- The string decoded from a region that begins with what `bpf_probe_read_kernel_str` wrote. -/
theorem nulTerm_strBytes {m : Mem} {n : Nat} {a : BitVec 64} {seg : List (BitVec 8)}
    (h : strBytes m (n + 1) a <+: seg) : StrShown m (n + 1) a (nulTerm seg) := by
  obtain ⟨r, rfl⟩ := h
  unfold strBytes
  cases hl : strLoop m (n + 1) a with
  | none =>
    refine .inr ⟨fun s' => strLoop_none hl, ?_⟩
    rw [Option.getD_none, List.replicate_succ]
    exact takeWhile_stop [] _ (by simp)
  | some l =>
    obtain ⟨s, rfl, hz, hs⟩ := strLoop_at hl
    refine .inl ?_
    rw [Option.getD_some, List.append_assoc]
    rw [show s ++ ([0] ++ r) = s ++ 0 :: r from rfl, takeWhile_stop s r hz]
    exact hs

theorem getU64_le (v : BitVec 64) (r : List (BitVec 8)) : getU64 (le 8 v ++ r) = some v := by
  unfold getU64
  rw [if_pos (by rw [List.length_append, le_length]; omega),
    List.take_append_of_le_length (by rw [le_length]; omega), List.take_of_length_le (by rw [le_length]; omega), leVal_le8]

/-- Reading one region. -/
theorem readSlot_ok {m : Mem} {p : PFlag} {v : BitVec 64} {seg rest : List (BitVec 8)} (hl : seg.length = slotSize p)
    (hs : slotBytes m p v <+: seg) :
    ∃ a w s, readSlot p (seg ++ rest) = some (a, w, s, rest) ∧
      (p.isStr = true → StrShown m 64 v s) ∧ (p.isStr = false → a = v ∧ (p.isNumPtr = true → w = load m 8 v)) := by
  unfold readSlot
  by_cases hp : p.isStr = true
  · have h64 : seg.length = 64 := by simp [hl, slotSize, hp, maxOutputStrLen]
    rw [if_pos hp, if_pos (by simp [maxOutputStrLen, h64])]
    refine ⟨0, 0, nulTerm seg, ?_, fun _ => ?_, by simp [hp]⟩
    · rw [show maxOutputStrLen = seg.length by rw [h64]; rfl, List.drop_left, List.take_left]
    · apply nulTerm_strBytes (n := 63)
      simpa [slotBytes, hp] using hs
  · have hp : p.isStr = false := by simpa using hp
    rw [if_neg (by simp [hp])]
    by_cases hn : p.isNumPtr = true
    · have h16 : seg.length = 16 := by rw [hl, slotSize_ptr hp hn]
      have he : seg = le 8 v ++ le 8 (load m 8 v) := by
        obtain ⟨r, rfl⟩ := hs
        have : r = [] := by
          apply List.eq_nil_of_length_eq_zero
          simp [slotBytes, hp, hn, le_length] at h16
          omega
        simp [slotBytes, hp, hn, this]
      have hd : (le 8 v ++ (le 8 (load m 8 v) ++ rest)).drop 8 = le 8 (load m 8 v) ++ rest :=
        List.drop_left' (le_length 8 v)
      have hd2 : (le 8 (load m 8 v) ++ rest).drop 8 = rest := List.drop_left' (le_length 8 _)
      rw [show seg ++ rest = le 8 v ++ (le 8 (load m 8 v) ++ rest) by rw [he, List.append_assoc], getU64_le]
      simp only [hn, if_true, hd, getU64_le, hd2]
      exact ⟨_, _, _, rfl, by simp [hp], by simp⟩
    · have hn : p.isNumPtr = false := by simpa using hn
      have he : seg = le 8 v := by
        obtain ⟨r, rfl⟩ := hs
        have : r = [] := by
          apply List.eq_nil_of_length_eq_zero
          simp [slotBytes, hp, hn, le_length, slotSize] at hl
          simp [hl]
        simp [slotBytes, hp, hn, this]
      rw [he, getU64_le]
      simp only [hn]
      rw [if_neg (by simp), List.drop_left' (le_length 8 v)]
      exact ⟨_, _, _, rfl, by simp [hp], by simp⟩

theorem getU64_some {d : List (BitVec 8)} (h : 8 ≤ d.length) : ∃ v, getU64 d = some v :=
  ⟨_, by rw [getU64, if_pos h]⟩

theorem regions_length {m : Mem} {vals : Nat → BitVec 64} {i : Nat} {ps : List PFlag} {d : List (BitVec 8)}
    (h : Regions m vals i ps d) : d.length = slotsSize ps := by
  induction h with
  | nil => rfl
  | cons hl _ _ ih => simp [slotsSize, hl, ih] at *

theorem slotsSize_pos {p : PFlag} {ps : List PFlag} : 8 ≤ slotsSize (p :: ps) := by
  have := slotSize_pos p
  simp [slotsSize]; omega

theorem regions_split {m : Mem} {vals : Nat → BitVec 64} : ∀ {pre post : List PFlag} {i : Nat} {d : List (BitVec 8)},
    Regions m vals i (pre ++ post) d →
    ∃ d1 d2, d = d1 ++ d2 ∧ Regions m vals i pre d1 ∧ Regions m vals (i + pre.length) post d2 := by
  intro pre
  induction pre with
  | nil => intro post i d h; exact ⟨[], d, rfl, .nil, h⟩
  | cons p pre ih =>
    intro post i d h
    cases h with
    | cons hl hs hr =>
      obtain ⟨d1, d2, rfl, h1, h2⟩ := ih hr
      refine ⟨_, d2, (List.append_assoc _ _ _).symm, .cons hl hs h1, ?_⟩
      rw [List.length_cons, show i + (pre.length + 1) = i + 1 + pre.length by omega]
      exact h2

/-- Slots that all stand for a parameter of their own are shown one by one, each from its own bytes. -/
theorem decode_pre {m : Mem} {vals : Nat → BitVec 64} {nparams : Nat} {post : List PFlag} {d2 : List (BitVec 8)} :
    ∀ {pre : List PFlag} {i idx : Nat} {d1 : List (BitVec 8)}, Regions m vals i pre d1 →
    (∀ p ∈ pre, p.part = false) → (i + pre.length < nparams → 8 ≤ d2.length) →
    ∃ l, decodeSlots nparams i idx (pre ++ post) (d1 ++ d2) =
        (decodeSlots nparams (i + pre.length) (idx + pre.length) post d2).map (fun q => (l ++ q.1, q.2)) ∧
      l.length = pre.length ∧
      ∀ k p, pre[k]? = some p → ∃ sh, l[k]? = some sh ∧ sh.idx = idx + k ∧
        Correct m p.isStr p.isNumPtr (vals (i + k)) sh := by
  intro pre
  induction pre with
  | nil =>
    intro i idx d1 h _ _
    cases h
    refine ⟨[], ?_, rfl, by simp⟩
    simp
  | cons p pre ih =>
    intro i idx d1 h hp hd
    cases h with
    | @cons _ _ _ seg data hl hs hr =>
      obtain ⟨a, w, s, h1, h2, h3⟩ := readSlot_ok (rest := data ++ d2) hl hs
      obtain ⟨l, e, hlen, hall⟩ := ih (i := i + 1) (idx := idx + 1) hr (fun q hq => hp q (List.mem_cons_of_mem _ hq))
        (by intro hh; apply hd; simp only [List.length_cons]; omega)
      have hn : ∃ next, (if i + 1 < nparams then getU64 (data ++ d2) else some 0) = some next := by
        by_cases hh : i + 1 < nparams
        · rw [if_pos hh]
          apply getU64_some
          rw [List.length_append]
          cases pre with
          | nil => have := hd (by simpa using hh); omega
          | cons q qs => rw [regions_length hr]; have := slotsSize_pos (p := q) (ps := qs); omega
        · rw [if_neg hh]; exact ⟨_, rfl⟩
      obtain ⟨next, hn⟩ := hn
      refine ⟨⟨idx, p.isStr, p.isNumPtr, a, w, next, s⟩ :: l, ?_, by simp [hlen], ?_⟩
      · rw [List.cons_append, decodeSlots, if_neg (by rw [hp p List.mem_cons_self]; simp), List.append_assoc, h1]
        simp only [hn, e]
        rw [show i + 1 + pre.length = i + (p :: pre).length by simp; omega,
          show idx + 1 + pre.length = idx + (p :: pre).length by simp; omega]
        cases decodeSlots nparams (i + (p :: pre).length) (idx + (p :: pre).length) post d2 with
        | none => rfl
        | some q => rfl
      · intro k q hk
        cases k with
        | zero =>
          obtain rfl : p = q := by simpa using hk
          exact ⟨_, rfl, rfl, rfl, rfl, h2, h3⟩
        | succ k =>
          obtain ⟨sh, hsh, hidx, hc⟩ := hall k q (by simpa using hk)
          refine ⟨sh, by simpa using hsh, by omega, ?_⟩
          rw [show i + (k + 1) = i + 1 + k by omega]; exact hc

theorem padded_take {seg : List (BitVec 8)} {n : Nat} (hn : n ≤ 24) (h : n ≤ seg.length) :
    (padded 24 seg).take n = seg.take n := by
  unfold padded
  rw [List.take_append_of_le_length (by rw [List.length_take]; omega), List.take_take]
  congr 1; omega

/-- What has to be shown for the return value `rv`. -/
def RetCorrect (m : Mem) (k : RetKind) (ret : PTy) (rv : BitVec 64) (r : ShownRet) : Prop :=
  (k = .action → r = .action (rv.setWidth 32)) ∧
  (k = .typed → ∃ n1 n2 s, r = .typed ret.constCharPtr ret.numberPtr n1 n2 s ∧
    (ret.constCharPtr = true → StrShown m 64 rv s) ∧
    (ret.constCharPtr = false → n1 = rv ∧ (ret.numberPtr = true → n2 = load m 8 rv)))

theorem leVal_le4 (v : BitVec 64) : BitVec.ofNat 32 (leVal ((le 8 v).take 4)) = v.setWidth 32 := by
  have : (le 8 v).take 4 = le 4 v := rfl
  rw [this, leVal_le]
  apply BitVec.eq_of_toNat_eq
  rw [BitVec.toNat_ofNat, BitVec.toNat_setWidth]
  omega

theorem decodeRet_ok {m : Mem} {k : RetKind} {ret : PTy} {rv : BitVec 64} {seg : List (BitVec 8)}
    (hl : seg.length = slotSize ⟨ret.numberPtr, ret.constCharPtr, false⟩)
    (hs : slotBytes m ⟨ret.numberPtr, ret.constCharPtr, false⟩ rv <+: seg)
    (hk : k = .action → ret.constCharPtr = false) :
    ∃ r, decodeRet k ⟨ret.numberPtr, ret.constCharPtr, false⟩ seg = some r ∧ RetCorrect m k ret rv r := by
  have h8 : 8 ≤ seg.length := by rw [hl]; exact slotSize_pos _
  have hnum : ret.constCharPtr = false → ∃ r, seg = le 8 rv ++ r ∧
      (ret.numberPtr = true → r = le 8 (load m 8 rv)) := by
    intro hc
    obtain ⟨r, rfl⟩ := hs
    simp only [slotBytes, hc]
    rw [if_neg (by simp), List.append_assoc]
    refine ⟨_, rfl, ?_⟩
    intro hn
    have : r = [] := by
      apply List.eq_nil_of_length_eq_zero
      simp [slotBytes, hc, hn, le_length, slotSize] at hl
      omega
    simp [hn, this]
  cases k with
  | action =>
    obtain ⟨r, rfl, _⟩ := hnum (hk rfl)
    refine ⟨.action (rv.setWidth 32), ?_, fun _ => rfl, fun h => by simp at h⟩
    simp only [decodeRet]
    rw [if_pos (by omega), List.take_append_of_le_length (by rw [le_length]; omega), leVal_le4]
  | typed =>
    refine ⟨_, rfl, fun h => by simp at h, fun _ => ⟨_, _, _, rfl, ?_, ?_⟩⟩
    · intro hc
      have h64 : seg.length = 64 := by simp [hl, slotSize, hc, maxOutputStrLen]
      simp only [hc]
      rw [if_pos ⟨trivial, by simp [maxOutputStrLen, h64]⟩]
      rw [List.take_of_length_le (by simp [maxOutputStrLen, h64])]
      apply nulTerm_strBytes (n := 63)
      simpa [slotBytes, hc] using hs
    · intro hc
      obtain ⟨r, rfl, hr⟩ := hnum hc
      refine ⟨?_, ?_⟩
      · rw [padded_take (by omega) h8, List.take_append_of_le_length (by rw [le_length]; omega),
          List.take_of_length_le (by rw [le_length]; omega), leVal_le8]
      · intro hn
        obtain rfl := hr hn
        have hdt : ∀ l : List (BitVec 8), (l.drop 8).take 8 = (l.take 16).drop 8 := fun l => by rw [List.drop_take]
        rw [hdt, padded_take (by omega) (by simp [le_length])]
        rw [List.take_of_length_le (by simp [le_length]), List.drop_left' (le_length 8 rv), leVal_le8]

/-! ### C17 -/

theorem slotsOf_narrow : ∀ {ps : List PTy} {u : Bool} {fs : List PFlag}, slotsOf u ps = some fs →
    (∀ p ∈ ps, ∀ n, p.size = some n → n ≤ 8) →
    fs.length = ps.length ∧ (∀ f ∈ fs, f.part = false) ∧
    ∀ k p, ps[k]? = some p → ∃ f, fs[k]? = some f ∧ f.isNumPtr = p.numberPtr ∧
      (f.isStr = true ↔ u = false ∧ FirstStr ps k) := by
  intro ps
  induction ps with
  | nil => intro u fs h _; simp [slotsOf] at h; subst h; simp
  | cons p ps ih =>
    intro u fs h hn
    simp only [slotsOf] at h
    cases hs : p.size with
    | none => simp [hs] at h
    | some n =>
      have h8 := hn p List.mem_cons_self n hs
      simp only [hs] at h
      rw [if_neg (by omega), if_neg (by omega), Option.map_eq_some_iff] at h
      obtain ⟨fs', h', rfl⟩ := h
      obtain ⟨h1, h2, h3⟩ := ih h' (fun q hq => hn q (List.mem_cons_of_mem _ hq))
      refine ⟨by simp [h1], ?_, ?_⟩
      · intro f hf
        cases hf with
        | head => rfl
        | tail _ hf => exact h2 f hf
      · intro k q hk
        cases k with
        | zero =>
          obtain rfl : p = q := by simpa using hk
          refine ⟨_, rfl, rfl, ?_⟩
          simp [FirstStr]
          cases p.constCharPtr <;> cases u <;> simp
        | succ k =>
          obtain ⟨f, hf, hnp, hstr⟩ := h3 k q (by simpa using hk)
          refine ⟨f, by simpa using hf, hnp, hstr.trans ?_⟩
          simp only [FirstStr, List.getElem?_cons_succ, Bool.or_eq_false_iff]
          constructor
          · rintro ⟨⟨hu, hp⟩, hk1, hj⟩
            refine ⟨hu, hk1, fun j hjk => ?_⟩
            cases j with
            | zero => simp [hp]
            | succ j => simpa using hj j (by omega)
          · rintro ⟨hu, hk1, hj⟩
            refine ⟨⟨hu, by simpa using hj 0 (by omega)⟩, hk1, fun j hjk => ?_⟩
            simpa using hj (j + 1) (by omega)

/-- Words that a parameter of this size is passed in. -/
def regsOf (size : Nat) : Nat := if size ≤ 8 then 1 else 2

/-- **C17**, which functions are taken: those whose parameters all have a size, of at most 16 bytes; each parameter then takes one word,
or two if it is larger than eight bytes. -/
theorem params_taken_iff (ps : List PTy) (ret : PTy) (n : Nat) :
    (∃ fs fr, getFuncParams ps ret = some (fs, fr) ∧ fs.length = n) ↔
      ∃ sizes : List Nat, ps.map (·.size) = sizes.map some ∧ (∀ k ∈ sizes, k ≤ 16) ∧ n = (sizes.map regsOf).sum := by
  have key : ∀ (ps : List PTy) (u : Bool) (n : Nat), (∃ fs, slotsOf u ps = some fs ∧ fs.length = n) ↔
      ∃ sizes : List Nat, ps.map (·.size) = sizes.map some ∧ (∀ k ∈ sizes, k ≤ 16) ∧ n = (sizes.map regsOf).sum := by
    intro ps
    induction ps with
    | nil =>
      intro u n
      constructor
      · rintro ⟨fs, h, rfl⟩
        cases h
        exact ⟨[], rfl, by simp, rfl⟩
      · rintro ⟨sizes, h, _, rfl⟩
        have : sizes = [] := by simpa using h.symm
        subst this
        exact ⟨[], rfl, rfl⟩
    | cons p ps ih =>
      intro u n
      constructor
      · rintro ⟨fs, h, rfl⟩
        unfold slotsOf at h
        cases hs : p.size with
        | none => rw [hs] at h; cases h
        | some k =>
          rw [hs] at h
          dsimp only at h
          split at h
          · cases h
          · next hk =>
            split at h
            · next h8 =>
              obtain ⟨gs, hg, rfl⟩ := Option.map_eq_some_iff.mp h
              obtain ⟨sizes, h1, h2, h3⟩ := (ih _ gs.length).1 ⟨gs, hg, rfl⟩
              refine ⟨k :: sizes, by simp [hs, h1], ?_, ?_⟩
              · intro x hx
                rcases List.mem_cons.1 hx with rfl | hx
                · omega
                · exact h2 x hx
              · have : regsOf k = 2 := if_neg (by omega)
                simp [this, ← h3]; omega
            · next h8 =>
              obtain ⟨gs, hg, rfl⟩ := Option.map_eq_some_iff.mp h
              obtain ⟨sizes, h1, h2, h3⟩ := (ih _ gs.length).1 ⟨gs, hg, rfl⟩
              refine ⟨k :: sizes, by simp [hs, h1], ?_, ?_⟩
              · intro x hx
                rcases List.mem_cons.1 hx with rfl | hx
                · omega
                · exact h2 x hx
              · have : regsOf k = 1 := if_pos (by omega)
                simp [this, ← h3]; omega
      · rintro ⟨sizes, h, hk, rfl⟩
        cases sizes with
        | nil => simp at h
        | cons k sizes =>
          simp only [List.map_cons, List.cons.injEq] at h
          have hk16 := hk k (by simp)
          obtain ⟨gs, hg, hl⟩ := (ih (u || p.constCharPtr) _).2 ⟨sizes, h.2, fun x hx => hk x (by simp [hx]), rfl⟩
          unfold slotsOf
          rw [h.1]
          dsimp only
          rw [if_neg (by omega), hg]
          by_cases h8 : k > 8
          · rw [if_pos h8]
            refine ⟨_, rfl, ?_⟩
            have : regsOf k = 2 := if_neg (by omega)
            simp [hl, this]; omega
          · rw [if_neg h8]
            refine ⟨_, rfl, ?_⟩
            have : regsOf k = 1 := if_pos (by omega)
            simp [hl, this]; omega
  rw [← key ps false n]
  unfold getFuncParams
  constructor
  · rintro ⟨fs, fr, h, hl⟩
    obtain ⟨gs, hg, he⟩ := Option.map_eq_some_iff.mp h
    obtain rfl : gs = fs := congrArg Prod.fst he
    exact ⟨gs, hg, hl⟩
  · rintro ⟨fs, h, hl⟩
    exact ⟨fs, _, by rw [h]; rfl, hl⟩

example : ∃ fs fr, getFuncParams [⟨some 8, true, true⟩, ⟨some 16, false, false⟩, ⟨some 4, false, false⟩] ⟨some 4, false, false⟩ =
    some (fs, fr) ∧ fs.length = 4 := ⟨_, _, rfl, rfl⟩

theorem slotsSize_le (ps : List PFlag) : slotsSize ps ≤ 64 * ps.length := by
  induction ps with
  | nil => simp [slotsSize]
  | cons p ps ih =>
    have := slotSize_le p
    simp [slotsSize] at *; omega

/-- Running the generated subprogram: everything captured is in the buffer, nothing else is written. -/
theorem exec_inject {m : Mem} {fs : List PFlag} {fr : PFlag} {wr : Bool} {x : OSt} (hlen : fs.length ≤ 400) :
    ∃ s', execO m (injectOutputFuncArgs fs fr wr).1 x = .ret s' ∧
      Same x.out s'.out (x.st.regs 2) (injectOutputFuncArgs fs fr wr).2 ∧
      ∃ d r, reads s'.out (injectOutputFuncArgs fs fr wr).2 (x.st.regs 2) = d ++ r ∧
        Regions m (fun k => load m 8 (x.st.regs 1 + BitVec.ofNat 64 (k * 8))) 0 fs d ∧
        (wr = false → r = []) ∧
        (wr = true → r.length = slotSize fr ∧ slotBytes m fr (x.st.regs 3) <+: r) := by
  unfold injectOutputFuncArgs
  split
  · rename_i h
    have : fs = [] := List.eq_nil_of_length_eq_zero h.1
    subst this
    refine ⟨x, rfl, same_refl _ _ _, [], [], rfl, .nil, fun _ => rfl, ?_⟩
    simp [h.2]
  · have hsz := slotsSize_le fs
    let s0 : OSt := ⟨((x.st.set 6 (x.st.regs 1)).set 7 (x.st.regs 2)).set 8 (x.st.regs 3), x.out⟩
    have h0 : ∀ c, execO m ([.cc (.movReg 6 1), .cc (.movReg 7 2), .cc (.movReg 8 3)] ++ c) x = execO m c s0 := by
      intro c
      show execO m (.cc (.movReg 6 1) :: .cc (.movReg 7 2) :: .cc (.movReg 8 3) :: c) x = _
      rw [execO_seq (step_mov m 6 1 x), execO_seq (step_mov m 7 2 _), execO_seq (step_mov m 8 3 _)]
      rfl
    have hr0 : Regs s0.st (x.st.regs 1) (x.st.regs 2) (x.st.regs 3) (x.st.regs 10) :=
      ⟨rfl, rfl, rfl, rfl⟩
    obtain ⟨s1, h1, hr1, hs1, hg⟩ := exec_genSlots (m := m) (ps := fs) (i := 0) (off := 0) hr0 (by omega) (by omega)
    have hz : x.st.regs 2 + BitVec.ofNat 64 0 = x.st.regs 2 := by simp
    rw [hz] at hs1 hg
    have hsize : (genSlots 0 0 fs).2 = slotsSize fs := by rw [genSlots_size]; omega
    unfold genOutputFuncArgs
    cases wr with
    | false =>
      simp only [Bool.not_false, if_true, hsize]
      refine ⟨s1, ?_, hs1, _, [], (List.append_nil _).symm, hg, fun _ => rfl, by simp⟩
      rw [List.append_assoc, h0, execO_append_done h1, execO_ret]
    | true =>
      simp only [Bool.not_true, hsize]
      have hle := slotSize_le fr
      obtain ⟨s2, h2, hc⟩ := exec_genRet (m := m) (off := slotsSize fs) (p := fr) hr1 (by omega)
      refine ⟨s2, ?_, ?_, reads s2.out (slotsSize fs) (x.st.regs 2), _, reads_add _ _ _ _, ?_, by simp, ?_⟩
      · rw [if_neg (by simp), List.append_assoc, List.append_assoc, h0, execO_append_done h1, execO_append_done h2,
          execO_ret]
      · exact same_trans hs1 hc.same (by omega)
      · rw [same_reads hc.same (by omega)]; exact hg
      · intro _
        exact ⟨reads_length _ _ _, hc.pre⟩

/-- C17 for a program whose code stores the return value (`wr`), at an event with (`ex`) or without it, for functions whose parameters all fit into one register: run the generated subprogram on the
argument array at R1 with the return value in R3, hand the event bytes to the decoder: parameter `i` is shown
with its own name from its own register (first `const char *`: the string it points to; pointer to a number: also
the number), and so is the return value. Nothing outside the announced bytes of the event is written.
Missing: parameters passed in two registers (see the violated theorems below). -/
theorem fn_args_kept_partial {m : Mem} {ps : List PTy} {ret : PTy} {fs : List PFlag} {fr : PFlag} {wr ex : Bool}
    {k : RetKind} {x : OSt} (hwe : ex = true → wr = true) (hp : getFuncParams ps ret = some (fs, fr)) (hlen : ps.length ≤ 400)
    (hnarrow : ∀ p ∈ ps, ∀ n, p.size = some n → n ≤ 8) (hk : k = .action → ret.constCharPtr = false) :
    ∃ s' l r, execO m (injectOutputFuncArgs fs fr wr).1 x = .ret s' ∧
      Same x.out s'.out (x.st.regs 2) (injectOutputFuncArgs fs fr wr).2 ∧
      outputFnArgs ps.length fs k fr ex (reads s'.out (injectOutputFuncArgs fs fr wr).2 (x.st.regs 2)) = some (l, r) ∧
      l.length = ps.length ∧
      (∀ i p, ps[i]? = some p → ∃ sh isStr, l[i]? = some sh ∧ sh.idx = i ∧ (isStr = true ↔ FirstStr ps i) ∧
        Correct m isStr p.numberPtr (load m 8 (x.st.regs 1 + BitVec.ofNat 64 (i * 8))) sh) ∧
      (ex = false → r = none) ∧
      (ex = true → ∃ r', r = some r' ∧ RetCorrect m k ret (x.st.regs 3) r') := by
  unfold getFuncParams at hp
  rw [Option.map_eq_some_iff] at hp
  obtain ⟨fs', hf, he⟩ := hp
  obtain ⟨rfl, rfl⟩ := Prod.mk.inj he
  obtain ⟨h1, h2, h3⟩ := slotsOf_narrow hf hnarrow
  obtain ⟨s', hx, hs, d, rr, hd, hg, hr0, hr1⟩ := exec_inject (m := m) (fs := fs')
    (fr := ⟨ret.numberPtr, ret.constCharPtr, false⟩) (wr := wr) (x := x) (by omega)
  obtain ⟨l, e, hl, hall⟩ := decode_pre (nparams := ps.length) (post := []) (d2 := rr) (idx := 0) hg h2
    (by rw [h1]; omega)
  rw [List.append_nil] at e
  have e : decodeSlots ps.length 0 0 fs' (d ++ rr) = some (l, rr) := by rw [e]; simp [decodeSlots]
  have hshown : ∀ i p, ps[i]? = some p → ∃ sh isStr, l[i]? = some sh ∧ sh.idx = i ∧ (isStr = true ↔ FirstStr ps i) ∧
        Correct m isStr p.numberPtr (load m 8 (x.st.regs 1 + BitVec.ofNat 64 (i * 8))) sh := by
    intro i p hi
    obtain ⟨f, hfi, hfn, hfs⟩ := h3 i p hi
    obtain ⟨sh, hsh, hidx, hc⟩ := hall i f hfi
    refine ⟨sh, f.isStr, hsh, by omega, hfs.trans (by simp), ?_⟩
    rw [← hfn]
    simpa using hc
  cases ex with
  | false =>
    refine ⟨s', l, none, hx, hs, ?_, by omega, hshown, fun _ => rfl, by simp⟩
    unfold outputFnArgs
    rw [hd, e]
    rfl
  | true =>
    obtain ⟨hrl, hrp⟩ := hr1 (hwe rfl)
    obtain ⟨r', hr', hc⟩ := decodeRet_ok hrl hrp hk
    refine ⟨s', l, some r', hx, hs, ?_, by omega, hshown, by simp, fun _ => ⟨r', rfl, hc⟩⟩
    unfold outputFnArgs
    rw [hd, e]
    simp [hr']

/-- C17 for functions whose parameters all fit into one register: run the generated subprogram on the
argument array at R1 with the return value in R3, hand the event bytes to the decoder: parameter `i` is shown
with its own name from its own register (first `const char *`: the string it points to; pointer to a number: also
the number), and so is the return value. Nothing outside the announced bytes of the event is written.
Missing: parameters passed in two registers (see the violated theorems below). -/
theorem fn_args_roundtrip_partial {m : Mem} {ps : List PTy} {ret : PTy} {fs : List PFlag} {fr : PFlag} {wr : Bool}
    {k : RetKind} {x : OSt} (hp : getFuncParams ps ret = some (fs, fr)) (hlen : ps.length ≤ 400)
    (hnarrow : ∀ p ∈ ps, ∀ n, p.size = some n → n ≤ 8) (hk : k = .action → ret.constCharPtr = false) :
    ∃ s' l r, execO m (injectOutputFuncArgs fs fr wr).1 x = .ret s' ∧
      Same x.out s'.out (x.st.regs 2) (injectOutputFuncArgs fs fr wr).2 ∧
      outputFnArgs ps.length fs k fr wr (reads s'.out (injectOutputFuncArgs fs fr wr).2 (x.st.regs 2)) = some (l, r) ∧
      l.length = ps.length ∧
      (∀ i p, ps[i]? = some p → ∃ sh isStr, l[i]? = some sh ∧ sh.idx = i ∧ (isStr = true ↔ FirstStr ps i) ∧
        Correct m isStr p.numberPtr (load m 8 (x.st.regs 1 + BitVec.ofNat 64 (i * 8))) sh) ∧
      (wr = false → r = none) ∧
      (wr = true → ∃ r', r = some r' ∧ RetCorrect m k ret (x.st.regs 3) r') :=
  fn_args_kept_partial id hp hlen hnarrow hk

/-! ### Parameters in two registers -/

theorem slotsOf_append {a b : List PTy} : ∀ {u : Bool} {fs : List PFlag}, slotsOf u (a ++ b) = some fs →
    ∃ f1 f2 u', fs = f1 ++ f2 ∧ slotsOf u a = some f1 ∧ slotsOf u' b = some f2 := by
  induction a with
  | nil => intro u fs h; exact ⟨[], fs, u, rfl, rfl, h⟩
  | cons p a ih =>
    intro u fs h
    simp only [List.cons_append, slotsOf] at h ⊢
    cases hs : p.size with
    | none => simp [hs] at h
    | some n =>
      simp only [hs] at h ⊢
      split at h
      · simp at h
      · rename_i h16
        rw [if_neg h16]
        split at h
        · rename_i h8
          rw [Option.map_eq_some_iff] at h
          obtain ⟨fs', h', rfl⟩ := h
          obtain ⟨f1, f2, u', rfl, e1, e2⟩ := ih h'
          rw [if_pos h8]
          exact ⟨_, f2, u', rfl, by rw [e1]; rfl, e2⟩
        · rename_i h8
          rw [Option.map_eq_some_iff] at h
          obtain ⟨fs', h', rfl⟩ := h
          obtain ⟨f1, f2, u', rfl, e1, e2⟩ := ih h'
          rw [if_neg h8]
          exact ⟨_, f2, u', rfl, by rw [e1]; rfl, e2⟩

theorem get_mid {α : Type} {l1 l2 : List α} {a : α} {n : Nat} (h : l1.length = n) : (l1 ++ a :: l2)[n]? = some a := by
  rw [List.getElem?_append_right (by omega), show n - l1.length = 0 by omega]
  rfl

/-- A captured plain word. -/
theorem regions_word {m : Mem} {vals : Nat → BitVec 64} {i : Nat} {b : Bool} {ps : List PFlag} {d : List (BitVec 8)}
    (h : Regions m vals i (⟨false, false, b⟩ :: ps) d) :
    ∃ d', d = le 8 (vals i) ++ d' ∧ Regions m vals (i + 1) ps d' := by
  cases h with
  | @cons _ _ _ seg data hl hs hr =>
    refine ⟨data, ?_, hr⟩
    obtain ⟨r, rfl⟩ := hs
    have : r = [] := by
      apply List.eq_nil_of_length_eq_zero
      simp [slotBytes, le_length, slotSize] at hl
      simp [hl]
    subst this
    simp [slotBytes]

/-- The first parameter passed in two registers, if more parameters follow: it and all parameters before it are shown
correctly. -/
theorem fn_args_upto_wide_partial {m : Mem} {pre post : List PTy} {w ret : PTy} {fs : List PFlag} {fr : PFlag}
    {wr : Bool} {x : OSt} {n : Nat} (hp : getFuncParams (pre ++ w :: post) ret = some (fs, fr)) (hlen : fs.length ≤ 400)
    (hnarrow : ∀ p ∈ pre, ∀ n, p.size = some n → n ≤ 8) (hw : w.size = some n) (hw8 : 8 < n) (hpost : post ≠ []) :
    ∃ s' d, execO m (injectOutputFuncArgs fs fr wr).1 x = .ret s' ∧
      reads s'.out (injectOutputFuncArgs fs fr wr).2 (x.st.regs 2) = d ∧
      ∀ l rest, decodeSlots (pre ++ w :: post).length 0 0 fs d = some (l, rest) →
        (∀ i p, pre[i]? = some p → ∃ sh isStr, l[i]? = some sh ∧ sh.idx = i ∧ (isStr = true ↔ FirstStr pre i) ∧
          Correct m isStr p.numberPtr (load m 8 (x.st.regs 1 + BitVec.ofNat 64 (i * 8))) sh) ∧
        ∃ sh, l[pre.length]? = some sh ∧ sh.idx = pre.length ∧ sh.isStr = false ∧ sh.isPtr = false ∧
          sh.arg = load m 8 (x.st.regs 1 + BitVec.ofNat 64 (pre.length * 8)) ∧
          sh.next = load m 8 (x.st.regs 1 + BitVec.ofNat 64 ((pre.length + 1) * 8)) := by
  unfold getFuncParams at hp
  rw [Option.map_eq_some_iff] at hp
  obtain ⟨fs', hf, he⟩ := hp
  obtain ⟨rfl, rfl⟩ := Prod.mk.inj he
  obtain ⟨f1, f2, u', rfl, e1, e2⟩ := slotsOf_append hf
  obtain ⟨h1, h2, h3⟩ := slotsOf_narrow e1 hnarrow
  have e3 : ∃ f3, f2 = ⟨false, false, false⟩ :: ⟨false, false, true⟩ :: f3 := by
    simp only [slotsOf, hw] at e2
    split at e2
    · simp at e2
    · rw [Option.map_eq_some_iff] at e2
      obtain ⟨f3, _, rfl⟩ := e2
      exact ⟨f3, rfl⟩
  obtain ⟨f3, rfl⟩ := e3
  obtain ⟨s', hx, hs, d, rr, hd, hg, -, -⟩ := exec_inject (m := m)
    (fs := f1 ++ ⟨false, false, false⟩ :: ⟨false, false, true⟩ :: f3)
    (fr := ⟨ret.numberPtr, ret.constCharPtr, false⟩) (wr := wr) (x := x) hlen
  refine ⟨s', _, hx, rfl, ?_⟩
  rw [hd]
  obtain ⟨d1, d2, rfl, g1, g2⟩ := regions_split hg
  obtain ⟨d3, rfl, g3⟩ := regions_word g2
  obtain ⟨d4, rfl, g4⟩ := regions_word g3
  have hn : pre.length + 1 < (pre ++ w :: post).length := by
    cases post with
    | nil => exact absurd rfl hpost
    | cons q qs => simp
  obtain ⟨l1, e, hl1, hall⟩ := decode_pre (nparams := (pre ++ w :: post).length)
    (post := ⟨false, false, false⟩ :: ⟨false, false, true⟩ :: f3)
    (d2 := le 8 (load m 8 (x.st.regs 1 + BitVec.ofNat 64 ((0 + f1.length) * 8))) ++
      (le 8 (load m 8 (x.st.regs 1 + BitVec.ofNat 64 ((0 + f1.length + 1) * 8))) ++ d4) ++ rr) (idx := 0) g1 h2
    (by simp [le_length])
  intro l rest hdec
  rw [List.append_assoc, e] at hdec
  simp only [Nat.zero_add] at hdec
  rw [Option.map_eq_some_iff] at hdec
  obtain ⟨⟨l2, rest'⟩, hdec, heq⟩ := hdec
  obtain ⟨rfl, rfl⟩ := Prod.mk.inj heq
  refine ⟨?_, ?_⟩
  · intro i p hi
    obtain ⟨f, hfi, hfn, hfs⟩ := h3 i p hi
    obtain ⟨sh, hsh, hidx, hc⟩ := hall i f hfi
    refine ⟨sh, f.isStr, ?_, by omega, hfs.trans (by simp), ?_⟩
    · show (l1 ++ l2)[i]? = _
      rw [List.getElem?_append_left, hsh]
      rw [List.getElem?_eq_some_iff] at hsh; exact hsh.1
    rw [← hfn]
    simpa using hc
  · rw [decodeSlots, if_neg (by simp)] at hdec
    have hr : readSlot ⟨false, false, false⟩ (le 8 (load m 8 (x.st.regs 1 + BitVec.ofNat 64 (f1.length * 8))) ++
        (le 8 (load m 8 (x.st.regs 1 + BitVec.ofNat 64 ((f1.length + 1) * 8))) ++ d4) ++ rr) =
        some (load m 8 (x.st.regs 1 + BitVec.ofNat 64 (f1.length * 8)), 0, [],
          le 8 (load m 8 (x.st.regs 1 + BitVec.ofNat 64 ((f1.length + 1) * 8))) ++ (d4 ++ rr)) := by
      simp only [readSlot, List.append_assoc, getU64_le]
      rw [if_neg (by simp), if_neg (by simp), List.drop_left' (le_length 8 _)]
    rw [hr] at hdec
    simp only [getU64_le] at hdec
    rw [if_pos (by omega)] at hdec
    simp only at hdec
    split at hdec
    · simp at hdec
    · obtain ⟨rfl, rfl⟩ := Prod.mk.inj (Option.some.inj hdec)
      refine ⟨_, get_mid (by omega), ?_, rfl, rfl, ?_, ?_⟩
      · simp only [Nat.zero_add]; exact h1
      · simp only; rw [h1]
      · simp only; rw [h1]

/-- C17 violated: for `f(struct s16 a, long b)` the value shown for `b` is the upper half of `a`, whatever was in
the register of `b` (the slot of the upper half is skipped without consuming its bytes). -/
theorem after_wide_violated (m : Mem) (x : OSt) :
    ∃ fs fr s' sh0 sh1, getFuncParams [⟨some 16, false, false⟩, ⟨some 8, false, false⟩] ⟨some 0, false, false⟩ = some (fs, fr) ∧
      execO m (injectOutputFuncArgs fs fr false).1 x = .ret s' ∧
      outputFnArgs 2 fs .typed fr false (reads s'.out (injectOutputFuncArgs fs fr false).2 (x.st.regs 2)) =
        some ([sh0, sh1], none) ∧
      sh1.idx = 1 ∧ sh1.arg = load m 8 (x.st.regs 1 + BitVec.ofNat 64 8) := by
  refine ⟨[⟨false, false, false⟩, ⟨false, false, true⟩, ⟨false, false, false⟩], ⟨false, false, false⟩, ?_⟩
  obtain ⟨s', hx, -, d, rr, hd, hg, hr0, -⟩ := exec_inject (m := m)
    (fs := [⟨false, false, false⟩, ⟨false, false, true⟩, ⟨false, false, false⟩])
    (fr := ⟨false, false, false⟩) (wr := false) (x := x) (by decide)
  obtain rfl := hr0 rfl
  obtain ⟨d1, rfl, hg1⟩ := regions_word hg
  obtain ⟨d2, rfl, hg2⟩ := regions_word hg1
  obtain ⟨d3, rfl, hg3⟩ := regions_word hg2
  cases hg3
  refine ⟨s', ?_⟩
  rw [hd, hx]
  simp only [List.append_nil]
  simp only [outputFnArgs, decodeSlots, readSlot, getU64_le, List.drop_left' (le_length 8 _), Bool.false_eq_true, if_false,
    if_true, Nat.zero_add, Nat.reduceAdd, Nat.reduceLT]
  exact ⟨_, _, by decide, trivial, rfl, rfl, rfl⟩

/-- C17 violated: the upper half of a last parameter passed in two registers is shown as 0. -/
theorem wide_last_violated (m : Mem) (x : OSt) :
    ∃ fs fr s' sh, getFuncParams [⟨some 16, false, false⟩] ⟨some 0, false, false⟩ = some (fs, fr) ∧
      execO m (injectOutputFuncArgs fs fr false).1 x = .ret s' ∧
      outputFnArgs 1 fs .typed fr false (reads s'.out (injectOutputFuncArgs fs fr false).2 (x.st.regs 2)) =
        some ([sh], none) ∧ sh.next = 0 := by
  refine ⟨[⟨false, false, false⟩, ⟨false, false, true⟩], ⟨false, false, false⟩, ?_⟩
  obtain ⟨s', hx, -, d, rr, hd, hg, hr0, -⟩ := exec_inject (m := m)
    (fs := [⟨false, false, false⟩, ⟨false, false, true⟩])
    (fr := ⟨false, false, false⟩) (wr := false) (x := x) (by decide)
  obtain rfl := hr0 rfl
  obtain ⟨d1, rfl, hg1⟩ := regions_word hg
  obtain ⟨d2, rfl, hg2⟩ := regions_word hg1
  cases hg2
  refine ⟨s', ?_⟩
  rw [hd, hx]
  simp only [List.append_nil]
  simp only [outputFnArgs, decodeSlots, readSlot, getU64_le, List.drop_left' (le_length 8 _), Bool.false_eq_true, if_false,
    if_true, Nat.zero_add, Nat.reduceAdd, Nat.reduceLT]
  exact ⟨_, by decide, trivial, rfl, rfl⟩

/-- C17 violated: the return value of `f(struct s16 a)` is shown as the upper half of `a`. -/
theorem ret_after_wide_violated (m : Mem) (x : OSt) :
    ∃ fs fr s' sh n2, getFuncParams [⟨some 16, false, false⟩] ⟨some 8, false, false⟩ = some (fs, fr) ∧
      execO m (injectOutputFuncArgs fs fr true).1 x = .ret s' ∧
      outputFnArgs 1 fs .typed fr true (reads s'.out (injectOutputFuncArgs fs fr true).2 (x.st.regs 2)) =
        some ([sh], some (.typed false false (load m 8 (x.st.regs 1 + BitVec.ofNat 64 8)) n2 [])) := by
  refine ⟨[⟨false, false, false⟩, ⟨false, false, true⟩], ⟨false, false, false⟩, ?_⟩
  obtain ⟨s', hx, -, d, rr, hd, hg, -, -⟩ := exec_inject (m := m)
    (fs := [⟨false, false, false⟩, ⟨false, false, true⟩])
    (fr := ⟨false, false, false⟩) (wr := true) (x := x) (by decide)
  obtain ⟨d1, rfl, hg1⟩ := regions_word hg
  obtain ⟨d2, rfl, hg2⟩ := regions_word hg1
  cases hg2
  refine ⟨s', ?_⟩
  rw [hd, hx]
  simp only [List.append_nil]
  simp only [outputFnArgs, decodeSlots, readSlot, getU64_le, List.append_assoc, List.drop_left' (le_length 8 _),
    Bool.false_eq_true, if_false, if_true, Nat.zero_add, Nat.reduceAdd, decodeRet, false_and, Nat.lt_irrefl,
    Option.map_some]
  rw [padded_take (by omega) (by simp [le_length]), List.take_append_of_le_length (by rw [le_length]; omega),
    List.take_of_length_le (by rw [le_length]; omega), leVal_le8]
  exact ⟨_, _, by decide, trivial, rfl⟩

/-- The wrong slot does hold something else. -/
theorem wide_slots_differ : ∃ (m : Mem) (a : BitVec 64),
    load m 8 (a + BitVec.ofNat 64 8) ≠ load m 8 (a + BitVec.ofNat 64 16) ∧ load m 8 (a + BitVec.ofNat 64 8) ≠ 0 :=
  ⟨fun a => some (a.setWidth 8), 0, by decide, by decide⟩

/-! ### kprobe.multi -/

theorem exec_kmulti {m : Mem} {args buff : BitVec 64} : ∀ {n j : Nat} {x : OSt},
    x.st.regs 1 = args → x.st.regs 2 = buff → (j + n) * 8 ≤ 2 ^ 15 →
    ∃ s', execO m (kmultiSlots (j * 8) n) x = .done s' ∧ s'.st.regs 1 = args ∧ s'.st.regs 2 = buff ∧
      s'.st.regs 3 = x.st.regs 3 ∧ Same x.out s'.out (buff + BitVec.ofNat 64 (j * 8)) (n * 8) ∧
      ∀ k, k < n → reads s'.out 8 (buff + BitVec.ofNat 64 ((j + k) * 8)) =
        le 8 (load m 8 (args + BitVec.ofNat 64 ((j + k) * 8))) := by
  intro n
  induction n with
  | zero => intro j x h1 h2 _; exact ⟨x, rfl, h1, h2, rfl, same_refl _ _ _, by intro k hk; omega⟩
  | succ n ih =>
    intro j x h1 h2 hb
    have e : kmultiSlots (j * 8) (n + 1) = [.cc (.ldx 0 1 (BitVec.ofNat 64 (j * 8)) 8),
        .stx 2 (BitVec.ofNat 64 (j * 8)) 0 8] ++ kmultiSlots ((j + 1) * 8) n := by
      simp [kmultiSlots, Nat.add_mul]
    let x1 : OSt := ⟨x.st.set 0 (load m 8 (args + BitVec.ofNat 64 (j * 8))),
      wr x.out (buff + BitVec.ofNat 64 (j * 8)) (le 8 (load m 8 (args + BitVec.ofNat 64 (j * 8))))⟩
    have hx1 : execO m [.cc (.ldx 0 1 (BitVec.ofNat 64 (j * 8)) 8), .stx 2 (BitVec.ofNat 64 (j * 8)) 0 8] x = .done x1 := by
      rw [execO_seq (step_ldx m 0 1 8 (by omega) x), execO_seq (step_stx m 2 0 8 (by omega) _), execO_nil]
      simp only [set_same, set_ne _ _ (show 2 ≠ 0 by decide), h1, h2]
      rfl
    obtain ⟨s', hs, a1, a2, a3, hsame, hall⟩ := ih (j := j + 1) (x := x1) (by simp [x1, St.set, h1]) (by simp [x1, St.set, h2])
      (by omega)
    have hj : (j + 1) * 8 = j * 8 + 8 := by omega
    rw [hj, add_off] at hsame
    refine ⟨s', by rw [e, execO_append_done hx1, hs], a1, a2, by rw [a3]; simp [x1, St.set], ?_, ?_⟩
    · rw [show (n + 1) * 8 = 8 + n * 8 by omega]
      exact same_trans (same_wr (by rw [le_length]; omega)) hsame (by omega)
    · intro k hk
      cases k with
      | zero =>
        rw [Nat.add_zero, same_reads hsame (by omega)]
        simp only [x1]
        rw [reads_wr (by rw [le_length]; omega) (by omega), List.drop_eq_nil_of_le (by rw [reads_length, le_length]; omega),
          List.append_nil]
      | succ k =>
        have := hall k (by omega)
        rw [show j + 1 + k = j + (k + 1) by omega] at this
        exact this

theorem same_reads_lt {b b' : Buf} {a : BitVec 64} {N K j c : Nat} (h : Same b b' (a + BitVec.ofNat 64 N) K)
    (hj : j + c ≤ N) (hN : N + K < 2 ^ 64) :
    reads b' c (a + BitVec.ofNat 64 j) = reads b c (a + BitVec.ofNat 64 j) := by
  apply reads_congr
  intro i hi
  apply h
  rw [← add_off, off_sub, BitVec.add_comm, BitVec.add_sub_cancel, BitVec.toNat_sub, BitVec.toNat_ofNat, BitVec.toNat_ofNat,
    Nat.mod_eq_of_lt (show j + i < 2 ^ 64 by omega), Nat.mod_eq_of_lt (show N < 2 ^ 64 by omega)]
  omega

theorem drop_reads (b : Buf) (n k : Nat) (a : BitVec 64) : (reads b (n + k) a).drop n = reads b k (a + BitVec.ofNat 64 n) := by
  rw [reads_add, List.drop_left' (reads_length _ _ _)]

theorem take_reads (b : Buf) (n k : Nat) (a : BitVec 64) : (reads b (n + k) a).take n = reads b n a := by
  rw [reads_add, List.take_left' (reads_length _ _ _)]

/-- C17 for kprobe.multi: parameter `i` is shown with the `i`-th raw argument word, and the word after it (for parameters of two
words) if there is one, parameters beyond the raw words are
replaced by "...", and the return value is the captured one. Missing: as for other probes, parameters passed in two
registers shift the later ones (`kmulti_wide_violated`). -/
theorem kmulti_roundtrip_partial {m : Mem} {n nparams : Nat} {wr : Bool} {x : OSt} (hn : n ≤ 400) :
    ∃ s', execO m (genKmulti n wr).1 x = .ret s' ∧ Same x.out s'.out (x.st.regs 2) (genKmulti n wr).2 ∧
      (outputKmulti n nparams (reads s'.out (genKmulti n wr).2 (x.st.regs 2))).1.length = min nparams n ∧
      (∀ i, i < nparams → i < n →
        (outputKmulti n nparams (reads s'.out (genKmulti n wr).2 (x.st.regs 2))).1[i]? =
          some (load m 8 (x.st.regs 1 + BitVec.ofNat 64 (i * 8)),
            if i + 1 < n then load m 8 (x.st.regs 1 + BitVec.ofNat 64 ((i + 1) * 8)) else 0)) ∧
      ((outputKmulti n nparams (reads s'.out (genKmulti n wr).2 (x.st.regs 2))).2 = true ↔ n < nparams) ∧
      kmultiRet n wr (reads s'.out (genKmulti n wr).2 (x.st.regs 2)) = if wr then some (x.st.regs 3) else none := by
  obtain ⟨s1, h1, r1, r2, r3, hs, hall⟩ := exec_kmulti (m := m) (n := n) (j := 0) (x := x) rfl rfl (by omega)
  simp only [Nat.zero_mul, Nat.zero_add, BitVec.ofNat_eq_ofNat, BitVec.add_zero] at hs hall h1
  have hshow : ∀ (out : Buf) (sz : Nat), n * 8 ≤ sz → (∀ k, k < n → reads out 8 (x.st.regs 2 + BitVec.ofNat 64 (k * 8)) =
      le 8 (load m 8 (x.st.regs 1 + BitVec.ofNat 64 (k * 8)))) → ∀ i, i < nparams → i < n →
        (outputKmulti n nparams (reads out sz (x.st.regs 2))).1[i]? =
          some (load m 8 (x.st.regs 1 + BitVec.ofNat 64 (i * 8)),
            if i + 1 < n then load m 8 (x.st.regs 1 + BitVec.ofNat 64 ((i + 1) * 8)) else 0) := by
    intro out sz hsz hr i hi hin
    have hrange : ((List.range (min nparams n)).map (kmultiShow n (reads out sz (x.st.regs 2))))[i]? =
        some (kmultiShow n (reads out sz (x.st.regs 2)) i) := by
      rw [List.getElem?_map, List.getElem?_range (by omega)]; rfl
    refine hrange.trans ?_
    congr 1
    refine Prod.ext ?_ ?_
    · simp only [kmultiShow]
      rw [if_pos ⟨hin, by rw [reads_length]; omega⟩, show sz = i * 8 + (8 + (sz - i * 8 - 8)) by omega, drop_reads, take_reads,
        hr i hin, leVal_le8]
    · simp only [kmultiShow]
      by_cases hi1 : i + 1 < n
      · rw [if_pos ⟨hi1, by rw [reads_length]; omega⟩, if_pos hi1, show sz = (i + 1) * 8 + (8 + (sz - (i + 1) * 8 - 8)) by omega,
          drop_reads, take_reads, hr (i + 1) hi1, leVal_le8]
      · rw [if_neg (fun h => hi1 h.1), if_neg hi1]
  cases wr with
  | false =>
    refine ⟨s1, ?_, hs, by simp [outputKmulti], ?_, by simp [outputKmulti], by simp [kmultiRet]⟩
    · show execO m (kmultiSlots 0 n ++ [.cc .ret]) x = _
      rw [execO_append_done h1, execO_ret]
    · exact hshow s1.out _ (Nat.le_refl _) hall
  | true =>
    let s2 : OSt := ⟨s1.st, Arg.wr s1.out (x.st.regs 2 + BitVec.ofNat 64 (n * 8)) (le 8 (x.st.regs 3))⟩
    have hs2 : Same s1.out s2.out (x.st.regs 2 + BitVec.ofNat 64 (n * 8)) 8 := same_wr (by rw [le_length]; omega)
    refine ⟨s2, ?_, same_trans hs hs2 (by omega), by simp [outputKmulti], ?_, by simp [outputKmulti], ?_⟩
    · show execO m (kmultiSlots 0 n ++ [.stx 2 (BitVec.ofNat 64 (n * 8)) 3 8, .cc .ret]) x = _
      rw [execO_append_done h1, execO_seq (step_stx m 2 3 8 (by omega) _), r2, r3, execO_ret]
    · apply hshow s2.out
      · show n * 8 ≤ n * 8 + 8; omega
      · intro k hk
        rw [← hall k hk]
        exact same_reads_lt hs2 (by omega) (by omega)
    · show kmultiRet n true (reads s2.out (n * 8 + 8) (x.st.regs 2)) = _
      simp only [kmultiRet]
      rw [if_neg (by rw [reads_length]; simp; omega), drop_reads, List.take_of_length_le (by rw [reads_length]; omega)]
      simp only [s2]
      rw [reads_wr (by rw [le_length]; omega) (by omega), List.drop_eq_nil_of_le (by rw [reads_length, le_length]; omega),
        List.append_nil, leVal_le8]
      simp

/-- C17 violated for kprobe.multi: for `f(struct s16 a, long b)` the word shown for `b` is the upper half of `a`. -/
theorem kmulti_wide_violated (m : Mem) (x : OSt) :
    ∃ s' next0 next1, execO m (genKmulti 6 false).1 x = .ret s' ∧
      (outputKmulti 6 2 (reads s'.out (genKmulti 6 false).2 (x.st.regs 2))).1 =
        [(load m 8 (x.st.regs 1), next0), (load m 8 (x.st.regs 1 + BitVec.ofNat 64 8), next1)] := by
  obtain ⟨s', h1, -, hl, hall, -, -⟩ := kmulti_roundtrip_partial (m := m) (n := 6) (nparams := 2) (wr := false) (x := x) (by decide)
  have h0 := hall 0 (by decide) (by decide)
  have h1' := hall 1 (by decide) (by decide)
  refine ⟨s', load m 8 (x.st.regs 1 + 8#64), load m 8 (x.st.regs 1 + 16#64), h1, ?_⟩
  generalize (outputKmulti 6 2 (reads s'.out (genKmulti 6 false).2 (x.st.regs 2))).1 = l at *
  match l, hl with
  | [a, b], _ =>
    simp at h0 h1'
    rw [h0, h1']

/-! ### Witness: `int f(const char *name, int *p, const char *alias, long n)` -/

theorem fn_args_witness (m : Mem) (x : OSt) :
    ∃ fs fr s' l r, getFuncParams [⟨some 8, true, true⟩, ⟨some 8, false, true⟩, ⟨some 8, true, true⟩, ⟨some 8, false, false⟩]
        ⟨some 4, false, false⟩ = some (fs, fr) ∧
      execO m (injectOutputFuncArgs fs fr true).1 x = .ret s' ∧ (injectOutputFuncArgs fs fr true).2 = 112 ∧
      outputFnArgs 4 fs .typed fr true (reads s'.out (injectOutputFuncArgs fs fr true).2 (x.st.regs 2)) = some (l, some r) ∧
      (∃ sh, l[0]? = some sh ∧ sh.isStr = true ∧ StrShown m 64 (load m 8 (x.st.regs 1)) sh.str) ∧
      (∃ sh, l[2]? = some sh ∧ sh.isStr = false ∧ sh.arg = load m 8 (x.st.regs 1 + BitVec.ofNat 64 16) ∧
        sh.val = load m 8 (load m 8 (x.st.regs 1 + BitVec.ofNat 64 16))) := by
  refine ⟨[⟨true, true, false⟩, ⟨true, false, false⟩, ⟨true, false, false⟩, ⟨false, false, false⟩], ⟨false, false, false⟩, ?_⟩
  obtain ⟨s', l, r, h1, -, h3, -, h5, -, h7⟩ := fn_args_roundtrip_partial (m := m) (x := x) (k := .typed) (wr := true)
    (ps := [⟨some 8, true, true⟩, ⟨some 8, false, true⟩, ⟨some 8, true, true⟩, ⟨some 8, false, false⟩])
    (ret := ⟨some 4, false, false⟩)
    (fs := [⟨true, true, false⟩, ⟨true, false, false⟩, ⟨true, false, false⟩, ⟨false, false, false⟩])
    (fr := ⟨false, false, false⟩) (by decide) (by decide) (by simp) (by simp)
  obtain ⟨r', rfl, -⟩ := h7 rfl
  refine ⟨s', l, r', by decide, h1, by decide, h3, ?_, ?_⟩
  · obtain ⟨sh, b, e, -, hb, hc⟩ := h5 0 _ rfl
    have hb : b = true := hb.mpr ⟨rfl, by omega⟩
    subst hb
    refine ⟨sh, e, hc.1, ?_⟩
    have := hc.2.2.1 rfl
    simpa using this
  · obtain ⟨sh, b, e, -, hb, hc⟩ := h5 2 _ rfl
    have hb : b = false := by
      cases b with
      | false => rfl
      | true => have := (hb.mp rfl).2 0 (by omega); simp at this
    subst hb
    exact ⟨sh, e, hc.1, (hc.2.2.2 rfl).1, (hc.2.2.2 rfl).2 rfl⟩

end Bpfsnoop.Arg
