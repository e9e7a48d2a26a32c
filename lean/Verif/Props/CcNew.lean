import Verif.Model.CcNew
import Verif.Props.CcStack
import Verif.Props.CcViolate
/-
C96: compiled expressions stay within their part of the stack.

What is promised to a caller who reserves `ReservedStack` bytes: compiled code uses the word at the top of the stack, into which helpers read,
and at most six words below what is reserved; whatever else is on the stack, and the frame pointer, are as before.
-/
namespace Bpfsnoop.Cc.Stk
open Bpfsnoop.Cc Bpfsnoop.Cc.New

/-! ### Specification -/

/-- The place on the stack, counted from R10, that an instruction reads or writes. -/
def place : Insn → Option Int
  | .ldStack _ off => some off
  | .stStack off _ => some off
  | _ => none

/-- The register an instruction writes; calls are not counted. -/
def target : Insn → Option Nat
  | .movImm d _ | .movReg d _ | .aluImm _ d _ | .aluReg _ d _ | .neg d | .ldx d _ _ _ | .ldStack d _ => some d
  | _ => none

/-- How a run ends, with the state it ends in. -/
def endsIn : Out → St → Prop
  | .done st, st' => st = st'
  | .exit st, st' => st = st'
  | .ret st, st' => st = st'
  | .stuck, _ => False

/-! ### The number of bytes reserved -/

theorem mask_shift (x : BitVec 64) : x &&& (-8 : BitVec 64) = (x >>> 3) <<< 3 := by
  have h : ∀ i : Fin 64, (-8 : BitVec 64)[i.val] = decide (3 ≤ i.val) := by decide
  ext i hi
  have := h ⟨i, hi⟩
  simp only at this
  rw [BitVec.getElem_and, this, BitVec.getElem_shiftLeft]
  by_cases h3 : i < 3
  · simp [h3, show ¬ 3 ≤ i by omega]
  · simp only [h3, show 3 ≤ i by omega, decide_true, Bool.and_true, decide_false, Bool.not_false, Bool.true_and]
    rw [BitVec.getElem_ushiftRight, BitVec.getLsbD_eq_getElem (by omega)]
    congr 1
    omega

theorem mask_eight (x : BitVec 64) : (x &&& (-8 : BitVec 64)).toNat = x.toNat / 8 * 8 := by
  rw [mask_shift, BitVec.toNat_shiftLeft, BitVec.toNat_ushiftRight, Nat.shiftLeft_eq, Nat.shiftRight_eq_div_pow]
  have := x.isLt
  omega

/-- For every number of bytes asked for, up to the largest the type can hold but seven: at least as many are reserved, fewer than eight more, a multiple of
eight; and eight if none or a negative number is asked for. -/
theorem reserved_rounds (r : BitVec 64) (h : r.toInt < 2 ^ 63 - 7) :
    (r.toInt ≤ 0 → (round r).toNat = 8) ∧
    (0 < r.toInt → 8 ∣ (round r).toNat ∧ r.toInt ≤ (round r).toNat ∧ ((round r).toNat : Int) < r.toInt + 8) ∧
    8 ≤ (round r).toNat ∧ 8 ∣ (round r).toNat := by
  have key : 0 < r.toInt → (round r).toNat = (r.toNat + 7) / 8 * 8 ∧ r.toInt = r.toNat := by
    intro hp
    have h1 : r.toInt = r.toNat := by
      have := BitVec.toInt_eq_toNat_cond r
      have := r.isLt
      split at * <;> omega
    refine ⟨?_, h1⟩
    unfold round
    rw [if_neg]
    · rw [mask_eight, BitVec.toNat_add, Nat.mod_eq_of_lt]
      · rfl
      · show r.toNat + 7 < 2 ^ 64
        omega
    · simp only [BitVec.sle, decide_eq_true_eq]
      show ¬ r.toInt ≤ 0
      omega
  have none : r.toInt ≤ 0 → (round r).toNat = 8 := by
    intro hz
    unfold round
    rw [if_pos]
    · rfl
    · simp only [BitVec.sle, decide_eq_true_eq]
      exact hz
  refine ⟨none, fun hp => ?_, ?_⟩
  · obtain ⟨h1, h2⟩ := key hp
    rw [h1]
    refine ⟨⟨_, Nat.mul_comm _ _⟩, ?_, ?_⟩ <;> omega
  · by_cases hz : r.toInt ≤ 0
    · rw [none hz]; exact ⟨Nat.le_refl _, ⟨1, rfl⟩⟩
    · obtain ⟨h1, h2⟩ := key (by omega)
      rw [h1]
      exact ⟨by omega, ⟨_, Nat.mul_comm _ _⟩⟩

/-- With the largest numbers the reservation is negative: nearly 2^64. -/
theorem reserved_wraps_violated : (round (BitVec.ofNat 64 (2 ^ 63 - 1))).toInt = -2 ^ 63 := by decide

/-- When a compiler is made, and of what: there must be an expression, a label and both specs; a kernel without the kfunc is fine, any other
trouble with it is not; calls of it save two registers fewer exactly if the kernel tags it. -/
theorem made_iff (q : Req) (c : Made) : newCompiler q = .ok c ↔
    q.expr ≠ "" ∧ q.label ≠ "" ∧ q.spec = true ∧ q.kernel = true ∧ c.reserved = round q.reserved ∧
    ((q.cast = .missing ∧ c.castId = 0 ∧ c.fastcall = false) ∨
     ∃ id tags, q.cast = .func id tags ∧ c.castId = id ∧ (c.fastcall = true ↔ "bpf_fastcall" ∈ tags)) := by
  obtain ⟨e, l, s, k, r, ca⟩ := q
  obtain ⟨cr, ci, cf⟩ := c
  simp only [newCompiler]
  by_cases h1 : e = ""
  · simp [h1]
  by_cases h2 : l = ""
  · simp [h2]
  cases s <;> cases k <;> simp [h1, h2]
  cases ca with
  | func id tags =>
    simp only [Except.ok.injEq, Made.mk.injEq, reduceCtorEq, false_and, false_or, Cast.func.injEq]
    constructor
    · rintro ⟨rfl, rfl, rfl⟩
      exact ⟨rfl, _, _, ⟨rfl, rfl⟩, rfl, by simp⟩
    · rintro ⟨rfl, _, _, ⟨rfl, rfl⟩, rfl, h⟩
      refine ⟨rfl, rfl, ?_⟩
      cases cf <;> simp_all
  | missing =>
    simp only [Except.ok.injEq, Made.mk.injEq, reduceCtorEq, true_and, false_and, exists_false, or_false]
    constructor
    · rintro ⟨rfl, rfl, rfl⟩; exact ⟨rfl, rfl, rfl⟩
    · rintro ⟨rfl, rfl, rfl⟩; exact ⟨rfl, rfl, rfl⟩
  | broken => simp
  | other => simp
  | noId => simp

/-! ### Instructions -/

theorem slots_of {R : Nat} {c : List Insn} (h : ∀ i ∈ c, stkI R i = true) :
    ∀ i ∈ c, (∀ off, place i = some off → Slot R off) ∧ (∀ d, target i = some d → d ≤ 8) := by
  intro i hi
  have := h i hi
  cases i <;> simp_all [stkI, place, target] <;> omega

theorem evaluate_stk {o : Opts} {e : Expr} {s s' : CSt} {v : Val} {c : List Insn} (h : evaluate o e s = .ok (v, s', c)) :
    (∀ i ∈ c, stkI o.reserved i = true) ∧ LowV v :=
  have g := keeps_evaluate (s := s) trivial h
  ⟨g.1.keep, g.2⟩

theorem compileEval_stk {o : Opts} {us : List Nat} {f : Bool} {e : Expr} {p : EvalRes} (hc : compileEval o us f e = .ok p) :
    ∀ i ∈ p.code, stkI o.reserved i = true := by
  unfold compileEval at hc
  cases hm : markAll noRegs us with
  | none => rw [hm] at hc; simp at hc
  | some u =>
    rw [hm] at hc
    simp only at hc
    cases he : evaluate o e { used := u, exitUsed := false } with
    | error x => rw [he] at hc; simp at hc
    | ok z =>
      obtain ⟨v, s, body⟩ := z
      rw [he] at hc
      obtain ⟨g, hv⟩ := evaluate_stk he
      have go : (match materialize o v s with
          | .error x => .error x
          | .ok ((r, t, m), s', c) => .ok ⟨body ++ c, r, t, m, s'.exitUsed⟩ : Except Err EvalRes) = .ok p →
          ∀ i ∈ p.code, stkI o.reserved i = true := by
        intro h
        cases hz : materialize o v s with
        | error x => rw [hz] at h; simp at h
        | ok y =>
          obtain ⟨⟨r, t, m⟩, s', c⟩ := y
          rw [hz] at h
          simp only [Except.ok.injEq] at h
          subst h
          intro i hi
          rcases List.mem_append.mp hi with hi | hi
          · exact g i hi
          · exact (keeps_materialize (s := s) trivial hv hz).1.keep i hi
      cases v with
      | const n t =>
        simp only at hc
        split at hc
        · simp only [Except.ok.injEq] at hc; subst hc; exact g
        · simp at hc
      | _ => exact go hc

theorem compileFilter_stk {o : Opts} {e : Expr} {p : Prog} (hc : compileFilter o e = .ok p) :
    ∃ b, p.code = .movReg 9 1 :: b ++ [.ret] ∧ ∀ i ∈ b, stkI o.reserved i = true := by
  unfold compileFilter at hc
  split at hc
  · simp at hc
  cases he : evaluate o e initFilter with
  | error x => rw [he] at hc; simp at hc
  | ok z =>
    obtain ⟨v, s, body⟩ := z
    rw [he] at hc
    obtain ⟨g, hv⟩ := evaluate_stk he
    have go : ∀ r : Nat, (.ok { code := .movReg 9 1 :: body ++ (if r ≠ 0 then [.movReg 0 r] else []) ++ [.ret], label := body.length } :
        Except Err Prog) = .ok p → ∃ b, p.code = .movReg 9 1 :: b ++ [.ret] ∧ ∀ i ∈ b, stkI o.reserved i = true := by
      intro r h
      simp only [Except.ok.injEq] at h
      subst h
      refine ⟨body ++ (if r ≠ 0 then [.movReg 0 r] else []), by simp, ?_⟩
      intro i hi
      rcases List.mem_append.mp hi with hi | hi
      · exact g i hi
      · split at hi
        · simp only [List.mem_singleton] at hi; subst hi; rfl
        · simp at hi
    cases v with
    | const n t => simp at hc
    | mat r t m => exact go r hc
    | _ => exact go 0 hc

/-- Every output expression that is accepted, whatever registers the caller keeps: each access to the stack is to the word at R10-8 or to one of the
six below what is reserved, and R9 and R10 are never written. -/
theorem eval_slots {o : Opts} {us : List Nat} {f : Bool} {e : Expr} {p : EvalRes} (hc : compileEval o us f e = .ok p) :
    ∀ i ∈ p.code, (∀ off, place i = some off → Slot o.reserved off) ∧ (∀ d, target i = some d → d ≤ 8) :=
  slots_of (compileEval_stk hc)

/-- The same for every filter that is accepted; it starts by keeping the arguments' address in R9 and ends by returning. -/
theorem filter_slots {o : Opts} {e : Expr} {p : Prog} (hc : compileFilter o e = .ok p) :
    ∃ b, p.code = .movReg 9 1 :: b ++ [.ret] ∧
      ∀ i ∈ b, (∀ off, place i = some off → Slot o.reserved off) ∧ (∀ d, target i = some d → d ≤ 8) :=
  let ⟨b, h1, h2⟩ := compileFilter_stk hc
  ⟨b, h1, slots_of h2⟩

/-- The words that code may use are words of eight bytes, below R10, not in the caller's part but for the topmost, and on the stack of
512 bytes if at most 464 are reserved. -/
theorem slot_means {R : Nat} {off : Int} (h8 : 8 ∣ R) (h : Slot R off) :
    8 ∣ off ∧ off ≤ -8 ∧ (-8 ≤ off ∨ off + 8 ≤ -R) ∧ (R ≤ 464 → -512 ≤ off) := by
  rcases h with rfl | ⟨h1, h2, h3⟩
  · exact ⟨by omega, by omega, .inl (by omega), by omega⟩
  · exact ⟨by omega, by omega, .inr (by omega), by omega⟩

/-! ### Runs -/

theorem stack_set (st : St) (d : Nat) (x : BitVec 64) : (st.set d x).stack = st.stack := rfl

/-- What code leaves as it was. -/
def Same (R : Nat) (st st' : St) : Prop := st'.regs 10 = st.regs 10 ∧ ∀ off, ¬ Slot R off → st'.stack off = st.stack off

theorem same_trans {R : Nat} {a b c : St} (h1 : Same R a b) (h2 : Same R b c) : Same R a c :=
  ⟨h2.1.trans h1.1, fun off h => (h2.2 off h).trans (h1.2 off h)⟩

theorem same_set {R : Nat} {st : St} {d : Nat} {x : BitVec 64} (h : d < 10) : Same R st (st.set d x) :=
  ⟨by simp only [St.set]; rw [if_neg (by omega)], fun _ _ => rfl⟩

/-- An instruction that is allowed in this part, or a move to R9, or a return. -/
def okI (R : Nat) (i : Insn) : Prop := stkI R i = true ∨ i = .movReg 9 1 ∨ i = .ret

theorem execK_same {R : Nat} {m : Mem} : ∀ {c : List Insn} {k : Nat} {st : St}, (∀ i ∈ c, okI R i) →
    ∀ {st'}, endsIn (execK m c k st) st' → Same R st st' := by
  intro c
  induction c with
  | nil =>
    intro k st _ st' h
    cases k with
    | zero => simp only [execK, endsIn] at h; subst h; exact ⟨rfl, fun _ _ => rfl⟩
    | succ k => simp [execK, endsIn] at h
  | cons i c ih =>
    intro k st hk st' h
    have hc : ∀ i ∈ c, okI R i := fun j hj => hk j (List.mem_cons_of_mem _ hj)
    cases k with
    | succ k => simp only [execK] at h; exact ih hc h
    | zero =>
      have hi := hk i List.mem_cons_self
      have go : ∀ {k : Nat} {s1 : St}, Same R st s1 → execK m (i :: c) 0 st = execK m c k s1 → Same R st st' := by
        intro k s1 hs he
        rw [he] at h
        exact same_trans hs (ih hc h)
      have refl : Same R st st := ⟨rfl, fun _ _ => rfl⟩
      have jmp : ∀ {off : Nat}, stepI m i st = jumpTo off st → Same R st st' := by
        intro off hj
        by_cases ho : off < 2 ^ 15
        · rw [jump_small ho] at hj
          exact go (k := off) (s1 := st) refl (by simp only [execK, hj])
        · unfold jumpTo at hj
          rw [if_neg ho] at hj
          simp only [execK, hj, endsIn] at h
      have low : ∀ {d : Nat}, target i = some d → d < 10 := by
        intro d hd
        rcases hi with hi | rfl | rfl
        · have := (slots_of (R := R) (c := [i]) (by simpa using hi) i (by simp)).2 d hd
          omega
        · simp only [target, Option.some.injEq] at hd; omega
        · simp [target] at hd
      cases i with
      | movImm d k => exact go (same_set (low rfl)) rfl
      | movReg d k => exact go (same_set (low rfl)) rfl
      | aluImm op d k => exact go (same_set (low rfl)) rfl
      | aluReg op d k => exact go (same_set (low rfl)) rfl
      | neg d => exact go (same_set (low rfl)) rfl
      | ldx d _ _ _ => exact go (same_set (low rfl)) rfl
      | ldStack d _ => exact go (same_set (low rfl)) rfl
      | stStack off q =>
        refine go (s1 := { st with stack := fun o => if o = off then st.regs q else st.stack o }) ⟨rfl, fun o ho => ?_⟩ rfl
        have hs : Slot R off := by
          rcases hi with hi | hi | hi
          · simpa [stkI] using hi
          · cases hi
          · cases hi
        show (if o = off then st.regs q else st.stack o) = st.stack o
        rw [if_neg]
        rintro rfl
        exact ho hs
      | callCast =>
        refine go (s1 := (st.clobber 5).set 0 (st.regs 1)) ⟨?_, fun _ _ => rfl⟩ rfl
        simp only [St.set, St.clobber]
        rw [if_neg (by omega), if_neg (by omega)]
      | callProbe =>
        by_cases hp : st.regs 1 = st.regs 10 - 8 ∧ st.regs 2 = 8
        · refine go (k := 0) (s1 := probed m st) ⟨?_, ?_⟩ ?_
          · simp only [probed, St.clobber]; rw [if_neg (by omega)]
          · intro o ho
            simp only [probed]
            rw [if_neg (by rintro rfl; exact ho (slot_eight R))]
          · simp only [execK, step_probe m st hp.1 hp.2]
        · simp only [execK, stepI, if_neg hp, endsIn] at h
      | ret => simp only [execK, stepI, endsIn] at h; subst h; exact refl
      | jexit d =>
        by_cases hz : st.regs d = 0
        · simp only [execK, stepI, hz, if_pos, endsIn] at h; subst h; exact refl
        · exact go (k := 0) refl (by simp only [execK, stepI, if_neg hz])
      | jmpImm cm d k off =>
        by_cases hz : cmpEval cm (st.regs d) (sx32 k) = true
        · exact jmp (off := off) (by simp only [stepI, hz, if_pos])
        · exact go (k := 0) refl (by simp only [execK, stepI, if_neg hz])
      | jmpReg cm d q off =>
        by_cases hz : cmpEval cm (st.regs d) (st.regs q) = true
        · exact jmp (off := off) (by simp only [stepI, hz, if_pos])
        · exact go (k := 0) refl (by simp only [execK, stepI, if_neg hz])
      | ja off => exact jmp (off := off) rfl

/-- Every run of every output expression that is accepted by a compiler made for a caller that reserves `r` bytes, whatever memory holds and
however it ends: all bytes the caller reserved but the topmost eight, and all below the next 48, are as before; so is the frame pointer. -/
theorem eval_keeps_stack {q : Req} {c : Made} (hq : newCompiler q = .ok c) (hr : 0 < q.reserved.toInt ∧ q.reserved.toInt < 2 ^ 63 - 7)
    {Γ : Btf} {vars : List (String × Ty)} {mode : Mode} {us : List Nat} {f : Bool} {e : Expr} {p : EvalRes}
    (hc : compileEval (c.opts Γ vars mode) us f e = .ok p) (m : Mem) (st st' : St) (h : endsIn (exec m p.code st) st') :
    st'.regs 10 = st.regs 10 ∧
    (∀ off : Int, off < 0 → -q.reserved.toInt ≤ off → off ≠ -8 → st'.stack off = st.stack off) ∧
    (∀ off : Int, off < -q.reserved.toInt - 55 → st'.stack off = st.stack off) := by
  obtain ⟨_, _, _, _, hround, _⟩ := (made_iff q c).mp hq
  obtain ⟨_, g, _, _⟩ := reserved_rounds q.reserved hr.2
  obtain ⟨_, g2, g3⟩ := g hr.1
  have hs := execK_same (R := c.reserved.toNat) (fun i hi => .inl (compileEval_stk hc i hi)) h
  rw [← hround] at g2 g3
  refine ⟨hs.1, fun off h1 h2 h3 => hs.2 off ?_, fun off h1 => hs.2 off ?_⟩
  · rintro (h | ⟨_, h, _⟩)
    · exact h3 h
    · omega
  · rintro (h | ⟨h, _, _⟩) <;> omega

/-- The same for filters, which reserve nothing: only the 56 bytes below R10 change. -/
theorem filter_keeps_stack {o : Opts} (hr : o.reserved = (round 0).toNat) {e : Expr} {p : Prog} (hc : compileFilter o e = .ok p)
    (m : Mem) (st st' : St) (h : endsIn (exec m p.code st) st') :
    st'.regs 10 = st.regs 10 ∧ ∀ off : Int, off < -56 ∨ 0 ≤ off → st'.stack off = st.stack off := by
  obtain ⟨b, hb, hk⟩ := compileFilter_stk hc
  have h8 : o.reserved = 8 := hr
  have hs := execK_same (R := o.reserved) (by
    intro i hi
    rw [hb] at hi
    simp only [List.cons_append, List.mem_cons, List.mem_append, List.not_mem_nil, or_false] at hi
    rcases hi with rfl | hi | rfl
    · exact .inr (.inl rfl)
    · exact .inl (hk i hi)
    · exact .inr (.inr rfl)) h
  refine ⟨hs.1, fun off ho => hs.2 off ?_⟩
  rintro (h | ⟨h1, h2, _⟩) <;> omega

/-- The whole of the reserved bytes is not the caller's: reading memory with a helper overwrites the topmost eight. -/
theorem top_word_violated : ∃ p st', compileEval { vOpts .probe with reserved := 16 } [8, 9] false (.arrow (V "p") "a") = .ok p ∧
    exec (vWorld [0x1000] [(0x1000, 0x700000000)]).mem p.code { vSt with regs := fun r => if r = 9 then 0x100 else 0 } = .done st' ∧
    st'.stack (-8) ≠ vSt.stack (-8) :=
  ⟨_, _, rfl, rfl, by decide +kernel⟩

/-- What the output programs ask for: sixteen bytes. -/
def sixteen : Req := ⟨"p->a", "exit", true, true, 16, .func 77 ["bpf_fastcall"]⟩

theorem stack_witness : ∃ c p st', newCompiler sixteen = .ok c ∧ c = ⟨16, 77, true⟩ ∧
    compileEval { c.opts vBtf vVars .probe with lo := 0 } [8, 9] false
      (.bin .add (.bin .mul (V "n") (V "k")) (.bin .add (.bin .mul (V "n") (V "k")) (.bin .add (.bin .mul (V "n") (V "k")) (.bin .mul (V "k") (.arrow (V "p") "a"))))) = .ok p ∧
    (∃ i ∈ p.code, ∃ off, place i = some off ∧ off = -24) ∧
    exec (vWorld [0x1000, 0, 1, 2] [(0x1000, 0x700000000)]).mem p.code { vSt with regs := fun r => if r = 9 then 0x100 else 0 } = .done st' ∧
    st'.stack (-16) = 0xBAD1111 ∧ st'.stack (-24) ≠ 0xBAD1111 ∧ st'.stack (-8) ≠ 0xBAD1111 :=
  ⟨_, _, _, rfl, rfl, rfl, by decide +kernel, rfl, by decide +kernel, by decide +kernel, by decide +kernel⟩

theorem filter_witness : ∃ p st', compileFilter (vOpts .probe) (.bin .eq (.arrow (V "p") "a") (N "7")) = .ok p ∧ (vOpts .probe).reserved = (round 0).toNat ∧
    exec (vWorld [0x1000] [(0x1000, 0x700000000)]).mem p.code { vSt with regs := fun r => if r = 1 then 0x100 else 0 } = .ret st' ∧
    st'.stack (-8) ≠ 0xBAD1111 :=
  ⟨_, _, rfl, rfl, rfl, by decide +kernel⟩

end Bpfsnoop.Cc.Stk
