import Verif.Model.ReadData
import Verif.Props.OutArg
/-
C67: `--read` shows the value of the expression at one moment of its own thread.
-/
namespace Bpfsnoop.RdD
open Cc Arg

/-- The first call by the thread of bpfsnoop. -/
def First (target : BitVec 64) (es : List Event) (e : Event) : Prop :=
  ∃ l r, es = l ++ e :: r ∧ e.pidTgid = target ∧ ∀ x ∈ l, x.pidTgid ≠ target

theorem stub_ok {q : TyQ} {m : Mem} {r : TopRes} {total B : BitVec 64} {a : OArg} {st : St} {out : Buf}
    (hok : Ok q r) (hc : compileArg q r 0 = .ok (total, a)) (hs : a.trueSize.toNat + 1 < 2 ^ 15)
    (hst : ∀ k, k < a.trueSize.toNat + 1 → B + BitVec.ofNat 64 k ≠ st.regs 10 - 8) :
    ∃ x', runStub m a ⟨st.set 1 B, out⟩ = .ret x' ∧ ∃ items, decodeArgs [a] (reads x'.out total.toNat B) = some items ∧
      ∃ st' v it, items = [it] ∧ st'.regs 9 = st.regs 9 ∧ Outcome m r.code st' v ∧ Right q m r v it := by
  have h0 : execO m [.cc (.movReg 8 1)] ⟨st.set 1 B, out⟩ = .done ⟨(st.set 1 B).set 8 B, out⟩ := by
    rw [execO_seq (step_mov m 8 1 _), execO_nil]
    simp only
    rw [set_same]
  have t0 : Three ((st.set 1 B).set 8 B) B (st.regs 9) (st.regs 10) :=
    ⟨set_same _ _ _, by rw [set_ne _ _ (by omega), set_ne _ _ (by omega)], by rw [set_ne _ _ (by omega), set_ne _ _ (by omega)]⟩
  have hc' : compileArgs q [r] (BitVec.ofNat 64 0) = .ok (total, [a]) := by
    rw [compileArgs]
    simp only [show BitVec.ofNat 64 0 = 0 from rfl, hc, compileArgs]
  have hsz : outSize [a] = a.trueSize.toNat + 1 := by simp [outSize]
  obtain ⟨x', h1, ht, hsame, hdec⟩ := run_blocks (m := m) (n := 0) (x := ⟨(st.set 1 B).set 8 B, out⟩) (rs := [r]) (as := [a])
    (by intro y hy; rw [List.mem_singleton.1 hy]; exact hok) trivial hc' (by rw [hsz]; omega) t0
    (by intro k hk; rw [hsz] at hk; exact hst k (by omega))
  have h2 : runArg m a ⟨(st.set 1 B).set 8 B, out⟩ = .done x' := by
    have h1 : (match runArg m a ⟨(st.set 1 B).set 8 B, out⟩ with | .done s' => runBlocks m [] s' | x => x) = .done x' := h1
    cases hr : runArg m a ⟨(st.set 1 B).set 8 B, out⟩ with
    | done s => rw [hr] at h1; simp only [runBlocks] at h1; exact h1
    | ret s => rw [hr] at h1; cases h1
    | exit s => rw [hr] at h1; cases h1
    | stuck => rw [hr] at h1; cases h1
  refine ⟨x', ?_, ?_⟩
  · rw [runStub, h0]
    simp only [h2]
    rfl
  · obtain ⟨items, d1, d2⟩ := hdec []
    have htn : total.toNat = outSize [a] := by
      rw [ht, BitVec.toNat_ofNat, hsz]; omega
    rw [List.append_nil, show B + BitVec.ofNat 64 0 = B from BitVec.add_zero _, ← htn] at d1
    refine ⟨items, d1, ?_⟩
    match items, d2 with
    | [it], ⟨⟨st', v, h3, h4, h5⟩, _⟩ => exact ⟨st', v, it, rfl, h3, h4, h5⟩

theorem fires_done {target B : BitVec 64} {a : OArg} : ∀ (es : List Event) (v : Vars), v.run = true → fires target B a es v = some v
  | [], _, _ => rfl
  | e :: es, v, h => by
    have : fire target B a e v = some v := by
      unfold fire
      by_cases h1 : e.pidTgid ≠ target
      · rw [if_pos h1]
      · rw [if_neg h1, if_pos h]
    rw [fires, this]
    exact fires_done es v h

theorem fires_others {target B : BitVec 64} {a : OArg} : ∀ (l es : List Event) (v : Vars), (∀ x ∈ l, x.pidTgid ≠ target) →
    fires target B a (l ++ es) v = fires target B a es v
  | [], _, _, _ => rfl
  | e :: l, es, v, h => by
    have : fire target B a e v = some v := by
      unfold fire
      rw [if_pos (h e List.mem_cons_self)]
    rw [List.cons_append, fires, this]
    exact fires_others l es v (fun x hx => h x (List.mem_cons_of_mem _ hx))

/-- What is shown is what the expression is worth at the first call by bpfsnoop's own thread, whatever other threads and later
calls do. Missing: results of 32 KiB or more. -/
theorem read_shown_partial {q : TyQ} {r : TopRes} {total target B : BitVec 64} {a : OArg} {es : List Event} {e : Event}
    (hok : Ok q r) (hc : compileArg q r 0 = .ok (total, a)) (hs : a.trueSize.toNat + 1 < 2 ^ 15) (hf : First target es e)
    (hst : ∀ k, k < a.trueSize.toNat + 1 → B + BitVec.ofNat 64 k ≠ e.st.regs 10 - 8) :
    ∃ it st v, readData q r target B es = .shown [it] ∧ st.regs 9 = e.st.regs 9 ∧ Outcome e.mem r.code st v ∧ Right q e.mem r v it := by
  obtain ⟨l, rest, rfl, h1, h2⟩ := hf
  obtain ⟨x', g1, items, g2, st', v, it, rfl, g3, g4, g5⟩ := stub_ok (m := e.mem) (st := e.st) (out := fun _ => 0) hok hc hs hst
  refine ⟨it, st', v, ?_, g3, g4, g5⟩
  have hfire : fire target B a e ⟨fun _ => 0, false⟩ = some ⟨x'.out, true⟩ := by
    unfold fire
    rw [if_neg (by simp [h1]), if_neg (by simp)]
    simp only [g1]
  unfold readData
  rw [hc]
  simp only
  rw [fires_others l _ _ h2, fires, hfire]
  simp only
  rw [fires_done rest _ rfl]
  simp only [Bool.not_true, Bool.false_eq_true, if_false, g2]

/-- If the thread makes no call while the program is attached, nothing is shown. -/
theorem not_run {q : TyQ} {r : TopRes} {total target B : BitVec 64} {a : OArg} {es : List Event}
    (hc : compileArg q r 0 = .ok (total, a)) (h : ∀ x ∈ es, x.pidTgid ≠ target) : readData q r target B es = .notRun := by
  have := fires_others (target := target) (B := B) (a := a) es [] ⟨fun _ => 0, false⟩ h
  rw [List.append_nil] at this
  unfold readData
  rw [hc]
  simp only [this, fires, Bool.not_false, if_true]

/-- The value is that of the expression in C, or `[NULL]` where a NULL pointer would have to be followed (with the
restrictions of C01). -/
theorem read_meaning_partial {o : Opts} {ex : Expr} {σ : Sh} {nelems : Ty → Nat} {f : Bool} {q : TyQ} {r : TopRes} {p : EvalRes}
    {total target B : BitVec 64} {a : OArg} {es : List Event} {e : Event} {w : World}
    (hok : Ok q r) (htop : compileTop o nelems [8, 9] f (.plain ex) = .ok r) (hp : r.code = p) (hty : r.typ = .dflt)
    (hlo : o.lo = 0) (hcp : compileEval o [8, 9] f ex = .ok p)
    (hlive : o.mode = .direct ∨ ∃ z, compileEval o.few [8, 9] f ex = .ok z) (hσ : shape o ex = some σ)
    (hu : σ.usable o = true) (hn : σ.isNum = false) (hex : Exact p.code) (hw : WordReadable w.mem)
    (hm : w.mem = e.mem) (hargs : ArgsAt o w (e.st.regs 9))
    (hc : compileArg q r 0 = .ok (total, a)) (hs : a.trueSize.toNat + 1 < 2 ^ 15) (hf : First target es e)
    (hst : ∀ k, k < a.trueSize.toNat + 1 → B + BitVec.ofNat 64 k ≠ e.st.regs 10 - 8)
    (hplain : q.charArr r.res.ty = false ∧ q.charPtr r.res.ty = false ∧ q.numPtr r.res.ty = false) :
    ∃ x nul, meaning o w ex = some (x, nul) ∧ readData q r target B es = .shown [if nul then .null else .num x] := by
  obtain ⟨it, st, v, h1, h2, h3, h4⟩ := read_shown_partial hok hc hs hf hst
  rw [← hm, hp] at h3
  rw [← h2] at hargs
  obtain ⟨x, nul, m1, m2⟩ := outcome_meaning_partial hlo hcp hlive hσ hu hn hex hargs hw h3
  refine ⟨x, nul, m1, ?_⟩
  rw [h1]
  cases nul with
  | true =>
    rw [if_pos rfl] at m2
    rw [m2] at h4
    rw [show it = .null from h4]
    rfl
  | false =>
    simp only [Bool.false_eq_true, if_false] at m2
    rw [m2] at h4
    simp only [Right, hty, hplain.1, hplain.2.1, hplain.2.2, Bool.false_eq_true, if_false] at h4
    rw [h4]
    rfl

/-- `((struct sk_buff *)0x1000)->len` without parameters. -/
def readOpts : Opts := { exOpts .probe with vars := [] }

def readExpr : Expr := .arrow (.cast (some (.ptr (.base 0))) (.num "0x1000".toList)) "len"

theorem read_witness : ∃ r total a, compileTop readOpts (fun _ => 1) [8, 9] true (.plain readExpr) = .ok r ∧ Ok exQ r ∧
    compileArg exQ r 0 = .ok (total, a) ∧ total = 9 ∧ r.typ = .dflt := by
  have h : compileTop readOpts (fun _ => 1) [8, 9] true (.plain readExpr) = .ok _ := rfl
  refine ⟨_, _, _, h, ?_, rfl, rfl, rfl⟩
  exact compileTop_ok (o := readOpts) exQ_coh exBtf_sane h (by decide) (by decide)

end Bpfsnoop.RdD
