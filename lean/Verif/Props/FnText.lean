import Verif.Model.FnText
import Verif.Props.FnArgs
import Verif.Props.Repr
import Verif.Props.OutText

/-
C82: the line of a call shows its arguments and its return value, in order, each with its own type and name.
-/
namespace Bpfsnoop.Ft
open Rp (Text Env W Plain Show hex)
open Arg (PFlag Shown ShownRet RetKind StrShown execO reads le OSt)
open Ot (PType join)
open Cc (Mem load)

/-! ### Specification -/

/-- Parameter `i` is the first `const char *` of the function. -/
def FirstString (ps : List Prm) (i : Nat) : Prop :=
  (∃ p, ps[i]? = some p ∧ p.cstr = true) ∧ ∀ j q, j < i → ps[j]? = some q → q.cstr = false

/-- How a word `v` of a type reads: a pointer to an integer with the integer it points to unless it is NULL; everything else as the value
of the type in its bytes (`Rp.Show`, C42). -/
inductive Reads (find : W → Text) (m : Mem) (ty : Rp.T) (v : W) : Text → Prop
  | number (s : Nat) (g b : Bool) : ty = .ptr (.int s g b) → v ≠ 0 →
      Reads find m ty v (hex v.toNat ++ t "(" ++ Show find (.int s g b) (le 8 (load m 8 v)) ++ t ")")
  | null (s : Nat) (g b : Bool) : ty = .ptr (.int s g b) → v = 0 → Reads find m ty v (t "0x0")
  | value : (∀ s g b, ty ≠ .ptr (.int s g b)) → Reads find m ty v (Show find ty (le 8 v))

/-- How parameter `i` with the argument `v` reads: `(type)name=value`; the first `const char *` as the string it points to. -/
def ArgReads (find : W → Text) (m : Mem) (ps : List Prm) (i : Nat) (p : Prm) (v : W) (x : Text) : Prop :=
  ∃ y, x = t "(" ++ p.tname ++ t ")" ++ p.name ++ t "=" ++ y ∧
    (FirstString ps i → ∃ s, StrShown m 64 v s ∧ y = t "\"" ++ s.map Ot.chr ++ t "\"") ∧
    (¬ FirstString ps i → Reads find m p.t v y)

/-- How the return value `v` reads, for a kernel function or a program that is neither XDP nor TC. -/
def RetReads (find : W → Text) (m : Mem) (r : Ret) (v : W) (x : Text) : Prop :=
  if r.void then x = t "(void)"
  else if r.cstr then ∃ s, StrShown m 64 v s ∧ x = t "\"" ++ s.map Ot.chr ++ t "\""
  else ∃ y, Reads find m r.t v y ∧ x = t "(" ++ r.tname ++ t ")" ++ y

/-- The types for which this is claimed: at most 8 bytes, integers that are not `_Bool`, pointers, and structs and unions of these without
bit-fields; pointers to such integers (C42 says what goes wrong with the others). -/
def Simple (ty : Rp.T) : Prop :=
  Plain ty 8 ∧ (∀ s g b, ty = .ptr (.int s g b) → Plain (.int s g b) 8) ∧ ∀ s v, ty ≠ .ptr (.enum s v)

/-! ### One value -/

theorem numberPtr_iff (ty : Rp.T) (h : Simple ty) : numberPtr ty = true ↔ ∃ s g b, ty = .ptr (.int s g b) := by
  unfold numberPtr
  split
  · exact ⟨fun _ => ⟨_, _, _, rfl⟩, fun _ => rfl⟩
  · next s v => exact absurd rfl (h.2.2 s v)
  · next h1 h2 =>
    constructor
    · intro h; exact absurd h (by decide)
    · rintro ⟨s, g, b, rfl⟩; exact absurd rfl (h1 s g b)

theorem show_low (find : W → Text) (ty : Rp.T) (h : Plain ty 8) (v n : W) : Show find ty (le 8 v ++ le 8 n) = Show find ty (le 8 v) := by
  apply Rp.show_congr find ty 8 h
  rw [List.take_append_of_le_length (by rw [Arg.le_length]; omega)]

theorem plain_16 : (ty : Rp.T) → Plain ty 8 → Plain ty 16
  | .int _ _ _, h => ⟨h.1, h.2.1, by have := h.2.2; omega⟩
  | .ptr _, _ => by show 8 ≤ 16; omega
  | .comp _ _ _, h => ⟨by have := h.1; omega, h.2⟩
  | .enum _ _, h => absurd h (by simp [Plain])
  | .func, h => absurd h (by simp [Plain])
  | .other _, h => absurd h (by simp [Plain])

theorem simple_narrow {ty : Rp.T} (h : Simple ty) {n : Nat} (hn : ty.sizeof = some n) : n ≤ 8 := by
  have hp := h.1
  cases ty with
  | int s g b => cases hn; exact hp.2.2
  | ptr _ => cases hn; exact Nat.le_refl 8
  | comp _ s _ => cases hn; exact hp.1
  | enum _ _ => exact absurd hp (by simp [Plain])
  | func => exact absurd hp (by simp [Plain])
  | other _ => exact absurd hp (by simp [Plain])

/-- A value of a simple type, with what is behind it if it points to a number. -/
theorem arg_reads (e : Env) (hb : 8 ≤ e.beyond.length) (m : Mem) (ty : Rp.T) (h : Simple ty) (v v2 next : W) (s : Text)
    (hv : numberPtr ty = true → v2 = load m 8 v) :
    ∃ y, Rp.reprArg e ty false (numberPtr ty) v v2 next s = some y ∧ Reads e.find m ty v y := by
  cases hn : numberPtr ty with
  | true =>
    obtain ⟨sz, g, b, rfl⟩ := (numberPtr_iff ty h).1 hn
    have hp := h.2.1 sz g b rfl
    by_cases h0 : v = 0
    · subst h0
      exact ⟨_, by simp [Rp.reprArg, hex, Nat.toDigits_zero, t], .null sz g b rfl rfl⟩
    · refine ⟨_, ?_, .number sz g b rfl h0⟩
      rw [← hv hn]
      simp only [Rp.reprArg, Bool.false_eq_true, if_false, if_true, ne_eq, h0, not_false_eq_true,
        Rp.scalar_show e _ 8 hp (by simp) v2 next, Option.map_some]
      simp [t]
  | false =>
    refine ⟨_, ?_, .value fun s g b he => ?_⟩
    · simp only [Rp.reprArg, Bool.false_eq_true, if_false]
      rw [Rp.repr_show e hb ty 8 h.1 (by omega) v next, show_low e.find ty h.1]
    · have := (numberPtr_iff ty h).2 ⟨s, g, b, he⟩
      rw [hn] at this
      exact absurd this (by decide)

theorem reprParam_eq (e : Env) (p : Prm) (a b : Bool) (x y n : W) (s : Text) :
    Rp.reprParam e p.tname p.name p.t a b x y n s =
      (Rp.reprArg e p.t a b x y n s).map fun z => t "(" ++ p.tname ++ t ")" ++ p.name ++ t "=" ++ z := by
  unfold Rp.reprParam
  congr 1
  funext z
  simp [t]

/-! ### The list of arguments -/

theorem join_cons (sep x : Text) (xs : List Text) : join sep (x :: xs) = x ++ (if xs = [] then [] else sep) ++ join sep xs := by
  cases xs <;> simp [join]

theorem argsLoop_join (e : Env) (ps : List Prm) (Q : Nat → Text → Prop) : ∀ (l : List Shown) (k : Nat),
    (∀ (j : Nat) (sh : Shown), l[j]? = some sh → sh.idx = k + j ∧ ∃ p x, ps[k + j]? = some p ∧
      Rp.reprParam e p.tname p.name p.t sh.isStr sh.isPtr sh.arg sh.val sh.next (sh.str.map Ot.chr) = some x ∧ Q (k + j) x) →
    ∃ xs, argsLoop e ps l = some ((if k ≠ 0 ∧ l ≠ [] then t ", " else []) ++ join (t ", ") xs) ∧ xs.length = l.length ∧
      ∀ (j : Nat) (x : Text), xs[j]? = some x → Q (k + j) x
  | [], k, _ => ⟨[], by simp [argsLoop, join], rfl, by simp⟩
  | sh :: l, k, h => by
    obtain ⟨xs, h1, h2, h3⟩ := argsLoop_join e ps Q l (k + 1) (by
      intro j sh' hj
      have := h (j + 1) sh' (by simpa using hj)
      rwa [show k + (j + 1) = k + 1 + j from by omega] at this)
    obtain ⟨hi, p, x, hp, hx, hq⟩ := h 0 sh (by simp)
    rw [Nat.add_zero] at hi hp hq
    refine ⟨x :: xs, ?_, by simp [h2], ?_⟩
    · unfold argsLoop
      rw [hi, hp]
      dsimp only
      rw [hx, h1]
      simp only [join_cons, List.cons_ne_nil, not_false_eq_true, and_true, ne_eq]
      have : (l ≠ []) ↔ ¬ xs = [] := by
        rw [ne_eq, ← List.length_eq_zero_iff, ← List.length_eq_zero_iff, h2]
      by_cases hl : xs = []
      · have hl' : l = [] := Classical.byContradiction fun h => (this.1 h) hl
        simp [hl, hl', join]
      · have hl' : ¬ l = [] := this.2 hl
        simp [hl, hl']
    · intro j x' hj
      cases j with
      | zero => simp only [List.getElem?_cons_zero, Option.some.injEq] at hj; subst hj; exact hq
      | succ j =>
        have := h3 j x' (by simpa using hj)
        rwa [show k + (j + 1) = k + 1 + j from by omega]

theorem firstStr_iff (ps : List Prm) (i : Nat) : Arg.FirstStr (ps.map Prm.pty) i ↔ FirstString ps i := by
  unfold Arg.FirstStr FirstString
  have key : ∀ (k : Nat) (b : Bool), ((ps.map Prm.pty)[k]?.map (·.constCharPtr)) = some b ↔ ∃ p, ps[k]? = some p ∧ p.cstr = b := by
    intro k b
    rw [List.getElem?_map, Option.map_map]
    simp [Option.map_eq_some_iff, Prm.pty]
  rw [key]
  constructor
  · rintro ⟨h1, h2⟩
    refine ⟨h1, fun j q hj hq => ?_⟩
    obtain ⟨p, hp, hc⟩ := (key j false).1 (h2 j hj)
    rw [hp] at hq
    cases hq; exact hc
  · rintro ⟨⟨p, hp, hc⟩, h2⟩
    refine ⟨⟨p, hp, hc⟩, fun j hj => ?_⟩
    have hl : i < ps.length := (List.getElem?_eq_some_iff.1 hp).1
    have hjl : j < ps.length := by omega
    exact (key j false).2 ⟨ps[j], List.getElem?_eq_getElem hjl, h2 j _ hj (List.getElem?_eq_getElem hjl)⟩

/-- The text behind ` retval=`: that of the value, or the name of the action of an XDP or TC program, its number if it has no name. For
negative numbers of TC programs nothing is claimed (C76). -/
def RetShown (find : W → Text) (m : Mem) (pt : PType) (r : Ret) (v : W) (x : Text) : Prop :=
  match pt with
  | .xdp => (∃ n, (v.setWidth 32, n) ∈ Ot.xdpSpec ∧ x = t n) ∨
      ((∀ n, (v.setWidth 32, n) ∉ Ot.xdpSpec) ∧ Rp.numeral 10 x = (v.setWidth 32).toNat ∧ ∀ c ∈ x, c.isDigit = true)
  | .tc => 0 ≤ (v.setWidth 32).toInt → (∃ n, ((v.setWidth 32).toInt, n) ∈ Ot.tcSpec ∧ x = t n) ∨
      ((∀ n, ((v.setWidth 32).toInt, n) ∉ Ot.tcSpec) ∧ (Rp.numeral 10 x : Int) = (v.setWidth 32).toInt ∧ ∀ c ∈ x, c.isDigit = true)
  | .other => RetReads find m r v x

theorem ret_shown (e : Env) (hb : 8 ≤ e.beyond.length) (m : Mem) (pt : PType) (r : Ret) (v : W) (sr : ShownRet)
    (hs : r.void = false → r.cstr = false → Simple r.t)
    (h : Arg.RetCorrect m (retKind pt) r.pty v sr) : ∃ x, retval e pt r sr = some (t " retval=" ++ x) ∧ RetShown e.find m pt r v x := by
  obtain ⟨h1, h2⟩ := h
  cases pt with
  | xdp =>
    rw [h1 rfl]
    refine ⟨_, rfl, ?_⟩
    obtain ⟨s, hs, h⟩ := Ot.xdp_shown [] v []
    rw [Ot.retText, Ot.ret_bytes] at hs
    have hs : Ot.xdpText (v.setWidth 32) = s := List.append_cancel_left hs
    subst hs
    exact h
  | tc =>
    rw [h1 rfl]
    refine ⟨_, rfl, fun h0 => ?_⟩
    obtain ⟨s, hs, h⟩ := Ot.tc_shown_partial [] v [] h0
    rw [Ot.retText, Ot.ret_bytes] at hs
    have hs : Ot.tcText (v.setWidth 32) = s := List.append_cancel_left hs
    subst hs
    exact h
  | other =>
    obtain ⟨n1, n2, s, rfl, hstr, hnum⟩ := h2 rfl
    show ∃ x, _ ∧ RetReads e.find m r v x
    unfold RetReads retval
    dsimp only
    cases hv : r.void with
    | true => exact ⟨t "(void)", rfl, by simp⟩
    | false =>
      cases hc : r.cstr with
      | true =>
        refine ⟨t "\"" ++ s.map Ot.chr ++ t "\"", ?_, ?_⟩
        · simp [Rp.reprReturn, Ret.pty, hc, t]
        · simp only [Bool.false_eq_true, if_false, if_true]
          exact ⟨s, hstr hc, rfl⟩
      | false =>
        obtain ⟨e1, e2⟩ := hnum hc
        subst e1
        obtain ⟨y, hy, hr⟩ := arg_reads e hb m r.t (hs hv hc) n1 n2 0 (s.map Ot.chr) e2
        refine ⟨t "(" ++ r.tname ++ t ")" ++ y, ?_, ?_⟩
        · have hy' : Rp.reprArg e r.t false r.pty.numberPtr n1 n2 0 (s.map Ot.chr) = some y := hy
          simp only [Rp.reprReturn, Ret.pty, hc, Bool.false_eq_true, if_false]
          rw [show numberPtr r.t = r.pty.numberPtr from rfl, hy']
          simp [t]
        · simp only [Bool.false_eq_true, if_false]
          exact ⟨y, hr, rfl⟩

/-- **C82** for code that stores the return value if `wr`, at an event that shows it if `exit`. Run the generated code on the arguments of a call, hand the bytes to the printing code: what is printed is the list of the
arguments in order, separated by commas, each as `(type)name=value`, and at an exit the return value. Partial: types as in `Simple`
(C42 has the counterexamples), one register each (C17). -/
theorem args_kept_partial (e : Env) (hb : 8 ≤ e.beyond.length) (maxArgs : Nat) {m : Mem} {ps : List Prm} {ret : Ret} {fs : List PFlag}
    {fr : PFlag} {wr exit : Bool} {pt : PType} {x : OSt} (hwe : exit = true → wr = true)
    (hp : Arg.getFuncParams (ps.map Prm.pty) ret.pty = some (fs, fr))
    (hlen : ps.length ≤ 400) (hs : ∀ p ∈ ps, Simple p.t) (hrs : ret.void = false → ret.cstr = false → Simple ret.t)
    (hk : pt ≠ .other → ret.cstr = false) :
    ∃ s' xs y, execO m (Arg.injectOutputFuncArgs fs fr wr).1 x = .ret s' ∧
      args e maxArgs ⟨some ⟨ps, ret⟩, fs, fr, pt⟩ exit false (reads s'.out (Arg.injectOutputFuncArgs fs fr wr).2 (x.st.regs 2)) =
        some (t "=(" ++ join (t ", ") xs ++ t ")" ++ y) ∧
      xs.length = ps.length ∧
      (∀ i p a, ps[i]? = some p → xs[i]? = some a →
        ArgReads e.find m ps i p (load m 8 (x.st.regs 1 + BitVec.ofNat 64 (i * 8))) a) ∧
      (exit = false → y = []) ∧
      (exit = true → ∃ z, y = t " retval=" ++ z ∧ RetShown e.find m pt ret (x.st.regs 3) z) := by
  obtain ⟨s', l, r, hx, hsame, ho, hl, hall, hr0, hr1⟩ := Arg.fn_args_kept_partial (m := m) (wr := wr) (ex := exit) (k := retKind pt) (x := x) hwe hp
    (by simpa using hlen) (by
      intro p hp n hn
      obtain ⟨q, hq, rfl⟩ := List.mem_map.1 hp
      exact simple_narrow (hs q hq) hn) (by
      intro h
      show ret.cstr = false
      apply hk
      rintro rfl
      exact absurd h (by decide))
  rw [List.length_map] at ho hl
  -- the arguments
  obtain ⟨xs, h1, h2, h3⟩ := argsLoop_join e ps
    (fun i a => ∀ p, ps[i]? = some p → ArgReads e.find m ps i p (load m 8 (x.st.regs 1 + BitVec.ofNat 64 (i * 8))) a) l 0 (by
      intro j sh hj
      have hjl : j < ps.length := by rw [← hl]; exact (List.getElem?_eq_some_iff.1 hj).1
      have hpj := List.getElem?_eq_getElem hjl
      generalize ps[j] = p at hpj
      have hmem : p ∈ ps := List.mem_of_getElem? hpj
      obtain ⟨sh', isStr, hsh, hidx, hstr, c1, c2, c3, c4⟩ := hall j p.pty (by rw [List.getElem?_map, hpj]; rfl)
      rw [hsh] at hj
      cases hj
      rw [Nat.zero_add]
      refine ⟨hidx, p, ?_⟩
      rw [firstStr_iff] at hstr
      rw [reprParam_eq, c1, c2]
      cases isStr with
      | true =>
        refine ⟨_, hpj, rfl, fun q hq => ?_⟩
        rw [hpj] at hq; cases hq
        refine ⟨_, rfl, fun _ => ⟨_, c3 rfl, ?_⟩, fun h => absurd (hstr.1 rfl) h⟩
        rfl
      | false =>
        obtain ⟨e1, e2⟩ := c4 rfl
        obtain ⟨y, hy, hr⟩ := arg_reads e hb m p.t (hs p hmem) sh.arg sh.val sh.next (sh.str.map Ot.chr) (by rw [e1]; exact e2)
        have hy' : Rp.reprArg e p.t false p.pty.numberPtr sh.arg sh.val sh.next (sh.str.map Ot.chr) = some y := hy
        rw [hy']
        refine ⟨_, hpj, rfl, fun q hq => ?_⟩
        rw [hpj] at hq; cases hq
        refine ⟨y, rfl, fun h => absurd (hstr.2 h) (by decide), fun _ => ?_⟩
        rw [← e1]; exact hr)
  simp only [ne_eq, not_true_eq_false, false_and, if_false, List.nil_append, Nat.zero_add] at h1 h3
  obtain ⟨fs', hf, he⟩ := Option.map_eq_some_iff.1 hp
  obtain ⟨rfl, rfl⟩ := Prod.mk.inj he
  obtain ⟨hfl, -, -⟩ := Arg.slotsOf_narrow hf (by
      intro p hp n hn
      obtain ⟨q, hq, rfl⟩ := List.mem_map.1 hp
      exact simple_narrow (hs q hq) hn)
  rw [List.length_map] at hfl
  generalize hd : reads s'.out (Arg.injectOutputFuncArgs fs' _ wr).2 (x.st.regs 2) = d at ho
  have hdl : d.length = (Arg.injectOutputFuncArgs fs' ⟨ret.pty.numberPtr, ret.pty.constCharPtr, false⟩ wr).2 := by
    rw [← hd, Arg.reads_length]
  by_cases h0 : d.length = 0
  · -- nothing captured
    have hnil : wr = false ∧ fs' = [] := by
      rw [h0] at hdl
      unfold Arg.injectOutputFuncArgs at hdl
      split at hdl
      · next h => exact ⟨h.2, List.eq_nil_of_length_eq_zero h.1⟩
      · next h =>
        exfalso
        unfold Arg.genOutputFuncArgs at hdl
        have hp := Arg.slotSize_pos ⟨ret.pty.numberPtr, ret.pty.constCharPtr, false⟩
        cases wr with
        | true => simp at hdl; omega
        | false =>
          simp only [Bool.not_false, if_true, Arg.genSlots_size, Nat.zero_add] at hdl
          cases fs' with
          | nil => exact h ⟨rfl, rfl⟩
          | cons p r =>
            have := Arg.slotSize_pos p
            simp [Arg.slotsSize] at hdl
            omega
    obtain ⟨rfl, rfl⟩ := hnil
    have hex : exit = false := by cases exit with | true => exact absurd (hwe rfl) (by decide) | false => rfl
    subst hex
    have : ps = [] := List.eq_nil_of_length_eq_zero (by simpa using hfl.symm)
    subst this
    refine ⟨s', [], [], hx, ?_, rfl, by simp, fun _ => rfl, by simp⟩
    rw [hd]
    unfold args
    rw [if_pos h0]
    rfl
  · have hfn : ∀ y, retPart e pt ret r = some y →
        args e maxArgs ⟨some ⟨ps, ret⟩, fs', ⟨ret.pty.numberPtr, ret.pty.constCharPtr, false⟩, pt⟩ exit false d =
          some (t "=(" ++ join (t ", ") xs ++ t ")" ++ y) := by
      intro y hy
      unfold args
      rw [if_neg h0, if_neg (by decide)]
      unfold fnArgs
      dsimp only
      rw [ho]
      dsimp only
      rw [h1, hy]
    have hA : ∀ i p a, ps[i]? = some p → xs[i]? = some a →
        ArgReads e.find m ps i p (load m 8 (x.st.regs 1 + BitVec.ofNat 64 (i * 8))) a := fun i p a hp ha => h3 i a ha p hp
    cases exit with
    | false =>
      rw [hr0 rfl] at hfn
      exact ⟨s', xs, [], hx, by rw [hd]; exact hfn [] rfl, by rw [h2, hl], hA, fun _ => rfl, by simp⟩
    | true =>
      obtain ⟨r', hr', hc⟩ := hr1 rfl
      obtain ⟨z, hz, hsh⟩ := ret_shown e hb m pt ret _ r' hrs hc
      rw [hr'] at hfn
      exact ⟨s', xs, t " retval=" ++ z, hx, by rw [hd]; exact hfn _ hz, by rw [h2, hl], hA, by simp, fun _ => ⟨z, rfl, hsh⟩⟩

/-- **C82.** Run the generated code on the arguments of a call, hand the bytes to the printing code: what is printed is the list of the
arguments in order, separated by commas, each as `(type)name=value`, and at an exit the return value. Partial: types as in `Simple`
(C42 has the counterexamples), one register each (C17). -/
theorem args_shown_partial (e : Env) (hb : 8 ≤ e.beyond.length) (maxArgs : Nat) {m : Mem} {ps : List Prm} {ret : Ret} {fs : List PFlag}
    {fr : PFlag} {exit : Bool} {pt : PType} {x : OSt} (hp : Arg.getFuncParams (ps.map Prm.pty) ret.pty = some (fs, fr))
    (hlen : ps.length ≤ 400) (hs : ∀ p ∈ ps, Simple p.t) (hrs : ret.void = false → ret.cstr = false → Simple ret.t)
    (hk : pt ≠ .other → ret.cstr = false) :
    ∃ s' xs y, execO m (Arg.injectOutputFuncArgs fs fr exit).1 x = .ret s' ∧
      args e maxArgs ⟨some ⟨ps, ret⟩, fs, fr, pt⟩ exit false (reads s'.out (Arg.injectOutputFuncArgs fs fr exit).2 (x.st.regs 2)) =
        some (t "=(" ++ join (t ", ") xs ++ t ")" ++ y) ∧
      xs.length = ps.length ∧
      (∀ i p a, ps[i]? = some p → xs[i]? = some a →
        ArgReads e.find m ps i p (load m 8 (x.st.regs 1 + BitVec.ofNat 64 (i * 8))) a) ∧
      (exit = false → y = []) ∧
      (exit = true → ∃ z, y = t " retval=" ++ z ∧ RetShown e.find m pt ret (x.st.regs 3) z) :=
  args_kept_partial e hb maxArgs id hp hlen hs hrs hk

/-! ### Functions traced together with `(m)` -/

theorem kmultiLoop_join (e : Env) (maxArgs : Nat) (data : List (BitVec 8)) (Q : Nat → Prm → Text → Prop) : ∀ (ps : List Prm) (k : Nat),
    (∀ (j : Nat) (p : Prm), ps[j]? = some p → ∃ x, Rp.reprParam e p.tname p.name p.t false false (Arg.kmultiShow maxArgs data (k + j)).1 0
      (Arg.kmultiShow maxArgs data (k + j)).2 [] = some x ∧ Q (k + j) p x) →
    ∃ xs, kmultiLoop e maxArgs data k ps = some ((if k ≠ 0 ∧ ps ≠ [] then t ", " else []) ++ join (t ", ") xs) ∧ xs.length = ps.length ∧
      ∀ (j : Nat) (p : Prm) (x : Text), ps[j]? = some p → xs[j]? = some x → Q (k + j) p x
  | [], k, _ => ⟨[], by simp [kmultiLoop, join], rfl, by simp⟩
  | p :: ps, k, h => by
    obtain ⟨xs, h1, h2, h3⟩ := kmultiLoop_join e maxArgs data Q ps (k + 1) (by
      intro j p' hj
      have := h (j + 1) p' (by simpa using hj)
      rwa [show k + (j + 1) = k + 1 + j from by omega] at this)
    obtain ⟨x, hx, hq⟩ := h 0 p (by simp)
    rw [Nat.add_zero] at hx hq
    refine ⟨x :: xs, ?_, by simp [h2], ?_⟩
    · unfold kmultiLoop
      rw [hx, h1]
      simp only [join_cons, List.cons_ne_nil, not_false_eq_true, and_true, ne_eq]
      have : (ps ≠ []) ↔ ¬ xs = [] := by
        rw [ne_eq, ← List.length_eq_zero_iff, ← List.length_eq_zero_iff, h2]
      by_cases hl : xs = []
      · have hl' : ps = [] := Classical.byContradiction fun h => (this.1 h) hl
        simp [hl, hl', join]
      · have hl' : ¬ ps = [] := this.2 hl
        simp [hl, hl']
    · intro j p' x' hp hj
      cases j with
      | zero =>
        simp only [List.getElem?_cons_zero, Option.some.injEq] at hj hp
        subst hj; subst hp; exact hq
      | succ j =>
        have := h3 j p' x' (by simpa using hp) (by simpa using hj)
        rwa [show k + (j + 1) = k + 1 + j from by omega]

theorem join_snoc (sep : Text) : ∀ (xs : List Text) (y : Text), join sep (xs ++ [y]) = join sep xs ++ (if xs = [] then [] else sep) ++ y
  | [], y => by simp [join]
  | x :: xs, y => by
    rw [List.cons_append, join_cons, join_cons, join_snoc sep xs y]
    cases xs <;> simp [join]

/-- **C82, `(m)`.** For functions traced together the first 6 (or 8) arguments are shown in order, separated by commas, each as
`(type)name=value`, `...` for the others, and at an exit the return value; pointers are not followed. Partial: types as in `Simple`, one
register each. -/
theorem kmulti_shown_partial (e : Env) (hb : 8 ≤ e.beyond.length) {maxArgs : Nat} (h0 : 0 < maxArgs) (hn : maxArgs ≤ 400) {m : Mem}
    {ps : List Prm} {ret : Ret} {fs : List PFlag} {fr : PFlag} {exit wr : Bool} {pt : PType} {x : OSt} (hw : exit = true → wr = true)
    (hs : ∀ p ∈ ps, Plain p.t 8)
    (hrs : ret.void = false → Plain ret.t 8) :
    ∃ s' xs y, execO m (Arg.genKmulti maxArgs wr).1 x = .ret s' ∧
      args e maxArgs ⟨some ⟨ps, ret⟩, fs, fr, pt⟩ exit true (reads s'.out (Arg.genKmulti maxArgs wr).2 (x.st.regs 2)) =
        some (t "=(" ++ join (t ", ") (xs ++ if maxArgs < ps.length then [t "..."] else []) ++ t ")" ++ y) ∧
      xs.length = min ps.length maxArgs ∧
      (∀ i p a, ps[i]? = some p → xs[i]? = some a → a = t "(" ++ p.tname ++ t ")" ++ p.name ++ t "=" ++
        Show e.find p.t (le 8 (load m 8 (x.st.regs 1 + BitVec.ofNat 64 (i * 8))))) ∧
      (exit = false → y = []) ∧
      (exit = true → y = t " retval=" ++ if ret.void then t "(void)" else
        t "(" ++ ret.tname ++ t ")" ++ Show e.find ret.t (le 8 (x.st.regs 3))) := by
  obtain ⟨s', hx, hsame, hlen, hall, hdots, hret⟩ := Arg.kmulti_roundtrip_partial (m := m) (n := maxArgs) (nparams := ps.length) (wr := wr)
    (x := x) hn
  generalize hd : reads s'.out (Arg.genKmulti maxArgs wr).2 (x.st.regs 2) = d at *
  have hdl : d.length ≠ 0 := by
    rw [← hd, Arg.reads_length]
    unfold Arg.genKmulti
    cases wr <;> simp <;> omega
  obtain ⟨xs, h1, h2, h3⟩ := kmultiLoop_join e maxArgs d (fun i p a => a = t "(" ++ p.tname ++ t ")" ++ p.name ++ t "=" ++
        Show e.find p.t (le 8 (load m 8 (x.st.regs 1 + BitVec.ofNat 64 (i * 8))))) (ps.take maxArgs) 0 (by
      intro j p hj
      rw [List.getElem?_take] at hj
      split at hj
      · next hjm =>
        have hjl : j < ps.length := (List.getElem?_eq_some_iff.1 hj).1
        have hsh := hall j hjl hjm
        unfold Arg.outputKmulti at hsh
        rw [List.getElem?_map, List.getElem?_range (by omega)] at hsh
        simp only [Option.map_some, Option.some.injEq] at hsh
        rw [Nat.zero_add, hsh, reprParam_eq]
        refine ⟨_, ?_, rfl⟩
        simp only [Rp.reprArg, Bool.false_eq_true, if_false]
        have hp := hs p (List.mem_of_getElem? hj)
        rw [Rp.repr_show e hb p.t 8 hp (by omega), show_low e.find p.t hp, Option.map_some]
      · exact absurd hj (by simp))
  simp only [ne_eq, not_true_eq_false, false_and, if_false, List.nil_append, Nat.zero_add] at h1 h3
  rw [List.length_take] at h2
  have hx0 : maxArgs < ps.length → xs ≠ [] := by
    intro h h'
    rw [h'] at h2
    simp at h2
    omega
  have hargs : ∀ y, kmultiPart e ⟨some ⟨ps, ret⟩, fs, fr, pt⟩ (Arg.kmultiRet maxArgs exit d) = some y →
      args e maxArgs ⟨some ⟨ps, ret⟩, fs, fr, pt⟩ exit true d =
        some (t "=(" ++ join (t ", ") (xs ++ if maxArgs < ps.length then [t "..."] else []) ++ t ")" ++ y) := by
    intro y hy
    unfold args
    rw [if_neg hdl, if_pos rfl]
    unfold kmulti
    rw [hy]
    unfold kmultiArgs
    dsimp only
    rw [h1]
    by_cases hlt : maxArgs < ps.length
    · simp only [Option.map_some, if_pos hlt, join_snoc, if_neg (hx0 hlt)]
      rw [if_pos (by omega)]
      simp
    · simp only [Option.map_some, if_neg hlt, List.append_nil]
  have hA : ∀ i p a, ps[i]? = some p → xs[i]? = some a → a = t "(" ++ p.tname ++ t ")" ++ p.name ++ t "=" ++
        Show e.find p.t (le 8 (load m 8 (x.st.regs 1 + BitVec.ofNat 64 (i * 8)))) := by
    intro i p a hp ha
    have hi : i < xs.length := (List.getElem?_eq_some_iff.1 ha).1
    exact h3 i p a (by rw [List.getElem?_take, if_pos (by omega)]; exact hp) ha
  cases exit with
  | false => exact ⟨s', xs, [], hx, by rw [hd]; exact hargs [] rfl, by omega, hA, fun _ => rfl, by simp⟩
  | true =>
    cases hw rfl
    rw [hret] at hargs
    refine ⟨s', xs, t " retval=" ++ (if ret.void then t "(void)" else t "(" ++ ret.tname ++ t ")" ++ Show e.find ret.t (le 8 (x.st.regs 3))),
      hx, ?_, by omega, hA, by simp, fun _ => rfl⟩
    rw [hd]
    apply hargs
    rw [if_pos rfl]
    unfold kmultiPart kmultiRetval Rp.reprReturn
    dsimp only
    cases hv : ret.void with
    | true => simp [t]
    | false =>
      simp only [Bool.false_eq_true, if_false, Rp.reprArg, Rp.repr_show e hb ret.t 8 (hrs hv) (by omega), show_low e.find ret.t (hrs hv),
        Option.map_some]
      simp [t]

/-! ### Function pointers, examples -/

/-- **C82.** A pointer to a function is shown in hexadecimal with, in parentheses, the traced BPF program at that address or else the kernel
symbol at that very address, and nothing if there is none. -/
theorem fnptr_shown (progs : W → Option Text) (exact : W → Text) (m : Mem) (v : W) (y : Text)
    (h : Reads (findSymbol progs exact) m (.ptr .func) v y) :
    (∀ p, progs v = some p → y = hex v.toNat ++ t "(" ++ p ++ t "[bpf])") ∧
    (progs v = none → exact v ≠ [] → y = hex v.toNat ++ t "(" ++ exact v ++ t ")") ∧
    (progs v = none → exact v = [] → y = hex v.toNat) := by
  cases h with
  | number s g b h => exact absurd h (by simp)
  | null s g b h => exact absurd h (by simp)
  | value h =>
    have hle : Arg.leVal ((le 8 v).take 8) = v.toNat := by
      rw [List.take_of_length_le (by rw [Arg.le_length]; omega), Arg.leVal_le, Nat.mod_eq_of_lt (by have := v.isLt; omega)]
    simp only [Show, hle, Rp.T.isFunc, true_and, BitVec.ofNat_toNat, BitVec.setWidth_eq]
    refine ⟨fun p hp => ?_, fun hp he => ?_, fun hp he => ?_⟩ <;> simp [findSymbol, hp, t]
    · exact he
    · exact he

/-- `int f(const char *name, int *p, short n, void (*cb)(void))` -/
def exParams : List Prm :=
  [⟨t "name", t "const char *", .ptr (.int 1 true false), true⟩, ⟨t "p", t "int *", .ptr (.int 4 true false), false⟩,
   ⟨t "n", t "short int", .int 2 true false, false⟩, ⟨t "cb", t "void (*)(void)", .ptr .func, false⟩]

def exRet : Ret := ⟨t "int", .int 4 true false, false, false⟩

def exEnv : Env := ⟨findSymbol (fun _ => none) (fun a => if a = 0x1000 then t "rcu_cb" else []), fun _ _ => [], List.replicate 8 0⟩

/-- The hypotheses of `args_shown_partial` hold for this function, and of `kmulti_shown_partial`. -/
example : (∃ fs fr, Arg.getFuncParams (exParams.map Prm.pty) exRet.pty = some (fs, fr)) ∧ (∀ p ∈ exParams, Simple p.t) ∧
    (exRet.void = false → exRet.cstr = false → Simple exRet.t) ∧ FirstString exParams 0 ∧ 8 ≤ exEnv.beyond.length := by
  refine ⟨⟨_, _, rfl⟩, ?_, ?_, ⟨⟨_, rfl, rfl⟩, fun j q h => absurd h (by omega)⟩, by decide⟩
  · intro p hp
    simp only [exParams, List.mem_cons, List.not_mem_nil, or_false] at hp
    rcases hp with rfl | rfl | rfl | rfl <;> refine ⟨?_, ?_, ?_⟩ <;> simp [Plain]
  · intro _ _
    refine ⟨?_, ?_, ?_⟩ <;> simp [exRet, Plain]

example : (args exEnv 6 ⟨some ⟨exParams, exRet⟩, [⟨true, true, false⟩, ⟨true, false, false⟩, ⟨false, false, false⟩, ⟨false, false, false⟩],
      ⟨false, false, false⟩, .other⟩ true false
      ([0x6c, 0x6f] ++ List.replicate 62 0 ++ le 8 0x7f00 ++ le 8 0xffffffff ++ le 8 0xfffe ++ le 8 0x1000 ++ le 8 (-22))) =
    some (t "=((const char *)name=\"lo\", (int *)p=0x7f00(-1), (short int)n=-2, (void (*)(void))cb=0x1000(rcu_cb)) retval=(int)-22") := by
  decide +kernel

/-- The same function traced with `(m)` on a machine where two arguments can be captured. -/
example : (args exEnv 2 ⟨some ⟨exParams, exRet⟩, [], ⟨false, false, false⟩, .other⟩ true true (le 8 0x10 ++ le 8 0x7f00 ++ le 8 (-22))) =
    some (t "=((const char *)name=0x10, (int *)p=0x7f00, ...) retval=(int)-22") := by
  decide +kernel

/-! ### Pointers to enums, and nothing at all -/

/-- **C82.** A pointer to an enum of four bytes is followed: it reads as its address and the name of the enumerator it points to, if the four bytes behind
the enum are zero (the code reads eight). -/
theorem enum_ptr_shown (e : Env) (m : Mem) (vals : List (Text × W)) (hv : ∀ x ∈ vals, x.2.toNat < 2 ^ 32) (v next : W) (s : Text) (h0 : v ≠ 0)
    (hz : (load m 8 v).toNat < 2 ^ 32) :
    Rp.reprArg e (.ptr (.enum 4 vals)) false (numberPtr (.ptr (.enum 4 vals))) v (load m 8 v) next s =
      some (hex v.toNat ++ t "(" ++ Show e.find (.enum 4 vals) (le 8 (load m 8 v)) ++ t ")") := by
  simp only [Rp.reprArg, numberPtr, Bool.false_eq_true, if_false, if_true, ne_eq, h0, not_false_eq_true, Rp.enum_printed e vals hv (load m 8 v) next hz]
  simp [t]

/-- **C82 violated.** Two enums next to each other: the first one, which is 1, is not recognised. -/
theorem enum_ptr_violated : Rp.reprArg Rp.exEnv (.ptr (.enum 4 [(['X'], 1)])) false (numberPtr (.ptr (.enum 4 [(['X'], 1)]))) 0x1000 0x0000000500000001 0 [] =
    some (t "0x1000(21474836481)") ∧ Show Rp.exEnv.find (.enum 4 [(['X'], 1)]) (le 8 0x0000000500000001#64) = ['X'] := by decide +kernel

/-- **C82.** A function without parameters: the empty list, and at the exit of a function that is not traced with `(m)` `(void)`. -/
theorem nothing_shown (e : Env) (maxArgs : Nat) (i : Info) (exit isKmulti : Bool) :
    args e maxArgs i exit isKmulti [] = some (if exit = true ∧ isKmulti = false then t "=() retval=(void)" else t "=()") := by
  cases exit <;> cases isKmulti <;> rfl

end Bpfsnoop.Ft
