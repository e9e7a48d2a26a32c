import Verif.Model.Opts
import Verif.Props.Flags

/-! C53: which combinations of options are accepted, and what they lead to. -/
namespace Bpfsnoop.Opt
open Flg

/-- Specification: `s` contains `t`. -/
def Has (t s : Str) : Prop := ∃ a b, s = a ++ t ++ b

theorem contains_iff (t s : Str) : contains t s = true ↔ Has t s := by
  induction s with
  | nil =>
    simp only [contains, List.isEmpty_iff, Has]
    constructor
    · rintro rfl; exact ⟨[], [], rfl⟩
    · rintro ⟨a, b, h⟩
      simp at h
      exact h.2.1
  | cons c r ih =>
    simp only [contains, Bool.or_eq_true, ih, isPrefixOf_iff]
    constructor
    · rintro (⟨b, h⟩ | ⟨a, b, h⟩)
      · exact ⟨[], b, by simpa using h⟩
      · exact ⟨c :: a, b, by simp [h]⟩
    · rintro ⟨a, b, h⟩
      cases a with
      | nil => exact .inl ⟨b, by simpa using h⟩
      | cons x a =>
        simp only [List.cons_append, List.cons.injEq] at h
        exact .inr ⟨a, b, h.2⟩

theorem hasM_iff (s : Str) : hasM s = true ↔ Has "(m)".toList s := contains_iff _ _

/-! ### Modes -/

/-- Specification: the modes in force. Given with `-m`, they are those; otherwise entry if every `-k` selector is
marked `(m)`, and exit if one is not. -/
def ModesInForce (o : Opts) (ms : List String) : Prop :=
  (o.modes ≠ [] → ms = o.modes) ∧
  (o.modes = [] → (∀ k ∈ o.kfuncs, Has "(m)".toList k) → ms = ["entry"]) ∧
  (o.modes = [] → (∃ k ∈ o.kfuncs, ¬ Has "(m)".toList k) → ms = ["exit"])

theorem setDefaultModes_inForce (o : Opts) : ModesInForce o (setDefaultModes o.modes o.kfuncs) := by
  refine ⟨?_, ?_, ?_⟩
  · intro h
    simp [setDefaultModes, h]
  · intro h hk
    have : multiModeOnly o.kfuncs = true := by
      simp only [multiModeOnly, List.all_eq_true]
      exact fun k hk' => (hasM_iff k).2 (hk k hk')
    simp [setDefaultModes, h, this]
  · rintro h ⟨k, hk, hn⟩
    have : multiModeOnly o.kfuncs = false := by
      simp only [multiModeOnly, List.all_eq_false]
      exact ⟨k, hk, fun hm => hn ((hasM_iff k).1 hm)⟩
    simp [setDefaultModes, h, this]

theorem inForce_unique {o : Opts} {a b : List String} (ha : ModesInForce o a) (hb : ModesInForce o b) : a = b := by
  by_cases h : o.modes = []
  · by_cases hk : ∀ k ∈ o.kfuncs, Has "(m)".toList k
    · rw [ha.2.1 h hk, hb.2.1 h hk]
    · have hk' : ∃ k ∈ o.kfuncs, ¬ Has "(m)".toList k := by
        simpa [Classical.not_forall] using hk
      rw [ha.2.2 h hk', hb.2.2 h hk']
  · rw [ha.1 h, hb.1 h]

/-- Specification: one or two modes, each of them entry or exit. -/
def GoodModes (ms : List String) : Prop := (ms.length = 1 ∨ ms.length = 2) ∧ ∀ m ∈ ms, m = "entry" ∨ m = "exit"

theorem checkMode_iff (ms : List String) : checkMode ms = true ↔ GoodModes ms := by
  match ms with
  | [] => simp [checkMode, GoodModes]
  | [a] => simp [checkMode, GoodModes]
  | [a, b] => simp [checkMode, GoodModes]
  | a :: b :: c :: r => simp [checkMode, GoodModes]

/-! ### Histogram and t-digest -/

theorem dropLast_snoc (s : Str) (c : Char) : (s ++ [c]).dropLast = s := by simp

/-- Specification: the expressions aggregated by `name`. -/
def Agg (name : Str) (e s : Str) : Prop :=
  (∃ b, s = name ++ ['('] ++ b ∧ ((∃ x, b = x ++ [')'] ∧ e = x) ∨ ((∀ x, b ≠ x ++ [')']) ∧ e = b)))

theorem trimParen_iff (b e : Str) : trimParen b = e ↔ ((∃ x, b = x ++ [')'] ∧ e = x) ∨ ((∀ x, b ≠ x ++ [')']) ∧ e = b)) := by
  unfold trimParen
  by_cases h : b.getLast? = some ')'
  · obtain ⟨x, rfl⟩ := List.getLast?_eq_some_iff.1 h
    simp only [List.getLast?_append, List.getLast?_singleton, Option.some_or, if_true, List.dropLast_concat]
    constructor
    · rintro rfl; exact .inl ⟨x, rfl, rfl⟩
    · rintro (⟨y, h, rfl⟩ | ⟨h, _⟩)
      · simpa using h
      · exact absurd rfl (h x)
  · simp only [h, if_false]
    constructor
    · rintro rfl
      refine .inr ⟨fun x hx => h (by simp [hx]), rfl⟩
    · rintro (⟨y, rfl, _⟩ | ⟨_, rfl⟩)
      · simp at h
      · rfl

theorem findAgg_acc (name : Str) : ∀ (ss : List Str) (a : Str) (r : Option Str),
    findAgg name ss (some a) = .ok r ↔ (∀ s ∈ ss, ∀ b, s ≠ name ++ ['('] ++ b) ∧ r = some a := by
  intro ss
  induction ss with
  | nil => intro a r; simp [findAgg, eq_comm]
  | cons s ss ih =>
    intro a r
    unfold findAgg
    by_cases h : (name ++ ['(']).isPrefixOf s = true
    · obtain ⟨b, hb⟩ := (isPrefixOf_iff _ _).1 h
      simp only [h, Bool.not_true, Bool.false_eq_true, if_false, Option.isSome_some, if_true]
      constructor
      · intro h; exact absurd h (by simp)
      · rintro ⟨h1, _⟩; exact absurd hb (h1 s (by simp) b)
    · have h' : (name ++ ['(']).isPrefixOf s = false := Bool.eq_false_iff.2 h
      simp only [h', Bool.not_false, if_true, ih, List.mem_cons, forall_eq_or_imp]
      constructor
      · rintro ⟨h1, h2⟩
        exact ⟨⟨fun b hb => h ((isPrefixOf_iff _ _).2 ⟨b, hb⟩), h1⟩, h2⟩
      · rintro ⟨⟨_, h1⟩, h2⟩; exact ⟨h1, h2⟩

/-- The aggregated expression is the one between `name(` and the closing bracket, of the only `--output-arg` starting
that way. -/
theorem findAgg_iff (name : Str) : ∀ (ss : List Str) (r : Option Str), findAgg name ss none = .ok r ↔
    ((∀ s ∈ ss, ∀ b, s ≠ name ++ ['('] ++ b) ∧ r = none) ∨
    ∃ l s t e, ss = l ++ s :: t ∧ Agg name e s ∧ (∀ u ∈ l ++ t, ∀ b, u ≠ name ++ ['('] ++ b) ∧ r = some e := by
  intro ss
  induction ss with
  | nil => intro r; simp [findAgg, eq_comm]
  | cons s ss ih =>
    intro r
    unfold findAgg
    by_cases h : (name ++ ['(']).isPrefixOf s = true
    · obtain ⟨b, hb⟩ := (isPrefixOf_iff _ _).1 h
      simp only [h, Bool.not_true, Bool.false_eq_true, if_false, Option.isSome_none, findAgg_acc]
      have hd : s.drop (name.length + 1) = b := by
        rw [hb, show name.length + 1 = (name ++ ['(']).length by simp, List.drop_left]
      rw [hd]
      constructor
      · rintro ⟨h1, h2⟩
        exact .inr ⟨[], s, ss, trimParen b, rfl, ⟨b, hb, (trimParen_iff b _).1 rfl⟩, by simpa using h1, h2⟩
      · rintro (⟨h1, _⟩ | ⟨l, u, t, e, hl, ⟨b', hb', he⟩, hn, hr⟩)
        · exact absurd hb (h1 s (by simp) b)
        · cases l with
          | nil =>
            simp only [List.nil_append, List.cons.injEq] at hl
            obtain ⟨rfl, rfl⟩ := hl
            have : b' = b := List.append_cancel_left (hb'.symm.trans hb)
            subst this
            rw [hr, (trimParen_iff b' e).2 he]
            exact ⟨by simpa using hn, rfl⟩
          | cons x l =>
            simp only [List.cons_append, List.cons.injEq] at hl
            exact absurd hb (hn s (by simp [hl.1]) b)
    · have h' : (name ++ ['(']).isPrefixOf s = false := Bool.eq_false_iff.2 h
      have hs : ∀ b, s ≠ name ++ ['('] ++ b := fun b hb => h ((isPrefixOf_iff _ _).2 ⟨b, hb⟩)
      simp only [h', Bool.not_false, if_true, ih]
      constructor
      · rintro (⟨h1, h2⟩ | ⟨l, u, t, e, rfl, ha, hn, hr⟩)
        · refine .inl ⟨?_, h2⟩
          intro x hx
          rcases List.mem_cons.1 hx with rfl | hx
          · exact hs
          · exact h1 x hx
        · refine .inr ⟨s :: l, u, t, e, rfl, ha, ?_, hr⟩
          intro x hx
          rcases List.mem_cons.1 hx with rfl | hx
          · exact hs
          · exact hn x hx
      · rintro (⟨h1, h2⟩ | ⟨l, u, t, e, hl, ha, hn, hr⟩)
        · exact .inl ⟨fun x hx => h1 x (by simp [hx]), h2⟩
        · cases l with
          | nil =>
            simp only [List.nil_append, List.cons.injEq] at hl
            obtain ⟨rfl, rfl⟩ := hl
            obtain ⟨b, hb, _⟩ := ha
            exact absurd hb (hs b)
          | cons x l =>
            simp only [List.cons_append, List.cons.injEq] at hl
            exact .inr ⟨l, u, t, e, hl.2, ha, fun v hv => hn v (by simp only [List.cons_append, List.mem_cons]; exact .inr hv), hr⟩

/-- Specification: what `--output-arg` aggregates with `name`: nothing, or the expression of exactly one of them. -/
def Aggregated (name : Str) (ss : List Str) (r : Option Str) : Prop :=
  ((∀ s ∈ ss, ∀ b, s ≠ name ++ ['('] ++ b) ∧ r = none) ∨
    ∃ l s t e, ss = l ++ s :: t ∧ Agg name e s ∧ (∀ u ∈ l ++ t, ∀ b, u ≠ name ++ ['('] ++ b) ∧ r = some e

/-! ### Acceptance -/

/-- Specification: an exit-only run with `(m)` selectors filters or prints arguments. -/
def ExitConflict (o : Opts) (ms : List String) : Prop :=
  (∃ k ∈ o.kfuncs, Has "(m)".toList k) ∧ "exit" ∈ ms ∧ "entry" ∉ ms ∧
    (o.filterArg ≠ [] ∨ o.filterPkt ≠ [] ∨ o.outputArg ≠ [] ∨ o.outputPkt = true)

theorem multiExitConflict_iff (o : Opts) (ms : List String) : multiExitConflict o ms = true ↔ ExitConflict o ms := by
  unfold multiExitConflict ExitConflict kfuncsMulti
  have he : (o.kfuncs.filter hasM).isEmpty = true ↔ ¬ ∃ k ∈ o.kfuncs, Has "(m)".toList k := by
    simp only [List.isEmpty_iff, List.filter_eq_nil_iff, hasM_iff]
    constructor
    · rintro h ⟨k, hk, hm⟩; exact h k hk hm
    · intro h k hk hm; exact h ⟨k, hk, hm⟩
  by_cases h : (o.kfuncs.filter hasM).isEmpty = true
  · have := he.1 h
    simp only [h, if_true, Bool.false_eq_true, false_iff]
    exact fun hc => this hc.1
  · have h1 : ∃ k ∈ o.kfuncs, Has "(m)".toList k := Classical.byContradiction fun hn => h (he.2 hn)
    simp only [h, if_false, h1, true_and, Bool.false_eq_true]
    by_cases h2 : ms.contains "exit" = true
    · by_cases h3 : ms.contains "entry" = true
      · simp only [h2, h3, Bool.not_true, Bool.false_or, if_true, Bool.false_eq_true, false_iff]
        rintro ⟨_, h4, _⟩
        exact h4 (by simpa using h3)
      · have h3' : ms.contains "entry" = false := by simpa using h3
        have h4 : "entry" ∉ ms := by simpa using h3
        have h5 : "exit" ∈ ms := by simpa using h2
        simp only [h2, h3', Bool.not_true, Bool.false_or, if_false, Bool.false_eq_true, Bool.or_eq_true, h4, h5,
          not_false_eq_true, true_and, Bool.not_eq_true', List.isEmpty_eq_false_iff, ne_eq, or_assoc]
    · have h2' : ms.contains "exit" = false := by simpa using h2
      have h5 : "exit" ∉ ms := by simpa using h2
      simp only [h2', Bool.not_false, Bool.true_or, if_true, h5, false_and, Bool.false_eq_true]

/-- Specification: `(m)` where the function graph cannot use it. -/
def GraphMulti (o : Opts) : Prop :=
  (∃ k ∈ o.kfuncs, Has "(m)".toList k ∧ Has "(g)".toList k) ∨ ∃ k ∈ o.incl ++ o.excl ++ o.extra, Has "(m)".toList k

theorem fgraphMulti_iff (o : Opts) : fgraphMulti o = true ↔ GraphMulti o := by
  simp only [fgraphMulti, GraphMulti, Bool.or_eq_true, List.any_eq_true, Bool.and_eq_true, hasM_iff, contains_iff,
    List.mem_append]
  constructor
  · rintro (((h | ⟨k, h1, h2⟩) | ⟨k, h1, h2⟩) | ⟨k, h1, h2⟩)
    · exact .inl h
    · exact .inr ⟨k, .inl (.inl h1), h2⟩
    · exact .inr ⟨k, .inl (.inr h1), h2⟩
    · exact .inr ⟨k, .inr h1, h2⟩
  · rintro (h | ⟨k, (h1 | h1) | h1, h2⟩)
    · exact .inl (.inl (.inl h))
    · exact .inl (.inl (.inr ⟨k, h1, h2⟩))
    · exact .inl (.inr ⟨k, h1, h2⟩)
    · exact .inr ⟨k, h1, h2⟩

/-- Specification: LBR is needed. -/
def NeedsLbr (o : Opts) : Prop := o.outputLbr = true ∨ ∃ k, (k ∈ o.kfuncs ∨ k ∈ o.progs) ∧ Has "(l)".toList k

/-- Specification: stacks are asked for, globally or by a selector. -/
def NeedsStack (o : Opts) : Prop :=
  o.outputStack = true ∨ o.flameGraph ≠ [] ∨ ∃ k, (k ∈ o.kfuncs ∨ k ∈ o.ktps ∨ k ∈ o.progs) ∧ Has "(s)".toList k

/-- **C53.** The options are accepted exactly when the modes in force are one or two of entry and exit, no exit-only
`(m)` run filters or prints arguments or packets, the graph depth is between 1 and 500, no function-graph selector is
marked `(m)`, and at most one `--output-arg` starts with `hist(` and at most one with `tdigest(`; what follows is
determined by the options. -/
theorem check_ok_iff (o : Opts) (r : Res) : check o = .ok r ↔
    ModesInForce o r.modes ∧ GoodModes r.modes ∧ ¬ ExitConflict o r.modes ∧ (1 ≤ o.depth ∧ o.depth ≤ 500) ∧
    ¬ GraphMulti o ∧ Aggregated "hist".toList o.outputArg r.hist ∧ Aggregated "tdigest".toList o.outputArg r.tdig ∧
    (r.lbr = true ↔ NeedsLbr o) ∧ (r.vmlinux = true ↔ o.noVmlinux = false ∧ (NeedsStack o ∨ NeedsLbr o)) ∧
    (r.stack = true ↔ o.outputStack = true ∨ o.flameGraph ≠ []) := by
  have hl : (o.outputLbr || (o.kfuncs ++ o.progs).any (contains "(l)".toList)) = true ↔ NeedsLbr o := by
    simp only [NeedsLbr, Bool.or_eq_true, List.any_eq_true, List.mem_append, contains_iff]
  have hs : (o.outputStack || !o.flameGraph.isEmpty) = true ↔ o.outputStack = true ∨ o.flameGraph ≠ [] := by
    simp
  have hv : (!o.noVmlinux && ((o.kfuncs ++ o.ktps ++ o.progs).any (contains "(s)".toList) ||
      (o.outputStack || !o.flameGraph.isEmpty) || o.outputLbr ||
      (o.outputLbr || (o.kfuncs ++ o.progs).any (contains "(l)".toList)))) = true ↔
      o.noVmlinux = false ∧ (NeedsStack o ∨ NeedsLbr o) := by
    rw [Bool.and_eq_true, Bool.or_eq_true, Bool.or_eq_true, Bool.or_eq_true, hl, hs]
    simp only [Bool.not_eq_true', NeedsStack, List.any_eq_true, List.mem_append, contains_iff, or_assoc]
    refine and_congr_right fun _ => ?_
    constructor
    · rintro (h | h | h | h | h)
      · exact .inr (.inr (.inl h))
      · exact .inl h
      · exact .inr (.inl h)
      · exact .inr (.inr (.inr (.inl h)))
      · exact .inr (.inr (.inr h))
    · rintro (h | h | h | h)
      · exact .inr (.inl h)
      · exact .inr (.inr (.inl h))
      · exact .inl h
      · exact .inr (.inr (.inr (.inr h)))
  have beq : ∀ (a b : Bool) (P : Prop), (a = true ↔ P) → (b = a ↔ (b = true ↔ P)) := by
    intro a b P h
    rw [← h]
    exact ⟨fun e => by rw [e], fun e => Bool.eq_iff_iff.2 e⟩
  unfold check
  simp only []
  by_cases h1 : checkMode (setDefaultModes o.modes o.kfuncs) = true
  case neg =>
    simp only [h1, Bool.not_false, if_true]
    constructor
    · intro h; exact absurd h (by simp)
    · rintro ⟨hm, hg, _⟩
      rw [inForce_unique hm (setDefaultModes_inForce o)] at hg
      exact absurd ((checkMode_iff _).2 hg) h1
  simp only [h1, Bool.not_true, Bool.false_eq_true, if_false]
  by_cases h2 : multiExitConflict o (setDefaultModes o.modes o.kfuncs) = true
  · simp only [h2, if_true]
    constructor
    · intro h; exact absurd h (by simp)
    · rintro ⟨hm, _, hc, _⟩
      rw [inForce_unique hm (setDefaultModes_inForce o)] at hc
      exact absurd ((multiExitConflict_iff o _).1 h2) hc
  simp only [h2, if_false, Bool.false_eq_true]
  by_cases h3 : o.depth = 0 ∨ 500 < o.depth
  · simp only [h3, if_true]
    constructor
    · intro h; exact absurd h (by simp)
    · rintro ⟨_, _, _, hd, _⟩; omega
  simp only [h3, if_false]
  by_cases h4 : fgraphMulti o = true
  · simp only [h4, if_true]
    constructor
    · intro h; exact absurd h (by simp)
    · rintro ⟨_, _, _, _, hg, _⟩; exact absurd ((fgraphMulti_iff o).1 h4) hg
  simp only [h4, if_false, Bool.false_eq_true]
  cases h5 : findAgg "hist".toList o.outputArg none with
  | error e =>
    constructor
    · intro h; exact absurd h (by simp)
    · rintro ⟨_, _, _, _, _, hg, _⟩
      have := (findAgg_iff _ _ _).2 hg
      rw [h5] at this
      exact absurd this (by simp)
  | ok hist =>
    simp only []
    cases h6 : findAgg "tdigest".toList o.outputArg none with
    | error e =>
      constructor
      · intro h; exact absurd h (by simp)
      · rintro ⟨_, _, _, _, _, _, hg, _⟩
        have := (findAgg_iff _ _ _).2 hg
        rw [h6] at this
        exact absurd this (by simp)
    | ok tdig =>
      simp only [Except.ok.injEq]
      constructor
      · rintro rfl
        refine ⟨setDefaultModes_inForce o, (checkMode_iff _).1 h1, fun hc => h2 ((multiExitConflict_iff o _).2 hc),
          by omega, fun hg => h4 ((fgraphMulti_iff o).2 hg), (findAgg_iff _ _ _).1 h5, (findAgg_iff _ _ _).1 h6, hl, hv, hs⟩
      · rintro ⟨hm, _, _, _, _, hh, ht, hl', hv', hs'⟩
        have e1 := inForce_unique hm (setDefaultModes_inForce o)
        have e2 := (findAgg_iff _ _ _).2 hh
        have e3 := (findAgg_iff _ _ _).2 ht
        rw [h5] at e2
        rw [h6] at e3
        simp only [Except.ok.injEq] at e2 e3
        have e4 := (beq _ _ _ hl).2 hl'
        have e5 := (beq _ _ _ hv).2 hv'
        have e6 := (beq _ _ _ hs).2 hs'
        cases r
        simp only at e1 e2 e3 e4 e5 e6
        simp only [Res.mk.injEq]
        exact ⟨e1.symm, e2, e3, e4.symm, e5.symm, e6.symm⟩

/-- A run with a graph, a histogram, stacks and both modes is accepted. -/
theorem check_witness : check {
      modes := ["entry", "exit"], kfuncs := ["(s)tcp_connect".toList, "(m)*:(struct sk_buff *)skb".toList],
      outputArg := ["hist(skb->len)".toList, "skb->len".toList], depth := 500 } =
    .ok ⟨["entry", "exit"], some "skb->len".toList, none, false, true, false⟩ := by rfl

/-- Every `-k` selector is handed to exactly one of the two ways of tracing, in the order given: those containing `(m)`
to kprobe.multi, the others to ordinary tracing. -/
theorem kfuncs_divided (o : Opts) :
    (kfuncs o).Sublist o.kfuncs ∧ (kfuncsMulti o).Sublist o.kfuncs ∧
    (∀ k, k ∈ kfuncs o ↔ k ∈ o.kfuncs ∧ ¬ Has "(m)".toList k) ∧
    (∀ k, k ∈ kfuncsMulti o ↔ k ∈ o.kfuncs ∧ Has "(m)".toList k) ∧
    ∀ k, o.kfuncs.count k = (kfuncs o).count k + (kfuncsMulti o).count k := by
  refine ⟨List.filter_sublist, List.filter_sublist, ?_, ?_, ?_⟩
  · intro k
    simp only [kfuncs, List.mem_filter, Bool.not_eq_true', ← hasM_iff, Bool.not_eq_true]
  · intro k
    simp only [kfuncsMulti, List.mem_filter, hasM_iff]
  · intro k
    simp only [kfuncs, kfuncsMulti]
    induction o.kfuncs with
    | nil => rfl
    | cons x l ih =>
      by_cases hx : hasM x = true
      · simp only [List.filter_cons, hx, Bool.not_true, Bool.false_eq_true, if_false, if_true, List.count_cons, ih]
        omega
      · have hx' : hasM x = false := by simpa using hx
        simp only [List.filter_cons, hx', Bool.not_false, Bool.false_eq_true, if_false, if_true, List.count_cons, ih]
        omega

/-! ### What the checks miss -/

/-- **C53 violated**: two histograms are accepted if one is written with a leading blank, although the expression is
trimmed before it is compiled (output_arg.go 66-68), so both are compiled as histograms and counted together. -/
theorem two_histograms_violated (o : Opts) (ms : List String) (e₁ e₂ : Str)
    (ho : o = { modes := ms, outputArg := ["hist(".toList ++ e₁ ++ [')'], " hist(".toList ++ e₂ ++ [')']] }) (hm : GoodModes ms) :
    (∃ r, check o = .ok r ∧ r.hist = some e₁) ∧ trim (" hist(".toList ++ e₂ ++ [')']) = "hist(".toList ++ e₂ ++ [')'] := by
  have hne : ms ≠ [] := by rintro rfl; simp [GoodModes] at hm
  subst ho
  constructor
  · refine ⟨⟨ms, some e₁, none, false, false, false⟩, (check_ok_iff _ _).2 ⟨⟨fun _ => rfl, ?_, ?_⟩, hm, ?_, ?_, ?_, ?_, ?_, ?_, ?_, ?_⟩, rfl⟩
    · intro h; exact absurd h hne
    · intro h; exact absurd h hne
    · rintro ⟨⟨k, hk, _⟩, _⟩; simp at hk
    · simp
    · rintro (⟨k, hk, _⟩ | ⟨k, hk, _⟩) <;> simp at hk
    · refine .inr ⟨[], _, _, e₁, rfl, ⟨e₁ ++ [')'], by simp, .inl ⟨e₁, rfl, rfl⟩⟩, ?_, rfl⟩
      intro u hu b hb
      simp only [List.nil_append, List.mem_singleton] at hu
      rw [hu] at hb
      simp at hb
    · refine .inl ⟨?_, rfl⟩
      intro u hu b hb
      simp only [List.mem_cons, List.not_mem_nil, or_false] at hu
      rcases hu with rfl | rfl <;> simp at hb
    · simp [NeedsLbr]
    · simp [NeedsStack, NeedsLbr]
    · simp
  · have hh : isSpace 'h' = false := by decide
    have hp : isSpace ')' = false := by decide
    have hb : isSpace ' ' = true := by decide
    simp only [trim]
    have : " hist(".toList ++ e₂ ++ [')'] = ' ' :: ('h' :: ("ist(".toList ++ e₂ ++ [')'])) := rfl
    rw [this]
    simp only [List.dropWhile_cons, hb, if_true, hh, Bool.false_eq_true, if_false]
    rw [show ('h' :: ("ist(".toList ++ e₂ ++ [')'])) = ('h' :: ("ist(".toList ++ e₂)) ++ [')'] by simp]
    rw [List.reverse_append]
    simp only [List.reverse_cons, List.reverse_nil, List.nil_append, List.singleton_append, List.dropWhile_cons, hp,
      Bool.false_eq_true, if_false]
    simp

/-- **C53 violated**: a tracepoint marked `(l)` does not make bpfsnoop open the LBR perf events. -/
theorem tracepoint_lbr_violated (ktps : List Str) : ∃ r, check { ktps := ktps } = .ok r ∧ r.lbr = false := by
  refine ⟨⟨["entry"], none, none, false, ktps.any (contains "(s)".toList), false⟩, ?_, rfl⟩
  simp [check, setDefaultModes, multiModeOnly, checkMode, multiExitConflict, kfuncsMulti, fgraphMulti, findAgg]

end Bpfsnoop.Opt
