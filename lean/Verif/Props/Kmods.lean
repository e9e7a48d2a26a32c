import Verif.Model.Kmods
import Verif.Props.KfuncSel

/-
C62: the kernel functions asked for are searched in the kernel and in the modules asked for.
-/
namespace Bpfsnoop.Km
open Flg (Str BFunc KfuncFlag Ksym KFunc Glob)

/-! ### Specification -/

/-- `m` is the first of the modules whose name the text `fn` begins with. -/
def FirstPrefix (mods : List Str) (fn m : Str) : Prop :=
  ∃ pre post, mods = pre ++ m :: post ∧ m <+: fn ∧ ∀ x ∈ pre, ¬ x <+: fn

/-- Two different names given that come before `vmlinux`. -/
def TwoBefore (kmods : List Str) : Prop := ∃ a ∈ kmods, ∃ b ∈ kmods, a ≠ b ∧ a < vmlinux ∧ b < vmlinux

/-! ### Sorting -/

theorem le_trans' (a b c : Str) (h : decide (a ≤ b) = true) (h' : decide (b ≤ c) = true) : decide (a ≤ c) = true := by
  simp only [decide_eq_true_eq] at *
  exact List.le_trans h h'

theorem le_total' (a b : Str) : (decide (a ≤ b) || decide (b ≤ a)) = true := by
  simp only [Bool.or_eq_true, decide_eq_true_eq]
  exact List.le_total a b

theorem lt_of_le_ne {a b : Str} (h : a ≤ b) (hn : a ≠ b) : a < b := by
  by_cases hlt : a < b
  · exact hlt
  · exact absurd (List.le_antisymm h (List.not_lt.mp hlt)) hn

theorem compact_spec : ∀ l : List Str, l.Pairwise (· ≤ ·) → (compact l).Pairwise (· < ·) ∧ ∀ x, x ∈ compact l ↔ x ∈ l
  | [], _ => by simp [compact]
  | [a], _ => by simp [compact]
  | a :: b :: l, h => by
    have h' := (List.pairwise_cons.mp h).2
    obtain ⟨h1, h2⟩ := compact_spec (b :: l) h'
    unfold compact
    split
    · next e =>
      subst e
      refine ⟨h1, fun x => ?_⟩
      rw [h2]
      simp
    · next e =>
      refine ⟨List.pairwise_cons.mpr ⟨fun x hx => ?_, h1⟩, fun x => ?_⟩
      · rw [h2] at hx
        have hab := lt_of_le_ne ((List.pairwise_cons.mp h).1 b (by simp)) e
        rcases List.mem_cons.mp hx with rfl | hx
        · exact hab
        · by_cases hbx : b = x
          · exact hbx ▸ hab
          · exact List.lt_trans hab (lt_of_le_ne ((List.pairwise_cons.mp h').1 x hx) hbx)
      · rw [List.mem_cons, h2]
        simp

theorem sorted (l : List Str) : (l.mergeSort fun a b => decide (a ≤ b)).Pairwise (· ≤ ·) := by
  have := List.pairwise_mergeSort le_trans' le_total' l
  exact this.imp (by simp)

/-- Sorting and compacting keeps the names, in ascending order and each once. -/
theorem sortCompact_spec (l : List Str) : (sortCompact l).Pairwise (· < ·) ∧ ∀ x, x ∈ sortCompact l ↔ x ∈ l := by
  obtain ⟨h1, h2⟩ := compact_spec _ (sorted l)
  exact ⟨h1, fun x => (h2 x).trans List.mem_mergeSort⟩

/-! ### Which modules -/

theorem find_first (mods : List Str) (fn m : Str) : mods.find? (fun m => m.isPrefixOf fn) = some m ↔ FirstPrefix mods fn m := by
  rw [List.find?_eq_some_iff_append]
  constructor
  · rintro ⟨h, pre, post, e, hp⟩
    exact ⟨pre, post, e, List.isPrefixOf_iff_prefix.mp h, fun x hx hxp => by
      have := hp x hx
      rw [List.isPrefixOf_iff_prefix.mpr hxp] at this
      cases this⟩
  · rintro ⟨pre, post, e, h, hp⟩
    refine ⟨List.isPrefixOf_iff_prefix.mpr h, pre, post, e, fun x hx => ?_⟩
    cases hb : x.isPrefixOf fn with
    | true => exact absurd (List.isPrefixOf_iff_prefix.mp hb) (hp x hx)
    | false => rfl

theorem matched_iff (mods : List Str) (fn m : Str) (hm : m ≠ []) : matchedKmod mods fn = m ↔ FirstPrefix mods fn m := by
  rw [← find_first]
  unfold matchedKmod
  cases mods.find? fun m => m.isPrefixOf fn with
  | none => simp [Ne.symm hm]
  | some x => simp

theorem foldl_add (f : Str → Str) (l : List Str) : ∀ (acc : List Str) (x : Str),
    x ∈ l.foldl (fun acc fn => if f fn ≠ [] ∧ f fn ∉ acc then acc ++ [f fn] else acc) acc ↔ x ∈ acc ∨ x ≠ [] ∧ ∃ fn ∈ l, f fn = x := by
  induction l with
  | nil => simp
  | cons a l ih =>
    intro acc x
    rw [List.foldl_cons, ih]
    simp only [List.mem_cons, exists_eq_or_imp]
    by_cases h : f a ≠ [] ∧ f a ∉ acc
    · rw [if_pos h, List.mem_append, List.mem_singleton]
      constructor
      · rintro ((hx | rfl) | ⟨hn, hx⟩)
        · exact .inl hx
        · exact .inr ⟨h.1, .inl rfl⟩
        · exact .inr ⟨hn, .inr hx⟩
      · rintro (hx | ⟨hn, rfl | hx⟩)
        · exact .inl (.inl hx)
        · exact .inl (.inr rfl)
        · exact .inr ⟨hn, hx⟩
    · rw [if_neg h]
      constructor
      · rintro (hx | ⟨hn, hx⟩)
        · exact .inl hx
        · exact .inr ⟨hn, .inr hx⟩
      · rintro (hx | ⟨hn, rfl | hx⟩)
        · exact .inl hx
        · by_cases hm : f a ∈ acc
          · exact .inl hm
          · exact absurd ⟨hn, hm⟩ h
        · exact .inr ⟨hn, hx⟩

/-- A module is inferred exactly if it was given or is the first whose name some option begins with. -/
theorem infer_iff (ks : Syms) (funcs kmods : List Str) (m : Str) :
    m ∈ infer ks funcs kmods ↔ m ∈ kmods ∨ m ≠ [] ∧ ∃ fn ∈ funcs, FirstPrefix ks.mods fn m := by
  unfold infer
  rw [(sortCompact_spec _).2, foldl_add (matchedKmod ks.mods) funcs kmods m]
  constructor
  · rintro (h | ⟨hn, fn, hf, h⟩)
    · exact .inl h
    · exact .inr ⟨hn, fn, hf, (matched_iff _ _ _ hn).mp h⟩
  · rintro (h | ⟨hn, fn, hf, h⟩)
    · exact .inl h
    · exact .inr ⟨hn, fn, hf, (matched_iff _ _ _ hn).mpr h⟩

/-- A module is searched exactly if it was given, is the first whose name some option begins with, or has the symbol that an
option names. -/
theorem prepare_iff (ks : Syms) (funcs kmods : List Str) (m : Str) :
    m ∈ prepare ks funcs kmods ↔
      m ∈ kmods ∨ m ≠ [] ∧ ∃ fn ∈ funcs, FirstPrefix ks.mods fn m ∨ ks.modOf fn = some m := by
  unfold prepare
  rw [(sortCompact_spec _).2, foldl_add (fun fn => (ks.modOf fn).getD []) funcs, infer_iff]
  constructor
  · rintro ((h | ⟨hn, fn, hf, h⟩) | ⟨hn, fn, hf, h⟩)
    · exact .inl h
    · exact .inr ⟨hn, fn, hf, .inl h⟩
    · refine .inr ⟨hn, fn, hf, .inr ?_⟩
      cases hm : ks.modOf fn with
      | none => rw [hm] at h; exact absurd h.symm hn
      | some x => rw [hm] at h; exact congrArg some h
  · rintro (h | ⟨hn, fn, hf, h | h⟩)
    · exact .inl (.inl h)
    · exact .inl (.inr ⟨hn, fn, hf, h⟩)
    · exact .inr ⟨hn, fn, hf, by rw [h]; rfl⟩

/-- **Violated**: an option with a flag, `(b)veth_xmit`, does not begin with the name of a module and names no symbol, so the
module of its function is not searched unless it was given. -/
theorem flag_hides_module_violated (ks : Syms) (opts kmods : List Str) (ho : ∀ o ∈ opts, o.head? = some '(')
    (hm : ∀ m ∈ ks.mods, m ≠ [] ∧ m.head? ≠ some '(') (hs : ∀ o m, o.head? = some '(' → ks.modOf o = some m → m = []) (m : Str) :
    m ∈ prepare ks opts kmods ↔ m ∈ kmods := by
  rw [prepare_iff]
  constructor
  · rintro (h | ⟨hn, fn, hf, h | h⟩)
    · exact h
    · obtain ⟨pre, post, e, ⟨r, hr⟩, _⟩ := h
      obtain ⟨h1, h2⟩ := hm m (by rw [e]; simp)
      have := ho fn hf
      cases m with
      | nil => exact absurd rfl h1
      | cons c m' => rw [← hr] at this; exact absurd this h2
    · exact absurd (hs fn m (ho fn hf) h) hn
  · exact .inl

/-- **Violated**: of two modules the name of one of which begins with that of the other, a pattern never selects the longer. -/
theorem prefix_hides_module_violated (ks : Syms) (hs : ks.mods.Pairwise (· < ·)) (m m' : Str) (hm : m ∈ ks.mods)
    (hp : m <+: m') (hne : m ≠ m') (fn : Str) : ¬ FirstPrefix ks.mods fn m' := by
  rintro ⟨pre, post, e, hpf, hpre⟩
  have hlt : m < m' := by
    apply lt_of_le_ne _ hne
    obtain ⟨r, rfl⟩ := hp
    clear hne hm hpf e hs hpre
    induction m with
    | nil => exact List.nil_le _
    | cons c m ih => exact List.cons_le_cons_iff.mpr (.inr ⟨rfl, ih⟩)
  rw [e] at hm hs
  rcases List.mem_append.mp hm with h | h
  · exact hpre m h (hp.trans hpf)
  · rcases List.mem_cons.mp h with h | h
    · exact hne h
    · have := (List.pairwise_cons.mp (List.pairwise_append.mp hs).2.1).1 m h
      exact List.lt_asymm this hlt

/-! ### Which files -/

/-- With --kfunc-all-kmods the kernel comes first and then every other file, by name. -/
theorem names_all (fs : Fs) (kmods : List Str) : ∃ l, names fs true kmods = some (vmlinux :: l) ∧ l.Pairwise (· ≤ ·) ∧
    ∀ x, x ∈ l ↔ x ≠ vmlinux ∧ fs.has x = true := by
  refine ⟨_, rfl, sorted _, fun x => ?_⟩
  rw [List.mem_mergeSort]
  unfold Fs.has
  simp only [List.mem_map, List.mem_filter, List.any_eq_true, Bool.and_eq_true, Bool.not_eq_true', decide_eq_true_eq]
  constructor
  · rintro ⟨f, ⟨h1, h2, h3⟩, rfl⟩
    exact ⟨h3, f, h1, rfl, h2⟩
  · rintro ⟨h3, f, h1, rfl, h2⟩
    exact ⟨f, ⟨h1, h2, h3⟩, rfl⟩

/-- Without `vmlinux` among the modules: the kernel and then every module that has BTF, by name and each once. -/
theorem names_partial (fs : Fs) (kmods : List Str) (h : vmlinux ∉ kmods) (hv : fs.has vmlinux = true) :
    ∃ l, names fs false kmods = some (vmlinux :: l) ∧ l.Pairwise (· < ·) ∧ ∀ x, x ∈ l ↔ x ∈ kmods ∧ fs.has x = true := by
  obtain ⟨h1, h2⟩ := sortCompact_spec kmods
  refine ⟨(sortCompact kmods).filter fs.has, ?_, h1.sublist List.filter_sublist, fun x => ?_⟩
  · have : vmlinux ∉ sortCompact kmods := fun hm => h ((h2 _).mp hm)
    simp [names, this, hv]
  · rw [List.mem_filter, h2]

theorem idx_split (l : List Str) (h : vmlinux ∈ l) :
    ∃ pre post, l = pre ++ vmlinux :: post ∧ vmlinux ∉ pre ∧ l.idxOf vmlinux = pre.length := by
  obtain ⟨pre, post, e, hn⟩ := List.eq_append_cons_of_mem h
  refine ⟨pre, post, e, hn, ?_⟩
  rw [e, List.idxOf_append, if_neg hn]
  simp

theorem before_split {l : List Str} (hs : l.Pairwise (· < ·)) {pre post : List Str} (e : l = pre ++ vmlinux :: post) (x : Str) :
    x ∈ pre ↔ x ∈ l ∧ x < vmlinux := by
  subst e
  obtain ⟨_, h2, h3⟩ := List.pairwise_append.mp hs
  constructor
  · intro hx
    exact ⟨by simp [hx], h3 x hx _ (by simp)⟩
  · rintro ⟨hx, hlt⟩
    rcases List.mem_append.mp hx with h | h
    · exact h
    · rcases List.mem_cons.mp h with h | h
      · subst h; exact absurd hlt (List.lt_irrefl _)
      · exact absurd ((List.pairwise_cons.mp h2).1 x h) (List.lt_asymm hlt)

theorem two_iff {l : List Str} (hs : l.Pairwise (· < ·)) : (∃ a ∈ l, ∃ b ∈ l, a ≠ b) ↔ 2 ≤ l.length := by
  constructor
  · rintro ⟨a, ha, b, hb, hab⟩
    match l, hs with
    | [], _ => cases ha
    | [x], _ => simp only [List.mem_singleton] at ha hb; exact absurd (ha.trans hb.symm) hab
    | x :: y :: l, _ => simp
  · intro h
    match l, hs, h with
    | x :: y :: l, hs, _ =>
      refine ⟨x, by simp, y, by simp, fun e => ?_⟩
      have := (List.pairwise_cons.mp hs).1 y (by simp)
      rw [e] at this
      exact List.lt_irrefl _ this

/-- **Violated**: the search panics exactly if `vmlinux` is among the modules together with two that come before it. -/
theorem names_panic_iff_violated (fs : Fs) (kmods : List Str) : names fs false kmods = none ↔ vmlinux ∈ kmods ∧ TwoBefore kmods := by
  obtain ⟨h1, h2⟩ := sortCompact_spec kmods
  by_cases hv : vmlinux ∈ sortCompact kmods
  · obtain ⟨pre, post, e, hn, hi⟩ := idx_split _ hv
    have hp : pre.Pairwise (· < ·) := (List.pairwise_append.mp (e ▸ h1)).1
    have ht : TwoBefore kmods ↔ 2 ≤ pre.length := by
      rw [← two_iff hp]
      constructor
      · rintro ⟨a, ha, b, hb, hab, la, lb⟩
        exact ⟨a, (before_split h1 e a).mpr ⟨(h2 a).mpr ha, la⟩, b, (before_split h1 e b).mpr ⟨(h2 b).mpr hb, lb⟩, hab⟩
      · rintro ⟨a, ha, b, hb, hab⟩
        obtain ⟨ha, la⟩ := (before_split h1 e a).mp ha
        obtain ⟨hb, lb⟩ := (before_split h1 e b).mp hb
        exact ⟨a, (h2 a).mp ha, b, (h2 b).mp hb, hab, la, lb⟩
    have hlen : 1 ≤ (sortCompact kmods).length := List.length_pos_of_mem hv
    rw [ht]
    simp only [names, Bool.false_eq_true, if_false, if_pos hv, hi, delete]
    by_cases h : pre.length ≤ 1
    · simp [h, hlen]
      intro _; omega
    · simp [h, (h2 _).mp hv]
      omega
  · have hv' : vmlinux ∉ kmods := fun h => hv ((h2 _).mpr h)
    simp [names, hv, hv']

/-- Otherwise the kernel and the modules that have BTF are searched, the kernel first. -/
theorem names_given (fs : Fs) (kmods : List Str) (hp : ¬ (vmlinux ∈ kmods ∧ TwoBefore kmods)) (hv : fs.has vmlinux = true) :
    ∃ l, names fs false kmods = some (vmlinux :: l) ∧ ∀ x, x ∈ vmlinux :: l ↔ (x = vmlinux ∨ x ∈ kmods) ∧ fs.has x = true := by
  by_cases hm : vmlinux ∈ kmods
  · obtain ⟨h1, h2⟩ := sortCompact_spec kmods
    have hv' := (h2 _).mpr hm
    cases hn : names fs false kmods with
    | none => exact absurd ((names_panic_iff_violated fs kmods).mp hn) hp
    | some ns =>
      obtain ⟨pre, post, e, hnp, hi⟩ := idx_split _ hv'
      simp only [names, Bool.false_eq_true, if_false, if_pos hv', hi, delete] at hn
      split at hn
      · next hc =>
        simp only [Option.map_some, Option.some.injEq] at hn
        rw [List.filter_cons_of_pos hv] at hn
        refine ⟨_, by rw [← hn], fun x => ?_⟩
        rw [← List.filter_cons_of_pos hv, List.mem_filter]
        have hmem : x ∈ vmlinux :: ((sortCompact kmods).take pre.length ++ (sortCompact kmods).drop 1) ↔ x = vmlinux ∨ x ∈ kmods := by
          rw [← h2 x, List.mem_cons, e]
          match pre, hc with
          | [], _ => simp
          | [a], _ => simp
        rw [hmem]
      · cases hn
  · obtain ⟨l, h1, _, h3⟩ := names_partial fs kmods hm hv
    refine ⟨l, h1, fun x => ?_⟩
    rw [List.mem_cons, h3]
    constructor
    · rintro (rfl | ⟨h, h'⟩)
      · exact ⟨.inl rfl, hv⟩
      · exact ⟨.inr h, h'⟩
    · rintro ⟨rfl | h, h'⟩
      · exact .inl rfl
      · exact .inr ⟨h, h'⟩

/-- **Violated**: with one module before it, a given `vmlinux` is searched twice. -/
theorem twice_violated (fs : Fs) (a : Str) (h : a < vmlinux) (ha : fs.has a = true) (hv : fs.has vmlinux = true) :
    names fs false [a, vmlinux] = some [vmlinux, a, vmlinux] := by
  have hs : sortCompact [a, vmlinux] = [a, vmlinux] := by
    obtain ⟨h1, h2⟩ := sortCompact_spec [a, vmlinux]
    obtain ⟨pre, post, e, _, _⟩ := idx_split _ ((h2 vmlinux).mpr (by simp))
    have hpre : ∀ x, x ∈ pre ↔ x = a := by
      intro x
      rw [before_split h1 e, h2]
      simp only [List.mem_cons, List.not_mem_nil, or_false]
      constructor
      · rintro ⟨rfl | rfl, hlt⟩
        · rfl
        · exact absurd hlt (List.lt_irrefl _)
      · rintro rfl; exact ⟨.inl rfl, h⟩
    have hpost : post = [] := by
      cases post with
      | nil => rfl
      | cons y ys =>
        have hy : vmlinux < y := (List.pairwise_cons.mp (List.pairwise_append.mp (e ▸ h1)).2.1).1 y (by simp)
        have : y ∈ [a, vmlinux] := (h2 y).mp (e ▸ by simp)
        simp only [List.mem_cons, List.not_mem_nil, or_false] at this
        rcases this with rfl | rfl
        · exact absurd h (List.lt_asymm hy)
        · exact absurd hy (List.lt_irrefl _)
    have hp : pre.Pairwise (· < ·) := (List.pairwise_append.mp (e ▸ h1)).1
    have : pre = [a] := by
      match pre, hpre, hp with
      | [], hpre, _ => exact absurd ((hpre a).mpr rfl) (by simp)
      | [x], hpre, _ => rw [(hpre x).mp (by simp)]
      | x :: y :: l, hpre, hp =>
        have h1 := (hpre x).mp (by simp)
        have h2 := (hpre y).mp (by simp)
        have := (List.pairwise_cons.mp hp).1 y (by simp)
        rw [h1, h2] at this
        exact absurd this (List.lt_irrefl _)
    rw [e, this, hpost]
    rfl
  have hne : a ≠ vmlinux := fun e => List.lt_irrefl _ (e ▸ h)
  have hi : List.idxOf vmlinux [a, vmlinux] = 1 := by
    rw [List.idxOf_cons]
    simp [beq_eq_false_iff_ne.mpr hne]
  simp [names, hs, hi, delete, ha, hv]

/-- Option show-func-proto always adds `vmlinux`: **violated**, two modules to search and it panics. -/
theorem proto_panics_violated (fs : Fs) (ks : Syms) (given opts : List Str) (first : Str)
    (hf : ks.modOf first = none ∨ ks.modOf first = some []) (h : TwoBefore (infer ks opts given)) :
    names fs false (protoKmods ks given first opts) = none := by
  rw [names_panic_iff_violated]
  have e : protoKmods ks given first opts = sortCompact (vmlinux :: infer ks opts given) := by
    rcases hf with hf | hf <;> simp [protoKmods, hf]
  rw [e]
  obtain ⟨a, ha, b, hb, hr⟩ := h
  have h2 := (sortCompact_spec (vmlinux :: infer ks opts given)).2
  exact ⟨(h2 _).mpr (by simp), a, (h2 _).mpr (by simp [ha]), b, (h2 _).mpr (by simp [hb]), hr⟩

/-! ### Searching -/

/-- The functions of the files, in order. -/
def allFuncs (load : Str → Option Spec) (ns : List Str) : List BFunc := ns.flatMap fun n => ((load n).map Spec.funcs).getD []

theorem walk_collect (load : Str → Option Spec) (glob : Str → Str → Bool) (ksyms : Str → Option Ksym) (maxArgs : Nat) (ms : List KfuncFlag) :
    ∀ (ns : List Str) (fns : List BFunc), (∀ n ∈ ns, load n ≠ none) →
      walk load (collect glob ksyms maxArgs ms) ns (Flg.findKernelFuncs glob ksyms maxArgs ms fns) =
        .ok (Flg.findKernelFuncs glob ksyms maxArgs ms (fns ++ allFuncs load ns))
  | [], fns, _ => by simp [walk, allFuncs]
  | n :: ns, fns, h => by
    cases hl : load n with
    | none => exact absurd hl (h n (by simp))
    | some sp =>
      have e : (collect glob ksyms maxArgs ms (Flg.findKernelFuncs glob ksyms maxArgs ms fns) sp) =
          (Flg.findKernelFuncs glob ksyms maxArgs ms (fns ++ sp.funcs), false) := by
        rw [Flg.findKernelFuncs, Flg.findKernelFuncs, List.foldl_append]
        rfl
      rw [walk, hl]
      simp only [e]
      rw [if_neg (by simp), walk_collect load glob ksyms maxArgs ms ns _ (fun x hx => h x (by simp [hx]))]
      simp [allFuncs, hl]

theorem walk_err (load : Str → Option Spec) (glob : Str → Str → Bool) (ksyms : Str → Option Ksym) (maxArgs : Nat) (ms : List KfuncFlag) :
    ∀ (ns : List Str) (s : BitVec 64 → Option KFunc), (∃ n ∈ ns, load n = none) →
      walk load (collect glob ksyms maxArgs ms) ns s = .err
  | [], _, ⟨_, h, _⟩ => by cases h
  | n :: ns, s, ⟨x, hx, hl⟩ => by
    rw [walk]
    cases hn : load n with
    | none => rfl
    | some sp =>
      have e : (collect glob ksyms maxArgs ms s sp).2 = false := rfl
      simp only [e, Bool.false_eq_true, if_false]
      rcases List.mem_cons.mp hx with rfl | hx
      · rw [hn] at hl; cases hl
      · exact walk_err load glob ksyms maxArgs ms ns _ ⟨x, hx, hl⟩

/-- The BTF searched: the kernel alone if there is nothing else, else the files. -/
def Searched (fs : Fs) (all : Bool) (kmods : List Str) (sp : Spec) : Prop :=
  if all = false ∧ kmods = [] then sp = fs.kernel
  else ∃ n, (n = vmlinux ∨ all = true ∨ n ∈ kmods) ∧ fs.has n = true ∧ fs.load n = some sp

theorem find_eq (fs : Fs) (all : Bool) (kmods : List Str) (glob : Str → Str → Bool) (ksyms : Str → Option Ksym) (maxArgs : Nat) (ms : List KfuncFlag)
    (hv : fs.has vmlinux = true) (hp : all = true ∨ ¬ (vmlinux ∈ kmods ∧ TwoBefore kmods))
    (hl : ∀ n, fs.has n = true → fs.load n ≠ none) :
    ∃ fns, findFuncs fs all kmods glob ksyms maxArgs ms = .ok (Flg.findKernelFuncs glob ksyms maxArgs ms fns) ∧
      ∀ fn, fn ∈ fns ↔ ∃ sp, Searched fs all kmods sp ∧ fn ∈ sp.funcs := by
  unfold findFuncs iterate Searched
  by_cases he : all = false ∧ kmods = []
  · refine ⟨fs.kernel.funcs, ?_, fun fn => ?_⟩
    · simp only [he.1, he.2, List.isEmpty_nil, Bool.not_true, Bool.or_false, Bool.false_eq_true, if_false]
      rfl
    · simp [if_pos he]
  · have hc : (all || !kmods.isEmpty) = true := by
      cases all with
      | true => rfl
      | false =>
        cases kmods with
        | nil => exact absurd ⟨rfl, rfl⟩ he
        | cons a l => rfl
    have hns : ∃ ns, names fs all kmods = some ns ∧ ∀ x, x ∈ ns ↔ (x = vmlinux ∨ all = true ∨ x ∈ kmods) ∧ fs.has x = true := by
      cases all with
      | true =>
        obtain ⟨l, h1, _, h3⟩ := names_all fs kmods
        refine ⟨_, h1, fun x => ?_⟩
        rw [List.mem_cons, h3]
        by_cases hx : x = vmlinux
        · simp [hx, hv]
        · simp [hx]
      | false =>
        obtain ⟨l, h1, h3⟩ := names_given fs kmods (hp.resolve_left (by simp)) hv
        refine ⟨_, h1, fun x => ?_⟩
        rw [h3]
        simp
    obtain ⟨ns, hn, hm⟩ := hns
    have hw := walk_collect fs.load glob ksyms maxArgs ms ns [] (fun n h => hl n ((hm n).mp h).2)
    refine ⟨allFuncs fs.load ns, ?_, fun fn => ?_⟩
    · rw [if_pos hc, hn]
      exact hw
    · simp only [if_neg he]
      unfold allFuncs
      rw [List.mem_flatMap]
      constructor
      · rintro ⟨n, h1, h2⟩
        cases hl' : fs.load n with
        | none => rw [hl'] at h2; cases h2
        | some sp =>
          rw [hl'] at h2
          exact ⟨sp, ⟨n, ((hm n).mp h1).1, ((hm n).mp h1).2, hl'⟩, h2⟩
      · rintro ⟨sp, ⟨n, h1, h2, h3⟩, h4⟩
        exact ⟨n, (hm n).mpr ⟨h1, h2⟩, by rw [h3]; exact h4⟩

theorem kernel_eq (fs : Fs) (all : Bool) (given : List Str) (ks : Syms) (g : Glob) (glob : Str → Str → Bool)
    (ksyms : Str → Option Ksym) (maxArgs : Nat) (opts : List Str) (ms : List KfuncFlag) (ho : opts ≠ []) (hv : fs.has vmlinux = true)
    (hp : all = true ∨ ¬ (vmlinux ∈ prepare ks opts given ∧ TwoBefore (prepare ks opts given)))
    (hl : ∀ n, fs.has n = true → fs.load n ≠ none) :
    ∃ fns, findKernelFuncs fs all given ks g glob ksyms maxArgs opts ms = .ok (Flg.searchKernelFuncs g glob ksyms maxArgs ms fns) ∧
      ∀ fn, fn ∈ fns ↔ ∃ sp, Searched fs all (prepare ks opts given) sp ∧ fn ∈ sp.funcs := by
  obtain ⟨fns, h1, h2⟩ := find_eq fs all (prepare ks opts given) glob ksyms maxArgs ms hv hp hl
  refine ⟨fns, ?_, h2⟩
  unfold findKernelFuncs
  rw [if_neg (by simpa using ho), h1]
  rfl

/-- Whatever is traced is a function of the BTF searched, selected by its first matching option. -/
theorem search_sound (fs : Fs) (all : Bool) (given : List Str) (ks : Syms) (g : Glob) (glob : Str → Str → Bool)
    (ksyms : Str → Option Ksym) (maxArgs : Nat) (opts : List Str) (ms : List KfuncFlag) (ho : opts ≠ []) (hv : fs.has vmlinux = true)
    (hp : all = true ∨ ¬ (vmlinux ∈ prepare ks opts given ∧ TwoBefore (prepare ks opts given)))
    (hl : ∀ n, fs.has n = true → fs.load n ≠ none) :
    ∃ t, findKernelFuncs fs all given ks g glob ksyms maxArgs opts ms = .ok t ∧ ∀ a kf, t a = some kf →
      (∃ sp, Searched fs all (prepare ks opts given) sp ∧ kf.fn ∈ sp.funcs) ∧
      ∃ m k, Flg.FirstMatch glob ms kf.fn m ∧ Flg.Eligible ksyms maxArgs m kf.fn k ∧ k.addr = a ∧ kf.addr = a ∧
        kf.insn = m.insn ∧ kf.flag = m.imm ∧ ¬ Flg.Denied g m kf.fn := by
  obtain ⟨fns, h1, h2⟩ := kernel_eq fs all given ks g glob ksyms maxArgs opts ms ho hv hp hl
  refine ⟨_, h1, fun a kf h => ?_⟩
  obtain ⟨h3, h4, m, k, h5, h6, h7, h8, h9, h10⟩ := Flg.traced_sound g glob ksyms maxArgs ms fns a kf h
  exact ⟨(h2 _).mp h3, m, k, h5, h6, h7, h4, h8, h9, h10⟩

/-- A function of the BTF searched is traced if an option matches it and it can be traced. -/
theorem search_complete (fs : Fs) (all : Bool) (given : List Str) (ks : Syms) (g : Glob) (glob : Str → Str → Bool)
    (ksyms : Str → Option Ksym) (maxArgs : Nat) (opts : List Str) (ms : List KfuncFlag) (ho : opts ≠ []) (hv : fs.has vmlinux = true)
    (hp : all = true ∨ ¬ (vmlinux ∈ prepare ks opts given ∧ TwoBefore (prepare ks opts given)))
    (hl : ∀ n, fs.has n = true → fs.load n ≠ none) (sp : Spec) (hs : Searched fs all (prepare ks opts given) sp) (fn : BFunc) (hfn : fn ∈ sp.funcs)
    (m : KfuncFlag) (k : Ksym) (hm : Flg.FirstMatch glob ms fn m) (he : Flg.Eligible ksyms maxArgs m fn k) (hd : ¬ Flg.Denied g m fn)
    (hsole : ∀ sp', Searched fs all (prepare ks opts given) sp' → ∀ fn' ∈ sp'.funcs, ∀ k', ksyms fn'.name = some k' → k'.addr = k.addr → fn' = fn) :
    ∃ t, findKernelFuncs fs all given ks g glob ksyms maxArgs opts ms = .ok t ∧ t k.addr = some ⟨k.addr, fn, m.insn, m.imm⟩ := by
  obtain ⟨fns, h1, h2⟩ := kernel_eq fs all given ks g glob ksyms maxArgs opts ms ho hv hp hl
  refine ⟨_, h1, Flg.traced_complete g glob ksyms maxArgs ms fns fn ((h2 fn).mpr ⟨sp, hs, hfn⟩) m k hm he hd (fun fn' hf k' => ?_)⟩
  obtain ⟨sp', h3, h4⟩ := (h2 fn').mp hf
  exact hsole sp' h3 fn' h4 k'

/-- A function of a module named by an option without flags: its module is searched. -/
theorem named_searched (fs : Fs) (all : Bool) (given : List Str) (ks : Syms) (opts : List Str) (o m : Str) (ho : o ∈ opts)
    (hm : ks.modOf o = some m) (hne : m ≠ []) (hh : fs.has m = true) (sp : Spec) (hl : fs.load m = some sp) :
    Searched fs all (prepare ks opts given) sp := by
  have hp : m ∈ prepare ks opts given := (prepare_iff ks opts given m).mpr (.inr ⟨hne, o, ho, .inr hm⟩)
  unfold Searched
  rw [if_neg (by rintro ⟨_, h⟩; rw [h] at hp; cases hp)]
  exact ⟨m, .inr (.inr hp), hh, hl⟩

/-- **Violated**: with a flag in front, only the kernel's own functions are found. -/
theorem flagged_not_found_violated (fs : Fs) (ks : Syms) (g : Glob) (glob : Str → Str → Bool)
    (ksyms : Str → Option Ksym) (maxArgs : Nat) (opts : List Str) (ms : List KfuncFlag) (hne : opts ≠ [])
    (ho : ∀ o ∈ opts, o.head? = some '(') (hm : ∀ m ∈ ks.mods, m ≠ [] ∧ m.head? ≠ some '(')
    (hs : ∀ o m, o.head? = some '(' → ks.modOf o = some m → m = []) :
    ∃ t, findKernelFuncs fs false [] ks g glob ksyms maxArgs opts ms = .ok t ∧ ∀ a kf, t a = some kf → kf.fn ∈ fs.kernel.funcs := by
  have he : prepare ks opts [] = [] := by
    apply List.eq_nil_iff_forall_not_mem.mpr
    intro x hx
    have := (flag_hides_module_violated ks opts [] ho hm hs x).mp hx
    cases this
  refine ⟨Flg.searchKernelFuncs g glob ksyms maxArgs ms fs.kernel.funcs, ?_, fun a kf h => ?_⟩
  · unfold findKernelFuncs
    rw [if_neg (by simpa using hne), he]
    rfl
  · exact (Flg.traced_sound g glob ksyms maxArgs ms _ a kf h).1

/-- A file that cannot be loaded fails the search. -/
theorem broken_fails (fs : Fs) (all : Bool) (kmods ns : List Str) (glob : Str → Str → Bool) (ksyms : Str → Option Ksym) (maxArgs : Nat)
    (ms : List KfuncFlag) (hk : all = true ∨ kmods ≠ []) (hn : names fs all kmods = some ns) (n : Str) (hm : n ∈ ns) (hl : fs.load n = none) :
    (match findFuncs fs all kmods glob ksyms maxArgs ms with | .err => True | _ => False) := by
  have hc : (all || !kmods.isEmpty) = true := by
    rcases hk with rfl | h
    · rfl
    · cases kmods with
      | nil => exact absurd rfl h
      | cons a l => simp
  unfold findFuncs iterate
  rw [if_pos hc, hn]
  simp only [walk_err fs.load glob ksyms maxArgs ms ns _ ⟨n, hm, hl⟩]

/-! ### Showing one function -/

/-- In the order of the files the name is first met in this one. -/
def FirstHit (fs : Fs) (name : Str) (n : Str) : Prop :=
  ∃ ns pre post, names fs true [] = some ns ∧ ns = pre ++ n :: post ∧ ∀ p ∈ pre, ∃ sp, fs.load p = some sp ∧ sp.byName name = .absent

/-- No file has the name. -/
def NoHit (fs : Fs) (name : Str) : Prop :=
  ∃ ns, names fs true [] = some ns ∧ ∀ p ∈ ns, ∃ sp, fs.load p = some sp ∧ sp.byName name = .absent

theorem walk_skip (load : Str → Option Spec) (name : Str) : ∀ (pre rest : List Str),
    (∀ p ∈ pre, ∃ sp, load p = some sp ∧ sp.byName name = .absent) →
    walk load (seek name) (pre ++ rest) (none, false) = walk load (seek name) rest (none, false)
  | [], _, _ => rfl
  | p :: pre, rest, h => by
    obtain ⟨sp, h1, h2⟩ := h p (by simp)
    rw [List.cons_append, walk, h1]
    have e : seek name (none, false) sp = ((none, false), false) := by simp [seek, h2]
    simp only [e]
    rw [if_neg (by simp)]
    exact walk_skip load name pre rest (fun x hx => h x (by simp [hx]))

/-- The prototype's function is the one of the first file that has the name, the kernel first. -/
theorem detect_found (fs : Fs) (ksyms : Str → Option Ksym) (patchable : BitVec 64 → Bool) (fexit : Bool) (name n : Str)
    (h1 : fexit = true → name ∉ Flg.noreturnFuncs) (h2 : name ∉ Flg.tracingDenyFuncs) (h : FirstHit fs name n)
    (sp : Spec) (hl : fs.load n = some sp) (fn : BFunc) (hb : sp.byName name = .func fn) :
    detect fs ksyms patchable fexit name = .ok (((Flg.checkTraceable ksyms fn false).map fun k => patchable k.addr).getD false) := by
  obtain ⟨ns, pre, post, hn, rfl, hp⟩ := h
  unfold detect
  rw [if_neg (by cases fexit <;> simp_all), if_neg (by simpa using h2)]
  have e : iterate fs true [] (seek name) (none, false) = .ok (some fn, false) := by
    simp only [iterate, Bool.true_or, if_true, hn]
    rw [walk_skip _ _ _ _ hp, walk, hl]
    simp [seek, hb]
  rw [e]
  simp only
  cases Flg.checkTraceable ksyms fn false with
  | none => rfl
  | some k => rfl

/-- A name no BTF has is not traceable. -/
theorem detect_absent (fs : Fs) (ksyms : Str → Option Ksym) (patchable : BitVec 64 → Bool) (fexit : Bool) (name : Str)
    (h1 : fexit = true → name ∉ Flg.noreturnFuncs) (h2 : name ∉ Flg.tracingDenyFuncs) (h : NoHit fs name) :
    detect fs ksyms patchable fexit name = .ok false := by
  obtain ⟨ns, hn, hp⟩ := h
  unfold detect
  rw [if_neg (by cases fexit <;> simp_all), if_neg (by simpa using h2)]
  have e : iterate fs true [] (seek name) (none, false) = .ok (none, false) := by
    simp only [iterate, Bool.true_or, if_true, hn]
    have := walk_skip fs.load name ns [] hp
    rw [List.append_nil] at this
    rw [this]
    rfl
  rw [e]

/-- **Violated**: a name that the first file having it gives to something else than one function, such as a struct, or a file
that cannot be loaded before it is found, panics. -/
theorem detect_panics_violated (fs : Fs) (ksyms : Str → Option Ksym) (patchable : BitVec 64 → Bool) (fexit : Bool) (name n : Str)
    (h1 : fexit = true → name ∉ Flg.noreturnFuncs) (h2 : name ∉ Flg.tracingDenyFuncs) (h : FirstHit fs name n)
    (hl : fs.load n = none ∨ ∃ sp, fs.load n = some sp ∧ (sp.byName name = .many ∨ sp.byName name = .other)) :
    detect fs ksyms patchable fexit name = .panic := by
  obtain ⟨ns, pre, post, hn, rfl, hp⟩ := h
  unfold detect
  rw [if_neg (by cases fexit <;> simp_all), if_neg (by simpa using h2)]
  simp only [iterate, Bool.true_or, if_true, hn]
  rw [walk_skip _ _ _ _ hp, walk]
  rcases hl with hl | ⟨sp, hl, hb | hb⟩
  · rw [hl]
  · rw [hl]; simp [seek, hb]
  · rw [hl]; simp [seek, hb]

/-- A function denied is shown as not traceable, whatever the BTF. -/
theorem detect_denied (fs : Fs) (ksyms : Str → Option Ksym) (patchable : BitVec 64 → Bool) (fexit : Bool) (name : Str)
    (h : (fexit = true ∧ name ∈ Flg.noreturnFuncs) ∨ name ∈ Flg.tracingDenyFuncs) : detect fs ksyms patchable fexit name = .ok false := by
  unfold detect
  split
  · rfl
  · rcases h with ⟨h, h'⟩ | h
    · simp_all
    · rw [if_pos (by simpa using h)]

/-! ### Examples -/

def exFn : BFunc := ⟨"veth_xmit".toList, [("skb".toList, "struct sk_buff *".toList)], false, false, true⟩
def exFs : Fs where
  files := [("veth".toList, false), ("vmlinux".toList, false), ("sub".toList, true), ("nf_tables".toList, false)]
  load := fun n => if n = "veth".toList then some ⟨[exFn], fun x => if x = exFn.name then .func exFn else .absent⟩ else some ⟨[], fun _ => .absent⟩
  kernel := ⟨[], fun _ => .absent⟩
def exKs : Syms where
  mods := ["nf_tables".toList, "veth".toList]
  modOf := fun n => if n = exFn.name then some "veth".toList else none
def exSyms (n : Str) : Option Ksym := if n = exFn.name then some ⟨0xffffffffc0001000#64, false⟩ else none
def exGlob (p n : Str) : Bool := decide (p = n)

def exG : Glob := ⟨false, false, false, false, false, []⟩

/-- With `--kfunc-kmods nf_tables,veth,vmlinux` the search panics: both come before `vmlinux`. -/
example : names exFs false ["nf_tables".toList, "veth".toList, "vmlinux".toList] = none :=
  (names_panic_iff_violated exFs _).mpr ⟨by decide +kernel, "nf_tables".toList, by simp, "veth".toList, by simp, by decide, by decide, by decide⟩

example : names exFs false ["veth".toList, vmlinux] = some [vmlinux, "veth".toList, vmlinux] := twice_violated exFs _ (by decide) (by decide) (by decide)

example : TwoBefore ["nf_tables".toList, "veth".toList, "vmlinux".toList] := by
  refine ⟨"nf_tables".toList, by simp, "veth".toList, by simp, by decide, by decide, by decide⟩

/-- The hypotheses of `search_complete` for `veth_xmit`. -/
example : Searched exFs false (prepare exKs [exFn.name] []) ⟨[exFn], fun x => if x = exFn.name then .func exFn else .absent⟩ ∧
    Flg.FirstMatch exGlob [{ name := exFn.name }] exFn { name := exFn.name } ∧
    Flg.Eligible exSyms 6 { name := exFn.name } exFn ⟨0xffffffffc0001000#64, false⟩ ∧ ¬ Flg.Denied exG { name := exFn.name } exFn := by
  refine ⟨named_searched exFs false [] exKs [exFn.name] exFn.name "veth".toList (by simp) rfl (by decide) (by decide) _ rfl, ?_, ?_, ?_⟩
  · exact ⟨[], [], rfl, ⟨by decide, .inl rfl⟩, by simp⟩
  · exact ⟨rfl, rfl, rfl, .inl rfl, rfl, .inl (by decide)⟩
  · unfold Flg.Denied
    decide +kernel

end Bpfsnoop.Km
