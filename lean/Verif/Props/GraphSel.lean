import Verif.Model.GraphSel
import Verif.Props.Graph
import Verif.Props.KfuncSel

/-
C74: the functions of a call graph are those the options select.
-/
namespace Bpfsnoop.Gs
open Flg

/-! ### Specification -/

/-- The type information of the kernel or of one of its modules has the function under this name. -/
def Known (E : Env) (name : Str) (fn : BFunc) : Prop := ∃ b, some b ∈ E.specs ∧ b name = .func fn

/-- The kernel lets bpfsnoop attach to the function: no variable arguments, no struct returned, its name has one address, no
parameter larger than two registers, and all parameters together take at most `maxArgs` registers. -/
def Hookable (E : Env) (fn : BFunc) : Prop :=
  fn.variadic = false ∧ fn.structRet = false ∧ (∃ k, E.ksyms fn.name = some k ∧ k.duped = false) ∧ fn.paramsOk = true ∧
    E.slots fn ≤ E.maxArgs

/-- One of the patterns matches the function (`Flg.Matches`: rules as for `-k`). -/
def Listed (E : Env) (ms : List KfuncFlag) (fn : BFunc) : Prop := ∃ m ∈ ms, Matches E.glob m fn

/-- The kernel function at `ip` is one that the options let into the graph. -/
def Wanted (E : Env) (ip : Ip) : Prop :=
  ∃ s, E.a2s ip = some s ∧ s.duped = false ∧ s.bpf = false ∧ s.name ∉ tracingDenyFuncs ∧ s.name ∉ noreturnFuncs ∧
    (∀ fn, Known E s.name fn → Hookable E fn → ¬ Listed E E.excludes fn) ∧
    ∃ fn, Known E s.name fn ∧ Hookable E fn ∧ (E.includes = [] ∨ Listed E E.includes fn)

/-- A function of a BPF program that can be traced, or a kernel function that the options let in. -/
def Allowed (E : Env) (ip : Ip) : Prop := E.bpf ip = some true ∨ E.bpf ip = none ∧ Wanted E ip

/-- Where graphs start: at the functions and programs whose graph was asked for, with depth 0, and at those of `--fgraph-extra`, with
depth 1. -/
inductive Start (A : Ask) : Ip → Nat → Prop
  | kfunc {t} : t ∈ A.kfuncs → t.graph = true → Start A t.ip 0
  | prog {t} : t ∈ A.progs → t.graph = true → Start A t.ip 0
  | extra {ip} : ip ∈ A.extra → Start A ip 1

/-- The kernel functions that bpfsnoop's own programs use, and one that must not be probed. -/
def ownPatterns : List String :=
  ["*htab_map_lookup_elem", "bpf_ringbuf_reserve", "bpf_ringbuf_submit", "bpf_ktime_get_ns", "bpf_get_smp_processor_id",
   "bpf_probe_read_kernel", "bpf_probe_read_kernel_str", "bpf_dispatcher_xdp_func"]

/-- `ip` is reached at depth `d` from where `roots` says, through functions that are allowed. -/
inductive Way (E : Env) (roots : Ip → Nat → Prop) : Ip → Nat → Prop
  | root {ip d} : roots ip d → Way E roots ip d
  | repl {p c d} : Way E roots p d → Allowed E p → E.repl p = some c → Way E roots c d
  | call {p c d} : Way E roots p d → Allowed E p → E.repl p = none → c ∈ E.callees p → Way E roots c (d + 1)

/-- Patterns of graphs carry no `(m)` (flags.go 293-317). -/
def NoMulti (ms : List KfuncFlag) : Prop := ∀ m ∈ ms, m.imm.multi = false

/-- What `Env` is to be: all type information can be loaded, functions are found under their own names, patterns are as the options
allow, and parameters take one or two registers each. -/
structure Ok (E : Env) : Prop where
  load : none ∉ E.specs
  name : ∀ b name fn, some b ∈ E.specs → b name = .func fn → fn.name = name
  inc : NoMulti E.includes
  exc : NoMulti E.excludes
  slots : ∀ fn, fn.params.length ≤ E.slots fn

/-- No function has a parameter of more than one register. -/
structure Small (E : Env) : Prop where
  slots : ∀ name fn, Known E name fn → E.slots fn = fn.params.length
  params : ∀ name fn, Known E name fn → fn.paramsOk = true

/-! ### Patterns -/

/-- What `matchKernelFunc` asks for. -/
def Fit (E : Env) (fn : BFunc) : Prop :=
  fn.variadic = false ∧ fn.structRet = false ∧ (∃ k, E.ksyms fn.name = some k ∧ k.duped = false) ∧ fn.paramsOk = true ∧
    fn.params.length ≤ E.maxArgs

theorem firstMatch_of {glob : Str → Str → Bool} {fn : BFunc} : ∀ {ms : List KfuncFlag}, (∃ m ∈ ms, Matches glob m fn) →
    ∃ m, FirstMatch glob ms fn m
  | ms, ⟨m, hm, h⟩ => by
    cases hk : matchKfunc glob fn ms with
    | some m' => exact ⟨m', (matchKfunc_iff _ _ _ _).1 hk⟩
    | none =>
      unfold matchKfunc at hk
      have := List.find?_eq_none.1 hk m hm
      exact absurd ((kmatch_iff _ _ _).2 h) this

theorem matched_iff (E : Env) (ms : List KfuncFlag) (hn : NoMulti ms) (fn : BFunc) :
    (∃ kf, matchKernelFunc E.glob E.ksyms E.maxArgs ms fn = some kf) ↔ Listed E ms fn ∧ Fit E fn := by
  constructor
  · rintro ⟨kf, h⟩
    obtain ⟨m, k, ⟨b, a, he, hm, _⟩, hel, _⟩ := (matchKernelFunc_iff _ _ _ _ _ _).1 h
    have hmem : m ∈ ms := by rw [he]; simp
    have hmu := hn m hmem
    obtain ⟨h1, h2, h3, h4, h5, h6⟩ := hel
    rw [hmu] at h4 h6
    refine ⟨⟨m, hmem, hm⟩, h1, h2, ⟨k, h3, by simpa using h4⟩, h5, by simpa using h6⟩
  · rintro ⟨hl, h1, h2, ⟨k, h3, h4⟩, h5, h6⟩
    obtain ⟨m, hm⟩ := firstMatch_of hl
    exact ⟨_, (matchKernelFunc_iff _ _ _ _ _ _).2 ⟨m, k, hm, ⟨h1, h2, h3, .inl h4, h5, .inl h6⟩, rfl⟩⟩

theorem traceable_iff (E : Env) (fn : BFunc) : (∃ k, checkTraceable E.ksyms fn false = some k) ↔
    fn.variadic = false ∧ fn.structRet = false ∧ ∃ k, E.ksyms fn.name = some k ∧ k.duped = false := by
  unfold checkTraceable
  cases fn.variadic <;> cases fn.structRet <;> simp only [Bool.or_self, Bool.or_true, Bool.true_or, if_true, Bool.false_eq_true,
    if_false, reduceCtorEq, exists_false, false_and, and_false, true_and]
  cases hk : E.ksyms fn.name with
  | none => simp
  | some k => cases hd : k.duped <;> simp [hd]

/-! ### The walks over type information -/

theorem walk_load {σ : Type} (iter : σ → Spec → σ × Bool) : ∀ (l : List (Option Spec)) (s : σ), none ∉ l → ∃ s', walk iter l s = some s'
  | [], s, _ => ⟨s, rfl⟩
  | none :: _, _, h => absurd (by simp) h
  | some b :: r, s, h => by
    have hr : none ∉ r := fun h' => h (by simp [h'])
    unfold walk
    cases hs : iter s b with
    | mk s' stop =>
      cases stop
      · exact walk_load iter r s' hr
      · exact ⟨s', rfl⟩

/-- `name` is excluded: some function of that name that fits is matched by a pattern. -/
theorem walk_ex (E : Env) (name : Str) (hn : NoMulti E.excludes) : ∀ (l : List (Option Spec)) (x : Bool), none ∉ l →
    walk (exStep E name) l false = some x →
    (x = true ↔ ∃ b fn, some b ∈ l ∧ b name = .func fn ∧ Listed E E.excludes fn ∧ Fit E fn)
  | [], x, _, h => by
    cases h
    simp
  | none :: _, _, h, _ => absurd (by simp) h
  | some b :: r, x, h, hw => by
    have hr : none ∉ r := fun h' => h (by simp [h'])
    have skip : (∀ fn, b name = .func fn → ¬ (Listed E E.excludes fn ∧ Fit E fn)) → walk (exStep E name) r false = some x →
        (x = true ↔ ∃ b' fn, some b' ∈ some b :: r ∧ b' name = .func fn ∧ Listed E E.excludes fn ∧ Fit E fn) := by
      intro hno hw'
      rw [walk_ex E name hn r x hr hw']
      constructor
      · rintro ⟨b', fn, h1, h2⟩
        exact ⟨b', fn, by simp [h1], h2⟩
      · rintro ⟨b', fn, h1, h2, h3⟩
        rcases List.mem_cons.1 h1 with e | h1
        · cases e
          exact absurd h3 (hno fn h2)
        · exact ⟨b', fn, h1, h2, h3⟩
    unfold walk exStep at hw
    simp only [Bool.false_eq_true, if_false] at hw
    cases hb : b name with
    | absent => rw [hb] at hw; exact skip (fun fn h' => by rw [hb] at h'; cases h') hw
    | other => rw [hb] at hw; exact skip (fun fn h' => by rw [hb] at h'; cases h') hw
    | func fn =>
      rw [hb] at hw
      simp only at hw
      cases hk : matchKernelFunc E.glob E.ksyms E.maxArgs E.excludes fn with
      | none =>
        rw [hk] at hw
        refine skip (fun fn' h' hc => ?_) hw
        rw [hb] at h'
        cases h'
        obtain ⟨kf, hkf⟩ := (matched_iff E E.excludes hn fn).2 hc
        rw [hk] at hkf
        cases hkf
      | some kf =>
        rw [hk] at hw
        simp only [Option.some.injEq] at hw
        subst hw
        simp only [true_iff]
        exact ⟨b, fn, by simp, hb, (matched_iff E E.excludes hn fn).1 ⟨kf, hk⟩⟩

theorem isExcluded_iff (E : Env) (hE : Ok E) (name : Str) : ∃ x, isExcluded E name = some x ∧
    (x = true ↔ ∃ fn, Known E name fn ∧ Listed E E.excludes fn ∧ Fit E fn) := by
  obtain ⟨x, hx⟩ := walk_load (exStep E name) E.specs false hE.load
  refine ⟨x, hx, ?_⟩
  rw [walk_ex E name hE.exc E.specs x hE.load hx]
  constructor
  · rintro ⟨b, fn, h1, h2, h3⟩; exact ⟨fn, ⟨b, h1, h2⟩, h3⟩
  · rintro ⟨fn, ⟨b, h1, h2⟩, h3⟩; exact ⟨b, fn, h1, h2, h3⟩

/-- What lets a function of type information in. -/
def Lets (E : Env) (fn : BFunc) : Prop :=
  if E.includes = [] then Hookable E fn else Fit E fn ∧ Listed E E.includes fn

/-- What makes the search fail: without `--fgraph-include`, a function with a parameter of more than 16 bytes. -/
def Fails (E : Env) (fn : BFunc) : Prop :=
  E.includes = [] ∧ (∃ k, checkTraceable E.ksyms fn false = some k) ∧ fn.paramsOk = false

theorem incStep_func (E : Env) (hE : Ok E) (name : Str) (b : Spec) (fn : BFunc) (hb : b name = .func fn) :
    (Fails E fn → incStep E name (none, false) b = ((none, true), true)) ∧
    (Lets E fn → incStep E name (none, false) b = ((some fn, false), true)) ∧
    (¬ Fails E fn → ¬ Lets E fn → incStep E name (none, false) b = ((none, false), false)) := by
  unfold incStep
  simp only [Option.isSome_none, Bool.or_self, Bool.false_eq_true, if_false, hb]
  cases ht : checkTraceable E.ksyms fn false with
  | none =>
    have hno : ¬ ∃ k, checkTraceable E.ksyms fn false = some k := by simp [ht]
    refine ⟨fun h => absurd h.2.1 hno, fun h => ?_, fun _ _ => rfl⟩
    rw [traceable_iff] at hno
    unfold Lets at h
    split at h
    · exact absurd ⟨h.1, h.2.1, h.2.2.1⟩ hno
    · exact absurd ⟨h.1.1, h.1.2.1, h.1.2.2.1⟩ hno
  | some k =>
    have htr := (traceable_iff E fn).1 ⟨k, ht⟩
    cases hi : E.includes with
    | nil =>
      simp only [List.isEmpty_nil, if_true]
      cases hp : fn.paramsOk with
      | false =>
        simp only [Bool.not_false, if_true]
        refine ⟨fun _ => trivial, fun h => ?_, fun h => absurd ⟨hi, ⟨k, ht⟩, hp⟩ h⟩
        rw [Lets, if_pos hi] at h
        rw [h.2.2.2.1] at hp
        cases hp
      | true =>
        simp only [Bool.not_true, Bool.false_eq_true, if_false]
        refine ⟨fun h => ?_, fun h => ?_, fun _ h => ?_⟩
        · rw [h.2.2] at hp; cases hp
        · rw [Lets, if_pos hi] at h
          rw [if_pos h.2.2.2.2]
        · rw [Lets, if_pos hi] at h
          rw [if_neg]
          intro hs
          exact h ⟨htr.1, htr.2.1, htr.2.2, hp, hs⟩
    | cons m r =>
      have hne : E.includes ≠ [] := by rw [hi]; simp
      have hlet : Lets E fn ↔ Fit E fn ∧ Listed E E.includes fn := by rw [Lets, if_neg hne]
      simp only [List.isEmpty_cons, Bool.false_eq_true, if_false]
      refine ⟨fun h => absurd h.1 hne, fun h => ?_, fun _ h => ?_⟩
      · obtain ⟨kf, hkf⟩ := (matched_iff E E.includes hE.inc fn).2 ⟨(hlet.1 h).2, (hlet.1 h).1⟩
        have hfn : kf.fn = fn := by
          obtain ⟨m, k, _, _, rfl⟩ := (matchKernelFunc_iff _ _ _ _ _ _).1 hkf
          rfl
        rw [← hi, hkf]
        simp only [hfn]
      · cases hk : matchKernelFunc E.glob E.ksyms E.maxArgs E.includes fn with
        | none => rw [← hi, hk]
        | some kf => exact absurd (hlet.2 ((matched_iff E E.includes hE.inc fn).1 ⟨kf, hk⟩).symm) h

/-- The walk ends at the first function that is let in or makes it fail. -/
theorem walk_inc (E : Env) (hE : Ok E) (name : Str) : ∀ (l : List (Option Spec)) (s : Option BFunc × Bool), none ∉ l →
    walk (incStep E name) l (none, false) = some s →
    (∃ pre b post fn, l = pre ++ some b :: post ∧ b name = .func fn ∧
        (∀ b' fn', some b' ∈ pre → b' name = .func fn' → ¬ Lets E fn' ∧ ¬ Fails E fn') ∧
        (Lets E fn ∧ s = (some fn, false) ∨ Fails E fn ∧ s = (none, true))) ∨
      (∀ b fn, some b ∈ l → b name = .func fn → ¬ Lets E fn ∧ ¬ Fails E fn) ∧ s = (none, false)
  | [], s, _, h => by
    cases h
    exact .inr ⟨by simp, rfl⟩
  | none :: _, _, h, _ => absurd (by simp) h
  | some b :: r, s, h, hw => by
    have hr : none ∉ r := fun h' => h (by simp [h'])
    have skip : (∀ fn, b name = .func fn → ¬ Lets E fn ∧ ¬ Fails E fn) → walk (incStep E name) r (none, false) = some s →
        (∃ pre b' post fn, some b :: r = pre ++ some b' :: post ∧ b' name = .func fn ∧
          (∀ b'' fn', some b'' ∈ pre → b'' name = .func fn' → ¬ Lets E fn' ∧ ¬ Fails E fn') ∧
          (Lets E fn ∧ s = (some fn, false) ∨ Fails E fn ∧ s = (none, true))) ∨
        (∀ b' fn, some b' ∈ some b :: r → b' name = .func fn → ¬ Lets E fn ∧ ¬ Fails E fn) ∧ s = (none, false) := by
      intro hno hw'
      rcases walk_inc E hE name r s hr hw' with ⟨pre, b', post, fn, h1, h2, h3, h4⟩ | ⟨h1, h2⟩
      · refine .inl ⟨some b :: pre, b', post, fn, by rw [h1]; rfl, h2, ?_, h4⟩
        intro b'' fn' hm hb
        rcases List.mem_cons.1 hm with e | hm
        · cases e; exact hno fn' hb
        · exact h3 b'' fn' hm hb
      · refine .inr ⟨?_, h2⟩
        intro b' fn hm hb
        rcases List.mem_cons.1 hm with e | hm
        · cases e; exact hno fn hb
        · exact h1 b' fn hm hb
    unfold walk at hw
    cases hb : b name with
    | absent =>
      have : incStep E name (none, false) b = ((none, false), false) := by simp [incStep, hb]
      rw [this] at hw
      exact skip (fun fn h' => by rw [hb] at h'; cases h') hw
    | other =>
      have : incStep E name (none, false) b = ((none, false), false) := by simp [incStep, hb]
      rw [this] at hw
      exact skip (fun fn h' => by rw [hb] at h'; cases h') hw
    | func fn =>
      obtain ⟨h1, h2, h3⟩ := incStep_func E hE name b fn hb
      by_cases hf : Fails E fn
      · rw [h1 hf] at hw
        simp only [Option.some.injEq] at hw
        exact .inl ⟨[], b, r, fn, rfl, hb, by simp, .inr ⟨hf, hw.symm⟩⟩
      · by_cases hl : Lets E fn
        · rw [h2 hl] at hw
          simp only [Option.some.injEq] at hw
          exact .inl ⟨[], b, r, fn, rfl, hb, by simp, .inl ⟨hl, hw.symm⟩⟩
        · rw [h3 hf hl] at hw
          refine skip (fun fn' h' => ?_) hw
          rw [hb] at h'
          cases h'
          exact ⟨hl, hf⟩

/-! ### The checks -/

theorem checkIncluded_some (E : Env) (hE : Ok E) (name : Str) (fn : BFunc) (h : checkIncluded E name = some (some fn)) :
    Known E name fn ∧ Lets E fn := by
  unfold checkIncluded at h
  obtain ⟨s, hs⟩ := walk_load (incStep E name) E.specs (none, false) hE.load
  rw [hs] at h
  rcases walk_inc E hE name E.specs s hE.load hs with ⟨pre, b, post, fn', h1, h2, _, h4⟩ | ⟨_, h2⟩
  · rcases h4 with ⟨h4, rfl⟩ | ⟨_, rfl⟩
    · simp only [Option.some.injEq] at h
      subst h
      exact ⟨⟨b, by rw [h1]; simp, h2⟩, h4⟩
    · simp at h
  · subst h2
    simp at h

theorem checkIncluded_none (E : Env) (hE : Ok E) (name : Str) (h : checkIncluded E name = some none) :
    ∀ fn, Known E name fn → ¬ Lets E fn ∧ ¬ Fails E fn := by
  unfold checkIncluded at h
  obtain ⟨s, hs⟩ := walk_load (incStep E name) E.specs (none, false) hE.load
  rw [hs] at h
  rcases walk_inc E hE name E.specs s hE.load hs with ⟨pre, b, post, fn', h1, h2, _, h4⟩ | ⟨h1, _⟩
  · rcases h4 with ⟨h4, rfl⟩ | ⟨_, rfl⟩ <;> simp at h
  · rintro fn ⟨b, hb, hf⟩
    exact h1 b fn hb hf

theorem checkIncluded_fail (E : Env) (hE : Ok E) (name : Str) (h : checkIncluded E name = none) :
    ∃ fn, Known E name fn ∧ Fails E fn := by
  unfold checkIncluded at h
  obtain ⟨s, hs⟩ := walk_load (incStep E name) E.specs (none, false) hE.load
  rw [hs] at h
  rcases walk_inc E hE name E.specs s hE.load hs with ⟨pre, b, post, fn', h1, h2, _, h4⟩ | ⟨_, h2⟩
  · rcases h4 with ⟨_, rfl⟩ | ⟨h4, rfl⟩
    · simp at h
    · exact ⟨fn', ⟨b, by rw [h1]; simp, h2⟩, h4⟩
  · subst h2
    simp at h

/-- The symbol at an address passes the tests of its name. -/
def Plain (E : Env) (ip : Ip) (s : Sym) : Prop :=
  E.bpf ip = none ∧ E.a2s ip = some s ∧ s.duped = false ∧ s.bpf = false ∧ s.name ∉ tracingDenyFuncs ∧ s.name ∉ noreturnFuncs

theorem verdict_kernel (E : Env) (ip : Ip) (s : Sym) (h : Plain E ip s) : verdict E ip =
    match isExcluded E s.name with
    | none => none
    | some true => some false
    | some false =>
      match checkIncluded E s.name with
      | none => none
      | some none => some false
      | some (some _) => some true := by
  obtain ⟨h1, h2, h3, h4, h5, h6⟩ := h
  have hd : (tracingDenyFuncs.contains s.name || noreturnFuncs.contains s.name) = false := by
    simp only [Bool.or_eq_false_iff]
    exact ⟨by simpa using h5, by simpa using h6⟩
  unfold verdict
  simp only [h1, h2, h3, h4, hd, Bool.false_eq_true, if_false]
  rfl

theorem verdict_plain (E : Env) (ip : Ip) (h1 : E.bpf ip = none) (h2 : verdict E ip ≠ some false) : ∃ s, Plain E ip s := by
  unfold verdict at h2
  rw [h1] at h2
  simp only at h2
  cases hs : E.a2s ip with
  | none => rw [hs] at h2; simp at h2
  | some s =>
    rw [hs] at h2
    simp only at h2
    cases hd : s.duped with
    | true => simp [hd] at h2
    | false =>
      cases hb : s.bpf with
      | true => simp [hd, hb] at h2
      | false =>
        cases hn : (tracingDenyFuncs.contains s.name || noreturnFuncs.contains s.name) with
        | true => simp only [hd, hb, hn, Bool.false_eq_true, if_false, if_true] at h2; simp at h2
        | false =>
          simp only [Bool.or_eq_false_iff] at hn
          exact ⟨s, h1, hs, hd, hb, by simpa using hn.1, by simpa using hn.2⟩

theorem verdict_bpf (E : Env) (ip : Ip) (t : Bool) (h : E.bpf ip = some t) : verdict E ip = some t := by
  unfold verdict
  rw [h]

theorem lets_fit (E : Env) (hE : Ok E) (fn : BFunc) (h : Lets E fn) : Fit E fn := by
  unfold Lets at h
  split at h
  · obtain ⟨h1, h2, h3, h4, h5⟩ := h
    exact ⟨h1, h2, h3, h4, Nat.le_trans (hE.slots fn) h5⟩
  · exact h.1

/-- Every kernel function let in obeys the options: its name is one function of the kernel that is neither denied nor used by BPF,
no pattern of `--fgraph-exclude` matches it, one of `--fgraph-include` does if there are any, and it fits. -/
theorem verdict_sound (E : Env) (hE : Ok E) (ip : Ip) (h : verdict E ip = some true) :
    E.bpf ip = some true ∨ ∃ s fn, Plain E ip s ∧ Known E s.name fn ∧ Fit E fn ∧ ¬ Listed E E.excludes fn ∧
      (E.includes = [] ∧ Hookable E fn ∨ Listed E E.includes fn) := by
  cases hb : E.bpf ip with
  | some t =>
    rw [verdict_bpf E ip t hb] at h
    cases h
    exact .inl rfl
  | none =>
    obtain ⟨s, hs⟩ := verdict_plain E ip hb (by rw [h]; simp)
    rw [verdict_kernel E ip s hs] at h
    obtain ⟨x, hx, hxe⟩ := isExcluded_iff E hE s.name
    rw [hx] at h
    cases x with
    | true => simp at h
    | false =>
      simp only at h
      cases hc : checkIncluded E s.name with
      | none => rw [hc] at h; simp at h
      | some o =>
        cases o with
        | none => rw [hc] at h; simp at h
        | some fn =>
          obtain ⟨hk, hl⟩ := checkIncluded_some E hE s.name fn hc
          have hf := lets_fit E hE fn hl
          refine .inr ⟨s, fn, hs, hk, hf, ?_, ?_⟩
          · intro hx'
            have := hxe.2 ⟨fn, hk, hx', hf⟩
            cases this
          · unfold Lets at hl
            split at hl
            · next hi => exact .inl ⟨hi, hl⟩
            · exact .inr hl.2

theorem small_fit (E : Env) (hS : Small E) (name : Str) (fn : BFunc) (hk : Known E name fn) : Fit E fn ↔ Hookable E fn := by
  unfold Fit Hookable
  rw [hS.slots name fn hk]

theorem small_lets (E : Env) (hS : Small E) (name : Str) (fn : BFunc) (hk : Known E name fn) :
    Lets E fn ↔ Hookable E fn ∧ (E.includes = [] ∨ Listed E E.includes fn) := by
  unfold Lets
  split
  · next h => simp [h]
  · next h => simp [h, small_fit E hS name fn hk]

/-- C74, what is let in, if no parameter takes more than one register: exactly the functions of BPF programs that can be traced and
the kernel functions that the options select; and the check does not fail. -/
theorem verdict_partial (E : Env) (hE : Ok E) (hS : Small E) (ip : Ip) :
    (verdict E ip = some true ↔ Allowed E ip) ∧ verdict E ip ≠ none := by
  cases hb : E.bpf ip with
  | some t =>
    rw [verdict_bpf E ip t hb]
    refine ⟨?_, by simp⟩
    unfold Allowed
    rw [hb]
    simp
  | none =>
    have hall : Allowed E ip ↔ Wanted E ip := by simp [Allowed, hb]
    rw [hall]
    by_cases hp : ∃ s, Plain E ip s
    · obtain ⟨s, hs⟩ := hp
      rw [verdict_kernel E ip s hs]
      have hw : Wanted E ip ↔ (∀ fn, Known E s.name fn → Hookable E fn → ¬ Listed E E.excludes fn) ∧
          ∃ fn, Known E s.name fn ∧ Hookable E fn ∧ (E.includes = [] ∨ Listed E E.includes fn) := by
        obtain ⟨_, h2, h3, h4, h5, h6⟩ := hs
        constructor
        · rintro ⟨s', e, _, _, _, _, h⟩
          rw [h2] at e
          cases e
          exact h
        · intro h
          exact ⟨s, h2, h3, h4, h5, h6, h⟩
      obtain ⟨x, hx, hxe⟩ := isExcluded_iff E hE s.name
      rw [hx, hw]
      cases x with
      | true =>
        refine ⟨?_, by simp⟩
        simp only [Option.some.injEq, Bool.false_eq_true, false_iff]
        rintro ⟨hno, _⟩
        obtain ⟨fn, hk, hl, hf⟩ := hxe.1 rfl
        exact hno fn hk ((small_fit E hS s.name fn hk).1 hf) hl
      | false =>
        have hno : ∀ fn, Known E s.name fn → Hookable E fn → ¬ Listed E E.excludes fn := by
          intro fn hk hh hl
          have := hxe.2 ⟨fn, hk, hl, (small_fit E hS s.name fn hk).2 hh⟩
          cases this
        simp only
        cases hc : checkIncluded E s.name with
        | none =>
          obtain ⟨fn, hk, hf⟩ := checkIncluded_fail E hE s.name hc
          have := hS.params s.name fn hk
          rw [hf.2.2] at this
          cases this
        | some o =>
          cases o with
          | none =>
            refine ⟨?_, by simp⟩
            simp only [Option.some.injEq, Bool.false_eq_true, false_iff]
            rintro ⟨_, fn, hk, hh, hi⟩
            exact (checkIncluded_none E hE s.name hc fn hk).1 ((small_lets E hS s.name fn hk).2 ⟨hh, hi⟩)
          | some fn =>
            obtain ⟨hk, hl⟩ := checkIncluded_some E hE s.name fn hc
            obtain ⟨hh, hi⟩ := (small_lets E hS s.name fn hk).1 hl
            refine ⟨?_, by simp⟩
            simp only [true_iff]
            exact ⟨hno, fn, hk, hh, hi⟩
    · have hv : verdict E ip = some false := by
        by_cases h : verdict E ip = some false
        · exact h
        · exact absurd (verdict_plain E ip hb h) hp
      rw [hv]
      refine ⟨?_, by simp⟩
      simp only [Option.some.injEq, Bool.false_eq_true, false_iff]
      rintro ⟨s, h2, h3, h4, h5, h6, _⟩
      exact hp ⟨s, hb, h2, h3, h4, h5, h6⟩

/-! ### The graph -/

theorem way_iff (E : Env) (hE : Ok E) (hS : Small E) (rs : List (Ip × Nat)) (R : Ip → Nat → Prop) (hR : ∀ ip d, (ip, d) ∈ rs ↔ R ip d)
    (ip : Ip) (d : Nat) : Gr.Reach (world E) rs ip d ↔ Way E R ip d := by
  have acc : ∀ p, (world E).accept p = true ↔ Allowed E p := by
    intro p
    rw [← (verdict_partial E hE hS p).1]
    simp [world]
  constructor
  · intro h
    induction h with
    | root h => exact .root ((hR _ _).1 h)
    | repl _ ha hr ih => exact .repl ih ((acc _).1 ha) hr
    | call _ ha hr hc ih => exact .call ih ((acc _).1 ha) hr hc
  · intro h
    induction h with
    | root h => exact .root ((hR _ _).2 h)
    | repl _ ha hr ih => exact .repl ih ((acc _).2 ha) hr
    | call _ ha hr hc ih => exact .call ih ((acc _).2 ha) hr hc

section Met
open Gr

theorem act_graphs (W : World) (D : Nat) (s : St) (th : Th) : (act W D s th).graphs = s.graphs ∨
    ∃ c d t st g, (th = .enter c d t st ∨ th = .fill c d t st) ∧ (act W D s th).graphs = upd s.graphs c g := by
  cases th with
  | start ip d => simp only [act]; split <;> exact .inl rfl
  | lookup ip d => simp only [act]; split <;> (try split) <;> exact .inl rfl
  | loop t st =>
    cases t with
    | nil => cases st <;> exact .inl rfl
    | cons x t => simp only [act]; split <;> exact .inl rfl
  | enter c d t st =>
    simp only [act]
    split
    · exact .inl rfl
    · exact .inr ⟨c, d, t, st, _, .inl rfl, rfl⟩
  | check c d t st => simp only [act]; split <;> exact .inl rfl
  | fill c d t st =>
    simp only [act]
    split
    · exact .inr ⟨c, d, t, st, _, .inr rfl, rfl⟩
    · exact .inl rfl
  | fin => exact .inl rfl

/-- Whatever has an entry in the map, filled or not, has been reached. -/
theorem run_met {W : World} {D : Nat} {rs : List (Ip × Nat)} : ∀ (sched : List Nat) {s : St}, Sound W D rs s →
    (∀ ip, s.graphs ip ≠ none → ∃ d, d ≤ D ∧ Reach W rs ip d) →
    ∀ ip, (run W D s sched).graphs ip ≠ none → ∃ d, d ≤ D ∧ Reach W rs ip d
  | [], _, _, h => h
  | i :: r, s, hs, h => by
    refine run_met r (step_sound hs i) ?_
    cases ht : s.threads[i]? with
    | none => rw [step_none ht]; exact h
    | some th =>
      intro ip hip
      rw [step_graphs ht] at hip
      rcases act_graphs W D s th with e | ⟨c, d, t, st, g, hth, e⟩
      · rw [e] at hip; exact h ip hip
      · rw [e] at hip
        by_cases hc : ip = c
        · subst hc
          have := hs.th th (List.mem_of_getElem? ht)
          rcases hth with rfl | rfl
          · exact ⟨d, this.1, this.2.1⟩
          · exact ⟨d, this.1, this.2.1⟩
        · rw [upd_ne _ _ hc] at hip
          exact h ip hip

/-- The goroutine still has to enter `x`. -/
def Owes (x : Ip × Nat) : Th → Prop
  | .loop t _ => x ∈ t
  | .enter c d t _ => x = (c, d) ∨ x ∈ t
  | .check _ _ t _ => x ∈ t
  | .fill _ _ t _ => x ∈ t
  | _ => False

theorem met_mono (W : World) (D : Nat) (s : St) (th : Th) (ip : Ip) (h : s.graphs ip ≠ none) : (act W D s th).graphs ip ≠ none := by
  rcases act_graphs W D s th with e | ⟨c, d, t, st, g, _, e⟩
  · rw [e]; exact h
  · rw [e]
    by_cases hc : ip = c
    · subst hc; rw [upd_self]; simp
    · rw [upd_ne _ _ hc]; exact h

theorem owes_step (W : World) (D : Nat) (s : St) (th : Th) (x : Ip × Nat) (hd : x.2 ≤ D) (h : Owes x th) :
    Owes x (act W D s th).next ∨ (act W D s th).graphs x.1 ≠ none := by
  cases th with
  | start ip d => exact h.elim
  | lookup ip d => exact h.elim
  | fin => exact h.elim
  | loop t st =>
    cases t with
    | nil => simp [Owes] at h
    | cons y t =>
      obtain ⟨c, d⟩ := y
      simp only [act]
      rcases List.mem_cons.1 h with rfl | h
      · rw [if_neg (by simpa using hd)]
        exact .inl (.inl rfl)
      · split
        · exact .inl h
        · exact .inl (.inr h)
  | enter c d t st =>
    simp only [act]
    rcases h with rfl | h
    · split
      · next g hg => exact .inr (by simp [hg])
      · exact .inr (by simp [upd])
    · split
      · exact .inl h
      · exact .inl h
  | check c d t st => simp only [act]; split <;> exact .inl h
  | fill c d t st => simp only [act]; split <;> exact .inl h

/-- A root has an entry once all goroutines have finished, in every schedule. -/
theorem run_owes {W : World} {D : Nat} {x : Ip × Nat} (hd : x.2 ≤ D) : ∀ (sched : List Nat) {s : St},
    ((∃ th ∈ s.threads, Owes x th) ∨ s.graphs x.1 ≠ none) →
    (∃ th ∈ (run W D s sched).threads, Owes x th) ∨ (run W D s sched).graphs x.1 ≠ none
  | [], _, h => h
  | i :: r, s, h => by
    refine run_owes hd r ?_
    cases ht : s.threads[i]? with
    | none => rw [step_none ht]; exact h
    | some th =>
      rw [step_graphs ht]
      rcases h with ⟨th', hm, ho⟩ | h
      · rcases keep_mem (W := W) (D := D) ht hm with e | hm'
        · subst e
          rcases owes_step W D s th' x hd ho with h | h
          · exact .inl ⟨_, next_mem ht, h⟩
          · exact .inr h
        · exact .inl ⟨th', hm', ho⟩
      · exact .inr (met_mono W D s th x.1 h)

theorem root_met (W : World) (D : Nat) (rs : List (Ip × Nat)) (sched : List Nat) (hq : Quiet (run W D (initial rs) sched))
    (x : Ip × Nat) (hx : x ∈ rs) (hd : x.2 ≤ D) : (run W D (initial rs) sched).graphs x.1 ≠ none := by
  rcases run_owes (W := W) hd sched (s := initial rs) (.inl ⟨_, List.mem_singleton.2 rfl, hx⟩) with ⟨th, hm, ho⟩ | h
  · rw [hq th hm] at ho; exact ho.elim
  · exact h

end Met

/-- The roots of the exploration of denied functions. -/
def denyRoots (A : Ask) : List (Ip × Nat) := A.deny.map fun ip => (ip, 0)

theorem start_iff (A : Ask) (ip : Ip) (d : Nat) : (ip, d) ∈ roots A.kfuncs A.progs A.extra ↔ Start A ip d := by
  unfold roots
  simp only [List.mem_append, List.mem_map, List.mem_filter, Prod.mk.injEq]
  constructor
  · rintro ((⟨t, ⟨h1, h2⟩, rfl, rfl⟩ | ⟨t, ⟨h1, h2⟩, rfl, rfl⟩) | ⟨x, h1, rfl, rfl⟩)
    · exact .kfunc h1 h2
    · exact .prog h1 h2
    · exact .extra h1
  · intro h
    cases h with
    | kfunc h1 h2 => exact .inl (.inl ⟨_, ⟨h1, h2⟩, rfl, rfl⟩)
    | prog h1 h2 => exact .inl (.inr ⟨_, ⟨h1, h2⟩, rfl, rfl⟩)
    | extra h1 => exact .inr ⟨_, h1, rfl, rfl⟩

theorem deny_iff (A : Ask) (ip : Ip) (d : Nat) : (ip, d) ∈ denyRoots A ↔ ip ∈ A.deny ∧ d = 0 := by
  unfold denyRoots
  simp only [List.mem_map, Prod.mk.injEq]
  constructor
  · rintro ⟨x, h, rfl, rfl⟩; exact ⟨h, rfl⟩
  · rintro ⟨h, rfl⟩; exact ⟨ip, h, rfl, rfl⟩

theorem shown_found (E : Env) (A : Ask) (s1 s2 : List Nat) (ip : Ip) (h : shown E A s1 s2 ip = true) :
    Gr.found (Gr.run (world E) A.depth (Gr.initial (roots A.kfuncs A.progs A.extra)) s2)
      (Gr.run (world E) A.depth (Gr.initial (denyRoots A)) s1) A.debug ip = true := by
  unfold shown at h
  split at h
  · cases h
  · exact h

theorem accept_iff (E : Env) (ip : Ip) : (world E).accept ip = true ↔ verdict E ip = some true := by simp [world]

/-- **C74**, what is shown obeys the options, in every schedule: a function shown is a function of a BPF program that can be traced, or a
kernel function with one address, neither denied nor of BPF, that no pattern of `--fgraph-exclude` matches, that one of
`--fgraph-include` matches if there are any, and that can be attached to. -/
theorem shown_obeys (E : Env) (hE : Ok E) (A : Ask) (s1 s2 : List Nat) (ip : Ip) (h : shown E A s1 s2 ip = true) :
    E.bpf ip = some true ∨ ∃ s fn, Plain E ip s ∧ Known E s.name fn ∧ Fit E fn ∧ ¬ Listed E E.excludes fn ∧
      (E.includes = [] ∧ Hookable E fn ∨ Listed E E.includes fn) := by
  have hf := shown_found E A s1 s2 ip h
  unfold Gr.found at hf
  split at hf
  · next r hg =>
    have := (Gr.graph_sound _ _ _ _ hg).1
    exact verdict_sound E hE ip ((accept_iff E ip).1 this)
  · cases hf

/-- **C74**, the functions bpfsnoop's own programs use are never shown, in every schedule. -/
theorem denied_never_shown (E : Env) (A : Ask) (s1 s2 : List Nat) (hdbg : A.debug = false)
    (hq : Gr.Quiet (Gr.run (world E) A.depth (Gr.initial (denyRoots A)) s1)) (ip : Ip) (hip : ip ∈ A.deny) :
    shown E A s1 s2 ip = false := by
  cases h : shown E A s1 s2 ip with
  | false => rfl
  | true =>
    have hf := shown_found E A s1 s2 ip h
    have := root_met (world E) A.depth (denyRoots A) s1 hq (ip, 0) (List.mem_map.2 ⟨ip, hip, rfl⟩) (Nat.zero_le _)
    unfold Gr.found at hf
    split at hf
    · rw [hdbg, Bool.false_or, Option.isNone_iff_eq_none] at hf
      exact absurd hf this
    · cases hf

/-- **C74**, where no parameter takes more than one register and no goroutine looks at an entry that another is about to fill: what is
shown is exactly what the options let in and what is reached from the roots (the functions and programs whose graph was asked for,
and those of `--fgraph-extra` at depth 1) through such functions within `--fgraph-max-depth`, without what is reached in the same way
from the functions never shown. -/
theorem shown_iff_partial (E : Env) (hE : Ok E) (hS : Small E) (A : Ask) (s1 s2 : List Nat)
    (hn1 : Gr.NoRace (world E) A.depth (Gr.initial (denyRoots A)) s1)
    (hq1 : Gr.Quiet (Gr.run (world E) A.depth (Gr.initial (denyRoots A)) s1))
    (hn2 : Gr.NoRace (world E) A.depth (Gr.initial (roots A.kfuncs A.progs A.extra)) s2)
    (hq2 : Gr.Quiet (Gr.run (world E) A.depth (Gr.initial (roots A.kfuncs A.progs A.extra)) s2)) (ip : Ip) :
    shown E A s1 s2 ip = true ↔
      (∃ t ∈ A.kfuncs ++ A.progs, t.graph = true) ∧ Allowed E ip ∧
        (∃ d, d ≤ A.depth ∧ Way E (Start A) ip d) ∧
        (A.debug = true ∨ ¬ ∃ d, d ≤ A.depth ∧ Way E (fun x n => x ∈ A.deny ∧ n = 0) ip d) := by
  have hany : (!(A.kfuncs.any (·.graph)) && !(A.progs.any (·.graph))) = false ↔ ∃ t ∈ A.kfuncs ++ A.progs, t.graph = true := by
    rw [← Bool.not_or, Bool.not_eq_false', ← List.any_append, List.any_eq_true]
  constructor
  · intro h
    have hne : ∃ t ∈ A.kfuncs ++ A.progs, t.graph = true := by
      rw [← hany]
      unfold shown at h
      split at h
      · cases h
      · next hc => simpa using hc
    have hf := shown_found E A s1 s2 ip h
    unfold Gr.found at hf
    split at hf
    · next r hg =>
      obtain ⟨ha, ⟨d, hd, hr⟩, _⟩ := Gr.graph_sound _ _ _ _ hg
      have hal := (verdict_partial E hE hS ip).1.1 ((accept_iff E ip).1 ha)
      refine ⟨hne, hal, ⟨d, hd, (way_iff E hE hS _ _ (start_iff A) _ _).1 hr⟩, ?_⟩
      rcases Bool.or_eq_true_iff.1 hf with hb | hf
      · exact .inl hb
      · right
        rintro ⟨d', hd', hw⟩
        obtain ⟨r', hr'⟩ := Gr.graph_complete_partial (world E) A.depth (denyRoots A) s1 hn1 hq1 ((way_iff E hE hS _ _ (deny_iff A) _ _).2 hw) hd' ha
        rw [hr'] at hf
        cases hf
    · cases hf
  · rintro ⟨hne, hal, ⟨d, hd, hw⟩, hdeny⟩
    have ha : (world E).accept ip = true := (accept_iff E ip).2 ((verdict_partial E hE hS ip).1.2 hal)
    obtain ⟨r, hr⟩ := Gr.graph_complete_partial (world E) A.depth _ s2 hn2 hq2 ((way_iff E hE hS _ _ (start_iff A) _ _).2 hw) hd ha
    unfold shown
    rw [hany.2 hne, if_neg (by simp)]
    unfold Gr.found
    rw [hr]
    simp only [Bool.or_eq_true]
    rcases hdeny with hb | hdeny
    · exact .inl hb
    · right
      rw [Option.isNone_iff_eq_none]
      cases hg : (Gr.run (world E) A.depth (Gr.initial (A.deny.map fun ip => (ip, 0))) s1).graphs ip with
      | none => rfl
      | some g =>
        obtain ⟨d', hd', hr'⟩ := run_met s1 (Gr.sound_init (world E) A.depth (denyRoots A)) (by simp [Gr.initial]) ip
          (by show (Gr.run (world E) A.depth (Gr.initial (A.deny.map fun ip => (ip, 0))) s1).graphs ip ≠ none; rw [hg]; simp)
        exact absurd ⟨d', hd', (way_iff E hE hS _ _ (deny_iff A) _ _).1 hr'⟩ hdeny

/-! ### The functions never shown -/

theorem loop_plain (pass : Pre × Str → Pre × Str) (x : Pre × Str) (h : "(".toList.isPrefixOf x.2 = false) : loop pass x = some x := by
  rw [loop, if_neg (by rw [h]; simp)]

theorem split_plain : ∀ (s : Str), ':' ∉ s → split s = [s]
  | [], _ => rfl
  | c :: r, h => by
    have hc : c ≠ ':' := fun e => h (by simp [e])
    have hr : ':' ∉ r := fun e => h (by simp [e])
    simp [split, hc, split_plain r hr]

/-- A name without prefix and without colon is a pattern for names. -/
theorem parse_plain (g : Glob) (hg : (g.insns && g.graph) = false) (n : Str) (h1 : "(".toList.isPrefixOf n = false) (h2 : ':' ∉ n)
    (h3 : trim n = n) : ∃ f, parseKfuncFlag g n = .ok f ∧ f.name = n ∧ f.arg = [] ∧ f.insn = g.insns ∧ f.imm.multi = false ∧
      f.imm.graph = g.graph := by
  unfold parseKfuncFlag
  rw [loop_plain passK ({}, n) h1]
  simp only [Bool.false_or, hg, Bool.false_and, Bool.false_eq_true, if_false]
  have hk : kfuncFields [] [] n = some (n, [], []) := by
    unfold kfuncFields
    rw [split_plain n h2]
    simp [h3]
  rw [hk]
  exact ⟨_, rfl, rfl, rfl, rfl, rfl, rfl⟩

theorem deny_names (n : Str) (h : n ∈ fgraphDenyList) : "(".toList.isPrefixOf n = false ∧ ':' ∉ n ∧ trim n = n := by
  have : ∀ n ∈ fgraphDenyList, "(".toList.isPrefixOf n = false ∧ ':' ∉ n ∧ trim n = n := by decide +kernel
  exact this n h

theorem denyFlags_spec (g : Glob) (hg : (g.insns && g.graph) = false) (f : KfuncFlag) (h : f ∈ denyFlags g) :
    f.name ∈ fgraphDenyList ∧ f.arg = [] ∧ f.imm.multi = false := by
  unfold denyFlags at h
  obtain ⟨n, hn, hf⟩ := List.mem_filterMap.1 h
  obtain ⟨h1, h2, h3⟩ := deny_names n hn
  obtain ⟨f', hp, e1, e2, _, e4, _⟩ := parse_plain g hg n h1 h2 h3
  rw [hp] at hf
  cases hf
  exact ⟨e1 ▸ hn, e2, e4⟩

theorem denyFlags_all (g : Glob) (hg : (g.insns && g.graph) = false) (n : Str) (hn : n ∈ fgraphDenyList) :
    ∃ f ∈ denyFlags g, f.name = n ∧ f.arg = [] := by
  obtain ⟨h1, h2, h3⟩ := deny_names n hn
  obtain ⟨f', hp, e1, e2, _⟩ := parse_plain g hg n h1 h2 h3
  exact ⟨f', List.mem_filterMap.2 ⟨n, hn, by rw [hp]⟩, e1, e2⟩

theorem own_listed (p : String) (h : p ∈ ownPatterns) : p.toList ∈ fgraphDenyList := by
  have : ∀ p ∈ ownPatterns, p.toList ∈ fgraphDenyList := by decide +kernel
  exact this p h

/-- **C74**, for the names of the list: a kernel function whose name matches one of `ownPatterns` is not shown, whatever is asked for and
in every schedule, if the type information searched has it and no other function has its address. -/
theorem own_functions_never_shown (E : Env) (g : Glob) (hg : (g.insns && g.graph) = false) (fns : List BFunc) (A : Ask)
    (hA : ∀ ip, ip < 2 ^ 64 → isDeny g E fns ip = true → ip ∈ A.deny) (hdbg : A.debug = false) (s1 s2 : List Nat)
    (hq : Gr.Quiet (Gr.run (world E) A.depth (Gr.initial (denyRoots A)) s1)) (p : String) (hp : p ∈ ownPatterns) (fn : BFunc)
    (hfn : fn ∈ fns) (hm : E.glob p.toList fn.name = true) (hfit : Fit E fn) (ip : Ip) (k : Ksym) (hk : E.ksyms fn.name = some k)
    (hip : ip = k.addr.toNat) (hsole : ∀ fn' ∈ fns, ∀ k', E.ksyms fn'.name = some k' → k'.addr = k.addr → fn' = fn)
    (hsym : ∀ s, E.a2s ip = some s → s.name = fn.name) (hbpf : E.bpf ip = none) :
    shown E A s1 s2 ip = false := by
  by_cases hden : fn.name ∈ tracingDenyFuncs ∨ fn.name ∈ noreturnFuncs
  · -- refused by name
    cases h : shown E A s1 s2 ip with
    | false => rfl
    | true =>
      have hf := shown_found E A s1 s2 ip h
      unfold Gr.found at hf
      split at hf
      · next r hgr =>
        have hv := (accept_iff E ip).1 (Gr.graph_sound _ _ _ _ hgr).1
        obtain ⟨s, hs⟩ := verdict_plain E ip hbpf (by rw [hv]; simp)
        obtain ⟨_, h2, _, _, h5, h6⟩ := hs
        rw [hsym s h2] at h5 h6
        rcases hden with hd | hd
        · exact absurd hd h5
        · exact absurd hd h6
      · cases hf
  · have hd1 : fn.name ∉ tracingDenyFuncs := fun h => hden (.inl h)
    have hd2 : fn.name ∉ noreturnFuncs := fun h => hden (.inr h)
    refine denied_never_shown E A s1 s2 hdbg hq ip (hA ip (hip ▸ k.addr.isLt) ?_)
    obtain ⟨f, hf, e1, e2⟩ := denyFlags_all g hg p.toList (own_listed p hp)
    obtain ⟨m, hfm⟩ := firstMatch_of (glob := E.glob) (fn := fn) ⟨f, hf, by rw [e1]; exact hm, .inl e2⟩
    obtain ⟨h1, h2, ⟨k', h3, h4⟩, h5, h6⟩ := hfit
    rw [hk] at h3
    cases h3
    have hnd : ¬ Denied g m fn := by
      rintro (h | ⟨h, _⟩)
      · exact hd1 (by simpa using h)
      · exact hd2 (by simpa using h)
    have := traced_complete g E.glob E.ksyms E.maxArgs (denyFlags g) fns fn hfn m k hfm ⟨h1, h2, hk, .inl h4, h5, .inl h6⟩ hnd hsole
    unfold isDeny
    have hb : BitVec.ofNat 64 ip = k.addr := by rw [hip]; simp
    rw [hb, this]
    rfl

/-! ### Type information that cannot be loaded -/

theorem walk_missing (E : Env) (name : Str) (hn : NoMulti E.excludes) : ∀ (l : List (Option Spec)), none ∈ l →
    walk (exStep E name) l false = none ∨
      walk (exStep E name) l false = some true ∧ ∃ b fn, some b ∈ l ∧ b name = .func fn ∧ Listed E E.excludes fn
  | [], h => by simp at h
  | none :: _, _ => .inl rfl
  | some b :: r, h => by
    have hr : none ∈ r := by simpa using h
    have skip : walk (exStep E name) (some b :: r) false = walk (exStep E name) r false →
        walk (exStep E name) (some b :: r) false = none ∨ walk (exStep E name) (some b :: r) false = some true ∧
          ∃ b' fn, some b' ∈ some b :: r ∧ b' name = .func fn ∧ Listed E E.excludes fn := by
      intro he
      rw [he]
      rcases walk_missing E name hn r hr with h | ⟨h, b', fn, h1, h2⟩
      · exact .inl h
      · exact .inr ⟨h, b', fn, by simp [h1], h2⟩
    cases hb : b name with
    | absent => exact skip (by simp [walk, exStep, hb])
    | other => exact skip (by simp [walk, exStep, hb])
    | func fn =>
      cases hk : matchKernelFunc E.glob E.ksyms E.maxArgs E.excludes fn with
      | none => exact skip (by simp [walk, exStep, hb, hk])
      | some kf =>
        exact .inr ⟨by simp [walk, exStep, hb, hk], b, fn, by simp, hb, ((matched_iff E E.excludes hn fn).1 ⟨kf, hk⟩).1⟩

/-- **C74**, where the type information of the kernel or a module cannot be loaded: no kernel function is let in on what the rest of
it says; the search for functions ends with an error, but for functions already known to be excluded. -/
theorem missing_types (E : Env) (hn : NoMulti E.excludes) (hm : none ∈ E.specs) (ip : Ip) (s : Sym) (hs : Plain E ip s) :
    verdict E ip = none ∨ verdict E ip = some false ∧ ∃ fn, Known E s.name fn ∧ Listed E E.excludes fn := by
  have hv := verdict_kernel E ip s hs
  rcases walk_missing E s.name hn E.specs hm with h | ⟨h, b, fn, h1, h2, h3⟩
  · left
    rw [hv]
    unfold isExcluded
    rw [h]
  · right
    rw [hv]
    unfold isExcluded
    rw [h]
    exact ⟨rfl, fn, ⟨b, h1, h2⟩, h3⟩

/-! ### What goes wrong -/

/-- **C74**, violated: a function whose graph is asked for and that no pattern of `--fgraph-include` matches has no graph at all: neither the
function nor anything it calls is shown, whatever the patterns match. -/
theorem unlisted_root_violated (E : Env) (hE : Ok E) (A : Ask) (r : Ip) (s : Sym) (hi : E.includes ≠ []) (hb : E.bpf r = none)
    (hr : roots A.kfuncs A.progs A.extra = [(r, 0)]) (hs : E.a2s r = some s)
    (hl : ∀ fn, Known E s.name fn → ¬ Listed E E.includes fn) (s1 s2 : List Nat) (ip : Ip) : shown E A s1 s2 ip = false := by
  have hacc : (world E).accept r = false := by
    cases h : (world E).accept r with
    | false => rfl
    | true =>
      rcases verdict_sound E hE r ((accept_iff E r).1 h) with h | ⟨s', fn, hp, hk, _, _, h⟩
      · rw [hb] at h; cases h
      · obtain ⟨_, h2, _⟩ := hp
        rw [hs] at h2
        cases h2
        rcases h with ⟨h, _⟩ | h
        · exact absurd h hi
        · exact absurd h (hl fn hk)
  cases h : shown E A s1 s2 ip with
  | false => rfl
  | true =>
    have hf := shown_found E A s1 s2 ip h
    unfold Gr.found at hf
    split at hf
    · next g hg =>
      rw [hr] at hg
      obtain ⟨ha, ⟨d, _, hreach⟩, _⟩ := Gr.graph_sound _ _ _ _ hg
      have only : ∀ {x d}, Gr.Reach (world E) [(r, 0)] x d → x = r := by
        intro x d hx
        induction hx with
        | root h => simp only [List.mem_singleton, Prod.mk.injEq] at h; exact h.1
        | repl _ ha _ ih => subst ih; rw [hacc] at ha; cases ha
        | call _ ha _ _ ih => subst ih; rw [hacc] at ha; cases ha
      rw [only hreach, hacc] at ha
      cases ha
    · cases hf

/-- A kernel for examples: functions `a` (0), `bpf_ringbuf_submit` (1), `w` (2) and `b` (3); `a` calls `w`, `bpf_ringbuf_submit` calls
`w` and `b`. `wide` is the number of registers of `w`'s single parameter, 3 for one that is too large. -/
def exFn (n : String) (ok : Bool) : BFunc := ⟨n.toList, [("x".toList, "int".toList)], false, false, ok⟩

def exName (ip : Ip) : Option String :=
  if ip = 0 then some "a" else if ip = 1 then some "bpf_ringbuf_submit" else if ip = 2 then some "w" else if ip = 3 then some "b" else none

def exE (wide : Nat) (inc exc : List String) : Env where
  specs := [some fun n => if n = "a".toList then .func (exFn "a" true)
    else if n = "bpf_ringbuf_submit".toList then .func (exFn "bpf_ringbuf_submit" true)
    else if n = "w".toList then .func (exFn "w" (wide != 3)) else if n = "b".toList then .func (exFn "b" true) else .absent]
  glob := fun p n => p == n || p == "*".toList
  ksyms := fun n => if n = "a".toList then some ⟨0, false⟩ else if n = "bpf_ringbuf_submit".toList then some ⟨1, false⟩
    else if n = "w".toList then some ⟨2, false⟩ else if n = "b".toList then some ⟨3, false⟩ else none
  slots := fun fn => if fn.name = "w".toList then wide else 1
  maxArgs := 1
  includes := inc.map fun n => { name := n.toList }
  excludes := exc.map fun n => { name := n.toList }
  bpf := fun _ => none
  a2s := fun ip => (exName ip).map fun n => ⟨n.toList, false, false⟩
  repl := fun _ => none
  callees := fun ip => if ip = 0 then [2] else if ip = 1 then [2, 3] else []

/-- `-k a --output-fgraph`, with the denied function found. -/
def exA (root : Ip) : Ask := ⟨[⟨root, true⟩], [], [], [1], 5, false⟩

/-- **C74**, violated: `--fgraph-include '*'` is not the same as none: a function whose parameters take more registers than allowed is let in
only with it. -/
theorem include_all_violated : verdict (exE 2 [] []) 2 = some false ∧ verdict (exE 2 ["*"] []) 2 = some true ∧
    ¬ Hookable (exE 2 ["*"] []) (exFn "w" true) := by
  refine ⟨by decide +kernel, by decide +kernel, ?_⟩
  rintro ⟨_, _, _, _, h⟩
  revert h
  decide +kernel

/-- **C74**, violated: without `--fgraph-include`, one function with a large parameter among those called makes the whole search fail; with
`--fgraph-include '*'` it is left out. -/
theorem large_parameter_violated : verdict (exE 3 [] []) 2 = none ∧ verdict (exE 3 ["*"] []) 2 = some false ∧
    Gr.Reach (world (exE 3 [] [])) [(0, 0)] 2 1 := by
  refine ⟨by decide +kernel, by decide +kernel, ?_⟩
  exact .call (p := 0) (.root (by simp)) (by decide +kernel) rfl (by decide +kernel)

/-- Schedules that run the goroutines of the examples to their ends. -/
def exDeny : List Nat := [0, 0, 0, 0, 1, 1, 1, 1, 1, 1, 1, 1, 1, 2, 2, 2, 3, 3, 3]
def exRoots : List Nat := [0, 0, 0, 0, 1, 1, 1, 1, 1, 1, 2, 2, 2]

/-- **C74**, violated: `w` is not shown because a denied function calls it; if `--fgraph-include` matches `w` and not the denied
function, `w` is shown, although the denied function calls it as before. -/
theorem denial_violated :
    shown (exE 1 [] []) (exA 0) exDeny exRoots 2 = false ∧ shown (exE 1 ["a", "w"] []) (exA 0) [0, 0, 0, 0] exRoots 2 = true ∧
    Gr.Quiet (Gr.run (world (exE 1 [] [])) 5 (Gr.initial (denyRoots (exA 0))) exDeny) ∧
    Gr.Quiet (Gr.run (world (exE 1 [] [])) 5 (Gr.initial [(0, 0)]) exRoots) ∧
    Gr.Quiet (Gr.run (world (exE 1 ["a", "w"] [])) 5 (Gr.initial (denyRoots (exA 0))) [0, 0, 0, 0]) ∧
    Gr.Quiet (Gr.run (world (exE 1 ["a", "w"] [])) 5 (Gr.initial [(0, 0)]) exRoots) := by
  unfold Gr.Quiet
  decide +kernel

/-- **C74**, violated: a function whose graph is asked for is not shown if a denied function calls it. -/
theorem denied_root_violated :
    shown (exE 1 [] []) (exA 3) exDeny [0, 0, 0, 0, 1, 1, 1] 3 = false ∧
    Gr.Quiet (Gr.run (world (exE 1 [] [])) 5 (Gr.initial (denyRoots (exA 3))) exDeny) ∧
    Gr.Quiet (Gr.run (world (exE 1 [] [])) 5 (Gr.initial [(3, 0)]) [0, 0, 0, 0, 1, 1, 1]) := by
  unfold Gr.Quiet
  decide +kernel

/-! ### The hypotheses are met -/

theorem exE_known (wide : Nat) (inc exc : List String) (name : Str) (fn : BFunc) (h : Known (exE wide inc exc) name fn) :
    fn.name = name ∧ fn.params.length = 1 ∧ (fn.paramsOk = true ∨ wide = 3) := by
  obtain ⟨b, hb, hf⟩ := h
  simp only [exE, List.mem_singleton, Option.some.injEq] at hb
  subst hb
  dsimp only at hf
  split at hf
  · next e => cases hf; exact ⟨e.symm, rfl, .inl rfl⟩
  · split at hf
    · next e => cases hf; exact ⟨e.symm, rfl, .inl rfl⟩
    · split at hf
      · next e =>
        cases hf
        refine ⟨e.symm, rfl, ?_⟩
        by_cases hw : wide = 3
        · exact .inr hw
        · left; simp [exFn, hw]
      · split at hf
        · next e => cases hf; exact ⟨e.symm, rfl, .inl rfl⟩
        · cases hf

/-- The example with one register for each parameter. -/
def exE' (inc exc : List String) : Env := { exE 1 inc exc with slots := fun fn => fn.params.length }

theorem exOk (inc exc : List String) : Ok (exE' inc exc) := by
  refine ⟨?_, ?_, ?_, ?_, fun _ => Nat.le_refl _⟩
  · intro h
    rcases List.mem_singleton.1 h with h
    cases h
  · intro b name fn h1 h2
    exact (exE_known 1 inc exc name fn ⟨b, h1, h2⟩).1
  · intro m hm
    obtain ⟨n, _, rfl⟩ := List.mem_map.1 hm
    rfl
  · intro m hm
    obtain ⟨n, _, rfl⟩ := List.mem_map.1 hm
    rfl

theorem exSmall (inc exc : List String) : Small (exE' inc exc) := by
  refine ⟨fun _ _ _ => rfl, ?_⟩
  intro name fn h
  rcases (exE_known 1 inc exc name fn h).2.2 with h | h
  · exact h
  · cases h

/-- The hypotheses of `shown_iff_partial` are met, with `--fgraph-include a,w --fgraph-exclude b` and with a function shown. -/
theorem shown_witness : ∃ (E : Env) (A : Ask) (s1 s2 : List Nat), Ok E ∧ Small E ∧ E.includes ≠ [] ∧ E.excludes ≠ [] ∧
    Gr.NoRace (world E) A.depth (Gr.initial (denyRoots A)) s1 ∧ Gr.Quiet (Gr.run (world E) A.depth (Gr.initial (denyRoots A)) s1) ∧
    Gr.NoRace (world E) A.depth (Gr.initial (roots A.kfuncs A.progs A.extra)) s2 ∧
    Gr.Quiet (Gr.run (world E) A.depth (Gr.initial (roots A.kfuncs A.progs A.extra)) s2) ∧
    shown E A s1 s2 0 = true ∧ shown E A s1 s2 2 = true ∧ shown E A s1 s2 3 = false := by
  refine ⟨exE' ["a", "w"] ["b"], exA 0, [0, 0, 0, 0], exRoots, exOk _ _, exSmall _ _,
    nofun, nofun, Gr.noRace_iff (by decide +kernel), ?_, Gr.noRace_iff (by decide +kernel), ?_, by decide +kernel,
    by decide +kernel, by decide +kernel⟩
  · unfold Gr.Quiet; decide +kernel
  · unfold Gr.Quiet; decide +kernel

/-- Those of `own_functions_never_shown`: `bpf_ringbuf_submit` is asked for, and not shown. -/
theorem own_witness : ∃ (E : Env) (g : Glob) (fns : List BFunc) (A : Ask) (p : String) (fn : BFunc) (k : Ksym),
    (g.insns && g.graph) = false ∧ (∀ ip, ip < 2 ^ 64 → isDeny g E fns ip = true → ip ∈ A.deny) ∧ p ∈ ownPatterns ∧ fn ∈ fns ∧
    E.glob p.toList fn.name = true ∧ Fit E fn ∧ E.ksyms fn.name = some k ∧ 1 = k.addr.toNat ∧ isDeny g E fns 1 = true ∧
    A.kfuncs = [⟨1, true⟩] := by
  refine ⟨exE 1 [] [], ⟨false, true, false, false, false, ["exit"]⟩, [exFn "a" true, exFn "bpf_ringbuf_submit" true], exA 1,
    "bpf_ringbuf_submit", exFn "bpf_ringbuf_submit" true, ⟨1, false⟩, rfl, ?_, by decide +kernel, by simp, by decide +kernel,
    ⟨rfl, rfl, ⟨⟨1, false⟩, by decide +kernel, rfl⟩, rfl, by decide +kernel⟩, by decide +kernel, by decide +kernel, by decide +kernel, rfl⟩
  intro ip hlt h
  unfold isDeny at h
  rw [Option.isSome_iff_exists] at h
  obtain ⟨kf, hkf⟩ := h
  obtain ⟨hm, ha, m, k, ⟨b, a, he, hmm, _⟩, hel, hka, _⟩ := traced_sound _ _ _ _ _ _ _ _ hkf
  have hmem : m ∈ denyFlags ⟨false, true, false, false, false, ["exit"]⟩ := by rw [he]; simp
  have hn := (denyFlags_spec _ rfl m hmem).1
  simp only [List.mem_cons, List.not_mem_nil, or_false] at hm
  rcases hm with e | e
  · rw [e] at hmm
    have hg : ∀ n ∈ fgraphDenyList, (exE 1 [] []).glob n (exFn "a" true).name = false := by decide +kernel
    have := hmm.1
    rw [hg m.name hn] at this
    cases this
  · rw [e] at hel
    have hk := hel.2.2.1
    have hk1 : (exE 1 [] []).ksyms (exFn "bpf_ringbuf_submit" true).name = some ⟨1, false⟩ := by decide +kernel
    rw [hk1] at hk
    cases hk
    have hi : (BitVec.ofNat 64 ip).toNat = 1 := by rw [← hka]; rfl
    rw [BitVec.toNat_ofNat, Nat.mod_eq_of_lt hlt] at hi
    subst hi
    exact List.mem_singleton.2 rfl

/-- Those of `missing_types`: the type information of a module cannot be loaded; `a` is not excluded, `b` is. -/
theorem missing_witness : ∃ (E : Env) (s t : Sym), NoMulti E.excludes ∧ none ∈ E.specs ∧ Plain E 0 s ∧ Plain E 3 t ∧
    verdict E 0 = none ∧ verdict E 3 = some false := by
  refine ⟨{ exE' ["a"] ["b"] with specs := (exE' ["a"] ["b"]).specs ++ [none] }, ⟨"a".toList, false, false⟩, ⟨"b".toList, false, false⟩,
    (exOk ["a"] ["b"]).exc, by simp, ?_, ?_, by decide +kernel, by decide +kernel⟩
  · unfold Plain; decide +kernel
  · unfold Plain; decide +kernel

/-- Those of `unlisted_root_violated`: `-k '(g)a' --fgraph-include w`, where `a` calls `w`. -/
theorem unlisted_witness : ∃ (E : Env) (A : Ask) (s : Sym), Ok E ∧ E.includes ≠ [] ∧ E.bpf 0 = none ∧
    roots A.kfuncs A.progs A.extra = [(0, 0)] ∧ E.a2s 0 = some s ∧ (∀ fn, Known E s.name fn → ¬ Listed E E.includes fn) ∧
    2 ∈ E.callees 0 ∧ Wanted E 2 := by
  have hw : verdict (exE' ["w"] []) 2 = some true := by decide +kernel
  refine ⟨exE' ["w"] [], exA 0, ⟨"a".toList, false, false⟩, exOk _ _, nofun, rfl, rfl, by decide +kernel, ?_, by decide +kernel, ?_⟩
  · intro fn hk hl
    have hn := (exE_known 1 ["w"] [] "a".toList fn hk).1
    obtain ⟨m, hm, hg, _⟩ := hl
    rcases List.mem_singleton.1 hm with rfl
    rw [hn] at hg
    revert hg
    decide +kernel
  · rcases (verdict_partial _ (exOk _ _) (exSmall _ _) 2).1.1 hw with h | h
    · cases h
    · exact h.2

end Bpfsnoop.Gs
