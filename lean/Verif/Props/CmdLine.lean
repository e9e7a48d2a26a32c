import Verif.Props.Whole
import Verif.Props.Plan

/-!
C89: from the command line to the lines. The programs that the start (C85) has attached, in whatever order, run when the kernel passes the
places they are attached to; what is printed (C83) is what the options ask for. No definition of the model is new here: the programs are those
of `Pn.Planned` and `Pn.finish` (main.go 100-195, bpf_tracing.go 87-117), the records and the lines those of `Wh`.
-/
namespace Bpfsnoop.Cl
open Pn (World Tgt Job fnOf)
open Flg (Str BFunc KfuncFlag)
open Wh (Reader Globals Feats Src Target Moment IMoment GMoment Ev)

/-! ## Specification -/

/-- A place in the kernel: a function with name and address, a tracepoint, a function of a BPF program. -/
inductive Site
  | func (name : Str) (a : BitVec 64)
  | tp (name : Str)
  | prog (id : BitVec 32) (func : Str)

/-- The program, if it is attached to this place. -/
def Site.of (s : Site) : Job → Option Att.Att :=
  match s with
  | .func name a => Pn.hookOf name a
  | .tp name => Pn.tpHookOf name
  | .prog id f => Pn.progHookOf id f

/-- The programs that run when the kernel passes the place, in the order in which they were attached. -/
def Site.runs (up : List Job) (s : Site) : List Att.Att := up.filterMap s.of

/-- The parameter of this name is the `i`-th, the first of that name. -/
def ParamAt (fn : BFunc) (name : Str) (i : Nat) : Prop :=
  (∃ ty, fn.params[i]? = some (name, ty)) ∧ ∀ j < i, ∀ q, fn.params[j]? = some q → q.1 ≠ name

/-- The options ask for the place, with these options, with `(m)` or without. Partial (C37, C85): not both with and without `(m)`; with `(m)`, the
symbol can be attached to, always by parameters of the same index, and the functions asked for by parameters of that index have the same
options and outputs. -/
inductive Asked (w : World) : Site → Att.Fn → Bool → Prop
  | func (fn : BFunc) (a : BitVec 64) (o : Str) (toks : List Str) (m : KfuncFlag) : Pn.Wanted w fn a o toks m →
      (∀ fn', Pn.Known w fn' → ∀ k', w.ksyms fn'.name = some k' → k'.addr = a → fn' = fn) →
      (∀ fn' a' o' m', Pn.WantedMulti w fn' a' o' m' → fn'.name ≠ fn.name) →
      Asked w (.func fn.name a) (fnOf w a fn m) false
  | multi (fn : BFunc) (a : BitVec 64) (o : Str) (m : KfuncFlag) : Pn.WantedMulti w fn a o m →
      (∀ fn' sp, Km.Searched w.fs w.all (Km.prepare w.ks w.mopts w.given) sp → fn' ∈ sp.funcs →
        ∀ k', w.ksyms fn'.name = some k' → k'.addr = a → fn' = fn) →
      (∀ fn' o' toks m', ¬ Pn.Wanted w fn' a o' toks m') →
      (∀ avail, w.avail = some avail → avail fn.name = true) → Att.skipSym fn.name = false →
      (∀ i, ParamAt fn m.imm.argName i → ∀ fn' a' o' m', Pn.WantedMulti w fn' a' o' m' →
        (fn'.name = fn.name → ∀ j, ParamAt fn' m'.imm.argName j → j = i) ∧
        (ParamAt fn' m'.imm.argName i → m'.imm = m.imm ∧ (fnOf w a' fn' m').hasPkt = (fnOf w a fn m).hasPkt ∧
          (fnOf w a' fn' m').data = (fnOf w a fn m).data)) →
      Asked w (.func fn.name a) (fnOf w a fn m) true
  | tp (n : Str) (k : Tp.KTp) : Pn.WantedTp w n k → Asked w (.tp n) ((Tgt.tp k).fn (w.shape (.tp k))) false
  | prog (t : Flg.Tracing) : t ∈ w.progs → Asked w (.prog t.id t.func) (Pn.progFn (w.progShape t) t) false

/-- No option asks for the place. -/
inductive Unasked (w : World) : Site → Prop
  | func (name : Str) (a : BitVec 64) : (∀ fn o toks m, ¬ Pn.Wanted w fn a o toks m) →
      (∀ fn a' o m, Pn.WantedMulti w fn a' o m → fn.name ≠ name) → Unasked w (.func name a)
  | tp (n : Str) : (∀ k, ¬ Pn.WantedTp w n k) → Unasked w (.tp n)
  | prog (id : BitVec 32) (func : Str) : (∀ t ∈ w.progs, ¬ (t.id = id ∧ t.func = func)) → Unasked w (.prog id func)

/-- What happens in the kernel: it passes a place, a task executes an instruction, or a function of a graph that is not a root is called or returns. -/
inductive Hap
  | at (s : Site) (x : Moment)
  | insn (x : IMoment)
  | graph (x : GMoment)

/-- The probe of an instruction is attached. -/
def probe (up : List Job) (x : IMoment) : Bool := up.any fun j => match j with | .insn n => n == x.ip.toNat | _ => false

/-- The number under which the start (C85) has the program of a function of a graph: twice its address, and one more for the program at the return. -/
def nodeNr (x : GMoment) : Nat := 2 * x.τ.ip.toNat + (if x.o.phase = .ret then 1 else 0)

/-- The program of a function of a graph is attached. -/
def node (up : List Job) (x : GMoment) : Bool := up.any fun j => match j with | .graph n => n == nodeNr x | _ => false

/-- The part of it at which programs run. -/
def Hap.run (up : List Job) : Hap → Option Ev
  | .at _ x => some (.fn x)
  | .insn x => if probe up x then some (.insn x) else none
  | .graph x => if node up x then some (.graph x) else none

/-- What happens in the kernel, `es`, and the part of it, `ms`, at places the options ask for; the instructions to trace are `w.insns` (C84), the programs of functions
of graphs `w.graphs` (C40, C79), of which the kernel may have refused some. -/
inductive Heard (w : World) (jobs : List Job) : List Hap → List Ev → Prop
  | nil : Heard w jobs [] []
  | asked {s : Site} {x : Moment} {es ms} : Asked w s x.S.fn x.τ.multi → (∀ j ∈ jobs, s.of j ≠ none → w.answer j = .ok) →
      Heard w jobs es ms → Heard w jobs (.at s x :: es) (.fn x :: ms)
  | other {s : Site} {x : Moment} {es ms} : Unasked w s → Heard w jobs es ms → Heard w jobs (.at s x :: es) ms
  | probed {x : IMoment} {es ms} : x.ip.toNat ∈ w.insns → w.answer (.insn x.ip.toNat) = .ok → Heard w jobs es ms →
      Heard w jobs (.insn x :: es) (.insn x :: ms)
  | bare {x : IMoment} {es ms} : ¬ (x.ip.toNat ∈ w.insns ∧ w.answer (.insn x.ip.toNat) = .ok) → Heard w jobs es ms → Heard w jobs (.insn x :: es) ms
  | inGraph {x : GMoment} {es ms} : nodeNr x ∈ w.graphs → w.answer (.graph (nodeNr x)) = .ok → Heard w jobs es ms →
      Heard w jobs (.graph x :: es) (.graph x :: ms)
  | noGraph {x : GMoment} {es ms} : ¬ (nodeNr x ∈ w.graphs ∧ w.answer (.graph (nodeNr x)) = .ok) → Heard w jobs es ms → Heard w jobs (.graph x :: es) ms

/-- The conditions under which the theorems speak of a moment: those of C83, but for what is attached. -/
structure Fine (R : Reader) (g : Globals) (F : Feats) (me : Bool) (ses : Rp.W → Bool) (x : Moment) : Prop where
  fits : Wh.Fits R me x.S x.τ
  sees : Wh.Sees g x.S x.τ x.o x.args x.res
  size : ∀ wr, (Arg.injectOutputFuncArgs x.τ.params x.τ.ret wr).2 < 2 ^ 32
  attrs : x.S.fn.data ≠ 0 → ∃ a, R.attrsText x.τ.ip x.o.data = some a
  same : F.session x.τ = ses x.τ.ip
  root : ∀ a, g.fip a = x.τ.ip → x.S.paired = true → x.S.fn.flag.graph = true

/-- The conditions on what happens: for an instruction and a function of a graph those of C83. -/
def FineEv (R : Reader) (g : Globals) (F : Feats) (me : Bool) (ses : Rp.W → Bool) : Ev → Prop
  | .fn x => Fine R g F me ses x
  | .insn x => x.Ok R ses
  | .graph x => x.Ok R g ses

/-- What the kernel has. -/
def feats (w : World) : Feats := ⟨w.feats.fsession, w.feats.kprobeSession⟩

/-! ## The programs at a place -/

variable {w : World} {kfs : List Flg.KFunc} {ts : List (Nat × Tgt)} {mfs : List Att.MFn} {jobs up : List Job}

theorem plain_none (hs : Pn.Sane w) (h : Pn.Planned w kfs ts mfs jobs) (hup : Pn.finish w jobs = some up) (a : BitVec 64)
    (hno : ∀ fn o toks m, ¬ Pn.Wanted w fn a o toks m) : up.filterMap (Pn.plainOf a) = [] := by
  obtain ⟨_, rfl, _⟩ := (Pn.finish_iff w jobs up).mp hup
  refine List.perm_nil.mp ((Pn.plain_jobs h _ a).trans (.of_eq (Pn.flatMap_nil _ _ fun k hk => if_neg fun hc => ?_)))
  obtain ⟨o, toks, m, hw, _⟩ := Pn.kept_sound hs h k hk
  exact hno k.fn o toks m (hc ▸ hw)

theorem group_mem (mfs : List Att.MFn) (y : Nat × Pn.Group) (hy : y ∈ Pn.groupsOf mfs) (f : Att.MFn) (hf : f ∈ y.2.all) : f ∈ mfs := by
  obtain ⟨g1, g2⟩ := Pn.groups_spec mfs
  have hy2 := Tp.mem_lookup (k := y.1) (v := y.2) g1 hy
  rw [g2] at hy2
  cases hl : mfs.filter (fun x => x.arg = y.1) with
  | nil => rw [hl] at hy2; cases hy2
  | cons g r =>
    rw [hl] at hy2
    simp only [Option.some.injEq] at hy2
    rw [← hy2, ← hl] at hf
    exact (List.mem_filter.mp hf).1

theorem multi_none (hsm : Pn.SaneMulti w) (h : Pn.Planned w kfs ts mfs jobs) (hup : Pn.finish w jobs = some up) (name : Str)
    (hno : ∀ fn a o m, Pn.WantedMulti w fn a o m → fn.name ≠ name) : up.filterMap (Pn.multiOf name) = [] := by
  obtain ⟨_, rfl, _⟩ := (Pn.finish_iff w jobs up).mp hup
  obtain ⟨avail, gs, h1, h2, h3⟩ := Pn.multi_jobs h (fun j => w.answer j = .ok) name
  refine List.perm_nil.mp (h3.trans (.of_eq (Pn.flatMap_nil _ _ fun y hy => if_neg fun hc => ?_)))
  obtain ⟨f, hf, hn⟩ := List.mem_map.mp (List.mem_filter.mp hc).1
  obtain ⟨fn, a, o, m, hw, hsym, _⟩ := Pn.multi_sound hsm h f (group_mem mfs y (h2.mem_iff.mp hy) f hf)
  exact hno fn a o m hw (hsym ▸ hn)

theorem param_at {a : BitVec 64} {fn : BFunc} {m : KfuncFlag} {i : Nat} (hi : Pn.argIndex ⟨a, fn, m.insn, m.imm⟩ = some i) :
    ParamAt fn m.imm.argName i := by
  unfold Pn.argIndex at hi
  obtain ⟨hlt, he, hno⟩ := List.findIdx?_eq_some_iff_getElem.mp hi
  dsimp only at hlt he hno
  refine ⟨⟨(fn.params[i]).2, ?_⟩, fun j hj q hq => ?_⟩
  · rw [List.getElem?_eq_getElem hlt]
    simp only [decide_eq_true_eq] at he
    rw [← he]
  · have := hno j hj
    rw [List.getElem?_eq_getElem (by omega)] at hq
    cases hq
    simpa using this

theorem runs_func (up : List Job) (name : Str) (a : BitVec 64) :
    ((Site.func name a).runs up).Perm (up.filterMap (Pn.plainOf a) ++ up.filterMap (Pn.multiOf name)) := Pn.hooks_perm up name a

/-- A place no option asks for: no program. -/
theorem unasked_runs (hs : Pn.Sane w) (hsm : Pn.SaneMulti w) (h : Pn.Planned w kfs ts mfs jobs) (hup : Pn.finish w jobs = some up)
    (hn : (w.tps.map Prod.fst).Nodup) (hp : ∀ x ∈ w.tps, x.2.fn.params ≠ []) {s : Site} (hu : Unasked w s) : s.runs up = [] := by
  cases hu with
  | func name a h1 h2 =>
    have := runs_func up name a
    rw [plain_none hs h hup a h1, multi_none hsm h hup name h2] at this
    exact List.perm_nil.mp this
  | tp n h1 => exact (Pn.tp_hits h hn hp hup n 0).2 h1
  | prog id func h1 =>
    obtain ⟨_, rfl, _⟩ := (Pn.finish_iff w jobs up).mp hup
    have hj := Pn.prog_jobs h id func
    rw [Pn.flatMap_nil _ _ fun t ht => if_neg (h1 t ht)] at hj
    have h0 := List.perm_nil.mp hj
    exact Pn.filterMap_nil _ _ fun j hj => List.filterMap_eq_nil_iff.mp h0 j (List.mem_filter.mp hj).1

theorem multi_same (sess me : Bool) (n : Nat) (f g : Att.Fn) (h1 : f.flag = g.flag) (h2 : f.hasPkt = g.hasPkt) (h3 : f.data = g.data) :
    Att.traceKfuncMulti sess me n f = Att.traceKfuncMulti sess me n g := by
  have hp : f.pkt = g.pkt := by unfold Att.Fn.pkt; rw [h1, h2]
  unfold Att.traceKfuncMulti Att.traceKfuncMultiMode
  rw [h1, hp, h3]

/-- A place the options ask for: the programs are those of C49, in some order. -/
theorem asked_runs (hs : Pn.Sane w) (hsm : Pn.SaneMulti w) (h : Pn.Planned w kfs ts mfs jobs) (hup : Pn.finish w jobs = some up)
    (hn : (w.tps.map Prod.fst).Nodup) (hp : ∀ x ∈ w.tps, x.2.fn.params ≠ [])
    (hpr : w.progs.Pairwise fun t t' => ¬ (t.id = t'.id ∧ t.func = t'.func)) {s : Site} {fn : Att.Fn} {multi : Bool} (ha : Asked w s fn multi)
    (hacc : ∀ j ∈ jobs, s.of j ≠ none → w.answer j = .ok) :
    (multi = false ∧ (s.runs up).Perm (Att.traceFuncs w.feats.fsession w.g.exit fn)) ∨
    (multi = false ∧ (s.runs up).Perm (Att.traceProgs w.feats.fsession w.g.exit fn) ∧ fn.isTp = false ∧ fn.insn = false) ∨
    (multi = true ∧ (s.runs up).Perm (Att.traceKfuncMulti w.feats.kprobeSession w.g.exit w.maxMulti fn) ∧ fn.isTp = false) := by
  cases ha with
  | func fn a o toks m hw hsole hno =>
    refine .inl ⟨rfl, (runs_func up fn.name a).trans ?_⟩
    rw [multi_none hsm h hup fn.name hno, List.append_nil]
    exact Pn.plain_up h hup _ (Pn.kept_complete hs h fn a o toks m hw hsole) fun j hj hne => hacc j hj (by
      cases j with
      | func id t x =>
        cases t with
        | func k => simpa only [Site.of, Pn.hookOf, Pn.plainOf] using hne
        | tp t => simp [Pn.plainOf] at hne
      | _ => simp [Pn.plainOf] at hne)
  | multi fn a o m hw hsole hno hav hskip hsame =>
    refine .inr (.inr ⟨rfl, (runs_func up fn.name a).trans ?_, rfl⟩)
    rw [plain_none hs h hup a hno, List.nil_append]
    obtain ⟨f, hf, hsym, hflag, _, hfn, hi⟩ := Pn.multi_complete hsm h fn a o m hw hsole
    have hidx : ParamAt fn m.imm.argName f.arg := param_at hi
    have hone : ∀ f' ∈ mfs, f'.sym = f.sym → f'.arg = f.arg := by
      intro f' hf' hs'
      obtain ⟨fn', a', o', m', hw', hsym', _, _, _, hp'⟩ := Pn.multi_sound hsm h f' hf'
      exact (hsame _ hidx fn' a' o' m' hw').1 (by rw [← hsym', hs', hsym]) _ hp'
    obtain ⟨avail, h1, h2⟩ := Pn.multi_up h hup f hf hone fun j hj hne => hacc j hj (by
      cases j with
      | multi i syms x => rw [hsym] at hne; simpa only [Site.of, Pn.hookOf, Pn.multiOf] using hne
      | _ => simp [Pn.multiOf] at hne)
    rw [← hsym]
    refine h2.trans (.of_eq ?_)
    unfold Att.traceFuncsMulti
    cases hg : mfs.find? (·.arg = f.arg) with
    | none => exact absurd (List.find?_eq_none.mp hg f hf) (by simp)
    | some g =>
      dsimp only
      rw [hsym, hskip, hav avail h1, if_pos (by rfl)]
      obtain ⟨fn', a', o', m', hw', _, _, _, hfn', hp'⟩ := Pn.multi_sound hsm h g (List.mem_of_find?_eq_some hg)
      have hga : g.arg = f.arg := by simpa using List.find?_some hg
      rw [hga] at hp'
      obtain ⟨q1, q2, q3⟩ := (hsame _ hidx fn' a' o' m' hw').2 hp'
      rw [hfn']
      exact multi_same _ _ _ _ _ q1 q2 q3
  | tp n k hw =>
    obtain ⟨l, l1, _, l3⟩ := Pn.tp_jobs h hn hp n
    obtain ⟨id, rfl⟩ := l1 k hw
    simp only [List.flatMap_cons, List.flatMap_nil, List.append_nil] at l3
    obtain ⟨_, rfl, _⟩ := (Pn.finish_iff w jobs up).mp hup
    refine .inl ⟨rfl, ?_⟩
    unfold Site.runs
    rw [Pn.accepted_all w _ jobs hacc]
    exact l3
  | prog t ht =>
    refine .inr (.inl ⟨rfl, ?_, rfl, rfl⟩)
    have hj := Pn.prog_jobs h t.id t.func
    obtain ⟨_, rfl, _⟩ := (Pn.finish_iff w jobs up).mp hup
    unfold Site.runs
    rw [Pn.accepted_all w _ jobs hacc]
    refine hj.trans (.of_eq ?_)
    rw [Pn.flatMap_one _ w.progs t ht (List.Pairwise.imp (fun hne hc => hne ⟨congrArg _ hc, congrArg _ hc⟩) hpr), if_pos ⟨rfl, rfl⟩]
    intro y hy hne
    rw [if_neg]
    intro hc
    obtain ⟨i, hi, rfl⟩ := List.getElem_of_mem hy
    obtain ⟨k, hk, rfl⟩ := List.getElem_of_mem ht
    rcases Nat.lt_trichotomy i k with hlt | rfl | hlt
    · exact List.pairwise_iff_getElem.mp hpr i k hi hk hlt hc
    · exact hne rfl
    · exact List.pairwise_iff_getElem.mp hpr k i hk hi hlt ⟨hc.1.symm, hc.2.symm⟩

/-! ## What is printed -/

theorem probe_iff (h : Pn.Planned w kfs ts mfs jobs) (hup : Pn.finish w jobs = some up) (x : IMoment) :
    probe up x = true ↔ x.ip.toNat ∈ w.insns ∧ w.answer (.insn x.ip.toNat) = .ok := by
  obtain ⟨_, rfl, _⟩ := (Pn.finish_iff w jobs up).mp hup
  obtain ⟨avail, gs, _, _, hj⟩ := Pn.planned_jobs h
  have hm : ∀ n, Job.insn n ∈ jobs ↔ n ∈ w.insns := by
    intro n
    rw [hj.mem_iff]
    simp only [List.mem_append, List.mem_map, Pn.progJobs, Pn.funcJobs, List.mem_flatMap]
    constructor
    · rintro ((((⟨t, _, a, _, hc⟩ | ⟨t, _, a, _, hc⟩) | ⟨t, _, hc⟩) | ⟨k, hk, hc⟩) | ⟨k, _, hc⟩)
      · cases hc
      · cases hc
      · unfold Pn.groupJobs at hc
        dsimp only at hc
        split at hc
        · cases hc
        · obtain ⟨a, _, hc⟩ := List.mem_map.mp hc
          cases hc
      · cases hc; exact hk
      · cases hc
    · intro hn
      exact .inl (.inr ⟨n, hn, rfl⟩)
  unfold probe
  rw [List.any_eq_true]
  constructor
  · rintro ⟨j, hj, hn⟩
    rw [List.mem_filter] at hj
    cases j with
    | insn n =>
      have : n = x.ip.toNat := by simpa using hn
      subst this
      exact ⟨(hm _).mp hj.1, by simpa using hj.2⟩
    | _ => cases hn
  · rintro ⟨h1, h2⟩
    exact ⟨.insn x.ip.toNat, List.mem_filter.mpr ⟨(hm _).mpr h1, by simpa using h2⟩, by simp⟩

theorem node_iff (h : Pn.Planned w kfs ts mfs jobs) (hup : Pn.finish w jobs = some up) (x : GMoment) :
    node up x = true ↔ nodeNr x ∈ w.graphs ∧ w.answer (.graph (nodeNr x)) = .ok := by
  obtain ⟨_, rfl, _⟩ := (Pn.finish_iff w jobs up).mp hup
  obtain ⟨avail, gs, _, _, hj⟩ := Pn.planned_jobs h
  have hm : ∀ n, Job.graph n ∈ jobs ↔ n ∈ w.graphs := by
    intro n
    rw [hj.mem_iff]
    simp only [List.mem_append, List.mem_map, Pn.progJobs, Pn.funcJobs, List.mem_flatMap]
    constructor
    · rintro ((((⟨t, _, a, _, hc⟩ | ⟨t, _, a, _, hc⟩) | ⟨t, _, hc⟩) | ⟨k, _, hc⟩) | ⟨k, hk, hc⟩)
      · cases hc
      · cases hc
      · unfold Pn.groupJobs at hc
        dsimp only at hc
        split at hc
        · cases hc
        · obtain ⟨a, _, hc⟩ := List.mem_map.mp hc
          cases hc
      · cases hc
      · cases hc; exact hk
    · intro hn
      exact .inr ⟨n, hn, rfl⟩
  unfold node
  rw [List.any_eq_true]
  constructor
  · rintro ⟨j, hj, hn⟩
    rw [List.mem_filter] at hj
    cases j with
    | graph n =>
      have : n = nodeNr x := by simpa using hn
      subst this
      exact ⟨(hm _).mp hj.1, by simpa using hj.2⟩
    | _ => cases hn
  · rintro ⟨h1, h2⟩
    exact ⟨.graph (nodeNr x), List.mem_filter.mpr ⟨(hm _).mpr h1, by simpa using h2⟩, by simp⟩

theorem sent_heard {es : List Hap} {ms : List Ev} (g : Globals) (hh : Heard w jobs es ms)
    (ho : ∀ s, Unasked w s → s.runs up = []) (hp : ∀ x, probe up x = true ↔ x.ip.toNat ∈ w.insns ∧ w.answer (.insn x.ip.toNat) = .ok)
    (hq : ∀ x, node up x = true ↔ nodeNr x ∈ w.graphs ∧ w.answer (.graph (nodeNr x)) = .ok)
    (hr : ∀ s x, .at s x ∈ es → x.τ.atts = s.runs up) :
    ∀ st, Wh.sent g st (es.filterMap (Hap.run up)) = Wh.sent g st ms := by
  induction hh with
  | nil => intro st; rfl
  | @asked s x es ms _ _ _ ih =>
    intro st
    rw [List.filterMap_cons_some (show Hap.run up (.at s x) = some (.fn x) from rfl)]
    simp only [Wh.sent]
    rw [ih fun s x he => hr s x (by simp [he])]
  | @other s x es ms hu _ ih =>
    intro st
    rw [List.filterMap_cons_some (show Hap.run up (.at s x) = some (.fn x) from rfl)]
    simp only [Wh.sent]
    have : x.τ.atts = [] := (hr s x (by simp)).trans (ho s hu)
    rw [this]
    simp only [Wh.emits, List.map_nil, List.nil_append]
    exact ih (fun s x he => hr s x (by simp [he])) st
  | @probed x es ms h1 h2 _ ih =>
    intro st
    rw [List.filterMap_cons_some (show Hap.run up (.insn x) = some (.insn x) from if_pos ((hp x).mpr ⟨h1, h2⟩))]
    simp only [Wh.sent]
    rw [ih fun s x he => hr s x (by simp [he])]
  | @bare x es ms hn _ ih =>
    intro st
    rw [List.filterMap_cons_none (show Hap.run up (.insn x) = none from if_neg fun hc => hn ((hp x).mp hc))]
    exact ih (fun s x he => hr s x (by simp [he])) st
  | @inGraph x es ms h1 h2 _ ih =>
    intro st
    rw [List.filterMap_cons_some (show Hap.run up (.graph x) = some (.graph x) from if_pos ((hq x).mpr ⟨h1, h2⟩))]
    simp only [Wh.sent]
    rw [ih fun s x he => hr s x (by simp [he])]
  | @noGraph x es ms hn _ ih =>
    intro st
    rw [List.filterMap_cons_none (show Hap.run up (.graph x) = none from if_neg fun hc => hn ((hq x).mp hc))]
    exact ih (fun s x he => hr s x (by simp [he])) st

/-- **C89.** From the command line to the lines: whatever happens in the kernel, in whatever order the programs were attached, what is printed is
one block for each wanted moment, and for each wanted and long enough call, with the traced instructions executed and the functions of the graph called in it, of the functions,
tracepoints and programs the options ask for (C83), in order, and nothing for any other. Partial: as C83 and C85; all programs for the places asked for have been accepted. -/
theorem printed_asked_partial (hs : Pn.Sane w) (hsm : Pn.SaneMulti w) (h : Pn.Planned w kfs ts mfs jobs) (hup : Pn.finish w jobs = some up)
    (hn : (w.tps.map Prod.fst).Nodup) (hp : ∀ x ∈ w.tps, x.2.fn.params ≠ [])
    (hpr : w.progs.Pairwise fun t t' => ¬ (t.id = t'.id ∧ t.func = t'.func))
    (R : Reader) (g : Globals) (d : Int) (ses : Rp.W → Bool)
    (hb : 8 ≤ R.env.beyond.length) (hr : R.maxArgs = Av.regsNr g.arm64) (hmax : w.maxMulti = R.maxArgs)
    (es : List Hap) (ms : List Ev) (hh : Heard w jobs es ms) (hruns : ∀ s x, .at s x ∈ es → x.τ.atts = s.runs up)
    (hf : ∀ x ∈ ms, FineEv R g (feats w) w.g.exit ses x) (hprop : Wh.Proper g (feats w) w.g.exit (fun _ => []) [] (fun _ => []) ms) :
    ∃ out, Wh.Shown R g (feats w) w.g.exit d (fun _ => none) ms out ∧
      Wh.printed R d 0 (Wh.sent g Wh.start (es.filterMap (Hap.run up))) = some out ∧
      ∀ n, 0 < n → n < 2 ^ 63 → Wh.printed R d (BitVec.ofNat 64 n) (Wh.sent g Wh.start (es.filterMap (Hap.run up))) = some (out.take n) := by
  rw [sent_heard g hh (fun s => unasked_runs hs hsm h hup hn hp) (probe_iff h hup) (node_iff h hup) hruns]
  refine Wh.wanted_shown_partial R g (feats w) w.g.exit d ses hb hr ms ?_ hprop
  have hat : ∀ x, .fn x ∈ ms → ∃ s, Asked w s x.S.fn x.τ.multi ∧ (∀ j ∈ jobs, s.of j ≠ none → w.answer j = .ok) ∧ x.τ.atts = s.runs up := by
    clear hf hprop
    induction hh with
    | nil => intro x hx; cases hx
    | @asked s y es ms ha hacc _ ih =>
      intro x hx
      rcases List.mem_cons.mp hx with hxy | hx
      · cases hxy
        exact ⟨s, ha, hacc, hruns s _ (.head _)⟩
      · exact ih (fun s x he => hruns s x (by simp [he])) x hx
    | other _ _ ih => exact ih fun s x he => hruns s x (by simp [he])
    | probed _ _ _ ih =>
      intro x hx
      rcases List.mem_cons.mp hx with hxy | hx
      · cases hxy
      · exact ih (fun s x he => hruns s x (by simp [he])) x hx
    | bare _ _ ih => exact ih fun s x he => hruns s x (by simp [he])
    | inGraph _ _ _ ih =>
      intro x hx
      rcases List.mem_cons.mp hx with hxy | hx
      · cases hxy
      · exact ih (fun s x he => hruns s x (by simp [he])) x hx
    | noGraph _ _ ih => exact ih fun s x he => hruns s x (by simp [he])
  intro x hx
  cases x with
  | insn x => exact hf _ hx
  | graph x => exact hf _ hx
  | fn x =>
    obtain ⟨s, ha, hacc, ht⟩ := hat x hx
    have hq := asked_runs hs hsm h hup hn hp hpr ha hacc
    rw [← ht, hmax] at hq
    have hx : Fine R g (feats w) w.g.exit ses x := hf _ hx
    exact { attached := { toFits := hx.fits, att := hq }, sees := hx.sees, size := hx.size, attrs := hx.attrs, same := hx.same, root := hx.root }

/-- **C89.** What "wanted" and "traced at both ends" mean in C83, in terms of the command line: the function is traced at both ends if the user asks
for both, which `(i)` and `(g)` do too; if only for one, it is the one of the mode. `toks` are the prefixes of the option. -/
theorem option_modes (w : World) (hmode : Flg.checkMode w.g.modes = true) (fn : BFunc) (a : BitVec 64) (o : Str) (toks : List Str) (m : KfuncFlag)
    (hw : Pn.Wanted w fn a o toks m) (S : Src) (hS : S.fn = fnOf w a fn m) :
    (S.paired = true ↔ Att.Asks w.g toks "entry" = true ∧ Att.Asks w.g toks "exit" = true) ∧
    (S.paired = false → (w.g.exit = true ↔ Att.Asks w.g toks "exit" = true) ∧ (w.g.exit = false ↔ Att.Asks w.g toks "entry" = true)) := by
  obtain ⟨_, ⟨_, _, body, _, ht, hparse, _⟩, _⟩ := hw
  obtain ⟨toks', body', hp', _, hin, _, _, hgr, _, _, hb, _⟩ := (Flg.parseKfuncFlag_iff w.g o m).1 hparse
  obtain ⟨rfl, rfl⟩ := Flg.prefixed_unique Flg.kfuncTok_shape ht hp'
  have hpd : S.paired = (m.insn || m.imm.graph || m.imm.both) := by
    unfold Src.paired
    rw [hS]
    show ((m.insn || m.imm.graph || m.imm.both) && !false) = _
    simp
  have hex : w.g.exit = w.g.modes.contains "exit" := rfl
  rw [hpd, hex]
  unfold Att.Asks
  have hms := Att.modes_some hmode
  rw [hb, hin, hgr]
  generalize w.g.modes.contains "entry" = me at hms ⊢
  generalize w.g.modes.contains "exit" = mx at hms ⊢
  generalize toks.contains "(b)".toList = tb
  generalize toks.contains "(g)".toList = tg
  generalize toks.contains "(i)".toList = ti
  generalize w.g.graph = gg
  generalize w.g.insns = gi
  cases me <;> cases mx <;> cases tb <;> cases tg <;> cases ti <;> cases gg <;> cases gi <;> simp at hms ⊢

/-! ## Example -/

/-- `bpfsnoop -k '(b)tcp_connect'` in a kernel that accepts everything. -/
def exW : World := Pn.exW [Pn.exB] fun _ => .ok

def exSrc : Src where
  fn := fnOf exW 0x1000#64 Pn.exF Pn.exFlag
  name := Wh.t "tcp_connect"
  prms := []
  ret := ⟨Wh.t "int", .int 4 true false, false, false⟩
  ptype := .other
  filter := none

/-- The function asked for, and another. -/
def exSite (other : Bool) : Site := if other then .func "b".toList 0x1010#64 else .func "tcp_connect".toList 0x1000#64

def exTarget (up : List Job) (other : Bool) : Target where
  ip := if other then 0x1010#64 else 0x1000#64
  atts := (exSite other).runs up
  params := []
  ret := ⟨false, false, false⟩
  filter := none

def exReader : Reader where
  tables := ⟨fun _ => none, fun a => if a = 0x1000#64 then some (Wh.t "tcp_connect") else none,
    fun a => if a = 0x1000#64 then some ⟨Wh.t "tcp_connect", false⟩ else none, []⟩
  info _ _ := ⟨some ⟨[], exSrc.ret⟩, [], ⟨false, false, false⟩, .other⟩
  env := ⟨fun _ => [], fun _ _ => [], List.replicate 8 0⟩
  maxArgs := 6
  pktText _ := []
  attrsText _ _ := none
  lbrText _ := []
  stackText _ := []

def exGlobals : Globals := { ready := true, self := 4242, filterPid := 0, cpuMask := 127 }

def exMoment (up : List Job) (other ret : Bool) (ns : BitVec 32) : Moment where
  S := exSrc
  τ := exTarget up other
  o := { phase := if ret then .ret else .call, ctx := if ret then [-2] else []
         mem := Av.yMem [], argsAt := 0x100, bufAt := 0x5000, st := Cc.vSt
         out := fun _ => 0, cpu := 3, pidTgid := 0x1100000012, comm := [0x73, 0x68] ++ List.replicate 14 0, ns := ns, sid := 77
         stackID := 0, nrBytes := 0
         pkt := List.replicate 16 0, data := [], stale := [1, 2, 3], call := 1, staleIds := fun _ => 9, full := false }
  args := []
  res := -2
  clock := ⟨9, 5, 7, 500000000⟩

/-- An instruction that is not traced. -/
def exInsn : IMoment := ⟨0x1000#64, Wh.t "tcp_connect", 0x1008#64, Wh.t "nop", 0x1100000012, 1, 1200, 3, [], ⟨9, 5, 7, 500000000⟩⟩

/-- A call of `tcp_connect`, in it an instruction and a call of `b`. -/
def exEs (up : List Job) : List Hap :=
  [.at (exSite false) (exMoment up false false 1000), .insn exInsn, .at (exSite true) (exMoment up true false 1500),
   .at (exSite false) (exMoment up false true 2500)]

theorem ex_fine (up : List Job) (ret : Bool) (ns : BitVec 32) :
    Fine exReader exGlobals (feats exW) exW.g.exit (fun _ => false) (exMoment up false ret ns) where
  fits :=
    { insn := nofun, params := rfl, prms := rfl, ret := rfl, len := Nat.zero_le _, simple := nofun
      simpleRet := by intro _ _; refine ⟨?_, ?_, ?_⟩ <;> simp [exMoment, exSrc, Rp.Plain]
      retStr := fun h => absurd rfl h, info := rfl, name := (by decide +kernel : Ln.name exReader.tables 0x1000#64 none false = Wh.t "tcp_connect"), filter := .inl ⟨rfl, rfl⟩, pkt := .inl ⟨rfl, .inl rfl⟩, data := (by decide : 0 < 2 ^ 32) }
  sees :=
    { len := rfl, ctx := by intro _; cases ret <;> rfl
      stored := fun _ => ⟨fun _ => 0, fun i hi => absurd hi (Nat.not_lt_zero i)⟩
      call := nofun, rc := nofun, storedRegs := nofun, comm := rfl, pkt := rfl, data := rfl
      cpu := (by decide : (3 : BitVec 32) &&& 127 = 3), readable := (show Cc.WordReadable (Av.yMem []) from Av.yMem_readable _), noNull := nofun, noSkip := nofun, dflt := nofun }
  size := by
    intro wr
    show (Arg.injectOutputFuncArgs [] ⟨false, false, false⟩ wr).2 < 2 ^ 32
    cases wr <;> decide +kernel
  attrs := fun h => absurd rfl h
  same := rfl
  root := fun _ h => absurd (show (0 : Rp.W) = 0x1000#64 from h) (by decide)

theorem ex_wanted (up : List Job) (ns : BitVec 32) :
    Wh.Wanted exGlobals exW.g.exit exSrc (exMoment up false false ns).o (exMoment up false false ns).args := by
  refine ⟨rfl, ?_, .inl rfl, ⟨nofun, fun h => ?_⟩, nofun, nofun⟩
  · show (exMoment [] false false 0).o.pid ≠ exGlobals.self
    decide +kernel
  · exact absurd h.2.2 (by decide)

/-- The hypotheses of `printed_asked_partial` hold for a start and a history; one block is printed: the call and the return of `tcp_connect`. -/
example : ∃ kfs ts mfs jobs up, Pn.Planned exW kfs ts mfs jobs ∧ Pn.finish exW jobs = some up ∧
    Heard exW jobs (exEs up) [.fn (exMoment up false false 1000), .fn (exMoment up false true 2500)] ∧
    ∃ b c, Wh.printed exReader 0 0 (Wh.sent exGlobals Wh.start ((exEs up).filterMap (Hap.run up))) =
        some [b ++ c ++ Wh.t "\n"] ∧
      Wh.Block exReader (feats exW) exSrc (exTarget up false) (exMoment up false false 1000).o [] (-2) ⟨9, 5, 7, 500000000⟩ [] b ∧
      Wh.Block exReader (feats exW) exSrc (exTarget up false) (exMoment up false true 2500).o [] (-2) ⟨9, 5, 7, 500000000⟩ (Wh.durText (2500 - 1000)) c := by
  obtain ⟨kfs, ts, mfs, jobs, h⟩ := Pn.exPlan (fun _ => .ok) [Pn.exB] (by decide +kernel) (.inl (by decide +kernel))
  have hsole := Pn.exSole [Pn.exB] (fun _ => .ok) 0x1000#64 Pn.exF (.inl rfl) ⟨⟨0x1000#64, false⟩, Pn.exSymF _ _, rfl⟩
  have hw := Pn.exWanted [Pn.exB] (by decide +kernel) (fun _ => .ok)
  have hk := Pn.kept_complete (Pn.exSane _ _).1 h Pn.exF _ _ _ _ hw hsole
  have hmo : exW.mopts = [] := (by decide +kernel : [Pn.exB].filter Flg.hasM = [])
  have hf : Pn.finish exW jobs = some jobs := by
    refine (Pn.finish_iff _ _ _).mpr ⟨fun j hj => .inl rfl, (List.filter_eq_self.mpr fun j _ => rfl).symm, ?_⟩
    intro hc
    obtain ⟨avail, gs, j1, j2, j3⟩ := Pn.planned_jobs h
    rw [hc] at j3
    have h0 := List.perm_nil.mp j3.symm
    obtain ⟨_, tps, j4⟩ := Pn.planned_targets h
    have hts := j4.mem_iff.mpr (List.mem_append.mpr (.inr (List.mem_map.mpr ⟨_, hk, rfl⟩)))
    simp only [List.append_eq_nil_iff] at h0
    have h5 := h0.1.1.1.2
    unfold Pn.funcJobs at h5
    exact nomatch List.flatMap_eq_nil_iff.mp h5 _ hts
  have hnm : ∀ fn a o m, ¬ Pn.WantedMulti exW fn a o m := by
    rintro fn a o m ⟨_, h2, _⟩
    rw [hmo] at h2; cases h2
  have hask : Asked exW (exSite false) exSrc.fn false :=
    .func Pn.exF 0x1000#64 Pn.exB ["(b)".toList] Pn.exFlag hw hsole fun _ _ _ _ hc => absurd hc (hnm _ _ _ _)
  have hun : Unasked exW (exSite true) := by
    refine .func _ _ ?_ fun _ _ _ _ hc => absurd hc (hnm _ _ _ _)
    rintro fn o toks m ⟨h1, h2, ⟨k', h3, h4⟩, _⟩
    obtain ⟨before, after, body, g1, g2, g3, g4, _⟩ := h2
    have hfn : fn = Pn.exH := Pn.exSole [Pn.exB] (fun _ => .ok) 0x1010#64 Pn.exH (.inr rfl) ⟨⟨0x1010#64, false⟩, Pn.exSymH _ _, rfl⟩ fn h1 k' h3.2.2.1 h4
    have ho : o = Pn.exB := by
      have e1 : exW.kopts = [Pn.exB] := (by decide +kernel : [Pn.exB].filter (fun o => !Flg.hasM o) = [Pn.exB])
      have : o ∈ exW.kopts := by rw [g1]; simp
      rw [e1] at this
      exact List.mem_singleton.mp this
    subst hfn ho
    have hm : m = Pn.exFlag := by
      have := Att.parse_b.symm.trans g3
      injection this with this
      exact this.symm
    subst hm
    exact absurd g4.1 (by decide +kernel)
  have hheard : Heard exW jobs (exEs jobs) [.fn (exMoment jobs false false 1000), .fn (exMoment jobs false true 2500)] :=
      .asked hask (fun _ _ _ => rfl) (.bare (fun hc => absurd hc.1 (show 0x1008 ∉ ([] : List Nat) from nofun)) (.other hun (.asked hask (fun _ _ _ => rfl) .nil)))
  refine ⟨kfs, ts, mfs, jobs, jobs, h, hf, hheard, ?_⟩
  obtain ⟨out, h1, h2, _⟩ := printed_asked_partial (Pn.exSane _ _).1 (Pn.exSane _ _).2 h hf (by decide) nofun .nil exReader exGlobals 0 (fun _ => false) (by decide) rfl rfl (exEs jobs) _ hheard (by
      intro s x he
      simp only [exEs, List.mem_cons, List.not_mem_nil, or_false, Hap.at.injEq, reduceCtorEq, false_or] at he
      rcases he with ⟨rfl, rfl⟩ | ⟨rfl, rfl⟩ | ⟨rfl, rfl⟩ <;> rfl) (by
      intro x hx
      simp only [List.mem_cons, List.not_mem_nil, or_false] at hx
      rcases hx with rfl | rfl <;> exact ex_fine _ _ _) (by
      refine .wanted rfl rfl (ex_wanted _ _) (by simp) (show (77 : Rp.W) ≠ 0 by decide) nofun (fun _ => ⟨rfl, by decide⟩) ?_
      exact .back rfl rfl (Wh.put_same _ _ _) (fun _ hy => absurd hy List.not_mem_nil) .nil)
  rw [h2]
  cases h1 with
  | skip q1 => exact absurd (ex_wanted _ _) q1
  | «show» q1 => cases q1
  | exit _ q2 => cases q2
  | short _ q2 => cases q2
  | unknown _ q2 => cases q2
  | enter _ _ h1 =>
    cases h1 with
    | skip _ q2 => cases q2 rfl
    | «show» q1 => cases q1
    | enter _ q2 => exact absurd (q2.2.2.2.1.1 rfl).2.2 (show ¬ exSrc.paired = false by decide)
    | short _ _ q3 q4 =>
      have q3' := (Wh.put_same (fun _ => none) 1 (some (⟨exMoment jobs false false 1000, [], []⟩ : Wh.Open))).symm.trans q3; cases q3'
      exact absurd q4 (by omega)
    | unknown _ _ q3 => have q3' := (Wh.put_same (fun _ => none) 1 (some (⟨exMoment jobs false false 1000, [], []⟩ : Wh.Open))).symm.trans q3; cases q3'
    | exit _ _ q3 _ q5 q6 q7 =>
      have q3' := (Wh.put_same (fun _ => none) 1 (some (⟨exMoment jobs false false 1000, [], []⟩ : Wh.Open))).symm.trans q3; cases q3'
      cases q7
      exact ⟨_, _, by rw [List.flatten_nil, List.append_nil], q5, q6⟩

/-- The call of a function of a graph is heard, its return, of which the kernel refused the program, is not. -/
example (jobs : List Job) (x y : GMoment) (h1 : nodeNr x = 0x2000) (h2 : nodeNr y = 0x2001) :
    Heard { exW with graphs := [0x2000, 0x2001], answer := fun j => match j with | .graph 0x2001 => .load ⟨.einval, []⟩ | _ => .ok } jobs [.graph x, .graph y] [.graph x] := by
  refine .inGraph (by rw [h1]; exact .head _) (by rw [h1]; rfl) (.noGraph (fun h => ?_) .nil)
  rw [h2] at h
  cases h.2

end Bpfsnoop.Cl
