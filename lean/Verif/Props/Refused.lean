import Verif.Props.Plan
import Verif.Props.GraphSel

/-!
C93: functions the kernel refuses to trace are left out, so that they do not end the run; no other function is left out for
being refused.
-/
namespace Bpfsnoop.Rf
open Flg (Str KFunc KfuncFlag Ksym Glob BFunc)
open Pn

/-! ## Specification: what the kernel refuses -/

/-- The set `noreturn_deny` of the verifier of the kernel: no program can be attached to the exit of these functions. -/
def noreturnDeny : List String :=
  ["__ia32_sys_exit", "__ia32_sys_exit_group", "__kunit_abort", "kunit_try_catch_throw", "__module_put_and_kthread_exit",
   "__x64_sys_exit", "__x64_sys_exit_group", "do_exit", "do_group_exit", "kthread_complete_and_exit", "kthread_exit", "make_task_dead"]

/-- The set `btf_id_deny` of the verifier of the kernel: no program can be attached to these functions. -/
def btfIdDeny : List String :=
  ["migrate_disable", "migrate_enable", "rcu_read_unlock_strict", "preempt_count_add", "preempt_count_sub", "__rcu_read_lock",
   "__rcu_read_unlock"]

/-- Functions bpfsnoop leaves out though the kernel accepts them: probing them is unsafe. -/
def unsafeDeny : List String := ["bpf_get_numa_node_id", "bpf_dispatcher_xdp_func"]

def named (l : List String) (name : Str) : Prop := ∃ s ∈ l, name = s.toList

/-- The verifier of the kernel does not load a program of this type for that function. -/
def Refuses (hook : Att.Hook) (name : Str) : Prop :=
  (hook = .fentry ∨ hook = .fexit ∨ hook = .fsession) ∧ named btfIdDeny name ∨
    (hook = .fexit ∨ hook = .fsession) ∧ named noreturnDeny name

/-! ## The lists -/

theorem noreturn_iff (name : Str) : name ∈ Flg.noreturnFuncs ↔ named noreturnDeny name := by
  unfold Flg.noreturnFuncs named noreturnDeny
  rw [List.mem_map]
  constructor
  · rintro ⟨s, h, rfl⟩
    exact ⟨s, by simpa only [List.mem_cons] using h, rfl⟩
  · rintro ⟨s, h, rfl⟩
    exact ⟨s, by simpa only [List.mem_cons] using h, rfl⟩

theorem deny_iff (name : Str) : name ∈ Flg.tracingDenyFuncs ↔ named btfIdDeny name ∨ named unsafeDeny name := by
  have e : Flg.tracingDenyFuncs = (btfIdDeny ++ unsafeDeny).map String.toList := rfl
  unfold named
  rw [e, List.mem_map]
  constructor
  · rintro ⟨s, h, rfl⟩
    rcases List.mem_append.mp h with h | h
    · exact .inl ⟨s, h, rfl⟩
    · exact .inr ⟨s, h, rfl⟩
  · rintro (⟨s, h, rfl⟩ | ⟨s, h, rfl⟩)
    · exact ⟨s, List.mem_append_left _ h, rfl⟩
    · exact ⟨s, List.mem_append_right _ h, rfl⟩

/-- A function that a pattern selects is left out exactly for these reasons. -/
theorem left_out_iff (g : Glob) (m : KfuncFlag) (fn : BFunc) : Flg.Denied g m fn ↔
    named btfIdDeny fn.name ∨ named unsafeDeny fn.name ∨
      named noreturnDeny fn.name ∧ (g.exit = true ∨ m.imm.both = true ∨ m.insn = true ∨ m.imm.graph = true) := by
  unfold Flg.Denied
  rw [List.contains_iff_mem, List.contains_iff_mem, deny_iff, noreturn_iff, or_assoc]

/-! ## The run -/

/-- **C93.** No program that is to be attached to a kernel function is one that the kernel refuses. -/
theorem not_refused {w : World} {kfs ts mfs jobs} (hs : Sane w) (h : Planned w kfs ts mfs jobs) (id : Nat) (k : KFunc) (a : Att.Att)
    (hj : Job.func id (.func k) a ∈ jobs) : ¬ Refuses a.hook k.fn.name := by
  obtain ⟨avail, gs, _, _, hp⟩ := planned_jobs h
  obtain ⟨_, tps, ht⟩ := planned_targets h
  have h1 : Job.func id (.func k) a ∈ funcJobs w ts := by
    have := hp.mem_iff.mp hj
    simp only [List.mem_append, List.mem_map, reduceCtorEq, and_false, exists_false, or_false] at this
    rcases this with (h2 | h2) | h2
    · unfold progJobs at h2
      simp at h2
    · exact h2
    · obtain ⟨x, _, h3⟩ := List.mem_flatMap.mp h2
      unfold groupJobs at h3
      simp only at h3
      split at h3 <;> simp at h3
  unfold funcJobs at h1
  obtain ⟨x, hx, h2⟩ := List.mem_flatMap.mp h1
  obtain ⟨a', h3, h4⟩ := List.mem_map.mp h2
  injection h4 with h5 h6 h7
  subst h7
  have hk : k ∈ kfs := by
    have h8 := ht.mem_iff.mp hx
    rw [List.mem_append, List.mem_map, List.mem_map] at h8
    rcases h8 with ⟨y, _, h9⟩ | ⟨k', h9, h10⟩
    · rw [← h9] at h6
      cases h6
    · rw [← h10] at h6
      injection h6 with h6
      exact h6 ▸ h9
  obtain ⟨o, toks, m, hw, hi, hf⟩ := kept_sound hs h k hk
  have hd := hw.2.2.2.1
  rw [left_out_iff] at hd
  rw [h6] at h3
  rintro (⟨_, hr⟩ | ⟨hh, hr⟩)
  · exact hd (.inl hr)
  · refine hd (.inr (.inr ⟨hr, ?_⟩))
    rw [← hi, ← hf]
    unfold Att.traceFuncs Tgt.fn at h3
    simp only [Bool.false_eq_true, if_false] at h3
    by_cases hb : (k.insn || k.flag.graph || k.flag.both) = true
    · simp only [Bool.or_eq_true] at hb
      rcases hb with (hb | hb) | hb
      · exact .inr (.inr (.inl hb))
      · exact .inr (.inr (.inr hb))
      · exact .inr (.inl hb)
    · rw [if_neg hb, List.mem_singleton] at h3
      subst h3
      left
      cases hg : w.g.exit with
      | true => rfl
      | false => simp [Att.traceFunc, hg] at hh

/-- **C93.** If the kernel refuses nothing else, everything planned is attached and the run goes on. -/
theorem refused_never_ends {w : World} {kfs ts mfs jobs} (hs : Sane w) (h : Planned w kfs ts mfs jobs) (hn : jobs ≠ [])
    (hk : ∀ j ∈ jobs, w.answer j ≠ .ok → ∃ id k a, j = .func id (.func k) a ∧ Refuses a.hook k.fn.name) : finish w jobs = some jobs := by
  have ha : ∀ j ∈ jobs, w.answer j = .ok := fun j hj => Classical.byContradiction fun hc => by
    obtain ⟨id, k, a, rfl, hr⟩ := hk j hj hc
    exact not_refused hs h id k a hj hr
  rw [finish_iff]
  refine ⟨fun j hj => .inl (ha j hj), ?_, hn⟩
  rw [List.filter_eq_self.mpr]
  intro j hj
  simpa using ha j hj

/-- What a program may fail with without ending the run, for each kind of program. -/
theorem passed_over_iff (j : Job) (a : Pn.Answer) : fate j.kind a = .skip ↔
    (∃ id t x e, j = .func id t x ∧ a = .load e ∧ (e.errno = .enoent ∨ "type STRUCT is unsupported".toList <:+: e.text ∨
        "type UNION is unsupported".toList <:+: e.text)) ∨
    (∃ n e, j = .graph n ∧ a = .load e ∧ (e.errno = .enoent ∨ "type STRUCT is unsupported".toList <:+: e.text ∨
        "type UNION is unsupported".toList <:+: e.text)) ∨
    (∃ id t x e, j = .func id t x ∧ a = .link e ∧ (e.errno = .enoent ∨ e.errno = .einval ∨ e.errno = .eopnotsupp ∨
        e.errno = .notSupported ∨ e.errno = .ebusy)) ∨
    (∃ n e, j = .graph n ∧ a = .link e ∧ (e.errno = .enoent ∨ e.errno = .einval ∨ e.errno = .eopnotsupp ∨
        e.errno = .notSupported ∨ e.errno = .ebusy)) ∨
    (∃ n e, j = .insn n ∧ a = .link e ∧ (e.errno = .enoent ∨ e.errno = .einval ∨ e.errno = .eaddrnotavail)) ∨
    ∃ t x e, j = .prog t x ∧ a = .link e ∧ "Cannot recursively attach".toList <:+: e.text := by
  rw [fate_skip_iff]
  cases j with
  | func id t x => simp [Job.kind]
  | prog t x => simp [Job.kind]
  | multi i s x => simp [Job.kind]
  | insn n => simp [Job.kind]
  | graph n => simp [Job.kind]

/-- What the verifier says to a refused function would end the run. -/
theorem would_end (w : World) (jobs : List Job) (j : Job) (e : Err) (hj : j ∈ jobs) (he : w.answer j = .load e) (h1 : e.errno ≠ .enoent)
    (h2 : ¬ "type STRUCT is unsupported".toList <:+: e.text) (h3 : ¬ "type UNION is unsupported".toList <:+: e.text) :
    finish w jobs = none := by
  rw [refused_iff]
  refine .inl ⟨j, hj, ?_⟩
  cases hf : fate j.kind (w.answer j) with
  | fail => rfl
  | attach => rw [(fate_attach_iff _ _).mp hf] at he; cases he
  | skip =>
    rw [passed_over_iff, he] at hf
    simp_all

/-! ## Graphs and prototypes -/

/-- **C93.** No function of the kernel that enters a graph is one that the kernel refuses. -/
theorem graph_not_refused (E : Gs.Env) (hE : Gs.Ok E) (ip : Gr.Ip) (h : Gs.verdict E ip = some true) (hb : E.bpf ip = none) :
    ∃ s, E.a2s ip = some s ∧ ∀ hook, ¬ Refuses hook s.name := by
  rcases Gs.verdict_sound E hE ip h with h1 | ⟨s, fn, hp, _⟩
  · rw [hb] at h1; cases h1
  · obtain ⟨_, h1, _, _, h2, h3⟩ := hp
    refine ⟨s, h1, fun hook => ?_⟩
    rw [deny_iff] at h2
    rw [noreturn_iff] at h3
    rintro (⟨_, hr⟩ | ⟨_, hr⟩)
    · exact h2 (.inl hr)
    · exact h3 hr

/-- **C93.** A prototype is not shown as traceable if the kernel refuses the program of the mode asked for. -/
theorem proto_not_refused (fs : Km.Fs) (ksyms : Str → Option Ksym) (patchable : BitVec 64 → Bool) (fexit : Bool) (name : Str)
    (h : Refuses (if fexit then .fexit else .fentry) name) : Km.detect fs ksyms patchable fexit name = .ok false := by
  refine Km.detect_denied fs ksyms patchable fexit name ?_
  rw [noreturn_iff, deny_iff]
  cases fexit with
  | false =>
    rcases h with ⟨_, hr⟩ | ⟨hh, _⟩
    · exact .inr (.inl hr)
    · simp at hh
  | true =>
    rcases h with ⟨_, hr⟩ | ⟨_, hr⟩
    · exact .inr (.inl hr)
    · exact .inl ⟨rfl, hr⟩

/-! ## Where more is left out than the kernel refuses -/

/-- **Violated**: with `(b)` the entry of `do_exit` is left out too, though the kernel accepts a program for it. -/
theorem entry_lost_violated (g : Glob) (m : KfuncFlag) (fn : BFunc) (hn : named noreturnDeny fn.name) (hb : m.imm.both = true) :
    ¬ Refuses .fentry fn.name ∧ Flg.Denied g m fn := by
  refine ⟨?_, (left_out_iff g m fn).mpr (.inr (.inr ⟨hn, .inr (.inl hb)⟩))⟩
  rintro (⟨_, hr⟩ | ⟨hh, _⟩)
  · obtain ⟨s, h1, h2⟩ := hn
    obtain ⟨t, h3, h4⟩ := hr
    rw [h2] at h4
    have := String.toList_inj.mp h4
    subst this
    simp only [noreturnDeny, btfIdDeny, List.mem_cons, List.not_mem_nil, or_false] at h1 h3
    rcases h3 with h3 | h3 | h3 | h3 | h3 | h3 | h3 <;> subst h3 <;> simp at h1
  · simp at hh

/-! ## Examples -/

/-- A kernel that refuses exactly what it must. -/
noncomputable def exAnswer (j : Job) : Pn.Answer := by
  classical exact if ∃ id k a, j = .func id (.func k) a ∧ Refuses a.hook k.fn.name then
    (.load ⟨.einval, "Attaching fexit/fmod_ret to __noreturn functions is rejected.".toList⟩) else .ok

/-- The hypotheses of `refused_never_ends` hold of a run with `-k '(b)tcp_connect'`, and everything is attached. -/
example : ∃ kfs ts mfs jobs, Planned (exW [exB] exAnswer) kfs ts mfs jobs ∧ jobs ≠ [] ∧ finish (exW [exB] exAnswer) jobs = some jobs := by
  obtain ⟨kfs, ts, mfs, jobs, h⟩ := exPlan exAnswer [exB] (by decide +kernel) (.inl (by decide +kernel))
  have hsole := exSole [exB] exAnswer 0x1000#64 exF (.inl rfl) ⟨⟨0x1000#64, false⟩, exSymF _ _, rfl⟩
  have hk := kept_complete (exSane _ _).1 h exF _ _ _ _ (exWanted [exB] (by decide +kernel) exAnswer) hsole
  have hn : jobs ≠ [] := by
    rintro rfl
    obtain ⟨avail, gs, _, _, hp⟩ := planned_jobs h
    obtain ⟨_, tps, ht⟩ := planned_targets h
    have h1 := ht.mem_iff.mpr (List.mem_append_right _ (List.mem_map.mpr ⟨_, hk, rfl⟩))
    have h2 := List.nil_perm.mp hp
    simp only [List.append_eq_nil_iff, funcJobs, List.flatMap_eq_nil_iff] at h2
    have h3 := h2.1.1.1.2 _ h1
    rw [List.map_eq_nil_iff] at h3
    revert h3
    unfold Att.traceFuncs
    repeat' split
    all_goals nofun
  refine ⟨kfs, ts, mfs, jobs, h, hn, refused_never_ends (exSane _ _).1 h hn fun j _ ha => ?_⟩
  apply Classical.byContradiction
  intro hc
  apply ha
  show exAnswer j = .ok
  unfold exAnswer
  rw [if_neg hc]

def exFns : List BFunc := [⟨"do_exit".toList, [], false, false, true⟩, ⟨"migrate_disable".toList, [], false, false, true⟩, ⟨"tcp_connect".toList, [], false, false, true⟩]
def exSym (n : Str) : Option Ksym := if n = "do_exit".toList then some ⟨1, false⟩ else if n = "migrate_disable".toList then some ⟨2, false⟩ else some ⟨3, false⟩

/-- `-k '*'` with mode entry and `-k '(b)*'`: `migrate_disable` is left out, `do_exit` only with `(b)`. -/
example : ∀ b, let m : KfuncFlag := { exFlag with name := ['*'], imm := { exFlag.imm with both := b } }
    let r := Flg.searchKernelFuncs ⟨false, false, false, false, false, ["entry"]⟩ (fun _ _ => true) exSym 6 [m] exFns
    (r 1).isSome = !b ∧ (r 2).isSome = false ∧ (r 3).isSome = true := by decide +kernel

end Bpfsnoop.Rf
