import Verif.Model.MaxArg
import Verif.Props.KfuncSel
import Verif.Props.Traceable

/-! C99: how many parameters a traced function may have. -/
namespace Bpfsnoop.Mx
open Flg (Str KFunc KfuncFlag Ksym BFunc)

/-- Specification: a function the limit can be tried with: 7 to 12 parameters, a name of IP or TCP, one address, a
result that is no struct, no variable arguments, parameters of at most 16 bytes. -/
def Many (s : Sys) (fn : BFunc) (a : BitVec 64) : Prop :=
  fn ∈ s.fns ∧ (s.glob "ip_*".toList fn.name = true ∨ s.glob "tcp_*".toList fn.name = true) ∧
    7 ≤ fn.params.length ∧ fn.params.length ≤ 12 ∧ fn.variadic = false ∧ fn.structRet = false ∧ fn.paramsOk = true ∧
    s.ksyms fn.name = some ⟨a, false⟩

/-- Specification: the entry of the function can be hooked, as `C63` has it: readable, and with a place for the call of the tracer. -/
def Hookable (s : Sys) (a : BitVec 64) : Prop :=
  Tr.Readable s.mem a ∧
    (s.cpu.arm64 = false ∧ Tr.HookX86 s.mem (Tr.site s.cpu a) ∨
      s.cpu.arm64 = true ∧ (Tr.NopArm s.mem (a + 4#64) ∨ Tr.NearBl s.mem (a + 4#64)))

theorem hookable_iff (s : Sys) (a : BitVec 64) : Hookable s a ↔ (Tr.probe s.cpu s.mem a).1 = true := by
  unfold Hookable
  cases h : s.cpu.arm64 with
  | false => rw [Tr.probe_x86_iff s.cpu h]; simp
  | true => rw [Tr.probe_arm_iff s.cpu h]; simp

/-- Specification: nothing makes the two patterns an error. -/
def Quiet (s : Sys) : Prop := ¬ (s.g.insns = true ∧ s.g.graph = true)

/-- The patterns as parsed. -/
def pat (g : Flg.Glob) (p : Str) : KfuncFlag :=
  { name := p, insn := g.insns,
    imm := { fltrExpr := p, graph := g.graph, stack := g.stack, lbr := g.lbr, both := g.entry && g.exit, pkt := g.pkt } }

theorem parse_pat (g : Flg.Glob) (p : Str) (h : Flg.loop Flg.passK ({}, p) = some ({}, p))
    (h2 : Flg.kfuncFields [] [] p = some (p, [], [])) :
    Flg.parseKfuncFlag g p = if g.insns && g.graph then .error .reject else .ok (pat g p) := by
  unfold Flg.parseKfuncFlag
  rw [h]
  cases hi : g.insns <;> cases hg : g.graph <;> simp [h2, pat, hi, hg]

theorem parse_ip (g : Flg.Glob) : Flg.parseKfuncFlag g "ip_*".toList =
    if g.insns && g.graph then .error .reject else .ok (pat g "ip_*".toList) :=
  parse_pat g _ (by decide +kernel) (by decide +kernel)

theorem parse_tcp (g : Flg.Glob) : Flg.parseKfuncFlag g "tcp_*".toList =
    if g.insns && g.graph then .error .reject else .ok (pat g "tcp_*".toList) :=
  parse_pat g _ (by decide +kernel) (by decide +kernel)

theorem parse_eq (g : Flg.Glob) : parse g patterns =
    if g.insns && g.graph then none else some [pat g "ip_*".toList, pat g "tcp_*".toList] := by
  cases h : (g.insns && g.graph) <;> simp only [patterns, parse, parse_ip, parse_tcp, h] <;> rfl

theorem matchMany_iff (s : Sys) (fn : BFunc) (hf : fn ∈ s.fns) (kf : KFunc) :
    matchMany s.glob s.ksyms [pat s.g "ip_*".toList, pat s.g "tcp_*".toList] fn = some kf →
      kf.fn = fn ∧ Many s fn kf.addr := by
  unfold matchMany
  intro h
  rw [if_neg (by simp)] at h
  split at h
  · cases h
  · rename_i m hm
    have hg : (s.glob "ip_*".toList fn.name = true ∨ s.glob "tcp_*".toList fn.name = true) ∧ m.imm.multi = false := by
      unfold Flg.matchKfunc at hm
      have h1 := List.find?_some hm
      have h2 := List.mem_of_find?_eq_some hm
      simp only [List.mem_cons, List.not_mem_nil, or_false] at h2
      unfold Flg.kmatch at h1
      rcases h2 with rfl | rfl
      · refine ⟨Or.inl ?_, rfl⟩
        cases hh : s.glob "ip_*".toList fn.name with
        | true => rfl
        | false => simp [pat] at h1; rw [← h1]; exact hh.symm ▸ rfl
      · refine ⟨Or.inr ?_, rfl⟩
        cases hh : s.glob "tcp_*".toList fn.name with
        | true => rfl
        | false => simp [pat] at h1; rw [← h1]; exact hh.symm ▸ rfl
    split at h
    · cases h
    · rename_i k hk
      split at h
      · cases h
      · rename_i hp
        split at h
        · rename_i hl
          cases h
          simp only [Bool.and_eq_true, decide_eq_true_eq] at hl
          unfold maxArgsPrev maxArgs at hl
          unfold Flg.checkTraceable at hk
          split at hk
          · cases hk
          · rename_i hv
            split at hk
            · cases hk
            · rename_i k' hs
              split at hk
              · cases hk
              · rename_i hd
                cases hk
                rw [hg.2] at hd
                simp only [Bool.not_false, Bool.and_true, Bool.not_eq_true] at hd
                simp only [Bool.or_eq_true, not_or, Bool.not_eq_true] at hv
                refine ⟨rfl, hf, hg.1, hl.1, hl.2, hv.1, hv.2, by simpa using hp, ?_⟩
                rw [hs]
                cases k
                simp_all
        · cases h

theorem matchMany_of (s : Sys) (fn : BFunc) (a : BitVec 64) (h : Many s fn a) :
    ∃ kf, matchMany s.glob s.ksyms [pat s.g "ip_*".toList, pat s.g "tcp_*".toList] fn = some kf ∧ kf.addr = a ∧ kf.fn = fn := by
  obtain ⟨_, hg, h7, h12, hv, hr, hp, hk⟩ := h
  unfold matchMany
  rw [if_neg (by simp)]
  have hm : ∃ m, Flg.matchKfunc s.glob fn [pat s.g "ip_*".toList, pat s.g "tcp_*".toList] = some m ∧ m.imm.multi = false := by
    have e : ∀ p, Flg.kmatch s.glob (pat s.g p) fn = s.glob p fn.name := by
      intro p
      unfold Flg.kmatch
      cases hh : s.glob p fn.name <;> simp [pat, hh]
    unfold Flg.matchKfunc
    rw [List.find?_cons, e]
    cases hh : s.glob "ip_*".toList fn.name with
    | true => exact ⟨_, rfl, rfl⟩
    | false =>
      rw [List.find?_cons, e]
      rw [hh] at hg
      have ht : s.glob "tcp_*".toList fn.name = true := by simpa using hg
      rw [ht]
      exact ⟨_, rfl, rfl⟩
  obtain ⟨m, hm, hmm⟩ := hm
  rw [hm]
  have hc : Flg.checkTraceable s.ksyms fn m.imm.multi = some ⟨a, false⟩ := by
    unfold Flg.checkTraceable
    rw [hv, hr, hk, hmm]
    rfl
  simp only [hc, hp]
  rw [if_neg (by simp), if_pos (by simp only [Bool.and_eq_true, decide_eq_true_eq]; unfold maxArgsPrev maxArgs; omega)]
  exact ⟨_, rfl, rfl, rfl⟩

theorem findMany_eq (s : Sys) (ms : List KfuncFlag) (a : BitVec 64) :
    findMany s.glob s.ksyms ms s.fns a = (s.fns.reverse.filterMap (matchMany s.glob s.ksyms ms)).find? (·.addr = a) := by
  have h := Flg.foldl_find (matchMany s.glob s.ksyms ms) a s.fns (fun _ => none)
  have e : ∀ o : Option KFunc, o.orElse (fun _ => none) = o := by intro o; cases o <;> rfl
  rw [e] at h
  exact h

/-- What is in the map found. -/
theorem found_sound (s : Sys) (a : BitVec 64) (kf : KFunc)
    (h : findMany s.glob s.ksyms [pat s.g "ip_*".toList, pat s.g "tcp_*".toList] s.fns a = some kf) : Many s kf.fn a := by
  rw [findMany_eq] at h
  have h1 : kf.addr = a := by simpa using List.find?_some h
  obtain ⟨fn, hf, hm⟩ := List.mem_filterMap.1 (List.mem_of_find?_eq_some h)
  obtain ⟨h2, h3⟩ := matchMany_iff s fn (List.mem_reverse.1 hf) kf hm
  rw [h2, ← h1]
  exact h3

theorem found_complete (s : Sys) (a : BitVec 64) (fn : BFunc) (h : Many s fn a) :
    ∃ kf, findMany s.glob s.ksyms [pat s.g "ip_*".toList, pat s.g "tcp_*".toList] s.fns a = some kf := by
  rw [findMany_eq]
  obtain ⟨kf, h1, h2, _⟩ := matchMany_of s fn a h
  apply Option.isSome_iff_exists.1
  rw [List.find?_isSome]
  exact ⟨kf, List.mem_filterMap.2 ⟨fn, List.mem_reverse.2 h.1, h1⟩, by simpa using h2⟩

theorem parse_quiet (s : Sys) (h : Quiet s) : parse s.g patterns = some [pat s.g "ip_*".toList, pat s.g "tcp_*".toList] := by
  rw [parse_eq]
  cases hi : s.g.insns <;> cases hg : s.g.graph <;> simp_all [Quiet]

/-- **C99.** The limit is 12 or 6, and it was tried with a function that could be traced if 12 parameters are allowed and
could not if only 6 are: 12 if its tracing program loaded, 6 if not. -/
theorem limit_tried (s : Sys) (r : Nat) (h : Detect s (some r)) :
    ∃ fn a, Many s fn a ∧ Hookable s a ∧ (s.loads fn = true ∧ r = 12 ∨ s.loads fn = false ∧ r = 6) := by
  cases h with
  | tried ms addrs left a kf hp hk hd hl =>
    rw [parse_eq] at hp
    split at hp
    · cases hp
    · cases hp
      obtain ⟨kf', h1, h2⟩ := Tr.kept_probe s.cpu s.mem addrs _ hk
      rw [hd] at h1
      cases h1
      obtain ⟨h3, h4⟩ := (h2 a kf).1 hl
      refine ⟨kf.fn, a, found_sound s a kf h3, (hookable_iff s a).2 h4, ?_⟩
      cases hh : s.loads kf.fn
      · exact Or.inr ⟨rfl, rfl⟩
      · exact Or.inl ⟨rfl, rfl⟩

/-- **C99.** A kernel that allows 12 parameters is found to, whichever function is tried. -/
theorem limit_new (s : Sys) (hl : ∀ fn a, Many s fn a → s.loads fn = true) (r : Nat) (h : Detect s (some r)) : r = 12 := by
  obtain ⟨fn, a, h1, _, h2⟩ := limit_tried s r h
  have := hl fn a h1
  rcases h2 with ⟨_, h⟩ | ⟨h, _⟩
  · exact h
  · rw [h] at this; cases this

/-- **C99.** A kernel that refuses more than 6 parameters is found to, whichever function is tried. -/
theorem limit_old (s : Sys) (hl : ∀ fn, 6 < fn.params.length → s.loads fn = false) (r : Nat) (h : Detect s (some r)) : r = 6 := by
  obtain ⟨fn, a, h1, _, h2⟩ := limit_tried s r h
  have := hl fn (by have := h1.2.2.1; omega)
  rcases h2 with ⟨h, _⟩ | ⟨_, h⟩
  · rw [h] at this; cases this
  · exact h

/-- The sorted addresses exist for finitely many functions. -/
theorem addrs_exist (s : Sys) (ms : List KfuncFlag) :
    ∃ addrs : List Tr.Addr, ∀ a, a ∈ addrs ↔ findMany s.glob s.ksyms ms s.fns a ≠ none := by
  refine ⟨(s.fns.reverse.filterMap (matchMany s.glob s.ksyms ms)).map (·.addr), fun a => ?_⟩
  rw [findMany_eq, ← Option.isSome_iff_ne_none, List.find?_isSome, List.mem_map]
  constructor
  · rintro ⟨x, h1, h2⟩; exact ⟨x, h1, by simpa using h2⟩
  · rintro ⟨x, h1, h2⟩; exact ⟨x, h1, by simpa using h2⟩

/-- **C99.** There is always an answer, and it is an error exactly if the kernel has no function to try, or the global
options contradict each other. -/
theorem error_iff (s : Sys) : Detect s none ↔ (s.g.insns = true ∧ s.g.graph = true) ∨ ∀ fn a, Many s fn a → ¬ Hookable s a := by
  constructor
  · intro h
    cases h with
    | badFlag h =>
      left
      rw [parse_eq] at h
      split at h
      · rename_i h2; simpa using h2
      · cases h
    | nothing ms addrs left hp hk hd hl =>
      right
      intro fn a hm hh
      rw [parse_eq] at hp
      split at hp
      · cases hp
      · cases hp
        obtain ⟨kf', h1, h2⟩ := Tr.kept_probe s.cpu s.mem addrs _ hk
        rw [hd] at h1
        cases h1
        obtain ⟨kf, h3⟩ := found_complete s a fn hm
        have := (h2 a kf).2 ⟨h3, (hookable_iff s a).1 hh⟩
        rw [hl a] at this
        cases this
  · intro h
    by_cases hq : Quiet s
    · obtain ⟨addrs, hk⟩ := addrs_exist s [pat s.g "ip_*".toList, pat s.g "tcp_*".toList]
      obtain ⟨kf', h1, h2⟩ := Tr.kept_probe s.cpu s.mem addrs _ hk
      refine .nothing _ addrs kf' (parse_quiet s hq) hk h1 fun a => ?_
      cases hf : kf' a with
      | none => rfl
      | some kf =>
        obtain ⟨h3, h4⟩ := (h2 a kf).1 hf
        rcases h with h | h
        · exact absurd h hq
        · exact absurd ((hookable_iff s a).2 h4) (h _ a (found_sound s a kf h3))
    · refine .badFlag ?_
      rw [parse_eq, if_pos]
      have : s.g.insns = true ∧ s.g.graph = true := Classical.byContradiction hq
      simp [this.1, this.2]

/-- **C99.** Any function that can be tried may be the one tried: which one is taken from the map is not determined. -/
theorem any_tried (s : Sys) (hq : Quiet s) (fn : BFunc) (a : BitVec 64) (hm : Many s fn a) (hh : Hookable s a)
    (hu : ∀ fn', Many s fn' a → fn' = fn) : Detect s (some (if s.loads fn = true then 12 else 6)) := by
  obtain ⟨addrs, hk⟩ := addrs_exist s [pat s.g "ip_*".toList, pat s.g "tcp_*".toList]
  obtain ⟨kf', h1, h2⟩ := Tr.kept_probe s.cpu s.mem addrs _ hk
  obtain ⟨kf, h3⟩ := found_complete s a fn hm
  have e : kf.fn = fn := hu _ (found_sound s a kf h3)
  rw [← e]
  exact .tried _ addrs kf' a kf (parse_quiet s hq) hk h1 ((h2 a kf).2 ⟨h3, (hookable_iff s a).1 hh⟩)

/-- **C99, violated.** If the tracing program of one function loads and that of another does not, as when one of them may not be
traced for another reason, the same system may be given either limit. -/
theorem choice_violated (s : Sys) (hq : Quiet s) (f f' : BFunc) (a a' : BitVec 64) (hm : Many s f a) (hm' : Many s f' a')
    (hh : Hookable s a) (hh' : Hookable s a') (hu : ∀ x, Many s x a → x = f) (hu' : ∀ x, Many s x a' → x = f')
    (hl : s.loads f = true) (hl' : s.loads f' = false) : Detect s (some 12) ∧ Detect s (some 6) := by
  have h1 := any_tried s hq f a hm hh hu
  have h2 := any_tried s hq f' a' hm' hh' hu'
  rw [if_pos hl] at h1
  rw [if_neg (by simp [hl'])] at h2
  exact ⟨h1, h2⟩

/-- **C99, violated.** On a kernel without such a function, one built without IP for example, the only answer is the error that ends
bpfsnoop, whatever was to be traced, and even if the kernel allows 12 parameters. -/
theorem no_function_violated (s : Sys) (h : ∀ fn ∈ s.fns, s.glob "ip_*".toList fn.name = false ∧ s.glob "tcp_*".toList fn.name = false)
    (r : Option Nat) : Detect s r ↔ r = none := by
  have hn : ∀ fn a, ¬ Many s fn a := by
    intro fn a hm
    have := h fn hm.1
    rcases hm.2.1 with h2 | h2
    · rw [this.1] at h2; cases h2
    · rw [this.2] at h2; cases h2
  constructor
  · intro hd
    cases r with
    | none => rfl
    | some n =>
      obtain ⟨fn, a, h1, _⟩ := limit_tried s n hd
      exact absurd h1 (hn fn a)
  · rintro rfl
    exact (error_iff s).2 (Or.inr fun fn a hm => absurd hm (hn fn a))

/-- **C99.** What the limit decides: with 6 instead of 12, of the functions a pattern selects exactly those with 7 to 12 parameters are
left out. -/
theorem limit_selects (glob : Str → Str → Bool) (ksyms : Str → Option Ksym) (ms : List KfuncFlag) (hm : ∀ m ∈ ms, m.imm.multi = false)
    (fn : BFunc) (kf : KFunc) :
    Flg.matchKernelFunc glob ksyms 6 ms fn = some kf ↔ Flg.matchKernelFunc glob ksyms 12 ms fn = some kf ∧ fn.params.length ≤ 6 := by
  rw [Flg.matchKernelFunc_iff, Flg.matchKernelFunc_iff]
  have hf : ∀ m, Flg.FirstMatch glob ms fn m → m.imm.multi = false := by
    rintro m ⟨b, c, h, _⟩
    exact hm m (by rw [h]; simp)
  constructor
  · rintro ⟨m, k, h1, ⟨e1, e2, e3, e4, e5, e6⟩, h3⟩
    have hx : fn.params.length ≤ 6 := by
      rcases e6 with h | ⟨h, _⟩
      · exact h
      · rw [hf m h1] at h; cases h
    exact ⟨⟨m, k, h1, ⟨e1, e2, e3, e4, e5, Or.inl (by omega)⟩, h3⟩, hx⟩
  · rintro ⟨⟨m, k, h1, ⟨e1, e2, e3, e4, e5, _⟩, h3⟩, hx⟩
    exact ⟨m, k, h1, ⟨e1, e2, e3, e4, e5, Or.inl hx⟩, h3⟩

/-- A function with `n` parameters. -/
def sample (name : String) (n : Nat) : BFunc := ⟨name.toList, List.replicate n ("x".toList, "int".toList), false, false, true⟩

/-- Witness: a kernel with two such functions whose entries are five-byte no-operations, which loads one of them. -/
def sampleSys : Sys :=
  { g := ⟨false, false, false, false, false, ["exit"]⟩
    glob := fun p n => (p.dropLast).isPrefixOf n
    ksyms := fun n => if n = "ip_a".toList then some ⟨4096, false⟩ else if n = "tcp_b".toList then some ⟨8192, false⟩ else none
    fns := [sample "ip_a" 7, sample "tcp_b" 12, sample "tcp_c" 6]
    cpu := ⟨false, false, false⟩
    mem := fun a => some (match (a &&& 0xFFF#64).toNat with | 0 => 0x0F#8 | 1 => 0x1F#8 | 2 => 0x44#8 | _ => 0)
    loads := fun fn => fn.name == "ip_a".toList }

theorem limit_witness : Detect sampleSys (some 12) ∧ Detect sampleSys (some 6) := by
  have u : ∀ x a, Many sampleSys x a → (a = 4096 ∧ x = sample "ip_a" 7) ∨ (a = 8192 ∧ x = sample "tcp_b" 12) := by
    rintro x a ⟨h1, _, h7, _, _, _, _, h8⟩
    simp only [sampleSys, List.mem_cons, List.not_mem_nil, or_false] at h1
    rcases h1 with rfl | rfl | rfl
    · left
      have : (some ⟨4096, false⟩ : Option Ksym) = some ⟨a, false⟩ := h8
      cases this; exact ⟨rfl, rfl⟩
    · right
      have : (some ⟨8192, false⟩ : Option Ksym) = some ⟨a, false⟩ := h8
      cases this; exact ⟨rfl, rfl⟩
    · simp [sample] at h7
  refine choice_violated sampleSys (by simp [Quiet, sampleSys]) (sample "ip_a" 7) (sample "tcp_b" 12) 4096 8192 ?_ ?_ ?_ ?_ ?_ ?_ rfl ?_
  · exact ⟨by simp [sampleSys], Or.inl (by decide +kernel), by decide, by decide, rfl, rfl, rfl, by decide +kernel⟩
  · exact ⟨by simp [sampleSys], Or.inr (by decide +kernel), by decide, by decide, rfl, rfl, rfl, by decide +kernel⟩
  · rw [hookable_iff]; decide +kernel
  · rw [hookable_iff]; decide +kernel
  · intro x h
    rcases u x _ h with ⟨_, h⟩ | ⟨h, _⟩
    · exact h
    · exact absurd h (by decide)
  · intro x h
    rcases u x _ h with ⟨h, _⟩ | ⟨_, h⟩
    · exact absurd h (by decide)
    · exact h
  · decide +kernel

end Bpfsnoop.Mx
