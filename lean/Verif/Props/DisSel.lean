import Verif.Model.DisSel
import Verif.Props.Disasm
import Verif.Props.Kallsyms
import Verif.Props.Cache
/-
C97: which function `bpfsnoop -d -k` disassembles.
-/
namespace Bpfsnoop.Dis
open Kallsyms (Tables Entry texts scan FindBySymbol compilerSuffixes)
open Flg (Str)

/-! ### Specification -/

/-- What a module's debug information knows of a function: of one given by address, or by name. -/
def Knows (k : Mod) (name : Str) (a s : BitVec 64) : Prop := ∃ d, k.debug = some d ∧ ((a ≠ 0 ∧ d.get a = some s) ∨ (a = 0 ∧ d.sym name = some s))

/-- A module with debug information that knows nothing of it. -/
def Lacks (K : Str → Option Mod) (name : Str) (a : BitVec 64) (m : Str) : Prop :=
  ∃ k, K m = some k ∧ k.debug.isSome = true ∧ ∀ s, ¬ Knows k name a s

/-- No symbol is called `n`, neither as such nor with a suffix by which compilers mark copies. -/
def NoSymbol (ls : List Kallsyms.Line) (n : String) : Prop :=
  ∀ s ∈ texts ls, s.name ≠ n ∧ (∀ suf ∈ compilerSuffixes, s.name ≠ n ++ suf) ∧ ¬ (n ++ ".llvm.").toList <+: s.name.toList

/-! ### Modules -/

theorem lacks_cases {K : Str → Option Mod} {name : Str} {a : BitVec 64} {m : Str} (ms : List Str) :
    (Lacks K name a m ∧ inMods K name a (m :: ms) = inMods K name a ms) ∨
    (K m = none ∧ inMods K name a (m :: ms) = .noModule m) ∨
    (∃ k, K m = some k ∧ k.debug = none ∧ inMods K name a (m :: ms) = .panic) ∨
    (∃ k s, K m = some k ∧ Knows k name a s ∧ inMods K name a (m :: ms) = .shows (k.kaslr.revertAddr s).toNat (String.ofList name)) := by
  cases hK : K m with
  | none => exact .inr (.inl ⟨rfl, by simp [inMods, hK]⟩)
  | some k =>
    cases hd : k.debug with
    | none => exact .inr (.inr (.inl ⟨k, rfl, hd, by simp [inMods, hK, hd]⟩))
    | some d =>
      by_cases ha : a = 0
      · cases hs : d.sym name with
        | none =>
          refine .inl ⟨⟨k, hK, by simp [hd], ?_⟩, by simp [inMods, hK, hd, ha, hs]⟩
          rintro s ⟨d', hd', (⟨h, _⟩ | ⟨_, h⟩)⟩
          · exact h ha
          · rw [hd] at hd'; cases hd'; rw [hs] at h; cases h
        | some s => exact .inr (.inr (.inr ⟨k, s, rfl, ⟨d, hd, .inr ⟨ha, hs⟩⟩, by simp [inMods, hK, hd, ha, hs]⟩))
      · cases hs : d.get a with
        | none =>
          refine .inl ⟨⟨k, hK, by simp [hd], ?_⟩, by simp only [inMods, hK, hd, if_pos ha, hs]⟩
          rintro s ⟨d', hd', (⟨_, h⟩ | ⟨h, _⟩)⟩
          · rw [hd] at hd'; cases hd'; rw [hs] at h; cases h
          · exact ha h
        | some s => exact .inr (.inr (.inr ⟨k, s, rfl, ⟨d, hd, .inl ⟨ha, hs⟩⟩, by simp only [inMods, hK, hd, if_pos ha, hs]⟩))

theorem knows_not_lacks {K : Str → Option Mod} {name : Str} {a s : BitVec 64} {m : Str} {k : Mod} (hK : K m = some k) (hk : Knows k name a s)
    (hl : Lacks K name a m) : False := by
  obtain ⟨k', hK', _, h⟩ := hl
  rw [hK] at hK'; cases hK'
  exact h s hk

theorem knows_unique {k : Mod} {name : Str} {a s s' : BitVec 64} (h : Knows k name a s) (h' : Knows k name a s') : s = s' := by
  obtain ⟨d, hd, h⟩ := h
  obtain ⟨d', hd', h'⟩ := h'
  rw [hd] at hd'; cases hd'
  rcases h with ⟨h1, h2⟩ | ⟨h1, h2⟩ <;> rcases h' with ⟨h3, h4⟩ | ⟨h3, h4⟩
  · rw [h2] at h4; exact Option.some.inj h4
  · exact absurd h3 h1
  · exact absurd h1 h3
  · rw [h2] at h4; exact Option.some.inj h4

theorem skip {K : Str → Option Mod} {name : Str} {a : BitVec 64} : ∀ {pre : List Str} (ms : List Str), (∀ x ∈ pre, Lacks K name a x) →
    inMods K name a (pre ++ ms) = inMods K name a ms
  | [], _, _ => rfl
  | m :: pre, ms, h => by
    rw [List.cons_append]
    rcases lacks_cases (K := K) (name := name) (a := a) (m := m) (pre ++ ms) with ⟨_, h2⟩ | ⟨h2, _⟩ | ⟨k, h2, h3, _⟩ | ⟨k, s, h2, h3, _⟩
    · rw [h2]; exact skip ms fun x hx => h x (List.mem_cons_of_mem _ hx)
    · obtain ⟨k, hk, _⟩ := h m List.mem_cons_self
      rw [h2] at hk; cases hk
    · obtain ⟨k', hk, hd, _⟩ := h m List.mem_cons_self
      rw [h2] at hk; cases hk
      simp [h3] at hd
    · exact (knows_not_lacks h2 h3 (h m List.mem_cons_self)).elim

/-- **A function that is no symbol is shown exactly if** some module's debug information knows it and that of every module before it does not;
it is shown at the address at which the module is loaded. -/
theorem module_shows (K : Str → Option Mod) (name : Str) (a : BitVec 64) (ms : List Str) (x : Nat) (n : String) :
    inMods K name a ms = .shows x n ↔ ∃ pre m post k s, ms = pre ++ m :: post ∧ (∀ y ∈ pre, Lacks K name a y) ∧ K m = some k ∧
      Knows k name a s ∧ x = (k.kaslr.revertAddr s).toNat ∧ n = String.ofList name := by
  constructor
  · induction ms with
    | nil => intro h; simp [inMods] at h
    | cons m ms ih =>
      intro h
      rcases lacks_cases (K := K) (name := name) (a := a) (m := m) ms with ⟨h1, h2⟩ | ⟨_, h2⟩ | ⟨k, _, _, h2⟩ | ⟨k, s, h1, h3, h2⟩
      · rw [h2] at h
        obtain ⟨pre, m', post, k, s, rfl, hp, rest⟩ := ih h
        refine ⟨m :: pre, m', post, k, s, rfl, ?_, rest⟩
        intro y hy
        rcases List.mem_cons.mp hy with rfl | hy
        · exact h1
        · exact hp y hy
      · rw [h2] at h; cases h
      · rw [h2] at h; cases h
      · rw [h2] at h; cases h
        exact ⟨[], m, ms, k, s, rfl, by simp, h1, h3, rfl, rfl⟩
  · rintro ⟨pre, m, post, k, s, rfl, hp, hK, hk, rfl, rfl⟩
    rw [skip _ hp]
    rcases lacks_cases (K := K) (name := name) (a := a) (m := m) post with ⟨h1, _⟩ | ⟨h1, _⟩ | ⟨k', h1, h3, _⟩ | ⟨k', s', h1, h3, h2⟩
    · exact (knows_not_lacks hK hk h1).elim
    · rw [hK] at h1; cases h1
    · rw [hK] at h1; cases h1
      obtain ⟨d, hd, _⟩ := hk
      rw [h3] at hd; cases hd
    · rw [hK] at h1; cases h1
      rw [h2, knows_unique hk h3]

/-- **It is reported as not found only if** every module's debug information was there and knows nothing of it. -/
theorem module_none (K : Str → Option Mod) (name : Str) (a : BitVec 64) (ms : List Str) :
    inMods K name a ms = .notFound ↔ ∀ m ∈ ms, Lacks K name a m := by
  constructor
  · induction ms with
    | nil => simp
    | cons m ms ih =>
      intro h
      rcases lacks_cases (K := K) (name := name) (a := a) (m := m) ms with ⟨h1, h2⟩ | ⟨_, h2⟩ | ⟨k, _, _, h2⟩ | ⟨k, s, _, _, h2⟩
      · rw [h2] at h
        intro y hy
        rcases List.mem_cons.mp hy with rfl | hy
        · exact h1
        · exact ih h y hy
      all_goals rw [h2] at h; cases h
  · intro h
    have := skip (K := K) (name := name) (a := a) (pre := ms) [] h
    rw [List.append_nil] at this
    exact this

/-! ### Names -/

theorem find_none_only {t : Tables} {n : String} (h : FindBySymbol t n none) {r : Option Nat} (h' : FindBySymbol t n r) : r = none := by
  cases h with
  | missing h1 h2 h3 =>
    cases h' with
    | exact i h => rw [h1] at h; cases h
    | suffix i _ h => rw [h2] at h; cases h
    | llvm m i _ _ h hp => exact absurd hp (h3 m i h)
    | missing => rfl

theorem find_none_of {sysBPF : String} {ls : List Kallsyms.Line} {t : Tables} (hs : scan sysBPF ls Tables.empty = some t) {n : String}
    (h : NoSymbol ls n) : FindBySymbol t n none := by
  have hinv := Kallsyms.scanned_inv hs
  refine .missing ?_ ?_ ?_
  · exact (Kallsyms.n2s_none hinv n).mpr fun i s hi => (h s (List.mem_of_getElem? hi)).1
  · rw [List.findSome?_eq_none_iff]
    intro suf hsuf
    exact (Kallsyms.n2s_none hinv _).mpr fun i s hi => (h s (List.mem_of_getElem? hi)).2.1 suf hsuf
  · intro m i hm hp
    obtain ⟨⟨s, h1, h2⟩, _⟩ := (hinv.n2s m i).mp hm
    exact (h s (List.mem_of_getElem? h1)).2.2 (h2 ▸ hp)

/-- A selector that is a number selects by address only. -/
theorem byName_iff (t : Tables) (s : Str) : target t s = .byName ↔ parseAddr s = none := by
  refine ⟨?_, target_name t s⟩
  intro h
  cases hp : parseAddr s with
  | none => rfl
  | some a =>
    simp only [target, hp] at h
    cases hf : Kallsyms.find t a with
    | none => simp [hf] at h
    | some o => cases o <;> simp [hf] at h

/-- **A name selects the first symbol that has it**, unless it can be read as a number. -/
theorem name_selects {sysBPF : String} {ls : List Kallsyms.Line} {t : Tables} (hs : scan sysBPF ls Tables.empty = some t)
    {ks : Km.Syms} {flags : List Str} {K : Dbg} {funcs : List Str → List (String × Nat)} {s : Str} (hp : parseAddr s = none) {k : Nat} {y : Kallsyms.Sym}
    (hk : (texts ls)[k]? = some y) (hn : y.name = String.ofList s) (hfirst : ∀ j z, j < k → (texts ls)[j]? = some z → z.name ≠ String.ofList s)
    (out : Sel) : Selects t ks flags K funcs s out ↔ out = .shows y.addr (String.ofList s) := by
  obtain ⟨h1, h2, e, he, ha, hen, _⟩ := Kallsyms.findByName_first hs (String.ofList s) k y hk hn hfirst
  have hb := (byName_iff t s).mpr hp
  constructor
  · intro h
    cases h with
    | number a n h => rw [hb] at h; cases h
    | numberPanic h => rw [hb] at h; cases h
    | numberMods a h => rw [hb] at h; cases h
    | symbol i e' _ hf he' =>
      have := h2 _ hf
      cases this
      rw [he] at he'; cases he'
      rw [ha, hen]
    | ofModule i e' f _ hf => cases h2 _ hf
    | ofModuleMods i e' _ hf => cases h2 _ hf
    | glob f _ hf => cases h2 _ hf
    | mods _ hf => cases h2 _ hf
  · rintro rfl
    rw [← ha, ← hen]
    exact .symbol k e hb h1 he

/-- **Any other selector selects by pattern**: of the traceable functions that match, one with the least name; if there is none, what modules' debug
information knows under that name. The modules are those given and the one whose name the selector starts with. -/
theorem pattern_selects {sysBPF : String} {ls : List Kallsyms.Line} {t : Tables} (hs : scan sysBPF ls Tables.empty = some t)
    {ks : Km.Syms} {flags : List Str} {K : Dbg} {funcs : List Str → List (String × Nat)} {s : Str} (hp : parseAddr s = none)
    (hn : NoSymbol ls (String.ofList s)) (out : Sel) :
    Selects t ks flags K funcs s out ↔
      (∃ f ∈ funcs (Km.infer ks [s] flags), (∀ g ∈ funcs (Km.infer ks [s] flags), f.1 ≤ g.1) ∧ out = .shows f.2 f.1) ∨
      (funcs (Km.infer ks [s] flags) = [] ∧ out = inKmods K s 0 (Km.infer ks [s] flags)) := by
  have hf := find_none_of hs hn
  have hb := (byName_iff t s).mpr hp
  constructor
  · intro h
    cases h with
    | number a n h => rw [hb] at h; cases h
    | numberPanic h => rw [hb] at h; cases h
    | numberMods a h => rw [hb] at h; cases h
    | symbol i e _ h => cases find_none_only hf h
    | ofModule i e f _ _ h => cases find_none_only hf h
    | ofModuleMods i e _ _ h => cases find_none_only hf h
    | glob f _ _ h => exact .inl ⟨f, h.1, h.2, rfl⟩
    | mods _ _ h => exact .inr ⟨h, rfl⟩
  · rintro (⟨f, h1, h2, rfl⟩ | ⟨h, rfl⟩)
    · exact .glob f hb hf ⟨h1, h2⟩
    · exact .mods hb hf h

/-- The branch for a symbol of a module after no symbol was found is never taken (disasm.go 129-130). -/
theorem module_branch_dead {t : Tables} {n : String} (h : FindBySymbol t n none) (i : Nat) : ¬ FindBySymbol t n (some i) :=
  fun h' => by cases find_none_only h h'

/-- **An address without symbol** is looked up in the modules given, and only there. -/
theorem number_selects {t : Tables} {ks : Km.Syms} {flags : List Str} {K : Dbg} {funcs : List Str → List (String × Nat)} {s : Str} {a : Nat}
    (h : target t s = .noSymbol a) (out : Sel) : Selects t ks flags K funcs s out ↔ out = inKmods K s (BitVec.ofNat 64 a) flags := by
  constructor
  · intro h'
    cases h' with
    | number a n h' => rw [h] at h'; cases h'
    | numberPanic h' => rw [h] at h'; cases h'
    | numberMods a h' => rw [h] at h'; cases h'; rfl
    | symbol i e h' => rw [h] at h'; cases h'
    | ofModule i e f h' => rw [h] at h'; cases h'
    | ofModuleMods i e h' => rw [h] at h'; cases h'
    | glob f h' => rw [h] at h'; cases h'
    | mods h' => rw [h] at h'; cases h'
  · rintro rfl; exact .numberMods a h

theorem least_exists : ∀ fs : List (String × Nat), fs ≠ [] → ∃ f, First fs f
  | [f], _ => ⟨f, by simp [First]⟩
  | f :: g :: fs, _ => by
    obtain ⟨h, h1, h2⟩ := least_exists (g :: fs) (by simp)
    rcases String.le_total f.1 h.1 with hl | hl
    · refine ⟨f, List.mem_cons_self, ?_⟩
      intro x hx
      rcases List.mem_cons.mp hx with rfl | hx
      · exact String.le_refl _
      · exact String.le_trans hl (h2 x hx)
    · refine ⟨h, List.mem_cons_of_mem _ h1, ?_⟩
      intro x hx
      rcases List.mem_cons.mp hx with rfl | hx
      · exact hl
      · exact h2 x hx

/-- Every selector selects something or ends the program. -/
theorem always_selects {sysBPF : String} {ls : List Kallsyms.Line} {t : Tables} (hs : scan sysBPF ls Tables.empty = some t)
    (ks : Km.Syms) (flags : List Str) (K : Dbg) (funcs : List Str → List (String × Nat)) (s : Str)
    (hn : NoSymbol ls (String.ofList s) ∨ ∃ i e, FindBySymbol t (String.ofList s) (some i) ∧ t.heap[i]? = some e) :
    ∃ out, Selects t ks flags K funcs s out := by
  cases ht : target t s with
  | addr a n => exact ⟨_, .number a n ht⟩
  | noSymbol a => exact ⟨_, .numberMods a ht⟩
  | panic => exact ⟨_, .numberPanic ht⟩
  | byName =>
    rcases hn with hn | ⟨i, e, h1, h2⟩
    · have hf := find_none_of hs hn
      cases hl : funcs (Km.infer ks [s] flags) with
      | nil => exact ⟨_, .mods ht hf hl⟩
      | cons x xs =>
        obtain ⟨f, hf'⟩ := least_exists (x :: xs) (by simp)
        exact ⟨_, .glob f ht hf (hl ▸ hf')⟩
    · exact ⟨_, .symbol i e ht h1 h2⟩

/-! ### Violations -/

/-- A module loaded at 0xffffffffc0000000 whose file has a function of 16 bytes at 0x10. -/
def modA : Mod := { debug := some { get := fun x => if 0x10 ≤ x.toNat ∧ x.toNat < 0x20 then some 0x10 else none,
                                    sym := fun n => if n = "fn_a".toList then some 0x10 else none },
                    kaslr := ⟨0xffffffffc0000000, 0⟩ }

/-- **C97 violated**: an address within a module's function is not found, because the debug information is asked for the address in memory instead of
the one in the file, for which it knows the function. -/
theorem module_address_violated : ∃ d, modA.debug = some d ∧ d.get (modA.kaslr.effectiveAddr 0xffffffffc0000018) = some 0x10 ∧
    inKmods (some fun _ => some modA) "0xffffffffc0000018".toList 0xffffffffc0000018 ["a".toList] = .notFound :=
  ⟨_, rfl, by decide, by decide⟩

/-- **C97 violated**: a module without a file ends the search, although a later one has the function. -/
theorem missing_module_violated : inKmods (some fun m => if m = "a".toList then some modA else none) "fn_a".toList 0 ["0".toList, "a".toList] =
    .noModule "0".toList ∧
    inKmods (some fun m => if m = "a".toList then some modA else none) "fn_a".toList 0 ["a".toList] = .shows 0xffffffffc0000010 "fn_a" :=
  ⟨by decide +kernel, by decide +kernel⟩

/-- **C97 violated**: a module whose debug information cannot be parsed makes the search panic. -/
theorem unparsed_module_violated : inKmods (some fun _ => some { modA with debug := none }) "fn_a".toList 0 ["a".toList] = .panic := by
  decide +kernel

/-- Two symbols; the pattern `fn_*` matches neither as a name and selects the lesser of two functions. -/
theorem pattern_witness {sysBPF : String} {t : Tables} (hs : scan sysBPF twoSyms Tables.empty = some t) (ks : Km.Syms) :
    Selects t ks [] none (fun _ => [("fn_b", 0x2000), ("fn_a", 0x3000)]) "fn_*".toList (.shows 0x3000 "fn_a") := by
  have hn : NoSymbol twoSyms (String.ofList "fn_*".toList) := by
    unfold NoSymbol
    decide +kernel
  refine (pattern_selects hs (by decide) hn _).mpr (.inl ⟨("fn_a", 0x3000), by simp, ?_, rfl⟩)
  intro g hg
  simp only [List.mem_cons, List.not_mem_nil, or_false] at hg
  rcases hg with rfl | rfl
  · decide +kernel
  · exact String.le_refl _

end Bpfsnoop.Dis
