import Verif.Model.Links
/-
C98: programs that are attached to programs are left out.
-/
namespace Bpfsnoop.Ln

/-! ### Specification -/

/-- What a tracing program is attached to: a function of a BPF program, or one of the kernel or of a module, described by the BTF object of that id. -/
inductive Target
  | prog (id : Nat)
  | kernel (btf : Nat)

/-- What the kernel reports as the object attached to (kernel: `bpf_trampoline_compute_key`, `bpf_trampoline_unpack_key`): the program's id or the BTF
object's, neither of which is 0. -/
def Reports : Target → Nat → Prop
  | .prog id, o => o = id ∧ 0 < id
  | .kernel b, o => o = b ∧ 0 < b

/-- The last tracing link of a program. -/
def LastLink (ls : List (Option Info)) (p a o : Nat) : Prop :=
  ∃ pre post, ls = pre ++ some ⟨p, some (a, o)⟩ :: post ∧ ∀ i, some i ∈ post → i.prog = p → i.tracing = none

/-! ### Proofs -/

theorem loop_some : ∀ (ls : List (Option Info)) (t : Table), (∃ t', loop t ls = some t') ↔ none ∉ ls
  | [], t => by simp [loop]
  | none :: ls, t => by simp [loop]
  | some i :: ls, t => by
    cases h : i.tracing with
    | none => simp only [loop, h, loop_some ls]; simp
    | some x => simp only [loop, h, loop_some ls]; simp

theorem loop_get : ∀ (ls : List (Option Info)) (t t' : Table), loop t ls = some t' → ∀ p e,
    t' p = some e ↔ LastLink ls p e.attach e.prog ∨ (t p = some e ∧ ∀ i, some i ∈ ls → i.prog = p → i.tracing = none)
  | [], t, t', h, p, e => by
    simp only [loop, Option.some.injEq] at h
    subst h
    constructor
    · intro h; exact .inr ⟨h, by simp⟩
    · rintro (⟨pre, post, h, _⟩ | ⟨h, _⟩)
      · simp at h
      · exact h
  | none :: ls, t, t', h, p, e => by simp [loop] at h
  | some i :: ls, t, t', h, p, e => by
    have up : LastLink ls p e.attach e.prog → LastLink (some i :: ls) p e.attach e.prog := by
      rintro ⟨pre, post, hls, hp⟩
      exact ⟨some i :: pre, post, by rw [hls]; rfl, hp⟩
    have down : LastLink (some i :: ls) p e.attach e.prog →
        LastLink ls p e.attach e.prog ∨ (i = ⟨p, some (e.attach, e.prog)⟩ ∧ ∀ i, some i ∈ ls → i.prog = p → i.tracing = none) := by
      rintro ⟨pre, post, h, hp⟩
      cases pre with
      | nil => simp only [List.nil_append, List.cons.injEq, Option.some.injEq] at h; exact .inr ⟨h.1, h.2 ▸ hp⟩
      | cons x pre => simp only [List.cons_append, List.cons.injEq] at h; exact .inl ⟨pre, post, h.2, hp⟩
    cases ht : i.tracing with
    | none =>
      simp only [loop, ht] at h
      rw [loop_get ls t t' h p e]
      constructor
      · rintro (h | ⟨h1, h2⟩)
        · exact .inl (up h)
        · refine .inr ⟨h1, ?_⟩
          intro j hj hjp
          rcases List.mem_cons.mp hj with hj | hj
          · cases hj; exact ht
          · exact h2 j hj hjp
      · rintro (h | ⟨h1, h2⟩)
        · rcases down h with h | ⟨rfl, _⟩
          · exact .inl h
          · simp at ht
        · exact .inr ⟨h1, fun j hj => h2 j (List.mem_cons_of_mem _ hj)⟩
    | some x =>
      obtain ⟨a, o⟩ := x
      simp only [loop, ht] at h
      rw [loop_get ls _ t' h p e]
      constructor
      · rintro (h | ⟨h1, h2⟩)
        · exact .inl (up h)
        · by_cases hp : p = i.prog
          · rw [if_pos hp] at h1
            cases h1
            refine .inl ⟨[], ls, ?_, h2⟩
            subst hp
            cases i
            simp only at ht
            subst ht
            rfl
          · rw [if_neg hp] at h1
            refine .inr ⟨h1, ?_⟩
            intro j hj hjp
            rcases List.mem_cons.mp hj with hj | hj
            · cases hj; exact absurd hjp.symm hp
            · exact h2 j hj hjp
      · rintro (hd | ⟨h1, h2⟩)
        · rcases down hd with hd2 | ⟨rfl, hd2⟩
          · exact .inl hd2
          · simp only [Option.some.injEq, Prod.mk.injEq] at ht
            obtain ⟨rfl, rfl⟩ := ht
            exact .inr ⟨by simp, hd2⟩
        · have hp : p ≠ i.prog := by
            rintro rfl
            have := h2 i List.mem_cons_self rfl
            rw [ht] at this; cases this
          exact .inr ⟨by rw [if_neg hp]; exact h1, fun j hj => h2 j (List.mem_cons_of_mem _ hj)⟩

/-- **The links are read exactly if** the kernel answers for each of them; and then what is known of a program is its last tracing link. -/
theorem links_read (ls : List (Option Info)) : ((∃ t, newLinks ls = some t) ↔ none ∉ ls) ∧
    ∀ t, newLinks ls = some t → ∀ p e, t p = some e ↔ LastLink ls p e.attach e.prog := by
  refine ⟨loop_some ls _, fun t h p e => ?_⟩
  rw [loop_get ls _ t h p e]
  simp

/-- **A program is passed over exactly if** it is a tracing program whose last link is an entry or exit link to an object whose id is not 0, and it
is not to be disassembled. -/
theorem passed_iff {ls : List (Option Info)} {t : Table} (h : newLinks ls = some t) (disasm tracing : Bool) (id : Nat) :
    passedOver t disasm tracing id = true ↔ disasm = false ∧ tracing = true ∧
      ∃ a o, LastLink ls id a o ∧ (a = 24 ∨ a = 25) ∧ o ≠ 0 := by
  have hl := (links_read ls).2 t h id
  have e0 : passedOver t disasm tracing id = true ↔ canTrace t tracing id = false ∧ disasm = false := by
    simp [passedOver]
  rw [e0]
  cases tracing with
  | false => simp [canTrace]
  | true =>
    cases ht : t id with
    | none =>
      have e1 : canTrace t true id = true := by simp [canTrace, ht]
      rw [e1]
      constructor
      · rintro ⟨h1, _⟩; cases h1
      · rintro ⟨_, _, a, o, h1, _⟩
        have := (hl ⟨a, o⟩).mpr h1
        rw [ht] at this; cases this
    | some e =>
      have he := (hl e).mp ht
      have only : ∀ a o, LastLink ls id a o → a = e.attach ∧ o = e.prog := by
        intro a o h1
        have := (hl ⟨a, o⟩).mpr h1
        rw [ht] at this
        cases this
        exact ⟨rfl, rfl⟩
      have e1 : canTrace t true id = if e.attach = 24 ∨ e.attach = 25 then decide (e.prog = 0) else true := by
        unfold canTrace; rw [ht]; rfl
      rw [e1]
      constructor
      · rintro ⟨h1, h2⟩
        refine ⟨h2, rfl, e.attach, e.prog, he, ?_⟩
        by_cases hor : e.attach = 24 ∨ e.attach = 25
        · rw [if_pos hor] at h1
          exact ⟨hor, of_decide_eq_false h1⟩
        · rw [if_neg hor] at h1; cases h1
      · rintro ⟨h2, _, a, o, h1, h3, h4⟩
        obtain ⟨rfl, rfl⟩ := only a o h1
        exact ⟨by rw [if_pos h3]; exact decide_eq_false h4, h2⟩

/-- **A program attached at entry or exit of another program is passed over.** -/
theorem attached_passed {ls : List (Option Info)} {t : Table} (h : newLinks ls = some t) {id p a o : Nat} (hr : Reports (.prog p) o)
    (ha : a = 24 ∨ a = 25) (hl : LastLink ls id a o) : passedOver t false true id = true :=
  (passed_iff h false true id).mpr ⟨rfl, rfl, a, o, hl, ha, by obtain ⟨rfl, h⟩ := hr; omega⟩

/-- **Everything else but entry and exit programs is kept**: programs of other types, without link, and attached in other ways; and all programs when
they are to be disassembled. -/
theorem others_kept {ls : List (Option Info)} {t : Table} (h : newLinks ls = some t) (disasm tracing : Bool) (id : Nat)
    (hk : disasm = true ∨ tracing = false ∨ ∀ a o, LastLink ls id a o → a ≠ 24 ∧ a ≠ 25) : passedOver t disasm tracing id = false := by
  cases hp : passedOver t disasm tracing id with
  | false => rfl
  | true =>
    obtain ⟨h1, h2, a, o, h3, h4, _⟩ := (passed_iff h disasm tracing id).mp hp
    rcases hk with hk | hk | hk
    · rw [h1] at hk; cases hk
    · rw [h2] at hk; cases hk
    · have := hk a o h3; omega

/-- **C98 violated**: a program attached at entry or exit of a function of the kernel, which can be traced, is passed over as well: what the kernel
reports for it is the id of a BTF object, not 0. -/
theorem kernel_target_violated {ls : List (Option Info)} {t : Table} (h : newLinks ls = some t) {id b a o : Nat} (hr : Reports (.kernel b) o)
    (ha : a = 24 ∨ a = 25) (hl : LastLink ls id a o) : passedOver t false true id = true :=
  (passed_iff h false true id).mpr ⟨rfl, rfl, a, o, hl, ha, by obtain ⟨rfl, h⟩ := hr; omega⟩

/-- **C98 violated**: of a program with two links only the last counts; here the first attaches it to program 7. -/
theorem first_link_violated : ∃ t, newLinks [some ⟨5, some (24, 7)⟩, some ⟨5, some (26, 1)⟩] = some t ∧ passedOver t false true 5 = false :=
  ⟨_, rfl, by decide⟩

/-- **C98 violated**: one link for which the kernel gives no answer, and no program at all is read. -/
theorem one_failure_violated (pre post : List (Option Info)) : newLinks (pre ++ none :: post) = none := by
  cases h : newLinks (pre ++ none :: post) with
  | none => rfl
  | some t => exact absurd (by simp) ((links_read _).1.mp ⟨t, h⟩)

theorem links_witness : ∃ t, newLinks [some ⟨5, some (24, 7)⟩, some ⟨6, none⟩, some ⟨8, some (25, 1)⟩] = some t ∧ Reports (.prog 7) 7 ∧ Reports (.kernel 1) 1 ∧
    LastLink [some ⟨5, some (24, 7)⟩, some ⟨6, none⟩, some ⟨8, some (25, 1)⟩] 5 24 7 ∧
    LastLink [some ⟨5, some (24, 7)⟩, some ⟨6, none⟩, some ⟨8, some (25, 1)⟩] 8 25 1 ∧
    passedOver t false true 5 = true ∧ passedOver t true true 5 = false ∧ passedOver t false true 6 = false ∧ passedOver t false true 8 = true := by
  refine ⟨_, rfl, ⟨rfl, by decide⟩, ⟨rfl, by decide⟩, ⟨[], _, rfl, ?_⟩, ⟨[_, _], [], rfl, by simp⟩, by decide, by decide, by decide, by decide⟩
  intro i hi
  simp only [List.mem_cons, List.not_mem_nil, Option.some.injEq, or_false] at hi
  rcases hi with rfl | rfl <;> simp

end Bpfsnoop.Ln
