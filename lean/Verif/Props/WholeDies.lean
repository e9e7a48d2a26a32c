import Verif.Props.Whole
/-
C83, C01: why the output of a whole run can end before its records do.
-/
namespace Bpfsnoop.Wh

/-- **The run dies only for a reason**: a record of a function that cannot be shown, a record of a graph whose function is known and that cannot be
shown, the loop, or a block. A record of a graph whose function is not known never ends the run. -/
theorem dies_reason {R : Reader} {delta : Int} {limit : BitVec 64} {evs : List (List Byte × Ln.Clock)} (h : printed R delta limit evs = none) :
    (∃ x ∈ evs, (∃ f, recOf R 0 x.1 = .func f) ∧ text R x.1 none x.2 = none) ∨
    (∃ x ∈ evs, (∃ a b c d, recOf R 0 x.1 = .graph true a b c d) ∧ graphText R x.1 0 0 = none) ∨
    Run.run delta limit (recs R 0 evs) = none ∨
    ∃ bs s, Run.run delta limit (recs R 0 evs) = some (bs, s) ∧ blocks R evs bs = none := by
  unfold printed at h
  split at h
  · next hall =>
    simp only [Bool.not_eq_eq_eq_not, Bool.not_true, List.all_eq_false] at hall
    obtain ⟨x, hx, hs⟩ := hall
    unfold shows at hs
    split at hs
    · next f hf =>
      refine .inl ⟨x, hx, ⟨f, hf⟩, ?_⟩
      cases ht : text R x.1 none x.2 with
      | none => rfl
      | some t => simp [ht] at hs
    · next known a b c d hg =>
      refine .inr (.inl ⟨x, hx, ?_⟩)
      cases known with
      | false => simp at hs
      | true =>
        refine ⟨⟨a, b, c, d, hg⟩, ?_⟩
        simpa using hs
    · simp at hs
  · split at h
    · next hr => exact .inr (.inr (.inl hr))
    · next bs s hr => exact .inr (.inr (.inr ⟨bs, s, hr, h⟩))

end Bpfsnoop.Wh
