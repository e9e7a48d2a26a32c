import Verif.Model.Flame
/-
C27: flame graph counts are conserved.
-/
namespace Bpfsnoop.Flame

/-! ## Specification -/

/-- Total value added for exactly the stack `p` (specification). -/
def added (p : List String) (ss : List (List String × Int)) : Int :=
  (ss.map (fun s => if s.1 = p then s.2 else 0)).sum

/-! ## Proof -/

mutual
/-- No frame below is called "root". -/
def NrF : Frame → Prop
  | .mk n _ cs => n ≠ "root" ∧ NrL cs
def NrL : List Frame → Prop
  | [] => True
  | c :: cs => NrF c ∧ NrL cs
end

mutual
/-- A frame's value covers its children, whose names are distinct. -/
def WfF : Frame → Prop
  | .mk _ v cs => (cs.map Frame.value).sum ≤ v ∧ WfL cs
def WfL : List Frame → Prop
  | [] => True
  | c :: cs => 0 < c.value ∧ WfF c ∧ (∀ d ∈ cs, d.name ≠ c.name) ∧ WfL cs
end

mutual
def selfF : Frame → List String → Int
  | .mk _ _ _, [] => 0
  | .mk n v cs, f :: rest =>
    if n = f then (if rest = [] then v - (cs.map Frame.value).sum else selfL cs rest) else 0
def selfL : List Frame → List String → Int
  | [], _ => 0
  | c :: cs, p => selfF c p + selfL cs p
end

theorem selfL_nil_path (cs : List Frame) : selfL cs [] = 0 := by
  induction cs with
  | nil => rfl
  | cons c cs ih => cases c; simp [selfL, selfF, ih]

theorem selfL_append (a b : List Frame) (p) : selfL (a ++ b) p = selfL a p + selfL b p := by
  induction a with
  | nil => simp [selfL]
  | cons c cs ih => simp [selfL, ih]; omega

theorem sum_modifyFirst (f : String) (v : Int) (g : Frame → Frame) (hg : ∀ c, (g c).value = c.value + v) :
    ∀ cs : List Frame, cs.any (fun c => c.name == f) = true →
      ((modifyFirst f g cs).map Frame.value).sum = (cs.map Frame.value).sum + v := by
  intro cs
  induction cs with
  | nil => simp
  | cons c cs ih =>
    intro h
    unfold modifyFirst
    split
    · simp [hg]; omega
    · next hne =>
      simp [hne] at h
      simp only [List.map_cons, List.sum_cons]
      rw [ih (by simpa using h)]; omega

theorem insert_sum (v : Int) (f : String) (rest) (cs : List Frame) :
    ((insert v (f :: rest) cs).map Frame.value).sum = (cs.map Frame.value).sum + v := by
  unfold insert
  split
  · next h => exact sum_modifyFirst f v _ (fun c => rfl) cs h
  · simp [Frame.value]

theorem insert_self (v : Int) : ∀ (s : List String), s ≠ [] → ∀ (cs : List Frame) (p : List String),
    selfL (insert v s cs) p = selfL cs p + (if s = p then v else 0) := by
  intro s
  induction s with
  | nil => intro h; exact absurd rfl h
  | cons f rest ih =>
    intro _ cs p
    have child : ∀ (c : Frame), c.name = f →
        selfF (.mk c.name (c.value + v) (insert v rest c.children)) p =
          selfF c p + (if f :: rest = p then v else 0) := by
      intro c hc
      obtain ⟨n, cv, ccs⟩ := c
      simp only [Frame.name] at hc; subst hc
      simp only [Frame.name, Frame.value, Frame.children]
      cases p with
      | nil => simp [selfF]
      | cons q qs =>
        simp only [selfF]
        by_cases hq : n = q
        · subst hq
          simp only [if_true]
          cases rest with
          | nil =>
            simp only [insert]
            by_cases hqs : qs = []
            · subst hqs; simp; omega
            · have : ¬ ([n] = n :: qs) := by intro h; injection h with _ h; exact hqs h.symm
              rw [if_neg hqs, if_neg this]; simp [hqs]
          | cons r rs =>
            by_cases hqs : qs = []
            · subst hqs
              simp only [if_true]
              rw [insert_sum]; simp; omega
            · rw [if_neg hqs, if_neg hqs, ih (by simp)]
              congr 1
              by_cases h2 : r :: rs = qs <;> simp [h2]
        · rw [if_neg hq, if_neg hq]
          have : ¬ (n :: rest = q :: qs) := by intro h; injection h with h _; exact hq h
          simp [this]
    unfold insert
    split
    · next hany =>
      clear ih
      induction cs with
      | nil => simp at hany
      | cons c cs ihc =>
        unfold modifyFirst
        by_cases hc : c.name = f
        · rw [if_pos hc]; simp only [selfL]; rw [child c hc]; omega
        · rw [if_neg hc]; simp only [selfL]
          rw [ihc (by simpa [hc] using hany)]; omega
    · rw [selfL_append]
      congr 1
      have := child (.mk f 0 []) rfl
      simp only [Frame.name, Frame.value, Frame.children, Int.zero_add] at this
      simp only [selfL]
      rw [this]
      cases p with
      | nil => simp [selfF]
      | cons q qs => simp [selfF, selfL]

theorem wfL_mem (cs : List Frame) (h : WfL cs) : ∀ c ∈ cs, 0 < c.value ∧ WfF c := by
  induction cs with
  | nil => simp
  | cons c cs ih =>
    intro d hd
    rcases List.mem_cons.1 hd with h1 | h1
    · subst h1; exact ⟨h.1, h.2.1⟩
    · exact ih h.2.2.2 d h1

theorem modifyFirst_names (f) (g : Frame → Frame) (hg : ∀ c, (g c).name = c.name) (cs : List Frame) :
    (modifyFirst f g cs).map Frame.name = cs.map Frame.name := by
  induction cs with
  | nil => rfl
  | cons c cs ih => unfold modifyFirst; split <;> simp [hg, ih]

theorem wfL_iff (cs : List Frame) :
    WfL cs ↔ (∀ c ∈ cs, 0 < c.value ∧ WfF c) ∧ (cs.map Frame.name).Nodup := by
  induction cs with
  | nil => simp [WfL]
  | cons c cs ih =>
    simp only [WfL, ih, List.map_cons, List.nodup_cons, List.mem_cons, List.mem_map]
    constructor
    · rintro ⟨a, b, d, e, g⟩
      refine ⟨?_, ?_, g⟩
      · rintro x (rfl | hx)
        · exact ⟨a, b⟩
        · exact e x hx
      · rintro ⟨x, hx, hn⟩; exact d x hx hn
    · rintro ⟨a, b, g⟩
      refine ⟨(a c (.inl rfl)).1, (a c (.inl rfl)).2, ?_, fun x hx => a x (.inr hx), g⟩
      intro x hx hn; exact b ⟨x, hx, hn⟩

theorem modifyFirst_mem (f) (g : Frame → Frame) (cs : List Frame) :
    ∀ d ∈ modifyFirst f g cs, d ∈ cs ∨ ∃ c ∈ cs, c.name = f ∧ d = g c := by
  induction cs with
  | nil => simp [modifyFirst]
  | cons c cs ih =>
    intro d hd
    unfold modifyFirst at hd
    split at hd
    · next h =>
      rcases List.mem_cons.1 hd with h1 | h1
      · exact .inr ⟨c, List.mem_cons_self, h, h1⟩
      · exact .inl (List.mem_cons_of_mem _ h1)
    · rcases List.mem_cons.1 hd with h1 | h1
      · exact .inl (h1 ▸ List.mem_cons_self)
      · rcases ih d h1 with h2 | ⟨e, he, h3⟩
        · exact .inl (List.mem_cons_of_mem _ h2)
        · exact .inr ⟨e, List.mem_cons_of_mem _ he, h3⟩

theorem insert_wf (v : Int) (hv : 0 < v) : ∀ (s : List String) (cs : List Frame), WfL cs → WfL (insert v s cs) := by
  intro s
  induction s with
  | nil => intro cs h; exact h
  | cons f rest ih =>
    intro cs h
    have childSum : ∀ ccs : List Frame, ((insert v rest ccs).map Frame.value).sum ≤ (ccs.map Frame.value).sum + v := by
      intro ccs
      cases rest with
      | nil => simp [insert]; omega
      | cons r rs => rw [insert_sum]; omega
    rw [wfL_iff] at h
    rw [wfL_iff]
    unfold insert
    split
    · constructor
      · intro d hd
        rcases modifyFirst_mem _ _ _ d hd with h1 | ⟨c, hc, -, rfl⟩
        · exact h.1 d h1
        · obtain ⟨h1, h2⟩ := h.1 c hc
          obtain ⟨n, cv, ccs⟩ := c
          refine ⟨by simp only [Frame.value] at h1 ⊢; omega, ?_⟩
          simp only [WfF, Frame.value, Frame.children] at h2 ⊢
          exact ⟨by have := childSum ccs; omega, ih _ h2.2⟩
      · rw [modifyFirst_names f _ (by intro c; rfl)]; exact h.2
    · next hnone =>
      constructor
      · intro d hd
        rcases List.mem_append.1 hd with h1 | h1
        · exact h.1 d h1
        · simp at h1; subst h1
          refine ⟨hv, ?_⟩
          simp only [WfF]
          exact ⟨by have := childSum []; simpa using this, ih [] (by simp [WfL])⟩
      · rw [List.map_append, List.nodup_append]
        refine ⟨h.2, by simp, ?_⟩
        intro a ha b hb hab
        simp [Frame.name] at hb; subst hb; subst hab
        simp only [List.mem_map] at ha
        obtain ⟨c, hc, hn⟩ := ha
        apply hnone
        simp only [List.any_eq_true, beq_iff_eq]
        exact ⟨c, hc, hn⟩

theorem nrL_iff (cs : List Frame) : NrL cs ↔ ∀ c ∈ cs, NrF c := by
  induction cs with
  | nil => simp [NrL]
  | cons c cs ih => simp [NrL, ih]

theorem insert_nr (v : Int) : ∀ (s : List String), (∀ x ∈ s, x ≠ "root") → ∀ (cs : List Frame), NrL cs →
    NrL (insert v s cs) := by
  intro s
  induction s with
  | nil => intro _ cs h; exact h
  | cons f rest ih =>
    intro hs cs h
    have hrest : ∀ x ∈ rest, x ≠ "root" := fun x hx => hs x (List.mem_cons_of_mem _ hx)
    rw [nrL_iff] at h ⊢
    unfold insert
    split
    · intro d hd
      rcases modifyFirst_mem _ _ _ d hd with h1 | ⟨c, hc, -, rfl⟩
      · exact h d h1
      · have := h c hc
        obtain ⟨n, cv, ccs⟩ := c
        simp only [NrF, Frame.name, Frame.children] at this ⊢
        exact ⟨this.1, ih hrest _ this.2⟩
    · intro d hd
      rcases List.mem_append.1 hd with h1 | h1
      · exact h d h1
      · simp at h1; subst h1
        simp only [NrF]
        exact ⟨hs f List.mem_cons_self, ih hrest [] (by simp [NrL])⟩

theorem selfF_head (c : Frame) (p : List String) (h : selfF c p ≠ 0) : ∃ rest, p = c.name :: rest := by
  obtain ⟨n, v, cs⟩ := c
  cases p with
  | nil => simp [selfF] at h
  | cons f rest =>
    simp only [selfF] at h
    by_cases hn : n = f
    · exact ⟨rest, by simp [Frame.name, hn]⟩
    · simp [hn] at h

theorem selfL_head (cs : List Frame) (p : List String) (h : selfL cs p ≠ 0) :
    ∃ c ∈ cs, ∃ rest, p = c.name :: rest := by
  induction cs with
  | nil => simp [selfL] at h
  | cons c cs ih =>
    simp only [selfL] at h
    by_cases hc : selfF c p = 0
    · obtain ⟨d, hd, r⟩ := ih (by omega)
      exact ⟨d, List.mem_cons_of_mem _ hd, r⟩
    · obtain ⟨r, hr⟩ := selfF_head c p hc
      exact ⟨c, List.mem_cons_self, r, hr⟩

mutual
theorem mem_traverse : ∀ (c : Frame), WfF c → NrF c → ∀ (path P : List String) (n : Int),
    (P, n) ∈ traverse c path ↔ ∃ q, P = path ++ q ∧ selfF c q = n ∧ 0 < n
  | .mk name v cs, hw, hr, path, P, n => by
    have ih := mem_traverseList cs hw.2 hr.2 (path ++ [name]) P n
    simp only [traverse, if_pos hr.1, List.mem_append]
    rw [ih]
    constructor
    · rintro (h | ⟨q, h1, h2, h3⟩)
      · split at h
        · simp only [List.mem_singleton, Prod.mk.injEq] at h
          refine ⟨[name], h.1, ?_, by omega⟩
          simp [selfF]; omega
        · simp at h
      · refine ⟨name :: q, by simpa using h1, ?_, h3⟩
        have hq : q ≠ [] := by rintro rfl; rw [selfL_nil_path] at h2; omega
        simp [selfF, hq, h2]
    · rintro ⟨q, h1, h2, h3⟩
      obtain ⟨rest, rfl⟩ := selfF_head (.mk name v cs) q (by omega)
      simp only [Frame.name] at h1 h2
      simp only [selfF, if_true] at h2
      by_cases hq : rest = []
      · subst hq
        rw [if_pos rfl] at h2
        left
        rw [if_pos (by omega)]
        simp [h1, h2]
      · rw [if_neg hq] at h2
        right; exact ⟨rest, by simpa using h1, h2, h3⟩

theorem mem_traverseList : ∀ (cs : List Frame), WfL cs → NrL cs → ∀ (path P : List String) (n : Int),
    (P, n) ∈ traverseList cs path ↔ ∃ q, P = path ++ q ∧ selfL cs q = n ∧ 0 < n
  | [], _, _, path, P, n => by
    simp only [traverseList, selfL, List.not_mem_nil, false_iff]
    rintro ⟨q, -, h, h3⟩; omega
  | c :: cs, hw, hr, path, P, n => by
    have ih1 := mem_traverse c hw.2.1 hr.1 path P n
    have ih2 := mem_traverseList cs hw.2.2.2 hr.2 path P n
    simp only [traverseList, List.mem_append, ih1, ih2, selfL]
    have disj : ∀ q, selfF c q = 0 ∨ selfL cs q = 0 := by
      intro q
      by_cases h1 : selfF c q = 0
      · exact .inl h1
      · right
        obtain ⟨r, hr⟩ := selfF_head c q h1
        apply Classical.byContradiction
        intro h2
        obtain ⟨d, hd, r', hr'⟩ := selfL_head cs q h2
        rw [hr] at hr'; injection hr' with e _
        exact hw.2.2.1 d hd e.symm
    constructor
    · rintro (⟨q, h1, h2, h3⟩ | ⟨q, h1, h2, h3⟩)
      · refine ⟨q, h1, ?_, h3⟩
        rcases disj q with h | h <;> omega
      · refine ⟨q, h1, ?_, h3⟩
        rcases disj q with h | h <;> omega
    · rintro ⟨q, h1, h2, h3⟩
      rcases disj q with h | h
      · exact .inr ⟨q, h1, by omega, h3⟩
      · exact .inl ⟨q, h1, by omega, h3⟩
end

mutual
theorem nodup_traverse : ∀ (c : Frame), WfF c → NrF c → ∀ (path : List String),
    ((traverse c path).map Prod.fst).Nodup
  | .mk name v cs, hw, hr, path => by
    have ih := nodup_traverseList cs hw.2 hr.2 (path ++ [name])
    simp only [traverse, if_pos hr.1, List.map_append]
    rw [List.nodup_append]
    refine ⟨by split <;> simp, ih, ?_⟩
    intro a ha b hb hab
    split at ha
    · simp only [List.map_cons, List.map_nil, List.mem_singleton] at ha
      subst hab; subst ha
      obtain ⟨⟨P, n⟩, hm, hP⟩ := List.mem_map.1 hb
      simp only at hP; subst hP
      obtain ⟨q, h1, h2, h3⟩ := (mem_traverseList cs hw.2 hr.2 _ _ _).1 hm
      have hq : q = [] := by
        have := congrArg List.length h1
        simp at this; exact List.length_eq_zero_iff.1 (by simpa using this)
      subst hq; rw [selfL_nil_path] at h2; omega
    · simp at ha

theorem nodup_traverseList : ∀ (cs : List Frame), WfL cs → NrL cs → ∀ (path : List String),
    ((traverseList cs path).map Prod.fst).Nodup
  | [], _, _, path => by simp [traverseList]
  | c :: cs, hw, hr, path => by
    have ih1 := nodup_traverse c hw.2.1 hr.1 path
    have ih2 := nodup_traverseList cs hw.2.2.2 hr.2 path
    simp only [traverseList, List.map_append]
    rw [List.nodup_append]
    refine ⟨ih1, ih2, ?_⟩
    intro a ha b hb hab
    subst hab
    obtain ⟨⟨P, n⟩, hm, hP⟩ := List.mem_map.1 ha
    obtain ⟨⟨P', n'⟩, hm', hP'⟩ := List.mem_map.1 hb
    simp only at hP hP'; subst hP; subst hP'
    obtain ⟨q, h1, h2, h3⟩ := (mem_traverse c hw.2.1 hr.1 _ _ _).1 hm
    obtain ⟨q', h1', h2', h3'⟩ := (mem_traverseList cs hw.2.2.2 hr.2 _ _ _).1 hm'
    have hqq : q = q' := by rw [h1] at h1'; exact List.append_cancel_left h1'
    subst hqq
    obtain ⟨r, e⟩ := selfF_head c q (by omega)
    obtain ⟨d, hd, r', e'⟩ := selfL_head cs q (by omega)
    rw [e] at e'; injection e' with e'' _
    exact hw.2.2.1 d hd e''.symm
end

/-- Invariant of the graph after adding `ss`. -/
structure GInv (g : Graph) (ss : List (List String × Int)) : Prop where
  name : g.root.name = "root"
  wf : WfL g.root.children
  nr : NrL g.root.children
  self : ∀ p, p ≠ [] → selfL g.root.children p = added p ss
  tot : g.total = ((ss.filter (fun s => s.1 ≠ [])).map Prod.snd).sum

theorem addAll_inv (ss : List (List String × Int)) :
    ∀ (g : Graph) (pre : List (List String × Int)), GInv g pre →
      (∀ s ∈ ss, 0 < s.2) → (∀ s ∈ ss, "root" ∉ s.1) → GInv (addAll g ss) (pre ++ ss) := by
  induction ss with
  | nil => intro g pre h _ _; simpa [addAll] using h
  | cons s ss ih =>
    intro g pre h hpos hroot
    have h1 := hpos s List.mem_cons_self
    have h2 := hroot s List.mem_cons_self
    have step : GInv (g.addStack s.1 s.2) (pre ++ [s]) := by
      unfold Graph.addStack
      split
      · next he =>
        refine ⟨h.name, h.wf, h.nr, ?_, ?_⟩
        · intro p hp
          have : ¬ s.1 = p := fun e => hp (by rw [← e, he])
          rw [h.self p hp]; simp [added, this]
        · simp [h.tot, List.filter_append, he]
      · next he =>
        refine ⟨h.name, ?_, ?_, ?_, ?_⟩
        · exact insert_wf _ h1 _ _ h.wf
        · exact insert_nr _ _ (fun x hx e => h2 (e ▸ hx)) _ h.nr
        · intro p hp
          show selfL (insert s.2 s.1 g.root.children) p = _
          rw [insert_self _ _ he, h.self p hp]
          simp [added]
        · show g.total + s.2 = _
          simp [h.tot, List.filter_append, he]
    have := ih _ _ step (fun x hx => hpos x (List.mem_cons_of_mem _ hx))
      (fun x hx => hroot x (List.mem_cons_of_mem _ hx))
    simpa [addAll] using this

theorem newGraph_inv : GInv newGraph [] := by
  refine ⟨rfl, ?_, ?_, ?_, rfl⟩
  · simp [newGraph, Frame.children, WfL]
  · simp [newGraph, Frame.children, NrL]
  · intro p _; simp [newGraph, Frame.children, selfL, added]

/-- C27 (partial: no frame is called "root"). For every sequence of stacks added with positive values: the
folded output has a line `p n` exactly when `n > 0` is the total value added for the non-empty stack `p`;
no stack is listed twice; and the total is the sum of the values of all non-empty stacks. -/
theorem folded_exact_partial (ss : List (List String × Int)) (hpos : ∀ s ∈ ss, 0 < s.2)
    (hroot : ∀ s ∈ ss, "root" ∉ s.1) :
    (∀ p n, (p, n) ∈ (addAll newGraph ss).folded ↔ (p ≠ [] ∧ n = added p ss ∧ 0 < n)) ∧
    (((addAll newGraph ss).folded).map Prod.fst).Nodup ∧
    (addAll newGraph ss).total = ((ss.filter (fun s => s.1 ≠ [])).map Prod.snd).sum := by
  have inv : GInv (addAll newGraph ss) ss := by
    have := addAll_inv ss newGraph [] newGraph_inv hpos hroot
    simpa using this
  have hf : (addAll newGraph ss).folded = traverseList (addAll newGraph ss).root.children [] := by
    unfold Graph.folded
    have hn := inv.name
    cases hr : (addAll newGraph ss).root with
    | mk n v cs =>
      rw [hr] at hn; simp only [Frame.name] at hn; subst hn
      simp [traverse, Frame.children]
  refine ⟨?_, ?_, inv.tot⟩
  · intro p n
    rw [hf, mem_traverseList _ inv.wf inv.nr]
    simp only [List.nil_append]
    constructor
    · rintro ⟨q, rfl, h2, h3⟩
      have hq : p ≠ [] := by rintro rfl; rw [selfL_nil_path] at h2; omega
      exact ⟨hq, by rw [← h2, inv.self p hq], h3⟩
    · rintro ⟨h1, h2, h3⟩
      exact ⟨p, rfl, by rw [inv.self p h1, h2], h3⟩
  · rw [hf]; exact nodup_traverseList _ inv.wf inv.nr []

-- the hypotheses are met by an ordinary run, and the output is the expected one
example : (addAll newGraph [(["main", "f"], 1), (["main", "g"], 1), (["main", "f"], 1), (["main"], 1)]).folded =
    [(["main"], 1), (["main", "f"], 2), (["main", "g"], 1)] := by
  simp [addAll, newGraph, Graph.addStack, Graph.folded, insert, modifyFirst, traverse, traverseList,
    Frame.name, Frame.value, Frame.children]

/-- C27 violated: a sampled function called "root" disappears from the output (its samples are dropped, its
callees lose that frame). -/
theorem folded_root_violated :
    (addAll newGraph [(["root"], 1), (["root", "f"], 1)]).folded = [(["f"], 1)] := by
  simp [addAll, newGraph, Graph.addStack, Graph.folded, insert, modifyFirst, traverse, traverseList,
    Frame.name, Frame.value, Frame.children]

end Bpfsnoop.Flame
