import Verif.Props.Flags

/-! Which bpf programs are traced (C47). -/
namespace Bpfsnoop.Flg

/-! ### Specification -/

/-- Specification: the selector selects this program. -/
def Selects (s : Sys) (f : ProgFlag) (p : Prog) : Prop :=
  match f.sel with
  | .all => p.hasBtf = true
  | .id n => p.id = n
  | .tag t => p.hasBtf = true ∧ p.tag = t
  | .name n => p.hasBtf = true ∧ p.entry = some n
  | .pinned path => s.pinned path = some p.id
  | .pid n => p.id ∈ s.fds n

/-- Specification: the function of the program that the selector names; the entry function by default. -/
def Names (f : ProgFlag) (p : Prog) (func : Str) : Prop :=
  if f.sel = .all ∨ f.imm.funcName = [] then p.entry = some func else func = f.imm.funcName

/-- Specification: the same options but for packet output. -/
def SameButPkt (a b : Imm) : Prop :=
  a.graph = b.graph ∧ a.stack = b.stack ∧ a.lbr = b.lbr ∧ a.both = b.both

/-! ### Folds -/

theorem foldO_ind {α : Type} {f : α → List Tracing → Option (List Tracing)} (P : List Tracing → Prop) :
    ∀ (as : List α) (ts ts' : List Tracing), (∀ a ∈ as, ∀ u u', P u → f a u = some u' → P u') → P ts →
      foldO f as ts = some ts' → P ts' := by
  intro as
  induction as with
  | nil => intro ts ts' _ h he; cases he; exact h
  | cons a as ih =>
    intro ts ts' hstep h he
    simp only [foldO] at he
    cases hf : f a ts with
    | none => simp only [hf] at he; cases he
    | some u =>
      simp only [hf] at he
      exact ih u ts' (fun b hb => hstep b (by simp [hb])) (hstep a (by simp) ts u h hf) he

/-- The fold only adds, if every step does. -/
theorem foldO_hit {α : Type} {f : α → List Tracing → Option (List Tracing)}
    (hmono : ∀ a u u', f a u = some u' → ∀ t ∈ u, t ∈ u') :
    ∀ (as : List α) (ts ts' : List Tracing) (a : α), a ∈ as → foldO f as ts = some ts' →
      ∃ u u', f a u = some u' ∧ (∀ t ∈ u', t ∈ ts') := by
  intro as
  induction as with
  | nil => intro ts ts' a ha; cases ha
  | cons b as ih =>
    intro ts ts' a ha he
    simp only [foldO] at he
    cases hf : f b ts with
    | none => simp only [hf] at he; cases he
    | some u =>
      simp only [hf] at he
      rcases List.mem_cons.1 ha with rfl | ha
      · refine ⟨ts, u, hf, ?_⟩
        intro t ht
        exact foldO_ind (fun v => t ∈ v) as u ts' (fun b _ v v' hv hb => hmono b v v' hb t hv) ht he
      · exact ih u ts' a ha he

theorem addTracing_mono {p : Prog} {func : Str} {imm : Imm} {u u' : List Tracing} (h : addTracing p func imm u = some u') :
    ∀ t ∈ u, t ∈ u' := by
  unfold addTracing at h
  split at h
  · cases h; exact fun t ht => ht
  · split at h
    · cases h; exact fun t ht => ht
    · split at h
      · cases h; exact fun t ht => List.mem_append_left _ ht
      · cases h

theorem addTracing_new {p : Prog} {func : Str} {imm : Imm} {u u' : List Tracing} (h : addTracing p func imm u = some u') :
    ∀ t ∈ u', t ∈ u ∨ (t = ⟨p.id, func, imm⟩ ∧ p.ok = true ∧ p.funcs.contains func = true) := by
  unfold addTracing at h
  split at h
  · cases h; exact fun t ht => Or.inl ht
  · next hok =>
    split at h
    · cases h; exact fun t ht => Or.inl ht
    · split at h
      · next hfn =>
        cases h
        intro t ht
        rcases List.mem_append.1 ht with ht | ht
        · exact Or.inl ht
        · exact Or.inr ⟨by simpa using ht, by simpa using hok, hfn⟩
      · cases h

theorem addTracing_there {p : Prog} {func : Str} {imm : Imm} {u u' : List Tracing} (h : addTracing p func imm u = some u')
    (hok : p.ok = true) : ∃ t ∈ u', t.id = p.id ∧ t.func = func := by
  unfold addTracing at h
  simp only [hok, Bool.not_true, Bool.false_eq_true, if_false] at h
  split at h
  · next ha =>
    cases h
    obtain ⟨t, ht, he⟩ := List.any_eq_true.1 ha
    exact ⟨t, ht, by simpa using he⟩
  · split at h
    · cases h
      exact ⟨⟨p.id, func, imm⟩, by simp, rfl, rfl⟩
    · cases h

theorem Sys.find_mem {s : Sys} {id : BitVec 32} {p : Prog} (h : s.find id = some p) : p ∈ s.progs ∧ p.id = id := by
  refine ⟨List.mem_of_find?_eq_some h, ?_⟩
  have := List.find?_some h
  simpa using this

theorem Sys.find_unique {s : Sys} (hu : (s.progs.map Prog.id).Nodup) {p : Prog} (hp : p ∈ s.progs) : s.find p.id = some p := by
  unfold Sys.find
  generalize s.progs = l at *
  induction l with
  | nil => cases hp
  | cons q l ih =>
    rw [List.find?_cons]
    simp only [List.map_cons, List.nodup_cons] at hu
    rcases List.mem_cons.1 hp with rfl | hp
    · simp
    · have : q.id ≠ p.id := by
        intro he
        exact hu.1 (he ▸ List.mem_map.2 ⟨p, hp, rfl⟩)
      simp only [this, decide_false]
      exact ih hu.2 hp

theorem addByID_new {s : Sys} {id : BitVec 32} {imm : Imm} {u u' : List Tracing} (h : addByID s id imm u = some u') :
    ∀ t ∈ u', t ∈ u ∨ ∃ p ∈ s.progs, p.id = id ∧ t.id = id ∧ funcOf p imm = some t.func ∧ t.imm = imm ∧ p.ok = true ∧
      p.funcs.contains t.func = true := by
  unfold addByID at h
  cases hf : s.find id with
  | none => simp only [hf] at h; cases h
  | some p =>
    simp only [hf] at h
    cases hn : funcOf p imm with
    | none => simp only [hn] at h; cases h
    | some f =>
      simp only [hn] at h
      intro t ht
      obtain ⟨hm, hid⟩ := Sys.find_mem hf
      rcases addTracing_new h t ht with ht | ⟨rfl, hok, hfn⟩
      · exact Or.inl ht
      · exact Or.inr ⟨p, hm, hid, hid, hn, rfl, hok, hfn⟩

theorem addByID_mono {s : Sys} {id : BitVec 32} {imm : Imm} {u u' : List Tracing} (h : addByID s id imm u = some u') :
    ∀ t ∈ u, t ∈ u' := by
  unfold addByID at h
  cases hf : s.find id with
  | none => simp only [hf] at h; cases h
  | some p =>
    simp only [hf] at h
    cases hn : funcOf p imm with
    | none => simp only [hn] at h; cases h
    | some f => simp only [hn] at h; exact addTracing_mono h

theorem addByID_there {s : Sys} (hu : (s.progs.map Prog.id).Nodup) {p : Prog} (hp : p ∈ s.progs) {imm : Imm}
    {u u' : List Tracing} (h : addByID s p.id imm u = some u') (hok : p.ok = true) :
    ∃ func, funcOf p imm = some func ∧ ∃ t ∈ u', t.id = p.id ∧ t.func = func := by
  unfold addByID at h
  rw [Sys.find_unique hu hp] at h
  simp only [] at h
  cases hn : funcOf p imm with
  | none => simp only [hn] at h; cases h
  | some f =>
    simp only [hn] at h
    exact ⟨f, rfl, addTracing_there h hok⟩

theorem funcOf_names {f : ProgFlag} {p : Prog} {func : Str} (hsel : f.sel ≠ .all) (h : funcOf p f.imm = some func) :
    Names f p func := by
  unfold funcOf at h
  unfold Names
  simp only [hsel, false_or]
  by_cases he : f.imm.funcName = []
  · simp only [he, List.isEmpty_nil, if_true] at h
    simp only [he, if_true]
    split at h
    · exact h
    · cases h
  · simp only [List.isEmpty_iff, he, if_false] at h
    simp only [he, if_false]
    exact (Option.some.inj h).symm

/-! ### The tables of `newProgFlags` -/

theorem newProgFlags_sound (fs : List ProgFlag) : ∀ pf : ProgFlags,
    (∀ n i, (n, i) ∈ (newProgFlags pf fs).ids → (n, i) ∈ pf.ids ∨ ∃ f ∈ fs, f.sel = .id n ∧ i = copyImm f.imm) ∧
    (∀ n i, (n, i) ∈ (newProgFlags pf fs).tags → (n, i) ∈ pf.tags ∨ ∃ f ∈ fs, f.sel = .tag n ∧ i = copyImm f.imm) ∧
    (∀ n i, (n, i) ∈ (newProgFlags pf fs).names → (n, i) ∈ pf.names ∨ ∃ f ∈ fs, f.sel = .name n ∧ i = copyImm f.imm) ∧
    ((newProgFlags pf fs).all = true → pf.all = true ∨ ∃ f ∈ fs, f.sel = .all ∧ (newProgFlags pf fs).flag = copyImm f.imm) := by
  induction fs with
  | nil =>
    intro pf
    simp only [newProgFlags]
    exact ⟨fun _ _ h => Or.inl h, fun _ _ h => Or.inl h, fun _ _ h => Or.inl h, fun h => Or.inl h⟩
  | cons f fs ih =>
    intro pf
    have lift : ∀ {P : ProgFlag → Prop}, (∃ g ∈ fs, P g) → ∃ g ∈ f :: fs, P g :=
      fun ⟨g, hg, hp⟩ => ⟨g, List.mem_cons_of_mem _ hg, hp⟩
    cases hs : f.sel with
    | all =>
      simp only [newProgFlags, hs]
      exact ⟨fun _ _ h => Or.inl h, fun _ _ h => Or.inl h, fun _ _ h => Or.inl h,
        fun _ => Or.inr ⟨f, by simp, hs, rfl⟩⟩
    | id n =>
      simp only [newProgFlags, hs]
      obtain ⟨h1, h2, h3, h4⟩ := ih { pf with ids := (n, copyImm f.imm) :: pf.ids }
      refine ⟨fun m i hm => ?_, fun m i hm => (h2 m i hm).imp id lift, fun m i hm => (h3 m i hm).imp id lift,
        fun hm => (h4 hm).imp id lift⟩
      rcases h1 m i hm with hm | hm
      · rcases List.mem_cons.1 hm with he | hm
        · cases he; exact Or.inr ⟨f, by simp, hs, rfl⟩
        · exact Or.inl hm
      · exact Or.inr (lift hm)
    | tag n =>
      simp only [newProgFlags, hs]
      obtain ⟨h1, h2, h3, h4⟩ := ih { pf with tags := (n, copyImm f.imm) :: pf.tags }
      refine ⟨fun m i hm => (h1 m i hm).imp id lift, fun m i hm => ?_, fun m i hm => (h3 m i hm).imp id lift,
        fun hm => (h4 hm).imp id lift⟩
      rcases h2 m i hm with hm | hm
      · rcases List.mem_cons.1 hm with he | hm
        · cases he; exact Or.inr ⟨f, by simp, hs, rfl⟩
        · exact Or.inl hm
      · exact Or.inr (lift hm)
    | name n =>
      simp only [newProgFlags, hs]
      obtain ⟨h1, h2, h3, h4⟩ := ih { pf with names := (n, copyImm f.imm) :: pf.names }
      refine ⟨fun m i hm => (h1 m i hm).imp id lift, fun m i hm => (h2 m i hm).imp id lift, fun m i hm => ?_,
        fun hm => (h4 hm).imp id lift⟩
      rcases h3 m i hm with hm | hm
      · rcases List.mem_cons.1 hm with he | hm
        · cases he; exact Or.inr ⟨f, by simp, hs, rfl⟩
        · exact Or.inl hm
      · exact Or.inr (lift hm)
    | pinned n =>
      simp only [newProgFlags, hs]
      obtain ⟨h1, h2, h3, h4⟩ := ih { pf with pinned := (n, copyImm f.imm) :: pf.pinned }
      exact ⟨fun m i hm => (h1 m i hm).imp id lift, fun m i hm => (h2 m i hm).imp id lift,
        fun m i hm => (h3 m i hm).imp id lift, fun hm => (h4 hm).imp id lift⟩
    | pid n =>
      simp only [newProgFlags, hs]
      obtain ⟨h1, h2, h3, h4⟩ := ih { pf with pids := (n, copyImm f.imm) :: pf.pids }
      exact ⟨fun m i hm => (h1 m i hm).imp id lift, fun m i hm => (h2 m i hm).imp id lift,
        fun m i hm => (h3 m i hm).imp id lift, fun hm => (h4 hm).imp id lift⟩

/-- With a `*` in the list the table says so. -/
theorem newProgFlags_all (fs : List ProgFlag) : ∀ pf : ProgFlags, (∃ f ∈ fs, f.sel = .all) → (newProgFlags pf fs).all = true := by
  induction fs with
  | nil => rintro pf ⟨f, hf, _⟩; cases hf
  | cons g fs ih =>
    rintro pf ⟨f, hf, hs⟩
    cases hg : g.sel with
    | all => simp only [newProgFlags, hg]
    | _ =>
      have : ∃ f ∈ fs, f.sel = .all := by
        rcases List.mem_cons.1 hf with rfl | hf
        · rw [hg] at hs; cases hs
        · exact ⟨f, hf, hs⟩
      simp only [newProgFlags, hg]
      exact ih _ this

theorem newProgFlags_append (a b : List ProgFlag) : ∀ pf : ProgFlags, (∀ f ∈ a, f.sel ≠ .all) →
    newProgFlags pf (a ++ b) = newProgFlags (newProgFlags pf a) b := by
  induction a with
  | nil => intro pf _; rfl
  | cons g a ih =>
    intro pf h
    have h' : ∀ f ∈ a, f.sel ≠ .all := fun f hf => h f (by simp [hf])
    cases hg : g.sel with
    | all => exact absurd hg (h g (by simp))
    | _ => simp only [List.cons_append, newProgFlags, hg]; exact ih _ h'

theorem newProgFlags_noall (fs : List ProgFlag) : ∀ pf : ProgFlags, (∀ f ∈ fs, f.sel ≠ .all) →
    (newProgFlags pf fs).all = pf.all := by
  induction fs with
  | nil => intro pf _; rfl
  | cons g a ih =>
    intro pf h
    have h' : ∀ f ∈ a, f.sel ≠ .all := fun f hf => h f (by simp [hf])
    cases hg : g.sel with
    | all => exact absurd hg (h g (by simp))
    | _ => simp only [newProgFlags, hg]; rw [ih _ h']

/-- Selectors of other kinds or keys do not change a key's entry. -/
theorem newProgFlags_keep (fs : List ProgFlag) : ∀ pf : ProgFlags, (∀ f ∈ fs, f.sel ≠ .all) →
    (∀ n, (∀ f ∈ fs, f.sel ≠ .id n) → (newProgFlags pf fs).ids.lookup n = pf.ids.lookup n) ∧
    (∀ n, (∀ f ∈ fs, f.sel ≠ .tag n) → (newProgFlags pf fs).tags.lookup n = pf.tags.lookup n) ∧
    (∀ n, (∀ f ∈ fs, f.sel ≠ .name n) → (newProgFlags pf fs).names.lookup n = pf.names.lookup n) := by
  induction fs with
  | nil => intro pf _; exact ⟨fun _ _ => rfl, fun _ _ => rfl, fun _ _ => rfl⟩
  | cons g a ih =>
    intro pf h
    have h' : ∀ f ∈ a, f.sel ≠ .all := fun f hf => h f (by simp [hf])
    have sub : ∀ {x : Sel}, (∀ f ∈ g :: a, f.sel ≠ x) → ∀ f ∈ a, f.sel ≠ x := fun hx f hf => hx f (by simp [hf])
    cases hg : g.sel with
    | all => exact absurd hg (h g (by simp))
    | id n =>
      simp only [newProgFlags, hg]
      obtain ⟨h1, h2, h3⟩ := ih { pf with ids := (n, copyImm g.imm) :: pf.ids } h'
      refine ⟨fun m hm => ?_, fun m hm => h2 m (sub hm), fun m hm => h3 m (sub hm)⟩
      rw [h1 m (sub hm)]
      have : m ≠ n := fun he => hm g (by simp) (by rw [hg, he])
      simp only [List.lookup_cons]
      have : (m == n) = false := by simp [this]
      rw [this]
    | tag n =>
      simp only [newProgFlags, hg]
      obtain ⟨h1, h2, h3⟩ := ih { pf with tags := (n, copyImm g.imm) :: pf.tags } h'
      refine ⟨fun m hm => h1 m (sub hm), fun m hm => ?_, fun m hm => h3 m (sub hm)⟩
      rw [h2 m (sub hm)]
      have : m ≠ n := fun he => hm g (by simp) (by rw [hg, he])
      simp only [List.lookup_cons]
      have : (m == n) = false := by simp [this]
      rw [this]
    | name n =>
      simp only [newProgFlags, hg]
      obtain ⟨h1, h2, h3⟩ := ih { pf with names := (n, copyImm g.imm) :: pf.names } h'
      refine ⟨fun m hm => h1 m (sub hm), fun m hm => h2 m (sub hm), fun m hm => ?_⟩
      rw [h3 m (sub hm)]
      have : m ≠ n := fun he => hm g (by simp) (by rw [hg, he])
      simp only [List.lookup_cons]
      have : (m == n) = false := by simp [this]
      rw [this]
    | pinned n =>
      simp only [newProgFlags, hg]
      obtain ⟨h1, h2, h3⟩ := ih { pf with pinned := (n, copyImm g.imm) :: pf.pinned } h'
      exact ⟨fun m hm => h1 m (sub hm), fun m hm => h2 m (sub hm), fun m hm => h3 m (sub hm)⟩
    | pid n =>
      simp only [newProgFlags, hg]
      obtain ⟨h1, h2, h3⟩ := ih { pf with pids := (n, copyImm g.imm) :: pf.pids } h'
      exact ⟨fun m hm => h1 m (sub hm), fun m hm => h2 m (sub hm), fun m hm => h3 m (sub hm)⟩

theorem newProgFlags_grow (fs : List ProgFlag) : ∀ pf : ProgFlags,
    ((newProgFlags pf fs).tags = [] → pf.tags = []) ∧ ((newProgFlags pf fs).names = [] → pf.names = []) ∧
    ((newProgFlags pf fs).pinned = [] → pf.pinned = []) ∧ ((newProgFlags pf fs).pids = [] → pf.pids = []) := by
  induction fs with
  | nil => intro pf; exact ⟨id, id, id, id⟩
  | cons g a ih =>
    intro pf
    cases hg : g.sel with
    | all => simp only [newProgFlags, hg]; exact ⟨id, id, id, id⟩
    | id n => simp only [newProgFlags, hg]; exact ih _
    | tag n =>
      simp only [newProgFlags, hg]
      obtain ⟨h1, h2, h3, h4⟩ := ih { pf with tags := (n, copyImm g.imm) :: pf.tags }
      exact ⟨fun h => absurd (h1 h) (by simp), h2, h3, h4⟩
    | name n =>
      simp only [newProgFlags, hg]
      obtain ⟨h1, h2, h3, h4⟩ := ih { pf with names := (n, copyImm g.imm) :: pf.names }
      exact ⟨h1, fun h => absurd (h2 h) (by simp), h3, h4⟩
    | pinned n =>
      simp only [newProgFlags, hg]
      obtain ⟨h1, h2, h3, h4⟩ := ih { pf with pinned := (n, copyImm g.imm) :: pf.pinned }
      exact ⟨h1, h2, fun h => absurd (h3 h) (by simp), h4⟩
    | pid n =>
      simp only [newProgFlags, hg]
      obtain ⟨h1, h2, h3, h4⟩ := ih { pf with pids := (n, copyImm g.imm) :: pf.pids }
      exact ⟨h1, h2, h3, fun h => absurd (h4 h) (by simp)⟩

theorem allID_sound (fs : List ProgFlag) : ∀ pf : ProgFlags, (newProgFlags pf fs).allID = true → ∀ f ∈ fs, ∃ n, f.sel = .id n := by
  induction fs with
  | nil => intro pf _ f hf; cases hf
  | cons g a ih =>
    intro pf h f hf
    have key : ∀ pf' : ProgFlags, newProgFlags pf (g :: a) = newProgFlags pf' a → (∃ n, g.sel = .id n) → ∃ n, f.sel = .id n := by
      intro pf' he hgn
      rcases List.mem_cons.1 hf with rfl | hf
      · exact hgn
      · exact ih pf' (he ▸ h) f hf
    have parts : (newProgFlags pf (g :: a)).tags = [] ∧ (newProgFlags pf (g :: a)).names = [] ∧
        (newProgFlags pf (g :: a)).pinned = [] ∧ (newProgFlags pf (g :: a)).pids = [] ∧ (newProgFlags pf (g :: a)).all = false := by
      simp only [ProgFlags.allID, Bool.and_eq_true, List.isEmpty_iff, Bool.not_eq_true'] at h
      obtain ⟨⟨⟨⟨⟨_, h1⟩, h2⟩, h3⟩, h4⟩, h5⟩ := h
      exact ⟨h1, h2, h3, h4, h5⟩
    obtain ⟨p1, p2, p3, p4, p5⟩ := parts
    cases hg : g.sel with
    | all => simp only [newProgFlags, hg] at p5; cases p5
    | id n => exact key { pf with ids := (n, copyImm g.imm) :: pf.ids } (by simp only [newProgFlags, hg]) ⟨n, hg⟩
    | tag n =>
      simp only [newProgFlags, hg] at p1
      exact absurd ((newProgFlags_grow a _).1 p1) (by simp)
    | name n =>
      simp only [newProgFlags, hg] at p2
      exact absurd ((newProgFlags_grow a _).2.1 p2) (by simp)
    | pinned n =>
      simp only [newProgFlags, hg] at p3
      exact absurd ((newProgFlags_grow a _).2.2.1 p3) (by simp)
    | pid n =>
      simp only [newProgFlags, hg] at p4
      exact absurd ((newProgFlags_grow a _).2.2.2 p4) (by simp)

/-! ### Soundness -/

/-- A tracing is justified by a selector of the list. -/
def Justified (s : Sys) (fs : List ProgFlag) (t : Tracing) : Prop :=
  ∃ f ∈ fs, ∃ p ∈ s.progs, p.id = t.id ∧ Selects s f p ∧ p.ok = true ∧ t.func ∈ p.funcs ∧ Names f p t.func ∧
    SameButPkt t.imm f.imm

theorem lookup_mem' {κ : Type} [BEq κ] [LawfulBEq κ] {n : κ} {i : Imm} : ∀ (l : List (κ × Imm)), l.lookup n = some i → (n, i) ∈ l
  | [], h => by cases h
  | (m, j) :: l, h => by
    simp only [List.lookup_cons] at h
    by_cases hm : (n == m) = true
    · rw [hm] at h
      obtain rfl := eq_of_beq hm
      cases h; simp
    · have hm' : (n == m) = false := by simpa using hm
      rw [hm'] at h
      exact List.mem_cons_of_mem _ (lookup_mem' l h)

/-- One row of the three lookups. -/
theorem row_sound {s : Sys} {fs : List ProgFlag} {p : Prog} (hp : p ∈ s.progs) (hb : p.hasBtf = true) {e : Str}
    (he : p.entry = some e) {i : Imm} {f : ProgFlag} (hf : f ∈ fs) (hsel : Selects s f p) (hna : f.sel ≠ .all)
    (hi : i = copyImm f.imm) {u u' : List Tracing} (hu : ∀ t ∈ u, Justified s fs t)
    (h : addTracing p (if i.funcName.isEmpty then e else i.funcName) i u = some u') : ∀ t ∈ u', Justified s fs t := by
  intro t ht
  rcases addTracing_new h t ht with ht | ⟨rfl, hok, hfn⟩
  · exact hu t ht
  · refine ⟨f, hf, p, hp, rfl, hsel, hok, by simpa using hfn, ?_, ?_⟩
    · subst hi
      apply funcOf_names hna
      unfold funcOf
      simp only [copyImm, hb, if_true, he]
      by_cases hz : List.isEmpty f.imm.funcName = true <;> simp only [hz] <;> rfl
    · subst hi; exact ⟨rfl, rfl, rfl, rfl⟩

theorem prepareProgInfo_sound {s : Sys} {fs : List ProgFlag} {p : Prog} (hp : p ∈ s.progs) {u u' : List Tracing}
    (hu : ∀ t ∈ u, Justified s fs t) (h : prepareProgInfo (newProgFlags {} fs) p u = some u') : ∀ t ∈ u', Justified s fs t := by
  obtain ⟨h1, h2, h3, h4⟩ := newProgFlags_sound fs {}
  unfold prepareProgInfo at h
  by_cases hb : p.hasBtf = true
  · simp only [hb, Bool.not_true, Bool.false_eq_true, if_false] at h
    cases he : p.entry with
    | none => simp only [he] at h; cases h
    | some e =>
      simp only [he] at h
      by_cases hall : (newProgFlags {} fs).all = true
      · simp only [hall, if_true] at h
        rcases h4 hall with hc | ⟨f, hf, hsel, himm⟩
        · cases hc
        · intro t ht
          rcases addTracing_new h t ht with ht | ⟨rfl, hok, hfn⟩
          · exact hu t ht
          · refine ⟨f, hf, p, hp, rfl, ?_, hok, by simpa using hfn, ?_, ?_⟩
            · unfold Selects; rw [hsel]; exact hb
            · unfold Names; simp only [hsel, true_or, if_true]; exact he
            · rw [himm]; exact ⟨rfl, rfl, rfl, rfl⟩
      · simp only [hall] at h
        refine foldO_ind (fun v => ∀ t ∈ v, Justified s fs t) _ _ _ ?_ hu h
        intro x hx v v' hv hstep
        cases x with
        | none => cases hstep; exact hv
        | some i =>
          simp only [] at hstep
          simp only [List.mem_cons, List.not_mem_nil, or_false] at hx
          rcases hx with hx | hx | hx
          · rcases h1 _ _ (lookup_mem' _ hx.symm) with hc | ⟨f, hf, hsel, himm⟩
            · cases hc
            · exact row_sound hp hb he hf (by unfold Selects; rw [hsel]) (by rw [hsel]; simp) himm hv hstep
          · rcases h2 _ _ (lookup_mem' _ hx.symm) with hc | ⟨f, hf, hsel, himm⟩
            · cases hc
            · exact row_sound hp hb he hf (by unfold Selects; rw [hsel]; exact ⟨hb, rfl⟩) (by rw [hsel]; simp) himm hv hstep
          · rcases h3 _ _ (lookup_mem' _ hx.symm) with hc | ⟨f, hf, hsel, himm⟩
            · cases hc
            · exact row_sound hp hb he hf (by unfold Selects; rw [hsel]; exact ⟨hb, he⟩) (by rw [hsel]; simp) himm hv hstep
  · simp only [hb] at h
    cases h
    exact hu

theorem byID_sound {s : Sys} {fs : List ProgFlag} {f : ProgFlag} (hf : f ∈ fs) {id : BitVec 32}
    (hsel : ∀ p : Prog, p.id = id → Selects s f p) (hna : f.sel ≠ .all) {u u' : List Tracing}
    (hu : ∀ t ∈ u, Justified s fs t) (h : addByID s id f.imm u = some u') : ∀ t ∈ u', Justified s fs t := by
  intro t ht
  rcases addByID_new h t ht with ht | ⟨p, hp, hid, htid, hfn, himm, hok, hfs⟩
  · exact hu t ht
  · exact ⟨f, hf, p, hp, by rw [hid, htid], hsel p hid, hok, by simpa using hfs, funcOf_names hna hfn,
      by rw [himm]; exact ⟨rfl, rfl, rfl, rfl⟩⟩

/-- **C47.** Every function traced belongs to a loaded program that a selector of the command line selects; it is the
function the selector names, and the graph, stack, LBR and both-ends options are those of that selector. -/
theorem selected_sound (s : Sys) (fs : List ProgFlag) (ts : List Tracing) (h : prepareProgInfos s fs = some ts) :
    ∀ t ∈ ts, ∃ f ∈ fs, ∃ p ∈ s.progs, p.id = t.id ∧ Selects s f p ∧ p.ok = true ∧ t.func ∈ p.funcs ∧ Names f p t.func ∧
      SameButPkt t.imm f.imm := by
  unfold prepareProgInfos at h
  by_cases ha : (newProgFlags {} fs).allID = true
  · simp only [ha, if_true] at h
    have hids := allID_sound fs {} ha
    refine foldO_ind (fun v => ∀ t ∈ v, Justified s fs t) _ _ _ ?_ (by simp) h
    intro f hf v v' hv hstep
    obtain ⟨n, hn⟩ := hids f hf
    simp only [hn] at hstep
    exact byID_sound hf (fun p hp => by unfold Selects; rw [hn]; exact hp) (by rw [hn]; simp) hv hstep
  · simp only [ha] at h
    cases h1 : foldO (prepareSel s) fs [] with
    | none => simp [h1] at h
    | some u =>
      simp only [h1] at h
      have hu : ∀ t ∈ u, Justified s fs t := by
        refine foldO_ind (fun v => ∀ t ∈ v, Justified s fs t) _ _ _ ?_ (by simp) h1
        intro f hf v v' hv hstep
        unfold prepareSel at hstep
        cases hsel : f.sel with
        | pinned path =>
          simp only [hsel] at hstep
          cases hp : s.pinned path with
          | none => simp only [hp] at hstep; cases hstep
          | some id =>
            simp only [hp] at hstep
            exact byID_sound hf (fun p hpid => by unfold Selects; rw [hsel, hpid]; exact hp) (by rw [hsel]; simp) hv hstep
        | pid n =>
          simp only [hsel] at hstep
          refine foldO_ind (fun v => ∀ t ∈ v, Justified s fs t) _ _ _ ?_ hv hstep
          intro id hid w w' hw hs'
          exact byID_sound hf (fun p hpid => by unfold Selects; rw [hsel, hpid]; exact hid) (by rw [hsel]; simp) hw hs'
        | all => simp only [hsel] at hstep; cases hstep; exact hv
        | id n => simp only [hsel] at hstep; cases hstep; exact hv
        | tag n => simp only [hsel] at hstep; cases hstep; exact hv
        | name n => simp only [hsel] at hstep; cases hstep; exact hv
      refine foldO_ind (fun v => ∀ t ∈ v, Justified s fs t) _ _ _ ?_ hu h
      intro p hp v v' hv hstep
      exact prepareProgInfo_sound hp hv hstep

/-! ### Completeness -/

theorem prepareProgInfo_mono {flags : ProgFlags} {p : Prog} {u u' : List Tracing} (h : prepareProgInfo flags p u = some u') :
    ∀ t ∈ u, t ∈ u' := by
  unfold prepareProgInfo at h
  by_cases hb : p.hasBtf = true
  · simp only [hb, Bool.not_true, Bool.false_eq_true, if_false] at h
    cases he : p.entry with
    | none => simp only [he] at h; cases h
    | some e =>
      simp only [he] at h
      by_cases hall : flags.all = true
      · simp only [hall, if_true] at h
        exact addTracing_mono h
      · simp only [hall] at h
        intro t ht
        refine foldO_ind (fun v => t ∈ v) _ _ _ ?_ ht h
        intro x _ v v' hv hstep
        cases x with
        | none => cases hstep; exact hv
        | some i => exact addTracing_mono hstep t hv
  · simp only [hb] at h
    cases h
    exact fun t ht => ht

theorem prepareSel_mono {s : Sys} {f : ProgFlag} {u u' : List Tracing} (h : prepareSel s f u = some u') : ∀ t ∈ u, t ∈ u' := by
  unfold prepareSel at h
  cases hsel : f.sel with
  | pinned path =>
    simp only [hsel] at h
    cases hp : s.pinned path with
    | none => simp only [hp] at h; cases h
    | some id => simp only [hp] at h; exact addByID_mono h
  | pid n =>
    simp only [hsel] at h
    intro t ht
    exact foldO_ind (fun v => t ∈ v) _ _ _ (fun id _ v v' hv hs => addByID_mono hs t hv) ht h
  | all => simp only [hsel] at h; cases h; exact fun t ht => ht
  | id n => simp only [hsel] at h; cases h; exact fun t ht => ht
  | tag n => simp only [hsel] at h; cases h; exact fun t ht => ht
  | name n => simp only [hsel] at h; cases h; exact fun t ht => ht

theorem names_of_funcOf {f : ProgFlag} {p : Prog} (hna : f.sel ≠ .all) {func x : Str}
    (h : funcOf p f.imm = some func) (hx : Names f p x) : x = func := by
  have := funcOf_names hna h
  unfold Names at this hx
  split at this <;> split at hx
  · rw [this] at hx; exact (Option.some.inj hx).symm
  · contradiction
  · contradiction
  · rw [hx, this]

/-- The row of one program in the last loop. -/
theorem row_there {flags : ProgFlags} {p : Prog} (hb : p.hasBtf = true) {e : Str} (he : p.entry = some e)
    (hall : flags.all = false) (hok : p.ok = true) {i : Imm}
    (hrow : flags.ids.lookup p.id = some i ∨ flags.tags.lookup p.tag = some i ∨ flags.names.lookup e = some i)
    {u u' : List Tracing} (h : prepareProgInfo flags p u = some u') :
    ∃ t ∈ u', t.id = p.id ∧ t.func = if i.funcName.isEmpty then e else i.funcName := by
  unfold prepareProgInfo at h
  simp only [hb, Bool.not_true, Bool.false_eq_true, if_false, he, hall] at h
  have hm : some i ∈ [flags.ids.lookup p.id, flags.tags.lookup p.tag, flags.names.lookup e] := by
    simp only [List.mem_cons, List.not_mem_nil, or_false]
    rcases hrow with h | h | h
    · exact Or.inl h.symm
    · exact Or.inr (Or.inl h.symm)
    · exact Or.inr (Or.inr h.symm)
  obtain ⟨v, v', hv, hsub⟩ := foldO_hit (by
    intro x v v' hx
    cases x with
    | none => cases hx; exact fun t ht => ht
    | some i => exact addTracing_mono hx) _ _ _ _ hm h
  obtain ⟨t, ht, h1, h2⟩ := addTracing_there hv hok
  exact ⟨t, hsub t ht, h1, h2⟩

/-- **C47 (partial).** A selector selects completely: every traceable program it selects is traced at the function it
names. Missing: lists in which a later selector repeats the same id, tag or name (`repeated_selector_violated`), or in
which `*` also occurs (`star_overrides_violated`). The options may come from an earlier selector of the same function. -/
theorem selected_complete_partial (s : Sys) (hu : (s.progs.map Prog.id).Nodup) (pre post : List ProgFlag) (f : ProgFlag)
    (ts : List Tracing) (h : prepareProgInfos s (pre ++ f :: post) = some ts)
    (hnoall : ∀ g ∈ pre ++ f :: post, g.sel ≠ .all) (hlast : ∀ g ∈ post, g.sel ≠ f.sel)
    (p : Prog) (hp : p ∈ s.progs) (hsel : Selects s f p) (hb : p.hasBtf = true) (hok : p.ok = true)
    (func : Str) (hfn : Names f p func) : ∃ t ∈ ts, t.id = p.id ∧ t.func = func := by
  have hna : f.sel ≠ .all := hnoall f (by simp)
  have hmem : f ∈ pre ++ f :: post := by simp
  unfold prepareProgInfos at h
  by_cases ha : (newProgFlags {} (pre ++ f :: post)).allID = true
  · simp only [ha, if_true] at h
    obtain ⟨n, hn⟩ := allID_sound _ {} ha f hmem
    have hpid : p.id = n := by unfold Selects at hsel; rw [hn] at hsel; exact hsel
    obtain ⟨u, u', hstep, hsub⟩ := foldO_hit (by
      intro g v v' hg
      cases hgs : g.sel with
      | id m => simp only [hgs] at hg; exact addByID_mono hg
      | _ => simp only [hgs] at hg; cases hg; exact fun t ht => ht) _ _ _ f hmem h
    simp only [hn, ← hpid] at hstep
    obtain ⟨fn, hfo, t, ht, h1, h2⟩ := addByID_there hu hp hstep hok
    exact ⟨t, hsub t ht, h1, by rw [h2, names_of_funcOf hna hfo hfn]⟩
  · simp only [ha] at h
    cases h1 : foldO (prepareSel s) (pre ++ f :: post) [] with
    | none => simp [h1] at h
    | some u =>
      simp only [h1] at h
      have lift : ∀ t ∈ u, t ∈ ts := fun t ht =>
        foldO_ind (fun v => t ∈ v) _ _ _ (fun q _ v v' hv hs => prepareProgInfo_mono hs t hv) ht h
      obtain ⟨v, v', hstep, hsub⟩ := foldO_hit (f := prepareSel s) (fun g v v' hg => prepareSel_mono hg) _ _ _ f hmem h1
      -- the entry function
      have hall : (newProgFlags {} (pre ++ f :: post)).all = false := newProgFlags_noall _ {} hnoall
      have hpre : ∀ g ∈ pre, g.sel ≠ .all := fun g hg => hnoall g (by simp [hg])
      have hpost : ∀ g ∈ post, g.sel ≠ .all := fun g hg => hnoall g (by simp [hg])
      obtain ⟨w, w', hrow, hsub'⟩ := foldO_hit (f := prepareProgInfo (newProgFlags {} (pre ++ f :: post)))
        (fun q v v' hq => prepareProgInfo_mono hq) _ _ _ p hp h
      have hent : ∃ e, p.entry = some e := by
        unfold prepareProgInfo at hrow
        simp only [hb, Bool.not_true, Bool.false_eq_true, if_false] at hrow
        cases he : p.entry with
        | none => simp only [he] at hrow; cases hrow
        | some e => exact ⟨e, rfl⟩
      obtain ⟨e, he⟩ := hent
      have hfunc : func = if (copyImm f.imm).funcName.isEmpty then e else (copyImm f.imm).funcName := by
        apply names_of_funcOf hna _ hfn
        unfold funcOf
        simp only [copyImm, hb, if_true, he]
        by_cases hz : List.isEmpty f.imm.funcName = true <;> simp only [hz] <;> rfl
      have done : ∀ i, i = copyImm f.imm → ((newProgFlags {} (pre ++ f :: post)).ids.lookup p.id = some i ∨
          (newProgFlags {} (pre ++ f :: post)).tags.lookup p.tag = some i ∨
          (newProgFlags {} (pre ++ f :: post)).names.lookup e = some i) → ∃ t ∈ ts, t.id = p.id ∧ t.func = func := by
        rintro i rfl hr
        obtain ⟨t, ht, h2, h3⟩ := row_there hb he hall hok hr hrow
        exact ⟨t, hsub' t ht, h2, by rw [h3, hfunc]⟩
      have split := newProgFlags_append pre (f :: post) {} hpre
      cases hs : f.sel with
      | all => exact absurd hs hna
      | pinned path =>
        unfold Selects at hsel
        rw [hs] at hsel
        unfold prepareSel at hstep
        simp only [hs] at hstep
        have hsel' : s.pinned path = some p.id := hsel
        rw [hsel'] at hstep
        obtain ⟨fn, hfo, t, ht, h2, h3⟩ := addByID_there hu hp hstep hok
        exact ⟨t, lift t (hsub t ht), h2, by rw [h3, names_of_funcOf hna hfo hfn]⟩
      | pid n =>
        unfold Selects at hsel
        rw [hs] at hsel
        unfold prepareSel at hstep
        simp only [hs] at hstep
        obtain ⟨x, x', hx, hxs⟩ := foldO_hit (fun g v v' hg => addByID_mono hg) _ _ _ p.id hsel hstep
        obtain ⟨fn, hfo, t, ht, h2, h3⟩ := addByID_there hu hp hx hok
        exact ⟨t, lift t (hsub t (hxs t ht)), h2, by rw [h3, names_of_funcOf hna hfo hfn]⟩
      | id n =>
        have hpid : p.id = n := by unfold Selects at hsel; rw [hs] at hsel; exact hsel
        refine done _ rfl (Or.inl ?_)
        rw [split]
        simp only [newProgFlags, hs]
        rw [(newProgFlags_keep post _ hpost).1 _ (fun g hg => by rw [hpid, ← hs]; exact hlast g hg)]
        simp [hpid]
      | tag n =>
        have hpid : p.tag = n := by unfold Selects at hsel; rw [hs] at hsel; exact hsel.2
        refine done _ rfl (Or.inr (Or.inl ?_))
        rw [split]
        simp only [newProgFlags, hs]
        rw [(newProgFlags_keep post _ hpost).2.1 _ (fun g hg => by rw [hpid, ← hs]; exact hlast g hg)]
        simp [hpid]
      | name n =>
        have hpid : e = n := by
          unfold Selects at hsel; rw [hs] at hsel
          have := hsel.2
          rw [he] at this; exact Option.some.inj this
        refine done _ rfl (Or.inr (Or.inr ?_))
        rw [split]
        simp only [newProgFlags, hs]
        rw [(newProgFlags_keep post _ hpost).2.2 _ (fun g hg => by rw [hpid, ← hs]; exact hlast g hg)]
        simp [hpid]

/-- **C47.** `*` selects every traceable program with BTF, at its entry function. -/
theorem star_complete (s : Sys) (fs : List ProgFlag) (ts : List Tracing) (h : prepareProgInfos s fs = some ts)
    (hall : ∃ f ∈ fs, f.sel = .all) (p : Prog) (hp : p ∈ s.progs) (hb : p.hasBtf = true) (hok : p.ok = true) :
    ∃ t ∈ ts, t.id = p.id ∧ p.entry = some t.func := by
  have ha := newProgFlags_all fs {} hall
  unfold prepareProgInfos at h
  have hid : (newProgFlags {} fs).allID = false := by simp [ProgFlags.allID, ha]
  simp only [hid] at h
  cases h1 : foldO (prepareSel s) fs [] with
  | none => simp [h1] at h
  | some u =>
    simp only [h1] at h
    obtain ⟨w, w', hrow, hsub'⟩ := foldO_hit (f := prepareProgInfo (newProgFlags {} fs))
      (fun q v v' hq => prepareProgInfo_mono hq) _ _ _ p hp h
    unfold prepareProgInfo at hrow
    simp only [hb, Bool.not_true, Bool.false_eq_true, if_false, ha, if_true] at hrow
    cases he : p.entry with
    | none => simp only [he] at hrow; cases hrow
    | some e =>
      simp only [he] at hrow
      obtain ⟨t, ht, h2, h3⟩ := addTracing_there hrow hok
      exact ⟨t, hsub' t ht, h2, by rw [h3]⟩

/-! ### Violations -/

/-- Two programs. -/
def sys2 : Sys :=
  { progs := [⟨5, "aa".toList, true, some "foo".toList, ["foo".toList, "sub".toList], true⟩,
              ⟨6, "bb".toList, true, some "bar".toList, ["bar".toList], true⟩]
    pinned := fun _ => none
    fds := fun _ => [] }

/-- **C47, violated.** `-p name:foo --output-pkt`: the packet option is lost. -/
theorem pkt_lost_violated :
    prepareProgInfos sys2 [⟨.name "foo".toList, { pkt := true }⟩] = some [⟨5, "foo".toList, { pkt := false }⟩] := by
  decide +kernel

/-- It is kept when every selector is an id. -/
theorem pkt_kept_by_id :
    prepareProgInfos sys2 [⟨.id 5, { pkt := true }⟩] = some [⟨5, "foo".toList, { pkt := true }⟩] := by
  decide +kernel

/-- **C47, violated.** `-p id:5:sub -p id:5 -p name:bar`: the function `sub` is not traced. -/
theorem repeated_selector_violated :
    prepareProgInfos sys2 [⟨.id 5, { funcName := "sub".toList }⟩, ⟨.id 5, {}⟩, ⟨.name "bar".toList, {}⟩] =
      some [⟨5, "foo".toList, {}⟩, ⟨6, "bar".toList, {}⟩] := by
  decide +kernel

/-- **C47, violated.** `-p id:5:sub -p '*'`: the function `sub` is not traced. -/
theorem star_overrides_violated :
    prepareProgInfos sys2 [⟨.id 5, { funcName := "sub".toList }⟩, ⟨.all, {}⟩] =
      some [⟨5, "foo".toList, {}⟩, ⟨6, "bar".toList, {}⟩] := by
  decide +kernel

/-- Witness for `selected_complete_partial` and `selected_sound`. -/
theorem selected_witness :
    prepareProgInfos sys2 [⟨.id 5, { funcName := "sub".toList, graph := true }⟩, ⟨.tag "bb".toList, { stack := true }⟩] =
      some [⟨5, "sub".toList, { funcName := "sub".toList, graph := true }⟩, ⟨6, "bar".toList, { stack := true }⟩] := by
  decide +kernel

end Bpfsnoop.Flg
