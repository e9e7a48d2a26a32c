import Verif.Model.DbgFiles
import Verif.Props.Cache

/-
C71: debug information comes from the right file.
-/
namespace Bpfsnoop.Df

/-! ### vmlinux -/

theorem firstFile_ok (isFile : Path → Bool) (ps : List Path) (p : Path) :
    firstFile isFile ps = .ok p ↔ ∃ a b, ps = a ++ p :: b ∧ isFile p = true ∧ ∀ q ∈ a, isFile q = false := by
  induction ps with
  | nil => simp [firstFile]
  | cons x ps ih =>
    unfold firstFile
    by_cases hx : isFile x = true
    · rw [if_pos hx]
      constructor
      · intro h; cases h; exact ⟨[], ps, rfl, hx, nofun⟩
      · rintro ⟨a, b, h1, h2, h3⟩
        cases a with
        | nil => cases h1; rfl
        | cons y a =>
          cases h1
          rw [h3 _ (.head _)] at hx
          cases hx
    · rw [if_neg hx, ih]
      constructor
      · rintro ⟨a, b, rfl, h2, h3⟩
        refine ⟨x :: a, b, rfl, h2, ?_⟩
        intro q hq
        cases hq with
        | head => simpa using hx
        | tail _ hq => exact h3 q hq
      · rintro ⟨a, b, h1, h2, h3⟩
        cases a with
        | nil => cases h1; exact absurd h2 hx
        | cons y a =>
          cases h1
          exact ⟨a, b, rfl, h2, fun q hq => h3 q (.tail _ hq)⟩

theorem firstFile_none (isFile : Path → Bool) (ps : List Path) : firstFile isFile ps = .notFound ↔ ∀ p ∈ ps, isFile p = false := by
  induction ps with
  | nil => simp [firstFile]
  | cons x ps ih =>
    unfold firstFile
    by_cases hx : isFile x = true
    · rw [if_pos hx]; simp [hx]
    · rw [if_neg hx, ih]; simp [hx]

/-- **C71.** Without `--kernel-vmlinux` the vmlinux used is the first that exists of the seven usual places, and there is none exactly
if none of them exists. -/
theorem vmlinux_usual (isFile : Path → Bool) (rel : Name) :
    (∀ p, findVmlinux isFile none (some rel) = .ok p ↔
      ∃ a b, locations rel = a ++ p :: b ∧ isFile p = true ∧ ∀ q ∈ a, isFile q = false) ∧
    (findVmlinux isFile none (some rel) = .notFound ↔ ∀ p ∈ locations rel, isFile p = false) ∧
    findVmlinux isFile none (some rel) ≠ .err := by
  refine ⟨fun p => firstFile_ok isFile _ p, firstFile_none isFile _, ?_⟩
  intro h
  have : ∀ ps, firstFile isFile ps ≠ .err := by
    intro ps
    induction ps with
    | nil => exact nofun
    | cons x ps ih => unfold firstFile; split; · exact nofun
                      · exact ih
  exact this _ h

/-- **C71.** With `--kernel-vmlinux` only that directory (or the directory of that file) is searched, whatever exists elsewhere. -/
theorem vmlinux_given (isFile : Path → Bool) (opt : Path) (rel : Option Name) (p : Path) :
    findVmlinux isFile (givenDir isFile (some opt)) rel = .ok p ↔
      isFile p = true ∧ ((isFile opt = true ∧ p = opt.dropLast ++ [t "vmlinux"]) ∨ (isFile opt = false ∧ p = opt ++ [t "vmlinux"])) := by
  unfold givenDir findVmlinux
  simp only [Option.map_some]
  cases h : isFile opt with
  | true =>
    rw [if_pos rfl]
    constructor
    · intro he
      split at he
      · rename_i hf; cases he; exact ⟨hf, .inl ⟨rfl, rfl⟩⟩
      · cases he
    · rintro ⟨h1, ⟨-, rfl⟩ | ⟨h2, -⟩⟩
      · rw [if_pos h1]
      · cases h2
  | false =>
    rw [show (if false = true then opt.dropLast else opt) = opt from rfl]
    constructor
    · intro he
      split at he
      · rename_i hf; cases he; exact ⟨hf, .inr ⟨rfl, rfl⟩⟩
      · cases he
    · rintro ⟨h1, ⟨h2, -⟩ | ⟨-, rfl⟩⟩
      · cases h2
      · rw [if_pos h1]

/-- **C71.** bpfsnoop ends with an error exactly if `--kernel-vmlinux` is given and has no vmlinux, or the release is unknown; debug
information is used exactly if a vmlinux was found and is wanted. -/
theorem vmlinux_used (isFile : Path → Bool) (dir : Option Path) (rel : Option Name) (wanted : Bool) :
    (useVmlinux wanted (findVmlinux isFile dir rel) = none ↔
      (∃ d, dir = some d ∧ isFile (d ++ [t "vmlinux"]) = false) ∨ (dir = none ∧ rel = none)) ∧
    ∀ p, useVmlinux wanted (findVmlinux isFile dir rel) = some (some p) ↔ wanted = true ∧ findVmlinux isFile dir rel = .ok p := by
  constructor
  · cases dir with
    | some d =>
      unfold findVmlinux
      cases h : isFile (d ++ [t "vmlinux"]) <;> simp [useVmlinux, h]
    | none =>
      cases rel with
      | none => simp [findVmlinux, useVmlinux]
      | some r =>
        have := (vmlinux_usual isFile r).2.2
        cases h : findVmlinux isFile none (some r) with
        | ok p => simp [useVmlinux]
        | notFound => simp [useVmlinux]
        | err => exact absurd h this
  · intro p
    cases h : findVmlinux isFile dir rel with
    | ok q => cases wanted <;> simp [useVmlinux]
    | notFound => simp [useVmlinux]
    | err => simp [useVmlinux]

/-- Two of the places exist. -/
theorem vmlinux_witness : findVmlinux (fun p => decide (p = [t "boot", t "vmlinux-6.1"] ∨ p = [t "lib", t "modules", t "6.1", t "build", t "vmlinux"])) none (some (t "6.1")) =
    .ok [t "boot", t "vmlinux-6.1"] := by decide +kernel

/-- **C71, violated.** A file given with `--kernel-vmlinux` that is not called `vmlinux` is not used: another file of its directory
is, -/
theorem given_file_violated : ∃ isFile opt p, isFile opt = true ∧ findVmlinux isFile (givenDir isFile (some opt)) none = .ok p ∧ p ≠ opt :=
  ⟨fun _ => true, [t "x", t "vmlinux-6.1"], [t "x", t "vmlinux"], rfl, rfl, by decide⟩

/-- and if there is none, bpfsnoop ends with an error, even if no debug information is wanted. -/
theorem given_file_fatal_violated (wanted : Bool) : ∃ isFile opt, isFile opt = true ∧
    useVmlinux wanted (findVmlinux isFile (givenDir isFile (some opt)) none) = none :=
  ⟨fun p => p = [t "x", t "vmlinux-6.1"], [t "x", t "vmlinux-6.1"], rfl, by cases wanted <;> decide⟩

/-! ### The walk -/

/-- Specification: `p` (a path below `pre`) is in the tree. -/
inductive InTree : Path → Node → Path → Prop where
  | file (pre : Path) (n : Name) : InTree pre (.file n) (pre ++ [n])
  | dir (pre : Path) (n : Name) (r : Bool) (es : List Node) : InTree pre (.dir n r es) (pre ++ [n])
  | entry {pre : Path} {n : Name} {es : List Node} {e : Node} {p : Path} : e ∈ es → InTree (pre ++ [n]) e p → InTree pre (.dir n true es) p

/-- Specification: an unreadable directory in the tree. -/
inductive BadDir : Path → Node → Path → Prop where
  | dir (pre : Path) (n : Name) (es : List Node) : BadDir pre (.dir n false es) (pre ++ [n])
  | entry {pre : Path} {n : Name} {es : List Node} {e : Node} {p : Path} : e ∈ es → BadDir (pre ++ [n]) e p → BadDir pre (.dir n true es) p

/-- Specification: a path comes before another: it is a directory above it, or its name is less where they part. -/
def Before (lt : Name → Name → Prop) : Path → Path → Prop
  | [], [] => False
  | [], _ :: _ => True
  | _ :: _, [] => False
  | a :: as, b :: bs => lt a b ∨ (a = b ∧ Before lt as bs)

/-- Specification: entries are in the order of their names, everywhere in the tree. -/
inductive InOrder (lt : Name → Name → Prop) : Node → Prop where
  | file (n : Name) : InOrder lt (.file n)
  | dir (n : Name) (r : Bool) (es : List Node) : es.Pairwise (fun a b => lt a.name b.name) → (∀ e ∈ es, InOrder lt e) → InOrder lt (.dir n r es)

theorem mem_visitsAll (pre : Path) (es : List Node) (v : Visit) : v ∈ visitsAll pre es ↔ ∃ e ∈ es, v ∈ visits pre e := by
  induction es with
  | nil => simp [visitsAll]
  | cons e es ih => simp [visitsAll, ih]

theorem node_ind {P : Node → Prop} (hf : ∀ n, P (.file n)) (hd : ∀ n r es, (∀ e ∈ es, P e) → P (.dir n r es)) : ∀ x, P x
  | .file n => hf n
  | .dir n r es => hd n r es fun e _ => node_ind hf hd e
termination_by x => sizeOf x
decreasing_by
  have := List.sizeOf_lt_of_mem ‹_ ∈ _›
  simp only [Node.dir.sizeOf_spec]
  omega

/-- Everything in the tree is visited, and nothing else; errors are the directories that cannot be read. -/
theorem visits_iff (x : Node) : ∀ (pre p : Path), ((∃ ok, ⟨p, ok⟩ ∈ visits pre x) ↔ InTree pre x p) ∧ (⟨p, false⟩ ∈ visits pre x ↔ BadDir pre x p) := by
  refine node_ind (P := fun x => ∀ (pre p : Path), ((∃ ok, ⟨p, ok⟩ ∈ visits pre x) ↔ InTree pre x p) ∧ (⟨p, false⟩ ∈ visits pre x ↔ BadDir pre x p)) ?_ ?_ x
  · intro n pre p
    simp only [visits, List.mem_singleton, Visit.mk.injEq]
    refine ⟨⟨?_, ?_⟩, ⟨?_, ?_⟩⟩
    · rintro ⟨_, rfl, _⟩; exact .file pre n
    · intro h; cases h; exact ⟨true, rfl, rfl⟩
    · rintro ⟨-, h⟩; cases h
    · intro h; cases h
  · intro n r es ih pre p
    cases r with
    | false =>
      simp only [visits, List.mem_singleton, Visit.mk.injEq]
      refine ⟨⟨?_, ?_⟩, ⟨?_, ?_⟩⟩
      · rintro ⟨_, rfl, _⟩; exact .dir pre n false es
      · intro h; cases h; exact ⟨false, rfl, rfl⟩
      · rintro ⟨rfl, -⟩; exact .dir pre n es
      · intro h; cases h; exact ⟨rfl, trivial⟩
    | true =>
      simp only [visits, List.mem_cons, Visit.mk.injEq, mem_visitsAll]
      refine ⟨⟨?_, ?_⟩, ⟨?_, ?_⟩⟩
      · rintro ⟨ok, ⟨rfl, _⟩ | ⟨e, he, hv⟩⟩
        · exact .dir pre n true es
        · exact .entry he (((ih e he _ _).1).1 ⟨ok, hv⟩)
      · intro h
        cases h with
        | dir => exact ⟨true, .inl ⟨rfl, rfl⟩⟩
        | entry he hp =>
          obtain ⟨ok, hv⟩ := ((ih _ he _ _).1).2 hp
          exact ⟨ok, .inr ⟨_, he, hv⟩⟩
      · rintro (⟨_, h⟩ | ⟨e, he, hv⟩)
        · cases h
        · exact .entry he (((ih e he _ _).2).1 hv)
      · intro h
        cases h with
        | entry he hp => exact .inr ⟨_, he, ((ih _ he _ _).2).2 hp⟩

theorem before_append {lt : Name → Name → Prop} (pre p q : Path) (h : Before lt p q) : Before lt (pre ++ p) (pre ++ q) := by
  induction pre with
  | nil => exact h
  | cons a pre ih => exact .inr ⟨rfl, ih⟩

theorem visits_below (x : Node) : ∀ (pre : Path), ∀ v ∈ visits pre x, ∃ s, v.path = pre ++ x.name :: s := by
  refine node_ind (P := fun x => ∀ (pre : Path), ∀ v ∈ visits pre x, ∃ s, v.path = pre ++ x.name :: s) ?_ ?_ x
  · intro n pre v hv
    simp only [visits, List.mem_singleton] at hv
    subst hv
    exact ⟨[], rfl⟩
  · intro n r es ih pre v hv
    cases r with
    | false =>
      simp only [visits, List.mem_singleton] at hv
      subst hv
      exact ⟨[], rfl⟩
    | true =>
      simp only [visits, List.mem_cons, mem_visitsAll] at hv
      rcases hv with rfl | ⟨e, he, hv⟩
      · exact ⟨[], rfl⟩
      · obtain ⟨s, hs⟩ := ih e he _ v hv
        exact ⟨e.name :: s, by rw [hs]; simp [Node.name]⟩

/-- The walk goes through the tree in order. -/
theorem visits_sorted {lt : Name → Name → Prop} {x : Node} (hx : InOrder lt x) : ∀ (pre : Path), (visits pre x).Pairwise fun a b => Before lt a.path b.path := by
  induction hx with
  | file n => intro pre; simp [visits]
  | dir n r es hp hall ih =>
    intro pre
    cases r with
    | false => simp [visits]
    | true =>
      simp only [visits, List.pairwise_cons]
      constructor
      · intro v hv
        obtain ⟨e, he, hv⟩ := (mem_visitsAll _ _ _).1 hv
        obtain ⟨s, hs⟩ := visits_below e _ v hv
        rw [hs, List.append_assoc]
        apply before_append
        exact .inr ⟨rfl, trivial⟩
      · clear hall
        induction es with
        | nil => simp [visitsAll]
        | cons e es ihe =>
          rw [List.pairwise_cons] at hp
          simp only [visitsAll]
          rw [List.pairwise_append]
          refine ⟨ih e (.head _) _, ihe hp.2 (fun e he => ih e (.tail _ he)), ?_⟩
          intro a ha b hb
          obtain ⟨e', he', hb⟩ := (mem_visitsAll _ _ _).1 hb
          obtain ⟨s, hs⟩ := visits_below e _ a ha
          obtain ⟨s', hs'⟩ := visits_below e' _ b hb
          rw [hs, hs']
          apply before_append
          exact .inl (hp.1 e' he')

/-! ### Modules -/

/-- Specification: `p` is a debug file of the module: its name is the module's with `.ko` or `.ko.zst`, hyphens being taken for
underscores. -/
def DebugFileOf (mod : Name) (p : Path) : Prop :=
  ∃ d n, p = d ++ [n] ∧ (n.map (fun c => if c = '-' then '_' else c) = mod ++ t ".ko" ∨ n.map (fun c => if c = '-' then '_' else c) = mod ++ t ".ko.zst")

theorem isKo_iff (mod : Name) (d : Path) (n : Name) : isKo mod (d ++ [n]) = true ↔ DebugFileOf mod (d ++ [n]) := by
  unfold isKo compName DebugFileOf
  simp only [List.getLast?_concat, Option.getD_some, Bool.or_eq_true, decide_eq_true_eq]
  constructor
  · intro h; exact ⟨d, n, rfl, h⟩
  · rintro ⟨d', n', he, h⟩
    have := List.append_inj_right' he rfl
    cases this
    exact h

theorem visits_nonempty {x : Node} {pre : Path} {v : Visit} (h : v ∈ visits pre x) : ∃ d n, v.path = d ++ [n] := by
  obtain ⟨s, hs⟩ := visits_below x pre v h
  rw [hs]
  exact ⟨pre ++ (x.name :: s).dropLast, (x.name :: s).getLast (by simp), by rw [List.append_assoc, List.dropLast_concat_getLast]⟩

theorem search_ok (mod : Name) (vs : List Visit) (p : Path) : search mod vs = .ok p ↔
    ∃ a b, vs = a ++ ⟨p, true⟩ :: b ∧ isKo mod p = true ∧ ∀ v ∈ a, v.ok = true ∧ isKo mod v.path = false := by
  induction vs with
  | nil => simp [search]
  | cons v vs ih =>
    unfold search
    obtain ⟨q, ok⟩ := v
    cases ok with
    | false =>
      rw [if_pos (by rfl)]
      constructor
      · intro h; cases h
      · rintro ⟨a, b, h1, h2, h3⟩
        cases a with
        | nil => cases h1
        | cons y a => cases h1; have := (h3 _ (.head _)).1; cases this
    | true =>
      rw [if_neg (by simp)]
      by_cases hq : isKo mod q = true
      · rw [if_pos hq]
        constructor
        · intro h; cases h; exact ⟨[], vs, rfl, hq, nofun⟩
        · rintro ⟨a, b, h1, h2, h3⟩
          cases a with
          | nil => cases h1; rfl
          | cons y a => cases h1; have := (h3 _ (.head _)).2; rw [hq] at this; cases this
      · rw [if_neg hq, ih]
        constructor
        · rintro ⟨a, b, rfl, h2, h3⟩
          refine ⟨⟨q, true⟩ :: a, b, rfl, h2, ?_⟩
          intro v hv
          cases hv with
          | head => exact ⟨rfl, by simpa using hq⟩
          | tail _ hv => exact h3 v hv
        · rintro ⟨a, b, h1, h2, h3⟩
          cases a with
          | nil => cases h1; exact absurd h2 hq
          | cons y a => cases h1; exact ⟨a, b, rfl, h2, fun v hv => h3 v (.tail _ hv)⟩

theorem search_notFound (mod : Name) (vs : List Visit) : search mod vs = .notFound ↔ ∀ v ∈ vs, v.ok = true ∧ isKo mod v.path = false := by
  induction vs with
  | nil => simp [search]
  | cons v vs ih =>
    unfold search
    obtain ⟨q, ok⟩ := v
    cases ok with
    | false => simp
    | true =>
      rw [if_neg (by simp)]
      by_cases hq : isKo mod q = true
      · rw [if_pos hq]; simp [hq]
      · rw [if_neg hq, ih]; simp [hq]

/-- **C71.** The debug file found for a module is one of its debug files in the directory, and the first of them in the order of
paths. -/
theorem module_found {lt : Name → Name → Prop} {mod : Name} {pre : Path} {x : Node} {p : Path} (hx : InOrder lt x) (h : findKo mod pre (some x) = .ok p) :
    InTree pre x p ∧ DebugFileOf mod p ∧ ∀ q, InTree pre x q → DebugFileOf mod q → q = p ∨ Before lt p q := by
  obtain ⟨a, b, h1, h2, h3⟩ := (search_ok mod _ p).1 h
  have hm : (⟨p, true⟩ : Visit) ∈ visits pre x := by rw [h1]; simp
  obtain ⟨d, n, hp⟩ := visits_nonempty hm
  dsimp only at hp
  refine ⟨((visits_iff x pre p).1).1 ⟨true, hm⟩, by rw [hp] at h2 ⊢; exact (isKo_iff _ _ _).1 h2, ?_⟩
  intro q hq hf
  obtain ⟨ok, hv⟩ := ((visits_iff x pre q).1).2 hq
  obtain ⟨d', n', hq'⟩ := visits_nonempty hv
  dsimp only at hq'
  have hko : isKo mod q = true := by rw [hq'] at hf ⊢; exact (isKo_iff _ _ _).2 hf
  rw [h1] at hv
  simp only [List.mem_append, List.mem_cons] at hv
  have hs := visits_sorted hx pre
  rw [h1, List.pairwise_append] at hs
  rcases hv with hv | hv | hv
  · have := (h3 _ hv).2; rw [hko] at this; cases this
  · cases hv; exact .inl rfl
  · have := (List.pairwise_cons.1 hs.2.1).1 _ hv
    exact .inr this

/-- **C71.** That a module has no debug file is found out exactly if the whole directory could be read and has none. -/
theorem module_notFound (mod : Name) (pre : Path) (x : Node) :
    findKo mod pre (some x) = .notFound ↔ (∀ p, ¬ BadDir pre x p) ∧ ∀ p, InTree pre x p → ¬ DebugFileOf mod p := by
  unfold findKo
  rw [search_notFound]
  constructor
  · intro h
    refine ⟨?_, ?_⟩
    · intro p hb
      have := (h _ (((visits_iff x pre p).2).2 hb)).1
      cases this
    · intro p hp hf
      obtain ⟨ok, hv⟩ := ((visits_iff x pre p).1).2 hp
      obtain ⟨d, n, he⟩ := visits_nonempty hv
      dsimp only at he
      have := (h _ hv).2
      dsimp only at this
      rw [he] at this hf
      rw [(isKo_iff _ _ _).2 hf] at this
      cases this
  · rintro ⟨h1, h2⟩ ⟨p, ok⟩ hv
    constructor
    · cases ok with
      | true => rfl
      | false => exact absurd (((visits_iff x pre p).2).1 hv) (h1 p)
    · obtain ⟨d, n, he⟩ := visits_nonempty hv
      dsimp only at he ⊢
      have := h2 p (((visits_iff x pre p).1).1 ⟨ok, hv⟩)
      rw [he] at this ⊢
      cases hk : isKo mod (d ++ [n]) with
      | false => rfl
      | true => exact absurd ((isKo_iff _ _ _).1 hk) this

/-- A tree with debug files of two modules. -/
def exTree : Node := .dir (t "6.1") true [.dir (t "fs") true [.file (t "ext4.ko"), .file (t "nf-log.ko.zst")], .file (t "nf_log.ko")]

theorem module_witness : findKo (t "nf_log") [] (some exTree) = .ok [t "6.1", t "fs", t "nf-log.ko.zst"] ∧
    findKo (t "xfs") [] (some exTree) = .notFound := by decide +kernel

theorem exTree_inOrder : InOrder (fun a b => (a : List Char) < b) exTree := by
  refine .dir _ _ _ (by simp only [List.pairwise_cons, List.Pairwise.nil]; decide) ?_
  intro e he
  simp only [List.mem_cons, List.not_mem_nil, or_false] at he
  rcases he with rfl | rfl
  · refine .dir _ _ _ (by simp only [List.pairwise_cons, List.Pairwise.nil]; decide) ?_
    intro e he
    simp only [List.mem_cons, List.not_mem_nil, or_false] at he
    rcases he with rfl | rfl <;> exact .file _
  · exact .file _

/-- **C71, violated.** A directory that cannot be read, even one without debug files, hides the debug files after it. -/
theorem unreadable_violated : ∃ x p, InTree [] x p ∧ DebugFileOf (t "xfs") p ∧ findKo (t "xfs") [] (some x) = .err :=
  ⟨.dir (t "6.1") true [.dir (t "a") false [], .file (t "xfs.ko")], [t "6.1", t "xfs.ko"],
    .entry (by simp) (.file [t "6.1"] (t "xfs.ko")), ⟨[t "6.1"], t "xfs.ko", rfl, .inl (by decide)⟩, by decide +kernel⟩

/-! ### Histories -/

theorem lookup_kept {mod mod' : Name} {m : Kmods} {now : Found (Option Nat)} {h : Option Nat} (hm : m.lookup mod = some h) :
    (getMod m mod' now).2.lookup mod = some h := by
  unfold getMod
  cases h' : m.lookup mod' with
  | some _ => exact hm
  | none =>
    have hne : (mod == mod') = false := by
      rw [beq_eq_false_iff_ne]
      rintro rfl
      rw [hm] at h'; cases h'
    cases now <;> simp [List.lookup, hne, hm]

/-- **C71.** Once something is known of a module, every later look-up gives the same answer, whatever happens to its files. -/
theorem module_answers_kept {mod : Name} {h : Option Nat} : ∀ (r : List (Name × Found (Option Nat))) (m : Kmods), m.lookup mod = some h →
    ∀ (i : Nat) (now : Found (Option Nat)), r[i]? = some (mod, now) → (lookups m r)[i]? = some (some h)
  | [], _, _, i, now, hi => by simp at hi
  | (mod', now') :: r, m, hm, i, now, hi => by
    cases i with
    | zero =>
      simp only [List.getElem?_cons_zero, Option.some.injEq, Prod.mk.injEq] at hi
      obtain ⟨rfl, rfl⟩ := hi
      simp [lookups, getMod, hm]
    | succ i =>
      simp only [List.getElem?_cons_succ] at hi
      simp only [lookups, List.getElem?_cons_succ]
      exact module_answers_kept r _ (lookup_kept hm) i now hi

theorem lookup_new {mod mod' : Name} {m : Kmods} {now : Found (Option Nat)} (hm : m.lookup mod = none) :
    (getMod m mod' now).2.lookup mod = if mod' = mod then (match now with | .ok h => some h | .notFound => some none | .err => none) else none := by
  unfold getMod
  by_cases he : mod' = mod
  · subst he
    rw [hm, if_pos rfl]
    cases now <;> simp [List.lookup, hm]
  · have hne : (mod == mod') = false := by rw [beq_eq_false_iff_ne]; exact fun h => he h.symm
    rw [if_neg he]
    cases m.lookup mod' with
    | some _ => exact hm
    | none => cases now <;> simp [List.lookup, hne, hm]

/-- **C71.** Over a whole history the answer for a module is an error as long as adding it fails, and from then on what was found
the first time that it did not: its debug information, or that there is none. -/
theorem module_history {mod : Name} : ∀ (r : List (Name × Found (Option Nat))) (m : Kmods), m.lookup mod = none →
    ∀ (i : Nat) (now : Found (Option Nat)), r[i]? = some (mod, now) →
    ((lookups m r)[i]? = some none ↔ ∀ j ≤ i, ∀ x, r[j]? = some (mod, x) → x = .err) ∧
    ∀ h, (lookups m r)[i]? = some (some h) ↔
      ∃ j ≤ i, (r[j]? = some (mod, .ok h) ∨ (r[j]? = some (mod, .notFound) ∧ h = none)) ∧ ∀ k < j, ∀ x, r[k]? = some (mod, x) → x = .err
  | [], _, _, i, now, hi => by simp at hi
  | (mod', now') :: r, m, hm, i, now, hi => by
    by_cases hdone : mod' = mod ∧ now' ≠ .err
    · obtain ⟨rfl, hne⟩ := hdone
      have ex : ∃ h, (getMod m mod' now').1 = some h ∧ (getMod m mod' now').2.lookup mod' = some h ∧ (now' = .ok h ∨ (now' = .notFound ∧ h = none)) := by
        cases now' with
        | ok h => exact ⟨h, by simp [getMod, hm], by simp [getMod, hm], .inl rfl⟩
        | notFound => exact ⟨none, by simp [getMod, hm], by simp [getMod, hm], .inr ⟨rfl, rfl⟩⟩
        | err => exact absurd rfl hne
      obtain ⟨h, h1, h2, h3⟩ := ex
      have hans : (lookups m ((mod', now') :: r))[i]? = some (some h) := by
        cases i with
        | zero => simp [lookups, h1]
        | succ i =>
          simp only [List.getElem?_cons_succ] at hi
          simp only [lookups, List.getElem?_cons_succ]
          exact module_answers_kept r _ h2 i now hi
      rw [hans]
      constructor
      · constructor
        · intro he; cases he
        · intro he
          exact absurd (he 0 (by omega) now' rfl) hne
      · intro h'
        constructor
        · intro he
          cases he
          refine ⟨0, by omega, ?_, fun k hk => by omega⟩
          rcases h3 with rfl | ⟨rfl, rfl⟩
          · exact .inl rfl
          · exact .inr ⟨rfl, rfl⟩
        · rintro ⟨j, hj, h4, h5⟩
          cases j with
          | zero =>
            simp only [List.getElem?_cons_zero, Option.some.injEq, Prod.mk.injEq, true_and] at h4
            rcases h3 with rfl | ⟨rfl, rfl⟩
            · rcases h4 with h4 | ⟨h4, -⟩
              · cases h4; rfl
              · cases h4
            · rcases h4 with h4 | ⟨-, rfl⟩
              · cases h4
              · rfl
          | succ j => exact absurd (h5 0 (by omega) now' rfl) hne
    · have hm' : (getMod m mod' now').2.lookup mod = none := by
        rw [lookup_new hm]
        by_cases he : mod' = mod
        · rw [if_pos he]
          have : now' = .err := Classical.byContradiction fun h => hdone ⟨he, h⟩
          subst this
          rfl
        · rw [if_neg he]
      have h0 : ∀ x, (mod', now') = (mod, x) → x = .err := by
        intro x he
        cases he
        exact Classical.byContradiction fun h => hdone ⟨rfl, h⟩
      cases i with
      | zero =>
        simp only [List.getElem?_cons_zero, Option.some.injEq, Prod.mk.injEq] at hi
        obtain ⟨rfl, rfl⟩ := hi
        have hne := h0 now' rfl
        subst hne
        have : (lookups m ((mod', .err) :: r))[0]? = some none := by simp [lookups, getMod, hm]
        rw [this]
        constructor
        · constructor
          · intro _ j hj x hx
            have : j = 0 := by omega
            subst this
            exact h0 x (by simpa using hx)
          · intro _; rfl
        · intro h
          constructor
          · intro he; cases he
          · rintro ⟨j, hj, h4, -⟩
            have : j = 0 := by omega
            subst this
            simp at h4
      | succ i =>
        simp only [List.getElem?_cons_succ] at hi
        obtain ⟨ih1, ih2⟩ := module_history r _ hm' i now hi
        simp only [lookups, List.getElem?_cons_succ]
        constructor
        · rw [ih1]
          constructor
          · intro h j hj x hx
            cases j with
            | zero => exact h0 x (by simpa using hx)
            | succ j => exact h j (by omega) x (by simpa using hx)
          · intro h j hj x hx
            exact h (j + 1) (by omega) x (by simpa using hx)
        · intro h
          rw [ih2]
          constructor
          · rintro ⟨j, hj, h4, h5⟩
            refine ⟨j + 1, by omega, by simpa using h4, ?_⟩
            intro k hk x hx
            cases k with
            | zero => exact h0 x (by simpa using hx)
            | succ k => exact h5 k (by omega) x (by simpa using hx)
          · rintro ⟨j, hj, h4, h5⟩
            cases j with
            | zero =>
              simp only [List.getElem?_cons_zero, Option.some.injEq] at h4
              rcases h4 with h4 | ⟨h4, -⟩
              · have := h0 _ h4; cases this
              · have := h0 _ h4; cases this
            | succ j =>
              exact ⟨j, by omega, by simpa using h4, fun k hk x hx => h5 (k + 1) (by omega) x (by simpa using hx)⟩

/-- **C71, violated.** Debug files installed while bpfsnoop runs are not found for a module that was looked up before. -/
theorem stale_not_found_violated (h : Nat) : lookups [] [(t "xfs", .notFound), (t "xfs", .ok (some h))] = [some none, some none] := by
  rfl

/-! ### Addresses in modules -/

/-- **C71.** Code in `.text` of a module is looked up at its place in the file. -/
theorem module_text_addr (textLoaded textFile off : BitVec 64) : modAddr textLoaded textFile (textLoaded + off) = textFile + off := by
  have h1 := Cache.kaslr_distance ⟨textLoaded, textFile⟩ (textLoaded + off) textLoaded
  have h2 := (Cache.kaslr_base ⟨textLoaded, textFile⟩).1
  dsimp only at h2
  unfold modAddr
  rw [h2] at h1
  bv_omega

/-- **C71, violated.** Code in another section of a module (`.init.text`, `.text.unlikely`) is looked up at its place in the file only
if that section was loaded at the same distance from `.text` as in the file. -/
theorem module_section_violated (textLoaded textFile secLoaded secFile off : BitVec 64) :
    modAddr textLoaded textFile (secLoaded + off) = secFile + off ↔ secLoaded - textLoaded = secFile - textFile := by
  have h1 := Cache.kaslr_distance ⟨textLoaded, textFile⟩ (secLoaded + off) textLoaded
  have h2 := (Cache.kaslr_base ⟨textLoaded, textFile⟩).1
  dsimp only at h2
  unfold modAddr
  rw [h2] at h1
  constructor
  · intro h; rw [h] at h1; bv_omega
  · intro h; bv_omega

/-! ### Tightened -/

/-- A path as it is written. -/
def written (p : Path) : List Char := (p.map fun n => '/' :: n).flatten

/-- **C71.** The usual places for a release, in the order in which they are looked at. -/
theorem places (rel : String) : (locations rel.toList).map (fun p => String.ofList (written p)) =
    ["/boot/vmlinux-" ++ rel, "/lib/modules/" ++ rel ++ "/vmlinux-" ++ rel, "/lib/modules/" ++ rel ++ "/build/vmlinux",
     "/usr/lib/modules/" ++ rel ++ "/kernel/vmlinux", "/usr/lib/debug/boot/vmlinux-" ++ rel,
     "/usr/lib/debug/boot/vmlinux-" ++ rel ++ ".debug", "/usr/lib/debug/lib/modules/" ++ rel ++ "/vmlinux"] := by
  have e : ∀ a b : String, a = b ↔ a.toList = b.toList := fun a b => String.toList_inj.symm
  simp only [locations, List.map_cons, List.map_nil, written, List.cons.injEq, and_true, e, String.toList_ofList, String.toList_append, t]
  simp

/-- **C71.** Without a directory of the modules looking up a module is an error each time, and is not remembered. -/
theorem no_directory (mod : Name) (pre : Path) (read : Path → Option Nat) (m : Kmods) (hm : m.lookup mod = none) :
    getMod m mod (match findKo mod pre none with | .ok p => .ok (read p) | .notFound => .notFound | .err => .err) = (none, m) := by
  simp [getMod, hm, findKo]

end Bpfsnoop.Df
