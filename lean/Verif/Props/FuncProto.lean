import Verif.Model.Proto
/-
C65: the prototype shown for a function is its prototype, and can be read back.
-/
namespace Bpfsnoop.Pt
open Rp (Text dec)

/-! ### Specification -/

/-- A C identifier. -/
def Ident (n : Text) : Prop := n ≠ [] ∧ ∀ c ∈ n, c.isAlphanum = true ∨ c = '_'

/-- The text of a type that is no array and no function taken apart by its commas or parentheses, as all types of parameters
and results of kernel functions but pointers to arrays are. -/
def Plain (r : Text) : Prop := r ≠ [] ∧ ∀ c ∈ r, c ≠ '(' ∧ c ≠ ')' ∧ c ≠ ',' ∧ c ≠ '\n'

/-- A declaration: the text of the type, a blank unless it ends in a star, the name. -/
def Decl (x r name : Text) : Prop := (r.getLast? = some '*' ∧ x = r ++ name) ∨ (r.getLast? ≠ some '*' ∧ x = r ++ s " " ++ name)

/-- A declaration for each parameter, in order. -/
def Decls : List Text → List (Text × Text) → Prop
  | [], [] => True
  | d :: ds, p :: ps => Decl d p.2 p.1 ∧ Decls ds ps
  | _, _ => False

/-- The prototype in C: the declaration of the function, and in parentheses, separated by a comma and a blank, those of its
parameters. -/
def Prototype (x name r : Text) (params : List (Text × Text)) : Prop :=
  ∃ (f : Text) (ds : List Text), Decl f r name ∧ Decls ds params ∧
    x = f ++ s "(" ++ (ds.intersperse (s ", ")).flatten ++ s ")"

/-- The same with each parameter on its line, after its number. -/
def Listing (x name r : Text) (params : List (Text × Text)) : Prop :=
  ∃ (f : Text) (ds : List Text), Decl f r name ∧ Decls ds params ∧
    x = f ++ s "(" ++ ((ds.mapIdx fun i d => s "\n" ++ Nat.toDigits 10 i ++ s ":\t" ++ d).intersperse (s ", ")).flatten ++
      (if params = [] then [] else s "\n") ++ s ")"

/-- Names and texts of the types of the parameters, in order. -/
def Texts : Ps → List (Text × Text) → Prop
  | .nil, l => l = []
  | .cons n t ps, l => ∃ r l', reprT t = some r ∧ l = (n, r) :: l' ∧ Texts ps l'

/-! ### Lemmas -/

theorem decl_beside (r n : Text) : Decl (beside r n) r n := by
  unfold beside Decl
  by_cases h : r.getLast? = some '*'
  · rw [if_pos h]; exact .inl ⟨h, rfl⟩
  · rw [if_neg h]; exact .inr ⟨h, rfl⟩

theorem decl_eq {x r n : Text} (h : Decl x r n) : x = beside r n := by
  unfold beside
  rcases h with ⟨h, rfl⟩ | ⟨h, rfl⟩
  · rw [if_pos h]
  · rw [if_neg h]

/-- Text up to the first character of a kind is determined. -/
theorem cut (P : Char → Prop) : ∀ (a a' b b' : Text), (∀ c ∈ a, ¬ P c) → (∀ c ∈ a', ¬ P c) →
    (∀ c, b.head? = some c → P c) → (∀ c, b'.head? = some c → P c) → a ++ b = a' ++ b' → a = a' ∧ b = b'
  | [], [], _, _, _, _, _, _, h => ⟨rfl, h⟩
  | [], c :: a', b, b', _, h2, h3, _, h => by
    rw [List.nil_append] at h
    exact absurd (h3 c (by rw [h]; rfl)) (h2 c List.mem_cons_self)
  | c :: a, [], b, b', h1, _, _, h4, h => by
    rw [List.nil_append] at h
    exact absurd (h4 c (by rw [← h]; rfl)) (h1 c List.mem_cons_self)
  | c :: a, c' :: a', b, b', h1, h2, h3, h4, h => by
    rw [List.cons_append, List.cons_append, List.cons.injEq] at h
    obtain ⟨e1, e2⟩ := cut P a a' b b' (fun c hc => h1 c (List.mem_cons_of_mem _ hc))
      (fun c hc => h2 c (List.mem_cons_of_mem _ hc)) h3 h4 h.2
    exact ⟨by rw [h.1, e1], e2⟩

/-- Text after the last character of a kind is determined. -/
theorem cut_last (P : Char → Prop) (a a' b b' : Text) (h1 : ∀ c ∈ b, ¬ P c) (h2 : ∀ c ∈ b', ¬ P c)
    (h3 : ∀ c, a.getLast? = some c → P c) (h4 : ∀ c, a'.getLast? = some c → P c) (h : a ++ b = a' ++ b') :
    a = a' ∧ b = b' := by
  have h' : b.reverse ++ a.reverse = b'.reverse ++ a'.reverse := by
    rw [← List.reverse_append, ← List.reverse_append, h]
  obtain ⟨e1, e2⟩ := cut P b.reverse b'.reverse a.reverse a'.reverse (by simpa using h1) (by simpa using h2)
    (by simpa using h3) (by simpa using h4) h'
  exact ⟨List.reverse_inj.1 e2, List.reverse_inj.1 e1⟩

/-- A type and a name that stand beside each other can be told apart. -/
theorem beside_inj (r n r' n' : Text) (h1 : Ident n) (h2 : Ident n') (h : beside r n = beside r' n') :
    r = r' ∧ n = n' := by
  let P : Char → Prop := fun c => ¬ (c.isAlphanum = true ∨ c = '_')
  have key : ∀ (r n : Text), ∃ sep, beside r n = (r ++ sep) ++ n ∧ (∀ c, (r ++ sep).getLast? = some c → P c) ∧
      (sep = [] ∧ r.getLast? = some '*' ∨ sep = [' '] ∧ r.getLast? ≠ some '*') := by
    intro r n
    unfold beside
    by_cases hr : r.getLast? = some '*'
    · refine ⟨[], by rw [if_pos hr, List.append_nil], ?_, .inl ⟨rfl, hr⟩⟩
      intro c hc
      rw [List.append_nil, hr] at hc
      cases hc
      decide
    · refine ⟨[' '], by rw [if_neg hr]; rfl, ?_, .inr ⟨rfl, hr⟩⟩
      intro c hc
      rw [List.getLast?_append] at hc
      cases hc
      decide
  obtain ⟨sep, e1, p1, q1⟩ := key r n
  obtain ⟨sep', e2, p2, q2⟩ := key r' n'
  rw [e1, e2] at h
  obtain ⟨ha, hb⟩ := cut_last P _ _ _ _ (fun c hc => fun hp => hp (h1.2 c hc)) (fun c hc => fun hp => hp (h2.2 c hc)) p1 p2 h
  refine ⟨?_, hb⟩
  rcases q1 with ⟨rfl, g1⟩ | ⟨rfl, g1⟩ <;> rcases q2 with ⟨rfl, g2⟩ | ⟨rfl, g2⟩
  · simpa using ha
  · rw [List.append_nil] at ha
    rw [ha, List.getLast?_append] at g1
    cases g1
  · rw [List.append_nil] at ha
    rw [← ha, List.getLast?_append] at g2
    cases g2
  · exact (List.append_inj' ha rfl).1

theorem protoParams_spec (list : Bool) (i : Nat) : ∀ (ps : Ps) (x : Text), protoParams list i ps = some x →
    ∃ l, Texts ps l ∧ ∀ p ∈ l, p.1 ≠ [] → p.2 ≠ []
  | .nil, _, _ => ⟨[], rfl, by simp⟩
  | .cons n t ps, x, h => by
    rw [protoParams] at h
    cases hr : reprT t with
    | none => rw [hr] at h; cases h
    | some r =>
      cases hp : protoParams list (i + 1) ps with
      | none => rw [hr, hp] at h; cases h
      | some y =>
        obtain ⟨l, h1, h2⟩ := protoParams_spec list (i + 1) ps y hp
        rw [hr, hp] at h
        simp only at h
        by_cases hc : n ≠ [] ∧ r = []
        · rw [if_pos hc] at h; cases h
        · refine ⟨(n, r) :: l, ⟨r, l, hr, rfl, h1⟩, ?_⟩
          intro p hpm
          rcases List.mem_cons.1 hpm with rfl | hpm
          · intro hn hr'
            exact hc ⟨hn, hr'⟩
          · exact h2 p hpm

/-- The number before the `i`-th parameter. -/
def mark (list : Bool) (i : Nat) : Text := if list then s "\n" ++ Nat.toDigits 10 i ++ s ":\t" else []

/-- The separator before the `i`-th parameter. -/
def sep (i : Nat) : Text := if i ≠ 0 then s ", " else []

/-- The parameters as text, when all have names. -/
def joined (list : Bool) : Nat → List (Text × Text) → Text
  | _, [] => []
  | i, p :: l => sep i ++ mark list i ++ beside p.2 p.1 ++ joined list (i + 1) l

theorem protoParams_iff (list : Bool) (i : Nat) : ∀ (ps : Ps) (l : List (Text × Text)) (x : Text), Texts ps l →
    (∀ p ∈ l, p.1 ≠ []) → (∀ p ∈ l, p.2 ≠ []) → (protoParams list i ps = some x ↔ x = joined list i l)
  | .nil, l, x, h, _, _ => by
    cases h
    simp only [protoParams, joined, Option.some.injEq]
    exact eq_comm
  | .cons n t ps, l, x, h, hn, hr => by
    obtain ⟨r, l', h1, rfl, h2⟩ := h
    have ih := fun y => protoParams_iff list (i + 1) ps l' y h2 (fun p hp => hn p (List.mem_cons_of_mem _ hp))
      (fun p hp => hr p (List.mem_cons_of_mem _ hp))
    have h3 : protoParams list (i + 1) ps = some (joined list (i + 1) l') := (ih _).2 rfl
    have hn' : n ≠ [] := hn (n, r) List.mem_cons_self
    have hr' : r ≠ [] := hr (n, r) List.mem_cons_self
    have hc : ¬ (n ≠ [] ∧ r = []) := fun h => hr' h.2
    rw [protoParams, h1, h3]
    simp only
    rw [if_neg hc, if_pos hn', joined, Option.some.injEq]
    exact eq_comm

theorem texts_unique : ∀ (ps : Ps) (l l' : List (Text × Text)), Texts ps l → Texts ps l' → l = l'
  | .nil, _, _, h, h' => by rw [show _ = _ from h, show _ = _ from h']
  | .cons n t ps, l, l', ⟨r, k, h1, e1, h2⟩, ⟨r', k', h1', e1', h2'⟩ => by
    rw [h1] at h1'
    cases h1'
    rw [e1, e1', texts_unique ps k k' h2 h2']

theorem joined_spec : ∀ (list : Bool) (i : Nat) (l : List (Text × Text)),
    joined list i l = if i = 0 then ((l.mapIdx fun j p => mark list (j + i) ++ beside p.2 p.1).intersperse (s ", ")).flatten
      else (l.mapIdx fun j p => s ", " ++ (mark list (j + i) ++ beside p.2 p.1)).flatten := by
  have hbig : ∀ (list : Bool) (l : List (Text × Text)) (i : Nat), i ≠ 0 →
      joined list i l = (l.mapIdx fun j p => s ", " ++ (mark list (j + i) ++ beside p.2 p.1)).flatten := by
    intro list l
    induction l with
    | nil => intro i hi; rfl
    | cons p l ih =>
      intro i hi
      rw [joined, ih (i + 1) (by omega), List.mapIdx_cons, sep, if_pos hi]
      simp only [List.flatten_cons, List.append_assoc, Nat.zero_add]
      congr 5
      funext j p
      rw [show j + 1 + i = j + (i + 1) by omega]
  have hint : ∀ (xs : List Text) (a : Text), ((a :: xs).intersperse (s ", ")).flatten = a ++ (xs.map (s ", " ++ ·)).flatten := by
    intro xs
    induction xs with
    | nil => intro a; simp
    | cons b xs ih =>
      intro a
      rw [List.intersperse_cons_cons, List.flatten_cons, List.flatten_cons, ih, List.map_cons, List.flatten_cons, List.append_assoc]
  intro list i l
  by_cases hi : i = 0
  · subst hi
    rw [if_pos rfl]
    cases l with
    | nil => rfl
    | cons p l =>
      rw [joined, hbig _ _ _ (by omega), List.mapIdx_cons, hint, sep]
      simp only [ne_eq, not_true_eq_false, ↓reduceIte, List.nil_append, Nat.zero_add, Nat.add_zero]
      congr 1
      have : ∀ (f : Nat → Text × Text → Text) (g : Text → Text) (l : List (Text × Text)), (l.mapIdx f).map g = l.mapIdx fun j p => g (f j p) := by
        intro f g l
        apply List.ext_getElem?
        intro k
        simp only [List.getElem?_map, List.getElem?_mapIdx, Option.map_map]
        rfl
      rw [this]
  · rw [if_neg hi]
    exact hbig list l i hi

theorem decls_of (l : List (Text × Text)) : Decls (l.map fun p => beside p.2 p.1) l := by
  induction l with
  | nil => trivial
  | cons p l ih => exact ⟨decl_beside _ _, ih⟩

theorem showFunc_eq (name : Text) (ret : T) (ps : Ps) (list : Bool) (r : Text) (l : List (Text × Text)) (hr : reprT ret = some r)
    (hr' : r ≠ []) (ht : Texts ps l) (hn : ∀ p ∈ l, p.1 ≠ []) (hp : ∀ p ∈ l, p.2 ≠ []) :
    showFunc name ret ps list = some (beside r name ++ s "(" ++ joined list 0 l ++ (if list ∧ l ≠ [] then s "\n" else []) ++ s ")") := by
  rw [showFunc, hr, (protoParams_iff list 0 ps l _ ht hn hp).2 rfl]
  simp only
  rw [if_neg hr']
  have e : ps.toList ≠ [] ↔ l ≠ [] := by
    cases ps with
    | nil => cases ht; simp [Ps.toList]
    | cons n t ps =>
      obtain ⟨_, _, _, rfl, _⟩ := ht
      simp [Ps.toList]
  simp only [e]
  rw [beside]
  by_cases h : r.getLast? = some '*'
  · rw [if_pos h, if_pos h]
  · rw [if_neg h, if_neg h]

/-! ### Theorems -/

/-- The prototype shown for a function whose parameters have names is its prototype in C: the text of its result, its name,
and the parameters in order with the texts of their types. -/
theorem prototype_shown (name : Text) (ret : T) (ps : Ps) (r : Text) (l : List (Text × Text)) (hr : reprT ret = some r)
    (hr' : r ≠ []) (ht : Texts ps l) (hn : ∀ p ∈ l, p.1 ≠ []) (hp : ∀ p ∈ l, p.2 ≠ []) :
    ∃ x, showFunc name ret ps false = some x ∧ Prototype x name r l := by
  refine ⟨_, showFunc_eq name ret ps false r l hr hr' ht hn hp, beside r name, l.map fun p => beside p.2 p.1, decl_beside _ _,
    decls_of l, ?_⟩
  rw [joined_spec, if_pos rfl]
  have e1 : (l.mapIdx fun j p => mark false (j + 0) ++ beside p.2 p.1) = l.map fun p => beside p.2 p.1 := by
    apply List.ext_getElem?
    intro k
    simp [mark]
  rw [e1]
  simp

/-- With `--list-func-params`, likewise with the number of each parameter. -/
theorem listing_shown (name : Text) (ret : T) (ps : Ps) (r : Text) (l : List (Text × Text)) (hr : reprT ret = some r)
    (hr' : r ≠ []) (ht : Texts ps l) (hn : ∀ p ∈ l, p.1 ≠ []) (hp : ∀ p ∈ l, p.2 ≠ []) :
    ∃ x, showFunc name ret ps true = some x ∧ Listing x name r l := by
  refine ⟨_, showFunc_eq name ret ps true r l hr hr' ht hn hp, beside r name, l.map fun p => beside p.2 p.1, decl_beside _ _,
    decls_of l, ?_⟩
  rw [joined_spec, if_pos rfl]
  have e1 : (l.map fun p => beside p.2 p.1).mapIdx (fun i d => s "\n" ++ Nat.toDigits 10 i ++ s ":\t" ++ d) =
      l.mapIdx fun j p => mark true (j + 0) ++ beside p.2 p.1 := by
    apply List.ext_getElem?
    intro k
    simp only [List.getElem?_map, List.getElem?_mapIdx, Option.map_map]
    rfl
  have e2 : (if (true = true) ∧ l ≠ [] then s "\n" else []) = if l = [] then [] else s "\n" := by
    by_cases h : l = [] <;> simp [h]
  rw [e1, e2]

set_option maxHeartbeats 800000 in
/-- From the prototype shown, the name, the result and the parameters can be read: two functions with the same text have the
same name, the same text of the result, and the same names and texts of the types of the parameters, in the same order. -/
theorem prototype_read (list : Bool) (name name' : Text) (ret ret' : T) (ps ps' : Ps) (r r' : Text) (l l' : List (Text × Text))
    (hr : reprT ret = some r) (hr' : reprT ret' = some r') (ht : Texts ps l) (ht' : Texts ps' l')
    (hp : Plain r) (hp' : Plain r') (hn : Ident name) (hn' : Ident name')
    (hl : ∀ p ∈ l, Ident p.1 ∧ Plain p.2) (hl' : ∀ p ∈ l', Ident p.1 ∧ Plain p.2)
    (h : showFunc name ret ps list = showFunc name' ret' ps' list) : name = name' ∧ r = r' ∧ l = l' := by
  rw [showFunc_eq name ret ps list r l hr hp.1 ht (fun p hp => (hl p hp).1.1) (fun p hp => (hl p hp).2.1),
    showFunc_eq name' ret' ps' list r' l' hr' hp'.1 ht' (fun p hp => (hl' p hp).1.1) (fun p hp => (hl' p hp).2.1),
    Option.some.injEq] at h
  have clean : ∀ (r n : Text), Plain r → Ident n → ∀ c ∈ beside r n, ¬ (c = '(' ∨ c = ',' ∨ c = '\n' ∨ c = ')') := by
    intro r n h1 h2 c hc
    have h3 : c ∈ r ∨ c = ' ' ∨ c ∈ n := by
      unfold beside at hc
      by_cases hs : r.getLast? = some '*'
      · rw [if_pos hs] at hc
        rcases List.mem_append.1 hc with h | h
        · exact .inl h
        · exact .inr (.inr h)
      · rw [if_neg hs] at hc
        rcases List.mem_append.1 hc with h | h
        · rcases List.mem_append.1 h with h | h
          · exact .inl h
          · exact .inr (.inl (List.mem_singleton.1 h))
        · exact .inr (.inr h)
    rintro (rfl | rfl | rfl | rfl) <;> rcases h3 with h3 | h3 | h3
    all_goals first
      | exact (h1.2 _ h3).1 rfl
      | exact (h1.2 _ h3).2.2.1 rfl
      | exact (h1.2 _ h3).2.2.2 rfl
      | exact (h1.2 _ h3).2.1 rfl
      | exact absurd (h2.2 _ h3) (by decide)
      | exact absurd h3 (by decide)
  simp only [List.append_assoc] at h
  obtain ⟨e1, e2⟩ := cut (fun c => c = '(' ∨ c = ',' ∨ c = '\n' ∨ c = ')') _ _ _ _ (clean r name hp hn) (clean r' name' hp' hn')
    (by intro c hc; exact .inl (by cases hc; rfl)) (by intro c hc; exact .inl (by cases hc; rfl)) h
  obtain ⟨g1, g2⟩ := beside_inj _ _ _ _ hn hn' e1
  refine ⟨g2, g1, ?_⟩
  have e3 := List.append_cancel_left e2
  have stop : ∀ (i : Nat) (l : List (Text × Text)) (y : Text), (∃ c t, y = c :: t ∧ (c = '\n' ∨ c = ')')) → ∀ c,
      (joined list (i + 1) l ++ y).head? = some c → (c = '(' ∨ c = ',' ∨ c = '\n' ∨ c = ')') := by
    intro i l y hy c hc
    cases l with
    | nil =>
      obtain ⟨d, t, rfl, hd⟩ := hy
      rw [joined, List.nil_append, List.head?_cons, Option.some.injEq] at hc
      subst hc
      rcases hd with h | h
      · exact .inr (.inr (.inl h))
      · exact .inr (.inr (.inr h))
    | cons q l =>
      rw [joined, sep, if_pos (by omega)] at hc
      simp [s] at hc
      exact .inr (.inl hc.symm)
  have key : ∀ (l l' : List (Text × Text)) (i : Nat) (y y' : Text), (∀ p ∈ l, Ident p.1 ∧ Plain p.2) → (∀ p ∈ l', Ident p.1 ∧ Plain p.2) →
      (∃ c t, y = c :: t ∧ (c = '\n' ∨ c = ')')) → (∃ c t, y' = c :: t ∧ (c = '\n' ∨ c = ')')) → i ≠ 0 →
      joined list i l ++ y = joined list i l' ++ y' → l = l' := by
    intro l
    induction l with
    | nil =>
      intro l' i y y' _ h' hy hy' hi h
      cases l' with
      | nil => rfl
      | cons p l' =>
        obtain ⟨c, t, rfl, hc⟩ := hy
        rw [joined, joined, sep, if_pos hi] at h
        have h1 : c = ',' := by
          have := congrArg List.head? h
          simpa [s] using this
        rw [h1] at hc
        exact absurd hc (by decide)
    | cons p l ih =>
      intro l' i y y' hl hl' hy hy' hi h
      cases l' with
      | nil =>
        obtain ⟨c, t, rfl, hc⟩ := hy'
        rw [joined, joined, sep, if_pos hi] at h
        have h1 : c = ',' := by
          have := congrArg List.head? h
          simp [s] at this
          exact this.symm
        rw [h1] at hc
        exact absurd hc (by decide)
      | cons p' l' =>
        rw [joined, joined] at h
        simp only [List.append_assoc] at h
        have h1 := List.append_cancel_left (List.append_cancel_left h)
        obtain ⟨a1, a2⟩ := hl p List.mem_cons_self
        obtain ⟨b1, b2⟩ := hl' p' List.mem_cons_self
        obtain ⟨f1, f2⟩ := cut _ _ _ _ _ (clean p.2 p.1 a2 a1) (clean p'.2 p'.1 b2 b1) (stop i l y hy) (stop i l' y' hy') h1
        obtain ⟨k1, k2⟩ := beside_inj _ _ _ _ a1 b1 f1
        have := ih l' (i + 1) y y' (fun q hq => hl q (List.mem_cons_of_mem _ hq)) (fun q hq => hl' q (List.mem_cons_of_mem _ hq))
          hy hy' (by omega) f2
        rw [this, show p = p' from Prod.ext k2 k1]
  have zero : ∀ (a : Text × Text) (k : List (Text × Text)), joined list 0 (a :: k) = mark list 0 ++ beside a.2 a.1 ++ joined list 1 k := by
    intro a k
    rw [joined, sep, if_neg (by decide)]
    rfl
  have first : ∀ (l : List (Text × Text)), l ≠ [] → ∀ (p : Text × Text) (k : List (Text × Text)), l = p :: k → Ident p.1 ∧ Plain p.2 →
      ∀ c, (joined list 0 l).head? = some c → c ≠ ')' := by
    intro l _ p k e hi c hc
    rw [e, zero] at hc
    cases list with
    | true =>
      simp [mark, s] at hc
      rw [← hc]
      decide
    | false =>
      rw [show mark false 0 = [] from rfl, List.nil_append] at hc
      have hb : beside p.2 p.1 ≠ [] := by
        intro hb
        have : p.2 = [] := by
          unfold beside at hb
          split at hb <;> simp only [List.append_eq_nil_iff] at hb
          · exact hb.1
          · exact hb.1.1
        exact hi.2.1 this
      cases hbs : beside p.2 p.1 with
      | nil => exact absurd hbs hb
      | cons d t =>
        rw [hbs] at hc
        cases hc
        intro h
        exact clean p.2 p.1 hi.2 hi.1 _ (by rw [hbs]; exact List.mem_cons_self) (.inr (.inr (.inr h)))
  have close : ∀ l : List (Text × Text), ∃ c t, ((if list = true ∧ l ≠ [] then s "\n" else []) ++ s ")" : Text) = c :: t ∧ (c = '\n' ∨ c = ')') := by
    intro l
    by_cases h : list = true ∧ l ≠ []
    · rw [if_pos h]; exact ⟨_, _, rfl, .inl rfl⟩
    · rw [if_neg h]; exact ⟨_, _, rfl, .inr rfl⟩
  have nonempty : ∀ (p : Text × Text) (k : List (Text × Text)), Ident p.1 ∧ Plain p.2 → joined list 0 (p :: k) ≠ [] := by
    intro p k hi h
    rw [zero] at h
    simp only [List.append_eq_nil_iff] at h
    have hb := h.1.2
    unfold beside at hb
    split at hb <;> simp only [List.append_eq_nil_iff] at hb
    · exact hi.1.1 hb.2
    · exact hi.1.1 hb.2
  have empty : ∀ (p : Text × Text) (k : List (Text × Text)) (y : Text), Ident p.1 ∧ Plain p.2 → s ")" ≠ joined list 0 (p :: k) ++ y := by
    intro p k y hi h
    cases hj : joined list 0 (p :: k) with
    | nil => exact nonempty p k hi hj
    | cons c t =>
      rw [hj] at h
      have := congrArg List.head? h
      have hc : ')' = c := by simpa [s] using this
      exact first (p :: k) (by simp) p k rfl hi c (by rw [hj]; rfl) hc.symm
  cases l with
  | nil =>
    cases l' with
    | nil => rfl
    | cons p' l' =>
      rw [if_neg (by simp)] at e3
      exact absurd e3 (empty p' l' _ (hl' p' List.mem_cons_self))
  | cons p l =>
    cases l' with
    | nil =>
      rw [if_neg (c := list = true ∧ ([] : List (Text × Text)) ≠ []) (by simp)] at e3
      exact absurd e3.symm (empty p l _ (hl p List.mem_cons_self))
    | cons p' l' =>
      have cl := close (p :: l)
      have cl' := close (p' :: l')
      rw [zero, zero] at e3
      simp only [List.append_assoc] at e3
      have h1 := List.append_cancel_left e3
      obtain ⟨a1, a2⟩ := hl p List.mem_cons_self
      obtain ⟨b1, b2⟩ := hl' p' List.mem_cons_self
      obtain ⟨f1, f2⟩ := cut _ _ _ _ _ (clean p.2 p.1 a2 a1) (clean p'.2 p'.1 b2 b1) (stop 0 l _ cl) (stop 0 l' _ cl') h1
      obtain ⟨k1, k2⟩ := beside_inj _ _ _ _ a1 b1 f1
      have := key l l' 1 _ _ (fun q hq => hl q (List.mem_cons_of_mem _ hq)) (fun q hq => hl' q (List.mem_cons_of_mem _ hq))
        cl cl' (by omega) f2
      rw [this, show p = p' from Prod.ext k2 k1]

/-- `int ip_rcv(struct sk_buff *skb, struct net_device *dev)`: the hypotheses are met, and so is shown. -/
theorem prototype_witness :
    let ps : Ps := .cons (s "skb") (.ptr (.comp false (s "sk_buff") 232 .nil)) (.cons (s "len") (.int (s "unsigned int") 4) .nil)
    Texts ps [(s "skb", s "struct sk_buff *"), (s "len", s "unsigned int")] ∧
    showFunc (s "ip_rcv") (.int (s "int") 4) ps false = some (s "int ip_rcv(struct sk_buff *skb, unsigned int len)") ∧
    showFunc (s "ip_rcv") (.int (s "int") 4) ps true =
      some (s "int ip_rcv(\n0:\tstruct sk_buff *skb, \n1:\tunsigned int len\n)") ∧
    Ident (s "skb") ∧ Plain (s "struct sk_buff *") := by
  refine ⟨⟨_, _, by decide +kernel, rfl, ⟨_, _, by decide +kernel, rfl, rfl⟩⟩, by decide +kernel, by decide +kernel, ⟨by decide, ?_⟩, by decide, ?_⟩
  · decide
  · decide

/-- The dots of a variadic function, which BTF has as a last parameter without name and of type void, are shown as `void`. -/
theorem variadic_violated :
    showFunc (s "_printk") (.int (s "int") 4) (.cons (s "fmt") (.ptr (.qual (s "const") (.int (s "char") 1))) (.cons [] .void .nil)) false =
      some (s "int _printk(const char *fmt, void)") := by decide +kernel

/-- A parameter that is a pointer to a function shows neither its result nor its parameters. -/
theorem function_pointer_violated (name fn : Text) (ret r1 r2 : T) (p1 p2 : Ps) (list : Bool) :
    showFunc name ret (.cons fn (.ptr (.proto r1 p1)) .nil) list = showFunc name ret (.cons fn (.ptr (.proto r2 p2)) .nil) list := by
  simp [showFunc, protoParams, reprT, reprAcc, Ps.toList]

end Bpfsnoop.Pt
