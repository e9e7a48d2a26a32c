import Verif.Model.Flags
import Verif.Props.CcNum

/-! Selectors on the command line: `-p` (C36) and `-k` (C47). -/
namespace Bpfsnoop.Flg
open Cc

/-! ### Specification: prefixes -/

/-- The prefixes of a program selector. -/
def progTok (t : Str) : Bool :=
  ["(g)".toList, "(s)".toList, "(l)".toList, "(b)".toList, "(p)".toList].contains t

/-- The prefixes of a kernel function selector; `(skb)` in any case. -/
def kfuncTok (t : Str) : Bool :=
  progTok t || t == "(i)".toList || t == "(m)".toList || t.map Char.toLower == "(skb)".toList

/-- `s` is a sequence of prefixes followed by `body`, which starts with no parenthesis. -/
def Prefixed (tok : Str → Bool) (s : Str) (toks : List Str) (body : Str) : Prop :=
  s = toks.flatten ++ body ∧ (∀ t ∈ toks, tok t = true) ∧ body.head? ≠ some '('

/-- What a sequence of prefixes asks for. -/
def asked (toks : List Str) : Pre :=
  { insn := toks.contains "(i)".toList
    graph := toks.contains "(g)".toList
    stack := toks.contains "(s)".toList
    lbr := toks.contains "(l)".toList
    both := toks.contains "(b)".toList
    pkt := toks.contains "(p)".toList
    multi := toks.contains "(m)".toList
    skb := toks.any (fun t => t.map Char.toLower == "(skb)".toList) }

/-! ### The loop over prefixes -/

/-- Effect of one prefix. -/
def eff (t : Str) (f : Pre) : Pre :=
  { insn := f.insn || t == "(i)".toList
    graph := f.graph || t == "(g)".toList
    stack := f.stack || t == "(s)".toList
    lbr := f.lbr || t == "(l)".toList
    both := f.both || t == "(b)".toList
    pkt := f.pkt || t == "(p)".toList
    multi := f.multi || t == "(m)".toList
    skb := f.skb || t.map Char.toLower == "(skb)".toList }

def effs (toks : List Str) (f : Pre) : Pre := toks.foldl (fun f t => eff t f) f

theorem contains_cons' (t : Str) (ts : List Str) (p : Str) : (t :: ts).contains p = (t == p || ts.contains p) := by
  rw [List.contains_cons]
  congr 1
  exact BEq.comm

theorem effs_eq (toks : List Str) : ∀ f, effs toks f =
    { insn := f.insn || (asked toks).insn, graph := f.graph || (asked toks).graph, stack := f.stack || (asked toks).stack,
      lbr := f.lbr || (asked toks).lbr, both := f.both || (asked toks).both, pkt := f.pkt || (asked toks).pkt,
      multi := f.multi || (asked toks).multi, skb := f.skb || (asked toks).skb } := by
  induction toks with
  | nil => intro f; simp [effs, asked]
  | cons t ts ih =>
    intro f
    have : effs (t :: ts) f = effs ts (eff t f) := rfl
    rw [this, ih]
    simp only [eff, asked, contains_cons', List.any_cons, Bool.or_assoc]

theorem effs_init (toks : List Str) : effs toks {} = asked toks := by
  rw [effs_eq]; simp

theorem effs_append (a b : List Str) (f : Pre) : effs (a ++ b) f = effs b (effs a f) := by
  simp [effs, List.foldl_append]

/-- A step of a pass: it removes a prefix accepted by `P`, or does nothing. -/
def IsStep (P : Str → Prop) (S : Pre × Str → Pre × Str) : Prop :=
  ∀ f s, (∃ t r, s = t ++ r ∧ P t ∧ S (f, s) = (eff t f, r)) ∨ ((∀ t r, s = t ++ r → ¬ P t) ∧ S (f, s) = (f, s))

theorem isPrefixOf_iff (p s : Str) : p.isPrefixOf s = true ↔ ∃ r, s = p ++ r := by
  rw [List.isPrefixOf_iff_prefix]
  exact ⟨fun ⟨r, h⟩ => ⟨r, h.symm⟩, fun ⟨r, h⟩ => ⟨r, h.symm⟩⟩

theorem strip_step (p : Str) (set : Pre → Pre) (hset : ∀ f, set f = eff p f) : IsStep (· = p) (strip p set) := by
  intro f s
  unfold strip
  by_cases h : p.isPrefixOf s
  · obtain ⟨r, rfl⟩ := (isPrefixOf_iff p s).1 h
    left
    refine ⟨p, r, rfl, rfl, ?_⟩
    simp only [h, if_true, hset]
    simp
  · right
    constructor
    · rintro t r rfl rfl
      exact h ((isPrefixOf_iff _ _).2 ⟨r, rfl⟩)
    · simp [h]

theorem eff_skb (t : Str) (h : t.map Char.toLower = "(skb)".toList) (f : Pre) : eff t f = { f with skb := true } := by
  have hl : t.length = 5 := by
    have := congrArg List.length h
    simpa using this
  have hne : ∀ p : Str, p.length = 3 → (t == p) = false := by
    intro p hp
    simp only [beq_eq_false_iff_ne, ne_eq]
    rintro rfl
    omega
  simp only [eff, hne "(i)".toList rfl, hne "(g)".toList rfl, hne "(s)".toList rfl, hne "(l)".toList rfl,
    hne "(b)".toList rfl, hne "(p)".toList rfl, hne "(m)".toList rfl, h, Bool.or_false, beq_self_eq_true, Bool.or_true]

theorem stripSkb_step : IsStep (fun t => t.map Char.toLower = "(skb)".toList) stripSkb := by
  intro f s
  unfold stripSkb
  by_cases h : "(skb)".toList.isPrefixOf (s.map Char.toLower)
  · left
    obtain ⟨r, hr⟩ := (isPrefixOf_iff _ _).1 h
    have h5 : (s.take 5).map Char.toLower = "(skb)".toList := by
      rw [List.map_take, hr]; rfl
    refine ⟨s.take 5, s.drop 5, (List.take_append_drop 5 s).symm, h5, ?_⟩
    simp only [h, if_true]
    rw [eff_skb _ h5]
  · right
    constructor
    · rintro t r rfl ht
      exact h ((isPrefixOf_iff _ _).2 ⟨r.map Char.toLower, by rw [List.map_append, ht]⟩)
    · simp only [h]; rfl

/-- A pass: whatever it removes is a sequence of accepted prefixes, and it removes something if some accepted
prefix is there. -/
def IsPass (tok : Str → Bool) (S : Pre × Str → Pre × Str) : Prop :=
  ∀ f s, (∃ toks r, s = toks.flatten ++ r ∧ toks ≠ [] ∧ (∀ t ∈ toks, tok t = true) ∧ S (f, s) = (effs toks f, r)) ∨
    ((∀ t r, s = t ++ r → tok t = false) ∧ S (f, s) = (f, s))

theorem IsPass.comp {tok₁ tok₂ : Str → Bool} {P : Str → Prop} {S T : Pre × Str → Pre × Str} (hS : IsPass tok₁ S)
    (hT : IsStep P T) (h₂ : ∀ t, tok₂ t = true ↔ tok₁ t = true ∨ P t) : IsPass tok₂ (fun x => T (S x)) := by
  intro f s
  rcases hS f s with ⟨toks, r, rfl, hne, htok, he⟩ | ⟨hno, he⟩
  · left
    rcases hT (effs toks f) r with ⟨t, r', rfl, hP, he'⟩ | ⟨hno, he'⟩
    · refine ⟨toks ++ [t], r', by simp, by simp, ?_, ?_⟩
      · intro u hu
        rw [h₂]
        rcases List.mem_append.1 hu with hu | hu
        · exact Or.inl (htok u hu)
        · obtain rfl := List.mem_singleton.1 hu
          exact Or.inr hP
      · simp only [he, he', effs_append]; rfl
    · exact ⟨toks, r, rfl, hne, fun u hu => (h₂ u).2 (Or.inl (htok u hu)), by simp only [he, he']⟩
  · rcases hT f s with ⟨t, r', rfl, hP, he'⟩ | ⟨hno', he'⟩
    · left
      refine ⟨[t], r', by simp, by simp, ?_, by simp only [he, he']; rfl⟩
      intro u hu
      obtain rfl := List.mem_singleton.1 hu
      exact (h₂ u).2 (Or.inr hP)
    · right
      refine ⟨?_, by simp only [he, he']⟩
      intro t r hs
      have h1 := hno t r hs
      have h2 := hno' t r hs
      cases h : tok₂ t with
      | false => rfl
      | true =>
        rcases (h₂ t).1 h with h | h
        · rw [h1] at h; cases h
        · exact absurd h h2

theorem idPass : IsPass (fun _ => false) (fun x => x) := by
  intro f s
  exact Or.inr ⟨fun _ _ _ => rfl, rfl⟩

theorem IsPass.congr {tok₁ tok₂ : Str → Bool} {S : Pre × Str → Pre × Str} (h : IsPass tok₁ S) (he : ∀ t, tok₁ t = tok₂ t) :
    IsPass tok₂ S := by
  have : tok₁ = tok₂ := funext he
  exact this ▸ h

macro "setEff" : tactic => `(tactic| (intro f; simp [eff]))

theorem passP_pass : IsPass progTok passP := by
  have h := ((((idPass.comp (strip_step "(g)".toList (fun f => { f with graph := true }) (by setEff))
      (tok₂ := fun t => t == "(g)".toList) (by simp)).comp
    (strip_step "(s)".toList (fun f => { f with stack := true }) (by setEff))
      (tok₂ := fun t => t == "(g)".toList || t == "(s)".toList) (by simp)).comp
    (strip_step "(l)".toList (fun f => { f with lbr := true }) (by setEff))
      (tok₂ := fun t => t == "(g)".toList || t == "(s)".toList || t == "(l)".toList) (by simp)).comp
    (strip_step "(b)".toList (fun f => { f with both := true }) (by setEff))
      (tok₂ := fun t => t == "(g)".toList || t == "(s)".toList || t == "(l)".toList || t == "(b)".toList) (by simp)).comp
    (strip_step "(p)".toList (fun f => { f with pkt := true }) (by setEff))
      (tok₂ := progTok) (by intro t; simp [progTok]; grind)
  exact h

theorem passK_pass : IsPass kfuncTok passK := by
  have h := (((((((idPass.comp (strip_step "(i)".toList (fun f => { f with insn := true }) (by setEff))
      (tok₂ := fun t => t == "(i)".toList) (by simp)).comp
    (strip_step "(g)".toList (fun f => { f with graph := true }) (by setEff))
      (tok₂ := fun t => t == "(i)".toList || t == "(g)".toList) (by simp)).comp
    (strip_step "(s)".toList (fun f => { f with stack := true }) (by setEff))
      (tok₂ := fun t => t == "(i)".toList || t == "(g)".toList || t == "(s)".toList) (by simp)).comp
    (strip_step "(l)".toList (fun f => { f with lbr := true }) (by setEff))
      (tok₂ := fun t => t == "(i)".toList || t == "(g)".toList || t == "(s)".toList || t == "(l)".toList) (by simp)).comp
    (strip_step "(b)".toList (fun f => { f with both := true }) (by setEff))
      (tok₂ := fun t => t == "(i)".toList || t == "(g)".toList || t == "(s)".toList || t == "(l)".toList || t == "(b)".toList)
      (by simp)).comp
    (strip_step "(p)".toList (fun f => { f with pkt := true }) (by setEff))
      (tok₂ := fun t => t == "(i)".toList || progTok t) (by intro t; simp [progTok]; grind)).comp
    (strip_step "(m)".toList (fun f => { f with multi := true }) (by setEff))
      (tok₂ := fun t => t == "(i)".toList || progTok t || t == "(m)".toList) (by simp)).comp
    stripSkb_step (tok₂ := kfuncTok) (by intro t; simp [kfuncTok]; grind)
  exact h

/-- Accepted prefixes start with `(` and have their only `)` at the end. -/
def Shape (tok : Str → Bool) : Prop :=
  ∀ t, tok t = true → ∃ u, t = u ++ [')'] ∧ ')' ∉ u ∧ t.head? = some '('

theorem progTok_shape : Shape progTok := by
  intro t h
  simp only [progTok, List.contains_iff_mem] at h
  simp only [List.mem_cons, List.not_mem_nil, or_false] at h
  rcases h with rfl | rfl | rfl | rfl | rfl
  · exact ⟨"(g".toList, rfl, by decide, rfl⟩
  · exact ⟨"(s".toList, rfl, by decide, rfl⟩
  · exact ⟨"(l".toList, rfl, by decide, rfl⟩
  · exact ⟨"(b".toList, rfl, by decide, rfl⟩
  · exact ⟨"(p".toList, rfl, by decide, rfl⟩

theorem toLower_paren (c d : Char) (hd : d = '(' ∨ d = ')') (h : c.toLower = d) : c = d := by
  unfold Char.toLower at h
  split at h
  · next hc =>
    exfalso
    have hv := congrArg (fun c : Char => c.val.toNat) h
    have h1 : c.val.toNat ≥ 65 ∧ c.val.toNat ≤ 90 := by
      have := hc
      simp only [UInt32.le_iff_toNat_le] at this
      simpa using this
    have h2 : (c.val + ('a'.val - 'A'.val)).toNat = c.val.toNat + 32 := by
      rw [UInt32.toNat_add]
      have : ('a'.val - 'A'.val).toNat = 32 := by decide
      rw [this]; omega
    have hv' : (c.val + ('a'.val - 'A'.val)).toNat = d.val.toNat := hv
    rw [h2] at hv'
    rcases hd with rfl | rfl
    · have : '('.val.toNat = 40 := by decide
      omega
    · have : ')'.val.toNat = 41 := by decide
      omega
  · exact h

theorem kfuncTok_shape : Shape kfuncTok := by
  intro t h
  simp only [kfuncTok, Bool.or_eq_true] at h
  rcases h with ((h | h) | h) | h
  · exact progTok_shape t h
  · obtain rfl := eq_of_beq h
    exact ⟨"(i".toList, rfl, by decide, rfl⟩
  · obtain rfl := eq_of_beq h
    exact ⟨"(m".toList, rfl, by decide, rfl⟩
  · have h := eq_of_beq h
    match t, h with
    | [a, b, c, d, e], h =>
      have h' : [a.toLower, b.toLower, c.toLower, d.toLower, e.toLower] = ['(', 's', 'k', 'b', ')'] := h
      simp only [List.cons.injEq, and_true] at h'
      obtain ⟨ha, hb, hc, hd, he⟩ := h'
      obtain rfl := toLower_paren a _ (Or.inl rfl) ha
      obtain rfl := toLower_paren e _ (Or.inr rfl) he
      refine ⟨['(', b, c, d], rfl, ?_, rfl⟩
      simp only [List.mem_cons, List.not_mem_nil, or_false, not_or]
      refine ⟨by decide, ?_, ?_, ?_⟩
      · rintro rfl; exact absurd hb (by decide)
      · rintro rfl; exact absurd hc (by decide)
      · rintro rfl; exact absurd hd (by decide)
    | [], h => simp at h
    | [_], h => simp at h
    | [_, _], h => simp at h
    | [_, _, _], h => simp at h
    | [_, _, _, _], h => simp at h
    | _ :: _ :: _ :: _ :: _ :: _ :: _, h => simp at h

theorem paren_unique : ∀ (u v : Str) (r s : Str), ')' ∉ u → ')' ∉ v → u ++ ')' :: r = v ++ ')' :: s → u = v ∧ r = s
  | [], [], r, s, _, _, h => by simpa using h
  | [], b :: v, r, s, _, hv, h => by
    simp only [List.nil_append, List.cons_append, List.cons.injEq] at h
    exact absurd (List.mem_cons.2 (Or.inl h.1)) hv
  | a :: u, [], r, s, hu, _, h => by
    simp only [List.nil_append, List.cons_append, List.cons.injEq] at h
    exact absurd (List.mem_cons.2 (Or.inl h.1.symm)) hu
  | a :: u, b :: v, r, s, hu, hv, h => by
    simp only [List.cons_append, List.cons.injEq] at h
    have := paren_unique u v r s (fun x => hu (by simp [x])) (fun x => hv (by simp [x])) h.2
    exact ⟨by rw [h.1, this.1], this.2⟩

theorem Shape.unique {tok : Str → Bool} (hs : Shape tok) {t u r s : Str} (ht : tok t = true) (hu : tok u = true)
    (h : t ++ r = u ++ s) : t = u ∧ r = s := by
  obtain ⟨a, rfl, ha, _⟩ := hs t ht
  obtain ⟨b, rfl, hb, _⟩ := hs u hu
  have := paren_unique a b r s ha hb (by simpa using h)
  exact ⟨by rw [this.1], this.2⟩

theorem Shape.head {tok : Str → Bool} (hs : Shape tok) {t r : Str} (ht : tok t = true) : (t ++ r).head? = some '(' := by
  obtain ⟨u, _, _, h⟩ := hs t ht
  cases t with
  | nil => simp at h
  | cons c cs => simpa using h

/-- Removing prefixes from a prefixed string leaves a prefixed string. -/
theorem Prefixed.rest {tok : Str → Bool} (hs : Shape tok) : ∀ (done toks : List Str) (r body : Str),
    (∀ t ∈ done, tok t = true) → (∀ t ∈ toks, tok t = true) → body.head? ≠ some '(' →
    done.flatten ++ r = toks.flatten ++ body → ∃ more, toks = done ++ more ∧ r = more.flatten ++ body
  | [], toks, r, body, _, _, _, h => ⟨toks, rfl, by simpa using h⟩
  | d :: ds, [], r, body, hd, _, hb, h => by
    exfalso
    apply hb
    have h' : d ++ (ds.flatten ++ r) = body := by simpa using h
    rw [← h']
    exact hs.head (hd d (by simp))
  | d :: ds, t :: ts, r, body, hd, ht, hb, h => by
    have h' : d ++ (ds.flatten ++ r) = t ++ (ts.flatten ++ body) := by simpa using h
    obtain ⟨rfl, h2⟩ := hs.unique (hd d (by simp)) (ht t (by simp)) h'
    obtain ⟨more, rfl, hr⟩ := Prefixed.rest hs ds ts r body (fun x hx => hd x (by simp [hx])) (fun x hx => ht x (by simp [hx])) hb h2
    exact ⟨more, rfl, hr⟩

theorem paren_prefix (s : Str) : "(".toList.isPrefixOf s = true ↔ s.head? = some '(' := by
  cases s with
  | nil => simp
  | cons c r =>
    rw [isPrefixOf_iff]
    simp

/-- The loop ends exactly on strings that are prefixes followed by a body, with the flags asked for. -/
theorem loop_complete {tok : Str → Bool} {pass : Pre × Str → Pre × Str} (hp : IsPass tok pass) (hs : Shape tok) :
    ∀ (n : Nat) (s : Str) (f : Pre) (toks : List Str) (body : Str), s.length = n → Prefixed tok s toks body →
      loop pass (f, s) = some (effs toks f, body) := by
  intro n
  induction n using Nat.strongRecOn with
  | _ n ih =>
    intro s f toks body hn hpre
    obtain ⟨hs1, hs2, hs3⟩ := hpre
    rw [loop]
    cases toks with
    | nil =>
      have : s = body := by simpa using hs1
      subst this
      have hnp : ¬ ("(".toList.isPrefixOf s = true) := by rw [paren_prefix]; exact hs3
      simp only [hnp]
      rfl
    | cons t ts =>
      have hst : s = t ++ (ts.flatten ++ body) := by simpa using hs1
      have hh : "(".toList.isPrefixOf s = true := by
        rw [paren_prefix, hst]; exact hs.head (hs2 t (by simp))
      simp only [hh, if_true]
      rcases hp f s with ⟨done, r, hd1, hd2, hd3, hd4⟩ | ⟨hno, _⟩
      · obtain ⟨more, hm1, hm2⟩ := Prefixed.rest hs done (t :: ts) r body hd3 hs2 hs3 (by rw [← hd1, hs1])
        rw [hd4]
        have hlen : r.length < s.length := by
          cases done with
          | nil => exact absurd rfl hd2
          | cons d ds =>
            obtain ⟨u, hu, _⟩ := hs d (hd3 d (by simp))
            rw [hd1, List.flatten_cons, hu]
            simp only [List.length_append, List.length_singleton]
            omega
        simp only [hlen, dite_true]
        have hmore : ∀ x ∈ more, tok x = true := fun x hx => hs2 x (by rw [hm1]; exact List.mem_append_right _ hx)
        rw [ih r.length (by omega) r (effs done f) more body rfl ⟨hm2, hmore, hs3⟩, hm1, effs_append]
      · have := hno t _ hst
        rw [hs2 t (by simp)] at this
        cases this

theorem loop_sound {tok : Str → Bool} {pass : Pre × Str → Pre × Str} (hp : IsPass tok pass) :
    ∀ (n : Nat) (s : Str) (f f' : Pre) (body : Str), s.length = n → loop pass (f, s) = some (f', body) →
      ∃ toks, Prefixed tok s toks body ∧ f' = effs toks f := by
  intro n
  induction n using Nat.strongRecOn with
  | _ n ih =>
    intro s f f' body hn h
    rw [loop] at h
    by_cases hh : "(".toList.isPrefixOf s = true
    · simp only [hh, if_true] at h
      by_cases hl : (pass (f, s)).2.length < s.length
      · simp only [hl, dite_true] at h
        rcases hp f s with ⟨done, r, hd1, hd2, hd3, hd4⟩ | ⟨_, he⟩
        · rw [hd4] at h hl
          obtain ⟨toks, ⟨ht1, ht2, ht3⟩, hf⟩ := ih r.length (by simp at hl; omega) r _ f' body rfl h
          refine ⟨done ++ toks, ⟨?_, ?_, ht3⟩, by rw [hf, effs_append]⟩
          · rw [hd1, ht1]; simp
          · intro t ht
            rcases List.mem_append.1 ht with ht | ht
            · exact hd3 t ht
            · exact ht2 t ht
        · rw [he] at hl
          exact absurd hl (Nat.lt_irrefl _)
      · simp [hl] at h
    · simp only [hh] at h
      have h' : (f, s) = (f', body) := by simpa using h
      obtain ⟨rfl, rfl⟩ := Prod.mk.inj h'
      refine ⟨[], ⟨by simp, by simp, ?_⟩, rfl⟩
      rwa [paren_prefix] at hh

theorem loop_iff {tok : Str → Bool} {pass : Pre × Str → Pre × Str} (hp : IsPass tok pass) (hs : Shape tok) (s : Str) (f : Pre)
    (body : Str) : loop pass ({}, s) = some (f, body) ↔ ∃ toks, Prefixed tok s toks body ∧ f = asked toks := by
  constructor
  · intro h
    obtain ⟨toks, h1, h2⟩ := loop_sound hp _ s {} f body rfl h
    exact ⟨toks, h1, by rw [h2, effs_init]⟩
  · rintro ⟨toks, h1, rfl⟩
    rw [loop_complete hp hs _ s {} toks body rfl h1, effs_init]

theorem loop_none_iff {tok : Str → Bool} {pass : Pre × Str → Pre × Str} (hp : IsPass tok pass) (hs : Shape tok) (s : Str) :
    loop pass ({}, s) = none ↔ ¬ ∃ toks body, Prefixed tok s toks body := by
  constructor
  · rintro h ⟨toks, body, hpre⟩
    rw [(loop_iff hp hs s (asked toks) body).2 ⟨toks, hpre, rfl⟩] at h
    cases h
  · intro h
    cases hl : loop pass ({}, s) with
    | none => rfl
    | some x =>
      obtain ⟨toks, h1, _⟩ := (loop_iff hp hs s x.1 x.2).1 (by rw [hl])
      exact absurd ⟨toks, x.2, h1⟩ h

/-- A string has at most one reading as prefixes and body. -/
theorem prefixed_unique {tok : Str → Bool} (hs : Shape tok) {s : Str} {t₁ t₂ : List Str} {b₁ b₂ : Str}
    (h₁ : Prefixed tok s t₁ b₁) (h₂ : Prefixed tok s t₂ b₂) : t₁ = t₂ ∧ b₁ = b₂ := by
  obtain ⟨h11, h12, h13⟩ := h₁
  obtain ⟨h21, h22, h23⟩ := h₂
  obtain ⟨m, hm, hb⟩ := Prefixed.rest hs t₁ t₂ b₁ b₂ h12 h22 h23 (by rw [← h11, h21])
  obtain ⟨m', hm', hb'⟩ := Prefixed.rest hs t₂ t₁ b₂ b₁ h22 h12 h13 (by rw [← h11, h21])
  have hl : m.length = 0 := by
    have h1 := congrArg List.length hm
    have h2 := congrArg List.length hm'
    simp only [List.length_append] at h1 h2
    omega
  have : m = [] := List.length_eq_zero_iff.1 hl
  subst this
  exact ⟨by simpa using hm.symm, by simpa using hb⟩

/-! ## C36: program selectors -/

/-- Specification: the optional `:function` at the end of a selector. -/
inductive Tail : Str → Str → Prop
  | none : Tail [] []
  | some (fn) : Tail (':' :: fn) fn

/-- Specification: the decimal number `n` below 2^32, as text. -/
def Dec32 (s : Str) (n : BitVec 32) : Prop := ∃ ds, Spells 10 s ds ∧ digitsValue 10 ds < 2 ^ 32 ∧ n = BitVec.ofNat 32 (digitsValue 10 ds)

/-- Specification: the selectors of `-p` after the prefixes, what they select and the function they name. -/
inductive Selector (fileExists : Str → Bool) : Str → Sel → Str → Prop
  | all : Selector fileExists "*".toList .all []
  | id (kw s n tail fn) : kw ∈ ["".toList, "i:".toList, "id:".toList] → Dec32 s n → Tail tail fn →
      Selector fileExists (kw ++ s ++ tail) (.id n) fn
  | pinned (kw path tail fn) : kw ∈ ["p:".toList, "pinned:".toList] → ':' ∉ path → fileExists path = true → Tail tail fn →
      Selector fileExists (kw ++ path ++ tail) (.pinned path) fn
  | tag (kw t tail fn) : kw ∈ ["t:".toList, "tag:".toList] → ':' ∉ t → t ≠ [] → Tail tail fn →
      Selector fileExists (kw ++ t ++ tail) (.tag t) fn
  | name (kw t tail fn) : kw ∈ ["n:".toList, "name:".toList] → ':' ∉ t → t ≠ [] → Tail tail fn →
      Selector fileExists (kw ++ t ++ tail) (.name t) fn
  | pid (s n tail fn) : Dec32 s n → Tail tail fn → Selector fileExists ("pid:".toList ++ s ++ tail) (.pid n) fn

theorem cut_colon (a b : Str) (h : ':' ∉ a) : cut (a ++ ':' :: b) = (a, b, true) := by
  induction a with
  | nil => simp [cut]
  | cons c r ih =>
    have hc : c ≠ ':' := fun hc => h (by simp [hc])
    simp only [List.cons_append, cut, hc, if_false, ih (fun hx => h (by simp [hx]))]

theorem cut_plain (a : Str) (h : ':' ∉ a) : cut a = (a, [], false) := by
  induction a with
  | nil => simp [cut]
  | cons c r ih =>
    have hc : c ≠ ':' := fun hc => h (by simp [hc])
    simp only [cut, hc, if_false, ih (fun hx => h (by simp [hx]))]

theorem cut_cases (s : Str) : (∃ a b, s = a ++ ':' :: b ∧ ':' ∉ a ∧ cut s = (a, b, true)) ∨ (':' ∉ s ∧ cut s = (s, [], false)) := by
  induction s with
  | nil => right; simp [cut]
  | cons c r ih =>
    by_cases hc : c = ':'
    · left; exact ⟨[], r, by simp [hc], by simp, by simp [cut, hc]⟩
    · rcases ih with ⟨a, b, rfl, ha, he⟩ | ⟨ha, he⟩
      · left
        exact ⟨c :: a, b, rfl, by simp [ha, Ne.symm hc], by simp only [cut, hc, if_false, he]⟩
      · right
        exact ⟨by simp [ha, Ne.symm hc], by simp only [cut, hc, if_false, he]⟩

theorem cut_tail (a tail fn : Str) (h : ':' ∉ a) (ht : Tail tail fn) : ∃ ok, cut (a ++ tail) = (a, fn, ok) ∧ (ok = false → fn = []) := by
  cases ht with
  | none => exact ⟨false, by simpa using cut_plain a h, fun _ => rfl⟩
  | some fn => exact ⟨true, cut_colon a fn h, by simp⟩

theorem cut_inv (s : Str) : ∃ a fn ok tail, cut s = (a, fn, ok) ∧ s = a ++ tail ∧ ':' ∉ a ∧ Tail tail fn ∧
    (ok = false → fn = []) := by
  rcases cut_cases s with ⟨a, b, rfl, ha, he⟩ | ⟨ha, he⟩
  · exact ⟨a, b, true, ':' :: b, he, rfl, ha, .some b, by simp⟩
  · exact ⟨s, [], false, [], he, by simp, ha, .none, fun _ => rfl⟩

theorem parseU32_iff (s : Str) (n : BitVec 32) : parseU32 s = some n ↔ Dec32 s n := by
  unfold parseU32 Dec32
  cases h : parseUint 10 s with
  | none =>
    simp only [reduceCtorEq, false_iff]
    rintro ⟨ds, h1, h2, _⟩
    have := (parseUint_iff 10 (by decide) s (digitsValue 10 ds)).2 ⟨ds, h1, rfl, by omega⟩
    rw [h] at this; cases this
  | some v =>
    obtain ⟨ds, h1, h2, h3⟩ := (parseUint_iff 10 (by decide) s v).1 h
    have huniq : ∀ ds', Spells 10 s ds' → ds' = ds := by
      intro ds' h'
      have := h'.2.1.symm.trans h1.2.1
      exact (List.map_inj_right (fun _ _ h => Option.some.inj h)).1 this
    simp only []
    constructor
    · intro hh
      split at hh
      · next hv => exact ⟨ds, h1, by omega, by rw [← h2]; exact (Option.some.inj hh).symm⟩
      · cases hh
    · rintro ⟨ds', h1', h2', rfl⟩
      obtain rfl := huniq ds' h1'
      rw [h2, if_pos h2']

theorem digitVal_colon : digitVal ':' = none := by decide

theorem Dec32.no_colon {s : Str} {n : BitVec 32} (h : Dec32 s n) : ':' ∉ s := by
  obtain ⟨ds, ⟨_, h1, _⟩, _⟩ := h
  rw [← digitVal_fun] at h1
  intro hc
  have : digitVal ':' ∈ s.map digitVal := List.mem_map.2 ⟨_, hc, rfl⟩
  rw [h1, digitVal_colon] at this
  obtain ⟨d, _, hd⟩ := List.mem_map.1 this
  cases hd

theorem Dec32.first {s : Str} {n : BitVec 32} (h : Dec32 s n) : ∃ c r d, s = c :: r ∧ digitVal c = some d ∧ d < 10 := by
  obtain ⟨ds, ⟨h0, h1, h2⟩, _⟩ := h
  rw [← digitVal_fun] at h1
  cases s with
  | nil => exact absurd rfl h0
  | cons c r =>
    cases ds with
    | nil => simp at h1
    | cons d ds =>
      simp only [List.map_cons, List.cons.injEq] at h1
      exact ⟨c, r, d, rfl, h1.1, h2 d (by simp)⟩

theorem Dec32.ne {s k : Str} {n : BitVec 32} (h : Dec32 s n) (c : Char) (hk : k.head? = some c)
    (hc : ∀ d, digitVal c = some d → ¬ d < 10) : s ≠ k := by
  rintro rfl
  obtain ⟨c', r, d, rfl, h1, h2⟩ := h.first
  obtain rfl : c' = c := by simpa using hk
  exact hc d h1 h2

theorem keyword_ne (fileExists : Str → Bool) (p : Str) : parseSel fileExists p =
    if p = ['*'] then some (.all, [])
    else if (cut p).1 = "i".toList ∨ (cut p).1 = "id".toList then
      (parseU32 (cut (cut p).2.1).1).map fun n => (.id n, if (cut (cut p).2.1).2.2 then (cut (cut p).2.1).2.1 else [])
    else if (cut p).1 = "p".toList ∨ (cut p).1 = "pinned".toList then
      if fileExists (cut (cut p).2.1).1 then some (.pinned (cut (cut p).2.1).1, (cut (cut p).2.1).2.1) else none
    else if (cut p).1 = "t".toList ∨ (cut p).1 = "tag".toList then
      if (cut (cut p).2.1).1.isEmpty then none else some (.tag (cut (cut p).2.1).1, (cut (cut p).2.1).2.1)
    else if (cut p).1 = "n".toList ∨ (cut p).1 = "name".toList then
      if (cut (cut p).2.1).1.isEmpty then none else some (.name (cut (cut p).2.1).1, (cut (cut p).2.1).2.1)
    else if (cut p).1 = "pid".toList then
      (parseU32 (cut (cut p).2.1).1).map fun n => (.pid n, (cut (cut p).2.1).2.1)
    else (parseU32 (cut p).1).map fun n => (.id n, if (cut p).2.2 then (cut p).2.1 else []) := rfl

theorem if_empty (ok : Bool) (fn : Str) (h : ok = false → fn = []) : (if ok then fn else []) = fn := by
  cases ok with
  | true => rfl
  | false => rw [h rfl]; rfl

/-- **C36.** After the prefixes, exactly the documented selectors are accepted, and they select what they say.
`fileExists` is false of the empty path. -/
theorem parseSel_iff (fileExists : Str → Bool) (hf : fileExists [] = false) (p : Str) (sel : Sel) (fn : Str) :
    parseSel fileExists p = some (sel, fn) ↔ Selector fileExists p sel fn := by
  constructor
  · intro h
    rw [keyword_ne] at h
    split at h
    · next hp => cases h; subst hp; exact .all
    obtain ⟨a, b, ok, tail, hc, hp, ha, ht, hok⟩ := cut_inv p
    rw [hc] at h
    obtain ⟨x, y, ok', tail', hc', hb, hx, ht', hok'⟩ := cut_inv b
    simp only [hc', if_empty _ _ hok', if_empty _ _ hok] at h
    have colon : x ≠ [] → p = (a ++ [':']) ++ x ++ tail' := by
      intro hx0
      cases ht with
      | none =>
        have : x ++ tail' = [] := hb.symm
        exact absurd (List.append_eq_nil_iff.1 this).1 hx0
      | some b => rw [hp, hb]; simp
    have dec0 : ∀ {s n}, Dec32 s n → s ≠ [] := fun h => by
      obtain ⟨c, r, d, rfl, _⟩ := h.first
      simp
    split at h
    · next hk =>
      obtain ⟨n, hn, he⟩ := Option.map_eq_some_iff.1 h
      cases he
      have hd := (parseU32_iff x n).1 hn
      rw [colon (dec0 hd)]
      refine .id _ x n tail' _ ?_ hd ht'
      rcases hk with rfl | rfl <;> simp
    split at h
    · next hk =>
      split at h
      · next hx' =>
        cases h
        have hx0 : x ≠ [] := by rintro rfl; rw [hf] at hx'; cases hx'
        rw [colon hx0]
        refine .pinned _ x tail' _ ?_ hx hx' ht'
        rcases hk with rfl | rfl <;> simp
      · cases h
    split at h
    · next hk =>
      split at h
      · cases h
      · next hx' =>
        cases h
        have hx0 : x ≠ [] := by rintro rfl; simp at hx'
        rw [colon hx0]
        refine .tag _ x tail' _ ?_ hx hx0 ht'
        rcases hk with rfl | rfl <;> simp
    split at h
    · next hk =>
      split at h
      · cases h
      · next hx' =>
        cases h
        have hx0 : x ≠ [] := by rintro rfl; simp at hx'
        rw [colon hx0]
        refine .name _ x tail' _ ?_ hx hx0 ht'
        rcases hk with rfl | rfl <;> simp
    split at h
    · next hk =>
      obtain ⟨n, hn, he⟩ := Option.map_eq_some_iff.1 h
      cases he
      have hd := (parseU32_iff x n).1 hn
      rw [colon (dec0 hd), hk]
      exact .pid x n tail' _ hd ht'
    · obtain ⟨n, hn, he⟩ := Option.map_eq_some_iff.1 h
      cases he
      have hd := (parseU32_iff a n).1 hn
      rw [hp]
      exact .id [] a n tail _ (by simp) hd ht
  · intro h
    rw [keyword_ne]
    cases h with
    | all => rfl
    | id kw s n tail fn hkw hd ht =>
      obtain ⟨ok, hc, hok⟩ := cut_tail s tail fn hd.no_colon ht
      obtain ⟨c, r, d, hs, hcd, hd10⟩ := hd.first
      have hn := (parseU32_iff s n).2 hd
      simp only [List.mem_cons, List.not_mem_nil, or_false] at hkw
      rcases hkw with rfl | rfl | rfl
      · have hstar : ("".toList ++ s ++ tail) ≠ ['*'] := by
          intro he
          rw [hs] at he
          have : c = '*' := by
            have := congrArg List.head? he
            simpa using this
          rw [this] at hcd
          revert hcd; decide +revert
        have e : ("".toList ++ s ++ tail) = s ++ tail := rfl
        rw [if_neg hstar, e, hc]
        have ne : ∀ (k : Str) (c : Char), k.head? = some c → (∀ d, digitVal c = some d → ¬ d < 10) → s ≠ k :=
          fun k c h1 h2 => hd.ne c h1 h2
        have di : ∀ d, digitVal 'i' = some d → ¬ d < 10 := by
          intro d h; have : digitVal 'i' = some 18 := by decide
          rw [this] at h; cases h; decide
        have dp : ∀ d, digitVal 'p' = some d → ¬ d < 10 := by
          intro d h; have : digitVal 'p' = some 25 := by decide
          rw [this] at h; cases h; decide
        have dt : ∀ d, digitVal 't' = some d → ¬ d < 10 := by
          intro d h; have : digitVal 't' = some 29 := by decide
          rw [this] at h; cases h; decide
        have dn : ∀ d, digitVal 'n' = some d → ¬ d < 10 := by
          intro d h; have : digitVal 'n' = some 23 := by decide
          rw [this] at h; cases h; decide
        simp only [ne "i".toList 'i' rfl di, ne "id".toList 'i' rfl di, ne "p".toList 'p' rfl dp, ne "pinned".toList 'p' rfl dp,
          ne "t".toList 't' rfl dt, ne "tag".toList 't' rfl dt, ne "n".toList 'n' rfl dn, ne "name".toList 'n' rfl dn,
          ne "pid".toList 'p' rfl dp, or_self, if_false, hn, Option.map_some, if_empty _ _ hok]
      · have hcut : cut ("i:".toList ++ s ++ tail) = ("i".toList, s ++ tail, true) := by
          have := cut_colon "i".toList (s ++ tail) (by decide)
          simpa using this
        have hstar : ("i:".toList ++ s ++ tail) ≠ ['*'] := by simp
        rw [if_neg hstar, hcut]
        simp only [hc, hn, Option.map_some, if_empty _ _ hok, true_or, if_true]
      · have hcut : cut ("id:".toList ++ s ++ tail) = ("id".toList, s ++ tail, true) := by
          have := cut_colon "id".toList (s ++ tail) (by decide)
          simpa using this
        have hstar : ("id:".toList ++ s ++ tail) ≠ ['*'] := by simp
        rw [if_neg hstar, hcut]
        simp only [hc, hn, Option.map_some, if_empty _ _ hok, or_true, if_true]
    | pinned kw path tail fn hkw hpath hex ht =>
      obtain ⟨ok, hc, hok⟩ := cut_tail path tail fn hpath ht
      simp only [List.mem_cons, List.not_mem_nil, or_false] at hkw
      rcases hkw with rfl | rfl
      · have hcut : cut ("p:".toList ++ path ++ tail) = ("p".toList, path ++ tail, true) := by
          have := cut_colon "p".toList (path ++ tail) (by decide)
          simpa using this
        rw [if_neg (by simp), hcut]
        simp [hc, hex]
      · have hcut : cut ("pinned:".toList ++ path ++ tail) = ("pinned".toList, path ++ tail, true) := by
          have := cut_colon "pinned".toList (path ++ tail) (by decide)
          simpa using this
        rw [if_neg (by simp), hcut]
        simp [hc, hex]
    | tag kw t tail fn hkw hpath hex ht =>
      obtain ⟨ok, hc, hok⟩ := cut_tail t tail fn hpath ht
      simp only [List.mem_cons, List.not_mem_nil, or_false] at hkw
      rcases hkw with rfl | rfl
      · have hcut : cut ("t:".toList ++ t ++ tail) = ("t".toList, t ++ tail, true) := by
          have := cut_colon "t".toList (t ++ tail) (by decide)
          simpa using this
        rw [if_neg (by simp), hcut]
        simp [hc, hex]
      · have hcut : cut ("tag:".toList ++ t ++ tail) = ("tag".toList, t ++ tail, true) := by
          have := cut_colon "tag".toList (t ++ tail) (by decide)
          simpa using this
        rw [if_neg (by simp), hcut]
        simp [hc, hex]
    | name kw t tail fn hkw hpath hex ht =>
      obtain ⟨ok, hc, hok⟩ := cut_tail t tail fn hpath ht
      simp only [List.mem_cons, List.not_mem_nil, or_false] at hkw
      rcases hkw with rfl | rfl
      · have hcut : cut ("n:".toList ++ t ++ tail) = ("n".toList, t ++ tail, true) := by
          have := cut_colon "n".toList (t ++ tail) (by decide)
          simpa using this
        rw [if_neg (by simp), hcut]
        simp [hc, hex]
      · have hcut : cut ("name:".toList ++ t ++ tail) = ("name".toList, t ++ tail, true) := by
          have := cut_colon "name".toList (t ++ tail) (by decide)
          simpa using this
        rw [if_neg (by simp), hcut]
        simp [hc, hex]
    | pid s n tail fn hd ht =>
      obtain ⟨ok, hc, hok⟩ := cut_tail s tail fn hd.no_colon ht
      have hn := (parseU32_iff s n).2 hd
      have hcut : cut ("pid:".toList ++ s ++ tail) = ("pid".toList, s ++ tail, true) := by
        have := cut_colon "pid".toList (s ++ tail) (by decide)
        simpa using this
      rw [if_neg (by simp), hcut]
      simp [hc, hn]

/-- **C36.** A whole `-p` argument: it is accepted iff it is a sequence of known prefixes followed by a selector,
and then it names what the selector says, with the options of the prefixes and of the command line. -/
theorem parseProgFlag_iff (g : Glob) (fileExists : Str → Bool) (hf : fileExists [] = false) (p : Str) (r : ProgFlag) :
    parseProgFlag g fileExists p = .ok r ↔
      ∃ toks body fn, Prefixed progTok p toks body ∧ Selector fileExists body r.sel fn ∧
        r.imm = { funcName := fn
                  graph := toks.contains "(g)".toList || g.graph
                  stack := toks.contains "(s)".toList || g.stack
                  lbr := toks.contains "(l)".toList || g.lbr
                  both := toks.contains "(b)".toList || (g.modes.contains "entry" && g.modes.contains "exit")
                  pkt := toks.contains "(p)".toList || g.pkt } := by
  unfold parseProgFlag
  constructor
  · intro h
    cases hl : loop passP ({}, p) with
    | none => simp only [hl] at h; cases h
    | some x =>
      obtain ⟨f, body⟩ := x
      simp only [hl] at h
      obtain ⟨toks, hpre, rfl⟩ := (loop_iff passP_pass progTok_shape p f body).1 hl
      cases hs : parseSel fileExists body with
      | none => simp only [hs] at h; cases h
      | some y =>
        obtain ⟨sel, fn⟩ := y
        simp only [hs] at h
        cases h
        exact ⟨toks, body, fn, hpre, (parseSel_iff fileExists hf body sel fn).1 hs, rfl⟩
  · rintro ⟨toks, body, fn, hpre, hsel, himm⟩
    rw [(loop_iff passP_pass progTok_shape p (asked toks) body).2 ⟨toks, hpre, rfl⟩]
    simp only [(parseSel_iff fileExists hf body r.sel fn).2 hsel]
    obtain ⟨sel, imm⟩ := r
    simp only at himm
    rw [himm]
    rfl

/-- **C36.** No argument has two readings. -/
theorem selector_unambiguous (fileExists : Str → Bool) (hf : fileExists [] = false) (p : Str) (t₁ t₂ : List Str) (b₁ b₂ : Str)
    (s₁ s₂ : Sel) (f₁ f₂ : Str) (h₁ : Prefixed progTok p t₁ b₁) (h₂ : Prefixed progTok p t₂ b₂)
    (hs₁ : Selector fileExists b₁ s₁ f₁) (hs₂ : Selector fileExists b₂ s₂ f₂) : t₁ = t₂ ∧ s₁ = s₂ ∧ f₁ = f₂ := by
  obtain ⟨rfl, rfl⟩ := prefixed_unique progTok_shape h₁ h₂
  have e₁ := (parseSel_iff fileExists hf b₁ s₁ f₁).2 hs₁
  have e₂ := (parseSel_iff fileExists hf b₁ s₂ f₂).2 hs₂
  rw [e₁] at e₂
  cases e₂
  exact ⟨rfl, rfl, rfl⟩

/-- **C36, violated.** A selector is rejected with an error only if its prefixes are known: otherwise the parser
does not end. -/
theorem parseProgFlag_hang_iff (g : Glob) (fileExists : Str → Bool) (p : Str) :
    parseProgFlag g fileExists p = .error .hang ↔ ¬ ∃ toks body, Prefixed progTok p toks body := by
  rw [← loop_none_iff passP_pass progTok_shape p]
  unfold parseProgFlag
  cases hl : loop passP ({}, p) with
  | none => simp
  | some x =>
    simp only [reduceCtorEq, iff_false]
    cases hs : parseSel fileExists x.2 <;> simp

/-- The witness for the hang: `-p '(x)5'`. -/
theorem parseProgFlag_hang_violated (g : Glob) (fileExists : Str → Bool) :
    parseProgFlag g fileExists "(x)5".toList = .error .hang := by
  unfold parseProgFlag
  have : loop passP ({}, "(x)5".toList) = none := by
    rw [loop]
    decide +kernel
  rw [this]

/-- Witness: `(g)(b)id:12:foo`. -/
theorem parseProgFlag_witness : parseProgFlag ⟨false, false, false, true, false, ["exit"]⟩ (fun _ => false)
    "(g)(b)id:12:foo".toList = .ok ⟨.id 12, { funcName := "foo".toList, graph := true, both := true, lbr := true }⟩ := by
  rw [parseProgFlag_iff _ _ rfl]
  refine ⟨["(g)".toList, "(b)".toList], "id:12:foo".toList, "foo".toList, ⟨rfl, by decide, by decide⟩, ?_, rfl⟩
  exact .id "id:".toList "12".toList 12 ":foo".toList "foo".toList (by decide)
    ⟨[1, 2], ⟨by decide, rfl, by decide⟩, by decide, rfl⟩ (.some _)

/-- The characters taken for spaces are those with the Unicode property White_Space. -/
theorem isSpace_iff (c : Char) : isSpace c = true ↔
    (9 ≤ c.toNat ∧ c.toNat ≤ 13) ∨ c.toNat = 0x20 ∨ c.toNat = 0x85 ∨ c.toNat = 0xA0 ∨ c.toNat = 0x1680 ∨ (0x2000 ≤ c.toNat ∧ c.toNat ≤ 0x200A) ∨
    c.toNat = 0x2028 ∨ c.toNat = 0x2029 ∨ c.toNat = 0x202F ∨ c.toNat = 0x205F ∨ c.toNat = 0x3000 := by
  have hc : ∀ d : Char, c = d ↔ c.toNat = d.toNat := fun d => ⟨fun h => by rw [h], fun h => Char.toNat_inj.1 h⟩
  unfold isSpace
  simp only [Bool.or_eq_true, decide_eq_true_eq, List.mem_cons, List.not_mem_nil, or_false, hc, Bool.and_eq_true]
  have e : ('\t'.toNat = 9) ∧ ('\n'.toNat = 10) ∧ ('\x0b'.toNat = 11) ∧ ('\x0c'.toNat = 12) ∧ ('\r'.toNat = 13) ∧ (' '.toNat = 32) ∧
    ('\u0085'.toNat = 0x85) ∧ ('\u00a0'.toNat = 0xa0) ∧ ('\u1680'.toNat = 0x1680) ∧ ('\u2028'.toNat = 0x2028) ∧ ('\u2029'.toNat = 0x2029) ∧
    ('\u202f'.toNat = 0x202f) ∧ ('\u205f'.toNat = 0x205f) ∧ ('\u3000'.toNat = 0x3000) := by decide
  obtain ⟨e1, e2, e3, e4, e5, e6, e7, e8, e9, e10, e11, e12, e13, e14⟩ := e
  rw [e1, e2, e3, e4, e5, e6, e7, e8, e9, e10, e11, e12, e13, e14]
  omega

end Bpfsnoop.Flg
