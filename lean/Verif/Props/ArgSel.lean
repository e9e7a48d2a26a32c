import Verif.Model.ArgSel
import Verif.Props.Kmods
import Verif.Props.CcFilter
import Verif.Props.CcSafe

/-
C72: which functions the expressions of --filter-arg and --output-arg apply to.

The specification is `Occurs` (a name occurs as a variable in an expression), `Uses` (in an option: for a call, in its first argument) and
`Concerns` (an option uses the name of a parameter of the function).
-/
namespace Bpfsnoop.Sel
open Cc (Expr Top Ty Opts Err Prog TopRes Mode)
open Flg (Str)

/-- Specification: the name is a variable of the expression. Names of members and of types are not. -/
inductive Occurs (s : String) : Expr → Prop where
  | name : Occurs s (.name s)
  | arrow {e f} : Occurs s e → Occurs s (.arrow e f)
  | dot {e f} : Occurs s e → Occurs s (.dot e f)
  | indexL {e i} : Occurs s e → Occurs s (.index e i)
  | indexR {e i} : Occurs s i → Occurs s (.index e i)
  | indir {e} : Occurs s e → Occurs s (.indir e)
  | addr {e} : Occurs s e → Occurs s (.addr e)
  | cast {t e} : Occurs s e → Occurs s (.cast t e)
  | un {op e} : Occurs s e → Occurs s (.un op e)
  | binL {op l r} : Occurs s l → Occurs s (.bin op l r)
  | binR {op l r} : Occurs s r → Occurs s (.bin op l r)
  | condC {c l r} : Occurs s c → Occurs s (.cond c l r)
  | condL {c l r} : Occurs s l → Occurs s (.cond c l r)
  | condR {c l r} : Occurs s r → Occurs s (.cond c l r)

/-- Specification: an option uses a variable; `pkt(skb->data, 64, tcp)` uses `skb`, not `tcp`. -/
inductive Uses (s : String) : Top → Prop where
  | plain {e} : Occurs s e → Uses s (.plain e)
  | call {f e r} : Occurs s e → Uses s (.call f (e :: r))

/-- Specification: an option is about a function with these parameters. -/
def Concerns (x : Top) (params : List (String × Ty)) : Prop := ∃ p, p ∈ params ∧ Uses p.1 x

theorem walk_iff (s : String) (e : Expr) : s ∈ walk e ↔ Occurs s e := by
  constructor
  · induction e with
    | name t => intro h; rw [walk, List.mem_singleton] at h; subst h; exact .name
    | num t => intro h; simp [walk] at h
    | unsup => intro h; simp [walk] at h
    | arrow e f ih => intro h; exact .arrow (ih h)
    | dot e f ih => intro h; exact .dot (ih h)
    | indir e ih => intro h; exact .indir (ih h)
    | addr e ih => intro h; exact .addr (ih h)
    | cast t e ih => intro h; exact .cast (ih h)
    | un op e ih => intro h; exact .un (ih h)
    | index e i ih1 ih2 =>
      intro h
      rw [walk, List.mem_append] at h
      exact h.elim (fun h => .indexL (ih1 h)) (fun h => .indexR (ih2 h))
    | bin op l r ih1 ih2 =>
      intro h
      rw [walk, List.mem_append] at h
      exact h.elim (fun h => .binL (ih1 h)) (fun h => .binR (ih2 h))
    | cond c l r ih1 ih2 ih3 =>
      intro h
      rw [walk, List.mem_append, List.mem_append] at h
      rcases h with (h | h) | h
      · exact .condC (ih1 h)
      · exact .condL (ih2 h)
      · exact .condR (ih3 h)
  · intro h
    induction h <;> simp_all [walk]

theorem str_inj {a b : String} (h : a.toList = b.toList) : a = b := String.toList_inj.mp h

theorem mem_names (s : String) (e : Expr) : s.toList ∈ Km.sortCompact ((walk e).map String.toList) ↔ Occurs s e := by
  rw [(Km.sortCompact_spec _).2, List.mem_map]
  constructor
  · rintro ⟨t, ht, he⟩
    rw [str_inj he] at ht
    exact (walk_iff s e).mp ht
  · intro h
    exact ⟨s, (walk_iff s e).mpr h, rfl⟩

/-- **C72.** The names found in an option are exactly the variables it uses, each once. -/
theorem names_iff {x : Top} {vars : List Str} (h : extractVarNames x = some vars) :
    (∀ s : String, s.toList ∈ vars ↔ Uses s x) ∧ vars.Nodup := by
  have key : ∀ e : Expr, (Km.sortCompact ((walk e).map String.toList)).Nodup := fun e =>
    (Km.sortCompact_spec _).1.imp fun hlt he => by subst he; exact List.lt_irrefl _ hlt
  cases x with
  | plain e =>
    injection h with h
    subst h
    refine ⟨fun s => (mem_names s e).trans ⟨.plain, ?_⟩, key e⟩
    intro hu; cases hu; assumption
  | call f args =>
    cases args with
    | nil => cases h
    | cons e r =>
      injection h with h
      subst h
      refine ⟨fun s => (mem_names s e).trans ⟨.call, ?_⟩, key e⟩
      intro hu; cases hu; assumption

theorem names_exists {x : Top} {vars : List Str} (h : extractVarNames x = some vars) : vars.length ≠ 0 ↔ ∃ s, Uses s x := by
  constructor
  · intro hl
    have : ∃ v, v ∈ vars := by
      cases vars with
      | nil => exact (hl rfl).elim
      | cons v r => exact ⟨v, List.mem_cons_self⟩
    obtain ⟨v, hv⟩ := this
    refine ⟨String.ofList v, ((names_iff h).1 _).mp ?_⟩
    rwa [String.toList_ofList]
  · rintro ⟨s, hs⟩
    have := ((names_iff h).1 s).mpr hs
    intro hl
    rw [List.length_eq_zero_iff] at hl
    rw [hl] at this
    cases this

theorem prepare_ok {x : Top} {a : Arg} (h : prepare x = .ok a) : a.expr = x ∧ extractVarNames x = some a.vars ∧ ∃ s, Uses s x := by
  unfold prepare at h
  cases hv : extractVarNames x with
  | none => rw [hv] at h; cases h
  | some vars =>
    rw [hv] at h
    dsimp only at h
    by_cases hl : vars.length = 0
    · rw [if_pos hl] at h; cases h
    · rw [if_neg hl] at h
      injection h with h
      subst h
      exact ⟨rfl, rfl, (names_exists hv).mp hl⟩

theorem extract_some {x : Top} {s : String} (h : Uses s x) : ∃ v, extractVarNames x = some v := by
  cases h with
  | plain h => exact ⟨_, rfl⟩
  | call h => exact ⟨_, rfl⟩

theorem prepare_of_uses {x : Top} (h : ∃ s, Uses s x) : ∃ a, prepare x = .ok a := by
  obtain ⟨v, hv⟩ := extract_some h.choose_spec
  refine ⟨⟨x, v⟩, ?_⟩
  unfold prepare
  rw [hv]
  dsimp only
  rw [if_neg ((names_exists hv).mpr h)]

/-- **C72.** The options are taken in the order given; they are refused exactly if one of them uses no variable. -/
theorem prepare_iff (xs : List Top) (as : List Arg) :
    (prepareAll xs = .ok as → as.map (·.expr) = xs) ∧ ((∃ as, prepareAll xs = .ok as) ↔ ∀ x, x ∈ xs → ∃ s, Uses s x) := by
  induction xs generalizing as with
  | nil => exact ⟨fun h => by injection h with h; subst h; rfl, ⟨fun _ x hx => (List.not_mem_nil hx).elim, fun _ => ⟨[], rfl⟩⟩⟩
  | cons x xs ih =>
    refine ⟨?_, ?_, ?_⟩
    · intro h
      unfold prepareAll at h
      cases hp : prepare x with
      | error z => rw [hp] at h; cases h
      | ok a =>
        rw [hp] at h
        dsimp only at h
        cases hq : prepareAll xs with
        | error z => rw [hq] at h; cases h
        | ok bs =>
          rw [hq] at h
          injection h with h
          subst h
          rw [List.map_cons, (ih bs).1 hq, (prepare_ok hp).1]
    · rintro ⟨as', h⟩
      unfold prepareAll at h
      cases hp : prepare x with
      | error z => rw [hp] at h; cases h
      | ok a =>
        rw [hp] at h
        dsimp only at h
        cases hq : prepareAll xs with
        | error z => rw [hq] at h; cases h
        | ok bs =>
          intro y hy
          rcases List.mem_cons.mp hy with rfl | hy
          · exact (prepare_ok hp).2.2
          · exact ((ih bs).2.mp ⟨bs, hq⟩) y hy
    · intro h
      obtain ⟨a, ha⟩ := prepare_of_uses (h x List.mem_cons_self)
      obtain ⟨bs, hb⟩ := (ih []).2.mpr fun y hy => h y (List.mem_cons_of_mem _ hy)
      refine ⟨a :: bs, ?_⟩
      unfold prepareAll
      rw [ha]
      dsimp only
      rw [hb]

/-- All prepared options know their variables. -/
theorem prepared {xs : List Top} {as : List Arg} (h : prepareAll xs = .ok as) : ∀ a, a ∈ as → extractVarNames a.expr = some a.vars := by
  induction xs generalizing as with
  | nil => injection h with h; subst h; intro a ha; cases ha
  | cons x xs ih =>
    unfold prepareAll at h
    cases hp : prepare x with
    | error z => rw [hp] at h; cases h
    | ok a =>
      rw [hp] at h
      dsimp only at h
      cases hq : prepareAll xs with
      | error z => rw [hq] at h; cases h
      | ok bs =>
        rw [hq] at h
        injection h with h
        subst h
        intro b hb
        rcases List.mem_cons.mp hb with rfl | hb
        · have := prepare_ok hp; rw [this.1]; exact this.2.1
        · exact ih hq b hb

theorem hits_iff {a : Arg} (h : extractVarNames a.expr = some a.vars) (params : List (String × Ty)) :
    a.hits params = true ↔ Concerns a.expr params := by
  unfold Arg.hits Concerns
  rw [List.any_eq_true]
  constructor
  · rintro ⟨p, hp, hc⟩
    exact ⟨p, hp, ((names_iff h).1 _).mp (List.contains_iff_mem.mp hc)⟩
  · rintro ⟨p, hp, hu⟩
    exact ⟨p, hp, List.contains_iff_mem.mpr (((names_iff h).1 _).mpr hu)⟩

theorem filterFrom_spec (o : Opts) (as : List Arg) (hk : ∀ a, a ∈ as → extractVarNames a.expr = some a.vars) (i : Nat) :
    (filterFrom o as i = .ok none ↔ ∀ a, a ∈ as → ¬ Concerns a.expr o.vars) ∧
    (∀ j p, filterFrom o as i = .ok (some (j, p)) ↔ ∃ (k : Nat) (a : Arg), j = i + k ∧ as[k]? = some a ∧ Concerns a.expr o.vars ∧
      (∀ (k' : Nat) (b : Arg), k' < k → as[k']? = some b → ¬ Concerns b.expr o.vars) ∧ compileFilterTop o a.expr = .ok p) ∧
    (∀ z, filterFrom o as i = .error z ↔ ∃ (k : Nat) (a : Arg), as[k]? = some a ∧ Concerns a.expr o.vars ∧
      (∀ (k' : Nat) (b : Arg), k' < k → as[k']? = some b → ¬ Concerns b.expr o.vars) ∧ compileFilterTop o a.expr = .error z) := by
  induction as generalizing i with
  | nil => simp [filterFrom]
  | cons a as ih =>
    have ha := hits_iff (hk a List.mem_cons_self) o.vars
    obtain ⟨i1, i2, i3⟩ := ih (fun b hb => hk b (List.mem_cons_of_mem _ hb)) (i + 1)
    unfold filterFrom
    cases hh : a.hits o.vars with
    | false =>
      have hn : ¬ Concerns a.expr o.vars := fun hc => by rw [ha.mpr hc] at hh; cases hh
      rw [Bool.not_false, if_pos rfl]
      refine ⟨?_, ?_, ?_⟩
      · rw [i1]
        constructor
        · intro h b hb
          rcases List.mem_cons.mp hb with rfl | hb
          · exact hn
          · exact h b hb
        · exact fun h b hb => h b (List.mem_cons_of_mem _ hb)
      · intro j p
        rw [i2]
        constructor
        · rintro ⟨k, b, hj, hb, hc, hf, hp⟩
          refine ⟨k + 1, b, by omega, by rwa [List.getElem?_cons_succ], hc, ?_, hp⟩
          intro k' b' hk' hb'
          cases k' with
          | zero => rw [List.getElem?_cons_zero] at hb'; injection hb' with hb'; subst hb'; exact hn
          | succ k' => rw [List.getElem?_cons_succ] at hb'; exact hf k' b' (by omega) hb'
        · rintro ⟨k, b, hj, hb, hc, hf, hp⟩
          cases k with
          | zero => rw [List.getElem?_cons_zero] at hb; injection hb with hb; subst hb; exact (hn hc).elim
          | succ k =>
            rw [List.getElem?_cons_succ] at hb
            refine ⟨k, b, by omega, hb, hc, ?_, hp⟩
            intro k' b' hk' hb'
            exact hf (k' + 1) b' (by omega) (by rwa [List.getElem?_cons_succ])
      · intro z
        rw [i3]
        constructor
        · rintro ⟨k, b, hb, hc, hf, hp⟩
          refine ⟨k + 1, b, by rwa [List.getElem?_cons_succ], hc, ?_, hp⟩
          intro k' b' hk' hb'
          cases k' with
          | zero => rw [List.getElem?_cons_zero] at hb'; injection hb' with hb'; subst hb'; exact hn
          | succ k' => rw [List.getElem?_cons_succ] at hb'; exact hf k' b' (by omega) hb'
        · rintro ⟨k, b, hb, hc, hf, hp⟩
          cases k with
          | zero => rw [List.getElem?_cons_zero] at hb; injection hb with hb; subst hb; exact (hn hc).elim
          | succ k =>
            rw [List.getElem?_cons_succ] at hb
            refine ⟨k, b, hb, hc, ?_, hp⟩
            intro k' b' hk' hb'
            exact hf (k' + 1) b' (by omega) (by rwa [List.getElem?_cons_succ])
    | true =>
      have hc := ha.mp hh
      have hnt : ¬ ((!true) = true) := by decide
      rw [if_neg hnt]
      have first : ∀ (k : Nat) (b : Arg), (a :: as)[k]? = some b →
          (∀ (k' : Nat) (b : Arg), k' < k → (a :: as)[k']? = some b → ¬ Concerns b.expr o.vars) → k = 0 ∧ b = a := by
        intro k b hb hf
        cases k with
        | zero => rw [List.getElem?_cons_zero] at hb; injection hb with hb; exact ⟨rfl, hb.symm⟩
        | succ k => exact (hf 0 a (by omega) rfl hc).elim
      cases hp : compileFilterTop o a.expr with
      | error z =>
        refine ⟨⟨nofun, fun h => (h a List.mem_cons_self hc).elim⟩, ?_, ?_⟩
        · intro j p
          constructor
          · nofun
          · rintro ⟨k, b, -, hb, -, hf, hq⟩
            obtain ⟨-, rfl⟩ := first k b hb hf
            rw [hp] at hq; cases hq
        · intro z'
          constructor
          · intro h
            injection h with h
            subst h
            exact ⟨0, a, rfl, hc, fun k' _ hk' => by omega, hp⟩
          · rintro ⟨k, b, hb, -, hf, hq⟩
            obtain ⟨-, rfl⟩ := first k b hb hf
            rw [hp] at hq; injection hq with hq; rw [hq]
      | ok p =>
        refine ⟨⟨nofun, fun h => (h a List.mem_cons_self hc).elim⟩, ?_, ?_⟩
        · intro j q
          constructor
          · intro h
            injection h with h
            injection h with h
            injection h with h1 h2
            subst h1 h2
            exact ⟨0, a, rfl, rfl, hc, fun k' _ hk' => by omega, hp⟩
          · rintro ⟨k, b, hj, hb, -, hf, hq⟩
            obtain ⟨rfl, rfl⟩ := first k b hb hf
            rw [hp] at hq; injection hq with hq; subst hq; rw [hj]; rfl
        · intro z
          constructor
          · nofun
          · rintro ⟨k, b, hb, -, hf, hq⟩
            obtain ⟨-, rfl⟩ := first k b hb hf
            rw [hp] at hq; cases hq

/-- The index of an option in the list as given. -/
theorem at_iff {xs : List Top} {as : List Arg} (h : prepareAll xs = .ok as) (k : Nat) (x : Top) :
    xs[k]? = some x ↔ ∃ a : Arg, as[k]? = some a ∧ a.expr = x := by
  rw [← (prepare_iff xs as).1 h, List.getElem?_map]
  cases as[k]? with
  | none => simp
  | some a => simp

/-- **C72.** A function gets the code of the first --filter-arg that is about it, and no filter exactly if none is. -/
theorem filter_chosen {o : Opts} {xs : List Top} {as : List Arg} (h : prepareAll xs = .ok as) :
    (filterFor o as = .ok none ↔ ∀ x, x ∈ xs → ¬ Concerns x o.vars) ∧
    (∀ k p, filterFor o as = .ok (some (k, p)) ↔ ∃ x, xs[k]? = some x ∧ Concerns x o.vars ∧
      (∀ (k' : Nat) (y : Top), k' < k → xs[k']? = some y → ¬ Concerns y o.vars) ∧ compileFilterTop o x = .ok p) := by
  obtain ⟨h1, h2, -⟩ := filterFrom_spec o as (prepared h) 0
  constructor
  · unfold filterFor
    rw [h1]
    constructor
    · intro hh x hx
      rw [← (prepare_iff xs as).1 h, List.mem_map] at hx
      obtain ⟨a, ha, rfl⟩ := hx
      exact hh a ha
    · intro hh a ha
      exact hh _ (by rw [← (prepare_iff xs as).1 h]; exact List.mem_map_of_mem ha)
  · intro k p
    unfold filterFor
    rw [h2]
    constructor
    · rintro ⟨k', a, hk, ha, hc, hf, hp⟩
      obtain rfl : k = k' := by omega
      refine ⟨a.expr, (at_iff h _ _).mpr ⟨a, ha, rfl⟩, hc, ?_, hp⟩
      intro j y hj hy
      obtain ⟨b, hb, rfl⟩ := (at_iff h _ _).mp hy
      exact hf j b hj hb
    · rintro ⟨x, hx, hc, hf, hp⟩
      obtain ⟨a, ha, rfl⟩ := (at_iff h _ _).mp hx
      refine ⟨k, a, by omega, ha, hc, ?_, hp⟩
      intro j b hj hb
      exact hf j b.expr hj ((at_iff h _ _).mpr ⟨b, hb, rfl⟩)

/-- **C72.** Tracing a function fails exactly if the first --filter-arg that is about it cannot be compiled for it. -/
theorem filter_fails {o : Opts} {xs : List Top} {as : List Arg} (h : prepareAll xs = .ok as) (z : Err) :
    filterFor o as = .error z ↔ ∃ (k : Nat) (x : Top), xs[k]? = some x ∧ Concerns x o.vars ∧
      (∀ (k' : Nat) (y : Top), k' < k → xs[k']? = some y → ¬ Concerns y o.vars) ∧ compileFilterTop o x = .error z := by
  unfold filterFor
  rw [(filterFrom_spec o as (prepared h) 0).2.2]
  constructor
  · rintro ⟨k, a, ha, hc, hf, hp⟩
    refine ⟨k, a.expr, (at_iff h _ _).mpr ⟨a, ha, rfl⟩, hc, ?_, hp⟩
    intro j y hj hy
    obtain ⟨b, hb, rfl⟩ := (at_iff h _ _).mp hy
    exact hf j b hj hb
  · rintro ⟨k, x, hx, hc, hf, hp⟩
    obtain ⟨a, ha, rfl⟩ := (at_iff h _ _).mp hx
    refine ⟨k, a, ha, hc, ?_, hp⟩
    intro j b hj hb
    exact hf j b.expr hj ((at_iff h _ _).mpr ⟨b, hb, rfl⟩)

/-- Specification: the options about a function, in order, with what each compiles to. -/
inductive Outputs (o : Opts) (nelems : Ty → Nat) : List Top → List TopRes → Prop where
  | nil : Outputs o nelems [] []
  | skip {x xs rs} : ¬ Concerns x o.vars → Outputs o nelems xs rs → Outputs o nelems (x :: xs) rs
  | take {x xs r rs} : Concerns x o.vars → Cc.compileTop o nelems [8, 9] false x = .ok r → Outputs o nelems xs rs →
      Outputs o nelems (x :: xs) (r :: rs)

theorem outputs_spec (o : Opts) (nelems : Ty → Nat) (as : List Arg) (hk : ∀ a, a ∈ as → extractVarNames a.expr = some a.vars)
    (rs : List TopRes) : outputsFor o nelems as = .ok rs ↔ Outputs o nelems (as.map (·.expr)) rs := by
  induction as generalizing rs with
  | nil =>
    constructor
    · intro h; injection h with h; subst h; exact .nil
    · intro h; cases h; rfl
  | cons a as ih =>
    have ha := hits_iff (hk a List.mem_cons_self) o.vars
    have ih := ih fun b hb => hk b (List.mem_cons_of_mem _ hb)
    unfold outputsFor
    rw [List.map_cons]
    cases hh : a.hits o.vars with
    | false =>
      have hn : ¬ Concerns a.expr o.vars := fun hc => by rw [ha.mpr hc] at hh; cases hh
      rw [Bool.not_false, if_pos rfl, ih]
      constructor
      · exact .skip hn
      · intro h
        cases h with
        | skip _ h => exact h
        | take hc _ _ => exact (hn hc).elim
    | true =>
      have hc := ha.mp hh
      have hnt : ¬ ((!true) = true) := by decide
      rw [if_neg hnt]
      cases hp : Cc.compileTop o nelems [8, 9] false a.expr with
      | error z =>
        constructor
        · nofun
        · intro h
          cases h with
          | skip hn _ => exact (hn hc).elim
          | take _ hr _ => rw [hp] at hr; cases hr
      | ok r =>
        cases hq : outputsFor o nelems as with
        | error z =>
          constructor
          · nofun
          · intro h
            cases h with
            | skip hn _ => exact (hn hc).elim
            | take _ _ hr => rw [(ih _).mpr hr] at hq; cases hq
        | ok qs =>
          constructor
          · intro h
            injection h with h
            subst h
            exact .take hc hp ((ih _).mp hq)
          · intro h
            cases h with
            | skip hn _ => exact (hn hc).elim
            | take _ hr ht =>
              rw [hp] at hr
              injection hr with hr
              rw [(ih _).mpr ht] at hq
              injection hq with hq
              subst hr hq
              rfl

/-- **C72.** The values shown for a function are those of the --output-arg about it, all of them, in the order given. -/
theorem outputs_chosen {o : Opts} {nelems : Ty → Nat} {xs : List Top} {as : List Arg} (h : prepareAll xs = .ok as) (rs : List TopRes) :
    outputsFor o nelems as = .ok rs ↔ Outputs o nelems xs rs := by
  rw [outputs_spec o nelems as (prepared h), (prepare_iff xs as).1 h]

/-! ### Only the parameters mentioned matter -/

/-- The part of the compiler that looks at parameters is `evaluateName`. -/
theorem name_vars (o : Opts) (vs : List (String × Ty)) (s : String) (h : Cc.findVar s o.vars 0 = Cc.findVar s vs 0) :
    Cc.evaluateName { o with vars := vs } s = Cc.evaluateName o s := by
  unfold Cc.evaluateName
  rw [h]

theorem coreLoop_vars (o : Opts) (vs : List (String × Ty)) (reg : Nat) (offs : List Cc.Off) :
    Cc.coreLoop { o with vars := vs } reg offs = Cc.coreLoop o reg offs := by
  induction offs with
  | nil => rfl
  | cons x r ih => rw [Cc.coreLoop, Cc.coreLoop, ih]; rfl

theorem materialize_vars (o : Opts) (vs : List (String × Ty)) : Cc.materialize { o with vars := vs } = Cc.materialize o := by
  funext v
  have h1 : Cc.emitOffsetChain { o with vars := vs } = Cc.emitOffsetChain o := by
    funext offs reg
    unfold Cc.emitOffsetChain Cc.emitCoreRead
    rw [coreLoop_vars]
    rfl
  unfold Cc.materialize
  rw [h1]
  rfl

theorem binRun_vars (o : Opts) (vs : List (String × Ty)) : Cc.binRun { o with vars := vs } = Cc.binRun o := by
  funext l r k
  unfold Cc.binRun
  rw [materialize_vars]

theorem unRun_vars (o : Opts) (vs : List (String × Ty)) : Cc.unRun { o with vars := vs } = Cc.unRun o := by
  funext l k
  unfold Cc.unRun
  rw [materialize_vars]

theorem binVals_vars (o : Opts) (vs : List (String × Ty)) : Cc.binVals { o with vars := vs } = Cc.binVals o := by
  funext op l r
  unfold Cc.binVals Cc.addVals Cc.subVals Cc.mulVals Cc.divVals Cc.modVals Cc.bitVals Cc.shiftVals Cc.cmpVals Cc.andandVals Cc.ororVals
  rw [binRun_vars, unRun_vars, materialize_vars]
  rfl

theorem unVals_vars (o : Opts) (vs : List (String × Ty)) : Cc.unVals { o with vars := vs } = Cc.unVals o := by
  funext op v
  unfold Cc.unVals
  rw [unRun_vars]
  rfl

theorem condVals_vars (o : Opts) (vs : List (String × Ty)) : Cc.condVals { o with vars := vs } = Cc.condVals o := by
  funext c l r
  unfold Cc.condVals Cc.condArm
  rw [materialize_vars]
  rfl

theorem evaluate_vars (o : Opts) (vs : List (String × Ty)) (e : Expr)
    (h : ∀ s, Occurs s e → Cc.findVar s o.vars 0 = Cc.findVar s vs 0) : Cc.evaluate { o with vars := vs } e = Cc.evaluate o e := by
  induction e with
  | name s => rw [Cc.evaluate, Cc.evaluate, name_vars o vs s (h s .name)]
  | num t => rfl
  | unsup => rfl
  | arrow e f ih => rw [Cc.evaluate, Cc.evaluate, ih fun s hs => h s (.arrow hs)]; rfl
  | dot e f ih => rw [Cc.evaluate, Cc.evaluate, ih fun s hs => h s (.dot hs)]; rfl
  | indir e ih => rw [Cc.evaluate, Cc.evaluate, ih fun s hs => h s (.indir hs)]; rfl
  | addr e ih => rw [Cc.evaluate, Cc.evaluate, ih fun s hs => h s (.addr hs)]
  | cast t e ih =>
    have ih := ih fun s hs => h s (.cast hs)
    cases e with
    | num text => rfl
    | _ => exact congrArg (fun m : Cc.CM Cc.Val => m >>= fun v => match t with | none => Cc.reject | some t => pure (Cc.castVal t v)) ih
  | un op e ih => rw [Cc.evaluate, Cc.evaluate, ih fun s hs => h s (.un hs), unVals_vars]
  | index e i ih1 ih2 => rw [Cc.evaluate, Cc.evaluate, ih1 fun s hs => h s (.indexL hs)]; rfl
  | bin op l r ih1 ih2 =>
    rw [Cc.evaluate, Cc.evaluate, ih1 fun s hs => h s (.binL hs), ih2 fun s hs => h s (.binR hs), binVals_vars]
  | cond c l r ih1 ih2 ih3 =>
    rw [Cc.evaluate, Cc.evaluate, ih1 fun s hs => h s (.condC hs), ih2 fun s hs => h s (.condL hs), ih3 fun s hs => h s (.condR hs),
      condVals_vars]

/-- **C72.** The code of a filter depends on the parameters it mentions only, on their places and types: for two functions that agree on
these it is the same (or rejected for both). -/
theorem filter_mentioned_only (o : Opts) (vs : List (String × Ty)) (x : Top)
    (h : ∀ s, Uses s x → Cc.findVar s o.vars 0 = Cc.findVar s vs 0) :
    compileFilterTop { o with vars := vs } x = compileFilterTop o x := by
  cases x with
  | call f args => rfl
  | plain e =>
    have he := evaluate_vars o vs e fun s hs => h s (.plain hs)
    unfold compileFilterTop Cc.compileFilter
    dsimp only
    rw [he]

theorem eval_vars (o : Opts) (vs : List (String × Ty)) (us : List Nat) (b : Bool) (e : Expr)
    (h : ∀ s, Occurs s e → Cc.findVar s o.vars 0 = Cc.findVar s vs 0) :
    Cc.compileEval { o with vars := vs } us b e = Cc.compileEval o us b e := by
  unfold Cc.compileEval
  rw [evaluate_vars o vs e h, materialize_vars]

theorem finish_vars (o : Opts) (vs : List (String × Ty)) (nelems : Ty → Nat) (us : List Nat) (b : Bool) (typ : Cc.FTyp) (e : Expr)
    (off size : BitVec 64) (pkt addr port int : String) (h : ∀ s, Occurs s e → Cc.findVar s o.vars 0 = Cc.findVar s vs 0) :
    Cc.finishTop { o with vars := vs } nelems us b typ e off size pkt addr port int =
      Cc.finishTop o nelems us b typ e off size pkt addr port int := by
  unfold Cc.finishTop
  rw [eval_vars o vs us b e h]

theorem positive_expr {c c' : Cc.FCall} (h : Cc.positive c = .ok c') : c' = c := by
  unfold Cc.positive at h
  split at h
  · cases h
  · injection h with h; exact h.symm

/-- The expression a call is compiled from is its first argument. -/
theorem call_expr {f : String} {e : Expr} {r : List Expr} {c : Cc.FCall} (h : Cc.compileFuncCall f (e :: r) = .ok c) : c.expr = e := by
  unfold Cc.compileFuncCall at h
  dsimp only at h
  unfold Cc.callBuf Cc.callStr Cc.callPkt Cc.callFixed at h
  repeat' split at h
  all_goals first
    | (cases h; done)
    | (cases h; rfl)
    | exact (positive_expr h) ▸ rfl
    | (injection h with h; subst h; rfl)

/-- **C72.** Likewise for --output-arg. -/
theorem output_mentioned_only (o : Opts) (vs : List (String × Ty)) (nelems : Ty → Nat) (us : List Nat) (b : Bool) (x : Top)
    (h : ∀ s, Uses s x → Cc.findVar s o.vars 0 = Cc.findVar s vs 0) :
    Cc.compileTop { o with vars := vs } nelems us b x = Cc.compileTop o nelems us b x := by
  cases x with
  | plain e =>
    have he : ∀ s, Occurs s e → Cc.findVar s o.vars 0 = Cc.findVar s vs 0 := fun s hs => h s (.plain hs)
    cases e with
    | indir e => exact finish_vars o vs nelems us b _ e _ _ _ _ _ _ fun s hs => he s (.indir hs)
    | _ => exact finish_vars o vs nelems us b .dflt _ 0 0 "" "" "" "" he
  | call f args =>
    cases f with
    | none => rfl
    | some f =>
      cases args with
      | nil => rfl
      | cons e r =>
        unfold Cc.compileTop
        dsimp only
        cases hc : Cc.compileFuncCall f (e :: r) with
        | error z => rfl
        | ok c =>
          dsimp only
          rw [call_expr hc]
          exact finish_vars o vs nelems us b _ e _ _ _ _ _ _ fun s hs => h s (.call hs)

/-! ### Operators the compiler does not know -/

/-- Specification: there is an unknown operator somewhere in the expression. -/
inductive Unknown : Expr → Prop where
  | here : Unknown .unsup
  | arrow {e f} : Unknown e → Unknown (.arrow e f)
  | dot {e f} : Unknown e → Unknown (.dot e f)
  | indexL {e i} : Unknown e → Unknown (.index e i)
  | indexR {e i} : Unknown i → Unknown (.index e i)
  | indir {e} : Unknown e → Unknown (.indir e)
  | addr {e} : Unknown e → Unknown (.addr e)
  | cast {t e} : Unknown e → Unknown (.cast t e)
  | un {op e} : Unknown e → Unknown (.un op e)
  | binL {op l r} : Unknown l → Unknown (.bin op l r)
  | binR {op l r} : Unknown r → Unknown (.bin op l r)
  | condC {c l r} : Unknown c → Unknown (.cond c l r)
  | condL {c l r} : Unknown l → Unknown (.cond c l r)
  | condR {c l r} : Unknown r → Unknown (.cond c l r)

/-- **C72.** An expression with an unknown operator anywhere is compiled for no function, whatever names are below the operator. -/
theorem unsup_rejected {e : Expr} (h : Unknown e) (o : Opts) (s : Cc.CSt) (p) : Cc.evaluate o e s ≠ .ok p := by
  have bindL : ∀ {α β : Type} {x : Cc.CM α} {f : α → Cc.CM β} {s}, (∀ p, x s ≠ .ok p) → ∀ p, (x >>= f) s ≠ .ok p := by
    intro α β x f s hx p hp
    obtain ⟨a, s1, c1, c2, h1, -, -⟩ := Cc.bind_ok (b := p.1) (s2 := p.2.1) (c := p.2.2) hp
    exact hx _ h1
  have bindR : ∀ {α β : Type} {x : Cc.CM α} {f : α → Cc.CM β}, (∀ a s p, f a s ≠ .ok p) → ∀ s p, (x >>= f) s ≠ .ok p := by
    intro α β x f hx s p hp
    obtain ⟨a, s1, c1, c2, -, h1, -⟩ := Cc.bind_ok (b := p.1) (s2 := p.2.1) (c := p.2.2) hp
    exact hx _ _ _ h1
  induction h generalizing s p with
  | here => nofun
  | arrow _ ih => rw [Cc.evaluate]; exact bindL (ih s) p
  | dot _ ih => rw [Cc.evaluate]; exact bindL (ih s) p
  | indir _ ih => rw [Cc.evaluate]; exact bindL (ih s) p
  | addr _ ih => rw [Cc.evaluate]; exact bindL (ih s) p
  | un _ ih => rw [Cc.evaluate]; exact bindL (ih s) p
  | indexL _ ih => rw [Cc.evaluate]; exact bindL (ih s) p
  | @indexR e i hu ih =>
    rw [Cc.evaluate]
    refine bindR (fun v s p => ?_) s p
    unfold Cc.evaluateIndex
    split
    · nofun
    · cases hu <;> nofun
  | @cast t e hu ih =>
    cases e with
    | num text => cases hu
    | _ =>
      cases t with
      | none => exact bindL (f := fun _ => Cc.reject) (ih s) p
      | some t => exact bindL (f := fun v => pure (Cc.castVal t v)) (ih s) p
  | binL _ ih => rw [Cc.evaluate]; exact bindL (ih s) p
  | binR _ ih => rw [Cc.evaluate]; exact bindR (fun _ s p => bindL (ih s) p) s p
  | condC _ ih => rw [Cc.evaluate]; exact bindL (ih s) p
  | condL _ ih => rw [Cc.evaluate]; exact bindR (fun _ s p => bindL (ih s) p) s p
  | condR _ ih => rw [Cc.evaluate]; exact bindR (fun _ => bindR fun _ s p => bindL (ih s) p) s p

/-! ### Examples and violations -/

open Cc (exOpts exExpr)

/-- `n == 5` -/
def exN : Expr := .bin .eq (.name "n") (.num ['5'])

/-- `q->len == 5`, about functions with a parameter `q`. -/
def exQ : Expr := .bin .eq (.arrow (.name "q") "len") (.num ['5'])

/-- `skb->dev->ifindex == 5 && sk == 5` -/
def exForeign : Expr := .bin .andand exExpr (.bin .eq (.name "sk") (.num ['5']))

theorem skb_ex : Occurs "skb" exExpr := .binL (.arrow (.arrow .name))
theorem n_ex : Occurs "n" exN := .binL .name
theorem q_ex : Occurs "q" exQ := .binL (.arrow .name)

theorem exQ_not (mode : Mode) : ¬ Concerns (.plain exQ) (exOpts mode).vars := by
  rintro ⟨p, hp, hu⟩
  cases hu with
  | plain h =>
    have := (walk_iff _ _).mpr h
    simp only [exQ, walk, List.append_nil, List.mem_singleton] at this
    simp only [exOpts, List.mem_cons, List.not_mem_nil, or_false] at hp
    rcases hp with rfl | rfl <;> exact absurd this (by decide)

/-- Of `q->len == 5`, `n == 5` the second is the filter of a function with parameters `skb`, `n`. -/
theorem filter_chosen_witness (mode : Mode) : ∃ as, prepareAll [.plain exQ, .plain exN] = .ok as ∧
    ∃ p, filterFor (exOpts mode) as = .ok (some (1, p)) := by
  obtain ⟨as, h⟩ := (prepare_iff [.plain exQ, .plain exN] []).2.mpr (by
    intro x hx
    simp only [List.mem_cons, List.not_mem_nil, or_false] at hx
    rcases hx with rfl | rfl
    · exact ⟨_, .plain q_ex⟩
    · exact ⟨_, .plain n_ex⟩)
  refine ⟨as, h, ?_⟩
  have hp : ∃ p, compileFilterTop (exOpts mode) (.plain exN) = .ok p := by cases mode <;> exact ⟨_, rfl⟩
  obtain ⟨p, hp⟩ := hp
  refine ⟨p, ((filter_chosen h).2 1 p).mpr ⟨.plain exN, rfl, ⟨("n", .base 2), List.mem_cons_of_mem _ List.mem_cons_self, .plain n_ex⟩, ?_, hp⟩⟩
  intro k y hk hy
  obtain rfl : k = 0 := by omega
  injection hy with hy
  subst hy
  exact exQ_not mode

/-- Of `q`, `n`, `q`, `skb->len` the second and the last are shown for a function with parameters `skb`, `n`. -/
theorem outputs_witness (mode : Mode) (nelems : Ty → Nat) :
    ∃ as r1 r2, prepareAll [.plain (.name "q"), .plain (.name "n"), .plain (.name "q"), .plain (.arrow (.name "skb") "len")] = .ok as ∧
      outputsFor (exOpts mode) nelems as = .ok [r1, r2] ∧ r1.res.ty = some (.base 2) ∧ r2.code.code.length > r1.code.code.length := by
  obtain ⟨as, h⟩ := (prepare_iff [.plain (.name "q"), .plain (.name "n"), .plain (.name "q"), .plain (.arrow (.name "skb") "len")] []).2.mpr (by
    intro x hx
    simp only [List.mem_cons, List.not_mem_nil, or_false] at hx
    rcases hx with rfl | rfl | rfl | rfl
    · exact ⟨_, .plain .name⟩
    · exact ⟨_, .plain .name⟩
    · exact ⟨_, .plain .name⟩
    · exact ⟨_, .plain (.arrow .name)⟩)
  have hq : ¬ Concerns (.plain (.name "q")) (exOpts mode).vars := by
    rintro ⟨p, hp, hu⟩
    cases hu with
    | plain h =>
      have := (walk_iff _ _).mpr h
      simp only [walk, List.mem_singleton] at this
      simp only [exOpts, List.mem_cons, List.not_mem_nil, or_false] at hp
      rcases hp with rfl | rfl <;> exact absurd this (by decide)
  have hp : ∃ r1 r2, Cc.compileTop (exOpts mode) nelems [8, 9] false (.plain (.name "n")) = .ok r1 ∧
      Cc.compileTop (exOpts mode) nelems [8, 9] false (.plain (.arrow (.name "skb") "len")) = .ok r2 ∧
      r1.res.ty = some (.base 2) ∧ r2.code.code.length > r1.code.code.length := by
    cases mode <;> exact ⟨_, _, rfl, rfl, rfl, by decide⟩
  obtain ⟨r1, r2, h1, h2, h3, h4⟩ := hp
  exact ⟨as, r1, r2, h, (outputs_chosen h _).mpr (.skip hq (.take ⟨("n", .base 2), List.mem_cons_of_mem _ List.mem_cons_self, .plain .name⟩ h1
    (.skip hq (.take ⟨("skb", .ptr (.base 0)), List.mem_cons_self, .plain (.arrow .name)⟩ h2 .nil)))), h3, h4⟩

/-- `pkt(skb->dev, 64, tcp)` is about functions with a parameter `skb`, not about those with a parameter `tcp`. -/
theorem first_argument_witness (t : Ty) :
    Concerns (.call (some "pkt") [.arrow (.name "skb") "dev", .num ['6', '4'], .name "tcp"]) [("skb", t)] ∧
    ¬ Concerns (.call (some "pkt") [.arrow (.name "skb") "dev", .num ['6', '4'], .name "tcp"]) [("tcp", t)] := by
  refine ⟨⟨_, List.mem_cons_self, .call (.arrow .name)⟩, ?_⟩
  rintro ⟨p, hp, hu⟩
  rw [List.mem_singleton] at hp
  subst hp
  cases hu with
  | call h =>
    have := (walk_iff _ _).mpr h
    simp only [walk, List.mem_singleton] at this
    exact absurd this (by decide)

/-- **C72 violated.** Not every filter about a function is applied to it: of two the second is ignored. -/
theorem second_filter_violated (mode : Mode) : Concerns (.plain exN) (exOpts mode).vars ∧
    ∃ as p, prepareAll [.plain exExpr, .plain exN] = .ok as ∧ compileFilterTop (exOpts mode) (.plain exExpr) = .ok p ∧
      filterFor (exOpts mode) as = .ok (some (0, p)) := by
  refine ⟨⟨("n", .base 2), List.mem_cons_of_mem _ List.mem_cons_self, .plain n_ex⟩, ?_⟩
  obtain ⟨as, h⟩ := (prepare_iff [.plain exExpr, .plain exN] []).2.mpr (by
    intro x hx
    simp only [List.mem_cons, List.not_mem_nil, or_false] at hx
    rcases hx with rfl | rfl
    · exact ⟨_, .plain skb_ex⟩
    · exact ⟨_, .plain n_ex⟩)
  have hp : ∃ p, compileFilterTop (exOpts mode) (.plain exExpr) = .ok p := by cases mode <;> exact ⟨_, rfl⟩
  obtain ⟨p, hp⟩ := hp
  exact ⟨as, p, h, hp, ((filter_chosen h).2 0 p).mpr ⟨.plain exExpr, rfl, ⟨("skb", .ptr (.base 0)), List.mem_cons_self, .plain skb_ex⟩,
    fun k y hk _ => by omega, hp⟩⟩

/-- **C72 violated.** A filter that mentions a parameter of the function and a name the function does not have makes tracing the function
fail, although a later filter fits. -/
theorem foreign_name_violated (mode : Mode) : (∃ p, compileFilterTop (exOpts mode) (.plain exN) = .ok p) ∧
    ∃ as, prepareAll [.plain exForeign, .plain exN] = .ok as ∧ filterFor (exOpts mode) as = .error .reject := by
  refine ⟨by cases mode <;> exact ⟨_, rfl⟩, ?_⟩
  obtain ⟨as, h⟩ := (prepare_iff [.plain exForeign, .plain exN] []).2.mpr (by
    intro x hx
    simp only [List.mem_cons, List.not_mem_nil, or_false] at hx
    rcases hx with rfl | rfl
    · exact ⟨_, .plain (.binL skb_ex)⟩
    · exact ⟨_, .plain n_ex⟩)
  refine ⟨as, h, (filter_fails h _).mpr ⟨0, .plain exForeign, rfl, ⟨("skb", .ptr (.base 0)), List.mem_cons_self, .plain (.binL skb_ex)⟩,
    fun k y hk _ => by omega, ?_⟩⟩
  cases mode <;> rfl

/-- **C72 violated.** An expression on memory at a constant address can be compiled but is refused: it ends bpfsnoop. -/
theorem constant_address_violated :
    (∃ p, compileFilterTop (exOpts .probe) (.plain (.bin .eq (.arrow (.cast (some (.ptr (.base 0))) (.num ['1', '6'])) "len") (.num ['5']))) = .ok p) ∧
    ∀ as, prepareAll [.plain (.bin .eq (.arrow (.cast (some (.ptr (.base 0))) (.num ['1', '6'])) "len") (.num ['5']))] ≠ .ok as := by
  refine ⟨⟨_, rfl⟩, fun as h => ?_⟩
  obtain ⟨s, hs⟩ := (prepare_iff _ as).2.mp ⟨as, h⟩ _ List.mem_cons_self
  cases hs with
  | plain h =>
    have := (walk_iff _ _).mpr h
    simp [walk] at this

/-- **C72 violated.** A call without arguments crashes bpfsnoop. -/
theorem empty_call_violated (f : Option String) : prepareAll [.call f []] = .error .panic := rfl

/-- **C72 violated.** `true`, `false` and `NULL` count as variables: a filter without parameters is accepted and applied to no function. -/
theorem keyword_violated (mode : Mode) : ∃ as, prepareAll [.plain (.bin .eq (.num ['1']) (.name "true"))] = .ok as ∧
    filterFor (exOpts mode) as = .ok none := by
  obtain ⟨as, h⟩ := (prepare_iff [.plain (.bin .eq (.num ['1']) (.name "true"))] []).2.mpr (by
    intro x hx
    rw [List.mem_singleton] at hx
    subst hx
    exact ⟨_, .plain (.binR .name)⟩)
  refine ⟨as, h, (filter_chosen h).1.mpr ?_⟩
  intro x hx
  rw [List.mem_singleton] at hx
  subst hx
  rintro ⟨p, hp, hu⟩
  cases hu with
  | plain h =>
    have := (walk_iff _ _).mpr h
    simp only [walk, List.nil_append, List.mem_singleton] at this
    simp only [exOpts, List.mem_cons, List.not_mem_nil, or_false] at hp
    rcases hp with rfl | rfl <;> exact absurd this (by decide)

/-- A second function with other parameters beside `n` gets the same code for `n == 5`, as long as `n` is its second parameter. -/
theorem mentioned_only_witness (mode : Mode) (t : Ty) :
    compileFilterTop { exOpts mode with vars := [("dev", t), ("n", .base 2), ("x", t)] } (.plain exN) =
      compileFilterTop (exOpts mode) (.plain exN) := by
  apply filter_mentioned_only
  intro s hs
  cases hs with
  | plain h =>
    have := (walk_iff _ _).mpr h
    simp only [exN, walk, List.append_nil, List.mem_singleton] at this
    subst this
    rfl

end Bpfsnoop.Sel
