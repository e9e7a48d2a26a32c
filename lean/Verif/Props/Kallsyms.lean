import Verif.Model.Kallsyms
/-
C24: symbolisation. Statements are about the text lines (`t`/`T`) of /proc/kallsyms.
-/
namespace Bpfsnoop.Kallsyms

/-- A text symbol as it stands in the file. -/
structure Sym where
  addr : Nat
  name : String
  mod : String
deriving DecidableEq, Repr

/-- The text symbols of the file in file order. -/
def texts : List Line → List Sym
  | [] => []
  | l :: ls =>
    if l.typ = "t" ∨ l.typ = "T" then
      match l.addr with
      | some a => ⟨a, l.name, l.mod⟩ :: texts ls
      | none => texts ls
    else texts ls

theorem lookup_put {α β} [DecidableEq α] (m : List (α × β)) (k k' : α) (v : β) :
    lookup (put m k v) k' = if k' = k then some v else lookup m k' := by
  unfold lookup put
  by_cases h : k' = k
  · subst h; simp
  · rw [List.find?_cons_of_neg (by simpa using fun h' => h h'.symm)]
    simp only [if_neg h]
    congr 1
    induction m with
    | nil => rfl
    | cons p m ih =>
      by_cases hp : p.1 = k
      · have : ¬ p.1 = k' := by intro h2; exact h (h2.symm.trans hp)
        rw [List.filter_cons, if_neg (by simpa using hp), List.find?_cons_of_neg (by simpa using this)]
        exact ih
      · by_cases hp' : p.1 = k'
        · rw [List.filter_cons, if_pos (by simpa using hp), List.find?_cons_of_pos (by simpa using hp'), List.find?_cons_of_pos (by simpa using hp')]
        · simp only [List.filter_cons, hp, ne_eq, not_false_eq_true, decide_true, if_true]
          rw [List.find?_cons_of_neg (by simpa using hp'), List.find?_cons_of_neg (by simpa using hp')]
          exact ih

theorem mem_keys {α β} [DecidableEq α] (m : List (α × β)) (k : α) :
    k ∈ m.map Prod.fst ↔ (lookup m k).isSome := by
  unfold lookup
  simp only [Option.isSome_map, List.find?_isSome, decide_eq_true_eq, List.mem_map]

/-- What the tables mean after the text symbols `ts` have been read. -/
structure Inv (ts : List Sym) (t : Tables) : Prop where
  len : t.heap.length = ts.length
  heap : ∀ i x, ts[i]? = some x → ∃ e, t.heap[i]? = some e ∧ e.addr = x.addr ∧ e.name = x.name ∧
    e.mod = x.mod ∧
    (e.duped = true ↔ ∃ j y, j ≠ i ∧ ts[j]? = some y ∧ y.name = x.name) ∧
    ((∃ j y, j < i ∧ ts[j]? = some y ∧ y.name = x.name) → e.extra = []) ∧
    ((¬ ∃ j y, j < i ∧ ts[j]? = some y ∧ y.name = x.name) →
      e.extra = ((ts.drop (i+1)).filter (fun y => y.name == x.name)).map Sym.addr)
  a2s : ∀ a i, lookup t.a2s a = some i ↔
    ((∃ x, ts[i]? = some x ∧ x.addr = a) ∧ ∀ j y, i < j → ts[j]? = some y → y.addr ≠ a)
  n2s : ∀ n i, lookup t.n2s n = some i ↔
    ((∃ x, ts[i]? = some x ∧ x.name = n) ∧ ∀ j y, j < i → ts[j]? = some y → y.name ≠ n)

theorem n2s_none {ts : List Sym} {t : Tables} (h : Inv ts t) (n : String) :
    lookup t.n2s n = none ↔ ∀ (j : Nat) (y : Sym), ts[j]? = some y → y.name ≠ n := by
  constructor
  · intro hn
    intro j
    induction j using Nat.strongRecOn with
    | ind j ih =>
      intro y hy hyn
      have := (h.n2s n j).mpr ⟨⟨y, hy, hyn⟩, fun k z hk hz => ih k hk z hz⟩
      simp [hn] at this
  · intro hall
    cases hl : lookup t.n2s n with
    | none => rfl
    | some i =>
      obtain ⟨⟨x, hx, hxn⟩, _⟩ := (h.n2s n i).mp hl
      exact absurd hxn (hall i x hx)

theorem getElem?_snoc {α} (l : List α) (x : α) (i : Nat) :
    (l ++ [x])[i]? = if i = l.length then some x else l[i]? := by
  rw [List.getElem?_append]
  split
  · rename_i h; simp [Nat.ne_of_lt h]
  · rename_i h
    split
    · rename_i h2; simp [h2]
    · rename_i h2
      have : l.length < i := by omega
      rw [List.getElem?_eq_none (by simp; omega), List.getElem?_eq_none (by omega)]

theorem lt_of_get {α} {l : List α} {i : Nat} {x : α} (h : l[i]? = some x) : i < l.length := by
  exact (List.getElem?_eq_some_iff.mp h).1

/-- Only the tables proper matter for `Inv`. -/
theorem Inv.congr {ts : List Sym} {t t' : Tables} (h : Inv ts t) (h1 : t'.heap = t.heap)
    (h2 : t'.a2s = t.a2s) (h3 : t'.n2s = t.n2s) : Inv ts t' := by
  refine ⟨by rw [h1]; exact h.len, by rw [h1]; exact h.heap, by rw [h2]; exact h.a2s, by rw [h3]; exact h.n2s⟩

theorem a2s_snoc {ts : List Sym} {m : List (Nat × Nat)} (x : Sym)
    (h : ∀ a i, lookup m a = some i ↔
      ((∃ x, ts[i]? = some x ∧ x.addr = a) ∧ ∀ j y, i < j → ts[j]? = some y → y.addr ≠ a)) :
    ∀ a i, lookup (put m x.addr ts.length) a = some i ↔
      ((∃ y, (ts ++ [x])[i]? = some y ∧ y.addr = a) ∧
        ∀ j y, i < j → (ts ++ [x])[j]? = some y → y.addr ≠ a) := by
  intro a i
  rw [lookup_put]
  by_cases ha : a = x.addr
  · rw [if_pos ha]
    constructor
    · intro hi
      have : ts.length = i := by simpa using hi
      subst this
      refine ⟨⟨x, by simp, ha.symm⟩, ?_⟩
      intro j y hj hy
      have := lt_of_get hy
      simp at this; omega
    · rintro ⟨⟨y, hy, hya⟩, hlast⟩
      by_cases hi : i = ts.length
      · simp [hi]
      · have hlt := lt_of_get hy
        simp at hlt
        exact absurd ha.symm (hlast ts.length x (by omega) (by simp))
  · rw [if_neg ha, h]
    constructor
    · rintro ⟨⟨y, hy, hya⟩, hlast⟩
      have hlt := lt_of_get hy
      refine ⟨⟨y, by rw [getElem?_snoc, if_neg (by omega)]; exact hy, hya⟩, ?_⟩
      intro j z hj hz
      rw [getElem?_snoc] at hz
      split at hz
      · simp only [Option.some.injEq] at hz; subst hz; exact fun h => ha h.symm
      · exact hlast j z hj hz
    · rintro ⟨⟨y, hy, hya⟩, hlast⟩
      rw [getElem?_snoc] at hy
      split at hy
      · simp only [Option.some.injEq] at hy; subst hy; exact absurd hya.symm ha
      · refine ⟨⟨y, hy, hya⟩, ?_⟩
        intro j z hj hz
        have := lt_of_get hz
        exact hlast j z hj (by rw [getElem?_snoc, if_neg (by omega)]; exact hz)

theorem step_inv {sysBPF : String} {ts : List Sym} {t t' : Tables} {l : Line} (h : Inv ts t)
    (hs : step sysBPF t l = some t') : Inv (ts ++ texts [l]) t' := by
  unfold step at hs
  split at hs
  · rename_i htyp
    cases ha : l.addr with
    | none => simp [ha] at hs
    | some a =>
      have htx : texts [l] = [⟨a, l.name, l.mod⟩] := by simp [texts, htyp, ha]
      rw [htx]
      simp only [ha, Option.some.injEq] at hs
      have key : Inv (ts ++ [⟨a, l.name, l.mod⟩]) (addText t a l.name l.mod) := by
        generalize hT : addText t a l.name l.mod = T
        have ha2s := a2s_snoc ⟨a, l.name, l.mod⟩ h.a2s
        cases hl : lookup t.n2s l.name with
        | some i0 =>
          have hT' : T = { t with
              heap := (t.heap.modify i0 fun e => { e with extra := e.extra ++ [a], duped := true })
                ++ [Entry.mk a l.name l.mod [] true]
              a2s := put t.a2s a ts.length } := by rw [← hT, addText, hl, h.len]
          obtain ⟨⟨x0, hx0, hx0n⟩, hfirst⟩ := (h.n2s _ _).mp hl
          have hi0 := lt_of_get hx0
          refine ⟨?_, ?_, by rw [hT']; exact ha2s, ?_⟩
          · simp [hT', h.len]
          · intro i x hx
            rw [getElem?_snoc] at hx
            simp only [hT', getElem?_snoc, List.length_modify, h.len]
            by_cases hi : i = ts.length
            · rw [if_pos hi] at hx ⊢
              simp only [Option.some.injEq] at hx; subst hx
              refine ⟨_, rfl, rfl, rfl, rfl, ?_, ?_⟩
              · simp only [true_iff]
                exact ⟨i0, x0, by omega, by rw [if_neg (by omega)]; exact hx0, hx0n⟩
              · refine ⟨fun _ => rfl, fun hno => absurd ?_ hno⟩
                exact ⟨i0, x0, by omega, by rw [if_neg (by omega)]; exact hx0, hx0n⟩
            · rw [if_neg hi] at hx ⊢
              have hilt := lt_of_get hx
              obtain ⟨e, he, h1, h2, h3, h4, h5⟩ := h.heap i x hx
              rw [List.getElem?_modify, he]
              have hdrop : (ts ++ [(⟨a, l.name, l.mod⟩ : Sym)]).drop (i+1) =
                  ts.drop (i+1) ++ [⟨a, l.name, l.mod⟩] := by
                rw [List.drop_append_of_le_length (by omega)]
              have hprev : (∃ j y, j < i ∧ (if j = ts.length then some (⟨a, l.name, l.mod⟩ : Sym) else ts[j]?) = some y ∧ y.name = x.name)
                  ↔ (∃ j y, j < i ∧ ts[j]? = some y ∧ y.name = x.name) := by
                constructor
                · rintro ⟨j, y, hj, hy, hn⟩; rw [if_neg (by omega)] at hy; exact ⟨j, y, hj, hy, hn⟩
                · rintro ⟨j, y, hj, hy, hn⟩; exact ⟨j, y, hj, by rw [if_neg (by omega)]; exact hy, hn⟩
              by_cases hii : i0 = i
              · subst hii
                rw [hx0] at hx; simp only [Option.some.injEq] at hx; subst hx
                refine ⟨{ e with extra := e.extra ++ [a], duped := true }, by simp, h1, h2, h3, ?_, ?_⟩
                · simp only [true_iff]
                  exact ⟨ts.length, ⟨a, l.name, l.mod⟩, by omega, by simp, hx0n.symm⟩
                · simp only [hprev, hdrop]
                  have hno : ¬ ∃ j y, j < i0 ∧ ts[j]? = some y ∧ y.name = x0.name := by
                    rintro ⟨j, y, hj, hy, hn⟩; exact hfirst j y hj hy (hn.trans hx0n)
                  refine ⟨fun hp => absurd hp hno, fun _ => ?_⟩
                  rw [h5.2 hno]; simp [List.filter_append, hx0n]
              · refine ⟨e, by simp [hii], h1, h2, h3, ?_, ?_⟩
                · rw [h4]
                  constructor
                  · rintro ⟨j, y, hj, hy, hn⟩
                    have := lt_of_get hy
                    exact ⟨j, y, hj, by rw [if_neg (by omega)]; exact hy, hn⟩
                  · rintro ⟨j, y, hj, hy, hn⟩
                    split at hy
                    · simp only [Option.some.injEq] at hy; subst hy
                      exact ⟨i0, x0, hii, hx0, hx0n.trans hn⟩
                    · exact ⟨j, y, hj, hy, hn⟩
                · simp only [hprev, hdrop]
                  refine ⟨h5.1, ?_⟩
                  · intro hno
                    rw [h5.2 hno]
                    have : ¬ l.name = x.name := by
                      intro hn
                      rcases Nat.lt_trichotomy i0 i with hlt | heq | hgt
                      · exact hno ⟨i0, x0, hlt, hx0, hx0n.trans hn⟩
                      · exact hii heq
                      · exact hfirst i x hgt hx hn.symm
                    simp [List.filter_append, this]
          · intro n i
            have hN : T.n2s = t.n2s := by rw [hT']
            rw [hN, h.n2s]
            constructor
            · rintro ⟨⟨x, hx, hxn⟩, hf⟩
              have := lt_of_get hx
              refine ⟨⟨x, by rw [getElem?_snoc, if_neg (by omega)]; exact hx, hxn⟩, ?_⟩
              intro j y hj hy
              rw [getElem?_snoc, if_neg (by omega)] at hy
              exact hf j y hj hy
            · rintro ⟨⟨x, hx, hxn⟩, hf⟩
              rw [getElem?_snoc] at hx
              split at hx
              · rename_i hi
                simp only [Option.some.injEq] at hx; subst hx
                exact absurd (hx0n.trans hxn) (hf i0 x0 (by omega) (by rw [getElem?_snoc, if_neg (by omega)]; exact hx0))
              · refine ⟨⟨x, hx, hxn⟩, ?_⟩
                have := lt_of_get hx
                intro j y hj hy
                exact hf j y hj (by rw [getElem?_snoc, if_neg (by omega)]; exact hy)
        | none =>
          have hT' : T = { t with
              heap := t.heap ++ [Entry.mk a l.name l.mod [] false]
              n2s := put t.n2s l.name ts.length
              a2s := put t.a2s a ts.length } := by rw [← hT, addText, hl, h.len]
          have hnone := (n2s_none h _).mp hl
          refine ⟨?_, ?_, by rw [hT']; exact ha2s, ?_⟩
          · simp [hT', h.len]
          · intro i x hx
            rw [getElem?_snoc] at hx
            simp only [hT', getElem?_snoc, h.len]
            by_cases hi : i = ts.length
            · rw [if_pos hi] at hx ⊢
              simp only [Option.some.injEq] at hx; subst hx
              refine ⟨_, rfl, rfl, rfl, rfl, ?_, ?_⟩
              · simp only [Bool.false_eq_true, false_iff]
                rintro ⟨j, y, hj, hy, hn⟩
                rw [if_neg (by omega)] at hy
                exact hnone j y hy hn
              · refine ⟨fun _ => rfl, fun _ => ?_⟩
                subst hi; simp
            · rw [if_neg hi] at hx ⊢
              have hilt := lt_of_get hx
              obtain ⟨e, he, h1, h2, h3, h4, h5⟩ := h.heap i x hx
              have hxn : ¬ l.name = x.name := fun hn => hnone i x hx hn.symm
              refine ⟨e, he, h1, h2, h3, ?_, ?_⟩
              · rw [h4]
                constructor
                · rintro ⟨j, y, hj, hy, hn⟩
                  have := lt_of_get hy
                  exact ⟨j, y, hj, by rw [if_neg (by omega)]; exact hy, hn⟩
                · rintro ⟨j, y, hj, hy, hn⟩
                  split at hy
                  · simp only [Option.some.injEq] at hy; subst hy; exact absurd hn hxn
                  · exact ⟨j, y, hj, hy, hn⟩
              · have hprev : (∃ j y, j < i ∧ (if j = ts.length then some (⟨a, l.name, l.mod⟩ : Sym) else ts[j]?) = some y ∧ y.name = x.name)
                  ↔ (∃ j y, j < i ∧ ts[j]? = some y ∧ y.name = x.name) := by
                  constructor
                  · rintro ⟨j, y, hj, hy, hn⟩; rw [if_neg (by omega)] at hy; exact ⟨j, y, hj, hy, hn⟩
                  · rintro ⟨j, y, hj, hy, hn⟩; exact ⟨j, y, hj, by rw [if_neg (by omega)]; exact hy, hn⟩
                simp only [hprev]
                refine ⟨h5.1, fun hno => ?_⟩
                rw [h5.2 hno, List.drop_append_of_le_length (by omega)]
                simp [List.filter_append, hxn]
          · intro n i
            have hN : T.n2s = put t.n2s l.name ts.length := by rw [hT']
            rw [hN, lookup_put]
            by_cases hn : n = l.name
            · rw [if_pos hn]
              constructor
              · intro hi
                have : ts.length = i := by simpa using hi
                subst this
                refine ⟨⟨_, by rw [getElem?_snoc, if_pos rfl], hn.symm⟩, ?_⟩
                intro j y hj hy
                rw [getElem?_snoc, if_neg (by omega)] at hy
                rw [hn]; exact hnone j y hy
              · rintro ⟨⟨x, hx, hxn⟩, _⟩
                rw [getElem?_snoc] at hx
                split at hx
                · rename_i h; simp [h]
                · exact absurd (hxn.trans hn) (hnone i x hx)
            · rw [if_neg hn, h.n2s]
              constructor
              · rintro ⟨⟨x, hx, hxn⟩, hf⟩
                have := lt_of_get hx
                refine ⟨⟨x, by rw [getElem?_snoc, if_neg (by omega)]; exact hx, hxn⟩, ?_⟩
                intro j y hj hy
                rw [getElem?_snoc, if_neg (by omega)] at hy
                exact hf j y hj hy
              · rintro ⟨⟨x, hx, hxn⟩, hf⟩
                rw [getElem?_snoc] at hx
                split at hx
                · simp only [Option.some.injEq] at hx; subst hx; exact absurd hxn.symm hn
                · refine ⟨⟨x, hx, hxn⟩, ?_⟩
                  have := lt_of_get hx
                  intro j y hj hy
                  exact hf j y hj (by rw [getElem?_snoc, if_neg (by omega)]; exact hy)
      rw [← hs]
      refine key.congr ?_ ?_ ?_ <;> (unfold addMod addSpecial; (repeat' split) <;> rfl)
  · rename_i htyp
    have htx : texts [l] = [] := by simp [texts, htyp]
    rw [htx, List.append_nil]
    split at hs
    · split at hs
      · simp only [Option.map_eq_some_iff] at hs
        obtain ⟨a, _, rfl⟩ := hs
        exact h.congr rfl rfl rfl
      · simp only [Option.some.injEq] at hs; subst hs; exact h
    · split at hs
      · split at hs
        · simp only [Option.map_eq_some_iff] at hs
          obtain ⟨a, _, rfl⟩ := hs
          exact h.congr rfl rfl rfl
        · simp only [Option.some.injEq] at hs; subst hs; exact h
      · simp only [Option.some.injEq] at hs; subst hs; exact h

theorem texts_cons (l : Line) (ls : List Line) : texts (l :: ls) = texts [l] ++ texts ls := by
  simp only [texts]; split
  · split <;> simp
  · simp

theorem scan_inv {sysBPF : String} (ls : List Line) {ts : List Sym} {t t' : Tables} (h : Inv ts t)
    (hs : scan sysBPF ls t = some t') : Inv (ts ++ texts ls) t' := by
  induction ls generalizing ts t with
  | nil => simp only [scan, Option.some.injEq] at hs; subst hs; simpa [texts] using h
  | cons l ls ih =>
    simp only [scan, Option.bind_eq_some_iff] at hs
    obtain ⟨t1, h1, h2⟩ := hs
    rw [texts_cons, ← List.append_assoc]
    exact ih (step_inv h h1) h2

theorem inv_empty : Inv [] Tables.empty := by
  refine ⟨rfl, by simp, ?_, ?_⟩ <;> simp [Tables.empty, lookup]

theorem scanned_inv {sysBPF : String} {ls : List Line} {t : Tables}
    (hs : scan sysBPF ls Tables.empty = some t) : Inv (texts ls) t := by
  simpa using scan_inv ls inv_empty hs

theorem loop_spec (addrs : List Nat) (addr i j : Nat) (hij : i ≤ j) (hj : j ≤ addrs.length)
    (hi : ∀ x, 0 < i → addrs[i-1]? = some x → x ≤ addr)
    (hi0 : i = 0 → j ≠ 0)
    (hlo : ∀ x, addrs[0]? = some x → x ≤ addr)
    (hjgt : ∀ x, addrs[j]? = some x → addr < x) :
    ∃ m x, loop addrs addr i j = some m ∧ addrs[m]? = some x ∧ x ≤ addr ∧
      ∀ y, addrs[m+1]? = some y → addr < y := by
  fun_induction loop addrs addr i j with
  | case1 i j h m hm => 
    have : m < addrs.length := by show (i + j) / 2 < _; omega
    rw [List.getElem?_eq_getElem this] at hm; simp at hm
  | case2 i j h m am hm hle hc =>
    refine ⟨m, am, rfl, hm, hle, ?_⟩
    intro y hy
    simp [hy] at hc
    exact hc.2
  | case3 i j h m am hm hle hc ih =>
    apply ih
    · show (i + j) / 2 + 1 ≤ j; omega
    · exact hj
    · intro x _ hx; simp only [Nat.add_sub_cancel] at hx; rw [hm] at hx; simp at hx; omega
    · simp
    · exact hjgt
  | case4 i j h m am hm hle ih =>
    apply ih
    · show i ≤ (i + j) / 2; omega
    · show (i + j) / 2 ≤ _; omega
    · exact hi
    · intro h0 hm0
      rw [hm0] at hm
      exact hle (hlo am hm)
    · intro x hx; rw [hm] at hx; simp at hx; omega
  | case5 i j h =>
    have hji : i = j := by omega
    have hpos : 0 < i := by
      by_cases h0 : i = 0
      · exact absurd (by omega) (hi0 h0)
      · omega
    have hlt : i - 1 < addrs.length := by omega
    refine ⟨i - 1, addrs[i-1], rfl, by simp [hlt], hi _ hpos (by simp [hlt]), ?_⟩
    intro y hy
    rw [Nat.sub_add_cancel hpos, hji] at hy
    exact hjgt y hy

theorem addrs_sorted (t : Tables) : t.addrs.Pairwise (fun a b => a ≤ b) := by
  have := List.pairwise_mergeSort (le := fun a b : Nat => decide (a ≤ b))
    (by intro a b c; simp; omega) (by intro a b; simp; omega) (t.a2s.map Prod.fst)
  simpa [Tables.addrs] using this

theorem mem_addrs (t : Tables) (a : Nat) : a ∈ t.addrs ↔ (lookup t.a2s a).isSome := by
  rw [← mem_keys]; simp [Tables.addrs]

theorem mem_addrs_texts {ts : List Sym} {t : Tables} (h : Inv ts t) (a : Nat) :
    a ∈ t.addrs ↔ ∃ s ∈ ts, s.addr = a := by
  rw [mem_addrs]
  constructor
  · intro hs
    obtain ⟨i, hi⟩ := Option.isSome_iff_exists.mp hs
    obtain ⟨⟨x, hx, hxa⟩, _⟩ := (h.a2s a i).mp hi
    exact ⟨x, List.mem_of_getElem? hx, hxa⟩
  · rintro ⟨s, hs, rfl⟩
    -- the last index holding this address
    cases hl : lookup t.a2s s.addr with
    | some i => rfl
    | none =>
      exfalso
      have hall : ∀ k i, ts.length - i ≤ k → ∀ x, ts[i]? = some x → x.addr ≠ s.addr := by
        intro k
        induction k with
        | zero => intro i hk x hx; have := lt_of_get hx; omega
        | succ k ih =>
          intro i hk x hx hxa
          have := (h.a2s s.addr i).mpr ⟨⟨x, hx, hxa⟩, fun j y hj hy => ih j (by have := lt_of_get hy; omega) y hy⟩
          simp [hl] at this
      obtain ⟨i, hi⟩ := List.mem_iff_getElem?.mp hs
      exact hall ts.length i (by omega) s hi rfl

theorem sorted_get {l : List Nat} (hs : l.Pairwise (fun a b => a ≤ b)) {i j x y : Nat} (hij : i ≤ j)
    (hi : l[i]? = some x) (hj : l[j]? = some y) : x ≤ y := by
  obtain ⟨hi', rfl⟩ := List.getElem?_eq_some_iff.mp hi
  obtain ⟨hj', rfl⟩ := List.getElem?_eq_some_iff.mp hj
  rcases Nat.lt_or_eq_of_le hij with h | rfl
  · exact List.pairwise_iff_getElem.mp hs i j hi' hj' h
  · exact Nat.le_refl _

/-- `index` on a non-empty sorted list. -/
theorem index_spec (l : List Nat) (hs : l.Pairwise (fun a b => a ≤ b)) (hne : l ≠ []) (addr : Nat) :
    (index l addr = some none ∧ ((∀ a ∈ l, addr < a) ∨ (∀ a ∈ l, a < addr))) ∨
    (∃ m x, index l addr = some (some m) ∧ l[m]? = some x ∧ x ≤ addr ∧
      (∀ y, l[m+1]? = some y → addr < y) ∧ (∃ a ∈ l, addr ≤ a)) := by
  have hlen : 0 < l.length := by cases l <;> simp_all
  have h0 : l[0]? = some l[0] := by simp [hlen]
  have hL : l[l.length - 1]? = some (l[l.length - 1]'(by omega)) := by simp
  have hlow : ∀ a ∈ l, l[0] ≤ a := by
    intro a ha
    obtain ⟨i, hi⟩ := List.mem_iff_getElem?.mp ha
    exact sorted_get hs (Nat.zero_le i) h0 hi
  have hhigh : ∀ a ∈ l, a ≤ l[l.length - 1]'(by omega) := by
    intro a ha
    obtain ⟨i, hi⟩ := List.mem_iff_getElem?.mp ha
    have := lt_of_get hi
    exact sorted_get hs (by omega) hi hL
  unfold index
  rw [h0, hL]
  simp only
  by_cases hc : addr < l[0] ∨ addr > l[l.length - 1]'(by omega)
  · left
    rw [if_pos hc]
    refine ⟨rfl, ?_⟩
    rcases hc with hc | hc
    · left; intro a ha; have := hlow a ha; omega
    · right; intro a ha; have := hhigh a ha; omega
  · right
    rw [if_neg hc]
    obtain ⟨m, x, h1, h2, h3, h4⟩ := loop_spec l addr 0 l.length (Nat.zero_le _) (Nat.le_refl _)
      (by intro x h; omega) (by intro _; omega) (by intro x hx; rw [h0] at hx; simp at hx; omega)
      (by intro x hx; simp at hx)
    refine ⟨m, x, by simp [h1], h2, h3, h4, l[l.length - 1]'(by omega), by simp, by omega⟩

/-- **C24, lookup by address.** For any file content with at least one text symbol and any address not
above the start of the highest symbol, `find` answers, and the answer is the floor: nothing if the
address is below all symbols, otherwise the symbol with the greatest start not above the address
(the last line of the file for that start address). *Missing from the full statement:* addresses above
the start of the highest symbol, see `find_above_last_violated`. -/
theorem find_floor_partial {sysBPF : String} {ls : List Line} {t : Tables}
    (hs : scan sysBPF ls Tables.empty = some t) (hne : texts ls ≠ []) (addr : Nat)
    (hmax : ∃ s ∈ texts ls, addr ≤ s.addr) :
    (find t addr = some none ∧ ∀ s ∈ texts ls, addr < s.addr) ∨
    (∃ (e : Entry) (i : Nat) (s : Sym), find t addr = some (some e) ∧ (texts ls)[i]? = some s ∧
      e.addr = s.addr ∧ e.name = s.name ∧ e.mod = s.mod ∧
      s.addr ≤ addr ∧ (∀ s' ∈ texts ls, s'.addr ≤ addr → s'.addr ≤ s.addr) ∧
      (∀ j s', i < j → (texts ls)[j]? = some s' → s'.addr ≠ s.addr)) := by
  have hinv := scanned_inv hs
  have hmem := mem_addrs_texts hinv
  have hane : t.addrs ≠ [] := by
    intro h
    obtain ⟨s, hs', _⟩ := hmax
    have := (hmem s.addr).mpr ⟨s, hs', rfl⟩
    simp [h] at this
  rcases index_spec t.addrs (addrs_sorted t) hane addr with ⟨h1, h2⟩ | ⟨m, x, h1, h2, h3, h4, _⟩
  · left
    refine ⟨by simp [find, h1], ?_⟩
    rcases h2 with h2 | h2
    · intro s hs'; exact h2 _ ((hmem _).mpr ⟨s, hs', rfl⟩)
    · obtain ⟨s, hs', hle⟩ := hmax
      have := h2 _ ((hmem _).mpr ⟨s, hs', rfl⟩)
      omega
  · right
    have hxm : x ∈ t.addrs := List.mem_of_getElem? h2
    obtain ⟨i, hi⟩ := Option.isSome_iff_exists.mp ((mem_addrs t x).mp hxm)
    obtain ⟨⟨s, hsi, hsa⟩, hlast⟩ := (hinv.a2s x i).mp hi
    obtain ⟨e, he, hea, hen, hem, _⟩ := hinv.heap i s hsi
    refine ⟨e, i, s, ?_, hsi, hea, hen, hem, by omega, ?_, ?_⟩
    · simp [find, h1, h2, hi, he]
    · intro s' hs' hle
      have hm' := (hmem s'.addr).mpr ⟨s', hs', rfl⟩
      obtain ⟨k, hk⟩ := List.mem_iff_getElem?.mp hm'
      rw [hsa]
      rcases Nat.lt_or_ge m k with hmk | hmk
      · have hlt := lt_of_get hk
        have hm1 : t.addrs[m+1]? = some (t.addrs[m+1]'(by omega)) := by simp
        have := h4 _ hm1
        have := sorted_get (addrs_sorted t) (show m + 1 ≤ k by omega) hm1 hk
        omega
      · exact sorted_get (addrs_sorted t) hmk hk h2
    · intro j s' hj hs'; rw [hsa]; exact hlast j s' hj hs'

/-- **C24 is violated above the last symbol**: an address inside the highest symbol (beyond its first
byte) is reported as unknown, whatever the file. -/
theorem find_above_last_violated {sysBPF : String} {ls : List Line} {t : Tables}
    (hs : scan sysBPF ls Tables.empty = some t) (hne : texts ls ≠ []) (addr : Nat)
    (habove : ∀ s ∈ texts ls, s.addr < addr) : find t addr = some none := by
  have hinv := scanned_inv hs
  have hmem := mem_addrs_texts hinv
  have hane : t.addrs ≠ [] := by
    intro h
    cases htx : texts ls with
    | nil => exact hne htx
    | cons s ss =>
      have := (hmem s.addr).mpr ⟨s, by simp [htx], rfl⟩
      simp [h] at this
  rcases index_spec t.addrs (addrs_sorted t) hane addr with ⟨h1, _⟩ | ⟨m, x, h1, h2, h3, h4, a, ha, hle⟩
  · simp [find, h1]
  · obtain ⟨s, hs', rfl⟩ := (hmem a).mp ha
    have := habove s hs'
    omega

/-- **C24, no text symbol**: every lookup panics (index out of range). -/
theorem find_empty_panics {sysBPF : String} {ls : List Line} {t : Tables}
    (hs : scan sysBPF ls Tables.empty = some t) (hne : texts ls = []) (addr : Nat) :
    find t addr = none := by
  have hinv := scanned_inv hs
  have hmem := mem_addrs_texts hinv
  have : t.addrs = [] := by
    cases h : t.addrs with
    | nil => rfl
    | cons a l => have := (hmem a).mp (by simp [h]); simp [hne] at this
  simp [find, index, this]

/-- **C24, next symbol.** For an address with a floor symbol and not above the highest symbol, `next`
returns the symbol with the least start strictly above the address, or nothing when there is none. -/
theorem next_successor_partial {sysBPF : String} {ls : List Line} {t : Tables}
    (hs : scan sysBPF ls Tables.empty = some t) (addr : Nat)
    (hmin : ∃ s ∈ texts ls, s.addr ≤ addr) (hmax : ∃ s ∈ texts ls, addr ≤ s.addr) :
    (next t addr = some none ∧ ∀ s ∈ texts ls, s.addr ≤ addr) ∨
    (∃ (e : Entry) (s : Sym), next t addr = some (some e) ∧ s ∈ texts ls ∧ e.addr = s.addr ∧ e.name = s.name ∧
      addr < s.addr ∧ ∀ s' ∈ texts ls, addr < s'.addr → s.addr ≤ s'.addr) := by
  have hinv := scanned_inv hs
  have hmem := mem_addrs_texts hinv
  obtain ⟨smin, hsmin, hsminle⟩ := hmin
  obtain ⟨smax, hsmax, hsmaxle⟩ := hmax
  have hane : t.addrs ≠ [] := by
    intro h
    have := (hmem smin.addr).mpr ⟨smin, hsmin, rfl⟩
    simp [h] at this
  rcases index_spec t.addrs (addrs_sorted t) hane addr with ⟨h1, h2⟩ | ⟨m, x, h1, h2, h3, h4, _⟩
  · rcases h2 with h2 | h2
    · have := h2 _ ((hmem _).mpr ⟨smin, hsmin, rfl⟩); omega
    · have := h2 _ ((hmem _).mpr ⟨smax, hsmax, rfl⟩); omega
  · have hm := lt_of_get h2
    by_cases hend : m + 1 ≥ t.addrs.length
    · left
      refine ⟨by simp only [next, h1]; rw [if_pos hend], ?_⟩
      intro s hs'
      obtain ⟨k, hk⟩ := List.mem_iff_getElem?.mp ((hmem s.addr).mpr ⟨s, hs', rfl⟩)
      have := lt_of_get hk
      have := sorted_get (addrs_sorted t) (show k ≤ m by omega) hk h2
      omega
    · right
      have hm1 : t.addrs[m+1]? = some (t.addrs[m+1]'(by omega)) := by simp
      generalize t.addrs[m+1]'(by omega) = y at hm1
      have hgt := h4 y hm1
      obtain ⟨i, hi⟩ := Option.isSome_iff_exists.mp ((mem_addrs t y).mp (List.mem_of_getElem? hm1))
      obtain ⟨⟨s, hsi, hsa⟩, hlast⟩ := (hinv.a2s y i).mp hi
      obtain ⟨e, he, hea, hen, hem, _⟩ := hinv.heap i s hsi
      refine ⟨e, s, ?_, List.mem_of_getElem? hsi, hea, hen, by omega, ?_⟩
      · simp only [next, h1]; rw [if_neg hend]; simp [hm1, hi, he]
      · intro s' hs' hlt
        obtain ⟨k, hk⟩ := List.mem_iff_getElem?.mp ((hmem s'.addr).mpr ⟨s', hs', rfl⟩)
        rw [hsa]
        rcases Nat.lt_or_ge m k with hmk | hmk
        · exact sorted_get (addrs_sorted t) (show m + 1 ≤ k by omega) hm1 hk
        · have := sorted_get (addrs_sorted t) hmk hk h2; omega

/-- **C24, lookup by name.** The entry found for an exactly matching name is the first line with that
name, flagged `duped` exactly when another line has the same name, and lists the other addresses. -/
theorem findByName_first {sysBPF : String} {ls : List Line} {t : Tables}
    (hs : scan sysBPF ls Tables.empty = some t) (n : String) (k : Nat) (s : Sym)
    (hk : (texts ls)[k]? = some s) (hn : s.name = n)
    (hfirst : ∀ j s', j < k → (texts ls)[j]? = some s' → s'.name ≠ n) :
    FindBySymbol t n (some k) ∧ (∀ r, FindBySymbol t n r → r = some k) ∧
    ∃ e, t.heap[k]? = some e ∧ e.addr = s.addr ∧ e.name = n ∧
      e.extra = (((texts ls).drop (k+1)).filter (fun y => y.name == n)).map Sym.addr ∧
      (e.duped = true ↔ ∃ j s', j ≠ k ∧ (texts ls)[j]? = some s' ∧ s'.name = n) := by
  have hinv := scanned_inv hs
  have hl : lookup t.n2s n = some k := (hinv.n2s n k).mpr ⟨⟨s, hk, hn⟩, hfirst⟩
  refine ⟨.exact k hl, ?_, ?_⟩
  · intro r hr
    cases hr with
    | exact i h => rw [hl] at h; exact h.symm
    | suffix i h _ => simp [hl] at h
    | llvm n i h => simp [hl] at h
    | missing h => simp [hl] at h
  · obtain ⟨e, he, h1, h2, _, h4, h5⟩ := hinv.heap k s hk
    subst hn
    refine ⟨e, he, h1, h2, ?_, h4⟩
    refine h5.2 ?_
    rintro ⟨j, y, hj, hy, hyn⟩
    exact hfirst j y hj hy hyn

/-- What compilers append to the names of functions they have split or specialised, as far as it is looked for. -/
def compilerSuffixes : List String := [".constprop.0", ".isra.0", ".isra.0.cold", ".cold", ".part.0"]

/-- **C24, lookup by name, fall-backs.** Whatever is returned has the requested name, the name with one
of the known compiler suffixes, or the name followed by `.llvm.`…; nothing is returned only if none
of these exists. -/
theorem findByName_sound {sysBPF : String} {ls : List Line} {t : Tables}
    (hs : scan sysBPF ls Tables.empty = some t) (n : String) (i : Nat)
    (hf : FindBySymbol t n (some i)) :
    ∃ e s, t.heap[i]? = some e ∧ (texts ls)[i]? = some s ∧ e.name = s.name ∧
      (e.name = n ∨ (∃ suf ∈ compilerSuffixes, e.name = n ++ suf) ∨
        (n ++ ".llvm.").toList <+: e.name.toList) := by
  have hinv := scanned_inv hs
  have go : ∀ m, lookup t.n2s m = some i → ∃ e s, t.heap[i]? = some e ∧ (texts ls)[i]? = some s ∧
      e.name = s.name ∧ e.name = m := by
    intro m hm
    obtain ⟨⟨s, h1, h2⟩, _⟩ := (hinv.n2s m i).mp hm
    obtain ⟨e, he, _, hen, _⟩ := hinv.heap i s h1
    exact ⟨e, s, he, h1, hen, hen.trans h2⟩
  cases hf with
  | exact _ h =>
    obtain ⟨e, s, h1, h2, h3, h4⟩ := go _ h
    exact ⟨e, s, h1, h2, h3, .inl h4⟩
  | suffix _ h hs =>
    obtain ⟨suf, hsuf, hl⟩ := List.exists_of_findSome?_eq_some hs
    obtain ⟨e, s, h1, h2, h3, h4⟩ := go _ hl
    exact ⟨e, s, h1, h2, h3, .inr (.inl ⟨suf, hsuf, h4⟩)⟩
  | llvm m _ h _ hmem hp =>
    obtain ⟨e, s, h1, h2, h3, h4⟩ := go _ hmem
    exact ⟨e, s, h1, h2, h3, .inr (.inr (h4 ▸ hp))⟩

/-- Nothing is returned only if no line has the name, a suffixed name or an `.llvm.` name. -/
theorem findByName_complete {sysBPF : String} {ls : List Line} {t : Tables}
    (hs : scan sysBPF ls Tables.empty = some t) (n : String) (hf : FindBySymbol t n none) :
    ∀ s ∈ texts ls, s.name ≠ n ∧ (∀ suf ∈ compilerSuffixes, s.name ≠ n ++ suf) ∧
      ¬ (n ++ ".llvm.").toList <+: s.name.toList := by
  have hinv := scanned_inv hs
  cases hf with
  | missing h1 h2 h3 =>
    intro s hmem
    obtain ⟨i, hi⟩ := List.mem_iff_getElem?.mp hmem
    refine ⟨(n2s_none hinv n).mp h1 i s hi, ?_, ?_⟩
    · intro suf hsuf
      exact (n2s_none hinv _).mp (List.findSome?_eq_none_iff.mp h2 suf hsuf) i s hi
    · cases hl : lookup t.n2s s.name with
      | none => exact absurd rfl ((n2s_none hinv _).mp hl i s hi)
      | some k => exact h3 _ _ hl

/-- The module list keeps no duplicates. -/
theorem mods_nodup {sysBPF : String} (ls : List Line) (t t' : Tables) (h : t.mods.Nodup)
    (hs : scan sysBPF ls t = some t') : t'.mods.Nodup := by
  induction ls generalizing t with
  | nil => simp only [scan, Option.some.injEq] at hs; subst hs; exact h
  | cons l ls ih =>
    simp only [scan, Option.bind_eq_some_iff] at hs
    obtain ⟨t1, h1, h2⟩ := hs
    refine ih t1 ?_ h2
    unfold step at h1
    split at h1
    · split at h1
      · simp at h1
      · simp only [Option.some.injEq] at h1
        subst h1
        have hT : ∀ a, (addSpecial sysBPF (addText t a l.name l.mod) a l.name).mods = t.mods := by
          intro a; unfold addSpecial addText; (repeat' split) <;> rfl
        unfold addMod
        split
        · rename_i hc
          simp only [Bool.and_eq_true, Bool.not_eq_true', List.contains_eq_mem, decide_eq_false_iff_not, hT] at hc
          simp only [List.nodup_append, hT, h, true_and]
          refine ⟨by simp, ?_⟩
          intro a ha b hb hab
          simp at hb
          exact hc.1 (by rw [← hb, ← hab]; exact ha)
        · rw [hT]; exact h
    · have : t1.mods = t.mods := by
        (repeat' split at h1) <;> simp at h1 <;> first | (obtain ⟨a, _, rfl⟩ := h1; rfl) | (subst h1; rfl)
      rw [this]; exact h

/-- **C24, `findSymbol`.** The name printed for an address is the name on the last text line with exactly
that start address, and the empty string when no text line starts there. -/
theorem findSymbol_last {sysBPF : String} {ls : List Line} {t : Tables}
    (hs : scan sysBPF ls Tables.empty = some t) (addr : Nat) :
    (∀ (i : Nat) (s : Sym), (texts ls)[i]? = some s → s.addr = addr →
      (∀ (j : Nat) (s' : Sym), i < j → (texts ls)[j]? = some s' → s'.addr ≠ addr) → findSymbol t addr = s.name) ∧
    ((∀ s ∈ texts ls, s.addr ≠ addr) → findSymbol t addr = "") := by
  have hinv := scanned_inv hs
  constructor
  · intro i s hi ha hl
    have h1 : lookup t.a2s addr = some i := (hinv.a2s addr i).mpr ⟨⟨s, hi, ha⟩, hl⟩
    obtain ⟨e, he, _, hn, _⟩ := hinv.heap i s hi
    simp [findSymbol, h1, he, hn]
  · intro hno
    cases h1 : lookup t.a2s addr with
    | none => simp [findSymbol, h1]
    | some i =>
      obtain ⟨⟨x, hx, hxa⟩, _⟩ := (hinv.a2s addr i).mp h1
      exact absurd hxa (hno x (List.mem_of_getElem? hx))

/-- The module list holds exactly the modules named on text lines that are not built in. -/
theorem mods_mem {sysBPF : String} (ls : List Line) (t t' : Tables)
    (hs : scan sysBPF ls t = some t') (m : String) :
    m ∈ t'.mods ↔ m ∈ t.mods ∨ (isBuiltinMod m = false ∧ ∃ s ∈ texts ls, s.mod = m) := by
  induction ls generalizing t with
  | nil => simp only [scan, Option.some.injEq] at hs; subst hs; simp [texts]
  | cons l ls ih =>
    simp only [scan, Option.bind_eq_some_iff] at hs
    obtain ⟨t1, h1, h2⟩ := hs
    rw [ih t1 h2]
    unfold step at h1
    split at h1
    · rename_i ht
      split at h1
      · simp at h1
      · rename_i a ha
        simp only [Option.some.injEq] at h1
        subst h1
        have hT : ∀ a, (addSpecial sysBPF (addText t a l.name l.mod) a l.name).mods = t.mods := by
          intro a; unfold addSpecial addText; (repeat' split) <;> rfl
        have htx : texts (l :: ls) = ⟨a, l.name, l.mod⟩ :: texts ls := by simp [texts, ht, ha]
        rw [htx]
        unfold addMod
        rw [hT]
        split
        · rename_i hc
          simp only [Bool.and_eq_true, Bool.not_eq_true'] at hc
          rw [List.mem_append, List.mem_singleton]
          simp only [List.mem_cons]
          constructor
          · rintro ((h | rfl) | ⟨h, s, hs, hm⟩)
            · exact .inl h
            · exact .inr ⟨hc.2, _, .inl rfl, rfl⟩
            · exact .inr ⟨h, s, .inr hs, hm⟩
          · rintro (h | ⟨h, s, hs | hs, hm⟩)
            · exact .inl (.inl h)
            · subst hs; exact .inl (.inr hm.symm)
            · exact .inr ⟨h, s, hs, hm⟩
        · rename_i hc
          simp only [List.mem_cons, hT]
          constructor
          · rintro (h | ⟨h, s, hs, hm⟩)
            · exact .inl h
            · exact .inr ⟨h, s, .inr hs, hm⟩
          · rintro (h | ⟨h, s, hs | hs, hm⟩)
            · exact .inl h
            · subst hs
              refine .inl ?_
              simp only at hm
              subst hm
              simpa [h] using hc
            · exact .inr ⟨h, s, hs, hm⟩
    · rename_i ht
      have : t1.mods = t.mods := by
        (repeat' split at h1) <;> simp at h1 <;> first | (obtain ⟨a, _, rfl⟩ := h1; rfl) | (subst h1; rfl)
      rw [this]
      simp [texts, ht]

/-- A file with a duplicated name, a duplicated address, a module symbol and a data line: the premises
of the theorems above are met. -/
def exampleFile : List Line :=
  [⟨some 0x1000, "T", "_stext", ""⟩, ⟨some 0x1000, "T", "first", ""⟩, ⟨some 0x1080, "t", "dup", ""⟩,
   ⟨some 0x1200, "t", "dup", "kvm"⟩, ⟨some 0x3000, "d", "x86_pmu", ""⟩, ⟨some 0x1100, "t", "foo.isra.0", ""⟩]

example : ∃ t, scan "__x64_sys_bpf" exampleFile Tables.empty = some t ∧
    texts exampleFile ≠ [] ∧ (∃ s ∈ texts exampleFile, 0x1150 ≤ s.addr) ∧
    (∃ s ∈ texts exampleFile, s.addr ≤ 0x1150) := by
  refine ⟨(scan "__x64_sys_bpf" exampleFile Tables.empty).get (by decide), by simp, by decide,
    ⟨⟨0x1200, "dup", "kvm"⟩, by decide, by decide⟩, ⟨⟨0x1080, "dup", ""⟩, by decide, by decide⟩⟩

/-- The names that are not taken for modules. -/
theorem isBuiltinMod_iff (m : String) : isBuiltinMod m = true ↔ m = "" ∨ m = "bpf" ∨ "__builtin".toList <+: m.toList := by
  unfold isBuiltinMod
  simp only [Bool.or_eq_true, beq_iff_eq, String.startsWith_string_iff]
  constructor
  · rintro ((h | h) | h)
    · exact .inl h
    · exact .inr (.inr h)
    · exact .inr (.inl h)
  · rintro (h | h | h)
    · exact .inl (.inl h)
    · exact .inr h
    · exact .inl (.inr h)

end Bpfsnoop.Kallsyms
