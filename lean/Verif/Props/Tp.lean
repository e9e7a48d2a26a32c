import Verif.Model.Tp
import Verif.Props.Kallsyms
import Verif.Props.KfuncSel

/-! C61: which tracepoints are found and selected. -/
namespace Bpfsnoop.Tp
open Kallsyms (put lookup lookup_put)
open Flg (Str Imm KfuncFlag BFunc)

/-! ### Specification -/

/-- Specification: the `total` records of `size` bytes at `start`, with their names cut to 63 characters. -/
def table (mem : Nat → Raw) (size start total : Nat) : List Raw :=
  (List.range total).map fun k => { mem (start + k * size) with name := (mem (start + k * size)).name.take 63 }

/-- Specification: `r` is the last record in use (its function's address is not zero) with this name. -/
def LastNamed (rs : List Raw) (n : Str) (r : Raw) : Prop :=
  ∃ i, rs[i]? = some r ∧ r.sym ≠ 0 ∧ r.name = n ∧ ∀ (j : Nat) (r' : Raw), i < j → rs[j]? = some r' → r'.sym ≠ 0 → r'.name ≠ n

/-- Specification: every record in use has a prototype function that is known by name and by type. -/
def AllResolve (a2s : Nat → Option Str) (funcs : Str → Option Proto) (rs : List Raw) : Prop :=
  ∀ r ∈ rs, r.sym ≠ 0 → ∃ f p, a2s r.sym = some f ∧ funcs f = some p

/-- Specification: what is known of tracepoint `n` after reading the records `rs`. -/
def Known (a2s : Nat → Option Str) (funcs : Str → Option Proto) (rs : List Raw) (n : Str) (i : Info) : Prop :=
  ∃ r f p, LastNamed rs n r ∧ a2s r.sym = some f ∧ funcs f = some p ∧ i = ⟨r.sym, r.nargs, p, []⟩

/-! ### Maps -/

theorem lookup_nil {α β} [DecidableEq α] (k : α) : lookup ([] : List (α × β)) k = none := rfl

theorem lookup_cons {α β} [DecidableEq α] (x : α × β) (m : List (α × β)) (k : α) :
    lookup (x :: m) k = if x.1 = k then some x.2 else lookup m k := by
  unfold lookup
  by_cases h : x.1 = k
  · simp [h]
  · simp [h]

theorem keys_put {α β} [DecidableEq α] (m : List (α × β)) (k : α) (v : β) (h : (m.map Prod.fst).Nodup) :
    ((put m k v).map Prod.fst).Nodup := by
  rw [put, List.map_cons, List.nodup_cons]
  refine ⟨?_, ?_⟩
  · intro hm
    obtain ⟨x, hx, he⟩ := List.mem_map.mp hm
    have := (List.mem_filter.mp hx).2
    simp only [decide_eq_true_eq] at this
    exact this he
  · exact h.sublist ((List.filter_sublist).map _)

theorem lookup_mem {α β} [DecidableEq α] {m : List (α × β)} {k : α} {v : β} (h : lookup m k = some v) : (k, v) ∈ m := by
  unfold lookup at h
  obtain ⟨x, hx, he⟩ := Option.map_eq_some_iff.mp h
  have h1 := List.mem_of_find?_eq_some hx
  have h2 := List.find?_some hx
  simp only [decide_eq_true_eq] at h2
  rw [← h2, ← he]
  exact h1

theorem mem_lookup {α β} [DecidableEq α] : ∀ {m : List (α × β)} {k : α} {v : β}, (m.map Prod.fst).Nodup → (k, v) ∈ m → lookup m k = some v
  | x :: m, k, v, hn, h => by
    rw [lookup_cons]
    rw [List.map_cons, List.nodup_cons] at hn
    rcases List.mem_cons.mp h with rfl | h
    · simp
    · have : x.1 ≠ k := by
        intro he
        exact hn.1 (List.mem_map.mpr ⟨(k, v), h, he.symm⟩)
      rw [if_neg this]
      exact mem_lookup hn.2 h

/-! ### One chunk -/

/-- The last record in use with this name. -/
def lastOf (rs : List Raw) (n : Str) : Option Raw := rs.reverse.find? fun r => r.sym ≠ 0 && r.name = n

theorem lastOf_iff (rs : List Raw) (n : Str) (r : Raw) : lastOf rs n = some r ↔ LastNamed rs n r := by
  unfold lastOf LastNamed
  rw [List.find?_eq_some_iff_append]
  constructor
  · rintro ⟨hp, as, bs, he, hb⟩
    have hrs : rs = bs.reverse ++ r :: as.reverse := by
      have := congrArg List.reverse he
      simpa using this
    simp only [ne_eq, Bool.and_eq_true, decide_eq_true_eq] at hp
    refine ⟨bs.length, by rw [hrs]; simp, by simpa using hp.1, hp.2, ?_⟩
    intro j r' hj hr' hs hn
    rw [hrs, List.getElem?_append_right (by simp; omega)] at hr'
    obtain ⟨d, hd⟩ : ∃ d, j - bs.reverse.length = d + 1 := ⟨j - bs.reverse.length - 1, by simp; omega⟩
    rw [hd, List.getElem?_cons_succ] at hr'
    have hmem : r' ∈ as := by simpa using List.mem_of_getElem? hr'
    have := hb r' hmem
    simp [hs, hn] at this
  · rintro ⟨i, hi, hs, hn, hlast⟩
    refine ⟨by simp [hs, hn], (rs.drop (i + 1)).reverse, (rs.take i).reverse, ?_, ?_⟩
    · have hlt : i < rs.length := (List.getElem?_eq_some_iff.mp hi).1
      have : rs = rs.take i ++ r :: rs.drop (i + 1) := by
        have h1 : rs[i] = r := (List.getElem?_eq_some_iff.mp hi).2
        rw [← h1, List.getElem_cons_drop, List.take_append_drop]
      conv => lhs; rw [this]
      simp
    · intro r' hr'
      simp only [List.mem_reverse] at hr'
      obtain ⟨d, hd⟩ := List.mem_iff_getElem?.mp hr'
      rw [List.getElem?_drop] at hd
      by_cases hz : r'.sym = 0
      · simp [hz]
      · have := hlast (i + 1 + d) r' (by omega) hd hz
        simp [this]

theorem lastOf_append (as bs : List Raw) (n : Str) : lastOf (as ++ bs) n = (lastOf bs n).or (lastOf as n) := by
  simp [lastOf, List.find?_append]

theorem infos_fold (rs : List Raw) : ∀ (m : List (Str × Raw)), (m.map Prod.fst).Nodup →
    ((rs.foldl (fun m r => if r.sym = 0 then m else put m r.name r) m).map Prod.fst).Nodup ∧
    ∀ n, lookup (rs.foldl (fun m r => if r.sym = 0 then m else put m r.name r) m) n = (lastOf rs n).or (lookup m n) := by
  induction rs with
  | nil => intro m h; exact ⟨h, fun n => by simp [lastOf]⟩
  | cons r rs ih =>
    intro m h
    rw [List.foldl_cons]
    by_cases hz : r.sym = 0
    · rw [if_pos hz]
      obtain ⟨h1, h2⟩ := ih m h
      refine ⟨h1, fun n => ?_⟩
      rw [h2, show r :: rs = [r] ++ rs from rfl, lastOf_append]
      have : lastOf [r] n = none := by simp [lastOf, hz]
      rw [this, Option.or_none]
    · rw [if_neg hz]
      obtain ⟨h1, h2⟩ := ih _ (keys_put m r.name r h)
      refine ⟨h1, fun n => ?_⟩
      rw [h2, show r :: rs = [r] ++ rs from rfl, lastOf_append, lookup_put, Option.or_assoc]
      congr 1
      by_cases hn : n = r.name
      · subst hn; simp [lastOf, hz]
      · have : ¬ r.name = n := fun h => hn h.symm
        simp [lastOf, hn, this]

theorem infosOf_spec (rs : List Raw) : ((infosOf rs).map Prod.fst).Nodup ∧ ∀ n, lookup (infosOf rs) n = lastOf rs n := by
  obtain ⟨h1, h2⟩ := infos_fold rs [] (by simp)
  exact ⟨h1, fun n => by have := h2 n; rwa [lookup_nil, Option.or_none] at this⟩

/-- What is entered for a record. -/
def infoOf (a2s : Nat → Option Str) (funcs : Str → Option Proto) (r : Raw) : Option Info :=
  ((a2s r.sym).bind funcs).map fun p => ⟨r.sym, r.nargs, p, []⟩

theorem resolve_ok (a2s : Nat → Option Str) (funcs : Str → Option Proto) : ∀ (xs : List (Str × Raw)) (t : List (Str × Info)), (xs.map Prod.fst).Nodup →
    (∀ x ∈ xs, ((a2s x.2.sym).bind funcs).isSome) →
    ∃ t', resolveAll a2s funcs xs t = some t' ∧ ∀ n, lookup t' n = ((lookup xs n).bind (infoOf a2s funcs)).or (lookup t n)
  | [], t, _, _ => ⟨t, rfl, fun n => by simp [lookup_nil]⟩
  | (k, r) :: xs, t, hn, hr => by
    rw [List.map_cons, List.nodup_cons] at hn
    have h0 := hr (k, r) (by simp)
    obtain ⟨p, hp⟩ := Option.isSome_iff_exists.mp h0
    obtain ⟨t', h1, h2⟩ := resolve_ok a2s funcs xs (put t k ⟨r.sym, r.nargs, p, []⟩) hn.2 (fun x hx => hr x (by simp [hx]))
    refine ⟨t', by simp only [resolveAll]; simp only at hp; rw [hp]; exact h1, ?_⟩
    intro n
    rw [h2, lookup_put, lookup_cons]
    simp only at hp
    by_cases hkn : n = k
    · subst hkn
      have hnone : lookup xs n = none := by
        cases hl : lookup xs n with
        | none => rfl
        | some v => exact absurd (List.mem_map.mpr ⟨_, lookup_mem hl, rfl⟩) hn.1
      simp [hnone, infoOf, hp]
    · have : ¬ k = n := fun h => hkn h.symm
      simp [hkn, this]

theorem resolve_none (a2s : Nat → Option Str) (funcs : Str → Option Proto) : ∀ (xs : List (Str × Raw)) (t : List (Str × Info)),
    (∃ x ∈ xs, (a2s x.2.sym).bind funcs = none) → resolveAll a2s funcs xs t = none
  | [], _, h => by obtain ⟨x, hx, _⟩ := h; cases hx
  | (k, r) :: xs, t, h => by
    simp only [resolveAll]
    cases hp : (a2s r.sym).bind funcs with
    | none => rfl
    | some p =>
      obtain ⟨x, hx, hx'⟩ := h
      rcases List.mem_cons.mp hx with rfl | hx
      · simp only at hx'; rw [hp] at hx'; cases hx'
      · exact resolve_none a2s funcs xs _ ⟨x, hx, hx'⟩

/-! ### All chunks -/

theorem table_chunk (mem : Nat → Raw) (size start total c : Nat) (hc : c ≤ total) :
    table mem size start total = table mem size start c ++ table mem size (start + size * c) (total - c) := by
  unfold table
  obtain ⟨d, rfl⟩ := Nat.exists_eq_add_of_le hc
  rw [List.range_add, List.map_append, Nat.add_sub_cancel_left, List.map_map]
  congr 1
  apply List.map_congr_left
  intro k _
  simp only [Function.comp]
  have : start + (c + k) * size = start + size * c + k * size := by
    rw [Nat.add_mul, Nat.mul_comm size c]; omega
  rw [this]

theorem readChunk_table (mem : Nat → Raw) (size start cnt : Nat) (h : cnt ≤ tpMax) : readChunk mem size start cnt = table mem size start cnt := by
  rw [readChunk, Nat.min_eq_left h]; rfl

theorem probeLoop_ok (mem : Nat → Raw) (size : Nat) (a2s : Nat → Option Str) (funcs : Str → Option Proto) (start total : Nat) (t : List (Str × Info))
    (hr : AllResolve a2s funcs (table mem size start total)) :
    ∃ t', probeLoop mem size size a2s funcs start total t = some t' ∧
      ∀ n, lookup t' n = ((lastOf (table mem size start total) n).bind (infoOf a2s funcs)).or (lookup t n) := by
  rw [probeLoop]
  by_cases h0 : total = 0
  · rw [dif_pos h0]
    exact ⟨t, rfl, fun n => by simp [h0, table, lastOf]⟩
  · rw [dif_neg h0]
    have hc : min total tpMax ≤ total := Nat.min_le_left _ _
    have hlt : total - min total tpMax < total := by simp only [tpMax]; omega
    have hsplit := table_chunk mem size start total (min total tpMax) hc
    rw [hsplit] at hr ⊢
    rw [readChunk_table _ _ _ _ (Nat.min_le_right _ _)]
    obtain ⟨hi1, hi2⟩ := infosOf_spec (table mem size start (min total tpMax))
    have hres : ∀ x ∈ infosOf (table mem size start (min total tpMax)), ((a2s x.2.sym).bind funcs).isSome := by
      intro x hx
      have h1 := mem_lookup (k := x.1) (v := x.2) hi1 hx
      rw [hi2, lastOf_iff] at h1
      obtain ⟨i, hi, hs, _, _⟩ := h1
      obtain ⟨f, p, hf, hp⟩ := hr x.2 (List.mem_append_left _ (List.mem_of_getElem? hi)) hs
      rw [hf]
      simp [hp]
    obtain ⟨t1, h1, h2⟩ := resolve_ok a2s funcs _ t hi1 hres
    rw [h1]
    obtain ⟨t2, h3, h4⟩ := probeLoop_ok mem size a2s funcs (start + size * min total tpMax) (total - min total tpMax) t1
      (fun r hm hs => hr r (List.mem_append_right _ hm) hs)
    refine ⟨t2, h3, fun n => ?_⟩
    rw [h4, h2, hi2, lastOf_append, ← Option.or_assoc]
    congr 1
    cases hl : lastOf (table mem size (start + size * min total tpMax) (total - min total tpMax)) n with
    | none => simp
    | some r =>
      obtain ⟨i, hi, hs, _, _⟩ := (lastOf_iff _ _ _).mp hl
      obtain ⟨f, p, hf, hp⟩ := hr r (List.mem_append_right _ (List.mem_of_getElem? hi)) hs
      simp [infoOf, hf, hp]
termination_by total

theorem resolve_keys (a2s : Nat → Option Str) (funcs : Str → Option Proto) : ∀ (xs : List (Str × Raw)) (t t' : List (Str × Info)),
    (t.map Prod.fst).Nodup → resolveAll a2s funcs xs t = some t' → (t'.map Prod.fst).Nodup
  | [], t, t', h, he => by cases he; exact h
  | (k, r) :: xs, t, t', h, he => by
    simp only [resolveAll] at he
    cases hp : (a2s r.sym).bind funcs with
    | none => rw [hp] at he; cases he
    | some p => rw [hp] at he; exact resolve_keys a2s funcs xs _ t' (keys_put t k _ h) he

theorem probeLoop_keys (mem : Nat → Raw) (stride size : Nat) (a2s : Nat → Option Str) (funcs : Str → Option Proto) (start total : Nat)
    (t t' : List (Str × Info)) (h : (t.map Prod.fst).Nodup) (he : probeLoop mem stride size a2s funcs start total t = some t') :
    (t'.map Prod.fst).Nodup := by
  rw [probeLoop] at he
  by_cases h0 : total = 0
  · rw [dif_pos h0] at he; cases he; exact h
  · rw [dif_neg h0] at he
    have hlt : total - min total tpMax < total := by simp only [tpMax]; omega
    cases hr : resolveAll a2s funcs (infosOf (readChunk mem stride start (min total tpMax))) t with
    | none => rw [hr] at he; cases he
    | some t1 =>
      rw [hr] at he
      exact probeLoop_keys mem stride size a2s funcs _ _ t1 t' (resolve_keys a2s funcs _ t t1 h hr) he
termination_by total

theorem known_iff (a2s : Nat → Option Str) (funcs : Str → Option Proto) (rs : List Raw) (n : Str) (i : Info) :
    (lastOf rs n).bind (infoOf a2s funcs) = some i ↔ Known a2s funcs rs n i := by
  rw [Option.bind_eq_some_iff]
  unfold Known infoOf
  constructor
  · rintro ⟨r, h1, h2⟩
    obtain ⟨p, hp, he⟩ := Option.map_eq_some_iff.mp h2
    obtain ⟨f, hf, hp⟩ := Option.bind_eq_some_iff.mp hp
    exact ⟨r, f, p, (lastOf_iff _ _ _).mp h1, hf, hp, he.symm⟩
  · rintro ⟨r, f, p, h1, h2, h3, rfl⟩
    exact ⟨r, (lastOf_iff _ _ _).mpr h1, by simp [h2, h3]⟩

/-- The table of the kernel is read completely, whatever its length: a tracepoint is known exactly if a record in use has
its name (cut to 63 characters), and what is known of it is that of the last such record. -/
theorem probe_kernel_partial (mem : Nat → Raw) (size : Nat) (a2s : Nat → Option Str) (funcs : Str → Option Proto) (start stop : Nat)
    (h0 : start ≠ 0) (h1 : start < stop) (hs : size ≠ 0)
    (hr : AllResolve a2s funcs (table mem size start ((stop - start) / size))) :
    ∃ t, probeKernel mem size size a2s funcs start stop = some t ∧ (t.map Prod.fst).Nodup ∧
      ∀ n i, lookup t n = some i ↔ Known a2s funcs (table mem size start ((stop - start) / size)) n i := by
  obtain ⟨t, ht, hl⟩ := probeLoop_ok mem size a2s funcs start ((stop - start) / size) [] hr
  refine ⟨t, ?_, probeLoop_keys _ _ _ _ _ _ _ [] t (by simp) ht, fun n i => ?_⟩
  · rw [probeKernel, if_neg (by omega), if_neg hs]; exact ht
  · rw [hl, lookup_nil, Option.or_none, known_iff]

theorem probeLoop_none (mem : Nat → Raw) (size : Nat) (a2s : Nat → Option Str) (funcs : Str → Option Proto) (start total : Nat) (t : List (Str × Info))
    (r : Raw) (hm : r ∈ table mem size start total) (hs : r.sym ≠ 0) (hu : ∀ r' ∈ table mem size start total, r'.name = r.name → r' = r)
    (hn : (a2s r.sym).bind funcs = none) : probeLoop mem size size a2s funcs start total t = none := by
  rw [probeLoop]
  by_cases h0 : total = 0
  · subst h0; simp [table] at hm
  · rw [dif_neg h0]
    have hc : min total tpMax ≤ total := Nat.min_le_left _ _
    have hlt : total - min total tpMax < total := by simp only [tpMax]; omega
    have hsplit := table_chunk mem size start total (min total tpMax) hc
    rw [hsplit] at hm hu
    rw [readChunk_table _ _ _ _ (Nat.min_le_right _ _)]
    obtain ⟨hi1, hi2⟩ := infosOf_spec (table mem size start (min total tpMax))
    rcases List.mem_append.mp hm with hm | hm
    · have hl : lookup (infosOf (table mem size start (min total tpMax))) r.name = some r := by
        rw [hi2]
        cases hl : lastOf (table mem size start (min total tpMax)) r.name with
        | none =>
          rw [lastOf, List.find?_eq_none] at hl
          have := hl r (List.mem_reverse.mpr hm)
          simp [hs] at this
        | some r' =>
          obtain ⟨i, hi, _, hn', _⟩ := (lastOf_iff _ _ _).mp hl
          rw [hu r' (List.mem_append_left _ (List.mem_of_getElem? hi)) hn']
      rw [resolve_none a2s funcs _ t ⟨(r.name, r), lookup_mem hl, hn⟩]
    · cases hr : resolveAll a2s funcs (infosOf (table mem size start (min total tpMax))) t with
      | none => rfl
      | some t1 =>
        exact probeLoop_none mem size a2s funcs _ _ t1 r hm hs (fun r' h' => hu r' (List.mem_append_right _ h')) hn
termination_by total

/-- **C61 violated**: one tracepoint whose prototype function is missing from the symbols or from BTF makes bpfsnoop refuse
all tracepoints. -/
theorem one_fails_all_violated (mem : Nat → Raw) (size : Nat) (a2s : Nat → Option Str) (funcs : Str → Option Proto) (start stop : Nat) (r : Raw)
    (hm : r ∈ table mem size start ((stop - start) / size)) (hs : r.sym ≠ 0)
    (hu : ∀ r' ∈ table mem size start ((stop - start) / size), r'.name = r.name → r' = r)
    (hn : a2s r.sym = none ∨ ∃ f, a2s r.sym = some f ∧ funcs f = none) : probeKernel mem size size a2s funcs start stop = none := by
  rw [probeKernel]
  split
  · rfl
  · split
    · rfl
    · refine probeLoop_none mem size a2s funcs _ _ [] r hm hs hu ?_
      rcases hn with h | ⟨f, h1, h2⟩
      · rw [h]; rfl
      · rw [h1]; exact h2

/-- **C61 violated**: of two tracepoints whose names agree in the first 63 characters the earlier is not known. -/
theorem long_name_violated (a2s : Nat → Option Str) (funcs : Str → Option Proto) (rs : List Raw) (a b : Nat) (r r' : Raw) (hab : a < b)
    (ha : rs[a]? = some r) (hb : rs[b]? = some r') (hz : r'.sym ≠ 0) (hn : r.name = r'.name) (hd : r.sym ≠ r'.sym)
    (hu : ∀ (j : Nat) (x : Raw), rs[j]? = some x → x.sym = r.sym → j = a) :
    ∀ n i, Known a2s funcs rs n i → i.sym ≠ r.sym := by
  rintro n i ⟨x, f, p, ⟨j, hj, hxs, hxn, hlast⟩, _, _, rfl⟩ he
  have hja := hu j x hj he
  subst hja
  rw [ha] at hj
  cases hj
  exact hlast b r' hab hb hz (by rw [← hn, hxn])

/-! ### Modules -/

/-- Specification: the list of modules: `cur` and its successors are `l`, and then comes the head. -/
def Chain (next : Nat → Nat) (head : Nat) : Nat → List Nat → Prop
  | cur, [] => cur = head
  | cur, x :: l => cur = x ∧ x ≠ head ∧ Chain next head (next x) l

theorem walk_chain (next : Nat → Nat) (head : Nat) : ∀ (l : List Nat) (n cur : Nat), Chain next head cur l →
    (l.length ≤ n → walk next head n cur = (l, head)) ∧ (n < l.length → (walk next head n cur).2 ≠ head)
  | [], n, cur, h => by
    refine ⟨fun _ => ?_, fun h => by simp at h⟩
    have hc : cur = head := h
    cases n with
    | zero => rw [walk, hc]
    | succ n => rw [walk, if_pos hc, hc]
  | x :: l, n, cur, ⟨h1, h2, h3⟩ => by
    subst h1
    cases n with
    | zero => exact ⟨fun h => by simp at h, fun _ => h2⟩
    | succ n =>
      obtain ⟨i1, i2⟩ := walk_chain next head l n _ h3
      rw [walk, if_neg h2]
      refine ⟨fun h => ?_, fun h => ?_⟩
      · rw [i1 (by simpa using h)]
      · exact i2 (by simpa using h)

/-- Up to 256 modules are all visited; **C61 violated**: more are an error. -/
theorem modules_visited (mem : Nat → Raw) (size : Nat) (a2s : Nat → Option Str) (btf : Str → ModBtf) (next : Nat → Nat) (info : Nat → Mod) (head : Nat)
    (l : List Nat) (h : Chain next head (next head) l) :
    (l.length ≤ 256 → probeModules mem size size a2s btf next info head = probeMods mem size size a2s btf (l.map info) []) ∧
    (256 < l.length → probeModules mem size size a2s btf next info head = none) := by
  obtain ⟨h1, h2⟩ := walk_chain next head l 256 (next head) h
  unfold probeModules
  refine ⟨fun hl => ?_, fun hl => ?_⟩
  · simp only [h1 hl, ne_eq, not_true_eq_false, if_false]
  · simp only [ne_eq, h2 hl, not_false_eq_true, if_true]

/-- Specification: a module with tracepoints whose BTF can be read. -/
def Usable (btf : Str → ModBtf) (m : Mod) (f : Str → Option Proto) : Prop := m.nr ≠ 0 ∧ m.nr ≤ 65536 ∧ btf m.name = .funcs f

theorem probeMods_ok (mem : Nat → Raw) (size : Nat) (a2s : Nat → Option Str) (btf : Str → ModBtf) : ∀ (ms : List Mod) (t : List (Str × List (Str × Info))),
    (t.map Prod.fst).Nodup → (ms.map Mod.name).Nodup → (∀ m ∈ ms, m.name ∉ t.map Prod.fst) →
    (∀ m ∈ ms, m.nr ≠ 0 → m.nr ≤ 65536 → btf m.name ≠ .broken) →
    (∀ m ∈ ms, ∀ f, Usable btf m f → AllResolve a2s f (table mem size m.events m.nr)) →
    ∃ t', probeMods mem size size a2s btf ms t = some t' ∧ (t'.map Prod.fst).Nodup ∧
      (∀ x ∈ t', x ∈ t ∨ ∃ m ∈ ms, ∃ f, m.name = x.1 ∧ Usable btf m f ∧ ∀ n i, lookup x.2 n = some i ↔ Known a2s f (table mem size m.events m.nr) n i) ∧
      (∀ x ∈ t, x ∈ t') ∧ (∀ m ∈ ms, ∀ f, Usable btf m f → m.name ∈ t'.map Prod.fst)
  | [], t, hk, _, _, _, _ => ⟨t, rfl, hk, fun x hx => .inl hx, fun x hx => hx, by simp⟩
  | m :: ms, t, hk, hn, hnew, hb, hr => by
    rw [List.map_cons, List.nodup_cons] at hn
    have skip : (∀ f, ¬ Usable btf m f) → probeMods mem size size a2s btf (m :: ms) t = probeMods mem size size a2s btf ms t →
        ∃ t', probeMods mem size size a2s btf (m :: ms) t = some t' ∧ (t'.map Prod.fst).Nodup ∧
        (∀ x ∈ t', x ∈ t ∨ ∃ m' ∈ m :: ms, ∃ f, m'.name = x.1 ∧ Usable btf m' f ∧ ∀ n i, lookup x.2 n = some i ↔ Known a2s f (table mem size m'.events m'.nr) n i) ∧
        (∀ x ∈ t, x ∈ t') ∧ (∀ m' ∈ m :: ms, ∀ f, Usable btf m' f → m'.name ∈ t'.map Prod.fst) := by
      intro hnu heq
      obtain ⟨t', h1, h2, h3, h4, h5⟩ := probeMods_ok mem size a2s btf ms t hk hn.2 (fun x hx => hnew x (by simp [hx]))
        (fun x hx => hb x (by simp [hx])) (fun x hx => hr x (by simp [hx]))
      refine ⟨t', heq.trans h1, h2, ?_, h4, ?_⟩
      · intro x hx
        rcases h3 x hx with h | ⟨m', hm', h⟩
        · exact .inl h
        · exact .inr ⟨m', by simp [hm'], h⟩
      · intro m' hm' f hu
        rcases List.mem_cons.mp hm' with rfl | hm'
        · exact absurd hu (hnu f)
        · exact h5 m' hm' f hu
    by_cases hz : m.nr = 0 ∨ m.nr > 65536
    · exact skip (fun f hu => by obtain ⟨a, b, _⟩ := hu; omega) (by rw [probeMods, if_pos hz])
    · cases hbt : btf m.name with
      | absent => exact skip (fun f hu => by rw [hu.2.2] at hbt; cases hbt) (by rw [probeMods, if_neg hz, hbt])
      | broken => exact absurd hbt (hb m (by simp) (by omega) (by omega))
      | funcs f =>
        have hu : Usable btf m f := ⟨by omega, by omega, hbt⟩
        obtain ⟨tp, ht, hl⟩ := probeLoop_ok mem size a2s f m.events m.nr [] (hr m (by simp) f hu)
        have hnt : ∀ y ∈ t, y.1 ≠ m.name := fun y hy he => hnew m (by simp) (List.mem_map.mpr ⟨y, hy, he⟩)
        have hput : put t m.name tp = (m.name, tp) :: t := by
          rw [put, List.filter_eq_self.mpr]
          intro y hy; simpa using hnt y hy
        obtain ⟨t', h1, h2, h3, h4, h5⟩ := probeMods_ok mem size a2s btf ms (put t m.name tp) (keys_put _ _ _ hk) hn.2
          (fun x hx => by
            rw [hput, List.map_cons, List.mem_cons]
            rintro (h | h)
            · have h' : x.name = m.name := h
              exact hn.1 (h' ▸ List.mem_map.mpr ⟨x, hx, rfl⟩)
            · exact hnew x (by simp [hx]) h)
          (fun x hx => hb x (by simp [hx])) (fun x hx => hr x (by simp [hx]))
        rw [hput] at h3 h4
        refine ⟨t', by rw [probeMods, if_neg hz, hbt]; simp only [ht]; exact h1, h2, ?_, fun x hx => h4 x (by simp [hx]), ?_⟩
        · intro x hx
          rcases h3 x hx with h | ⟨m', hm', h⟩
          · rcases List.mem_cons.mp h with rfl | h
            · refine .inr ⟨m, by simp, f, rfl, hu, fun n i => ?_⟩
              rw [hl, lookup_nil, Option.or_none, known_iff]
            · exact .inl h
          · exact .inr ⟨m', by simp [hm'], h⟩
        · intro m' hm' f' hu'
          rcases List.mem_cons.mp hm' with rfl | hm'
          · exact List.mem_map.mpr ⟨(m'.name, tp), h4 _ List.mem_cons_self, rfl⟩
          · exact h5 m' hm' f' hu'

/-- The tracepoints of every module with tracepoints and BTF are known, and of no other. -/
theorem probe_modules_partial (mem : Nat → Raw) (size : Nat) (a2s : Nat → Option Str) (btf : Str → ModBtf) (ms : List Mod)
    (hn : (ms.map Mod.name).Nodup) (hb : ∀ m ∈ ms, m.nr ≠ 0 → m.nr ≤ 65536 → btf m.name ≠ .broken)
    (hr : ∀ m ∈ ms, ∀ f, Usable btf m f → AllResolve a2s f (table mem size m.events m.nr)) :
    ∃ t, probeMods mem size size a2s btf ms [] = some t ∧ (t.map Prod.fst).Nodup ∧
      (∀ mn tps, (mn, tps) ∈ t → ∃ m ∈ ms, ∃ f, m.name = mn ∧ Usable btf m f ∧ ∀ n i, lookup tps n = some i ↔ Known a2s f (table mem size m.events m.nr) n i) ∧
      ∀ m ∈ ms, ∀ f, Usable btf m f → ∃ tps, (m.name, tps) ∈ t := by
  obtain ⟨t, h1, h2, h3, _, h5⟩ := probeMods_ok mem size a2s btf ms [] (by simp) hn (by simp) hb hr
  refine ⟨t, h1, h2, fun mn tps hm => ?_, fun m hm f hu => ?_⟩
  · rcases h3 _ hm with h | h
    · cases h
    · exact h
  · obtain ⟨x, hx, he⟩ := List.mem_map.mp (h5 m hm f hu)
    exact ⟨x.2, he ▸ hx⟩

/-- A kernel whose symbols do not delimit a table is an error, not an empty list. -/
theorem bad_bounds_fail (mem : Nat → Raw) (size : Nat) (a2s : Nat → Option Str) (funcs : Str → Option Proto) (start stop : Nat)
    (h : start = 0 ∨ stop = 0 ∨ stop ≤ start ∨ size = 0) : probeKernel mem size size a2s funcs start stop = none := by
  unfold probeKernel
  split
  · rfl
  · rw [if_pos (by omega)]

/-- A module with tracepoints whose BTF cannot be read fails the start. -/
theorem broken_btf_fails (mem : Nat → Raw) (size : Nat) (a2s : Nat → Option Str) (btf : Str → ModBtf) : ∀ (ms : List Mod) (t : List (Str × List (Str × Info))),
    (∃ m ∈ ms, m.nr ≠ 0 ∧ m.nr ≤ 65536 ∧ btf m.name = .broken) → probeMods mem size size a2s btf ms t = none
  | [], _, ⟨_, hm, _⟩ => by cases hm
  | m :: ms, t, ⟨m', hm, h1, h2, h3⟩ => by
    rcases List.mem_cons.mp hm with rfl | hm
    · rw [probeMods, if_neg (by omega), h3]
    · have ih := fun t => broken_btf_fails mem size a2s btf ms t ⟨m', hm, h1, h2, h3⟩
      unfold probeMods
      split
      · exact ih _
      · cases btf m.name with
        | absent => exact ih _
        | broken => rfl
        | funcs f =>
          simp only
          cases probeLoop mem size size a2s f m.events m.nr [] with
          | none => rfl
          | some tps => exact ih _

/-! ### Kernel and modules together -/

theorem addMod_spec (mn : Str) (xs : List (Str × Info)) : ∀ t : List (Str × Info),
    ((t.map Prod.fst).Nodup → ((addMod t (mn, xs)).map Prod.fst).Nodup) ∧
    ∀ n, lookup (addMod t (mn, xs)) n = (lookup t n).or ((lookup xs n).map fun i => { i with kmod := mn }) := by
  induction xs with
  | nil => intro t; exact ⟨fun h => h, fun n => by simp [addMod, lookup_nil]⟩
  | cons x xs ih =>
    intro t
    have he : addMod t (mn, x :: xs) = addMod (if (lookup t x.1).isSome then t else put t x.1 { x.2 with kmod := mn }) (mn, xs) := by
      simp [addMod]
    rw [he]
    obtain ⟨i1, i2⟩ := ih (if (lookup t x.1).isSome then t else put t x.1 { x.2 with kmod := mn })
    refine ⟨fun h => i1 ?_, fun n => ?_⟩
    · split
      · exact h
      · exact keys_put _ _ _ h
    · rw [i2, lookup_cons]
      by_cases hn : x.1 = n
      · subst hn
        cases hl : lookup t x.1 with
        | none => simp [lookup_put]
        | some v => simp [hl]
      · have hn' : ¬ n = x.1 := fun h => hn h.symm
        cases hl : lookup t x.1 with
        | none => simp [lookup_put, hn, hn']
        | some v => simp [hn]

theorem addMods_spec : ∀ (ms : List (Str × List (Str × Info))) (t : List (Str × Info)),
    ((t.map Prod.fst).Nodup → ((addMods t ms).map Prod.fst).Nodup) ∧
    ∀ n, lookup (addMods t ms) n = (lookup t n).or (ms.findSome? fun m => (lookup m.2 n).map fun i => { i with kmod := m.1 })
  | [], t => ⟨fun h => h, fun n => by simp [addMods]⟩
  | m :: ms, t => by
    have he : addMods t (m :: ms) = addMods (addMod t m) ms := rfl
    obtain ⟨a1, a2⟩ := addMod_spec m.1 m.2 t
    obtain ⟨i1, i2⟩ := addMods_spec ms (addMod t m)
    rw [he]
    refine ⟨fun h => i1 (a1 h), fun n => ?_⟩
    rw [i2, a2, List.findSome?_cons, Option.or_assoc]
    congr 1
    cases hl : lookup m.2 n <;> simp

/-- A tracepoint of the kernel hides those of modules with its name. -/
theorem kernel_first (t : List (Str × Info)) (ms : List (Str × List (Str × Info))) (n : Str) (i : Info) (h : lookup t n = some i) :
    lookup (addMods t ms) n = some i := by
  rw [(addMods_spec ms t).2, h]; rfl

/-- A tracepoint of exactly one module is known as that module's, in whatever order the modules come. -/
theorem one_module (t : List (Str × Info)) (ms : List (Str × List (Str × Info))) (n : Str) (h : lookup t n = none) (m : Str × List (Str × Info)) (i : Info)
    (hm : m ∈ ms) (hi : lookup m.2 n = some i) (hu : ∀ m' ∈ ms, lookup m'.2 n ≠ none → m' = m) :
    lookup (addMods t ms) n = some { i with kmod := m.1 } := by
  rw [(addMods_spec ms t).2, h, Option.none_or]
  cases hf : ms.findSome? fun m => (lookup m.2 n).map fun i => { i with kmod := m.1 } with
  | none =>
    have := List.findSome?_eq_none_iff.mp hf m hm
    rw [hi] at this; cases this
  | some x =>
    obtain ⟨m', hm', hx⟩ := List.exists_of_findSome?_eq_some hf
    have : lookup m'.2 n ≠ none := by intro he; rw [he] at hx; cases hx
    have := hu m' hm' this
    subst this
    rw [hi] at hx
    exact hx.symm

/-- No other tracepoint is known. -/
theorem nothing_else (t : List (Str × Info)) (ms : List (Str × List (Str × Info))) (n : Str) (h : lookup t n = none)
    (hn : ∀ m ∈ ms, lookup m.2 n = none) : lookup (addMods t ms) n = none := by
  rw [(addMods_spec ms t).2, h, Option.none_or, List.findSome?_eq_none_iff]
  intro m hm
  rw [hn m hm]; rfl

/-- **C61 violated**: which of two modules' tracepoints of one name is meant depends on the order in which Go iterates a
map. -/
theorem module_order_violated (t : List (Str × Info)) (n : Str) (h : lookup t n = none) (a b : Str × List (Str × Info)) (i j : Info)
    (ha : lookup a.2 n = some i) (hb : lookup b.2 n = some j) :
    lookup (addMods t [a, b]) n = some { i with kmod := a.1 } ∧ lookup (addMods t [b, a]) n = some { j with kmod := b.1 } := by
  constructor
  · rw [(addMods_spec _ t).2, h]; simp [ha]
  · rw [(addMods_spec _ t).2, h]; simp [hb]

/-! ### Selection -/

/-- Specification: the tracepoint can be traced and the first pattern that matches is `m`: its prototype has, after the
context, at least as many parameters as the tracepoint has arguments and at most 12. -/
def Selects (glob : Str → Str → Bool) (ms : List KfuncFlag) (n : Str) (i : Info) (k : KTp) : Prop :=
  ∃ p ps m, i.fn.params = p :: ps ∧ i.nargs ≤ ps.length ∧ ps.length ≤ 12 ∧ i.fn.ok = true ∧
    Flg.FirstMatch glob ms ⟨n, ps, false, false, i.fn.ok⟩ m ∧ k = ⟨n, ps, i.kmod, { m.imm with graph := false }⟩

theorem matchOne_iff (glob : Str → Str → Bool) (ms : List KfuncFlag) (n : Str) (i : Info) (k : KTp) :
    matchOne glob ms n i = .sel k ↔ Selects glob ms n i k := by
  unfold matchOne Selects
  cases hp : i.fn.params with
  | nil => simp
  | cons p ps =>
    simp only [List.cons.injEq]
    constructor
    · intro h
      by_cases h1 : ps.length < i.nargs
      · rw [if_pos h1] at h; cases h
      · rw [if_neg h1] at h
        by_cases h2 : ps.length > maxArgs
        · rw [if_pos h2] at h; cases h
        · rw [if_neg h2] at h
          cases hm : Flg.matchKfunc glob ⟨n, ps, false, false, i.fn.ok⟩ ms with
          | none => rw [hm] at h; cases h
          | some m =>
            rw [hm] at h
            simp only at h
            cases ho : i.fn.ok with
            | false => rw [ho] at h; cases h
            | true =>
              rw [ho] at h hm
              simp only [Bool.not_true, Bool.false_eq_true, if_false, One.sel.injEq] at h
              exact ⟨p, ps, m, ⟨rfl, rfl⟩, by omega, by simp only [maxArgs] at h2; omega, rfl, (Flg.matchKfunc_iff _ _ _ _).mp hm, h.symm⟩
    · rintro ⟨p', ps', m, ⟨rfl, rfl⟩, h1, h2, h3, h4, rfl⟩
      rw [if_neg (by omega), if_neg (by simp only [maxArgs]; omega), (Flg.matchKfunc_iff _ _ _ _).mpr h4]
      simp [h3]

theorem matchAll_ok (glob : Str → Str → Bool) (ms : List KfuncFlag) : ∀ (xs : List (Str × Info)) (t : List (Str × KTp)), (xs.map Prod.fst).Nodup →
    (∀ x ∈ xs, x.2.fn.params ≠ []) → (∀ x ∈ xs, lookup t x.1 = none) →
    ∃ t', matchAll glob ms xs t = some t' ∧ ∀ n k, lookup t' n = some k ↔ lookup t n = some k ∨ ∃ i, lookup xs n = some i ∧ Selects glob ms n i k
  | [], t, _, _, _ => ⟨t, rfl, fun n k => by simp [lookup_nil]⟩
  | (n0, i0) :: xs, t, hn, hp, ht => by
    rw [List.map_cons, List.nodup_cons] at hn
    have hfresh : lookup xs n0 = none := by
      cases hl : lookup xs n0 with
      | none => rfl
      | some v => exact absurd (List.mem_map.mpr ⟨_, lookup_mem hl, rfl⟩) hn.1
    rw [matchAll]
    cases hm : matchOne glob ms n0 i0 with
    | panic =>
      have := hp (n0, i0) (by simp)
      simp only [matchOne] at hm
      cases hpp : i0.fn.params with
      | nil => exact absurd hpp this
      | cons p ps =>
        rw [hpp] at hm
        simp only at hm
        split at hm
        · cases hm
        · split at hm
          · cases hm
          · split at hm
            · cases hm
            · split at hm <;> cases hm
    | skip =>
      obtain ⟨t', h1, h2⟩ := matchAll_ok glob ms xs t hn.2 (fun x hx => hp x (by simp [hx])) (fun x hx => ht x (by simp [hx]))
      refine ⟨t', h1, fun n k => ?_⟩
      rw [h2, lookup_cons]
      by_cases he : n0 = n
      · subst he
        simp only [hfresh, if_true, Option.some.injEq]
        constructor
        · rintro (h | ⟨i, h, _⟩)
          · exact .inl h
          · cases h
        · rintro (h | ⟨i, rfl, h⟩)
          · exact .inl h
          · rw [← matchOne_iff, hm] at h; cases h
      · simp only [he, if_false]
    | sel k0 =>
      obtain ⟨t', h1, h2⟩ := matchAll_ok glob ms xs (put t n0 k0) hn.2 (fun x hx => hp x (by simp [hx])) (fun x hx => by
        rw [lookup_put]
        have : x.1 ≠ n0 := fun he => hn.1 (he ▸ List.mem_map.mpr ⟨x, hx, rfl⟩)
        rw [if_neg this]
        exact ht x (by simp [hx]))
      refine ⟨t', h1, fun n k => ?_⟩
      rw [h2, lookup_put, lookup_cons]
      by_cases he : n0 = n
      · subst he
        have h0 := ht (n0, i0) (by simp)
        simp only at h0
        simp only [hfresh, h0, if_true, Option.some.injEq]
        constructor
        · rintro (h | ⟨i, h, _⟩)
          · exact .inr ⟨i0, rfl, by rw [← matchOne_iff, hm, h]⟩
          · cases h
        · rintro (h | ⟨i, rfl, h⟩)
          · cases h
          · rw [← matchOne_iff, hm] at h
            cases h
            exact .inl rfl
      · have he' : ¬ n = n0 := fun h => he h.symm
        simp only [he, he', if_false]

/-- Selecting panics exactly if some prototype has no parameter at all. -/
theorem panics_iff (glob : Str → Str → Bool) (ms : List KfuncFlag) : ∀ (xs : List (Str × Info)) (t : List (Str × KTp)),
    matchAll glob ms xs t = none ↔ ∃ x ∈ xs, x.2.fn.params = []
  | [], t => by simp [matchAll]
  | (n, i) :: xs, t => by
    have hp : matchOne glob ms n i = .panic ↔ i.fn.params = [] := by
      unfold matchOne
      split
      · next h => simp [h]
      · next h =>
        simp only [h, reduceCtorEq, iff_false]
        repeat' split
        all_goals simp
    unfold matchAll
    simp only [List.mem_cons, exists_eq_or_imp]
    rw [← hp]
    split
    · next h => simp [h]
    · next h => rw [panics_iff glob ms xs t]; simp [h]
    · next h => rw [panics_iff glob ms xs _]; simp [h]

/-- Exactly the known tracepoints that can be traced and that a pattern matches are selected, with the options of the first
pattern that matches. -/
theorem selected_iff (glob : Str → Str → Bool) (ms : List KfuncFlag) (xs : List (Str × Info)) (hn : (xs.map Prod.fst).Nodup)
    (hp : ∀ x ∈ xs, x.2.fn.params ≠ []) :
    ∃ t, matchAll glob ms xs [] = some t ∧ ∀ n k, lookup t n = some k ↔ ∃ i, lookup xs n = some i ∧ Selects glob ms n i k := by
  obtain ⟨t, h1, h2⟩ := matchAll_ok glob ms xs [] hn hp (by simp [lookup_nil])
  exact ⟨t, h1, fun n k => by rw [h2, lookup_nil]; simp⟩

/-- No option other than those of the first matching pattern, and neither instruction nor graph tracing. -/
theorem selected_plain {glob : Str → Str → Bool} {ms : List KfuncFlag} {n : Str} {i : Info} {k : KTp} (h : Selects glob ms n i k) :
    k.flag.graph = false ∧ k.name = n := by
  obtain ⟨p, ps, m, _, _, _, _, _, rfl⟩ := h
  exact ⟨rfl, rfl⟩

/-- The whole way, for the tracepoints of the kernel: a tracepoint is selected exactly if it is known and can be traced and a
pattern matches. -/
theorem kernel_selected_partial (glob : Str → Str → Bool) (fl : List KfuncFlag) (mem : Nat → Raw) (size : Nat) (a2s : Nat → Option Str) (funcs : Str → Option Proto)
    (start stop : Nat) (h0 : start ≠ 0) (h1 : start < stop) (hs : size ≠ 0)
    (hr : AllResolve a2s funcs (table mem size start ((stop - start) / size))) (hf : ∀ f p, funcs f = some p → p.params ≠ []) :
    ∃ t s, probeKernel mem size size a2s funcs start stop = some t ∧ matchAll glob fl (addMods t []) [] = some s ∧
      ∀ n k, lookup s n = some k ↔ ∃ i, Known a2s funcs (table mem size start ((stop - start) / size)) n i ∧ Selects glob fl n i k := by
  obtain ⟨t, ht, hn, hl⟩ := probe_kernel_partial mem size a2s funcs start stop h0 h1 hs hr
  obtain ⟨s, hs1, hs2⟩ := selected_iff glob fl t hn (by
    intro x hx
    have := (hl x.1 x.2).mp (mem_lookup hn hx)
    obtain ⟨r, f, p, _, _, hp, he⟩ := this
    rw [he]; exact hf f p hp)
  refine ⟨t, s, ht, hs1, fun n k => ?_⟩
  rw [hs2]
  constructor
  · rintro ⟨i, h, h'⟩; exact ⟨i, (hl n i).mp h, h'⟩
  · rintro ⟨i, h, h'⟩; exact ⟨i, (hl n i).mpr h, h'⟩

/-! ### Ids -/

/-- Every selected tracepoint gets an id of its own; no function loses its entry. -/
theorem merged_spec {α : Type} : ∀ (xs : List α) (m m' : List (Nat × α)), Merged xs m m' →
    (∀ a v, lookup m a = some v → lookup m' a = some v) ∧
    ∃ ids : List Nat, ids.length = xs.length ∧ ids.Nodup ∧ (∀ id ∈ ids, lookup m id = none) ∧
      (∀ (j id : Nat) (x : α), ids[j]? = some id → xs[j]? = some x → lookup m' id = some x) ∧
      ∀ a v, lookup m' a = some v → lookup m a = some v ∨ a ∈ ids
  | [], m, m', h => by
    cases h
    exact ⟨fun a v h => h, [], rfl, by simp, by simp, by simp, fun a v h => .inl h⟩
  | x :: xs, m, m', h => by
    cases h with
    | cons _ _ _ _ id hlt hnone h =>
      obtain ⟨h1, ids, h2, h3, h4, h5, h6⟩ := merged_spec xs _ _ h
      have hnot : id ∉ ids := by
        intro hm
        have := h4 id hm
        rw [lookup_put] at this
        simp at this
      refine ⟨fun a v ha => h1 a v ?_, id :: ids, by simp [h2], List.nodup_cons.mpr ⟨hnot, h3⟩, ?_, ?_, ?_⟩
      · rw [lookup_put]
        have : a ≠ id := by intro he; rw [he, hnone] at ha; cases ha
        rw [if_neg this]; exact ha
      · intro id' hm
        rcases List.mem_cons.mp hm with rfl | hm
        · exact hnone
        · have := h4 id' hm
          rw [lookup_put] at this
          have hne : id' ≠ id := fun he => hnot (he ▸ hm)
          rwa [if_neg hne] at this
      · intro j id' y hj hy
        cases j with
        | zero =>
          simp only [List.getElem?_cons_zero, Option.some.injEq] at hj hy
          subst hj; subst hy
          exact h1 _ _ (by rw [lookup_put]; simp)
        | succ j =>
          simp only [List.getElem?_cons_succ] at hj hy
          exact h5 j id' y hj hy
      · intro a v ha
        rcases h6 a v ha with h | h
        · rw [lookup_put] at h
          by_cases he : a = id
          · right; simp [he]
          · rw [if_neg he] at h; exact .inl h
        · right; simp [h]

/-! ### Non-vacuity -/

def exMem (a : Nat) : Raw :=
  if a = 0x1000 then ⟨"sched_switch".toList, 0x50, 3⟩ else if a = 0x1020 then ⟨"unused".toList, 0, 0⟩ else ⟨"kfree".toList, 0x60, 1⟩

def exA2s (a : Nat) : Option Str := if a = 0x50 then some "__bpf_trace_sched_switch".toList else if a = 0x60 then some "__bpf_trace_kfree".toList else none

def exFuncs (f : Str) : Option Proto :=
  if f = "__bpf_trace_kfree".toList then some ⟨[("__data".toList, "void *".toList), ("ptr".toList, "void *".toList)], true⟩
  else some ⟨[("__data".toList, "void *".toList), ("a".toList, "bool".toList), ("b".toList, "int".toList), ("c".toList, "int".toList)], true⟩

theorem found_witness : AllResolve exA2s exFuncs (table exMem 32 0x1000 3) ∧
    probeKernel exMem 32 32 exA2s exFuncs 0x1000 0x1060 =
      some [("sched_switch".toList, ⟨0x50, 3, ⟨[("__data".toList, "void *".toList), ("a".toList, "bool".toList), ("b".toList, "int".toList), ("c".toList, "int".toList)], true⟩, []⟩),
        ("kfree".toList, ⟨0x60, 1, ⟨[("__data".toList, "void *".toList), ("ptr".toList, "void *".toList)], true⟩, []⟩)] := by
  refine ⟨?_, by decide +kernel⟩
  intro r hr hs
  have : r ∈ [⟨"sched_switch".toList, 0x50, 3⟩, ⟨"unused".toList, 0, 0⟩, (⟨"kfree".toList, 0x60, 1⟩ : Raw)] := by
    have he : table exMem 32 0x1000 3 = [⟨"sched_switch".toList, 0x50, 3⟩, ⟨"unused".toList, 0, 0⟩, ⟨"kfree".toList, 0x60, 1⟩] := by decide +kernel
    rwa [he] at hr
  simp only [List.mem_cons, List.not_mem_nil, or_false] at this
  rcases this with rfl | rfl | rfl
  · exact ⟨_, _, rfl, rfl⟩
  · exact absurd rfl hs
  · exact ⟨_, _, rfl, rfl⟩

end Bpfsnoop.Tp
