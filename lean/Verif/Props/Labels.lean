import Verif.Model.Labels
import Verif.Props.CcLabel
import Verif.Props.OutArg

/-
C52: `--output-arg` with several functions: the programs can be assembled whatever the order in which they are prepared.
-/
namespace Bpfsnoop.Lbl
open Arg (OArg)

/-! ### Specification -/

/-- The position in the program at which the code of expression `k` begins. -/
def begins (as : List OArg) (k : Nat) : Nat := 2 + ((as.take k).map fun a => a.code.length).sum

/-- The program is assembled: each jump of an expression to its exit label leads to the label of that very expression, and there are no other
jumps of this kind. -/
def Right (as : List OArg) (ns : List Nat) : Prop :=
  ∃ ts, assemble (program as ns) = some ts ∧ ts.length = (program as ns).length ∧
    ∀ (k : Nat) (a : OArg) (i : Nat) (x : Arg.OI), as[k]? = some a → a.code[i]? = some x →
      ts[begins as k + i]? = some (if isExit x then a.label.map (begins as k + ·) else none)

/-- At most one goroutine is in `genExitLabel`. -/
def Alone (w : World) : Prop := ∀ i j, (w.gs i).pc ≠ .out → (w.gs j).pc ≠ .out → i = j

/-- The calls of `genExitLabel` do not overlap. -/
def Serial (w : World) : List Nat → Prop
  | [] => Alone w
  | i :: is => Alone w ∧ Serial (w.step i) is

/-! ### Labels -/

/-- What a goroutine has got is smaller than the counter, or will be. -/
structure Inv (w : World) : Prop where
  nodup : ∀ i, (w.gs i).got.Nodup
  old : ∀ i, (w.gs i).pc = .out → ∀ n ∈ (w.gs i).got, n < w.cnt
  cur : ∀ i, (w.gs i).pc ≠ .out → ∃ l, (w.gs i).got = l ++ [w.cnt] ∧ ∀ n ∈ l, n < w.cnt
  load : ∀ i m, (w.gs i).pc = .loaded m → m = w.cnt

theorem inv_start (n : Nat → Nat) : Inv (start n) :=
  ⟨fun _ => List.nodup_nil, fun _ _ => by simp [start], fun _ h => (h rfl).elim, fun _ _ h => by simp [start] at h⟩

theorem inv_step {w : World} (i : Nat) (h : Inv w) (ha : Alone w) (hb : Alone (w.step i)) : Inv (w.step i) := by
  cases hp : (w.gs i).pc with
  | out =>
    cases hl : (w.gs i).left with
    | zero =>
      have : w.step i = w := by
        have : stepG w.cnt (w.gs i) = (w.cnt, w.gs i) := by simp [stepG, hp, hl]
        simp only [World.step, this]
        congr 1
        funext j
        split <;> simp_all
      rw [this]; exact h
    | succ k =>
      have hs : stepG w.cnt (w.gs i) = (w.cnt, ⟨k, .named, (w.gs i).got ++ [w.cnt]⟩) := by simp [stepG, hp, hl]
      have hc : (w.step i).cnt = w.cnt := by simp [World.step, hs]
      have hi : (w.step i).gs i = ⟨k, .named, (w.gs i).got ++ [w.cnt]⟩ := by simp [World.step, hs]
      have hj : ∀ j, j ≠ i → (w.step i).gs j = w.gs j := by intro j hj; simp [World.step, hj]
      refine ⟨fun j => ?_, fun j => ?_, fun j => ?_, fun j => ?_⟩ <;> by_cases hji : j = i
      · subst hji; rw [hi]
        have := h.old j hp
        exact List.nodup_append.mpr ⟨h.nodup j, by simp, fun a ha b hb => by simp at hb; subst hb; have := this a ha; omega⟩
      · rw [hj j hji]; exact h.nodup j
      · subst hji; rw [hi]; intro h; cases h
      · rw [hj j hji, hc]; exact h.old j
      · subst hji; rw [hi, hc]; intro _; exact ⟨_, rfl, h.old j hp⟩
      · rw [hj j hji, hc]; exact h.cur j
      · subst hji; rw [hi]; intro m h; cases h
      · rw [hj j hji, hc]; exact h.load j
  | named =>
    have hs : stepG w.cnt (w.gs i) = (w.cnt, { w.gs i with pc := .loaded w.cnt }) := by simp [stepG, hp]
    have hc : (w.step i).cnt = w.cnt := by simp [World.step, hs]
    have hi : (w.step i).gs i = { w.gs i with pc := .loaded w.cnt } := by simp [World.step, hs]
    have hj : ∀ j, j ≠ i → (w.step i).gs j = w.gs j := by intro j hj; simp [World.step, hj]
    refine ⟨fun j => ?_, fun j => ?_, fun j => ?_, fun j => ?_⟩ <;> by_cases hji : j = i
    · subst hji; rw [hi]; exact h.nodup j
    · rw [hj j hji]; exact h.nodup j
    · subst hji; rw [hi]; intro h; cases h
    · rw [hj j hji, hc]; exact h.old j
    · subst hji; rw [hi, hc]; intro _; exact h.cur j (by rw [hp]; nofun)
    · rw [hj j hji, hc]; exact h.cur j
    · subst hji; rw [hi, hc]; intro m h; cases h; rfl
    · rw [hj j hji, hc]; exact h.load j
  | loaded m =>
    have hs : stepG w.cnt (w.gs i) = (m + 1, { w.gs i with pc := .out }) := by simp [stepG, hp]
    have hm : m = w.cnt := h.load i m hp
    have hc : (w.step i).cnt = w.cnt + 1 := by simp [World.step, hs, hm]
    have hi : (w.step i).gs i = { w.gs i with pc := .out } := by simp [World.step, hs]
    have hj : ∀ j, j ≠ i → (w.step i).gs j = w.gs j := by intro j hj; simp [World.step, hj]
    have hq : ∀ j, j ≠ i → (w.gs j).pc = .out := by
      intro j hji
      refine Classical.byContradiction fun hne => hji (ha j i hne (by rw [hp]; nofun))
    refine ⟨fun j => ?_, fun j => ?_, fun j => ?_, fun j => ?_⟩ <;> by_cases hji : j = i
    · subst hji; rw [hi]; exact h.nodup j
    · rw [hj j hji]; exact h.nodup j
    · subst hji; rw [hi, hc]
      intro _ n hn
      obtain ⟨l, hl, hlt⟩ := h.cur j (by rw [hp]; nofun)
      rw [show ({ w.gs j with pc := Pc.out } : Gor).got = (w.gs j).got from rfl, hl] at hn
      rcases List.mem_append.mp hn with hn | hn
      · have := hlt n hn; omega
      · simp at hn; omega
    · rw [hj j hji, hc]; intro h1 n hn; have := h.old j h1 n hn; omega
    · subst hji; rw [hi]; intro h; exact (h rfl).elim
    · rw [hj j hji]; intro h1; exact (h1 (hq j hji)).elim
    · subst hji; rw [hi]; intro m h; cases h
    · rw [hj j hji]; intro m h1; rw [hq j hji] at h1; cases h1

theorem inv_run : ∀ (is : List Nat) {w : World}, Inv w → Serial w is → Inv (w.run is)
  | [], _, h, _ => h
  | i :: is, w, h, hs => by
    have hb : Alone (w.step i) := by cases is with | nil => exact hs.2 | cons => exact hs.2.1
    exact inv_run is (inv_step i h hs.1 hb) hs.2

/-- **C52.** If the calls of `genExitLabel` do not overlap, the labels of each program differ: every schedule, any number of programs and expressions. -/
theorem labels_differ (n : Nat → Nat) (is : List Nat) (h : Serial (start n) is) (i : Nat) : (((start n).run is).gs i).got.Nodup :=
  (inv_run is (inv_start n) h).nodup i

/-- Expressions still to be compiled and labels taken. -/
theorem count_step (w : World) (i j : Nat) : ((w.step i).gs j).left + ((w.step i).gs j).got.length = (w.gs j).left + (w.gs j).got.length := by
  by_cases hji : j = i
  · subst hji
    simp only [World.step, if_pos]
    unfold stepG
    split
    · split
      · rfl
      · rename_i k hk; simp [hk]; omega
    · rfl
    · rfl
  · simp [World.step, hji]

theorem count_run : ∀ (is : List Nat) (w : World) (j : Nat), ((w.run is).gs j).left + ((w.run is).gs j).got.length = (w.gs j).left + (w.gs j).got.length
  | [], _, _ => rfl
  | i :: is, w, j => (count_run is (w.step i) j).trans (count_step w i j)

/-- **C52.** Each expression gets a label, whatever the schedule. -/
theorem labels_all (n : Nat → Nat) (is : List Nat) (i : Nat) (h : (((start n).run is).gs i).left = 0) : (((start n).run is).gs i).got.length = n i := by
  have := count_run is (start n) i
  simp only [start, List.length_nil] at this
  have h' : (((⟨0, fun i => ⟨n i, .out, []⟩⟩ : World).run is).gs i).left = 0 := h
  have : (((⟨0, fun i => ⟨n i, .out, []⟩⟩ : World).run is).gs i).got.length = n i := by omega
  exact this

/-- A schedule in which only one goroutine has anything to do is serial. -/
theorem quiet_run {w : World} {i : Nat} (hw : ∀ j, j ≠ i → (w.gs j).left = 0 ∧ (w.gs j).pc = .out) : ∀ is, Serial w is := by
  intro is
  have ha : ∀ {w : World}, (∀ j, j ≠ i → (w.gs j).left = 0 ∧ (w.gs j).pc = .out) → Alone w := by
    intro w hw a b h1 h2
    rcases Classical.em (a = i) with rfl | ha
    · rcases Classical.em (b = a) with rfl | hb
      · rfl
      · exact (h2 (hw b hb).2).elim
    · exact (h1 (hw a ha).2).elim
  induction is generalizing w with
  | nil => exact ha hw
  | cons k ks ih =>
    refine ⟨ha hw, ih fun j hj => ?_⟩
    by_cases hjk : j = k
    · subst hjk
      have : stepG w.cnt (w.gs j) = (w.cnt, w.gs j) := by simp [stepG, hw j hj]
      simp only [World.step, if_pos, this]
      exact hw j hj
    · simp only [World.step, if_neg hjk]
      exact hw j hj

/-- **C52.** If the expressions mention parameters of one function only, and it is traced by one program, the labels differ whatever the schedule. -/
theorem one_program (n : Nat → Nat) (i : Nat) (h : ∀ j, j ≠ i → n j = 0) (is : List Nat) (j : Nat) : (((start n).run is).gs j).got.Nodup :=
  labels_differ n is (quiet_run (i := i) (fun k hk => ⟨h k hk, rfl⟩) is) j

/-- **C52.** With one expression for each program, the labels differ whatever the schedule. -/
theorem one_expression (n : Nat → Nat) (h : ∀ j, n j ≤ 1) (is : List Nat) (j : Nat) : (((start n).run is).gs j).got.Nodup := by
  have := count_run is (start n) j
  have h1 := h j
  generalize hg : (((start n).run is).gs j).got = l at this ⊢
  have : l.length ≤ 1 := by
    have e : ((start n).gs j).left + ((start n).gs j).got.length = n j := by simp [start]
    omega
  match l, this with
  | [], _ => exact List.nodup_nil
  | [a], _ => simp

/-! ### The assembler -/

/-- An expression whose code jumps to its exit label has the label, in its code. -/
def Labelled (a : OArg) : Prop := (∀ x ∈ a.code, isExit x = true → a.label ≠ none) ∧ ∀ k, a.label = some k → k < a.code.length

theorem block_length (l : Option Nat) (n : Nat) : ∀ c k, (block l n c k).length = c.length
  | [], _ => rfl
  | _ :: c, k => by simp [block, block_length l n c (k + 1)]

theorem block_get (l : Option Nat) (n : Nat) : ∀ (c : List Arg.OI) (k i : Nat) (x : Arg.OI), c[i]? = some x →
    (block l n c k)[i]? = some ⟨if l = some (k + i) then some n else none, if isExit x then some n else none⟩
  | y :: c, k, 0, x, h => by simp at h; subst h; simp [block]
  | y :: c, k, i + 1, x, h => by
    have := block_get l n c (k + 1) i x (by simpa using h)
    simp only [block, List.getElem?_cons_succ, this]
    congr 3
    rw [show k + 1 + i = k + (i + 1) by omega]

theorem block_syms (l : Option Nat) (n : Nat) : ∀ (c : List Arg.OI) (k : Nat),
    syms (block l n c k) = if ∃ j, l = some j ∧ k ≤ j ∧ j < k + c.length then [n] else []
  | [], k => by
    rw [if_neg (by rintro ⟨j, _, h1, h2⟩; simp at h2; omega)]; rfl
  | y :: c, k => by
    have ih := block_syms l n c (k + 1)
    by_cases h : l = some k
    · have ih' : syms (block l n c (k + 1)) = [] := by
        rw [ih, if_neg]; rintro ⟨j, h1, h2, _⟩; rw [h] at h1; cases h1; omega
      have hs : syms (block l n (y :: c) k) = n :: syms (block l n c (k + 1)) := by
        simp only [block, syms]; rw [List.filterMap_cons_some (b := n) (by simp [h])]
      rw [hs, ih', if_pos ⟨k, h, by omega, by simp⟩]
    · have hs : syms (block l n (y :: c) k) = syms (block l n c (k + 1)) := by
        simp only [block, syms]; rw [List.filterMap_cons_none (by simp [h])]
      rw [hs, ih]
      by_cases h1 : ∃ j, l = some j ∧ k + 1 ≤ j ∧ j < k + 1 + c.length
      · obtain ⟨j, h2, h3, h4⟩ := h1
        rw [if_pos ⟨j, h2, h3, h4⟩, if_pos ⟨j, h2, by omega, by simp; omega⟩]
      · rw [if_neg h1, if_neg]
        rintro ⟨j, h2, h3, h4⟩
        refine h1 ⟨j, h2, ?_, by simp at h4; omega⟩
        rcases Nat.lt_or_ge k j with h5 | h5
        · omega
        · exact (h (by rw [h2]; congr 1; omega)).elim

theorem syms_append (a b : List AI) : syms (a ++ b) = syms a ++ syms b := List.filterMap_append ..

/-- The symbols are the labels of the expressions that have one. -/
theorem blocks_syms : ∀ (as : List OArg) (ns : List Nat), as.length = ns.length → (∀ a ∈ as, Labelled a) →
    (syms (blocks as ns)).Sublist ns ∧ ∀ (k : Nat) (a : OArg) (n j : Nat), as[k]? = some a → ns[k]? = some n → a.label = some j → n ∈ syms (blocks as ns)
  | [], [], _, _ => ⟨by simp [blocks, syms], fun k a n j h => by simp at h⟩
  | [], _ :: _, h, _ => by simp at h
  | _ :: _, [], h, _ => by simp at h
  | a :: as, n :: ns, h, hl => by
    obtain ⟨h1, h2⟩ := blocks_syms as ns (by simpa using h) fun a ha => hl a (List.mem_cons_of_mem _ ha)
    simp only [blocks, syms_append, block_syms]
    constructor
    · split
      · exact h1.cons_cons n
      · exact h1.cons n
    · intro k a' n' j ha hn hj
      cases k with
      | zero =>
        simp at ha hn; subst ha hn
        rw [if_pos ⟨j, hj, by omega, by have := (hl a (List.mem_cons_self ..)).2 j hj; omega⟩]
        simp
      | succ k =>
        exact List.mem_append.mpr (.inr (h2 k a' n' j (by simpa using ha) (by simpa using hn) hj))

theorem find_append (n : Nat) : ∀ (a b : List AI) (k : Nat), n ∉ syms a → find n (a ++ b) k = find n b (k + a.length)
  | [], _, _, _ => rfl
  | i :: a, b, k, h => by
    have h1 : i.sym ≠ some n := by
      intro e; apply h; unfold syms; rw [List.filterMap_cons_some e]; exact List.mem_cons_self ..
    have h2 : n ∉ syms a := by
      intro e; apply h; unfold syms at *
      cases hs : i.sym with
      | none => rw [List.filterMap_cons_none hs]; exact e
      | some m => rw [List.filterMap_cons_some hs]; exact List.mem_cons_of_mem _ e
    simp only [List.cons_append, find, if_neg h1, List.length_cons]
    rw [find_append n a b (k + 1) h2]
    congr 1; omega

theorem find_block (l n : Nat) (rest : List AI) : ∀ (c : List Arg.OI) (k p : Nat), k ≤ l → l < k + c.length →
    find n (block (some l) n c k ++ rest) p = some (p + (l - k))
  | [], k, p, h1, h2 => by simp at h2; omega
  | x :: c, k, p, h1, h2 => by
    unfold block
    by_cases h : l = k
    · subst h
      simp [find]
    · rw [List.cons_append, find, if_neg (by simp [h]), find_block l n rest c (k + 1) (p + 1) (by omega) (by simp at h2; omega)]
      congr 1; omega

theorem find_blocks : ∀ (as : List OArg) (ns : List Nat) (p : Nat) (rest : List AI), as.length = ns.length → (∀ a ∈ as, Labelled a) → ns.Nodup →
    ∀ (k : Nat) (a : OArg) (n j : Nat), as[k]? = some a → ns[k]? = some n → a.label = some j →
      find n (blocks as ns ++ rest) p = some (p + ((as.take k).map fun a => a.code.length).sum + j)
  | [], _, _, _, _, _, _, k, a, n, j, ha, _, _ => by simp at ha
  | _ :: _, [], _, _, h, _, _, _, _, _, _, _, _, _ => by simp at h
  | b :: as, m :: ns, p, rest, hlen, hl, hnd, k, a, n, j, ha, hn, hj => by
    have hd := List.nodup_cons.mp hnd
    simp only [blocks, List.append_assoc]
    cases k with
    | zero =>
      simp at ha hn; subst ha hn
      rw [hj]
      have := (hl b (List.mem_cons_self ..)).2 j hj
      rw [find_block j m _ b.code 0 p (by omega) (by omega)]
      simp
    | succ k =>
      have hn' : ns[k]? = some n := by simpa using hn
      have hne : n ≠ m := fun e => hd.1 (e ▸ List.mem_of_getElem? hn')
      have hns : n ∉ syms (block b.label m b.code 0) := by
        rw [block_syms]; split <;> simp [hne]
      rw [find_append n _ _ p hns, block_length,
        find_blocks as ns (p + b.code.length) rest (by simpa using hlen) (fun a ha => hl a (List.mem_cons_of_mem _ ha)) hd.2 k a n j (by simpa using ha) hn' hj]
      simp only [List.take_succ_cons, List.map_cons, List.sum_cons]
      congr 1; omega

theorem blocks_get : ∀ (as : List OArg) (ns : List Nat), as.length = ns.length → ∀ (k : Nat) (a : OArg) (n i : Nat) (x : Arg.OI), as[k]? = some a → ns[k]? = some n → a.code[i]? = some x →
    (blocks as ns)[((as.take k).map fun a => a.code.length).sum + i]? =
      some ⟨if a.label = some i then some n else none, if isExit x then some n else none⟩
  | [], _, _, k, a, n, i, x, ha, _, _ => by simp at ha
  | _ :: _, [], h, _, _, _, _, _, _, _, _ => by simp at h
  | b :: as, m :: ns, hlen, k, a, n, i, x, ha, hn, hx => by
    cases k with
    | zero =>
      simp at ha hn; subst ha hn
      have hi : i < b.code.length := (List.getElem?_eq_some_iff.mp hx).1
      simp only [blocks, List.take_zero, List.map_nil, List.sum_nil, Nat.zero_add]
      rw [List.getElem?_append_left (by rw [block_length]; exact hi), block_get _ _ _ _ _ _ hx]
      simp
    | succ k =>
      have ih := blocks_get as ns (by simpa using hlen) k a n i x (by simpa using ha) (by simpa using hn) hx
      simp only [blocks, List.take_succ_cons, List.map_cons, List.sum_cons]
      rw [List.getElem?_append_right (by rw [block_length]; omega), block_length, ← ih]
      congr 1; omega

theorem blocks_refs : ∀ (as : List OArg) (ns : List Nat), as.length = ns.length → ∀ z ∈ blocks as ns, ∀ n, z.ref = some n →
    ∃ (k : Nat) (a : OArg) (x : Arg.OI), as[k]? = some a ∧ ns[k]? = some n ∧ x ∈ a.code ∧ isExit x = true
  | [], _, _, z, hz, _, _ => by simp [blocks] at hz
  | a :: as, [], h, _, _, _, _ => by simp at h
  | a :: as, m :: ns, hlen, z, hz, n, hr => by
    simp only [blocks, List.mem_append] at hz
    rcases hz with hz | hz
    · obtain ⟨i, hi⟩ := List.mem_iff_getElem?.mp hz
      have hlt : i < a.code.length := by
        have := (List.getElem?_eq_some_iff.mp hi).1; rw [block_length] at this; exact this
      have hx : a.code[i]? = some a.code[i] := List.getElem?_eq_getElem hlt
      rw [block_get _ _ _ _ _ _ hx] at hi
      cases hi
      by_cases he : isExit a.code[i] = true
      · simp only [he, if_true, Option.some.injEq] at hr; subst hr
        exact ⟨0, a, a.code[i], rfl, rfl, List.getElem_mem hlt, he⟩
      · simp [he] at hr
    · obtain ⟨k, b, x, h1, h2, h3⟩ := blocks_refs as ns (by simpa using hlen) z hz n hr
      exact ⟨k + 1, b, x, by simpa using h1, by simpa using h2, h3⟩

theorem targets_get (all : List AI) : ∀ (c : List AI), (∀ z ∈ c, ∀ n, z.ref = some n → find n all 0 ≠ none) →
    ∃ ts, targets all c = some ts ∧ ts.length = c.length ∧ ∀ (i : Nat) (z : AI), c[i]? = some z → ts[i]? = some (z.ref.bind fun n => find n all 0)
  | [], _ => ⟨[], rfl, rfl, fun i z h => by simp at h⟩
  | y :: c, h => by
    obtain ⟨ts, h1, h2, h3⟩ := targets_get all c fun z hz => h z (List.mem_cons_of_mem _ hz)
    cases hr : y.ref with
    | none =>
      refine ⟨none :: ts, by simp [targets, hr, h1], by simp [h2], fun i z hz => ?_⟩
      cases i with
      | zero => simp at hz; subst hz; simp [hr]
      | succ i => simpa using h3 i z (by simpa using hz)
    | some n =>
      cases hf : find n all 0 with
      | none => exact (h y (List.mem_cons_self ..) n hr hf).elim
      | some t =>
        refine ⟨some t :: ts, by simp [targets, hr, h1, hf], by simp [h2], fun i z hz => ?_⟩
        cases i with
        | zero => simp at hz; subst hz; simp [hr, hf]
        | succ i => simpa using h3 i z (by simpa using hz)

/-- **C52.** With different labels the program is assembled and each jump leads to the label of its own expression. -/
theorem assembled {as : List OArg} {ns : List Nat} (hlen : as.length = ns.length) (hl : ∀ a ∈ as, Labelled a) (hn : ns.Nodup) : Right as ns := by
  obtain ⟨hsub, _⟩ := blocks_syms as ns hlen hl
  have hsy : syms (program as ns) = syms (blocks as ns) := by simp [program, syms]
  have hfind : ∀ (k : Nat) (a : OArg) (n j : Nat), as[k]? = some a → ns[k]? = some n → a.label = some j → find n (program as ns) 0 = some (begins as k + j) := by
    intro k a n j h1 h2 h3
    have := find_blocks as ns 2 [⟨none, none⟩] hlen hl hn k a n j h1 h2 h3
    simpa [program, find, begins] using this
  obtain ⟨ts, h1, h2, h3⟩ := targets_get (program as ns) (program as ns) (by
    intro z hz n hr
    have hz' : z ∈ blocks as ns := by
      simp only [program, List.mem_append, List.mem_cons, List.not_mem_nil, or_false] at hz
      rcases hz with ((rfl | rfl) | hz) | rfl
      · cases hr
      · cases hr
      · exact hz
      · cases hr
    obtain ⟨k, a, x, ha, hk, hx, he⟩ := blocks_refs as ns hlen z hz' n hr
    cases hj : a.label with
    | none => exact ((hl a (List.mem_of_getElem? ha)).1 x hx he hj).elim
    | some j => rw [hfind k a n j ha hk hj]; nofun)
  refine ⟨ts, ?_, h2, fun k a i x ha hx => ?_⟩
  · unfold assemble
    rw [if_pos (by rw [hsy]; exact hsub.nodup hn), h1]
  · have hk : k < ns.length := by have := (List.getElem?_eq_some_iff.mp ha).1; omega
    have hnk : ns[k]? = some ns[k] := List.getElem?_eq_getElem hk
    have hb := blocks_get as ns hlen k a ns[k] i x ha hnk hx
    have hp : (program as ns)[begins as k + i]? = some ⟨if a.label = some i then some ns[k] else none, if isExit x then some ns[k] else none⟩ := by
      have hlt := (List.getElem?_eq_some_iff.mp hb).1
      simp only [program, begins, List.append_assoc]
      have hlt2 : (as.take k |>.map fun a => a.code.length).sum + i < (blocks as ns).length := hlt
      generalize (as.take k |>.map fun a => a.code.length).sum = q at hlt2 hb ⊢
      rw [List.getElem?_append_right (by simp only [List.length_cons, List.length_nil]; omega),
        List.getElem?_append_left (by simp only [List.length_cons, List.length_nil]; omega), ← hb]
      congr 1; simp only [List.length_cons, List.length_nil]; omega
    rw [h3 _ _ hp]
    by_cases he : isExit x = true
    · simp only [he, if_true, Option.bind_some]
      cases hj : a.label with
      | none => exact ((hl a (List.mem_of_getElem? ha)).1 x (List.mem_of_getElem? hx) he hj).elim
      | some j => rw [hfind k a _ j ha hnk hj]; rfl
    · simp [he]

/-- **C52.** Two labels of the same name: the program is refused. -/
theorem refused {as : List OArg} {ns : List Nat} (hlen : as.length = ns.length) (hl : ∀ a ∈ as, Labelled a) {i j : Nat} {a b : OArg} {n p q : Nat}
    (hij : i < j) (ha : as[i]? = some a) (hb : as[j]? = some b) (hi : ns[i]? = some n) (hj : ns[j]? = some n) (hp : a.label = some p)
    (hq : b.label = some q) : assemble (program as ns) = none := by
  have key : ∀ (as : List OArg) (ns : List Nat) (i j : Nat), as.length = ns.length → (∀ a ∈ as, Labelled a) → i < j → as[i]? = some a → as[j]? = some b →
      ns[i]? = some n → ns[j]? = some n → ¬ (syms (blocks as ns)).Nodup := by
    intro as
    induction as with
    | nil => intro ns i j _ _ _ h; simp at h
    | cons c as ih =>
      intro ns i j hlen hl hij ha hb hi hj
      cases ns with
      | nil => simp at hlen
      | cons m ns =>
        simp only [blocks, syms_append, block_syms]
        intro hnd
        obtain ⟨_, h2, h3⟩ := List.nodup_append.mp hnd
        cases j with
        | zero => omega
        | succ j =>
          cases i with
          | zero =>
            simp at ha hi; subst ha hi
            have hm := (blocks_syms as ns (by simpa using hlen) fun a ha => hl a (List.mem_cons_of_mem _ ha)).2 j b m q (by simpa using hb) (by simpa using hj) hq
            refine h3 m ?_ m hm rfl
            rw [if_pos ⟨p, hp, by omega, by have := (hl c (List.mem_cons_self ..)).2 p hp; omega⟩]
            simp
          | succ i =>
            exact ih ns i j (by simpa using hlen) (fun a ha => hl a (List.mem_cons_of_mem _ ha)) (by omega) (by simpa using ha) (by simpa using hb)
              (by simpa using hi) (by simpa using hj) h2
  have hsy : syms (program as ns) = syms (blocks as ns) := by simp [program, syms]
  unfold assemble
  rw [if_neg (by rw [hsy]; exact key as ns i j hlen hl hij ha hb hi hj)]

/-! ### Compiled expressions -/

theorem isExit_cc {x : Arg.OI} (h : isExit x = true) : ∃ d, x = .cc (.jexit d) := by
  unfold isExit at h
  split at h
  · exact ⟨_, rfl⟩
  · cases h

/-- An expression that was accepted has the label its code jumps to. -/
theorem labelled_of_compile {o : Cc.Opts} {nelems : Cc.Ty → Nat} {us : List Nat} {force : Bool} {x : Cc.Top} {r : Cc.TopRes}
    (h : Cc.compileTop o nelems us force x = .ok r) {q : Arg.TyQ} {off off' : BitVec 64} {a : OArg}
    (ha : Arg.compileArg q r off = .ok (off', a)) : Labelled a := by
  obtain ⟨e, _, _, hc, -, -⟩ := Cc.compileTop_inv h
  unfold Arg.compileArg at ha
  split at ha
  · cases ha
  · rename_i size _
    split at ha
    · cases ha
    · rename_i g hg
      cases ha
      have htail : ∀ x ∈ Arg.genTail g.label (off + g.used), isExit x = false := by
        intro x hx
        unfold Arg.genTail at hx
        split at hx <;> simp at hx
        · rcases hx with rfl | rfl | rfl | rfl <;> rfl
        · rcases hx with rfl | rfl <;> rfl
      have hr3 : ∀ n, ∀ x ∈ Arg.toR3 n, isExit x = false := by
        intro n x hx
        unfold Arg.toR3 at hx
        split at hx <;> simp at hx
        subst hx; rfl
      have hh : ∀ a b, ∀ x ∈ Arg.helperArgs a b, isExit x = false := by
        intro a b x hx
        unfold Arg.helperArgs at hx
        split at hx <;> simp at hx
        · rcases hx with rfl | rfl | rfl <;> rfl
        · rcases hx with rfl | rfl <;> rfl
      have hcode : g.label = false → (∀ x ∈ g.code, isExit x = false) ∧ r.code.labelUsed = false := by
        intro hl
        unfold Arg.genValue at hg
        split at hg
        · cases hg; cases hl
        all_goals first
          | (cases hg; cases hl; done)
          | (split at hg
             · cases hg
               simp only [Bool.or_eq_false_iff, Bool.not_eq_false'] at hl
               refine ⟨fun x hx => ?_, hl.1⟩
               simp only [Arg.genArgStr, hl.2, if_true, List.nil_append, List.mem_append, List.mem_cons, List.not_mem_nil, or_false] at hx
               rcases hx with (hx | hx) | rfl
               · exact hr3 _ x hx
               · exact hh _ _ x hx
               · rfl
             · split at hg
               · cases hg
               · cases hg
                 refine ⟨fun x hx => ?_, hl⟩
                 simp only [Arg.genNum, List.mem_cons] at hx
                 rcases hx with rfl | hx
                 · rfl
                 · split at hx
                   · rcases List.mem_append.mp hx with hx | hx
                     · exact hr3 _ x hx
                     · simp at hx
                       rcases hx with rfl | rfl | rfl | rfl | rfl | rfl | rfl <;> rfl
                   · cases hx)
      refine ⟨fun x hx he => ?_, fun k hk => ?_⟩
      · simp only at hx ⊢
        cases hl : g.label with
        | true => simp
        | false =>
          obtain ⟨h1, h2⟩ := hcode hl
          rcases List.mem_append.mp hx with hx | hx
          · rcases List.mem_append.mp hx with hx | hx
            · obtain ⟨d, rfl⟩ := isExit_cc he
              obtain ⟨y, hy, hxy⟩ := List.mem_map.mp hx
              cases hxy
              rw [Cc.label_noted hc hy] at h2; cases h2
            · rw [h1 x hx] at he; cases he
          · rw [htail x hx] at he; cases he
      · simp only at hk ⊢
        cases hl : g.label with
        | false => rw [hl] at hk; cases hk
        | true =>
          rw [hl] at hk
          simp only [if_true, Option.some.injEq] at hk
          simp only [Arg.genTail, if_true, List.length_append, List.length_cons, List.length_nil] at hk ⊢
          omega

theorem labelled_all {o : Cc.Opts} {nelems : Cc.Ty → Nat} {us : List Nat} {force : Bool} {q : Arg.TyQ} :
    ∀ {rs : List Cc.TopRes} {off tot : BitVec 64} {as : List OArg}, (∀ r ∈ rs, ∃ x, Cc.compileTop o nelems us force x = .ok r) →
      Arg.compileArgs q rs off = .ok (tot, as) → (∀ a ∈ as, Labelled a) ∧ as.length = rs.length
  | [], _, _, _, _, h => by cases h; exact ⟨nofun, rfl⟩
  | r :: rs, off, tot, as, hr, h => by
    unfold Arg.compileArgs at h
    split at h
    · cases h
    · rename_i off' a ha
      split at h
      · cases h
      · rename_i tot' as' hs
        cases h
        obtain ⟨x, hx⟩ := hr r (List.mem_cons_self ..)
        obtain ⟨h1, h2⟩ := labelled_all (fun r hr' => hr r (List.mem_cons_of_mem _ hr')) hs
        refine ⟨fun b hb => ?_, by simp [h2]⟩
        rcases List.mem_cons.mp hb with rfl | hb
        · exact labelled_of_compile hx ha
        · exact h1 b hb

/-- **C52, partial.** Any number of programs prepared at the same time, each with any accepted expressions, in any order in which the calls of
`genExitLabel` do not overlap: when program `i` has all its labels, it can be assembled, and every jump that leaves the code of an expression
leads to the label of that expression. (Missing: calls that overlap; see `race_violated`.) -/
theorem labels_right_partial {n : Nat → Nat} {is : List Nat} (hs : Serial (start n) is) {i : Nat}
    {o : Cc.Opts} {nelems : Cc.Ty → Nat} {us : List Nat} {force : Bool} {q : Arg.TyQ} {rs : List Cc.TopRes} {off tot : BitVec 64} {as : List OArg}
    (hr : ∀ r ∈ rs, ∃ x, Cc.compileTop o nelems us force x = .ok r) (ha : Arg.compileArgs q rs off = .ok (tot, as)) (hn : n i = rs.length)
    (hd : (((start n).run is).gs i).left = 0) : Right as (((start n).run is).gs i).got := by
  obtain ⟨h1, h2⟩ := labelled_all hr ha
  exact assembled (by rw [labels_all n is i hd, h2, hn]) h1 (labels_differ n is hs i)

/-- **C52.** The same for one program, or for programs with one expression each, whatever the schedule. -/
theorem labels_right_single {n : Nat → Nat} {is : List Nat} {i : Nat} (hq : (∀ j, j ≠ i → n j = 0) ∨ ∀ j, n j ≤ 1)
    {o : Cc.Opts} {nelems : Cc.Ty → Nat} {us : List Nat} {force : Bool} {q : Arg.TyQ} {rs : List Cc.TopRes} {off tot : BitVec 64} {as : List OArg}
    (hr : ∀ r ∈ rs, ∃ x, Cc.compileTop o nelems us force x = .ok r) (ha : Arg.compileArgs q rs off = .ok (tot, as)) (hn : n i = rs.length)
    (hd : (((start n).run is).gs i).left = 0) : Right as (((start n).run is).gs i).got := by
  obtain ⟨h1, h2⟩ := labelled_all hr ha
  refine assembled (by rw [labels_all n is i hd, h2, hn]) h1 ?_
  rcases hq with hq | hq
  · exact one_program n i hq is i
  · exact one_expression n hq is i

/-- **C52.** Without the hypothesis on the schedule: a program all whose labels are its own is assembled; one with a label twice, at two
expressions that use their labels, is refused. -/
theorem refused_if {n : Nat → Nat} {is : List Nat} {i : Nat}
    {o : Cc.Opts} {nelems : Cc.Ty → Nat} {us : List Nat} {force : Bool} {q : Arg.TyQ} {rs : List Cc.TopRes} {off tot : BitVec 64} {as : List OArg}
    (hr : ∀ r ∈ rs, ∃ x, Cc.compileTop o nelems us force x = .ok r) (ha : Arg.compileArgs q rs off = .ok (tot, as)) (hn : n i = rs.length)
    (hd : (((start n).run is).gs i).left = 0) (hu : ∀ a ∈ as, a.label ≠ none) :
    Right as (((start n).run is).gs i).got ↔ (((start n).run is).gs i).got.Nodup := by
  obtain ⟨h1, h2⟩ := labelled_all hr ha
  have hlen : as.length = (((start n).run is).gs i).got.length := by rw [labels_all n is i hd, h2, hn]
  refine ⟨fun hR => ?_, assembled hlen h1⟩
  generalize (((start n).run is).gs i).got = ns at hR hlen ⊢
  refine List.pairwise_iff_getElem.mpr fun a b hal hbl hab he => ?_
  obtain ⟨ts, ht, -⟩ := hR
  have hA : as[a]? = some (as[a]'(by omega)) := List.getElem?_eq_getElem (by omega)
  have hB : as[b]? = some (as[b]'(by omega)) := List.getElem?_eq_getElem (by omega)
  cases hp : (as[a]'(by omega)).label with
  | none => exact hu _ (List.getElem_mem _) hp
  | some p =>
    cases hq : (as[b]'(by omega)).label with
    | none => exact hu _ (List.getElem_mem _) hq
    | some q =>
      rw [refused hlen h1 hab hA hB (List.getElem?_eq_getElem hal) (by rw [List.getElem?_eq_getElem hbl, he]) hp hq] at ht
      cases ht

/-! ### Witnesses -/

/-- Two programs with three expressions. -/
def two : Nat → Nat := fun i => if i < 2 then 3 else 0

/-- Three programs with two expressions. -/
def three : Nat → Nat := fun i => if i < 3 then 2 else 0

/-- Program 1 is interrupted between reading and writing the counter, while program 0 gets two labels. -/
def overlap : List Nat := [1, 1, 0, 0, 0, 0, 0, 0, 1, 0, 0, 0]

/-- One after the other, the programs in turn. -/
def turns : List Nat := [0, 0, 0, 1, 1, 1, 0, 0, 0, 1, 1, 1, 1, 1, 1, 0, 0, 0]


/-- `skb->dev->ifindex`, `buf(skb->dev, 4, 16)` and `-skb->dev->ifindex` are accepted; each uses its label. -/
theorem expressions : ∃ r1 r2 r3 as,
    Cc.compileTop (Cc.exOpts .direct) (fun _ => 1) [8, 9] false (.plain (.arrow (.arrow (.name "skb") "dev") "ifindex")) = .ok r1 ∧
    Cc.compileTop (Cc.exOpts .direct) (fun _ => 1) [8, 9] false (.call (some "buf") [.arrow (.name "skb") "dev", .num ['4'], .num ['1', '6']]) = .ok r2 ∧
    Cc.compileTop (Cc.exOpts .direct) (fun _ => 1) [8, 9] false (.plain (.un .minus (.arrow (.arrow (.name "skb") "dev") "ifindex"))) = .ok r3 ∧
    Arg.compileArgs Arg.exQ [r1, r2, r3] 0 = .ok (35, as) ∧ (∀ a ∈ as, a.label ≠ none) := by
  refine ⟨_, _, _, _, rfl, rfl, rfl, rfl, ?_⟩
  intro a ha
  simp only [List.mem_cons, List.not_mem_nil, or_false] at ha
  rcases ha with rfl | rfl | rfl <;> decide

/-- **C52 violated.** Two functions are traced with the three expressions `skb->dev->ifindex`, `buf(skb->dev, 4, 16)` and `-skb->dev->ifindex`. If the goroutine of the
second is interrupted in `labelCnt++` while that of the first gets two labels, the first program gets the labels 0, 1, 1 and is refused; in turns, both are
assembled. -/
theorem race_violated : ∃ as, (∃ r1 r2 r3,
      Cc.compileTop (Cc.exOpts .direct) (fun _ => 1) [8, 9] false (.plain (.arrow (.arrow (.name "skb") "dev") "ifindex")) = .ok r1 ∧
      Cc.compileTop (Cc.exOpts .direct) (fun _ => 1) [8, 9] false (.call (some "buf") [.arrow (.name "skb") "dev", .num ['4'], .num ['1', '6']]) = .ok r2 ∧
      Cc.compileTop (Cc.exOpts .direct) (fun _ => 1) [8, 9] false (.plain (.un .minus (.arrow (.arrow (.name "skb") "dev") "ifindex"))) = .ok r3 ∧
      Arg.compileArgs Arg.exQ [r1, r2, r3] 0 = .ok (35, as)) ∧
    (((start two).run overlap).gs 0).got = [0, 1, 1] ∧ (((start two).run overlap).gs 0).left = 0 ∧
    assemble (program as (((start two).run overlap).gs 0).got) = none ∧ ¬ Right as (((start two).run overlap).gs 0).got ∧
    Right as (((start two).run turns).gs 0).got ∧ Right as (((start two).run turns).gs 1).got := by
  obtain ⟨r1, r2, r3, as, h1, h2, h3, ha, hu⟩ := expressions
  have hr : ∀ r ∈ [r1, r2, r3], ∃ x, Cc.compileTop (Cc.exOpts .direct) (fun _ => 1) [8, 9] false x = .ok r := by
    intro r hr
    simp only [List.mem_cons, List.not_mem_nil, or_false] at hr
    rcases hr with rfl | rfl | rfl
    · exact ⟨_, h1⟩
    · exact ⟨_, h2⟩
    · exact ⟨_, h3⟩
  obtain ⟨hl, hlen⟩ := labelled_all hr ha
  have hg : (((start two).run overlap).gs 0).got = [0, 1, 1] := by decide
  have hnone : assemble (program as [0, 1, 1]) = none := by
    have hlen' : as.length = 3 := hlen
    have hA : as[1]? = some (as[1]'(by omega)) := List.getElem?_eq_getElem (by omega)
    have hB : as[2]? = some (as[2]'(by omega)) := List.getElem?_eq_getElem (by omega)
    cases hp : (as[1]'(by omega)).label with
    | none => exact (hu _ (List.getElem_mem _) hp).elim
    | some p =>
      cases hq : (as[2]'(by omega)).label with
      | none => exact (hu _ (List.getElem_mem _) hq).elim
      | some q => exact refused (ns := [0, 1, 1]) hlen hl (by decide : 1 < 2) hA hB rfl rfl hp hq
  refine ⟨as, ⟨r1, r2, r3, h1, h2, h3, ha⟩, hg, by decide, by rw [hg]; exact hnone, ?_, ?_, ?_⟩
  · rintro ⟨ts, ht, -⟩
    rw [hg, hnone] at ht; cases ht
  · exact (refused_if hr ha (by rfl) (by decide) hu).mpr (by decide)
  · exact (refused_if hr ha (by rfl) (by decide) hu).mpr (by decide)

/-- **C52 violated.** Two expressions are enough if three functions are traced: here program 0 gets the label 1 twice. -/
theorem race_two_violated : (((start three).run [1, 1, 2, 2, 1, 0, 0, 0, 2, 0, 0, 0]).gs 0).left = 0 ∧
    (((start three).run [1, 1, 2, 2, 1, 0, 0, 0, 2, 0, 0, 0]).gs 0).got = [1, 1] := by decide

/-- The schedule of `labels_right_partial` exists with two programs both of which need three labels. -/
theorem turns_serial : Serial (start two) turns ∧ (((start two).run turns).gs 0).got = [0, 2, 5] ∧ (((start two).run turns).gs 1).got = [1, 3, 4] := by
  refine ⟨?_, by decide, by decide⟩
  have ha : ∀ {w : World}, (∀ j, 2 ≤ j → (w.gs j).pc = .out) → ((w.gs 0).pc = .out ∨ (w.gs 1).pc = .out) → Alone w := by
    intro w h1 h2 i j hi hj
    have hi2 : i < 2 := Classical.byContradiction fun h => hi (h1 i (by omega))
    have hj2 : j < 2 := Classical.byContradiction fun h => hj (h1 j (by omega))
    match i, j, hi2, hj2 with
    | 0, 0, _, _ => rfl
    | 1, 1, _, _ => rfl
    | 0, 1, _, _ => rcases h2 with h | h; exact (hi h).elim; exact (hj h).elim
    | 1, 0, _, _ => rcases h2 with h | h; exact (hj h).elim; exact (hi h).elim
  have key : ∀ (is : List Nat) (w : World), (∀ j, 2 ≤ j → (w.gs j).pc = .out) → (∀ i ∈ is, i < 2) →
      (∀ k ≤ is.length, ((w.run (is.take k)).gs 0).pc = .out ∨ ((w.run (is.take k)).gs 1).pc = .out) → Serial w is := by
    intro is
    induction is with
    | nil => intro w h1 _ h3; exact ha h1 (h3 0 (by simp))
    | cons i is ih =>
      intro w h1 h2 h3
      refine ⟨ha h1 (h3 0 (by simp)), ih _ (fun j hj => ?_) (fun i hi => h2 i (List.mem_cons_of_mem _ hi)) fun k hk => ?_⟩
      · have := h2 i (List.mem_cons_self ..)
        simp only [World.step, if_neg (show j ≠ i by omega)]; exact h1 j hj
      · have := h3 (k + 1) (by simp; omega)
        simpa [World.run] using this
  refine key turns _ (fun _ _ => rfl) (by decide) ?_
  decide

end Bpfsnoop.Lbl
