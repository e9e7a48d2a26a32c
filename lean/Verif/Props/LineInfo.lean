import Verif.Model.LineInfo
import Verif.Props.Kallsyms

/-! C57 (naming an address) and C58 (loading the table of BPF functions). -/
namespace Bpfsnoop.Li
open Kallsyms (Entry Tables lookup put lookup_put)

/-! ### Binary search -/

theorem search_spec (l : List Nat) (x : Nat) (hs : l.Pairwise (· ≤ ·)) (i j : Nat) (hij : i ≤ j) (hj : j ≤ l.length)
    (hlo : ∀ k < i, ∀ y, l[k]? = some y → y < x) (hhi : ∀ k ≥ j, ∀ y, l[k]? = some y → x ≤ y) :
    i ≤ search l x i j ∧ search l x i j ≤ j ∧ (∀ k < search l x i j, ∀ y, l[k]? = some y → y < x) ∧
      ∀ k ≥ search l x i j, ∀ y, l[k]? = some y → x ≤ y := by
  fun_induction search l x i j with
  | case1 i j h hm =>
    have : (i + j) / 2 < l.length := by omega
    rw [List.getElem?_eq_getElem this] at hm; simp at hm
  | case2 i j h y hy hlt ih =>
    obtain ⟨h1, h2, h3, h4⟩ := ih (by omega) hj (by
      intro k hk z hz
      have := Kallsyms.sorted_get hs (show k ≤ (i + j) / 2 by omega) hz hy
      omega) hhi
    exact ⟨by omega, h2, h3, h4⟩
  | case3 i j h y hy hge ih =>
    obtain ⟨h1, h2, h3, h4⟩ := ih (by omega) (by omega) hlo (by
      intro k hk z hz
      have := Kallsyms.sorted_get hs (show (i + j) / 2 ≤ k by omega) hy hz
      omega)
    exact ⟨h1, by omega, h3, h4⟩
  | case4 i j h =>
    have : i = j := by omega
    subst this
    exact ⟨Nat.le_refl _, Nat.le_refl _, hlo, hhi⟩

/-! ### Specification -/

/-- The line records of a function are in the order of their addresses. -/
def Ordered (ls : List (Nat × Src)) : Prop := (ls.map Prod.fst).Pairwise (· < ·)

/-- Record number `k` is the one whose code an address belongs to: the last at or before it. -/
def Covers (ls : List (Nat × Src)) (addr k : Nat) (s : Src) : Prop :=
  ∃ a, ls[k]? = some (a, s) ∧ a ≤ addr ∧ ∀ k' > k, ∀ a' s', ls[k']? = some (a', s') → addr < a'

/-- The code of a function contains an address. -/
def PFunc.Has (f : PFunc) (addr : Nat) : Prop := f.start ≤ addr ∧ addr < f.stop

theorem get_miss (f : PFunc) (addr : Nat) : f.get addr = .miss ↔ ¬ f.Has addr := by
  unfold PFunc.get PFunc.Has
  constructor
  · intro h
    split at h
    · assumption
    · revert h
      simp only
      split <;> simp
  · intro h
    rw [if_pos h]

theorem map_fst (ls : List (Nat × Src)) (k : Nat) (a : Nat) :
    (ls.map Prod.fst)[k]? = some a ↔ ∃ s, ls[k]? = some (a, s) := by
  rw [List.getElem?_map]
  cases ls[k]? with
  | none => simp
  | some p => obtain ⟨b, s⟩ := p; simp

/-- An address within a BPF function is shown with the function, its start and the source line its code belongs to. -/
theorem get_line {f : PFunc} {addr k : Nat} {s : Src} (hf : f.Has addr) (ho : Ordered f.lines) (hc : Covers f.lines addr k s) :
    f.get addr = .hit ⟨f.name, f.start, trimFile s.file, s.line⟩ := by
  obtain ⟨a, hk, ha, hl⟩ := hc
  have hs : (f.lines.map Prod.fst).Pairwise (· ≤ ·) := List.Pairwise.imp (fun h => Nat.le_of_lt h) ho
  obtain ⟨_, h2, h3, h4⟩ := search_spec _ addr hs 0 (f.lines.map Prod.fst).length (Nat.zero_le _) (Nat.le_refl _)
    (by omega) (fun k hk y hy => by have := Kallsyms.lt_of_get hy; omega)
  have hka : (f.lines.map Prod.fst)[k]? = some a := (map_fst _ _ _).mpr ⟨s, hk⟩
  unfold PFunc.get
  rw [if_neg (show ¬ ¬ (f.start ≤ addr ∧ addr < f.stop) from fun h => h hf)]
  simp only
  generalize search (f.lines.map Prod.fst) addr 0 (f.lines.map Prod.fst).length = i at h2 h3 h4
  have hidx : (if (f.lines.map Prod.fst)[i]? = some addr then some i else if i = 0 then none else some (i - 1)) = some k := by
    by_cases he : a = addr
    · subst he
      have hik : i = k := by
        rcases Nat.lt_trichotomy i k with h | h | h
        · have hi : i < (f.lines.map Prod.fst).length := by have := Kallsyms.lt_of_get hka; omega
          have h5 := h4 i (Nat.le_refl _) _ (List.getElem?_eq_getElem hi)
          have h6 := (List.pairwise_iff_getElem.mp ho) i k hi (Kallsyms.lt_of_get hka) h
          rw [List.getElem?_eq_getElem (Kallsyms.lt_of_get hka)] at hka
          simp only [Option.some.injEq] at hka
          omega
        · exact h
        · have := h3 k h a hka
          omega
      rw [hik, if_pos hka]
    · have hki : k < i := by
        rcases Nat.lt_or_ge k i with h | h
        · exact h
        · have := h4 k h a hka
          omega
      have hik : i = k + 1 := by
        rcases Nat.lt_or_ge (k + 1) i with h | h
        · have hlt : k + 1 < (f.lines.map Prod.fst).length := by omega
          have hy := List.getElem?_eq_getElem hlt
          obtain ⟨s', hs'⟩ := (map_fst _ _ _).mp hy
          have := hl (k + 1) (by omega) _ _ hs'
          have := h3 (k + 1) h _ hy
          omega
        · omega
      have hne : (f.lines.map Prod.fst)[i]? ≠ some addr := by
        intro h
        obtain ⟨s', hs'⟩ := (map_fst _ _ _).mp h
        have := hl i (by omega) _ _ hs'
        omega
      rw [if_neg hne, if_neg (by omega), hik]
      simp
  rw [hidx]
  simp [hk]

/-- **C57 violated**: an address of a function before all its line records, or in a function without line records,
crashes bpfsnoop; nothing else does. -/
theorem get_panics_iff_violated {f : PFunc} {addr : Nat} (hs : (f.lines.map Prod.fst).Pairwise (· ≤ ·)) :
    f.get addr = .panic ↔ f.Has addr ∧ ∀ l ∈ f.lines, addr < l.1 := by
  obtain ⟨_, h2, h3, h4⟩ := search_spec _ addr hs 0 (f.lines.map Prod.fst).length (Nat.zero_le _) (Nat.le_refl _)
    (by omega) (fun k hk y hy => by have := Kallsyms.lt_of_get hy; omega)
  unfold PFunc.get PFunc.Has
  by_cases hf : f.start ≤ addr ∧ addr < f.stop
  · rw [if_neg (show ¬ ¬ (f.start ≤ addr ∧ addr < f.stop) from fun h => h hf)]
    simp only
    generalize search (f.lines.map Prod.fst) addr 0 (f.lines.map Prod.fst).length = i at h2 h3 h4
    simp only [hf, and_self, true_and]
    constructor
    · intro h
      by_cases hi : (f.lines.map Prod.fst)[i]? = some addr
      · rw [if_pos hi] at h
        obtain ⟨s, hs'⟩ := (map_fst _ _ _).mp hi
        simp [hs'] at h
      · rw [if_neg hi] at h
        by_cases h0 : i = 0
        · intro l hl
          obtain ⟨k, hk⟩ := List.mem_iff_getElem?.mp hl
          have hk' : (f.lines.map Prod.fst)[k]? = some l.1 := (map_fst _ _ _).mpr ⟨l.2, hk⟩
          have h5 := h4 k (by omega) _ hk'
          rcases Nat.lt_or_ge addr l.1 with h6 | h6
          · exact h6
          · have he : l.1 = addr := by omega
            rw [he] at hk'
            exfalso
            apply hi
            have h7 : (f.lines.map Prod.fst)[0]? = some ((f.lines.map Prod.fst)[0]'(by have := Kallsyms.lt_of_get hk'; omega)) :=
              List.getElem?_eq_getElem _
            have h8 := Kallsyms.sorted_get hs (Nat.zero_le k) h7 hk'
            have h9 := h4 0 (by omega) _ h7
            rw [h0, h7]
            congr 1
            omega
        · rw [if_neg h0] at h
          have hlt : i - 1 < f.lines.length := by simp only [List.length_map] at h2; omega
          simp [List.getElem?_eq_getElem hlt] at h
    · intro h
      have hi : (f.lines.map Prod.fst)[i]? ≠ some addr := by
        intro hi
        obtain ⟨s, hs'⟩ := (map_fst _ _ _).mp hi
        have := h _ (List.mem_of_getElem? hs')
        simp at this
      have h0 : i = 0 := by
        rcases Nat.eq_zero_or_pos i with h0 | h0
        · exact h0
        · have hlt : 0 < (f.lines.map Prod.fst).length := by omega
          have hy := List.getElem?_eq_getElem hlt
          obtain ⟨s, hs'⟩ := (map_fst _ _ _).mp hy
          have h5 := h3 0 h0 _ hy
          have := h _ (List.mem_of_getElem? hs')
          simp only at this
          omega
      rw [if_neg hi, if_pos h0]
      simp
  · rw [if_pos hf]
    simp [hf]

/-- **C57 violated**: where a BPF instruction produces no machine code, two records have the same address. An address
inside the code is shown with the second line, its first byte with the first. -/
theorem shared_address_violated : ∃ (f : PFunc) (a : Nat) (s₁ s₂ : Src), s₁ ≠ s₂ ∧ f.lines = [(a, s₁), (a, s₂)] ∧
    f.get a = .hit ⟨f.name, f.start, s₁.file, s₁.line⟩ ∧ f.get (a + 1) = .hit ⟨f.name, f.start, s₂.file, s₂.line⟩ := by
  refine ⟨⟨100, 120, "f", [(100, ⟨['a'], 1⟩), (100, ⟨['a'], 2⟩)], none⟩, 100, ⟨['a'], 1⟩, ⟨['a'], 2⟩, by decide, rfl, ?_, ?_⟩ <;> decide +kernel

/-- File names that do not start with a dot are shown as they are. -/
theorem trimFile_plain (f : Str) (h : f.head? ≠ some '.') : trimFile f = f := by simp [trimFile, h]

/-- `./` and `../` at the start of a path are removed if a component that starts with neither a dot nor a slash follows. -/
theorem trimFile_rel (ups : List Str) (hu : ∀ u ∈ ups, u = "./".toList ∨ u = "../".toList) (c : Char) (r : Str) (hc : c ≠ '.' ∧ c ≠ '/') :
    trimFile (ups.flatten ++ c :: r) = c :: r := by
  have hd : ∀ us : List Str, (∀ u ∈ us, u = "./".toList ∨ u = "../".toList) →
      (us.flatten ++ c :: r).dropWhile (fun c => c = '.' || c = '/') = c :: r := by
    intro us
    induction us with
    | nil => intro _; simp [hc]
    | cons u us ih =>
      intro h
      have := ih fun u hu => h u (by simp [hu])
      rcases h u (by simp) with rfl | rfl
      · show (('.' :: '/' :: us.flatten) ++ c :: r).dropWhile _ = _
        simpa using this
      · show (('.' :: '.' :: '/' :: us.flatten) ++ c :: r).dropWhile _ = _
        simpa using this
  unfold trimFile
  split
  · exact hd ups hu
  · rename_i h
    cases ups with
    | nil => rfl
    | cons u us =>
      exfalso
      apply h
      rcases hu u (by simp) with rfl | rfl <;> rfl

/-- **C57 violated**: a directory whose name starts with a dot loses it: the path shown does not exist. -/
theorem hidden_directory_violated : trimFile ".build/prog.c".toList = "build/prog.c".toList := by decide +kernel

/-! ### Programs -/

/-- Specification of the function number `i` of a program: its address range, name and the line records within it. -/
structure FuncOf (p : PInfo) (i : Nat) (f : PFunc) : Prop where
  name : p.names[i]? = some f.name
  start : p.ksyms[i]? = some f.start
  stop : ∃ len, p.lens[i]? = some len ∧ f.stop = f.start + len
  lines : f.lines = (p.jlines.zip p.lines).filter (fun l => f.start ≤ l.1 && l.1 < f.stop)
  flag : f.flag = none

/-- The numbers of functions, addresses, lengths and lines agree. -/
def Counts (p : PInfo) : Prop :=
  p.names.length = p.lens.length ∧ p.ksyms.length = p.lens.length ∧ p.jlines.length = p.lines.length

theorem split_spec (jl : List (Nat × Src)) : ∀ (fs : List (String × Nat × Nat)) (left : Nat),
    ((fs.map fun x => x.2.2).sum ≤ left → splitFuncs jl fs left =
      .ok (fs.map fun x => ⟨x.2.1, x.2.1 + x.2.2, x.1, jl.filter (fun l => x.2.1 ≤ l.1 && l.1 < x.2.1 + x.2.2), none⟩)) ∧
    (left < (fs.map fun x => x.2.2).sum → splitFuncs jl fs left = .panic)
  | [], left => by simp [splitFuncs]
  | (n, a, len) :: fs, left => by
    have ih := split_spec jl fs (left - len)
    simp only [List.map_cons, List.sum_cons]
    constructor
    · intro h
      rw [splitFuncs, if_neg (by omega), ih.1 (by omega)]
    · intro h
      rw [splitFuncs]
      by_cases hl : left < len
      · rw [if_pos hl]
      · rw [if_neg hl, ih.2 (by omega)]

theorem sum_zip {α β : Type} (as : List α) (bs : List β) (cs : List Nat) (h : as.length = cs.length) (h' : bs.length = cs.length) :
    ((as.zip (bs.zip cs)).map fun x => x.2.2).sum = cs.sum := by
  congr 1
  apply List.ext_getElem?
  intro i
  simp only [List.getElem?_map, List.getElem?_zip_eq_some, List.zip, List.getElem?_zipWith]
  cases hc : cs[i]? with
  | none =>
    have hi : cs.length ≤ i := List.getElem?_eq_none_iff.mp hc
    have : as[i]? = none := List.getElem?_eq_none_iff.mpr (by omega)
    simp [this]
  | some c =>
    have hi := Kallsyms.lt_of_get hc
    have h1 : as[i]? = some (as[i]'(by omega)) := List.getElem?_eq_getElem _
    have h2 : bs[i]? = some (bs[i]'(by omega)) := List.getElem?_eq_getElem _
    simp [h1, h2]

/-- The information of a program is accepted exactly when the numbers agree and its machine code is at hand; then it
lists the functions of the program, one by one. -/
theorem newInfo_ok {p : PInfo} {fs : List PFunc} (h : newInfo p = .ok fs) :
    Counts p ∧ p.lens.sum ≤ p.insns ∧ fs.length = p.lens.length ∧ ∀ i f, fs[i]? = some f → FuncOf p i f := by
  unfold newInfo at h
  split at h
  · cases h
  · split at h
    · cases h
    · split at h
      · cases h
      · rename_i h1 h2 h3
        have hc : Counts p := ⟨by omega, by omega, by omega⟩
        have hsum := sum_zip p.names p.ksyms p.lens hc.1 hc.2.1
        have hs := split_spec (p.jlines.zip p.lines) (p.names.zip (p.ksyms.zip p.lens)) p.insns
        rw [hsum] at hs
        rcases Nat.lt_or_ge p.insns p.lens.sum with hlt | hle
        · rw [hs.2 hlt] at h; cases h
        · rw [hs.1 hle] at h
          cases h
          refine ⟨hc, hle, ?_, ?_⟩
          · simp only [List.length_map, List.length_zip]
            have := hc.1; have := hc.2.1
            omega
          · intro i f hf
            rw [List.getElem?_map] at hf
            cases hz : (p.names.zip (p.ksyms.zip p.lens))[i]? with
            | none => simp [hz] at hf
            | some x =>
              obtain ⟨n, a, len⟩ := x
              rw [hz] at hf
              simp only [Option.map_some, Option.some.injEq] at hf
              rw [List.getElem?_zip_eq_some] at hz
              simp only [List.getElem?_zip_eq_some] at hz
              subst hf
              exact ⟨hz.1, hz.2.1, ⟨len, hz.2.2, rfl⟩, rfl, rfl⟩

theorem newInfo_accepts {p : PInfo} (hc : Counts p) (hi : p.lens.sum ≤ p.insns) : ∃ fs, newInfo p = .ok fs := by
  have hs := split_spec (p.jlines.zip p.lines) (p.names.zip (p.ksyms.zip p.lens)) p.insns
  rw [sum_zip p.names p.ksyms p.lens hc.1 hc.2.1] at hs
  have h : newInfo p = splitFuncs (p.jlines.zip p.lines) (p.names.zip (p.ksyms.zip p.lens)) p.insns := by
    unfold newInfo
    rw [if_neg (by have := hc.1; omega), if_neg (by have := hc.2.1; omega), if_neg (by have := hc.2.2; omega)]
  rw [h, hs.1 hi]
  exact ⟨_, rfl⟩

/-- Numbers that do not agree are an error. -/
theorem newInfo_err {p : PInfo} : newInfo p = .err ↔ ¬ Counts p := by
  unfold newInfo Counts
  constructor
  · intro h hc
    rw [if_neg (by have := hc.1; omega), if_neg (by have := hc.2.1; omega), if_neg (by have := hc.2.2; omega)] at h
    have hs := split_spec (p.jlines.zip p.lines) (p.names.zip (p.ksyms.zip p.lens)) p.insns
    rcases Nat.lt_or_ge p.insns ((p.names.zip (p.ksyms.zip p.lens)).map fun x => x.2.2).sum with hlt | hle
    · rw [hs.2 hlt] at h; cases h
    · rw [hs.1 hle] at h; cases h
  · intro h
    split
    · rfl
    · split
      · rfl
      · split
        · rfl
        · exfalso
          apply h
          refine ⟨?_, ?_, ?_⟩ <;> omega

/-- **C58 violated**: a program whose machine code the kernel does not hand out (none, or fewer bytes than its functions
have) crashes bpfsnoop, although the bytes are not used. -/
theorem missing_code_panics_violated {p : PInfo} (hc : Counts p) (hi : p.insns < p.lens.sum) : newInfo p = .panic := by
  have hs := split_spec (p.jlines.zip p.lines) (p.names.zip (p.ksyms.zip p.lens)) p.insns
  rw [sum_zip p.names p.ksyms p.lens hc.1 hc.2.1] at hs
  unfold newInfo
  rw [if_neg (by have := hc.1; omega), if_neg (by have := hc.2.1; omega), if_neg (by have := hc.2.2; omega)]
  exact hs.2 hi

/-! ### Naming an address -/

theorem getProg_hit {fs : List PFunc} {addr : Nat} {f : PFunc} (hm : f ∈ fs) (hf : f.Has addr)
    (hu : ∀ g ∈ fs, g.Has addr → g = f) : getProg fs addr = f.get addr := by
  induction fs with
  | nil => cases hm
  | cons g gs ih =>
    unfold getProg
    by_cases hg : g.Has addr
    · have := hu g (by simp) hg
      subst this
      cases hgt : g.get addr with
      | miss => exact absurd hg ((get_miss g addr).mp hgt)
      | panic => rfl
      | hit a => rfl
    · rw [(get_miss g addr).mpr hg]
      simp only
      rcases List.mem_cons.mp hm with rfl | hm
      · exact absurd hf hg
      · exact ih hm fun g hg' => hu g (by simp [hg'])

theorem getProg_miss {fs : List PFunc} {addr : Nat} (h : ∀ g ∈ fs, ¬ g.Has addr) : getProg fs addr = .miss := by
  induction fs with
  | nil => rfl
  | cons g gs ih =>
    unfold getProg
    rw [(get_miss g addr).mpr (h g (by simp))]
    exact ih fun g hg => h g (by simp [hg])

/-- **C57, BPF programs.** In whatever order the table is searched, an address in a function of a BPF program is shown
with the name of that function, the offset in it and the file and line of the source its code belongs to, provided the
records of the function are in order and begin at or before the address. -/
theorem prog_address_partial {fs : List PFunc} {addr i k a : Nat} {p : PInfo} {f : PFunc} {s : Src} (t : Tables) (a2l : Option A2l) (done : Bool)
    (hm : f ∈ fs) (hp : FuncOf p i { f with flag := none }) (hf : f.Has addr) (hu : ∀ g ∈ fs, g.Has addr → g = f)
    (hord : ∀ x y b c : Nat, x < y → p.jlines[x]? = some b → p.jlines[y]? = some c → f.Has b → f.Has c → b < c)
    (hk : p.jlines[k]? = some a) (hsrc : p.lines[k]? = some s) (ha : f.Has a) (hle : a ≤ addr)
    (hlast : ∀ k' b : Nat, p.jlines[k']? = some b → f.Has b → b ≤ addr → b ≤ a) :
    lineInfo fs t a2l done addr = .ok ⟨addr, f.name, addr - f.start, trimFile s.file, s.line, true, false⟩ := by
  have hlines : f.lines = (p.jlines.zip p.lines).filter (fun l => f.start ≤ l.1 && l.1 < f.stop) := hp.lines
  have hpair : (p.jlines.zip p.lines).Pairwise (fun x y => (f.start ≤ x.1 && x.1 < f.stop) = true → (f.start ≤ y.1 && y.1 < f.stop) = true → x.1 < y.1) := by
    rw [List.pairwise_iff_getElem]
    intro x y hx hy hxy h1 h2
    simp only [List.getElem_zip, Bool.and_eq_true, decide_eq_true_eq] at h1 h2 ⊢
    rw [List.length_zip] at hx hy
    exact hord x y _ _ hxy (List.getElem?_eq_getElem (by omega)) (List.getElem?_eq_getElem (by omega)) h1 h2
  have ho : Ordered f.lines := by
    unfold Ordered
    rw [List.pairwise_map, hlines]
    refine List.Pairwise.imp_of_mem (R := fun x y : Nat × Src => (f.start ≤ x.1 && x.1 < f.stop) = true → (f.start ≤ y.1 && y.1 < f.stop) = true → x.1 < y.1) ?_ (hpair.filter _)
    intro x y hx hy h
    exact h (List.mem_filter.mp hx).2 (List.mem_filter.mp hy).2
  have hmem : (a, s) ∈ f.lines := by
    rw [hlines]
    refine List.mem_filter.mpr ⟨?_, by simpa [PFunc.Has] using ha⟩
    apply List.mem_of_getElem? (i := k)
    rw [List.getElem?_zip_eq_some]
    exact ⟨hk, hsrc⟩
  obtain ⟨j, hj⟩ := List.mem_iff_getElem?.mp hmem
  have hc : Covers f.lines addr j s := by
    refine ⟨a, hj, hle, ?_⟩
    intro k' hk' a' s' h'
    have h5 : a < a' := by
      have h1 : (f.lines.map Prod.fst)[j]? = some a := (map_fst _ _ _).mpr ⟨s, hj⟩
      have h2 : (f.lines.map Prod.fst)[k']? = some a' := (map_fst _ _ _).mpr ⟨s', h'⟩
      have := (List.pairwise_iff_getElem.mp ho) j k' (Kallsyms.lt_of_get h1) (Kallsyms.lt_of_get h2) hk'
      rw [List.getElem?_eq_getElem (Kallsyms.lt_of_get h1)] at h1
      rw [List.getElem?_eq_getElem (Kallsyms.lt_of_get h2)] at h2
      simp only [Option.some.injEq] at h1 h2
      omega
    have hin : (a', s') ∈ f.lines := List.mem_of_getElem? h'
    rw [hlines] at hin
    obtain ⟨hz, hr⟩ := List.mem_filter.mp hin
    simp only [Bool.and_eq_true, decide_eq_true_eq] at hr
    obtain ⟨q, hq⟩ := List.mem_iff_getElem?.mp hz
    rw [List.getElem?_zip_eq_some] at hq
    rcases Nat.lt_or_ge addr a' with h | h
    · exact h
    · have := hlast q a' hq.1 hr h
      omega
  have := getProg_hit hm hf hu
  rw [get_line hf ho hc] at this
  simp [lineInfo, this]

/-- **C57, kernel code.** An address outside all BPF programs and not above the last symbol is shown with the symbol it
belongs to and its offset, and with the file (without the build directory) and line the debug information gives. -/
theorem kernel_address_partial {fs : List PFunc} {addr : Nat} {sysBPF : String} {ls : List Kallsyms.Line} {t : Tables} {a : A2l} {d : Dbg}
    (hs : Kallsyms.scan sysBPF ls Tables.empty = some t) (hne : Kallsyms.texts ls ≠ [])
    (hmax : ∃ s ∈ Kallsyms.texts ls, addr ≤ s.addr) (hmin : ∃ s ∈ Kallsyms.texts ls, s.addr ≤ addr)
    (hnames : ∀ s ∈ Kallsyms.texts ls, s.name ≠ "")
    (hout : ∀ g ∈ fs, ¬ g.Has addr) (hc : a.cached addr = none) (hl : ∀ e, a.lookup addr e = .ok d) (done : Bool) :
    ∃ s ∈ Kallsyms.texts ls, s.addr ≤ addr ∧ (∀ s' ∈ Kallsyms.texts ls, s'.addr ≤ addr → s'.addr ≤ s.addr) ∧
      lineInfo fs t (some a) done addr = .ok ⟨addr, s.name, addr - s.addr, cutDir a.dir d.file, d.line, false, true⟩ ∧
      lineInfo fs t none done addr = .ok ⟨addr, s.name, addr - s.addr, [], 0, false, false⟩ := by
  rcases Kallsyms.find_floor_partial hs hne addr hmax with ⟨_, h⟩ | ⟨e, i, s, h1, h2, h3, h4, h5, h6, h7, h8⟩
  · obtain ⟨s, hs1, hs2⟩ := hmin
    have := h s hs1
    omega
  · have hmem := List.mem_of_getElem? h2
    refine ⟨s, hmem, h6, h7, ?_, ?_⟩
    · simp only [lineInfo, getProg_miss hout, h1, hc, hl, h4, h3, if_neg (hnames s hmem)]
    · simp only [lineInfo, getProg_miss hout, h1, h4, h3]

/-- A kernel address for which debug information has no line is shown with the symbol that covers it. -/
theorem kernel_address_no_line {fs : List PFunc} {addr : Nat} {sysBPF : String} {ls : List Kallsyms.Line} {t : Tables} {a : A2l}
    (hs : Kallsyms.scan sysBPF ls Tables.empty = some t) (hne : Kallsyms.texts ls ≠ [])
    (hmax : ∃ s ∈ Kallsyms.texts ls, addr ≤ s.addr) (hmin : ∃ s ∈ Kallsyms.texts ls, s.addr ≤ addr)
    (hout : ∀ g ∈ fs, ¬ g.Has addr) (hc : a.cached addr = none) (hl : ∀ e, a.lookup addr e = .err) (done : Bool) :
    ∃ s ∈ Kallsyms.texts ls, s.addr ≤ addr ∧ (∀ s' ∈ Kallsyms.texts ls, s'.addr ≤ addr → s'.addr ≤ s.addr) ∧
      lineInfo fs t (some a) done addr = .ok ⟨addr, s.name, addr - s.addr, [], 0, false, false⟩ := by
  rcases Kallsyms.find_floor_partial hs hne addr hmax with ⟨_, h⟩ | ⟨e, i, s, h1, h2, h3, h4, h5, h6, h7, h8⟩
  · obtain ⟨s, hs1, hs2⟩ := hmin
    have := h s hs1
    omega
  · refine ⟨s, List.mem_of_getElem? h2, h6, h7, ?_⟩
    simp only [lineInfo, getProg_miss hout, h1, hc, hl, h4, h3]

/-- The build directory is removed exactly from the files below it. -/
theorem cutDir_iff (dir f g : Str) : cutDir dir f = g ↔ f = dir ++ g ∨ ((∀ r, f ≠ dir ++ r) ∧ g = f) := by
  unfold cutDir
  by_cases h : dir.isPrefixOf f
  · rw [if_pos h]
    obtain ⟨r, rfl⟩ := List.isPrefixOf_iff_prefix.mp h
    constructor
    · intro e; left; simpa using e
    · rintro (e | ⟨e, _⟩)
      · simpa using e
      · exact absurd rfl (e r)
  · rw [if_neg h]
    have hn : ∀ r, f ≠ dir ++ r := by
      rintro r rfl
      exact h (List.isPrefixOf_iff_prefix.mpr ⟨r, rfl⟩)
    constructor
    · rintro rfl; exact Or.inr ⟨hn, rfl⟩
    · rintro (e | ⟨_, e⟩)
      · exact absurd e (hn _)
      · exact e.symm

/-- **C57 violated**: an address in the cache is shown with its full build path until the debug information has been
loaded in the background, and without it afterwards: the same address has two names in one run. -/
theorem build_path_violated {fs : List PFunc} {t : Tables} {a : A2l} {addr : Nat} {d : Dbg} {r : Str} {k : Option Entry}
    (hout : ∀ g ∈ fs, ¬ g.Has addr) (hk : Kallsyms.find t addr = some k) (hc : a.cached addr = some d) (hd : d.file = a.dir ++ r)
    (hne : a.dir ≠ []) :
    ∃ e₁ e₂, lineInfo fs t (some a) false addr = .ok e₁ ∧ lineInfo fs t (some a) true addr = .ok e₂ ∧
      e₁.file = a.dir ++ r ∧ e₂.file = r ∧ e₁.file ≠ e₂.file := by
  simp only [lineInfo, getProg_miss hout, hk, hc]
  have h1 : cutDir [] d.file = a.dir ++ r := by simp [cutDir, hd]
  have h2 : cutDir a.dir d.file = r := (cutDir_iff _ _ _).mpr (Or.inl hd)
  refine ⟨_, _, rfl, rfl, h1, h2, ?_⟩
  show cutDir [] d.file ≠ cutDir a.dir d.file
  rw [h1, h2]
  intro h
  have := congrArg List.length h
  rw [List.length_append] at this
  exact hne (List.length_eq_zero_iff.mp (by omega))

/-! ### Loading -/

/-- Specification: the functions of the programs. -/
def FuncIn (ps : List PInfo) (f : PFunc) : Prop := ∃ p ∈ ps, ∃ fs, newInfo p = .ok fs ∧ f ∈ fs

/-- Specification: the options of the traced function at an address, the last given. -/
def lastFlag (tr : List (Nat × Nat)) (ip : Nat) : Option Nat := (tr.reverse.find? (fun x => x.1 = ip)).map Prod.snd

/-- All functions of the programs, in order. -/
def allFuncs (ps : List PInfo) : List PFunc := ps.flatMap fun p => match newInfo p with | .ok fs => fs | _ => []

theorem mem_allFuncs (ps : List PInfo) (f : PFunc) : f ∈ allFuncs ps ↔ FuncIn ps f := by
  unfold allFuncs FuncIn
  rw [List.mem_flatMap]
  constructor
  · rintro ⟨p, hp, hf⟩
    cases h : newInfo p with
    | ok fs => rw [h] at hf; exact ⟨p, hp, fs, h, hf⟩
    | err => rw [h] at hf; cases hf
    | panic => rw [h] at hf; cases hf
  · rintro ⟨p, hp, fs, h, hf⟩
    exact ⟨p, hp, by rw [h]; exact hf⟩

theorem addFuncs_append (t : List (Nat × PFunc)) (a b : List PFunc) : addFuncs t (a ++ b) = addFuncs (addFuncs t a) b := by
  unfold addFuncs; exact List.foldl_append

theorem parseAll_spec : ∀ (ps : List PInfo) (t : List (Nat × PFunc)), (∀ p ∈ ps, newInfo p ≠ .panic) →
    ∃ b, parseAll ps t = .ok (addFuncs t (allFuncs ps), b) ∧ (b = true ↔ ∃ p ∈ ps, newInfo p = .err)
  | [], t, _ => ⟨false, rfl, by simp⟩
  | p :: ps, t, h => by
    have hcons : allFuncs (p :: ps) = (match newInfo p with | .ok fs => fs | _ => []) ++ allFuncs ps := by simp [allFuncs]
    cases hp : newInfo p with
    | panic => exact absurd hp (h p (by simp))
    | err =>
      obtain ⟨b, hb, _⟩ := parseAll_spec ps t fun q hq => h q (by simp [hq])
      refine ⟨true, ?_, ?_⟩
      · rw [hcons, parseAll, hp]
        simp only
        rw [hb]
        rfl
      · simp [hp]
    | ok fs =>
      obtain ⟨b, hb, hb'⟩ := parseAll_spec ps (addFuncs t fs) fun q hq => h q (by simp [hq])
      refine ⟨b, ?_, ?_⟩
      · rw [hcons, parseAll, hp]
        simp only
        rw [hb, addFuncs_append]
      · rw [hb']; simp [hp]

theorem parseAll_panic : ∀ (ps : List PInfo) (t : List (Nat × PFunc)), (∃ p ∈ ps, newInfo p = .panic) → parseAll ps t = .panic
  | [], t, h => by simp at h
  | p :: ps, t, h => by
    cases hp : newInfo p with
    | panic => rw [parseAll, hp]
    | err =>
      have : ∃ p ∈ ps, newInfo p = .panic := by simpa [hp] using h
      rw [parseAll, hp]; simp only [parseAll_panic ps t this]
    | ok fs =>
      have : ∃ p ∈ ps, newInfo p = .panic := by simpa [hp] using h
      rw [parseAll, hp]; simp only [parseAll_panic ps _ this]

theorem lookup_addFuncs : ∀ (fs : List PFunc) (t : List (Nat × PFunc)) (ip : Nat) (f : PFunc), (fs.map PFunc.start).Nodup →
    (lookup (addFuncs t fs) ip = some f ↔ (f ∈ fs ∧ f.start = ip) ∨ ((∀ g ∈ fs, g.start ≠ ip) ∧ lookup t ip = some f))
  | [], t, ip, f, _ => by simp [addFuncs]
  | g :: gs, t, ip, f, hn => by
    rw [List.map_cons, List.nodup_cons] at hn
    have hstep : addFuncs t (g :: gs) = addFuncs (put t g.start g) gs := rfl
    rw [hstep, lookup_addFuncs gs _ ip f hn.2, lookup_put]
    have hg : ∀ x ∈ gs, x.start ≠ g.start := fun x hx he => hn.1 (he ▸ List.mem_map_of_mem hx)
    constructor
    · rintro (⟨h1, h2⟩ | ⟨h1, h2⟩)
      · exact Or.inl ⟨by simp [h1], h2⟩
      · by_cases he : ip = g.start
        · rw [if_pos he] at h2
          cases h2
          exact Or.inl ⟨by simp, he.symm⟩
        · rw [if_neg he] at h2
          refine Or.inr ⟨?_, h2⟩
          intro x hx
          rcases List.mem_cons.mp hx with rfl | hx
          · exact fun h => he h.symm
          · exact h1 x hx
    · rintro (⟨h1, h2⟩ | ⟨h1, h2⟩)
      · rcases List.mem_cons.mp h1 with rfl | h1
        · refine Or.inr ⟨fun x hx => h2 ▸ hg x hx, ?_⟩
          rw [if_pos h2.symm]
        · exact Or.inl ⟨h1, h2⟩
      · refine Or.inr ⟨fun x hx => h1 x (by simp [hx]), ?_⟩
        rw [if_neg (fun h => h1 g (by simp) h.symm)]
        exact h2

theorem lastFlag_cons (ip fl : Nat) (tr : List (Nat × Nat)) (x : Nat) :
    lastFlag ((ip, fl) :: tr) x = (lastFlag tr x).or (if ip = x then some fl else none) := by
  unfold lastFlag
  rw [List.reverse_cons, List.find?_append]
  cases h : tr.reverse.find? (fun y => y.1 = x) with
  | some y => simp
  | none =>
    by_cases he : ip = x
    · simp [he]
    · simp [he]

theorem setFlags_spec : ∀ (tr : List (Nat × Nat)) (t : List (Nat × PFunc)), (∀ x ∈ tr, (lookup t x.1).isSome) →
    ∃ t', setFlags tr t = .ok t' ∧ ∀ ip, lookup t' ip = (lookup t ip).map fun f => { f with flag := (lastFlag tr ip).or f.flag }
  | [], t, _ => ⟨t, rfl, fun ip => by cases lookup t ip <;> simp [lastFlag]⟩
  | (ip, fl) :: tr, t, h => by
    obtain ⟨f, hf⟩ := Option.isSome_iff_exists.mp (h (ip, fl) (by simp))
    simp only at hf
    obtain ⟨t', h1, h2⟩ := setFlags_spec tr (put t ip { f with flag := some fl }) (by
      intro x hx
      rw [lookup_put]
      split
      · rfl
      · exact h x (by simp [hx]))
    refine ⟨t', by rw [setFlags, hf]; exact h1, fun x => ?_⟩
    rw [h2, lookup_put, lastFlag_cons]
    by_cases he : x = ip
    · subst he
      rw [if_pos rfl, hf]
      simp only [Option.map_some, if_true]
      cases lastFlag tr x <;> simp
    · rw [if_neg he]
      have : ¬ ip = x := fun h => he h.symm
      simp only [this, if_false]
      cases lookup t x <;> simp

theorem setFlags_panic : ∀ (tr : List (Nat × Nat)) (t : List (Nat × PFunc)), (∃ x ∈ tr, lookup t x.1 = none) → setFlags tr t = .panic
  | [], t, h => by simp at h
  | (ip, fl) :: tr, t, h => by
    rw [setFlags]
    cases hf : lookup t ip with
    | none => rfl
    | some f =>
      simp only
      apply setFlags_panic
      obtain ⟨x, hx, hn⟩ := h
      rcases List.mem_cons.mp hx with rfl | hx
      · simp only at hn; rw [hf] at hn; cases hn
      · refine ⟨x, hx, ?_⟩
        rw [lookup_put]
        split
        · rename_i he
          rw [← he, hn] at hf; cases hf
        · exact hn

/-- No two functions of the programs start at one address. -/
def Distinct (ps : List PInfo) : Prop := ((allFuncs ps).map PFunc.start).Nodup

theorem lookup_all {ps : List PInfo} (hd : Distinct ps) (ip : Nat) (f : PFunc) :
    lookup (addFuncs [] (allFuncs ps)) ip = some f ↔ FuncIn ps f ∧ f.start = ip := by
  rw [lookup_addFuncs _ _ _ _ hd, mem_allFuncs]
  have : lookup ([] : List (Nat × PFunc)) ip = none := rfl
  simp [this]

/-- **C58.** If the information of every program is consistent and every traced function belongs to one of them, then in
whatever order the programs are read the table holds exactly their functions, each with the options it is traced with. -/
theorem load_complete_partial {ps : List PInfo} {tr : List (Nat × Nat)} (hok : ∀ p ∈ ps, Counts p ∧ p.lens.sum ≤ p.insns)
    (hd : Distinct ps) (htr : ∀ x ∈ tr, ∃ f, FuncIn ps f ∧ f.start = x.1) :
    ∃ t, load ps tr = .ok t ∧ ∀ ip f, lookup t ip = some f ↔
      ∃ g, FuncIn ps g ∧ g.start = ip ∧ f = { g with flag := lastFlag tr ip } := by
  have hnp : ∀ p ∈ ps, newInfo p ≠ .panic := by
    intro p hp h
    obtain ⟨fs, hfs⟩ := newInfo_accepts (hok p hp).1 (hok p hp).2
    rw [hfs] at h; cases h
  obtain ⟨b, hb, hb'⟩ := parseAll_spec ps [] hnp
  have hbf : b = false := by
    cases b with
    | false => rfl
    | true =>
      obtain ⟨p, hp, h⟩ := hb'.mp rfl
      exact absurd (hok p hp).1 (newInfo_err.mp h)
  obtain ⟨t, h1, h2⟩ := setFlags_spec tr (addFuncs [] (allFuncs ps)) (by
    intro x hx
    obtain ⟨f, hf, he⟩ := htr x hx
    rw [(lookup_all hd x.1 f).mpr ⟨hf, he⟩]
    rfl)
  refine ⟨t, ?_, ?_⟩
  · unfold load
    rw [hb]
    simp only
    rw [h1, hbf]
    rfl
  · intro ip f
    rw [h2, Option.map_eq_some_iff]
    constructor
    · rintro ⟨g, hg, rfl⟩
      obtain ⟨h3, h4⟩ := (lookup_all hd ip g).mp hg
      refine ⟨g, h3, h4, ?_⟩
      obtain ⟨p, hp, fs, hfs, hgf⟩ := h3
      obtain ⟨i, hi⟩ := List.mem_iff_getElem?.mp hgf
      have hfl := ((newInfo_ok hfs).2.2.2 i g hi).flag
      rw [hfl]
      cases lastFlag tr ip <;> rfl
    · rintro ⟨g, hg, he, rfl⟩
      refine ⟨g, (lookup_all hd ip g).mpr ⟨hg, he⟩, ?_⟩
      obtain ⟨p, hp, fs, hfs, hgf⟩ := hg
      obtain ⟨i, hi⟩ := List.mem_iff_getElem?.mp hgf
      have hfl := ((newInfo_ok hfs).2.2.2 i g hi).flag
      rw [hfl]
      cases lastFlag tr ip <;> rfl

/-- Inconsistent information of a program none of whose functions is traced is reported as an error. -/
theorem load_reports {ps : List PInfo} {tr : List (Nat × Nat)} (hbad : ∃ p ∈ ps, ¬ Counts p) (hnp : ∀ p ∈ ps, newInfo p ≠ .panic)
    (hd : Distinct ps) (htr : ∀ x ∈ tr, ∃ f, FuncIn ps f ∧ f.start = x.1) : load ps tr = .err := by
  obtain ⟨b, hb, hb'⟩ := parseAll_spec ps [] hnp
  have hbt : b = true := by
    obtain ⟨p, hp, h⟩ := hbad
    exact hb'.mpr ⟨p, hp, newInfo_err.mpr h⟩
  obtain ⟨t, h1, h2⟩ := setFlags_spec tr (addFuncs [] (allFuncs ps)) (by
    intro x hx
    obtain ⟨f, hf, he⟩ := htr x hx
    rw [(lookup_all hd x.1 f).mpr ⟨hf, he⟩]
    rfl)
  unfold load
  rw [hb]
  simp only
  rw [h1, hbt]
  rfl

/-- **C58 violated**: if the information of a traced program is inconsistent, bpfsnoop does not report it but crashes. -/
theorem load_crash_violated {ps : List PInfo} {tr : List (Nat × Nat)} (hd : Distinct ps)
    (htr : ∃ x ∈ tr, ∀ f, FuncIn ps f → f.start ≠ x.1) : load ps tr = .panic := by
  by_cases hnp : ∃ p ∈ ps, newInfo p = .panic
  · unfold load
    rw [parseAll_panic ps [] hnp]
  · obtain ⟨b, hb, _⟩ := parseAll_spec ps [] fun p hp h => hnp ⟨p, hp, h⟩
    unfold load
    rw [hb]
    simp only
    rw [setFlags_panic]
    obtain ⟨x, hx, h⟩ := htr
    refine ⟨x, hx, ?_⟩
    cases hl : lookup (addFuncs [] (allFuncs ps)) x.1 with
    | none => rfl
    | some f =>
      obtain ⟨h1, h2⟩ := (lookup_all hd x.1 f).mp hl
      exact absurd h2 (h f h1)

/-! ### Examples -/

def exProg : PInfo :=
  { names := ["main", "sub"], ksyms := [0x1000, 0x2000], lens := [16, 8], jlines := [0x1000, 0x1004, 0x2000],
    lines := [⟨"./a.c".toList, 1⟩, ⟨"./a.c".toList, 2⟩, ⟨"b.c".toList, 7⟩], insns := 24 }

def exBad : PInfo := { names := ["x"], ksyms := [0x3000], lens := [4], jlines := [], lines := [⟨[], 1⟩], insns := 4 }

/-- Two functions, one traced: the table, and what two addresses are shown as. -/
theorem load_witness : Counts exProg ∧ exProg.lens.sum ≤ exProg.insns ∧ Distinct [exProg] ∧
    load [exProg] [(0x1000, 5)] = .ok [(0x1000, ⟨0x1000, 0x1010, "main", [(0x1000, ⟨"./a.c".toList, 1⟩), (0x1004, ⟨"./a.c".toList, 2⟩)], some 5⟩),
      (0x2000, ⟨0x2000, 0x2008, "sub", [(0x2000, ⟨"b.c".toList, 7⟩)], none⟩)] := by
  refine ⟨by unfold Counts; decide, by decide, by unfold Distinct; decide +kernel, by decide +kernel⟩

theorem crash_witness : Distinct [exProg, exBad] ∧ load [exProg, exBad] [(0x1000, 5)] = .err ∧ load [exProg, exBad] [(0x3000, 5)] = .panic := by
  refine ⟨by unfold Distinct; decide +kernel, by decide +kernel, by decide +kernel⟩

/-- Non-vacuity: the hypotheses of `prog_address_partial` hold of the second line of `main`. -/
theorem prog_address_witness :
    lineInfo (allFuncs [exProg]) Tables.empty none false 0x1007 = .ok ⟨0x1007, "main", 7, trimFile "./a.c".toList, 2, true, false⟩ := by
  have hall : allFuncs [exProg] = [⟨0x1000, 0x1010, "main", [(0x1000, ⟨"./a.c".toList, 1⟩), (0x1004, ⟨"./a.c".toList, 2⟩)], none⟩,
      ⟨0x2000, 0x2008, "sub", [(0x2000, ⟨"b.c".toList, 7⟩)], none⟩] := by decide +kernel
  have hj : exProg.jlines = [0x1000, 0x1004, 0x2000] := rfl
  refine prog_address_partial (p := exProg) (i := 0) (k := 1) (a := 0x1004) (s := ⟨"./a.c".toList, 2⟩)
    (f := ⟨0x1000, 0x1010, "main", [(0x1000, ⟨"./a.c".toList, 1⟩), (0x1004, ⟨"./a.c".toList, 2⟩)], none⟩) _ _ _
    (by rw [hall]; simp) ⟨rfl, rfl, ⟨16, rfl, rfl⟩, by decide +kernel, rfl⟩ (by constructor <;> decide) ?_ ?_ rfl rfl (by constructor <;> decide) (by omega) ?_
  · rw [hall]
    intro g hg h
    rcases List.mem_cons.mp hg with rfl | hg
    · rfl
    · simp only [List.mem_singleton] at hg
      subst hg
      exact absurd h.1 (by decide)
  · intro x y b c hxy hb hc _ _
    rw [hj] at hb hc
    match x, y with
    | 0, 1 => cases hb; cases hc; decide
    | 0, 2 => cases hb; cases hc; decide
    | 1, 2 => cases hb; cases hc; decide
    | 2, y + 3 => cases hc
    | 1, y + 3 => cases hc
    | 0, y + 3 => cases hc
    | x + 3, y => cases hb
  · intro k' b hb _ hle
    rw [hj] at hb
    match k' with
    | 0 => cases hb; decide
    | 1 => cases hb; decide
    | 2 => cases hb; omega
    | k + 3 => cases hb

end Bpfsnoop.Li
