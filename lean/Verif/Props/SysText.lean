import Verif.Spec.SysTextSpec
import Verif.Props.Kallsyms
import Verif.Props.KfuncSel
import Verif.Props.CcNum
import Verif.Props.KRead
import Verif.Props.Attach
/-
C80: the lists of the running kernel are read as it wrote them.
-/
namespace Bpfsnoop.Sf

/-! ### Lines and fields -/

theorem rawLines_line (l rest : Str) (h : '\n' ∉ l) : ∀ acc, rawLines acc (l ++ '\n' :: rest) = (acc.reverse ++ l) :: rawLines [] rest := by
  induction l with
  | nil => intro acc; simp [rawLines]
  | cons c cs ih =>
    intro acc
    simp only [List.mem_cons, not_or] at h
    have hc : ¬ c = '\n' := fun e => h.1 e.symm
    simp only [List.cons_append, rawLines, if_neg hc]
    rw [ih h.2]
    simp

theorem rawLines_file (ls : List Str) (rest : Str) (h : ∀ l ∈ ls, '\n' ∉ l) : rawLines [] (file ls ++ rest) = ls ++ rawLines [] rest := by
  induction ls with
  | nil => simp [file]
  | cons l ls ih =>
    have e : file (l :: ls) ++ rest = l ++ '\n' :: (file ls ++ rest) := by simp [file]
    rw [e, rawLines_line l _ (h l (by simp)), ih (fun x hx => h x (List.mem_cons_of_mem _ hx))]
    rfl

theorem scanLines_file (ls : List Str) (h : ∀ l ∈ ls, '\n' ∉ l ∧ l.length < 65536) : scanLines (file ls) = (ls.map dropCR, false) := by
  have e : rawLines [] (file ls) = ls := by
    have := rawLines_file ls [] (fun l hl => (h l hl).1)
    simpa [rawLines] using this
  unfold scanLines
  simp only [e]
  have h1 : ls.takeWhile (fun l => decide (l.length < maxToken)) = ls := by
    have := List.takeWhile_append_of_pos (p := fun l : Str => decide (l.length < maxToken)) (l₁ := ls) (l₂ := [])
      (fun l hl => decide_eq_true (h l hl).2)
    simpa using this
  rw [h1]
  refine Prod.ext rfl ?_
  simp only [List.any_eq_false, decide_eq_true_eq]
  intro l hl
  have := (h l hl).2
  simp only [maxToken]
  omega

theorem dropCR_id (l : Str) (h : l.getLast? ≠ some '\r') : dropCR l = l := by simp [dropCR, h]

theorem fields_word (w rest : Str) (h : ∀ c ∈ w, Flg.isSpace c = false) : ∀ acc, fields acc (w ++ rest) = fields (w.reverse ++ acc) rest := by
  induction w with
  | nil => intro acc; rfl
  | cons c cs ih =>
    intro acc
    have hc := h c (by simp)
    simp only [List.cons_append, fields, hc, Bool.false_eq_true, if_false]
    rw [ih (fun x hx => h x (List.mem_cons_of_mem _ hx))]
    simp

theorem fields_sep (w : Str) (c : Char) (rest : Str) (h : Word w) (hc : Flg.isSpace c = true) : fields [] (w ++ c :: rest) = w :: fields [] rest := by
  rw [fields_word w _ h.2]
  have : ¬ (w.reverse ++ [] = []) := by simpa using h.1
  simp only [fields, hc, if_true, if_neg this]
  simp

theorem fields_last (w : Str) (h : Word w) : fields [] w = [w] := by
  have := fields_word w [] h.2 []
  rw [List.append_nil] at this
  rw [this]
  have hn : ¬ (w.reverse ++ [] = []) := by simpa using h.1
  simp [fields, h.1]

theorem trim_word (a : Char) (m : Str) (b : Char) (ha : Flg.isSpace a = false) (hb : Flg.isSpace b = false) :
    Flg.trim (a :: m ++ [b]) = a :: m ++ [b] := by
  apply Flg.trim_of
  refine ⟨[], [], by simp, by simp, by simp, ?_, ?_⟩
  · intro c hc
    have : a = c := by simpa using hc
    rw [← this]; exact ha
  · intro c hc
    rw [List.getLast?_concat] at hc
    have : b = c := by simpa using hc
    rw [← this]; exact hb

/-- A text that begins and ends with something that is not blank. -/
def Solid (l : Str) : Prop := l ≠ [] ∧ (∀ c, l.head? = some c → Flg.isSpace c = false) ∧ (∀ c, l.getLast? = some c → Flg.isSpace c = false)

theorem Solid.trim {l : Str} (h : Solid l) : Flg.trim l = l := by
  apply Flg.trim_of
  exact ⟨[], [], by simp, by simp, by simp, h.2.1, h.2.2⟩

theorem Word.solid {w : Str} (h : Word w) : Solid w :=
  ⟨h.1, fun c hc => h.2 c (List.mem_of_mem_head? hc), fun c hc => h.2 c (List.mem_of_getLast? hc)⟩

theorem Solid.noCR {l : Str} (h : Solid l) : dropCR l = l := by
  apply dropCR_id
  intro hc
  have := h.2.2 _ hc
  simp [Flg.isSpace] at this

theorem solid_append {a b : Str} (ha : Solid a) (c : Str) (hb : Solid b) : Solid (a ++ (c ++ b)) := by
  refine ⟨by simp [ha.1], ?_, ?_⟩
  · intro x hx
    cases a with
    | nil => exact absurd rfl ha.1
    | cons c a => exact ha.2.1 x (by simpa using hx)
  · intro x hx
    rw [← List.append_assoc, List.getLast?_append] at hx
    cases hl : b.getLast? with
    | none => exact absurd (List.getLast?_eq_none_iff.1 hl) hb.1
    | some y =>
      rw [hl] at hx
      exact hb.2.2 x (by rw [hl]; simpa using hx)

/-! ### Numbers -/

theorem digitChar_val : ∀ d, d < 16 → Cc.digitVal d.digitChar = some d ∧ Flg.isSpace d.digitChar = false := by
  have : ∀ d : Fin 16, Cc.digitVal d.val.digitChar = some d.val ∧ Flg.isSpace d.val.digitChar = false := by decide +kernel
  exact fun d h => this ⟨d, h⟩

theorem toDigits_word (b : Nat) (hb : 1 < b) (hb' : b ≤ 16) : ∀ n, Word (Nat.toDigits b n) := by
  intro n
  refine ⟨Nat.toDigits_ne_nil, ?_⟩
  induction n using Nat.strongRecOn with
  | _ n ih =>
    rw [Nat.toDigits_eq_if hb]
    split
    · next h =>
      intro c hc
      rw [List.mem_singleton] at hc
      rw [hc]
      exact (digitChar_val n (by omega)).2
    · next h =>
      intro c hc
      rcases List.mem_append.1 hc with hc | hc
      · exact ih _ (Nat.div_lt_self (by omega) hb) c hc
      · rw [List.mem_singleton] at hc
        rw [hc]
        have := Nat.mod_lt n (show b > 0 by omega)
        exact (digitChar_val _ (by omega)).2

theorem toDigits_spells (b : Nat) (hb : 1 < b) (hb' : b ≤ 16) : ∀ n, ∃ ds : List Nat, (Nat.toDigits b n).map Cc.digitVal = ds.map some ∧
    (∀ d ∈ ds, d < b) ∧ ∀ z, ds.foldl (fun n d => n * b + d) z = z * b ^ ds.length + n := by
  intro n
  induction n using Nat.strongRecOn with
  | _ n ih =>
    rw [Nat.toDigits_eq_if hb]
    split
    · next h =>
      exact ⟨[n], by simp [(digitChar_val n (by omega)).1], by simpa using h, by intro z; simp⟩
    · next h =>
      obtain ⟨ds, h1, h2, h3⟩ := ih (n / b) (Nat.div_lt_self (by omega) hb)
      have hm := Nat.mod_lt n (show b > 0 by omega)
      refine ⟨ds ++ [n % b], by simp [h1, (digitChar_val (n % b) (by omega)).1], ?_, ?_⟩
      · intro d hd
        rcases List.mem_append.1 hd with hd | hd
        · exact h2 d hd
        · rw [List.mem_singleton] at hd; omega
      · intro z
        rw [List.foldl_append, h3]
        simp only [List.foldl_cons, List.foldl_nil, List.length_append, List.length_cons, List.length_nil]
        rw [Nat.add_mul, Nat.pow_succ, ← Nat.mul_assoc, Nat.add_assoc]
        rw [Nat.mul_comm (n / b) b, Nat.div_add_mod]

theorem parse_toDigits (b : Nat) (hb : 1 < b) (hb' : b ≤ 16) (n : Nat) (hn : n < 2 ^ 64) : Cc.parseUint b (Nat.toDigits b n) = some n := by
  obtain ⟨ds, h1, h2, h3⟩ := toDigits_spells b hb hb' n
  have hne : Nat.toDigits b n ≠ [] := Nat.toDigits_ne_nil
  unfold Cc.parseUint
  split
  · next h => exact absurd h hne
  · rw [Cc.parseDigits_iff b (by omega) _ 0 n (by decide)]
    exact ⟨ds, h1, h2, by rw [h3]; omega, hn⟩

theorem parseDigits_zeros (k : Nat) (s : Str) : Cc.parseDigits 16 0 (List.replicate k '0' ++ s) = Cc.parseDigits 16 0 s := by
  induction k with
  | zero => rfl
  | succ k ih =>
    rw [List.replicate_succ, List.cons_append]
    have : Cc.digitVal '0' = some 0 := by decide
    simp only [Cc.parseDigits, this]
    simpa using ih

theorem parse_hex16 (a : BitVec 64) : Cc.parseUint 16 (hex16 a) = some a.toNat := by
  have h := parse_toDigits 16 (by omega) (by omega) a.toNat a.isLt
  have hne : Nat.toDigits 16 a.toNat ≠ [] := Nat.toDigits_ne_nil
  unfold Cc.parseUint at h ⊢
  split at h
  · next h' => exact absurd h' hne
  · split
    · next h' => simp [hex16] at h'
    · unfold hex16
      rw [parseDigits_zeros]
      exact h

theorem hex16_word (a : BitVec 64) : Word (hex16 a) := by
  have h := toDigits_word 16 (by omega) (by omega) a.toNat
  refine ⟨by simp [hex16], ?_⟩
  intro c hc
  rcases List.mem_append.1 hc with hc | hc
  · rw [List.mem_replicate] at hc
    rw [hc.2]; decide
  · exact h.2 c hc

theorem nl_space : Flg.isSpace '\n' = true := by decide

theorem Word.noNl {w : Str} (h : Word w) : '\n' ∉ w := by
  intro hc
  have := h.2 _ hc
  rw [nl_space] at this
  cases this

/-! ### /proc/kallsyms -/

/-- The part behind the type. -/
def KSym.tail (s : KSym) : Str :=
  s.name ++ match s.mod with
    | none => []
    | some m => '\t' :: '[' :: m ++ [']']

theorem line_tail (s : KSym) : s.line = hex16 s.addr ++ ' ' :: s.typ :: ' ' :: s.tail := by
  unfold KSym.line KSym.tail
  cases s.mod <;> simp

theorem bracket_word {m : Str} (h : Word m) : Word ('[' :: m ++ [']']) := by
  refine ⟨by simp, ?_⟩
  intro c hc
  simp only [List.cons_append, List.mem_cons, List.mem_append, List.mem_singleton, List.not_mem_nil, or_false] at hc
  rcases hc with rfl | hc | rfl
  · decide
  · exact h.2 c hc
  · decide

theorem tail_solid {s : KSym} (h : s.Ok) : Solid s.tail := by
  unfold KSym.tail
  cases hm : s.mod with
  | none => simpa using h.2.1.solid
  | some m =>
    have := solid_append h.2.1.solid ['\t'] (bracket_word (h.2.2.1 m hm).1).solid
    simpa using this

theorem line_solid {s : KSym} (h : s.Ok) : Solid s.line := by
  rw [line_tail]
  have := solid_append (hex16_word s.addr).solid [' ', s.typ, ' '] (tail_solid h)
  simpa using this

theorem line_noNl {s : KSym} (h : s.Ok) : '\n' ∉ s.line := by
  rw [line_tail]
  simp only [List.mem_append, List.mem_cons, not_or]
  refine ⟨(hex16_word s.addr).noNl, by decide, ?_, by decide, ?_⟩
  · intro e
    have := h.1
    rw [← e, nl_space] at this
    cases this
  · unfold KSym.tail
    cases hm : s.mod with
    | none => simpa using h.2.1.noNl
    | some m =>
      have hb := (bracket_word (h.2.2.1 m hm).1).noNl
      intro hc
      rcases List.mem_append.1 hc with hc | hc
      · exact h.2.1.noNl hc
      · dsimp only at hc
        rw [List.cons_append, List.mem_cons] at hc
        rcases hc with hc | hc
        · exact absurd hc (by decide)
        · exact hb hc

theorem trimBr_bracket (m : Str) (h1 : '[' ∉ m) (h2 : ']' ∉ m) (hm : m ≠ []) : trimBr ('[' :: m ++ [']']) = m := by
  have key : ∀ x : Str, '[' ∉ x → ']' ∉ x → ∀ y : Str, x ≠ [] →
      (x ++ y).dropWhile (fun c => c == '[' || c == ']') = x ++ y := by
    intro x a b y hx
    cases x with
    | nil => exact absurd rfl hx
    | cons c x =>
      simp only [List.mem_cons, not_or] at a b
      have e1 : (c == '[') = false := by simpa using fun e => a.1 (Eq.symm e)
      have e2 : (c == ']') = false := by simpa using fun e => b.1 (Eq.symm e)
      simp [List.dropWhile_cons, e1, e2]
  unfold trimBr
  have : ('[' :: m ++ [']']).dropWhile (fun c => c == '[' || c == ']') = m ++ [']'] := by
    rw [List.cons_append, List.dropWhile_cons]
    simp only [beq_self_eq_true, Bool.true_or, if_true]
    exact key m h1 h2 _ hm
  rw [this]
  simp only [List.reverse_append, List.reverse_singleton, List.singleton_append, List.dropWhile_cons, beq_self_eq_true, Bool.or_true, if_true]
  have := key m.reverse (by simpa using h1) (by simpa using h2) [] (by simpa using hm)
  rw [List.append_nil] at this
  rw [this, List.reverse_reverse]

theorem fields_line {s : KSym} (h : s.Ok) : fields [] s.line = hex16 s.addr :: [s.typ] :: s.name ::
    match s.mod with
    | none => []
    | some m => ['[' :: m ++ [']']] := by
  rw [line_tail, fields_sep _ _ _ (hex16_word s.addr) (by decide)]
  have ht : Word [s.typ] := ⟨by simp, by simpa using h.1⟩
  have := fields_sep [s.typ] ' ' s.tail ht (by decide)
  rw [List.singleton_append] at this
  rw [this]
  unfold KSym.tail
  cases hm : s.mod with
  | none => simp only [List.append_nil]; rw [fields_last _ h.2.1]
  | some m =>
    simp only []
    rw [List.cons_append, fields_sep _ _ _ h.2.1 (by decide)]
    rw [fields_last _ (bracket_word (h.2.2.1 m hm).1)]

/-- **C80, a symbol.** The line the kernel writes for a symbol is read as the symbol. -/
theorem kline_read {s : KSym} (h : s.Ok) : kline s.line = some s.read := by
  unfold kline
  simp only [(line_solid h).trim]
  rw [if_neg (line_solid h).1, fields_line h]
  simp only [parse_hex16, h.2.1.solid.trim, KSym.read]
  cases hm : s.mod with
  | none => rfl
  | some m =>
    obtain ⟨h1, h2, h3⟩ := h.2.2.1 m hm
    simp only [trimBr_bracket m h2 h3 h1.1, Option.getD_some]

theorem scan_some (sysBPF : String) (syms : List KSym) : ∀ t, ∃ t', Kallsyms.scan sysBPF (syms.map KSym.read) t = some t' := by
  induction syms with
  | nil => intro t; exact ⟨t, rfl⟩
  | cons s ss ih =>
    intro t
    have : ∃ t1, Kallsyms.step sysBPF t s.read = some t1 := by
      rw [← Option.isSome_iff_exists]
      have ha : s.read.addr = some s.addr.toNat := rfl
      unfold Kallsyms.step
      rw [ha]
      repeat' split
      all_goals first | rfl | simp_all
    obtain ⟨t1, h1⟩ := this
    obtain ⟨t2, h2⟩ := ih t1
    exact ⟨t2, by simp [Kallsyms.scan, h1, h2]⟩

/-- **C80, the file.** Whatever symbols the kernel has, reading /proc/kallsyms succeeds, and the tables are those of exactly these symbols in this order. -/
theorem kallsyms_read (sysBPF : String) (syms : List KSym) (h : ∀ s ∈ syms, s.Ok) :
    newKallsyms sysBPF (file (syms.map KSym.line)) = Kallsyms.scan sysBPF (syms.map KSym.read) Kallsyms.Tables.empty ∧
    ∃ t, newKallsyms sysBPF (file (syms.map KSym.line)) = some t := by
  have e : newKallsyms sysBPF (file (syms.map KSym.line)) = Kallsyms.scan sysBPF (syms.map KSym.read) Kallsyms.Tables.empty := by
    unfold newKallsyms
    rw [scanLines_file _ (by
      intro l hl
      obtain ⟨s, hs, rfl⟩ := List.mem_map.1 hl
      exact ⟨line_noNl (h s hs), (h s hs).2.2.2⟩)]
    have hf : ((syms.map KSym.line).map dropCR).filterMap kline = syms.map KSym.read := by
      clear sysBPF
      induction syms with
      | nil => rfl
      | cons s ss ih =>
        have hs := h s (by simp)
        simp only [List.map_cons, List.filterMap_cons, (line_solid hs).noCR, kline_read hs]
        rw [ih (fun x hx => h x (List.mem_cons_of_mem _ hx))]
    simp only [hf]
    cases Kallsyms.scan sysBPF (syms.map KSym.read) Kallsyms.Tables.empty <;> simp
  exact ⟨e, by rw [e]; exact scan_some sysBPF syms _⟩

/-- A symbol of code. -/
def KSym.text (s : KSym) : Bool := s.typ == 't' || s.typ == 'T'

theorem typ_eq (c : Char) (d : Char) : String.ofList [c] = String.ofList [d] ↔ c = d := by
  constructor
  · intro h
    have := congrArg String.toList h
    simpa using this
  · rintro rfl; rfl

theorem read_text (s : KSym) : (s.read.typ = "t" ∨ s.read.typ = "T") ↔ s.text = true := by
  have h1 : ("t" : String) = String.ofList ['t'] := rfl
  have h2 : ("T" : String) = String.ofList ['T'] := rfl
  unfold KSym.text KSym.read
  rw [h1, h2, typ_eq, typ_eq]
  simp

theorem texts_read (syms : List KSym) : Kallsyms.texts (syms.map KSym.read) =
    (syms.filter KSym.text).map fun s => ⟨s.addr.toNat, String.ofList s.name, String.ofList (s.mod.getD [])⟩ := by
  induction syms with
  | nil => rfl
  | cons s ss ih =>
    simp only [List.map_cons, Kallsyms.texts, ih, read_text]
    cases h : s.text
    · simp [List.filter_cons, h]
    · simp [List.filter_cons, h, KSym.read]

/-- **C80, addresses.** In the tables made of the file, an address that is not above the last symbol of code is found as the nearest symbol of code at or below
it, with its name and module; only if there is none, nothing is found. (Above the last one: `Kallsyms.find_above_last_violated`.) -/
theorem kallsyms_find (sysBPF : String) (syms : List KSym) (h : ∀ s ∈ syms, s.Ok) (addr : Nat)
    (hmax : ∃ s ∈ syms, s.text = true ∧ addr ≤ s.addr.toNat) :
    ∃ t, newKallsyms sysBPF (file (syms.map KSym.line)) = some t ∧
    ((Kallsyms.find t addr = some none ∧ ∀ s ∈ syms, s.text = true → addr < s.addr.toNat) ∨
     ∃ (e : Kallsyms.Entry) (s : KSym), Kallsyms.find t addr = some (some e) ∧ s ∈ syms ∧ s.text = true ∧ e.addr = s.addr.toNat ∧
       e.name = String.ofList s.name ∧ e.mod = String.ofList (s.mod.getD []) ∧ s.addr.toNat ≤ addr ∧
       ∀ s' ∈ syms, s'.text = true → s'.addr.toNat ≤ addr → s'.addr.toNat ≤ s.addr.toNat) := by
  obtain ⟨h1, t, h2⟩ := kallsyms_read sysBPF syms h
  refine ⟨t, h2, ?_⟩
  rw [h1] at h2
  have hmem : ∀ x, x ∈ Kallsyms.texts (syms.map KSym.read) ↔ ∃ s ∈ syms, s.text = true ∧
      x = ⟨s.addr.toNat, String.ofList s.name, String.ofList (s.mod.getD [])⟩ := by
    intro x
    rw [texts_read, List.mem_map]
    constructor
    · rintro ⟨s, hs, rfl⟩
      exact ⟨s, (List.mem_filter.1 hs).1, (List.mem_filter.1 hs).2, rfl⟩
    · rintro ⟨s, hs, ht, rfl⟩
      exact ⟨s, List.mem_filter.2 ⟨hs, ht⟩, rfl⟩
  obtain ⟨s0, hs0, ht0, ha0⟩ := hmax
  have hm : ∃ s ∈ Kallsyms.texts (syms.map KSym.read), addr ≤ s.addr := ⟨_, (hmem _).2 ⟨s0, hs0, ht0, rfl⟩, ha0⟩
  have hne : Kallsyms.texts (syms.map KSym.read) ≠ [] := by
    obtain ⟨s, hs, _⟩ := hm
    exact List.ne_nil_of_mem hs
  rcases Kallsyms.find_floor_partial h2 hne addr hm with ⟨hf, hall⟩ | ⟨e, i, s, hf, hi, he1, he2, he3, hle, hbest, _⟩
  · left
    exact ⟨hf, fun s hs ht => hall _ ((hmem _).2 ⟨s, hs, ht, rfl⟩)⟩
  · right
    obtain ⟨k, hk, hkt, rfl⟩ := (hmem s).1 (List.mem_of_getElem? hi)
    exact ⟨e, k, hf, hk, hkt, he1, he2, he3, hle, fun s' hs' ht' hl' => hbest _ ((hmem _).2 ⟨s', hs', ht', rfl⟩) hl'⟩

/-- The symbols whose address is kept by name. -/
def KSym.kept (sysBPF : String) (s : KSym) : Bool :=
  let n := String.ofList s.name
  let data := n ∈ ["__start__bpf_raw_tp", "__stop__bpf_raw_tp", "bpf_trace_modules", "x86_pmu"]
  (s.text && decide (n = "_stext" ∨ n = sysBPF ∨ data)) || ((s.typ == 'D' || s.typ == 'd') && decide data) ||
    ((s.typ == 'R' || s.typ == 'r') && decide (n = "btf_id_deny"))

theorem isData_iff (n : String) : Kallsyms.isData n = true ↔ n ∈ ["__start__bpf_raw_tp", "__stop__bpf_raw_tp", "bpf_trace_modules", "x86_pmu"] := by
  simp [Kallsyms.isData, or_assoc]

theorem read_is (s : KSym) (c : Char) : s.read.typ = String.ofList [c] ↔ s.typ = c := typ_eq _ _

theorem addText_special (t : Kallsyms.Tables) (a : Nat) (n m : String) : (Kallsyms.addText t a n m).special = t.special := by
  unfold Kallsyms.addText; split <;> rfl

theorem addText_mods (t : Kallsyms.Tables) (a : Nat) (n m : String) : (Kallsyms.addText t a n m).mods = t.mods := by
  unfold Kallsyms.addText; split <;> rfl

theorem addSpecial_mods (b : String) (t : Kallsyms.Tables) (a : Nat) (n : String) : (Kallsyms.addSpecial b t a n).mods = t.mods := by
  unfold Kallsyms.addSpecial; split <;> rfl

theorem addMod_special (t : Kallsyms.Tables) (m : String) : (Kallsyms.addMod t m).special = t.special := by
  unfold Kallsyms.addMod; split <;> rfl

theorem step_special (sysBPF : String) (t t' : Kallsyms.Tables) (s : KSym) (h : Kallsyms.step sysBPF t s.read = some t') :
    t'.special = if s.kept sysBPF then Kallsyms.put t.special (String.ofList s.name) s.addr.toNat else t.special := by
  have ha : s.read.addr = some s.addr.toNat := rfl
  have hn : s.read.name = String.ofList s.name := rfl
  unfold Kallsyms.step at h
  have hDi : (s.read.typ = "D" ∨ s.read.typ = "d") ↔ (s.typ = 'D' ∨ s.typ = 'd') := or_congr (read_is s 'D') (read_is s 'd')
  have hRi : (s.read.typ = "R" ∨ s.read.typ = "r") ↔ (s.typ = 'R' ∨ s.typ = 'r') := or_congr (read_is s 'R') (read_is s 'r')
  rw [ha, hn] at h
  unfold KSym.kept
  by_cases ht : s.text = true
  · rw [if_pos ((read_text s).2 ht)] at h
    simp only [Option.some.injEq] at h
    rw [← h, addMod_special]
    unfold Kallsyms.addSpecial
    have hd : ((s.typ == 'D' || s.typ == 'd') = false) ∧ (s.typ == 'R' || s.typ == 'r') = false := by
      simp only [KSym.text, Bool.or_eq_true, beq_iff_eq] at ht
      rcases ht with e | e <;> rw [e] <;> decide
    simp only [ht, hd.1, hd.2, Bool.true_and, Bool.false_and, Bool.or_false, decide_eq_true_eq, isData_iff]
    split <;> simp only [addText_special]
  · rw [if_neg (fun hc => ht ((read_text s).1 hc))] at h
    have ht' : s.text = false := by simpa using ht
    simp only [ht', Bool.false_and, Bool.false_or]
    by_cases hD : s.typ = 'D' ∨ s.typ = 'd'
    · rw [if_pos (hDi.2 hD)] at h
      have e : (s.typ == 'D' || s.typ == 'd') = true := by simpa using hD
      have e2 : (s.typ == 'R' || s.typ == 'r') = false := by rcases hD with e | e <;> rw [e] <;> decide
      simp only [e, e2, Bool.true_and, Bool.false_and, Bool.or_false, decide_eq_true_eq, ← isData_iff]
      split at h
      · next hd => rw [if_pos hd]; simp only [Option.map_some, Option.some.injEq] at h; rw [← h]
      · next hd => rw [if_neg hd]; simp only [Option.some.injEq] at h; rw [← h]
    · rw [if_neg (fun hc => hD (hDi.1 hc))] at h
      have e : (s.typ == 'D' || s.typ == 'd') = false := by simpa using hD
      simp only [e, Bool.false_and, Bool.false_or]
      by_cases hR : s.typ = 'R' ∨ s.typ = 'r'
      · rw [if_pos (hRi.2 hR)] at h
        have e2 : (s.typ == 'R' || s.typ == 'r') = true := by simpa using hR
        simp only [e2, Bool.true_and, decide_eq_true_eq]
        split at h
        · next hd => rw [if_pos hd]; simp only [Option.map_some, Option.some.injEq] at h; rw [← h]
        · next hd => rw [if_neg hd]; simp only [Option.some.injEq] at h; rw [← h]
      · rw [if_neg (fun hc => hR (hRi.1 hc))] at h
        have e2 : (s.typ == 'R' || s.typ == 'r') = false := by simpa using hR
        simp only [e2, Bool.false_and, Bool.false_eq_true, if_false]
        simp only [Option.some.injEq] at h
        rw [← h]

theorem scan_special (sysBPF : String) (n : String) (syms : List KSym) : ∀ t t', Kallsyms.scan sysBPF (syms.map KSym.read) t = some t' →
    Kallsyms.lookup t'.special n =
      ((syms.reverse.find? fun s => s.kept sysBPF && decide (String.ofList s.name = n)).map fun s => s.addr.toNat).or (Kallsyms.lookup t.special n) := by
  induction syms with
  | nil => intro t t' h; simp only [List.map_nil, Kallsyms.scan, Option.some.injEq] at h; rw [← h]; rfl
  | cons s ss ih =>
    intro t t' h
    simp only [List.map_cons, Kallsyms.scan, Option.bind_eq_some_iff] at h
    obtain ⟨t1, h1, h2⟩ := h
    rw [ih t1 t' h2, step_special sysBPF t t1 s h1]
    rw [List.reverse_cons, List.find?_append]
    cases hf : ss.reverse.find? (fun s => s.kept sysBPF && decide (String.ofList s.name = n)) with
    | some x => simp
    | none =>
      simp only [Option.map_none, Option.none_or, List.find?_cons, List.find?_nil]
      cases hk : s.kept sysBPF with
      | false => simp
      | true =>
        simp only [if_true, Kallsyms.lookup_put, Bool.true_and]
        by_cases hn : String.ofList s.name = n
        · rw [if_pos hn.symm]; simp [hn]
        · rw [if_neg (fun e => hn e.symm)]; simp [hn]

/-- **C80, single symbols.** The addresses of `_stext`, of the system call, of the tracepoints, of the list of modules with tracepoints, of `x86_pmu` and of
`btf_id_deny` are those of the last symbol of that name and a fitting type. -/
theorem kallsyms_special (sysBPF n : String) (syms : List KSym) (h : ∀ s ∈ syms, s.Ok) :
    ∃ t, newKallsyms sysBPF (file (syms.map KSym.line)) = some t ∧
    Kallsyms.lookup t.special n = (syms.reverse.find? fun s => s.kept sysBPF && decide (String.ofList s.name = n)).map fun s => s.addr.toNat := by
  obtain ⟨h1, t, h2⟩ := kallsyms_read sysBPF syms h
  refine ⟨t, h2, ?_⟩
  rw [h1] at h2
  rw [scan_special sysBPF n syms _ _ h2]
  simp [Kallsyms.Tables.empty, Kallsyms.lookup]

theorem step_mods (sysBPF : String) (t t' : Kallsyms.Tables) (s : KSym) (h : Kallsyms.step sysBPF t s.read = some t') :
    t'.mods = if s.text && !t.mods.contains (String.ofList (s.mod.getD [])) && !Kallsyms.isBuiltinMod (String.ofList (s.mod.getD [])) then
      t.mods ++ [String.ofList (s.mod.getD [])] else t.mods := by
  have ha : s.read.addr = some s.addr.toNat := rfl
  have hm : s.read.mod = String.ofList (s.mod.getD []) := rfl
  unfold Kallsyms.step at h
  by_cases ht : s.text = true
  · rw [if_pos ((read_text s).2 ht), ha] at h
    simp only [Option.some.injEq] at h
    rw [← h, hm, Kallsyms.addMod]
    simp only [addSpecial_mods, addText_mods, ht, Bool.true_and]
    split <;> simp only [addSpecial_mods, addText_mods]
  · rw [if_neg (fun hc => ht ((read_text s).1 hc)), ha] at h
    have ht' : s.text = false := by simpa using ht
    simp only [ht', Bool.false_and, Bool.false_eq_true, if_false]
    repeat' split at h
    all_goals simp only [Option.map_some, Option.some.injEq] at h
    all_goals rw [← h]

theorem scan_mods (sysBPF : String) (syms : List KSym) : ∀ t t', Kallsyms.scan sysBPF (syms.map KSym.read) t = some t' → t.mods.Nodup →
    t'.mods.Nodup ∧ ∀ m, m ∈ t'.mods ↔ m ∈ t.mods ∨ (Kallsyms.isBuiltinMod m = false ∧ ∃ s ∈ syms, s.text = true ∧ m = String.ofList (s.mod.getD [])) := by
  induction syms with
  | nil => intro t t' h hn; simp only [List.map_nil, Kallsyms.scan, Option.some.injEq] at h; rw [← h]; exact ⟨hn, by simp⟩
  | cons s ss ih =>
    intro t t' h hn
    simp only [List.map_cons, Kallsyms.scan, Option.bind_eq_some_iff] at h
    obtain ⟨t1, h1, h2⟩ := h
    have hs := step_mods sysBPF t t1 s h1
    have hn1 : t1.mods.Nodup := by
      rw [hs]
      split
      · next hc =>
        rw [List.nodup_append]
        refine ⟨hn, by simp, ?_⟩
        intro a ha b hb
        rw [List.mem_singleton] at hb
        rw [hb]
        intro e
        simp only [Bool.and_eq_true, Bool.not_eq_true', List.contains_eq_mem, decide_eq_false_iff_not] at hc
        exact hc.1.2 (e ▸ ha)
      · exact hn
    obtain ⟨g1, g2⟩ := ih t1 t' h2 hn1
    refine ⟨g1, fun m => ?_⟩
    rw [g2, hs]
    by_cases hb : Kallsyms.isBuiltinMod m = false
    · simp only [hb, true_and, List.mem_cons, exists_eq_or_imp]
      split
      · next hc =>
        simp only [Bool.and_eq_true] at hc
        simp only [List.mem_append, List.mem_singleton, hc.1.1, true_and, or_assoc]
      · next hc =>
        constructor
        · rintro (h | h)
          · exact .inl h
          · exact .inr (.inr h)
        · rintro (h | ⟨ht, rfl⟩ | h)
          · exact .inl h
          · left
            simp only [ht, hb, Bool.not_false, Bool.and_true, Bool.true_and, Bool.not_eq_true', List.contains_eq_mem, decide_eq_false_iff_not,
              Classical.not_not] at hc
            exact hc
          · exact .inr h
    · have hb' : Kallsyms.isBuiltinMod m = true := by simpa using hb
      simp only [hb', Bool.true_eq_false, false_and, or_false]
      split
      · next hc =>
        simp only [Bool.and_eq_true, Bool.not_eq_true'] at hc
        simp only [List.mem_append, List.mem_singleton, or_iff_left_iff_imp]
        rintro rfl
        rw [hb'] at hc
        exact absurd hc.2 (by decide)
      · exact Iff.rfl

/-- **C80, modules.** The modules known are those with symbols of code, each once, without the kernel's own and without `bpf`. -/
theorem kallsyms_mods (sysBPF : String) (syms : List KSym) (h : ∀ s ∈ syms, s.Ok) :
    ∃ t, newKallsyms sysBPF (file (syms.map KSym.line)) = some t ∧ t.mods.Nodup ∧
    ∀ m, m ∈ t.mods ↔ ¬ (m = "" ∨ m = "bpf" ∨ "__builtin".toList <+: m.toList) ∧ ∃ s ∈ syms, s.text = true ∧ m = String.ofList (s.mod.getD []) := by
  obtain ⟨h1, t, h2⟩ := kallsyms_read sysBPF syms h
  refine ⟨t, h2, ?_⟩
  rw [h1] at h2
  obtain ⟨g1, g2⟩ := scan_mods sysBPF syms _ _ h2 (by simp [Kallsyms.Tables.empty])
  exact ⟨g1, fun m => by rw [g2, ← Kallsyms.isBuiltinMod_iff, Bool.not_eq_true]; simp [Kallsyms.Tables.empty]⟩

/-! ### Functions that can be attached to -/

/-- The names are words and the lines fit. -/
def AvailOk (f : Str × Option Str) : Prop := Word f.1 ∧ (∀ m, f.2 = some m → Word m) ∧ (availLine f).length < 65536

theorem avail_solid {f : Str × Option Str} (h : AvailOk f) : Solid (availLine f) := by
  obtain ⟨n, m⟩ := f
  cases m with
  | none => simpa [availLine] using h.1.solid
  | some m =>
    have := solid_append h.1.solid [' '] (bracket_word (h.2.1 m rfl)).solid
    simpa [availLine] using this

theorem avail_noNl {f : Str × Option Str} (h : AvailOk f) : '\n' ∉ availLine f := by
  obtain ⟨n, m⟩ := f
  cases m with
  | none => simpa [availLine] using h.1.noNl
  | some m =>
    have h1 := h.1.noNl
    have h2 := (h.2.1 m rfl).noNl
    simp only [availLine, List.mem_append, not_or]
    exact ⟨h1, ⟨by decide, h2⟩, by decide⟩

theorem aline_read {f : Str × Option Str} (h : AvailOk f) : aline (availLine f) = some f.1 := by
  have hs := avail_solid h
  unfold aline
  simp only [hs.trim, if_neg hs.1]
  obtain ⟨n, m⟩ := f
  cases m with
  | none => simp only [availLine, List.append_nil]; rw [fields_last _ h.1]; rfl
  | some m =>
    have : availLine (n, some m) = n ++ ' ' :: ('[' :: m ++ [']']) := by simp [availLine]
    rw [this, fields_sep _ _ _ h.1 (by decide)]
    rfl

theorem avail_scan (fs : List (Str × Option Str)) (h : ∀ f ∈ fs, AvailOk f) :
    scanLines (file (fs.map availLine)) = (fs.map availLine, false) := by
  rw [scanLines_file _ (by
    intro l hl
    obtain ⟨f, hf, rfl⟩ := List.mem_map.mp hl
    exact ⟨avail_noNl (h f hf), (h f hf).2.2⟩)]
  congr 1
  rw [List.map_map]
  apply List.map_congr_left
  intro f hf
  exact (avail_solid (h f hf)).noCR

theorem filterMap_aline (fs : List (Str × Option Str)) (h : ∀ f ∈ fs, AvailOk f) :
    (fs.map availLine).filterMap aline = fs.map (·.1) := by
  induction fs with
  | nil => rfl
  | cons f fs ih =>
    have h1 := aline_read (h f List.mem_cons_self)
    simp only [List.map_cons, List.filterMap_cons, h1, ih fun g hg => h g (List.mem_cons_of_mem _ hg)]

/-- **C80, functions that can be attached to.** From either path the names of the functions are read as the kernel wrote them, without
the names of their modules; the path under debugfs is used only if the other one cannot be opened. -/
theorem available_read (fs : List (Str × Option Str)) (h : ∀ f ∈ fs, AvailOk f) (d : Option Str) :
    loadAvailable (some (file (fs.map availLine))) d = some (fs.map (·.1)) ∧
    loadAvailable none (some (file (fs.map availLine))) = some (fs.map (·.1)) ∧ loadAvailable none none = none := by
  refine ⟨?_, ?_, rfl⟩
  · simp only [loadAvailable, Option.some_or, avail_scan fs h, filterMap_aline fs h, Bool.false_eq_true, ↓reduceIte]
  · simp only [loadAvailable, Option.none_or, avail_scan fs h, filterMap_aline fs h, Bool.false_eq_true, ↓reduceIte]

theorem filterSymbols_eq (funcs ss : List Str) : filterSymbols funcs ss =
    (ss.filter fun s => !Att.skipSym s && funcs.contains s, ss.filter fun s => !(!Att.skipSym s && funcs.contains s)) := by
  induction ss with
  | nil => rfl
  | cons s ss ih =>
    simp only [filterSymbols, ih, List.filter_cons]
    cases h1 : Att.skipSym s <;> cases h2 : funcs.contains s <;> simp

theorem filter_split (p : Str → Bool) (ss : List Str) : (ss.filter p).length + (ss.filter fun s => !p s).length = ss.length := by
  induction ss with
  | nil => rfl
  | cons s ss ih =>
    simp only [List.filter_cons]
    cases p s <;> simp <;> omega

/-- **C80, choice of the functions.** Of the functions asked for those stay, in order, that the kernel can attach to and that are not one of
idle, RCU and of ftrace itself; the others are the ones reported as skipped. -/
theorem available_kept (fs : List (Str × Option Str)) (h : ∀ f ∈ fs, AvailOk f) (d : Option Str) (ss : List Str) :
    ∃ avail, loadAvailable (some (file (fs.map availLine))) d = some avail ∧
    (filterSymbols avail ss).1.Sublist ss ∧ (filterSymbols avail ss).2.Sublist ss ∧
    (∀ s, s ∈ (filterSymbols avail ss).1 ↔ s ∈ ss ∧ Att.skipSym s = false ∧ ∃ m, (s, m) ∈ fs) ∧
    (∀ s, s ∈ (filterSymbols avail ss).2 ↔ s ∈ ss ∧ (Att.skipSym s = true ∨ ∀ m, (s, m) ∉ fs)) ∧
    (filterSymbols avail ss).1.length + (filterSymbols avail ss).2.length = ss.length := by
  have hm : ∀ s, (fs.map (·.1)).contains s = true ↔ ∃ m, (s, m) ∈ fs := by
    intro s
    simp only [List.contains_iff_mem, List.mem_map, Prod.exists]
    constructor
    · rintro ⟨a, b, hb, rfl⟩; exact ⟨b, hb⟩
    · rintro ⟨m, hm⟩; exact ⟨s, m, hm, rfl⟩
  refine ⟨_, (available_read fs h d).1, ?_⟩
  rw [filterSymbols_eq]
  refine ⟨List.filter_sublist, List.filter_sublist, fun s => ?_, fun s => ?_, ?_⟩
  · simp only [List.mem_filter, Bool.and_eq_true, Bool.not_eq_true', hm]
  · simp only [List.mem_filter, Bool.not_eq_true', Bool.and_eq_false_iff, Bool.not_eq_false', ← not_exists, ← hm, Bool.not_eq_true]
  · exact filter_split _ ss

/-- The claim that only functions that can be attached to stay is false for a name of the kernel itself if a module has a function of
the same name: the module is not looked at. -/
theorem available_name_only_violated : ∃ (fs : List (Str × Option Str)) (s : Str), (∀ f ∈ fs, AvailOk f) ∧ (s, none) ∉ fs ∧
    ∃ avail, loadAvailable (some (file (fs.map availLine))) none = some avail ∧ (filterSymbols avail [s]).1 = [s] := by
  have h : ∀ f ∈ [("init_once".toList, some "fuse".toList)], AvailOk f := by
    intro f hf
    simp only [List.mem_singleton] at hf
    subst hf
    refine ⟨⟨by decide, by decide⟩, ?_, by decide⟩
    intro m hm
    cases hm
    exact ⟨by decide, by decide⟩
  exact ⟨_, "init_once".toList, h, by decide, _, (available_read _ h none).1, by decide⟩

/-! ### The programs of a process -/

theorem progLine_fields (id : BitVec 32) : fields [] ("prog_id:\t".toList ++ Nat.toDigits 10 id.toNat) = ["prog_id:".toList, Nat.toDigits 10 id.toNat] := by
  have h : "prog_id:\t".toList ++ Nat.toDigits 10 id.toNat = "prog_id:".toList ++ '\t' :: Nat.toDigits 10 id.toNat := rfl
  rw [h, fields_sep _ _ _ ⟨by decide, by decide⟩ (by decide), fields_last _ (toDigits_word 10 (by decide) (by decide) _)]

theorem parseU32_id (id : BitVec 32) : Flg.parseU32 (Nat.toDigits 10 id.toNat) = some id := by
  have h := parse_toDigits 10 (by decide) (by decide) id.toNat (by have := id.isLt; omega)
  unfold Flg.parseU32
  rw [h]
  simp only [id.isLt, ↓reduceIte, BitVec.ofNat_toNat, BitVec.setWidth_eq]

theorem toDigits_short (n : Nat) (k : Nat) (h : n < 10 ^ k) (hk : 0 < k) : (Nat.toDigits 10 n).length ≤ k := by
  induction k generalizing n with
  | zero => omega
  | succ k ih =>
    rw [Nat.toDigits_eq_if (by decide)]
    split
    · simp
    · next hn =>
      have h1 : n / 10 < 10 ^ k := by rw [Nat.pow_succ] at h; omega
      have h2 : 0 < k := by
        rcases Nat.eq_zero_or_pos k with rfl | h
        · omega
        · exact h
      have := ih (n / 10) h1 h2
      simp only [List.length_append, List.length_cons, List.length_nil]
      omega

theorem progLine_ok (id : BitVec 32) :
    ("prog_id:\t".toList ++ Nat.toDigits 10 id.toNat).length < 65536 ∧ '\n' ∉ "prog_id:\t".toList ++ Nat.toDigits 10 id.toNat ∧
    dropCR ("prog_id:\t".toList ++ Nat.toDigits 10 id.toNat) = "prog_id:\t".toList ++ Nat.toDigits 10 id.toNat := by
  have hw := toDigits_word 10 (by decide) (by decide) id.toNat
  have h1 := toDigits_short id.toNat 10 (by have := id.isLt; omega) (by decide)
  refine ⟨?_, ?_, ?_⟩
  · have : "prog_id:\t".toList.length = 9 := rfl
    rw [List.length_append]; omega
  · rw [List.mem_append, not_or]
    exact ⟨by decide, hw.noNl⟩
  · have h : Solid ("prog_id:".toList ++ (['\t'] ++ Nat.toDigits 10 id.toNat)) :=
      solid_append (Word.solid ⟨by decide, by decide⟩) _ hw.solid
    exact h.noCR

theorem dropCR_prefix (l : Str) : dropCR l <+: l := by
  unfold dropCR
  split
  · exact List.dropLast_prefix l
  · exact List.prefix_rfl

theorem infoLines_skip (b : Bool) (pre rest : List Str) (h : ∀ l ∈ pre, ¬ "prog_id:".toList <+: l) :
    infoLines b (pre.map dropCR ++ rest) = infoLines b rest := by
  induction pre with
  | nil => rfl
  | cons l pre ih =>
    have h1 : "prog_id:".toList.isPrefixOf (dropCR l) = false := by
      rw [← Bool.not_eq_true, List.isPrefixOf_iff_prefix]
      intro h2
      exact h l List.mem_cons_self (h2.trans (dropCR_prefix l))
    simp only [List.map_cons, List.cons_append, infoLines, h1, Bool.false_eq_true, ↓reduceIte]
    exact ih fun x hx => h x (List.mem_cons_of_mem _ hx)

theorem info_prog (id : BitVec 32) (t : Str) (h : IsInfo id t) : infoLines (scanLines t).2 (scanLines t).1 = .prog id := by
  obtain ⟨pre, post, rfl, hp⟩ := h
  obtain ⟨h1, h2, h3⟩ := progLine_ok id
  have hf : file (pre ++ ("prog_id:\t".toList ++ Nat.toDigits 10 id.toNat) :: post) =
      file (pre ++ ["prog_id:\t".toList ++ Nat.toDigits 10 id.toNat]) ++ file post := by simp [file]
  have hall : ∀ l ∈ pre ++ ["prog_id:\t".toList ++ Nat.toDigits 10 id.toNat], '\n' ∉ l ∧ l.length < 65536 := by
    intro l hl
    rcases List.mem_append.mp hl with hl | hl
    · exact ⟨(hp l hl).1, (hp l hl).2.1⟩
    · rw [List.mem_singleton.mp hl]; exact ⟨h2, h1⟩
  have hs : ∃ b rest, scanLines (file (pre ++ ("prog_id:\t".toList ++ Nat.toDigits 10 id.toNat) :: post)) =
      (pre.map dropCR ++ ("prog_id:\t".toList ++ Nat.toDigits 10 id.toNat) :: rest, b) := by
    unfold scanLines
    simp only [hf]
    rw [rawLines_file _ _ fun l hl => (hall l hl).1, List.takeWhile_append_of_pos (by
      intro l hl
      exact decide_eq_true (hall l hl).2)]
    refine ⟨(pre ++ ["prog_id:\t".toList ++ Nat.toDigits 10 id.toNat] ++ rawLines [] (file post)).any fun l =>
      decide (maxToken ≤ List.length l), ((rawLines [] (file post)).takeWhile fun l => decide (List.length l < maxToken)).map dropCR, ?_⟩
    rw [List.map_append, List.map_append, List.map_cons, List.map_nil, h3, List.append_assoc]
    rfl
  obtain ⟨b, rest, hs⟩ := hs
  rw [hs]
  simp only
  rw [infoLines_skip _ _ _ fun l hl => (hp l hl).2.2]
  have hpre : "prog_id:".toList.isPrefixOf ("prog_id:\t".toList ++ Nat.toDigits 10 id.toNat) = true := by
    rw [List.isPrefixOf_iff_prefix]
    exact ⟨'\t' :: Nat.toDigits 10 id.toNat, rfl⟩
  simp only [infoLines, hpre, ↓reduceIte, progLine_fields, List.getElem?_cons_succ, List.getElem?_cons_zero, parseU32_id]

theorem fdEntry_is (e : Fd) (p : Option (BitVec 32)) (h : FdIs e p) :
    fdEntry e = match p with | some id => .prog id | none => .skip := by
  cases p with
  | none =>
    simp only [FdIs] at h
    unfold fdEntry
    cases hl : e.link with
    | none => rfl
    | some l => simp only [if_pos (h l hl)]
  | some id =>
    obtain ⟨h1, t, h2, h3⟩ := h
    show fdEntry e = .prog id
    unfold fdEntry
    rw [h1, h2]
    have ht : ¬ Flg.trim "anon_inode:bpf-prog".toList ≠ "anon_inode:bpf-prog".toList := by decide
    simp only [if_neg ht]
    exact info_prog id t h3

/-- **C80, programs of a process.** For a process whose open files the kernel shows in its format exactly the programs among them are traced,
in their order, each as if it had been named by its id; nothing else is, and reading does not panic. -/
theorem pid_programs (s : Flg.Sys) (imm : Flg.Imm) (es : List (Fd × Option (BitVec 32))) (h : ∀ e ∈ es, FdIs e.1 e.2) (ts : List Flg.Tracing) :
    byPid s imm (es.map (·.1)) ts =
      match Flg.foldO (fun id => Flg.addByID s id imm) (es.filterMap (·.2)) ts with
      | none => .err
      | some ts => .ok ts := by
  induction es generalizing ts with
  | nil => rfl
  | cons e es ih =>
    have h1 := fdEntry_is e.1 e.2 (h e List.mem_cons_self)
    have ih := ih fun x hx => h x (List.mem_cons_of_mem _ hx)
    obtain ⟨e, p⟩ := e
    cases p with
    | none =>
      simp only at h1
      simp only [List.map_cons, byPid, h1, List.filterMap_cons, ih]
    | some id =>
      simp only at h1
      simp only [List.map_cons, byPid, h1, List.filterMap_cons, Flg.foldO]
      cases Flg.addByID s id imm ts with
      | none => rfl
      | some ts => exact ih ts

/-- The format is trusted: a line without an id stops the tool with a panic. -/
theorem pid_format_violated : fdEntry ⟨some "anon_inode:bpf-prog".toList, some (file ["prog_id:".toList])⟩ = .panic := by decide +kernel

/-! ### The number of branch records -/

/-- **C80, number of branch records.** On amd64, if the kernel has the struct with the member and its memory can be read, the number is
the 32-bit little-endian value there, unless it is zero, then the tool stops; elsewhere it is 32 and nothing is read. -/
theorem lbr_nr (pmu : BitVec 64) (ms : List Member) (x : Member) (m : KRead.Mem) (b : List KRead.Byte) (hb : b.length = KRead.buffSize)
    (hp : pmu ≠ 0) (hx : ms.find? (fun x => x.name = "lbr_nr".toList) = some x) (v : BitVec 32) (rest : BitVec 32)
    (hm : ∀ i, i < 4 → m (pmu + x.off.setWidth 64 + BitVec.ofNat 64 i) = some ((v >>> (8 * i)).setWidth 8))
    (hr : ∀ i, i < 4 → m (pmu + x.off.setWidth 64 + BitVec.ofNat 64 (4 + i)) = some ((rest >>> (8 * i)).setWidth 8)) :
    readLbrNr true pmu (some ms) m b = (if v = 0 then .fatal else .ok v) ∧
    (∀ pmu btf, readLbrNr false pmu btf m b = .ok 32) := by
  refine ⟨?_, fun _ _ => rfl⟩
  obtain ⟨d, h1, h2, h3⟩ := KRead.read_exact m b hb (pmu + x.off.setWidth 64) 4 (by decide) (by
    intro i hi
    have hi : i < 8 := hi
    by_cases h4 : i < 4
    · rw [hm i h4]; rfl
    · have := hr (i - 4) (by omega)
      rw [show 4 + (i - 4) = i by omega] at this
      rw [this]; rfl)
  have h2 : d.length = 4 := h2
  have g (i : Nat) (hi : i < 4) : d[i]? = some ((v >>> (8 * i)).setWidth 8) := by rw [h3 i hi, hm i hi]
  have h0 : Att.u32At d 0 = v := by
    match d, h2 with
    | [a, b, c, e], _ =>
      have g0 := g 0 (by decide)
      have g1 := g 1 (by decide)
      have g2 := g 2 (by decide)
      have g3 := g 3 (by decide)
      simp only [List.getElem?_cons_zero, List.getElem?_cons_succ, Option.some.injEq] at g0 g1 g2 g3
      subst g0 g1 g2 g3
      apply BitVec.eq_of_toNat_eq
      simp only [Att.u32At, List.drop_zero, List.take_succ_cons, List.take_zero, Arg.leVal, BitVec.toNat_ofNat, BitVec.toNat_setWidth, BitVec.toNat_ushiftRight, Nat.shiftRight_eq_div_pow]
      have := v.isLt
      omega
  unfold readLbrNr
  simp only [Bool.not_true, Bool.false_eq_true, ↓reduceIte, if_neg hp, hx, h1, h0]

/-- If the memory cannot be read the zeros of the failed read stop the tool instead of an error about the read. -/
theorem lbr_nr_fault_violated (pmu : BitVec 64) (ms : List Member) (x : Member) (m : KRead.Mem) (b : List KRead.Byte)
    (hb : b.length = KRead.buffSize) (hp : pmu ≠ 0) (hx : ms.find? (fun x => x.name = "lbr_nr".toList) = some x)
    (hf : ∃ i, i < 8 ∧ m (pmu + x.off.setWidth 64 + BitVec.ofNat 64 i) = none) :
    readLbrNr true pmu (some ms) m b = .fatal := by
  have h1 := KRead.fault_zeros_violated m b hb (pmu + x.off.setWidth 64) 4 (by decide) hf
  have h0 : Att.u32At (List.replicate (4 : BitVec 32).toNat 0#8) 0 = 0 := by decide
  unfold readLbrNr
  simp only [Bool.not_true, Bool.false_eq_true, ↓reduceIte, if_neg hp, hx, h1, h0]

/-! ### Witnesses -/

/-- Three symbols, one of a module, one not of code. -/
def exSyms : List KSym :=
  [⟨0xffffffff81000000, 'T', "_stext".toList, none⟩, ⟨0xffffffff82c01000, 'D', "x86_pmu".toList, none⟩,
   ⟨0xffffffffc0400120, 't', "veth_xmit".toList, some "veth".toList⟩]

theorem exSyms_ok : ∀ s ∈ exSyms, s.Ok := by
  intro s hs
  simp only [exSyms, List.mem_cons, List.not_mem_nil, or_false] at hs
  rcases hs with rfl | rfl | rfl
  · exact ⟨by decide, ⟨by decide, by decide⟩, nofun, by decide +kernel⟩
  · exact ⟨by decide, ⟨by decide, by decide⟩, nofun, by decide +kernel⟩
  · refine ⟨by decide, ⟨by decide, by decide⟩, ?_, by decide +kernel⟩
    intro m hm
    cases hm
    exact ⟨⟨by decide, by decide⟩, by decide, by decide⟩

example : (file (exSyms.map KSym.line)) =
    "ffffffff81000000 T _stext\nffffffff82c01000 D x86_pmu\nffffffffc0400120 t veth_xmit\t[veth]\n".toList := by decide +kernel

/-- The hypotheses of `kallsyms_read`, `kallsyms_find`, `kallsyms_special` and `kallsyms_mods` hold for it. -/
example : ∃ t, newKallsyms "__x64_sys_bpf" (file (exSyms.map KSym.line)) = some t := (kallsyms_read _ _ exSyms_ok).2

/-- A process with a socket and a program of id 42. -/
example : ∃ es : List (Fd × Option (BitVec 32)), (∀ e ∈ es, FdIs e.1 e.2) ∧ es.filterMap (·.2) = [42] := by
  refine ⟨[(⟨some "socket:[1234]".toList, none⟩, none),
    (⟨some "anon_inode:bpf-prog".toList, some "pos:\t0\nprog_type:\t6\nprog_id:\t42\nrun_cnt:\t0\n".toList⟩, some 42)], ?_, rfl⟩
  intro e he
  simp only [List.mem_cons, List.not_mem_nil, or_false] at he
  rcases he with rfl | rfl
  · intro l hl
    cases hl
    decide
  · refine ⟨rfl, _, rfl, ["pos:\t0".toList, "prog_type:\t6".toList], ["run_cnt:\t0".toList], by decide +kernel, ?_⟩
    intro l hl
    simp only [List.mem_cons, List.not_mem_nil, or_false] at hl
    rcases hl with rfl | rfl <;> exact ⟨by decide, by decide, by decide⟩

/-- A kernel with 32 records. -/
example : ∃ m : KRead.Mem, readLbrNr true 0xffffffff82c01000 (some [⟨"version".toList, 8⟩, ⟨"lbr_nr".toList, 0x1a8⟩]) m KRead.fresh = .ok 32 := by
  refine ⟨fun a => if a = 0xffffffff82c011a8 then some 32 else some 0, ?_⟩
  have h := (lbr_nr 0xffffffff82c01000 [⟨"version".toList, 8⟩, ⟨"lbr_nr".toList, 0x1a8⟩] ⟨"lbr_nr".toList, 0x1a8⟩
    (fun a => if a = 0xffffffff82c011a8 then some 32 else some 0) KRead.fresh (by simp [KRead.fresh]) (by decide) (by decide) 32 0
    (by intro i hi; match i, hi with | 0, _ => decide | 1, _ => decide | 2, _ => decide | 3, _ => decide)
    (by intro i hi; match i, hi with | 0, _ => decide | 1, _ => decide | 2, _ => decide | 3, _ => decide)).1
  rw [h]
  decide

/-- A last line without an end is a line too. -/
theorem rawLines_last (ls : List Str) (last : Str) (h : ∀ l ∈ ls, '\n' ∉ l) (hl : '\n' ∉ last) (h0 : last ≠ []) :
    rawLines [] (file ls ++ last) = ls ++ [last] := by
  rw [rawLines_file ls last h]
  congr 1
  have : ∀ (l acc : Str), '\n' ∉ l → rawLines acc l = if acc.reverse ++ l = [] then [] else [acc.reverse ++ l] := by
    intro l
    induction l with
    | nil => intro acc _; simp [rawLines]
    | cons c cs ih =>
      intro acc hc
      simp only [List.mem_cons, not_or] at hc
      rw [rawLines, if_neg fun e => hc.1 e.symm, ih _ hc.2]
      simp
  rw [this last [] hl]
  simp [h0]

end Bpfsnoop.Sf
