import Verif.Model.Disasm
import Verif.Props.Kallsyms
import Verif.Props.KRead
import Verif.Props.CcNum

/-! C55: what `-d -k` lists; C56: which instructions `(i)` traces. -/
namespace Bpfsnoop.Dis
open KRead

/-! ### Padding -/

/-- Specification: `t` is `b` without the padding bytes (0xcc, 0x90) at its end. -/
def Unpadded (b t : List Byte) : Prop :=
  ∃ pad, b = t ++ pad ∧ (∀ x ∈ pad, x = 0xcc#8 ∨ x = 0x90#8) ∧ ∀ x, t.getLast? = some x → x ≠ 0xcc#8 ∧ x ≠ 0x90#8

theorem isPad_iff (x : Byte) : isPad x = true ↔ x = 0xcc#8 ∨ x = 0x90#8 := by simp [isPad]

theorem trimTail_spec (b : List Byte) : Unpadded b (trimTail b) := by
  refine ⟨(b.reverse.takeWhile isPad).reverse, ?_, ?_, ?_⟩
  · rw [trimTail, ← List.reverse_append, List.takeWhile_append_dropWhile, List.reverse_reverse]
  · intro x hx
    rw [List.mem_reverse] at hx
    exact (isPad_iff x).1 (List.all_eq_true.1 List.all_takeWhile x hx)
  · intro x hx
    rw [trimTail, List.getLast?_reverse] at hx
    have h : ∀ l : List Byte, (l.dropWhile isPad).head? = some x → isPad x = false := by
      intro l
      induction l with
      | nil => simp
      | cons y l ih =>
        intro h
        by_cases hy : isPad y = true
        · rw [List.dropWhile_cons_of_pos hy] at h; exact ih h
        · rw [List.dropWhile_cons_of_neg hy] at h
          simp only [List.head?_cons, Option.some.injEq] at h
          rw [← h]; simpa using hy
    have := h _ hx
    have hn : ¬ (x = 0xcc#8 ∨ x = 0x90#8) := by rw [← isPad_iff]; simp [this]
    exact ⟨fun h => hn (.inl h), fun h => hn (.inr h)⟩

theorem unpadded_unique {b t t' : List Byte} (h : Unpadded b t) (h' : Unpadded b t') : t = t' := by
  obtain ⟨p, hb, hp, hl⟩ := h
  obtain ⟨p', hb', hp', hl'⟩ := h'
  rw [hb] at hb'
  rcases List.append_eq_append_iff.1 hb' with ⟨u, hu1, hu2⟩ | ⟨u, hu1, hu2⟩
  · cases hu : u.getLast? with
    | none => rw [List.getLast?_eq_none_iff.1 hu] at hu1; simpa using hu1.symm
    | some x =>
      have hx : t'.getLast? = some x := by rw [hu1, List.getLast?_append, hu]; rfl
      have := hl' x hx
      have hm : x ∈ p := by rw [hu2]; exact List.mem_append_left _ (List.mem_of_getLast? hu)
      rcases hp x hm with h | h
      · exact absurd h this.1
      · exact absurd h this.2
  · cases hu : u.getLast? with
    | none => rw [List.getLast?_eq_none_iff.1 hu] at hu1; simpa using hu1
    | some x =>
      have hx : t.getLast? = some x := by rw [hu1, List.getLast?_append, hu]; rfl
      have := hl x hx
      have hm : x ∈ p' := by rw [hu2]; exact List.mem_append_left _ (List.mem_of_getLast? hu)
      rcases hp' x hm with h | h
      · exact absurd h this.1
      · exact absurd h this.2

/-! ### The listing -/

/-- What is left over when the listing ends. -/
def End.left : End → List Byte
  | .done => []
  | .cut l => l
  | .fatal l => l

/-- Specification: the lines follow each other without gap or overlap from address `pc` and offset `off`. -/
def Contiguous : Nat → Nat → List Line → Prop
  | _, _, [] => True
  | pc, off, l :: ls => l.pc = pc ∧ l.off = off ∧ l.bytes ≠ [] ∧ Contiguous (pc + l.bytes.length) (off + l.bytes.length) ls

/-- Specification: what a line shows is what the disassembler says of the bytes from there on; a byte 0x82 it cannot
decode is shown as bad. -/
def Faithful (D : Decoder) (b : List Byte) (off : Nat) (l : Line) : Prop :=
  off ≤ l.off ∧
  (l.bad = false → ∃ k, D.dec l.pc (b.drop (l.off - off)) = some k ∧ l.bytes = (b.drop (l.off - off)).take k) ∧
  (l.bad = true → D.dec l.pc (b.drop (l.off - off)) = none ∧ l.bytes = [0x82#8] ∧ (b.drop (l.off - off)).head? = some 0x82#8)

/-- Specification: the listing stops early only where the disassembler fails, silently with at most ten bytes left and
with an error otherwise. -/
def EndsWell (D : Decoder) (pc len : Nat) : End → Prop
  | .done => True
  | .cut l => 0 < l.length ∧ l.length ≤ 10 ∧ D.dec (pc + (len - l.length)) l = none
  | .fatal l => 10 < l.length ∧ D.dec (pc + (len - l.length)) l = none ∧ l.head? ≠ some 0x82#8

theorem faithful_shift {D : Decoder} {b : List Byte} {off k : Nat} {l : Line} (h : Faithful D (b.drop k) (off + k) l) :
    Faithful D b off l := by
  obtain ⟨h1, h2, h3⟩ := h
  have e : (b.drop k).drop (l.off - (off + k)) = b.drop (l.off - off) := by
    rw [List.drop_drop]; congr 1; omega
  rw [e] at h2 h3
  exact ⟨by omega, h2, h3⟩

theorem endsWell_shift {D : Decoder} {pc k len : Nat} {e : End} (h : EndsWell D (pc + k) (len - k) e) (hk : k ≤ len)
    (hl : e.left.length ≤ len - k) : EndsWell D pc len e := by
  cases e with
  | done => trivial
  | cut l =>
    obtain ⟨h1, h2, h3⟩ := h
    simp only [End.left] at hl
    exact ⟨h1, h2, by rw [show pc + (len - l.length) = pc + k + (len - k - l.length) by omega]; exact h3⟩
  | fatal l =>
    obtain ⟨h1, h2, h3⟩ := h
    simp only [End.left] at hl
    exact ⟨h1, by rw [show pc + (len - l.length) = pc + k + (len - k - l.length) by omega]; exact h2, h3⟩

/-- **C55, the listing.** The lines shown and what is left over are together exactly the bytes disassembled, in order and
without gap; each line shows what the disassembler says of its address; the listing ends early only where the
disassembler fails. -/
theorem dump_spec (D : Decoder) (b : List Byte) (pc off : Nat) :
    ((dump D pc off b).1.map Line.bytes).flatten ++ (dump D pc off b).2.left = b ∧
    Contiguous pc off (dump D pc off b).1 ∧
    (∀ l ∈ (dump D pc off b).1, Faithful D b off l) ∧
    EndsWell D pc b.length (dump D pc off b).2 := by
  generalize hn : b.length = n
  induction n using Nat.strongRecOn generalizing b pc off with
  | _ n ih =>
    cases b with
    | nil => simp [dump, End.left, Contiguous, EndsWell]
    | cons x r =>
      have hlen : r.length + 1 = n := by simpa using hn
      rw [dump]
      split
      · rename_i hd
        split
        · rename_i hl
          simp only [List.length_cons] at hl
          refine ⟨by simp [End.left], trivial, by simp, ?_⟩
          simp only [EndsWell, List.length_cons]
          exact ⟨by omega, hl, by rw [show pc + (n - (r.length + 1)) = pc by omega]; exact hd⟩
        · rename_i hl
          split
          · rename_i hx
            obtain ⟨h1, h2, h3, h4⟩ := ih r.length (by omega) r (pc + 1) (off + 1) rfl
            have hle : (dump D (pc + 1) (off + 1) r).2.left.length ≤ r.length := by
              have := congrArg List.length h1
              simp only [List.length_append] at this
              omega
            refine ⟨by simp [h1], ⟨rfl, rfl, by simp, h2⟩, ?_, ?_⟩
            · intro l hl'
              simp only [List.mem_cons] at hl'
              rcases hl' with rfl | hl'
              · exact ⟨Nat.le_refl _, by simp, by simp [hx]; rw [← hx]; exact hd⟩
              · exact faithful_shift (k := 1) (b := x :: r) (h3 l hl')
            · exact endsWell_shift (k := 1) (by rw [show n - 1 = r.length by omega]; exact h4) (by omega)
                (Nat.le_trans hle (by omega))
          · rename_i hx
            refine ⟨by simp [End.left], trivial, by simp, ?_⟩
            simp only [EndsWell, List.length_cons, List.head?_cons, ne_eq, Option.some.injEq]
            simp only [List.length_cons] at hl
            exact ⟨by omega, by rw [show pc + (n - (r.length + 1)) = pc by omega]; exact hd, hx⟩
      · rename_i k hd
        obtain ⟨hk1, hk2⟩ := D.ok _ _ _ hd
        simp only [List.length_cons] at hk2
        have hdl : ((x :: r).drop k).length = n - k := by simp; omega
        obtain ⟨h1, h2, h3, h4⟩ := ih (n - k) (by omega) ((x :: r).drop k) (pc + k) (off + k) hdl
        have htl : ((x :: r).take k).length = k := by simp; omega
        have hle : (dump D (pc + k) (off + k) ((x :: r).drop k)).2.left.length ≤ n - k := by
          have := congrArg List.length h1
          simp only [List.length_append, hdl] at this
          omega
        refine ⟨?_, ⟨rfl, rfl, ?_, ?_⟩, ?_, ?_⟩
        · simp only [List.map_cons, List.flatten_cons, List.append_assoc]
          rw [h1, List.take_append_drop]
        · intro h0
          have h0' : (x :: r).take k = [] := h0
          rw [h0'] at htl
          simp at htl
          omega
        · simp only [htl]; exact h2
        · intro l hl'
          simp only [List.mem_cons] at hl'
          rcases hl' with rfl | hl'
          · exact ⟨Nat.le_refl _, fun _ => ⟨k, by simpa using hd, by simp⟩, by simp⟩
          · exact faithful_shift (h3 l hl')
        · exact endsWell_shift h4 (by omega) hle

/-! ### The bytes of the function -/

theorem guess_given (t : Kallsyms.Tables) (kaddr n : Nat) (h : n ≠ 0) : guessBytes t kaddr n = some n := by
  simp [guessBytes, h]

/-- Without `-B` the listing covers the bytes up to the next symbol, at most 4096. -/
theorem guess_next {sysBPF : String} {ls : List Kallsyms.Line} {t : Kallsyms.Tables}
    (hs : Kallsyms.scan sysBPF ls Kallsyms.Tables.empty = some t) (s : Kallsyms.Sym) (hm : s ∈ Kallsyms.texts ls) :
    ((∀ s' ∈ Kallsyms.texts ls, s'.addr ≤ s.addr) ∧ guessBytes t s.addr 0 = some 4096) ∨
    ∃ s' ∈ Kallsyms.texts ls, s.addr < s'.addr ∧ (∀ u ∈ Kallsyms.texts ls, s.addr < u.addr → s'.addr ≤ u.addr) ∧
      guessBytes t s.addr 0 = some (min (s'.addr - s.addr) 4096) := by
  rcases Kallsyms.next_successor_partial hs s.addr ⟨s, hm, Nat.le_refl _⟩ ⟨s, hm, Nat.le_refl _⟩ with ⟨h, h1⟩ | ⟨e, s', h, h1, h2, _, h3, h4⟩
  · exact .inl ⟨h1, by simp [guessBytes, h]⟩
  · exact .inr ⟨s', h1, h3, h4, by simp [guessBytes, h, h2]⟩

/-- Memory from `a` on holds these bytes. -/
def Holds (m : Mem) (a : Nat) (bs : List Byte) : Prop :=
  ∀ i (h : i < bs.length), m (BitVec.ofNat 64 (a + i)) = some bs[i]

theorem read_holds (m : Mem) (buff : List Byte) (hb : buff.length = buffSize) (a n : Nat) (hn : n ≤ 65528) (bs : List Byte)
    (hl : bs.length = (n + 7) / 8 * 8) (h : Holds m a bs) :
    (readKernel m buff (BitVec.ofNat 64 a) (BitVec.ofNat 32 n)).1 = .ok (bs.take n) := by
  have hsn : (BitVec.ofNat 32 n).toNat = n := by simp; omega
  have e : ∀ i, BitVec.ofNat 64 a + BitVec.ofNat 64 i = BitVec.ofNat 64 (a + i) := fun i => (BitVec.ofNat_add a i).symm
  obtain ⟨data, h1, h2, h3⟩ := read_exact m buff hb (BitVec.ofNat 64 a) (BitVec.ofNat 32 n) (by omega) (by
    intro i hi
    rw [hsn] at hi
    rw [e, h i (by omega)]; rfl)
  rw [h1]
  congr 1
  apply List.ext_getElem?
  intro i
  rw [hsn] at h2 h3
  by_cases hi : i < n
  · rw [h3 i hi, e, h i (by omega), List.getElem?_take, if_pos hi, List.getElem?_eq_getElem]
  · rw [List.getElem?_eq_none (by omega), List.getElem?_eq_none (by simp; omega)]

/-- **C55.** For a function symbol followed by another symbol within 4096 bytes, in readable memory, the listing shows
exactly the bytes of the function from its first byte on, except the padding (0xcc, 0x90) before the next symbol and
what is left over when the disassembler fails. -/
theorem function_listed {sysBPF : String} {ls : List Kallsyms.Line} {t : Kallsyms.Tables} (D : Decoder) (m : Mem)
    (hs : Kallsyms.scan sysBPF ls Kallsyms.Tables.empty = some t) (s s' : Kallsyms.Sym) (hm : s ∈ Kallsyms.texts ls)
    (hm' : s' ∈ Kallsyms.texts ls) (hlt : s.addr < s'.addr) (hnext : ∀ u ∈ Kallsyms.texts ls, s.addr < u.addr → s'.addr ≤ u.addr)
    (fn rest : List Byte) (hfn : fn.length = s'.addr - s.addr) (hfl : fn.length ≤ 4096) (hrest : rest.length < 8)
    (hround : (fn.length + rest.length) % 8 = 0) (hmem : Holds m s.addr (fn ++ rest)) :
    ∃ lines e code, dumpKfunc D m t s.addr 0 = .listing lines e ∧ Unpadded fn code ∧
      (lines.map Line.bytes).flatten ++ e.left = code ∧ Contiguous s.addr 0 lines ∧
      (∀ l ∈ lines, Faithful D code 0 l) ∧ EndsWell D s.addr code.length e := by
  have hg : guessBytes t s.addr 0 = some fn.length := by
    rcases guess_next hs s hm with ⟨h, _⟩ | ⟨u, hu, hu1, hu2, hu3⟩
    · have := h s' hm'; omega
    · have h1 := hu2 s' hm' hlt
      have h2 := hnext u hu hu1
      rw [hu3]; congr 1; omega
  have hr := read_holds m fresh List.length_replicate s.addr fn.length (by omega) (fn ++ rest) (by
    rw [List.length_append]; omega) hmem
  obtain ⟨h1, h2, h3, h4⟩ := dump_spec D (trimTail fn) s.addr 0
  refine ⟨_, _, trimTail fn, ?_, trimTail_spec fn, h1, h2, h3, h4⟩
  unfold dumpKfunc
  rw [hg]
  simp only []
  rw [if_neg (by rw [buffSize]; omega), hr]
  simp

/-- **C55 violated**: the padding is removed byte by byte, so a function whose last instruction ends in a byte 0x90 or
0xcc loses it; a short jump back by 112 bytes, `eb 90`, loses its operand and, if the disassembler does not accept the
rest, is not shown at all. -/
theorem jump_lost_violated (D : Decoder) (xs : List Byte) (pc off : Nat) (hD : D.dec pc [0xeb#8] = none) :
    trimTail (xs ++ [0xeb#8, 0x90#8]) = xs ++ [0xeb#8] ∧ dump D pc off [0xeb#8] = ([], .cut [0xeb#8]) := by
  constructor
  · apply unpadded_unique (trimTail_spec _)
    exact ⟨[0x90#8], by simp, by simp, by simp⟩
  · rw [dump]
    split
    · simp
    · rename_i h; rw [hD] at h; exact absurd h (by simp)

/-- **C55 violated**: `-B 65536` is within the limit, but the memory is not read (C54): the listing is of 65536 zero
bytes, whatever the function. -/
theorem listing_65536_violated (D : Decoder) (m : Mem) (t : Kallsyms.Tables) (kaddr : Nat) :
    dumpKfunc D m t kaddr 65536 = .listing (dump D kaddr 0 (List.replicate 65536 0#8)).1 (dump D kaddr 0 (List.replicate 65536 0#8)).2 := by
  have hr := full_buffer_stale_violated m fresh List.length_replicate (BitVec.ofNat 64 kaddr) (BitVec.ofNat 32 65536) (by decide) (by decide)
  have ht : trimTail (List.replicate 65536 0#8) = List.replicate 65536 0#8 := by
    apply unpadded_unique (trimTail_spec _)
    refine ⟨[], (List.append_nil _).symm, fun x hx => absurd hx List.not_mem_nil, ?_⟩
    intro x hx
    have := List.eq_of_mem_replicate (List.mem_of_getLast? hx)
    rw [this]; decide
  have hf : fresh.take (BitVec.ofNat 32 65536).toNat = List.replicate 65536 0#8 := by
    rw [show (BitVec.ofNat 32 65536).toNat = 65536 from by decide, fresh, buffSize, List.take_replicate, Nat.min_self]
  unfold dumpKfunc
  rw [guess_given _ _ _ (by decide)]
  simp only []
  rw [if_neg (by rw [buffSize]; omega), hr, hf]
  simp only [ht]

/-! ### Text taken as an address -/

/-- Text that is not a hexadecimal number is taken as a name. -/
theorem target_name (t : Kallsyms.Tables) (s : List Char) (h : parseAddr s = none) : target t s = .byName := by
  simp [target, h]

theorem spells_digit {r : List Char} {ds : List Nat} (h : Cc.Spells 16 r ds) : ∀ c ∈ r, ∃ d, Cc.digitVal c = some d ∧ d < 16 := by
  obtain ⟨_, h1, h2⟩ := h
  rw [← Cc.digitVal_fun] at h1
  intro c hc
  have : Cc.digitVal c ∈ ds.map some := by rw [← h1]; exact List.mem_map.mpr ⟨c, hc, rfl⟩
  obtain ⟨d, hd, hd'⟩ := List.mem_map.mp this
  exact ⟨d, hd'.symm, h2 d hd⟩

theorem underscoreOk_digits : ∀ r : List Char, (∀ c ∈ r, c ≠ '_') → underscoreOk r = true
  | [], _ => rfl
  | c :: r, h => by
    have hc : c ≠ '_' := h c (by simp)
    have ih := underscoreOk_digits r (fun x hx => h x (by simp [hx]))
    rw [underscoreOk]
    · exact ih
    · intro c' r' he; exact absurd he hc
    · intro he; exact absurd he hc

/-- Hexadecimal digits, with or without `0x` before them, are taken as the number they spell. -/
theorem address_text (r : List Char) (ds : List Nat) (h : Cc.Spells 16 r ds) (hv : Cc.digitsValue 16 ds < 2 ^ 64) :
    parseAddr r = some (Cc.digitsValue 16 ds) ∧ parseAddr ('0' :: 'x' :: r) = some (Cc.digitsValue 16 ds) := by
  have hd := spells_digit h
  have hu : ∀ c ∈ r, c ≠ '_' := by
    intro c hc he
    obtain ⟨d, h1, _⟩ := hd c hc
    rw [he] at h1
    rw [show Cc.digitVal '_' = none by decide] at h1
    cases h1
  have hf : r.filter (· ≠ '_') = r := List.filter_eq_self.mpr (fun c hc => by simpa using hu c hc)
  have hp := (Cc.parseUint_iff 16 (by decide) r _).mpr ⟨ds, h, rfl, hv⟩
  have hnx : "0x".toList.isPrefixOf r = false := by
    match r, hd with
    | [], _ => rfl
    | [c], _ => simp only [show "0x".toList = ['0', 'x'] from rfl, List.isPrefixOf, Bool.and_false]
    | c :: c' :: r', hd =>
      obtain ⟨d, h1, h2⟩ := hd c' (by simp)
      have : c' ≠ 'x' := by
        intro he; rw [he] at h1
        have : Cc.digitVal 'x' = some 33 := by decide
        rw [this] at h1; cases h1; omega
      simp only [show "0x".toList = ['0', 'x'] from rfl, List.isPrefixOf]
      have hx : ('x' == c') = false := by simpa using fun h => this h.symm
      rw [hx]; simp
  constructor
  · simp only [parseAddr, hnx, Bool.false_eq_true, if_false]
    rw [if_pos (underscoreOk_digits r hu), hf, hp]
  · have hx : "0x".toList.isPrefixOf ('0' :: 'x' :: r) = true := by
      simp only [show "0x".toList = ['0', 'x'] from rfl, List.isPrefixOf]; decide
    simp only [parseAddr, hx, if_true]
    rw [show List.drop 2 ('0' :: 'x' :: r) = r from rfl, if_pos (underscoreOk_digits r hu), hf, hp]

/-- An address given as text selects the symbol that covers it. -/
theorem address_selects {sysBPF : String} {ls : List Kallsyms.Line} {t : Kallsyms.Tables} (hs : Kallsyms.scan sysBPF ls Kallsyms.Tables.empty = some t)
    (r : List Char) (ds : List Nat) (h : Cc.Spells 16 r ds) (hv : Cc.digitsValue 16 ds < 2 ^ 64)
    (hlow : ∃ s ∈ Kallsyms.texts ls, s.addr ≤ Cc.digitsValue 16 ds) (hmax : ∃ s ∈ Kallsyms.texts ls, Cc.digitsValue 16 ds ≤ s.addr) :
    ∃ s ∈ Kallsyms.texts ls, target t r = .addr (Cc.digitsValue 16 ds) s.name ∧ target t ('0' :: 'x' :: r) = .addr (Cc.digitsValue 16 ds) s.name ∧
      s.addr ≤ Cc.digitsValue 16 ds ∧ ∀ s' ∈ Kallsyms.texts ls, s'.addr ≤ Cc.digitsValue 16 ds → s'.addr ≤ s.addr := by
  obtain ⟨h1, h2⟩ := address_text r ds h hv
  obtain ⟨u, hu, hu'⟩ := hlow
  rcases Kallsyms.find_floor_partial hs (List.ne_nil_of_mem hu) _ hmax with ⟨_, h3⟩ | ⟨e, i, s, h3, h4, _, h5, _, h6, h7, _⟩
  · have := h3 u hu; omega
  · exact ⟨s, List.mem_of_getElem? h4, by simp only [target, h1, h3, h5], by simp only [target, h2, h3, h5], h6, h7⟩

/-- **C55 violated**: a function whose name consists of the letters a to f (and digits and single underscores), such as
`add`, cannot be selected by name: it is taken as the address 0xadd. -/
theorem hex_name_violated {sysBPF : String} {ls : List Kallsyms.Line} {t : Kallsyms.Tables}
    (hs : Kallsyms.scan sysBPF ls Kallsyms.Tables.empty = some t) (s : Kallsyms.Sym) (hm : s ∈ Kallsyms.texts ls)
    (_ : s.name = "add") (hlow : ∀ u ∈ Kallsyms.texts ls, 0xadd < u.addr) :
    target t "add".toList = .noSymbol 0xadd := by
  have hp : parseAddr "add".toList = some 0xadd := by decide
  have hmem := Kallsyms.mem_addrs_texts (Kallsyms.scanned_inv hs)
  have hne : t.addrs ≠ [] := by
    intro h
    have := (hmem s.addr).mpr ⟨s, hm, rfl⟩
    simp [h] at this
  have hi : Kallsyms.index t.addrs 0xadd = some none := by
    rcases Kallsyms.index_spec t.addrs (Kallsyms.addrs_sorted t) hne 0xadd with ⟨h1, _⟩ | ⟨i, x, h1, h2, h3, _⟩
    · exact h1
    · obtain ⟨u, hu, hu'⟩ := (hmem x).mp (List.mem_of_getElem? h2)
      have := hlow u hu
      omega
  simp only [target, hp, Kallsyms.find, hi]

/-! ### C56: instruction tracing -/

/-- Specification: `bs` at address `ip` is instruction number `i` (from zero) of the code `b` at `pc`. -/
def NthInsn (D : Decoder) : Nat → Nat → List Byte → Nat → List Byte → Prop
  | 0, pc, b, ip, bs => ip = pc ∧ ∃ n, D.dec pc b = some n ∧ bs = b.take n
  | i + 1, pc, b, ip, bs => ∃ n, D.dec pc b = some n ∧ NthInsn D i (pc + n) (b.drop n) ip bs

theorem insnsOf_nth (D : Decoder) : ∀ (i pc : Nat) (b : List Byte) (ip : Nat) (bs : List Byte),
    (insnsOf D pc b)[i]? = some (ip, bs) ↔ NthInsn D i pc b ip bs := by
  intro i
  induction i with
  | zero =>
    intro pc b ip bs
    rw [insnsOf]
    split
    · rename_i hd; simp [NthInsn, hd]
    · rename_i n hd
      simp only [List.getElem?_cons_zero, Option.some.injEq, Prod.mk.injEq, NthInsn, hd]
      constructor
      · rintro ⟨h1, h2⟩; exact ⟨h1.symm, n, rfl, h2.symm⟩
      · rintro ⟨h1, k, h2, h3⟩; subst h2; exact ⟨h1.symm, h3.symm⟩
  | succ i ih =>
    intro pc b ip bs
    rw [insnsOf]
    split
    · rename_i hd; simp [NthInsn, hd]
    · rename_i n hd
      simp only [List.getElem?_cons_succ, ih, NthInsn, hd, Option.some.injEq]
      constructor
      · intro h; exact ⟨n, rfl, h⟩
      · rintro ⟨k, hk, h⟩; subst hk; exact h

/-- An instruction lies within the code and its bytes are the code's. -/
theorem nth_within (D : Decoder) : ∀ (i pc : Nat) (b : List Byte) (ip : Nat) (bs : List Byte), NthInsn D i pc b ip bs →
    pc ≤ ip ∧ bs ≠ [] ∧ ip + bs.length ≤ pc + b.length ∧ bs = (b.drop (ip - pc)).take bs.length := by
  intro i
  induction i with
  | zero =>
    rintro pc b ip bs ⟨rfl, n, hd, rfl⟩
    obtain ⟨h1, h2⟩ := D.ok _ _ _ hd
    have hl : (b.take n).length = n := by simp; omega
    refine ⟨Nat.le_refl _, ?_, by omega, by simp [Nat.min_eq_left h2]⟩
    intro h; rw [h] at hl; simp at hl; omega
  | succ i ih =>
    rintro pc b ip bs ⟨n, hd, h⟩
    obtain ⟨h1, h2⟩ := D.ok _ _ _ hd
    obtain ⟨h3, h4, h5, h6⟩ := ih _ _ _ _ h
    rw [List.length_drop] at h5
    refine ⟨by omega, h4, by omega, ?_⟩
    rw [List.drop_drop, show n + (ip - (pc + n)) = ip - pc by omega] at h6
    exact h6

theorem nth_lt (D : Decoder) : ∀ (i j pc : Nat) (b : List Byte) (ip jp : Nat) (bs cs : List Byte), i < j →
    NthInsn D i pc b ip bs → NthInsn D j pc b jp cs → ip + bs.length ≤ jp := by
  intro i
  induction i with
  | zero =>
    rintro (_ | j) pc b ip jp bs cs hij ⟨rfl, n, hd, rfl⟩ h
    · omega
    · obtain ⟨k, hk, h⟩ := h
      rw [hd] at hk
      simp only [Option.some.injEq] at hk
      subst hk
      have := (nth_within D _ _ _ _ _ h).1
      simp
      omega
  | succ i ih =>
    rintro (_ | j) pc b ip jp bs cs hij ⟨n, hd, h⟩ h'
    · omega
    · obtain ⟨k, hk, h'⟩ := h'
      rw [hd] at hk
      simp only [Option.some.injEq] at hk
      subst hk
      exact ih j _ _ _ _ _ _ (by omega) h h'

/-- A function symbol `s` whose bytes `fn` reach to the next symbol, in readable memory. -/
structure FuncAt (ls : List Kallsyms.Line) (m : Mem) (s : Kallsyms.Sym) (fn : List Byte) : Prop where
  sym : s ∈ Kallsyms.texts ls
  next : ∃ s' ∈ Kallsyms.texts ls, s.addr < s'.addr ∧ (∀ u ∈ Kallsyms.texts ls, s.addr < u.addr → s'.addr ≤ u.addr) ∧
    fn.length = s'.addr - s.addr
  short : fn.length ≤ 4096
  mem : ∃ rest : List Byte, rest.length < 8 ∧ (fn.length + rest.length) % 8 = 0 ∧ Holds m s.addr (fn ++ rest)

theorem func_bytes {sysBPF : String} {ls : List Kallsyms.Line} {t : Kallsyms.Tables} {m : Mem}
    (hs : Kallsyms.scan sysBPF ls Kallsyms.Tables.empty = some t) {s : Kallsyms.Sym} {fn : List Byte} (hf : FuncAt ls m s fn)
    (buff : List Byte) (hb : buff.length = buffSize) :
    guessBytes t s.addr 0 = some fn.length ∧
    (readKernel m buff (BitVec.ofNat 64 s.addr) (BitVec.ofNat 32 fn.length)).1 = .ok fn := by
  obtain ⟨hm, ⟨s', hm', hlt, hnext, hfn⟩, hfl, rest, hr1, hr2, hmem⟩ := hf
  constructor
  · rcases guess_next hs s hm with ⟨h, _⟩ | ⟨u, hu, hu1, hu2, hu3⟩
    · have := h s' hm'; omega
    · have h1 := hu2 s' hm' hlt
      have h2 := hnext u hu hu1
      rw [hu3]; congr 1; omega
  · rw [read_holds m buff hb s.addr fn.length (by omega) (fn ++ rest) (by rw [List.length_append]; omega) hmem]
    simp

/-- **C56.** For a function of at least four instructions the traced instructions are exactly those from the fifth on
that are not a one-byte `ret`, each recorded with its address, offset and bytes, whatever was read before. -/
theorem insns_traced {sysBPF : String} {ls : List Kallsyms.Line} {t : Kallsyms.Tables} (D : Decoder) (m : Mem)
    (hs : Kallsyms.scan sysBPF ls Kallsyms.Tables.empty = some t) (s : Kallsyms.Sym) (fn code : List Byte) (hf : FuncAt ls m s fn)
    (hc : Unpadded fn code) (buff : List Byte) (hb : buff.length = buffSize) (h4 : ∃ ip bs, NthInsn D 3 s.addr code ip bs) :
    ∃ l, parseFuncInsns D m t buff 0 s.addr = .ok l ∧ ∀ f : FInsn, f ∈ l ↔
      (∃ i, 4 ≤ i ∧ NthInsn D i s.addr code f.ip f.bytes) ∧ f.bytes ≠ [0xc3#8] ∧ f.func = s.addr ∧ f.ip = s.addr + f.off := by
  obtain ⟨hg, hr⟩ := func_bytes hs hf buff hb
  have hcode : trimTail fn = code := unpadded_unique (trimTail_spec fn) hc
  obtain ⟨ip, bs, h3⟩ := h4
  have hlen : 4 ≤ (insnsOf D s.addr code).length := Kallsyms.lt_of_get ((insnsOf_nth D 3 s.addr code ip bs).2 h3)
  have hne : (insnsOf D s.addr code).isEmpty = false := by
    cases h : insnsOf D s.addr code with
    | nil => rw [h] at hlen; simp at hlen
    | cons _ _ => rfl
  refine ⟨(((insnsOf D s.addr code).drop 4).filter fun i => i.2 ≠ [0xc3#8]).map fun i => ⟨s.addr, i.1, i.1 - s.addr, i.2⟩, ?_, ?_⟩
  · unfold parseFuncInsns
    rw [hg]
    simp only [hr, hcode, hne, Bool.false_eq_true, if_false]
    rw [if_neg (by omega)]
    simp
  · intro f
    simp only [List.mem_map, List.mem_filter, decide_eq_true_eq,
      Prod.exists]
    constructor
    · rintro ⟨a, c, ⟨hmem, hc3⟩, rfl⟩
      obtain ⟨i, hi⟩ := List.mem_iff_getElem?.1 hmem
      rw [List.getElem?_drop] at hi
      have hn := (insnsOf_nth D _ _ _ _ _).1 hi
      have := (nth_within D _ _ _ _ _ hn).1
      exact ⟨⟨4 + i, by omega, hn⟩, hc3, rfl, by simp only; omega⟩
    · rintro ⟨⟨i, hi, hn⟩, hc3, h1, h2⟩
      refine ⟨f.ip, f.bytes, ⟨?_, hc3⟩, ?_⟩
      · apply List.mem_iff_getElem?.2
        refine ⟨i - 4, ?_⟩
        rw [List.getElem?_drop, show 4 + (i - 4) = i by omega]
        exact (insnsOf_nth D _ _ _ _ _).2 hn
      · cases f
        simp only at h1 h2 ⊢
        simp only [FInsn.mk.injEq, true_and, and_true]
        exact ⟨h1.symm, by omega⟩

/-- A traced instruction lies in its function, and its bytes are those in memory. -/
theorem insn_within {sysBPF : String} {ls : List Kallsyms.Line} {t : Kallsyms.Tables} (D : Decoder) (m : Mem)
    (hs : Kallsyms.scan sysBPF ls Kallsyms.Tables.empty = some t) (s : Kallsyms.Sym) (fn : List Byte) (hf : FuncAt ls m s fn)
    (buff : List Byte) (hb : buff.length = buffSize) (limit : Nat) (l : List FInsn) (h : parseFuncInsns D m t buff limit s.addr = .ok l)
    (f : FInsn) (hm : f ∈ l) :
    f.func = s.addr ∧ f.ip = s.addr + f.off ∧ f.bytes ≠ [] ∧ f.bytes ≠ [0xc3#8] ∧ f.off + f.bytes.length ≤ fn.length ∧
      f.bytes = (fn.drop f.off).take f.bytes.length := by
  obtain ⟨hg, hr⟩ := func_bytes hs hf buff hb
  obtain ⟨pad, hpad, _, _⟩ := trimTail_spec fn
  unfold parseFuncInsns at h
  rw [hg] at h
  simp only [hr] at h
  split at h
  · exact absurd h (by simp)
  split at h
  · exact absurd h (by simp)
  simp only [IOut.ok.injEq] at h
  subst h
  simp only [List.mem_map, List.mem_filter, decide_eq_true_eq, Prod.exists] at hm
  obtain ⟨a, c, ⟨hmem, hc3⟩, rfl⟩ := hm
  have hmem' : (a, c) ∈ insnsOf D s.addr (trimTail fn) := by
    split at hmem
    · exact List.mem_of_mem_drop (List.mem_of_mem_take hmem)
    · exact List.mem_of_mem_drop hmem
  obtain ⟨i, hi⟩ := List.mem_iff_getElem?.1 hmem'
  obtain ⟨h1, h2, h3, h4⟩ := nth_within D _ _ _ _ _ ((insnsOf_nth D _ _ _ _ _).1 hi)
  have hlen := congrArg List.length hpad
  rw [List.length_append] at hlen
  refine ⟨rfl, by simp only; omega, h2, hc3, by simp only; omega, ?_⟩
  simp only
  rw [hpad, List.drop_append_of_le_length (by omega), List.take_append_of_le_length (by rw [List.length_drop]; omega)]
  exact h4

/-- Instructions of different functions have different addresses, so an event names the function it belongs to. -/
theorem insn_unique {sysBPF : String} {ls : List Kallsyms.Line} {t : Kallsyms.Tables} (D : Decoder) (m : Mem)
    (hs : Kallsyms.scan sysBPF ls Kallsyms.Tables.empty = some t) (s₁ s₂ : Kallsyms.Sym) (fn₁ fn₂ : List Byte)
    (hf₁ : FuncAt ls m s₁ fn₁) (hf₂ : FuncAt ls m s₂ fn₂) (b₁ b₂ : List Byte) (hb₁ : b₁.length = buffSize)
    (hb₂ : b₂.length = buffSize) (limit : Nat) (l₁ l₂ : List FInsn) (h₁ : parseFuncInsns D m t b₁ limit s₁.addr = .ok l₁)
    (h₂ : parseFuncInsns D m t b₂ limit s₂.addr = .ok l₂) (f₁ f₂ : FInsn) (hm₁ : f₁ ∈ l₁) (hm₂ : f₂ ∈ l₂)
    (hip : f₁.ip = f₂.ip) : f₁.func = f₂.func ∧ f₁.off = f₂.off := by
  obtain ⟨a1, a2, a3, _, a4, _⟩ := insn_within D m hs s₁ fn₁ hf₁ b₁ hb₁ limit l₁ h₁ f₁ hm₁
  obtain ⟨c1, c2, c3, _, c4, _⟩ := insn_within D m hs s₂ fn₂ hf₂ b₂ hb₂ limit l₂ h₂ f₂ hm₂
  have hp1 : 0 < f₁.bytes.length := List.length_pos_iff.2 a3
  have hp2 : 0 < f₂.bytes.length := List.length_pos_iff.2 c3
  obtain ⟨n1, _, hn1, hn1', hl1⟩ := hf₁.next
  obtain ⟨n2, _, hn2, hn2', hl2⟩ := hf₂.next
  have e : s₁.addr = s₂.addr := by
    rcases Nat.lt_trichotomy s₁.addr s₂.addr with h | h | h
    · have := hn1' s₂ hf₂.sym h; omega
    · exact h
    · have := hn2' s₁ hf₁.sym h; omega
  exact ⟨by rw [a1, c1, e], by omega⟩

/-- **C56 violated**: asking for the instructions of a function of one to three instructions crashes bpfsnoop. -/
theorem short_function_violated {sysBPF : String} {ls : List Kallsyms.Line} {t : Kallsyms.Tables} (D : Decoder) (m : Mem)
    (hs : Kallsyms.scan sysBPF ls Kallsyms.Tables.empty = some t) (s : Kallsyms.Sym) (fn code : List Byte) (hf : FuncAt ls m s fn)
    (hc : Unpadded fn code) (buff : List Byte) (hb : buff.length = buffSize) (limit : Nat)
    (h1 : ∃ ip bs, NthInsn D 0 s.addr code ip bs) (h4 : ¬ ∃ ip bs, NthInsn D 3 s.addr code ip bs) :
    parseFuncInsns D m t buff limit s.addr = .panic := by
  obtain ⟨hg, hr⟩ := func_bytes hs hf buff hb
  have hcode : trimTail fn = code := unpadded_unique (trimTail_spec fn) hc
  obtain ⟨ip, bs, h0⟩ := h1
  have hlen : 0 < (insnsOf D s.addr code).length := Kallsyms.lt_of_get ((insnsOf_nth D 0 s.addr code ip bs).2 h0)
  have hne : (insnsOf D s.addr code).isEmpty = false := by
    cases h : insnsOf D s.addr code with
    | nil => rw [h] at hlen; simp at hlen
    | cons _ _ => rfl
  have h3 : (insnsOf D s.addr code).length < 4 := by
    apply Nat.lt_of_not_le
    intro hle
    apply h4
    cases h : (insnsOf D s.addr code)[3]? with
    | none => have := List.getElem?_eq_none_iff.1 h; omega
    | some x => exact ⟨x.1, x.2, (insnsOf_nth D 3 s.addr code x.1 x.2).1 h⟩
  unfold parseFuncInsns
  rw [hg]
  simp only [hr, hcode, hne, Bool.false_eq_true, if_false]
  rw [if_pos h3]

/-! ### A concrete function -/

/-- A disassembler that knows only one-byte instructions. -/
def oneByte : Decoder where
  dec _ b := if b.isEmpty then none else some 1
  ok := by
    intro pc b n h
    cases b with
    | nil => simp at h
    | cons x r => simp at h; simp [← h]

def twoSyms : List Kallsyms.Line := [⟨some 0x1000, "T", "f", ""⟩, ⟨some 0x1008, "T", "g", ""⟩]

def body : List Byte := [0x55#8, 0x50#8, 0x51#8, 0x52#8, 0x53#8, 0xc3#8, 0xcc#8, 0xcc#8]

def bodyMem : Mem := fun a => body[a.toNat - 0x1000]?

theorem body_funcAt : FuncAt twoSyms bodyMem ⟨0x1000, "f", ""⟩ body where
  sym := by decide
  next := ⟨⟨0x1008, "g", ""⟩, by decide, by decide, by decide, by decide⟩
  short := by decide
  mem := ⟨[], by decide, by decide, by
    intro i h
    rw [List.append_nil] at h
    have : ∀ i : Fin 8, bodyMem (BitVec.ofNat 64 (0x1000 + i.val)) = some ((body ++ [])[i.val]'(by have := i.isLt; simp [body])) := by decide
    exact this ⟨i, h⟩⟩

/-- `push %rbx` is the only instruction of the example that is traced. -/
theorem insns_witness {sysBPF : String} {t : Kallsyms.Tables} (hs : Kallsyms.scan sysBPF twoSyms Kallsyms.Tables.empty = some t) :
    ∃ l, parseFuncInsns oneByte bodyMem t fresh 0 0x1000 = .ok l ∧ (⟨0x1000, 0x1004, 4, [0x53#8]⟩ : FInsn) ∈ l := by
  have hc : Unpadded body [0x55#8, 0x50#8, 0x51#8, 0x52#8, 0x53#8, 0xc3#8] :=
    ⟨[0xcc#8, 0xcc#8], rfl, by decide, by decide⟩
  obtain ⟨l, h1, h2⟩ := insns_traced oneByte bodyMem hs ⟨0x1000, "f", ""⟩ body _ body_funcAt hc fresh List.length_replicate
    ⟨0x1003, [0x52#8], 1, rfl, 1, rfl, 1, rfl, rfl, 1, rfl, rfl⟩
  refine ⟨l, h1, (h2 _).2 ⟨⟨4, by decide, 1, rfl, 1, rfl, 1, rfl, 1, rfl, rfl, 1, rfl, rfl⟩, by decide, rfl, rfl⟩⟩

end Bpfsnoop.Dis
