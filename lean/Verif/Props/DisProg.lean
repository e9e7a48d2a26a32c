import Verif.Model.DisProg
import Verif.Props.Disasm
import Verif.Props.Kallsyms

/-
C70: the listing of a BPF program shows exactly the selected functions, every instruction of them once and in order.
-/
namespace Bpfsnoop.Dp
open KRead Dis Li

/-! ### Specification -/

/-- What is shown for an instruction: the source line before it, the instruction, what lies at its operand. -/
structure Row where
  src : Option Source
  line : Line
  mnemonic : Str
  op : Str
  target : Option Ep

/-- The text of a row. -/
def Row.items (r : Row) : List Item := r.src.toList.map Item.source ++ [.insn r.line r.mnemonic r.op r.target]

/-- The source line shown at an address is that of the last line record with that address, and none if there is no record. -/
def SourceAt (p : Info) (a : Nat) (s : Option Source) : Prop :=
  (s = none ↔ a ∉ p.jlines) ∧
  ∀ x, s = some x → ∃ (k : Nat) (y : Source), p.jlines[k]? = some a ∧ p.lines[k]? = some y ∧ x = shownSource y ∧ ∀ j > k, p.jlines[j]? ≠ some a

/-- The rows are a listing of `code`, which is at address `ksym`: together they are the code, and each tells its offset, its
address, what the disassembler says of the bytes there, the source line that begins there, and what lies at its operand if
that is an address. -/
structure Listed (E : Env) (p : Info) (ksym : Nat) (code : List Byte) (rows : List Row) : Prop where
  bytes : (rows.map fun r => r.line.bytes).flatten = code
  each : ∀ a r b, rows = a ++ r :: b → r.line.off = ((a.map fun r => r.line.bytes).flatten).length ∧ r.line.pc = ksym + r.line.off ∧
    r.line.bad = false ∧ E.D.dec r.line.pc (code.drop r.line.off) = some r.line.bytes.length ∧
    r.mnemonic = E.mnemonic r.line.pc (code.drop r.line.off) ∧ r.op = E.op r.line.pc (code.drop r.line.off)
  source : ∀ r ∈ rows, SourceAt p r.line.pc r.src
  target : ∀ r ∈ rows, (operand r.op = none ∧ r.target = none) ∨ ∃ a e, operand r.op = some a ∧ E.at_ a = .ok e ∧ r.target = some e

/-- The disassembler decodes the bytes from the first to the last. -/
inductive Decodes (D : Decoder) : Nat → List Byte → Prop where
  | nil (pc : Nat) : Decodes D pc []
  | cons {pc n : Nat} {b : List Byte} : b ≠ [] → D.dec pc b = some n → Decodes D (pc + n) (b.drop n) → Decodes D pc b

/-! ### Line records -/

theorem foldl_put_lookup (l : List (Nat × Source)) (m : List (Nat × Source)) (a : Nat) :
    (a ∉ l.map Prod.fst → Kallsyms.lookup (l.foldl (fun m x => Kallsyms.put m x.1 x.2) m) a = Kallsyms.lookup m a) ∧
    (a ∈ l.map Prod.fst → ∃ (k : Nat) (y : Source), l[k]? = some (a, y) ∧ (∀ j > k, ∀ z, l[j]? ≠ some (a, z)) ∧
      Kallsyms.lookup (l.foldl (fun m x => Kallsyms.put m x.1 x.2) m) a = some y) := by
  induction l generalizing m with
  | nil => simp
  | cons x l ih =>
    obtain ⟨b, s⟩ := x
    obtain ⟨h1, h2⟩ := ih (Kallsyms.put m b s)
    constructor
    · intro hn
      simp only [List.map_cons, List.mem_cons, not_or] at hn
      rw [List.foldl_cons, h1 hn.2, Kallsyms.lookup_put, if_neg hn.1]
    · intro hm
      by_cases hl : a ∈ l.map Prod.fst
      · obtain ⟨k, y, h3, h4, h5⟩ := h2 hl
        refine ⟨k + 1, y, by simpa using h3, ?_, h5⟩
        intro j hj z
        cases j with
        | zero => omega
        | succ j => simpa using h4 j (by omega) z
      · simp only [List.map_cons, List.mem_cons] at hm
        have hab : a = b := hm.resolve_right hl
        subst hab
        refine ⟨0, s, rfl, ?_, ?_⟩
        · intro j hj z hz
          cases j with
          | zero => omega
          | succ j =>
            have := List.mem_of_getElem? (by simpa using hz : l[j]? = some (a, z))
            exact hl (List.mem_map_of_mem (f := Prod.fst) this)
        · rw [List.foldl_cons, h1 hl, Kallsyms.lookup_put, if_pos rfl]

theorem lineMap_spec {p : Info} (hl : p.lines.length = p.jlines.length) (a : Nat) :
    SourceAt p a ((Kallsyms.lookup (lineMap p) a).map shownSource) := by
  have hmap : (p.jlines.zip p.lines).map Prod.fst = p.jlines := by
    rw [List.map_fst_zip]; omega
  obtain ⟨h1, h2⟩ := foldl_put_lookup (p.jlines.zip p.lines) [] a
  rw [hmap] at h1 h2
  unfold lineMap
  by_cases hm : a ∈ p.jlines
  · obtain ⟨k, y, h3, h4, h5⟩ := h2 hm
    rw [h5]
    refine ⟨by simp [hm], ?_⟩
    intro x hx
    rw [List.getElem?_zip_eq_some] at h3
    refine ⟨k, y, h3.1, h3.2, by simpa using hx.symm, ?_⟩
    intro j hj he
    have hlt : j < p.lines.length := by have := Kallsyms.lt_of_get he; omega
    refine h4 j hj p.lines[j] ?_
    rw [List.getElem?_zip_eq_some]
    exact ⟨he, List.getElem?_eq_getElem hlt⟩
  · rw [h1 hm]
    exact ⟨by simp [hm, Kallsyms.lookup], by simp [Kallsyms.lookup]⟩

/-! ### One function -/

theorem dumpFn_spec {E : Env} {p : Info} (hl : p.lines.length = p.jlines.length) (ksym : Nat) : ∀ (n : Nat) (b : List Byte) (pc : Nat) (items : List Item),
    b.length ≤ n → dumpFn E (lineMap p) ksym pc b = .ok items →
    ∃ rows : List Row, items = rows.flatMap Row.items ∧ (rows.map fun r => r.line.bytes).flatten = b ∧
      (∀ a r c, rows = a ++ r :: c → r.line.off = pc + ((a.map fun r => r.line.bytes).flatten).length ∧ r.line.pc = ksym + r.line.off ∧
        r.line.bad = false ∧ E.D.dec r.line.pc (b.drop (r.line.off - pc)) = some r.line.bytes.length ∧
        r.mnemonic = E.mnemonic r.line.pc (b.drop (r.line.off - pc)) ∧ r.op = E.op r.line.pc (b.drop (r.line.off - pc))) ∧
      (∀ r ∈ rows, SourceAt p r.line.pc r.src) ∧
      (∀ r ∈ rows, (operand r.op = none ∧ r.target = none) ∨ ∃ a e, operand r.op = some a ∧ E.at_ a = .ok e ∧ r.target = some e) := by
  intro n
  induction n with
  | zero =>
    intro b pc items hb h
    have : b = [] := List.length_eq_zero_iff.1 (by omega)
    subst this
    rw [dumpFn] at h
    cases h
    exact ⟨[], rfl, rfl, by simp, nofun, nofun⟩
  | succ n ih =>
    intro b pc items hb h
    cases b with
    | nil =>
      rw [dumpFn] at h
      cases h
      exact ⟨[], rfl, rfl, by simp, nofun, nofun⟩
    | cons x r =>
      rw [dumpFn] at h
      split at h
      · cases h
      · rename_i k hd
        have hk := E.D.ok _ _ _ hd
        dsimp only at h
        have key : ∀ t : Option Ep, ((operand (E.op (ksym + pc) (x :: r)) = none ∧ t = none) ∨
              ∃ a e, operand (E.op (ksym + pc) (x :: r)) = some a ∧ E.at_ a = .ok e ∧ t = some e) →
            ∀ l, dumpFn E (lineMap p) ksym (pc + k) ((x :: r).drop k) = .ok l →
            items = (match Kallsyms.lookup (lineMap p) (ksym + pc) with | none => [] | some s => [Item.source (shownSource s)]) ++
              Item.insn ⟨ksym + pc, pc, (x :: r).take k, false⟩ (E.mnemonic (ksym + pc) (x :: r)) (E.op (ksym + pc) (x :: r)) t :: l →
            ∃ rows : List Row, items = rows.flatMap Row.items ∧ (rows.map fun r => r.line.bytes).flatten = x :: r ∧
              (∀ a y c, rows = a ++ y :: c → y.line.off = pc + ((a.map fun r => r.line.bytes).flatten).length ∧ y.line.pc = ksym + y.line.off ∧
                y.line.bad = false ∧ E.D.dec y.line.pc ((x :: r).drop (y.line.off - pc)) = some y.line.bytes.length ∧
                y.mnemonic = E.mnemonic y.line.pc ((x :: r).drop (y.line.off - pc)) ∧ y.op = E.op y.line.pc ((x :: r).drop (y.line.off - pc))) ∧
              (∀ r ∈ rows, SourceAt p r.line.pc r.src) ∧
              (∀ r ∈ rows, (operand r.op = none ∧ r.target = none) ∨ ∃ a e, operand r.op = some a ∧ E.at_ a = .ok e ∧ r.target = some e) := by
          intro t ht l hrec hitems
          obtain ⟨rows, h1, h2, h3, h4, h5⟩ := ih ((x :: r).drop k) (pc + k) l (by simp at hb hk ⊢; omega) hrec
          refine ⟨⟨(Kallsyms.lookup (lineMap p) (ksym + pc)).map shownSource, ⟨ksym + pc, pc, (x :: r).take k, false⟩,
            E.mnemonic (ksym + pc) (x :: r), E.op (ksym + pc) (x :: r), t⟩ :: rows, ?_, ?_, ?_, ?_, ?_⟩
          · rw [hitems, h1, List.flatMap_cons]
            cases Kallsyms.lookup (lineMap p) (ksym + pc) <;> simp [Row.items]
          · rw [List.map_cons, List.flatten_cons, h2, List.take_append_drop]
          · intro a y c he
            cases a with
            | nil =>
              simp only [List.nil_append, List.cons.injEq] at he
              obtain ⟨rfl, -⟩ := he
              simp only [List.map_nil, List.flatten_nil, List.length_nil, Nat.add_zero, Nat.sub_self, List.drop_zero, true_and]
              refine ⟨?_, trivial⟩
              rw [hd, List.length_take, Nat.min_eq_left hk.2]
            | cons z a =>
              simp only [List.cons_append, List.cons.injEq] at he
              obtain ⟨rfl, he⟩ := he
              obtain ⟨g1, g2, g3, g4⟩ := h3 a y c he
              have ho : (x :: r).drop (y.line.off - pc) = ((x :: r).drop k).drop (y.line.off - (pc + k)) := by
                rw [List.drop_drop]; congr 1; omega
              rw [ho]
              refine ⟨?_, g2, g3, g4⟩
              rw [g1, List.map_cons, List.flatten_cons, List.length_append, List.length_take, Nat.min_eq_left hk.2]
              omega
          · intro y hy
            simp only [List.mem_cons] at hy
            rcases hy with rfl | hy
            · exact lineMap_spec hl _
            · exact h4 y hy
          · intro y hy
            simp only [List.mem_cons] at hy
            rcases hy with rfl | hy
            · exact ht
            · exact h5 y hy
        cases ho : operand (E.op (ksym + pc) (x :: r)) with
        | none =>
          rw [ho] at h
          dsimp only at h
          cases hrec : dumpFn E (lineMap p) ksym (pc + k) ((x :: r).drop k) with
          | ok l =>
            rw [hrec] at h
            exact key none (.inl ⟨ho, rfl⟩) l hrec (by cases h; rfl)
          | err => rw [hrec] at h; cases h
          | panic => rw [hrec] at h; cases h
        | some a =>
          rw [ho] at h
          dsimp only at h
          cases he : E.at_ a with
          | ok e =>
            rw [he] at h
            dsimp only at h
            cases hrec : dumpFn E (lineMap p) ksym (pc + k) ((x :: r).drop k) with
            | ok l =>
              rw [hrec] at h
              exact key (some e) (.inr ⟨a, e, ho, he, rfl⟩) l hrec (by cases h; rfl)
            | err => rw [hrec] at h; cases h
            | panic => rw [hrec] at h; cases h
          | err => rw [he] at h; cases h
          | panic => rw [he] at h; cases h

theorem dumpFn_listed {E : Env} {p : Info} (hl : p.lines.length = p.jlines.length) {ksym : Nat} {b : List Byte} {items : List Item}
    (h : dumpFn E (lineMap p) ksym 0 b = .ok items) : ∃ rows, items = rows.flatMap Row.items ∧ Listed E p ksym b rows := by
  obtain ⟨rows, h1, h2, h3, h4, h5⟩ := dumpFn_spec hl ksym b.length b 0 items (Nat.le_refl _) h
  refine ⟨rows, h1, h2, ?_, h4, h5⟩
  intro a r c he
  have := h3 a r c he
  simpa using this

/-- Where the disassembler decodes everything and addresses can be named, a function is listed. -/
theorem dumpFn_total {E : Env} {m : List (Nat × Source)} (hat : ∀ a, ∃ e, E.at_ a = .ok e) {ksym : Nat} : ∀ (pc a : Nat) (b : List Byte),
    a = ksym + pc → Decodes E.D a b → ∃ items, dumpFn E m ksym pc b = .ok items := by
  intro pc a b ha hd
  induction hd generalizing pc with
  | nil => exact ⟨[], by rw [dumpFn]⟩
  | @cons a n b hb hn _ ih =>
    subst ha
    obtain ⟨l, hl⟩ := ih (pc + n) (by omega)
    cases b with
    | nil => exact absurd rfl hb
    | cons x r =>
      rw [dumpFn]
      split
      · rename_i h; rw [hn] at h; cases h
      · rename_i k h
        rw [hn] at h
        cases h
        dsimp only
        rw [hl]
        cases ho : operand (E.op (ksym + pc) (x :: r)) with
        | none => exact ⟨_, rfl⟩
        | some a =>
          obtain ⟨e, he⟩ := hat a
          dsimp only
          rw [he]
          exact ⟨_, rfl⟩

/-! ### The program -/

/-- A function in the listing: its number, name and rows. -/
structure Part where
  idx : Nat
  name : String
  rows : List Row

def Part.items (x : Part) : List Item := Item.func x.name :: x.rows.flatMap Row.items ++ [Item.blank]

/-- The machine code of function number `i`. -/
def Info.codeOf (p : Info) (i : Nat) (len : Nat) : List Byte := (p.code.drop (p.lens.take i).sum).take len

/-- Whether function number `i` is asked for. -/
def Info.Asked (p : Info) (all : Bool) (func : String) (i : Nat) : Bool := all || p.names[i]? == some func

/-- The specification of a function in the listing. -/
def PartOk (E : Env) (p : Info) (x : Part) : Prop :=
  p.names[x.idx]? = some x.name ∧ ∃ ksym len, p.ksyms[x.idx]? = some ksym ∧ p.lens[x.idx]? = some len ∧
    (p.codeOf x.idx len).length = len ∧ Listed E p ksym (p.codeOf x.idx len) x.rows

theorem dumpFns_spec {E : Env} {p : Info} (hl : p.lines.length = p.jlines.length) {all : Bool} {func : String} : ∀ (fs : List (Nat × Nat)) (i : Nat)
    (code : List Byte) (items : List Item), fs = (p.lens.zip p.ksyms).drop i → p.lens.length = p.ksyms.length →
    code = p.code.drop (p.lens.take i).sum → i ≤ p.lens.length → dumpFns E p all func i fs code = .ok items →
    ∃ parts : List Part, items = parts.flatMap Part.items ∧
      parts.map (·.idx) = (List.range' i fs.length).filter (p.Asked all func) ∧ ∀ x ∈ parts, PartOk E p x := by
  intro fs
  induction fs with
  | nil =>
    intro i code items _ _ _ _ h
    rw [dumpFns] at h
    cases h
    exact ⟨[], rfl, rfl, nofun⟩
  | cons x fs ih =>
    obtain ⟨len, ksym⟩ := x
    intro i code items hfs hlen hcode hi h
    have hget : (p.lens.zip p.ksyms)[i]? = some (len, ksym) := by
      have := congrArg (·[0]?) hfs
      simpa using this.symm
    have hlk := List.getElem?_zip_eq_some.1 hget
    have hilt : i < p.lens.length := Kallsyms.lt_of_get hlk.1
    have hsum : (p.lens.take (i + 1)).sum = (p.lens.take i).sum + len := by
      rw [List.take_add_one, hlk.1]; simp
    have hfs' : fs = (p.lens.zip p.ksyms).drop (i + 1) := by
      have := congrArg (List.drop 1) hfs
      simpa using this
    rw [dumpFns] at h
    split at h
    · cases h
    · rename_i hlen2
      have hcode' : code.drop len = p.code.drop (p.lens.take (i + 1)).sum := by rw [hsum, hcode, List.drop_drop]
      split at h
      · cases h
      · rename_i name hname
        have hr : List.range' i (fs.length + 1) = i :: List.range' (i + 1) fs.length := List.range'_succ
        rw [List.length_cons, hr]
        split at h
        · rename_i hask
          have hask' : p.Asked all func i = true := by simpa [Info.Asked, hname] using hask
          rw [List.filter_cons_of_pos hask']
          cases hf : dumpFn E (lineMap p) ksym 0 (code.take len) with
          | err => rw [hf] at h; cases h
          | panic => rw [hf] at h; cases h
          | ok l =>
            rw [hf] at h
            dsimp only at h
            cases hrec : dumpFns E p all func (i + 1) fs (code.drop len) with
            | err => rw [hrec] at h; cases h
            | panic => rw [hrec] at h; cases h
            | ok r =>
              rw [hrec] at h
              cases h
              obtain ⟨rows, g1, g2⟩ := dumpFn_listed hl hf
              obtain ⟨parts, k1, k2, k3⟩ := ih (i + 1) _ r hfs' hlen hcode' (by omega) hrec
              refine ⟨⟨i, name, rows⟩ :: parts, ?_, ?_, ?_⟩
              · simp [Part.items, g1, k1]
              · simp [k2]
              · intro y hy
                simp only [List.mem_cons] at hy
                rcases hy with rfl | hy
                · refine ⟨hname, ksym, len, hlk.2, hlk.1, ?_, ?_⟩
                  · simp only [Info.codeOf, ← hcode]
                    rw [List.length_take]; omega
                  · simp only [Info.codeOf, ← hcode]
                    exact g2
                · exact k3 y hy
        · rename_i hask
          have hask' : ¬ p.Asked all func i = true := by simpa [Info.Asked, hname] using hask
          rw [List.filter_cons_of_neg hask']
          exact ih (i + 1) _ items hfs' hlen hcode' (by omega) h

/-- **C70.** The listing of a BPF program consists of exactly the functions asked for, in their order; under the name of each are
all its instructions, each once and in order, at their addresses, with the source lines that begin there and with what lies at
operands that are addresses. -/
theorem prog_listed {E : Env} {p : Info} {all : Bool} {func : String} {items : List Item} (h : dumpInfo E p all func = .ok items) :
    ∃ parts : List Part, items = parts.flatMap Part.items ∧
      parts.map (·.idx) = (List.range p.lens.length).filter (p.Asked all func) ∧ ∀ x ∈ parts, PartOk E p x := by
  unfold dumpInfo at h
  split at h
  · cases h
  · split at h
    · cases h
    · split at h
      · cases h
      · rename_i h1 h2
        simp only [ne_eq, Decidable.not_not] at h1 h2
        have := dumpFns_spec h2 (p.lens.zip p.ksyms) 0 p.code items (by simp) h1 (by simp) (by omega) h
        rw [List.length_zip, h1, Nat.min_self, ← List.range_eq_range'] at this
        rw [h1]
        exact this

/-- Specification: what the kernel reports fits together, and the functions asked for can be disassembled. -/
structure Sound (E : Env) (p : Info) (all : Bool) (func : String) : Prop where
  code : p.code ≠ []
  ksyms : p.lens.length = p.ksyms.length
  names : p.lens.length ≤ p.names.length
  lines : p.lines.length = p.jlines.length
  sum : p.lens.sum ≤ p.code.length
  dec : ∀ i ksym len, p.Asked all func i = true → p.ksyms[i]? = some ksym → p.lens[i]? = some len → Decodes E.D ksym (p.codeOf i len)
  named : ∀ a, ∃ e, E.at_ a = .ok e

theorem dumpFns_total {E : Env} {p : Info} {all : Bool} {func : String} (hs : Sound E p all func) : ∀ (fs : List (Nat × Nat)) (i : Nat)
    (code : List Byte), fs = (p.lens.zip p.ksyms).drop i → code = p.code.drop (p.lens.take i).sum →
    ∃ items, dumpFns E p all func i fs code = .ok items := by
  intro fs
  induction fs with
  | nil => intro i code _ _; exact ⟨[], rfl⟩
  | cons x fs ih =>
    obtain ⟨len, ksym⟩ := x
    intro i code hfs hcode
    have hget : (p.lens.zip p.ksyms)[i]? = some (len, ksym) := by
      have := congrArg (·[0]?) hfs
      simpa using this.symm
    have hlk := List.getElem?_zip_eq_some.1 hget
    have hilt : i < p.lens.length := Kallsyms.lt_of_get hlk.1
    have hsum : (p.lens.take (i + 1)).sum = (p.lens.take i).sum + len := by
      rw [List.take_add_one, hlk.1]; simp
    have hle : (p.lens.take (i + 1)).sum ≤ p.lens.sum := by
      have := congrArg List.sum (List.take_append_drop (i + 1) p.lens)
      rw [List.sum_append] at this
      omega
    have hfs' : fs = (p.lens.zip p.ksyms).drop (i + 1) := by
      have := congrArg (List.drop 1) hfs
      simpa using this
    have hcode' : code.drop len = p.code.drop (p.lens.take (i + 1)).sum := by rw [hsum, hcode, List.drop_drop]
    obtain ⟨r, hr⟩ := ih (i + 1) _ hfs' hcode'
    have hl : ¬ code.length < len := by
      rw [hcode, List.length_drop]
      have := hs.sum
      omega
    have hni : p.names[i]? = some (p.names[i]'(by have := hs.names; omega)) := List.getElem?_eq_getElem _
    rw [dumpFns, if_neg hl, hni]
    dsimp only
    split
    · rename_i hask
      have hask' : p.Asked all func i = true := by simpa [Info.Asked, hni] using hask
      obtain ⟨l, hf⟩ := dumpFn_total (m := lineMap p) hs.named 0 ksym (code.take len) rfl (by
        have := hs.dec i ksym len hask' hlk.2 hlk.1
        simpa only [Info.codeOf, ← hcode] using this)
      rw [hf]
      dsimp only
      rw [hr]
      exact ⟨_, rfl⟩
    · exact ⟨r, hr⟩

/-- **C70.** If the program's data fits together and the functions asked for can be disassembled, there is a listing. -/
theorem prog_listed_total {E : Env} {p : Info} {all : Bool} {func : String} (hs : Sound E p all func) : ∃ items, dumpInfo E p all func = .ok items := by
  unfold dumpInfo
  have h1 : ¬ p.code.isEmpty = true := by simpa using hs.code
  have h2 : ¬ p.lens.length ≠ p.ksyms.length := by simpa using hs.ksyms
  have h3 : ¬ p.lines.length ≠ p.jlines.length := by simpa using hs.lines
  rw [if_neg h1, if_neg h2, if_neg h3]
  exact dumpFns_total hs _ 0 _ (by simp) (by simp)

/-! ### Operands -/

/-- **C70.** An operand written as a hexadecimal number is taken as the address it spells; this is what direct jumps and calls
look like on amd64 (`0x..`) and arm64 (`#0x..`). -/
theorem operand_address (r : List Char) (ds : List Nat) (h : Cc.Spells 16 r ds) (hv : Cc.digitsValue 16 ds < 2 ^ 64) :
    operand ('0' :: 'x' :: r) = some (Cc.digitsValue 16 ds) ∧ operand ('#' :: '0' :: 'x' :: r) = some (Cc.digitsValue 16 ds) := by
  have h1 := (address_text r ds h hv).2
  have hp : ∀ l : List Char, "0x".toList.isPrefixOf ('0' :: 'x' :: l) = true := by
    intro l; simp only [show "0x".toList = ['0', 'x'] from rfl, List.isPrefixOf]; decide
  have hn : ∀ l : List Char, "0x".toList.isPrefixOf ('#' :: l) = false := by
    intro l; simp only [show "0x".toList = ['0', 'x'] from rfl, List.isPrefixOf]
    rw [show ('0' == '#') = false by decide, Bool.false_and]
  have hq : ∀ l : List Char, "#0x".toList.isPrefixOf ('#' :: '0' :: 'x' :: l) = true := by
    intro l; simp only [show "#0x".toList = ['#', '0', 'x'] from rfl, List.isPrefixOf]; decide
  constructor
  · unfold operand
    rw [hp, if_pos rfl, h1]
  · unfold operand
    rw [hn, hq, if_neg (by decide), if_pos rfl]
    exact h1

/-- **C70.** Any other operand (registers, memory, several operands that do not start with an immediate) is not taken as an
address. -/
theorem operand_other (c : Char) (r : List Char) (h0 : c ≠ '0') (h1 : c ≠ '#') : operand (c :: r) = none ∧ operand [] = none := by
  have e0 : ('0' == c) = false := by simpa using h0.symm
  have e1 : ('#' == c) = false := by simpa using h1.symm
  refine ⟨?_, by decide⟩
  unfold operand
  simp only [show "0x".toList = ['0', 'x'] from rfl, show "#0x".toList = ['#', '0', 'x'] from rfl, List.isPrefixOf, e0, e1, Bool.false_and]
  simp

/-! ### A program, and what is lost -/

def exEnv : Env where
  D := oneByte
  mnemonic _ _ := "nop".toList
  op _ b := if b.head? = some 0xe8#8 then "0x2000".toList else []
  at_ a := .ok ⟨a, "g", 0, [], 0, true, false⟩

/-- A program of two functions; both line records of the first have its first address. -/
def exInfo : Info where
  code := [0x55#8, 0xe8#8, 0xc3#8, 0x90#8]
  ksyms := [0x1000, 0x2000]
  lens := [3, 1]
  names := ["f", "g"]
  jlines := [0x1000, 0x1000, 0x2000]
  lines := [⟨"a.c".toList, 1, 2, "x".toList⟩, ⟨"a.c".toList, 3, 4, " y ".toList⟩, ⟨"b.c".toList, 5, 6, "z".toList⟩]

theorem oneByte_decodes (pc : Nat) (b : List Byte) : Decodes oneByte pc b := by
  induction b generalizing pc with
  | nil => exact .nil pc
  | cons x r ih => exact .cons (n := 1) (by simp) rfl (ih (pc + 1))

/-- The hypotheses are met: the program has a listing, of one function or of both. -/
theorem exInfo_sound (all : Bool) (func : String) : Sound exEnv exInfo all func :=
  ⟨by decide, rfl, by decide, rfl, by decide, fun _ _ _ _ _ _ => oneByte_decodes _ _, fun a => ⟨_, rfl⟩⟩

theorem listing_witness : dumpInfo exEnv exInfo false "f" = .ok [.func "f", .source ⟨"a.c".toList, 3, 4, "y".toList⟩,
    .insn ⟨0x1000, 0, [0x55#8], false⟩ "nop".toList [] none,
    .insn ⟨0x1001, 1, [0xe8#8], false⟩ "nop".toList "0x2000".toList (some ⟨0x2000, "g", 0, [], 0, true, false⟩),
    .insn ⟨0x1002, 2, [0xc3#8], false⟩ "nop".toList [] none, .blank] := by
  decide +kernel

/-- **C70, violated.** Of several source lines whose code begins at one address only the last is shown. -/
theorem source_hidden_violated : (∃ s ∈ exInfo.lines, s.line = 1) ∧ ∀ func items, dumpInfo exEnv exInfo true func = .ok items →
    ∀ s, Item.source s ∈ items → s.line ≠ 1 := by
  refine ⟨⟨_, .head _, rfl⟩, ?_⟩
  intro func items h s hs
  obtain ⟨parts, h1, -, h3⟩ := prog_listed h
  rw [h1] at hs
  obtain ⟨x, hx, hs⟩ := List.mem_flatMap.1 hs
  obtain ⟨-, k, len, -, -, -, hl⟩ := h3 x hx
  simp only [Part.items, List.mem_append, List.mem_cons, List.mem_flatMap, List.not_mem_nil, or_false] at hs
  rcases hs with (hs | ⟨r, hr, hs⟩) | hs
  · cases hs
  · simp only [Row.items, List.mem_append, List.mem_map, Option.mem_toList, List.mem_singleton] at hs
    rcases hs with ⟨y, hy, he⟩ | hs
    · cases he
      obtain ⟨k, z, g1, g2, g3, g4⟩ := (hl.source r hr).2 s hy
      match k with
      | 0 =>
        have : r.line.pc = 0x1000 := by simpa [exInfo] using g1.symm
        exact absurd (by rw [this]; rfl) (g4 1 (by omega))
      | 1 => simp [exInfo] at g2; subst g2; subst g3; decide
      | 2 => simp [exInfo] at g2; subst g2; subst g3; decide
      | k + 3 => simp [exInfo] at g2
    · cases hs
  · cases hs

/-- **C70, violated.** One byte that cannot be decoded in one function asked for loses the listing of all. -/
theorem undecodable_violated {E : Env} {p : Info} {len ksym len' ksym' : Nat} {n n' : String} (hk : p.lens = [len, len']) (hk' : p.ksyms = [ksym, ksym'])
    (hn : p.names = [n, n']) (hl' : 0 < len') (hl : len + len' ≤ p.code.length) (hd : E.D.dec ksym' (p.codeOf 1 len') = none) (func : String) (items : List Item) :
    dumpInfo E p true func ≠ .ok items := by
  intro h
  obtain ⟨parts, -, h2, h3⟩ := prog_listed h
  have : (List.range p.lens.length).filter (p.Asked true func) = [0, 1] := by
    rw [hk]; simp [List.range_succ, Info.Asked]
  rw [this] at h2
  have h1m : 1 ∈ parts.map (·.idx) := by rw [h2]; simp
  obtain ⟨x, hx, hi⟩ := List.mem_map.1 h1m
  obtain ⟨-, k, l, g1, g2, g3, g4⟩ := h3 x hx
  rw [hi] at g1 g2 g3 g4
  rw [hk] at g2
  rw [hk'] at g1
  simp at g1 g2
  subst g1 g2
  cases hr : x.rows with
  | nil =>
    have := g4.bytes
    rw [hr] at this
    rw [← this] at g3
    simp at g3
    omega
  | cons r rs =>
    obtain ⟨e1, e2, -, e3, -⟩ := g4.each [] r rs hr
    simp only [List.map_nil, List.flatten_nil, List.length_nil] at e1
    rw [e2, e1, List.drop_zero, Nat.add_zero, hd] at e3
    cases e3

/-- **C70, violated.** If the selectors match several programs, which one is shown depends on the order in which a Go map is
iterated: any of them may be. -/
theorem any_program_violated (E : Env) (infoOf : BitVec 32 → Option Info) (ts : List Flg.Tracing) (x : Flg.Tracing) (hx : x ∈ ts) :
    ∃ ts', ts'.Perm ts ∧ dumpProg E infoOf ts' = dumpProg E infoOf [x] := by
  obtain ⟨a, b, rfl⟩ := List.append_of_mem hx
  exact ⟨x :: (a ++ b), List.perm_middle.symm, rfl⟩

theorem any_program_witness : ∃ ts ts' : List Flg.Tracing, ts'.Perm ts ∧
    dumpProg exEnv (fun i => if i = 1 then some exInfo else some { exInfo with names := ["h", "g"] }) ts ≠
    dumpProg exEnv (fun i => if i = 1 then some exInfo else some { exInfo with names := ["h", "g"] }) ts' := by
  refine ⟨[⟨1, "f".toList, {}⟩, ⟨2, "h".toList, {}⟩], [⟨2, "h".toList, {}⟩, ⟨1, "f".toList, {}⟩], .swap _ _ _, ?_⟩
  decide +kernel

/-! ### Tightened -/

theorem dropWhile_head_not (p : Char → Bool) (s : Str) : ∀ c, (s.dropWhile p).head? = some c → p c = false := by
  induction s with
  | nil => simp
  | cons x s ih =>
    intro c
    rw [List.dropWhile_cons]
    split
    · exact ih c
    · next h => intro hc; simp at hc; subst hc; simpa using h

theorem takeWhile_all (p : Char → Bool) (s : Str) : ∀ c ∈ s.takeWhile p, p c = true := by
  induction s with
  | nil => simp
  | cons x s ih =>
    intro c
    rw [List.takeWhile_cons]
    split
    · next h =>
      intro hc
      rcases List.mem_cons.1 hc with rfl | hc
      · exact h
      · exact ih c hc
    · simp

theorem trimSpace_split (s : Str) : ∃ a b, s = a ++ trimSpace s ++ b ∧ (∀ c ∈ a ++ b, c.isWhitespace = true) ∧
    (∀ c, (trimSpace s).head? = some c → c.isWhitespace = false) ∧ (∀ c, (trimSpace s).getLast? = some c → c.isWhitespace = false) := by
  have h1 : s = s.takeWhile Char.isWhitespace ++ s.dropWhile Char.isWhitespace := (List.takeWhile_append_dropWhile).symm
  have h2 : s.dropWhile Char.isWhitespace = trimSpace s ++ ((s.dropWhile Char.isWhitespace).reverse.takeWhile Char.isWhitespace).reverse := by
    unfold trimSpace
    rw [← List.reverse_append, List.takeWhile_append_dropWhile, List.reverse_reverse]
  refine ⟨s.takeWhile Char.isWhitespace, ((s.dropWhile Char.isWhitespace).reverse.takeWhile Char.isWhitespace).reverse, ?_, ?_, ?_, ?_⟩
  · rw [List.append_assoc, ← h2]; exact h1
  · intro c hc
    rcases List.mem_append.1 hc with hc | hc
    · exact takeWhile_all _ _ c hc
    · exact takeWhile_all _ _ c (List.mem_reverse.1 hc)
  · intro c hc
    apply dropWhile_head_not _ s c
    rw [h2]
    cases h : trimSpace s with
    | nil => rw [h] at hc; cases hc
    | cons x l => rw [h] at hc; exact hc
  · intro c hc
    unfold trimSpace at hc
    rw [List.getLast?_reverse] at hc
    exact dropWhile_head_not _ _ c hc

/-- **C70.** A source line is shown with its number and its text without the blanks around it, and with its file name, of which the dots and slashes
at the beginning are left out if it begins with a dot. -/
theorem source_shown (s : Source) : (shownSource s).line = s.line ∧ (shownSource s).col = s.col ∧
    (∃ a b, s.text = a ++ (shownSource s).text ++ b ∧ (∀ c ∈ a ++ b, c.isWhitespace = true) ∧
      (∀ c, (shownSource s).text.head? = some c → c.isWhitespace = false) ∧ (∀ c, (shownSource s).text.getLast? = some c → c.isWhitespace = false)) ∧
    (s.file.head? ≠ some '.' → (shownSource s).file = s.file) ∧
    (s.file.head? = some '.' → ∃ a, s.file = a ++ (shownSource s).file ∧ (∀ c ∈ a, c = '.' ∨ c = '/') ∧
      (shownSource s).file.head? ≠ some '.' ∧ (shownSource s).file.head? ≠ some '/') := by
  refine ⟨rfl, rfl, trimSpace_split s.text, ?_, ?_⟩
  · intro h
    simp [shownSource, trimFile, h]
  · intro h
    have e : (shownSource s).file = s.file.dropWhile (fun c => c = '.' || c = '/') := by simp [shownSource, trimFile, h]
    rw [e]
    refine ⟨s.file.takeWhile (fun c => c = '.' || c = '/'), (List.takeWhile_append_dropWhile).symm, ?_, ?_, ?_⟩
    · intro c hc
      simpa using takeWhile_all _ _ c hc
    · intro hc
      exact absurd (dropWhile_head_not _ _ _ hc) (by decide)
    · intro hc
      exact absurd (dropWhile_head_not _ _ _ hc) (by decide)

example : shownSource ⟨"./net/core/dev.c".toList, 12, 3, "\treturn 0;  ".toList⟩ = ⟨"net/core/dev.c".toList, 12, 3, "return 0;".toList⟩ := by decide +kernel

end Bpfsnoop.Dp
