import Verif.Model.ProtoList
import Verif.Spec.ProtoListSpec
import Verif.Props.ListText
import Verif.Props.Kmods
import Verif.Props.KfuncSel
import Verif.Props.Proto
import Verif.Props.FuncProto
/-
C78: the listing of `--show-func-proto`.
-/
namespace Bpfsnoop.Pl
open Pt (T Ps showFunc s)
open Rp (Text dec numeral)
open Km (Out)

/-! ### Lemmas -/

theorem each_ok {α : Type} (f : α → Out Text) : ∀ (l : List α) (y : Text), each f l = .ok y →
    ∃ bs : List Text, y = bs.flatten ∧ bs.length = l.length ∧ ∀ (i : Nat) (a : α) (b : Text), l[i]? = some a → bs[i]? = some b → f a = .ok b
  | [], y, h => by
    rw [each] at h
    cases h
    exact ⟨[], rfl, rfl, fun i a b h => by simp at h⟩
  | a :: as, y, h => by
    rw [each] at h
    cases h1 : f a with
    | panic => rw [h1] at h; cases h
    | err => rw [h1] at h; cases h
    | ok x =>
      rw [h1] at h
      cases h2 : each f as with
      | panic => rw [h2] at h; cases h
      | err => rw [h2] at h; cases h
      | ok z =>
        rw [h2] at h
        cases h
        obtain ⟨bs, e1, e2, e3⟩ := each_ok f as z h2
        refine ⟨x :: bs, by rw [e1]; rfl, by simp [e2], fun i c b hc hb => ?_⟩
        cases i with
        | zero => simp at hc hb; rw [← hc, ← hb]; exact h1
        | succ i => simp at hc hb; exact e3 i c b hc hb

theorem each_total {α : Type} (f : α → Out Text) : ∀ (l : List α), (∀ a ∈ l, ∃ b, f a = .ok b) → ∃ y, each f l = .ok y
  | [], _ => ⟨[], rfl⟩
  | a :: as, h => by
    obtain ⟨b, hb⟩ := h a (by simp)
    obtain ⟨y, hy⟩ := each_total f as (fun x hx => h x (by simp [hx]))
    exact ⟨b ++ y, by rw [each, hb]; simp only []; rw [hy]⟩

theorem sortBy_perm {α : Type} (key : α → Text) (l : List α) : (sortBy key l).Perm l := List.mergeSort_perm l _

theorem sortBy_sorted {α : Type} (key : α → Text) (l : List α) : (sortBy key l).Pairwise (fun a b => key a ≤ key b) := by
  have := List.pairwise_mergeSort (le := fun a b => decide (key a ≤ key b)) (fun a b c => Km.le_trans' _ _ _)
    (fun a b => Km.le_total' _ _) l
  exact this.imp (fun h => by simpa using h)

theorem lists_of {α : Type} (key : α → Text) (l : List α) (f : α → Out Text) (y : Text) (h : each f (sortBy key l) = .ok y) :
    ∃ bs, y = bs.flatten ∧ Lists key l (fun a b => f a = .ok b) bs := by
  obtain ⟨bs, e1, e2, e3⟩ := each_ok f _ y h
  exact ⟨bs, e1, sortBy key l, sortBy_perm key l, sortBy_sorted key l, e2, e3⟩

theorem Lists.length {α β : Type} {key : α → Text} {l : List α} {entry : α → β → Prop} {es : List β} (h : Lists key l entry es) :
    es.length = l.length := by
  obtain ⟨l', h1, _, h2, _⟩ := h
  rw [h2, h1.length_eq]

theorem Lists.imp {α β γ : Type} {key : α → Text} {l : List α} {entry : α → β → Prop} {entry' : α → γ → Prop} {es : List β} (g : β → γ)
    (h : Lists key l entry es) (hi : ∀ a ∈ l, ∀ e, entry a e → entry' a (g e)) : Lists key l entry' (es.map g) := by
  obtain ⟨l', h1, h2, h3, h4⟩ := h
  refine ⟨l', h1, h2, by simpa using h3, fun i a e ha he => ?_⟩
  rw [List.getElem?_map] at he
  cases hb : es[i]? with
  | none => rw [hb] at he; cases he
  | some b =>
    rw [hb] at he
    cases he
    exact hi a (h1.mem_iff.mp (List.mem_of_getElem? ha)) b (h4 i a b ha hb)

/-- Every element has its entry, and every entry is of an element. -/
theorem Lists.mem {α β : Type} {key : α → Text} {l : List α} {entry : α → β → Prop} {es : List β} (h : Lists key l entry es) :
    (∀ a ∈ l, ∃ e ∈ es, entry a e) ∧ ∀ e ∈ es, ∃ a ∈ l, entry a e := by
  obtain ⟨l', h1, _, h3, h4⟩ := h
  constructor
  · intro a ha
    obtain ⟨i, hi⟩ := List.getElem?_of_mem (h1.mem_iff.mpr ha)
    have hlt : i < es.length := by rw [h3]; exact (List.getElem?_eq_some_iff.mp hi).1
    exact ⟨es[i], List.getElem_mem hlt, h4 i a _ hi (List.getElem?_eq_getElem hlt)⟩
  · intro e he
    obtain ⟨i, hi⟩ := List.getElem?_of_mem he
    have hlt : i < l'.length := by rw [← h3]; exact (List.getElem?_eq_some_iff.mp hi).1
    exact ⟨l'[i], h1.mem_iff.mp (List.getElem_mem hlt), h4 i _ e (List.getElem?_eq_getElem hlt) hi⟩

/-! ### The text -/

/-- The block of a function that is not of the kernel. -/
def Block (list : Bool) (d : Decl) (b : Text) : Prop := ∃ p, showFunc d.name d.ret d.ps list = some p ∧ b = p ++ s ";\n"

/-- The block of a kernel function: with `--list-func-params` and debug information first where the code is, then the prototype, and the
mark exactly if it can be traced. -/
def KBlock (E : Env) (kf : Flg.KFunc) (b : Text) : Prop :=
  ∃ (p c : Text) (tr : Bool), showFunc (E.decl kf.fn).name (E.decl kf.fn).ret (E.decl kf.fn).ps E.list = some p ∧
    Km.detect E.fs E.ksyms E.patchable (!E.entry) kf.fn.name = .ok tr ∧
    (if E.list = true then
      match E.a2l with
      | none => c = []
      | some f => ∃ k, E.ksyms (E.decl kf.fn).name = some k ∧ c = comment (f k.addr)
    else c = []) ∧
    b = c ++ p ++ s ";" ++ (if tr then s " [traceable]" else []) ++ s "\n"

theorem printFunc_ok (list : Bool) (d : Decl) (b : Text) : printFunc list d = .ok b → Block list d b := by
  unfold printFunc
  intro h
  cases hs : showFunc d.name d.ret d.ps list with
  | none => rw [hs] at h; cases h
  | some p => rw [hs] at h; cases h; exact ⟨p, hs, rfl⟩

theorem kline_ok (E : Env) (kf : Flg.KFunc) (b : Text) (h : kline E kf = .ok b) : KBlock E kf b := by
  unfold kline at h
  cases hd : Km.detect E.fs E.ksyms E.patchable (!E.entry) kf.fn.name with
  | panic => rw [hd] at h; cases h
  | err => rw [hd] at h; cases h
  | ok tr =>
    rw [hd] at h
    simp only [printKfunc] at h
    cases hs : showFunc (E.decl kf.fn).name (E.decl kf.fn).ret (E.decl kf.fn).ps E.list with
    | none =>
      rw [hs] at h
      split at h <;> cases h
    | some p =>
      rw [hs] at h
      cases hl : E.list with
      | false =>
        rw [hl, if_neg (by simp)] at h
        cases h
        exact ⟨p, [], tr, hs, hd, by rw [hl]; simp, by simp⟩
      | true =>
        rw [hl, if_pos rfl] at h
        cases ha : E.a2l with
        | none =>
          rw [ha] at h
          cases h
          exact ⟨p, [], tr, hs, hd, by rw [hl, if_pos rfl]; simp only [ha], by simp⟩
        | some f =>
          rw [ha] at h
          cases hk : E.ksyms (E.decl kf.fn).name with
          | none => rw [hk] at h; cases h
          | some k =>
            rw [hk] at h
            cases h
            exact ⟨p, comment (f k.addr), tr, hs, hd, by rw [hl, if_pos rfl]; simp only [ha]; exact ⟨k, hk, rfl⟩, by simp⟩

/-- The text of a section. -/
def SecText (name : String) (bs : List Text) (x : Text) : Prop :=
  x = name.toList ++ ": (total ".toList ++ Nat.toDigits 10 bs.length ++ ")\n".toList ++ bs.flatten

/-- The three sections that are asked for, in their order, with an empty line between them. Programs have a section only if there is one. -/
theorem listing_shown (E : Env) (order : List Flg.KFunc) (x : Text) (h : showAll E order = .ok x) :
    ∃ b k t : List Text,
      x = ((b ++ k ++ t).intersperse (s "\n")).flatten ∧
      (b = [] ∧ (E.nprogs = 0 ∨ E.progs = some []) ∨
       ∃ l bs y, E.nprogs ≠ 0 ∧ E.progs = some l ∧ l ≠ [] ∧ b = [y] ∧ SecText "BPF functions" bs y ∧
         Lists (·.1) l (fun p c => Block E.list p.2 c) bs) ∧
      (if E.opts = [] then k = []
       else ∃ bs y, k = [y] ∧ SecText "Kernel functions" bs y ∧ Lists (·.fn.name) order (KBlock E) bs) ∧
      (if E.ntps = 0 then t = []
       else ∃ l bs y, E.tps = .ok l ∧ t = [y] ∧ SecText "Kernel tracepoints" bs y ∧ Lists (·.1) l (fun p c => Block E.list p.2 c) bs) := by
  unfold showAll at h
  cases hp : programs E with
  | panic => rw [hp] at h; cases h
  | err => rw [hp] at h; cases h
  | ok p =>
    rw [hp] at h
    cases hk : (if E.opts = [] then Out.ok [] else kernel E order) with
    | panic => rw [hk] at h; cases h
    | err => rw [hk] at h; cases h
    | ok k =>
      rw [hk] at h
      cases ht : (if E.ntps = 0 then Out.ok [] else tracepoints E) with
      | panic => rw [ht] at h; cases h
      | err => rw [ht] at h; cases h
      | ok t =>
        rw [ht] at h
        have hx := h
        cases hx
        have P : ∃ b : List Text, p = b.flatten ∧ (b = [] ∧ p = [] ∨ b = [p] ∧ p ≠ []) ∧
            (b = [] ∧ (E.nprogs = 0 ∨ E.progs = some []) ∨
             ∃ l bs y, E.nprogs ≠ 0 ∧ E.progs = some l ∧ l ≠ [] ∧ b = [y] ∧ SecText "BPF functions" bs y ∧
               Lists (·.1) l (fun p c => Block E.list p.2 c) bs) := by
          unfold programs at hp
          by_cases h0 : E.nprogs = 0
          · rw [if_pos h0] at hp
            cases hp
            exact ⟨[], rfl, .inl ⟨rfl, rfl⟩, .inl ⟨rfl, .inl h0⟩⟩
          · rw [if_neg h0] at hp
            cases hq : E.progs with
            | none => rw [hq] at hp; cases hp
            | some l =>
              rw [hq] at hp
              cases l with
              | nil => cases hp; exact ⟨[], rfl, .inl ⟨rfl, rfl⟩, .inl ⟨rfl, .inr rfl⟩⟩
              | cons a l =>
                dsimp only at hp
                cases he : each (fun x => printFunc E.list x.2) (sortBy (·.1) (a :: l)) with
                | panic => rw [he] at hp; cases hp
                | err => rw [he] at hp; cases hp
                | ok y =>
                  rw [he] at hp
                  obtain ⟨bs, e1, e2⟩ := lists_of _ _ _ _ he
                  have hp' : p = title "BPF functions" (a :: l).length ++ y := by cases hp; rfl
                  refine ⟨[p], by simp, .inr ⟨rfl, ?_⟩, ?_⟩
                  · rw [hp']; simp [title, s]
                  · refine .inr ⟨a :: l, bs, p, h0, rfl, by simp, rfl, ?_, ?_⟩
                    · rw [SecText, hp', e2.length, e1]; simp [title, s, dec]
                    · have := e2.imp (entry' := fun p c => Block E.list p.2 c) id (fun a _ e => printFunc_ok _ _ _)
                      simpa using this
        have K : ∃ b : List Text, k = b.flatten ∧ (b = [] ∧ k = [] ∧ E.opts = [] ∨ b = [k] ∧ k ≠ [] ∧ E.opts ≠ []) ∧
            (if E.opts = [] then b = []
             else ∃ bs y, b = [y] ∧ SecText "Kernel functions" bs y ∧ Lists (·.fn.name) order (KBlock E) bs) := by
          by_cases h0 : E.opts = []
          · rw [if_pos h0] at hk
            cases hk
            exact ⟨[], rfl, .inl ⟨rfl, rfl, h0⟩, by rw [if_pos h0]⟩
          · rw [if_neg h0] at hk
            unfold kernel at hk
            cases hf : found E with
            | panic => rw [hf] at hk; cases hk
            | err => rw [hf] at hk; cases hk
            | ok m =>
              rw [hf] at hk
              dsimp only at hk
              cases he : each (kline E) (sortBy (·.fn.name) order) with
              | panic => rw [he] at hk; cases hk
              | err => rw [he] at hk; cases hk
              | ok y =>
                rw [he] at hk
                obtain ⟨bs, e1, e2⟩ := lists_of _ _ _ _ he
                have hk' : k = title "Kernel functions" order.length ++ y := by cases hk; rfl
                refine ⟨[k], by simp, .inr ⟨rfl, by rw [hk']; simp [title, s], h0⟩, ?_⟩
                rw [if_neg h0]
                refine ⟨bs, k, rfl, ?_, ?_⟩
                · rw [SecText, hk', e2.length, e1]; simp [title, s, dec]
                · have := e2.imp (entry' := KBlock E) id (fun a _ e => kline_ok E a e)
                  simpa using this
        have TT : ∃ b : List Text, t = b.flatten ∧ (b = [] ∧ t = [] ∧ E.ntps = 0 ∨ b = [t] ∧ t ≠ [] ∧ E.ntps ≠ 0) ∧
            (if E.ntps = 0 then b = []
             else ∃ l bs y, E.tps = .ok l ∧ b = [y] ∧ SecText "Kernel tracepoints" bs y ∧
               Lists (·.1) l (fun p c => Block E.list p.2 c) bs) := by
          by_cases h0 : E.ntps = 0
          · rw [if_pos h0] at ht
            cases ht
            exact ⟨[], rfl, .inl ⟨rfl, rfl, h0⟩, by rw [if_pos h0]⟩
          · rw [if_neg h0] at ht
            unfold tracepoints at ht
            cases hf : E.tps with
            | panic => rw [hf] at ht; cases ht
            | err => rw [hf] at ht; cases ht
            | ok l =>
              rw [hf] at ht
              dsimp only at ht
              cases he : each (fun x => printFunc E.list x.2) (sortBy (·.1) l) with
              | panic => rw [he] at ht; cases ht
              | err => rw [he] at ht; cases ht
              | ok y =>
                rw [he] at ht
                obtain ⟨bs, e1, e2⟩ := lists_of _ _ _ _ he
                have ht' : t = title "Kernel tracepoints" l.length ++ y := by cases ht; rfl
                refine ⟨[t], by simp, .inr ⟨rfl, by rw [ht']; simp [title, s], h0⟩, ?_⟩
                rw [if_neg h0]
                refine ⟨l, bs, t, rfl, rfl, ?_, ?_⟩
                · rw [SecText, ht', e2.length, e1]; simp [title, s, dec]
                · have := e2.imp (entry' := fun p c => Block E.list p.2 c) id (fun a _ e => printFunc_ok _ _ _)
                  simpa using this
        obtain ⟨b1, f1, c1, d1⟩ := P
        obtain ⟨b2, f2, c2, d2⟩ := K
        obtain ⟨b3, f3, c3, d3⟩ := TT
        refine ⟨b1, b2, b3, ?_, d1, d2, d3⟩
        rcases c1 with ⟨rfl, g1⟩ | ⟨rfl, g1⟩ <;> rcases c2 with ⟨rfl, rfl, g2⟩ | ⟨rfl, g3, g2⟩ <;>
          rcases c3 with ⟨rfl, rfl, g4⟩ | ⟨rfl, g5, g4⟩ <;> simp [g1, g2, g4]

/-! ### Reading -/

theorem readLine_marked (p : Text) : readLine (p ++ s "; [traceable]") = (p, true) := by
  have hn : (s "; [traceable]").length = 13 := by decide
  have e : (p ++ s "; [traceable]").length - 13 = p.length := by rw [List.length_append, hn]; omega
  unfold readLine
  rw [e, List.drop_left, List.take_left, if_pos (by decide)]

theorem readLine_plain (p : Text) : readLine (p ++ s ";") = (p, false) := by
  have e : (p ++ s ";").length - 1 = p.length := by simp [s]
  unfold readLine
  have hn : (p ++ s ";").drop ((p ++ s ";").length - 13) ≠ "; [traceable]".toList := by
    intro h
    have h1 : (p ++ s ";").getLast? = some ';' := by simp [s]
    have h2 : ((p ++ s ";").drop ((p ++ s ";").length - 13)).getLast? = some ';' := by
      rw [List.getLast?_drop, if_neg, h1]
      simp [s]
      omega
    rw [h] at h2
    revert h2
    decide
  rw [if_neg hn, e, List.take_left]

theorem paragraphs_ne (ls : List Text) : paragraphs ls ≠ [] := by
  cases ls with
  | nil => simp [paragraphs]
  | cons l ls =>
    rw [paragraphs]
    split
    · simp
    · split <;> simp

theorem paragraphs_end (p : List Text) (h : [] ∉ p) : paragraphs p = [p] := by
  induction p with
  | nil => rfl
  | cons l p ih =>
    rw [List.mem_cons, not_or] at h
    rw [paragraphs, if_neg (fun e => h.1 e.symm), ih h.2]

theorem paragraphs_sep (p ls : List Text) (h : [] ∉ p) : paragraphs (p ++ [] :: ls) = p :: paragraphs ls := by
  induction p with
  | nil => rw [List.nil_append, paragraphs, if_pos rfl]
  | cons l p ih =>
    rw [List.mem_cons, not_or] at h
    rw [List.cons_append, paragraphs, if_neg (fun e => h.1 e.symm), ih h.2]

theorem paragraphs_join (ps : List (List Text)) (h : ∀ p ∈ ps, [] ∉ p) (hne : ps ≠ []) : paragraphs ((ps.intersperse [[]]).flatten) = ps := by
  induction ps with
  | nil => exact absurd rfl hne
  | cons p ps ih =>
    cases ps with
    | nil => simpa using paragraphs_end p (h p (by simp))
    | cons q ps =>
      rw [List.intersperse_cons₂, List.flatten_cons, List.flatten_cons, List.singleton_append, paragraphs_sep _ _ (h p (by simp)),
        ih (fun r hr => h r (by simp [hr])) (by simp)]

/-- The title of a section, without its new line. -/
def head (name : String) (n : Nat) : Text := name.toList ++ ": (total ".toList ++ Nat.toDigits 10 n ++ ")".toList

theorem readSec_eq (name : String) (n : Nat) (ls : List Text) (h : ':' ∉ name.toList) :
    readSec (head name n :: ls) = some ⟨name.toList, n, ls.map readLine⟩ := by
  have e : head name n = name.toList ++ ':' :: (" (total ".toList ++ (Nat.toDigits 10 n ++ ")".toList)) := by simp [head]
  rw [readSec, e, Lt.cut_first ':' _ _ h]
  simp only [List.drop_left]
  have hd : (Nat.toDigits 10 n ++ ")".toList).takeWhile Char.isDigit = Nat.toDigits 10 n := by
    rw [List.takeWhile_append_of_pos (fun c hc => Nat.isDigit_of_mem_toDigits (by omega) (by omega) hc)]
    simp
  rw [hd, Rp.digits_value 10 (by omega) (by omega)]

theorem mem_intersperse {α : Type} (sep x : α) : ∀ l : List α, x ∈ l.intersperse sep → x = sep ∨ x ∈ l
  | [], h => by cases h
  | [a], h => .inr h
  | a :: b :: l, h => by
    rw [List.intersperse_cons₂, List.mem_cons, List.mem_cons] at h
    rcases h with h | h | h
    · exact .inr (by simp [h])
    · exact .inl h
    · rcases mem_intersperse sep x (b :: l) h with h | h
      · exact .inl h
      · exact .inr (List.mem_cons_of_mem _ h)

/-- The text of a prototype is one line. -/
def OneLine (d : Decl) : Prop := ∀ p, showFunc d.name d.ret d.ps false = some p → '\n' ∉ p

theorem join_lines : ∀ secs : List (List Text), ((secs.map fun ls => (ls.map (· ++ ['\n'])).flatten).intersperse (s "\n")).flatten =
    ((secs.intersperse [[]]).flatten.map (· ++ ['\n'])).flatten
  | [] => rfl
  | [a] => by simp
  | a :: b :: l => by
    have ih := join_lines (b :: l)
    simp only [List.map_cons, List.intersperse_cons₂, List.flatten_cons, List.map_append, List.flatten_append] at ih ⊢
    rw [ih]
    rfl

/-- From the lines of a section. -/
theorem sec_lines (name : String) (hn : ':' ∉ name.toList ∧ '\n' ∉ name.toList) (bs ls : List Text) (y : Text) (h : SecText name bs y)
    (hb : bs = ls.map (· ++ ['\n'])) (hl : ∀ l ∈ ls, l ≠ [] ∧ '\n' ∉ l) :
    ∃ sec : List Text, y = (sec.map (· ++ ['\n'])).flatten ∧ (∀ l ∈ sec, l ≠ [] ∧ '\n' ∉ l) ∧
      readSec sec = some ⟨name.toList, bs.length, ls.map readLine⟩ := by
  refine ⟨head name bs.length :: ls, ?_, ?_, readSec_eq name _ _ hn.1⟩
  · rw [h, List.map_cons, List.flatten_cons, ← hb]
    simp [head]
  · intro l hl'
    rcases List.mem_cons.mp hl' with rfl | hl'
    · constructor
      · simp [head]
      · intro hc
        simp only [head, List.mem_append] at hc
        rcases hc with ((hc | hc) | hc) | hc
        · exact hn.2 hc
        · revert hc; decide
        · have := Nat.isDigit_of_mem_toDigits (by omega) (by omega) hc
          revert this
          decide
        · revert hc; decide
    · exact hl l hl'

theorem entries {α : Type} (key : α → Text) (l : List α) (line : α → Text → Prop) (bs : List Text)
    (h : Lists key l (fun a b => ∃ x, line a x ∧ b = x ++ ['\n']) bs) :
    ∃ ls : List Text, bs = ls.map (· ++ ['\n']) ∧ Lists key l line ls := by
  have h' := h
  obtain ⟨l', h1, h2, h3, h4⟩ := h'
  have hd : ∀ b ∈ bs, ∃ x, b = x ++ ['\n'] := by
    intro b hb
    obtain ⟨a, _, x, _, e⟩ := h.mem.2 b hb
    exact ⟨x, e⟩
  refine ⟨bs.map List.dropLast, ?_, l', h1, h2, by simpa using h3, ?_⟩
  · rw [List.map_map]
    conv => lhs; rw [← List.map_id bs]
    apply List.map_congr_left
    intro b hb
    obtain ⟨x, rfl⟩ := hd b hb
    simp
  · intro i a e ha he
    rw [List.getElem?_map] at he
    cases hb : bs[i]? with
    | none => rw [hb] at he; cases he
    | some b =>
      rw [hb] at he
      obtain ⟨x, hx, rfl⟩ := h4 i a b ha hb
      have : e = x := by simpa using he.symm
      rw [this]
      exact hx

/-- An entry for a function that is not of the kernel: its prototype, without mark. -/
def Shows (d : Decl) (e : Text × Bool) : Prop := showFunc d.name d.ret d.ps false = some e.1 ∧ e.2 = false

/-- An entry for a kernel function: its prototype, marked if it can be traced. -/
def KShows (E : Env) (kf : Flg.KFunc) (e : Text × Bool) : Prop :=
  showFunc (E.decl kf.fn).name (E.decl kf.fn).ret (E.decl kf.fn).ps false = some e.1 ∧
  Km.detect E.fs E.ksyms E.patchable (!E.entry) kf.fn.name = .ok e.2

theorem plain_section (name : String) (hn : ':' ∉ name.toList ∧ '\n' ∉ name.toList) (l : List (Text × Decl)) (bs : List Text) (y : Text)
    (h : SecText name bs y) (hs : Lists (·.1) l (fun p c => Block false p.2 c) bs) (ho : ∀ a ∈ l, OneLine a.2) :
    ∃ (sec : List Text) (es : List (Text × Bool)), y = (sec.map (· ++ ['\n'])).flatten ∧ (∀ l ∈ sec, l ≠ [] ∧ '\n' ∉ l) ∧
      readSec sec = some ⟨name.toList, l.length, es⟩ ∧ Lists (·.1) l (fun p e => Shows p.2 e) es := by
  have h1 := hs.imp (entry' := fun (p : Text × Decl) b => ∃ x, (∃ q, showFunc p.2.name p.2.ret p.2.ps false = some q ∧ x = q ++ s ";") ∧
      b = x ++ ['\n']) id (by
    rintro a _ e ⟨q, h1, rfl⟩
    exact ⟨q ++ s ";", ⟨q, h1, rfl⟩, by simp [s]⟩)
  rw [List.map_id] at h1
  obtain ⟨ls, e1, e2⟩ := entries _ _ (fun (p : Text × Decl) x => ∃ q, showFunc p.2.name p.2.ret p.2.ps false = some q ∧ x = q ++ s ";") _ h1
  obtain ⟨sec, f1, f2, f3⟩ := sec_lines name hn bs ls y h e1 (by
    intro x hx
    obtain ⟨a, ha, q, hq, rfl⟩ := e2.mem.2 x hx
    refine ⟨by simp [s], fun hc => ?_⟩
    rcases List.mem_append.mp hc with hc | hc
    · exact ho a ha q hq hc
    · revert hc; decide)
  refine ⟨sec, ls.map readLine, f1, f2, by rw [f3, hs.length], e2.imp readLine ?_⟩
  rintro a _ x ⟨q, hq, rfl⟩
  rw [readLine_plain]
  exact ⟨hq, rfl⟩

theorem kernel_section (E : Env) (hl : E.list = false) (order : List Flg.KFunc) (bs : List Text) (y : Text)
    (h : SecText "Kernel functions" bs y) (hs : Lists (·.fn.name) order (KBlock E) bs) (ho : ∀ kf ∈ order, OneLine (E.decl kf.fn)) :
    ∃ (sec : List Text) (es : List (Text × Bool)), y = (sec.map (· ++ ['\n'])).flatten ∧ (∀ l ∈ sec, l ≠ [] ∧ '\n' ∉ l) ∧
      readSec sec = some ⟨"Kernel functions".toList, order.length, es⟩ ∧ Lists (·.fn.name) order (KShows E) es := by
  let line : Flg.KFunc → Text → Prop := fun kf x => ∃ q tr, showFunc (E.decl kf.fn).name (E.decl kf.fn).ret (E.decl kf.fn).ps false = some q ∧
    Km.detect E.fs E.ksyms E.patchable (!E.entry) kf.fn.name = .ok tr ∧ x = q ++ (if tr then s "; [traceable]" else s ";")
  have h1 := hs.imp (entry' := fun kf b => ∃ x, line kf x ∧ b = x ++ ['\n']) id (by
    rintro a _ e ⟨q, c, tr, h1, h2, h3, rfl⟩
    rw [hl] at h1
    rw [hl, if_neg (by simp)] at h3
    refine ⟨_, ⟨q, tr, h1, h2, rfl⟩, ?_⟩
    rw [h3]
    cases tr <;> simp [s])
  rw [List.map_id] at h1
  obtain ⟨ls, e1, e2⟩ := entries _ _ line _ h1
  obtain ⟨sec, f1, f2, f3⟩ := sec_lines "Kernel functions" (by decide) bs ls y h e1 (by
    intro x hx
    obtain ⟨a, ha, q, tr, hq, _, rfl⟩ := e2.mem.2 x hx
    refine ⟨by cases tr <;> simp [s], fun hc => ?_⟩
    rcases List.mem_append.mp hc with hc | hc
    · exact ho a ha q hq hc
    · revert hc; cases tr <;> decide)
  refine ⟨sec, ls.map readLine, f1, f2, by rw [f3, hs.length], e2.imp readLine ?_⟩
  rintro a _ x ⟨q, tr, hq, hd, rfl⟩
  cases tr with
  | true => rw [if_pos rfl, readLine_marked]; exact ⟨hq, hd⟩
  | false => rw [if_neg (by simp), readLine_plain]; exact ⟨hq, hd⟩

/-- The listing is read as the sections asked for: each with its title, the number of its functions, and the prototype of each function
once, in the order of their names (programs: of `id:name`), those of the kernel that can be traced with the mark. -/
theorem listing_read (E : Env) (order : List Flg.KFunc) (x : Text) (hl : E.list = false) (h : showAll E order = .ok x)
    (h1 : ∀ l, E.progs = some l → ∀ a ∈ l, OneLine a.2) (h2 : ∀ kf ∈ order, OneLine (E.decl kf.fn))
    (h3 : ∀ l, E.tps = .ok l → ∀ a ∈ l, OneLine a.2) :
    ∃ b k t : List Sec, read x = b ++ k ++ t ∧
      (b = [] ∧ (E.nprogs = 0 ∨ E.progs = some []) ∨
       ∃ l es, E.nprogs ≠ 0 ∧ E.progs = some l ∧ l ≠ [] ∧ b = [⟨"BPF functions".toList, l.length, es⟩] ∧
         Lists (·.1) l (fun p e => Shows p.2 e) es) ∧
      (if E.opts = [] then k = []
       else ∃ es, k = [⟨"Kernel functions".toList, order.length, es⟩] ∧ Lists (·.fn.name) order (KShows E) es) ∧
      (if E.ntps = 0 then t = []
       else ∃ l es, E.tps = .ok l ∧ t = [⟨"Kernel tracepoints".toList, l.length, es⟩] ∧ Lists (·.1) l (fun p e => Shows p.2 e) es) := by
  obtain ⟨b, k, t, hx, hb, hk, ht⟩ := listing_shown E order x h
  have B : ∃ (secs : List (List Text)) (r : List Sec), b = secs.map (fun ls => (ls.map (· ++ ['\n'])).flatten) ∧
      (∀ sec ∈ secs, ∀ l ∈ sec, l ≠ [] ∧ '\n' ∉ l) ∧ secs.filterMap readSec = r ∧
      (r = [] ∧ (E.nprogs = 0 ∨ E.progs = some []) ∨
       ∃ l es, E.nprogs ≠ 0 ∧ E.progs = some l ∧ l ≠ [] ∧ r = [⟨"BPF functions".toList, l.length, es⟩] ∧
         Lists (·.1) l (fun p e => Shows p.2 e) es) := by
    rcases hb with ⟨rfl, hb⟩ | ⟨l, bs, y, g1, g2, g3, rfl, g4, g5⟩
    · exact ⟨[], [], rfl, by simp, rfl, .inl ⟨rfl, hb⟩⟩
    · rw [hl] at g5
      obtain ⟨sec, es, f1, f2, f3, f4⟩ := plain_section _ (by decide) l bs y g4 g5 (h1 l g2)
      exact ⟨[sec], _, by rw [f1]; rfl, by simpa using f2, by simp only [List.filterMap_cons, f3, List.filterMap_nil],
        .inr ⟨l, es, g1, g2, g3, rfl, f4⟩⟩
  have K : ∃ (secs : List (List Text)) (r : List Sec), k = secs.map (fun ls => (ls.map (· ++ ['\n'])).flatten) ∧
      (∀ sec ∈ secs, ∀ l ∈ sec, l ≠ [] ∧ '\n' ∉ l) ∧ secs.filterMap readSec = r ∧
      (if E.opts = [] then r = []
       else ∃ es, r = [⟨"Kernel functions".toList, order.length, es⟩] ∧ Lists (·.fn.name) order (KShows E) es) := by
    by_cases h0 : E.opts = []
    · rw [if_pos h0] at hk
      exact ⟨[], [], by rw [hk]; rfl, by simp, rfl, by rw [if_pos h0]⟩
    · rw [if_neg h0] at hk
      obtain ⟨bs, y, rfl, g4, g5⟩ := hk
      obtain ⟨sec, es, f1, f2, f3, f4⟩ := kernel_section E hl order bs y g4 g5 h2
      exact ⟨[sec], [⟨"Kernel functions".toList, order.length, es⟩], by rw [f1]; rfl, by simpa using f2,
        by simp only [List.filterMap_cons, f3, List.filterMap_nil], by rw [if_neg h0]; exact ⟨es, rfl, f4⟩⟩
  have TT : ∃ (secs : List (List Text)) (r : List Sec), t = secs.map (fun ls => (ls.map (· ++ ['\n'])).flatten) ∧
      (∀ sec ∈ secs, ∀ l ∈ sec, l ≠ [] ∧ '\n' ∉ l) ∧ secs.filterMap readSec = r ∧
      (if E.ntps = 0 then r = []
       else ∃ l es, E.tps = .ok l ∧ r = [⟨"Kernel tracepoints".toList, l.length, es⟩] ∧ Lists (·.1) l (fun p e => Shows p.2 e) es) := by
    by_cases h0 : E.ntps = 0
    · rw [if_pos h0] at ht
      exact ⟨[], [], by rw [ht]; rfl, by simp, rfl, by rw [if_pos h0]⟩
    · rw [if_neg h0] at ht
      obtain ⟨l, bs, y, g2, rfl, g4, g5⟩ := ht
      rw [hl] at g5
      obtain ⟨sec, es, f1, f2, f3, f4⟩ := plain_section _ (by decide) l bs y g4 g5 (h3 l g2)
      exact ⟨[sec], [⟨"Kernel tracepoints".toList, l.length, es⟩], by rw [f1]; rfl, by simpa using f2,
        by simp only [List.filterMap_cons, f3, List.filterMap_nil], by rw [if_neg h0]; exact ⟨l, es, g2, rfl, f4⟩⟩
  obtain ⟨s1, r1, i1, j1, m1, n1⟩ := B
  obtain ⟨s2, r2, i2, j2, m2, n2⟩ := K
  obtain ⟨s3, r3, i3, j3, m3, n3⟩ := TT
  refine ⟨r1, r2, r3, ?_, n1, n2, n3⟩
  have hall : ∀ sec ∈ s1 ++ s2 ++ s3, ∀ l ∈ sec, l ≠ [] ∧ '\n' ∉ l := by
    intro sec hsec
    simp only [List.mem_append] at hsec
    rcases hsec with (hsec | hsec) | hsec
    · exact j1 sec hsec
    · exact j2 sec hsec
    · exact j3 sec hsec
  have hx' : x = (((s1 ++ s2 ++ s3).intersperse [[]]).flatten.map (· ++ ['\n'])).flatten := by
    rw [hx, i1, i2, i3, ← List.map_append, ← List.map_append, join_lines]
  have hlines : Lt.lines x = ((s1 ++ s2 ++ s3).intersperse [[]]).flatten := by
    rw [hx']
    apply Lt.lines_flatten
    intro l hl'
    obtain ⟨sec, hsec, hl'⟩ := List.mem_flatten.mp hl'
    rcases mem_intersperse _ _ _ hsec with rfl | hsec
    · rw [List.mem_singleton.mp hl']; simp
    · exact (hall sec hsec l hl').2
  rw [read, hlines, ← m1, ← m2, ← m3, ← List.filterMap_append, ← List.filterMap_append]
  by_cases hne : s1 ++ s2 ++ s3 = []
  · rw [hne]; rfl
  · rw [paragraphs_join _ (fun p hp hc => (hall p hp _ hc).1 rfl) hne]

/-! ### Which functions, and which of them have the mark -/

/-- What is in a map of functions found. -/
def Sound (E : Env) (acc : BitVec 64 → Option Flg.KFunc) : Prop :=
  ∀ a kf, acc a = some kf → kf.addr = a ∧ ∃ m k, Flg.FirstMatch E.glob E.ms kf.fn m ∧ Flg.Eligible E.ksyms 12 m kf.fn k ∧
    kf = ⟨k.addr, kf.fn, m.insn, m.imm⟩

theorem collect_sound (E : Env) (sp : Km.Spec) (acc : BitVec 64 → Option Flg.KFunc) (h : Sound E acc) :
    Sound E (Km.collect E.glob E.ksyms 12 E.ms acc sp).1 := by
  unfold Km.collect
  simp only
  generalize sp.funcs = fns
  induction fns generalizing acc with
  | nil => exact h
  | cons fn fns ih =>
    rw [List.foldl_cons]
    apply ih
    cases hm : Flg.matchKernelFunc E.glob E.ksyms 12 E.ms fn with
    | none => exact h
    | some kf =>
      intro a kf' hk
      simp only at hk
      by_cases ha : a = kf.addr
      · rw [if_pos ha] at hk
        cases hk
        obtain ⟨m, k, h1, h2, rfl⟩ := (Flg.matchKernelFunc_iff _ _ _ _ _ _).mp hm
        exact ⟨ha.symm, m, k, h1, h2, rfl⟩
      · rw [if_neg ha] at hk
        exact h a kf' hk

theorem walk_sound (E : Env) (load : Flg.Str → Option Km.Spec) : ∀ (ns : List Flg.Str) (acc t : BitVec 64 → Option Flg.KFunc), Sound E acc →
    Km.walk load (Km.collect E.glob E.ksyms 12 E.ms) ns acc = .ok t → Sound E t
  | [], acc, t, h, hw => by
    rw [Km.walk] at hw
    cases hw
    exact h
  | n :: ns, acc, t, h, hw => by
    rw [Km.walk] at hw
    cases hl : load n with
    | none => rw [hl] at hw; cases hw
    | some sp =>
      rw [hl] at hw
      have e : (Km.collect E.glob E.ksyms 12 E.ms acc sp).2 = false := rfl
      simp only [e, Bool.false_eq_true, if_false] at hw
      exact walk_sound E load ns _ t (collect_sound E sp acc h) hw

theorem found_sound (E : Env) (t : BitVec 64 → Option Flg.KFunc) (h : found E = .ok t) : Sound E t := by
  unfold found Km.findFuncs Km.iterate at h
  have h0 : Sound E fun _ => none := by
    intro a kf hk
    cases hk
  split at h
  · split at h
    · cases h
    · exact walk_sound E _ _ _ t h0 h
  · cases h
    exact collect_sound E _ _ h0

/-- Whatever is listed was asked for: its first matching option is known, and it can be probed as that option asks. -/
theorem listed_sound (E : Env) (order : List Flg.KFunc) (t : BitVec 64 → Option Flg.KFunc) (hf : found E = .ok t)
    (hw : Walks t (·.addr) order) (kf : Flg.KFunc) (h : kf ∈ order) :
    ∃ m k, Flg.FirstMatch E.glob E.ms kf.fn m ∧ Flg.Eligible E.ksyms 12 m kf.fn k ∧ kf = ⟨k.addr, kf.fn, m.insn, m.imm⟩ :=
  (found_sound E t hf kf.addr kf ((hw.2 kf).mp h)).2

/-- A function of the BTF searched that an option matches and that can be probed is listed, if no other function has its address. -/
theorem listed_complete (E : Env) (order : List Flg.KFunc) (t : BitVec 64 → Option Flg.KFunc) (hf : found E = .ok t)
    (hw : Walks t (·.addr) order) (hv : E.fs.has Km.vmlinux = true)
    (hp : E.all = true ∨ ¬ (Km.vmlinux ∈ Km.protoKmods E.ks E.given (E.opts.headD []) E.opts ∧
      Km.TwoBefore (Km.protoKmods E.ks E.given (E.opts.headD []) E.opts)))
    (hl : ∀ n, E.fs.has n = true → E.fs.load n ≠ none)
    (sp : Km.Spec) (hs : Km.Searched E.fs E.all (Km.protoKmods E.ks E.given (E.opts.headD []) E.opts) sp)
    (fn : Flg.BFunc) (hfn : fn ∈ sp.funcs) (m : Flg.KfuncFlag) (k : Flg.Ksym) (hm : Flg.FirstMatch E.glob E.ms fn m)
    (he : Flg.Eligible E.ksyms 12 m fn k)
    (hsole : ∀ sp', Km.Searched E.fs E.all (Km.protoKmods E.ks E.given (E.opts.headD []) E.opts) sp' → ∀ fn' ∈ sp'.funcs, ∀ k',
      E.ksyms fn'.name = some k' → k'.addr = k.addr → fn' = fn) :
    (⟨k.addr, fn, m.insn, m.imm⟩ : Flg.KFunc) ∈ order := by
  rw [hw.2]
  obtain ⟨fns, h1, h2⟩ := Km.find_eq E.fs E.all _ E.glob E.ksyms 12 E.ms hv hp hl
  have h1' : found E = .ok (Flg.findKernelFuncs E.glob E.ksyms 12 E.ms fns) := h1
  rw [hf] at h1'
  cases h1'
  have hx := (Flg.matchKernelFunc_iff E.glob E.ksyms 12 E.ms fn ⟨k.addr, fn, m.insn, m.imm⟩).2 ⟨m, k, hm, he, rfl⟩
  show Flg.findKernelFuncs E.glob E.ksyms 12 E.ms fns k.addr = _
  rw [Flg.findKernelFuncs_eq]
  have hmem : (⟨k.addr, fn, m.insn, m.imm⟩ : Flg.KFunc) ∈ fns.reverse.filterMap (Flg.matchKernelFunc E.glob E.ksyms 12 E.ms) :=
    List.mem_filterMap.2 ⟨fn, List.mem_reverse.2 ((h2 fn).mpr ⟨sp, hs, hfn⟩), hx⟩
  cases hfd : (fns.reverse.filterMap (Flg.matchKernelFunc E.glob E.ksyms 12 E.ms)).find? (·.addr = k.addr) with
  | none =>
    have := List.find?_eq_none.1 hfd _ hmem
    simp at this
  | some y =>
    obtain ⟨fn', hfn', hx'⟩ := List.mem_filterMap.1 (List.mem_of_find?_eq_some hfd)
    have ha : y.addr = k.addr := by simpa using List.find?_some hfd
    obtain ⟨m', k', g1, g2, rfl⟩ := (Flg.matchKernelFunc_iff _ _ _ _ _ _).1 hx'
    obtain ⟨sp', g3, g4⟩ := (h2 fn').mp (List.mem_reverse.1 hfn')
    obtain rfl := hsole sp' g3 fn' g4 k' g2.2.2.1 ha
    rw [hx] at hx'
    exact hx'.symm

/-- The mark of a function listed, if the first BTF with its name has this function: it is on no list of functions that must not be
traced (for functions that do not return: unless `-m` has `entry`), it has one address, and its code there can be hooked. -/
theorem mark_says (E : Env) (order : List Flg.KFunc) (t : BitVec 64 → Option Flg.KFunc) (hf : found E = .ok t)
    (hw : Walks t (·.addr) order) (kf : Flg.KFunc) (h : kf ∈ order) (n : Flg.Str) (sp : Km.Spec) (hn : Km.FirstHit E.fs kf.fn.name n)
    (hl : E.fs.load n = some sp) (hb : sp.byName kf.fn.name = .func kf.fn) (tr : Bool)
    (hd : Km.detect E.fs E.ksyms E.patchable (!E.entry) kf.fn.name = .ok tr) :
    tr = true ↔ kf.fn.name ∉ Flg.tracingDenyFuncs ∧ (E.entry = true ∨ kf.fn.name ∉ Flg.noreturnFuncs) ∧
      (∃ k, E.ksyms kf.fn.name = some k ∧ k.duped = false) ∧ E.patchable kf.addr = true := by
  obtain ⟨m, k, h1, h2, h3⟩ := listed_sound E order t hf hw kf h
  by_cases hden : ((!E.entry) = true ∧ kf.fn.name ∈ Flg.noreturnFuncs) ∨ kf.fn.name ∈ Flg.tracingDenyFuncs
  · rw [Km.detect_denied E.fs E.ksyms E.patchable _ _ hden] at hd
    cases hd
    constructor
    · intro h; cases h
    · rintro ⟨g1, g2, _⟩
      rcases hden with ⟨e1, e2⟩ | e
      · rcases g2 with g2 | g2
        · rw [g2] at e1; cases e1
        · exact absurd e2 g2
      · exact absurd e g1
  · rw [not_or] at hden
    rw [Km.detect_found E.fs E.ksyms E.patchable _ _ n (fun he hm => hden.1 ⟨he, hm⟩) hden.2 hn sp hl kf.fn hb] at hd
    have hc : Flg.checkTraceable E.ksyms kf.fn false = if k.duped then none else some k := by
      unfold Flg.checkTraceable
      rw [h2.1, h2.2.1, h2.2.2.1]
      simp
    rw [hc] at hd
    have hka : kf.addr = k.addr := by rw [h3]
    cases hdu : k.duped with
    | true =>
      rw [hdu] at hd
      cases hd
      constructor
      · intro h; cases h
      · rintro ⟨_, _, ⟨k', e1, e2⟩, _⟩
        rw [h2.2.2.1] at e1
        cases e1
        rw [hdu] at e2
        cases e2
    | false =>
      rw [hdu] at hd
      have htr : tr = E.patchable k.addr := by
        simp only [Bool.false_eq_true, if_false, Option.map_some, Option.getD_some] at hd
        cases hd
        rfl
      rw [htr, ← hka]
      constructor
      · intro hpt
        refine ⟨hden.2, ?_, ⟨k, h2.2.2.1, hdu⟩, hpt⟩
        cases he : E.entry with
        | true => exact .inl rfl
        | false => exact .inr (fun hm => hden.1 ⟨by rw [he]; rfl, hm⟩)
      · rintro ⟨_, _, _, hpt⟩
        exact hpt

/-- Partial: the mark is on exactly the functions that the same options would trace, if `-m` names one of `entry` and `exit`, the
option has none of the flags `(b)`, `(i)`, `(g)`, and the name has one address. -/
theorem mark_traced_partial (E : Env) (order : List Flg.KFunc) (t : BitVec 64 → Option Flg.KFunc) (hf : found E = .ok t)
    (hw : Walks t (·.addr) order) (kf : Flg.KFunc) (h : kf ∈ order) (n : Flg.Str) (sp : Km.Spec) (hn : Km.FirstHit E.fs kf.fn.name n)
    (hl : E.fs.load n = some sp) (hb : sp.byName kf.fn.name = .func kf.fn) (tr : Bool)
    (hd : Km.detect E.fs E.ksyms E.patchable (!E.entry) kf.fn.name = .ok tr)
    (g : Flg.Glob) (hg : g.exit = !E.entry) (m : Flg.KfuncFlag) (hm : Flg.FirstMatch E.glob E.ms kf.fn m)
    (hi : m.insn = false) (hbo : m.imm.both = false) (hgr : m.imm.graph = false)
    (hdu : ∀ k, E.ksyms kf.fn.name = some k → k.duped = false) :
    tr = true ↔ ¬ Flg.Denied g m kf.fn ∧ E.patchable kf.addr = true := by
  obtain ⟨_, k, _, h2, _⟩ := listed_sound E order t hf hw kf h
  rw [mark_says E order t hf hw kf h n sp hn hl hb tr hd]
  unfold Flg.Denied
  rw [hi, hbo, hgr, hg]
  simp only [List.contains_iff_mem]
  constructor
  · rintro ⟨h1, h3, _, h4⟩
    refine ⟨?_, h4⟩
    rintro (h5 | ⟨h5, h6⟩)
    · exact h1 h5
    · rcases h3 with h3 | h3
      · rw [h3] at h6; simp at h6
      · exact h3 h5
  · rintro ⟨h1, h4⟩
    rw [not_or] at h1
    refine ⟨h1.1, ?_, ⟨k, h2.2.2.1, hdu k h2.2.2.1⟩, h4⟩
    cases he : E.entry with
    | true => exact .inl rfl
    | false => exact .inr (fun hx => h1.2 ⟨hx, .inl (by rw [he]; rfl)⟩)

/-- **Violated**: with `-m entry,exit` a function that does not return has the mark, and is not traced. -/
theorem noreturn_marked_violated (E : Env) (order : List Flg.KFunc) (t : BitVec 64 → Option Flg.KFunc) (hf : found E = .ok t)
    (hw : Walks t (·.addr) order) (kf : Flg.KFunc) (h : kf ∈ order) (n : Flg.Str) (sp : Km.Spec) (hn : Km.FirstHit E.fs kf.fn.name n)
    (hl : E.fs.load n = some sp) (hb : sp.byName kf.fn.name = .func kf.fn) (tr : Bool)
    (hd : Km.detect E.fs E.ksyms E.patchable (!E.entry) kf.fn.name = .ok tr)
    (hnr : kf.fn.name ∈ Flg.noreturnFuncs) (g : Flg.Glob) (hg : g.exit = true) (he : E.entry = true)
    (hdu : ∀ k, E.ksyms kf.fn.name = some k → k.duped = false) (hp : E.patchable kf.addr = true) :
    tr = true ∧ ∀ m, Flg.Denied g m kf.fn := by
  obtain ⟨_, k, _, h2, _⟩ := listed_sound E order t hf hw kf h
  refine ⟨(mark_says E order t hf hw kf h n sp hn hl hb tr hd).mpr ⟨?_, .inl he, ⟨k, h2.2.2.1, hdu k h2.2.2.1⟩, hp⟩, fun m => ?_⟩
  · have : ∀ x ∈ Flg.noreturnFuncs, x ∉ Flg.tracingDenyFuncs := by decide +kernel
    exact this _ hnr
  · exact .inr ⟨by simpa using hnr, .inl hg⟩

/-- **Violated**: a function whose name has several addresses can be listed, for `(m)`, and never has the mark, although it is traced. -/
theorem duped_unmarked_violated (E : Env) (order : List Flg.KFunc) (t : BitVec 64 → Option Flg.KFunc) (hf : found E = .ok t)
    (hw : Walks t (·.addr) order) (kf : Flg.KFunc) (h : kf ∈ order) (n : Flg.Str) (sp : Km.Spec) (hn : Km.FirstHit E.fs kf.fn.name n)
    (hl : E.fs.load n = some sp) (hb : sp.byName kf.fn.name = .func kf.fn) (tr : Bool)
    (hd : Km.detect E.fs E.ksyms E.patchable (!E.entry) kf.fn.name = .ok tr) (k : Flg.Ksym) (hk : E.ksyms kf.fn.name = some k)
    (hdu : k.duped = true) : tr = false := by
  cases htr : tr with
  | false => rfl
  | true =>
    obtain ⟨_, _, ⟨k', e1, e2⟩, _⟩ := (mark_says E order t hf hw kf h n sp hn hl hb tr hd).mp htr
    rw [hk] at e1
    cases e1
    rw [hdu] at e2
    cases e2

/-! ### Failures -/

/-- **Violated**: an error with the programs asked for, such as one without BTF, is a crash. -/
theorem program_error_violated (E : Env) (order : List Flg.KFunc) (h : E.nprogs ≠ 0) (hp : E.progs = none) :
    showAll E order = .panic := by
  simp [showAll, programs, h, hp]

/-- Everything asked for is listed: if programs and tracepoints are found, the kernel's functions can be searched and marked, and the
types of all have texts, there is a listing. -/
theorem listing_total (E : Env) (order : List Flg.KFunc) (t : BitVec 64 → Option Flg.KFunc) (hf : found E = .ok t)
    (hw : Walks t (·.addr) order) (hdn : ∀ fn, (E.decl fn).name = fn.name)
    (hd : ∀ kf ∈ order, ∃ tr, Km.detect E.fs E.ksyms E.patchable (!E.entry) kf.fn.name = .ok tr)
    (hk : ∀ kf ∈ order, ∃ p, showFunc (E.decl kf.fn).name (E.decl kf.fn).ret (E.decl kf.fn).ps E.list = some p)
    (hp : E.nprogs ≠ 0 → ∃ l, E.progs = some l ∧ ∀ a ∈ l, ∃ p, showFunc a.2.name a.2.ret a.2.ps E.list = some p)
    (ht : E.ntps ≠ 0 → ∃ l, E.tps = .ok l ∧ ∀ a ∈ l, ∃ p, showFunc a.2.name a.2.ret a.2.ps E.list = some p) :
    ∃ x, showAll E order = .ok x := by
  have pr : ∀ l : List (Text × Decl), (∀ a ∈ l, ∃ p, showFunc a.2.name a.2.ret a.2.ps E.list = some p) →
      ∃ y, each (fun x => printFunc E.list x.2) (sortBy (·.1) l) = .ok y := by
    intro l hl
    apply each_total
    intro a ha
    obtain ⟨p, e⟩ := hl a ((sortBy_perm _ l).mem_iff.mp ha)
    exact ⟨p ++ s ";\n", by rw [printFunc, e]⟩
  have P : ∃ p, programs E = .ok p := by
    unfold programs
    by_cases h0 : E.nprogs = 0
    · exact ⟨[], by rw [if_pos h0]⟩
    · obtain ⟨l, e, hl⟩ := hp h0
      rw [if_neg h0, e]
      cases l with
      | nil => exact ⟨[], rfl⟩
      | cons a l =>
        obtain ⟨y, hy⟩ := pr _ hl
        dsimp only
        rw [hy]
        exact ⟨_, rfl⟩
  have K : ∃ k, kernel E order = .ok k := by
    unfold kernel
    rw [hf]
    dsimp only
    obtain ⟨y, hy⟩ := each_total (kline E) (sortBy (·.fn.name) order) (by
      intro kf hkf
      have hkf' := (sortBy_perm _ order).mem_iff.mp hkf
      obtain ⟨tr, e1⟩ := hd kf hkf'
      obtain ⟨p, e2⟩ := hk kf hkf'
      rw [hdn] at e2
      obtain ⟨m, k, _, h2, _⟩ := listed_sound E order t hf hw kf hkf'
      unfold kline
      rw [e1]
      simp only [printKfunc, e2, hdn, h2.2.2.1]
      cases E.list with
      | false => exact ⟨_, rfl⟩
      | true =>
        rw [if_pos rfl]
        cases E.a2l with
        | none => exact ⟨_, rfl⟩
        | some f => exact ⟨_, rfl⟩)
    rw [hy]
    exact ⟨_, rfl⟩
  have TT : E.ntps ≠ 0 → ∃ k, tracepoints E = .ok k := by
    intro h0
    unfold tracepoints
    obtain ⟨l, e, hl⟩ := ht h0
    obtain ⟨y, hy⟩ := pr _ hl
    rw [e]
    dsimp only
    rw [hy]
    exact ⟨_, rfl⟩
  obtain ⟨p, hp'⟩ := P
  obtain ⟨k, hk'⟩ := K
  unfold showAll
  rw [hp', hk']
  dsimp only
  have hK : ∃ z, (if E.opts = [] then Out.ok [] else Out.ok k) = Out.ok z := by
    by_cases h0 : E.opts = []
    · exact ⟨[], by rw [if_pos h0]⟩
    · exact ⟨k, by rw [if_neg h0]⟩
  obtain ⟨z, hz⟩ := hK
  rw [hz]
  dsimp only
  by_cases h0 : E.ntps = 0
  · rw [if_pos h0]; exact ⟨_, rfl⟩
  · obtain ⟨w, hw'⟩ := TT h0
    rw [if_neg h0, hw']
    exact ⟨_, rfl⟩

/-- **Violated**: of two functions with the same address only one is listed. -/
theorem alias_hidden_violated (E : Env) (order : List Flg.KFunc) (t : BitVec 64 → Option Flg.KFunc) (hw : Walks t (·.addr) order)
    (kf kf' : Flg.KFunc) (h : kf ∈ order) (h' : kf' ∈ order) (ha : kf.addr = kf'.addr) : kf = kf' := by
  have h1 := (hw.2 kf).mp h
  have h2 := (hw.2 kf').mp h'
  simp only [ha] at h1 h2
  rw [h2] at h1
  exact (Option.some.inj h1).symm

/-- **Violated**: if the first option is the name of a function of a module, no other module is searched, not even one given with
`--kfunc-kmods` or one whose function a later option names. -/
theorem first_module_only_violated (E : Env) (m : Flg.Str) (h : E.ks.modOf (E.opts.headD []) = some m) (hm : m ≠ []) (x : Flg.Str) :
    x ∈ Km.protoKmods E.ks E.given (E.opts.headD []) E.opts ↔ x = Km.vmlinux ∨ x = m := by
  unfold Km.protoKmods
  rw [h]
  simp only [if_pos hm]
  rw [(Km.sortCompact_spec _).2]
  simp

theorem mem_flatten_intersperse (sep : Text) (l : List Text) (c : Char) (h : c ∈ (l.intersperse sep).flatten) : c ∈ sep ∨ ∃ x ∈ l, c ∈ x := by
  obtain ⟨x, hx, hc⟩ := List.mem_flatten.mp h
  rcases mem_intersperse _ _ _ hx with rfl | hx
  · exact .inl hc
  · exact .inr ⟨x, hx, hc⟩

theorem decl_chars {x r n : Text} (h : Pt.Decl x r n) (hr : Pt.Plain r) (hn : Pt.Ident n) : '\n' ∉ x := by
  intro hc
  have hn' : '\n' ∉ n := fun hc => by
    have := hn.2 _ hc
    revert this
    decide
  have hr' : '\n' ∉ r := fun hc => (hr.2 _ hc).2.2.2 rfl
  rcases h with ⟨_, rfl⟩ | ⟨_, rfl⟩
  · rcases List.mem_append.mp hc with hc | hc
    · exact hr' hc
    · exact hn' hc
  · rcases List.mem_append.mp hc with hc | hc
    · rcases List.mem_append.mp hc with hc | hc
      · exact hr' hc
      · revert hc; decide
    · exact hn' hc

theorem decls_chars : ∀ (ds : List Text) (l : List (Text × Text)), Pt.Decls ds l → (∀ p ∈ l, Pt.Ident p.1 ∧ Pt.Plain p.2) → ∀ d ∈ ds, '\n' ∉ d
  | [], _, _, _, d, hd => by cases hd
  | d :: ds, [], h, _, _, _ => h.elim
  | d :: ds, p :: l, h, hl, d', hd => by
    rcases List.mem_cons.mp hd with rfl | hd
    · exact decl_chars h.1 (hl p (by simp)).2 (hl p (by simp)).1
    · exact decls_chars ds l h.2 (fun q hq => hl q (by simp [hq])) d' hd

/-- Functions whose names are identifiers and whose types have plain texts have prototypes of one line, as `listing_read` asks. -/
theorem oneLine (d : Decl) (r : Text) (l : List (Text × Text)) (hr : Pt.reprT d.ret = some r) (ht : Pt.Texts d.ps l) (hp : Pt.Plain r)
    (hn : Pt.Ident d.name) (hl : ∀ p ∈ l, Pt.Ident p.1 ∧ Pt.Plain p.2) : OneLine d := by
  intro p hp' hc
  obtain ⟨x, e1, f, ds, e2, e3, rfl⟩ := Pt.prototype_shown d.name d.ret d.ps r l hr hp.1 ht (fun q hq => (hl q hq).1.1)
    (fun q hq => (hl q hq).2.1)
  rw [e1] at hp'
  cases hp'
  rcases List.mem_append.mp hc with hc | hc
  · rcases List.mem_append.mp hc with hc | hc
    · rcases List.mem_append.mp hc with hc | hc
      · exact decl_chars e2 hp hn hc
      · revert hc; decide
    · rcases mem_flatten_intersperse _ _ _ hc with hc | ⟨y, hy, hc⟩
      · revert hc; decide
      · exact decls_chars ds l e3 hl y hy hc
  · revert hc; decide

/-! ### Witness -/

def exDecl (f : Flg.BFunc) : Decl := ⟨f.name, .int (s "int") 4, .cons (s "skb") (.ptr (.comp false (s "sk_buff") 232 .nil)) .nil⟩

def exEnv : Env where
  list := false
  nprogs := 1
  progs := some [(s "9:prog", ⟨s "prog", .int (s "int") 4, .nil⟩), (s "10:main", ⟨s "main", .int (s "int") 4, .nil⟩)]
  fs := Km.exFs
  all := true
  given := []
  ks := Km.exKs
  glob := Km.exGlob
  ksyms := Km.exSyms
  patchable := fun _ => true
  entry := false
  opts := [s "veth_xmit"]
  ms := [{ name := s "veth_xmit" }]
  decl := exDecl
  a2l := none
  ntps := 0
  tps := .ok []

def exOrder : List Flg.KFunc := [⟨0xffffffffc0001000#64, Km.exFn, false, {}⟩]


theorem sort_two {α : Type} (le : α → α → Bool) (a b : α) : [a, b].mergeSort le = if le a b then [a, b] else [b, a] := by
  rw [List.mergeSort]
  simp only [List.MergeSort.Internal.splitInTwo, List.splitAt]
  simp [List.merge, List.mergeSort, List.splitAt.go]

theorem ex_names : Km.names Km.exFs true [] = some [Km.vmlinux, "nf_tables".toList, "veth".toList] := by
  have e : ((Km.exFs.files.filter fun f => !f.2 && f.1 ≠ Km.vmlinux).map Prod.fst) = ["veth".toList, "nf_tables".toList] := by decide
  unfold Km.names
  rw [if_pos rfl, e, sort_two]
  decide

theorem ex_found : ∃ t, found exEnv = .ok t ∧ Walks t (·.addr) exOrder := by
  refine ⟨fun a => if a = 0xffffffffc0001000#64 then some ⟨0xffffffffc0001000#64, Km.exFn, false, {}⟩ else none, ?_, ?_⟩
  · unfold found Km.findFuncs Km.iterate
    have : (exEnv.all || !(Km.protoKmods exEnv.ks exEnv.given (exEnv.opts.headD []) exEnv.opts).isEmpty) = true := rfl
    rw [if_pos this]
    have e : Km.names exEnv.fs exEnv.all (Km.protoKmods exEnv.ks exEnv.given (exEnv.opts.headD []) exEnv.opts) =
      some [Km.vmlinux, "nf_tables".toList, "veth".toList] := ex_names
    rw [e]
    rfl
  · refine ⟨by simp [exOrder], fun kf => ?_⟩
    rw [exOrder, List.mem_singleton]
    constructor
    · rintro rfl; rfl
    · intro h
      simp only at h
      split at h
      · cases h; rfl
      · cases h

theorem ex_detect : Km.detect exEnv.fs exEnv.ksyms exEnv.patchable (!exEnv.entry) Km.exFn.name = .ok true := by
  unfold Km.detect Km.iterate
  rw [if_neg (by decide), if_neg (by decide), if_pos (by decide : (true || !([] : List Flg.Str).isEmpty) = true)]
  have e : Km.names exEnv.fs true [] = some [Km.vmlinux, "nf_tables".toList, "veth".toList] := ex_names
  rw [e]
  rfl

/-- A listing with two programs, in the order of the texts of their ids, and a kernel function with the mark. -/
theorem listing_witness : ∃ t x, found exEnv = .ok t ∧ Walks t (·.addr) exOrder ∧ showAll exEnv exOrder = .ok x ∧
    x = s "BPF functions: (total 2)\nint main();\nint prog();\n\nKernel functions: (total 1)\nint veth_xmit(struct sk_buff *skb); [traceable]\n" ∧
    read x = [⟨"BPF functions".toList, 2, [(s "int main()", false), (s "int prog()", false)]⟩,
      ⟨"Kernel functions".toList, 1, [(s "int veth_xmit(struct sk_buff *skb)", true)]⟩] := by
  obtain ⟨t, h1, h2⟩ := ex_found
  refine ⟨t, _, h1, h2, ?_, rfl, by decide +kernel⟩
  have e1 : programs exEnv = .ok (s "BPF functions: (total 2)\nint main();\nint prog();\n") := by
    unfold programs
    simp only [exEnv, sortBy]
    rw [sort_two, if_neg (by decide)]
    rfl
  have e2 : kernel exEnv exOrder = .ok (s "Kernel functions: (total 1)\nint veth_xmit(struct sk_buff *skb); [traceable]\n") := by
    unfold kernel
    rw [h1]
    have e : sortBy (·.fn.name) exOrder = exOrder := by simp [sortBy, exOrder]
    rw [e]
    have e' : kline exEnv ⟨0xffffffffc0001000#64, Km.exFn, false, {}⟩ = .ok (s "int veth_xmit(struct sk_buff *skb); [traceable]\n") := by
      unfold kline
      rw [ex_detect]
      rfl
    simp only [exOrder, each, e']
    rfl
  unfold showAll
  have h0 : exEnv.ntps = 0 := by decide
  rw [e1, if_neg (by decide : exEnv.opts ≠ []), e2, if_pos h0]
  dsimp only
  exact congrArg Out.ok (by decide +kernel)

/-- C78. The comment before a kernel function tells function, offset (hexadecimal), file and line (decimal; only if the file is known)
and whether the code is inlined. -/
theorem comment_shown (p : Lt.Ep) : ∃ off line : Text, numeral 16 off = p.off ∧ numeral 10 line = p.line ∧
    comment p = "; ".toList ++ p.func ++ "+0x".toList ++ off ++
      (if p.file = [] then [] else " ".toList ++ p.file ++ ":".toList ++ line) ++
      (if p.inline then " [inline]".toList else []) ++ "\n".toList := by
  refine ⟨Nat.toDigits 16 p.off, dec p.line, Rp.digits_value 16 (by omega) (by omega) _, Rp.digits_value 10 (by omega) (by omega) _, ?_⟩
  by_cases hf : p.file = [] <;> cases hi : p.inline <;> simp [comment, hf, hi, s, Lt.hex]

example : comment ⟨0, "tcp_v4_rcv".toList, 16, "net/ipv4/tcp_ipv4.c".toList, 2012, false⟩ =
    "; tcp_v4_rcv+0x10 net/ipv4/tcp_ipv4.c:2012\n".toList := by decide +kernel

end Bpfsnoop.Pl
