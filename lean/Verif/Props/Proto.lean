import Verif.Model.Proto
/-
C64: the layout of a type as shown is its layout. C65: the prototype shown is that of the function.
-/
namespace Bpfsnoop.Pt
open Rp (Text dec)

/-! ### Specification -/

/-- A member that is no struct or union itself: the names on the way to it, its type, where the struct or union it is declared
in begins (bits from the start of the whole type), its offset in there, its bit-field size (0 if none). -/
structure Leaf where
  path : List Text
  ty : T
  base : Nat
  off : Nat
  bits : Nat

/-- A struct or union by value, not behind a typedef or qualifier. -/
def T.isComp : T → Bool
  | .comp _ _ _ _ => true
  | _ => false

/-- `Reach ms lf`: starting from the members `ms` of a type, `lf` is reached by going through structs and unions that are
members by value. -/
inductive Reach : Nat → List Text → Ms → Leaf → Prop
  | here {base p ms n t o b} : (n, t, o, b) ∈ ms.toList → t.isComp = false → Reach base p ms ⟨p ++ [n], t, base, o, b⟩
  | inside {base p ms n u c z ms' o b lf} : (n, T.comp u c z ms', o, b) ∈ ms.toList →
      Reach (base + o) (p ++ [n]) ms' lf → Reach base p ms lf

mutual
/-- The members in the order of their declaration. -/
def leavesT (base : Nat) (p : List Text) (n : Text) (o b : Nat) : T → List Leaf
  | .comp _ _ _ ms => leaves (base + o) (p ++ [n]) ms
  | .void => [⟨p ++ [n], .void, base, o, b⟩]
  | .int x z => [⟨p ++ [n], .int x z, base, o, b⟩]
  | .float z => [⟨p ++ [n], .float z, base, o, b⟩]
  | .enum x z v => [⟨p ++ [n], .enum x z v, base, o, b⟩]
  | .ptr t => [⟨p ++ [n], .ptr t, base, o, b⟩]
  | .typedef x t => [⟨p ++ [n], .typedef x t, base, o, b⟩]
  | .qual w t => [⟨p ++ [n], .qual w t, base, o, b⟩]
  | .array t k => [⟨p ++ [n], .array t k, base, o, b⟩]
  | .func x r ps => [⟨p ++ [n], .func x r ps, base, o, b⟩]
  | .proto r ps => [⟨p ++ [n], .proto r ps, base, o, b⟩]
  | .other x => [⟨p ++ [n], .other x, base, o, b⟩]

def leaves (base : Nat) (p : List Text) : Ms → List Leaf
  | .nil => []
  | .cons n t o b rest => leavesT base p n o b t ++ leaves base p rest
end

/-- The size of a type in bytes: pointers have 8, a typedef or qualified type that of its type, an array its length times that of its
elements. Functions have none. -/
inductive SizeOf : T → Nat → Prop
  | void : SizeOf .void 0
  | int {n z} : SizeOf (.int n z) z
  | float {z} : SizeOf (.float z) z
  | enum {n z v} : SizeOf (.enum n z v) z
  | comp {u n z ms} : SizeOf (.comp u n z ms) z
  | ptr {t} : SizeOf (.ptr t) 8
  | typedef {n t z} : SizeOf t z → SizeOf (.typedef n t) z
  | qual {w t z} : SizeOf t z → SizeOf (.qual w t) z
  | array {t z n} : SizeOf t z → SizeOf (.array t n) (n * z)

/-- `t` is `u` behind any number of typedefs and qualifiers. -/
inductive Behind (u : T) : T → Prop
  | here : Behind u u
  | typedef {n t} : Behind u t → Behind u (.typedef n t)
  | qual {w t} : Behind u t → Behind u (.qual w t)

/-- Neither a typedef nor qualified. -/
def Bare (u : T) : Prop := (∀ n t, u ≠ .typedef n t) ∧ ∀ w t, u ≠ .qual w t

/-- A number in decimal, right-aligned. -/
def Num (x : Text) (v : Nat) : Prop := ∃ k d, x = List.replicate k ' ' ++ d ∧ (∀ c ∈ d, c.isDigit = true) ∧ d ≠ [] ∧
  Nat.ofDigitChars 10 d 0 = v

/-- A line that shows a member: indented by eight blanks for each struct around it, the declaration, and a comment with the
byte offset from the start of the type and the size, or the bit in that byte and the number of bits. -/
def ShowsLeaf (line : Text) (lf : Leaf) : Prop :=
  ∃ decl pad offs rest name, lf.path.getLast? = some name ∧ memberText name lf.ty = some decl ∧
    line = List.replicate (8 * lf.path.length) ' ' ++ decl ++ List.replicate pad ' ' ++ s "/* " ++ offs ++ rest ++ s " */" ∧
    1 ≤ pad ∧ Num offs ((lf.base + lf.off) / 8) ∧
    (if lf.bits = 0 then ∃ z v, rest = s "    " ++ z ∧ Num z v ∧ (SizeOf lf.ty v ∨ v = 0 ∧ ∀ v', ¬ SizeOf lf.ty v')
     else ∃ b n, rest = s ":" ++ b ++ s " " ++ n ∧ Num b ((lf.base + lf.off) % 8) ∧ Num n lf.bits)

/-- A line that opens or closes a struct or union. -/
def Block (line : Text) : Prop :=
  line.getLast? = some '{' ∨ ∃ k r, line = List.replicate k ' ' ++ '}' :: r

/-- Offsets are less than 2^32 bits and structs begin at whole bytes. -/
def Fits (ms : Ms) : Prop := ∀ lf, Reach 0 [] ms lf → lf.base % 8 = 0 ∧ lf.base + lf.off < 2 ^ 32

/-! ### Lemmas -/

/-- `btf.Sizeof` gives the size of a type. -/
theorem sizeof_iff : ∀ (t : T) (z : Nat), t.sizeof = some z ↔ SizeOf t z
  | .typedef n t, z => by rw [T.sizeof, sizeof_iff t z]; exact ⟨.typedef, fun h => by cases h; assumption⟩
  | .qual w t, z => by rw [T.sizeof, sizeof_iff t z]; exact ⟨.qual, fun h => by cases h; assumption⟩
  | .array t n, z => by
    rw [T.sizeof, Option.map_eq_some_iff]
    constructor
    · rintro ⟨a, h, rfl⟩
      rw [Nat.mul_comm]
      exact .array ((sizeof_iff t a).mp h)
    · intro h
      cases h with
      | array h => exact ⟨_, (sizeof_iff t _).mpr h, Nat.mul_comm _ _⟩
  | .void, z => ⟨fun h => by cases h; exact .void, fun h => by cases h; rfl⟩
  | .int _ _, z => ⟨fun h => by cases h; exact .int, fun h => by cases h; rfl⟩
  | .float _, z => ⟨fun h => by cases h; exact .float, fun h => by cases h; rfl⟩
  | .enum _ _ _, z => ⟨fun h => by cases h; exact .enum, fun h => by cases h; rfl⟩
  | .comp _ _ _ _, z => ⟨fun h => by cases h; exact .comp, fun h => by cases h; rfl⟩
  | .ptr _, z => ⟨fun h => by cases h; exact .ptr, fun h => by cases h; rfl⟩
  | .func _ _ _, z => ⟨nofun, nofun⟩
  | .proto _ _, z => ⟨nofun, nofun⟩
  | .other _, z => ⟨nofun, nofun⟩

theorem sizeof_shown (t : T) : SizeOf t (t.sizeof.getD 0) ∨ t.sizeof.getD 0 = 0 ∧ ∀ v, ¬ SizeOf t v := by
  cases h : t.sizeof with
  | some z => exact .inl ((sizeof_iff t z).mp h)
  | none => exact .inr ⟨rfl, fun v hv => by rw [(sizeof_iff t v).mpr hv] at h; cases h⟩

/-- `mybtf.UnderlyingType` removes all typedefs and qualifiers, and nothing else. -/
theorem under_iff : ∀ (t u : T), t.under = u ↔ Behind u t ∧ Bare u
  | .typedef n t, u => by
    rw [T.under, under_iff t u]
    constructor
    · exact fun h => ⟨.typedef h.1, h.2⟩
    · rintro ⟨h, hb⟩
      cases h with
      | here => exact absurd rfl (hb.1 n t)
      | typedef h => exact ⟨h, hb⟩
  | .qual w t, u => by
    rw [T.under, under_iff t u]
    constructor
    · exact fun h => ⟨.qual h.1, h.2⟩
    · rintro ⟨h, hb⟩
      cases h with
      | here => exact absurd rfl (hb.2 w t)
      | qual h => exact ⟨h, hb⟩
  | .void, u => ⟨fun h => by subst h; exact ⟨.here, nofun, nofun⟩, fun h => by cases h.1; rfl⟩
  | .int _ _, u => ⟨fun h => by subst h; exact ⟨.here, nofun, nofun⟩, fun h => by cases h.1; rfl⟩
  | .float _, u => ⟨fun h => by subst h; exact ⟨.here, nofun, nofun⟩, fun h => by cases h.1; rfl⟩
  | .enum _ _ _, u => ⟨fun h => by subst h; exact ⟨.here, nofun, nofun⟩, fun h => by cases h.1; rfl⟩
  | .comp _ _ _ _, u => ⟨fun h => by subst h; exact ⟨.here, nofun, nofun⟩, fun h => by cases h.1; rfl⟩
  | .ptr _, u => ⟨fun h => by subst h; exact ⟨.here, nofun, nofun⟩, fun h => by cases h.1; rfl⟩
  | .array _ _, u => ⟨fun h => by subst h; exact ⟨.here, nofun, nofun⟩, fun h => by cases h.1; rfl⟩
  | .func _ _ _, u => ⟨fun h => by subst h; exact ⟨.here, nofun, nofun⟩, fun h => by cases h.1; rfl⟩
  | .proto _ _, u => ⟨fun h => by subst h; exact ⟨.here, nofun, nofun⟩, fun h => by cases h.1; rfl⟩
  | .other _, u => ⟨fun h => by subst h; exact ⟨.here, nofun, nofun⟩, fun h => by cases h.1; rfl⟩

mutual
theorem mem_leavesT (base : Nat) (p : List Text) (n : Text) (o b : Nat) (lf : Leaf) : ∀ t : T,
    lf ∈ leavesT base p n o b t ↔
      (t.isComp = false ∧ lf = ⟨p ++ [n], t, base, o, b⟩) ∨ ∃ u c z ms, t = .comp u c z ms ∧ Reach (base + o) (p ++ [n]) ms lf
  | .comp u c z ms => by
    rw [leavesT, mem_leaves]
    constructor
    · intro h
      exact .inr ⟨_, _, _, _, rfl, h⟩
    · rintro (⟨h, _⟩ | ⟨_, _, _, _, h, hr⟩)
      · cases h
      · cases h; exact hr
  | .void => by simp [leavesT, T.isComp]
  | .int _ _ => by simp [leavesT, T.isComp]
  | .float _ => by simp [leavesT, T.isComp]
  | .enum _ _ _ => by simp [leavesT, T.isComp]
  | .ptr _ => by simp [leavesT, T.isComp]
  | .typedef _ _ => by simp [leavesT, T.isComp]
  | .qual _ _ => by simp [leavesT, T.isComp]
  | .array _ _ => by simp [leavesT, T.isComp]
  | .func _ _ _ => by simp [leavesT, T.isComp]
  | .proto _ _ => by simp [leavesT, T.isComp]
  | .other _ => by simp [leavesT, T.isComp]

/-- The list of members holds exactly the members that can be reached. -/
theorem mem_leaves (base : Nat) (p : List Text) (lf : Leaf) : ∀ ms : Ms, lf ∈ leaves base p ms ↔ Reach base p ms lf
  | .nil => by
    simp only [leaves, List.not_mem_nil, false_iff]
    intro h
    cases h <;> simp_all [Ms.toList]
  | .cons n t o b rest => by
    rw [leaves, List.mem_append, mem_leavesT base p n o b lf t, mem_leaves base p lf rest]
    constructor
    · rintro ((⟨h1, rfl⟩ | ⟨u, c, z, ms, rfl, h⟩) | h)
      · exact .here (by simp [Ms.toList]) h1
      · exact .inside (by simp only [Ms.toList, List.mem_cons]; exact .inl rfl) h
      · cases h with
        | here h1 h2 => exact .here (by simp only [Ms.toList, List.mem_cons]; exact .inr h1) h2
        | inside h1 h2 => exact .inside (by simp only [Ms.toList, List.mem_cons]; exact .inr h1) h2
    · intro h
      cases h with
      | here h1 h2 =>
        simp only [Ms.toList, List.mem_cons, Prod.mk.injEq] at h1
        rcases h1 with ⟨rfl, rfl, rfl, rfl⟩ | h1
        · exact .inl (.inl ⟨h2, rfl⟩)
        · exact .inr (.here h1 h2)
      | inside h1 h2 =>
        simp only [Ms.toList, List.mem_cons, Prod.mk.injEq] at h1
        rcases h1 with ⟨rfl, rfl, rfl, rfl⟩ | h1
        · exact .inl (.inr ⟨_, _, _, _, rfl, h2⟩)
        · exact .inr (.inside h1 h2)
end

theorem num_padLeft (k v : Nat) : Num (padLeft k (dec v)) v :=
  ⟨_, dec v, rfl, fun _ hc => Nat.isDigit_of_mem_toDigits (by omega) (by omega) hc, Nat.toDigits_ne_nil, Nat.ofDigitChars_ten_toDigits⟩

theorem indent_eq (d : Nat) : indent d = List.replicate (8 * d) ' ' := by
  induction d with
  | zero => rfl
  | succ d ih =>
    have h : indent (d + 1) = s "        " ++ indent d := rfl
    rw [h, ih]
    have h8 : s "        " = List.replicate 8 ' ' := rfl
    rw [h8, List.replicate_append_replicate]
    congr 1
    omega

/-- A text as lines, some of them showing members. -/
def Lines (x : Text) (ls : List (Option Leaf × Text)) : Prop :=
  x = (ls.map fun l => l.2 ++ s "\n").flatten ∧ ∀ l ∈ ls, match l.1 with | some lf => ShowsLeaf l.2 lf | none => Block l.2

theorem Lines.append {x y : Text} {a b : List (Option Leaf × Text)} (h1 : Lines x a) (h2 : Lines y b) : Lines (x ++ y) (a ++ b) := by
  refine ⟨by rw [h1.1, h2.1, List.map_append, List.flatten_append], ?_⟩
  intro l hl
  rcases List.mem_append.1 hl with h | h
  · exact h1.2 l h
  · exact h2.2 l h

/-- What is assumed of a leaf so that the numbers are right. -/
def Ok (lf : Leaf) : Prop := lf.base % 8 = 0 ∧ lf.base + lf.off < 2 ^ 32

theorem printMember_lines (p : List Text) (name : Text) (t : T) (off bits base : Nat) (x : Text)
    (h : printMember name t off bits (base % 2 ^ 32) (p.length + 1) = some x) (hok : Ok ⟨p ++ [name], t, base, off, bits⟩) :
    ∃ l, x = l ++ s "\n" ∧ ShowsLeaf l ⟨p ++ [name], t, base, off, bits⟩ := by
  rw [printMember] at h
  cases hr : reprT t with
  | none => rw [hr] at h; cases h
  | some r =>
    cases hm : memberText name t with
    | none => rw [hr, hm] at h; cases h
    | some d =>
      rw [hr, hm] at h
      simp only [Option.some.injEq] at h
      obtain ⟨h8, h32⟩ := hok
      simp only at h8 h32
      have hmod : (off + base % 2 ^ 32) % 2 ^ 32 = base + off := by omega
      have hpos : off % 8 = (base + off) % 8 := by omega
      rw [offsetSize, hmod, hpos, indent_eq] at h
      generalize hw : ((58 : Int) - 8 * ((p.length + 1 : Nat) : Int)).natAbs = w at h
      refine ⟨_, ?_, d, w - d.length + 1, padLeft 5 (dec ((base + off) / 8)),
        (if bits ≠ 0 then s ":" ++ padLeft 2 (dec ((base + off) % 8)) ++ s " " ++ padLeft 2 (dec bits)
          else s "    " ++ padLeft 2 (dec (t.sizeof.getD 0))), name, by simp, hm, rfl, by omega, num_padLeft _ _, ?_⟩
      · rw [← h]
        simp only [padRight, List.length_append, List.length_singleton]
        have hb : List.replicate (w - d.length + 1) ' ' = List.replicate (w - d.length) ' ' ++ s " " := List.replicate_succ' ..
        rw [hb]
        have he : s " */\n" = s " */" ++ s "\n" := rfl
        rw [he]
        simp only [List.append_assoc]
      · by_cases hz : bits = 0
        · have hne : ¬ (bits ≠ 0) := fun h => h hz
          rw [if_pos hz, if_neg hne]
          exact ⟨_, _, rfl, num_padLeft _ _, sizeof_shown t⟩
        · have hne : bits ≠ 0 := hz
          rw [if_neg hz, if_pos hne]
          exact ⟨_, _, rfl, num_padLeft _ _, num_padLeft _ _⟩

theorem header_block (u : Bool) (n : Text) (d : Nat) : ∃ l, header u n d = l ++ s "\n" ∧ Block l := by
  unfold header
  by_cases hn : n ≠ []
  · refine ⟨indent d ++ (if u = true then s "union " else s "struct ") ++ (n ++ s " {"), ?_, .inl ?_⟩
    · rw [if_pos hn]
      have e : s " {\n" = s " {" ++ s "\n" := rfl
      rw [e]
      simp only [List.append_assoc]
    · have h : s " {" = [' ', '{'] := rfl
      rw [h]; simp
  · refine ⟨indent d ++ (if u = true then s "union " else s "struct ") ++ s "{", ?_, .inl ?_⟩
    · rw [if_neg hn]
      have e : s "{\n" = s "{" ++ s "\n" := rfl
      rw [e]
      simp only [List.append_assoc]
    · have h : s "{" = ['{'] := rfl
      rw [h]; simp

theorem close_block (d : Nat) (n : Text) : ∃ l, indent d ++ s "}" ++ after n = l ++ s "\n" ∧ Block l := by
  unfold after
  rw [indent_eq]
  split
  · refine ⟨List.replicate (8 * d) ' ' ++ '}' :: (s " " ++ n ++ s ";"), ?_, .inr ⟨_, _, rfl⟩⟩
    have e : s ";\n" = s ";" ++ s "\n" := rfl
    have e2 : s "}" = ['}'] := rfl
    rw [e, e2]
    simp only [List.append_assoc, List.cons_append, List.nil_append]
  · refine ⟨List.replicate (8 * d) ' ' ++ '}' :: s ";", ?_, .inr ⟨_, _, rfl⟩⟩
    simp only [List.append_assoc]
    rfl

theorem one_line {lf : Leaf} {x : Text} (h : ∃ l, x = l ++ s "\n" ∧ ShowsLeaf l lf) :
    ∃ ls, Lines x ls ∧ ls.filterMap (·.1) = [lf] := by
  obtain ⟨l, rfl, h⟩ := h
  refine ⟨[(some lf, l)], ⟨by simp, ?_⟩, by simp⟩
  intro a ha
  rw [List.mem_singleton.1 ha]
  exact h

mutual
theorem showMember_lines (base : Nat) (p : List Text) (n : Text) (o b : Nat) : ∀ (t : T) (x : Text),
    showMember (base % 2 ^ 32) (p.length + 1) n o b t = some x → (∀ lf ∈ leavesT base p n o b t, Ok lf) →
    ∃ ls, Lines x ls ∧ ls.filterMap (·.1) = leavesT base p n o b t
  | .comp u c z ms, x, h, hok => by
    rw [showMember, Option.map_eq_some_iff] at h
    obtain ⟨y, hy, rfl⟩ := h
    have hm : (o + base % 2 ^ 32) % 2 ^ 32 = (base + o) % 2 ^ 32 := by omega
    rw [hm] at hy
    rw [leavesT] at hok ⊢
    have hl : p.length + 1 = (p ++ [n]).length := by simp
    rw [hl] at hy
    obtain ⟨ls, h1, h2⟩ := showMs_lines (base + o) (p ++ [n]) ms y hy hok
    obtain ⟨l1, e1, b1⟩ := header_block u c (p.length + 1)
    obtain ⟨l2, e2, b2⟩ := close_block (p.length + 1) n
    have hx : header u c (p.length + 1) ++ y ++ indent (p.length + 1) ++ s "}" ++ after n = (l1 ++ s "\n") ++ (y ++ (l2 ++ s "\n")) := by
      rw [← e1, ← e2]
      simp only [List.append_assoc]
    rw [hx]
    have hb1 : Lines (l1 ++ s "\n") [(none, l1)] := ⟨by simp, by intro a ha; rw [List.mem_singleton.1 ha]; exact b1⟩
    have hb2 : Lines (l2 ++ s "\n") [(none, l2)] := ⟨by simp, by intro a ha; rw [List.mem_singleton.1 ha]; exact b2⟩
    refine ⟨_, hb1.append (h1.append hb2), ?_⟩
    simp [List.filterMap_append, h2]
  | .void, x, h, hok => by rw [showMember] at h; rw [leavesT] at hok ⊢; exact one_line (printMember_lines p n _ o b base x h (hok _ (by simp)))
  | .int _ _, x, h, hok => by rw [showMember] at h; rw [leavesT] at hok ⊢; exact one_line (printMember_lines p n _ o b base x h (hok _ (by simp)))
  | .float _, x, h, hok => by rw [showMember] at h; rw [leavesT] at hok ⊢; exact one_line (printMember_lines p n _ o b base x h (hok _ (by simp)))
  | .enum _ _ _, x, h, hok => by rw [showMember] at h; rw [leavesT] at hok ⊢; exact one_line (printMember_lines p n _ o b base x h (hok _ (by simp)))
  | .ptr _, x, h, hok => by rw [showMember] at h; rw [leavesT] at hok ⊢; exact one_line (printMember_lines p n _ o b base x h (hok _ (by simp)))
  | .typedef _ _, x, h, hok => by rw [showMember] at h; rw [leavesT] at hok ⊢; exact one_line (printMember_lines p n _ o b base x h (hok _ (by simp)))
  | .qual _ _, x, h, hok => by rw [showMember] at h; rw [leavesT] at hok ⊢; exact one_line (printMember_lines p n _ o b base x h (hok _ (by simp)))
  | .array _ _, x, h, hok => by rw [showMember] at h; rw [leavesT] at hok ⊢; exact one_line (printMember_lines p n _ o b base x h (hok _ (by simp)))
  | .func _ _ _, x, h, hok => by rw [showMember] at h; rw [leavesT] at hok ⊢; exact one_line (printMember_lines p n _ o b base x h (hok _ (by simp)))
  | .proto _ _, x, h, hok => by rw [showMember] at h; rw [leavesT] at hok ⊢; exact one_line (printMember_lines p n _ o b base x h (hok _ (by simp)))
  | .other _, x, h, hok => by rw [showMember] at h; rw [leavesT] at hok ⊢; exact one_line (printMember_lines p n _ o b base x h (hok _ (by simp)))

theorem showMs_lines (base : Nat) (p : List Text) : ∀ (ms : Ms) (x : Text),
    showMs (base % 2 ^ 32) (p.length + 1) ms = some x → (∀ lf ∈ leaves base p ms, Ok lf) →
    ∃ ls, Lines x ls ∧ ls.filterMap (·.1) = leaves base p ms
  | .nil, x, h, _ => by
    rw [showMs, Option.some.injEq] at h
    subst h
    exact ⟨[], ⟨rfl, by simp⟩, rfl⟩
  | .cons n t o b rest, x, h, hok => by
    rw [showMs] at h
    rw [leaves] at hok ⊢
    cases h1 : showMember (base % 2 ^ 32) (p.length + 1) n o b t with
    | none => rw [h1] at h; cases h
    | some y =>
      cases h2 : showMs (base % 2 ^ 32) (p.length + 1) rest with
      | none => rw [h1, h2] at h; cases h
      | some w =>
        rw [h1, h2] at h
        simp only [Option.some.injEq] at h
        subst h
        obtain ⟨la, a1, a2⟩ := showMember_lines base p n o b t y h1 (fun lf hl => hok lf (List.mem_append_left _ hl))
        obtain ⟨lb, b1, b2⟩ := showMs_lines base p rest w h2 (fun lf hl => hok lf (List.mem_append_right _ hl))
        exact ⟨la ++ lb, a1.append b1, by rw [List.filterMap_append, a2, b2]⟩
end

/-! ### C64 -/

/-- The layout of a struct or union is shown line by line: lines that open or close a nested struct or union, and one line for
every member that is neither, in the order of declaration, with its offset from the start of the type. -/
theorem layout_shown_partial (u : Bool) (n : Text) (ms : Ms) (x : Text) (h : showComp u n ms = some x) (hf : Fits ms) :
    ∃ ls : List (Option Leaf × Text), x ++ s "\n" = (ls.map fun l => l.2 ++ s "\n").flatten ∧
      ls.filterMap (·.1) = leaves 0 [] ms ∧
      ∀ l ∈ ls, match l.1 with | some lf => ShowsLeaf l.2 lf | none => Block l.2 := by
  rw [showComp, Option.map_eq_some_iff] at h
  obtain ⟨y, hy, rfl⟩ := h
  obtain ⟨ls, h1, h2⟩ := showMs_lines 0 [] ms y hy (fun lf hl => hf lf ((mem_leaves 0 [] lf ms).1 hl))
  obtain ⟨l1, e1, b1⟩ := header_block u n 0
  have hb1 : Lines (l1 ++ s "\n") [(none, l1)] := ⟨by simp, by intro a ha; rw [List.mem_singleton.1 ha]; exact b1⟩
  have hb2 : Lines (s "}" ++ s "\n") [(none, s "}")] :=
    ⟨by simp, by intro a ha; rw [List.mem_singleton.1 ha]; exact .inr ⟨0, [], rfl⟩⟩
  have hl := hb1.append (h1.append hb2)
  refine ⟨_, ?_, ?_, hl.2⟩
  · rw [← hl.1, e1]
    simp only [List.append_assoc]
  · simp [List.filterMap_append, h2]

/-- A type text has been made. -/
def T.Named : T → Prop
  | .typedef n _ => n ≠ []
  | .qual _ t => t.Named
  | .ptr t => t.Named
  | .int n _ => n ≠ []
  | .array t _ => t.Named
  | .other x => x ≠ []
  | .void => True
  | .float _ => True
  | .enum _ _ _ => True
  | .comp _ _ _ _ => True
  | .func _ _ _ => True
  | .proto _ _ => True

/-- The text of a type with names is never a panic, and never empty. -/
theorem repr_total : ∀ (t : T), t.Named → ∀ sb, ∃ r, reprAcc sb t = some r ∧ r ≠ []
  | .void, _, sb => ⟨_, rfl, by simp [s]⟩
  | .int n z, h, sb => ⟨_, rfl, by simp [T.Named] at h; simp [h]⟩
  | .float _, _, sb => ⟨_, rfl, by simp [s]⟩
  | .enum _ _ _, _, sb => ⟨_, rfl, by simp [s]⟩
  | .comp u _ _ _, _, sb => ⟨_, rfl, by cases u <;> simp [s]⟩
  | .ptr t, h, sb => by
    obtain ⟨r, h1, h2⟩ := repr_total t h []
    rw [reprAcc, h1]
    cases hl : r.getLast? with
    | none => exact absurd (List.getLast?_eq_none_iff.1 hl) h2
    | some c => simp only [hl]; exact ⟨_, rfl, by simp [h2]⟩
  | .typedef n t, h, sb => ⟨n, rfl, h⟩
  | .qual w t, h, sb => repr_total t h _
  | .array t n, h, sb => by
    obtain ⟨r, h1, h2⟩ := repr_total t h []
    rw [reprAcc, h1]
    exact ⟨_, rfl, by simp [h2]⟩
  | .func _ _ _, _, sb => ⟨_, rfl, by simp [s]⟩
  | .proto _ _, _, sb => ⟨_, rfl, by simp [s]⟩
  | .other x, h, sb => ⟨_, rfl, by simp [T.Named] at h; simp [h]⟩

/-- Every type text that is made on the way is that of a type with names. -/
def PsNamed (ps : Ps) : Prop := ∀ p ∈ ps.toList, p.2.Named

/-- What a member needs so that it can be shown: names for its type, and, if it is a pointer to a function, for the types of
that. -/
def MemberNamed (t : T) : Prop :=
  t.Named ∧ match t.under with
    | .ptr (.proto ret ps) => ret.Named ∧ PsNamed ps
    | .array e _ => e.Named
    | _ => True

theorem ptrParams_total : ∀ (ps : Ps) (first : Bool), PsNamed ps → ∃ x, ptrParams first ps = some x
  | .nil, _, _ => ⟨_, rfl⟩
  | .cons n t rest, first, h => by
    obtain ⟨r, h1, _⟩ := repr_total t (h (n, t) (by simp [Ps.toList])) []
    obtain ⟨x, h2⟩ := ptrParams_total rest false (fun p hp => h p (by simp [Ps.toList, hp]))
    rw [ptrParams, reprT, h1, h2]
    exact ⟨_, rfl⟩

theorem printMember_total (name : Text) (t : T) (off bits prev depth : Nat) (h : MemberNamed t) :
    ∃ x, printMember name t off bits prev depth = some x := by
  obtain ⟨hn, hm⟩ := h
  obtain ⟨r, h1, _⟩ := repr_total t hn []
  have h2 : ∃ y, memberText name t = some y := by
    unfold memberText
    split at hm
    · next ret ps he =>
      rw [he]
      obtain ⟨ra, ha, _⟩ := repr_total ret hm.1 []
      obtain ⟨xb, hb⟩ := ptrParams_total ps true hm.2
      simp only [fnPtr, reprT, ha, hb]
      exact ⟨_, rfl⟩
    · next e n he =>
      rw [he]
      obtain ⟨ra, ha, _⟩ := repr_total e hm []
      simp only [reprT, ha]
      exact ⟨_, rfl⟩
    · next h3 h4 =>
      split
      · next ret ps he => exact absurd he (h3 _ _)
      · simp only [reprT, h1]; exact ⟨_, rfl⟩
      · next e n he => exact absurd he (h4 _ _)
      · simp only [reprT, h1]; exact ⟨_, rfl⟩
  obtain ⟨y, h2⟩ := h2
  rw [printMember, reprT, h1, h2]
  exact ⟨_, rfl⟩

mutual
theorem showMember_total (prev depth : Nat) (name : Text) (off bits base : Nat) (p : List Text) : ∀ t : T,
    (∀ lf ∈ leavesT base p name off bits t, MemberNamed lf.ty) → ∃ x, showMember prev depth name off bits t = some x
  | .comp u n z ms, h => by
    rw [leavesT] at h
    obtain ⟨x, hx⟩ := showMs_total ((off + prev) % 2 ^ 32) (depth + 1) (base + off) (p ++ [name]) ms h
    rw [showMember, hx]
    exact ⟨_, rfl⟩
  | .void, h => by rw [showMember]; exact printMember_total _ _ _ _ _ _ (h _ (by rw [leavesT]; exact List.mem_cons_self))
  | .int _ _, h => by rw [showMember]; exact printMember_total _ _ _ _ _ _ (h _ (by rw [leavesT]; exact List.mem_cons_self))
  | .float _, h => by rw [showMember]; exact printMember_total _ _ _ _ _ _ (h _ (by rw [leavesT]; exact List.mem_cons_self))
  | .enum _ _ _, h => by rw [showMember]; exact printMember_total _ _ _ _ _ _ (h _ (by rw [leavesT]; exact List.mem_cons_self))
  | .ptr _, h => by rw [showMember]; exact printMember_total _ _ _ _ _ _ (h _ (by rw [leavesT]; exact List.mem_cons_self))
  | .typedef _ _, h => by rw [showMember]; exact printMember_total _ _ _ _ _ _ (h _ (by rw [leavesT]; exact List.mem_cons_self))
  | .qual _ _, h => by rw [showMember]; exact printMember_total _ _ _ _ _ _ (h _ (by rw [leavesT]; exact List.mem_cons_self))
  | .array _ _, h => by rw [showMember]; exact printMember_total _ _ _ _ _ _ (h _ (by rw [leavesT]; exact List.mem_cons_self))
  | .func _ _ _, h => by rw [showMember]; exact printMember_total _ _ _ _ _ _ (h _ (by rw [leavesT]; exact List.mem_cons_self))
  | .proto _ _, h => by rw [showMember]; exact printMember_total _ _ _ _ _ _ (h _ (by rw [leavesT]; exact List.mem_cons_self))
  | .other _, h => by rw [showMember]; exact printMember_total _ _ _ _ _ _ (h _ (by rw [leavesT]; exact List.mem_cons_self))

theorem showMs_total (prev depth base : Nat) (p : List Text) : ∀ ms : Ms,
    (∀ lf ∈ leaves base p ms, MemberNamed lf.ty) → ∃ x, showMs prev depth ms = some x
  | .nil, _ => ⟨_, rfl⟩
  | .cons n t o b rest, h => by
    rw [leaves] at h
    obtain ⟨x, hx⟩ := showMember_total prev depth n o b base p t (fun lf hl => h lf (List.mem_append_left _ hl))
    obtain ⟨y, hy⟩ := showMs_total prev depth base p rest (fun lf hl => h lf (List.mem_append_right _ hl))
    rw [showMs, hx, hy]
    exact ⟨_, rfl⟩
end

/-- Every struct or union whose members' types have names is shown. -/
theorem layout_total (u : Bool) (n : Text) (ms : Ms) (h : ∀ lf, Reach 0 [] ms lf → MemberNamed lf.ty) :
    ∃ x, showComp u n ms = some x := by
  obtain ⟨x, hx⟩ := showMs_total 0 1 0 [] ms (fun lf hl => h lf ((mem_leaves 0 [] lf ms).1 hl))
  rw [showComp, hx]
  exact ⟨_, rfl⟩

/-- The declaration of a member is its type, its name and a semicolon, with a blank between them unless the type ends in a
star; except for arrays, and for pointers that are not written with a star. -/
theorem declaration_partial (name : Text) (t : T) (r : Text) (hr : reprT t = some r)
    (hs : match t.under with | .ptr (.proto _ _) => False | .ptr _ => r.getLast? = some '*' | .array _ _ => False | _ => r.getLast? ≠ some '*') :
    memberText name t = some (beside r name ++ s ";") := by
  unfold memberText
  split at hs
  · exact hs.elim
  · next t1 hno h3 =>
    rw [beside, if_pos hs]
    split
    · next ret ps h4 =>
      rw [h3] at h4
      cases h4
      exact absurd rfl (hno _ _)
    · rw [hr]; rfl
    · simp_all
    · simp_all
  · exact hs.elim
  · rw [beside, if_neg hs]
    split
    · simp_all
    · simp_all
    · simp_all
    · rw [hr]; rfl

/-- A pointer behind a typedef runs into the name of the member: `fl_owner_t flc_owner` is shown as `fl_owner_tflc_owner;`. -/
theorem typedef_pointer_violated :
    memberText (s "flc_owner") (.typedef (s "fl_owner_t") (.ptr .void)) = some (s "fl_owner_tflc_owner;") := by
  decide +kernel

/-- An array has no semicolon. -/
theorem array_semicolon_violated :
    memberText (s "comm") (.array (.int (s "char") 1) 16) = some (s "char comm[16]") := by decide +kernel

/-- The declaration of an array: element type, name, number of elements. -/
theorem array_declaration_partial (name : Text) (t e : T) (n : Nat) (r : Text) (hb : Behind (.array e n) t) (hr : reprT e = some r) :
    ∃ d, memberText name t = some (r ++ s " " ++ name ++ s "[" ++ d ++ s "]") ∧ Num d n := by
  have hu : t.under = .array e n := (under_iff t _).mpr ⟨hb, nofun, nofun⟩
  refine ⟨dec n, ?_, 0, dec n, rfl, fun _ hc => Nat.isDigit_of_mem_toDigits (by omega) (by omega) hc, Nat.toDigits_ne_nil,
    Nat.ofDigitChars_ten_toDigits⟩
  unfold memberText
  rw [hu]
  simp only [hr, Option.map_some]

/-- The text of an array. -/
theorem array_text (t : T) (n : Nat) (r : Text) (hr : reprT t = some r) :
    ∃ d, reprT (.array t n) = some (s "array(" ++ r ++ s "[" ++ d ++ s "])") ∧ Num d n := by
  refine ⟨dec n, ?_, 0, dec n, rfl, fun _ hc => Nat.isDigit_of_mem_toDigits (by omega) (by omega) hc, Nat.toDigits_ne_nil,
    Nat.ofDigitChars_ten_toDigits⟩
  unfold reprT at *
  rw [reprAcc, hr]
  rfl

/-- The texts of the parameters, joined by `, `. -/
theorem ptrParams_shown (ps : Ps) : ∀ (rs : List Text) (first : Bool), ps.toList.map (fun p => reprT p.2) = rs.map some →
    ptrParams first ps = some ((if first ∨ ps.toList = [] then [] else s ", ") ++
      List.intercalate (s ", ") ((ps.toList.zip rs).map fun q => beside q.2 q.1.1)) := by
  match ps with
  | .nil => intro rs first _; cases first <;> simp [ptrParams, Ps.toList, List.intercalate]
  | .cons n t rest =>
    intro rs first h
    cases rs with
    | nil => cases h
    | cons r rs =>
      rw [Ps.toList, List.map_cons, List.map_cons, List.cons.injEq] at h
      have ih := ptrParams_shown rest rs false h.2
      have h1 : reprT t = some r := h.1
      rw [ptrParams, h1, ih, Ps.toList, List.zip_cons_cons, List.map_cons]
      dsimp only
      cases hrest : rest.toList with
      | nil =>
        cases first <;> simp [List.intercalate]
      | cons q qs =>
        rw [hrest] at h
        cases rs with
        | nil => cases h.2
        | cons r' rs => cases first <;> simp [List.intercalate]

/-- The declaration of a pointer to a function: result, star and name, and the parameters in order, each with type and name. -/
theorem function_pointer_shown (name : Text) (t ret : T) (ps : Ps) (r : Text) (rs : List Text) (hb : Behind (.ptr (.proto ret ps)) t)
    (hr : reprT ret = some r) (hps : ps.toList.map (fun p => reprT p.2) = rs.map some) :
    memberText name t = some (beside r (s "(* " ++ name ++ s ")") ++ s "(" ++
      List.intercalate (s ", ") ((ps.toList.zip rs).map fun q => beside q.2 q.1.1) ++ s ");") := by
  have hu : t.under = .ptr (.proto ret ps) := (under_iff t _).mpr ⟨hb, nofun, nofun⟩
  unfold memberText
  rw [hu]
  simp only [fnPtr, hr, ptrParams_shown ps rs true hps, Option.map_some, beside, true_or, if_true, List.nil_append, Option.some.injEq]
  have e : s ");" = s ")" ++ s ";" := rfl
  rw [e]
  split <;> simp only [List.append_assoc]

theorem function_pointer_witness :
    memberText (s "map") (.qual (s "const") (.ptr (.proto (.ptr .void) (.cons (s "p") (.ptr (.comp false (s "page") 64 .nil)) (.cons (s "n") (.int (s "int") 4) .nil))))) =
      some (s "void *(* map)(struct page *p, int n);") := by decide +kernel

/-- Qualifiers before a typedef are dropped: `const u32` is shown as `u32`. -/
theorem qualifier_violated (w n : Text) (t : T) : reprT (.qual w (.typedef n t)) = reprT (.typedef n t) := rfl

/-- Nothing else of a type is dropped: the text of a qualified type that is no typedef is the qualifier and the text of the
type. -/
theorem qualifier_partial (w : Text) (t : T) (h : ∀ n t', t ≠ .typedef n t') (hq : ∀ v t', t ≠ .qual v t') (r : Text)
    (hr : reprT t = some r) : reprT (.qual w t) = some (w ++ s " " ++ r) := by
  unfold reprT at *
  rw [reprAcc]
  cases t with
  | typedef n t' => exact absurd rfl (h n t')
  | qual v t' => exact absurd rfl (hq v t')
  | ptr t =>
    rw [reprAcc] at hr ⊢
    cases h1 : reprAcc [] t with
    | none => rw [h1] at hr; cases hr
    | some x =>
      rw [h1] at hr
      cases h2 : x.getLast? with
      | none => simp only [h2] at hr; cases hr
      | some c =>
        simp only [h2, Option.some.injEq] at hr ⊢
        rw [← hr]
        simp
  | array t n =>
    rw [reprAcc] at hr ⊢
    cases h1 : reprAcc [] t with
    | none => rw [h1] at hr; cases hr
    | some x =>
      rw [h1] at hr
      simp only [Option.map_some, Option.some.injEq] at hr ⊢
      rw [← hr]
      simp
  | _ => simp only [reprAcc, Option.some.injEq] at hr ⊢; rw [← hr]; simp

/-- The values of an enum are shown, each on its line with its number. -/
theorem enum_shown (name : Text) (vals : List (Text × BitVec 64)) :
    ∃ ls : List Text, showEnum name vals = s "enum " ++ name ++ s " {\n" ++ (ls.map (· ++ s ",\n")).flatten ++ s "}" ∧
      ls.length = vals.length ∧
      ∀ (i : Nat) (l : Text) (v : Text × BitVec 64), ls[i]? = some l → vals[i]? = some v →
        ∃ k d, l = s "        " ++ v.1 ++ List.replicate k ' ' ++ s " = " ++ d ∧ Num d v.2.toNat := by
  refine ⟨vals.map fun v => s "        " ++ padRight ((vals.map fun v => v.1.length).foldl max 0) v.1 ++ s " = " ++ dec v.2.toNat, ?_, by simp, ?_⟩
  · rw [showEnum]
    simp only [List.map_map]
    congr 1
  · intro i l v hl hv
    rw [List.getElem?_map, hv] at hl
    simp only [Option.map_some, Option.some.injEq] at hl
    subst hl
    refine ⟨_, _, by simp only [padRight, List.append_assoc]; rfl, 0, dec v.2.toNat, rfl, ?_, Nat.toDigits_ne_nil, Nat.ofDigitChars_ten_toDigits⟩
    exact fun _ hc => Nat.isDigit_of_mem_toDigits (by omega) (by omega) hc

/-- A negative value is shown as a huge one. -/
theorem negative_enum_violated :
    showEnum (s "e") [(s "A", -1)] = s "enum e {\n        A = 18446744073709551615,\n}" := by decide +kernel

/-- The type of a name: that of the first BTF (the kernel's, then its modules') that has the name, if it is the only one. -/
theorem findType_iff (name : Text) (t : T) (btfs : List (Text → Found)) :
    findType name btfs = some t ↔ ∃ l b r, btfs = l ++ b :: r ∧ b name = .one t ∧ ∀ x ∈ l, x name = .none := by
  induction btfs with
  | nil => simp [findType]
  | cons b bs ih =>
    rw [findType]
    cases h : b name with
    | none =>
      simp only
      rw [ih]
      constructor
      · rintro ⟨l, c, r, rfl, h1, h2⟩
        exact ⟨b :: l, c, r, rfl, h1, fun x hx => (List.mem_cons.1 hx).elim (fun e => e ▸ h) (h2 x)⟩
      · rintro ⟨l, c, r, he, h1, h2⟩
        cases l with
        | nil =>
          rw [List.nil_append, List.cons.injEq] at he
          rw [← he.1, h] at h1
          cases h1
        | cons d l =>
          rw [List.cons_append, List.cons.injEq] at he
          exact ⟨l, c, r, he.2, h1, fun x hx => h2 x (List.mem_cons_of_mem _ hx)⟩
    | one t' =>
      simp only [Option.some.injEq]
      constructor
      · rintro rfl
        exact ⟨[], b, bs, rfl, h, by simp⟩
      · rintro ⟨l, c, r, he, h1, h2⟩
        cases l with
        | nil =>
          rw [List.nil_append, List.cons.injEq] at he
          rw [← he.1, h] at h1
          cases h1; rfl
        | cons d l =>
          rw [List.cons_append, List.cons.injEq] at he
          have := h2 d List.mem_cons_self
          rw [← he.1, h] at this
          cases this
    | many =>
      simp only
      constructor
      · rintro h; cases h
      · rintro ⟨l, c, r, he, h1, h2⟩
        cases l with
        | nil =>
          rw [List.nil_append, List.cons.injEq] at he
          rw [← he.1, h] at h1
          cases h1
        | cons d l =>
          rw [List.cons_append, List.cons.injEq] at he
          have := h2 d List.mem_cons_self
          rw [← he.1, h] at this
          cases this

/-- A name that stands for two types (say a struct and a function) cannot be shown, and that it does is not said. -/
theorem ambiguous_violated (name : Text) (b : Text → Found) (bs : List (Text → Found)) (h : b name = .many) :
    showTypes (b :: bs) true [name] = none := by
  simp [showTypes, findType, h]

/-- The text of a type that is no function. -/
def typeText : T → Option Text
  | .comp u c _ ms => showComp u c ms
  | .enum c _ v => some (showEnum c v)
  | _ => none

/-- Structs, unions and enums are shown in the order in which they were asked for, with an empty line between them. -/
theorem types_shown (btfs : List (Text → Found)) (names : List Text) (xs : List Text) (first : Bool)
    (h : names.map (fun n => ((findType n btfs).map T.under).bind typeText) = xs.map some) :
    showTypes btfs first names = some ⟨[], (xs.mapIdx fun i x => (if first && i == 0 then [] else s "\n") ++ x ++ s ";\n").flatten⟩ := by
  induction names generalizing xs first with
  | nil =>
    cases xs with
    | nil => rfl
    | cons _ _ => cases h
  | cons n ns ih =>
    cases xs with
    | nil => cases h
    | cons x xs =>
      simp only [List.map_cons, List.cons.injEq] at h
      obtain ⟨h1, h2⟩ := h
      have ih' := ih xs false h2
      rw [showTypes, ih']
      cases hf : findType n btfs with
      | none => rw [hf] at h1; cases h1
      | some t =>
        rw [hf] at h1
        simp only [Option.map_some, Option.bind_some] at h1 ⊢
        cases hu : t.under <;> rw [hu] at h1 <;> simp only [typeText] at h1 <;> try cases h1
        · simp [List.mapIdx_cons]
        · simp [h1, List.mapIdx_cons]

/-- A function asked for after a struct is shown before it. -/
theorem function_first_violated (btfs : List (Text → Found)) (a b : Text) (u : Bool) (c f : Text) (z : Nat) (ms : Ms) (ret : T) (ps : Ps)
    (x y : Text) (ha : findType a btfs = some (.comp u c z ms)) (hb : findType b btfs = some (.func f ret ps))
    (hx : showComp u c ms = some x) (hy : showFunc f ret ps false = some y) :
    (showTypes btfs true [a, b]).map stdout = some (y ++ (x ++ s ";\n\n;\n") ++ s "\n") := by
  have e : s ";\n\n;\n" = s ";\n" ++ (s "\n" ++ s ";\n") := rfl
  simp [showTypes, ha, hb, T.under, hx, hy, stdout, e]

/-- A struct with a union in it whose second member is a bit field: it fits, and is shown so. -/
def sample : Ms :=
  .cons (s "next") (.ptr (.comp false (s "node") 24 .nil)) 0 0
    (.cons [] (.comp true [] 8 (.cons (s "raw") (.int (s "u64") 8) 0 0 (.cons (s "flag") (.int (s "u32") 4) 35 1 .nil))) 64 0 .nil)

theorem layout_witness : Fits sample ∧ (leaves 0 [] sample).length = 3 ∧
    showComp false (s "node") sample = some (s ("struct node {\n" ++
      "        struct node *next;                                 /*     0     8 */\n" ++
      "        union {\n" ++
      "                u64 raw;                                   /*     8     8 */\n" ++
      "                u32 flag;                                  /*    12: 3  1 */\n" ++
      "        };\n}")) := by
  refine ⟨?_, by decide +kernel, by decide +kernel⟩
  intro lf h
  rw [← mem_leaves] at h
  simp only [sample, leaves, leavesT, List.append_nil, List.nil_append, List.cons_append, List.mem_cons, List.not_mem_nil, or_false] at h
  rcases h with rfl | rfl | rfl <;> decide

end Bpfsnoop.Pt
