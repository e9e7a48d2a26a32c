import Verif.Model.CallTree
import Verif.Props.Proto
/-
C66: the calls shown by `--show-func-graph-proto` are the calls of the functions.
-/
namespace Bpfsnoop.Ct
open Rp (Text)
open Pt (T Ps Found s showFunc)

/-! ### Specification -/

/-- Whether a function is marked as traceable: it is on no list of functions that cannot be traced, and the one function of
its name in BTF is neither variadic nor returns a struct, has one address, and can be hooked there. -/
def Traceable (e : Env) (name : Text) : Prop :=
  e.noreturn name = false ∧ e.deny name = false ∧
    ∃ f a, findBtf name e.btfs = .fn f ∧ variadic f.ps = false ∧ structRet f.ret = false ∧ e.sym f.name = some (a, false) ∧
      e.probe a = true

/-- Nothing but functions has the name, in the first BTF that has it. -/
def Clear (e : Env) (name : Text) : Prop := e.noreturn name = false → e.deny name = false → findBtf name e.btfs ≠ .error

/-- The line of a function with a prototype: the prototype, a semicolon, and the mark of a traceable one. -/
def FnLine (e : Env) (f : Fn) (x : Text) : Prop :=
  ∃ p, showFunc f.name f.ret f.ps false = some p ∧ Clear e f.name ∧
    ((Traceable e f.name ∧ x = p ++ s "; [traceable]\n") ∨ (¬ Traceable e f.name ∧ x = p ++ s ";\n"))

/-- What is shown for the function at an address: that of a BPF program if there is one there, else that of the kernel symbol
there, with the prototype if BTF has one. -/
inductive Shows (e : Env) (ip : Addr) : Callee → Prop
  | prog {p x} : e.progs ip = some p → FnLine e p.fn x → Shows e ip ⟨ip, p.name, x, p.size⟩
  | kfunc {n f x} : e.progs ip = none → e.ksyms ip = some n → findBtf n e.btfs = .fn f → FnLine e f x →
      Shows e ip ⟨ip, n, x, e.guess ip⟩
  | bare {n} : e.progs ip = none → e.ksyms ip = some n → (∀ f, findBtf n e.btfs ≠ .fn f) →
      Shows e ip ⟨ip, n, n ++ s "\n", e.guess ip⟩

/-- The code of `bytes` bytes at `ip` has a call of the function shown as `c`. -/
def Calls (e : Env) (ip : Addr) (bytes : Nat) (c : Callee) : Prop :=
  ∃ is i, e.insns ip bytes = some is ∧ i ∈ is ∧ Util.getCalleeIPFromInsn i.1 i.2 ≠ 0#64 ∧
    Shows e (Util.getCalleeIPFromInsn i.1 i.2) c

/-- A chain of calls. -/
def Chain (e : Env) : Addr → Nat → List Callee → Prop
  | _, _, [] => True
  | ip, bytes, c :: cs => Calls e ip bytes c ∧ Chain e c.ip c.bytes cs

/-- The functions at these addresses, as far as there are any, in order. -/
def Listed (e : Env) : List Addr → List Callee → Prop
  | [], l => l = []
  | a :: as, l => (∃ c l', Shows e a c ∧ l = c :: l' ∧ Listed e as l') ∨ ((∀ c, ¬ Shows e a c) ∧ Listed e as l)

/-- The addresses called, in the order of the calls. -/
def targets (is : List (Addr × List UInt8)) : List Addr :=
  (is.map fun i => Util.getCalleeIPFromInsn i.1 i.2).filter (· ≠ 0#64)

/-- For each of these functions its line, and below it its calls. -/
def Forest (sub : Callee → List (Nat × Text) → Prop) (d : Nat) : List Callee → List (Nat × Text) → Prop
  | [], ls => ls = []
  | c :: cs, ls => ∃ below rest, sub c below ∧ Forest sub d cs rest ∧ ls = (d, c.proto) :: (below ++ rest)

/-- The calls of the function at `ip`, in order, those of the functions called below each, `n` levels deep; `d` is the depth
shown. -/
def Tree (e : Env) : Nat → Addr → Nat → Nat → List (Nat × Text) → Prop
  | 0, _, _, _, ls => ls = []
  | n + 1, ip, bytes, d, ls => ∃ is cs, e.insns ip bytes = some is ∧ Listed e (targets is) cs ∧
      Forest (fun c => Tree e n c.ip c.bytes (d + 1)) d cs ls

/-- No crash: the code can be disassembled, and what is called can be shown. -/
def Fine (e : Env) : Prop :=
  (∀ ip bytes, e.insns ip bytes ≠ none) ∧ (∀ ip p, e.progs ip = some p → ∃ x, FnLine e p.fn x) ∧
    ∀ ip n f, e.ksyms ip = some n → findBtf n e.btfs = .fn f → ∃ x, FnLine e f x

/-! ### What these mean -/

/-- The function of a name: in the first BTF (the kernel's, then its modules') that has the name it is the only type of that name, and it
is a function. -/
theorem findBtf_iff (name : Text) (f : Fn) (btfs : List (Text → Found)) :
    findBtf name btfs = .fn f ↔ ∃ l b r, btfs = l ++ b :: r ∧ b name = .one (.func f.name f.ret f.ps) ∧ ∀ x ∈ l, x name = .none := by
  induction btfs with
  | nil => simp [findBtf]
  | cons b bs ih =>
    have other : b name ≠ .none → (∃ l c r, b :: bs = l ++ c :: r ∧ c name = .one (.func f.name f.ret f.ps) ∧ ∀ x ∈ l, x name = .none) →
        b name = .one (.func f.name f.ret f.ps) := by
      rintro hb ⟨l, c, r, he, h1, h2⟩
      cases l with
      | nil => cases he; exact h1
      | cons d l => cases he; exact absurd (h2 b List.mem_cons_self) hb
    rw [findBtf]
    cases h : b name with
    | none =>
      simp only
      rw [ih]
      constructor
      · rintro ⟨l, c, r, rfl, h1, h2⟩
        exact ⟨b :: l, c, r, rfl, h1, fun x hx => (List.mem_cons.1 hx).elim (fun e => e ▸ h) (h2 x)⟩
      · rintro ⟨l, c, r, he, h1, h2⟩
        cases l with
        | nil => cases he; rw [h] at h1; cases h1
        | cons d l => cases he; exact ⟨l, c, r, rfl, h1, fun x hx => h2 x (List.mem_cons_of_mem _ hx)⟩
    | many =>
      exact ⟨nofun, fun hx => by have := other (by rw [h]; nofun) hx; rw [h] at this; cases this⟩
    | one t =>
      constructor
      · intro hf
        refine ⟨[], b, bs, rfl, ?_, nofun⟩
        rw [h]
        cases t <;> first | (cases hf; rfl) | cases hf
      · intro hx
        have := other (by rw [h]; nofun) hx
        rw [h] at this
        cases this
        rfl

/-- No BTF has the name. -/
theorem findBtf_none_iff (name : Text) (btfs : List (Text → Found)) : findBtf name btfs = .none ↔ ∀ b ∈ btfs, b name = .none := by
  induction btfs with
  | nil => simp [findBtf]
  | cons b bs ih =>
    rw [findBtf]
    cases h : b name with
    | none => simp only; rw [ih]; simp [h]
    | many => simp [h]
    | one t => cases t <;> simp [h]

/-- Dots are a last parameter without name and type. -/
theorem variadic_iff (ps : Ps) : variadic ps = true ↔ ∃ l, ps.toList = l ++ [([], .void)] := by
  unfold variadic
  rw [show (∃ l, ps.toList = l ++ [([], T.void)]) ↔ ps.toList.getLast? = some ([], T.void) from
    (List.getLast?_eq_some_iff).symm]
  cases ps.toList.getLast? with
  | none => simp
  | some q =>
    obtain ⟨n, t⟩ := q
    cases t <;> simp

/-- The result is a struct by value, maybe behind typedefs and qualifiers. -/
theorem structRet_iff (r : T) : structRet r = true ↔ ∃ n z ms, Pt.Behind (.comp false n z ms) r := by
  have hu : ∀ n z ms, Pt.Behind (.comp false n z ms) r ↔ r.under = .comp false n z ms := fun n z ms =>
    ⟨fun h => (Pt.under_iff _ _).mpr ⟨h, nofun, nofun⟩, fun h => ((Pt.under_iff _ _).mp h).1⟩
  simp only [hu]
  unfold structRet
  cases h : r.under with
  | comp u n z ms => cases u <;> simp
  | _ => simp

/-! ### What is shown, without memory -/

theorem detect_iff (e : Env) (name : Text) (b : Bool) :
    detect e name = some b ↔ Clear e name ∧ (b = true ↔ Traceable e name) := by
  unfold detect Clear Traceable
  by_cases h1 : e.noreturn name = true
  · rw [if_pos h1]; cases b <;> simp [h1]
  · rw [if_neg h1]
    by_cases h2 : e.deny name = true
    · rw [if_pos h2]; cases b <;> simp [h2]
    · rw [if_neg h2]
      simp only [Bool.not_eq_true] at h1 h2
      cases h3 : findBtf name e.btfs with
      | error => simp [h1, h2]
      | none => cases b <;> simp
      | fn f =>
        simp only [h1, h2, true_and]
        unfold checkKfunc
        by_cases h4 : variadic f.ps = true
        · rw [if_pos h4]; cases b <;> simp_all
        · rw [if_neg h4]
          by_cases h5 : structRet f.ret = true
          · rw [if_pos h5]; cases b <;> simp_all
          · rw [if_neg h5]
            simp only [Bool.not_eq_true] at h4 h5
            cases h6 : e.sym f.name with
            | none => cases b <;> simp_all
            | some q =>
              obtain ⟨a, d⟩ := q
              cases d <;> cases h7 : e.probe a <;> cases b <;> simp_all

theorem fnLine_unique {e : Env} {f : Fn} {x y : Text} (h1 : FnLine e f x) (h2 : FnLine e f y) : x = y := by
  obtain ⟨p, a1, _, a2⟩ := h1
  obtain ⟨q, b1, _, b2⟩ := h2
  rw [a1] at b1
  cases b1
  rcases a2 with ⟨t, rfl⟩ | ⟨t, rfl⟩ <;> rcases b2 with ⟨u, rfl⟩ | ⟨u, rfl⟩
  · rfl
  · exact absurd t u
  · exact absurd u t
  · rfl

theorem shows_unique {e : Env} {ip : Addr} {c d : Callee} (h1 : Shows e ip c) (h2 : Shows e ip d) : c = d := by
  cases h1 with
  | prog a b =>
    cases h2 with
    | prog a' b' => rw [a] at a'; cases a'; rw [fnLine_unique b b']
    | kfunc a' => rw [a] at a'; cases a'
    | bare a' => rw [a] at a'; cases a'
  | kfunc a b c d =>
    cases h2 with
    | prog a' => rw [a] at a'; cases a'
    | kfunc a' b' c' d' =>
      rw [b] at b'; cases b'
      rw [c] at c'; cases c'
      rw [fnLine_unique d d']
    | bare a' b' c' =>
      rw [b] at b'; cases b'
      exact absurd c (c' _)
  | bare a b c =>
    cases h2 with
    | prog a' => rw [a] at a'; cases a'
    | kfunc a' b' c' =>
      rw [b] at b'; cases b'
      exact absurd c' (c _)
    | bare a' b' => rw [b] at b'; cases b'; rfl

theorem shows_ip {e : Env} {ip : Addr} {c : Callee} (h : Shows e ip c) : c.ip = ip := by cases h <;> rfl

/-! ### The memory is right -/

/-- What is remembered holds; `B` is the number of bytes of each function. -/
structure Inv (e : Env) (B : Addr → Nat) (st : St) : Prop where
  tr : ∀ n b, st.traceable n = some b → detect e n = some b
  ips : ∀ a x, st.ips a = some x → (∀ p, e.progs a = some p → FnLine e p.fn x) ∧
    (e.progs a = none → ∀ n f, e.ksyms a = some n → findBtf n e.btfs = .fn f → FnLine e f x)
  cs : ∀ a l, st.callees a = some l → ∃ is, e.insns a (B a) = some is ∧ Listed e (targets is) l

/-- Nothing is printed and the context is not looked at. -/
def Same (st st' : St) : Prop := st'.out = st.out ∧ st'.polls = st.polls

theorem Same.trans {a b c : St} (h1 : Same a b) (h2 : Same b c) : Same a c := ⟨h2.1.trans h1.1, h2.2.trans h1.2⟩

theorem check_ok {e : Env} {B : Addr → Nat} {st : St} (hi : Inv e B st) {name : Text} {b : Bool} (hd : detect e name = some b) :
    ∃ st', check e st name = some (b, st') ∧ Inv e B st' ∧ Same st st' ∧ st'.ips = st.ips ∧ st'.callees = st.callees := by
  unfold check
  cases h : st.traceable name with
  | some b' =>
    have := hi.tr name b' h
    rw [hd] at this
    cases this
    exact ⟨st, rfl, hi, ⟨rfl, rfl⟩, rfl, rfl⟩
  | none =>
    simp only [hd]
    refine ⟨_, rfl, ⟨?_, hi.ips, hi.cs⟩, ⟨rfl, rfl⟩, rfl, rfl⟩
    intro n b' hn
    simp only at hn
    by_cases he : n = name
    · rw [if_pos he] at hn
      cases hn
      rw [he]; exact hd
    · rw [if_neg he] at hn
      exact hi.tr n b' hn

theorem fnLine_detect {e : Env} {f : Fn} {x : Text} (h : FnLine e f x) :
    ∃ p b, showFunc f.name f.ret f.ps false = some p ∧ detect e f.name = some b ∧
      x = p ++ s ";" ++ (if b then s " [traceable]" else []) ++ s "\n" := by
  obtain ⟨p, h1, h2, h3⟩ := h
  rcases h3 with ⟨t, rfl⟩ | ⟨t, rfl⟩
  · refine ⟨p, true, h1, (detect_iff _ _ _).2 ⟨h2, by simp [t]⟩, ?_⟩
    simp only [if_true, List.append_assoc]
    rfl
  · refine ⟨p, false, h1, (detect_iff _ _ _).2 ⟨h2, by simp [t]⟩, ?_⟩
    simp only [List.append_assoc, Bool.false_eq_true, if_false, List.nil_append]
    rfl

theorem getProto_ok {e : Env} {B : Addr → Nat} {st : St} (hi : Inv e B st) {f : Fn} {x : Text} (h : FnLine e f x) :
    ∃ st', getProto e st f = some (x, st') ∧ Inv e B st' ∧ Same st st' ∧ st'.ips = st.ips ∧ st'.callees = st.callees := by
  obtain ⟨p, b, h1, h2, rfl⟩ := fnLine_detect h
  obtain ⟨st', h3, h4, h5, h6, h7⟩ := check_ok hi h2
  exact ⟨st', by rw [getProto, h1]; simp only [h3], h4, h5, h6, h7⟩

theorem protoAt_ok {e : Env} {B : Addr → Nat} {st : St} (hi : Inv e B st) {ip : Addr} {f : Fn} {x : Text} (h : FnLine e f x)
    (hf : (∃ p, e.progs ip = some p ∧ f = p.fn) ∨ (e.progs ip = none ∧ ∃ n, e.ksyms ip = some n ∧ findBtf n e.btfs = .fn f)) :
    ∃ st', protoAt e st ip f = some (x, st') ∧ Inv e B st' ∧ Same st st' := by
  unfold protoAt
  cases h1 : st.ips ip with
  | some y =>
    have := hi.ips ip y h1
    have hy : FnLine e f y := by
      rcases hf with ⟨p, h2, rfl⟩ | ⟨h2, n, h3, h4⟩
      · exact this.1 p h2
      · exact this.2 h2 n f h3 h4
    rw [fnLine_unique h hy]
    exact ⟨st, rfl, hi, rfl, rfl⟩
  | none =>
    obtain ⟨st', h3, h4, h5, h6, h7⟩ := getProto_ok hi h
    simp only [h3]
    refine ⟨_, rfl, ⟨h4.tr, ?_, h4.cs⟩, h5⟩
    intro a y hy
    simp only at hy
    by_cases he : a = ip
    · rw [if_pos he] at hy
      cases hy
      subst he
      refine ⟨?_, ?_⟩
      · intro p hp
        rcases hf with ⟨q, h2, rfl⟩ | ⟨h2, _⟩
        · rw [hp] at h2; cases h2; exact h
        · rw [hp] at h2; cases h2
      · intro hp n g hn hg
        rcases hf with ⟨q, h2, rfl⟩ | ⟨h2, m, h3, h4⟩
        · rw [hp] at h2; cases h2
        · rw [hn] at h3; cases h3
          rw [hg] at h4; cases h4
          exact h
    · rw [if_neg he] at hy
      exact h4.ips a y hy

theorem getCallee_ok {e : Env} (hf : Fine e) {B : Addr → Nat} {st : St} (hi : Inv e B st) (ip : Addr) :
    ∃ c st', getCallee e st ip = some (c, st') ∧ Inv e B st' ∧ Same st st' ∧
      ((∃ d, c = some d ∧ Shows e ip d) ∨ (c = none ∧ ∀ d, ¬ Shows e ip d)) := by
  unfold getCallee
  cases h1 : e.progs ip with
  | some p =>
    obtain ⟨x, hx⟩ := hf.2.1 ip p h1
    obtain ⟨st', h2, h3, h4⟩ := protoAt_ok hi hx (.inl ⟨p, h1, rfl⟩)
    simp only [h2, Option.map_some]
    exact ⟨_, _, rfl, h3, h4, .inl ⟨_, rfl, .prog h1 hx⟩⟩
  | none =>
    simp only
    cases h2 : e.ksyms ip with
    | none =>
      refine ⟨_, _, rfl, hi, ⟨rfl, rfl⟩, .inr ⟨rfl, ?_⟩⟩
      intro d hd
      cases hd <;> simp_all
    | some n =>
      simp only
      cases h3 : findBtf n e.btfs with
      | fn f =>
        obtain ⟨x, hx⟩ := hf.2.2 ip n f h2 h3
        obtain ⟨st', h4, h5, h6⟩ := protoAt_ok hi hx (.inr ⟨h1, n, h2, h3⟩)
        simp only [h4, Option.map_some]
        exact ⟨_, _, rfl, h5, h6, .inl ⟨_, rfl, .kfunc h1 h2 h3 hx⟩⟩
      | none => exact ⟨_, _, rfl, hi, ⟨rfl, rfl⟩, .inl ⟨_, rfl, .bare h1 h2 (by rw [h3]; intro f h; cases h)⟩⟩
      | error => exact ⟨_, _, rfl, hi, ⟨rfl, rfl⟩, .inl ⟨_, rfl, .bare h1 h2 (by rw [h3]; intro f h; cases h)⟩⟩

theorem collect_ok {e : Env} (hf : Fine e) {B : Addr → Nat} : ∀ (is : List (Addr × List UInt8)) (st : St), Inv e B st →
    ∃ cs st', collect e st is = some (cs, st') ∧ Inv e B st' ∧ Same st st' ∧ Listed e (targets is) cs
  | [], st, hi => ⟨[], st, rfl, hi, ⟨rfl, rfl⟩, rfl⟩
  | i :: is, st, hi => by
    rw [collect]
    by_cases h : Util.getCalleeIPFromInsn i.1 i.2 = 0#64
    · rw [if_pos h]
      obtain ⟨cs, st', h1, h2, h3, h4⟩ := collect_ok hf is st hi
      refine ⟨cs, st', h1, h2, h3, ?_⟩
      rw [targets, List.map_cons, List.filter_cons_of_neg (by simp [h])]
      exact h4
    · rw [if_neg h]
      obtain ⟨c, st1, g1, g2, g3, g4⟩ := getCallee_ok hf hi (Util.getCalleeIPFromInsn i.1 i.2)
      obtain ⟨cs, st2, h1, h2, h3, h4⟩ := collect_ok hf is st1 g2
      simp only [g1, h1]
      refine ⟨_, _, rfl, h2, g3.trans h3, ?_⟩
      rw [targets, List.map_cons, List.filter_cons_of_pos (by simp [h])]
      rcases g4 with ⟨d, rfl, hd⟩ | ⟨rfl, hd⟩
      · exact .inl ⟨d, cs, hd, rfl, h4⟩
      · exact .inr ⟨hd, h4⟩

theorem calleesAt_ok {e : Env} (hf : Fine e) {B : Addr → Nat} {st : St} (hi : Inv e B st) (ip : Addr) :
    ∃ cs st' is, calleesAt e st ip (B ip) = some (cs, st') ∧ Inv e B st' ∧ Same st st' ∧ e.insns ip (B ip) = some is ∧
      Listed e (targets is) cs := by
  unfold calleesAt
  cases h : st.callees ip with
  | some cs =>
    obtain ⟨is, h1, h2⟩ := hi.cs ip cs h
    exact ⟨cs, st, is, rfl, hi, ⟨rfl, rfl⟩, h1, h2⟩
  | none =>
    cases h1 : e.insns ip (B ip) with
    | none => exact absurd h1 (hf.1 _ _)
    | some is =>
      obtain ⟨cs, st', h2, h3, h4, h5⟩ := collect_ok hf is st hi
      simp only [h2]
      refine ⟨_, _, is, rfl, ⟨h3.tr, h3.ips, ?_⟩, h4, rfl, h5⟩
      intro a l hl
      simp only at hl
      by_cases he : a = ip
      · rw [if_pos he] at hl
        cases hl
        rw [he]
        exact ⟨is, h1, h5⟩
      · rw [if_neg he] at hl
        exact h3.cs a l hl

theorem Inv.of_eq {e : Env} {B : Addr → Nat} {st st' : St} (h : Inv e B st) (h1 : st'.traceable = st.traceable) (h2 : st'.ips = st.ips)
    (h3 : st'.callees = st.callees) : Inv e B st' :=
  ⟨by rw [h1]; exact h.tr, by rw [h2]; exact h.ips, by rw [h3]; exact h.cs⟩

theorem listed_shows {e : Env} : ∀ (as : List Addr) (l : List Callee), Listed e as l → ∀ c ∈ l, ∃ a ∈ as, Shows e a c
  | [], l, h, c, hc => by rw [show l = [] from h] at hc; cases hc
  | a :: as, l, h, c, hc => by
    rcases h with ⟨d, l', h1, rfl, h2⟩ | ⟨_, h2⟩
    · rcases List.mem_cons.1 hc with rfl | hc
      · exact ⟨a, List.mem_cons_self, h1⟩
      · obtain ⟨b, hb, hs⟩ := listed_shows as l' h2 c hc
        exact ⟨b, List.mem_cons_of_mem _ hb, hs⟩
    · obtain ⟨b, hb, hs⟩ := listed_shows as l h2 c hc
      exact ⟨b, List.mem_cons_of_mem _ hb, hs⟩

theorem walk_ok {e : Env} {B : Addr → Nat} (go : St → Callee → Option St) (sub : Callee → List (Nat × Text) → Prop) (d : Nat) :
    ∀ (cs : List Callee), (∀ c ∈ cs, ∀ st, Inv e B st → ∃ st' ls full, go st c = some st' ∧ Inv e B st' ∧ st'.out = st.out ++ ls ∧
      sub c full ∧ ls.Sublist full ∧ ((∀ k, e.stop k = false) → ls = full)) → ∀ st, Inv e B st →
    ∃ st' ls full, walk go d st cs = some st' ∧ Inv e B st' ∧ st'.out = st.out ++ ls ∧ Forest sub d cs full ∧ ls.Sublist full ∧
      ((∀ k, e.stop k = false) → ls = full)
  | [], _, st, hi => ⟨st, [], [], rfl, hi, by simp, rfl, List.Sublist.slnil, fun _ => rfl⟩
  | c :: cs, h, st, hi => by
    obtain ⟨st1, l1, f1, a1, a2, a3, a4, a5, a6⟩ := h c List.mem_cons_self (print st c.proto d) (hi.of_eq rfl rfl rfl)
    obtain ⟨st2, l2, f2, b1, b2, b3, b4, b5, b6⟩ := walk_ok go sub d cs (fun c hc => h c (List.mem_cons_of_mem _ hc)) st1 a2
    refine ⟨st2, (d, c.proto) :: (l1 ++ l2), (d, c.proto) :: (f1 ++ f2), ?_, b2, ?_, ⟨f1, f2, a4, b4, rfl⟩, ?_, ?_⟩
    · rw [walk, a1]; exact b1
    · rw [b3, a3]; simp [print]
    · exact (a5.append b5).cons_cons _
    · intro hs
      rw [a6 hs, b6 hs]

/-- The number of bytes of each function is that with which it is shown when called. -/
def Sized (e : Env) (B : Addr → Nat) : Prop := ∀ ip c, Shows e ip c → c.bytes = B ip

theorem parse_ok {e : Env} (hf : Fine e) {B : Addr → Nat} (hb : Sized e B) : ∀ (n : Nat) (ip : Addr) (d : Nat) (st : St),
    Inv e B st → ∃ st' ls full, parse e n ip (B ip) d st = some st' ∧ Inv e B st' ∧ st'.out = st.out ++ ls ∧
      Tree e n ip (B ip) d full ∧ ls.Sublist full ∧ ((∀ k, e.stop k = false) → ls = full)
  | 0, ip, d, st, hi => ⟨st, [], [], rfl, hi, by simp, rfl, List.Sublist.slnil, fun _ => rfl⟩
  | n + 1, ip, d, st, hi => by
    have hi' : Inv e B { st with polls := st.polls + 1 } := hi.of_eq rfl rfl rfl
    obtain ⟨cs, st1, is, h1, h2, h3, h4, h5⟩ := calleesAt_ok hf hi' ip
    have hgo : ∀ c ∈ cs, ∀ st, Inv e B st → ∃ st' ls full, (fun st (c : Callee) => parse e n c.ip c.bytes (d + 1) st) st c = some st' ∧
        Inv e B st' ∧ st'.out = st.out ++ ls ∧ Tree e n c.ip c.bytes (d + 1) full ∧ ls.Sublist full ∧
        ((∀ k, e.stop k = false) → ls = full) := by
      intro c hc st hi
      obtain ⟨a, _, ha⟩ := listed_shows _ _ h5 c hc
      have hbc : c.bytes = B c.ip := by rw [hb a c ha, shows_ip ha]
      simp only
      rw [hbc]
      exact parse_ok hf hb n c.ip (d + 1) st hi
    obtain ⟨st2, ls, full, g1, g2, g3, g4, g5, g6⟩ := walk_ok _ (fun c => Tree e n c.ip c.bytes (d + 1)) d cs hgo st1 h2
    by_cases hs : e.stop st.polls = true
    · refine ⟨{ st with polls := st.polls + 1 }, [], full, ?_, hi', by simp, ⟨is, cs, h4, h5, g4⟩, List.nil_sublist _, ?_⟩
      · rw [parse, if_pos hs]
      · intro h
        rw [h] at hs
        cases hs
    · refine ⟨st2, ls, full, ?_, g2, ?_, ⟨is, cs, h4, h5, g4⟩, g5, g6⟩
      · rw [parse, if_neg hs]
        simp only [h1]
        exact g1
      · rw [g3, h3.1]

/-! ### Theorems -/

/-- The number of bytes of the function at an address: of a BPF program the length of its code, else up to the next symbol. -/
def size (e : Env) (ip : Addr) : Nat :=
  match e.progs ip with
  | some p => p.size
  | none => e.guess ip

theorem sized (e : Env) : Sized e (size e) := by
  intro ip c h
  cases h with
  | prog h => rw [size, h]
  | kfunc h => rw [size, h]
  | bare h => rw [size, h]

theorem mem_listed {e : Env} : ∀ (as : List Addr) (l : List Callee), Listed e as l → ∀ a ∈ as, ∀ c, Shows e a c → c ∈ l
  | [], _, _, a, ha, _, _ => by cases ha
  | b :: as, l, h, a, ha, c, hc => by
    rcases h with ⟨d, l', h1, rfl, h2⟩ | ⟨h1, h2⟩
    · rcases List.mem_cons.1 ha with rfl | ha
      · rw [shows_unique hc h1]; exact List.mem_cons_self
      · exact List.mem_cons_of_mem _ (mem_listed as l' h2 a ha c hc)
    · rcases List.mem_cons.1 ha with rfl | ha
      · exact absurd hc (h1 c)
      · exact mem_listed as l h2 a ha c hc

theorem mem_targets {is : List (Addr × List UInt8)} {a : Addr} :
    a ∈ targets is ↔ ∃ i ∈ is, Util.getCalleeIPFromInsn i.1 i.2 = a ∧ a ≠ 0#64 := by
  simp only [targets, List.mem_filter, List.mem_map, ne_eq, decide_not, Bool.not_eq_true', decide_eq_false_iff_not]
  constructor
  · rintro ⟨⟨i, hi, rfl⟩, h⟩; exact ⟨i, hi, rfl, h⟩
  · rintro ⟨i, hi, rfl, h⟩; exact ⟨⟨i, hi, rfl⟩, h⟩

theorem listed_calls {e : Env} {ip : Addr} {bytes : Nat} {is : List (Addr × List UInt8)} {cs : List Callee}
    (h1 : e.insns ip bytes = some is) (h2 : Listed e (targets is) cs) (c : Callee) : c ∈ cs ↔ Calls e ip bytes c := by
  constructor
  · intro hc
    obtain ⟨a, ha, hs⟩ := listed_shows _ _ h2 c hc
    obtain ⟨i, hi, rfl, h0⟩ := mem_targets.1 ha
    exact ⟨is, i, h1, hi, h0, hs⟩
  · rintro ⟨is', i, h3, hi, h0, hs⟩
    rw [h1] at h3
    cases h3
    exact mem_listed _ _ h2 _ (mem_targets.2 ⟨i, hi, rfl, h0⟩) c hs

theorem mem_forest {sub : Callee → List (Nat × Text) → Prop} {d : Nat} {P : Callee → Nat × Text → Prop} :
    ∀ (cs : List Callee) (ls : List (Nat × Text)), (∀ c ∈ cs, ∀ l, sub c l → ∀ q, q ∈ l ↔ P c q) → Forest sub d cs ls →
    ∀ q, q ∈ ls ↔ ∃ c ∈ cs, q = (d, c.proto) ∨ P c q
  | [], ls, _, h, q => by rw [show ls = [] from h]; simp
  | c :: cs, ls, hp, h, q => by
    obtain ⟨below, rest, h1, h2, rfl⟩ := h
    rw [List.mem_cons, List.mem_append, hp c List.mem_cons_self below h1 q,
      mem_forest cs rest (fun c hc => hp c (List.mem_cons_of_mem _ hc)) h2 q]
    constructor
    · rintro (h | h | ⟨c', hc, h⟩)
      · exact ⟨c, List.mem_cons_self, .inl h⟩
      · exact ⟨c, List.mem_cons_self, .inr h⟩
      · exact ⟨c', List.mem_cons_of_mem _ hc, h⟩
    · rintro ⟨c', hc, h⟩
      rcases List.mem_cons.1 hc with rfl | hc
      · rcases h with h | h
        · exact .inl h
        · exact .inr (.inl h)
      · exact .inr (.inr ⟨c', hc, h⟩)

/-- The lines of the tree are those of the chains of calls from the function, of at most `n` calls; the depth of a line is
the length of the chain. -/
theorem tree_lines (e : Env) : ∀ (n : Nat) (ip : Addr) (bytes d : Nat) (ls : List (Nat × Text)), Tree e n ip bytes d ls →
    ∀ (k : Nat) (x : Text), (k, x) ∈ ls ↔
      ∃ ch c, Chain e ip bytes (ch ++ [c]) ∧ ch.length < n ∧ k = d + ch.length ∧ x = c.proto
  | 0, ip, bytes, d, ls, h, k, x => by
    rw [show ls = [] from h]
    simp
  | n + 1, ip, bytes, d, ls, h, k, x => by
    obtain ⟨is, cs, h1, h2, h3⟩ := h
    have hm := mem_forest (P := fun c q => ∃ ch c', Chain e c.ip c.bytes (ch ++ [c']) ∧ ch.length < n ∧ q.1 = d + 1 + ch.length ∧ q.2 = c'.proto)
      cs ls (fun c hc l hl q => tree_lines e n c.ip c.bytes (d + 1) l hl q.1 q.2) h3 (k, x)
    rw [hm]
    constructor
    · rintro ⟨c, hc, h | ⟨ch, c', g1, g2, g3, g4⟩⟩
      · cases h
        exact ⟨[], c, ⟨(listed_calls h1 h2 c).1 hc, trivial⟩, by simp, by simp, rfl⟩
      · refine ⟨c :: ch, c', ⟨(listed_calls h1 h2 c).1 hc, g1⟩, by simp; omega, ?_, g4⟩
        simp only [List.length_cons]
        simp only at g3
        omega
    · rintro ⟨ch, c, g1, g2, g3, g4⟩
      cases ch with
      | nil =>
        refine ⟨c, (listed_calls h1 h2 c).2 g1.1, .inl ?_⟩
        rw [g3, g4]
        simp
      | cons c0 ch =>
        refine ⟨c0, (listed_calls h1 h2 c0).2 g1.1, .inr ⟨ch, c, g1.2, ?_, ?_, g4⟩⟩
        · simp only [List.length_cons] at g2; omega
        · simp only [List.length_cons] at g3; simp only; omega

theorem listed_unique {e : Env} : ∀ (as : List Addr) (l l' : List Callee), Listed e as l → Listed e as l' → l = l'
  | [], _, _, h, h' => by rw [show _ = _ from h, show _ = _ from h']
  | a :: as, l, l', h, h' => by
    rcases h with ⟨d, k, h1, rfl, h2⟩ | ⟨h1, h2⟩ <;> rcases h' with ⟨d', k', g1, rfl, g2⟩ | ⟨g1, g2⟩
    · rw [shows_unique h1 g1, listed_unique as k k' h2 g2]
    · exact absurd h1 (g1 d)
    · exact absurd g1 (h1 d')
    · exact listed_unique as l l' h2 g2

theorem forest_unique {sub : Callee → List (Nat × Text) → Prop} {d : Nat} (hu : ∀ c l l', sub c l → sub c l' → l = l') :
    ∀ (cs : List Callee) (l l' : List (Nat × Text)), Forest sub d cs l → Forest sub d cs l' → l = l'
  | [], _, _, h, h' => by rw [show _ = _ from h, show _ = _ from h']
  | c :: cs, _, _, ⟨b, r, h1, h2, rfl⟩, ⟨b', r', g1, g2, rfl⟩ => by
    rw [hu c b b' h1 g1, forest_unique hu cs r r' h2 g2]

/-- There is one such tree. -/
theorem tree_unique (e : Env) : ∀ (n : Nat) (ip : Addr) (bytes d : Nat) (l l' : List (Nat × Text)), Tree e n ip bytes d l →
    Tree e n ip bytes d l' → l = l'
  | 0, _, _, _, _, _, h, h' => by rw [show _ = _ from h, show _ = _ from h']
  | n + 1, ip, bytes, d, l, l', ⟨is, cs, h1, h2, h3⟩, ⟨is', cs', g1, g2, g3⟩ => by
    rw [h1] at g1
    cases g1
    rw [listed_unique _ _ _ h2 g2] at h3
    exact forest_unique (fun c l l' => tree_unique e n c.ip c.bytes (d + 1) l l') _ _ _ h3 g3

/-- The line of a root. -/
def RootLine (e : Env) (r : Root) (x : Text) : Prop :=
  match r.fn with
  | .inl f => FnLine e f x
  | .inr n => x = n ++ s "\n"

/-- What is to be shown for the roots: the line of each, its tree, an empty line. -/
def Report (e : Env) (maxDepth : Nat) : List Root → List (Nat × Text) → Prop
  | [], ls => ls = []
  | r :: rs, ls => ∃ x t rest, RootLine e r x ∧ Tree e maxDepth r.ip r.bytes 1 t ∧ Report e maxDepth rs rest ∧
      ls = (0, x) :: (t ++ (0, s "\n") :: rest)

theorem showRoots_ok {e : Env} (hf : Fine e) (m : Nat) : ∀ (rs : List Root) (st : St), Inv e (size e) st →
    (∀ r ∈ rs, r.bytes = size e r.ip ∧ ∃ x, RootLine e r x) →
    ∃ st' ls full, showRoots e m st rs = some st' ∧ st'.out = st.out ++ ls ∧ Report e m rs full ∧ ls.Sublist full ∧
      ((∀ k, e.stop k = false) → ls = full)
  | [], st, _, _ => ⟨st, [], [], rfl, by simp, rfl, List.Sublist.slnil, fun _ => rfl⟩
  | r :: rs, st, hi, h => by
    obtain ⟨hb, x, hx⟩ := h r List.mem_cons_self
    have hfirst : ∃ st0, rootProto e st r = some (x, st0) ∧
        Inv e (size e) st0 ∧ st0.out = st.out := by
      unfold RootLine at hx
      unfold rootProto
      cases hr : r.fn with
      | inl f =>
        rw [hr] at hx
        obtain ⟨st', h1, h2, h3, _⟩ := getProto_ok hi hx
        exact ⟨st', h1, h2, h3.1⟩
      | inr n =>
        rw [hr] at hx
        simp only at hx
        exact ⟨st, by rw [hx], hi, rfl⟩
    obtain ⟨st0, a1, a2, a3⟩ := hfirst
    obtain ⟨st1, l1, f1, b1, b2, b3, b4, b5, b6⟩ := parse_ok hf (sized e) m r.ip 1 (print st0 x 0) (a2.of_eq rfl rfl rfl)
    rw [← hb] at b1 b4
    obtain ⟨st2, l2, f2, c1, c2, c3, c4, c5⟩ := showRoots_ok hf m rs (print st1 (s "\n") 0) (b2.of_eq rfl rfl rfl)
      (fun r hr => h r (List.mem_cons_of_mem _ hr))
    refine ⟨st2, (0, x) :: (l1 ++ (0, s "\n") :: l2), _, ?_, ?_, ⟨x, f1, f2, hx, b4, c3, rfl⟩, ?_, ?_⟩
    · rw [showRoots, showRoot]
      simp only [a1, b1]
      exact c1
    · rw [c2]
      simp only [print]
      rw [b3]
      simp only [print]
      rw [a3]
      simp
    · exact (b5.append (c4.cons_cons _)).cons_cons _
    · intro hs
      rw [b6 hs, c5 hs]

/-- For each function given its line, the tree of its calls and an empty line are printed, whatever has been remembered from
the functions before. When interrupted, some of the lines are missing. -/
theorem report_shown_partial (e : Env) (hf : Fine e) (maxDepth : Nat) (rs : List Root)
    (h : ∀ r ∈ rs, r.bytes = size e r.ip ∧ ∃ x, RootLine e r x) :
    ∃ st full, showRoots e maxDepth initial rs = some st ∧ Report e maxDepth rs full ∧ st.out.Sublist full ∧
      ((∀ k, e.stop k = false) → st.out = full) := by
  obtain ⟨st, ls, full, h1, h2, h3, h4, h5⟩ := showRoots_ok hf maxDepth rs initial
    ⟨(by intro n b h; cases h), (by intro a x h; cases h), (by intro a l h; cases h)⟩ h
  rw [show initial.out = [] from rfl, List.nil_append] at h2
  rw [h2.symm] at h4
  exact ⟨st, full, h1, h3, h4, fun hs => by rw [h2]; exact h5 hs⟩

/-- A kernel function is read up to the next symbol when `--disasm-bytes` is not given. -/
theorem kernelRoot_sized (e : Env) (name : Text) (addr : Addr) (h : e.progs addr = none) :
    (kernelRoot e name addr 0).bytes = size e (kernelRoot e name addr 0).ip := by
  simp [kernelRoot, size, h]

/-- A program is read to its end. -/
theorem progRoot_sized (e : Env) (fn : Fn) (addr : Addr) (p : Prog) (h : e.progs addr = some p) :
    (progRoot fn addr p.size).bytes = size e (progRoot fn addr p.size).ip := by
  simp [progRoot, size, h]

/-- On standard output each line has two dots for each call of its chain. -/
theorem stdout_lines (st : St) : stdout st = (st.out.map fun l => List.replicate (2 * l.1) '.' ++ l.2).flatten := by
  have : ∀ n, (List.replicate n (s "..")).flatten = List.replicate (2 * n) '.' := by
    intro n
    induction n with
    | zero => rfl
    | succ n ih =>
      rw [List.replicate_succ, List.flatten_cons, ih, show 2 * (n + 1) = 2 + 2 * n by omega,
        ← List.replicate_append_replicate]
      rfl
  simp only [stdout, this]

/-! ### Where it fails -/

/-- Two functions: the one at 100 calls itself and, beyond its first byte, the one at 200. -/
def two (stop : Nat → Bool) : Env where
  insns ip bytes := some (if ip = 0xffffffff00000100#64 then
      (0xffffffff00000100#64, [0xe8, 0xfb, 0xff, 0xff, 0xff]) ::
        (if bytes ≤ 1 then [] else [(0xffffffff00000105#64, [0xe8, 0xf6, 0, 0, 0])])
    else [])
  progs _ := none
  ksyms ip := if ip = 0xffffffff00000100#64 then some (s "a") else if ip = 0xffffffff00000200#64 then some (s "b") else none
  guess _ := 16
  btfs := []
  noreturn _ := false
  deny _ := false
  sym _ := none
  probe _ := false
  stop := stop

theorem two_fine (stop : Nat → Bool) : Fine (two stop) := by
  refine ⟨(by intro ip b h; cases h), (by intro ip p h; cases h), ?_⟩
  intro ip n f _ h
  cases h

/-- Whatever the depth, all is shown of `a`; here two levels. -/
theorem report_witness : (showRoots (two fun _ => false) 2 initial [kernelRoot (two fun _ => false) (s "a") 0xffffffff00000100#64 0]).map stdout =
    some (s "a\n..a\n....a\n....b\n..b\n\n") := by decide +kernel

/-- With `--disasm-bytes` the calls that are cut off are missing also where the function is called. -/
theorem disasm_bytes_violated :
    (showRoots (two fun _ => false) 2 initial [kernelRoot (two fun _ => false) (s "a") 0xffffffff00000100#64 1]).map stdout =
      some (s "a\n..a\n....a\n\n") ∧
    ¬ ∃ t, Tree (two fun _ => false) 2 0xffffffff00000100#64 1 1 t ∧ t = [(1, s "a\n"), (2, s "a\n")] := by
  refine ⟨by decide +kernel, ?_⟩
  rintro ⟨t, h1, rfl⟩
  have h2 : Shows (two fun _ => false) 0xffffffff00000100#64 ⟨0xffffffff00000100#64, s "a", s "a\n", 16⟩ :=
    .bare (n := s "a") rfl (by decide +kernel) (by intro f h; cases h)
  have h3 : Shows (two fun _ => false) 0xffffffff00000200#64 ⟨0xffffffff00000200#64, s "b", s "b\n", 16⟩ :=
    .bare (n := s "b") rfl (by decide +kernel) (by intro f h; cases h)
  have := (tree_lines _ _ _ _ _ _ h1 2 (s "b\n")).2
    ⟨[⟨0xffffffff00000100#64, s "a", s "a\n", 16⟩], ⟨0xffffffff00000200#64, s "b", s "b\n", 16⟩,
      ⟨⟨_, (0xffffffff00000100#64, [0xe8, 0xfb, 0xff, 0xff, 0xff]), rfl, by decide +kernel, by decide +kernel, by
        have e : Util.getCalleeIPFromInsn 0xffffffff00000100#64 [0xe8, 0xfb, 0xff, 0xff, 0xff] = 0xffffffff00000100#64 := by decide +kernel
        rw [e]; exact h2⟩,
       ⟨_, (0xffffffff00000105#64, [0xe8, 0xf6, 0, 0, 0]), rfl, by decide +kernel, by decide +kernel, by
        have e : Util.getCalleeIPFromInsn 0xffffffff00000105#64 [0xe8, 0xf6, 0, 0, 0] = 0xffffffff00000200#64 := by decide +kernel
        rw [e]; exact h3⟩, trivial⟩, by decide, rfl, rfl⟩
  revert this
  decide +kernel

/-- What is shown when interrupted is not the beginning of the report: calls at the levels already entered are still shown,
without what is below them. -/
theorem interrupted_violated :
    (showRoots (two fun k => decide (1 ≤ k)) 2 initial [kernelRoot (two fun k => decide (1 ≤ k)) (s "a") 0xffffffff00000100#64 0]).map stdout =
      some (s "a\n..a\n..b\n\n") := by decide +kernel

/-- A BPF program whose function has the name of a struct of the kernel: the command crashes. -/
theorem struct_name_violated (e : Env) (st : St) (f : Fn) (h1 : st.traceable f.name = none) (h2 : findBtf f.name e.btfs = .error)
    (h3 : e.noreturn f.name = false) (h4 : e.deny f.name = false) : getProto e st f = none := by
  unfold getProto check detect
  rw [h1, h2, h3, h4]
  cases showFunc f.name f.ret f.ps false <;> rfl

/-- A BPF function is marked as traceable exactly if the kernel function of its name is. -/
theorem same_name_violated (e : Env) (ip : Addr) (p : Prog) (x q : Text) (h : e.progs ip = some p)
    (hq : showFunc p.fn.name p.fn.ret p.fn.ps false = some q) (hs : Shows e ip ⟨ip, p.name, x, p.size⟩) :
    x = q ++ s "; [traceable]\n" ↔ Traceable e p.fn.name := by
  have hx : FnLine e p.fn x := by
    generalize hc : (⟨ip, p.name, x, p.size⟩ : Callee) = c at hs
    cases hs with
    | prog h1 h2 => rw [h] at h1; cases h1; cases hc; exact h2
    | kfunc h1 => rw [h] at h1; cases h1
    | bare h1 => rw [h] at h1; cases h1
  obtain ⟨p', h1, _, h2⟩ := hx
  rw [hq] at h1
  cases h1
  rcases h2 with ⟨t, rfl⟩ | ⟨t, rfl⟩
  · simp [t]
  · simp only [t, iff_false]
    intro h
    have := List.append_cancel_left h
    revert this
    decide

/-- A kernel function whose name is also that of a struct is shown without its prototype. -/
theorem ambiguous_bare_violated (e : Env) (ip : Addr) (n : Text) (c : Callee) (h1 : e.progs ip = none) (h2 : e.ksyms ip = some n)
    (h3 : findBtf n e.btfs = .error) (h : Shows e ip c) : c.proto = n ++ s "\n" := by
  cases h with
  | prog h => rw [h1] at h; cases h
  | kfunc _ h g => rw [h2] at h; cases h; rw [h3] at g; cases g
  | bare _ h => rw [h2] at h; cases h; rfl

/-- Functions that do not return can be traced on entry but are never marked. -/
theorem noreturn_violated (e : Env) (name : Text) (h : e.noreturn name = true) : detect e name = some false := by
  rw [detect, if_pos h]

end Bpfsnoop.Ct
