import Verif.Model.Asm

/-
Surgery on the tracing programs (C50, C51, C52).
-/
namespace Bpfsnoop.Asm
open Flg (Str)

/-! ### Specification -/

/-- The function named `s` of program `p` consists of the instructions `body`: they stand together, the first carries
the name, which occurs nowhere before, and the next function (if any) follows. -/
def FunAt (p : Prog) (s : Str) (body : Prog) : Prop :=
  ∃ pre post first tl, body = first :: tl ∧ p = pre ++ body ++ post ∧ first.sym = some s ∧
    (∀ i ∈ pre, i.sym ≠ some s) ∧ (post = [] ∨ ∃ i r, post = i :: r ∧ i.sym.isSome)

/-- The functions the surgery deals with. -/
def stubs : List Str :=
  [sFilterArg, sL2, sL3, sL2s, sL3s, sFSkb, sFXdp, sFXdpF, sFPkt, sOPkt, sOSkb, sOXdp, sOXdpF, sOArg, sOFn]

/-- Every call of one of these functions finds it in the program. -/
def Closed (p : Prog) : Prop := ∀ i ∈ p, ∀ s ∈ stubs, i.ref = some s → ∃ k ∈ p, k.sym = some s

/-- The first instruction of a function calls none of these functions. -/
def FirstOk (p : Prog) : Prop := ∀ i ∈ p, i.sym.isSome → ∀ s ∈ stubs, i.ref ≠ some s

/-- Code that neither calls nor defines these functions, nor defines `main`. -/
def Clean (main : Str) (c : Prog) : Prop :=
  c ≠ [] ∧ ∀ i ∈ c, i.sym ≠ some main ∧ ∀ s ∈ stubs, i.sym ≠ some s ∧ i.ref ≠ some s

/-- `R0 = 1` or `R0 = 0`. -/
def setR0 (v : Bool) : Insn := ⟨none, none, .movR0 v⟩

/-! ### Lists -/

theorem split_first {α : Type} (q : α → Bool) : ∀ (p : List α) (i : Nat), p.findIdx? q = some i →
    ∃ x rest, p.drop i = x :: rest ∧ q x = true ∧ (∀ y ∈ p.take i, q y = false) ∧ p = p.take i ++ x :: rest
  | [], i, h => by simp at h
  | a :: r, i, h => by
    rw [List.findIdx?_cons] at h
    cases hq : q a with
    | true =>
      simp only [hq, if_true, Option.some.injEq] at h
      subst h
      exact ⟨a, r, rfl, hq, by simp, rfl⟩
    | false =>
      simp only [hq, Bool.false_eq_true, if_false, Option.map_eq_some_iff] at h
      obtain ⟨k, hk, rfl⟩ := h
      obtain ⟨x, rest, h1, h2, h3, h4⟩ := split_first q r k hk
      refine ⟨x, rest, h1, h2, ?_, ?_⟩
      · intro y hy
        rcases List.mem_cons.mp hy with rfl | hy
        · exact hq
        · exact h3 y hy
      · show a :: r = a :: (r.take k ++ x :: rest)
        rw [← h4]

theorem find_none {p : Prog} {s : Str} (h : findStart p s = none) : ∀ i ∈ p, i.sym ≠ some s := by
  intro i hi hs
  have := (List.findIdx?_eq_none_iff.mp h) i hi
  simp [hs] at this

theorem drop_body : ∀ (rest : Prog), ∃ b post, rest = b ++ post ∧ rest.drop (bodyLen rest) = post ∧
    (∀ i ∈ b, i.sym = none) ∧ (post = [] ∨ ∃ i r, post = i :: r ∧ i.sym.isSome)
  | [] => ⟨[], [], rfl, rfl, by simp, Or.inl rfl⟩
  | a :: r => by
    cases ha : a.sym with
    | some x =>
      refine ⟨[], a :: r, rfl, ?_, by simp, Or.inr ⟨a, r, rfl, by simp [ha]⟩⟩
      simp [bodyLen, List.takeWhile_cons, ha]
    | none =>
      obtain ⟨b, post, h1, h2, h3, h4⟩ := drop_body r
      refine ⟨a :: b, post, by rw [h1]; rfl, ?_, ?_, h4⟩
      · have : bodyLen (a :: r) = bodyLen r + 1 := by simp [bodyLen, List.takeWhile_cons, ha]
        rw [this]
        exact h2
      · intro i hi
        rcases List.mem_cons.mp hi with rfl | hi
        · exact ha
        · exact h3 i hi

/-- What `injectInsns` does. -/
theorem inject_shape (p : Prog) (s : Str) (c : Prog) :
    ((∀ i ∈ p, i.sym ≠ some s) ∧ inject p s c = p) ∨
    ∃ pre first b post, p = pre ++ first :: (b ++ post) ∧ (∀ i ∈ pre, i.sym ≠ some s) ∧ first.sym = some s ∧
      (∀ i ∈ b, i.sym = none) ∧ (post = [] ∨ ∃ i r, post = i :: r ∧ i.sym.isSome) ∧
      inject p s c = pre ++ withMeta first c ++ post := by
  cases h : findStart p s with
  | none => exact Or.inl ⟨find_none h, by simp only [inject, h]⟩
  | some i =>
    right
    obtain ⟨x, rest, h1, h2, h3, h4⟩ := split_first _ p i h
    obtain ⟨b, post, e1, e2, e3, e4⟩ := drop_body rest
    refine ⟨p.take i, x, b, post, ?_, ?_, by simpa using h2, e3, e4, ?_⟩
    · rw [← e1]; exact h4
    · intro y hy hs
      have := h3 y hy
      simp [hs] at this
    · simp only [inject, h, h1, e2]

theorem pcap_shape (p : Prog) (s : Str) (c : Prog) :
    ((∀ i ∈ p, i.sym ≠ some s) ∧ pcapAt c s p = p) ∨
    ∃ pre first b post, p = pre ++ first :: (b ++ post) ∧ (∀ i ∈ pre, i.sym ≠ some s) ∧ first.sym = some s ∧
      (∀ i ∈ b, i.sym = none) ∧ (post = [] ∨ ∃ i r, post = i :: r ∧ i.sym.isSome) ∧
      pcapAt c s p = pre ++ (withMeta first c ++ ⟨none, none, first.op⟩ :: b) ++ post := by
  cases h : findStart p s with
  | none => exact Or.inl ⟨find_none h, by simp only [pcapAt, h]⟩
  | some i =>
    right
    obtain ⟨x, rest, h1, h2, h3, h4⟩ := split_first _ p i h
    obtain ⟨b, post, e1, e2, e3, e4⟩ := drop_body rest
    refine ⟨p.take i, x, b, post, ?_, ?_, by simpa using h2, e3, e4, ?_⟩
    · rw [← e1]; exact h4
    · intro y hy hs
      have := h3 y hy
      simp [hs] at this
    · simp only [pcapAt, h, h1]
      rw [e1]
      simp

/-! ### Steps of the surgery -/

/-- One step. -/
inductive Act
  | clr (isFilter : Bool) (s : Str)
  | inj (s : Str) (code : Prog)
  | pcap (s : Str) (code : Prog)

def Act.stub : Act → Str
  | .clr _ s => s
  | .inj s _ => s
  | .pcap s _ => s

def step (p : Prog) : Act → Prog
  | .clr f s => clear f p s
  | .inj s c => inject p s c
  | .pcap s c => pcapAt c s p

def run (as : List Act) (p : Prog) : Prog := as.foldl step p

def clrs (f : Bool) (l : List Str) : List Act := l.map (Act.clr f)

theorem run_append (a b : List Act) (p : Prog) : run (a ++ b) p = run b (run a p) := List.foldl_append

theorem run_clrs (f : Bool) (l : List Str) (p : Prog) : run (clrs f l) p = l.foldl (clear f) p := by
  unfold run clrs
  rw [List.foldl_map]
  rfl

theorem run_one (a : Act) (p : Prog) : run [a] p = step p a := rfl

theorem run_nil (p : Prog) : run [] p = p := rfl

def pktFilterNames : List Str := [sL2s, sL3s, sL2, sL3, sFSkb, sFXdp, sFXdpF, sFPkt]
def pktOutputNames : List Str := [sOPkt, sOSkb, sOXdp, sOXdpF]

def trimActs (j : Job) : List Act :=
  (if j.pktGiven then [] else clrs true pktFilterNames) ++ (if (!j.exprs.isEmpty) then [] else [.clr true sFilterArg]) ++
    (if j.outGiven then [] else [.clr false sOArg])

def pktOutActs (j : Job) : List Act :=
  if !j.pkt then clrs false pktOutputNames
  else
    match packetParam j.params with
    | some (i, .skb) => clrs false [sOXdp, sOXdpF] ++ [.inj sOPkt (callStub i sOSkb)]
    | some (i, .xdp) => clrs false [sOSkb, sOXdpF] ++ [.inj sOPkt (callStub i sOXdp)]
    | some (i, .xdpFrame) => clrs false [sOSkb, sOXdp] ++ [.inj sOPkt (callStub i sOXdpF)]
    | none => clrs false pktOutputNames

def pktFilterActs (j : Job) : List Act :=
  if !j.pktGiven then []
  else
    match packetParam j.params with
    | some (i, .skb) =>
      [.pcap sL2 (j.pcap sL2), .pcap sL3 (j.pcap sL3)] ++ clrs true [sL2s, sL3s, sFXdp, sFXdpF] ++ [.inj sFPkt (callStub i sFSkb)]
    | some (i, .xdp) => [.pcap sL2 (j.pcap sL2)] ++ clrs true [sL2s, sL3s, sFSkb, sFXdpF, sL3] ++ [.inj sFPkt (callStub i sFXdp)]
    | some (i, .xdpFrame) =>
      [.pcap sL2 (j.pcap sL2)] ++ clrs true [sL2s, sL3s, sFSkb, sFXdp, sL3] ++ [.inj sFPkt (callStub i sFXdpF)]
    | none => clrs true pktFilterNames

def argFilterActs (j : Job) : List Act :=
  match chosen j.exprs j.params with
  | some e => [.inj sFilterArg (j.compile e.expr)]
  | none => [.clr true sFilterArg]

def argOutActs (j : Job) : List Act :=
  if !j.outGiven then []
  else
    match j.outArg with
    | none => [.clr false sOArg]
    | some c => [.inj sOArg c]

def fnActs (j : Job) : List Act :=
  match j.fnArgs with
  | none => [.clr false sOFn]
  | some c => [.inj sOFn c]

def acts (j : Job) : List Act :=
  trimActs j ++ pktOutActs j ++ pktFilterActs j ++ argFilterActs j ++ argOutActs j ++ fnActs j

def multiActs (j : Job) (isExit : Bool) : List Act :=
  (if isExit then [.clr true sFilterArg] ++ clrs true pktFilterNames ++ [.clr false sOArg] ++ clrs false pktOutputNames
   else pktOutActs j ++ pktFilterActs j ++ argFilterActs j ++ argOutActs j) ++ fnActs j

theorem trim_run (j : Job) (p : Prog) : trim j.pktGiven (!j.exprs.isEmpty) j.outGiven p = run (trimActs j) p := by
  unfold trim trimActs
  rw [run_append, run_append]
  cases j.pktGiven <;> cases (!j.exprs.isEmpty) <;> cases j.outGiven <;>
    simp only [Bool.false_eq_true, if_false, if_true, run_clrs, run_one, run_nil, step, clearPktFilter, pktFilterNames]

theorem pktOut_run (j : Job) (p : Prog) : injectPktOutput j.pkt j.params p = run (pktOutActs j) p := by
  unfold injectPktOutput pktOutActs
  cases j.pkt with
  | false => rfl
  | true =>
    cases packetParam j.params with
    | none => rfl
    | some x => obtain ⟨i, k⟩ := x; cases k <;> rfl

theorem pktFilter_run (j : Job) (p : Prog) : injectPktFilter j.pcap j.pktGiven j.params p = run (pktFilterActs j) p := by
  unfold injectPktFilter pktFilterActs
  cases j.pktGiven with
  | false => rfl
  | true =>
    cases packetParam j.params with
    | none => rfl
    | some x => obtain ⟨i, k⟩ := x; cases k <;> rfl

theorem argFilter_run (j : Job) (p : Prog) : injectArgFilter j.compile j.exprs j.params p = run (argFilterActs j) p := by
  unfold injectArgFilter argFilterActs
  cases chosen j.exprs j.params <;> rfl

theorem argOut_run (j : Job) (p : Prog) : injectArgOutput j.outGiven j.outArg p = run (argOutActs j) p := by
  unfold injectArgOutput argOutActs
  cases j.outGiven <;> cases j.outArg <;> rfl

theorem fn_run (j : Job) (p : Prog) : injectFnArgs j.fnArgs p = run (fnActs j) p := by
  unfold injectFnArgs fnActs
  cases j.fnArgs <;> rfl

theorem build_run (j : Job) (p : Prog) : build j p = run (acts j) p := by
  unfold build acts
  simp only [run_append]
  rw [trim_run, pktOut_run, pktFilter_run, argFilter_run, argOut_run, fn_run]

theorem buildMulti_run (j : Job) (x : Bool) (p : Prog) : buildMulti j x p = run (multiActs j x) p := by
  unfold buildMulti multiActs
  rw [run_append, fn_run]
  cases x with
  | true =>
    simp only [if_true, run_append, run_clrs, run_one, step, clearPktFilter, pktFilterNames, clearPktOutput, pktOutputNames]
  | false =>
    simp only [Bool.false_eq_true, if_false, run_append]
    rw [pktOut_run, pktFilter_run, argFilter_run, argOut_run]

/-! ### One step keeps the functions it does not deal with -/

/-- What a step makes of an instruction elsewhere. -/
def subst (i : Insn) : Act → Insn
  | .clr f s => if i.ref = some s then setR0 f else i
  | _ => i

def substs (as : List Act) (i : Insn) : Insn := as.foldl subst i

/-- Splitting at the function `s` does not cut the function `t`. -/
theorem two_funs {p : Prog} {t s : Str} {body : Prog} {pre first b post}
    (ht : FunAt p t body) (hs : ∀ i ∈ body, i.sym ≠ some s) (e : p = pre ++ first :: (b ++ post))
    (e2 : first.sym = some s) (e3 : ∀ i ∈ b, i.sym = none) :
    (∃ y post1, post = y ++ body ++ post1 ∧ (∀ i ∈ pre ++ y, i.sym ≠ some t) ∧
      (post1 = [] ∨ ∃ i r, post1 = i :: r ∧ i.sym.isSome)) ∨
    (∃ pre1 a, pre = pre1 ++ body ++ a ∧ (∀ i ∈ pre1, i.sym ≠ some t) ∧
      (a = [] ∨ ∃ i r, a = i :: r ∧ i.sym.isSome)) := by
  obtain ⟨pre1, post1, f, tl, hb, hp, hf, h1, h2⟩ := ht
  have E : (pre1 ++ body) ++ post1 = pre ++ first :: (b ++ post) := by rw [← hp, e]
  rcases List.append_eq_append_iff.mp E with ⟨a, ha, hc⟩ | ⟨a, ha, hc⟩
  · -- the function `t` ends before `s`
    right
    refine ⟨pre1, a, ha, h1, ?_⟩
    cases a with
    | nil => exact Or.inl rfl
    | cons i r =>
      right
      rcases h2 with h2 | ⟨i', r', h2, h3⟩
      · rw [h2] at hc; simp at hc
      · rw [h2] at hc
        simp only [List.cons_append, List.cons.injEq] at hc
        exact ⟨i, r, rfl, by rw [← hc.1]; exact h3⟩
  · cases a with
    | nil =>
      right
      refine ⟨pre1, [], by simpa using ha.symm, h1, Or.inl rfl⟩
    | cons x r =>
      simp only [List.cons_append, List.cons.injEq] at hc
      obtain ⟨hx, hc⟩ := hc
      subst hx
      -- `first` lies in `pre1`
      rcases List.append_eq_append_iff.mp ha with ⟨a', ha', hc'⟩ | ⟨a', ha', hc'⟩
      · -- pre = pre1 ++ a', body = a' ++ first :: r
        exact absurd e2 (hs first (by rw [hc']; simp))
      · -- pre1 = pre ++ a', first :: r = a' ++ body
        cases a' with
        | nil =>
          simp only [List.nil_append] at hc'
          exact absurd e2 (hs first (by rw [← hc']; simp))
        | cons x' r' =>
          simp only [List.cons_append, List.cons.injEq] at hc'
          obtain ⟨hx', hr⟩ := hc'
          subst hx'
          -- b ++ post = r' ++ body ++ post1
          left
          rw [hr] at hc
          rcases List.append_eq_append_iff.mp hc with ⟨w, hw1, hw2⟩ | ⟨w, hw1, hw2⟩
          · -- r' ++ body = b ++ w
            rcases List.append_eq_append_iff.mp hw1 with ⟨v, hv1, hv2⟩ | ⟨v, hv1, hv2⟩
            · -- r' ++ v = b, body = v ++ w
              cases v with
              | nil =>
                simp only [List.nil_append] at hv2
                refine ⟨[], post1, by rw [hv2]; simpa using hw2, ?_, h2⟩
                intro i hi
                exact h1 i (by rw [ha']; simp at hi; simp [hi])
              | cons z v =>
                rw [hb] at hv2
                simp only [List.cons_append, List.cons.injEq] at hv2
                have := e3 z (by rw [hv1]; simp)
                rw [← hv2.1, hf] at this
                cases this
            · -- r' = b ++ v, w = v ++ body
              refine ⟨v, post1, by rw [hw2, hv2], ?_, h2⟩
              intro i hi
              refine h1 i ?_
              rw [ha', hv1]
              simp at hi
              rcases hi with hi | hi <;> simp [hi]
          · -- b = r' ++ body ++ w
            have := e3 f (by rw [hw1, hb]; simp)
            rw [hf] at this
            cases this

theorem withMeta_sym {first : Insn} {c : Prog} {x : Str} (h : ∀ i ∈ c, i.sym ≠ some x) (hf : first.sym ≠ some x) :
    ∀ i ∈ withMeta first c, i.sym ≠ some x := by
  intro i hi
  cases c with
  | nil => simp [withMeta] at hi
  | cons a r =>
    rcases List.mem_cons.mp hi with rfl | hi
    · exact hf
    · exact h i (by simp [hi])

theorem splice_keeps {p : Prog} {t s : Str} {body pre b post M : Prog} {first : Insn}
    (ht : FunAt p t body) (hs : ∀ i ∈ body, i.sym ≠ some s) (e : p = pre ++ first :: (b ++ post))
    (e2 : first.sym = some s) (e3 : ∀ i ∈ b, i.sym = none)
    (e4 : post = [] ∨ ∃ i r, post = i :: r ∧ i.sym.isSome)
    (hM : M = [] ∨ ∃ i r, M = i :: r ∧ i.sym.isSome) (hM2 : ∀ i ∈ M, i.sym ≠ some t) :
    FunAt (pre ++ M ++ post) t body := by
  have hb := ht
  obtain ⟨_, _, f, tl, hb, _, hf, _, _⟩ := hb
  rcases two_funs ht hs e e2 e3 with ⟨y, post1, h1, h2, h3⟩ | ⟨pre1, a, h1, h2, h3⟩
  · refine ⟨pre ++ M ++ y, post1, f, tl, hb, by rw [h1]; simp, hf, ?_, h3⟩
    intro i hi
    simp only [List.mem_append] at hi
    rcases hi with (hi | hi) | hi
    · exact h2 i (by simp [hi])
    · exact hM2 i hi
    · exact h2 i (by simp [hi])
  · refine ⟨pre1, a ++ M ++ post, f, tl, hb, by rw [h1]; simp, hf, h2, ?_⟩
    rcases h3 with rfl | ⟨i, r, rfl, h⟩
    · rcases hM with rfl | ⟨i, r, rfl, h⟩
      · simpa using e4
      · exact Or.inr ⟨i, r ++ post, rfl, h⟩
    · exact Or.inr ⟨i, r ++ M ++ post, by simp, h⟩

theorem funAt_head {p : Prog} {t : Str} {body : Prog} (h : FunAt p t body) : ∃ f tl, body = f :: tl ∧ f.sym = some t := by
  obtain ⟨_, _, f, tl, hb, _, hf, _⟩ := h
  exact ⟨f, tl, hb, hf⟩

theorem inject_keeps {p : Prog} {t s : Str} {body c : Prog} (ht : FunAt p t body) (hs : ∀ i ∈ body, i.sym ≠ some s)
    (hc : ∀ i ∈ c, i.sym ≠ some t) : FunAt (inject p s c) t body := by
  obtain ⟨f, tl, hb, hf⟩ := funAt_head ht
  have hne : s ≠ t := fun h => hs f (by rw [hb]; simp) (by rw [hf, h])
  rcases inject_shape p s c with ⟨_, h⟩ | ⟨pre, first, b, post, e, e1, e2, e3, e4, h⟩
  · rw [h]; exact ht
  · rw [h]
    refine splice_keeps ht hs e e2 e3 e4 ?_ (withMeta_sym hc (by rw [e2]; simpa using hne))
    cases c with
    | nil => exact Or.inl rfl
    | cons a r => exact Or.inr ⟨_, r, rfl, by simp [e2]⟩

theorem pcap_keeps {p : Prog} {t s : Str} {body c : Prog} (ht : FunAt p t body) (hs : ∀ i ∈ body, i.sym ≠ some s)
    (hc : ∀ i ∈ c, i.sym ≠ some t) (hne0 : c ≠ []) : FunAt (pcapAt c s p) t body := by
  obtain ⟨f, tl, hb, hf⟩ := funAt_head ht
  have hne : s ≠ t := fun h => hs f (by rw [hb]; simp) (by rw [hf, h])
  rcases pcap_shape p s c with ⟨_, h⟩ | ⟨pre, first, b, post, e, e1, e2, e3, e4, h⟩
  · rw [h]; exact ht
  · rw [h]
    refine splice_keeps ht hs e e2 e3 e4 ?_ ?_
    · cases c with
      | nil => exact absurd rfl hne0
      | cons a r => exact Or.inr ⟨_, r ++ ⟨none, none, first.op⟩ :: b, rfl, by simp [e2]⟩
    · intro i hi
      simp only [List.mem_append, List.mem_cons] at hi
      rcases hi with hi | rfl | hi
      · exact withMeta_sym hc (by rw [e2]; simpa using hne) i hi
      · simp
      · rw [e3 i hi]; simp

/-- Replacing the calls of `s` keeps the functions apart. -/
theorem replace_keeps {p : Prog} {t s : Str} {body : Prog} {f : Bool} (ht : FunAt p t body)
    (h1 : ∀ i ∈ p, i.sym.isSome → i.ref ≠ some s) :
    FunAt (replaceCalls s (setR0 f) p) t (body.map fun i => subst i (.clr f s)) := by
  obtain ⟨pre, post, fi, tl, hb, hp, hf, hpre, hpost⟩ := ht
  refine ⟨replaceCalls s (setR0 f) pre, replaceCalls s (setR0 f) post, fi, tl.map fun i => subst i (.clr f s), ?_, ?_, hf, ?_, ?_⟩
  · rw [hb]
    have : fi.ref ≠ some s := h1 fi (by rw [hp, hb]; simp) (by simp [hf])
    simp [subst, this]
  · rw [hp]
    simp [replaceCalls, subst]
  · intro i hi
    simp only [replaceCalls, List.mem_map] at hi
    obtain ⟨k, hk, rfl⟩ := hi
    split
    · simp [setR0]
    · exact hpre k hk
  · rcases hpost with rfl | ⟨i, r, rfl, h⟩
    · exact Or.inl rfl
    · right
      have : i.ref ≠ some s := h1 i (by rw [hp]; simp) h
      exact ⟨i, replaceCalls s (setR0 f) r, by simp [replaceCalls, this], h⟩

/-! ### Symbols and references after one step -/

theorem withMeta_mem {first : Insn} {c : Prog} {i : Insn} (h : i ∈ withMeta first c) :
    (i.sym = first.sym ∧ i.ref = first.ref) ∨ i ∈ c := by
  cases c with
  | nil => simp [withMeta] at h
  | cons a r =>
    rcases List.mem_cons.mp h with rfl | h
    · exact Or.inl ⟨rfl, rfl⟩
    · exact Or.inr (by simp [h])

/-- Where an instruction after `injectInsns` comes from. -/
theorem inject_mem {p : Prog} {s : Str} {c : Prog} {i : Insn} (h : i ∈ inject p s c) :
    (∃ k ∈ p, i.sym = k.sym ∧ i.ref = k.ref) ∨ i ∈ c := by
  rcases inject_shape p s c with ⟨_, e⟩ | ⟨pre, first, b, post, e, _, e2, e3, _, h'⟩
  · exact Or.inl ⟨i, by rw [← e]; exact h, rfl, rfl⟩
  · rw [h'] at h
    simp only [List.mem_append] at h
    rcases h with (h | h) | h
    · exact Or.inl ⟨i, by rw [e]; simp [h], rfl, rfl⟩
    · rcases withMeta_mem h with ⟨h1, h2⟩ | h
      · exact Or.inl ⟨first, by rw [e]; simp, h1, h2⟩
      · exact Or.inr h
    · exact Or.inl ⟨i, by rw [e]; simp [h], rfl, rfl⟩

theorem pcap_mem {p : Prog} {s : Str} {c : Prog} {i : Insn} (h : i ∈ pcapAt c s p) :
    (∃ k ∈ p, i.sym = k.sym ∧ i.ref = k.ref) ∨ i ∈ c ∨ (i.sym = none ∧ i.ref = none) := by
  rcases pcap_shape p s c with ⟨_, e⟩ | ⟨pre, first, b, post, e, _, e2, e3, _, h'⟩
  · exact Or.inl ⟨i, by rw [← e]; exact h, rfl, rfl⟩
  · rw [h'] at h
    simp only [List.mem_append, List.mem_cons] at h
    rcases h with (h | h | rfl | h) | h
    · exact Or.inl ⟨i, by rw [e]; simp [h], rfl, rfl⟩
    · rcases withMeta_mem h with ⟨h1, h2⟩ | h
      · exact Or.inl ⟨first, by rw [e]; simp, h1, h2⟩
      · exact Or.inr (Or.inl h)
    · exact Or.inr (Or.inr ⟨rfl, rfl⟩)
    · exact Or.inl ⟨i, by rw [e]; simp [h], rfl, rfl⟩
    · exact Or.inl ⟨i, by rw [e]; simp [h], rfl, rfl⟩

/-- The names a step keeps. -/
theorem inject_sym {p : Prog} {s : Str} {c : Prog} {k : Insn} (hk : k ∈ p) {x : Str} (hx : k.sym = some x)
    (h : x ≠ s ∨ c ≠ []) : ∃ k' ∈ inject p s c, k'.sym = some x := by
  rcases inject_shape p s c with ⟨_, e⟩ | ⟨pre, first, b, post, e, _, e2, e3, _, h'⟩
  · exact ⟨k, by rw [e]; exact hk, hx⟩
  · rw [h']
    rw [e] at hk
    simp only [List.mem_append, List.mem_cons] at hk
    rcases hk with hk | rfl | hk | hk
    · exact ⟨k, by simp [hk], hx⟩
    · rcases h with h | h
      · rw [hx] at e2
        simp only [Option.some.injEq] at e2
        exact absurd e2 h
      · cases c with
        | nil => exact absurd rfl h
        | cons a r =>
          exact ⟨{ a with sym := k.sym, ref := k.ref }, by simp [withMeta], hx⟩
    · rw [e3 k hk] at hx; cases hx
    · exact ⟨k, by simp [hk], hx⟩

theorem pcap_sym {p : Prog} {s : Str} {c : Prog} {k : Insn} (hk : k ∈ p) {x : Str} (hx : k.sym = some x)
    (h : c ≠ []) : ∃ k' ∈ pcapAt c s p, k'.sym = some x := by
  rcases pcap_shape p s c with ⟨_, e⟩ | ⟨pre, first, b, post, e, _, e2, e3, _, h'⟩
  · exact ⟨k, by rw [e]; exact hk, hx⟩
  · rw [h']
    rw [e] at hk
    simp only [List.mem_append, List.mem_cons] at hk
    rcases hk with hk | rfl | hk | hk
    · exact ⟨k, by simp [hk], hx⟩
    · cases c with
      | nil => exact absurd rfl h
      | cons a r =>
        exact ⟨{ a with sym := k.sym, ref := k.ref }, by simp [withMeta], hx⟩
    · rw [e3 k hk] at hx; cases hx
    · exact ⟨k, by simp [hk], hx⟩

/-! ### Whole runs -/

/-- The code of a step: not empty, and it names none of the functions. -/
def Act.CodeOk : Act → Prop
  | .clr _ _ => True
  | .inj _ c => c ≠ [] ∧ ∀ i ∈ c, (∀ s ∈ stubs, i.sym ≠ some s) ∧ (i.sym.isSome → ∀ s ∈ stubs, i.ref ≠ some s)
  | .pcap _ c => c ≠ [] ∧ ∀ i ∈ c, (∀ s ∈ stubs, i.sym ≠ some s) ∧ (i.sym.isSome → ∀ s ∈ stubs, i.ref ≠ some s)

def Act.Ok (a : Act) : Prop := a.stub ∈ stubs ∧ a.CodeOk

/-- The code of a step does not define `t`. -/
def Act.Avoids (t : Str) : Act → Prop
  | .clr _ _ => True
  | .inj _ c => ∀ i ∈ c, i.sym ≠ some t
  | .pcap _ c => ∀ i ∈ c, i.sym ≠ some t

theorem step_firstOk {p : Prog} (h : FirstOk p) {a : Act} (ha : a.Ok) : FirstOk (step p a) := by
  intro i hi hsym
  cases a with
  | clr f s =>
    simp only [step, clear, replaceCalls, List.mem_map] at hi
    obtain ⟨k, hk, rfl⟩ := hi
    by_cases hr : k.ref = some s
    · simp [hr] at hsym
    · simp only [hr, if_false] at hsym ⊢
      rcases inject_mem hk with ⟨k', hk', h1, h2⟩ | h
      · rw [h2]; exact h k' hk' (by rw [← h1]; exact hsym)
      · simp at h
  | inj s c =>
    rcases inject_mem hi with ⟨k', hk', h1, h2⟩ | hc
    · rw [h2]; exact h k' hk' (by rw [← h1]; exact hsym)
    · exact (ha.2.2 i hc).2 hsym
  | pcap s c =>
    rcases pcap_mem hi with ⟨k', hk', h1, h2⟩ | hc | ⟨h1, h2⟩
    · rw [h2]; exact h k' hk' (by rw [← h1]; exact hsym)
    · exact (ha.2.2 i hc).2 hsym
    · rw [h1] at hsym; cases hsym

theorem inject_firstOk {p : Prog} (h : FirstOk p) (s : Str) : FirstOk (inject p s []) := by
  intro i hi hsym
  rcases inject_mem hi with ⟨k', hk', h1, h2⟩ | h
  · rw [h2]; exact h k' hk' (by rw [← h1]; exact hsym)
  · simp at h

theorem step_keeps {p : Prog} {t : Str} {body : Prog} {a : Act} (hf : FirstOk p) (ha : a.Ok) (ht : FunAt p t body)
    (hs : ∀ i ∈ body, i.sym ≠ some a.stub) (hav : a.Avoids t) : FunAt (step p a) t (body.map fun i => subst i a) := by
  cases a with
  | clr f s =>
    exact replace_keeps (inject_keeps ht hs (by simp)) (fun i hi hsym => inject_firstOk hf s i hi hsym s ha.1)
  | inj s c =>
    have : (body.map fun i => subst i (.inj s c)) = body := by simp [subst]
    rw [this]
    exact inject_keeps ht hs hav
  | pcap s c =>
    have : (body.map fun i => subst i (.pcap s c)) = body := by simp [subst]
    rw [this]
    exact pcap_keeps ht hs hav ha.2.1

theorem subst_sym (i : Insn) (a : Act) : (subst i a).sym = i.sym ∨ (subst i a).sym = none := by
  cases a with
  | clr f s =>
    simp only [subst]
    split
    · exact Or.inr rfl
    · exact Or.inl rfl
  | inj => exact Or.inl rfl
  | pcap => exact Or.inl rfl

/-- A run keeps every function it does not deal with, except that calls of removed functions become `R0 = ..`. -/
theorem run_keeps : ∀ (as : List Act) {p : Prog} {t : Str} {body : Prog}, FirstOk p → (∀ a ∈ as, a.Ok) →
    FunAt p t body → (∀ a ∈ as, ∀ i ∈ body, i.sym ≠ some a.stub) → (∀ a ∈ as, a.Avoids t) →
    FunAt (run as p) t (body.map (substs as))
  | [], p, t, body, _, _, ht, _, _ => by
    have : body.map (substs []) = body := by
      have : substs [] = id := rfl
      rw [this, List.map_id]
    rw [this]; exact ht
  | a :: as, p, t, body, hf, hok, ht, hs, hav => by
    have h1 := step_keeps hf (hok a (by simp)) ht (hs a (by simp)) (hav a (by simp))
    have h2 := run_keeps as (step_firstOk hf (hok a (by simp))) (fun b hb => hok b (by simp [hb])) h1
      (fun b hb i hi => by
        obtain ⟨k, hk, rfl⟩ := List.mem_map.mp hi
        rcases subst_sym k a with e | e
        · rw [e]; exact hs b (by simp [hb]) k hk
        · rw [e]; simp)
      (fun b hb => hav b (by simp [hb]))
    rw [List.map_map] at h2
    exact h2

theorem run_firstOk : ∀ (as : List Act) {p : Prog}, FirstOk p → (∀ a ∈ as, a.Ok) → FirstOk (run as p)
  | [], _, h, _ => h
  | a :: as, _, h, hok => run_firstOk as (step_firstOk h (hok a (by simp))) (fun b hb => hok b (by simp [hb]))

/-- What a run makes of an instruction: the first step that removes the function called decides. -/
def firstClr (as : List Act) (s : Str) : Option Bool :=
  as.findSome? fun a => match a with
    | .clr f s' => if s' = s then some f else none
    | _ => none

theorem substs_plain : ∀ (as : List Act) (i : Insn), i.ref = none → substs as i = i
  | [], _, _ => rfl
  | a :: as, i, h => by
    have : subst i a = i := by cases a <;> simp [subst, h]
    show substs as (subst i a) = i
    rw [this]
    exact substs_plain as i h

theorem substs_ref : ∀ (as : List Act) (i : Insn) (s : Str), i.ref = some s →
    substs as i = match firstClr as s with | some f => setR0 f | none => i
  | [], _, _, _ => rfl
  | a :: as, i, s, h => by
    show substs as (subst i a) = _
    cases a with
    | clr f s' =>
      by_cases e : s' = s
      · subst e
        have : subst i (.clr f s') = setR0 f := by simp [subst, h]
        rw [this, substs_plain as _ rfl]
        simp [firstClr]
      · have : subst i (.clr f s') = i := by
          simp only [subst, h, Option.some.injEq]
          rw [if_neg (fun x => e x.symm)]
        rw [this, substs_ref as i s h]
        simp [firstClr, e]
    | inj s' c =>
      have : subst i (.inj s' c) = i := rfl
      rw [this, substs_ref as i s h]
      simp [firstClr]
    | pcap s' c =>
      have : subst i (.pcap s' c) = i := rfl
      rw [this, substs_ref as i s h]
      simp [firstClr]

/-- Injected code ends up at the function, followed by the next one. -/
theorem inject_at {p : Prog} {s : Str} {c : Prog} (h : ∃ i ∈ p, i.sym = some s) (hc : c ≠ []) :
    ∃ first, first ∈ p ∧ first.sym = some s ∧ FunAt (inject p s c) s (withMeta first c) := by
  rcases inject_shape p s c with ⟨h1, _⟩ | ⟨pre, first, b, post, e, e1, e2, e3, e4, h'⟩
  · obtain ⟨i, hi, hs⟩ := h; exact absurd hs (h1 i hi)
  · refine ⟨first, by rw [e]; simp, e2, ?_⟩
    rw [h']
    cases c with
    | nil => exact absurd rfl hc
    | cons a r => exact ⟨pre, post, _, _, rfl, rfl, e2, e1, e4⟩

theorem pcap_at {p : Prog} {s : Str} {c body : Prog} {first : Insn} (h : FunAt p s (first :: body))
    (hc : c ≠ []) :
    FunAt (pcapAt c s p) s (withMeta first c ++ ⟨none, none, first.op⟩ :: body) := by
  obtain ⟨pre, post, f, tl, hb1, hp, hf, hpre, hpost⟩ := h
  simp only [List.cons.injEq] at hb1
  obtain ⟨rfl, rfl⟩ := hb1
  have hfs : findStart p s = some pre.length := by
    unfold findStart
    rw [hp, List.append_assoc, List.findIdx?_append]
    have h0 : pre.findIdx? (fun i => i.sym == some s) = none := by
      rw [List.findIdx?_eq_none_iff]
      intro i hi
      simpa using hpre i hi
    rw [h0]
    simp [List.findIdx?_cons, hf]
  have hd : p.drop pre.length = first :: (body ++ post) := by
    rw [hp, List.append_assoc, List.drop_left]; rfl
  have ht : p.take pre.length = pre := by
    rw [hp, List.append_assoc, List.take_left]
  cases c with
  | nil => exact absurd rfl hc
  | cons a r =>
    refine ⟨pre, post, _, r ++ ⟨none, none, first.op⟩ :: body, rfl, ?_, hf, hpre, hpost⟩
    simp only [pcapAt, hfs, hd, ht]
    simp [withMeta]

/-! ### No dangling calls -/

/-- The function is in the program. -/
def Has (p : Prog) (s : Str) : Prop := ∃ k ∈ p, k.sym = some s

/-- The code of a step calls only functions in the program. -/
def Act.CallsIn (p : Prog) : Act → Prop
  | .clr _ _ => True
  | .inj _ c => ∀ i ∈ c, ∀ s ∈ stubs, i.ref = some s → Has p s
  | .pcap _ c => ∀ i ∈ c, ∀ s ∈ stubs, i.ref = some s → Has p s

theorem replace_has {p : Prog} {s x : Str} {f : Bool} (hf : FirstOk p) (hs : s ∈ stubs) (h : Has p x) :
    Has (replaceCalls s (setR0 f) p) x := by
  obtain ⟨k, hk, hx⟩ := h
  refine ⟨k, ?_, hx⟩
  simp only [replaceCalls, List.mem_map]
  exact ⟨k, hk, by simp [hf k hk (by simp [hx]) s hs]⟩

theorem step_has {p : Prog} {a : Act} {x : Str} (hf : FirstOk p) (ha : a.Ok) (h : Has p x) (hx : ∀ f, a ≠ .clr f x) :
    Has (step p a) x := by
  cases a with
  | clr f s =>
    have hne : x ≠ s := fun e => hx f (by rw [e])
    obtain ⟨k, hk, hk2⟩ := h
    obtain ⟨k', h1, h2⟩ := inject_sym (c := []) hk hk2 (Or.inl hne)
    exact replace_has (inject_firstOk hf s) ha.1 ⟨k', h1, h2⟩
  | inj s c =>
    obtain ⟨k, hk, hk2⟩ := h
    exact inject_sym hk hk2 (Or.inr ha.2.1)
  | pcap s c =>
    obtain ⟨k, hk, hk2⟩ := h
    exact pcap_sym hk hk2 ha.2.1

theorem run_has : ∀ (as : List Act) {p : Prog} {x : Str}, FirstOk p → (∀ a ∈ as, a.Ok) → Has p x →
    (∀ a ∈ as, ∀ f, a ≠ .clr f x) → Has (run as p) x
  | [], _, _, _, _, h, _ => h
  | a :: as, _, _, hf, hok, h, hx =>
    run_has as (step_firstOk hf (hok a (by simp))) (fun b hb => hok b (by simp [hb]))
      (step_has hf (hok a (by simp)) h (hx a (by simp))) (fun b hb => hx b (by simp [hb]))

theorem step_closed {p : Prog} {a : Act} (hf : FirstOk p) (ha : a.Ok) (h : Closed p) (hc : a.CallsIn p) :
    Closed (step p a) := by
  intro i hi s hs hr
  cases a with
  | clr f s' =>
    have hi0 := hi
    simp only [step, clear, replaceCalls, List.mem_map] at hi
    obtain ⟨k, hk, rfl⟩ := hi
    by_cases hk' : k.ref = some s'
    · simp [hk'] at hr
    · simp only [hk', if_false] at hr
      have hne : s ≠ s' := fun e => hk' (by rw [hr, e])
      have hp : Has p s := by
        rcases inject_mem hk with ⟨k', hk', h1, h2⟩ | h
        · exact h k' hk' s hs (by rw [← h2]; exact hr)
        · simp at h
      exact step_has (a := .clr f s') hf ha hp (fun f' e => by cases e; exact hne rfl)
  | inj s' c =>
    have hp : Has p s := by
      rcases inject_mem hi with ⟨k', hk', h1, h2⟩ | hh
      · exact h k' hk' s hs (by rw [← h2]; exact hr)
      · exact hc i hh s hs hr
    exact step_has (a := .inj s' c) hf ha hp (by simp)
  | pcap s' c =>
    have hp : Has p s := by
      rcases pcap_mem hi with ⟨k', hk', h1, h2⟩ | hh | ⟨_, h2⟩
      · exact h k' hk' s hs (by rw [← h2]; exact hr)
      · exact hc i hh s hs hr
      · rw [h2] at hr; cases hr
    exact step_has (a := .pcap s' c) hf ha hp (by simp)

/-- The code of a step calls none of the functions. -/
def Act.NoCalls : Act → Prop
  | .clr _ _ => True
  | .inj _ c => ∀ i ∈ c, ∀ s ∈ stubs, i.ref ≠ some s
  | .pcap _ c => ∀ i ∈ c, ∀ s ∈ stubs, i.ref ≠ some s

theorem run_closed : ∀ (as : List Act) {p : Prog}, FirstOk p → (∀ a ∈ as, a.Ok) → (∀ a ∈ as, a.NoCalls) → Closed p →
    Closed (run as p)
  | [], _, _, _, _, h => h
  | a :: as, p, hf, hok, hn, h =>
    run_closed as (step_firstOk hf (hok a (by simp))) (fun b hb => hok b (by simp [hb])) (fun b hb => hn b (by simp [hb]))
      (step_closed hf (hok a (by simp)) h (by
        have := hn a (by simp)
        cases a with
        | clr => trivial
        | inj s c => exact fun i hi s hs e => absurd e (this i hi s hs)
        | pcap s c => exact fun i hi s hs e => absurd e (this i hi s hs)))

/-- Clears and filters, then a call of `x` put into `s`. -/
theorem group_closed {as : List Act} {p : Prog} {s x : Str} {i : Nat} (hf : FirstOk p) (hok : ∀ a ∈ as, a.Ok)
    (hn : ∀ a ∈ as, a.NoCalls) (h : Closed p) (hs : s ∈ stubs) (hx : Has p x) (hx2 : ∀ a ∈ as, ∀ f, a ≠ .clr f x) :
    Closed (run (as ++ [.inj s (callStub i x)]) p) := by
  rw [run_append, run_one]
  refine step_closed (run_firstOk as hf hok) ?_ (run_closed as hf hok hn h) ?_
  · refine ⟨hs, by simp [callStub], ?_⟩
    intro k hk
    simp only [callStub, List.mem_cons, List.not_mem_nil, or_false] at hk
    rcases hk with rfl | rfl | rfl <;> simp
  · intro k hk s' hs' e
    simp only [callStub, List.mem_cons, List.not_mem_nil, or_false] at hk
    rcases hk with rfl | rfl | rfl
    · cases e
    · simp only [Option.some.injEq] at e
      subst e
      exact run_has as hf hok hx hx2
    · cases e

/-- What the specification promises: compiled code is clean. -/
structure JobOk (j : Job) (main : Str) : Prop where
  pcap : ∀ s, Clean main (j.pcap s)
  compile : ∀ e, Clean main (j.compile e)
  outArg : ∀ c, j.outArg = some c → Clean main c
  fnArgs : ∀ c, j.fnArgs = some c → Clean main c

theorem clean_ok {main : Str} {c : Prog} (h : Clean main c) :
    c ≠ [] ∧ ∀ i ∈ c, (∀ s ∈ stubs, i.sym ≠ some s) ∧ (i.sym.isSome → ∀ s ∈ stubs, i.ref ≠ some s) :=
  ⟨h.1, fun i hi => ⟨fun s hs => ((h.2 i hi).2 s hs).1, fun _ s hs => ((h.2 i hi).2 s hs).2⟩⟩

theorem clean_nocalls {main : Str} {c : Prog} (h : Clean main c) : ∀ i ∈ c, ∀ s ∈ stubs, i.ref ≠ some s :=
  fun i hi s hs => ((h.2 i hi).2 s hs).2

theorem clrs_mem {f : Bool} {l : List Str} {a : Act} (h : a ∈ clrs f l) : ∃ s ∈ l, a = .clr f s := by
  obtain ⟨s, hs, rfl⟩ := List.mem_map.mp h
  exact ⟨s, hs, rfl⟩

theorem clrs_ok {f : Bool} {l : List Str} (hl : ∀ s ∈ l, s ∈ stubs) : ∀ a ∈ clrs f l, a.Ok := by
  intro a ha
  obtain ⟨s, hs, rfl⟩ := clrs_mem ha
  exact ⟨hl s hs, trivial⟩

theorem clrs_nocalls {f : Bool} {l : List Str} : ∀ a ∈ clrs f l, a.NoCalls := by
  intro a ha
  obtain ⟨s, hs, rfl⟩ := clrs_mem ha
  trivial

theorem callStub_ok (i : Nat) (x : Str) :
    callStub i x ≠ [] ∧ ∀ k ∈ callStub i x, (∀ s ∈ stubs, k.sym ≠ some s) ∧ (k.sym.isSome → ∀ s ∈ stubs, k.ref ≠ some s) := by
  refine ⟨by simp [callStub], ?_⟩
  intro k hk
  simp only [callStub, List.mem_cons, List.not_mem_nil, or_false] at hk
  rcases hk with rfl | rfl | rfl <;> simp

/-- Every step of these lists deals with a known function and uses clean code. -/
structure Good (main : Str) (as : List Act) : Prop where
  ok : ∀ a ∈ as, a.Ok
  avoids : ∀ a ∈ as, a.Avoids main

theorem good_append {main : Str} {a b : List Act} (ha : Good main a) (hb : Good main b) : Good main (a ++ b) :=
  ⟨fun x hx => (List.mem_append.mp hx).elim (ha.ok x) (hb.ok x),
   fun x hx => (List.mem_append.mp hx).elim (ha.avoids x) (hb.avoids x)⟩

theorem good_nil {main : Str} : Good main [] := ⟨by simp, by simp⟩

theorem good_clrs {main : Str} {f : Bool} {l : List Str} (hl : ∀ s ∈ l, s ∈ stubs) : Good main (clrs f l) :=
  ⟨clrs_ok hl, fun a ha => by obtain ⟨s, _, rfl⟩ := clrs_mem ha; trivial⟩

theorem good_clr {main : Str} {f : Bool} {s : Str} (hl : s ∈ stubs) : Good main [.clr f s] :=
  good_clrs (f := f) (l := [s]) (by simpa using hl)

theorem good_inj {main : Str} {s : Str} {c : Prog} (hs : s ∈ stubs) (hc : Clean main c) : Good main [.inj s c] := by
  refine ⟨?_, ?_⟩
  · intro a ha; simp only [List.mem_singleton] at ha; subst ha; exact ⟨hs, clean_ok hc⟩
  · intro a ha; simp only [List.mem_singleton] at ha; subst ha; exact fun i hi => (hc.2 i hi).1

theorem good_pcap {main : Str} {s : Str} {c : Prog} (hs : s ∈ stubs) (hc : Clean main c) : Good main [.pcap s c] := by
  refine ⟨?_, ?_⟩
  · intro a ha; simp only [List.mem_singleton] at ha; subst ha; exact ⟨hs, clean_ok hc⟩
  · intro a ha; simp only [List.mem_singleton] at ha; subst ha; exact fun i hi => (hc.2 i hi).1

theorem good_call {main : Str} {s x : Str} {i : Nat} (hs : s ∈ stubs) : Good main [.inj s (callStub i x)] := by
  refine ⟨?_, ?_⟩
  · intro a ha; simp only [List.mem_singleton] at ha; subst ha; exact ⟨hs, callStub_ok i x⟩
  · intro a ha
    simp only [List.mem_singleton] at ha
    subst ha
    intro k hk
    simp only [callStub, List.mem_cons, List.not_mem_nil, or_false] at hk
    rcases hk with rfl | rfl | rfl <;> simp

theorem trim_good (j : Job) (main : Str) : Good main (trimActs j) := by
  unfold trimActs
  refine good_append (good_append ?_ ?_) ?_
  · split
    · exact good_nil
    · exact good_clrs (by decide)
  · split
    · exact good_nil
    · exact good_clr (by decide)
  · split
    · exact good_nil
    · exact good_clr (by decide)

theorem pktOut_good (j : Job) (main : Str) : Good main (pktOutActs j) := by
  unfold pktOutActs
  split
  · exact good_clrs (by decide)
  · split
    · exact good_append (good_clrs (by decide)) (good_call (by decide))
    · exact good_append (good_clrs (by decide)) (good_call (by decide))
    · exact good_append (good_clrs (by decide)) (good_call (by decide))
    · exact good_clrs (by decide)

theorem pktFilter_good {j : Job} {main : Str} (h : JobOk j main) : Good main (pktFilterActs j) := by
  unfold pktFilterActs
  split
  · exact good_nil
  · split
    · exact good_append (good_append (good_append (a := [_]) (good_pcap (by decide) (h.pcap _)) (good_pcap (by decide) (h.pcap _)))
        (good_clrs (by decide))) (good_call (by decide))
    · exact good_append (good_append (good_pcap (by decide) (h.pcap _)) (good_clrs (by decide))) (good_call (by decide))
    · exact good_append (good_append (good_pcap (by decide) (h.pcap _)) (good_clrs (by decide))) (good_call (by decide))
    · exact good_clrs (by decide)

theorem argFilter_good {j : Job} {main : Str} (h : JobOk j main) : Good main (argFilterActs j) := by
  unfold argFilterActs
  split
  · exact good_inj (by decide) (h.compile _)
  · exact good_clr (by decide)

theorem argOut_good {j : Job} {main : Str} (h : JobOk j main) : Good main (argOutActs j) := by
  unfold argOutActs
  split
  · exact good_nil
  · split
    · exact good_clr (by decide)
    · next c hc => exact good_inj (by decide) (h.outArg c hc)

theorem fn_good {j : Job} {main : Str} (h : JobOk j main) : Good main (fnActs j) := by
  unfold fnActs
  split
  · exact good_clr (by decide)
  · next c hc => exact good_inj (by decide) (h.fnArgs c hc)

theorem acts_good {j : Job} {main : Str} (h : JobOk j main) : Good main (acts j) :=
  good_append (good_append (good_append (good_append (good_append (trim_good j main) (pktOut_good j main))
    (pktFilter_good h)) (argFilter_good h)) (argOut_good h)) (fn_good h)

theorem multi_good {j : Job} {main : Str} (h : JobOk j main) (x : Bool) : Good main (multiActs j x) := by
  unfold multiActs
  refine good_append ?_ (fn_good h)
  split
  · exact good_append (good_append (good_append (good_clr (by decide)) (good_clrs (by decide))) (good_clr (by decide)))
      (good_clrs (by decide))
  · exact good_append (good_append (good_append (pktOut_good j main) (pktFilter_good h)) (argFilter_good h)) (argOut_good h)

/-! ### Which calls are replaced -/

theorem firstClr_append (a b : List Act) (s : Str) : firstClr (a ++ b) s = (firstClr a s).or (firstClr b s) :=
  List.findSome?_append

theorem firstClr_clrs (f : Bool) (l : List Str) (s : Str) : firstClr (clrs f l) s = if s ∈ l then some f else none := by
  induction l with
  | nil => rfl
  | cons x r ih =>
    have : firstClr (clrs f (x :: r)) s = if x = s then some f else firstClr (clrs f r) s := by
      unfold firstClr clrs
      rw [List.map_cons, List.findSome?_cons]
      by_cases e : x = s <;> simp [e]
    rw [this, ih]
    by_cases e : x = s
    · simp [e]
    · have : ¬ s = x := fun h => e h.symm
      simp [e, this]

theorem firstClr_clr (f : Bool) (x s : Str) : firstClr [.clr f x] s = if x = s then some f else none := by
  unfold firstClr
  rw [List.findSome?_cons]
  by_cases e : x = s <;> simp [e]

theorem firstClr_inj (x s : Str) (c : Prog) : firstClr [.inj x c] s = none := rfl
theorem firstClr_pcap (x s : Str) (c : Prog) (r : List Act) : firstClr (.pcap x c :: r) s = firstClr r s := rfl
theorem firstClr_nil (s : Str) : firstClr [] s = none := rfl

theorem trim_clr (j : Job) (s : Str) : firstClr (trimActs j) s =
    if s ∈ pktFilterNames ∧ j.pktGiven = false then some true
    else if s = sFilterArg ∧ j.exprs = [] then some true
    else if s = sOArg ∧ j.outGiven = false then some false else none := by
  unfold trimActs
  rw [firstClr_append, firstClr_append]
  have e1 : firstClr (if j.pktGiven then [] else clrs true pktFilterNames) s =
      if s ∈ pktFilterNames ∧ j.pktGiven = false then some true else none := by
    cases j.pktGiven <;> simp [firstClr_clrs, firstClr_nil]
  have e2 : firstClr (if (!j.exprs.isEmpty) then [] else [.clr true sFilterArg]) s =
      if s = sFilterArg ∧ j.exprs = [] then some true else none := by
    cases j.exprs <;> simp [firstClr_clr, firstClr_nil, eq_comm]
  have e3 : firstClr (if j.outGiven then [] else [.clr false sOArg]) s =
      if s = sOArg ∧ j.outGiven = false then some false else none := by
    cases j.outGiven <;> simp [firstClr_clr, firstClr_nil, eq_comm]
  rw [e1, e2, e3]
  split
  · rfl
  · split <;> rfl

/-- The functions the entry of the programs calls (bpf/bpfsnoop.c 60-132, bpf/bpfsnoop_kmulti.c 64-155). -/
def called : List Str := [sFilterArg, sFPkt, sOArg, sOPkt, sOFn]

theorem pktOut_clr (j : Job) {s : Str} (hs : s ∈ called) : firstClr (pktOutActs j) s =
    if s = sOPkt ∧ (j.pkt = false ∨ packetParam j.params = none) then some false else none := by
  have h1 : ∀ s ∈ called, (s ∈ pktOutputNames ↔ s = sOPkt) := by decide
  have h2 : ∀ s ∈ called, s ∉ [sOXdp, sOXdpF] ∧ s ∉ [sOSkb, sOXdpF] ∧ s ∉ [sOSkb, sOXdp] := by decide
  unfold pktOutActs
  cases j.pkt with
  | false => simp [firstClr_clrs, h1 s hs]
  | true =>
    obtain ⟨a1, a2, a3⟩ := h2 s hs
    cases hp : packetParam j.params with
    | none => simp [firstClr_clrs, h1 s hs]
    | some x =>
      obtain ⟨i, k⟩ := x
      cases k <;> simp only [Bool.not_true, Bool.false_eq_true, if_false, firstClr_append, firstClr_clrs, a1, a2, a3, firstClr_inj,
        reduceCtorEq, or_false, and_false, Option.or_none]

theorem pktFilter_clr (j : Job) {s : Str} (hs : s ∈ called) : firstClr (pktFilterActs j) s =
    if s = sFPkt ∧ (j.pktGiven = true ∧ packetParam j.params = none) then some true else none := by
  have h1 : ∀ s ∈ called, (s ∈ pktFilterNames ↔ s = sFPkt) := by decide
  have h2 : ∀ s ∈ called, s ∉ [sL2s, sL3s, sFXdp, sFXdpF] ∧ s ∉ [sL2s, sL3s, sFSkb, sFXdpF, sL3] ∧
    s ∉ [sL2s, sL3s, sFSkb, sFXdp, sL3] := by decide
  unfold pktFilterActs
  cases j.pktGiven with
  | false => simp [firstClr_nil]
  | true =>
    obtain ⟨a1, a2, a3⟩ := h2 s hs
    cases hp : packetParam j.params with
    | none => simp [firstClr_clrs, h1 s hs]
    | some x =>
      obtain ⟨i, k⟩ := x
      cases k <;> simp only [Bool.not_true, Bool.false_eq_true, if_false, firstClr_append, firstClr_clrs, a1, a2, a3, firstClr_inj,
        firstClr_pcap, firstClr_nil, reduceCtorEq, and_false, Option.or_none]

theorem argFilter_clr (j : Job) (s : Str) : firstClr (argFilterActs j) s =
    if s = sFilterArg ∧ chosen j.exprs j.params = none then some true else none := by
  unfold argFilterActs
  cases chosen j.exprs j.params <;> simp [firstClr_clr, firstClr_inj, eq_comm]

theorem argOut_clr (j : Job) (s : Str) : firstClr (argOutActs j) s =
    if s = sOArg ∧ j.outGiven = true ∧ j.outArg = none then some false else none := by
  unfold argOutActs
  cases j.outGiven <;> cases j.outArg <;> simp [firstClr_clr, firstClr_inj, firstClr_nil, eq_comm]

theorem fn_clr (j : Job) (s : Str) : firstClr (fnActs j) s = if s = sOFn ∧ j.fnArgs = none then some false else none := by
  unfold fnActs
  cases j.fnArgs <;> simp [firstClr_clr, firstClr_inj, eq_comm]

/-- The calls of the entry that a run replaces by an answer, as one reads it off the options: a filter that does not
apply accepts, an output that does not apply outputs nothing. -/
def answered (j : Job) (s : Str) : Option Bool :=
  if s = sFilterArg then if chosen j.exprs j.params = none then some true else none
  else if s = sFPkt then if j.pktGiven = false ∨ packetParam j.params = none then some true else none
  else if s = sOArg then if j.outGiven = false ∨ j.outArg = none then some false else none
  else if s = sOPkt then if j.pkt = false ∨ packetParam j.params = none then some false else none
  else if s = sOFn then if j.fnArgs = none then some false else none
  else none

theorem acts_clr (j : Job) {s : Str} (hs : s ∈ called) : firstClr (acts j) s = answered j s := by
  unfold acts
  rw [firstClr_append, firstClr_append, firstClr_append, firstClr_append, firstClr_append, trim_clr, pktOut_clr j hs,
    pktFilter_clr j hs, argFilter_clr, argOut_clr, fn_clr]
  simp only [called, List.mem_cons, List.not_mem_nil, or_false] at hs
  rcases hs with rfl | rfl | rfl | rfl | rfl
  · have e1 : sFilterArg ∉ pktFilterNames := by decide
    have e2 : ¬ sFilterArg = sOArg := by decide
    have e3 : ¬ sFilterArg = sOPkt := by decide
    have e4 : ¬ sFilterArg = sFPkt := by decide
    have e5 : ¬ sFilterArg = sOFn := by decide
    simp only [e1, e2, e3, e4, e5, false_and, if_false, answered, if_true, true_and]
    by_cases h : j.exprs = []
    · simp [h, chosen]
    · simp [h]
  · have e1 : sFPkt ∈ pktFilterNames := by decide
    have e2 : ¬ sFPkt = sOArg := by decide
    have e3 : ¬ sFPkt = sOPkt := by decide
    have e4 : ¬ sFPkt = sFilterArg := by decide
    have e5 : ¬ sFPkt = sOFn := by decide
    simp only [e1, e2, e3, e4, e5, false_and, if_false, answered, if_true, true_and]
    cases j.pktGiven <;> simp
  · have e1 : sOArg ∉ pktFilterNames := by decide
    have e2 : ¬ sOArg = sFPkt := by decide
    have e3 : ¬ sOArg = sOPkt := by decide
    have e4 : ¬ sOArg = sFilterArg := by decide
    have e5 : ¬ sOArg = sOFn := by decide
    simp only [e1, e2, e3, e4, e5, false_and, if_false, answered, if_true, true_and]
    cases j.outGiven <;> simp
  · have e1 : sOPkt ∉ pktFilterNames := by decide
    have e2 : ¬ sOPkt = sFPkt := by decide
    have e3 : ¬ sOPkt = sOArg := by decide
    have e4 : ¬ sOPkt = sFilterArg := by decide
    have e5 : ¬ sOPkt = sOFn := by decide
    simp [e1, e2, e3, e4, e5, answered]
  · have e1 : sOFn ∉ pktFilterNames := by decide
    have e2 : ¬ sOFn = sFPkt := by decide
    have e3 : ¬ sOFn = sOArg := by decide
    have e4 : ¬ sOFn = sFilterArg := by decide
    have e5 : ¬ sOFn = sOPkt := by decide
    simp [e1, e2, e3, e4, e5, answered]

/-- The same for `(m)` targets. -/
def answeredMulti (j : Job) (isExit : Bool) (s : Str) : Option Bool :=
  if isExit then
    if s = sFilterArg ∨ s = sFPkt then some true
    else if s = sOArg ∨ s = sOPkt then some false
    else if s = sOFn then if j.fnArgs = none then some false else none
    else none
  else
    if s = sFilterArg then if chosen j.exprs j.params = none then some true else none
    else if s = sFPkt then if j.pktGiven = true ∧ packetParam j.params = none then some true else none
    else if s = sOArg then if j.outGiven = true ∧ j.outArg = none then some false else none
    else if s = sOPkt then if j.pkt = false ∨ packetParam j.params = none then some false else none
    else if s = sOFn then if j.fnArgs = none then some false else none
    else none

theorem multi_clr (j : Job) (x : Bool) {s : Str} (hs : s ∈ called) : firstClr (multiActs j x) s = answeredMulti j x s := by
  unfold multiActs
  rw [firstClr_append, fn_clr]
  cases x with
  | true =>
    simp only [if_true, firstClr_append, firstClr_clr, firstClr_clrs]
    simp only [called, List.mem_cons, List.not_mem_nil, or_false] at hs
    rcases hs with rfl | rfl | rfl | rfl | rfl
    · simp [answeredMulti]
    · have e1 : sFPkt ∈ pktFilterNames := by decide
      have e2 : ¬ sFilterArg = sFPkt := by decide
      simp [answeredMulti, e1, e2]
    · have e1 : sOArg ∉ pktFilterNames := by decide
      have e2 : ¬ sFilterArg = sOArg := by decide
      have e3 : ¬ sOArg = sFPkt := by decide
      simp [answeredMulti, e1, e2, Ne.symm e2, e3]
    · have e1 : sOPkt ∉ pktFilterNames := by decide
      have e2 : ¬ sFilterArg = sOPkt := by decide
      have e3 : ¬ sOPkt = sFPkt := by decide
      have e4 : ¬ sOArg = sOPkt := by decide
      have e5 : sOPkt ∈ pktOutputNames := by decide
      simp [answeredMulti, e1, e2, Ne.symm e2, e3, e4, e5]
    · have e1 : sOFn ∉ pktFilterNames := by decide
      have e2 : ¬ sFilterArg = sOFn := by decide
      have e3 : ¬ sOFn = sFPkt := by decide
      have e4 : ¬ sOArg = sOFn := by decide
      have e5 : sOFn ∉ pktOutputNames := by decide
      have e6 : ¬ sOFn = sOPkt := by decide
      simp [answeredMulti, e1, e2, Ne.symm e2, e3, e4, Ne.symm e4, e5, e6]
  | false =>
    simp only [Bool.false_eq_true, if_false, firstClr_append, pktOut_clr j hs, pktFilter_clr j hs, argFilter_clr, argOut_clr]
    simp only [called, List.mem_cons, List.not_mem_nil, or_false] at hs
    rcases hs with rfl | rfl | rfl | rfl | rfl
    · have e2 : ¬ sFilterArg = sOArg := by decide
      have e3 : ¬ sFilterArg = sOPkt := by decide
      have e4 : ¬ sFilterArg = sFPkt := by decide
      have e5 : ¬ sFilterArg = sOFn := by decide
      simp [e2, e3, e4, e5, answeredMulti]
    · have e2 : ¬ sFPkt = sOArg := by decide
      have e3 : ¬ sFPkt = sOPkt := by decide
      have e4 : ¬ sFPkt = sFilterArg := by decide
      have e5 : ¬ sFPkt = sOFn := by decide
      simp [e2, e3, e4, e5, answeredMulti]
    · have e2 : ¬ sOArg = sFPkt := by decide
      have e3 : ¬ sOArg = sOPkt := by decide
      have e4 : ¬ sOArg = sFilterArg := by decide
      have e5 : ¬ sOArg = sOFn := by decide
      simp [e2, e3, e4, e5, answeredMulti]
    · have e2 : ¬ sOPkt = sFPkt := by decide
      have e3 : ¬ sOPkt = sOArg := by decide
      have e4 : ¬ sOPkt = sFilterArg := by decide
      have e5 : ¬ sOPkt = sOFn := by decide
      simp [e2, e3, e4, e5, answeredMulti]
    · have e2 : ¬ sOFn = sFPkt := by decide
      have e3 : ¬ sOFn = sOArg := by decide
      have e4 : ¬ sOFn = sFilterArg := by decide
      have e5 : ¬ sOFn = sOPkt := by decide
      simp [e2, e3, e4, e5, answeredMulti]

/-- `i` with calls that are answered replaced by the answer. -/
def withAnswers (ans : Str → Option Bool) (i : Insn) : Insn :=
  match i.ref.bind ans with
  | some v => setR0 v
  | none => i

theorem firstClr_stub {as : List Act} {s : Str} (hok : ∀ a ∈ as, a.Ok) (hs : s ∉ stubs) : firstClr as s = none := by
  unfold firstClr
  rw [List.findSome?_eq_none_iff]
  intro a ha
  cases a with
  | clr f x =>
    have := (hok _ ha).1
    simp only [Act.stub] at this
    show (if x = s then some f else none) = none
    rw [if_neg (fun e => hs (by rw [← e]; exact this))]
  | inj => rfl
  | pcap => rfl

theorem substs_answers {as : List Act} {ans : Str → Option Bool} (hok : ∀ a ∈ as, a.Ok)
    (h : ∀ s ∈ called, firstClr as s = ans s) (hns : ∀ s, s ∉ called → ans s = none) {i : Insn}
    (hi : ∀ s, i.ref = some s → s ∈ stubs → s ∈ called) : substs as i = withAnswers ans i := by
  unfold withAnswers
  cases hr : i.ref with
  | none => exact substs_plain as i hr
  | some s =>
    rw [substs_ref as i s hr]
    have : firstClr as s = ans s := by
      by_cases hc : s ∈ called
      · exact h s hc
      · rw [hns s hc]
        exact firstClr_stub hok (fun hh => hc (hi s hr hh))
    rw [this]
    rfl

theorem answered_called {j : Job} {s : Str} (hs : s ∉ called) : answered j s = none := by
  simp only [called, List.mem_cons, List.not_mem_nil, or_false, not_or] at hs
  obtain ⟨h1, h2, h3, h4, h5⟩ := hs
  simp [answered, h1, h2, h3, h4, h5]

theorem answeredMulti_called {j : Job} {x : Bool} {s : Str} (hs : s ∉ called) : answeredMulti j x s = none := by
  simp only [called, List.mem_cons, List.not_mem_nil, or_false, not_or] at hs
  obtain ⟨h1, h2, h3, h4, h5⟩ := hs
  cases x <;> simp [answeredMulti, h1, h2, h3, h4, h5]

/-! ### The theorems -/

/-- What is assumed of the compiled C program: calls resolve, no function begins with a call, and the functions that
take packets are there. -/
structure SpecOk (spec : Prog) : Prop where
  closed : Closed spec
  firstOk : FirstOk spec
  packet : ∀ s ∈ [sFSkb, sFXdp, sFXdpF, sOSkb, sOXdp, sOXdpF], Has spec s

theorem no_calls_of_clean {main : Str} {as : List Act} (h : ∀ a ∈ as, (∃ f s, a = .clr f s) ∨
    (∃ s c, a = .inj s c ∧ Clean main c) ∨ ∃ s c, a = .pcap s c ∧ Clean main c) : ∀ a ∈ as, a.NoCalls := by
  intro a ha
  rcases h a ha with ⟨f, s, rfl⟩ | ⟨s, c, rfl, hc⟩ | ⟨s, c, rfl, hc⟩
  · trivial
  · exact clean_nocalls hc
  · exact clean_nocalls hc

theorem nocalls_append {a b : List Act} (ha : ∀ x ∈ a, x.NoCalls) (hb : ∀ x ∈ b, x.NoCalls) : ∀ x ∈ a ++ b, x.NoCalls :=
  fun x hx => (List.mem_append.mp hx).elim (ha x) (hb x)

theorem trim_nocalls (j : Job) : ∀ a ∈ trimActs j, a.NoCalls := by
  unfold trimActs
  refine nocalls_append (nocalls_append ?_ ?_) ?_
  · split
    · simp
    · exact clrs_nocalls
  · split
    · simp
    · exact clrs_nocalls (f := true) (l := [_])
  · split
    · simp
    · exact clrs_nocalls (f := false) (l := [_])

theorem inj_nocalls {s : Str} {c : Prog} (h : ∀ i ∈ c, ∀ s ∈ stubs, i.ref ≠ some s) : ∀ a ∈ [Act.inj s c], a.NoCalls := by
  intro a ha; simp only [List.mem_singleton] at ha; subst ha; exact h

theorem pcap_nocalls {s : Str} {c : Prog} (h : ∀ i ∈ c, ∀ s ∈ stubs, i.ref ≠ some s) : ∀ a ∈ [Act.pcap s c], a.NoCalls := by
  intro a ha; simp only [List.mem_singleton] at ha; subst ha; exact h

theorem clrs_keeps {f : Bool} {l : List Str} {x : Str} (h : x ∉ l) : ∀ a ∈ clrs f l, ∀ f', a ≠ .clr f' x := by
  intro a ha f' e
  obtain ⟨s, hs, rfl⟩ := clrs_mem ha
  cases e
  exact h hs

theorem keeps_append {a b : List Act} {x : Str} (ha : ∀ y ∈ a, ∀ f, y ≠ .clr f x) (hb : ∀ y ∈ b, ∀ f, y ≠ .clr f x) :
    ∀ y ∈ a ++ b, ∀ f, y ≠ .clr f x := fun y hy => (List.mem_append.mp hy).elim (ha y) (hb y)

theorem inj_keeps {s x : Str} {c : Prog} : ∀ y ∈ [Act.inj s c], ∀ f, y ≠ .clr f x := by simp

theorem pcaps_keeps {s x : Str} {c : Prog} : ∀ y ∈ [Act.pcap s c], ∀ f, y ≠ .clr f x := by simp

theorem clr_keeps {s x : Str} {f : Bool} (h : s ≠ x) : ∀ y ∈ [Act.clr f s], ∀ f, y ≠ .clr f x :=
  clrs_keeps (l := [s]) (by simpa using fun e => h e.symm)

theorem pktOut_closed {j : Job} {p : Prog} (hf : FirstOk p) (h : Closed p) (hp : ∀ s ∈ [sOSkb, sOXdp, sOXdpF], Has p s) :
    Closed (run (pktOutActs j) p) := by
  unfold pktOutActs
  split
  · exact run_closed _ hf (clrs_ok (by decide)) clrs_nocalls h
  · split
    · exact group_closed hf (clrs_ok (by decide)) clrs_nocalls h (by decide) (hp _ (by decide)) (clrs_keeps (by decide))
    · exact group_closed hf (clrs_ok (by decide)) clrs_nocalls h (by decide) (hp _ (by decide)) (clrs_keeps (by decide))
    · exact group_closed hf (clrs_ok (by decide)) clrs_nocalls h (by decide) (hp _ (by decide)) (clrs_keeps (by decide))
    · exact run_closed _ hf (clrs_ok (by decide)) clrs_nocalls h

theorem pktFilter_closed {j : Job} {main : Str} {p : Prog} (hj : JobOk j main) (hf : FirstOk p) (h : Closed p)
    (hp : j.pktGiven = true → ∀ s ∈ [sFSkb, sFXdp, sFXdpF], Has p s) : Closed (run (pktFilterActs j) p) := by
  unfold pktFilterActs
  split
  · exact h
  · next hg =>
    have hp := hp (by simpa using hg)
    split
    · exact group_closed hf
        (good_append (good_append (a := [_]) (good_pcap (by decide) (hj.pcap _)) (good_pcap (by decide) (hj.pcap _)))
          (good_clrs (by decide))).ok
        (nocalls_append (nocalls_append (a := [_]) (pcap_nocalls (clean_nocalls (hj.pcap _))) (pcap_nocalls (clean_nocalls (hj.pcap _))))
          clrs_nocalls) h (by decide) (hp _ (by decide))
        (keeps_append (keeps_append (a := [_]) pcaps_keeps pcaps_keeps) (clrs_keeps (by decide)))
    · exact group_closed hf (good_append (good_pcap (by decide) (hj.pcap _)) (good_clrs (by decide))).ok
        (nocalls_append (pcap_nocalls (clean_nocalls (hj.pcap _))) clrs_nocalls) h (by decide) (hp _ (by decide))
        (keeps_append pcaps_keeps (clrs_keeps (by decide)))
    · exact group_closed hf (good_append (good_pcap (by decide) (hj.pcap _)) (good_clrs (by decide))).ok
        (nocalls_append (pcap_nocalls (clean_nocalls (hj.pcap _))) clrs_nocalls) h (by decide) (hp _ (by decide))
        (keeps_append pcaps_keeps (clrs_keeps (by decide)))
    · exact run_closed _ hf (clrs_ok (by decide)) clrs_nocalls h

theorem argFilter_nocalls {j : Job} {main : Str} (h : JobOk j main) : ∀ a ∈ argFilterActs j, a.NoCalls := by
  unfold argFilterActs
  split
  · exact inj_nocalls (clean_nocalls (h.compile _))
  · exact clrs_nocalls (f := true) (l := [_])

theorem argOut_nocalls {j : Job} {main : Str} (h : JobOk j main) : ∀ a ∈ argOutActs j, a.NoCalls := by
  unfold argOutActs
  split
  · simp
  · split
    · exact clrs_nocalls (f := false) (l := [_])
    · next c hc => exact inj_nocalls (clean_nocalls (h.outArg c hc))

theorem fn_nocalls {j : Job} {main : Str} (h : JobOk j main) : ∀ a ∈ fnActs j, a.NoCalls := by
  unfold fnActs
  split
  · exact clrs_nocalls (f := false) (l := [_])
  · next c hc => exact inj_nocalls (clean_nocalls (h.fnArgs c hc))

theorem trim_keeps (j : Job) {x : Str} (h1 : x ∈ pktFilterNames → j.pktGiven = true) (h2 : x = sFilterArg → j.exprs ≠ [])
    (h3 : x = sOArg → j.outGiven = true) : ∀ y ∈ trimActs j, ∀ f, y ≠ .clr f x := by
  unfold trimActs
  refine keeps_append (keeps_append ?_ ?_) ?_
  · split
    · simp
    · next h => exact clrs_keeps (fun hx => h (h1 hx))
  · split
    · simp
    · next h => exact clr_keeps (fun e => h (by
        have := h2 e.symm
        cases hh : j.exprs with
        | nil => exact absurd hh this
        | cons => rfl))
  · split
    · simp
    · next h => exact clr_keeps (fun e => h (h3 e.symm))

theorem pktOut_keeps (j : Job) {x : Str} (h : x ∉ pktOutputNames) : ∀ y ∈ pktOutActs j, ∀ f, y ≠ .clr f x := by
  have e : ∀ l : List Str, (∀ s ∈ l, s ∈ pktOutputNames) → x ∉ l := fun l hl hx => h (hl x hx)
  unfold pktOutActs
  split
  · exact clrs_keeps h
  · split
    · exact keeps_append (clrs_keeps (e _ (by decide))) inj_keeps
    · exact keeps_append (clrs_keeps (e _ (by decide))) inj_keeps
    · exact keeps_append (clrs_keeps (e _ (by decide))) inj_keeps
    · exact clrs_keeps h

theorem pktFilter_keeps (j : Job) {x : Str} (h : x ∉ pktFilterNames) : ∀ y ∈ pktFilterActs j, ∀ f, y ≠ .clr f x := by
  have e : ∀ l : List Str, (∀ s ∈ l, s ∈ pktFilterNames) → x ∉ l := fun l hl hx => h (hl x hx)
  unfold pktFilterActs
  split
  · simp
  · split
    · exact keeps_append (keeps_append (keeps_append (a := [_]) pcaps_keeps pcaps_keeps) (clrs_keeps (e _ (by decide)))) inj_keeps
    · exact keeps_append (keeps_append pcaps_keeps (clrs_keeps (e _ (by decide)))) inj_keeps
    · exact keeps_append (keeps_append pcaps_keeps (clrs_keeps (e _ (by decide)))) inj_keeps
    · exact clrs_keeps h

/-- C51: whatever the options and the target, the loaded program has no call of a function that has been removed. -/
theorem no_dangling_calls {j : Job} {main : Str} {spec : Prog} (hj : JobOk j main) (hs : SpecOk spec) :
    Closed (build j spec) := by
  rw [build_run]
  unfold acts
  simp only [run_append]
  have f1 := run_firstOk _ hs.firstOk (trim_good j main).ok
  have c1 := run_closed _ hs.firstOk (trim_good j main).ok (trim_nocalls j) hs.closed
  have f2 := run_firstOk _ f1 (pktOut_good j main).ok
  have c2 : Closed (run (pktOutActs j) (run (trimActs j) spec)) := by
    refine pktOut_closed f1 c1 ?_
    intro s h
    have hm : s ∉ pktFilterNames ∧ s ≠ sFilterArg ∧ s ≠ sOArg := by revert s; decide
    exact run_has _ hs.firstOk (trim_good j main).ok (hs.packet s (by revert s; decide))
      (trim_keeps j (fun h => absurd h hm.1) (fun h => absurd h hm.2.1) (fun h => absurd h hm.2.2))
  have f3 := run_firstOk _ f2 (pktFilter_good hj).ok
  have c3 : Closed (run (pktFilterActs j) (run (pktOutActs j) (run (trimActs j) spec))) := by
    refine pktFilter_closed hj f2 c2 ?_
    intro hg s h
    have hm : s ∉ pktOutputNames ∧ s ≠ sFilterArg ∧ s ≠ sOArg := by revert s; decide
    refine run_has _ f1 (pktOut_good j main).ok ?_ (pktOut_keeps j hm.1)
    exact run_has _ hs.firstOk (trim_good j main).ok (hs.packet s (by revert s; decide))
      (trim_keeps j (fun _ => hg) (fun h => absurd h hm.2.1) (fun h => absurd h hm.2.2))
  have f4 := run_firstOk _ f3 (argFilter_good hj).ok
  have c4 := run_closed _ f3 (argFilter_good hj).ok (argFilter_nocalls hj) c3
  have f5 := run_firstOk _ f4 (argOut_good hj).ok
  have c5 := run_closed _ f4 (argOut_good hj).ok (argOut_nocalls hj) c4
  exact run_closed _ f5 (fn_good hj).ok (fn_nocalls hj) c5

/-- C51 for `(m)` targets. -/
theorem no_dangling_calls_multi {j : Job} {main : Str} {spec : Prog} (hj : JobOk j main) (hs : SpecOk spec) (x : Bool) :
    Closed (buildMulti j x spec) := by
  rw [buildMulti_run]
  unfold multiActs
  rw [run_append]
  cases x with
  | true =>
    simp only [if_true]
    have hgood : Good main ([.clr true sFilterArg] ++ clrs true pktFilterNames ++ [.clr false sOArg] ++ clrs false pktOutputNames) :=
      good_append (good_append (good_append (good_clr (by decide)) (good_clrs (by decide))) (good_clr (by decide)))
        (good_clrs (by decide))
    refine run_closed _ (run_firstOk _ hs.firstOk hgood.ok) (fn_good hj).ok (fn_nocalls hj)
      (run_closed _ hs.firstOk hgood.ok ?_ hs.closed)
    exact nocalls_append (nocalls_append (nocalls_append (clrs_nocalls (l := [_])) clrs_nocalls) (clrs_nocalls (l := [_])))
      clrs_nocalls
  | false =>
    simp only [Bool.false_eq_true, if_false, run_append]
    have f2 := run_firstOk _ hs.firstOk (pktOut_good j main).ok
    have c2 : Closed (run (pktOutActs j) spec) :=
      pktOut_closed hs.firstOk hs.closed (fun s h => hs.packet s (by revert s; decide))
    have f3 := run_firstOk _ f2 (pktFilter_good hj).ok
    have c3 : Closed (run (pktFilterActs j) (run (pktOutActs j) spec)) := by
      refine pktFilter_closed hj f2 c2 ?_
      intro _ s h
      exact run_has _ hs.firstOk (pktOut_good j main).ok (hs.packet s (by revert s; decide))
        (pktOut_keeps j (by revert s; decide))
    have f4 := run_firstOk _ f3 (argFilter_good hj).ok
    have c4 := run_closed _ f3 (argFilter_good hj).ok (argFilter_nocalls hj) c3
    have f5 := run_firstOk _ f4 (argOut_good hj).ok
    have c5 := run_closed _ f4 (argOut_good hj).ok (argOut_nocalls hj) c4
    exact run_closed _ f5 (fn_good hj).ok (fn_nocalls hj) c5

/-- C51: the program itself is left alone, except that calls answered in advance become the answer. -/
theorem entry_intact {j : Job} {main : Str} {spec body : Prog} (hj : JobOk j main) (hs : SpecOk spec)
    (hm : FunAt spec main body) (h1 : ∀ i ∈ body, ∀ s ∈ stubs, i.sym ≠ some s)
    (h2 : ∀ i ∈ body, ∀ s, i.ref = some s → s ∈ stubs → s ∈ called) :
    FunAt (build j spec) main (body.map (withAnswers (answered j))) := by
  rw [build_run]
  have h := run_keeps (acts j) hs.firstOk (acts_good hj).ok hm
    (fun a ha i hi => h1 i hi a.stub ((acts_good hj).ok a ha).1) (acts_good hj).avoids
  have e : body.map (substs (acts j)) = body.map (withAnswers (answered j)) := by
    apply List.map_congr_left
    intro i hi
    exact substs_answers (acts_good hj).ok (fun s hs => acts_clr j hs) (fun s hs => answered_called hs) (h2 i hi)
  rw [← e]
  exact h

/-- C51 for `(m)` targets. -/
theorem entry_intact_multi {j : Job} {main : Str} {spec body : Prog} (x : Bool) (hj : JobOk j main) (hs : SpecOk spec)
    (hm : FunAt spec main body) (h1 : ∀ i ∈ body, ∀ s ∈ stubs, i.sym ≠ some s)
    (h2 : ∀ i ∈ body, ∀ s, i.ref = some s → s ∈ stubs → s ∈ called) :
    FunAt (buildMulti j x spec) main (body.map (withAnswers (answeredMulti j x))) := by
  rw [buildMulti_run]
  have h := run_keeps (multiActs j x) hs.firstOk (multi_good hj x).ok hm
    (fun a ha i hi => h1 i hi a.stub ((multi_good hj x).ok a ha).1) (multi_good hj x).avoids
  have e : body.map (substs (multiActs j x)) = body.map (withAnswers (answeredMulti j x)) := by
    apply List.map_congr_left
    intro i hi
    exact substs_answers (multi_good hj x).ok (fun s hs => multi_clr j x hs) (fun s hs => answeredMulti_called hs) (h2 i hi)
  rw [← e]
  exact h

/-! ### The code of the filters -/

theorem substs_id {as : List Act} (hok : ∀ a ∈ as, a.Ok) {i : Insn} (h : ∀ s ∈ stubs, i.ref ≠ some s) : substs as i = i := by
  cases hr : i.ref with
  | none => exact substs_plain as i hr
  | some s =>
    rw [substs_ref as i s hr, firstClr_stub hok (fun hs => h s hs hr)]

/-- `c` up to the symbol and the reference of its first instruction, which are those of the stub. -/
def SameCode (b c : Prog) : Prop := b.tail = c.tail ∧ b.map Insn.op = c.map Insn.op

theorem sameCode_withMeta (f : Insn) (c : Prog) : SameCode (withMeta f c) c := by
  cases c <;> simp [SameCode, withMeta]

/-- Code put at `s` by a run that deals with `s` only there. -/
theorem run_code {main : Str} {A B : List Act} {p : Prog} {s : Str} {c : Prog} (hf : FirstOk p) (hA : Good main A)
    (hB : Good main B) (hs : s ∈ stubs) (hp : Has p s) (hk : ∀ a ∈ A, ∀ f, a ≠ .clr f s)
    (hBs : ∀ b ∈ B, b.stub ≠ s) (hc : c ≠ [])
    (hc1 : ∀ i ∈ c, (∀ x ∈ stubs, i.sym ≠ some x) ∧ (i.sym.isSome → ∀ s ∈ stubs, i.ref ≠ some s))
    (hc2 : ∀ i ∈ c, ∀ b ∈ B, ∀ f, ∀ x, b = .clr f x → i.ref ≠ some x) :
    ∃ b, SameCode b c ∧ FunAt (run (A ++ .inj s c :: B) p) s b := by
  rw [run_append]
  obtain ⟨first, h1, h2, h3⟩ := inject_at (run_has A hf hA.ok hp hk) hc
  have hfo := run_firstOk A hf hA.ok
  have hok : (Act.inj s c).Ok := ⟨hs, hc, hc1⟩
  have hf2 : FirstOk (inject (run A p) s c) := step_firstOk (a := .inj s c) hfo hok
  have hsyms : ∀ i ∈ withMeta first c, ∀ x ∈ stubs, x ≠ s → i.sym ≠ some x := by
    intro i hi x hx hne
    rcases withMeta_mem hi with ⟨e, _⟩ | hi
    · rw [e, h2]; simpa using fun e => hne e.symm
    · exact (hc1 i hi).1 x hx
  have h4 := run_keeps B hf2 hB.ok h3 (fun a ha i hi => hsyms i hi a.stub (hB.ok a ha).1 (hBs a ha)) (by
    intro a ha
    have hco := (hB.ok a ha).2
    cases a with
    | clr => trivial
    | inj s' c' => exact fun i hi => (hco.2 i hi).1 s hs
    | pcap s' c' => exact fun i hi => (hco.2 i hi).1 s hs)
  have e : (withMeta first c).map (substs B) = withMeta first c := by
    conv => rhs; rw [← List.map_id (withMeta first c)]
    apply List.map_congr_left
    intro i hi
    rcases withMeta_mem hi with ⟨e1, e2⟩ | hi
    · refine substs_id hB.ok ?_
      rw [e2]
      exact hfo first h1 (by simp [h2])
    · show substs B i = i
      cases hr : i.ref with
      | none => exact substs_plain B i hr
      | some x =>
        rw [substs_ref B i x hr]
        have : firstClr B x = none := by
          unfold firstClr
          rw [List.findSome?_eq_none_iff]
          intro a ha
          cases a with
          | clr f y =>
            show (if y = x then some f else none) = none
            rw [if_neg]
            intro e
            subst e
            exact hc2 i hi _ ha f y rfl hr
          | inj => rfl
          | pcap => rfl
        rw [this]
  rw [e] at h4
  exact ⟨_, sameCode_withMeta first c, h4⟩

theorem exprs_of_chosen {exprs : List FExpr} {params : List Param} {e : FExpr} (h : chosen exprs params = some e) : exprs ≠ [] := by
  intro hn; rw [hn] at h; simp [chosen] at h

theorem argOut_stub (j : Job) : ∀ a ∈ argOutActs j, a.stub = sOArg := by
  unfold argOutActs
  split
  · simp
  · split <;> (intro a ha; simp only [List.mem_singleton] at ha; subst ha; rfl)

theorem fn_stub (j : Job) : ∀ a ∈ fnActs j, a.stub = sOFn := by
  unfold fnActs
  split <;> (intro a ha; simp only [List.mem_singleton] at ha; subst ha; rfl)

theorem argFilter_stub (j : Job) : ∀ a ∈ argFilterActs j, a.stub = sFilterArg := by
  unfold argFilterActs
  split <;> (intro a ha; simp only [List.mem_singleton] at ha; subst ha; rfl)

/-- C50: when an expression mentions a parameter, the first that does is what `filter_arg` computes. -/
theorem filter_arg_code {j : Job} {main : Str} {spec : Prog} {e : FExpr} (hj : JobOk j main) (hs : SpecOk spec)
    (hp : Has spec sFilterArg) (he : chosen j.exprs j.params = some e) :
    ∃ b, SameCode b (j.compile e.expr) ∧ FunAt (build j spec) sFilterArg b := by
  have hB : Good main (argOutActs j ++ fnActs j) := good_append (argOut_good hj) (fn_good hj)
  have hA : Good main (trimActs j ++ pktOutActs j ++ pktFilterActs j) :=
    good_append (good_append (trim_good j main) (pktOut_good j main)) (pktFilter_good hj)
  have h := run_code (c := j.compile e.expr) hs.firstOk hA hB (s := sFilterArg) (by decide) hp
    (keeps_append (keeps_append (trim_keeps j (fun h => absurd h (by decide)) (fun _ => exprs_of_chosen he)
      (fun h => absurd h (by decide))) (pktOut_keeps j (by decide))) (pktFilter_keeps j (by decide)))
    (by
      intro b hb
      rcases List.mem_append.mp hb with hb | hb
      · rw [argOut_stub j b hb]; decide
      · rw [fn_stub j b hb]; decide)
    (hj.compile e.expr).1 (clean_ok (hj.compile e.expr)).2
    (by
      intro i hi b hb f x hx
      have : x ∈ stubs := by have := (hB.ok b hb).1; rw [hx] at this; exact this
      exact clean_nocalls (hj.compile e.expr) i hi x this)
  rw [build_run]
  unfold acts argFilterActs
  rw [he]
  simpa [List.append_assoc] using h

/-- The same for the entry program of `(m)` targets. -/
theorem filter_arg_code_multi {j : Job} {main : Str} {spec : Prog} {e : FExpr} (hj : JobOk j main) (hs : SpecOk spec)
    (hp : Has spec sFilterArg) (he : chosen j.exprs j.params = some e) :
    ∃ b, SameCode b (j.compile e.expr) ∧ FunAt (buildMulti j false spec) sFilterArg b := by
  have hB : Good main (argOutActs j ++ fnActs j) := good_append (argOut_good hj) (fn_good hj)
  have hA : Good main (pktOutActs j ++ pktFilterActs j) := good_append (pktOut_good j main) (pktFilter_good hj)
  have h := run_code (c := j.compile e.expr) hs.firstOk hA hB (s := sFilterArg) (by decide) hp
    (keeps_append (pktOut_keeps j (by decide)) (pktFilter_keeps j (by decide)))
    (by
      intro b hb
      rcases List.mem_append.mp hb with hb | hb
      · rw [argOut_stub j b hb]; decide
      · rw [fn_stub j b hb]; decide)
    (hj.compile e.expr).1 (clean_ok (hj.compile e.expr)).2
    (by
      intro i hi b hb f x hx
      have : x ∈ stubs := by have := (hB.ok b hb).1; rw [hx] at this; exact this
      exact clean_nocalls (hj.compile e.expr) i hi x this)
  rw [buildMulti_run]
  unfold multiActs argFilterActs
  rw [he]
  simpa [List.append_assoc] using h

/-- The function that takes packets of each kind. -/
def takes : PKind → Str
  | .skb => sFSkb
  | .xdp => sFXdp
  | .xdpFrame => sFXdpF

theorem rest_stub {j : Job} {b : Act} (hb : b ∈ argFilterActs j ++ argOutActs j ++ fnActs j) :
    b.stub = sFilterArg ∨ b.stub = sOArg ∨ b.stub = sOFn := by
  simp only [List.mem_append] at hb
  rcases hb with (hb | hb) | hb
  · exact Or.inl (argFilter_stub j b hb)
  · exact Or.inr (Or.inl (argOut_stub j b hb))
  · exact Or.inr (Or.inr (fn_stub j b hb))

/-- C50: with `--filter-pkt` and a packet among the parameters, `filter_pkt` loads the first packet parameter and calls
the function for its kind. -/
theorem filter_pkt_code {j : Job} {main : Str} {spec : Prog} {i : Nat} {k : PKind} (hj : JobOk j main) (hs : SpecOk spec)
    (hp : Has spec sFPkt) (hg : j.pktGiven = true) (hk : packetParam j.params = some (i, k)) :
    ∃ b, SameCode b [⟨none, none, .loadArg i⟩, ⟨none, some (takes k), .call⟩, ⟨none, none, .exit⟩] ∧
      FunAt (build j spec) sFPkt b := by
  have hB : Good main (argFilterActs j ++ argOutActs j ++ fnActs j) :=
    good_append (good_append (argFilter_good hj) (argOut_good hj)) (fn_good hj)
  have hA0 : Good main (trimActs j ++ pktOutActs j) := good_append (trim_good j main) (pktOut_good j main)
  have hkeep0 : ∀ y ∈ trimActs j ++ pktOutActs j, ∀ f, y ≠ .clr f sFPkt :=
    keeps_append (trim_keeps j (fun _ => hg) (fun h => absurd h (by decide)) (fun h => absurd h (by decide)))
      (pktOut_keeps j (by decide))
  have key : ∀ (G : List Act), Good main G → (∀ y ∈ G, ∀ f, y ≠ .clr f sFPkt) →
      pktFilterActs j = G ++ [.inj sFPkt (callStub i (takes k))] →
      ∃ b, SameCode b (callStub i (takes k)) ∧ FunAt (build j spec) sFPkt b := by
    intro G hG hGk hE
    have h := run_code (c := callStub i (takes k)) hs.firstOk (good_append hA0 hG) hB (s := sFPkt) (by decide) hp
      (keeps_append hkeep0 hGk)
      (by
        intro b hb
        rcases rest_stub hb with e | e | e <;> rw [e] <;> decide)
      (callStub_ok i _).1 (callStub_ok i _).2
      (by
        intro n hn b hb f x hx
        have hst : x = sFilterArg ∨ x = sOArg ∨ x = sOFn := by
          have := rest_stub hb; rw [hx] at this; exact this
        have hns : takes k ≠ sFilterArg ∧ takes k ≠ sOArg ∧ takes k ≠ sOFn := by cases k <;> decide
        simp only [callStub, List.mem_cons, List.not_mem_nil, or_false] at hn
        rcases hn with rfl | rfl | rfl
        · simp
        · simp only [ne_eq, Option.some.injEq]
          rcases hst with rfl | rfl | rfl
          · exact hns.1
          · exact hns.2.1
          · exact hns.2.2
        · simp)
    rw [build_run]
    unfold acts
    rw [hE]
    simpa [List.append_assoc] using h
  cases k with
  | skb =>
    refine key ([.pcap sL2 (j.pcap sL2), .pcap sL3 (j.pcap sL3)] ++ clrs true [sL2s, sL3s, sFXdp, sFXdpF]) ?_ ?_ ?_
    · exact good_append (good_append (a := [_]) (good_pcap (by decide) (hj.pcap _)) (good_pcap (by decide) (hj.pcap _)))
        (good_clrs (by decide))
    · exact keeps_append (keeps_append (a := [_]) pcaps_keeps pcaps_keeps) (clrs_keeps (by decide))
    · unfold pktFilterActs; simp only [hg, hk, takes, Bool.not_true, Bool.false_eq_true, if_false]
  | xdp =>
    refine key ([.pcap sL2 (j.pcap sL2)] ++ clrs true [sL2s, sL3s, sFSkb, sFXdpF, sL3]) ?_ ?_ ?_
    · exact good_append (good_pcap (by decide) (hj.pcap _)) (good_clrs (by decide))
    · exact keeps_append pcaps_keeps (clrs_keeps (by decide))
    · unfold pktFilterActs; simp only [hg, hk, takes, Bool.not_true, Bool.false_eq_true, if_false]
  | xdpFrame =>
    refine key ([.pcap sL2 (j.pcap sL2)] ++ clrs true [sL2s, sL3s, sFSkb, sFXdp, sL3]) ?_ ?_ ?_
    · exact good_append (good_pcap (by decide) (hj.pcap _)) (good_clrs (by decide))
    · exact keeps_append pcaps_keeps (clrs_keeps (by decide))
    · unfold pktFilterActs; simp only [hg, hk, takes, Bool.not_true, Bool.false_eq_true, if_false]

/-- Part of a run that keeps a function whose code calls none of the functions. -/
theorem run_keeps_clean {main : Str} {as : List Act} {p : Prog} {t : Str} {body : Prog} (hf : FirstOk p) (hg : Good main as)
    (ht : FunAt p t body) (hts : t ∈ stubs) (h1 : ∀ a ∈ as, a.stub ≠ t)
    (h2 : ∀ i ∈ body, ∀ s ∈ stubs, s ≠ t → i.sym ≠ some s)
    (h3 : ∀ i ∈ body, ∀ s, i.ref = some s → firstClr as s = none) : FunAt (run as p) t body := by
  have h := run_keeps as hf hg.ok ht (fun a ha i hi => h2 i hi a.stub (hg.ok a ha).1 (h1 a ha)) (by
    intro a ha
    have hco := (hg.ok a ha).2
    cases a with
    | clr => trivial
    | inj s' c' => exact fun i hi => (hco.2 i hi).1 t hts
    | pcap s' c' => exact fun i hi => (hco.2 i hi).1 t hts)
  have e : body.map (substs as) = body := by
    conv => rhs; rw [← List.map_id body]
    apply List.map_congr_left
    intro i hi
    show substs as i = i
    cases hr : i.ref with
    | none => exact substs_plain as i hr
    | some s => rw [substs_ref as i s hr, h3 i hi s hr]
  rw [e] at h
  exact h

theorem clrs_stub {f : Bool} {l : List Str} {t : Str} (h : t ∉ l) : ∀ a ∈ clrs f l, a.stub ≠ t := by
  intro a ha e
  obtain ⟨s, hs, rfl⟩ := clrs_mem ha
  exact h (by rw [← e]; exact hs)

theorem stub_append {a b : List Act} {t : Str} (ha : ∀ x ∈ a, x.stub ≠ t) (hb : ∀ x ∈ b, x.stub ≠ t) :
    ∀ x ∈ a ++ b, x.stub ≠ t := fun x hx => (List.mem_append.mp hx).elim (ha x) (hb x)

theorem trim_stub (j : Job) (hg : j.pktGiven = true) : ∀ a ∈ trimActs j, a.stub = sFilterArg ∨ a.stub = sOArg := by
  unfold trimActs
  rw [hg]
  intro a ha
  simp only [if_true, List.nil_append, List.mem_append] at ha
  rcases ha with ha | ha
  · split at ha
    · simp at ha
    · simp only [List.mem_singleton] at ha; subst ha; exact Or.inl rfl
  · split at ha
    · simp at ha
    · simp only [List.mem_singleton] at ha; subst ha; exact Or.inr rfl

theorem pktOut_stub (j : Job) : ∀ a ∈ pktOutActs j, a.stub ∈ pktOutputNames := by
  have hc : ∀ (f : Bool) (l : List Str), (∀ s ∈ l, s ∈ pktOutputNames) → ∀ a ∈ clrs f l, a.stub ∈ pktOutputNames := by
    intro f l hl a ha
    obtain ⟨s, hs, rfl⟩ := clrs_mem ha
    exact hl s hs
  have hi : ∀ (c : Prog), ∀ a ∈ [Act.inj sOPkt c], a.stub ∈ pktOutputNames := by
    intro c a ha; simp only [List.mem_singleton] at ha; subst ha; show sOPkt ∈ pktOutputNames; decide
  unfold pktOutActs
  split
  · exact hc _ _ (by decide)
  · split
    · exact fun a ha => (List.mem_append.mp ha).elim (hc _ _ (by decide) a) (hi _ a)
    · exact fun a ha => (List.mem_append.mp ha).elim (hc _ _ (by decide) a) (hi _ a)
    · exact fun a ha => (List.mem_append.mp ha).elim (hc _ _ (by decide) a) (hi _ a)
    · exact hc _ _ (by decide)

/-- Names no step before or after the packet filter deals with. -/
theorem before_stub (j : Job) (hg : j.pktGiven = true) {t : Str} (ht : t ∈ pktFilterNames) :
    ∀ a ∈ trimActs j ++ pktOutActs j, a.stub ≠ t := by
  intro a ha e
  have h : ∀ t ∈ pktFilterNames, t ≠ sFilterArg ∧ t ≠ sOArg ∧ t ∉ pktOutputNames := by decide
  obtain ⟨h1, h2, h3⟩ := h t ht
  rcases List.mem_append.mp ha with ha | ha
  · rcases trim_stub j hg a ha with e' | e'
    · exact h1 (by rw [← e, e'])
    · exact h2 (by rw [← e, e'])
  · exact h3 (by rw [← e]; exact pktOut_stub j a ha)

theorem after_stub (j : Job) {t : Str} (ht : t ∈ pktFilterNames) : ∀ a ∈ argFilterActs j ++ argOutActs j ++ fnActs j, a.stub ≠ t := by
  intro a ha e
  have h : ∀ t ∈ pktFilterNames, t ≠ sFilterArg ∧ t ≠ sOArg ∧ t ≠ sOFn := by decide
  obtain ⟨h1, h2, h3⟩ := h t ht
  rcases rest_stub ha with e' | e' | e'
  · exact h1 (by rw [← e, e'])
  · exact h2 (by rw [← e, e'])
  · exact h3 (by rw [← e, e'])

/-- What answers in a step list of clean steps cannot concern names not cleared. -/
theorem firstClr_none {as : List Act} {s : Str} (h : ∀ a ∈ as, a.stub ≠ s) : firstClr as s = none := by
  unfold firstClr
  rw [List.findSome?_eq_none_iff]
  intro a ha
  cases a with
  | clr f x =>
    show (if x = s then some f else none) = none
    exact if_neg (h _ ha)
  | inj => rfl
  | pcap => rfl

/-- C50: with `--filter-pkt` and a packet among the parameters, the compiled packet filter runs in front of the body of
`filter_pcap_l2`. -/
theorem filter_l2_code {j : Job} {main : Str} {spec body : Prog} {first : Insn} {i : Nat} {k : PKind} (hj : JobOk j main)
    (hs : SpecOk spec) (hg : j.pktGiven = true) (hk : packetParam j.params = some (i, k))
    (hp : FunAt spec sL2 (first :: body)) (hb : ∀ n ∈ body, ∀ s ∈ stubs, n.sym ≠ some s ∧ n.ref ≠ some s) :
    ∃ b, SameCode b (j.pcap sL2) ∧ FunAt (build j spec) sL2 (b ++ ⟨none, none, first.op⟩ :: body) := by
  have hA0 : Good main (trimActs j ++ pktOutActs j) := good_append (trim_good j main) (pktOut_good j main)
  have hB : Good main (argFilterActs j ++ argOutActs j ++ fnActs j) :=
    good_append (good_append (argFilter_good hj) (argOut_good hj)) (fn_good hj)
  have hfirst : first.sym = some sL2 ∧ first ∈ spec := by
    obtain ⟨_, _, f, tl, e, e2, hf, _⟩ := hp
    simp only [List.cons.injEq] at e
    obtain ⟨rfl, rfl⟩ := e
    exact ⟨hf, by rw [e2]; simp⟩
  have hfref : ∀ s ∈ stubs, first.ref ≠ some s := hs.firstOk first hfirst.2 (by simp [hfirst.1])
  have hsym : ∀ n ∈ first :: body, ∀ s ∈ stubs, s ≠ sL2 → n.sym ≠ some s := by
    intro n hn s hst hne
    rcases List.mem_cons.mp hn with rfl | hn
    · rw [hfirst.1]; simpa using fun e => hne e.symm
    · exact (hb n hn s hst).1
  have href : ∀ as : List Act, (∀ a ∈ as, a.Ok) → ∀ n ∈ first :: body, ∀ s, n.ref = some s → firstClr as s = none := by
    intro as hok n hn s hr
    refine firstClr_stub hok (fun hst => ?_)
    rcases List.mem_cons.mp hn with rfl | hn
    · exact hfref s hst hr
    · exact (hb n hn s hst).2 hr
  have h0 : FunAt (run (trimActs j ++ pktOutActs j) spec) sL2 (first :: body) :=
    run_keeps_clean hs.firstOk hA0 hp (by decide) (before_stub j hg (by decide)) hsym (href _ hA0.ok)
  have f0 := run_firstOk _ hs.firstOk hA0.ok
  have h1 := pcap_at (c := j.pcap sL2) h0 (hj.pcap sL2).1
  have hcl := hj.pcap sL2
  have f1 : FirstOk (pcapAt (j.pcap sL2) sL2 (run (trimActs j ++ pktOutActs j) spec)) :=
    step_firstOk (a := .pcap sL2 (j.pcap sL2)) f0 ⟨by show sL2 ∈ stubs; decide, clean_ok hcl⟩
  have key : ∀ G : List Act, Good main G → (∀ a ∈ G, a.stub ≠ sL2) → pktFilterActs j = .pcap sL2 (j.pcap sL2) :: G →
      ∃ b, SameCode b (j.pcap sL2) ∧ FunAt (build j spec) sL2 (b ++ ⟨none, none, first.op⟩ :: body) := by
    intro G hG hGs hE
    refine ⟨withMeta first (j.pcap sL2), sameCode_withMeta _ _, ?_⟩
    have hGB := good_append hG hB
    have h2 := run_keeps_clean f1 hGB h1 (by decide) (stub_append hGs (after_stub j (by decide)))
      (by
        intro n hn s hst hne
        simp only [List.mem_append, List.mem_cons] at hn
        rcases hn with hn | rfl | hn
        · rcases withMeta_mem hn with ⟨e, _⟩ | hn
          · rw [e, hfirst.1]; simpa using fun e => hne e.symm
          · exact ((hcl.2 n hn).2 s hst).1
        · simp
        · exact (hb n hn s hst).1)
      (by
        intro n hn s hr
        refine firstClr_stub hGB.ok (fun hst => ?_)
        simp only [List.mem_append, List.mem_cons] at hn
        rcases hn with hn | rfl | hn
        · rcases withMeta_mem hn with ⟨_, e⟩ | hn
          · rw [e] at hr; exact hfref s hst hr
          · exact ((hcl.2 n hn).2 s hst).2 hr
        · cases hr
        · exact (hb n hn s hst).2 hr)
    rw [build_run]
    unfold acts
    rw [hE]
    have e : trimActs j ++ pktOutActs j ++ Act.pcap sL2 (j.pcap sL2) :: G ++ argFilterActs j ++ argOutActs j ++ fnActs j =
        (trimActs j ++ pktOutActs j) ++ ([.pcap sL2 (j.pcap sL2)] ++ (G ++ (argFilterActs j ++ argOutActs j ++ fnActs j))) := by
      simp [List.append_assoc]
    rw [e, run_append, run_append, run_one]
    exact h2
  have hcall : ∀ x, ∀ a ∈ [Act.inj sFPkt (callStub i x)], a.stub ≠ sL2 := by
    intro x a ha; simp only [List.mem_singleton] at ha; subst ha; show sFPkt ≠ sL2; decide
  cases k with
  | skb =>
    refine key ([.pcap sL3 (j.pcap sL3)] ++ clrs true [sL2s, sL3s, sFXdp, sFXdpF] ++ [.inj sFPkt (callStub i sFSkb)]) ?_ ?_ ?_
    · exact good_append (good_append (good_pcap (by decide) (hj.pcap _)) (good_clrs (by decide))) (good_call (by decide))
    · refine stub_append (stub_append ?_ (clrs_stub (by decide))) (hcall _)
      intro a ha; simp only [List.mem_singleton] at ha; subst ha; show sL3 ≠ sL2; decide
    · unfold pktFilterActs; simp only [hg, hk, Bool.not_true, Bool.false_eq_true, if_false]; rfl
  | xdp =>
    refine key (clrs true [sL2s, sL3s, sFSkb, sFXdpF, sL3] ++ [.inj sFPkt (callStub i sFXdp)]) ?_ ?_ ?_
    · exact good_append (good_clrs (by decide)) (good_call (by decide))
    · exact stub_append (clrs_stub (by decide)) (hcall _)
    · unfold pktFilterActs; simp only [hg, hk, Bool.not_true, Bool.false_eq_true, if_false]; rfl
  | xdpFrame =>
    refine key (clrs true [sL2s, sL3s, sFSkb, sFXdp, sL3] ++ [.inj sFPkt (callStub i sFXdpF)]) ?_ ?_ ?_
    · exact good_append (good_clrs (by decide)) (good_call (by decide))
    · exact stub_append (clrs_stub (by decide)) (hcall _)
    · unfold pktFilterActs; simp only [hg, hk, Bool.not_true, Bool.false_eq_true, if_false]; rfl

/-- C50: and the function for the kind of packet stays as compiled, if it calls only what it calls in the C source. -/
theorem filter_kind_code {j : Job} {main : Str} {spec body : Prog} {i : Nat} {k : PKind} (hj : JobOk j main) (hs : SpecOk spec)
    (hg : j.pktGiven = true) (hk : packetParam j.params = some (i, k)) (hp : FunAt spec (takes k) body)
    (hb1 : ∀ n ∈ body, ∀ s ∈ stubs, s ≠ takes k → n.sym ≠ some s)
    (hb2 : ∀ n ∈ body, ∀ s ∈ stubs, n.ref = some s → s = sL2 ∨ (k = .skb ∧ s = sL3)) :
    FunAt (build j spec) (takes k) body := by
  have hgood := acts_good hj
  rw [build_run]
  have hA0 : Good main (trimActs j ++ pktOutActs j) := good_append (trim_good j main) (pktOut_good j main)
  have hB : Good main (argFilterActs j ++ argOutActs j ++ fnActs j) :=
    good_append (good_append (argFilter_good hj) (argOut_good hj)) (fn_good hj)
  have htk : takes k ∈ pktFilterNames := by cases k <;> decide
  have htk2 : takes k ∈ stubs := by cases k <;> decide
  have e : acts j = (trimActs j ++ pktOutActs j) ++ (pktFilterActs j ++ (argFilterActs j ++ argOutActs j ++ fnActs j)) := by
    unfold acts; simp [List.append_assoc]
  have hmid : (∀ a ∈ pktFilterActs j, a.stub ≠ takes k) ∧ firstClr (pktFilterActs j) sL2 = none ∧
      (k = .skb → firstClr (pktFilterActs j) sL3 = none) := by
    have hcall : ∀ x t, t ≠ sFPkt → ∀ a ∈ [Act.inj sFPkt (callStub i x)], a.stub ≠ t := by
      intro x t ht a ha; simp only [List.mem_singleton] at ha; subst ha; exact fun e => ht e.symm
    have hpc : ∀ s t, t ≠ s → ∀ a ∈ [Act.pcap s (j.pcap s)], a.stub ≠ t := by
      intro s t ht a ha; simp only [List.mem_singleton] at ha; subst ha; exact fun e => ht e.symm
    unfold pktFilterActs
    simp only [hg, hk, Bool.not_true, Bool.false_eq_true, if_false]
    cases k with
    | skb =>
      refine ⟨?_, ?_, fun _ => ?_⟩
      · exact stub_append (stub_append (stub_append (a := [_]) (hpc _ _ (by decide)) (hpc _ _ (by decide))) (clrs_stub (by decide)))
          (hcall _ _ (by decide))
      · simp only [firstClr_append, firstClr_clrs, firstClr_inj, firstClr_pcap, firstClr_nil]; decide
      · simp only [firstClr_append, firstClr_clrs, firstClr_inj, firstClr_pcap, firstClr_nil]; decide
    | xdp =>
      refine ⟨?_, ?_, fun h => by cases h⟩
      · exact stub_append (stub_append (hpc _ _ (by decide)) (clrs_stub (by decide))) (hcall _ _ (by decide))
      · simp only [firstClr_append, firstClr_clrs, firstClr_inj, firstClr_pcap, firstClr_nil]; decide
    | xdpFrame =>
      refine ⟨?_, ?_, fun h => by cases h⟩
      · exact stub_append (stub_append (hpc _ _ (by decide)) (clrs_stub (by decide))) (hcall _ _ (by decide))
      · simp only [firstClr_append, firstClr_clrs, firstClr_inj, firstClr_pcap, firstClr_nil]; decide
  have hL : ∀ s, s = sL2 ∨ s = sL3 → firstClr (trimActs j ++ pktOutActs j) s = none ∧
      firstClr (argFilterActs j ++ argOutActs j ++ fnActs j) s = none := by
    intro s hs
    have : s ∈ pktFilterNames := by rcases hs with rfl | rfl <;> decide
    exact ⟨firstClr_none (before_stub j hg this), firstClr_none (after_stub j this)⟩
  refine run_keeps_clean hs.firstOk hgood hp htk2 ?_ hb1 ?_
  · rw [e]
    exact stub_append (before_stub j hg htk) (stub_append hmid.1 (after_stub j htk))
  · intro n hn s hr
    by_cases hst : s ∈ stubs
    · rw [e, firstClr_append (trimActs j ++ pktOutActs j), firstClr_append (pktFilterActs j)]
      rcases hb2 n hn s hst hr with rfl | ⟨rfl, rfl⟩
      · rw [(hL sL2 (Or.inl rfl)).1, (hL sL2 (Or.inl rfl)).2, hmid.2.1]; rfl
      · rw [(hL sL3 (Or.inr rfl)).1, (hL sL3 (Or.inr rfl)).2, hmid.2.2 rfl]; rfl
    · exact firstClr_stub hgood.ok hst

/-! ### What is chosen -/

/-- The first packet parameter. -/
theorem packetParam_iff {ps : List Param} {i : Nat} {k : PKind} : packetParam ps = some (i, k) ↔
    ∃ p, ps[i]? = some p ∧ p.target.bind kindOf = some k ∧ ∀ m, m < i → ∀ q, ps[m]? = some q → q.target.bind kindOf = none := by
  induction ps generalizing i with
  | nil => simp [packetParam]
  | cons a r ih =>
    unfold packetParam
    cases ha : a.target.bind kindOf with
    | some k' =>
      simp only [Option.some.injEq, Prod.mk.injEq]
      constructor
      · rintro ⟨rfl, rfl⟩
        exact ⟨a, rfl, ha, fun m hm => by omega⟩
      · rintro ⟨p, h1, h2, h3⟩
        cases i with
        | zero =>
          simp only [List.getElem?_cons_zero, Option.some.injEq] at h1
          subst h1
          rw [ha] at h2
          exact ⟨rfl, Option.some.inj h2⟩
        | succ n =>
          have := h3 0 (by omega) a rfl
          rw [ha] at this
          cases this
    | none =>
      simp only [Option.map_eq_some_iff, Prod.exists, Prod.mk.injEq]
      constructor
      · rintro ⟨i', k', h1, rfl, rfl⟩
        obtain ⟨p, h2, h3, h4⟩ := ih.mp h1
        refine ⟨p, h2, h3, ?_⟩
        intro m hm q hq
        cases m with
        | zero =>
          simp only [List.getElem?_cons_zero, Option.some.injEq] at hq
          subst hq
          exact ha
        | succ m => exact h4 m (by omega) q hq
      · rintro ⟨p, h1, h2, h3⟩
        cases i with
        | zero =>
          simp only [List.getElem?_cons_zero, Option.some.injEq] at h1
          subst h1
          rw [ha] at h2
          cases h2
        | succ n =>
          exact ⟨n, k, ih.mpr ⟨p, h1, h2, fun m hm q hq => h3 (m + 1) (by omega) q hq⟩, rfl, rfl⟩

/-- The chosen expression is the first given that mentions a parameter of the function. -/
theorem chosen_iff {exprs : List FExpr} {ps : List Param} {e : FExpr} : chosen exprs ps = some e ↔
    ∃ pre post, exprs = pre ++ e :: post ∧ (∃ p ∈ ps, p.name ∈ e.vars) ∧ ∀ e' ∈ pre, ∀ p ∈ ps, p.name ∉ e'.vars := by
  unfold chosen
  rw [List.find?_eq_some_iff_append]
  constructor
  · rintro ⟨h, pre, post, rfl, h2⟩
    refine ⟨pre, post, rfl, ?_, ?_⟩
    · simpa [FExpr.mentions, List.any_eq_true] using h
    · intro e' he' p hp hv
      have := h2 e' he'
      simp only [FExpr.mentions, Bool.not_eq_true', List.any_eq_false] at this
      exact this p hp (by simpa using hv)
  · rintro ⟨pre, post, rfl, ⟨p, hp, hv⟩, h2⟩
    refine ⟨?_, pre, post, rfl, ?_⟩
    · simp only [FExpr.mentions, List.any_eq_true]
      exact ⟨p, hp, by simpa using hv⟩
    · intro e' he'
      simp only [FExpr.mentions, Bool.not_eq_true', List.any_eq_false]
      intro p hp
      simpa using h2 e' he' p hp

theorem chosen_none_iff {exprs : List FExpr} {ps : List Param} : chosen exprs ps = none ↔
    ∀ e ∈ exprs, ∀ p ∈ ps, p.name ∉ e.vars := by
  unfold chosen
  rw [List.find?_eq_none]
  constructor
  · intro h e he p hp hv
    exact h e he (by simp only [FExpr.mentions, List.any_eq_true]; exact ⟨p, hp, by simpa using hv⟩)
  · intro h e he hm
    simp only [FExpr.mentions, List.any_eq_true] at hm
    obtain ⟨p, hp, hv⟩ := hm
    exact h e he p hp (by simpa using hv)

/-- C50: outside sessions an event is emitted exactly if bpfsnoop is ready, the process is not bpfsnoop itself, it is the
process asked for (if any), and both filters accept. -/
theorem emits_iff (ready : Bool) (self filterPid pid : BitVec 32) (a k : Bool) :
    emits ready self filterPid pid a k = true ↔
      ready = true ∧ pid ≠ self ∧ (filterPid = 0#32 ∨ pid = filterPid) ∧ a = true ∧ k = true := by
  unfold emits pidOk
  by_cases h1 : pid = self <;> by_cases h2 : filterPid = 0#32 <;> by_cases h3 : pid = filterPid <;> cases ready <;> cases a <;>
    cases k <;> simp_all

/-! ### `(m)` -/

/-- C50, violated for `(m)` targets: without `--filter-pkt` the entry still calls `filter_pkt`, unlike everywhere else. -/
theorem multi_keeps_default_filter_violated (j : Job) (h : j.pktGiven = false) :
    answeredMulti j false sFPkt = none ∧ answered j sFPkt = some true := by
  have e1 : ¬ sFPkt = sFilterArg := by decide
  constructor
  · simp [answeredMulti, e1, h]
  · simp [answered, e1, h]

/-- And the C source of `filter_pkt` takes the first argument for an `sk_buff`: when nothing can be read there (and no
tunnel is skipped), the call is not traced. -/
theorem default_filter_rejects (l : SkbLayout) (m : Cc.Mem) (skb : BitVec 64) (h : ∀ a, m a = none) :
    defaultFilterSkb l (fun _ d => d) m skb = false := by
  have hf : ∀ n a, field m n a = 0#64 := by
    intro n a
    unfold field
    have : Arg.probeBytes m n a = List.replicate n 0#8 := by
      unfold Arg.probeBytes
      cases n with
      | zero => rfl
      | succ n => simp [Arg.readN, h]
    rw [this]
    have : ∀ n, Arg.leVal (List.replicate n 0#8) = 0 := by
      intro n
      induction n with
      | zero => rfl
      | succ n ih => simp [List.replicate_succ, Arg.leVal, ih]
    rw [this]
  unfold defaultFilterSkb
  simp [hf]

/-- C51, violated without the assumption on first instructions: removing a function also removes the name of a function
that begins with a call of it. -/
theorem clear_drops_name_violated : ∃ p : Prog, Closed p ∧ ¬ Closed (clear false p sOFn) := by
  refine ⟨[⟨some sFSkb, some sOFn, .call⟩, ⟨none, none, .exit⟩, ⟨some sOFn, none, .other 0⟩, ⟨some sFPkt, none, .other 1⟩,
    ⟨none, some sFSkb, .call⟩], ?_, ?_⟩
  · intro i hi s hs hr
    simp only [List.mem_cons, List.not_mem_nil, or_false] at hi
    rcases hi with rfl | rfl | rfl | rfl | rfl
    · simp only [Option.some.injEq] at hr; subst hr; exact ⟨⟨some sOFn, none, .other 0⟩, by simp, rfl⟩
    · cases hr
    · cases hr
    · cases hr
    · simp only [Option.some.injEq] at hr; subst hr; exact ⟨_, List.mem_cons_self, rfl⟩
  · intro h
    have e : clear false [⟨some sFSkb, some sOFn, .call⟩, ⟨none, none, .exit⟩, ⟨some sOFn, none, .other 0⟩,
        ⟨some sFPkt, none, .other 1⟩, ⟨none, some sFSkb, .call⟩] sOFn =
        [⟨none, none, .movR0 false⟩, ⟨none, none, .exit⟩, ⟨some sFPkt, none, .other 1⟩, ⟨none, some sFSkb, .call⟩] := by
      decide +kernel
    rw [e] at h
    obtain ⟨k, hk, hk2⟩ := h ⟨none, some sFSkb, .call⟩ (by simp) sFSkb (by decide) rfl
    simp only [List.mem_cons, List.not_mem_nil, or_false] at hk
    rcases hk with rfl | rfl | rfl | rfl
    · cases hk2
    · cases hk2
    · exact absurd hk2 (by decide)
    · cases hk2

/-! ### Examples -/

/-- A program with an entry and all the functions. -/
def exSpec : Prog :=
  [⟨some "main".toList, none, .other 0⟩, ⟨none, some sFilterArg, .call⟩, ⟨none, some sFPkt, .call⟩, ⟨none, some sOArg, .call⟩,
   ⟨none, some sOPkt, .call⟩, ⟨none, some sOFn, .call⟩, ⟨none, none, .exit⟩,
   ⟨some sFilterArg, none, .other 1⟩, ⟨some sL2, none, .other 2⟩, ⟨none, none, .exit⟩, ⟨some sL3, none, .other 3⟩,
   ⟨some sFSkb, none, .other 4⟩, ⟨none, some sL2, .call⟩, ⟨none, some sL3, .call⟩,
   ⟨some sFXdp, none, .other 5⟩, ⟨none, some sL2, .call⟩, ⟨some sFXdpF, none, .other 6⟩, ⟨none, some sL2, .call⟩,
   ⟨some sFPkt, none, .other 7⟩, ⟨none, some sFSkb, .call⟩, ⟨none, some sFXdp, .call⟩, ⟨none, some sFXdpF, .call⟩,
   ⟨some sOPkt, none, .other 8⟩, ⟨none, some sOSkb, .call⟩, ⟨none, some sOXdp, .call⟩, ⟨none, some sOXdpF, .call⟩,
   ⟨some sOSkb, none, .other 9⟩, ⟨some sOXdp, none, .other 10⟩, ⟨some sOXdpF, none, .other 11⟩, ⟨some sOArg, none, .other 12⟩,
   ⟨some sOFn, none, .other 13⟩, ⟨none, none, .exit⟩]

/-- `--filter-arg 'skb->len > 5' --filter-pkt ..` for a function of an `sk_buff`. -/
def exJob : Job :=
  { pktGiven := true, exprs := [⟨"x".toList, ["dev".toList]⟩, ⟨"skb->len > 5".toList, ["skb".toList]⟩], outGiven := false, pkt := false,
    params := [⟨"n".toList, none⟩, ⟨"skb".toList, some "sk_buff".toList⟩],
    pcap := fun _ => [⟨none, none, .other 20⟩, ⟨some "L".toList, none, .exit⟩],
    compile := fun _ => [⟨none, none, .other 30⟩, ⟨some "__return".toList, none, .exit⟩], outArg := none,
    fnArgs := some [⟨none, none, .other 40⟩, ⟨none, none, .exit⟩] }

theorem exSpec_ok : SpecOk exSpec := by
  refine ⟨?_, ?_, ?_⟩
  · unfold Closed; decide +kernel
  · unfold FirstOk; decide +kernel
  · unfold Has; decide +kernel

theorem exJob_ok : JobOk exJob "main".toList := by
  refine ⟨fun _ => ?_, fun _ => ?_, ?_, ?_⟩
  · unfold Clean exJob; simp only []; decide +kernel
  · unfold Clean exJob; simp only []; decide +kernel
  · intro c hc; simp [exJob] at hc
  · intro c hc
    simp only [exJob, Option.some.injEq] at hc
    subst hc
    unfold Clean; decide +kernel

example : chosen exJob.exprs exJob.params = some ⟨"skb->len > 5".toList, ["skb".toList]⟩ ∧
    packetParam exJob.params = some (1, .skb) := by decide +kernel

example : build exJob exSpec =
  [⟨some "main".toList, none, .other 0⟩, ⟨none, some sFilterArg, .call⟩, ⟨none, some sFPkt, .call⟩, ⟨none, none, .movR0 false⟩,
   ⟨none, none, .movR0 false⟩, ⟨none, some sOFn, .call⟩, ⟨none, none, .exit⟩,
   ⟨some sFilterArg, none, .other 30⟩, ⟨some "__return".toList, none, .exit⟩,
   ⟨some sL2, none, .other 20⟩, ⟨some "L".toList, none, .exit⟩, ⟨none, none, .other 2⟩, ⟨none, none, .exit⟩,
   ⟨some sL3, none, .other 20⟩, ⟨some "L".toList, none, .exit⟩, ⟨none, none, .other 3⟩,
   ⟨some sFSkb, none, .other 4⟩, ⟨none, some sL2, .call⟩, ⟨none, some sL3, .call⟩,
   ⟨some sFPkt, none, .loadArg 1⟩, ⟨none, some sFSkb, .call⟩, ⟨none, none, .exit⟩,
   ⟨some sOFn, none, .other 40⟩, ⟨none, none, .exit⟩] := by decide +kernel

end Bpfsnoop.Asm
