import Verif.Model.ArgVal
import Verif.Props.ArgSel
import Verif.Props.CcViolate
import Verif.Props.CcAccept
import Verif.Props.Proto

/-
C73: a parameter name in an expression denotes the argument of that name in the traced call.

The specification: `Passed` says how a call passes its arguments (an argument of up to 8 bytes in one word, a larger one, up to 16 bytes, in
two consecutive words), `argument` what the value of an argument is, and `Cc.meaning` (Spec/CcSpec) what an expression means if the values
of the arguments are given.
-/
namespace Bpfsnoop.Av
open Cc (Expr Top Ty Btf Opts Err Prog TopRes World Mode)
open Sel (Occurs Uses)

/-- Specification: the words in which a call passes its arguments, argument by argument. -/
structure Passed (Γ : Btf) (params : List (String × Ty)) (call : List (List W)) : Prop where
  len : call.length = params.length
  words : ∀ (i : Nat) (p : String × Ty) (ws : List W), params[i]? = some p → call[i]? = some ws →
    ∃ n, Γ.sizeOf p.2 = some n ∧ ws.length = if n ≤ 8 then 1 else 2

/-- Specification: the value of argument `i`, if it is passed in one word. -/
def argument (call : List (List W)) (i : Nat) : W := (call.getD i []).headD 0

/-- Specification: the parameters up to and with number `i` have at most 8 bytes. -/
def Narrow (Γ : Btf) (params : List (String × Ty)) (i : Nat) : Prop :=
  ∀ j p n, j ≤ i → params[j]? = some p → Γ.sizeOf p.2 = some n → n ≤ 8

/-- Specification: the words are in memory from address `a` on. -/
def Stored (m : Cc.Mem) (a : BitVec 64) (nr : Nat) (args : Nat → W) : Prop :=
  ∀ i, i < nr → Cc.load m 8 (a + BitVec.ofNat 64 (i * 8)) = args i

/-! ### The meaning depends on the arguments the expression names -/

theorem name_agree {o : Opts} {w : World} {arg : Nat → W} {s : String}
    (h : ∀ i t, Cc.findVar s o.vars 0 = some (i, t) → w.arg i = arg i) :
    Cc.nameC o { w with arg := arg } s = Cc.nameC o w s := by
  unfold Cc.nameC
  split
  · rfl
  · split
    · rfl
    · cases hf : Cc.findVar s o.vars 0 with
      | none => rfl
      | some q => obtain ⟨i, t⟩ := q; simp only [h i t hf]

theorem ceval_agree {o : Opts} {w : World} {arg : Nat → W} : ∀ (e : Expr),
    (∀ s, Occurs s e → ∀ i t, Cc.findVar s o.vars 0 = some (i, t) → w.arg i = arg i) →
    Cc.ceval o { w with arg := arg } e = Cc.ceval o w e := by
  intro e
  induction e with
  | name s => intro h; simp only [Cc.ceval, name_agree (h s .name)]
  | num t => intro _; rfl
  | arrow e f ih => intro h; simp only [Cc.ceval, ih fun s hs => h s (.arrow hs)]
  | dot e f ih => intro h; simp only [Cc.ceval, ih fun s hs => h s (.dot hs)]
  | index e i ih _ =>
    intro h
    cases i <;> simp only [Cc.ceval, ih fun s hs => h s (.indexL hs)]
  | indir e ih => intro h; simp only [Cc.ceval, ih fun s hs => h s (.indir hs)]
  | addr e ih => intro h; simp only [Cc.ceval, ih fun s hs => h s (.addr hs)]
  | cast t e ih =>
    intro h
    have ih := ih fun s hs => h s (.cast hs)
    by_cases hn : ∃ text, e = .num text
    · obtain ⟨text, rfl⟩ := hn; rfl
    · have hc : ∀ w : World, Cc.ceval o w (.cast t e) = (do
        let (v, n) ← Cc.ceval o w e
        let t ← t
        let r ← Cc.castC o.Γ w.mem t v
        some (r, n)) := by
        intro w
        cases e <;> first | rfl | exact absurd ⟨_, rfl⟩ hn
      rw [hc, hc, ih]
  | un op e ih => intro h; simp only [Cc.ceval, ih fun s hs => h s (.un hs)]
  | bin op l r ihl ihr =>
    intro h
    simp only [Cc.ceval, ihl fun s hs => h s (.binL hs), ihr fun s hs => h s (.binR hs)]
  | cond c l r ihc ihl ihr =>
    intro h
    simp only [Cc.ceval, ihc fun s hs => h s (.condC hs), ihl fun s hs => h s (.condL hs), ihr fun s hs => h s (.condR hs)]
  | unsup => intro _; rfl

/-- The meaning of an expression depends on the arguments it names, and memory. -/
theorem meaning_agree {o : Opts} {w : World} {arg : Nat → W} (e : Expr)
    (h : ∀ s, Occurs s e → ∀ i t, Cc.findVar s o.vars 0 = some (i, t) → w.arg i = arg i) :
    Cc.meaning o { w with arg := arg } e = Cc.meaning o w e := by
  simp only [Cc.meaning, ceval_agree e h]

/-! ### Words and arguments -/

theorem flatten_one {α : Type} (d : α) : ∀ (l : List (List α)) (i : Nat), i < l.length → (∀ j ws, j ≤ i → l[j]? = some ws → ws.length = 1) →
    l.flatten.getD i d = (l.getD i []).headD d
  | [], i, h, _ => absurd h (Nat.not_lt_zero i)
  | ws :: r, i, h, hw => by
    have h0 := hw 0 ws (Nat.zero_le _) rfl
    obtain ⟨x, rfl⟩ := List.length_eq_one_iff.mp h0
    cases i with
    | zero => rfl
    | succ i =>
      have := flatten_one d r i (by simpa using h) fun j ws hj hg => hw (j + 1) ws (by omega) (by simpa using hg)
      simpa using this

theorem slots_len : ∀ (ps : List Bpfsnoop.Arg.PTy) (u : Bool) (fs : List Bpfsnoop.Arg.PFlag), Bpfsnoop.Arg.slotsOf u ps = some fs →
    ps.length ≤ fs.length
  | [], _, _, _ => Nat.zero_le _
  | p :: ps, u, fs, h => by
    unfold Bpfsnoop.Arg.slotsOf at h
    split at h
    · cases h
    · split at h
      · cases h
      · split at h
        all_goals
          obtain ⟨gs, hg, rfl⟩ := Option.map_eq_some_iff.mp h
          have := slots_len ps _ gs hg
          simp only [List.length_cons]
          omega

theorem argsNr_ge {Γ : Btf} {cs ns : Ty → Bool} {ret : Bpfsnoop.Arg.PTy} {params : List (String × Ty)} {nr : Nat}
    (h : argsNr Γ cs ns ret params = some nr) : params.length ≤ nr := by
  unfold argsNr Bpfsnoop.Arg.getFuncParams at h
  rw [Option.map_map] at h
  obtain ⟨fs, hf, rfl⟩ := Option.map_eq_some_iff.mp h
  have := slots_len _ _ _ hf
  simpa using this

/-- The number of words read is the number of words passed. -/
theorem words_read {Γ : Btf} {cs ns : Ty → Bool} {ret : Bpfsnoop.Arg.PTy} : ∀ {params : List (String × Ty)} {nr : Nat} {call : List (List W)},
    argsNr Γ cs ns ret params = some nr → Passed Γ params call → call.flatten.length = nr := by
  intro params nr call h hp
  unfold argsNr Bpfsnoop.Arg.getFuncParams at h
  rw [Option.map_map] at h
  obtain ⟨fs, hf, rfl⟩ := Option.map_eq_some_iff.mp h
  clear h
  generalize false = u at hf
  induction params generalizing u fs call with
  | nil =>
    have := hp.len
    obtain rfl : call = [] := List.length_eq_zero_iff.mp this
    cases hf
    rfl
  | cons p ps ih =>
    cases call with
    | nil => have := hp.len; simp at this
    | cons ws call =>
      obtain ⟨n, hn, hl⟩ := hp.words 0 p ws rfl rfl
      have hp' : Passed Γ ps call := ⟨by simpa using hp.len, fun i q vs h1 h2 => hp.words (i + 1) q vs (by simpa using h1) (by simpa using h2)⟩
      rw [List.map_cons] at hf
      unfold Bpfsnoop.Arg.slotsOf at hf
      rw [show (pty Γ cs ns p).size = some n from hn] at hf
      dsimp only at hf
      split at hf
      · cases hf
      · split at hf
        · obtain ⟨gs, hg, rfl⟩ := Option.map_eq_some_iff.mp hf
          have := ih (call := call) hp' (fs := gs) (u := _) hg
          rw [if_neg (by omega)] at hl
          simp only [List.flatten_cons, List.length_append, hl, Function.comp] at this ⊢
          simp only [List.length_cons]
          omega
        · obtain ⟨gs, hg, rfl⟩ := Option.map_eq_some_iff.mp hf
          have := ih (call := call) hp' (fs := gs) (u := _) hg
          rw [if_pos (by omega)] at hl
          simp only [List.flatten_cons, List.length_append, hl, Function.comp] at this ⊢
          simp only [List.length_cons]
          omega

theorem narrow_word {Γ : Btf} {params : List (String × Ty)} {call : List (List W)} (hp : Passed Γ params call) {i : Nat}
    (hi : i < params.length) (hn : Narrow Γ params i) : call.flatten.getD i 0 = argument call i := by
  refine flatten_one 0 call i (hp.len ▸ hi) fun j ws hj hg => ?_
  have hlt : j < params.length := by omega
  obtain ⟨n, h1, h2⟩ := hp.words j params[j] ws (List.getElem?_eq_getElem hlt) hg
  rw [h2, if_pos (hn j params[j] n hj (List.getElem?_eq_getElem hlt) h1)]

theorem findVar_lt {s : String} {params : List (String × Ty)} {i : Nat} {t : Ty} (h : Cc.findVar s params 0 = some (i, t)) :
    i < params.length := by
  obtain ⟨j, rfl, hj, -⟩ := (Cc.findVar_iff s params 0 i t).mp h
  rw [Nat.zero_add]
  exact (List.getElem?_eq_some_iff.mp hj).1

theorem flatten_first {α : Type} : ∀ (l : List (List α)) (i : Nat) (x : α) (r : List α), l[i]? = some (x :: r) →
    (∀ j ws, j < i → l[j]? = some ws → ws.length = 1) → l.flatten[i]? = some x
  | [], i, x, r, h, _ => by simp at h
  | ws :: l, 0, x, r, h, _ => by
    simp only [List.getElem?_cons_zero, Option.some.injEq] at h
    subst h
    rfl
  | ws :: l, i + 1, x, r, h, hw => by
    obtain ⟨y, rfl⟩ := List.length_eq_one_iff.mp (hw 0 ws (by omega) rfl)
    have := flatten_first l i x r (by simpa using h) fun j ws hj hg => hw (j + 1) ws (by omega) (by simpa using hg)
    simpa using this

theorem sizes_known {cs ns : Ty → Bool} {Γ : Btf} : ∀ (params : List (String × Ty)) (u : Bool) (fs : List Bpfsnoop.Arg.PFlag),
    Bpfsnoop.Arg.slotsOf u (params.map (pty Γ cs ns)) = some fs → ∀ p, p ∈ params → ∃ n, Γ.sizeOf p.2 = some n
  | [], _, _, _, p, hp => nomatch hp
  | q :: ps, u, fs, h, p, hp => by
    rw [List.map_cons] at h
    unfold Bpfsnoop.Arg.slotsOf at h
    cases hq : Γ.sizeOf q.2 with
    | none => rw [show (pty Γ cs ns q).size = none from hq] at h; cases h
    | some n =>
      rcases List.mem_cons.mp hp with rfl | hp
      · exact ⟨n, hq⟩
      · rw [show (pty Γ cs ns q).size = some n from hq] at h
        dsimp only at h
        split at h
        · cases h
        · split at h
          all_goals
            obtain ⟨gs, hg, -⟩ := Option.map_eq_some_iff.mp h
            exact sizes_known ps _ gs hg p hp

/-- The words of a call in which the first word of argument `i` is 1 and every other word is 0. -/
def probeWords (wide : Nat → Bool) (i k : Nat) : List W := if wide k then [if k = i then 1 else 0, 0] else [if k = i then 1 else 0]

theorem probe_len (wide : Nat → Bool) (i : Nat) : ∀ ks : List Nat, ks.length ≤ ((ks.map (probeWords wide i)).flatten).length ∧
    (∀ k ∈ ks, wide k = true → ks.length < ((ks.map (probeWords wide i)).flatten).length)
  | [] => ⟨Nat.le_refl _, nofun⟩
  | k :: ks => by
    obtain ⟨h1, h2⟩ := probe_len wide i ks
    have hk : (probeWords wide i k).length = if wide k then 2 else 1 := by
      unfold probeWords; split <;> rfl
    simp only [List.map_cons, List.flatten_cons, List.length_append, List.length_cons, hk]
    constructor
    · split <;> omega
    · intro j hj hw
      rcases List.mem_cons.mp hj with rfl | hj
      · rw [if_pos hw]; omega
      · have := h2 j hj hw
        split <;> omega

/-- **C73.** The first word of parameter `i` is where the program looks for it, in every call, exactly if all parameters before it have at
most 8 bytes. -/
theorem right_word_iff {Γ : Btf} {cs ns : Ty → Bool} {ret : Bpfsnoop.Arg.PTy} {params : List (String × Ty)} {nr : Nat}
    (hnr : argsNr Γ cs ns ret params = some nr) (junk : Nat → W) {i : Nat} (hi : i < params.length) :
    (∀ call, Passed Γ params call → readCtx nr call.flatten junk i = argument call i) ↔
      ∀ (j : Nat) (p : String × Ty) (n : Nat), j < i → params[j]? = some p → Γ.sizeOf p.2 = some n → n ≤ 8 := by
  have hlt : i < nr := Nat.lt_of_lt_of_le hi (argsNr_ge hnr)
  constructor
  · intro h j p n hj hp hn
    false_or_by_contra
    rename_i h8
    let wide : Nat → Bool := fun k => match params[k]? with
      | some q => match Γ.sizeOf q.2 with
        | some n => decide (8 < n)
        | none => false
      | none => false
    have hsz : ∀ p, p ∈ params → ∃ n, Γ.sizeOf p.2 = some n := by
      unfold argsNr Bpfsnoop.Arg.getFuncParams at hnr
      rw [Option.map_map] at hnr
      obtain ⟨fs, hf, -⟩ := Option.map_eq_some_iff.mp hnr
      exact sizes_known params _ fs hf
    let call := (List.range params.length).map (probeWords wide i)
    have hget : ∀ k ws, call[k]? = some ws → ws = probeWords wide i k := by
      intro k ws hk
      simp only [call, List.getElem?_map] at hk
      obtain ⟨x, hx, rfl⟩ := Option.map_eq_some_iff.mp hk
      have hx' := List.getElem?_eq_some_iff.mp hx
      obtain ⟨hx1, hx2⟩ := hx'
      rw [List.getElem_range] at hx2
      rw [hx2]
    have hpass : Passed Γ params call := by
      refine ⟨by simp [call], fun k q ws h1 h2 => ?_⟩
      obtain rfl := hget k ws h2
      obtain ⟨n, hn⟩ := hsz q (List.mem_of_getElem? h1)
      refine ⟨n, hn, ?_⟩
      have hw : wide k = decide (8 < n) := by simp only [wide, h1, hn]
      unfold probeWords
      by_cases hc : 8 < n
      · have h2 : (if n ≤ 8 then 1 else 2) = 2 := if_neg (by omega)
        rw [hw, if_pos (by simpa using hc), h2]; rfl
      · have h2 : (if n ≤ 8 then 1 else 2) = 1 := if_pos (by omega)
        rw [hw, if_neg (by simpa using hc), h2]; rfl
    have hc := h call hpass
    have harg : argument call i = 1 := by
      have : call[i]? = some (probeWords wide i i) := by
        simp only [call, List.getElem?_map, List.getElem?_range hi, Option.map_some]
      unfold argument
      rw [List.getD_eq_getElem?_getD, this]
      unfold probeWords
      simp only [if_true, Option.getD_some]
      split <;> rfl
    have hsplit : call = (List.range i).map (probeWords wide i) ++ call.drop i := by
      have : call.take i = (List.range i).map (probeWords wide i) := by
        simp only [call, ← List.map_take, List.take_range]
        rw [Nat.min_eq_left (by omega)]
      rw [← this, List.take_append_drop]
    have hwj : wide j = true := by
      have : wide j = decide (8 < n) := by simp only [wide, hp, hn]
      rw [this, decide_eq_true (by omega)]
    have hlong := (probe_len wide i (List.range i)).2 j (List.mem_range.mpr hj) hwj
    rw [List.length_range] at hlong
    have hzero : call.flatten.getD i 0 = 0 := by
      rw [hsplit, List.flatten_append, List.getD_eq_getElem?_getD, List.getElem?_append_left hlong, List.getElem?_eq_getElem hlong,
        Option.getD_some]
      have hm := List.getElem_mem hlong
      obtain ⟨ws, hws, hx⟩ := List.mem_flatten.mp hm
      obtain ⟨k, hk, rfl⟩ := List.mem_map.mp hws
      have hk := List.mem_range.mp hk
      generalize ((List.map (probeWords wide i) (List.range i)).flatten[i]) = x at hx
      unfold probeWords at hx
      have hki : ¬ k = i := by omega
      simp only [hki, if_false] at hx
      split at hx <;> simpa using hx
    rw [readCtx, if_pos hlt, hzero, harg] at hc
    exact absurd hc (by decide)
  · intro h call hp
    rw [readCtx, if_pos hlt]
    have hic : i < call.length := hp.len ▸ hi
    obtain ⟨n, -, hl⟩ := hp.words i params[i] call[i] (List.getElem?_eq_getElem hi) (List.getElem?_eq_getElem hic)
    cases hws : call[i] with
    | nil => rw [hws] at hl; split at hl <;> simp at hl
    | cons x r =>
      have hx : call[i]? = some (x :: r) := by rw [List.getElem?_eq_getElem hic, hws]
      have := flatten_first call i x r hx fun j ws hj hg => by
        have hjl : j < params.length := by omega
        obtain ⟨n, h1, h2⟩ := hp.words j params[j] ws (List.getElem?_eq_getElem hjl) hg
        rw [h2, if_pos (h j params[j] n hj (List.getElem?_eq_getElem hjl) h1)]
      unfold argument
      rw [List.getD_eq_getElem?_getD, this, List.getD_eq_getElem?_getD, hx]
      rfl

/-! ### Filters and outputs of a function traced by itself -/

theorem ctx_agree {o : Opts} {cs ns : Ty → Bool} {ret : Bpfsnoop.Arg.PTy} {nr : Nat} {call : List (List W)} {junk : Nat → W}
    {m : Cc.Mem} {a : BitVec 64} (hnr : argsNr o.Γ cs ns ret o.vars = some nr) (hp : Passed o.Γ o.vars call)
    (hs : Stored m a nr (readCtx nr call.flatten junk)) {e : Expr}
    (hn : ∀ s, Occurs s e → ∀ i t, Cc.findVar s o.vars 0 = some (i, t) → Narrow o.Γ o.vars i) :
    Cc.meaning o ⟨fun i => Cc.load m 8 (a + BitVec.ofNat 64 (i * 8)), m⟩ e = Cc.meaning o ⟨argument call, m⟩ e := by
  refine (meaning_agree (w := ⟨argument call, m⟩) (arg := fun i => Cc.load m 8 (a + BitVec.ofNat 64 (i * 8))) e ?_)
  intro s hs' i t hf
  have hi := findVar_lt hf
  have hlt := Nat.lt_of_lt_of_le hi (argsNr_ge hnr)
  dsimp only
  rw [hs i hlt, readCtx, if_pos hlt, narrow_word hp hi (hn s hs' i t hf)]

/-- **C73.** A filter of a function traced by itself answers the value of its expression in which a parameter name stands for the argument
of that name in this call, if no parameter up to those it mentions has more than 8 bytes. The hypotheses from `hlo` on are those of C01. -/
theorem filter_arguments_partial {o : Opts} {e : Expr} {p : Prog} {m : Cc.Mem} {st : Cc.St} {cs ns : Ty → Bool} {ret : Bpfsnoop.Arg.PTy}
    {nr : Nat} {call : List (List W)} {junk : Nat → W} (hnr : argsNr o.Γ cs ns ret o.vars = some nr) (hp : Passed o.Γ o.vars call)
    (hst : Stored m (st.regs 1) nr (readCtx nr call.flatten junk))
    (hn : ∀ s, Occurs s e → ∀ i t, Cc.findVar s o.vars 0 = some (i, t) → Narrow o.Γ o.vars i)
    (hlo : o.lo = 0) (hc : Cc.compileFilter o e = .ok p) (hlive : Cc.FewLive o e) (hs : (Cc.shape o e).isSome)
    (hex : Cc.Exact p.code) (hw : Cc.WordReadable m) :
    ∃ x nul, Cc.meaning o ⟨argument call, m⟩ e = some (x, nul) ∧
      (nul = false → (x = 0 ∨ x = 1) ∧ ∀ fuel, p.code.length ≤ fuel → p.run m fuel 0 st = some x) ∧
      (nul = true → ∃ y, (y = 0 ∨ (y = 1 ∧ ∃ l r, e = .bin .oror l r)) ∧
        ∀ fuel, p.code.length ≤ fuel → p.run m fuel 0 st = some y) := by
  rw [← ctx_agree hnr hp hst hn]
  exact Cc.filter_computes_partial (w := ⟨_, m⟩) hlo hc hlive hs hex (fun i _ => rfl) hw

/-- **C73.** Likewise for the value an output expression leaves for display. -/
theorem output_arguments_partial {o : Opts} {e : Expr} {σ : Cc.Sh} {f : Bool} {p : Cc.EvalRes} {m : Cc.Mem} {st : Cc.St}
    {cs ns : Ty → Bool} {ret : Bpfsnoop.Arg.PTy} {nr : Nat} {call : List (List W)} {junk : Nat → W}
    (hnr : argsNr o.Γ cs ns ret o.vars = some nr) (hp : Passed o.Γ o.vars call)
    (hst : Stored m (st.regs 9) nr (readCtx nr call.flatten junk))
    (hn : ∀ s, Occurs s e → ∀ i t, Cc.findVar s o.vars 0 = some (i, t) → Narrow o.Γ o.vars i)
    (hlo : o.lo = 0) (hc : Cc.compileEval o [8, 9] f e = .ok p)
    (hlive : o.mode = .direct ∨ ∃ q, Cc.compileEval o.few [8, 9] f e = .ok q) (hσ : Cc.shape o e = some σ)
    (hu : σ.usable o = true) (hnum : σ.isNum = false) (hex : Cc.Exact p.code) (hw : Cc.WordReadable m) :
    ∃ x nul, Cc.meaning o ⟨argument call, m⟩ e = some (x, nul) ∧
      (nul = false → ∃ st', Cc.exec m p.code st = .done st' ∧ st'.regs p.reg = x) ∧
      (nul = true → ∃ st', Cc.exec m p.code st = .exit st') := by
  rw [← ctx_agree hnr hp hst hn]
  obtain ⟨x, nul, h1, h2, h3⟩ := Cc.eval_computes_partial
    (w := ⟨fun i => Cc.load m 8 (st.regs 9 + BitVec.ofNat 64 (i * 8)), m⟩) (st := st) hlo hc hlive hσ hu hnum hex (fun i _ => rfl) hw
  exact ⟨x, nul, h1, fun h => by obtain ⟨st', h, h', -⟩ := h2 h; exact ⟨st', h, h'⟩, h3⟩

/-! ### Functions traced together with `(m)` -/

theorem findVar_some {s : String} : ∀ (params : List (String × Ty)) (k : Nat), (Cc.findVar s params k).isSome ↔ ∃ p, p ∈ params ∧ p.1 = s
  | [], k => by simp [Cc.findVar]
  | (n, t) :: r, k => by
    unfold Cc.findVar
    by_cases h : n = s
    · rw [if_pos h]
      exact ⟨fun _ => ⟨(n, t), List.mem_cons_self, h⟩, fun _ => rfl⟩
    · rw [if_neg h, findVar_some r (k + 1)]
      constructor
      · rintro ⟨p, hp, hs⟩; exact ⟨p, List.mem_cons_of_mem _ hp, hs⟩
      · rintro ⟨p, hp, hs⟩
        rcases List.mem_cons.mp hp with rfl | hp
        · exact absurd hs h
        · exact ⟨p, hp, hs⟩

theorem concerns_agree {x : Top} {us vs : List (String × Ty)} (h : ∀ s, Uses s x → Cc.findVar s us 0 = Cc.findVar s vs 0) :
    Sel.Concerns x vs ↔ Sel.Concerns x us := by
  constructor
  · rintro ⟨p, hp, hu⟩
    obtain ⟨q, hq, he⟩ := (findVar_some us 0).mp (h p.1 hu ▸ (findVar_some vs 0).mpr ⟨p, hp, rfl⟩)
    exact ⟨q, hq, he ▸ hu⟩
  · rintro ⟨p, hp, hu⟩
    obtain ⟨q, hq, he⟩ := (findVar_some vs 0).mp (h p.1 hu ▸ (findVar_some us 0).mpr ⟨p, hp, rfl⟩)
    exact ⟨q, hq, he ▸ hu⟩

theorem hits_agree {us vs : List (String × Ty)} {a : Sel.Arg} (hk : Sel.extractVarNames a.expr = some a.vars)
    (h : ∀ s, Uses s a.expr → Cc.findVar s us 0 = Cc.findVar s vs 0) : a.hits vs = a.hits us := by
  rw [Bool.eq_iff_iff, Sel.hits_iff hk, Sel.hits_iff hk]
  exact concerns_agree h

theorem filterFrom_agree {o : Opts} {vs : List (String × Ty)} : ∀ (as : List Sel.Arg) (i : Nat),
    (∀ a, a ∈ as → Sel.extractVarNames a.expr = some a.vars) →
    (∀ a, a ∈ as → ∀ s, Uses s a.expr → Cc.findVar s o.vars 0 = Cc.findVar s vs 0) →
    Sel.filterFrom { o with vars := vs } as i = Sel.filterFrom o as i
  | [], _, _, _ => rfl
  | a :: as, i, hk, h => by
    have ih := filterFrom_agree as (i + 1) (fun b hb => hk b (List.mem_cons_of_mem _ hb)) fun b hb => h b (List.mem_cons_of_mem _ hb)
    have ha := Sel.filter_mentioned_only o vs a.expr (h a List.mem_cons_self)
    have hh := hits_agree (hk a List.mem_cons_self) (h a List.mem_cons_self)
    unfold Sel.filterFrom
    dsimp only
    rw [hh, ih, ha]

theorem outputsFor_agree {o : Opts} {vs : List (String × Ty)} {nelems : Ty → Nat} : ∀ (as : List Sel.Arg),
    (∀ a, a ∈ as → Sel.extractVarNames a.expr = some a.vars) →
    (∀ a, a ∈ as → ∀ s, Uses s a.expr → Cc.findVar s o.vars 0 = Cc.findVar s vs 0) →
    Sel.outputsFor { o with vars := vs } nelems as = Sel.outputsFor o nelems as
  | [], _, _ => rfl
  | a :: as, hk, h => by
    have ih := outputsFor_agree (nelems := nelems) as (fun b hb => hk b (List.mem_cons_of_mem _ hb)) fun b hb => h b (List.mem_cons_of_mem _ hb)
    have ha := Sel.output_mentioned_only o vs nelems [8, 9] false a.expr (h a List.mem_cons_self)
    have hh := hits_agree (hk a List.mem_cons_self) (h a List.mem_cons_self)
    unfold Sel.outputsFor
    dsimp only
    rw [hh, ih, ha]

theorem leader_spec {fns : List MFun} {i : Nat} {g : MFun} (h : leader fns i = some g) : g ∈ fns ∧ matchedIndex g = some i := by
  unfold leader at h
  exact ⟨List.mem_of_find?_eq_some h, by simpa using List.find?_some h⟩

/-- Specification: two parameter lists have the parameter called `s` at the same place with the same type, or both have none. -/
def SamePlace (s : String) (us vs : List (String × Ty)) : Prop := Cc.findVar s us 0 = Cc.findVar s vs 0

theorem validate_iff {g : MFun} {xs : List Top} {as : List Sel.Arg} (h : Sel.prepareAll xs = .ok as) :
    validateOutput g as = true ↔ ∀ x, x ∈ xs → ∀ s, Uses s x → s = g.arg := by
  have hx := (Sel.prepare_iff xs as).1 h
  have hk := Sel.prepared h
  unfold validateOutput
  simp only [List.all_eq_true, beq_iff_eq]
  constructor
  · intro hall x hmem s hu
    rw [← hx] at hmem
    obtain ⟨a, ha, rfl⟩ := List.mem_map.mp hmem
    exact Sel.str_inj (hall a ha s.toList (((Sel.names_iff (hk a ha)).1 s).mpr hu))
  · intro hall a ha v hv
    have hmem : a.expr ∈ xs := hx ▸ List.mem_map.mpr ⟨a, ha, rfl⟩
    have hstr : v = (String.ofList v).toList := by simp
    rw [hstr] at hv
    have := hall a.expr hmem (String.ofList v) (((Sel.names_iff (hk a ha)).1 _).mp hv)
    rw [hstr, this]

/-- **C73.** Of functions traced together with `(m)` each is filtered as if it were traced by itself, provided the functions whose selectors
name an argument at the same place have every parameter the filters mention at the same place with the same type, and the outputs mention
only the arguments the selectors name. -/
theorem multi_filter_alone {o : Opts} {fns : List MFun} {xs ys : List Top} {as outs : List Sel.Arg} {f : MFun} {i : Nat}
    (h : Sel.prepareAll xs = .ok as) (ho : Sel.prepareAll ys = .ok outs) (hf : f ∈ fns) (hi : matchedIndex f = some i)
    (hout : ∀ g, g ∈ fns → matchedIndex g = some i → ∀ y, y ∈ ys → ∀ s, Uses s y → s = g.arg)
    (hsame : ∀ g, g ∈ fns → matchedIndex g = some i → ∀ x, x ∈ xs → ∀ s, Uses s x → SamePlace s g.params f.params) :
    multiFilter o fns as outs f = some (Sel.filterFor { o with vars := f.params } as) := by
  unfold multiFilter
  rw [hi]
  dsimp only
  cases hl : leader fns i with
  | none =>
    unfold leader at hl
    have := List.find?_eq_none.mp hl f hf
    simp [hi] at this
  | some g =>
    obtain ⟨hg, hgi⟩ := leader_spec hl
    dsimp only
    rw [if_pos ((validate_iff ho).mpr (hout g hg hgi))]
    have hx := (Sel.prepare_iff xs as).1 h
    have := filterFrom_agree (o := { o with vars := g.params }) (vs := f.params) as 0 (Sel.prepared h) fun a ha s hu =>
      hsame g hg hgi a.expr (hx ▸ List.mem_map.mpr ⟨a, ha, rfl⟩) s hu
    unfold Sel.filterFor
    rw [← this]

/-- **C73.** Likewise for the outputs. Here only the argument of the selectors can be mentioned: if all selectors name the same argument, it
has to have the same type in the functions that have it at the same place. -/
theorem multi_output_alone {o : Opts} {nelems : Ty → Nat} {fns : List MFun} {ys : List Top} {outs : List Sel.Arg} {f : MFun} {i : Nat} {t : Ty}
    (ho : Sel.prepareAll ys = .ok outs) (hf : f ∈ fns) (hi : Cc.findVar f.arg f.params 0 = some (i, t))
    (hout : ∀ y, y ∈ ys → ∀ s, Uses s y → s = f.arg) (harg : ∀ g, g ∈ fns → g.arg = f.arg)
    (htyp : ∀ g, g ∈ fns → ∀ u, Cc.findVar g.arg g.params 0 = some (i, u) → u = t) :
    multiOutputs o nelems fns outs f = some (Sel.outputsFor { o with vars := f.params } nelems outs) := by
  have hfi : matchedIndex f = some i := by unfold matchedIndex; rw [hi]; rfl
  unfold multiOutputs
  rw [hfi]
  dsimp only
  cases hl : leader fns i with
  | none =>
    unfold leader at hl
    have := List.find?_eq_none.mp hl f hf
    simp [hfi] at this
  | some g =>
    obtain ⟨hg, hgi⟩ := leader_spec hl
    dsimp only
    rw [if_pos ((validate_iff ho).mpr fun y hy s hu => (harg g hg).symm ▸ hout y hy s hu)]
    have hx := (Sel.prepare_iff ys outs).1 ho
    obtain ⟨⟨j, u⟩, hq, hj⟩ := Option.map_eq_some_iff.mp hgi
    dsimp only at hj
    subst hj
    have := outputsFor_agree (o := { o with vars := g.params }) (vs := f.params) (nelems := nelems) outs (Sel.prepared ho) fun a ha s hu => by
      have hs := hout a.expr (hx ▸ List.mem_map.mpr ⟨a, ha, rfl⟩) s hu
      subst hs
      show Cc.findVar f.arg g.params 0 = Cc.findVar f.arg f.params 0
      rw [hi, ← harg g hg, hq, htyp g hg u hq]
    rw [← this]

/-- **C73.** Outputs of `(m)` that mention anything but the argument of the selectors end bpfsnoop. -/
theorem multi_output_refused {o : Opts} {nelems : Ty → Nat} {fns : List MFun} {ys : List Top} {outs : List Sel.Arg} {f : MFun}
    (ho : Sel.prepareAll ys = .ok outs) (h : multiOutputs o nelems fns outs f ≠ none) :
    ∃ g, g ∈ fns ∧ matchedIndex g = matchedIndex f ∧ ∀ y, y ∈ ys → ∀ s, Uses s y → s = g.arg := by
  unfold multiOutputs at h
  cases hf : matchedIndex f with
  | none => rw [hf] at h; exact absurd rfl h
  | some i =>
    rw [hf] at h
    dsimp only at h
    cases hl : leader fns i with
    | none => rw [hl] at h; exact absurd rfl h
    | some g =>
      rw [hl] at h
      dsimp only at h
      obtain ⟨hg, hgi⟩ := leader_spec hl
      by_cases hv : validateOutput g outs = true
      · exact ⟨g, hg, hgi, (validate_iff ho).mp hv⟩
      · rw [if_neg hv] at h; exact absurd rfl h

/-- **C73.** A filter that runs for a function of `(m)` answers the value of its expression on the arguments of the call, if it was compiled
for the parameters of this function, mentions only parameters passed in registers, and no parameter up to those has more than 8 bytes.
The hypotheses from `hlo` on are those of C01. -/
theorem multi_arguments_partial {o : Opts} {e : Expr} {p : Prog} {m : Cc.Mem} {st : Cc.St} {arm64 : Bool} {regs : Nat → W}
    {call : List (List W)} (hp : Passed o.Γ o.vars call) (hr : ∀ i, i < (if arm64 then 8 else 6) → regs i = call.flatten.getD i 0)
    (hst : Stored m (st.regs 1) 12 (readRegs arm64 regs))
    (hn : ∀ s, Occurs s e → ∀ i t, Cc.findVar s o.vars 0 = some (i, t) → i < (if arm64 then 8 else 6) ∧ Narrow o.Γ o.vars i)
    (hlo : o.lo = 0) (hc : Cc.compileFilter o e = .ok p) (hlive : Cc.FewLive o e) (hs : (Cc.shape o e).isSome)
    (hex : Cc.Exact p.code) (hw : Cc.WordReadable m) :
    ∃ x nul, Cc.meaning o ⟨argument call, m⟩ e = some (x, nul) ∧
      (nul = false → (x = 0 ∨ x = 1) ∧ ∀ fuel, p.code.length ≤ fuel → p.run m fuel 0 st = some x) ∧
      (nul = true → ∃ y, (y = 0 ∨ (y = 1 ∧ ∃ l r, e = .bin .oror l r)) ∧
        ∀ fuel, p.code.length ≤ fuel → p.run m fuel 0 st = some y) := by
  have := meaning_agree (o := o) (w := ⟨argument call, m⟩)
    (arg := fun i => Cc.load m 8 (st.regs 1 + BitVec.ofNat 64 (i * 8))) e (by
      intro s hs' i t hf
      obtain ⟨h1, h2⟩ := hn s hs' i t hf
      have h12 : regsNr arm64 ≤ 12 := by cases arm64 <;> decide
      have h1 : i < regsNr arm64 := h1
      dsimp only
      rw [hst i (by omega), readRegs, if_pos h1, hr i (show _ from h1), narrow_word hp (findVar_lt hf) h2])
  rw [← this]
  exact Cc.filter_computes_partial (w := ⟨_, m⟩) hlo hc hlive hs hex (fun i _ => rfl) hw

/-! ### Programs -/

/-- **C73.** In a BPF program a parameter that is a pointer to `struct __sk_buff` or `struct xdp_md` is a pointer to the kernel's `struct
sk_buff` or `struct xdp_buff`; every other parameter, also one whose target is qualified, keeps its type. -/
theorem correct_iff (kernel : Flg.Str → Option Pt.T) (t u : Pt.T) : correctArgType kernel t = some u ↔
    ((∃ z ms, Pt.Behind (.ptr (.comp false "__sk_buff".toList z ms)) t) ∧ kernel "sk_buff".toList = some u) ∨
    ((∃ z ms, Pt.Behind (.ptr (.comp false "xdp_md".toList z ms)) t) ∧ kernel "xdp_buff".toList = some u) ∨
    ((∀ z ms, ¬ Pt.Behind (.ptr (.comp false "__sk_buff".toList z ms)) t) ∧
      (∀ z ms, ¬ Pt.Behind (.ptr (.comp false "xdp_md".toList z ms)) t) ∧ u = t) := by
  have hb : ∀ n z ms, Pt.Behind (.ptr (.comp false n z ms)) t ↔ t.under = .ptr (.comp false n z ms) := fun n z ms =>
    ⟨fun h => (Pt.under_iff t _).mpr ⟨h, nofun, nofun⟩, fun h => ((Pt.under_iff t _).mp h).1⟩
  simp only [hb]
  unfold correctArgType
  split
  · rename_i n z ms hu
    rw [hu]
    by_cases h1 : n = "__sk_buff".toList
    · subst h1
      rw [if_pos rfl]
      constructor
      · intro h; exact .inl ⟨⟨z, ms, rfl⟩, h⟩
      · rintro (⟨-, h⟩ | ⟨⟨z', ms', h⟩, -⟩ | ⟨h, -, -⟩)
        · exact h
        · injection h with h; injection h with _ h; exact absurd h (by decide)
        · exact absurd rfl (h z ms)
    · rw [if_neg h1]
      by_cases h2 : n = "xdp_md".toList
      · subst h2
        rw [if_pos rfl]
        constructor
        · intro h; exact .inr (.inl ⟨⟨z, ms, rfl⟩, h⟩)
        · rintro (⟨⟨z', ms', h⟩, -⟩ | ⟨-, h⟩ | ⟨-, h, -⟩)
          · injection h with h; injection h with _ h; exact absurd h (by decide)
          · exact h
          · exact absurd rfl (h z ms)
      · rw [if_neg h2]
        constructor
        · intro h
          refine .inr (.inr ⟨fun z' ms' h' => ?_, fun z' ms' h' => ?_, (Option.some.inj h).symm⟩)
          · injection h' with h'; injection h' with _ h'; exact h1 h'
          · injection h' with h'; injection h' with _ h'; exact h2 h'
        · rintro (⟨⟨z', ms', h⟩, -⟩ | ⟨⟨z', ms', h⟩, -⟩ | ⟨-, -, rfl⟩)
          · injection h with h; injection h with _ h; exact absurd h h1
          · injection h with h; injection h with _ h; exact absurd h h2
          · rfl
  · rename_i hne
    constructor
    · intro h
      exact .inr (.inr ⟨fun z ms hu => hne _ z ms hu, fun z ms hu => hne _ z ms hu, (Option.some.inj h).symm⟩)
    · rintro (⟨⟨z', ms', h⟩, -⟩ | ⟨⟨z', ms', h⟩, -⟩ | ⟨-, -, rfl⟩)
      · exact absurd h (hne _ _ _)
      · exact absurd h (hne _ _ _)
      · rfl

/-- **C73.** Names and number of the parameters stay. -/
theorem correct_params {kernel : Flg.Str → Option Pt.T} : ∀ {ps qs : List (String × Pt.T)}, correctParams kernel ps = some qs →
    qs.map (·.1) = ps.map (·.1) ∧ ∀ (i : Nat) (p q : String × Pt.T), ps[i]? = some p → qs[i]? = some q → correctArgType kernel p.2 = some q.2
  | [], qs, h => by cases h; exact ⟨rfl, by simp⟩
  | p :: ps, qs, h => by
    unfold correctParams at h
    cases ht : correctArgType kernel p.2 with
    | none => rw [ht] at h; cases h
    | some t =>
      rw [ht] at h
      dsimp only at h
      cases hr : correctParams kernel ps with
      | none => rw [hr] at h; cases h
      | some r =>
        rw [hr] at h
        cases h
        obtain ⟨h1, h2⟩ := correct_params hr
        refine ⟨by simp [h1], fun i a b ha hb => ?_⟩
        cases i with
        | zero =>
          simp only [List.getElem?_cons_zero, Option.some.injEq] at ha hb
          subst ha; subst hb
          exact ht
        | succ i => exact h2 i a b (by simpa using ha) (by simpa using hb)

/-! ### Examples and violations -/

/-- Options for a function with these parameters; types as in `Cc.vBtf`: 3 and 4 are integers of 4 and 8 bytes, 6 is a struct of 16 bytes. -/
def yOpts (mode : Mode) (params : List (String × Ty)) : Opts := { Cc.vOpts mode with vars := params }

/-- `s == 5`. -/
def isFive (s : String) : Expr := .bin .eq (.name s) (.num ['5'])

/-- Memory with these words at the address of the arguments. -/
def yMem (l : List Nat) : Cc.Mem := Cc.vMem (l.zipIdx.map fun q => (0x100 + q.2 * 8, q.1))

theorem yMem_readable (l : List Nat) : Cc.WordReadable (yMem l) := fun a _ _ _ => Cc.bytes_total (fun _ => rfl) 8 a

instance (m : Cc.Mem) (a : BitVec 64) (nr : Nat) (args : Nat → W) : Decidable (Stored m a nr args) := by unfold Stored; infer_instance

theorem passed_of {Γ : Btf} {params : List (String × Ty)} {call : List (List W)} (h : call.length = params.length ∧
    ∀ i : Fin params.length, Γ.sizeOf (params[i]).2 = some 4 ∧ (call.getD i []).length = 1 ∨
      Γ.sizeOf (params[i]).2 = some 8 ∧ (call.getD i []).length = 1 ∨
      Γ.sizeOf (params[i]).2 = some 16 ∧ (call.getD i []).length = 2) : Passed Γ params call := by
  refine ⟨h.1, fun i p ws h1 h2 => ?_⟩
  obtain ⟨hi, rfl⟩ := List.getElem?_eq_some_iff.mp h1
  have hg : call.getD i [] = ws := by rw [List.getD_eq_getElem?_getD, h2]; rfl
  rcases h.2 ⟨i, hi⟩ with ⟨h3, h4⟩ | ⟨h3, h4⟩ | ⟨h3, h4⟩ <;>
  · simp only [Fin.getElem_fin] at h3
    refine ⟨_, h3, ?_⟩
    simp only [hg] at h4
    rw [h4]
    rfl

theorem only {s s' : String} (h : Occurs s' (isFive s)) : s' = s := by
  have := (Sel.walk_iff _ _).mpr h
  simpa [Sel.walk, isFive] using this

def pA : List (String × Ty) := [("p", .ptr (.base 0)), ("n", .base 3)]
def pWide : List (String × Ty) := [("s", .base 6), ("n", .base 3)]

/-- The hypotheses of `filter_arguments_partial` and `right_word_iff` for `n == 5` in `f(p, n)`, called with n = 5. -/
theorem filter_arguments_witness (mode : Mode) : ∃ p, Cc.compileFilter (yOpts mode pA) (isFive "n") = .ok p ∧
    argsNr Cc.vBtf (fun _ => false) (fun _ => false) ⟨some 4, false, false⟩ pA = some 2 ∧
    Passed Cc.vBtf pA [[0x1000], [5]] ∧ Stored (yMem [0x1000, 5]) (Cc.vSt.regs 1) 2 (readCtx 2 [0x1000, 5] fun _ => 0xBAD) ∧
    Cc.FewLive (yOpts mode pA) (isFive "n") ∧ (Cc.shape (yOpts mode pA) (isFive "n")).isSome ∧ Cc.Exact p.code ∧
    (∀ s, Occurs s (isFive "n") → ∀ i t, Cc.findVar s pA 0 = some (i, t) → Narrow Cc.vBtf pA i) ∧
    Cc.meaning (yOpts mode pA) ⟨argument [[0x1000], [5]], yMem [0x1000, 5]⟩ (isFive "n") = some (1, false) := by
  have hn : ∀ i, Narrow Cc.vBtf pA i := by
    intro i j p n _ hp hs
    match j with
    | 0 => cases hp; cases hs; decide
    | 1 => cases hp; cases hs; decide
    | j + 2 => cases hp
  have hpass : Passed Cc.vBtf pA [[0x1000], [5]] := passed_of (by decide +kernel)
  cases mode
  · exact ⟨_, rfl, by decide +kernel, hpass, by decide +kernel, .inr ⟨_, rfl⟩, rfl, by decide +kernel, fun _ _ i _ _ => hn i, by decide +kernel⟩
  · exact ⟨_, rfl, by decide +kernel, hpass, by decide +kernel, .inr ⟨_, rfl⟩, rfl, by decide +kernel, fun _ _ i _ _ => hn i, by decide +kernel⟩
  · exact ⟨_, rfl, by decide +kernel, hpass, by decide +kernel, .inl rfl, rfl, by decide +kernel, fun _ _ i _ _ => hn i, by decide +kernel⟩

/-- **C73 violated.** `n == 5` for `f(struct of 16 bytes, n)`: the call with n = 7 passes, because the second half of the struct is 5. -/
theorem wide_parameter_violated : ∃ p, Cc.compileFilter (yOpts .direct pWide) (isFive "n") = .ok p ∧
    argsNr Cc.vBtf (fun _ => false) (fun _ => false) ⟨some 4, false, false⟩ pWide = some 3 ∧
    Passed Cc.vBtf pWide [[1, 5], [7]] ∧ Stored (yMem [1, 5, 7]) (Cc.vSt.regs 1) 3 (readCtx 3 [1, 5, 7] fun _ => 0xBAD) ∧
    Cc.meaning (yOpts .direct pWide) ⟨argument [[1, 5], [7]], yMem [1, 5, 7]⟩ (isFive "n") = some (0, false) ∧
    p.run (yMem [1, 5, 7]) 100 0 Cc.vSt = some 1 :=
  ⟨_, rfl, by decide +kernel, passed_of (by decide +kernel), by decide +kernel, by decide +kernel, by decide +kernel⟩

def pSeven : List (String × Ty) :=
  [("a", .base 4), ("b", .base 4), ("c", .base 4), ("d", .base 4), ("e", .base 4), ("f", .base 4), ("g", .base 4)]

/-- **C73 violated.** `(m)` on x86: the seventh argument is not in a register, `g == 5` is false for the call with g = 5. -/
theorem beyond_registers_violated : ∃ p, Cc.compileFilter (yOpts .direct pSeven) (isFive "g") = .ok p ∧
    Passed Cc.vBtf pSeven [[1], [2], [3], [4], [5], [6], [5]] ∧
    Stored (yMem [1, 2, 3, 4, 5, 6]) (Cc.vSt.regs 1) 12 (readRegs false fun i => [1, 2, 3, 4, 5, 6].getD i 0) ∧
    Cc.meaning (yOpts .direct pSeven) ⟨argument [[1], [2], [3], [4], [5], [6], [5]], yMem [1, 2, 3, 4, 5, 6]⟩ (isFive "g") = some (1, false) ∧
    p.run (yMem [1, 2, 3, 4, 5, 6]) 100 0 Cc.vSt = some 0 :=
  ⟨_, rfl, passed_of (by decide +kernel), by decide +kernel, by decide +kernel, by decide +kernel⟩

def mA : MFun := ⟨[("p", .ptr (.base 0)), ("n", .base 3)], "p"⟩
def mB : MFun := ⟨[("p", .ptr (.base 0)), ("k", .base 4), ("n", .base 3)], "p"⟩
def mC : MFun := ⟨[("q", .ptr (.base 6))], "q"⟩

theorem prepared_five (s : String) : ∃ as, Sel.prepareAll [.plain (isFive s)] = .ok as :=
  (Sel.prepare_iff [.plain (isFive s)] []).2.mpr fun x hx => by
    rw [List.mem_singleton] at hx; subst hx; exact ⟨s, .plain (.binL .name)⟩

theorem only_filter {o : Opts} {s : String} {as : List Sel.Arg} {p : Prog} (h : Sel.prepareAll [.plain (isFive s)] = .ok as)
    (hc : Cc.compileFilter o (isFive s) = .ok p) (hv : ∃ q, q ∈ o.vars ∧ q.1 = s) : Sel.filterFor o as = .ok (some (0, p)) := by
  obtain ⟨q, hq, rfl⟩ := hv
  exact ((Sel.filter_chosen h).2 0 p).mpr ⟨_, rfl, ⟨q, hq, .plain (.binL .name)⟩, fun k y hk _ => by omega, hc⟩

/-- **C73 violated.** `(m)` traces `a(p, n)` and `b(p, k, n)` with the selector `p`: `n == 5` is tested on `k` in calls of `b`. -/
theorem other_place_violated : ∃ as p, Sel.prepareAll [.plain (isFive "n")] = .ok as ∧
    multiFilter (yOpts .direct []) [mA, mB] as [] mB = some (.ok (some (0, p))) ∧
    Passed Cc.vBtf mB.params [[0x1000], [5], [7]] ∧
    Stored (yMem [0x1000, 5, 7]) (Cc.vSt.regs 1) 12 (readRegs false fun i => [0x1000, 5, 7].getD i 0) ∧
    Cc.meaning (yOpts .direct mB.params) ⟨argument [[0x1000], [5], [7]], yMem [0x1000, 5, 7]⟩ (isFive "n") = some (0, false) ∧
    p.run (yMem [0x1000, 5, 7]) 100 0 Cc.vSt = some 1 := by
  obtain ⟨as, h⟩ := prepared_five "n"
  have hp : ∃ p, Cc.compileFilter { yOpts .direct [] with vars := mA.params } (isFive "n") = .ok p ∧
      p.run (yMem [0x1000, 5, 7]) 100 0 Cc.vSt = some 1 := ⟨_, rfl, by decide +kernel⟩
  obtain ⟨p, hc, hr⟩ := hp
  exact ⟨as, p, h, congrArg some (only_filter h hc ⟨("n", .base 3), by decide, rfl⟩), passed_of (by decide +kernel), by decide +kernel,
    by decide +kernel, hr⟩

/-- **C73 violated.** Selectors naming different arguments at the same place share one program: `p == 5` is not about `c(q)`, but its calls
have to satisfy it if `c` is traced together with `a(p, n)`. -/
theorem other_selector_violated : ¬ Sel.Concerns (.plain (isFive "p")) mC.params ∧
    ∃ as p, Sel.prepareAll [.plain (isFive "p")] = .ok as ∧
      Sel.filterFor { yOpts .direct [] with vars := mC.params } as = .ok none ∧
      multiFilter (yOpts .direct []) [mA, mC] as [] mC = some (.ok (some (0, p))) ∧ p.run (yMem [7]) 100 0 Cc.vSt = some 0 := by
  have hc : ¬ Sel.Concerns (.plain (isFive "p")) mC.params := by
    rintro ⟨q, hq, hu⟩
    cases hu with
    | plain h =>
      have := only h
      simp only [mC, List.mem_singleton] at hq
      subst hq
      exact absurd this (by decide)
  obtain ⟨as, h⟩ := prepared_five "p"
  have hp : ∃ p, Cc.compileFilter { yOpts .direct [] with vars := mA.params } (isFive "p") = .ok p ∧
      p.run (yMem [7]) 100 0 Cc.vSt = some 0 := ⟨_, rfl, by decide +kernel⟩
  obtain ⟨p, hc', hr⟩ := hp
  refine ⟨hc, as, p, h, ?_, congrArg some (only_filter h hc' ⟨("p", .ptr (.base 0)), by decide, rfl⟩), hr⟩
  exact ((Sel.filter_chosen h).1).mpr fun x hx => by rw [List.mem_singleton] at hx; subst hx; exact hc

/-- **C73 violated.** A selector without an argument name ends bpfsnoop unless the function has a parameter without a name. -/
theorem unnamed_selector_violated (o : Opts) (fns : List MFun) (as outs : List Sel.Arg) (params : List (String × Ty))
    (h : ∀ p, p ∈ params → p.1 ≠ "") : multiFilter o fns as outs ⟨params, ""⟩ = none := by
  have : Cc.findVar "" params 0 = none := by
    cases hf : Cc.findVar "" params 0 with
    | none => rfl
    | some q =>
      obtain ⟨p, hp, he⟩ := (findVar_some params 0).mp (by rw [hf]; rfl)
      exact absurd he (h p hp)
  unfold multiFilter matchedIndex
  simp only [this, Option.map_none]

/-- The hypotheses of `multi_filter_alone` and `multi_output_alone`: `p == 5`, about the argument of the selector, in `b` traced with `a`. -/
theorem multi_witness (mode : Mode) : mB ∈ [mA, mB] ∧ matchedIndex mB = some 0 ∧
    (∀ g, g ∈ [mA, mB] → ∀ s, Uses s (.plain (isFive "p")) → SamePlace s g.params mB.params ∧ s = g.arg) ∧
    (∃ p, Cc.compileFilter (yOpts mode mB.params) (isFive "p") = .ok p) ∧
    (∀ g, g ∈ [mA, mB] → g.arg = mB.arg ∧ ∀ u, Cc.findVar g.arg g.params 0 = some (0, u) → u = .ptr (.base 0)) := by
  refine ⟨by simp, by decide +kernel, ?_, ?_, ?_⟩
  · intro g hg s hs
    cases hs with
    | plain h =>
      obtain rfl := only h
      simp only [List.mem_cons, List.not_mem_nil, or_false] at hg
      rcases hg with rfl | rfl <;> exact ⟨by unfold SamePlace; decide +kernel, rfl⟩
  · cases mode <;> exact ⟨_, rfl⟩
  · intro g hg
    simp only [List.mem_cons, List.not_mem_nil, or_false] at hg
    rcases hg with rfl | rfl
    · refine ⟨rfl, fun u hu => ?_⟩
      have h' : Cc.findVar mA.arg mA.params 0 = some (0, .ptr (.base 0)) := by decide +kernel
      rw [h'] at hu
      simpa using hu.symm
    · refine ⟨rfl, fun u hu => ?_⟩
      have h' : Cc.findVar mB.arg mB.params 0 = some (0, .ptr (.base 0)) := by decide +kernel
      rw [h'] at hu
      simpa using hu.symm

/-- A pointer to `const struct __sk_buff` is not corrected, one to `struct __sk_buff` behind a typedef is. -/
theorem correct_witness (ms : Pt.Ms) (u : Pt.T) :
    correctArgType (fun _ => some u) (.typedef ['c'] (.ptr (.comp false "__sk_buff".toList 192 ms))) = some u ∧
    correctArgType (fun _ => some u) (.ptr (.qual ['c', 'o', 'n', 's', 't'] (.comp false "__sk_buff".toList 192 ms))) =
      some (.ptr (.qual ['c', 'o', 'n', 's', 't'] (.comp false "__sk_buff".toList 192 ms))) := ⟨rfl, rfl⟩

end Bpfsnoop.Av
