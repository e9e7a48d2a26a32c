import Verif.Model.Run
/-
C19 (entry/exit pairing), C20 (--limit-events), C21 (durations) for every history of records.
-/
namespace Bpfsnoop.Run

/-! ### Specification vocabulary -/

/-- Record `r` starts the call with key `k`. -/
def Opens (k : BitVec 64) : Rec → Prop
  | .func e => e.requiredSession = true ∧ e.typ = 1 ∧ e.sessID = k
  | _ => False

/-- Record `r` ends the call with key `k` (the kernel sends the entry's id minus one). -/
def Closes (k : BitVec 64) : Rec → Prop
  | .func e => e.requiredSession = true ∧ e.typ ≠ 1 ∧ e.sessID + 1 = k
  | _ => False

/-- What a record contributes to the call with key `k` started at `st` while it is open: its text and the
time since the start of the call. -/
def note (k : BitVec 64) (st : BitVec 32) : Rec → Option (Nat × Option (BitVec 32))
  | .insn true k' ns tag => if k' = k then some (tag, some (ns - st)) else none
  | .graph true _ k' ns tag => if k' = k then some (tag, some (ns - st)) else none
  | _ => none

/-- After history `H` the call with key `k` is open: it was started by `e` and `mid` are the records
since, none of which starts or ends a call with that key. -/
def IsOpen (H : List Rec) (k : BitVec 64) (e : FuncEv) (mid : List Rec) : Prop :=
  ∃ pre, H = pre ++ .func e :: mid ∧ Opens k (.func e) ∧ ∀ x ∈ mid, ¬ Opens k x ∧ ¬ Closes k x

/-- The text of a printed fragment and the total duration printed with it. -/
def Item.key : Item → Nat × Option (BitVec 32)
  | .func t d => (t, d)
  | .insn t d => (t, some d)
  | .graph t _ d => (t, some d)

/-- Process a whole history: the session table and the printed blocks. -/
def steps (d : Int) : Sessions → List Rec → Option (Sessions × List (List Item))
  | ss, [] => some (ss, [])
  | ss, r :: rs => do
    let (ss', out) ← handle d ss r
    let (ss'', bs) ← steps d ss' rs
    some (ss'', out.toList ++ bs)

theorem steps_append (d : Int) (ss : Sessions) (a b : List Rec) :
    steps d ss (a ++ b) = (do
      let (s1, o1) ← steps d ss a
      let (s2, o2) ← steps d s1 b
      some (s2, o1 ++ o2)) := by
  induction a generalizing ss with
  | nil => cases h : steps d ss b <;> simp [steps, h]
  | cons r a ih =>
    simp only [List.cons_append, steps, ih]
    cases handle d ss r with
    | none => simp
    | some p =>
      simp only [Option.bind_eq_bind, Option.bind_some]
      cases steps d p.1 a with
      | none => simp
      | some q =>
        simp only [Option.bind_some]
        cases steps d q.1 b with
        | none => simp
        | some q' => simp

/-! ### C20 -/

theorem loop_unlimited (d : Int) (i : Int) (ss : Sessions) (recs : List Rec) :
    loop d true i ss recs = (steps d ss recs).map fun p => (p.2, End.closed) := by
  induction recs generalizing i ss with
  | nil => unfold loop; simp [steps]
  | cons r rs ih =>
    unfold loop
    simp only [Bool.true_or, if_true, steps]
    cases hh : handle d ss r with
    | none => simp
    | some p =>
      obtain ⟨ss', out⟩ := p
      simp only [Option.bind_eq_bind, Option.bind_some, ih]
      cases out with
      | none => cases steps d ss' rs <;> simp
      | some b => cases steps d ss' rs <;> simp

/-- **C20, unlimited.** With limit 0 every printed block of the history appears and the loop ends only
when the stream does. -/
theorem run_unlimited (d : Int) (recs : List Rec) :
    run d 0 recs = (steps d newSessions recs).map fun p => (p.2, End.closed) := by
  simp [run, loop_unlimited]

theorem loop_limited (d : Int) (n : Nat) (ss ss' : Sessions) (recs : List Rec) (bs : List (List Item))
    (hs : steps d ss recs = some (ss', bs)) :
    loop d false n ss recs = some (bs.take n, if n ≤ bs.length then End.finished else End.closed) := by
  induction recs generalizing n ss bs with
  | nil =>
    simp only [steps, Option.some.injEq, Prod.mk.injEq] at hs
    obtain ⟨_, rfl⟩ := hs
    unfold loop
    cases n with
    | zero => simp
    | succ n => simp
  | cons r rs ih =>
    simp only [steps, Option.bind_eq_bind] at hs
    cases hh : handle d ss r with
    | none => simp [hh] at hs
    | some p =>
      obtain ⟨ss1, out⟩ := p
      simp only [hh, Option.bind_some] at hs
      cases hr : steps d ss1 rs with
      | none => simp [hr] at hs
      | some q =>
        obtain ⟨ss2, bs2⟩ := q
        simp only [hr, Option.bind_some, Option.some.injEq, Prod.mk.injEq] at hs
        obtain ⟨rfl, rfl⟩ := hs
        unfold loop
        cases n with
        | zero => simp
        | succ n =>
          have hpos : decide (((n + 1 : Nat) : Int) > 0) = true := by simp
          simp only [hpos, Bool.or_true, if_true, hh, Option.bind_eq_bind, Option.bind_some]
          cases out with
          | none =>
            simp only [Option.toList_none, List.nil_append]
            exact ih (n + 1) ss1 bs2 hr
          | some b =>
            have he : ((n + 1 : Nat) : Int) - 1 = (n : Int) := by omega
            simp only [he, ih n ss1 bs2 hr]
            simp

/-- **C20, limited.** For a limit `n` between 1 and 2^63-1, whatever the history, exactly the first
`n` blocks of the unlimited run are printed (all of them if fewer), and `Run` ends by itself exactly
when `n` blocks were printed. *Missing*: limits of 2^63 and more, see `run_huge_limit_violated`. -/
theorem run_limited_partial (d : Int) (n : Nat) (h0 : 0 < n) (h63 : n < 2 ^ 63) (recs : List Rec)
    (ss' : Sessions) (bs : List (List Item)) (hs : steps d newSessions recs = some (ss', bs)) :
    run d (BitVec.ofNat 64 n) recs =
      some (bs.take n, if n ≤ bs.length then End.finished else End.closed) := by
  have h1 : (BitVec.ofNat 64 n == 0#64) = false := by
    rw [beq_eq_false_iff_ne]
    intro h
    have := congrArg BitVec.toNat h
    simp at this
    omega
  have h2 : (BitVec.ofNat 64 n).toInt = (n : Int) := by
    rw [BitVec.toInt_eq_toNat_of_lt]
    · simp; omega
    · simp; omega
  simp only [run]
  rw [h2]
  have h1' : (BitVec.ofNat 64 n == 0) = false := h1
  rw [h1']
  exact loop_limited d n newSessions ss' recs bs hs

/-- The printed number of blocks never exceeds the limit, even on histories that panic later on. -/
theorem run_limited_prefix (d : Int) (n : Nat) (h0 : 0 < n) (h63 : n < 2 ^ 63) (recs : List Rec)
    (ss' : Sessions) (bs : List (List Item)) (hs : steps d newSessions recs = some (ss', bs)) :
    ∃ out e, run d (BitVec.ofNat 64 n) recs = some (out, e) ∧ out.length = min n bs.length ∧
      out <+: bs := by
  refine ⟨_, _, run_limited_partial d n h0 h63 recs ss' bs hs, by simp, List.take_prefix _ _⟩

/-- **C20 is violated for limits of 2^63 and more**: nothing is printed at all. -/
theorem run_huge_limit_violated (d : Int) (n : Nat) (h : 2 ^ 63 ≤ n) (h' : n < 2 ^ 64) (recs : List Rec) :
    run d (BitVec.ofNat 64 n) recs = some ([], End.finished) := by
  have h1 : (BitVec.ofNat 64 n == (0 : BitVec 64)) = false := by
    rw [beq_eq_false_iff_ne]
    intro h2
    have := congrArg BitVec.toNat h2
    simp at this
    omega
  have h2 : ¬ (BitVec.ofNat 64 n).toInt > 0 := by
    rw [BitVec.toInt_eq_toNat_cond]
    simp only [BitVec.toNat_ofNat]
    split <;> omega
  unfold run loop
  rw [h1]
  simp [h2]

/-! ### C19 -/

theorem IsOpen.unique {H : List Rec} {k : BitVec 64} {e e' : FuncEv} {m m' : List Rec}
    (h : IsOpen H k e m) (h' : IsOpen H k e' m') : e = e' ∧ m = m' := by
  obtain ⟨p, hp, ho, hm⟩ := h
  obtain ⟨p', hp', ho', hm'⟩ := h'
  rw [hp] at hp'
  have hlen : m.length = m'.length := by
    rcases Nat.lt_trichotomy m.length m'.length with hlt | heq | hgt
    · exfalso
      have : ∃ q, m' = q ++ .func e :: m := by
        rw [show p' ++ Rec.func e' :: m' = (p' ++ [Rec.func e']) ++ m' by simp] at hp'
        have := List.append_eq_append_iff.mp hp'
        rcases this with ⟨a, h1, h2⟩ | ⟨c, h1, h2⟩
        · have := congrArg List.length h2
          simp at this
          cases a with
          | nil => exact ⟨[], by simpa using h2.symm⟩
          | cons x a => simp at this; omega
        · exact ⟨c, h2⟩
      obtain ⟨q, hq⟩ := this
      exact (hm' (.func e) (by simp [hq])).1 ho
    · exact heq
    · exfalso
      have : ∃ q, m = q ++ .func e' :: m' := by
        rw [show p ++ Rec.func e :: m = (p ++ [Rec.func e]) ++ m by simp] at hp'
        have := List.append_eq_append_iff.mp hp'
        rcases this with ⟨a, h1, h2⟩ | ⟨c, h1, h2⟩
        · exact ⟨a, h2⟩
        · have := congrArg List.length h2
          simp at this
          cases c with
          | nil => exact ⟨[], by simpa using h2.symm⟩
          | cons x a => simp at this; omega
      obtain ⟨q, hq⟩ := this
      exact (hm (.func e') (by simp [hq])).1 ho'
  have := List.append_inj' hp' (by simp [hlen])
  simpa using this.2

theorem IsOpen.snoc_other {H : List Rec} {k : BitVec 64} {r : Rec} (h1 : ¬ Opens k r) (h2 : ¬ Closes k r)
    {e : FuncEv} {mid : List Rec} (h : IsOpen H k e mid) : IsOpen (H ++ [r]) k e (mid ++ [r]) := by
  obtain ⟨p, hp, ho, hm⟩ := h
  refine ⟨p, by simp [hp], ho, ?_⟩
  intro x hx
  rcases List.mem_append.mp hx with hx | hx
  · exact hm x hx
  · simp at hx; subst hx; exact ⟨h1, h2⟩

theorem IsOpen.of_snoc {H : List Rec} {k : BitVec 64} {r : Rec} {e : FuncEv} {mid : List Rec}
    (h : IsOpen (H ++ [r]) k e mid) :
    (Opens k r ∧ r = .func e ∧ mid = []) ∨ (¬ Opens k r ∧ ¬ Closes k r ∧ ∃ m, mid = m ++ [r] ∧ IsOpen H k e m) := by
  obtain ⟨p, hp, ho, hm⟩ := h
  rcases List.eq_nil_or_concat mid with rfl | ⟨m, x, rfl⟩
  · left
    have := List.append_inj' hp rfl
    simp at this
    exact ⟨by rw [this.2]; exact ho, this.2, rfl⟩
  · right
    rw [List.concat_eq_append] at hp hm ⊢
    have hp2 : H ++ [r] = (p ++ Rec.func e :: m) ++ [x] := by simpa using hp
    have := List.append_inj' hp2 rfl
    simp at this
    obtain ⟨h1, rfl⟩ := this
    refine ⟨(hm r (by simp)).1, (hm r (by simp)).2, m, rfl, p, h1, ho, ?_⟩
    intro y hy; exact hm y (by simp [hy])

theorem isOpen_nil (k : BitVec 64) (e : FuncEv) (mid : List Rec) : ¬ IsOpen [] k e mid := by
  rintro ⟨p, hp, _⟩; simp at hp

/-- What the session table means after history `H`. -/
structure Inv (H : List Rec) (ss : Sessions) : Prop where
  some_ : ∀ k s, ss k = some s → ∃ e mid, IsOpen H k e mid ∧ s.started = e.kernNs ∧
    s.outputs.map Item.key = (e.tag, none) :: mid.filterMap (note k e.kernNs) ∧
    s.outputs.head? = some (.func e.tag none)
  none_ : ∀ k, ss k = none → ∀ e mid, ¬ IsOpen H k e mid

theorem inv_init : Inv [] newSessions := by
  refine ⟨by simp [newSessions], fun k _ e mid => isOpen_nil k e mid⟩

/-- A record that leaves every session's bookkeeping except possibly the outputs of one key alone. -/
theorem inv_note {H : List Rec} {ss : Sessions} (h : Inv H ss) (r : Rec) (ss' : Sessions)
    (hr : ∀ k, ¬ Opens k r ∧ ¬ Closes k r)
    (hss : ∀ k, match ss k with
      | none => ss' k = none
      | some s => ∃ s', ss' k = some s' ∧ s'.started = s.started ∧
          (s.outputs ≠ [] → s'.outputs.head? = s.outputs.head?) ∧
          s'.outputs.map Item.key = s.outputs.map Item.key ++ (note k s.started r).toList) :
    Inv (H ++ [r]) ss' := by
  constructor
  · intro k s' hs'
    have := hss k
    cases hk : ss k with
    | none => rw [hk] at this; simp [hs'] at this
    | some s =>
      rw [hk] at this
      obtain ⟨s2, h1, h2, h3, h4⟩ := this
      rw [hs'] at h1; simp only [Option.some.injEq] at h1; subst h1
      obtain ⟨e, mid, ho, he, ht, hhd⟩ := h.some_ k s hk
      refine ⟨e, mid ++ [r], ho.snoc_other (hr k).1 (hr k).2, by rw [h2, he], ?_, ?_⟩
      · rw [h4, ht]; rw [he]; cases hn : note k e.kernNs r <;> simp [hn]
      · rw [h3 (by intro h0; simp [h0] at hhd), hhd]
  · intro k hk e mid ho
    have := hss k
    rcases ho.of_snoc with ⟨h1, _⟩ | ⟨_, _, m, _, hm⟩
    · exact (hr k).1 h1
    · cases hk' : ss k with
      | none => exact h.none_ k hk' e m hm
      | some s => rw [hk'] at this; obtain ⟨s', h1, _⟩ := this; simp [hk] at h1

theorem inv_same {H : List Rec} {ss : Sessions} (h : Inv H ss) (r : Rec)
    (hr : ∀ k, ¬ Opens k r ∧ ¬ Closes k r) (hn : ∀ k s, ss k = some s → note k s.started r = none) :
    Inv (H ++ [r]) ss := by
  apply inv_note h r ss hr
  intro k
  cases hk : ss k with
  | none => rfl
  | some s => exact ⟨s, rfl, rfl, fun _ => rfl, by simp [hn k s hk]⟩

theorem append_head {s : List Item} (i : Item) (h : s ≠ []) : (s ++ [i]).head? = s.head? := by
  cases s <;> simp_all

theorem handle_inv {d : Int} {H : List Rec} {ss ss' : Sessions} {r : Rec} {out : Option (List Item)}
    (h : Inv H ss) (hh : handle d ss r = some (ss', out)) : Inv (H ++ [r]) ss' := by
  cases r with
  | short =>
    simp [handle] at hh; obtain ⟨rfl, _⟩ := hh
    exact inv_same h _ (by simp [Opens, Closes]) (by simp [note])
  | insn known k0 ns tag =>
    simp [handle] at hh; obtain ⟨rfl, _⟩ := hh
    cases known with
    | false =>
      simp only [outputInsn, Bool.not_false, if_true]
      exact inv_same h _ (by simp [Opens, Closes]) (by simp [note])
    | true =>
      simp only [outputInsn, Bool.not_true, Bool.false_eq_true, if_false]
      cases hk : ss k0 with
      | none =>
        refine inv_same h _ (by simp [Opens, Closes]) ?_
        intro k s hs
        simp only [note]; rw [if_neg]; intro hkk; subst hkk; simp [hk] at hs
      | some s =>
        apply inv_note h _ _ (by simp [Opens, Closes])
        intro k
        by_cases hkk : k = k0
        · subst hkk; rw [hk]
          exact ⟨{ s with outputs := s.outputs ++ [.insn tag (ns - s.started)] }, by simp [set], rfl,
            fun hne => append_head _ hne, by simp [note, Item.key]⟩
        · cases hk2 : ss k with
          | none => simp [set, hkk, hk2]
          | some s2 => exact ⟨s2, by simp [set, hkk, hk2], rfl, fun _ => rfl, by simp [note, Ne.symm hkk]⟩
  | graph known isExit k0 ns tag =>
    simp only [handle] at hh
    cases known with
    | false =>
      simp at hh; obtain ⟨rfl, _⟩ := hh
      exact inv_same h _ (by simp [Opens, Closes]) (by simp [note])
    | true =>
      simp only [Bool.not_true, Bool.false_eq_true, if_false, Option.map_eq_some_iff, Prod.mk.injEq] at hh
      obtain ⟨ss2, hg, rfl, _⟩ := hh
      unfold outputGraph at hg
      cases hk : ss k0 with
      | none =>
        simp [hk] at hg; subst hg
        refine inv_same h _ (by simp [Opens, Closes]) ?_
        intro k s hs
        simp only [note]; rw [if_neg]; intro hkk; subst hkk; simp [hk] at hs
      | some s =>
        simp only [hk, Option.bind_eq_bind, Option.bind_eq_some_iff, Option.some.injEq] at hg
        obtain ⟨last, _, rfl⟩ := hg
        apply inv_note h _ _ (by simp [Opens, Closes])
        intro k
        have hfield : ∀ b : Bool, (if b then s.pushTstamp ns else s.popTstamp).started = s.started ∧
            (if b then s.pushTstamp ns else s.popTstamp).outputs = s.outputs := by
          intro b; cases b <;> simp [Session.pushTstamp, Session.popTstamp] <;> split <;> simp
        by_cases hkk : k = k0
        · subst hkk; rw [hk]
          refine ⟨{ (if (!isExit) = true then s.pushTstamp ns else s.popTstamp) with
              outputs := (if (!isExit) = true then s.pushTstamp ns else s.popTstamp).outputs ++
                [.graph tag (ns - last) (ns - (if (!isExit) = true then s.pushTstamp ns else s.popTstamp).started)] },
            by simp [set], (hfield _).1, ?_, ?_⟩
          · intro hne; simp only [(hfield _).2]; exact append_head _ hne
          · simp only [(hfield _).1, (hfield _).2]; simp [note, Item.key]
        · cases hk2 : ss k with
          | none => simp [set, hkk, hk2]
          | some s2 => exact ⟨s2, by simp [set, hkk, hk2], rfl, fun _ => rfl, by simp [note, Ne.symm hkk]⟩
  | func e =>
    simp only [handle] at hh
    by_cases hreq : e.requiredSession = true
    · rw [if_pos hreq] at hh
      by_cases hty : e.typ = 1
      · rw [if_pos hty] at hh
        simp only [Option.some.injEq, Prod.mk.injEq] at hh
        obtain ⟨rfl, _⟩ := hh
        have hopen : ∀ k, Opens k (.func e) ↔ k = e.sessID := by
          intro k; simp [Opens, hreq, hty]; exact eq_comm
        have hclose : ∀ k, ¬ Closes k (.func e) := by intro k; simp [Closes, hty]
        constructor
        · intro k s hs
          by_cases hk : k = e.sessID
          · simp [set, hk] at hs
            subst hs
            exact ⟨e, [], ⟨H, rfl, (hopen k).mpr hk, by simp⟩, rfl, by simp [mkSession, Item.key], by simp [mkSession]⟩
          · simp [set, hk] at hs
            obtain ⟨e', mid, ho, h1, h2, h3⟩ := h.some_ k s hs
            exact ⟨e', mid ++ [.func e], ho.snoc_other (by rw [hopen]; exact hk) (hclose k), h1,
              by rw [h2]; simp [note], h3⟩
        · intro k hk e' mid ho
          by_cases hkk : k = e.sessID
          · simp [set, hkk] at hk
          · simp [set, hkk] at hk
            rcases ho.of_snoc with ⟨h1, _⟩ | ⟨_, _, m, _, hm⟩
            · exact hkk ((hopen k).mp h1)
            · exact h.none_ k hk e' m hm
      · rw [if_neg hty] at hh
        have hopen : ∀ k, ¬ Opens k (.func e) := by intro k; simp [Opens, hty]
        have hclose : ∀ k, Closes k (.func e) ↔ k = e.sessID + 1 := by
          intro k; simp only [Closes, hreq, hty, true_and, ne_eq, not_false_eq_true]; exact eq_comm
        generalize e.sessID + 1 = k1 at hh hclose
        have hdel : Inv (H ++ [.func e]) (set ss k1 none) := by
          constructor
          · intro k s hs
            by_cases hk : k = k1
            · simp [set, hk] at hs
            · simp [set, hk] at hs
              obtain ⟨e', mid, ho, h1, h2, h3⟩ := h.some_ k s hs
              exact ⟨e', mid ++ [.func e], ho.snoc_other (hopen k) (by rw [hclose]; exact hk), h1,
                by rw [h2]; simp [note], h3⟩
          · intro k hk e' mid ho
            rcases ho.of_snoc with ⟨h1, _⟩ | ⟨_, hnc, m, _, hm⟩
            · exact hopen k h1
            · rw [hclose] at hnc
              simp [set, hnc] at hk
              exact h.none_ k hk e' m hm
        cases hk : ss k1 with
        | none =>
          simp only [hk, Option.some.injEq, Prod.mk.injEq] at hh; obtain ⟨rfl, _⟩ := hh
          have : set ss k1 none = ss := by
            funext k; simp only [set]; split
            · rename_i h; rw [h, hk]
            · rfl
          rw [this] at hdel; exact hdel
        | some s =>
          simp only [hk] at hh
          split at hh <;> (simp only [Option.some.injEq, Prod.mk.injEq] at hh; obtain ⟨rfl, _⟩ := hh; exact hdel)
    · rw [if_neg hreq] at hh
      simp at hh; obtain ⟨rfl, _⟩ := hh
      exact inv_same h _ (by simp [Opens, Closes, hreq]) (by simp [note])

theorem steps_inv {d : Int} (R : List Rec) {H : List Rec} {ss ss' : Sessions} {bs : List (List Item)}
    (h : Inv H ss) (hs : steps d ss R = some (ss', bs)) : Inv (H ++ R) ss' := by
  induction R generalizing H ss bs with
  | nil => simp [steps] at hs; obtain ⟨rfl, _⟩ := hs; simpa using h
  | cons r R ih =>
    simp only [steps, Option.bind_eq_bind, Option.bind_eq_some_iff] at hs
    obtain ⟨⟨s1, out⟩, h1, ⟨s2, b2⟩, h2, h3⟩ := hs
    simp only [Option.some.injEq, Prod.mk.injEq] at h3
    obtain ⟨rfl, _⟩ := h3
    have := ih (handle_inv h h1) h2
    simpa using this

/-- **C19, soundness.** After any history `H`, if processing a session exit `x` prints a block, then the
call it ends is open: the block starts with the text of its entry event, continues with the texts
of the instruction and graph events of that very call, in order, and ends with the text of `x`
annotated with the time between the two; and the duration reached the threshold. -/
theorem exit_paired {d : Int} {H : List Rec} {ss ss' : Sessions} {bs : List (List Item)} {x : FuncEv}
    {b : List Item} (hH : steps d newSessions H = some (ss, bs))
    (hx : Closes (x.sessID + 1) (.func x)) (hb : handle d ss (.func x) = some (ss', some b)) :
    ∃ e mid, IsOpen H (x.sessID + 1) e mid ∧ x.typ = 2 ∧
      b.map Item.key = (e.tag, none) :: mid.filterMap (note (x.sessID + 1) e.kernNs) ++
        [(x.tag, some (x.kernNs - e.kernNs))] ∧
      b.head? = some (.func e.tag none) ∧
      b.getLast? = some (.func x.tag (some (x.kernNs - e.kernNs))) ∧
      d ≤ ((x.kernNs - e.kernNs).toNat : Int) := by
  have hinv : Inv H ss := by simpa using steps_inv H inv_init hH
  simp only [Closes] at hx
  obtain ⟨hreq, hty, _⟩ := hx
  simp only [handle, hreq, if_true, hty, if_false] at hb
  cases hk : ss (x.sessID + 1) with
  | none => simp only [hk, Option.some.injEq, Prod.mk.injEq, reduceCtorEq, and_false] at hb
  | some s =>
    simp only [hk] at hb
    obtain ⟨e, mid, ho, h1, h2, h3⟩ := hinv.some_ _ s hk
    split at hb
    · simp at hb
    · rename_i hd
      simp only [Option.some.injEq, Prod.mk.injEq] at hb
      by_cases h2t : x.typ = 2
      · simp [h2t] at hb
        obtain ⟨_, rfl⟩ := hb
        refine ⟨e, mid, ho, h2t, ?_, ?_, ?_, ?_⟩
        · simp [h2, Item.key, h1]
        · rw [append_head]
          · exact h3
          · intro h0; simp [h0] at h3
        · simp [h1]
        · rw [← h1]; omega
      · simp [h2t] at hb

/-- **C19, completeness.** If the call is open and its duration reaches the threshold, its exit prints a
block; and if no such call is open (unmatched exit), nothing is printed. -/
theorem exit_reported_iff {d : Int} {H : List Rec} {ss : Sessions} {bs : List (List Item)} {x : FuncEv}
    (hH : steps d newSessions H = some (ss, bs)) (hreq : x.requiredSession = true) (hty : x.typ = 2) :
    (∃ ss' b, handle d ss (.func x) = some (ss', some b)) ↔
      ∃ e mid, IsOpen H (x.sessID + 1) e mid ∧ d ≤ ((x.kernNs - e.kernNs).toNat : Int) := by
  have hcl : Closes (x.sessID + 1) (.func x) := ⟨hreq, by omega, rfl⟩
  constructor
  · rintro ⟨ss', b, hb⟩
    obtain ⟨e, mid, ho, _, _, _, _, hd⟩ := exit_paired hH hcl hb
    exact ⟨e, mid, ho, hd⟩
  · rintro ⟨e, mid, ho, hd⟩
    have hinv : Inv H ss := by simpa using steps_inv H inv_init hH
    cases hk : ss (x.sessID + 1) with
    | none => exact absurd ho (hinv.none_ _ hk e mid)
    | some s =>
      obtain ⟨e', mid', ho', h1, _⟩ := hinv.some_ _ s hk
      obtain ⟨rfl, _⟩ := ho.unique ho'
      have hd' : ¬ ((x.kernNs - s.started).toNat : Int) < d := by rw [h1]; omega
      have h1' : ¬ x.typ = 1 := by omega
      simp only [handle, hreq, if_true, h1', if_false, hk, hd']
      simp [hty]

/-- **C19, which events wait for a session.** A function event is printed at once, alone and without a
duration, exactly when its tracee has neither instruction nor session mode and, unless it is a
tracepoint, neither graph nor both mode; the session table is then left alone. Any other entry event
prints nothing by itself. -/
theorem printed_at_once_iff (d : Int) (ss : Sessions) (e : FuncEv) :
    ((e.insnMode = false ∧ e.session = false ∧ (e.isTp = true ∨ (e.isGraph = false ∧ e.bothMode = false))) →
      handle d ss (.func e) = some (ss, some [.func e.tag none])) ∧
    (¬ (e.insnMode = false ∧ e.session = false ∧ (e.isTp = true ∨ (e.isGraph = false ∧ e.bothMode = false))) →
      (e.typ = 1 → ∃ ss', handle d ss (.func e) = some (ss', none)) ∧
      (e.typ ≠ 1 → ss (e.sessID + 1) = none → handle d ss (.func e) = some (ss, none))) := by
  have hreq : e.requiredSession = true ↔
      ¬ (e.insnMode = false ∧ e.session = false ∧ (e.isTp = true ∨ (e.isGraph = false ∧ e.bothMode = false))) := by
    unfold FuncEv.requiredSession
    cases e.insnMode <;> cases e.isGraph <;> cases e.isTp <;> cases e.bothMode <;> cases e.session <;> simp
  constructor
  · intro h
    have h' : e.requiredSession = false := by
      cases hr : e.requiredSession with
      | false => rfl
      | true => exact absurd h (hreq.mp hr)
    simp [handle, h']
  · intro h
    have h' := hreq.mpr h
    constructor
    · intro ht; exact ⟨_, by simp only [handle, h', if_true, ht]; rfl⟩
    · intro ht hn; simp only [handle, h', if_true, ht, if_false, hn]

/-- **C19, once.** Two different exits never print the same entry: after an exit of a call is processed
that call is no longer open, whatever follows, until a new entry with the same id arrives. -/
theorem not_reported_twice {H₁ H₂ : List Rec} {x : Rec} {k : BitVec 64} (hx : Closes k x)
    {e : FuncEv} {mid : List Rec} (ho : IsOpen (H₁ ++ x :: H₂) k e mid) :
    ∃ a, mid.length < H₂.length ∧ H₂ = a ++ .func e :: mid := by
  obtain ⟨p, hp, hop, hm⟩ := ho
  have hp2 : (H₁ ++ [x]) ++ H₂ = p ++ (.func e :: mid) := by simpa using hp
  rcases List.append_eq_append_iff.mp hp2 with ⟨a, h1, h2⟩ | ⟨c, h1, h2⟩
  · refine ⟨a, ?_, h2⟩
    rw [h2]; simp; omega
  · rcases List.eq_nil_or_concat c with rfl | ⟨c', y, rfl⟩
    · simp at h2
      exact ⟨[], by rw [← h2]; simp, by simp [h2]⟩
    · exfalso
      rw [List.concat_eq_append] at h1 h2
      have h1' : H₁ ++ [x] = (p ++ c') ++ [y] := by simpa using h1
      have := (List.append_inj' h1' rfl).2
      simp at this
      subst this
      cases c' with
      | nil =>
        simp at h2
        rw [← h2.1] at hx
        simp [Closes] at hx
        simp [Opens] at hop
        exact hx.2.1 hop.2.1
      | cons z c' =>
        simp at h2
        exact (hm x (by rw [h2.2]; simp)).2 hx

/-! ### C21 -/

theorem sub_ofNat (a b : Nat) (h : a ≤ b) (hd : b - a < 2 ^ 32) :
    (BitVec.ofNat 32 b - BitVec.ofNat 32 a).toNat = b - a := by
  simp only [BitVec.toNat_sub, BitVec.toNat_ofNat]
  omega

/-- **C21.** Let the entry of the reported call have been stamped at real time `t₀` and its exit at `t₁`
(the kernel keeps the low 32 bits of the nanosecond clock). If the call took less than 2^32 ns, the
printed duration is exactly `t₁ - t₀`, and it is at least the threshold. *Missing*: longer calls, see
`duration_wraps_violated`. -/
theorem duration_exact_partial {d : Int} {H : List Rec} {ss ss' : Sessions} {bs : List (List Item)}
    {x : FuncEv} {b : List Item} (hH : steps d newSessions H = some (ss, bs))
    (hx : Closes (x.sessID + 1) (.func x)) (hb : handle d ss (.func x) = some (ss', some b))
    (t₀ t₁ : Nat) (hle : t₀ ≤ t₁) (hlt : t₁ - t₀ < 2 ^ 32) (h1 : x.kernNs = BitVec.ofNat 32 t₁)
    (h0 : ∀ e mid, IsOpen H (x.sessID + 1) e mid → e.kernNs = BitVec.ofNat 32 t₀) :
    ∃ v, b.getLast? = some (.func x.tag (some v)) ∧ v.toNat = t₁ - t₀ ∧ d ≤ ((t₁ - t₀ : Nat) : Int) := by
  obtain ⟨e, mid, ho, _, _, _, hl, hd⟩ := exit_paired hH hx hb
  have he := h0 e mid ho
  have hv : (x.kernNs - e.kernNs).toNat = t₁ - t₀ := by
    rw [h1, he]; exact sub_ofNat t₀ t₁ hle hlt
  exact ⟨_, hl, hv, by rw [← hv]; exact hd⟩

/-- **C21, suppression.** A call shorter than the threshold (and than 2^32 ns) is not reported. -/
theorem short_call_suppressed {d : Int} {H : List Rec} {ss : Sessions} {bs : List (List Item)}
    {x : FuncEv} (hH : steps d newSessions H = some (ss, bs))
    (hreq : x.requiredSession = true) (hty : x.typ = 2)
    (t₀ t₁ : Nat) (hle : t₀ ≤ t₁) (hlt : t₁ - t₀ < 2 ^ 32) (h1 : x.kernNs = BitVec.ofNat 32 t₁)
    (h0 : ∀ e mid, IsOpen H (x.sessID + 1) e mid → e.kernNs = BitVec.ofNat 32 t₀)
    (hshort : ((t₁ - t₀ : Nat) : Int) < d) :
    ∀ ss' b, handle d ss (.func x) ≠ some (ss', some b) := by
  intro ss' b hb
  have hcl : Closes (x.sessID + 1) (.func x) := ⟨hreq, by omega, rfl⟩
  obtain ⟨e, mid, ho, _, _, _, _, hd⟩ := exit_paired hH hcl hb
  have he := h0 e mid ho
  have hv : (x.kernNs - e.kernNs).toNat = t₁ - t₀ := by
    rw [h1, he]; exact sub_ofNat t₀ t₁ hle hlt
  rw [hv] at hd
  omega

/-- Entry and exit events used as witnesses below. -/
def entryEv (ns : Nat) : FuncEv := ⟨1, BitVec.ofNat 32 ns, 0x1001, false, false, false, true, false, 1⟩
def exitEv (ns : Nat) : FuncEv := ⟨2, BitVec.ofNat 32 ns, 0x1000, false, false, false, true, false, 2⟩

/-- **C21 is violated beyond 2^32 ns** (4.29 s): a call of 5 s is printed as 0.705 s, and with a
threshold of one second it is suppressed altogether. -/
theorem duration_wraps_violated :
    run 0 0 [.func (entryEv 0), .func (exitEv 5000000000)] =
      some ([[.func 1 none, .func 2 (some (BitVec.ofNat 32 705032704))]], .closed) ∧
    run 1000000000 0 [.func (entryEv 0), .func (exitEv 5000000000)] = some ([], .closed) := by
  rw [run_unlimited, run_unlimited]
  decide

/-! ### Graph events: own cost of a call -/

/-- The time stamps of the enclosing calls, innermost last, as `outputGraphEvent` keeps them for key
`k`: entries push, exits pop, the session's own stamp stays. -/
def stampsOf (k : BitVec 64) : List (BitVec 32) → List Rec → List (BitVec 32)
  | st, [] => st
  | st, .graph true false k' ns _ :: rs =>
    if k' = k then stampsOf k (st ++ [ns]) rs else stampsOf k st rs
  | st, .graph true true k' _ _ :: rs =>
    if k' = k then stampsOf k (if st.length = 1 then st else st.dropLast) rs else stampsOf k st rs
  | st, _ :: rs => stampsOf k st rs

/-- The graph events of key `k` in a record list: `true` = entry. -/
def graphEvents (k : BitVec 64) (rs : List Rec) : List Bool :=
  rs.filterMap fun r => match r with
    | .graph true isExit k' _ _ => if k' = k then some (!isExit) else none
    | _ => none

/-- Well nested: every exit matches an earlier entry and all entries are matched. -/
inductive Balanced : List Bool → Prop
  | nil : Balanced []
  | wrap {a b} : Balanced a → Balanced b → Balanced (true :: a ++ false :: b)

theorem stampsOf_append (k : BitVec 64) (st : List (BitVec 32)) (a b : List Rec) :
    stampsOf k st (a ++ b) = stampsOf k (stampsOf k st a) b := by
  fun_induction stampsOf k st a <;> simp_all [stampsOf]

theorem graphEvents_append (k : BitVec 64) (a b : List Rec) :
    graphEvents k (a ++ b) = graphEvents k a ++ graphEvents k b := by
  simp [graphEvents, List.filterMap_append]

/-- Split a record list at the graph event that yields a given element. -/
theorem graphEvents_split (k : BitVec 64) (rs : List Rec) (x : Bool) (l₁ l₂ : List Bool)
    (h : graphEvents k rs = l₁ ++ x :: l₂) :
    ∃ r₁ ns tag r₂, rs = r₁ ++ .graph true (!x) k ns tag :: r₂ ∧ graphEvents k r₁ = l₁ ∧
      graphEvents k r₂ = l₂ := by
  induction rs generalizing l₁ with
  | nil => simp [graphEvents] at h
  | cons r rs ih =>
    rw [show r :: rs = [r] ++ rs from rfl, graphEvents_append] at h
    by_cases hr : graphEvents k [r] = []
    · rw [hr, List.nil_append] at h
      obtain ⟨r₁, ns, tag, r₂, h1, h2, h3⟩ := ih l₁ h
      exact ⟨r :: r₁, ns, tag, r₂, by simp [h1], by
        rw [show r :: r₁ = [r] ++ r₁ from rfl, graphEvents_append, hr, h2]; rfl, h3⟩
    · cases r with
      | graph known isExit k' ns tag =>
        cases known with
        | false => simp [graphEvents] at hr
        | true =>
          by_cases hk : k' = k
          · subst hk
            have hg : graphEvents k' [Rec.graph true isExit k' ns tag] = [!isExit] := by
              show List.filterMap _ _ = _
              rw [List.filterMap_cons_some (b := !isExit) (by simp)]; rfl
            rw [hg] at h
            cases l₁ with
            | nil =>
              simp at h
              exact ⟨[], ns, tag, rs, by simp [← h.1], rfl, h.2⟩
            | cons y l₁ =>
              simp at h
              obtain ⟨r₁, ns', tag', r₂, h1, h2, h3⟩ := ih l₁ h.2
              exact ⟨_ :: r₁, ns', tag', r₂, by rw [h1]; rfl, by
                rw [show ∀ z : Rec, z :: r₁ = [z] ++ r₁ from fun _ => rfl, graphEvents_append, hg, h2, h.1]; simp, h3⟩
          · simp [graphEvents, hk] at hr
      | func e => simp [graphEvents] at hr
      | insn _ _ _ _ => simp [graphEvents] at hr
      | short => simp [graphEvents] at hr

theorem stampsOf_no_events (k : BitVec 64) (st : List (BitVec 32)) (rs : List Rec)
    (h : graphEvents k rs = []) : stampsOf k st rs = st := by
  fun_induction stampsOf k st rs with
  | case1 => rfl
  | case2 => simp [graphEvents] at h
  | case3 st k' ns tag rs hk ih => exact ih (by simpa [graphEvents, hk] using h)
  | case4 => simp [graphEvents] at h
  | case5 st k' ns tag rs hk ih => exact ih (by simpa [graphEvents, hk] using h)
  | case6 st r rs h1 h2 ih =>
    refine ih ?_
    rw [show r :: rs = [r] ++ rs from rfl, graphEvents_append] at h
    exact (List.append_eq_nil_iff.mp h).2

/-- A well-nested run of graph events leaves the stamps as they were. -/
theorem stampsOf_balanced (k : BitVec 64) {evs : List Bool} (hb : Balanced evs) :
    ∀ (st : List (BitVec 32)) (rs : List Rec), st ≠ [] → graphEvents k rs = evs → stampsOf k st rs = st := by
  induction hb with
  | nil => intro st rs _ h; exact stampsOf_no_events k st rs h
  | @wrap a b _ _ iha ihb =>
    intro st rs hst h
    obtain ⟨r₁, ns₁, t₁, r', h1, h2, h3⟩ := graphEvents_split k rs true [] (a ++ false :: b) (by simpa using h)
    obtain ⟨r₂, ns₂, t₂, r₃, h4, h5, h6⟩ := graphEvents_split k r' false a b h3
    subst h1 h4
    rw [stampsOf_append, stampsOf_no_events k st r₁ h2]
    simp only [Bool.not_true, stampsOf, if_true]
    rw [stampsOf_append, iha _ r₂ (by simp) h5]
    simp only [Bool.not_false, stampsOf, if_true]
    have : (st ++ [ns₁]).length ≠ 1 := by
      cases st <;> simp_all
    rw [if_neg this, List.dropLast_concat]
    exact ihb st r₃ hst h6

/-- The stored stamps of an open graph session are those of the specification. -/
def StampInv (H : List Rec) (ss : Sessions) : Prop :=
  ∀ k s, ss k = some s → ∀ e mid, IsOpen H k e mid → e.isGraph = true →
    s.tstamps = stampsOf k [e.kernNs] mid ∧ s.tstamps.length = s.lastidx + 1

theorem stampsOf_skip (k : BitVec 64) (st : List (BitVec 32)) (r : Rec) (rs : List Rec)
    (h : graphEvents k [r] = []) : stampsOf k st (r :: rs) = stampsOf k st rs := by
  rw [show r :: rs = [r] ++ rs from rfl, stampsOf_append, stampsOf_no_events k st [r] h]

theorem stamp_keep {H : List Rec} {ss ss' : Sessions} {r : Rec} (h : StampInv H ss)
    (hr : ∀ k s', ss' k = some s' → graphEvents k [r] = [] ∧
      ((Opens k r ∧ ∀ e, r = .func e → e.isGraph = true → s'.tstamps = [e.kernNs] ∧ s'.lastidx = 0) ∨
       (¬ Opens k r ∧ ∃ s, ss k = some s ∧ s'.tstamps = s.tstamps ∧ s'.lastidx = s.lastidx))) :
    StampInv (H ++ [r]) ss' := by
  intro k s' hs' e mid ho hg
  obtain ⟨hge, hcase⟩ := hr k s' hs'
  rcases ho.of_snoc with ⟨h1, rfl, rfl⟩ | ⟨h1, _, m, rfl, hm⟩
  · rcases hcase with ⟨_, hc⟩ | ⟨hc, _⟩
    · obtain ⟨ht, hl⟩ := hc e rfl hg
      simp [ht, hl, stampsOf]
    · exact absurd h1 hc
  · rcases hcase with ⟨hc, _⟩ | ⟨_, s, hs, ht, hl⟩
    · exact absurd hc h1
    · obtain ⟨h2, h3⟩ := h k s hs e m hm hg
      rw [ht, hl]
      refine ⟨?_, h3⟩
      rw [stampsOf_append, stampsOf_no_events k _ [r] hge, h2]

theorem handle_stamp {d : Int} {H : List Rec} {ss ss' : Sessions} {r : Rec} {out : Option (List Item)}
    (hi : Inv H ss) (h : StampInv H ss) (hh : handle d ss r = some (ss', out)) : StampInv (H ++ [r]) ss' := by
  cases r with
  | short =>
    simp [handle] at hh; obtain ⟨rfl, _⟩ := hh
    exact stamp_keep h fun k s' hs' => ⟨by simp [graphEvents], .inr ⟨by simp [Opens], s', hs', rfl, rfl⟩⟩
  | insn known k0 ns tag =>
    simp [handle] at hh; obtain ⟨rfl, _⟩ := hh
    apply stamp_keep h
    intro k s' hs'
    refine ⟨by simp [graphEvents], .inr ⟨by simp [Opens], ?_⟩⟩
    unfold outputInsn at hs'
    split at hs'
    · exact ⟨s', hs', rfl, rfl⟩
    · cases hs : ss k0 with
      | none => simp only [hs] at hs'; exact ⟨s', hs', rfl, rfl⟩
      | some s =>
        simp only [hs] at hs'
        by_cases hk : k = k0
        · subst hk; simp [set] at hs'; subst hs'; exact ⟨s, hs, rfl, rfl⟩
        · simp [set, hk] at hs'; exact ⟨s', hs', rfl, rfl⟩
  | graph known isExit k0 ns tag =>
    simp only [handle] at hh
    cases known with
    | false =>
      simp at hh; obtain ⟨rfl, _⟩ := hh
      exact stamp_keep h fun k s' hs' => ⟨by simp [graphEvents], .inr ⟨by simp [Opens], s', hs', rfl, rfl⟩⟩
    | true =>
      simp only [Bool.not_true, Bool.false_eq_true, if_false, Option.map_eq_some_iff, Prod.mk.injEq] at hh
      obtain ⟨ss2, hg, rfl, _⟩ := hh
      unfold outputGraph at hg
      cases hk0 : ss k0 with
      | none =>
        simp [hk0] at hg; subst hg
        intro k s' hs' e mid ho hgr
        rcases ho.of_snoc with ⟨h1, _⟩ | ⟨h1, _, m, rfl, hm⟩
        · simp [Opens] at h1
        · have hkk : k ≠ k0 := by rintro rfl; simp [hk0] at hs'
          obtain ⟨h2, h3⟩ := h k s' hs' e m hm hgr
          rw [stampsOf_append, stampsOf_no_events k _ _ (by simp [graphEvents, Ne.symm hkk])]
          exact ⟨h2, h3⟩
      | some s =>
        simp only [hk0, Option.bind_eq_bind, Option.bind_eq_some_iff, Option.some.injEq] at hg
        obtain ⟨last, hlast, rfl⟩ := hg
        intro k s' hs' e mid ho hgr
        rcases ho.of_snoc with ⟨h1, _⟩ | ⟨h1, _, m, rfl, hm⟩
        · simp [Opens] at h1
        · by_cases hkk : k = k0
          · subst hkk
            obtain ⟨h2, h3⟩ := h k s hk0 e m hm hgr
            simp only [set, if_true, Option.some.injEq] at hs'
            rw [stampsOf_append, ← h2]
            cases isExit with
            | false =>
              simp only [stampsOf, if_true]
              simp only [Bool.not_false, if_true, Session.pushTstamp] at hs'
              subst hs'
              simp [h3]
            | true =>
              simp only [stampsOf, if_true]
              simp only [Bool.not_true, Bool.false_eq_true, if_false, Session.popTstamp] at hs'
              split at hs'
              · rename_i hl
                subst hs'
                have : s.tstamps.length = 1 := by omega
                simp [this, hl]
              · rename_i hl
                subst hs'
                have : s.tstamps.length ≠ 1 := by omega
                simp only [this, if_false]
                rw [List.dropLast_eq_take, h3]
                simp
                omega
          · simp only [set, hkk, if_false] at hs'
            obtain ⟨h2, h3⟩ := h k s' hs' e m hm hgr
            rw [stampsOf_append, stampsOf_no_events k _ _ (by simp [graphEvents, Ne.symm hkk])]
            exact ⟨h2, h3⟩
  | func e =>
    simp only [handle] at hh
    by_cases hreq : e.requiredSession = true
    · rw [if_pos hreq] at hh
      by_cases hty : e.typ = 1
      · rw [if_pos hty] at hh
        simp only [Option.some.injEq, Prod.mk.injEq] at hh
        obtain ⟨rfl, _⟩ := hh
        apply stamp_keep h
        intro k s' hs'
        refine ⟨by simp [graphEvents], ?_⟩
        by_cases hk : k = e.sessID
        · left
          refine ⟨⟨hreq, hty, hk.symm⟩, ?_⟩
          intro e' he' hg
          simp at he'; subst he'
          simp [set, hk] at hs'; subst hs'
          simp [mkSession, hg]
        · right
          refine ⟨?_, s', ?_, rfl, rfl⟩
          · rintro ⟨_, _, h3⟩; exact hk h3.symm
          · simpa [set, hk] using hs'
      · rw [if_neg hty] at hh
        have hno : ∀ k, ¬ Opens k (.func e) := by intro k; simp [Opens, hty]
        generalize e.sessID + 1 = k1 at hh
        have hsub : ∀ k s', ss' k = some s' → ss k = some s' := by
          intro k s' hs'
          have hd : ∀ s'', set ss k1 none k = some s'' → ss k = some s'' := by
            intro s'' h2
            simp only [set] at h2; split at h2
            · simp at h2
            · exact h2
          cases hk : ss k1 with
          | none => simp only [hk, Option.some.injEq, Prod.mk.injEq] at hh; obtain ⟨rfl, _⟩ := hh; exact hs'
          | some s =>
            simp only [hk] at hh
            split at hh <;> (simp only [Option.some.injEq, Prod.mk.injEq] at hh; obtain ⟨rfl, _⟩ := hh; exact hd _ hs')
        exact stamp_keep h fun k s' hs' => ⟨by simp [graphEvents], .inr ⟨hno k, s', hsub k s' hs', rfl, rfl⟩⟩
    · rw [if_neg hreq] at hh
      simp at hh; obtain ⟨rfl, _⟩ := hh
      exact stamp_keep h fun k s' hs' => ⟨by simp [graphEvents],
        .inr ⟨by simp [Opens, hreq], s', hs', rfl, rfl⟩⟩

theorem steps_stamp {d : Int} (R : List Rec) {H : List Rec} {ss ss' : Sessions} {bs : List (List Item)}
    (hi : Inv H ss) (h : StampInv H ss) (hs : steps d ss R = some (ss', bs)) : StampInv (H ++ R) ss' := by
  induction R generalizing H ss bs with
  | nil => simp [steps] at hs; obtain ⟨rfl, _⟩ := hs; simpa using h
  | cons r R ih =>
    simp only [steps, Option.bind_eq_bind, Option.bind_eq_some_iff] at hs
    obtain ⟨⟨s1, out⟩, h1, ⟨s2, b2⟩, h2, h3⟩ := hs
    simp only [Option.some.injEq, Prod.mk.injEq] at h3
    obtain ⟨rfl, _⟩ := h3
    have := ih (handle_inv hi h1) (handle_stamp hi h h1) h2
    simpa using this

/-- **C43.** In an open graph session, the exit of a nested call is printed with that call's own
duration: if since the entry of the nested call only well-nested graph events of the session arrived,
the item appended for the exit carries `exit - entry` of the nested call and `exit - start` of the
session. -/
theorem graph_exit_own_cost {d : Int} {H : List Rec} {ss : Sessions} {bs : List (List Item)}
    {k : BitVec 64} {e : FuncEv} {a inner : List Rec} {n₁ n₂ : BitVec 32} {t₁ t₂ : Nat}
    (hH : steps d newSessions H = some (ss, bs))
    (ho : IsOpen H k e (a ++ .graph true false k n₁ t₁ :: inner)) (hg : e.isGraph = true)
    (hbal : Balanced (graphEvents k inner)) :
    ∃ ss' s s', ss k = some s ∧ handle d ss (.graph true true k n₂ t₂) = some (ss', none) ∧
      ss' k = some s' ∧ s'.outputs = s.outputs ++ [.graph t₂ (n₂ - n₁) (n₂ - e.kernNs)] := by
  have hinv : Inv H ss := by simpa using steps_inv H inv_init hH
  have hst : StampInv H ss := by
    simpa using steps_stamp H inv_init (by intro k s hs; simp [newSessions] at hs) hH
  cases hk : ss k with
  | none => exact absurd ho (hinv.none_ _ hk _ _)
  | some s =>
    obtain ⟨e', mid', ho', h1, _⟩ := hinv.some_ _ s hk
    obtain ⟨rfl, rfl⟩ := ho.unique ho'
    obtain ⟨h2, h3⟩ := hst k s hk _ _ ho hg
    have hlast : s.lastTstamp = some n₁ := by
      rw [stampsOf_append] at h2
      simp only [stampsOf, if_true] at h2
      rw [stampsOf_balanced k hbal _ _ (by simp) rfl] at h2
      have hlen : s.lastidx = (stampsOf k [e.kernNs] a).length := by
        have := congrArg List.length h2
        simp at this; omega
      unfold Session.lastTstamp
      rw [h2, hlen]; simp
    have hstart : s.popTstamp.started = s.started ∧ s.popTstamp.outputs = s.outputs := by
      unfold Session.popTstamp; split <;> simp
    refine ⟨_, s, _, rfl, by simp [handle, outputGraph, hk, hlast]; rfl, by simp [set]; rfl, ?_⟩
    simp [hstart.1, hstart.2, h1]

/-- **No panic.** If every graph event that arrives while its session is open belongs to a session
opened with the graph flag, the handler never panics. -/
theorem handle_no_panic {d : Int} {H : List Rec} {ss : Sessions} {bs : List (List Item)} (r : Rec)
    (hH : steps d newSessions H = some (ss, bs))
    (hr : ∀ ex k ns tag, r = .graph true ex k ns tag → ∀ e mid, IsOpen H k e mid → e.isGraph = true) :
    handle d ss r ≠ none := by
  have hinv : Inv H ss := by simpa using steps_inv H inv_init hH
  have hst : StampInv H ss := by
    simpa using steps_stamp H inv_init (by intro k s hs; simp [newSessions] at hs) hH
  cases r with
  | short => simp [handle]
  | insn => simp [handle]
  | graph known ex k ns tag =>
    cases known with
    | false => simp [handle]
    | true =>
      simp only [handle, Bool.not_true, Bool.false_eq_true, if_false, ne_eq, Option.map_eq_none_iff, outputGraph]
      cases hk : ss k with
      | none => simp
      | some s =>
        obtain ⟨e, mid, ho, _⟩ := hinv.some_ _ s hk
        have hg := hr ex k ns tag rfl e mid ho
        obtain ⟨_, h3⟩ := hst k s hk e mid ho hg
        have : s.lastTstamp = some (s.tstamps[s.lastidx]'(by omega)) := by
          unfold Session.lastTstamp; simp
        simp [this]
  | func e =>
    simp only [handle]
    split
    · split
      · simp
      · split
        · simp
        · split <;> simp
    · simp

/-- **Violation**: a graph event for a session opened without the graph flag crashes the tool. -/
theorem graph_on_plain_session_violated :
    run 0 0 [.func (entryEv 5), .graph true false 0x1001 9 3] = none := by
  rw [run_unlimited]; decide

/-! ### The premises are met -/

/-- Two interleaved calls with instruction and graph events; both are reported, each with its own
events. -/
def demo : List Rec :=
  let en (k ns t : Nat) : Rec := .func ⟨1, BitVec.ofNat 32 ns, BitVec.ofNat 64 k, false, true, false, true, false, t⟩
  let ex (k ns t : Nat) : Rec := .func ⟨2, BitVec.ofNat 32 ns, BitVec.ofNat 64 (k - 1), false, true, false, true, false, t⟩
  [en 11 100 1, en 21 105 2, .graph true false 11 110 3, .graph true false 11 112 4, .graph true true 11 113 5,
   .insn true 21 120 6 , .graph true true 11 130 7, ex 11 150 8, ex 21 160 9, ex 11 170 10]

example : run 0 0 demo = some
    ([[.func 1 none, .graph 3 10 10, .graph 4 2 12, .graph 5 1 13, .graph 7 20 30, .func 8 (some 50)],
      [.func 2 none, .insn 6 15, .func 9 (some 55)]], .closed) := by
  rw [run_unlimited]; decide

example : Balanced [true, true, false, false, true, false] :=
  .wrap (.wrap .nil .nil) (.wrap .nil .nil)

end Bpfsnoop.Run
