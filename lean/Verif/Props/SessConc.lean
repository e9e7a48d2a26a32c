import Verif.Model.SessConc
import Verif.Props.KSess
/-
C92: the sessions of calls when programs interrupt each other.
-/
namespace Bpfsnoop.Sc
open KSess (Key Sess slot setId)

/-! ### What is assumed -/

/-- The run has not got its session id yet. -/
def Run.live (r : Run) : Prop := ∀ v, r.pc ≠ .done v

/-- The run is between its first write of the buffer of its CPU and the update of the map. -/
def Run.inBuf (r : Run) : Prop := r.pc = .zeroed ∨ r.pc = .filled

/-- The kernel's part: the element it uses for a new key is not in use. -/
def Kernel (w : World) : List Act → Prop
  | [] => True
  | x :: xs => (∀ i a, x = .go i a false → ∀ r, w.runs i = some r → r.pc = .filled → ∀ k, w.map k ≠ some a) ∧ Kernel (step w x) xs

/-- The interruptions allowed: programs of different tasks or functions interrupt each other anywhere, on one CPU or on many, but
* no program starts for a task and a function while another one of the same task and function is not through (a task does one thing at a time:
  this excludes interrupts that call the same function again while its program runs);
* no program writes the buffer of its CPU while another one there is between filling it and the update of the map. -/
def Calm (w : World) : List Act → Prop
  | [] => True
  | x :: xs =>
    (match x with
      | .start i _ k _ => w.runs i = none ∧ ∀ j r, w.runs j = some r → r.live → r.key ≠ k
      | .go i _ _ => ∀ r, w.runs i = some r → (r.pc = .fresh ∨ r.pc = .zeroed) →
          ∀ j r', w.runs j = some r' → j ≠ i → r'.inBuf → r'.cpu ≠ r.cpu) ∧ Calm (step w x) xs

/-! ### Refinement of the atomic model -/

/-- What a call is for `KSess`. -/
def callOf : KSess.Op → Key × Kind
  | .enter k sid pass _ _ => (k, .enter sid pass)
  | .exit k => (k, .exit)
  | .insn k => (k, .look)

/-- The update of the map fails. -/
def isFull : KSess.Op → Bool
  | .enter _ _ _ _ full => full
  | _ => false

/-- What is known of an unfinished run; `A` is the state of the atomic model. -/
def Local (w : World) (A : KSess.Map) (r : Run) : Prop :=
  match r.kind, r.pc with
  | _, .start => A r.key = (w.map r.key).map w.mem
  | .enter _ false, _ => False
  | _, .found p => w.map r.key = some p ∧ A r.key = some (w.mem p)
  | _, .read p d => w.map r.key = some p ∧ A r.key = some (w.mem p) ∧ d = (w.mem p).depth
  | .enter _ true, .wrote p d => w.map r.key = some p ∧ ∃ s : Sess, A r.key = some s ∧ d = s.depth ∧ w.mem p = ⟨d + 1, s.ids⟩
  | .enter _ true, .fresh => w.map r.key = none ∧ A r.key = none
  | .enter _ true, .zeroed => w.map r.key = none ∧ A r.key = none ∧ (w.buf r.cpu).depth = 0
  | .enter sid true, .filled => w.map r.key = none ∧ A r.key = none ∧ (w.buf r.cpu).depth = 0 ∧ (w.buf r.cpu).ids 0 = sid
  | .exit, .got p d v => w.map r.key = some p ∧ A r.key = some (w.mem p) ∧ d = (w.mem p).depth ∧ v = (w.mem p).ids (slot d)
  | _, _ => False

structure Inv (w : World) (A : KSess.Map) : Prop where
  rest : ∀ k, (∀ j r, w.runs j = some r → r.live → r.key ≠ k) → A k = (w.map k).map w.mem
  loc : ∀ j r, w.runs j = some r → r.live → Local w A r
  inj : ∀ k k' p, w.map k = some p → w.map k' = some p → k = k'
  one : ∀ i j r r', w.runs i = some r → w.runs j = some r' → r.live → r'.live → r.key = r'.key → i = j

theorem set_same {α β : Type} [DecidableEq α] (f : α → β) (a : α) (b : β) : set f a b a = b := if_pos rfl
theorem set_ne {α β : Type} [DecidableEq α] (f : α → β) {a x : α} (b : β) (h : x ≠ a) : set f a b x = f x := if_neg h

theorem local_congr {w w' : World} {A A' : KSess.Map} {r : Run} (hm : w'.map r.key = w.map r.key)
    (he : ∀ p, w.map r.key = some p → w'.mem p = w.mem p) (hA : A' r.key = A r.key) (hb : r.inBuf → w'.buf r.cpu = w.buf r.cpu)
    (h : Local w A r) : Local w' A' r := by
  obtain ⟨c, k, q, pc⟩ := r
  cases pc with
  | start =>
    have h' : A k = (w.map k).map w.mem := by simpa only [Local] using h
    have : A' k = (w'.map k).map w'.mem := by
      simp only at hm hA he
      rw [hm, hA, h']
      cases hk : w.map k with
      | none => rfl
      | some p => simp only [Option.map_some, he p hk]
    simpa only [Local] using this
  | _ =>
    cases q with
    | enter sid b =>
      cases b <;> simp_all [Local, Run.inBuf] <;> first
        | done
        | (obtain ⟨h1, h2⟩ := h; simp_all)
    | _ => simp_all [Local, Run.inBuf] <;> first
        | done
        | (obtain ⟨h1, h2⟩ := h; simp_all)

theorem frame {w w' : World} {A A' : KSess.Map} {i : Nat} {r r' : Run} (h : Inv w A) (hi : w.runs i = some r) (hl : r.live)
    (hr : w'.runs = set w.runs i (some r')) (hk : r'.key = r.key)
    (hm : ∀ k, k ≠ r.key → w'.map k = w.map k)
    (he : ∀ k p, k ≠ r.key → w.map k = some p → w'.mem p = w.mem p)
    (hb : ∀ j r'', w.runs j = some r'' → j ≠ i → r''.inBuf → w'.buf r''.cpu = w.buf r''.cpu)
    (hA : ∀ k, k ≠ r.key → A' k = A k)
    (hj : ∀ k p, w'.map r.key = some p → k ≠ r.key → w.map k ≠ some p)
    (hloc : r'.live → Local w' A' r')
    (hdone : ¬ r'.live → A' r.key = (w'.map r.key).map w'.mem) : Inv w' A' := by
  have hother : ∀ j r'', j ≠ i → w'.runs j = some r'' → w.runs j = some r'' := by
    intro j r'' hne hj'
    rwa [hr, set_ne _ _ hne] at hj'
  have hself : w'.runs i = some r' := by rw [hr, set_same]
  refine ⟨fun k hk' => ?_, fun j r'' hj' hl' => ?_, fun k k' p h1 h2 => ?_, fun x y rx ry hx hy lx ly hxy => ?_⟩
  · by_cases e : k = r.key
    · subst e
      exact hdone fun hl' => hk' i r' hself hl' hk
    · rw [hA k e, hm k e, h.rest k fun j r'' hj' hl' => ?_]
      · cases hq : w.map k with
        | none => rfl
        | some p => simp only [Option.map_some, he k p e hq]
      · by_cases hji : j = i
        · subst hji; rw [hi] at hj'; injection hj' with hj'; subst hj'; exact fun hc => e hc.symm
        · exact hk' j r'' (by rw [hr, set_ne _ _ hji]; exact hj') hl'
  · by_cases hji : j = i
    · subst hji
      rw [hself] at hj'; injection hj' with hj'; subst hj'
      exact hloc hl'
    · have hw := hother j r'' hji hj'
      have hne : r''.key ≠ r.key := fun hc => hji (h.one j i r'' r hw hi hl' hl hc)
      exact local_congr (hm _ hne) (fun p hp => he _ p hne hp) (hA _ hne) (fun hq => hb j r'' hw hji hq) (h.loc j r'' hw hl')
  · by_cases e : k = r.key
    · subst e
      by_cases e' : k' = r.key
      · exact e'.symm
      · rw [hm k' e'] at h2
        exact absurd h2 (hj k' p h1 e')
    · by_cases e' : k' = r.key
      · subst e'
        rw [hm k e] at h1
        exact absurd h1 (hj k p h2 e)
      · rw [hm k e] at h1; rw [hm k' e'] at h2
        exact h.inj k k' p h1 h2
  · by_cases ex : x = i
    · by_cases ey : y = i
      · rw [ex, ey]
      · subst ex
        rw [hself] at hx; injection hx with hx; subst hx
        exact h.one x y r ry hi (hother y ry ey hy) hl ly (hk ▸ hxy)
    · by_cases ey : y = i
      · subst ey
        rw [hself] at hy; injection hy with hy; subst hy
        exact h.one x y rx r (hother x rx ex hx) hi lx hl (hk ▸ hxy)
      · exact h.one x y rx ry (hother x rx ex hx) (hother y ry ey hy) lx ly hxy

/-- The step changes no shared memory and the run goes on. -/
theorem frame_quiet {w : World} {A : KSess.Map} {i : Nat} {r : Run} {pc : Pc} (h : Inv w A) (hi : w.runs i = some r) (hl : r.live)
    (hloc : Local w A { r with pc := pc }) (hp : ∀ v, pc ≠ .done v) : Inv (w.goto i r pc) A :=
  frame (r' := { r with pc := pc }) h hi hl rfl rfl (fun _ _ => rfl) (fun _ _ _ _ => rfl) (fun _ _ _ _ _ => rfl) (fun _ _ => rfl)
    (fun k p h1 hk h2 => hk (h.inj k r.key p h2 h1)) (fun _ => hloc) (fun hn => absurd (fun v => hp v) hn)

/-- The step only gives the run its session id. -/
theorem frame_done {w : World} {A : KSess.Map} {i : Nat} {r : Run} {v : BitVec 64} (h : Inv w A) (hi : w.runs i = some r) (hl : r.live)
    (hA : A r.key = (w.map r.key).map w.mem) : Inv (w.goto i r (.done v)) A :=
  frame (r' := { r with pc := .done v }) h hi hl rfl rfl (fun _ _ => rfl) (fun _ _ _ _ => rfl) (fun _ _ _ _ _ => rfl) (fun _ _ => rfl)
    (fun k p h1 hk h2 => hk (h.inj k r.key p h2 h1)) (fun hn => absurd rfl (hn v)) (fun _ => hA)

/-- What one step does for the atomic model: nothing, or the whole of a program. -/
def Sim (w' : World) (A : KSess.Map) (r : Run) (pc' : Pc) (full : Bool) : Prop :=
  ((∀ v, pc' ≠ .done v) ∧ Inv w' A) ∨
  ∃ v op, pc' = .done v ∧ callOf op = (r.key, r.kind) ∧ (isFull op = true → full = true) ∧ (KSess.step A op).2 = eventOf r v ∧
    Inv w' (KSess.step A op).1

theorem upd_same (m : KSess.Map) (k : Key) (v : Option Sess) : KSess.upd m k v k = v := if_pos rfl
theorem upd_ne (m : KSess.Map) {k k' : Key} (v : Option Sess) (h : k' ≠ k) : KSess.upd m k v k' = m k' := if_neg h

theorem setId_id (ids : Nat → BitVec 64) (v : BitVec 64) (h : ids 0 = v) : setId ids 0 v = ids := by
  funext j
  simp only [setId]
  split
  next e => rw [e, h]
  next => rfl

theorem sess_ext (s : Sess) (h : s.depth = 0) : (⟨0, s.ids⟩ : Sess) = s := by
  cases s; simp only at h; rw [h]

/-- One step of an unfinished run. -/
theorem advance_sim {w : World} {A : KSess.Map} {i a : Nat} {full : Bool} {r : Run} (h : Inv w A) (hi : w.runs i = some r) (hl : r.live)
    (hc : (r.pc = .fresh ∨ r.pc = .zeroed) → ∀ j r', w.runs j = some r' → j ≠ i → r'.inBuf → r'.cpu ≠ r.cpu)
    (ha : full = false → r.pc = .filled → ∀ k, w.map k ≠ some a) :
    ∃ pc', (advance w i r a full).runs = set w.runs i (some { r with pc := pc' }) ∧ Sim (advance w i r a full) A r pc' full := by
  have hloc := h.loc i r hi hl
  obtain ⟨c, k, q, pc⟩ := r
  cases q with
  | enter sid b =>
    cases b with
    | false =>
      cases pc with
      | start =>
        refine ⟨.done 0, rfl, .inr ⟨0, .enter k sid false (fun _ => 0) false, rfl, rfl, nofun, rfl, ?_⟩⟩
        exact frame_done (A := A) h hi hl (by simpa only [Local] using hloc)
      | done v => exact absurd rfl (hl v)
      | _ => simp only [Local] at hloc
    | true =>
      cases pc with
      | start =>
        simp only [Local] at hloc
        simp only [advance]
        cases hk : w.map k with
        | some p =>
          rw [hk] at hloc
          exact ⟨.found p, rfl, .inl ⟨nofun, frame_quiet h hi hl (by simp only [Local]; exact ⟨hk, hloc⟩) nofun⟩⟩
        | none =>
          rw [hk] at hloc
          exact ⟨.fresh, rfl, .inl ⟨nofun, frame_quiet h hi hl (by simp only [Local]; exact ⟨hk, hloc⟩) nofun⟩⟩
      | found p =>
        simp only [Local] at hloc
        exact ⟨.read p (w.mem p).depth, rfl, .inl ⟨nofun, frame_quiet h hi hl (by simp only [Local]; exact ⟨hloc.1, hloc.2, trivial⟩) nofun⟩⟩
      | read p d =>
        simp only [Local] at hloc
        obtain ⟨h1, h2, h3⟩ := hloc
        refine ⟨.wrote p d, rfl, .inl ⟨nofun, ?_⟩⟩
        refine frame (r' := ⟨c, k, .enter sid true, .wrote p d⟩) h hi hl rfl rfl (fun _ _ => rfl) (fun k' p' hk' hp' => ?_) (fun _ _ _ _ _ => rfl)
          (fun _ _ => rfl) (fun k' p' h1' hk' h2' => hk' (h.inj k' k p' h2' h1')) (fun _ => ?_) (fun hn => absurd (fun v => nofun) hn)
        · exact set_ne _ _ fun e => hk' (h.inj k' k p (e ▸ hp') h1)
        · simp only [Local]
          exact ⟨h1, w.mem p, h2, h3, by simp only [advance, set_same]⟩
      | wrote p d =>
        simp only [Local] at hloc
        obtain ⟨h1, s, h2, h3, h4⟩ := hloc
        refine ⟨.done sid, rfl, .inr ⟨sid, .enter k sid true (fun _ => 0) false, rfl, rfl, nofun, rfl, ?_⟩⟩
        refine frame (r' := ⟨c, k, .enter sid true, .done sid⟩) h hi hl rfl rfl (fun _ _ => rfl) (fun k' p' hk' hp' => ?_) (fun _ _ _ _ _ => rfl)
          (fun k' hk' => ?_) (fun k' p' h1' hk' h2' => hk' (h.inj k' k p' h2' h1')) (fun hn => absurd rfl (hn sid)) (fun _ => ?_)
        · exact set_ne _ _ fun e => hk' (h.inj k' k p (e ▸ hp') h1)
        · simp only [KSess.step, if_true, KSess.addSession, h2]
          exact upd_ne _ _ hk'
        · simp only [KSess.step, if_true, KSess.addSession, h2, upd_same, advance, World.goto, h1, Option.map_some, set_same, h4, h3]
      | fresh =>
        simp only [Local] at hloc
        obtain ⟨h1, h2⟩ := hloc
        refine ⟨.zeroed, rfl, .inl ⟨nofun, ?_⟩⟩
        refine frame (r' := ⟨c, k, .enter sid true, .zeroed⟩) h hi hl rfl rfl (fun _ _ => rfl) (fun _ _ _ _ => rfl) (fun j r'' hj hne hb => ?_)
          (fun _ _ => rfl) (fun k' p' h1' hk' h2' => hk' (h.inj k' k p' h2' h1')) (fun _ => ?_) (fun hn => absurd (fun v => nofun) hn)
        · exact set_ne _ _ (hc (.inl rfl) j r'' hj hne hb)
        · simp only [Local]
          exact ⟨h1, h2, by simp only [advance, set_same]⟩
      | zeroed =>
        simp only [Local] at hloc
        obtain ⟨h1, h2, h3⟩ := hloc
        refine ⟨.filled, rfl, .inl ⟨nofun, ?_⟩⟩
        refine frame (r' := ⟨c, k, .enter sid true, .filled⟩) h hi hl rfl rfl (fun _ _ => rfl) (fun _ _ _ _ => rfl) (fun j r'' hj hne hb => ?_)
          (fun _ _ => rfl) (fun k' p' h1' hk' h2' => hk' (h.inj k' k p' h2' h1')) (fun _ => ?_) (fun hn => absurd (fun v => nofun) hn)
        · exact set_ne _ _ (hc (.inr rfl) j r'' hj hne hb)
        · simp only [Local]
          exact ⟨h1, h2, by simp only [advance, set_same]; exact h3, by simp only [advance, set_same, setId, if_true]⟩
      | filled =>
        simp only [Local] at hloc
        obtain ⟨h1, h2, h3, h4⟩ := hloc
        cases full with
        | true =>
          refine ⟨.done sid, rfl, .inr ⟨sid, .enter k sid true (fun _ => 0) true, rfl, rfl, fun _ => rfl, rfl, ?_⟩⟩
          have : (KSess.step A (.enter k sid true (fun _ => 0) true)).1 = A := by
            simp only [KSess.step, if_true, KSess.addSession, h2]
          rw [this]
          exact frame_done h hi hl (by simp only; rw [h1, h2]; rfl)
        | false =>
          refine ⟨.done sid, rfl, .inr ⟨sid, .enter k sid true (w.buf c).ids false, rfl, rfl, nofun, rfl, ?_⟩⟩
          have hfree := ha rfl rfl
          refine frame (r' := ⟨c, k, .enter sid true, .done sid⟩) h hi hl rfl rfl (fun k' hk' => ?_) (fun k' p' hk' hp' => ?_) (fun _ _ _ _ _ => rfl)
            (fun k' hk' => ?_) (fun k' p' h1' hk' h2' => ?_) (fun hn => absurd rfl (hn sid)) (fun _ => ?_)
          · exact set_ne _ _ hk'
          · exact set_ne _ _ fun e => hfree k' (e ▸ hp')
          · simp only [KSess.step, if_true, KSess.addSession, h2]
            exact upd_ne _ _ hk'
          · have : (advance w i ⟨c, k, .enter sid true, .filled⟩ a false).map k = some a := set_same _ _ _
            rw [this] at h1'; injection h1' with h1'
            exact hfree k' (h1' ▸ h2')
          · have e1 : (advance w i ⟨c, k, .enter sid true, .filled⟩ a false).map k = some a := set_same _ _ _
            have e2 : (advance w i ⟨c, k, .enter sid true, .filled⟩ a false).mem a = w.buf c := set_same _ _ _
            simp only [KSess.step, if_true, KSess.addSession, h2, upd_same, e1, Option.map_some, e2, setId_id _ _ h4, sess_ext _ h3, Bool.false_eq_true, if_false]
      | done v => exact absurd rfl (hl v)
      | got p d v => simp only [Local] at hloc
  | exit =>
    cases pc with
    | start =>
      simp only [Local] at hloc
      simp only [advance]
      cases hk : w.map k with
      | some p =>
        rw [hk] at hloc
        exact ⟨.found p, rfl, .inl ⟨nofun, frame_quiet h hi hl (by simp only [Local]; exact ⟨hk, hloc⟩) nofun⟩⟩
      | none =>
        rw [hk] at hloc
        refine ⟨.done 0, rfl, .inr ⟨0, .exit k, rfl, rfl, nofun, ?_, ?_⟩⟩
        · simp only [KSess.step, KSess.getAndDel, hloc, Option.map_none, eventOf]
        · have : (KSess.step A (.exit k)).1 = A := by simp only [KSess.step, KSess.getAndDel, hloc, Option.map_none]
          rw [this]
          exact frame_done h hi hl (by simp only; rw [hk]; exact hloc)
    | found p =>
      simp only [Local] at hloc
      exact ⟨.read p (w.mem p).depth, rfl, .inl ⟨nofun, frame_quiet h hi hl (by simp only [Local]; exact ⟨hloc.1, hloc.2, trivial⟩) nofun⟩⟩
    | read p d =>
      simp only [Local] at hloc
      exact ⟨.got p d ((w.mem p).ids (slot d)), rfl, .inl ⟨nofun, frame_quiet h hi hl (by simp only [Local]; exact ⟨hloc.1, hloc.2.1, hloc.2.2, trivial⟩) nofun⟩⟩
    | got p d v =>
      simp only [Local] at hloc
      obtain ⟨h1, h2, h3, h4⟩ := hloc
      have hev : (KSess.step A (.exit k)).2 = eventOf ⟨c, k, .exit, .got p d v⟩ v := by
        simp only [KSess.step, KSess.getAndDel, h2, eventOf, ← h3, ← h4]
      by_cases hd : d = 0
      · refine ⟨.done v, by simp only [advance, hd, ne_eq, not_true_eq_false, if_false]; rfl, .inr ⟨v, .exit k, rfl, rfl, nofun, hev, ?_⟩⟩
        have e0 : advance w i ⟨c, k, .exit, .got p d v⟩ a full = { w.goto i ⟨c, k, .exit, .got p d v⟩ (.done v) with map := set w.map k none } := by
          simp only [advance, hd, ne_eq, not_true_eq_false, if_false]
        have eA : (KSess.step A (.exit k)).1 = KSess.upd A k none := by
          simp only [KSess.step, KSess.getAndDel, h2, ← h3, hd, ne_eq, not_true_eq_false, if_false]
        rw [e0, eA]
        refine frame (r' := ⟨c, k, .exit, .done v⟩) h hi hl rfl rfl (fun k' hk' => set_ne _ _ hk') (fun _ _ _ _ => rfl) (fun _ _ _ _ _ => rfl)
          (fun k' hk' => upd_ne _ _ hk') (fun k' p' h1' hk' h2' => ?_) (fun hn => absurd rfl (hn v)) (fun _ => ?_)
        · have : set w.map k none k = none := set_same _ _ _
          simp only [this] at h1'
          exact nomatch h1'
        · simp only [upd_same, set_same, Option.map_none]
      · refine ⟨.done v, by simp only [advance, ne_eq, hd, not_false_eq_true, if_true]; rfl, .inr ⟨v, .exit k, rfl, rfl, nofun, hev, ?_⟩⟩
        have e0 : advance w i ⟨c, k, .exit, .got p d v⟩ a full = { w.goto i ⟨c, k, .exit, .got p d v⟩ (.done v) with mem := set w.mem p ⟨d - 1, (w.mem p).ids⟩ } := by
          simp only [advance, ne_eq, hd, not_false_eq_true, if_true]
        have eA : (KSess.step A (.exit k)).1 = KSess.upd A k (some ⟨d - 1, (w.mem p).ids⟩) := by
          simp only [KSess.step, KSess.getAndDel, h2, ← h3, ne_eq, hd, not_false_eq_true, if_true]
        rw [e0, eA]
        refine frame (r' := ⟨c, k, .exit, .done v⟩) h hi hl rfl rfl (fun _ _ => rfl) (fun k' p' hk' hp' => ?_) (fun _ _ _ _ _ => rfl)
          (fun k' hk' => upd_ne _ _ hk') (fun k' p' h1' hk' h2' => hk' (h.inj k' k p' h2' h1')) (fun hn => absurd rfl (hn v)) (fun _ => ?_)
        · exact set_ne _ _ fun e => hk' (h.inj k' k p (e ▸ hp') h1)
        · simp only [upd_same, World.goto, h1, Option.map_some, set_same]
    | done v => exact absurd rfl (hl v)
    | _ => simp only [Local] at hloc
  | look =>
    cases pc with
    | start =>
      simp only [Local] at hloc
      simp only [advance]
      cases hk : w.map k with
      | some p =>
        rw [hk] at hloc
        exact ⟨.found p, rfl, .inl ⟨nofun, frame_quiet h hi hl (by simp only [Local]; exact ⟨hk, hloc⟩) nofun⟩⟩
      | none =>
        rw [hk] at hloc
        refine ⟨.done 0, rfl, .inr ⟨0, .insn k, rfl, rfl, nofun, ?_, ?_⟩⟩
        · simp only [KSess.step, KSess.getSession, hloc, Option.map_none, eventOf, if_true]
        · exact frame_done (A := A) h hi hl (by simp only; rw [hk]; exact hloc)
    | found p =>
      simp only [Local] at hloc
      exact ⟨.read p (w.mem p).depth, rfl, .inl ⟨nofun, frame_quiet h hi hl (by simp only [Local]; exact ⟨hloc.1, hloc.2, trivial⟩) nofun⟩⟩
    | read p d =>
      simp only [Local] at hloc
      obtain ⟨h1, h2, h3⟩ := hloc
      refine ⟨.done ((w.mem p).ids (slot d)), rfl, .inr ⟨_, .insn k, rfl, rfl, nofun, ?_, ?_⟩⟩
      · simp only [KSess.step, KSess.getSession, h2, eventOf, h3]
      · exact frame_done (A := A) h hi hl (by simp only; rw [h1, h2]; rfl)
    | done v => exact absurd rfl (hl v)
    | _ => simp only [Local] at hloc

theorem start_inv {w : World} {A : KSess.Map} {i c : Nat} {k : Key} {q : Kind} (h : Inv w A) (hi : w.runs i = none)
    (hk : ∀ j r, w.runs j = some r → r.live → r.key ≠ k) : Inv (step w (.start i c k q)) A := by
  have hother : ∀ j r, j ≠ i → (step w (.start i c k q)).runs j = some r → w.runs j = some r := fun j r hne hj => by
    simp only [step, set_ne _ _ hne] at hj; exact hj
  have hself : ∀ r, (step w (.start i c k q)).runs i = some r → r = ⟨c, k, q, .start⟩ := fun r hj => by
    simp only [step, set_same] at hj; injection hj with hj; exact hj.symm
  refine ⟨fun k' hk' => h.rest k' fun j r hj hl => ?_, fun j r hj hl => ?_, h.inj, fun x y rx ry hx hy lx ly hxy => ?_⟩
  · by_cases e : j = i
    · subst e; rw [hi] at hj; exact nomatch hj
    · exact hk' j r (by simp only [step, set_ne _ _ e]; exact hj) hl
  · by_cases e : j = i
    · subst e
      rw [hself r hj]
      have : A k = (w.map k).map w.mem := h.rest k hk
      simp only [Local]
      exact this
    · exact local_congr rfl (fun _ _ => rfl) rfl (fun _ => rfl) (h.loc j r (hother j r e hj) hl)
  · by_cases ex : x = i
    · by_cases ey : y = i
      · rw [ex, ey]
      · subst ex
        rw [hself rx hx] at hxy
        exact absurd hxy.symm (hk y ry (hother y ry ey hy) ly)
    · by_cases ey : y = i
      · subst ey
        rw [hself ry hy] at hxy
        exact absurd hxy (hk x rx (hother x rx ex hx) lx)
      · exact h.one x y rx ry (hother x rx ex hx) (hother y ry ey hy) lx ly hxy

/-- The programs, however they interrupt each other, do what they would do if each were one step. -/
theorem log_sim : ∀ (acts : List Act) (w : World) (A : KSess.Map), Inv w A → Kernel w acts → Calm w acts →
    ∃ ops : List KSess.Op, ops.map callOf = (log w acts).map (fun x => (x.1.key, x.1.kind)) ∧
      KSess.run A ops = (log w acts).map Prod.snd ∧ ∀ o ∈ ops, isFull o = true → ∃ i a, Act.go i a true ∈ acts
  | [], _, _, _, _, _ => ⟨[], rfl, rfl, nofun⟩
  | .start i c k q :: xs, w, A, h, hk, hc => by
    obtain ⟨ops, h1, h2, h3⟩ := log_sim xs _ A (start_inv h hc.1.1 hc.1.2) hk.2 hc.2
    refine ⟨ops, ?_, ?_, fun o ho hf => ?_⟩
    · simpa only [log, finished] using h1
    · simpa only [log, finished] using h2
    · obtain ⟨i', a', hm⟩ := h3 o ho hf
      exact ⟨i', a', List.mem_cons_of_mem _ hm⟩
  | .go i a full :: xs, w, A, h, hk, hc => by
    have hrec : ∀ A', Inv (step w (.go i a full)) A' → ∃ ops : List KSess.Op,
        ops.map callOf = (log (step w (.go i a full)) xs).map (fun x => (x.1.key, x.1.kind)) ∧
        KSess.run A' ops = (log (step w (.go i a full)) xs).map Prod.snd ∧ ∀ o ∈ ops, isFull o = true → ∃ i a, Act.go i a true ∈ xs :=
      fun A' h' => log_sim xs _ A' h' hk.2 hc.2
    have quiet : finished w (.go i a full) = none → Inv (step w (.go i a full)) A → ∃ ops : List KSess.Op,
        ops.map callOf = (log w (.go i a full :: xs)).map (fun x => (x.1.key, x.1.kind)) ∧
        KSess.run A ops = (log w (.go i a full :: xs)).map Prod.snd ∧ ∀ o ∈ ops, isFull o = true → ∃ j b, Act.go j b true ∈ .go i a full :: xs := by
      intro hf h'
      obtain ⟨ops, h1, h2, h3⟩ := hrec A h'
      refine ⟨ops, ?_, ?_, fun o ho hf => ?_⟩
      · rw [h1]; simp only [log, hf]
      · rw [h2]; simp only [log, hf]
      · obtain ⟨i', a', hm⟩ := h3 o ho hf
        exact ⟨i', a', List.mem_cons_of_mem _ hm⟩
    cases hi : w.runs i with
    | none =>
      have e : step w (.go i a full) = w := by simp only [step, hi]
      exact quiet (by simp only [finished, hi]) (by rw [e]; exact h)
    | some r =>
      have e : step w (.go i a full) = advance w i r a full := by simp only [step, hi]
      by_cases hd : ∃ v, r.pc = .done v
      · obtain ⟨v, hv⟩ := hd
        refine quiet ?_ ?_
        · simp only [finished, hi]
          split
          next hr _ => injection hr with hr; subst hr; simp only [hv]
          next => rfl
        · have : advance w i r a full = w := by
            obtain ⟨c, k, q, pc⟩ := r
            simp only at hv
            subst hv
            cases q with
            | enter s b => cases b <;> rfl
            | _ => rfl
          rw [e, this]; exact h
      · have hl : r.live := fun v hv => hd ⟨v, hv⟩
        obtain ⟨pc', hr, hs⟩ := advance_sim (a := a) (full := full) h hi hl (fun hp => hc.1 r hi hp) (fun hf hp k => by
          subst hf; exact hk.1 i a rfl r hi hp k)
        have hnew : (step w (.go i a full)).runs i = some { r with pc := pc' } := by rw [e, hr, set_same]
        rcases hs with ⟨hn, h'⟩ | ⟨v, op, hv, hop, hfull, hout, h'⟩
        · refine quiet ?_ (by rw [e]; exact h')
          simp only [finished, hi, hnew]
          cases hpc : r.pc with
          | done v => exact absurd hpc (hl v)
          | _ => cases hq : pc' with
            | done v => exact absurd hq (hn v)
            | _ => rfl
        · have hf : finished w (.go i a full) = some (r, v) := by
            simp only [finished, hi, hnew, hv]
            cases hpc : r.pc with
            | done v => exact absurd hpc (hl v)
            | _ => rfl
          obtain ⟨ops, h1, h2, h3⟩ := hrec _ (by rw [e]; exact h')
          refine ⟨op :: ops, ?_, ?_, fun o ho hof => ?_⟩
          · simp only [log, hf, List.map_cons, h1, hop]
          · simp only [log, hf, List.map_cons, KSess.run, h2, hout]
          · rcases List.mem_cons.mp ho with rfl | ho
            · exact ⟨i, a, by rw [hfull hof]; exact List.mem_cons_self ..⟩
            · obtain ⟨i', a', hm⟩ := h3 o ho hof
              exact ⟨i', a', List.mem_cons_of_mem _ hm⟩

theorem init_inv (mem buf : Nat → Sess) : Inv (init mem buf) KSess.empty :=
  ⟨fun _ _ => rfl, nofun, nofun, nofun⟩

/-! ### C92. Theorems -/

/-- A run as a call of the specification of C22 (`KSess.specRun`: the stacks of open calls of every task and function). -/
def opOf (r : Run) : KSess.Op :=
  match r.kind with
  | .enter sid pass => .enter r.key sid pass (fun _ => 0) false
  | .exit => .exit r.key
  | .look => .insn r.key

theorem ok_congr : ∀ (ops ops' : List KSess.Op) (c : KSess.Calls), ops.map callOf = ops'.map callOf → (∀ o ∈ ops, isFull o = false) →
    KSess.Ok c ops' → KSess.Ok c ops ∧ KSess.specRun c ops = KSess.specRun c ops'
  | [], [], _, _, _, _ => ⟨trivial, rfl⟩
  | [], _ :: _, _, h, _, _ => nomatch h
  | _ :: _, [], _, h, _, _ => nomatch h
  | o :: os, o' :: os', c, h, hf, hok => by
    simp only [List.map_cons, List.cons.injEq] at h
    obtain ⟨h1, h2⟩ := h
    have hn : KSess.next c o = KSess.next c o' ∧ KSess.expect c o = KSess.expect c o' := by
      cases o <;> cases o' <;> simp_all [callOf, KSess.next, KSess.expect]
    obtain ⟨i1, i2⟩ := ok_congr os os' (KSess.next c o) h2 (fun x hx => hf x (List.mem_cons_of_mem _ hx)) (by rw [hn.1]; exact hok.2)
    refine ⟨⟨?_, i1⟩, ?_⟩
    · have hfo := hf o (List.mem_cons_self ..)
      have h3 := hok.1
      cases o with
      | enter k sid b st fu =>
        cases o' with
        | enter k' sid' b' st' fu' =>
          simp only [callOf, Prod.mk.injEq, Kind.enter.injEq] at h1
          obtain ⟨rfl, rfl, rfl⟩ := h1
          cases b with
          | true => simp only [if_true] at h3 ⊢; exact ⟨h3.1, hfo, h3.2.2⟩
          | false => exact h3
        | _ => simp [callOf] at h1
      | _ => trivial
    · simp only [KSess.specRun]
      rw [hn.2, i2, hn.1]

theorem callOf_opOf (r : Run) : callOf (opOf r) = (r.key, r.kind) := by
  obtain ⟨c, k, q, pc⟩ := r
  cases q <;> rfl

/-- C92, for all tasks, functions and CPUs, whatever the memory held, whatever programs interrupt each other wherever `Calm` allows it: the calls, in
the order in which their programs get through, send exactly the events the structure of the calls demands; in particular an exit carries the id of
the entry of its own call. (`KSess.Ok` is what C22 assumes of a history.) -/
theorem sessions_interrupted_partial (acts : List Act) (mem buf : Nat → Sess) (hk : Kernel (init mem buf) acts) (hc : Calm (init mem buf) acts)
    (hf : ∀ i a, Act.go i a true ∉ acts) (hok : KSess.Ok (fun _ => []) ((log (init mem buf) acts).map fun x => opOf x.1)) :
    (log (init mem buf) acts).map Prod.snd = KSess.specRun (fun _ => []) ((log (init mem buf) acts).map fun x => opOf x.1) := by
  obtain ⟨ops, h1, h2, h3⟩ := log_sim acts _ _ (init_inv mem buf) hk hc
  have hfull : ∀ o ∈ ops, isFull o = false := fun o ho => by
    cases hq : isFull o with
    | false => rfl
    | true => obtain ⟨i, a, hm⟩ := h3 o ho hq; exact absurd hm (hf i a)
  have hmap : ops.map callOf = ((log (init mem buf) acts).map fun x => opOf x.1).map callOf := by
    rw [h1, List.map_map]
    exact List.map_congr_left fun x _ => (callOf_opOf x.1).symm
  obtain ⟨hok', hs⟩ := ok_congr ops _ _ hmap hfull hok
  rw [← h2, KSess.sessions_nest_partial ops hok', hs]

/-- What the programs started for a task and a function do. -/
def started (k : Key) : List Act → List Kind
  | [] => []
  | .start _ _ k' q :: xs => if k' = k then q :: started k xs else started k xs
  | .go .. :: xs => started k xs

/-- What the programs do that get through, for a task and a function. -/
def through (k : Key) (l : List (Run × Option KSess.Out)) : List Kind := (l.filter fun x => decide (x.1.key = k)).map (·.1.kind)

theorem order_sim (k : Key) : ∀ (acts : List Act) (w : World) (A : KSess.Map) (pre : List Kind), Inv w A → Kernel w acts → Calm w acts →
    (pre = [] ∧ (∀ j r, w.runs j = some r → r.live → r.key ≠ k) ∨
      ∃ j r, w.runs j = some r ∧ r.live ∧ r.key = k ∧ pre = [r.kind]) →
    ∃ rest, rest.length ≤ 1 ∧ pre ++ started k acts = through k (log w acts) ++ rest
  | [], w, A, pre, h, hk, hc, hp => by
    rcases hp with ⟨rfl, _⟩ | ⟨j, r, _, _, _, rfl⟩
    · exact ⟨[], Nat.zero_le _, rfl⟩
    · exact ⟨[r.kind], Nat.le_refl _, rfl⟩
  | .start i c k' q :: xs, w, A, pre, h, hk, hc, hp => by
    have h' := start_inv (c := c) (q := q) h hc.1.1 hc.1.2
    have elog : log w (.start i c k' q :: xs) = log (step w (.start i c k' q)) xs := by simp only [log, finished]
    rw [elog]
    by_cases e : k' = k
    · subst e
      rcases hp with ⟨rfl, _⟩ | ⟨j, r, hj, hl, hkr, _⟩
      · obtain ⟨rest, h1, h2⟩ := order_sim k' xs _ A [q] h' hk.2 hc.2
          (.inr ⟨i, ⟨c, k', q, .start⟩, by simp only [step, set_same], nofun, rfl, rfl⟩)
        exact ⟨rest, h1, by simpa only [started, if_true, List.nil_append, List.cons_append] using h2⟩
      · exact absurd hkr (hc.1.2 j r hj hl)
    · obtain ⟨rest, h1, h2⟩ := order_sim k xs _ A pre h' hk.2 hc.2 (by
        rcases hp with ⟨rfl, hn⟩ | ⟨j, r, hj, hl, hkr, hpre⟩
        · refine .inl ⟨rfl, fun j r hj hl => ?_⟩
          by_cases ej : j = i
          · subst ej
            simp only [step, set_same] at hj
            injection hj with hj; subst hj; exact e
          · simp only [step, set_ne _ _ ej] at hj
            exact hn j r hj hl
        · have ej : j ≠ i := fun ej => by subst ej; rw [hc.1.1] at hj; exact nomatch hj
          exact .inr ⟨j, r, by simp only [step, set_ne _ _ ej]; exact hj, hl, hkr, hpre⟩)
      exact ⟨rest, h1, by simpa only [started, e, if_false] using h2⟩
  | .go i a full :: xs, w, A, pre, h, hk, hc, hp => by
    have estart : started k (.go i a full :: xs) = started k xs := rfl
    rw [estart]
    cases hi : w.runs i with
    | none =>
      have e : step w (.go i a full) = w := by simp only [step, hi]
      have hf : finished w (.go i a full) = none := by simp only [finished, hi]
      obtain ⟨rest, h1, h2⟩ := order_sim k xs (step w (.go i a full)) A pre (by rw [e]; exact h) hk.2 hc.2 (by rw [e]; exact hp)
      exact ⟨rest, h1, by simpa only [log, hf] using h2⟩
    | some r =>
      have e : step w (.go i a full) = advance w i r a full := by simp only [step, hi]
      by_cases hd : ∃ v, r.pc = .done v
      · obtain ⟨v, hv⟩ := hd
        have ew : step w (.go i a full) = w := by
          rw [e]
          obtain ⟨c, k0, q, pc⟩ := r
          simp only at hv
          subst hv
          cases q with
          | enter s b => cases b <;> rfl
          | _ => rfl
        have hf : finished w (.go i a full) = none := by
          simp only [finished, hi, ew, hv]
        obtain ⟨rest, h1, h2⟩ := order_sim k xs (step w (.go i a full)) A pre (by rw [ew]; exact h) hk.2 hc.2 (by rw [ew]; exact hp)
        exact ⟨rest, h1, by simpa only [log, hf] using h2⟩
      · have hl : r.live := fun v hv => hd ⟨v, hv⟩
        obtain ⟨pc', hr, hs⟩ := advance_sim (a := a) (full := full) h hi hl (fun hp => hc.1 r hi hp) (fun hf hp k => by
          subst hf; exact hk.1 i a rfl r hi hp k)
        have hnew : (step w (.go i a full)).runs i = some { r with pc := pc' } := by rw [e, hr, set_same]
        have hoth : ∀ j, j ≠ i → (step w (.go i a full)).runs j = w.runs j := fun j hj => by rw [e, hr, set_ne _ _ hj]
        rcases hs with ⟨hn, h'⟩ | ⟨v, op, hv, _, _, _, h'⟩
        · have hf : finished w (.go i a full) = none := by
            simp only [finished, hi, hnew]
            cases hpc : r.pc with
            | done v => exact absurd hpc (hl v)
            | _ => cases hq : pc' with
              | done v => exact absurd hq (hn v)
              | _ => rfl
          obtain ⟨rest, h1, h2⟩ := order_sim k xs (step w (.go i a full)) A pre (by rw [e]; exact h') hk.2 hc.2 (by
            rcases hp with ⟨hpre, hno⟩ | ⟨j, r', hj, hl', hkr, hpre⟩
            · refine .inl ⟨hpre, fun j r' hj hl' => ?_⟩
              by_cases ej : j = i
              · subst ej
                rw [hnew] at hj; injection hj with hj; subst hj
                exact hno j r hi hl
              · rw [hoth j ej] at hj; exact hno j r' hj hl'
            · by_cases ej : j = i
              · subst ej
                rw [hi] at hj; injection hj with hj; subst hj
                exact .inr ⟨j, _, hnew, fun v => hn v, hkr, hpre⟩
              · exact .inr ⟨j, r', by rw [hoth j ej]; exact hj, hl', hkr, hpre⟩)
          exact ⟨rest, h1, by simpa only [log, hf] using h2⟩
        · have hf : finished w (.go i a full) = some (r, v) := by
            simp only [finished, hi, hnew, hv]
            cases hpc : r.pc with
            | done v => exact absurd hpc (hl v)
            | _ => rfl
          have hdone : ∀ r', (step w (.go i a full)).runs i = some r' → ¬ r'.live := fun r' hj hl' => by
            rw [hnew] at hj; injection hj with hj; subst hj
            exact hl' v hv
          by_cases e1 : r.key = k
          · have hpre : pre = [r.kind] := by
              rcases hp with ⟨_, hno⟩ | ⟨j, r', hj, hl', hkr, hpre⟩
              · exact absurd e1 (hno i r hi hl)
              · have := h.one j i r' r hj hi hl' hl (hkr.trans e1.symm)
                subst this
                rw [hi] at hj; injection hj with hj; subst hj; exact hpre
            obtain ⟨rest, h1, h2⟩ := order_sim k xs (step w (.go i a full)) _ [] (by rw [e]; exact h') hk.2 hc.2
              (.inl ⟨rfl, fun j r' hj hl' => by
                by_cases ej : j = i
                · subst ej; exact absurd hl' (hdone r' hj)
                · rw [hoth j ej] at hj
                  exact fun hc' => ej (h.one j i r' r hj hi hl' hl (hc'.trans e1.symm))⟩)
            refine ⟨rest, h1, ?_⟩
            simp only [log, hf, through, List.filter_cons, e1, decide_true, if_true, List.map_cons, hpre, List.cons_append, List.nil_append] at h2 ⊢
            rw [h2]
          · obtain ⟨rest, h1, h2⟩ := order_sim k xs (step w (.go i a full)) _ pre (by rw [e]; exact h') hk.2 hc.2 (by
              rcases hp with ⟨hpre, hno⟩ | ⟨j, r', hj, hl', hkr, hpre⟩
              · refine .inl ⟨hpre, fun j r' hj hl' => ?_⟩
                by_cases ej : j = i
                · subst ej; exact absurd hl' (hdone r' hj)
                · rw [hoth j ej] at hj; exact hno j r' hj hl'
              · by_cases ej : j = i
                · subst ej
                  rw [hi] at hj; injection hj with hj; subst hj
                  exact absurd hkr e1
                · exact .inr ⟨j, r', by rw [hoth j ej]; exact hj, hl', hkr, hpre⟩)
            refine ⟨rest, h1, ?_⟩
            simp only [log, hf, through, List.filter_cons, e1, decide_false, Bool.false_eq_true, if_false] at h2 ⊢
            exact h2

/-- The calls of a task to a function get through in the order in which they start, and at most the last one is not through. -/
theorem order_kept (acts : List Act) (mem buf : Nat → Sess) (hk : Kernel (init mem buf) acts) (hc : Calm (init mem buf) acts) (k : Key) :
    ∃ rest, rest.length ≤ 1 ∧ started k acts = through k (log (init mem buf) acts) ++ rest := by
  have := order_sim k acts _ _ [] (init_inv mem buf) hk hc (.inl ⟨rfl, nofun⟩)
  simpa only [List.nil_append] using this

/-! ### What `Calm` excludes really goes wrong -/

/-- A program interrupts another one on its CPU while that one fills the buffer (both record the first open call of their task to their function): the
first call is stored with the id of the second, and its exit is shown as the exit of the second call. (The kernel uses different elements `a` and `b`.) -/
theorem shared_buffer_violated (mem buf : Nat → Sess) (k k' : Key) (s s' : BitVec 64) (hs : s' ≠ 0) (c a b : Nat) :
    (log (init mem buf)
      [.start 0 c k (.enter s true), .go 0 0 false, .go 0 0 false, .go 0 0 false,
       .start 1 c k' (.enter s' true), .go 1 0 false, .go 1 0 false, .go 1 0 false, .go 1 b false,
       .go 0 a false,
       .start 2 c k .exit, .go 2 0 false, .go 2 0 false, .go 2 0 false, .go 2 0 false]).map Prod.snd =
      [some (.entry k' s'), some (.entry k s), some (.exit k (s' - 1))] := by
  simp [log, finished, step, advance, init, set, World.goto, eventOf, setId, slot]
  exact hs

/-- While the program of the entry of an inner call of a function is running, an interrupt calls the same function; the kernel does not run the program
of the entry again, but it runs that of the exit, which takes the session of the outer call. The inner and the outer exit are then not shown. -/
theorem same_function_violated (mem buf : Nat → Sess) (k : Key) (s s' : BitVec 64) (hs : s ≠ 0) (c a : Nat) :
    (log (init mem buf)
      [.start 0 c k (.enter s true), .go 0 0 false, .go 0 0 false, .go 0 0 false, .go 0 a false,
       .start 1 c k (.enter s' true), .go 1 0 false, .go 1 0 false,
       .start 2 c k .exit, .go 2 0 false, .go 2 0 false, .go 2 0 false, .go 2 0 false,
       .go 1 0 false, .go 1 0 false,
       .start 3 c k .exit, .go 3 0 false, .start 4 c k .exit, .go 4 0 false]).map Prod.snd =
      [some (.entry k s), some (.exit k (s - 1)), some (.entry k s'), none, none] := by
  simp [log, finished, step, advance, init, set, World.goto, eventOf, setId, slot]
  exact hs

/-- And if the element is used meanwhile for the call of another task, that call gets the session of the inner call. -/
theorem freed_element_violated (mem buf : Nat → Sess) (k k' : Key) (hk : k ≠ k') (s s' s'' : BitVec 64) (hs : s ≠ 0) (hs' : s' ≠ 0) (c c' a : Nat) :
    (log (init mem buf)
      [.start 0 c k (.enter s true), .go 0 0 false, .go 0 0 false, .go 0 0 false, .go 0 a false,
       .start 1 c k (.enter s' true), .go 1 0 false, .go 1 0 false,
       .start 2 c k .exit, .go 2 0 false, .go 2 0 false, .go 2 0 false, .go 2 0 false,
       .start 3 c' k' (.enter s'' true), .go 3 0 false, .go 3 0 false, .go 3 0 false, .go 3 a false,
       .go 1 0 false, .go 1 0 false,
       .start 4 c' k' .exit, .go 4 0 false, .go 4 0 false, .go 4 0 false, .go 4 0 false]).map Prod.snd =
      [some (.entry k s), some (.exit k (s - 1)), some (.entry k' s''), some (.entry k s'), some (.exit k' (s' - 1))] := by
  simp [log, finished, step, advance, init, set, World.goto, eventOf, hk.symm, setId, slot]
  exact ⟨hs, hs'⟩

/-! ### A concrete case -/

/-- Two tasks on one CPU; the program of the second interrupts that of the first before it fills the buffer, and is itself interrupted by the
program of an instruction of the first call after its update. -/
def exActs : List Act :=
  [.start 0 3 ⟨1, 7⟩ (.enter 11 true), .go 0 0 false,
   .start 1 3 ⟨2, 7⟩ (.enter 20 true), .go 1 0 false, .go 1 0 false, .go 1 0 false, .go 1 5 false,
   .go 0 0 false, .go 0 0 false, .go 0 6 false,
   .start 2 3 ⟨2, 7⟩ .exit, .go 2 0 false, .go 2 0 false,
   .start 3 3 ⟨1, 7⟩ .look, .go 3 0 false, .go 3 0 false, .go 3 0 false,
   .go 2 0 false, .go 2 0 false,
   .start 4 1 ⟨1, 7⟩ .exit, .go 4 0 false, .go 4 0 false, .go 4 0 false, .go 4 0 false]

theorem sessions_interrupted_witness (mem buf : Nat → Sess) :
    Kernel (init mem buf) exActs ∧ Calm (init mem buf) exActs ∧ (∀ i a, Act.go i a true ∉ exActs) ∧
    KSess.Ok (fun _ => []) ((log (init mem buf) exActs).map fun x => opOf x.1) ∧
    (log (init mem buf) exActs).map Prod.snd =
      [some (.entry ⟨2, 7⟩ 20), some (.entry ⟨1, 7⟩ 11), some (.insn ⟨1, 7⟩ 11), some (.exit ⟨2, 7⟩ 19), some (.exit ⟨1, 7⟩ 10)] := by
  refine ⟨?_, ?_, ?_, ?_, ?_⟩
  · simp [exActs, Kernel, step, advance, init, set, World.goto]
  · simp [exActs, Calm, step, advance, init, set, World.goto, Run.live, Run.inBuf]
    and_intros
    all_goals
      intro j r h
      rcases j with _ | _ | _ | _ | _ | j <;> simp at h <;> subst h <;> simp
  · simp [exActs]
  · simp [exActs, log, finished, step, advance, init, set, World.goto, eventOf, setId, slot, opOf, KSess.Ok, KSess.next, KSess.pushCall]
  · simp [exActs, log, finished, step, advance, init, set, World.goto, eventOf, setId, slot]

end Bpfsnoop.Sc
