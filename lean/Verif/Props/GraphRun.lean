import Verif.Spec.GraphRunSpec
import Verif.Props.KSess
import Verif.Props.Run
import Verif.Props.Attach
/-
C79: `--fgraph` prints under each recorded call the calls made during it.
-/
namespace Bpfsnoop.Cg
open Run (Item Session Sessions)

/-! ### The header of a graph event -/

/-- **C79.** Every field of the header of a graph event is read as it was written. -/
theorem gevt_read_back (e : GEvt) (rest : List Byte) : readGEvt (e.bytes ++ rest) = e := by
  obtain ⟨typ, len, ns, sid, fip, cpu, dep⟩ := e
  have a : ∀ a b c d e f g h : List Byte, a ++ b ++ c ++ d ++ e ++ f ++ g ++ h =
      a ++ (b ++ (c ++ (d ++ (e ++ (f ++ (g ++ h)))))) := by simp
  have l2 : ∀ v, (Arg.le 2 v).length = 2 := fun v => Arg.le_length _ _
  have l8 : ∀ v, (Arg.le 8 v).length = 8 := fun v => Arg.le_length _ _
  unfold readGEvt GEvt.bytes
  simp only [a]
  rw [GEvt.mk.injEq]
  refine ⟨?_, ?_, ?_, ?_, ?_, ?_, ?_⟩
  · exact Att.u16At_mid [] _ _ 0 rfl
  · exact Att.u16At_mid _ _ _ 2 (l2 _)
  · rw [← List.append_assoc]
    exact Att.u32At_mid _ _ _ 4 (by simp [l2])
  · iterate 2 rw [← List.append_assoc]
    exact Att.u64At_mid _ _ _ 8 (by simp [l2, Att.le32_length])
  · iterate 3 rw [← List.append_assoc]
    exact Att.u64At_mid _ _ _ 16 (by simp [l2, l8, Att.le32_length])
  · iterate 4 rw [← List.append_assoc]
    exact Att.u32At_mid _ _ _ 24 (by simp [l2, l8, Att.le32_length])
  · iterate 5 rw [← List.append_assoc]
    exact Att.u32At_mid _ _ _ 28 (by simp [l2, l8, Att.le32_length])

/-- **C79.** The header is 32 bytes: what follows it are the captured bytes. -/
theorem gevt_length (e : GEvt) (rest : List Byte) : (e.bytes ++ rest).drop sizeOfGraphEvent = rest := by
  have l2 : ∀ v, (Arg.le 2 v).length = 2 := fun v => Arg.le_length _ _
  have l8 : ∀ v, (Arg.le 8 v).length = 8 := fun v => Arg.le_length _ _
  have : e.bytes.length = sizeOfGraphEvent := by simp [GEvt.bytes, l2, l8, Att.le32_length, sizeOfGraphEvent]
  rw [← this, List.drop_left]

/-- The reader sees what `bpfsnoop_fgraph` found. -/
theorem fgraph_read (S : Sys) (c : Call) (exit : Bool) (p : BitVec 64) (hp : S.mypid ≠ (p >>> 32).setWidth 32) (hs : S.session = false)
    (sess : Addr → BitVec 64) (stack : List Addr) (q : Probe) :
    (fgraph (gcfg S c exit) true p exit S.fip sess S.maxStack stack q).map (readGraphRec S.texts) =
      (KSess.tryGetSession S.fip sess c.ip S.maxDepth S.maxStack stack).map fun r =>
        .graph true exit r.1 q.ns (S.texts.graph exit c.ip q.cpu (BitVec.ofNat 32 r.2) q.args) := by
  unfold fgraph
  simp only [gcfg, Bool.not_true, Bool.false_eq_true, if_false, if_neg hp, hs]
  cases KSess.tryGetSession S.fip sess c.ip S.maxDepth S.maxStack stack with
  | none => rfl
  | some r =>
    simp only [Option.map_some, readGraphRec, gevt_read_back, gevt_length]
    cases exit <;> rfl

/-! ### The search for the session -/

/-- The search sees only the addresses in the map. -/
def look (sess : Addr → BitVec 64) (cur : Addr) (max : Nat) : Bool → Nat → List Addr → Option (BitVec 64 × Nat)
  | _, _, [] => none
  | true, d, f :: r => if sess f ≠ 0 then some (sess f, d) else if d + 1 > max then none else look sess cur max true (d + 1) r
  | false, d, f :: r => if f = cur then look sess cur max true d r else look sess cur max false d r

theorem walk_look (fip sess : Addr → BitVec 64) (cur : Addr) (max : Nat) (l : List Addr) : ∀ (b : Bool) (d : Nat),
    KSess.walk fip sess cur max b d l = look sess cur max b d ((l.map fip).filter fun f => decide (f ≠ 0)) := by
  induction l with
  | nil => intro b d; cases b <;> rfl
  | cons x l ih =>
    intro b d
    by_cases h : fip x = 0
    · simp only [KSess.walk, if_pos h, ih, List.map_cons, List.filter_cons, h, ne_eq, not_true_eq_false, decide_false, Bool.false_eq_true,
        if_false, ↓reduceIte]
    · simp only [KSess.walk, if_neg h, ih, List.map_cons, List.filter_cons, ne_eq, h, not_false_eq_true, decide_true, if_true, ↓reduceIte]
      cases b with
      | true => simp only [look, ne_eq, ↓reduceIte]
      | false => simp only [look, Bool.false_eq_true, ↓reduceIte]

/-- The innermost recorded call around and the depth, counted outwards. -/
def seek (S : Sys) : Nat → List Call → Option (BitVec 64 × Nat)
  | _, [] => none
  | d, c :: r =>
    match S.kind c.ip with
    | .other => seek S d r
    | .root => if c.pass then some (c.sid, d) else if d + 1 > S.maxDepth then none else seek S (d + 1) r
    | .node => if d + 1 > S.maxDepth then none else seek S (d + 1) r

/-- The map of sessions tells of the calls around: the traced ones up to the first recorded one. -/
def Tells (S : Sys) (sess : Addr → BitVec 64) (l : List Call) : Prop :=
  ∀ pre c post, l = pre ++ c :: post → (∀ b ∈ pre, b.recorded S = false) → S.kind c.ip ≠ .other →
    sess c.ip = (if c.recorded S then c.sid else 0) ∧ (c.recorded S = true → c.sid ≠ 0)

theorem look_seek (S : Sys) (sess : Addr → BitVec 64) (cur : Addr) (l : List Call) : ∀ (d : Nat), Tells S sess l →
    look sess cur S.maxDepth true d ((l.filter fun c => decide (S.kind c.ip ≠ .other)).map (·.ip)) = seek S d l := by
  induction l with
  | nil => intro d _; rfl
  | cons c l ih =>
    intro d ht
    have h0 := ht [] c l rfl (by simp)
    have ht' : c.recorded S = false → Tells S sess l := by
      intro hr pre x post hl hp
      exact ht (c :: pre) x post (by simp [hl]) (by simpa using ⟨hr, hp⟩)
    cases hk : S.kind c.ip with
    | other =>
      simp only [List.filter_cons, hk, ne_eq, not_true_eq_false, decide_false, Bool.false_eq_true, if_false, seek]
      exact ih d (ht' (by simp [Call.recorded, hk]))
    | node =>
      have hr : c.recorded S = false := by simp [Call.recorded, hk]
      have h1 := (h0 (by simp [hk])).1
      rw [hr] at h1
      simp only [List.filter_cons, hk, ne_eq, reduceCtorEq, not_false_eq_true, decide_true, if_true, List.map_cons, look, seek]
      rw [if_neg (by simp [h1])]
      split
      · rfl
      · exact ih _ (ht' hr)
    | root =>
      have h1 := h0 (by simp [hk])
      simp only [List.filter_cons, hk, ne_eq, reduceCtorEq, not_false_eq_true, decide_true, if_true, List.map_cons, look, seek]
      cases hp : c.pass with
      | true =>
        have hr : c.recorded S = true := by simp [Call.recorded, hk, hp]
        rw [hr] at h1
        have h2 := h1.1
        simp only [if_true] at h2
        rw [if_pos (by rw [h2]; exact h1.2 rfl), h2]
        rfl
      | false =>
        have hr : c.recorded S = false := by simp [Call.recorded, hp]
        rw [hr] at h1
        have h2 := h1.1
        rw [if_neg (by simp [h2])]
        simp only [Bool.false_eq_true, if_false]
        split
        · rfl
        · exact ih _ (ht' hr)

/-- What `try_get_session` finds at a probe. -/
theorem found (S : Sys) (sess : Addr → BitVec 64) (p : BitVec 64) (h : Hit) (hk : S.kind h.c.ip = .node) (hu : Unwound S p h)
    (ht : Tells S sess h.around) :
    KSess.tryGetSession S.fip sess h.c.ip S.maxDepth S.maxStack (S.stack p h) = seek S 1 h.around := by
  unfold KSess.tryGetSession
  rw [List.take_of_length_le hu.1, walk_look, hu.2]
  simp only [List.filter_cons, hk, ne_eq, reduceCtorEq, not_false_eq_true, decide_true, if_true, List.map_cons, look]
  exact look_seek S sess h.c.ip h.around 1 ht

/-! ### The sessions of the stack -/

/-- The innermost recorded call of a stack: the depth of the calls made next, the beginning of the innermost call with a line, the beginnings of
all of these, and the lines still to come after the calls made next. -/
structure Act where
  r : Call
  inner : Calls
  d : Nat
  last : BitVec 32
  stamps : List (BitVec 32)
  k : List Item

/-- The line of the end of a root. -/
def rootEnd (S : Sys) (c : Call) : Item :=
  .func (S.texts.func true c.ip c.leave.cpu c.leave.args) (some (c.leave.ns - c.enter.ns))

/-- The line of the end of a call in the graph. -/
def nodeEnd (S : Sys) (d : Nat) (st : BitVec 32) (c : Call) : Item :=
  .graph (S.texts.graph true c.ip c.leave.cpu (BitVec.ofNat 32 d) c.leave.args) (c.leave.ns - c.enter.ns) (c.leave.ns - st)

/-- The line of the beginning of a call in the graph. -/
def nodeBegin (S : Sys) (d : Nat) (st last : BitVec 32) (c : Call) : Item :=
  .graph (S.texts.graph false c.ip c.enter.cpu (BitVec.ofNat 32 d) c.enter.args) (c.enter.ns - last) (c.enter.ns - st)

def active (S : Sys) : List Frame → Option Act
  | [] => none
  | f :: fs =>
    match S.kind f.c.ip with
    | .root =>
      if f.c.pass then some ⟨f.c, f.inner, 1, f.c.enter.ns, [f.c.enter.ns], [rootEnd S f.c]⟩
      else (active S fs).map fun a => { a with d := a.d + 1, k := lines S a.d a.r.enter.ns a.last f.rest ++ a.k }
    | .node =>
      (active S fs).map fun a =>
        if a.d ≤ S.maxDepth then
          { a with d := a.d + 1, last := f.c.enter.ns, stamps := a.stamps ++ [f.c.enter.ns],
                   k := nodeEnd S a.d a.r.enter.ns f.c :: lines S a.d a.r.enter.ns a.last f.rest ++ a.k }
        else { a with d := a.d + 1, k := lines S a.d a.r.enter.ns a.last f.rest ++ a.k }
    | .other => (active S fs).map fun a => { a with k := lines S a.d a.r.enter.ns a.last f.rest ++ a.k }

theorem active_d (S : Sys) (fs : List Frame) (a : Act) (h : active S fs = some a) : 1 ≤ a.d := by
  induction fs generalizing a with
  | nil => simp [active] at h
  | cons f fs ih =>
    unfold active at h
    cases hk : S.kind f.c.ip <;> rw [hk] at h <;> simp only [] at h
    · split at h
      · simp at h; subst h; simp
      · obtain ⟨b, hb, rfl⟩ := Option.map_eq_some_iff.1 h; simp
    · obtain ⟨b, hb, rfl⟩ := Option.map_eq_some_iff.1 h
      split <;> simp
    · obtain ⟨b, hb, rfl⟩ := Option.map_eq_some_iff.1 h
      exact ih b hb

/-- The search outwards finds the active session, with its depth, unless that is too deep. -/
theorem seek_active (S : Sys) (fs : List Frame) : ∀ (d : Nat), d ≤ S.maxDepth →
    seek S d (fs.map (·.c)) = (active S fs).bind fun a =>
      if d + a.d - 1 ≤ S.maxDepth then some (a.r.sid, d + a.d - 1) else none := by
  induction fs with
  | nil => intro d _; rfl
  | cons f fs ih =>
    intro d hd
    have step : ∀ g : Act → Act, (∀ a, (g a).r = a.r) → (∀ a, (g a).d = a.d + 1) →
        (if d + 1 > S.maxDepth then none else seek S (d + 1) (fs.map (·.c))) = ((active S fs).map g).bind fun a =>
          if d + a.d - 1 ≤ S.maxDepth then some (a.r.sid, d + a.d - 1) else none := by
      intro g hg1 hg2
      cases ha : active S fs with
      | none =>
        split
        · rfl
        · rw [ih _ (by omega), ha]; rfl
      | some a =>
        have h1 := active_d S fs a ha
        simp only [Option.map_some, Option.bind_some, hg1, hg2]
        split
        · rw [if_neg (by omega)]
        · rw [ih _ (by omega), ha]
          simp only [Option.bind_some]
          rw [show d + 1 + a.d - 1 = d + (a.d + 1) - 1 by omega]
    simp only [List.map_cons, seek, active]
    cases hk : S.kind f.c.ip with
    | other =>
      simp only []
      rw [ih d hd]
      cases active S fs <;> rfl
    | node =>
      simp only []
      apply step
      · intro a; split <;> rfl
      · intro a; split <;> rfl
    | root =>
      simp only []
      split
      · simp [hd]
      · apply step
        · intro a; rfl
        · intro a; rfl

theorem active_last (S : Sys) (fs : List Frame) (a : Act) (h : active S fs = some a) : a.stamps.getLast? = some a.last := by
  induction fs generalizing a with
  | nil => simp [active] at h
  | cons f fs ih =>
    unfold active at h
    cases hk : S.kind f.c.ip <;> rw [hk] at h <;> simp only [] at h
    · split at h
      · simp at h; subst h; simp
      · obtain ⟨b, hb, rfl⟩ := Option.map_eq_some_iff.1 h; exact ih b hb
    · obtain ⟨b, hb, rfl⟩ := Option.map_eq_some_iff.1 h
      split
      · simp
      · exact ih b hb
    · obtain ⟨b, hb, rfl⟩ := Option.map_eq_some_iff.1 h
      exact ih b hb

theorem active_mem (S : Sys) (fs : List Frame) (a : Act) (h : active S fs = some a) :
    a.r ∈ (fs.map (·.c)).filter (Call.recorded S) := by
  induction fs generalizing a with
  | nil => simp [active] at h
  | cons f fs ih =>
    have keep : ∀ x, x ∈ (fs.map (·.c)).filter (Call.recorded S) → x ∈ ((f :: fs).map (·.c)).filter (Call.recorded S) := by
      intro x hx
      simp only [List.map_cons, List.filter_cons]
      split
      · exact List.mem_cons_of_mem _ hx
      · exact hx
    unfold active at h
    cases hk : S.kind f.c.ip <;> rw [hk] at h <;> simp only [] at h
    · split at h
      · rename_i hp
        simp at h; subst h
        simp [Call.recorded, hk, hp]
      · obtain ⟨b, hb, rfl⟩ := Option.map_eq_some_iff.1 h; exact keep _ (ih b hb)
    · obtain ⟨b, hb, rfl⟩ := Option.map_eq_some_iff.1 h
      apply keep
      split <;> exact ih b hb
    · obtain ⟨b, hb, rfl⟩ := Option.map_eq_some_iff.1 h
      exact keep _ (ih b hb)

theorem lines_deep (S : Sys) (st : BitVec 32) (cs : Calls) : ∀ (d : Nat) (last : BitVec 32), S.maxDepth < d → lines S d st last cs = [] := by
  induction cs with
  | nil => intros; rfl
  | cons c inner rest ih1 ih2 =>
    intro d last hd
    unfold lines
    rw [ih2 d last hd, List.append_nil]
    cases S.kind c.ip with
    | root => simp only []; split; rfl; exact ih1 _ _ (by omega)
    | node => simp only []; rw [if_neg (by omega)]
    | other => exact ih1 _ _ hd

/-- The table of sessions holds what the active session has so far: what has been put out and what is still to come is the block. -/
def SessOk (S : Sys) (ss : Sessions) (a : Act) (cur : Calls) : Prop :=
  ∃ q, ss a.r.sid = some q ∧ q.started = a.r.enter.ns ∧ q.tstamps = a.stamps ∧ q.lastidx + 1 = a.stamps.length ∧
    q.outputs ++ (lines S a.d a.r.enter.ns a.last cur ++ a.k) = block S a.r a.inner

/-- The sessions under the active one wait for their calls after it. -/
def Paused (S : Sys) (ss : Sessions) : List Frame → Prop
  | [] => True
  | f :: fs => (f.c.recorded S = true → ∀ a, active S fs = some a → SessOk S ss a f.rest) ∧ Paused S ss fs

/-- The sessions of a task. -/
def TaskOk (S : Sys) (ss : Sessions) (t : Task) : Prop :=
  (∀ a, active S t.stack = some a → SessOk S ss a t.cur) ∧ Paused S ss t.stack

theorem SessOk.set_ne {S : Sys} {ss : Sessions} {a : Act} {cur : Calls} (h : SessOk S ss a cur) {k : BitVec 64} (hk : a.r.sid ≠ k)
    (v : Option Session) : SessOk S (Run.set ss k v) a cur := by
  obtain ⟨q, h1, h2⟩ := h
  exact ⟨q, by simp [Run.set, hk, h1], h2⟩

theorem Paused.set_ne {S : Sys} {ss : Sessions} {fs : List Frame} (h : Paused S ss fs) {k : BitVec 64}
    (hk : ∀ f fs', (f :: fs') <:+ fs → f.c.recorded S = true → ∀ c ∈ (fs'.map (·.c)).filter (Call.recorded S), c.sid ≠ k)
    (v : Option Session) : Paused S (Run.set ss k v) fs := by
  induction fs with
  | nil => trivial
  | cons f fs ih =>
    refine ⟨fun hr a ha => (h.1 hr a ha).set_ne (hk f fs (List.suffix_refl _) hr _ (active_mem S fs a ha)) v, ih h.2 ?_⟩
    intro g fs' hs hr
    exact hk g fs' (hs.trans (List.suffix_cons _ _)) hr

theorem TaskOk.set_ne {S : Sys} {ss : Sessions} {t : Task} (h : TaskOk S ss t) {k : BitVec 64}
    (hk : ∀ c ∈ open_ S t, c.sid ≠ k) (v : Option Session) : TaskOk S (Run.set ss k v) t := by
  refine ⟨fun a ha => (h.1 a ha).set_ne (hk _ (active_mem S _ a ha)) v, h.2.set_ne ?_ v⟩
  intro f fs' hs _ c hc
  apply hk
  obtain ⟨pre, hpre⟩ := hs
  unfold open_
  rw [← hpre, List.map_append, List.filter_append]
  apply List.mem_append_right
  exact List.mem_filter.2 ⟨List.mem_cons_of_mem _ (List.mem_filter.1 hc).1, (List.mem_filter.1 hc).2⟩

/-! ### One thing a task does, seen by its sessions -/

/-- A call begins that has no line. -/
theorem enter_quiet {S : Sys} {ss : Sessions} {fs : List Frame} {c : Call} {inner rest : Calls} (hr : c.recorded S = false)
    (hn : S.kind c.ip = .node → ∀ a, active S fs = some a → S.maxDepth < a.d) (h : TaskOk S ss ⟨fs, .cons c inner rest⟩) :
    TaskOk S ss ⟨⟨c, inner, rest⟩ :: fs, inner⟩ := by
  refine ⟨?_, fun h' => absurd h' (by simp [hr]), h.2⟩
  intro a' ha'
  cases ha : active S fs with
  | none =>
    exfalso
    simp only [active, ha] at ha'
    cases hk : S.kind c.ip <;> rw [hk] at ha' <;> simp only [Option.map_none, reduceCtorEq] at ha'
    split at ha'
    · rename_i hp
      simp [Call.recorded, hk, hp] at hr
    · cases ha'
  | some a =>
    obtain ⟨q, h1, h2, h3, h4, h5⟩ := h.1 a ha
    simp only [active, ha] at ha'
    cases hk : S.kind c.ip with
    | other =>
      rw [hk] at ha'
      simp only [Option.map_some, Option.some.injEq] at ha'
      subst ha'
      refine ⟨q, h1, h2, h3, h4, ?_⟩
      rw [← h5]
      simp [lines, hk]
    | root =>
      rw [hk] at ha'
      have hp : c.pass = false := by simpa [Call.recorded, hk] using hr
      simp only [hp, Bool.false_eq_true, if_false, Option.map_some, Option.some.injEq] at ha'
      subst ha'
      refine ⟨q, h1, h2, h3, h4, ?_⟩
      rw [← h5]
      simp [lines, hk, hp]
    | node =>
      rw [hk] at ha'
      have hd := hn hk a ha
      simp only [Option.map_some, Option.some.injEq, if_neg (Nat.not_le.2 hd)] at ha'
      subst ha'
      refine ⟨q, h1, h2, h3, h4, ?_⟩
      rw [← h5]
      simp only [lines, hk, if_neg (Nat.not_le.2 hd), lines_deep S a.r.enter.ns inner (a.d + 1) a.last (by omega),
        lines_deep S a.r.enter.ns rest a.d a.last hd, List.nil_append]

/-- A call ends that has no line. -/
theorem exit_quiet {S : Sys} {ss : Sessions} {fs : List Frame} {f : Frame} (hr : f.c.recorded S = false)
    (hn : S.kind f.c.ip = .node → ∀ a, active S fs = some a → S.maxDepth < a.d) (h : TaskOk S ss ⟨f :: fs, .nil⟩) :
    TaskOk S ss ⟨fs, f.rest⟩ := by
  refine ⟨?_, h.2.2⟩
  intro a ha
  have h0 := h.1
  simp only [active, ha] at h0
  cases hk : S.kind f.c.ip with
  | other =>
    rw [hk] at h0
    obtain ⟨q, h1, h2, h3, h4, h5⟩ := h0 _ rfl
    exact ⟨q, h1, h2, h3, h4, by simpa [lines] using h5⟩
  | root =>
    rw [hk] at h0
    have hp : f.c.pass = false := by simpa [Call.recorded, hk] using hr
    simp only [hp, Bool.false_eq_true, if_false] at h0
    obtain ⟨q, h1, h2, h3, h4, h5⟩ := h0 _ rfl
    exact ⟨q, h1, h2, h3, h4, by simpa [lines] using h5⟩
  | node =>
    rw [hk] at h0
    simp only [Option.map_some, if_neg (Nat.not_le.2 (hn hk a ha))] at h0
    obtain ⟨q, h1, h2, h3, h4, h5⟩ := h0 _ rfl
    exact ⟨q, h1, h2, h3, h4, by simpa [lines] using h5⟩

theorem last_get {l : List (BitVec 32)} {x : BitVec 32} {i : Nat} (h : l.getLast? = some x) (hi : i + 1 = l.length) : l[i]? = some x := by
  rw [← h, List.getLast?_eq_getElem?]
  congr 1
  omega

/-- The recorded calls of a stack. -/
def recs (S : Sys) (fs : List Frame) : List Call := (fs.map (·.c)).filter (Call.recorded S)

theorem recs_cons (S : Sys) (f : Frame) (fs : List Frame) : recs S (f :: fs) = if f.c.recorded S then f.c :: recs S fs else recs S fs := by
  simp [recs, List.filter_cons]

theorem active_recorded {S : Sys} {f : Frame} {fs : List Frame} (h : f.c.recorded S = true) :
    active S (f :: fs) = some ⟨f.c, f.inner, 1, f.c.enter.ns, [f.c.enter.ns], [rootEnd S f.c]⟩ := by
  simp only [Call.recorded, Bool.and_eq_true, decide_eq_true_eq] at h
  simp [active, h.1, h.2]

theorem active_skip {S : Sys} {f : Frame} {fs : List Frame} {a : Act} (h : f.c.recorded S = false) (ha : active S (f :: fs) = some a) :
    ∃ b, active S fs = some b ∧ b.r = a.r := by
  unfold active at ha
  cases hk : S.kind f.c.ip <;> rw [hk] at ha <;> simp only [] at ha
  · have hp : f.c.pass = false := by simpa [Call.recorded, hk] using h
    simp only [hp, Bool.false_eq_true, if_false] at ha
    obtain ⟨b, hb, rfl⟩ := Option.map_eq_some_iff.1 ha
    exact ⟨b, hb, rfl⟩
  · obtain ⟨b, hb, rfl⟩ := Option.map_eq_some_iff.1 ha
    refine ⟨b, hb, ?_⟩
    split <;> rfl
  · obtain ⟨b, hb, rfl⟩ := Option.map_eq_some_iff.1 ha
    exact ⟨b, hb, rfl⟩

theorem paused_sids {S : Sys} {fs : List Frame} {a : Act} (hp : (recs S fs).Pairwise fun x y => x.sid ≠ y.sid) (ha : active S fs = some a) :
    ∀ f fs', (f :: fs') <:+ fs → f.c.recorded S = true → ∀ c ∈ recs S fs', c.sid ≠ a.r.sid := by
  induction fs generalizing a with
  | nil => simp [active] at ha
  | cons g gs ih =>
    intro f fs' hs hr c hc
    cases hg : g.c.recorded S with
    | true =>
      rw [active_recorded hg] at ha
      simp only [Option.some.injEq] at ha
      subst ha
      rw [recs_cons, hg, if_pos rfl, List.pairwise_cons] at hp
      have h1 : fs' <:+ gs := by
        rcases List.suffix_cons_iff.1 hs with h | h
        · simp only [List.cons.injEq] at h
          rw [h.2]
          exact List.suffix_refl _
        · exact (List.suffix_cons _ _).trans h
      have h2 : c ∈ recs S gs := by
        obtain ⟨pre, rfl⟩ := h1
        simp only [recs, List.map_append, List.filter_append]
        exact List.mem_append_right _ hc
      exact fun e => hp.1 c h2 e.symm
    | false =>
      obtain ⟨b, hb, hb'⟩ := active_skip hg ha
      rw [recs_cons, hg] at hp
      rw [← hb']
      refine ih hp hb f fs' ?_ hr c hc
      rcases List.suffix_cons_iff.1 hs with h | h
      · simp only [List.cons.injEq] at h
        rw [h.1, hg] at hr
        cases hr
      · exact h

/-- The session sees the beginning of a call of the graph. -/
theorem enter_line {S : Sys} {ss : Sessions} {fs : List Frame} {c : Call} {inner rest : Calls} {a : Act} (hk : S.kind c.ip = .node)
    (ha : active S fs = some a) (hd : a.d ≤ S.maxDepth) (hp : (recs S fs).Pairwise fun x y => x.sid ≠ y.sid)
    (h : TaskOk S ss ⟨fs, .cons c inner rest⟩) :
    ∃ v, Run.outputGraph ss a.r.sid c.enter.ns (S.texts.graph false c.ip c.enter.cpu (BitVec.ofNat 32 a.d) c.enter.args) true =
        some (Run.set ss a.r.sid (some v)) ∧
      TaskOk S (Run.set ss a.r.sid (some v)) ⟨⟨c, inner, rest⟩ :: fs, inner⟩ := by
  obtain ⟨q, h1, h2, h3, h4, h5⟩ := h.1 a ha
  have hl : q.lastTstamp = some a.last := by
    unfold Run.Session.lastTstamp
    rw [h3]
    exact last_get (active_last S fs a ha) h4
  refine ⟨_, by unfold Run.outputGraph; rw [h1]; simp only [hl, Option.bind_eq_bind, Option.bind_some, if_true]; rfl, ?_, ?_⟩
  · intro a' ha'
    simp only [active, ha, hk, Option.map_some, if_pos hd, Option.some.injEq] at ha'
    subst ha'
    refine ⟨_, if_pos rfl, h2, ?_, ?_, ?_⟩
    · simp [Run.Session.pushTstamp, h3]
    · simp [Run.Session.pushTstamp, h4]
    · rw [← h5]
      simp [lines, hk, hd, nodeEnd, Run.Session.pushTstamp, h2]
  · exact ⟨fun h' => absurd h' (by simp [Call.recorded, hk]), h.2.set_ne (paused_sids hp ha) _⟩

/-- The session sees the end of a call of the graph. -/
theorem exit_line {S : Sys} {ss : Sessions} {fs : List Frame} {f : Frame} {a : Act} (hk : S.kind f.c.ip = .node)
    (ha : active S fs = some a) (hd : a.d ≤ S.maxDepth) (hp : (recs S fs).Pairwise fun x y => x.sid ≠ y.sid)
    (h : TaskOk S ss ⟨f :: fs, .nil⟩) :
    ∃ v, Run.outputGraph ss a.r.sid f.c.leave.ns (S.texts.graph true f.c.ip f.c.leave.cpu (BitVec.ofNat 32 a.d) f.c.leave.args) false =
        some (Run.set ss a.r.sid (some v)) ∧
      TaskOk S (Run.set ss a.r.sid (some v)) ⟨fs, f.rest⟩ := by
  have h0 := h.1
  simp only [active, ha, hk, Option.map_some, if_pos hd] at h0
  obtain ⟨q, h1, h2, h3, h4, h5⟩ := h0 _ rfl
  simp only [] at h1 h2 h3 h4 h5
  have hl : q.lastTstamp = some f.c.enter.ns := by
    unfold Run.Session.lastTstamp
    rw [h3]
    exact last_get (by simp) h4
  simp only [List.length_append, List.length_cons, List.length_nil] at h4
  have hpos : 0 < a.stamps.length := by
    have := active_last S fs a ha
    cases hs : a.stamps with
    | nil => rw [hs] at this; cases this
    | cons => simp
  have hi : q.lastidx = a.stamps.length := by omega
  have hi0 : q.lastidx ≠ 0 := by omega
  refine ⟨_, by unfold Run.outputGraph; rw [h1]; simp only [hl, Option.bind_eq_bind, Option.bind_some, Bool.false_eq_true, if_false]; rfl, ?_, ?_⟩
  · intro a' ha'
    rw [ha] at ha'
    simp only [Option.some.injEq] at ha'
    subst ha'
    refine ⟨_, if_pos rfl, ?_, ?_, ?_, ?_⟩
    · simp [Run.Session.popTstamp, hi0, h2]
    · simp only [Run.Session.popTstamp, if_neg hi0, h3]
      rw [hi, List.take_left]
    · simp [Run.Session.popTstamp, hi0]
      omega
    · rw [← h5]
      simp [lines, nodeEnd, Run.Session.popTstamp, h2, hi0]
  · exact h.2.2.set_ne (paused_sids hp ha) _

/-- A recorded call begins. -/
theorem enter_root {S : Sys} {ss : Sessions} {fs : List Frame} {c : Call} {inner rest : Calls} (hr : c.recorded S = true)
    (hf : ∀ x ∈ recs S fs, x.sid ≠ c.sid) (h : TaskOk S ss ⟨fs, .cons c inner rest⟩) (q : Session) (h1 : q.started = c.enter.ns)
    (h2 : q.tstamps = [c.enter.ns]) (h3 : q.lastidx = 0) (h4 : q.outputs = [.func (S.texts.func false c.ip c.enter.cpu c.enter.args) none]) :
    TaskOk S (Run.set ss c.sid (some q)) ⟨⟨c, inner, rest⟩ :: fs, inner⟩ := by
  refine ⟨?_, ?_, ?_⟩
  · intro a ha
    rw [active_recorded hr] at ha
    simp only [Option.some.injEq] at ha
    subst ha
    exact ⟨q, if_pos rfl, h1, h2, by simp [h3], by simp [h4, block, rootEnd]⟩
  · intro _ a ha
    have h5 := h.1 a ha
    have : SessOk S ss a rest := by
      obtain ⟨q, g1, g2, g3, g4, g5⟩ := h5
      refine ⟨q, g1, g2, g3, g4, ?_⟩
      rw [← g5]
      simp only [Call.recorded, Bool.and_eq_true, decide_eq_true_eq] at hr
      simp [lines, hr.1, hr.2]
    exact this.set_ne (hf _ (active_mem S fs a ha)) _
  · refine h.2.set_ne ?_ _
    intro f fs' hs _ x hx
    apply hf
    obtain ⟨pre, rfl⟩ := hs
    simp only [recs, List.map_append, List.filter_append]
    apply List.mem_append_right
    exact List.mem_filter.2 ⟨List.mem_cons_of_mem _ (List.mem_filter.1 hx).1, (List.mem_filter.1 hx).2⟩

/-- A recorded call ends. -/
theorem exit_root {S : Sys} {ss : Sessions} {fs : List Frame} {f : Frame} (hr : f.c.recorded S = true)
    (hp : (recs S (f :: fs)).Pairwise fun x y => x.sid ≠ y.sid) (h : TaskOk S ss ⟨f :: fs, .nil⟩) :
    TaskOk S (Run.set ss f.c.sid none) ⟨fs, f.rest⟩ ∧
    ∃ q, ss f.c.sid = some q ∧ q.started = f.c.enter.ns ∧ q.outputs ++ [rootEnd S f.c] = block S f.c f.inner := by
  have ha := active_recorded (fs := fs) hr
  have hs := paused_sids hp ha
  refine ⟨⟨?_, ?_⟩, ?_⟩
  · intro a h1
    exact (h.2.1 hr a h1).set_ne (hs f fs (List.suffix_refl _) hr _ (active_mem S fs a h1)) _
  · refine h.2.2.set_ne ?_ _
    intro g gs hg
    exact hs g gs (hg.trans (List.suffix_cons _ _))
  · obtain ⟨q, h1, h2, _, _, h5⟩ := h.1 _ ha
    exact ⟨q, h1, h2, by simpa [lines] using h5⟩

/-! ### The map of sessions -/

/-- The open calls of a root, innermost first: the id if the call is recorded. -/
def opensL (S : Sys) (l : List Call) (ip : Addr) : List (Option (BitVec 64)) :=
  (l.filter fun c => decide (S.kind c.ip = .root) && decide (c.ip = ip)).map fun c => if c.pass then some c.sid else none

def opens (S : Sys) (w : World) : KSess.Calls := fun k => opensL S ((w k.pidTgid).stack.map (·.c)) k.funcIP

theorem opensL_recorded (S : Sys) (l : List Call) (ip : Addr) :
    (opensL S l ip).filterMap id = (l.filter fun a => a.recorded S && decide (a.ip = ip)).map (·.sid) := by
  induction l with
  | nil => rfl
  | cons c l ih =>
    unfold opensL at ih ⊢
    by_cases h1 : S.kind c.ip = .root <;> by_cases h2 : c.ip = ip <;> cases h3 : c.pass <;>
      simp_all [List.filter_cons, Call.recorded]

theorem getS {m : KSess.Map} {c : KSess.Calls} (hi : KSess.Inv m c) (k : KSess.Key) :
    KSess.getSession m k = ((c k).filterMap id).headD 0 := by
  have h := (hi k).1
  unfold KSess.getSession
  cases hm : m k with
  | none =>
    rw [hm] at h
    have h' : (c k).filterMap id = [] := h
    rw [h']
    rfl
  | some s =>
    rw [hm] at h
    cases hl : (c k).filterMap id with
    | nil => rw [hl] at h; exact absurd rfl h.1
    | cons v l => rw [hl] at h; exact h.top

/-- The map tells of the open calls of a task. -/
theorem tells {S : Sys} {w : World} {m : KSess.Map} (hi : KSess.Inv m (opens S w)) (p : BitVec 64) :
    Tells S (fun f => KSess.getSession m ⟨p, f⟩) ((w p).stack.map (·.c)) := by
  intro pre c post hl hpre hk
  obtain ⟨_, h2, n, h3⟩ := hi ⟨p, c.ip⟩
  have hg := getS hi ⟨p, c.ip⟩
  simp only [] at hg ⊢
  rw [hg]
  have ho : opens S w ⟨p, c.ip⟩ = opensL S (pre ++ c :: post) c.ip := by unfold opens; rw [← hl]
  rw [ho] at h2 h3 ⊢
  have hpre' : (opensL S pre c.ip).filterMap id = [] := by
    rw [opensL_recorded]
    simp only [List.map_eq_nil_iff, List.filter_eq_nil_iff]
    intro a ha
    simp [hpre a ha]
  have happ : opensL S (pre ++ c :: post) c.ip = opensL S pre c.ip ++ opensL S (c :: post) c.ip := by simp [opensL]
  cases hkind : S.kind c.ip with
  | other => exact absurd hkind hk
  | node =>
    have hr : c.recorded S = false := by simp [Call.recorded, hkind]
    have : opensL S (pre ++ c :: post) c.ip = [] := by
      simp only [opensL, List.map_eq_nil_iff, List.filter_eq_nil_iff]
      intro a _
      simp only [Bool.and_eq_true, decide_eq_true_eq, not_and]
      intro h1 h2
      rw [h2, hkind] at h1
      cases h1
    rw [this, hr]
    simp
  | root =>
    have hc : opensL S (c :: post) c.ip = (if c.pass then some c.sid else none) :: opensL S post c.ip := by
      simp [opensL, List.filter_cons, hkind]
    cases hp : c.pass with
    | true =>
      have hr : c.recorded S = true := by simp [Call.recorded, hkind, hp]
      have h4 : (opensL S (pre ++ c :: post) c.ip).filterMap id = c.sid :: (opensL S post c.ip).filterMap id := by
        rw [happ, List.filterMap_append, hpre', hc, hp]
        simp
      rw [h4] at h2 ⊢
      rw [hr]
      exact ⟨rfl, fun _ => h2 _ (by simp)⟩
    | false =>
      have hr : c.recorded S = false := by simp [Call.recorded, hp]
      rw [hr]
      refine ⟨?_, nofun⟩
      have hhead : ∃ rest, opensL S (pre ++ c :: post) c.ip = none :: rest := by
        rw [happ, hc, hp]
        cases hx : opensL S pre c.ip with
        | nil => exact ⟨_, rfl⟩
        | cons x xs =>
          refine ⟨xs ++ none :: opensL S post c.ip, ?_⟩
          rw [hx] at hpre'
          cases x with
          | none => rfl
          | some v => simp at hpre'
      obtain ⟨rest, hrest⟩ := hhead
      cases hA : (opensL S (pre ++ c :: post) c.ip).filterMap id with
      | nil => rfl
      | cons v A =>
        rw [hA, hrest] at h3
        simp at h3

/-- The calls of the task still to come are as assumed. -/
def Below (S : Sys) : List Frame → Prop
  | [] => True
  | f :: fs => Fits S (fs.map (·.c)) f.rest ∧ Below S fs

def TFits (S : Sys) (t : Task) : Prop := Fits S (t.stack.map (·.c)) t.cur ∧ Below S t.stack

/-- The map after the beginning of a call of a root. -/
theorem kern_enter {S : Sys} {w : World} {m : KSess.Map} {p : BitVec 64} {fs : List Frame} {c : Call} {inner rest : Calls}
    (hi : KSess.Inv m (opens S w)) (hw : w p = ⟨fs, .cons c inner rest⟩) (hk : S.kind c.ip = .root)
    (hf : Fits S (fs.map (·.c)) (.cons c inner rest)) :
    KSess.Inv (KSess.step m (.enter ⟨p, c.ip⟩ c.sid c.pass S.stale false)).1 (opens S (w.set p ⟨⟨c, inner, rest⟩ :: fs, inner⟩)) := by
  have hopen : opens S w ⟨p, c.ip⟩ = opensL S (fs.map (·.c)) c.ip := by simp [opens, hw]
  have h := (KSess.step_sim m (opens S w) (.enter ⟨p, c.ip⟩ c.sid c.pass S.stale false) [] hi ⟨?_, trivial⟩).2
  · have e : KSess.next (opens S w) (.enter ⟨p, c.ip⟩ c.sid c.pass S.stale false) = opens S (w.set p ⟨⟨c, inner, rest⟩ :: fs, inner⟩) := by
      funext k
      simp only [KSess.next, KSess.pushCall]
      by_cases hkey : k = ⟨p, c.ip⟩
      · subst hkey
        simp [opens, World.set, hw, opensL, List.filter_cons, hk]
      · rw [if_neg hkey]
        by_cases hp : k.pidTgid = p
        · have hne : c.ip ≠ k.funcIP := fun e => hkey (by cases k; simp_all)
          simp [opens, World.set, hp, hw, opensL, List.filter_cons, hne]
        · simp [opens, World.set, hp]
    rw [← e]
    exact h
  · have h1 := hf.1 hk
    simp only [hopen, opensL_recorded, List.length_map] at h1 ⊢
    cases hp : c.pass with
    | true => simp only [hp, if_true] at h1 ⊢; exact ⟨h1.1, trivial, h1.2⟩
    | false => simp only [hp, Bool.false_eq_true, if_false] at h1 ⊢; rw [h1]; rfl

/-- The map after the end of a call of a root, and what is found. -/
theorem kern_exit {S : Sys} {w : World} {m : KSess.Map} {p : BitVec 64} {fs : List Frame} {f : Frame}
    (hi : KSess.Inv m (opens S w)) (hw : w p = ⟨f :: fs, .nil⟩) (hk : S.kind f.c.ip = .root) :
    KSess.Inv (KSess.getAndDel m ⟨p, f.c.ip⟩).2 (opens S (w.set p ⟨fs, f.rest⟩)) ∧
    (f.c.pass = true → (KSess.getAndDel m ⟨p, f.c.ip⟩).1 ≠ 0 ∧ (KSess.getAndDel m ⟨p, f.c.ip⟩).1 - 1 = f.c.sid - 1) ∧
    (f.c.pass = false → (KSess.getAndDel m ⟨p, f.c.ip⟩).1 = 0) := by
  have hopen : opens S w ⟨p, f.c.ip⟩ = (if f.c.pass then some f.c.sid else none) :: opensL S (fs.map (·.c)) f.c.ip := by
    simp [opens, hw, opensL, List.filter_cons, hk]
  have h := KSess.step_sim m (opens S w) (.exit ⟨p, f.c.ip⟩) [] hi ⟨trivial, trivial⟩
  have e : KSess.next (opens S w) (.exit ⟨p, f.c.ip⟩) = opens S (w.set p ⟨fs, f.rest⟩) := by
    funext k
    simp only [KSess.next, KSess.popCall]
    by_cases hkey : k = ⟨p, f.c.ip⟩
    · subst hkey
      simp [opens, World.set, hw, opensL, List.filter_cons, hk]
    · rw [if_neg hkey]
      by_cases hp : k.pidTgid = p
      · have hne : f.c.ip ≠ k.funcIP := fun e => hkey (by cases k; simp_all)
        simp [opens, World.set, hp, hw, opensL, List.filter_cons, hne]
      · simp [opens, World.set, hp]
  rw [e] at h
  refine ⟨h.2, ?_, ?_⟩ <;> intro hp <;> have h1 := h.1 <;> rw [hp] at hopen <;>
    simp only [KSess.step, KSess.expect, hopen, if_true, Bool.false_eq_true, if_false, List.head?_cons] at h1
  · by_cases h0 : (KSess.getAndDel m ⟨p, f.c.ip⟩).1 = 0
    · rw [if_pos h0] at h1; cases h1
    · rw [if_neg h0] at h1
      simp only [Option.some.injEq, KSess.Out.exit.injEq, true_and] at h1
      exact ⟨h0, h1⟩
  · by_cases h0 : (KSess.getAndDel m ⟨p, f.c.ip⟩).1 = 0
    · exact h0
    · rw [if_neg h0] at h1; cases h1

/-! ### One thing after the other -/

structure Good (S : Sys) (w : World) (st : Att.SSt) (ss : Sessions) : Prop where
  kern : KSess.Inv st.1 (opens S w)
  user : ∀ p, TaskOk S ss (w p)
  dist : ∀ p q, p ≠ q → ∀ c ∈ recs S (w p).stack, ∀ c' ∈ recs S (w q).stack, c.sid ≠ c'.sid
  own : ∀ p, (recs S (w p).stack).Pairwise fun x y => x.sid ≠ y.sid
  fits : ∀ p, TFits S (w p)

theorem World.set_same (w : World) (p : BitVec 64) (t : Task) : (w.set p t) p = t := if_pos rfl
theorem World.set_other (w : World) {p q : BitVec 64} (h : q ≠ p) (t : Task) : (w.set p t) q = w q := if_neg h

/-- A task goes on and nothing changes for the others. -/
theorem Good.move {S : Sys} {w : World} {st st' : Att.SSt} {ss ss' : Sessions} {p : BitVec 64} {t : Task} (g : Good S w st ss)
    (hk : KSess.Inv st'.1 (opens S (w.set p t))) (hu : TaskOk S ss' t) (ho : ∀ q, q ≠ p → TaskOk S ss' (w q))
    (hd : ∀ q, q ≠ p → ∀ c ∈ recs S t.stack, ∀ c' ∈ recs S (w q).stack, c.sid ≠ c'.sid)
    (hw : (recs S t.stack).Pairwise fun x y => x.sid ≠ y.sid) (hf : TFits S t) : Good S (w.set p t) st' ss' := by
  refine ⟨hk, ?_, ?_, ?_, ?_⟩
  · intro q
    by_cases h : q = p
    · rw [h, World.set_same]; exact hu
    · rw [World.set_other w h]; exact ho q h
  · intro q r hqr
    by_cases h : q = p
    · have hr : r ≠ p := fun e => hqr (h.trans e.symm)
      rw [h, World.set_same, World.set_other w hr]
      exact hd r hr
    · rw [World.set_other w h]
      by_cases h' : r = p
      · rw [h', World.set_same]
        intro c hc c' hc' e
        exact hd q h c' hc' c hc e.symm
      · rw [World.set_other w h']
        exact g.dist q r hqr
  · intro q
    by_cases h : q = p
    · rw [h, World.set_same]; exact hw
    · rw [World.set_other w h]; exact g.own q
  · intro q
    by_cases h : q = p
    · rw [h, World.set_same]; exact hf
    · rw [World.set_other w h]; exact g.fits q

/-- The map of sessions does not change when a call begins or ends that is not of a root. -/
theorem opens_move {S : Sys} {w : World} {p : BitVec 64} {t : Task}
    (h : ∀ ip, opensL S (t.stack.map (·.c)) ip = opensL S ((w p).stack.map (·.c)) ip) : opens S (w.set p t) = opens S w := by
  funext k
  unfold opens
  by_cases hp : k.pidTgid = p
  · rw [hp, World.set_same, h]
  · rw [World.set_other w hp]

theorem opensL_skip {S : Sys} {c : Call} (h : S.kind c.ip ≠ .root) (l : List Call) (ip : Addr) : opensL S (c :: l) ip = opensL S l ip := by
  simp [opensL, List.filter_cons, h]

theorem others_keep {S : Sys} {w : World} {st : Att.SSt} {ss : Sessions} (g : Good S w st ss) {p : BitVec 64} {k : BitVec 64}
    (hk : ∃ c ∈ recs S (w p).stack, c.sid = k) (v : Option Session) : ∀ q, q ≠ p → TaskOk S (Run.set ss k v) (w q) := by
  intro q hq
  obtain ⟨c, hc, rfl⟩ := hk
  exact (g.user q).set_ne (fun c' hc' => g.dist q p hq c' hc' c hc) v

/-- The record of a call of the graph and what it does. -/
theorem node_rec {S : Sys} {w : World} {st : Att.SSt} {ss : Sessions} (g : Good S w st ss) {p : BitVec 64} {h : Hit} (fs : List Frame)
    (hsuf : ∃ pre, (w p).stack = pre ++ fs ∧ ∀ f ∈ pre, S.kind f.c.ip = .node ∧ f.c = h.c) (hm : 1 ≤ S.maxDepth) (hs : S.session = false)
    (hpid : S.mypid ≠ (p >>> 32).setWidth 32) (hk : S.kind h.c.ip = .node) (ha : h.around = fs.map (·.c)) (hu : Unwound S p h) :
    kstep S st p h = (st, (active S fs).bind fun a => if a.d ≤ S.maxDepth then
      some (.graph true h.exit a.r.sid (if h.exit then h.c.leave else h.c.enter).ns
        (S.texts.graph h.exit h.c.ip (if h.exit then h.c.leave else h.c.enter).cpu (BitVec.ofNat 32 a.d)
          (if h.exit then h.c.leave else h.c.enter).args)) else none) := by
  unfold kstep
  rw [if_neg hpid, hk]
  simp only []
  rw [fgraph_read S h.c h.exit p hpid hs]
  have ht : Tells S (fun f => KSess.getSession st.1 ⟨p, f⟩) h.around := by
    obtain ⟨pre, hpre, hn⟩ := hsuf
    have h0 := tells g.kern p
    rw [hpre, List.map_append] at h0
    intro a c b hl hab hc
    rw [ha] at hl
    refine h0 (pre.map (·.c) ++ a) c b (by rw [hl, List.append_assoc]) ?_ hc
    intro x hx
    rcases List.mem_append.1 hx with hx | hx
    · obtain ⟨f, hf, rfl⟩ := List.mem_map.1 hx
      simp [Call.recorded, (hn f hf).1]
    · exact hab x hx
  rw [found S _ p h hk hu ht, ha, seek_active S fs 1 hm]
  cases active S fs with
  | none => rfl
  | some a =>
    simp only [Option.bind_some, Nat.add_sub_cancel_left]
    by_cases hd : a.d ≤ S.maxDepth
    · simp only [if_pos hd, Option.map_some]
    · simp only [if_neg hd, Option.map_none]

theorem steps_nil (d : Int) (ss : Sessions) : Run.steps d ss [] = some (ss, []) := rfl

theorem steps_one (d : Int) (ss : Sessions) (r : Run.Rec) (ss' : Sessions) (o : Option (List Item)) (h : Run.handle d ss r = some (ss', o)) :
    Run.steps d ss [r] = some (ss', o.toList) := by
  simp [Run.steps, h]

/-- One thing a task does. -/
theorem step {S : Sys} {w : World} {st : Att.SSt} {ss : Sessions} (limit : Int) (g : Good S w st ss) {p : BitVec 64} {h : Hit} {t : Task}
    (hn : next (w p) = some (h, t)) (hm : 1 ≤ S.maxDepth) (hs : S.session = false) (hpid : S.mypid ≠ (p >>> 32).setWidth 32)
    (hu : S.kind h.c.ip = .node → Unwound S p h)
    (hd : h.exit = false → h.c.recorded S = true → ∀ q, ∀ c ∈ open_ S (w q), c.sid ≠ h.c.sid) :
    ∃ ss', Run.steps limit ss (kstep S st p h).2.toList = some (ss', (printed S limit h).toList) ∧
      Good S (w.set p t) (kstep S st p h).1 ss' := by
  have hgu := g.user p
  have hgf := g.fits p
  have hgo := g.own p
  have hgd := g.dist p
  cases hw : w p with
  | mk stk cur =>
  rw [hw] at hgu hgf hgo hgd
  unfold next at hn
  rw [hw] at hn
  cases cur with
  | cons c inner rest =>
    simp only [Option.some.injEq, Prod.mk.injEq] at hn
    obtain ⟨rfl, rfl⟩ := hn
    have hf' : TFits S ⟨⟨c, inner, rest⟩ :: stk, inner⟩ := ⟨hgf.1.2.1, hgf.1.2.2, hgf.2⟩
    have hpr : printed S limit ⟨c, inner, stk.map (·.c), false⟩ = none := by simp [printed]
    rw [hpr]
    cases hk : S.kind c.ip with
    | other =>
      have hr : c.recorded S = false := by simp [Call.recorded, hk]
      have e : kstep S st p ⟨c, inner, stk.map (·.c), false⟩ = (st, none) := by simp [kstep, if_neg hpid, hk]
      rw [e]
      have hrec : recs S (⟨c, inner, rest⟩ :: stk) = recs S stk := by simp [recs_cons, hr]
      refine ⟨ss, rfl, g.move ?_ (enter_quiet hr (by simp [hk]) hgu) (fun q _ => g.user q) ?_ ?_ hf'⟩
      · rw [opens_move (by intro ip; rw [hw]; exact opensL_skip (by simp [hk]) _ _)]
        exact g.kern
      · intro q hq; rw [hrec]; exact hgd q hq.symm
      · rw [hrec]; exact hgo
    | node =>
      have hr : c.recorded S = false := by simp [Call.recorded, hk]
      have hrec : recs S (⟨c, inner, rest⟩ :: stk) = recs S stk := by simp [recs_cons, hr]
      have hop : opens S (w.set p ⟨⟨c, inner, rest⟩ :: stk, inner⟩) = opens S w :=
        opens_move (by intro ip; rw [hw]; exact opensL_skip (by simp [hk]) _ _)
      have e := node_rec (h := ⟨c, inner, stk.map (·.c), false⟩) g stk ⟨[], by simp [hw], by simp⟩ hm hs hpid hk rfl (hu hk)
      rw [e]
      simp only [Bool.false_eq_true, if_false]
      have quiet : (∀ a, active S stk = some a → S.maxDepth < a.d) →
          Good S (w.set p ⟨⟨c, inner, rest⟩ :: stk, inner⟩) st ss := by
        intro hq
        refine g.move (by rw [hop]; exact g.kern) (enter_quiet hr (fun _ => hq) hgu) (fun q _ => g.user q) ?_ ?_ hf'
        · intro q hq; rw [hrec]; exact hgd q hq.symm
        · rw [hrec]; exact hgo
      cases ha : active S stk with
      | none => exact ⟨ss, rfl, quiet (by simp [ha])⟩
      | some a =>
        simp only [Option.bind_some]
        by_cases hdep : a.d ≤ S.maxDepth
        · rw [if_pos hdep]
          obtain ⟨v, h1, h2⟩ := enter_line (c := c) (inner := inner) (rest := rest) hk ha hdep hgo hgu
          refine ⟨_, steps_one limit ss _ _ none ?_, g.move (by rw [hop]; exact g.kern) h2 ?_ ?_ ?_ hf'⟩
          · simp only [Run.handle, Bool.not_true, Bool.false_eq_true, if_false, Bool.not_false, h1, Option.map_some]
          · exact others_keep g ⟨a.r, by rw [hw]; exact active_mem S stk a ha, rfl⟩ _
          · intro q hq; rw [hrec]; exact hgd q hq.symm
          · rw [hrec]; exact hgo
        · rw [if_neg hdep]
          exact ⟨ss, rfl, quiet (by intro b hb; rw [ha] at hb; simp only [Option.some.injEq] at hb; subst hb; omega)⟩
    | root =>
      have hki := kern_enter g.kern hw hk hgf.1
      have e : kstep S st p ⟨c, inner, stk.map (·.c), false⟩ =
          (((KSess.step st.1 (.enter ⟨p, c.ip⟩ c.sid c.pass S.stale false)).1, (kstep S st p ⟨c, inner, stk.map (·.c), false⟩).1.2),
            if c.pass then some (funcRec S c false c.sid) else none) := by
        cases hp : c.pass <;> simp [kstep, if_neg hpid, hk, hs, Att.sstep, KSess.step, hp]
      rw [e]
      cases hp : c.pass with
      | false =>
        have hr : c.recorded S = false := by simp [Call.recorded, hp]
        have hrec : recs S (⟨c, inner, rest⟩ :: stk) = recs S stk := by simp [recs_cons, hr]
        rw [hp] at hki
        refine ⟨ss, rfl, g.move hki (enter_quiet hr (by simp [hk]) hgu) (fun q _ => g.user q) ?_ ?_ hf'⟩
        · intro q hq; rw [hrec]; exact hgd q hq.symm
        · rw [hrec]; exact hgo
      | true =>
        have hr : c.recorded S = true := by simp [Call.recorded, hp, hk]
        have hrec : recs S (⟨c, inner, rest⟩ :: stk) = c :: recs S stk := by simp [recs_cons, hr]
        rw [hp] at hki
        have hd' := hd rfl hr
        have hmine : ∀ x ∈ recs S stk, x.sid ≠ c.sid := by
          intro x hx
          exact hd' p x (by rw [hw]; exact hx)
        refine ⟨_, steps_one limit ss _ _ none (by simp [Run.handle, funcRec, Run.FuncEv.requiredSession]; rfl),
          g.move hki (enter_root hr hmine hgu _ ?_ ?_ ?_ ?_) ?_ ?_ ?_ hf'⟩
        · rfl
        · rfl
        · rfl
        · rfl
        · intro q _
          exact (g.user q).set_ne (hd' q) _
        · intro q hq
          rw [hrec]
          intro x hx c' hc'
          rcases List.mem_cons.1 hx with rfl | hx
          · exact fun e => hd' q c' hc' e.symm
          · exact hgd q hq.symm x hx c' hc'
        · rw [hrec]
          exact List.pairwise_cons.2 ⟨fun x hx e => hmine x hx e.symm, hgo⟩
  | nil =>
    cases stk with
    | nil => cases hn
    | cons f fs =>
      simp only [Option.some.injEq, Prod.mk.injEq] at hn
      obtain ⟨rfl, rfl⟩ := hn
      have hf' : TFits S ⟨fs, f.rest⟩ := hgf.2
      have hsub : ∀ x, x ∈ recs S fs → x ∈ recs S (f :: fs) := by
        intro x hx
        rw [recs_cons]
        split
        · exact List.mem_cons_of_mem _ hx
        · exact hx
      have hdis : ∀ q, q ≠ p → ∀ c ∈ recs S fs, ∀ c' ∈ recs S (w q).stack, c.sid ≠ c'.sid :=
        fun q hq c hc => hgd q hq.symm c (hsub c hc)
      have hpw : (recs S fs).Pairwise fun x y => x.sid ≠ y.sid := by
        rw [recs_cons] at hgo
        split at hgo
        · exact (List.pairwise_cons.1 hgo).2
        · exact hgo
      cases hk : S.kind f.c.ip with
      | other =>
        have hr : f.c.recorded S = false := by simp [Call.recorded, hk]
        have e : kstep S st p ⟨f.c, f.inner, fs.map (·.c), true⟩ = (st, none) := by simp [kstep, if_neg hpid, hk]
        have hpr : printed S limit ⟨f.c, f.inner, fs.map (·.c), true⟩ = none := by simp [printed, hk]
        rw [e, hpr]
        refine ⟨ss, rfl, g.move ?_ (exit_quiet hr (by simp [hk]) hgu) (fun q _ => g.user q) hdis hpw hf'⟩
        rw [opens_move (by intro ip; rw [hw]; exact (opensL_skip (by simp [hk]) _ _).symm)]
        exact g.kern
      | node =>
        have hr : f.c.recorded S = false := by simp [Call.recorded, hk]
        have hop : opens S (w.set p ⟨fs, f.rest⟩) = opens S w :=
          opens_move (by intro ip; rw [hw]; exact (opensL_skip (by simp [hk]) _ _).symm)
        have hpr : printed S limit ⟨f.c, f.inner, fs.map (·.c), true⟩ = none := by simp [printed, hk]
        have e := node_rec (h := ⟨f.c, f.inner, fs.map (·.c), true⟩) g fs ⟨[f], by simp [hw], by simp [hk]⟩ hm hs hpid hk rfl (hu hk)
        rw [e, hpr]
        simp only [if_true]
        have quiet : (∀ a, active S fs = some a → S.maxDepth < a.d) → Good S (w.set p ⟨fs, f.rest⟩) st ss := by
          intro hq
          exact g.move (by rw [hop]; exact g.kern) (exit_quiet hr (fun _ => hq) hgu) (fun q _ => g.user q) hdis hpw hf'
        cases ha : active S fs with
        | none => exact ⟨ss, rfl, quiet (by simp [ha])⟩
        | some a =>
          simp only [Option.bind_some]
          by_cases hdep : a.d ≤ S.maxDepth
          · rw [if_pos hdep]
            obtain ⟨v, h1, h2⟩ := exit_line hk ha hdep hpw hgu
            refine ⟨_, steps_one limit ss _ _ none ?_, g.move (by rw [hop]; exact g.kern) h2 ?_ hdis hpw hf'⟩
            · simp only [Run.handle, Bool.not_true, Bool.false_eq_true, if_false, h1, Option.map_some]
            · exact others_keep g ⟨a.r, by rw [hw]; exact hsub _ (active_mem S fs a ha), rfl⟩ _
          · rw [if_neg hdep]
            exact ⟨ss, rfl, quiet (by intro b hb; rw [ha] at hb; simp only [Option.some.injEq] at hb; subst hb; omega)⟩
      | root =>
        obtain ⟨hki, hp1, hp0⟩ := kern_exit g.kern hw hk
        have e : kstep S st p ⟨f.c, f.inner, fs.map (·.c), true⟩ =
            (((KSess.getAndDel st.1 ⟨p, f.c.ip⟩).2, st.2), if (KSess.getAndDel st.1 ⟨p, f.c.ip⟩).1 = 0 then none else
              some (funcRec S f.c true ((KSess.getAndDel st.1 ⟨p, f.c.ip⟩).1 - 1))) := by
          have h1 : (kstep S st p ⟨f.c, f.inner, fs.map (·.c), true⟩) =
              (((KSess.getAndDel st.1 ⟨p, f.c.ip⟩).2, st.2), match (if (KSess.getAndDel st.1 ⟨p, f.c.ip⟩).1 = 0 then none else
                some (KSess.Out.exit ⟨p, f.c.ip⟩ ((KSess.getAndDel st.1 ⟨p, f.c.ip⟩).1 - 1))) with
                | some (.entry _ sid) => some (funcRec S f.c false sid)
                | some (.exit _ sid) => some (funcRec S f.c true sid)
                | _ => none) := by
            simp only [kstep, if_neg hpid, hk, hs, Att.sstep, if_true, Bool.false_eq_true, if_false]
            rfl
          rw [h1]
          by_cases h0 : (KSess.getAndDel st.1 ⟨p, f.c.ip⟩).1 = 0
          · rw [if_pos h0, if_pos h0]
          · rw [if_neg h0, if_neg h0]
        rw [e]
        cases hp : f.c.pass with
        | false =>
          have hr : f.c.recorded S = false := by simp [Call.recorded, hp]
          have hpr : printed S limit ⟨f.c, f.inner, fs.map (·.c), true⟩ = none := by simp [printed, hp]
          rw [if_pos (hp0 hp), hpr]
          exact ⟨ss, rfl, g.move hki (exit_quiet hr (by simp [hk]) hgu) (fun q _ => g.user q) hdis hpw hf'⟩
        | true =>
          have hr : f.c.recorded S = true := by simp [Call.recorded, hp, hk]
          obtain ⟨h0, h1⟩ := hp1 hp
          rw [if_neg h0, h1]
          obtain ⟨h2, q, h3, h4, h5⟩ := exit_root hr hgo hgu
          refine ⟨Run.set ss f.c.sid none, ?_, g.move hki h2 ?_ hdis hpw hf'⟩
          · apply steps_one
            simp only [Run.handle, funcRec, Run.FuncEv.requiredSession, Bool.not_false, Bool.and_true, Bool.or_true, Bool.true_or, if_true,
              BitVec.sub_add_cancel, h3, h4]
            by_cases hlim : ((f.c.leave.ns - f.c.enter.ns).toNat : Int) < limit
            · rw [if_neg (by decide), if_pos hlim]
              have : printed S limit ⟨f.c, f.inner, fs.map (·.c), true⟩ = none := by
                unfold printed
                rw [if_neg]
                rintro ⟨_, _, _, hx⟩
                exact absurd hx (Int.not_le.2 hlim)
              rw [this]
            · rw [if_neg (by decide), if_neg hlim]
              have : printed S limit ⟨f.c, f.inner, fs.map (·.c), true⟩ = some (block S f.c f.inner) := by
                unfold printed
                rw [if_pos ⟨rfl, hk, hp, Int.not_lt.1 hlim⟩]
              rw [this, ← h5]
              rfl
          · exact others_keep g ⟨f.c, by rw [hw, recs_cons, hr]; simp, rfl⟩ _

/-- All that the tasks do. -/
theorem all {S : Sys} (limit : Int) (hm : 1 ≤ S.maxDepth) (hs : S.session = false) (sched : List (BitVec 64)) :
    ∀ (w : World) (st : Att.SSt) (ss : Sessions), Good S w st ss → Distinct S w sched →
      (∀ p h, (p, h) ∈ hits w sched → S.mypid ≠ (p >>> 32).setWidth 32 ∧ (S.kind h.c.ip = .node → Unwound S p h)) →
      ∃ ss', Run.steps limit ss (records S st (hits w sched)) = some (ss', (hits w sched).filterMap fun x => printed S limit x.2) := by
  induction sched with
  | nil => intro w st ss _ _ _; exact ⟨ss, rfl⟩
  | cons p ps ih =>
    intro w st ss g hd hu
    simp only [Distinct] at hd
    simp only [hits] at hu ⊢
    cases hn : next (w p) with
    | none =>
      rw [hn] at hd hu
      exact ih w st ss g hd hu
    | some x =>
      obtain ⟨h, t⟩ := x
      rw [hn] at hd hu
      simp only [] at hd hu ⊢
      obtain ⟨hd1, hd2⟩ := hd
      have h0 := hu p h (by simp)
      obtain ⟨ss1, h1, h2⟩ := step limit g hn hm hs h0.1 h0.2 hd1
      obtain ⟨ss2, h3⟩ := ih _ _ ss1 h2 hd2 (fun q k hq => hu q k (List.mem_cons_of_mem _ hq))
      refine ⟨ss2, ?_⟩
      simp only [records, Run.steps_append, h1, Option.bind_eq_bind, Option.bind_some, h3, List.filterMap_cons]
      cases printed S limit h <;> simp

/-- The tasks before they make their calls. -/
def start (F : BitVec 64 → Calls) : World := fun p => ⟨[], F p⟩

theorem good_start (S : Sys) (F : BitVec 64 → Calls) (hf : ∀ p, Fits S [] (F p)) : Good S (start F) noSessions Run.newSessions := by
  refine ⟨fun k => ⟨rfl, by simp [opens, start, opensL], 0, rfl⟩, ?_, ?_, ?_, ?_⟩
  · intro p
    exact ⟨by simp [start, active], trivial⟩
  · intro p q _ c hc
    simp [start, recs] at hc
  · intro p
    exact List.Pairwise.nil
  · intro p
    exact ⟨hf p, trivial⟩

/-- **C79.** Whatever calls any number of tasks make and however the tasks are scheduled, bpfsnoop prints with `--fgraph` for each recorded call
of a root (that took at least `limit`), when it ends, its own two lines and between them the lines of the calls of the graph made
during it: in order, each with its depth, its time and its captured bytes; nothing else, and it never crashes. *Missing*: kernels with
`fsession` (`fsession_violated`), rejected calls within recorded calls of the same function (`rejected_recursion_violated`), two
calls with the same id at once (`same_id_violated`), stacks that are cut off (`KSess.graph_depth_violated_by_short_stack`), records lost by the
ring buffer (`lost_record_violated`). -/
theorem graph_shown_partial (S : Sys) (limit : Int) (F : BitVec 64 → Calls) (sched : List (BitVec 64)) (hm : 1 ≤ S.maxDepth)
    (hs : S.session = false) (hf : ∀ p, Fits S [] (F p)) (hd : Distinct S (start F) sched)
    (hu : ∀ p h, (p, h) ∈ hits (start F) sched → S.mypid ≠ (p >>> 32).setWidth 32 ∧ (S.kind h.c.ip = .node → Unwound S p h)) :
    Run.run limit 0 (records S noSessions (hits (start F) sched)) =
      some ((hits (start F) sched).filterMap fun x => printed S limit x.2, .closed) := by
  obtain ⟨ss, h⟩ := all limit hm hs sched _ _ _ (good_start S F hf) hd hu
  rw [Run.run_unlimited, h]
  rfl

/-- **C79, with `--limit-events`.** The first blocks of these. -/
theorem graph_shown_limited_partial (S : Sys) (limit : Int) (F : BitVec 64 → Calls) (sched : List (BitVec 64)) (hm : 1 ≤ S.maxDepth)
    (hs : S.session = false) (hf : ∀ p, Fits S [] (F p)) (hd : Distinct S (start F) sched)
    (hu : ∀ p h, (p, h) ∈ hits (start F) sched → S.mypid ≠ (p >>> 32).setWidth 32 ∧ (S.kind h.c.ip = .node → Unwound S p h))
    (n : Nat) (h0 : 0 < n) (hn : n < 2 ^ 63) :
    ∃ e, Run.run limit (BitVec.ofNat 64 n) (records S noSessions (hits (start F) sched)) =
      some (((hits (start F) sched).filterMap fun x => printed S limit x.2).take n, e) := by
  obtain ⟨ss, h⟩ := all limit hm hs sched _ _ _ (good_start S F hf) hd hu
  exact ⟨_, Run.run_limited_partial limit n h0 hn _ ss _ h⟩

/-! ### The lines -/

/-- **C79, depth.** A call of the graph at the bottom of a chain of calls has its two lines exactly if it is not deeper than asked for; the depth is one more
than the number of calls of the graph or of rejected roots between it and the root. -/
theorem chain_lines (S : Sys) (c : Call) (hk : S.kind c.ip = .node) (st : BitVec 32) (around : List Call)
    (hr : ∀ a ∈ around, a.recorded S = false) : ∀ (d : Nat) (last : BitVec 32), d + (around.filter fun a => decide (S.kind a.ip ≠ .other)).length ≤ S.maxDepth →
    ∃ pre post l, lines S d st last (around.foldr (fun a x => .cons a x .nil) (.cons c .nil .nil)) =
      pre ++ [nodeBegin S (d + (around.filter fun a => decide (S.kind a.ip ≠ .other)).length) st l c,
        nodeEnd S (d + (around.filter fun a => decide (S.kind a.ip ≠ .other)).length) st c] ++ post := by
  induction around with
  | nil =>
    intro d last hd
    simp only [List.filter_nil, List.length_nil, Nat.add_zero] at hd ⊢
    exact ⟨[], [], last, by simp [lines, hk, hd, nodeBegin, nodeEnd]⟩
  | cons a around ih =>
    intro d last hd
    have ih' := ih fun x hx => hr x (List.mem_cons_of_mem _ hx)
    have ha := hr a (by simp)
    simp only [List.foldr_cons]
    cases hka : S.kind a.ip with
    | other =>
      simp only [List.filter_cons, hka, ne_eq, not_true_eq_false, decide_false, Bool.false_eq_true, if_false] at hd ⊢
      obtain ⟨pre, post, l, h⟩ := ih' d last hd
      exact ⟨pre, post, l, by simp [lines, hka, h]⟩
    | node =>
      simp only [List.filter_cons, hka, ne_eq, reduceCtorEq, not_false_eq_true, decide_true, if_true, List.length_cons] at hd ⊢
      obtain ⟨pre, post, l, h⟩ := ih' (d + 1) a.enter.ns (by simp only [ne_eq]; omega)
      simp only [ne_eq] at h
      rw [show d + 1 + (List.filter (fun a => decide ¬S.kind a.ip = Kind.other) around).length =
        d + ((List.filter (fun a => decide ¬S.kind a.ip = Kind.other) around).length + 1) by omega] at h
      have hd1 : d ≤ S.maxDepth := by omega
      exact ⟨nodeBegin S d st last a :: pre, post ++ [nodeEnd S d st a], l, by simp [lines, hka, hd1, h, nodeBegin, nodeEnd]⟩
    | root =>
      have hp : a.pass = false := by simpa [Call.recorded, hka] using ha
      simp only [List.filter_cons, hka, ne_eq, reduceCtorEq, not_false_eq_true, decide_true, if_true, List.length_cons] at hd ⊢
      obtain ⟨pre, post, l, h⟩ := ih' (d + 1) last (by simp only [ne_eq]; omega)
      simp only [ne_eq] at h
      rw [show d + 1 + (List.filter (fun a => decide ¬S.kind a.ip = Kind.other) around).length =
        d + ((List.filter (fun a => decide ¬S.kind a.ip = Kind.other) around).length + 1) by omega] at h
      exact ⟨pre, post, l, by simp [lines, hka, hp, h]⟩

/-- The number of calls that have lines. -/
def shownCalls (S : Sys) (d : Nat) : Calls → Nat
  | .nil => 0
  | .cons c inner rest =>
    (match S.kind c.ip with
      | .node => if d ≤ S.maxDepth then 1 + shownCalls S (d + 1) inner else 0
      | .other => shownCalls S d inner
      | .root => if c.pass then 0 else shownCalls S (d + 1) inner) + shownCalls S d rest

/-- **C79, counting.** Each call shown has two lines. -/
theorem lines_length (S : Sys) (st : BitVec 32) (cs : Calls) : ∀ (d : Nat) (last : BitVec 32), (lines S d st last cs).length = 2 * shownCalls S d cs := by
  induction cs with
  | nil => intros; rfl
  | cons c inner rest ih1 ih2 =>
    intro d last
    simp only [lines, shownCalls, List.length_append, ih2]
    cases S.kind c.ip with
    | root => simp only []; split <;> simp [ih1] <;> omega
    | node => simp only []; split <;> simp [ih1] <;> omega
    | other => simp only [ih1]; omega

/-! ### Examples -/

/-- The ids differ, for finitely many tasks. -/
def distinctIn (S : Sys) (T : List (BitVec 64)) : World → List (BitVec 64) → Bool
  | _, [] => true
  | w, p :: ps =>
    match next (w p) with
    | none => distinctIn S T w ps
    | some (h, t) =>
      (h.exit || !h.c.recorded S || T.all fun q => (open_ S (w q)).all fun c => decide (c.sid ≠ h.c.sid)) && distinctIn S T (w.set p t) ps

theorem distinct_of (S : Sys) (T : List (BitVec 64)) (ps : List (BitVec 64)) : ∀ (w : World), (∀ q, q ∉ T → (w q).stack = []) → (∀ p ∈ ps, p ∈ T) →
    distinctIn S T w ps = true → Distinct S w ps := by
  induction ps with
  | nil => intros; trivial
  | cons p ps ih =>
    intro w hw hps h
    simp only [Distinct]
    simp only [distinctIn] at h
    cases hn : next (w p) with
    | none =>
      rw [hn] at h
      exact ih w hw (fun q hq => hps q (List.mem_cons_of_mem _ hq)) h
    | some x =>
      obtain ⟨k, t⟩ := x
      rw [hn] at h
      simp only [Bool.and_eq_true, Bool.or_eq_true, Bool.not_eq_true', List.all_eq_true, decide_eq_true_eq] at h
      refine ⟨?_, ih _ ?_ (fun q hq => hps q (List.mem_cons_of_mem _ hq)) h.2⟩
      · intro he hr q c hc
        rcases h.1 with (h1 | h1) | h1
        · rw [he] at h1; cases h1
        · rw [hr] at h1; cases h1
        · by_cases hq : q ∈ T
          · exact h1 q hq c hc
          · simp [open_, hw q hq] at hc
      · intro q hq
        have hne : q ≠ p := fun e => hq (by rw [e]; exact hps p (by simp))
        rw [World.set_other w hne]
        exact hw q hq

/-- A root at 1, functions of the graph at 2 and 3, the address 1000 + f on the stack for f. -/
def exSys (max : Nat) (session : Bool) : Sys where
  kind ip := if ip = 1 then .root else if ip = 2 ∨ ip = 3 then .node else .other
  fip a := if a = 1001 ∨ a = 1002 ∨ a = 1003 then a - 1000 else 0
  maxDepth := max
  maxStack := 127
  stack _ h := 77 :: ((h.c :: h.around).map fun c => [c.ip + 1000, c.ip + 5000]).flatten
  stale _ := 99
  mypid := 7
  session := session
  texts := ⟨fun e ip cpu d a => (if e then 500000 else 400000) + ip.toNat * 1000 + cpu.toNat * 100 + d.toNat * 10 + a.length,
    fun e ip cpu a => (if e then 200000 else 100000) + ip.toNat * 1000 + cpu.toNat * 100 + a.length⟩

def exCall (ip : Addr) (pass : Bool) (sid : BitVec 64) (t0 t1 : BitVec 32) : Call := ⟨ip, pass, sid, ⟨t0, 0, []⟩, ⟨t1, 0, [1]⟩⟩

/-- Two tasks. The first calls the root, which calls 2, which calls an untraced function that calls 3 and then 2, which calls 3; the second calls the
root, which calls 3. -/
def exF (p : BitVec 64) : Calls :=
  if p = 0x100000001 then
    .cons (exCall 1 true 11 100 200)
      (.cons (exCall 2 false 0 110 150)
        (.cons (exCall 8 false 0 115 145)
          (.cons (exCall 3 false 0 120 125) .nil (.cons (exCall 2 false 0 130 140) (.cons (exCall 3 false 0 132 134) .nil .nil) .nil)) .nil) .nil) .nil
  else if p = 0x200000002 then
    .cons (exCall 1 true 12 105 160) (.cons (exCall 3 false 0 107 155) .nil .nil) .nil
  else .nil

def exSched : List (BitVec 64) :=
  [0x100000001, 0x200000002, 0x100000001, 0x200000002, 0x100000001, 0x100000001, 0x100000001, 0x100000001, 0x100000001, 0x100000001, 0x100000001,
   0x100000001, 0x100000001, 0x200000002, 0x200000002, 0x100000001]

instance (S : Sys) (p : BitVec 64) (h : Hit) : Decidable (Unwound S p h) := by unfold Unwound; infer_instance

/-- The assumptions of `graph_shown_partial` hold for a run of two tasks with nested calls, recursion and calls that are too deep, and this is what is
printed: the second call first, it ends first. -/
theorem graph_shown_witness :
    (∀ p, Fits (exSys 2 false) [] (exF p)) ∧ Distinct (exSys 2 false) (start exF) exSched ∧
    (∀ p h, (p, h) ∈ hits (start exF) exSched → (exSys 2 false).mypid ≠ (p >>> 32).setWidth 32 ∧
      ((exSys 2 false).kind h.c.ip = .node → Unwound (exSys 2 false) p h)) ∧
    Run.run 0 0 (records (exSys 2 false) noSessions (hits (start exF) exSched)) = some
      ([[.func 101000 none, .graph 403010 2 2, .graph 503011 48 50, .func 201001 (some 55)],
        [.func 101000 none, .graph 402010 10 10, .graph 403020 10 20, .graph 503021 5 25, .graph 402020 20 30, .graph 502021 10 40,
          .graph 502011 40 50, .func 201001 (some 100)]], .closed) := by
  have hf : ∀ p, Fits (exSys 2 false) [] (exF p) := by
    intro p
    unfold exF
    split
    · simp [Fits, exSys, exCall, Call.recorded]
    · split
      · simp [Fits, exSys, exCall, Call.recorded]
      · trivial
  have hw : ∀ q, q ∉ [0x100000001#64, 0x200000002#64] → (start exF q).stack = [] := by
    intro q _
    unfold start
    rfl
  have hd : Distinct (exSys 2 false) (start exF) exSched :=
    distinct_of _ [0x100000001, 0x200000002] _ _ hw (by simp [exSched]) (by decide +kernel)
  have hu : ∀ x ∈ hits (start exF) exSched, (exSys 2 false).mypid ≠ (x.1 >>> 32).setWidth 32 ∧
      ((exSys 2 false).kind x.2.c.ip = .node → Unwound (exSys 2 false) x.1 x.2) := by decide +kernel
  have hp : ((hits (start exF) exSched).filterMap fun x => printed (exSys 2 false) 0 x.2) =
      [[.func 101000 none, .graph 403010 2 2, .graph 503011 48 50, .func 201001 (some 55)],
        [.func 101000 none, .graph 402010 10 10, .graph 403020 10 20, .graph 503021 5 25, .graph 402020 20 30, .graph 502021 10 40,
          .graph 502011 40 50, .func 201001 (some 100)]] := by decide +kernel
  refine ⟨hf, hd, fun p h hx => hu (p, h) hx, ?_⟩
  rw [graph_shown_partial (exSys 2 false) 0 exF exSched (by decide) rfl hf hd (fun p h hx => hu (p, h) hx), hp]

/-! ### What goes wrong otherwise -/

theorem walk_none (fip sess : BitVec 64 → BitVec 64) (cur : BitVec 64) (max : Nat) (hs : ∀ f, sess f = 0) (l : List (BitVec 64)) :
    ∀ (a : Bool) (d : Nat), KSess.walk fip sess cur max a d l = none := by
  induction l with
  | nil => intros; rfl
  | cons ip rest ih =>
    intro a d
    simp only [KSess.walk, hs, ih]
    split
    · rfl
    · split
      · simp
      · simp

/-- With `fsession` programs the map of sessions is never written: no function of a graph ever makes a record, whatever is called. -/
theorem fsession_no_records (S : Sys) (hs : S.session = true) (hs' : List (BitVec 64 × Hit)) : ∀ (st : Att.SSt), st.1 = KSess.empty →
    ∀ r ∈ records S st hs', ∃ e, r = .func e := by
  induction hs' with
  | nil => intro st _ r hr; simp [records] at hr
  | cons x hs' ih =>
    obtain ⟨p, h⟩ := x
    intro st hst r hr
    simp only [records, List.mem_append] at hr
    have hk : (kstep S st p h).1.1 = KSess.empty ∧ ∀ r ∈ (kstep S st p h).2.toList, ∃ e, r = .func e := by
      unfold kstep
      split
      · exact ⟨hst, by simp⟩
      · split
        · exact ⟨hst, by simp⟩
        · refine ⟨hst, ?_⟩
          have hw : ∀ cur stack, KSess.tryGetSession S.fip (fun f => KSess.getSession st.1 ⟨p, f⟩) cur S.maxDepth S.maxStack stack = none := by
            intro cur stack
            unfold KSess.tryGetSession
            exact walk_none _ _ _ _ (fun f => by rw [hst]; rfl) _ _ _
          simp only [fgraph, gcfg, hw]
          split <;> simp
        · cases he : h.exit
          · simp only [Att.sstep, hs, Bool.false_eq_true, if_false]
            cases h.c.pass
            · exact ⟨hst, by simp⟩
            · exact ⟨hst, by simp [funcRec]⟩
          · simp only [Att.sstep, hs, if_true]
            refine ⟨hst, ?_⟩
            split <;> simp [funcRec]
    rcases hr with hr | hr
    · exact hk.2 r hr
    · exact ih _ hk.1 r hr

/-- **C79 fails with `fsession`.** The run of `graph_shown_witness`, on a kernel with `fsession`: only the roots are printed. -/
theorem fsession_violated :
    Run.run 0 0 (records (exSys 2 true) noSessions (hits (start exF) exSched)) = some
      ([[.func 101000 none, .func 201001 (some 55)], [.func 101000 none, .func 201001 (some 100)]], .closed) ∧
    ((hits (start exF) exSched).filterMap fun x => printed (exSys 2 true) 0 x.2) ≠
      [[.func 101000 none, .func 201001 (some 55)], [.func 101000 none, .func 201001 (some 100)]] := by
  rw [Run.run_unlimited]
  decide +kernel

/-- A recorded call of the root, in which a rejected one calls 2; and then the first one calls 3. -/
def rejF (p : BitVec 64) : Calls :=
  if p = 0x100000001 then
    .cons (exCall 1 true 11 100 200)
      (.cons (exCall 1 false 13 110 150) (.cons (exCall 2 false 0 120 125) .nil .nil)
        (.cons (exCall 3 false 0 160 170) .nil .nil)) .nil
  else .nil

/-- **C79 fails for rejected calls in recorded ones of the same function.** The end of the rejected call ends the block of the recorded one,
with the wrong duration and before 3 is called, 2 is at depth 1 instead of 2. -/
theorem rejected_recursion_violated :
    Run.run 0 0 (records (exSys 2 false) noSessions (hits (start rejF) (List.replicate 8 0x100000001))) = some
      ([[.func 101000 none, .graph 402010 20 20, .graph 502011 5 25, .func 201001 (some 50)]], .closed) ∧
    ((hits (start rejF) (List.replicate 8 0x100000001)).filterMap fun x => printed (exSys 2 false) 0 x.2) =
      [[.func 101000 none, .graph 402020 20 20, .graph 502021 5 25, .graph 403010 60 60, .graph 503011 10 70, .func 201001 (some 100)]] := by
  rw [Run.run_unlimited]
  decide +kernel

/-- Two tasks whose recorded calls have the same id. -/
def sameF (p : BitVec 64) : Calls :=
  if p = 0x100000001 then .cons (exCall 1 true 11 100 200) (.cons (exCall 2 false 0 120 125) .nil .nil) .nil
  else if p = 0x200000002 then .cons (exCall 1 true 11 110 210) (.cons (exCall 3 false 0 130 135) .nil .nil) .nil
  else .nil

def sameSched : List (BitVec 64) :=
  [0x100000001, 0x200000002, 0x100000001, 0x100000001, 0x200000002, 0x200000002, 0x100000001, 0x200000002]

/-- **C79 fails for equal ids.** The second call takes over the block of the first one, and the first end prints it all. -/
theorem same_id_violated :
    Run.run 0 0 (records (exSys 2 false) noSessions (hits (start sameF) sameSched)) = some
      ([[.func 101000 none, .graph 402010 10 10, .graph 502011 5 15, .graph 403010 20 20, .graph 503011 5 25, .func 201001 (some 90)]], .closed) ∧
    ((hits (start sameF) sameSched).filterMap fun x => printed (exSys 2 false) 0 x.2) =
      [[.func 101000 none, .graph 402010 20 20, .graph 502011 5 25, .func 201001 (some 100)],
       [.func 101000 none, .graph 403010 20 20, .graph 503011 5 25, .func 201001 (some 100)]] := by
  rw [Run.run_unlimited]
  decide +kernel

/-- The root calls 2, which calls 3. -/
def lostF (p : BitVec 64) : Calls :=
  if p = 0x100000001 then
    .cons (exCall 1 true 11 100 200) (.cons (exCall 2 false 0 110 150) (.cons (exCall 3 false 0 120 125) .nil .nil) .nil) .nil
  else .nil

/-- **C79 fails when the ring buffer loses a record.** Without the record of the beginning of 3, the durations of the calls on the lines of the ends
are those since the beginning of the call around: 15 instead of 5, and 50 instead of 40. -/
theorem lost_record_violated :
    (records (exSys 2 false) noSessions (hits (start lostF) (List.replicate 6 0x100000001)))[2]? = some (.graph true false 11 120 403020) ∧
    Run.run 0 0 ((records (exSys 2 false) noSessions (hits (start lostF) (List.replicate 6 0x100000001))).eraseIdx 2) = some
      ([[.func 101000 none, .graph 402010 10 10, .graph 503021 15 25, .graph 502011 50 50, .func 201001 (some 100)]], .closed) ∧
    ((hits (start lostF) (List.replicate 6 0x100000001)).filterMap fun x => printed (exSys 2 false) 0 x.2) =
      [[.func 101000 none, .graph 402010 10 10, .graph 403020 10 20, .graph 503021 5 25, .graph 502011 40 50, .func 201001 (some 100)]] := by
  rw [Run.run_unlimited]
  decide +kernel

/-- The record of a function of the graph says whether it is its entry or its exit, with and without session programs. -/
theorem fgraph_type (S : Sys) (c : Call) (exit ready : Bool) (pt : BitVec 64) (fip : Addr → Addr) (sess : Addr → BitVec 64) (n : Nat)
    (stack : List Addr) (p : Probe) (b : List Byte) (h : fgraph (gcfg S c exit) ready pt exit fip sess n stack p = some b) :
    (readGEvt b).typ = if exit then 5 else 4 := by
  unfold fgraph at h
  split at h
  · cases h
  · split at h
    · cases h
    · split at h
      · cases h
      · simp only [Option.some.injEq] at h
        rw [← h, gevt_read_back]
        have hg : (gcfg S c exit).hook = if S.session then .session else if exit then .exit else .entry := rfl
        generalize (gcfg S c exit).hook = hk at hg
        cases hs : S.session <;> cases exit <;> rw [hs] at hg <;> subst hg <;> rfl

end Bpfsnoop.Cg
