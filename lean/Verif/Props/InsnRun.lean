import Verif.Spec.InsnRunSpec
import Verif.Props.GraphRun
import Verif.Props.Disasm
import Verif.Props.OutText
import Verif.Props.Line
/-
C84: `(i)` prints under each recorded call the instructions executed in it.
-/
namespace Bpfsnoop.Ir
open Run (Item Session Sessions)
open Cg (Addr Byte Probe Call)

/-! ### The record of an instruction -/

/-- **C84.** Every field of an instruction event is read as it was written, whatever the padding holds. -/
theorem ievt_read_back (e : IEvt) (rest : List Byte) : readIEvt (e.bytes ++ rest) = e := by
  obtain ⟨typ, len, ns, sid, fip, cpu⟩ := e
  have a : ∀ a b c d e f g : List Byte, a ++ b ++ c ++ d ++ e ++ f ++ g =
      a ++ (b ++ (c ++ (d ++ (e ++ (f ++ g))))) := by simp
  have l2 : ∀ v, (Arg.le 2 v).length = 2 := fun v => Arg.le_length _ _
  have l8 : ∀ v, (Arg.le 8 v).length = 8 := fun v => Arg.le_length _ _
  unfold readIEvt IEvt.bytes
  simp only [a]
  rw [IEvt.mk.injEq]
  refine ⟨?_, ?_, ?_, ?_, ?_, ?_⟩
  · exact Att.u16At_mid [] _ _ 0 rfl
  · exact Att.u16At_mid _ _ _ 2 (l2 _)
  · rw [← List.append_assoc]
    exact Att.u32At_mid _ _ _ 4 (by simp [l2])
  · iterate 2 rw [← List.append_assoc]
    exact Att.u64At_mid _ _ _ 8 (by simp [l2, Att.le32_length])
  · iterate 3 rw [← List.append_assoc]
    exact Att.u64At_mid _ _ _ 16 (by simp [l2, l8, Att.le32_length])
  · iterate 4 rw [← List.append_assoc]
    exact Att.u32At_mid _ _ _ 24 (by simp [l2, l8, Att.le32_length])

theorem lookup_once {tab : Table} (h : tab.Pairwise fun x y => x.1 ≠ y.1) {x : Nat × Dis.FInsn} (hx : x ∈ tab) :
    Kallsyms.lookup tab x.1 = some x.2 := by
  unfold Kallsyms.lookup
  induction tab with
  | nil => cases hx
  | cons y ys ih =>
    rw [List.pairwise_cons] at h
    rcases List.mem_cons.1 hx with rfl | hm
    · simp
    · rw [List.find?_cons_of_neg (by simpa using h.1 x hm)]
      exact ih h.2 hm

/-- The reader sees what `bpfsnoop_insn` found. -/
theorem insn_read (S : Sys) (hp : Placed S) {x : Nat × Dis.FInsn} (hx : x ∈ S.insns) (m : KSess.Map) (p : BitVec 64) (i : Insn) :
    (insnProg (BitVec.ofNat 64 x.2.ip) (BitVec.ofNat 64 x.2.func) true m p i S.pad).bind (readInsnRec S.texts S.insns) =
      if KSess.getSession m ⟨p, BitVec.ofNat 64 x.2.func⟩ = 0 then none
      else some (.insn true (KSess.getSession m ⟨p, BitVec.ofNat 64 x.2.func⟩) i.ns (S.texts.insn x.2 i.cpu)) := by
  unfold insnProg
  simp only [Bool.not_true, Bool.false_eq_true, if_false]
  split
  · rfl
  · simp only [Option.bind_some, readInsnRec, ievt_read_back, if_true, BitVec.toNat_ofNat]
    rw [Nat.mod_eq_of_lt (hp.small x hx).1, ← hp.keys x hx, lookup_once hp.once hx]

/-- At most one of them. -/
theorem filterMap_one {α β : Type} (P : α → Bool) (g : α → Option β) (l : List α) (h : l.Pairwise fun x y => ¬ (P x = true ∧ P y = true)) :
    (l.filterMap fun x => if P x = true then g x else none) = ((l.find? P).bind g).toList := by
  induction l with
  | nil => rfl
  | cons x xs ih =>
    rw [List.pairwise_cons] at h
    by_cases hx : P x = true
    · have : (xs.filterMap fun x => if P x = true then g x else none) = [] := by
        rw [List.filterMap_eq_nil_iff]
        intro y hy
        rw [if_neg (fun hy' => h.1 y hy ⟨hx, hy'⟩)]
      simp only [List.filterMap_cons, hx, if_true, List.find?_cons_of_pos, this, Option.bind_some]
      cases g x <;> rfl
    · rw [List.find?_cons_of_neg hx, List.filterMap_cons, if_neg hx, ih h.2]

theorem probed_mem {S : Sys} {ip : Addr} {f : Dis.FInsn} (h : probed S ip = some f) :
    ∃ k, (k, f) ∈ S.insns ∧ f.ip = ip.toNat ∧ (S.place f).isSome = true := by
  have h1 := List.mem_of_find?_eq_some h
  have h2 := List.find?_some h
  simp only [List.mem_map] at h1
  obtain ⟨x, hx, rfl⟩ := h1
  simp only [Bool.and_eq_true, decide_eq_true_eq] at h2
  exact ⟨x.1, hx, h2.1, h2.2⟩

/-- The records of an instruction. -/
theorem insn_recs (S : Sys) (hp : Placed S) (st : Att.SSt) (p : BitVec 64) (i : Insn) (ar : List Call) :
    kstep S st p ⟨.insn i, ar⟩ = (st, match probed S i.ip with
      | none => []
      | some f =>
        if KSess.getSession st.1 ⟨p, BitVec.ofNat 64 f.func⟩ = 0 then []
        else [.insn true (KSess.getSession st.1 ⟨p, BitVec.ofNat 64 f.func⟩) i.ns (S.texts.insn f i.cpu)]) := by
  have hP : ∀ x ∈ S.insns, decide (S.place x.2 = some i.ip) = (decide (x.2.ip = i.ip.toNat) && (S.place x.2).isSome) := by
    intro x hx
    cases hpl : S.place x.2 with
    | none => simp
    | some a =>
      have := hp.place x hx a hpl
      simp only [Option.some.injEq, Option.isSome_some, Bool.and_true]
      rw [decide_eq_decide]
      constructor
      · rintro rfl; exact this.symm
      · intro h; exact BitVec.eq_of_toNat_eq (by omega)
  have hone : S.insns.Pairwise fun x y => ¬ (decide (S.place x.2 = some i.ip) = true ∧ decide (S.place y.2 = some i.ip) = true) := by
    refine List.Pairwise.imp_of_mem ?_ hp.once
    intro x y hx hy hne ⟨h1, h2⟩
    simp only [decide_eq_true_eq] at h1 h2
    have e1 := hp.place x hx _ h1
    have e2 := hp.place y hy _ h2
    exact hne (by rw [hp.keys x hx, hp.keys y hy]; omega)
  have key : (kstep S st p ⟨.insn i, ar⟩).2 =
      ((S.insns.find? fun x => decide (S.place x.2 = some i.ip)).bind fun x =>
        (insnProg (BitVec.ofNat 64 x.2.ip) (BitVec.ofNat 64 x.2.func) true st.1 p i S.pad).bind (readInsnRec S.texts S.insns)).toList := by
    rw [← filterMap_one _ _ _ hone]
    simp only [kstep, decide_eq_true_eq]
  have hfind : (S.insns.find? fun x => decide (S.place x.2 = some i.ip)) =
      S.insns.find? fun x => decide (x.2.ip = i.ip.toNat) && (S.place x.2).isSome := by
    have aux : ∀ l : Table, (∀ x ∈ l, x ∈ S.insns) → (l.find? fun x => decide (S.place x.2 = some i.ip)) =
        l.find? fun x => decide (x.2.ip = i.ip.toNat) && (S.place x.2).isSome := by
      intro l hl
      induction l with
      | nil => rfl
      | cons x xs ih =>
        simp only [List.find?_cons, hP x (hl x (by simp)), ih (fun y hy => hl y (List.mem_cons_of_mem _ hy))]
    exact aux _ fun _ h => h
  have hpr : probed S i.ip = (S.insns.find? fun x => decide (x.2.ip = i.ip.toNat) && (S.place x.2).isSome).map (·.2) := by
    unfold probed
    rw [List.find?_map]
    rfl
  have h1 : (kstep S st p ⟨.insn i, ar⟩).1 = st := rfl
  refine Prod.ext h1 ?_
  rw [key, hfind, hpr]
  cases hx : (S.insns.find? fun x => decide (x.2.ip = i.ip.toNat) && (S.place x.2).isSome) with
  | none => rfl
  | some x =>
    simp only [Option.bind_some, Option.map_some, insn_read S hp (List.mem_of_find?_eq_some hx)]
    split <;> rfl

/-! ### The sessions of a task -/

/-- The table of sessions holds what a recorded call has so far: what has been put out and what is still to come is its block. -/
def SessOk (S : Sys) (ss : Sessions) (c : Call) (inner cur : Body) : Prop :=
  ∃ q, ss c.sid = some q ∧ q.started = c.enter.ns ∧
    q.outputs ++ (own S c cur ++ [.func (S.texts.func true c.ip c.leave.cpu c.leave.args) (some (c.leave.ns - c.enter.ns))]) = block S c inner

/-- The open calls of a task. -/
def Open (S : Sys) (ss : Sessions) : List Frame → Body → Prop
  | [], _ => True
  | f :: fs, cur => (recorded S f.c = true → SessOk S ss f.c f.inner cur) ∧ Open S ss fs f.rest

theorem SessOk.set_ne {S : Sys} {ss : Sessions} {c : Call} {inner cur : Body} (h : SessOk S ss c inner cur) {k : BitVec 64} (hk : c.sid ≠ k)
    (v : Option Session) : SessOk S (Run.set ss k v) c inner cur := by
  obtain ⟨q, h1, h2⟩ := h
  exact ⟨q, by simp [Run.set, hk, h1], h2⟩

def recs (S : Sys) (fs : List Frame) : List Call := (fs.map (·.c)).filter (recorded S)

theorem recs_cons (S : Sys) (f : Frame) (fs : List Frame) : recs S (f :: fs) = if recorded S f.c = true then f.c :: recs S fs else recs S fs := by
  simp [recs, List.filter_cons]

theorem Open.set_ne {S : Sys} {ss : Sessions} {k : BitVec 64} (v : Option Session) : ∀ {fs : List Frame} {cur : Body}, Open S ss fs cur →
    (∀ c ∈ recs S fs, c.sid ≠ k) → Open S (Run.set ss k v) fs cur
  | [], _, _, _ => trivial
  | f :: fs, cur, h, hk => by
    refine ⟨fun hr => (h.1 hr).set_ne (hk f.c (by rw [recs_cons, if_pos hr]; simp)) v, Open.set_ne v h.2 ?_⟩
    intro c hc
    apply hk
    rw [recs_cons]
    split
    · exact List.mem_cons_of_mem _ hc
    · exact hc

/-- What is still to come matters only by the lines of the innermost call. -/
theorem Open.cur {S : Sys} {ss : Sessions} {fs : List Frame} {b b' : Body} (h : Open S ss fs b)
    (e : ∀ f gs, fs = f :: gs → recorded S f.c = true → own S f.c b' = own S f.c b) : Open S ss fs b' := by
  cases fs with
  | nil => trivial
  | cons f fs =>
    refine ⟨fun hr => ?_, h.2⟩
    obtain ⟨q, h1, h2, h3⟩ := h.1 hr
    exact ⟨q, h1, h2, by rw [e f fs rfl hr]; exact h3⟩

/-! ### The map of sessions -/

/-- The open calls of a traced function, innermost first: the id if the call is recorded. -/
def opensL (S : Sys) (l : List Call) (ip : Addr) : List (Option (BitVec 64)) :=
  (l.filter fun c => S.traced c.ip && decide (c.ip = ip)).map fun c => if c.pass then some c.sid else none

def opens (S : Sys) (w : World) : KSess.Calls := fun k => opensL S ((w k.pidTgid).stack.map (·.c)) k.funcIP

theorem opensL_recorded (S : Sys) (l : List Call) (ip : Addr) :
    (opensL S l ip).filterMap id = (l.filter fun c => recorded S c && decide (c.ip = ip)).map (·.sid) := by
  unfold opensL
  induction l with
  | nil => rfl
  | cons c l ih =>
    cases h1 : S.traced c.ip <;> by_cases h2 : c.ip = ip <;> cases h3 : c.pass <;>
      simp_all [recorded]

def Below (S : Sys) : List Frame → Prop
  | [] => True
  | f :: fs => Fits S (fs.map (·.c)) f.rest ∧ Below S fs

def TFits (S : Sys) (t : Task) : Prop := Fits S (t.stack.map (·.c)) t.cur ∧ Below S t.stack

/-- The map after the beginning of a traced call. -/
theorem kern_enter {S : Sys} {w : World} {m : KSess.Map} {p : BitVec 64} {fs : List Frame} {c : Call} {inner rest : Body}
    (hi : KSess.Inv m (opens S w)) (hw : w p = ⟨fs, .call c inner rest⟩) (hk : S.traced c.ip = true)
    (hf : Fits S (fs.map (·.c)) (.call c inner rest)) :
    KSess.Inv (KSess.step m (.enter ⟨p, c.ip⟩ c.sid c.pass S.stale false)).1 (opens S (w.set p ⟨⟨c, inner, rest⟩ :: fs, inner⟩)) := by
  have hopen : opens S w ⟨p, c.ip⟩ = opensL S (fs.map (·.c)) c.ip := by simp [opens, hw]
  have h := (KSess.step_sim m (opens S w) (.enter ⟨p, c.ip⟩ c.sid c.pass S.stale false) [] hi ⟨?_, trivial⟩).2
  · have e : KSess.next (opens S w) (.enter ⟨p, c.ip⟩ c.sid c.pass S.stale false) = opens S (w.set p ⟨⟨c, inner, rest⟩ :: fs, inner⟩) := by
      funext k
      simp only [KSess.next, KSess.pushCall]
      by_cases hkey : k = ⟨p, c.ip⟩
      · subst hkey
        simp [opens, World.set, hw, opensL, hk]
      · rw [if_neg hkey]
        by_cases hp : k.pidTgid = p
        · have hne : c.ip ≠ k.funcIP := fun e => hkey (by cases k; simp_all)
          simp [opens, World.set, hp, hw, opensL, hne]
        · simp [opens, World.set, hp]
    rw [← e]
    exact h
  · have h1 := hf.1 hk
    simp only [hopen, opensL_recorded, List.length_map] at h1 ⊢
    cases hp : c.pass with
    | true => simp only [hp, if_true] at h1 ⊢; exact ⟨h1.1, trivial, h1.2⟩
    | false => simp only [hp, Bool.false_eq_true, if_false] at h1 ⊢; rw [h1]; rfl

/-- The map after the end of a traced call, and what is found. -/
theorem kern_exit {S : Sys} {w : World} {m : KSess.Map} {p : BitVec 64} {fs : List Frame} {f : Frame}
    (hi : KSess.Inv m (opens S w)) (hw : w p = ⟨f :: fs, .nil⟩) (hk : S.traced f.c.ip = true) :
    KSess.Inv (KSess.getAndDel m ⟨p, f.c.ip⟩).2 (opens S (w.set p ⟨fs, f.rest⟩)) ∧
    (f.c.pass = true → (KSess.getAndDel m ⟨p, f.c.ip⟩).1 ≠ 0 ∧ (KSess.getAndDel m ⟨p, f.c.ip⟩).1 - 1 = f.c.sid - 1) ∧
    (f.c.pass = false → (KSess.getAndDel m ⟨p, f.c.ip⟩).1 = 0) := by
  have hopen : opens S w ⟨p, f.c.ip⟩ = (if f.c.pass then some f.c.sid else none) :: opensL S (fs.map (·.c)) f.c.ip := by
    simp [opens, hw, opensL, hk]
  have h := KSess.step_sim m (opens S w) (.exit ⟨p, f.c.ip⟩) [] hi ⟨trivial, trivial⟩
  have e : KSess.next (opens S w) (.exit ⟨p, f.c.ip⟩) = opens S (w.set p ⟨fs, f.rest⟩) := by
    funext k
    simp only [KSess.next, KSess.popCall]
    by_cases hkey : k = ⟨p, f.c.ip⟩
    · subst hkey
      simp [opens, World.set, hw, opensL, hk]
    · rw [if_neg hkey]
      by_cases hp : k.pidTgid = p
      · have hne : f.c.ip ≠ k.funcIP := fun e => hkey (by cases k; simp_all)
        simp [opens, World.set, hp, hw, opensL, hne]
      · simp [opens, World.set, hp]
  rw [e] at h
  refine ⟨h.2, ?_, ?_⟩ <;> intro hp <;> have h1 := h.1 <;> rw [hp] at hopen <;>
    simp only [KSess.step, KSess.expect, hopen, if_true, Bool.false_eq_true, if_false, List.head?_cons] at h1
  · by_cases h0 : (KSess.getAndDel m ⟨p, f.c.ip⟩).1 = 0
    · rw [if_pos h0] at h1; cases h1
    · rw [if_neg h0] at h1
      simp only [Option.some.injEq, KSess.Out.exit.injEq, true_and] at h1
      exact ⟨h0, h1⟩
  · by_cases h0 : (KSess.getAndDel m ⟨p, f.c.ip⟩).1 = 0
    · exact h0
    · rw [if_neg h0] at h1; cases h1

/-- What a probe finds: the innermost recorded call of its function, if that is the innermost call at all or there is none. -/
theorem kern_insn {S : Sys} {w : World} {m : KSess.Map} (hi : KSess.Inv m (opens S w)) (p : BitVec 64) (ip : Addr) :
    (∀ f fs, (w p).stack = f :: fs → f.c.ip = ip → recorded S f.c = true → KSess.getSession m ⟨p, ip⟩ = f.c.sid ∧ f.c.sid ≠ 0) ∧
    (∀ f fs, (w p).stack = f :: fs → f.c.ip = ip → S.traced ip = true → f.c.pass = false → KSess.getSession m ⟨p, ip⟩ = 0) ∧
    ((∀ c ∈ recs S (w p).stack, c.ip ≠ ip) → KSess.getSession m ⟨p, ip⟩ = 0) := by
  have hg := Cg.getS hi ⟨p, ip⟩
  have h2 := (hi ⟨p, ip⟩).2.1
  obtain ⟨n, h3⟩ := (hi ⟨p, ip⟩).2.2
  refine ⟨?_, ?_, ?_⟩
  · rintro f fs hw rfl hr
    simp only [recorded, Bool.and_eq_true] at hr
    have e : (opens S w ⟨p, f.c.ip⟩).filterMap id = f.c.sid :: (opensL S (fs.map (·.c)) f.c.ip).filterMap id := by
      simp [opens, hw, opensL, hr.1, hr.2]
    rw [e] at hg h2
    exact ⟨hg, h2 _ (by simp)⟩
  · rintro f fs hw rfl ht hp
    have e : opens S w ⟨p, f.c.ip⟩ = none :: opensL S (fs.map (·.c)) f.c.ip := by
      simp [opens, hw, opensL, ht, hp]
    rw [hg]
    cases hA : (opens S w ⟨p, f.c.ip⟩).filterMap id with
    | nil => rfl
    | cons v A => rw [hA, e] at h3; simp at h3
  · intro hno
    rw [hg]
    have e : (opens S w ⟨p, ip⟩).filterMap id = [] := by
      simp only [opens, opensL_recorded, List.map_eq_nil_iff, List.filter_eq_nil_iff]
      intro c hc h
      simp only [Bool.and_eq_true, decide_eq_true_eq] at h
      exact hno c (List.mem_filter.2 ⟨hc, h.1⟩) h.2
    rw [e]
    rfl

/-! ### One thing after the other -/

structure Good (S : Sys) (w : World) (st : Att.SSt) (ss : Sessions) : Prop where
  kern : KSess.Inv st.1 (opens S w)
  user : ∀ p, Open S ss (w p).stack (w p).cur
  dist : ∀ p q, p ≠ q → ∀ c ∈ recs S (w p).stack, ∀ c' ∈ recs S (w q).stack, c.sid ≠ c'.sid
  own : ∀ p, (recs S (w p).stack).Pairwise fun x y => x.sid ≠ y.sid
  fits : ∀ p, TFits S (w p)

theorem World.set_same (w : World) (p : BitVec 64) (t : Task) : (w.set p t) p = t := if_pos rfl
theorem World.set_other (w : World) {p q : BitVec 64} (h : q ≠ p) (t : Task) : (w.set p t) q = w q := if_neg h

/-- A task goes on and nothing changes for the others. -/
theorem Good.move {S : Sys} {w : World} {st st' : Att.SSt} {ss ss' : Sessions} {p : BitVec 64} {t : Task} (g : Good S w st ss)
    (hk : KSess.Inv st'.1 (opens S (w.set p t))) (hu : Open S ss' t.stack t.cur) (ho : ∀ q, q ≠ p → Open S ss' (w q).stack (w q).cur)
    (hd : ∀ q, q ≠ p → ∀ c ∈ recs S t.stack, ∀ c' ∈ recs S (w q).stack, c.sid ≠ c'.sid)
    (hw : (recs S t.stack).Pairwise fun x y => x.sid ≠ y.sid) (hf : TFits S t) : Good S (w.set p t) st' ss' := by
  refine ⟨hk, ?_, ?_, ?_, ?_⟩
  · intro q
    by_cases h : q = p
    · rw [h, World.set_same]; exact hu
    · rw [World.set_other w h]; exact ho q h
  · intro q r hqr
    by_cases h : q = p
    · have hr : r ≠ p := fun e => hqr (h.trans e.symm)
      rw [h, World.set_same, World.set_other w hr]
      exact hd r hr
    · rw [World.set_other w h]
      by_cases h' : r = p
      · rw [h', World.set_same]
        intro c hc c' hc' e
        exact hd q h c' hc' c hc e.symm
      · rw [World.set_other w h']
        exact g.dist q r hqr
  · intro q
    by_cases h : q = p
    · rw [h, World.set_same]; exact hw
    · rw [World.set_other w h]; exact g.own q
  · intro q
    by_cases h : q = p
    · rw [h, World.set_same]; exact hf
    · rw [World.set_other w h]; exact g.fits q

/-- The map of sessions does not change when the traced calls that are open stay the same. -/
theorem opens_move {S : Sys} {w : World} {p : BitVec 64} {t : Task}
    (h : ∀ ip, opensL S (t.stack.map (·.c)) ip = opensL S ((w p).stack.map (·.c)) ip) : opens S (w.set p t) = opens S w := by
  funext k
  unfold opens
  by_cases hp : k.pidTgid = p
  · rw [hp, World.set_same, h]
  · rw [World.set_other w hp]

theorem opensL_skip {S : Sys} {c : Call} (h : S.traced c.ip = false) (l : List Call) (ip : Addr) : opensL S (c :: l) ip = opensL S l ip := by
  simp [opensL, h]

theorem others_keep {S : Sys} {w : World} {st : Att.SSt} {ss : Sessions} (g : Good S w st ss) {p : BitVec 64} {k : BitVec 64}
    (hk : ∃ c ∈ recs S (w p).stack, c.sid = k) (v : Option Session) : ∀ q, q ≠ p → Open S (Run.set ss k v) (w q).stack (w q).cur := by
  intro q hq
  obtain ⟨c, hc, rfl⟩ := hk
  exact (g.user q).set_ne v (fun c' hc' => g.dist q p hq c' hc' c hc)

/-- An instruction is executed. -/
theorem insn_step {S : Sys} {w : World} {st : Att.SSt} {ss : Sessions} (limit : Int) (g : Good S w st ss) (hp : Placed S) {p : BitVec 64} {stk : List Frame}
    {i : Insn} {rest : Body} (hw : w p = ⟨stk, .insn i rest⟩) :
    ∃ ss', Run.steps limit ss (kstep S st p ⟨.insn i, stk.map (·.c)⟩).2 = some (ss', []) ∧
      Good S (w.set p ⟨stk, rest⟩) (kstep S st p ⟨.insn i, stk.map (·.c)⟩).1 ss' := by
  have hgu := g.user p
  have hgf := g.fits p
  have hgo := g.own p
  have hgd := g.dist p
  rw [hw] at hgu hgf hgo hgd
  have hki := kern_insn g.kern p
  rw [hw] at hki
  have hop : opens S (w.set p ⟨stk, rest⟩) = opens S w := opens_move (by intro ip; rw [hw])
  have hf' : TFits S ⟨stk, rest⟩ := ⟨hgf.1.2, hgf.2⟩
  have hfit := hgf.1.1
  -- nothing is put out and no recorded innermost call has a line
  have quiet : (∀ f gs, stk = f :: gs → recorded S f.c = true → own S f.c (.insn i rest) = own S f.c rest) →
      Good S (w.set p ⟨stk, rest⟩) st ss := by
    intro hq
    refine g.move (by rw [hop]; exact g.kern) ?_ (fun q _ => g.user q) (fun q hq => hgd q hq.symm) hgo hf'
    exact hgu.cur fun f gs e hr => (hq f gs e hr).symm
  rw [insn_recs S hp]
  cases hpr : probed S i.ip with
  | none =>
    exact ⟨ss, rfl, quiet (by intro f gs _ _; simp [own, hpr])⟩
  | some fi =>
    obtain ⟨k, hmem, hip, _⟩ := probed_mem hpr
    have hsm : fi.func < 2 ^ 64 := (hp.small _ hmem).2
    have hfip : ∀ a : Addr, fi.func = a.toNat → BitVec.ofNat 64 fi.func = a := by
      intro a h; rw [h]; simp
    have hfip' : ∀ a : Addr, BitVec.ofNat 64 fi.func = a → fi.func = a.toNat := by
      intro a h; rw [← h]; simp [Nat.mod_eq_of_lt hsm]
    simp only []
    -- is the innermost call a recorded one of the function?
    by_cases hin : ∃ f gs, stk = f :: gs ∧ fi.func = f.c.ip.toNat ∧ recorded S f.c = true
    · obtain ⟨f, gs, rfl, hfn, hr⟩ := hin
      obtain ⟨h1, h2⟩ := (hki (BitVec.ofNat 64 fi.func)).1 f gs rfl (hfip _ hfn).symm hr
      rw [h1, if_neg h2]
      obtain ⟨q, h3, h4, h5⟩ := hgu.1 hr
      refine ⟨Run.set ss f.c.sid (some { q with outputs := q.outputs ++ [.insn (S.texts.insn fi i.cpu) (i.ns - q.started)] }),
        Cg.steps_one limit ss _ _ none ?_, g.move (by rw [hop]; exact g.kern) ?_ ?_ (fun q hq => hgd q hq.symm) hgo hf'⟩
      · simp only [Run.handle, Run.outputInsn, Bool.not_true, Bool.false_eq_true, if_false, h3]
      · refine ⟨fun _ => ⟨_, if_pos rfl, h4, ?_⟩, hgu.2.set_ne _ ?_⟩
        · rw [← h5]
          simp [own, hpr, hfn, h4]
        · intro c hc e
          rw [recs_cons, if_pos hr, List.pairwise_cons] at hgo
          exact hgo.1 c hc e.symm
      · exact others_keep g ⟨f.c, by rw [hw, recs_cons, if_pos hr]; simp, rfl⟩ _
    · have h0 : KSess.getSession st.1 ⟨p, BitVec.ofNat 64 fi.func⟩ = 0 := by
        rcases hfit fi hpr with ⟨c, cs, hc, hfn, htr⟩ | hno
        · cases stk with
          | nil => simp at hc
          | cons f gs =>
            simp only [List.map_cons, List.cons.injEq] at hc
            obtain ⟨rfl, rfl⟩ := hc
            have hpass : f.c.pass = false := by
              cases hps : f.c.pass with
              | false => rfl
              | true => exact absurd ⟨f, gs, rfl, hfn, by simp [recorded, htr, hps]⟩ hin
            exact (hki _).2.1 f gs rfl (hfip _ hfn).symm (by rw [hfip _ hfn]; exact htr) hpass
        · refine (hki _).2.2 ?_
          intro c hc e
          have hc' := List.mem_filter.1 hc
          exact hno c hc'.1 hc'.2 (hfip' _ e.symm)
      rw [if_pos h0]
      refine ⟨ss, rfl, quiet ?_⟩
      intro f gs e hr
      have : fi.func ≠ f.c.ip.toNat := fun hfn => hin ⟨f, gs, e, hfn, hr⟩
      simp [own, hpr, this]

/-- One thing happens. -/
theorem step {S : Sys} {w : World} {st : Att.SSt} {ss : Sessions} (limit : Int) (g : Good S w st ss) (hp : Placed S) {p : BitVec 64} {h : Hit} {t : Task}
    (hn : next (w p) = some (h, t)) (hs : S.session = false) (hpid : S.mypid ≠ (p >>> 32).setWidth 32)
    (hd : ∀ c, h.ev = .enter c → recorded S c = true → ∀ q, ∀ a ∈ open_ S (w q), a.sid ≠ c.sid) :
    ∃ ss', Run.steps limit ss (kstep S st p h).2 = some (ss', (printed S limit h).toList) ∧
      Good S (w.set p t) (kstep S st p h).1 ss' := by
  have hgu := g.user p
  have hgf := g.fits p
  have hgo := g.own p
  have hgd := g.dist p
  cases hw : w p with
  | mk stk cur =>
  rw [hw] at hgu hgf hgo hgd
  unfold next at hn
  rw [hw] at hn
  cases cur with
  | insn i rest =>
    simp only [Option.some.injEq, Prod.mk.injEq] at hn
    obtain ⟨rfl, rfl⟩ := hn
    exact insn_step limit g hp hw
  | call c inner rest =>
    simp only [Option.some.injEq, Prod.mk.injEq] at hn
    obtain ⟨rfl, rfl⟩ := hn
    have hf' : TFits S ⟨⟨c, inner, rest⟩ :: stk, inner⟩ := ⟨hgf.1.2.1, hgf.1.2.2, hgf.2⟩
    have hrest : Open S ss stk rest := hgu.cur (by intros; rfl)
    have hpr : printed S limit ⟨.enter c, stk.map (·.c)⟩ = none := rfl
    rw [hpr]
    cases hk : S.traced c.ip with
    | false =>
      have hr : recorded S c = false := by simp [recorded, hk]
      have e : kstep S st p ⟨.enter c, stk.map (·.c)⟩ = (st, []) := by simp [kstep, hk]
      rw [e]
      have hrec : recs S (⟨c, inner, rest⟩ :: stk) = recs S stk := by simp [recs_cons, hr]
      refine ⟨ss, rfl, g.move ?_ ⟨by simp [hr], hrest⟩ (fun q _ => g.user q) ?_ ?_ hf'⟩
      · rw [opens_move (by intro ip; rw [hw]; exact opensL_skip hk _ _)]
        exact g.kern
      · intro q hq; rw [hrec]; exact hgd q hq.symm
      · rw [hrec]; exact hgo
    | true =>
      have hki := kern_enter g.kern hw hk hgf.1
      have e : kstep S st p ⟨.enter c, stk.map (·.c)⟩ =
          (((KSess.step st.1 (.enter ⟨p, c.ip⟩ c.sid c.pass S.stale false)).1, (kstep S st p ⟨.enter c, stk.map (·.c)⟩).1.2),
            if c.pass then [funcRec S c false c.sid] else []) := by
        cases hp : c.pass <;> simp [kstep, hpid, hk, hs, Att.sstep, KSess.step, hp]
      rw [e]
      cases hp : c.pass with
      | false =>
        have hr : recorded S c = false := by simp [recorded, hp]
        have hrec : recs S (⟨c, inner, rest⟩ :: stk) = recs S stk := by simp [recs_cons, hr]
        rw [hp] at hki
        refine ⟨ss, rfl, g.move hki ⟨by simp [hr], hrest⟩ (fun q _ => g.user q) ?_ ?_ hf'⟩
        · intro q hq; rw [hrec]; exact hgd q hq.symm
        · rw [hrec]; exact hgo
      | true =>
        have hr : recorded S c = true := by simp [recorded, hp, hk]
        have hrec : recs S (⟨c, inner, rest⟩ :: stk) = c :: recs S stk := by simp [recs_cons, hr]
        rw [hp] at hki
        have hd' := hd c rfl hr
        have hmine : ∀ x ∈ recs S stk, x.sid ≠ c.sid := by
          intro x hx
          exact hd' p x (by rw [hw]; exact hx)
        refine ⟨_, Cg.steps_one limit ss _ _ none (by simp [Run.handle, funcRec, Run.FuncEv.requiredSession]; rfl),
          g.move hki ⟨fun _ => ⟨_, if_pos rfl, rfl, ?_⟩, hrest.set_ne _ hmine⟩ ?_ ?_ ?_ hf'⟩
        · simp [block, Run.mkSession]
        · intro q _
          exact (g.user q).set_ne _ (hd' q)
        · intro q hq
          rw [hrec]
          intro x hx c' hc'
          rcases List.mem_cons.1 hx with rfl | hx
          · exact fun e => hd' q c' hc' e.symm
          · exact hgd q hq.symm x hx c' hc'
        · rw [hrec]
          exact List.pairwise_cons.2 ⟨fun x hx e => hmine x hx e.symm, hgo⟩
  | nil =>
    cases stk with
    | nil => cases hn
    | cons f fs =>
      simp only [Option.some.injEq, Prod.mk.injEq] at hn
      obtain ⟨rfl, rfl⟩ := hn
      have hf' : TFits S ⟨fs, f.rest⟩ := hgf.2
      have hsub : ∀ x, x ∈ recs S fs → x ∈ recs S (f :: fs) := by
        intro x hx
        rw [recs_cons]
        split
        · exact List.mem_cons_of_mem _ hx
        · exact hx
      have hdis : ∀ q, q ≠ p → ∀ c ∈ recs S fs, ∀ c' ∈ recs S (w q).stack, c.sid ≠ c'.sid :=
        fun q hq c hc => hgd q hq.symm c (hsub c hc)
      have hpw : (recs S fs).Pairwise fun x y => x.sid ≠ y.sid := by
        rw [recs_cons] at hgo
        split at hgo
        · exact (List.pairwise_cons.1 hgo).2
        · exact hgo
      cases hk : S.traced f.c.ip with
      | false =>
        have hr : recorded S f.c = false := by simp [recorded, hk]
        have e : kstep S st p ⟨.exit f.c f.inner, fs.map (·.c)⟩ = (st, []) := by simp [kstep, hk]
        have hpr : printed S limit ⟨.exit f.c f.inner, fs.map (·.c)⟩ = none := by simp [printed, hr]
        rw [e, hpr]
        refine ⟨ss, rfl, g.move ?_ hgu.2 (fun q _ => g.user q) hdis hpw hf'⟩
        rw [opens_move (by intro ip; rw [hw]; exact (opensL_skip hk _ _).symm)]
        exact g.kern
      | true =>
        obtain ⟨hki, hp1, hp0⟩ := kern_exit g.kern hw hk
        have e : kstep S st p ⟨.exit f.c f.inner, fs.map (·.c)⟩ =
            (((KSess.getAndDel st.1 ⟨p, f.c.ip⟩).2, st.2), if (KSess.getAndDel st.1 ⟨p, f.c.ip⟩).1 = 0 then [] else
              [funcRec S f.c true ((KSess.getAndDel st.1 ⟨p, f.c.ip⟩).1 - 1)]) := by
          have h1 : (kstep S st p ⟨.exit f.c f.inner, fs.map (·.c)⟩) =
              (((KSess.getAndDel st.1 ⟨p, f.c.ip⟩).2, st.2), match (if (KSess.getAndDel st.1 ⟨p, f.c.ip⟩).1 = 0 then none else
                some (KSess.Out.exit ⟨p, f.c.ip⟩ ((KSess.getAndDel st.1 ⟨p, f.c.ip⟩).1 - 1))) with
                | some (.exit _ sid) => [funcRec S f.c true sid]
                | _ => []) := by
            simp only [kstep, hpid, hk, hs, Att.sstep, Bool.false_eq_true, if_false, or_self, Bool.true_eq_false]
            rfl
          rw [h1]
          by_cases h0 : (KSess.getAndDel st.1 ⟨p, f.c.ip⟩).1 = 0
          · rw [if_pos h0, if_pos h0]
          · rw [if_neg h0, if_neg h0]
        rw [e]
        cases hp : f.c.pass with
        | false =>
          have hr : recorded S f.c = false := by simp [recorded, hp]
          have hpr : printed S limit ⟨.exit f.c f.inner, fs.map (·.c)⟩ = none := by simp [printed, hr]
          rw [if_pos (hp0 hp), hpr]
          exact ⟨ss, rfl, g.move hki hgu.2 (fun q _ => g.user q) hdis hpw hf'⟩
        | true =>
          have hr : recorded S f.c = true := by simp [recorded, hp, hk]
          obtain ⟨h0, h1⟩ := hp1 hp
          rw [if_neg h0, h1]
          obtain ⟨q, h3, h4, h5⟩ := hgu.1 hr
          refine ⟨Run.set ss f.c.sid none, ?_, g.move hki (hgu.2.set_ne _ ?_) ?_ hdis hpw hf'⟩
          · apply Cg.steps_one
            simp only [Run.handle, funcRec, Run.FuncEv.requiredSession, Bool.not_false, Bool.and_true, Bool.or_true, Bool.true_or, if_true,
              BitVec.sub_add_cancel, h3, h4]
            by_cases hlim : ((f.c.leave.ns - f.c.enter.ns).toNat : Int) < limit
            · rw [if_neg (by decide), if_pos hlim]
              have : printed S limit ⟨.exit f.c f.inner, fs.map (·.c)⟩ = none := by
                simp only [printed]
                rw [if_neg]
                rintro ⟨_, hx⟩
                exact absurd hx (Int.not_le.2 hlim)
              rw [this]
            · rw [if_neg (by decide), if_neg hlim]
              have : printed S limit ⟨.exit f.c f.inner, fs.map (·.c)⟩ = some (block S f.c f.inner) := by
                simp only [printed]
                rw [if_pos ⟨hr, Int.not_lt.1 hlim⟩]
              rw [this, ← h5]
              rfl
          · intro c hc e
            rw [recs_cons, if_pos hr, List.pairwise_cons] at hgo
            exact hgo.1 c hc e.symm
          · exact others_keep g ⟨f.c, by rw [hw, recs_cons, if_pos hr]; simp, rfl⟩ _

theorem all {S : Sys} (limit : Int) (hp : Placed S) (hs : S.session = false) (sched : List (BitVec 64)) :
    ∀ (w : World) (st : Att.SSt) (ss : Sessions), Good S w st ss → Distinct S w sched →
      (∀ p h, (p, h) ∈ hits w sched → S.mypid ≠ (p >>> 32).setWidth 32) →
      ∃ ss', Run.steps limit ss (records S st (hits w sched)) = some (ss', (hits w sched).filterMap fun x => printed S limit x.2) := by
  induction sched with
  | nil => intro w st ss _ _ _; exact ⟨ss, rfl⟩
  | cons p ps ih =>
    intro w st ss g hd hu
    simp only [Distinct] at hd
    simp only [hits] at hu ⊢
    cases hn : next (w p) with
    | none =>
      rw [hn] at hd hu
      exact ih w st ss g hd hu
    | some x =>
      obtain ⟨h, t⟩ := x
      rw [hn] at hd hu
      simp only [] at hd hu ⊢
      obtain ⟨hd1, hd2⟩ := hd
      have h0 := hu p h (by simp)
      obtain ⟨ss1, h1, h2⟩ := step limit g hp hn hs h0 hd1
      obtain ⟨ss2, h3⟩ := ih _ _ ss1 h2 hd2 (fun q k hq => hu q k (List.mem_cons_of_mem _ hq))
      refine ⟨ss2, ?_⟩
      simp only [records, Run.steps_append, h1, Option.bind_eq_bind, Option.bind_some, h3, List.filterMap_cons]
      cases printed S limit h <;> simp

theorem good_start (S : Sys) (F : BitVec 64 → Body) (hf : ∀ p, Fits S [] (F p)) : Good S (start F) Cg.noSessions Run.newSessions := by
  refine ⟨fun k => ⟨rfl, by simp [opens, start, opensL], 0, rfl⟩, ?_, ?_, ?_, ?_⟩
  · intro p
    trivial
  · intro p q _ c hc
    simp [start, recs] at hc
  · intro p
    exact List.Pairwise.nil
  · intro p
    exact ⟨hf p, trivial⟩

/-- **C84.** Whatever calls any number of tasks make, whatever instructions they execute and however the tasks are scheduled, bpfsnoop prints for
each recorded call (that took at least `limit`), when it ends, its own two lines and between them the line of every instruction with
a probe that the call itself has executed, in order, each with the time since the beginning of the call; nothing else, and it never crashes. *Missing*:
kernels with `fsession` (`fsession_violated`), rejected calls within recorded calls of the same function (`rejected_recursion_violated`),
probes that the kernel puts elsewhere (`misplaced_violated`), two calls with the same id at once and records lost by the ring buffer (as for C79). -/
theorem insns_shown_partial (S : Sys) (limit : Int) (F : BitVec 64 → Body) (sched : List (BitVec 64)) (hp : Placed S)
    (hs : S.session = false) (hf : ∀ p, Fits S [] (F p)) (hd : Distinct S (start F) sched)
    (hu : ∀ p h, (p, h) ∈ hits (start F) sched → S.mypid ≠ (p >>> 32).setWidth 32) :
    Run.run limit 0 (records S Cg.noSessions (hits (start F) sched)) =
      some ((hits (start F) sched).filterMap fun x => printed S limit x.2, .closed) := by
  obtain ⟨ss, h⟩ := all limit hp hs sched _ _ _ (good_start S F hf) hd hu
  rw [Run.run_unlimited, h]
  rfl

/-- **C84, with `--limit-events`.** The first blocks of these. -/
theorem insns_shown_limited_partial (S : Sys) (limit : Int) (F : BitVec 64 → Body) (sched : List (BitVec 64)) (hp : Placed S)
    (hs : S.session = false) (hf : ∀ p, Fits S [] (F p)) (hd : Distinct S (start F) sched)
    (hu : ∀ p h, (p, h) ∈ hits (start F) sched → S.mypid ≠ (p >>> 32).setWidth 32) (n : Nat) (h0 : 0 < n) (hn : n < 2 ^ 63) :
    ∃ e, Run.run limit (BitVec.ofNat 64 n) (records S Cg.noSessions (hits (start F) sched)) =
      some (((hits (start F) sched).filterMap fun x => printed S limit x.2).take n, e) := by
  obtain ⟨ss, h⟩ := all limit hp hs sched _ _ _ (good_start S F hf) hd hu
  exact ⟨_, Run.run_limited_partial limit n h0 hn _ ss _ h⟩

/-! ### The instructions that get a probe -/

/-- `f` is to be traced: it is an instruction, from the fifth on and not a one-byte `ret`, of one of the functions whose instructions are asked for. -/
def Wanted (D : Dis.Decoder) (ls : List Kallsyms.Line) (m : KRead.Mem) (fs : List (Nat × Bool)) (f : Dis.FInsn) : Prop :=
  ∃ s fn code, (s.addr, true) ∈ fs ∧ Dis.FuncAt ls m s fn ∧ Dis.Unpadded fn code ∧
    (∃ i, 4 ≤ i ∧ Dis.NthInsn D i s.addr code f.ip f.bytes) ∧ f.bytes ≠ [0xc3#8] ∧ f.func = s.addr ∧ f.ip = s.addr + f.off

theorem nth_same (D : Dis.Decoder) {i j pc : Nat} {b : List Byte} {ip : Nat} {bs cs : List Byte} (h : Dis.NthInsn D i pc b ip bs)
    (h' : Dis.NthInsn D j pc b ip cs) : bs = cs := by
  have l1 := List.length_pos_iff.2 (Dis.nth_within D _ _ _ _ _ h).2.1
  have l2 := List.length_pos_iff.2 (Dis.nth_within D _ _ _ _ _ h').2.1
  have e : i = j := by
    rcases Nat.lt_trichotomy i j with hl | hl | hl
    · have := Dis.nth_lt D _ _ _ _ _ _ _ _ hl h h'; omega
    · exact hl
    · have := Dis.nth_lt D _ _ _ _ _ _ _ _ hl h' h; omega
  subst e
  have h1 := (Dis.insnsOf_nth D _ _ _ _ _).2 h
  have h2 := (Dis.insnsOf_nth D _ _ _ _ _).2 h'
  rw [h1] at h2
  simp only [Option.some.injEq, Prod.mk.injEq, true_and] at h2
  exact h2

theorem funcAt_len {ls : List Kallsyms.Line} {m : KRead.Mem} {s s' : Kallsyms.Sym} {fn fn' : List Byte} (h : Dis.FuncAt ls m s fn)
    (h' : Dis.FuncAt ls m s' fn') (e : s.addr = s'.addr) : fn = fn' := by
  obtain ⟨n1, m1, a1, b1, c1⟩ := h.next
  obtain ⟨n2, m2, a2, b2, c2⟩ := h'.next
  have hl : fn.length = fn'.length := by
    have h1 := b1 n2 m2 (by omega)
    have h2 := b2 n1 m1 (by omega)
    omega
  obtain ⟨r, _, _, hm⟩ := h.mem
  obtain ⟨r', _, _, hm'⟩ := h'.mem
  apply List.ext_getElem hl
  intro i h1 h2
  have g1 := hm i (by rw [List.length_append]; omega)
  have g2 := hm' i (by rw [List.length_append]; omega)
  rw [List.getElem_append_left h1] at g1
  rw [List.getElem_append_left h2] at g2
  rw [e, g2] at g1
  exact (Option.some.inj g1).symm

/-- Two instructions to trace at the same address are the same. -/
theorem wanted_unique {D : Dis.Decoder} {ls : List Kallsyms.Line} {m : KRead.Mem} {fs : List (Nat × Bool)} {f g : Dis.FInsn}
    (hf : Wanted D ls m fs f) (hg : Wanted D ls m fs g) (e : f.ip = g.ip) : f = g := by
  obtain ⟨s1, fn1, c1, _, a1, u1, ⟨i, _, n1⟩, _, k1, o1⟩ := hf
  obtain ⟨s2, fn2, c2, _, a2, u2, ⟨j, _, n2⟩, _, k2, o2⟩ := hg
  have w1 := Dis.nth_within D _ _ _ _ _ n1
  have w2 := Dis.nth_within D _ _ _ _ _ n2
  have p1 := List.length_pos_iff.2 w1.2.1
  have p2 := List.length_pos_iff.2 w2.2.1
  have hl1 : c1.length ≤ fn1.length := by
    obtain ⟨r, hr, _, _⟩ := u1
    have := congrArg List.length hr
    rw [List.length_append] at this; omega
  have hl2 : c2.length ≤ fn2.length := by
    obtain ⟨r, hr, _, _⟩ := u2
    have := congrArg List.length hr
    rw [List.length_append] at this; omega
  obtain ⟨m1, _, b1, d1, q1⟩ := a1.next
  obtain ⟨m2, _, b2, d2, q2⟩ := a2.next
  have hs : s1.addr = s2.addr := by
    rcases Nat.lt_trichotomy s1.addr s2.addr with h | h | h
    · have := d1 s2 a2.sym h; omega
    · exact h
    · have := d2 s1 a1.sym h; omega
  have hfn := funcAt_len a1 a2 hs
  subst hfn
  have hc := Dis.unpadded_unique u1 u2
  subst hc
  rw [hs, e] at n1
  have hb := nth_same D n1 n2
  obtain ⟨f1, f2, f3, f4⟩ := f
  obtain ⟨g1, g2, g3, g4⟩ := g
  simp only at e k1 k2 o1 o2 hb
  rw [Dis.FInsn.mk.injEq]
  exact ⟨by omega, e, by omega, hb⟩

theorem mem_put {tab : Table} {k : Nat} {v : Dis.FInsn} {x : Nat × Dis.FInsn} :
    x ∈ Kallsyms.put tab k v ↔ x = (k, v) ∨ (x ∈ tab ∧ x.1 ≠ k) := by
  simp [Kallsyms.put]

theorem put_once {tab : Table} (h : tab.Pairwise fun x y => x.1 ≠ y.1) (k : Nat) (v : Dis.FInsn) :
    (Kallsyms.put tab k v).Pairwise fun x y => x.1 ≠ y.1 := by
  refine List.pairwise_cons.2 ⟨?_, h.filter _⟩
  intro y hy
  have := (List.mem_filter.1 hy).2
  simp only [ne_eq, decide_eq_true_eq] at this
  exact fun e => this e.symm

/-- What has been put into the table. -/
theorem puts_spec (W : Dis.FInsn → Prop) (hW : ∀ f g, W f → W g → f.ip = g.ip → f = g) : ∀ (l : List Dis.FInsn) (tab : Table),
    (∀ i ∈ l, W i) → (∀ x ∈ tab, x.1 = x.2.ip ∧ W x.2) → tab.Pairwise (fun x y => x.1 ≠ y.1) →
    let r := l.foldl (fun tab i => Kallsyms.put tab i.ip i) tab
    (∀ x ∈ r, x.1 = x.2.ip ∧ W x.2) ∧ r.Pairwise (fun x y => x.1 ≠ y.1) ∧
    ∀ f, (f.ip, f) ∈ r ↔ (f.ip, f) ∈ tab ∨ f ∈ l
  | [], tab, _, h1, h2 => ⟨h1, h2, by simp⟩
  | i :: l, tab, hl, h1, h2 => by
    have hi := hl i (by simp)
    have h1' : ∀ x ∈ Kallsyms.put tab i.ip i, x.1 = x.2.ip ∧ W x.2 := by
      intro x hx
      rcases mem_put.1 hx with rfl | ⟨hx, _⟩
      · exact ⟨rfl, hi⟩
      · exact h1 x hx
    obtain ⟨a, b, c⟩ := puts_spec W hW l _ (fun j hj => hl j (List.mem_cons_of_mem _ hj)) h1' (put_once h2 i.ip i)
    refine ⟨a, b, ?_⟩
    intro f
    rw [List.foldl_cons, c f, mem_put]
    constructor
    · rintro ((h | h) | h)
      · simp only [Prod.mk.injEq] at h; exact .inr (by simp [h.2])
      · exact .inl h.1
      · exact .inr (List.mem_cons_of_mem _ h)
    · rintro (h | h)
      · by_cases e : f.ip = i.ip
        · have := hW f i (h1 _ h).2 hi e
          subst this
          exact .inl (.inl rfl)
        · exact .inl (.inr ⟨h, e⟩)
      · rcases List.mem_cons.1 h with rfl | h
        · exact .inl (.inl rfl)
        · exact .inr h

theorem bufAfter_length (m : KRead.Mem) (t : Kallsyms.Tables) (buff : List Byte) (hb : buff.length = KRead.buffSize) (a : Nat) :
    (bufAfter m t buff a).length = KRead.buffSize := by
  unfold bufAfter
  split
  · exact hb
  · exact KRead.readKernel_buff m buff hb _ _

/-- **C84.** The instructions to trace are exactly those asked for: of every function with `(i)` those from the fifth on that are not a one-byte `ret`, each
once, under its address. Of the functions without `(i)` none. (Functions of fewer than four instructions: `short_function_violated`.) -/
theorem table_exact {sysBPF : String} {ls : List Kallsyms.Line} {t : Kallsyms.Tables} (D : Dis.Decoder) (m : KRead.Mem)
    (hs : Kallsyms.scan sysBPF ls Kallsyms.Tables.empty = some t) (fs : List (Nat × Bool)) (buff : List Byte) (hb : buff.length = KRead.buffSize)
    (hfs : ∀ a, (a, true) ∈ fs → ∃ s fn code, s.addr = a ∧ Dis.FuncAt ls m s fn ∧ Dis.Unpadded fn code ∧ ∃ ip bs, Dis.NthInsn D 3 a code ip bs) :
    ∃ tab, newFuncInsns D m t 0 fs buff [] = .ok tab ∧ (∀ x ∈ tab, x.1 = x.2.ip) ∧ tab.Pairwise (fun x y => x.1 ≠ y.1) ∧
      ∀ f, f ∈ tab.map (·.2) ↔ Wanted D ls m fs f := by
  have key : ∀ (gs : List (Nat × Bool)) (buff : List Byte) (tab : Table), buff.length = KRead.buffSize → (∀ x ∈ gs, x ∈ fs) →
      (∀ x ∈ tab, x.1 = x.2.ip ∧ Wanted D ls m fs x.2) → tab.Pairwise (fun x y => x.1 ≠ y.1) →
      ∃ r, newFuncInsns D m t 0 gs buff tab = .ok r ∧ (∀ x ∈ r, x.1 = x.2.ip ∧ Wanted D ls m fs x.2) ∧ r.Pairwise (fun x y => x.1 ≠ y.1) ∧
        ∀ f, (f.ip, f) ∈ r ↔ (f.ip, f) ∈ tab ∨ Wanted D ls m gs f := by
    intro gs
    induction gs with
    | nil =>
      intro buff tab _ _ h1 h2
      refine ⟨tab, rfl, h1, h2, fun f => ⟨.inl, ?_⟩⟩
      rintro (h | ⟨s, fn, code, hm, _⟩)
      · exact h
      · cases hm
    | cons x gs ih =>
      intro buff tab hb hsub h1 h2
      obtain ⟨a, b⟩ := x
      cases b with
      | false =>
        obtain ⟨r, e, r1, r2, r3⟩ := ih buff tab hb (fun y hy => hsub y (List.mem_cons_of_mem _ hy)) h1 h2
        refine ⟨r, e, r1, r2, fun f => ?_⟩
        rw [r3 f]
        constructor
        · rintro (h | ⟨s, fn, code, hm, h⟩)
          · exact .inl h
          · exact .inr ⟨s, fn, code, List.mem_cons_of_mem _ hm, h⟩
        · rintro (h | ⟨s, fn, code, hm, h⟩)
          · exact .inl h
          · exact .inr ⟨s, fn, code, by simpa using hm, h⟩
      | true =>
        obtain ⟨s, fn, code, rfl, hfa, hun, h4⟩ := hfs a (hsub _ (by simp))
        obtain ⟨l, hl, hl'⟩ := Dis.insns_traced D m hs s fn code hfa hun buff hb h4
        have hlw : ∀ i ∈ l, Wanted D ls m fs i := by
          intro i hi
          exact ⟨s, fn, code, hsub _ (by simp), hfa, hun, (hl' i).1 hi⟩
        obtain ⟨p1, p2, p3⟩ := puts_spec (Wanted D ls m fs) (fun _ _ => wanted_unique) l tab hlw h1 h2
        obtain ⟨r, e, r1, r2, r3⟩ := ih (bufAfter m t buff s.addr) _ (bufAfter_length m t buff hb _)
          (fun y hy => hsub y (List.mem_cons_of_mem _ hy)) p1 p2
        refine ⟨r, by simp only [newFuncInsns, hl, e], r1, r2, fun f => ?_⟩
        rw [r3 f, p3 f]
        constructor
        · rintro ((h | h) | ⟨s', fn', code', hm, h⟩)
          · exact .inl h
          · exact .inr ⟨s, fn, code, by simp, hfa, hun, (hl' f).1 h⟩
          · exact .inr ⟨s', fn', code', List.mem_cons_of_mem _ hm, h⟩
        · rintro (h | ⟨s', fn', code', hm, ha', hu', h⟩)
          · exact .inl (.inl h)
          · rcases List.mem_cons.1 hm with hm | hm
            · simp only [Prod.mk.injEq, and_true] at hm
              have hfn := funcAt_len ha' hfa hm
              subst hfn
              have hc := Dis.unpadded_unique hu' hun
              subst hc
              rw [hm] at h
              exact .inl (.inr ((hl' f).2 h))
            · exact .inr ⟨s', fn', code', hm, ha', hu', h⟩
  obtain ⟨r, e, r1, r2, r3⟩ := key fs buff [] hb (fun _ h => h) (by simp) .nil
  refine ⟨r, e, fun x hx => (r1 x hx).1, r2, fun f => ?_⟩
  constructor
  · intro hf
    obtain ⟨x, hx, rfl⟩ := List.mem_map.1 hf
    exact (r1 x hx).2
  · intro hf
    exact List.mem_map.2 ⟨(f.ip, f), (r3 f).2 (.inr hf), rfl⟩

/-- **C84 violated**: if the instructions of a function of one to three instructions are asked for, bpfsnoop crashes. -/
theorem short_function_violated {sysBPF : String} {ls : List Kallsyms.Line} {t : Kallsyms.Tables} (D : Dis.Decoder) (m : KRead.Mem)
    (hs : Kallsyms.scan sysBPF ls Kallsyms.Tables.empty = some t) (s : Kallsyms.Sym) (fn code : List Byte) (hf : Dis.FuncAt ls m s fn)
    (hc : Dis.Unpadded fn code) (buff : List Byte) (hb : buff.length = KRead.buffSize) (limit : Nat)
    (h1 : ∃ ip bs, Dis.NthInsn D 0 s.addr code ip bs) (h4 : ¬ ∃ ip bs, Dis.NthInsn D 3 s.addr code ip bs) (fs : List (Nat × Bool)) (tab : Table) :
    newFuncInsns D m t limit ((s.addr, true) :: fs) buff tab = .panic := by
  simp only [newFuncInsns, Dis.short_function_violated D m hs s fn code hf hc buff hb limit h1 h4]

/-! ### The text of an instruction -/

theorem digit_ne {c : Char} (hc : c = ' ' ∨ c = '\t') {n : Nat} (h : n < 16) : Nat.digitChar n ≠ c := by
  have : ∀ n : Fin 16, Nat.digitChar n.val ≠ ' ' ∧ Nat.digitChar n.val ≠ '\t' := by decide
  rcases hc with rfl | rfl
  · exact (this ⟨n, h⟩).1
  · exact (this ⟨n, h⟩).2

theorem toDigits_ne {c : Char} (hc : c = ' ' ∨ c = '\t') (base : Nat) (hb : 1 < base) (hb' : base ≤ 16) : ∀ n, c ∉ Nat.toDigits base n := by
  intro a
  induction a using Nat.strongRecOn with
  | _ a ih =>
    rw [Nat.toDigits_eq_if hb]
    split
    · next h => simp only [List.mem_singleton]; exact fun e => digit_ne hc (by omega) e.symm
    · next h =>
      have hm : a % base < base := Nat.mod_lt _ (by omega)
      simp only [List.mem_append, List.mem_singleton, not_or]
      exact ⟨ih _ (Nat.div_lt_self (by omega) hb), fun e => digit_ne hc (by omega) e.symm⟩

theorem hex_no {c : Char} (hc : c = ' ' ∨ c = '\t') (n : Nat) : c ∉ Rp.hex n := by
  have := toDigits_ne hc 16 (by decide) (by decide) n
  simp only [Rp.hex, List.mem_cons, not_or]
  exact ⟨by rcases hc with rfl | rfl <;> decide, by rcases hc with rfl | rfl <;> decide, this⟩

theorem offset_no {c : Char} (hc : c = ' ' ∨ c = '\t') (n : Nat) : c ∉ offset n := by
  have h1 := toDigits_ne hc 10 (by decide) (by decide) n
  have h2 := hex_no hc n
  have e1 : c ∉ Ot.t "<+" := by rcases hc with rfl | rfl <;> decide
  have e2 : c ∉ Ot.t "/" := by rcases hc with rfl | rfl <;> decide
  have e3 : c ∉ Ot.t ">:" := by rcases hc with rfl | rfl <;> decide
  simp only [offset, List.mem_append, not_or]
  exact ⟨⟨⟨⟨e1, h1⟩, e2⟩, h2⟩, e3⟩

theorem offset_inj {a b : Nat} (h : offset a = offset b) : a = b := by
  have e : ∀ n, offset n = Ot.t "<+" ++ (Rp.dec n ++ '/' :: (Rp.hex n ++ Ot.t ">:")) := by intro n; simp [offset, Ot.t]
  rw [e, e] at h
  have h1 := List.append_cancel_left h
  have hno : ∀ n, '/' ∉ Rp.dec n := fun n => Ot.toDigits_ne (.inr (.inr (.inr rfl))) 10 (by decide) (by decide) n
  exact Rp.dec_inj (Ln.firstCut (hno a) (hno b) h1).1

theorem hex2_no {c : Char} (hc : c = ' ' ∨ c = '\t') (b : Byte) : c ∉ Ot.hex2 b := by
  have := b.isLt
  simp only [Ot.hex2, List.mem_cons, List.not_mem_nil, or_false, not_or]
  exact ⟨fun e => digit_ne hc (by omega) e.symm, fun e => digit_ne hc (by omega) e.symm⟩

theorem opcode_tab (b : List Byte) : '\t' ∉ opcode b := by
  intro h
  rcases Ot.mem_join h with h | ⟨w, hw, h⟩
  · simp [Ot.t] at h
  · obtain ⟨x, _, rfl⟩ := List.mem_map.1 hw
    exact hex2_no (.inr rfl) x h

theorem opcode_digits : ∀ b : List Byte, (opcode b).filter (fun c => decide (c ≠ ' ')) = Ot.hexString b
  | [] => rfl
  | [x] => by
    have : (Ot.hex2 x).filter (fun c => decide (c ≠ ' ')) = Ot.hex2 x :=
      List.filter_eq_self.2 fun c hc => by
        have : c ≠ ' ' := fun e => hex2_no (.inl rfl) x (e ▸ hc)
        simpa using this
    simpa [opcode, Ot.join, Ot.hexString] using this
  | x :: y :: r => by
    have h1 : (Ot.hex2 x).filter (fun c => decide (c ≠ ' ')) = Ot.hex2 x :=
      List.filter_eq_self.2 fun c hc => by
        have : c ≠ ' ' := fun e => hex2_no (.inl rfl) x (e ▸ hc)
        simpa using this
    have ih := opcode_digits (y :: r)
    have e : opcode (x :: y :: r) = Ot.hex2 x ++ ' ' :: opcode (y :: r) := by simp [opcode, Ot.join, Ot.t]
    have e2 : Ot.hexString (x :: y :: r) = Ot.hex2 x ++ Ot.hexString (y :: r) := by simp [Ot.hexString]
    rw [e, List.filter_append, h1, List.filter_cons_of_neg (by decide), ih, e2]

theorem hexString_inj : ∀ {a b : List Byte}, Ot.hexString a = Ot.hexString b → a = b
  | [], [], _ => rfl
  | [], y :: b, h => by simp [Ot.hexString, Ot.hex2] at h
  | x :: a, [], h => by simp [Ot.hexString, Ot.hex2] at h
  | x :: a, y :: b, h => by
    have e : ∀ (x : Byte) r, Ot.hexString (x :: r) = Ot.hex2 x ++ Ot.hexString r := by intro x r; simp [Ot.hexString]
    rw [e, e] at h
    obtain ⟨h1, h2⟩ := List.append_inj h (by simp [Ot.hex2])
    have hx : x = y := BitVec.eq_of_toNat_eq (by rw [← Ot.hex2_value, ← Ot.hex2_value, h1])
    rw [hx, hexString_inj h2]

/-- **C84, C55.** The text of an instruction tells its address, its offset, its bytes, its mnemonic and its operands (disassemblers put no tab into a
mnemonic). -/
theorem insnInfo_unique {pc pc' off off' : Nat} {b b' : List Byte} {mn mn' op op' : Rp.Text} (hm : '\t' ∉ mn) (hm' : '\t' ∉ mn')
    (h : insnInfo pc off b mn op = insnInfo pc' off' b' mn' op') : pc = pc' ∧ off = off' ∧ b = b' ∧ mn = mn' ∧ op = op' := by
  have e : ∀ pc off b mn op, insnInfo pc off b mn op = Rp.hex pc ++ ' ' :: (offset off ++ List.replicate (14 - (offset off).length) ' ' ++ ' ' :: [] ++
      ((opcode b ++ List.replicate (19 - (opcode b).length) ' ') ++ '\t' :: (mn ++ '\t' :: op))) := by
    intro pc off b mn op
    simp [insnInfo, Ln.pad, Ot.t]
  rw [e, e] at h
  obtain ⟨h1, h2⟩ := Ln.firstCut (hex_no (.inl rfl) _) (hex_no (.inl rfl) _) h
  have hpc : pc = pc' := by
    simp only [Rp.hex, List.cons.injEq, true_and] at h1
    exact Rp.hexDigits_inj _ _ h1
  have hof := offset_inj (Ln.padded (offset_no (.inl rfl) _) (offset_no (.inl rfl) _) h2)
  subst hof
  have h3 := List.append_cancel_left h2
  have hno : ∀ b : List Byte, '\t' ∉ opcode b ++ List.replicate (19 - (opcode b).length) ' ' := by
    intro b
    simp only [List.mem_append, not_or, List.mem_replicate]
    exact ⟨opcode_tab b, by simp⟩
  obtain ⟨h4, h5⟩ := Ln.firstCut (hno b) (hno b') h3
  have h6 := congrArg (List.filter fun c => decide (c ≠ ' ')) h4
  rw [List.filter_append, List.filter_append, opcode_digits, opcode_digits, List.filter_replicate, List.filter_replicate] at h6
  simp only [ne_eq, not_true_eq_false, decide_false, Bool.false_eq_true, if_false, List.append_nil] at h6
  obtain ⟨h7, h8⟩ := Ln.firstCut hm hm' h5
  exact ⟨hpc, rfl, hexString_inj h6, h7, h8⟩

/-- **C84.** So the line of an instruction event tells the function, the processor, the duration and all of this. -/
theorem line_unique {n n' : Rp.Text} {c c' d d' : BitVec 32} {pc pc' off off' : Nat} {b b' : List Byte} {mn mn' op op' : Rp.Text} (hn : Ln.IsName n)
    (hn' : Ln.IsName n') (hm : '\t' ∉ mn) (hm' : '\t' ∉ mn')
    (h : Ln.insn n c d (insnInfo pc off b mn op) = Ln.insn n' c' d' (insnInfo pc' off' b' mn' op')) :
    n = n' ∧ c = c' ∧ d = d' ∧ pc = pc' ∧ off = off' ∧ b = b' ∧ mn = mn' ∧ op = op' := by
  obtain ⟨h1, h2, h3, h4⟩ := Ln.insn_unique hn hn' h
  exact ⟨h1, h2, h3, insnInfo_unique hm hm' h4⟩

example : insnInfo 0xffffffff81000014 20 [0x48#8, 0x89#8, 0xe5#8] (Ot.t "mov") (Ot.t "rbp, rsp") =
    Ot.t "0xffffffff81000014 <+20/0x14>:    48 89 e5           \tmov\trbp, rsp" := by decide +kernel

/-! ### Examples -/

/-- The ids differ, for finitely many tasks. -/
def distinctIn (S : Sys) (T : List (BitVec 64)) : World → List (BitVec 64) → Bool
  | _, [] => true
  | w, p :: ps =>
    match next (w p) with
    | none => distinctIn S T w ps
    | some (h, t) =>
      (match h.ev with
        | .enter c => !recorded S c || T.all fun q => (open_ S (w q)).all fun a => decide (a.sid ≠ c.sid)
        | _ => true) && distinctIn S T (w.set p t) ps

theorem distinct_of (S : Sys) (T : List (BitVec 64)) (ps : List (BitVec 64)) : ∀ (w : World), (∀ q, q ∉ T → (w q).stack = []) → (∀ p ∈ ps, p ∈ T) →
    distinctIn S T w ps = true → Distinct S w ps := by
  induction ps with
  | nil => intros; trivial
  | cons p ps ih =>
    intro w hw hps h
    simp only [Distinct]
    simp only [distinctIn] at h
    cases hn : next (w p) with
    | none =>
      rw [hn] at h
      exact ih w hw (fun q hq => hps q (List.mem_cons_of_mem _ hq)) h
    | some x =>
      obtain ⟨k, t⟩ := x
      rw [hn] at h
      simp only [Bool.and_eq_true] at h
      refine ⟨?_, ih _ ?_ (fun q hq => hps q (List.mem_cons_of_mem _ hq)) h.2⟩
      · intro c he hr q a ha
        have h1 := h.1
        rw [he] at h1
        simp only [hr, Bool.not_true, Bool.false_or, List.all_eq_true, decide_eq_true_eq] at h1
        by_cases hq : q ∈ T
        · exact h1 q hq a ha
        · simp [open_, hw q hq] at ha
      · intro q hq
        have hne : q ≠ p := fun e => hq (by rw [e]; exact hps p (by simp))
        rw [World.set_other w hne]
        exact hw q hq

/-- Functions at 100 and 200 are traced with `(i)`; the kernel refuses the probe of the instruction at 105. `to` is where the probe of the instruction at 104 is
put. -/
def exSys (session : Bool) (to : Addr) : Sys where
  traced ip := ip = 100 ∨ ip = 200
  insnMode ip := ip = 100 ∨ ip = 200
  insns := [(104, ⟨100, 104, 4, [0x53#8]⟩), (105, ⟨100, 105, 5, [0x48#8, 0x89#8]⟩), (204, ⟨200, 204, 4, [0x90#8]⟩)]
  place f := if f.ip = 105 then none else if f.ip = 104 then some to else some (BitVec.ofNat 64 f.ip)
  stale _ := 99
  pad := [1, 2, 3, 4]
  mypid := 7
  session := session
  texts := ⟨fun f cpu => f.ip * 1000 + cpu.toNat, fun e ip cpu a => (if e then 2000000 else 1000000) + ip.toNat * 1000 + cpu.toNat * 100 + a.length⟩

def exCall (ip : Addr) (pass : Bool) (sid : BitVec 64) (t0 t1 : BitVec 32) : Call := ⟨ip, pass, sid, ⟨t0, 0, []⟩, ⟨t1, 0, [1]⟩⟩

/-- Two tasks. The first is in the function at 100 when recording starts, then calls it: it executes an instruction, calls the function at 200 which executes one, calls an
untraced function, executes two more. The second makes a call that is not recorded, then a recorded call that calls itself. -/
def exF (p : BitVec 64) : Body :=
  if p = 0x100000001 then
    .insn ⟨104, 90, 0⟩ (.call (exCall 100 true 11 100 200)
      (.insn ⟨104, 110, 1⟩ (.call (exCall 200 true 13 112 116) (.insn ⟨204, 114, 2⟩ .nil)
        (.call (exCall 300 true 0 117 118) (.insn ⟨301, 118, 0⟩ .nil) (.insn ⟨105, 120, 3⟩ (.insn ⟨104, 130, 3⟩ .nil))))) .nil)
  else if p = 0x200000002 then
    .call (exCall 100 false 0 101 103) (.insn ⟨104, 102, 0⟩ .nil) (.call (exCall 100 true 12 105 160)
      (.insn ⟨104, 106, 0⟩ (.call (exCall 100 true 14 110 120) (.insn ⟨104, 115, 0⟩ .nil) (.insn ⟨104, 150, 0⟩ .nil))) .nil)
  else .nil

def exSched : List (BitVec 64) :=
  [0x100000001, 0x200000002, 0x100000001, 0x200000002, 0x100000001, 0x200000002, 0x200000002, 0x100000001, 0x100000001, 0x200000002, 0x100000001,
   0x200000002, 0x100000001, 0x200000002, 0x100000001, 0x200000002, 0x100000001, 0x200000002, 0x100000001, 0x200000002, 0x100000001, 0x100000001,
   0x100000001]

theorem exPlaced : Placed (exSys false 104) where
  keys := by decide +kernel
  once := by decide +kernel
  small := by decide +kernel
  place := by
    have : ∀ x ∈ (exSys false 104).insns, ((exSys false 104).place x.2).all (fun a => decide (a.toNat = x.2.ip)) = true := by decide +kernel
    intro x hx a ha
    have h := this x hx
    rw [ha] at h
    simpa using h

/-- The assumptions of `insns_shown_partial` hold for a run of two tasks, and this is what is printed. -/
theorem insns_shown_witness :
    (∀ p, Fits (exSys false 104) [] (exF p)) ∧ Distinct (exSys false 104) (start exF) exSched ∧
    (∀ p h, (p, h) ∈ hits (start exF) exSched → (exSys false 104).mypid ≠ (p >>> 32).setWidth 32) ∧
    Run.run 0 0 (records (exSys false 104) Cg.noSessions (hits (start exF) exSched)) = some
      ([[.func 1200000 none, .insn 204002 2, .func 2200001 (some 4)],
        [.func 1100000 none, .insn 104000 5, .func 2100001 (some 10)],
        [.func 1100000 none, .insn 104000 1, .insn 104000 45, .func 2100001 (some 55)],
        [.func 1100000 none, .insn 104001 10, .insn 104003 30, .func 2100001 (some 100)]], .closed) := by
  have p1 : probed (exSys false 104#64) 104#64 = some ⟨100, 104, 4, [0x53#8]⟩ := by decide +kernel
  have p2 : probed (exSys false 104#64) 204#64 = some ⟨200, 204, 4, [0x90#8]⟩ := by decide +kernel
  have p3 : probed (exSys false 104#64) 105#64 = none := by decide +kernel
  have p4 : probed (exSys false 104#64) 301#64 = none := by decide +kernel
  have hf : ∀ p, Fits (exSys false 104) [] (exF p) := by
    intro p
    unfold exF
    split
    · simp [Fits, exCall, recorded, p1, p2, p3, p4]
      simp [exSys]
    · split
      · simp [Fits, exCall, recorded, p1]
        simp [exSys]
      · trivial
  have hw : ∀ q, q ∉ [0x100000001#64, 0x200000002#64] → (start exF q).stack = [] := by
    intro q _
    rfl
  have hd : Distinct (exSys false 104) (start exF) exSched :=
    distinct_of _ [0x100000001, 0x200000002] _ _ hw (by simp [exSched]) (by decide +kernel)
  have hu : ∀ x ∈ hits (start exF) exSched, (exSys false 104).mypid ≠ (x.1 >>> 32).setWidth 32 := by decide +kernel
  have hp : ((hits (start exF) exSched).filterMap fun x => printed (exSys false 104) 0 x.2) =
      [[.func 1200000 none, .insn 204002 2, .func 2200001 (some 4)],
        [.func 1100000 none, .insn 104000 5, .func 2100001 (some 10)],
        [.func 1100000 none, .insn 104000 1, .insn 104000 45, .func 2100001 (some 55)],
        [.func 1100000 none, .insn 104001 10, .insn 104003 30, .func 2100001 (some 100)]] := by decide +kernel
  refine ⟨hf, hd, fun p h hx => hu (p, h) hx, ?_⟩
  rw [insns_shown_partial (exSys false 104) 0 exF exSched exPlaced rfl hf hd (fun p h hx => hu (p, h) hx), hp]

/-! ### What goes wrong otherwise -/

/-- **C84 violated.** On kernels with `fsession` no instruction is ever shown: the sessions are kept in the cookies of the calls, where the probes of
instructions do not look. -/
theorem fsession_no_records (S : Sys) (hs : S.session = true) (hh : List (BitVec 64 × Hit)) : ∀ (st : Att.SSt), st.1 = KSess.empty →
    ∀ r ∈ records S st hh, ∃ e, r = .func e := by
  induction hh with
  | nil => intro st _ r hr; cases hr
  | cons x hs' ih =>
    intro st h0 r hr
    obtain ⟨p, h⟩ := x
    simp only [records, List.mem_append] at hr
    have key : (kstep S st p h).1.1 = KSess.empty ∧ ∀ r ∈ (kstep S st p h).2, ∃ e, r = .func e := by
      obtain ⟨ev, ar⟩ := h
      cases ev with
      | insn i =>
        refine ⟨h0, ?_⟩
        intro r hr
        simp only [kstep, List.mem_filterMap] at hr
        obtain ⟨y, _, hy⟩ := hr
        split at hy
        · have : KSess.getSession st.1 ⟨p, BitVec.ofNat 64 y.2.func⟩ = 0 := by rw [h0]; rfl
          simp [insnProg, this] at hy
        · cases hy
      | enter c =>
        simp only [kstep, hs, Att.sstep]
        split
        · exact ⟨h0, by simp⟩
        · cases c.pass
          · exact ⟨h0, by simp⟩
          · refine ⟨h0, ?_⟩
            intro r hr
            simp only [Bool.not_true, Bool.false_eq_true, if_false, if_true, List.mem_singleton] at hr
            exact ⟨_, hr⟩
      | exit c inner =>
        simp only [kstep, hs, Att.sstep, if_true]
        split
        · exact ⟨h0, by simp⟩
        · refine ⟨h0, ?_⟩
          split
          · intro r hr
            simp only [List.mem_singleton] at hr
            exact ⟨_, hr⟩
          · simp
    rcases hr with hr | hr
    · exact key.2 r hr
    · exact ih _ key.1 r hr

/-- **C84 violated.** The same run on a kernel with `fsession`: the instructions are missing. -/
theorem fsession_violated :
    Run.run 0 0 (records (exSys true 104) Cg.noSessions (hits (start exF) exSched)) = some
      ([[.func 1200000 none, .func 2200001 (some 4)], [.func 1100000 none, .func 2100001 (some 10)],
        [.func 1100000 none, .func 2100001 (some 55)], [.func 1100000 none, .func 2100001 (some 100)]], .closed) ∧
    ((hits (start exF) exSched).filterMap fun x => printed (exSys true 104) 0 x.2) ≠
      [[.func 1200000 none, .func 2200001 (some 4)], [.func 1100000 none, .func 2100001 (some 10)],
        [.func 1100000 none, .func 2100001 (some 55)], [.func 1100000 none, .func 2100001 (some 100)]] := by decide +kernel

/-- A recorded call that makes a call of the same function that is not recorded. -/
def rejF (p : BitVec 64) : Body :=
  if p = 0x100000001 then
    .call (exCall 100 true 11 100 200) (.call (exCall 100 false 12 110 120) (.insn ⟨104, 115, 0⟩ .nil) (.insn ⟨104, 150, 0⟩ .nil)) .nil
  else .nil

/-- **C84 violated.** The instruction of the inner call, which the filters reject, is shown as one of the outer call, which ends with the inner one:
its own instruction is missing, and it is said to have returned when the inner one did. -/
theorem rejected_recursion_violated :
    Run.run 0 0 (records (exSys false 104) Cg.noSessions (hits (start rejF) (List.replicate 6 0x100000001))) = some
      ([[.func 1100000 none, .insn 104000 15, .func 2100001 (some 20)]], .closed) ∧
    ((hits (start rejF) (List.replicate 6 0x100000001)).filterMap fun x => printed (exSys false 104) 0 x.2) =
      [[.func 1100000 none, .insn 104000 50, .func 2100001 (some 100)]] := by decide +kernel

/-- The function at 100 calls another one of the same name at 400. -/
def missF (p : BitVec 64) : Body :=
  if p = 0x100000001 then
    .call (exCall 100 true 11 100 200) (.insn ⟨104, 110, 0⟩ (.call (exCall 400 true 0 120 130) (.insn ⟨404, 125, 0⟩ .nil) .nil)) .nil
  else .nil

/-- **C84 violated.** Probes are placed by name and offset. If the kernel finds another function of that name, the instruction shown as executed after 25 ns (104)
is one of the other function (404); the one that was executed (after 10 ns) is missing. -/
theorem misplaced_violated :
    Run.run 0 0 (records (exSys false 404) Cg.noSessions (hits (start missF) (List.replicate 6 0x100000001))) = some
      ([[.func 1100000 none, .insn 104000 25, .func 2100001 (some 100)]], .closed) ∧
    ((hits (start missF) (List.replicate 6 0x100000001)).filterMap fun x => printed (exSys false 404) 0 x.2) =
      [[.func 1100000 none, .insn 104000 10, .func 2100001 (some 100)]] := by decide +kernel

/-- **C84.** All or nothing: if there is a table, the code of every function with `(i)` was read and decoded, and all its instructions to trace are in the
table, or the ones another function has at the same addresses; a function that cannot be decoded is not passed over. -/
theorem table_whole (D : Dis.Decoder) (m : KRead.Mem) (t : Kallsyms.Tables) (limit : Nat) (fs : List (Nat × Bool)) : ∀ (buff : List Byte) (tab r : Table),
    buff.length = KRead.buffSize → newFuncInsns D m t limit fs buff tab = .ok r →
    (∀ x ∈ tab, x.1 ∈ r.map (·.1)) ∧
    ∀ a, (a, true) ∈ fs → ∃ b l, b.length = KRead.buffSize ∧ Dis.parseFuncInsns D m t b limit a = .ok l ∧ ∀ i ∈ l, i.ip ∈ r.map (·.1) := by
  have keep : ∀ (l : List Dis.FInsn) (tab : Table), (∀ x ∈ tab, x.1 ∈ (l.foldl (fun tab i => Kallsyms.put tab i.ip i) tab).map (·.1)) ∧
      ∀ i ∈ l, i.ip ∈ (l.foldl (fun tab i => Kallsyms.put tab i.ip i) tab).map (·.1) := by
    intro l
    induction l with
    | nil => intro tab; exact ⟨fun x hx => List.mem_map_of_mem (f := (·.1)) hx, by simp⟩
    | cons j l ih =>
      intro tab
      obtain ⟨h1, h2⟩ := ih (Kallsyms.put tab j.ip j)
      have hj := h1 (j.ip, j) (mem_put.2 (.inl rfl))
      refine ⟨fun x hx => ?_, fun i hi => ?_⟩
      · by_cases e : x.1 = j.ip
        · rw [e]; exact hj
        · exact h1 x (mem_put.2 (.inr ⟨hx, e⟩))
      · rcases List.mem_cons.1 hi with rfl | hi
        · exact hj
        · exact h2 i hi
  induction fs with
  | nil =>
    intro buff tab r _ h
    simp only [newFuncInsns, NOut.ok.injEq] at h
    subst h
    exact ⟨fun x hx => List.mem_map_of_mem (f := (·.1)) hx, by simp⟩
  | cons f fs ih =>
    intro buff tab r hb h
    obtain ⟨a, on⟩ := f
    cases on with
    | false =>
      simp only [newFuncInsns] at h
      obtain ⟨h1, h2⟩ := ih buff tab r hb h
      exact ⟨h1, fun a' ha => h2 a' (by simpa using ha)⟩
    | true =>
      simp only [newFuncInsns] at h
      cases hp : Dis.parseFuncInsns D m t buff limit a with
      | panic => rw [hp] at h; cases h
      | error => rw [hp] at h; cases h
      | ok l =>
        rw [hp] at h
        obtain ⟨h1, h2⟩ := ih _ _ r (bufAfter_length m t buff hb a) h
        obtain ⟨k1, k2⟩ := keep l tab
        have lift : ∀ y, y ∈ (l.foldl (fun tab i => Kallsyms.put tab i.ip i) tab).map (·.1) → y ∈ r.map (·.1) := by
          intro y hy
          obtain ⟨z, hz, rfl⟩ := List.mem_map.1 hy
          exact h1 z hz
        refine ⟨fun x hx => lift _ (k1 x hx), fun a' ha => ?_⟩
        rcases List.mem_cons.1 ha with e | ha
        · cases e
          exact ⟨buff, l, hb, hp, fun i hi => lift _ (k2 i hi)⟩
        · exact h2 a' ha

/-- **C84.** The record of an instruction is recognised by its type, which is neither that of an event of a function (1, 2) nor of a graph (4, 5). -/
theorem insn_type {ip fip : Addr} {ready : Bool} {m : KSess.Map} {p : BitVec 64} {i : Insn} {pad b : List Byte}
    (h : insnProg ip fip ready m p i pad = some b) : (readIEvt b).typ = 3 ∧ (readIEvt b).typ ≠ Cg.typEntry ∧ (readIEvt b).typ ≠ Cg.typExit := by
  unfold insnProg at h
  split at h
  · cases h
  · dsimp only at h
    split at h
    · cases h
    · simp only [Option.some.injEq] at h
      rw [← h, ievt_read_back]
      exact ⟨rfl, show typInsn ≠ Cg.typEntry by decide, show typInsn ≠ Cg.typExit by decide⟩

end Bpfsnoop.Ir
