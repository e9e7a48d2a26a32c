import Verif.Model.Start
import Verif.Props.Opts
import Verif.Props.Flags
import Verif.Props.KfuncSel

/-! **C68.** Feature gates, the window in which events are recorded, and the end of a run. -/
namespace Bpfsnoop.Sta
open Flg Opt

/-! ### Specification: the state of the system after part of a run -/

/-- What is in place: the flag that the BPF programs read before they record anything (`ready`), the targets whose probe
is attached, what is open, the steps made, whether events have been read. -/
structure World where
  ready : Bool := false
  links : List Nat := []
  held : List Res := []
  did : List Step := []
  shown : List String := []
  ran : Bool := false

/-- The effect of an observation. -/
def World.next (w : World) : Ev → World
  | .did s => { w with did := s :: w.did }
  | .attached i => { w with links := i :: w.links }
  | .detached i => { w with links := w.links.filter (· ≠ i) }
  | .opened r => { w with held := r :: w.held }
  | .closed r => { w with held := w.held.filter (· ≠ r) }
  | .ready b => { w with ready := b }
  | .showed s => { w with shown := s :: w.shown }
  | .ran => { w with ran := true }

/-- The state after a part of a run. -/
def after (w : World) (t : List Ev) : World := t.foldl World.next w

/-- A call of target `i` is recorded: its probe is in place and `ready` is set (bpfsnoop.c 71-72, bpfsnoop_fgraph.c
150-151, bpfsnoop_insn.c 40-41, bpfsnoop_kmulti.c 96-97). -/
def World.records (w : World) (i : Nat) : Prop := w.ready = true ∧ i ∈ w.links

/-! ### Proof rules -/

/-- `P` holds now and after every part of `t`. -/
def Always (P : World → Prop) : World → List Ev → Prop
  | w, [] => P w
  | w, x :: t => P w ∧ Always P (w.next x) t

theorem always_prefix {P : World → Prop} : ∀ {t : List Ev} {w : World}, Always P w t → ∀ p, p <+: t → P (after w p)
  | [], w, h, p, hp => by
    obtain rfl : p = [] := List.prefix_nil.1 hp
    exact h
  | x :: t, w, h, p, hp => by
    cases p with
    | nil => exact h.1
    | cons y p =>
      obtain ⟨rfl, hp'⟩ := List.cons_prefix_cons.1 hp
      exact always_prefix h.2 p hp'

theorem always_append {P : World → Prop} : ∀ {s t : List Ev} {w : World}, Always P w (s ++ t) ↔ Always P w s ∧ Always P (after w s) t
  | [], t, w => by
    constructor
    · intro h; exact ⟨by cases t <;> first | exact h | exact h.1, h⟩
    · exact fun h => h.2
  | x :: s, t, w => by
    simp only [List.cons_append, Always, always_append (s := s), after, List.foldl_cons, and_assoc]

theorem Always.here {P : World → Prop} {w : World} {t : List Ev} (h : Always P w t) : P w := by
  cases t <;> first | exact h | exact h.1

theorem after_append (w : World) (s t : List Ev) : after w (s ++ t) = after (after w s) t := by
  simp [after]

/-- Running `cs` from `w` keeps `P` and ends in `Q`. -/
def WP (P : World → Prop) (Q : Outcome → World → Prop) (c : Cmdline) (e : Env) (r : Opt.Res) (cs : List Cmd) (d : List Res)
    (w : World) : Prop :=
  Always P w (exec c e r cs d).1 ∧ Q (exec c e r cs d).2 (after w (exec c e r cs d).1)

variable {P : World → Prop} {Q : Outcome → World → Prop} {c : Cmdline} {e : Env} {r : Opt.Res} {cs : List Cmd} {d : List Res}
  {w : World}

theorem wp_step {s : Step} (hw : P w)
    (hf : failed c e r s = true → Always P w (failEffect e s) ∧ Q .fatal (after w (failEffect e s)))
    (ho : failed c e r s = false → Always P (w.next (.did s)) (effect e s) ∧
      WP P Q c e r cs d (after (w.next (.did s)) (effect e s))) : WP P Q c e r (.step s :: cs) d w := by
  unfold WP
  simp only [exec]
  cases hs : failed c e r s with
  | true => simpa using hf hs
  | false =>
    obtain ⟨h1, h2, h3⟩ := ho hs
    simp only [Bool.false_eq_true, if_false]
    refine ⟨⟨hw, ?_⟩, ?_⟩
    · exact always_append.2 ⟨h1, h2⟩
    · have : after w (.did s :: (effect e s ++ (exec c e r cs d).1)) =
          after (after (w.next (.did s)) (effect e s)) (exec c e r cs d).1 := by
        rw [← after_append]; rfl
      rw [this]; exact h3

/-- A step that does nothing observable. -/
theorem wp_quiet {s : Step} (hw : P w) (he : effect e s = []) (hfe : failEffect e s = []) (hq : Q .fatal w)
    (ho : failed c e r s = false → WP P Q c e r cs d (w.next (.did s))) : WP P Q c e r (.step s :: cs) d w :=
  wp_step hw (fun _ => by rw [hfe]; exact ⟨hw, hq⟩) (fun h => by rw [he]; exact ⟨(ho h).1.here, ho h⟩)

/-- A step that opens something. -/
theorem wp_open {s : Step} {q : Res} (hw : P w) (he : effect e s = [.opened q]) (hfe : failEffect e s = []) (hq : Q .fatal w)
    (hm : P (w.next (.did s))) (ho : failed c e r s = false → WP P Q c e r cs d ((w.next (.did s)).next (.opened q))) :
    WP P Q c e r (.step s :: cs) d w :=
  wp_step hw (fun _ => by rw [hfe]; exact ⟨hw, hq⟩) (fun h => by rw [he]; exact ⟨⟨hm, (ho h).1.here⟩, ho h⟩)

theorem wp_later {q : Res} (h : WP P Q c e r cs (q :: d) w) : WP P Q c e r (.later q :: cs) d w := h

theorem wp_early (hr : Always P w (ret e d) ∧ Q .success (after w (ret e d))) (h : WP P Q c e r cs d w) :
    WP P Q c e r (.early :: cs) d w := by
  unfold WP
  simp only [exec]
  cases e.cancelled with
  | true => simpa using hr
  | false =>
    simp only [Bool.false_eq_true, if_false]
    exact h

theorem wp_show {what : String} (hw : P w)
    (hr : Always P (w.next (.showed what)) (ret e d) ∧ Q .success (after (w.next (.showed what)) (ret e d))) :
    WP P Q c e r (.show what :: cs) d w := ⟨⟨hw, hr.1⟩, hr.2⟩

theorem wp_run (hw : P w) (hf : e.finish = .error → P (w.next .ran) ∧ Q .fatal (w.next .ran))
    (h : e.finish ≠ .error → WP P Q c e r cs d (w.next .ran)) : WP P Q c e r (.run :: cs) d w := by
  unfold WP
  simp only [exec]
  by_cases hs : e.finish = .error
  · simpa [hs, Always, after] using ⟨⟨hw, (hf hs).1⟩, (hf hs).2⟩
  · have := h hs
    simp only [hs, if_false]
    exact ⟨⟨hw, this.1⟩, this.2⟩

theorem wp_nil (hr : Always P w (ret e d) ∧ Q .success (after w (ret e d))) : WP P Q c e r [] d w := hr

/-! ### Attaching and detaching -/

theorem after_attached (l : List Nat) : ∀ (w : World), after w (l.map .attached) = { w with links := l.reverse ++ w.links } := by
  induction l with
  | nil => intro w; rfl
  | cons a l ih =>
    intro w
    show after (w.next (.attached a)) (l.map .attached) = _
    rw [ih]
    simp [World.next]

theorem after_detached (l : List Nat) : ∀ (w : World), after w (l.map .detached) = { w with links := w.links.filter (· ∉ l) } := by
  induction l with
  | nil =>
    intro w
    have : w.links.filter (fun x => decide (x ∉ ([] : List Nat))) = w.links := List.filter_eq_self.2 (by simp)
    simp only [List.map_nil, after, List.foldl_nil, this]
  | cons a l ih =>
    intro w
    show after (w.next (.detached a)) (l.map .detached) = _
    rw [ih]
    simp only [World.next, List.filter_filter]
    congr 1
    apply List.filter_congr
    intro x _
    simp [Bool.and_comm]

theorem always_map {P : World → Prop} {f : Nat → Ev} (hP : ∀ w i, P w → P (w.next (f i))) : ∀ (l : List Nat) (w : World), P w →
    Always P w (l.map f)
  | [], _, h => h
  | a :: l, w, h => ⟨h, always_map hP l _ (hP w a h)⟩

theorem Always.mono {P P' : World → Prop} (hPP : ∀ w, P w → P' w) : ∀ {t : List Ev} {w : World}, Always P w t → Always P' w t
  | [], _, h => hPP _ h
  | _ :: _, _, h => ⟨hPP _ h.1, h.2.mono hPP⟩

/-! ### The invariant of a run -/

/-- What holds at every moment. -/
def Inv (e : Env) (r : Opt.Res) (w : World) : Prop :=
  (w.ready = true → (∀ i, (i, Fate.attach) ∈ e.up → i ∈ w.links) ∧ (∃ i, (i, Fate.attach) ∈ e.up) ∧
    (∀ x ∈ e.up, x.2 ≠ .fail) ∧ Res.reader ∈ w.held) ∧
  (w.links ≠ [] → (detect r.lbr r.stack e.kern).isSome ∧ Res.maps ∈ w.held ∧ (r.lbr = true → Res.lbr ∈ w.held))

/-- What holds at the end. -/
def Fin (e : Env) (o : Outcome) (w : World) : Prop :=
  (o = .success → w.ready = false ∧ w.links = [] ∧ w.held = []) ∧
  (o = .fatal → (w.ready = true ∨ w.ran = true → w.ran = true ∧ e.finish = .error))

theorem fin_fatal {w : World} (h : w.ready = false) (hr : w.ran = false) : Fin e .fatal w := by
  constructor
  · intro h'; cases h'
  · intro _ h'
    rcases h' with h' | h'
    · rw [h] at h'; cases h'
    · rw [hr] at h'; cases h'

theorem inv_quiet {w : World} (h : w.ready = false) (hl : w.links = []) : Inv e r w :=
  ⟨fun h' => by (rw [h] at h'; cases h'), fun h' => absurd hl h'⟩

/-- Attaching and detaching while `ready` is not set. -/
def Calm (e : Env) (r : Opt.Res) (w : World) : Prop :=
  w.ready = false ∧ (detect r.lbr r.stack e.kern).isSome ∧ Res.maps ∈ w.held ∧ (r.lbr = true → Res.lbr ∈ w.held)

theorem Calm.inv {w : World} (h : Calm e r w) : Inv e r w := ⟨fun h' => by (rw [h.1] at h'; cases h'), fun _ => h.2⟩

theorem calm_attached (l : List Nat) (w : World) (h : Calm e r w) : Always (Inv e r) w (l.map .attached) :=
  (always_map (P := Calm e r) (f := .attached) (fun _ _ h => h) l w h).mono fun _ h => h.inv

theorem calm_detached (l : List Nat) (w : World) (h : Calm e r w) : Always (Inv e r) w (l.map .detached) :=
  (always_map (P := Calm e r) (f := .detached) (fun _ _ h => h) l w h).mono fun _ h => h.inv

theorem mem_attachedBy (up : List (Nat × Fate)) (i : Nat) : i ∈ attachedBy up ↔ (i, Fate.attach) ∈ up := by
  simp only [attachedBy, List.mem_map, List.mem_filter, beq_iff_eq]
  constructor
  · rintro ⟨⟨j, f⟩, ⟨h, hf⟩, hj⟩
    simp only at hf hj
    rw [← hf, ← hj]; exact h
  · intro h
    exact ⟨(i, .attach), ⟨h, rfl⟩, rfl⟩

theorem detach_all (l : List Nat) (hd : (e.down l).Perm l) : (l.reverse.filter (· ∉ e.down l)) = [] := by
  rw [List.filter_eq_nil_iff]
  intro x hx
  have : x ∈ e.down l := hd.mem_iff.2 (List.mem_reverse.1 hx)
  simpa using this

/-- The deferred calls made while no target is attached. -/
theorem ret_quiet (e : Env) (r : Opt.Res) : ∀ (d : List Res) (w : World), (∀ q ∈ d, q ≠ .links ∧ q ≠ .ready) → w.ready = false →
    w.links = [] → Always (Inv e r) w (ret e d) ∧ (after w (ret e d)).ready = false ∧ (after w (ret e d)).links = [] ∧
      (after w (ret e d)).held = w.held.filter (· ∉ d)
  | [], w, _, h, hl => ⟨inv_quiet h hl, h, hl, by
      show w.held = _
      exact (List.filter_eq_self.2 (by simp)).symm⟩
  | q :: d, w, hq, h, hl => by
    have hqq := hq q (by simp)
    have hu : ret e (q :: d) = .closed q :: ret e d := by
      cases q <;> first | rfl | exact absurd rfl hqq.1 | exact absurd rfl hqq.2
    rw [hu]
    obtain ⟨h1, h2, h3, h4⟩ := ret_quiet e r d (w.next (.closed q)) (fun x hx => hq x (by simp [hx])) h hl
    refine ⟨⟨inv_quiet h hl, h1⟩, h2, h3, ?_⟩
    show (after (w.next (.closed q)) (ret e d)).held = _
    rw [h4]
    simp only [World.next, List.filter_filter]
    apply List.filter_congr
    intro x _
    simp [Bool.and_comm]

/-- The deferred calls when targets are attached and `ready` is not set. -/
theorem ret_links (e : Env) (r : Opt.Res) (hd : ∀ l, (e.down l).Perm l) (d : List Res) (w : World)
    (hq : ∀ q ∈ d, q ≠ .links ∧ q ≠ .ready) (hc : Calm e r w) (hl : w.links = (attachedBy e.up).reverse) :
    Always (Inv e r) w (ret e (.links :: d)) ∧ (after w (ret e (.links :: d))).ready = false ∧
      (after w (ret e (.links :: d))).links = [] ∧
      (after w (ret e (.links :: d))).held = w.held.filter (· ∉ Res.links :: d) := by
  have hu : ret e (.links :: d) = (e.down (attachedBy e.up)).map .detached ++ (.closed .links :: ret e d) := by
    simp [ret, undo]
  rw [hu]
  have hw : after w ((e.down (attachedBy e.up)).map .detached) = { w with links := [] } := by
    rw [after_detached, hl, detach_all _ (hd _)]
  obtain ⟨h1, h2, h3, h4⟩ := ret_quiet e r d (({ w with links := [] } : World).next (.closed .links)) hq hc.1 rfl
  rw [always_append, after_append, hw]
  refine ⟨⟨calm_detached _ _ hc, inv_quiet hc.1 rfl, h1⟩, h2, h3, ?_⟩
  refine h4.trans ?_
  simp only [World.next, List.filter_filter]
  apply List.filter_congr
  intro x _
  simp [Bool.and_comm]

/-- The deferred calls made before the links are closed. -/
theorem ret_pre (e : Env) (r : Opt.Res) : ∀ (pre : List Res) (w : World), (∀ q ∈ pre, q = .file ∨ q = .reader) → Calm e r w →
    Always (Inv e r) w (ret e pre) ∧ Calm e r (after w (ret e pre)) ∧ (after w (ret e pre)).links = w.links ∧
      (after w (ret e pre)).held = w.held.filter (· ∉ pre)
  | [], w, _, hc => ⟨hc.inv, hc, rfl, (List.filter_eq_self.2 (by simp)).symm⟩
  | q :: pre, w, hq, hc => by
    have hqq := hq q (by simp)
    have hu : ret e (q :: pre) = .closed q :: ret e pre := by
      rcases hqq with rfl | rfl <;> rfl
    have hc' : Calm e r (w.next (.closed q)) := by
      refine ⟨hc.1, hc.2.1, ?_, fun h => ?_⟩
      · rcases hqq with rfl | rfl <;> simpa [World.next] using hc.2.2.1
      · rcases hqq with rfl | rfl <;> simpa [World.next] using hc.2.2.2 h
    rw [hu]
    obtain ⟨h1, h2, h3, h4⟩ := ret_pre e r pre (w.next (.closed q)) (fun x hx => hq x (by simp [hx])) hc'
    refine ⟨⟨hc.inv, h1⟩, h2, h3, ?_⟩
    refine h4.trans ?_
    simp only [World.next, List.filter_filter]
    apply List.filter_congr
    intro x _
    simp [Bool.and_comm]

theorem ret_append (e : Env) (a b : List Res) : ret e (a ++ b) = ret e a ++ ret e b := by simp [ret]

/-- Steps that do nothing observable, before anything is attached. -/
theorem wp_quiets (cs : List Cmd) (d : List Res) : ∀ (ss : List Step) (w : World), (∀ s ∈ ss, effect e s = [] ∧ failEffect e s = []) →
    w.ready = false → w.links = [] → w.ran = false →
    (∀ (w' : World), w'.ready = false → w'.links = [] → w'.ran = false → w'.held = w.held →
      (∀ s ∈ ss, failed c e r s = false) → WP (Inv e r) (Fin e) c e r cs d w') →
    WP (Inv e r) (Fin e) c e r (ss.map .step ++ cs) d w
  | [], w, _, h1, h2, h3, h => h w h1 h2 h3 rfl (by simp)
  | s :: ss, w, hq, h1, h2, h3, h => by
    have hs := hq s (by simp)
    refine wp_quiet (inv_quiet h1 h2) hs.1 hs.2 (fin_fatal h1 h3) fun hf => ?_
    refine wp_quiets cs d ss (w.next (.did s)) (fun x hx => hq x (by simp [hx])) h1 h2 h3 ?_
    intro w' a1 a2 a3 a4 a5
    refine h w' a1 a2 a3 a4 ?_
    intro x hx
    simp only [List.mem_cons] at hx
    rcases hx with rfl | hx
    · exact hf
    · exact a5 x hx

/-- A step that opens something which is closed at the end, before anything is attached. -/
theorem wp_hold {s : Step} {q : Res} (cs : List Cmd) (d : List Res) (w : World) (he : effect e s = [.opened q])
    (hfe : failEffect e s = []) (h1 : w.ready = false) (h2 : w.links = []) (h3 : w.ran = false)
    (h : ∀ (w' : World), w'.ready = false → w'.links = [] → w'.ran = false → w'.held = q :: w.held →
      WP (Inv e r) (Fin e) c e r cs (q :: d) w') :
    WP (Inv e r) (Fin e) c e r (.step s :: .later q :: cs) d w :=
  wp_open (inv_quiet h1 h2) he hfe (fin_fatal h1 h3) (inv_quiet h1 h2) fun _ => wp_later (h _ h1 h2 h3 rfl)

set_option maxHeartbeats 3200000 in
/-- The tail of `main` once the targets are attached. -/
theorem tail_wp (c : Cmdline) (e : Env) (r : Opt.Res) (hd : ∀ l, (e.down l).Perm l) (d : List Res) (w : World)
    (hq : ∀ q ∈ d, q ≠ .links ∧ q ≠ .ready) (hc : Calm e r w) (hl : w.links = (attachedBy e.up).reverse) (hran : w.ran = false)
    (hheld : ∀ q ∈ w.held, q ∈ Res.links :: d)
    (hnf : ∀ x ∈ e.up, x.2 ≠ .fail) :
    WP (Inv e r) (Fin e) c e r ([.step .haveTracing, .step .addProgs, .step .kallsymsAgain, .step .reader, .later .reader] ++
      (if c.outputFile then [.step .outFile, .later .file] else []) ++ [.step .ready, .later .ready, .run]) (.links :: d) w := by
  obtain ⟨hc1, hc2, hc3, hc4⟩ := hc
  have calm : ∀ (w' : World), w'.ready = false → (∀ q ∈ w.held, q ∈ w'.held) → Inv e r w' :=
    fun w' h1 h2 => Calm.inv ⟨h1, hc2, h2 _ hc3, fun h => h2 _ (hc4 h)⟩
  simp only [List.cons_append, List.nil_append]
  refine wp_quiet (calm _ hc1 (fun _ h => h)) rfl rfl (fin_fatal hc1 hran) fun hht => ?_
  refine wp_quiet (calm _ hc1 (fun _ h => h)) rfl rfl (fin_fatal hc1 hran) fun _ => ?_
  refine wp_quiet (calm _ hc1 (fun _ h => h)) rfl rfl (fin_fatal hc1 hran) fun _ => ?_
  refine wp_open (calm _ hc1 (fun _ h => h)) rfl rfl (fin_fatal hc1 hran) (calm _ hc1 (fun _ h => h)) fun _ => ?_
  refine wp_later ?_
  have hne : attachedBy e.up ≠ [] := by
    simp only [failed] at hht
    intro h0
    rw [h0] at hht; cases hht
  -- from `ready` on
  have fin : ∀ (d' : List Res) (w' : World), w'.ready = false → w'.ran = false → w'.links = (attachedBy e.up).reverse →
      (∀ q ∈ w.held, q ∈ w'.held) → Res.reader ∈ w'.held → (∀ q ∈ w'.held, q ∈ d' ++ Res.links :: d) →
      (∀ q ∈ d', q = .file ∨ q = .reader) →
      WP (Inv e r) (Fin e) c e r [.step .ready, .later .ready, .run] (d' ++ .links :: d) w' := by
    intro d' w' h1 h2 h3 h4 h5 h6 h7
    have hready : ∀ (w'' : World), w''.links = w'.links → w''.held = w'.held → Inv e r w'' := by
      intro w'' hl' hh'
      refine ⟨fun _ => ⟨fun i hi => ?_, ?_, hnf, hh' ▸ h5⟩, fun _ => ⟨hc2, hh' ▸ h4 _ hc3, fun h => hh' ▸ h4 _ (hc4 h)⟩⟩
      · rw [hl', h3]; simpa using (mem_attachedBy e.up i).2 hi
      · cases h0 : attachedBy e.up with
        | nil => exact absurd h0 hne
        | cons i _ => exact ⟨i, (mem_attachedBy e.up i).1 (by rw [h0]; simp)⟩
    refine wp_step (calm _ h1 h4) (fun _ => ⟨calm _ h1 h4, fin_fatal h1 h2⟩) fun _ => ⟨⟨calm _ h1 h4, hready _ rfl rfl⟩, ?_⟩
    refine wp_later ?_
    refine wp_run (hready _ rfl rfl) (fun hf => ⟨hready _ rfl rfl, ⟨nofun, fun _ _ => ⟨rfl, hf⟩⟩⟩) fun _ => wp_nil ?_
    -- the deferred calls: first those of `d'`, then the links
    have hcalm : Calm e r ({ (((w'.next (.did .ready)).next (.ready true)).next .ran) with ready := false } : World) :=
      ⟨rfl, hc2, h4 _ hc3, fun h => h4 _ (hc4 h)⟩
    obtain ⟨p1, p2, p3, p4⟩ := ret_pre e r d' _ h7 hcalm
    obtain ⟨l1, l2, l3, l4⟩ := ret_links e r hd d _ hq p2 (p3.trans h3)
    have hu : ret e (.ready :: (d' ++ .links :: d)) = .ready false :: (ret e d' ++ ret e (.links :: d)) := by
      rw [← ret_append]; rfl
    rw [hu]
    refine ⟨⟨hready _ rfl rfl, always_append.2 ⟨p1, l1⟩⟩, fun _ => ?_, nofun⟩
    have he : ∀ (w : World), after w (.ready false :: (ret e d' ++ ret e (.links :: d))) =
        after (after (w.next (.ready false)) (ret e d')) (ret e (.links :: d)) := by
      intro w; rw [← after_append]; rfl
    rw [he]
    refine ⟨l2, l3, l4.trans ?_⟩
    rw [p4, List.filter_eq_nil_iff]
    intro x hx hx'
    simp only [List.mem_filter, decide_eq_true_eq] at hx hx'
    have := h6 x hx.1
    simp only [List.mem_append] at this
    rcases this with h | h
    · exact hx.2 h
    · exact hx' h
  cases c.outputFile with
  | false =>
    refine fin [.reader] _ hc1 hran hl (fun q h => by simp [World.next, h]) (by simp [World.next]) (fun q h => ?_) (by simp)
    simp only [World.next, List.mem_cons] at h
    rcases h with h | h
    · simp [h]
    · exact List.mem_append_right _ (hheld q h)
  | true =>
    simp only [if_true, List.cons_append, List.nil_append]
    refine wp_open (calm _ hc1 (fun q h => by simp [World.next, h])) rfl rfl (fin_fatal hc1 hran)
      (calm _ hc1 (fun q h => by simp [World.next, h])) fun _ => ?_
    refine wp_later ?_
    refine fin [.file, .reader] _ hc1 hran hl (fun q h => by simp [World.next, h]) (by simp [World.next]) (fun q h => ?_) (by simp)
    simp only [World.next, List.mem_cons] at h
    rcases h with h | h | h
    · simp [h]
    · simp [h]
    · exact List.mem_append_right _ (hheld q h)

set_option maxHeartbeats 3200000 in
theorem exec_wp (c : Cmdline) (e : Env) (r : Opt.Res) (hd : ∀ l, (e.down l).Perm l) :
    WP (Inv e r) (Fin e) c e r (prog c e r) [] {} := by
  unfold prog
  refine wp_quiets _ [] [.flags, .memlock, .kernelBtf, .detect] {} (by simp [effect, failEffect]) rfl rfl rfl ?_
  intro w0 e1 e2 e3 e4 e5
  have e4 : w0.held = [] := e4
  have hgate : (detect r.lbr r.stack e.kern).isSome := by
    have hdet := e5 .detect (by simp)
    simp only [failed] at hdet
    cases hh : detect r.lbr r.stack e.kern with
    | none => rw [hh] at hdet; cases hdet
    | some _ => rfl
  have hshow : ∀ what cs, WP (Inv e r) (Fin e) c e r (.show what :: cs) [] w0 := fun what cs =>
    wp_show (inv_quiet e1 e2) ⟨inv_quiet e1 e2, fun _ => ⟨e1, e2, e4⟩, nofun⟩
  by_cases h1 : c.disasm = true
  · rw [if_pos h1]
    exact hshow _ _
  rw [if_neg h1]
  by_cases h2 : c.showFuncProto = true
  · rw [if_pos h2]
    exact hshow _ _
  rw [if_neg h2]
  by_cases h3 : c.showFgraphProto = true
  · rw [if_pos h3]
    exact hshow _ _
  rw [if_neg h3]
  -- from the maps on
  have tail : ∀ (d : List Res) (w : World), (∀ q ∈ d, q ≠ .links ∧ q ≠ .ready) → w.ready = false → w.links = [] → w.ran = false →
      (∀ q, q ∈ w.held → q ∈ d) → (r.lbr = true → .lbr ∈ w.held) →
      WP (Inv e r) (Fin e) c e r ([.step .targets, .step .maps, .later .maps, .step .attach, .later .links] ++
        ([.step .haveTracing, .step .addProgs, .step .kallsymsAgain, .step .reader, .later .reader] ++
      (if c.outputFile then [.step .outFile, .later .file] else []) ++ [.step .ready, .later .ready, .run])) d w := by
    intro d w hq h1 h2 h3 h4 h5
    simp only [List.cons_append, List.nil_append]
    refine wp_quiet (inv_quiet h1 h2) rfl rfl (fin_fatal h1 h3) fun _ => ?_
    refine wp_open (inv_quiet h1 h2) rfl rfl (fin_fatal h1 h3) (inv_quiet h1 h2) fun _ => ?_
    refine wp_later ?_
    have hcalm : ∀ (w' : World), w'.ready = false → (∀ q ∈ Res.maps :: w.held, q ∈ w'.held) → Calm e r w' :=
      fun w' a b => ⟨a, hgate, b _ (by simp), fun h => b _ (by simp [h5 h])⟩
    refine wp_step (inv_quiet h1 h2) (fun hf => ?_) fun hf => ⟨⟨inv_quiet h1 h2, ?_⟩, ?_⟩
    · refine ⟨always_append.2 ⟨calm_attached _ _ (hcalm _ h1 (by simp [World.next])), ?_⟩, ?_⟩
      · rw [after_attached]
        exact calm_detached _ _ (hcalm _ h1 (by simp [World.next]))
      · apply fin_fatal
        · show (after _ (_ ++ _)).ready = false
          rw [after_append, after_attached, after_detached]; exact h1
        · show (after _ (_ ++ _)).ran = false
          rw [after_append, after_attached, after_detached]; exact h3
    · exact calm_attached _ _ (hcalm _ h1 (by simp +contextual [World.next]))
    · refine wp_later ?_
      show WP _ _ _ _ _ _ _ (after (World.next _ (.opened .links)) _)
      rw [after_attached]
      have hnf : ∀ x ∈ e.up, x.2 ≠ .fail := by
        intro x hx hx'
        simp only [failed, List.any_eq_false, beq_iff_eq] at hf
        exact hf x hx hx'
      refine tail_wp c e r hd _ _ ?_ (hcalm _ h1 (by simp +contextual [World.next])) (by simp [World.next, h2]) h3 ?_ hnf
      · intro q hq'
        simp only [List.mem_cons] at hq'
        rcases hq' with rfl | h
        · exact ⟨nofun, nofun⟩
        · exact hq q h
      · intro q hq'
        simp only [World.next, List.mem_cons] at hq' ⊢
        rcases hq' with h | h | h
        · exact .inl h
        · exact .inr (.inl h)
        · exact .inr (.inr (h4 q h))
  -- after the section about LBR
  have mid : ∀ (d : List Res) (w : World), (∀ q ∈ d, q ≠ .links ∧ q ≠ .ready) → w.ready = false → w.links = [] → w.ran = false →
      (∀ q, q ∈ w.held → q ∈ d) → (r.lbr = true → .lbr ∈ w.held) →
      WP (Inv e r) (Fin e) c e r ([.step .loadSpec, .step .patch, .step .cpus, .step .cpuMask, .step .tailcall, .later .readObjs,
       .step .pid, .step .maxArg, .step .kfuncs, .step .traceable, .step .kmulti, .step .tracepoints, .step .vmlinux] ++
      ((if e.vmlinuxFound = some true ∧ r.vmlinux = true then [.step .textAddr, .step .addr2line] else []) ++
      ([.step .insns, .step .bpfProgs, .later .bpfProgs, .step .graphs, .later .graphs, .early] ++
       ([.step .targets, .step .maps, .later .maps, .step .attach, .later .links] ++
        ([.step .haveTracing, .step .addProgs, .step .kallsymsAgain, .step .reader, .later .reader] ++
      (if c.outputFile then [.step .outFile, .later .file] else []) ++ [.step .ready, .later .ready, .run]))))) d w := by
    intro d w hq h1 h2 h3 h4 h5
    have rest : ∀ (w' : World), w'.ready = false → w'.links = [] → w'.ran = false → w'.held = w.held →
        WP (Inv e r) (Fin e) c e r ([.step .insns, .step .bpfProgs, .later .bpfProgs, .step .graphs, .later .graphs, .early] ++
       ([.step .targets, .step .maps, .later .maps, .step .attach, .later .links] ++
        ([.step .haveTracing, .step .addProgs, .step .kallsymsAgain, .step .reader, .later .reader] ++
      (if c.outputFile then [.step .outFile, .later .file] else []) ++ [.step .ready, .later .ready, .run])))
        (.readObjs :: d) w' := by
      intro w' a1 a2 a3 a4
      refine wp_quiets _ _ [.insns] w' (by simp [effect, failEffect]) a1 a2 a3 ?_
      intro w1 b1 b2 b3 b4 _
      refine wp_hold _ _ w1 rfl rfl b1 b2 b3 ?_
      intro w2 c1 c2 c3 c4
      refine wp_hold _ _ w2 rfl rfl c1 c2 c3 ?_
      intro w3 d1 d2 d3 d4
      have d4 : w3.held = Res.graphs :: Res.bpfProgs :: w.held := by rw [d4, c4, b4, a4]
      have hq' : ∀ q ∈ Res.graphs :: Res.bpfProgs :: Res.readObjs :: d, q ≠ .links ∧ q ≠ .ready := by
        intro q hq'
        simp only [List.mem_cons] at hq'
        rcases hq' with rfl | rfl | rfl | h
        · exact ⟨nofun, nofun⟩
        · exact ⟨nofun, nofun⟩
        · exact ⟨nofun, nofun⟩
        · exact hq q h
      have hh : ∀ q, q ∈ w3.held → q ∈ Res.graphs :: Res.bpfProgs :: Res.readObjs :: d := by
        intro q hq'
        rw [d4] at hq'
        simp only [List.mem_cons] at hq' ⊢
        rcases hq' with h | h | h
        · exact .inl h
        · exact .inr (.inl h)
        · exact .inr (.inr (.inr (h4 q h)))
      refine wp_early ?_ ?_
      · obtain ⟨b1, b2, b3, b4⟩ := ret_quiet e r (.graphs :: .bpfProgs :: .readObjs :: d) w3 hq' d1 d2
        refine ⟨b1, fun _ => ⟨b2, b3, b4.trans ?_⟩, nofun⟩
        rw [List.filter_eq_nil_iff]
        intro q hx
        have := hh q hx
        simp only [decide_eq_true_eq]
        exact fun h => h this
      · refine tail _ w3 hq' d1 d2 d3 hh ?_
        intro h
        rw [d4]
        simp only [List.mem_cons]
        exact .inr (.inr (h5 h))
    refine wp_quiets _ _ [.loadSpec, .patch, .cpus, .cpuMask, .tailcall] w (by simp [effect, failEffect]) h1 h2 h3 ?_
    intro w1 b1 b2 b3 b4 _
    refine wp_later ?_
    refine wp_quiets _ _ [.pid, .maxArg, .kfuncs, .traceable, .kmulti, .tracepoints, .vmlinux] w1 (by simp [effect, failEffect]) b1 b2 b3 ?_
    intro w2 c1 c2 c3 c4 _
    by_cases hv : e.vmlinuxFound = some true ∧ r.vmlinux = true
    · rw [if_pos hv]
      refine wp_quiets _ _ [.textAddr, .addr2line] w2 (by simp [effect, failEffect]) c1 c2 c3 ?_
      intro w3 d1 d2 d3 d4 _
      exact rest w3 d1 d2 d3 (by rw [d4, c4, b4])
    · rw [if_neg hv]
      exact rest w2 c1 c2 c3 (by rw [c4, b4])
  simp only [List.append_assoc]
  refine wp_quiets _ _ [.rlimit] w0 (by simp [effect, failEffect]) e1 e2 e3 ?_
  intro w1 b1 b2 b3 b4 _
  refine wp_later ?_
  refine wp_quiets _ _ [.kallsyms, .progsFlag] w1 (by simp [effect, failEffect]) b1 b2 b3 ?_
  intro w2 c1 c2 c3 c4 _
  have c4 : w2.held = [] := by rw [c4, b4, e4]
  by_cases hl : r.lbr = true
  · rw [if_pos hl]
    refine wp_hold _ _ w2 rfl rfl c1 c2 c3 ?_
    intro w3 d1 d2 d3 d4
    refine wp_quiets _ _ [.lbrNr] w3 (by simp [effect, failEffect]) d1 d2 d3 ?_
    intro w4 f1 f2 f3 f4 _
    have f4 : w4.held = [.lbr] := by rw [f4, d4, c4]
    have := mid [.lbr, .signals] w4 (by simp) f1 f2 f3 (by simp [f4]) (by simp [f4])
    simpa [List.append_assoc] using this
  · rw [if_neg hl]
    have := mid [.signals] w2 (by simp) c1 c2 c3 (by simp [c4]) (fun h => absurd h hl)
    simpa [List.append_assoc] using this

/-! ### The properties -/

/-- **C68.** Whatever happens during a run, and whatever moment is looked at: if calls are recorded at that moment then
every target that could be attached is attached, at least one is, attaching failed for none, and somebody reads. -/
theorem recorded_complete (c : Cmdline) (e : Env) (hd : ∀ l, (e.down l).Perm l) (p : List Ev) (hp : p <+: (main c e).1)
    (i : Nat) (h : (after {} p).records i) :
    (∀ j, (j, Fate.attach) ∈ e.up → j ∈ (after {} p).links) ∧ (∀ x ∈ e.up, x.2 ≠ .fail) ∧ Res.reader ∈ (after {} p).held ∧
      Res.maps ∈ (after {} p).held := by
  unfold main at hp
  cases hc : check c.opts with
  | error _ =>
    rw [hc] at hp
    obtain rfl : p = [] := List.prefix_nil.1 hp
    cases h.1
  | ok r =>
    rw [hc] at hp
    have hi := always_prefix (exec_wp c e r hd).1 p hp
    have h1 := hi.1 h.1
    exact ⟨h1.1, h1.2.2.1, h1.2.2.2, (hi.2 (by intro h0; have := h.2; rw [h0] at this; cases this)).2.1⟩

/-- **C68.** However a run ends with status 0 — something was shown, a signal came early or late, or the limit of events
was reached — nothing is left behind: `ready` is not set, no probe is attached, everything is closed. -/
theorem end_clean (c : Cmdline) (e : Env) (hd : ∀ l, (e.down l).Perm l) (h : (main c e).2 = .success) :
    (after {} (main c e).1).ready = false ∧ (after {} (main c e).1).links = [] ∧ (after {} (main c e).1).held = [] := by
  unfold main at h ⊢
  cases hc : check c.opts with
  | error _ => rw [hc] at h; cases h
  | ok r =>
    rw [hc] at h
    exact (exec_wp c e r hd).2.1 h

/-- **C68.** A run that fails before events are read leaves `ready` unset, and one that read events fails only if
reading them failed. -/
theorem fatal_ready (c : Cmdline) (e : Env) (hd : ∀ l, (e.down l).Perm l) (h : (main c e).2 = .fatal)
    (hr : (after {} (main c e).1).ready = true ∨ (after {} (main c e).1).ran = true) :
    (after {} (main c e).1).ran = true ∧ e.finish = .error := by
  unfold main at h hr ⊢
  cases hc : check c.opts with
  | error _ =>
    rw [hc] at hr
    rcases hr with hr | hr <;> cases hr
  | ok r =>
    rw [hc] at h hr
    exact (exec_wp c e r hd).2.2 h hr

/-- The kernel has the enumerator. -/
def Kern.Has (k : Kern) (enum value : String) : Prop := ∃ vs, k.enums enum = some vs ∧ value ∈ vs

/-- Specification: a step does not succeed. `NewBPFTracing` fails if attaching to a target does; at least one target has to be attached; not
finding out whether there is a vmlinux is a failure, that there is none is not. -/
inductive Fails (c : Cmdline) (e : Env) (r : Opt.Res) : Step → Prop
  | detect : detect r.lbr r.stack e.kern = none → Fails c e r .detect
  | vmlinux : e.vmlinuxFound = none → Fails c e r .vmlinux
  | attach {i} : (i, Fate.fail) ∈ e.up → Fails c e r .attach
  | haveTracing : (∀ i, (i, Fate.attach) ∉ e.up) → Fails c e r .haveTracing
  | other {s} : s ≠ .detect → s ≠ .vmlinux → s ≠ .attach → s ≠ .haveTracing → e.fails s = true → Fails c e r s

theorem failed_iff (c : Cmdline) (e : Env) (r : Opt.Res) (s : Step) : failed c e r s = true ↔ Fails c e r s := by
  constructor
  · intro h
    cases s with
    | detect => exact .detect (by simpa [failed] using h)
    | vmlinux => exact .vmlinux (by simpa [failed] using h)
    | attach =>
      simp only [failed, List.any_eq_true] at h
      obtain ⟨⟨i, f⟩, hm, hf⟩ := h
      have : f = .fail := by simpa using hf
      subst this
      exact .attach hm
    | haveTracing =>
      refine .haveTracing fun i hi => ?_
      have hm := (mem_attachedBy e.up i).mpr hi
      simp only [failed, List.isEmpty_iff] at h
      rw [h] at hm
      cases hm
    | _ => exact .other (by decide) (by decide) (by decide) (by decide) h
  · intro h
    cases h with
    | detect h => simp [failed, h]
    | vmlinux h => simp [failed, h]
    | attach h => exact List.any_eq_true.mpr ⟨_, h, rfl⟩
    | haveTracing h =>
      simp only [failed, List.isEmpty_iff]
      cases hl : attachedBy e.up with
      | nil => rfl
      | cons i l => exact absurd ((mem_attachedBy e.up i).mp (hl ▸ List.mem_cons_self)) (h i)
    | other h1 h2 h3 h4 h => cases s <;> first | exact absurd rfl h1 | exact absurd rfl h2 | exact absurd rfl h3 | exact absurd rfl h4 | exact h

theorem exec_did (c : Cmdline) (e : Env) (r : Opt.Res) (s : Step) : ∀ (cs : List Cmd) (d : List Res),
    .did s ∈ (exec c e r cs d).1 → ¬ Fails c e r s
  | [], d, h => absurd h (ret_did d)
  | .step s' :: cs, d, h => by
    unfold exec at h
    cases hf : failed c e r s' with
    | true =>
      rw [hf, if_pos rfl] at h
      cases s' <;> simp [failEffect] at h
    | false =>
      rw [hf, if_neg (by decide)] at h
      dsimp only at h
      rcases List.mem_cons.mp h with h | h
      · injection h with h
        subst h
        intro hF
        rw [(failed_iff c e r s).mpr hF] at hf
        cases hf
      · rcases List.mem_append.mp h with h | h
        · cases s' <;> simp [effect] at h
        · exact exec_did c e r s cs d h
  | .later q :: cs, d, h => exec_did c e r s cs (q :: d) h
  | .show w :: _, d, h => by
    unfold exec at h
    rcases List.mem_cons.mp h with h | h
    · cases h
    · exact absurd h (ret_did d)
  | .early :: cs, d, h => by
    unfold exec at h
    split at h
    · exact absurd h (ret_did d)
    · exact exec_did c e r s cs d h
  | .run :: cs, d, h => by
    unfold exec at h
    split at h
    · simp at h
    · rcases List.mem_cons.mp h with h | h
      · cases h
      · exact exec_did c e r s cs d h
where
  ret_did (d : List Res) : .did s ∉ ret e d := by
    intro h
    obtain ⟨q, -, hq⟩ := List.mem_flatMap.mp h
    cases q <;> simp [undo] at hq

/-- **C68.** Nothing goes on after a step that does not succeed: whatever has been done did succeed. -/
theorem did_succeeded (c : Cmdline) (e : Env) (r : Opt.Res) (hr : check c.opts = .ok r) (s : Step) (h : .did s ∈ (main c e).1) :
    ¬ Fails c e r s := by
  unfold main at h
  rw [hr] at h
  exact exec_did c e r s _ _ h

theorem enumValue_iff (k : Kern) (enum value : String) (b : Bool) :
    enumValue k enum value = some b ↔ (∃ vs, k.enums enum = some vs) ∧ (b = true ↔ k.Has enum value) := by
  unfold enumValue Kern.Has
  cases k.enums enum with
  | none => simp
  | some vs =>
    simp only [Option.map_some, Option.some.injEq, exists_eq_left']
    have : (vs.any fun x => x == value) = decide (value ∈ vs) := by
      rw [Bool.eq_iff_iff]; simp
    rw [this]
    by_cases hv : value ∈ vs <;> cases b <;> simp [hv]

/-- **C68.** The gates: a run goes on iff the probe program ran, ring buffers are there, branch snapshots are there if
LBR is asked for, stacks are there if stacks are asked for on the command line, and the enums are known. Then the
features are taken from the kernel's enums. -/
theorem detect_iff (lbr stack : Bool) (k : Kern) (f : Feats) : detect lbr stack k = some f ↔
    k.runs = true ∧ k.run = true ∧ k.ringbuf = true ∧ (∃ vs, k.enums "bpf_func_id" = some vs) ∧
    (∃ vs, k.enums "bpf_attach_type" = some vs) ∧
    (lbr = true → k.Has "bpf_func_id" "BPF_FUNC_get_branch_snapshot") ∧ (stack = true → k.stackid = true) ∧
    (f.fsession = true ↔ k.Has "bpf_attach_type" "BPF_TRACE_FSESSION") ∧
    (f.kprobeMulti = true ↔ k.Has "bpf_attach_type" "BPF_TRACE_KPROBE_MULTI") ∧
    (f.kprobeSession = true ↔ k.Has "bpf_attach_type" "BPF_TRACE_KPROBE_SESSION") ∧ k.endbr = some f.endbr := by
  obtain ⟨fs, km, ks, en⟩ := f
  unfold detect
  cases h1 : k.runs with
  | false => simp
  | true =>
  cases h2 : k.run with
  | false => simp
  | true =>
  cases h3 : k.ringbuf with
  | false => simp
  | true =>
  simp only [Bool.not_true, Bool.false_eq_true, if_false, true_and]
  cases h4 : enumValue k "bpf_func_id" "BPF_FUNC_get_branch_snapshot" with
  | none =>
    have : ¬ ∃ vs, k.enums "bpf_func_id" = some vs := by
      rintro ⟨vs, hvs⟩
      simp [enumValue, hvs] at h4
    simp [this]
  | some snap =>
  obtain ⟨h4a, h4b⟩ := (enumValue_iff _ _ _ _).1 h4
  simp only [h4a, true_and]
  by_cases hl : lbr = true ∧ snap = false
  · have hn : ¬ k.Has "bpf_func_id" "BPF_FUNC_get_branch_snapshot" := by
      rw [← h4b, hl.2]; simp
    simp [hl.1, hl.2, hn]
  · have hg : (lbr && !snap) = false := by
      cases lbr <;> cases snap <;> simp at hl ⊢
    have hyes : (lbr = true → k.Has "bpf_func_id" "BPF_FUNC_get_branch_snapshot") := by
      intro hlb
      apply h4b.1
      cases snap with
      | true => rfl
      | false => exact absurd ⟨hlb, rfl⟩ hl
    simp only [hg, Bool.false_eq_true, if_false]
    by_cases hs : stack = true ∧ k.stackid = false
    · simp [hs.1, hs.2]
    · have hg' : (stack && !k.stackid) = false := by
        cases stack <;> cases hk : k.stackid <;> simp [hk] at hs ⊢
      have hyes' : stack = true → k.stackid = true := by
        intro hst
        cases hk : k.stackid with
        | true => rfl
        | false => exact absurd ⟨hst, hk⟩ hs
      simp only [hg', Bool.false_eq_true, if_false]
      cases h5 : k.enums "bpf_attach_type" with
      | none => simp [enumValue, h5]
      | some vs =>
        have e1 := fun v => (enumValue_iff k "bpf_attach_type" v ((vs.any (· == v)))).1 (by simp [enumValue, h5])
        simp only [enumValue, h5, Option.map_some]
        cases h6 : k.endbr with
        | none => simp
        | some en' =>
          simp only [Option.some.injEq, Feats.mk.injEq]
          rw [← (e1 "BPF_TRACE_FSESSION").2, ← (e1 "BPF_TRACE_KPROBE_MULTI").2, ← (e1 "BPF_TRACE_KPROBE_SESSION").2,
            Bool.eq_iff_iff, Bool.eq_iff_iff (a := vs.any _) (b := km), Bool.eq_iff_iff (a := vs.any _) (b := ks)]
          constructor
          · rintro ⟨a, b, cc, dd⟩
            exact ⟨⟨vs, rfl⟩, hyes, hyes', a.symm, b.symm, cc.symm, dd⟩
          · rintro ⟨_, _, _, a, b, cc, dd⟩
            exact ⟨a.symm, b.symm, cc.symm, dd⟩

/-- A selector of a run that asks for LBR: for functions with `-k`, for programs with `-p`. -/
def WantsLbr (o : Opts) (g : Glob) (fileExists : Str → Bool) : Prop :=
  (∃ k ∈ o.kfuncs, ∃ f, parseKfuncFlag g k = .ok f ∧ f.imm.lbr = true) ∨
  (∃ p ∈ o.progs, ∃ f, parseProgFlag g fileExists p = .ok f ∧ f.imm.lbr = true)

theorem prefixed_has {tok : Str → Bool} {s body t : Str} {toks : List Str} (hs : Prefixed tok s toks body)
    (ht : toks.contains t = true) : Opt.Has t s := by
  obtain ⟨a, b, rfl⟩ := List.append_of_mem (by simpa using ht)
  exact ⟨a.flatten, b.flatten ++ body, by simp [hs.1]⟩

/-- **C68.** Targets are only attached with LBR on a kernel that has branch snapshots and while the LBR events are open:
the look-out for `(l)` in the selectors misses none of `-k` and `-p`. -/
theorem lbr_gated (c : Cmdline) (e : Env) (hd : ∀ l, (e.down l).Perm l) (g : Glob) (hg : g.lbr = c.opts.outputLbr)
    (fileExists : Str → Bool) (hf : fileExists [] = false) (hw : WantsLbr c.opts g fileExists)
    (p : List Ev) (hp : p <+: (main c e).1) (ha : (after {} p).links ≠ []) :
    e.kern.Has "bpf_func_id" "BPF_FUNC_get_branch_snapshot" ∧ Res.lbr ∈ (after {} p).held := by
  unfold main at hp
  cases hc : check c.opts with
  | error _ =>
    rw [hc] at hp
    obtain rfl : p = [] := List.prefix_nil.1 hp
    exact absurd rfl ha
  | ok r =>
    rw [hc] at hp
    have hi := (always_prefix (exec_wp c e r hd).1 p hp).2 ha
    have hn : NeedsLbr c.opts := by
      rcases hw with ⟨k, hk, f, hpf, hfl⟩ | ⟨k, hk, f, hpf, hfl⟩
      · obtain ⟨toks, body, hpre, _, _, _, _, _, _, hl, _⟩ := (parseKfuncFlag_iff g k f).1 hpf
        rw [hl, Bool.or_eq_true] at hfl
        rcases hfl with h | h
        · exact .inr ⟨k, .inl hk, prefixed_has hpre h⟩
        · exact .inl (hg ▸ h)
      · obtain ⟨toks, body, fn, hpre, _, himm⟩ := (parseProgFlag_iff g fileExists hf k f).1 hpf
        rw [himm] at hfl
        simp only [Bool.or_eq_true] at hfl
        rcases hfl with h | h
        · exact .inr ⟨k, .inr hk, prefixed_has hpre h⟩
        · exact .inl (hg ▸ h)
    have hlbr : r.lbr = true := ((check_ok_iff c.opts r).1 hc).2.2.2.2.2.2.2.1.2 hn
    refine ⟨?_, hi.2.2 hlbr⟩
    cases hdt : detect r.lbr r.stack e.kern with
    | none => have := hi.1; rw [hdt] at this; cases this
    | some f => exact ((detect_iff _ _ _ _).1 hdt).2.2.2.2.2.1 hlbr

/-- **C68.** Only one thing is shown: `--disasm` before `--show-func-proto` before `--show-fgraph-proto`, and then nothing is
attached. -/
theorem shows (c : Cmdline) (e : Env) (hm : c.disasm = true ∨ c.showFuncProto = true ∨ c.showFgraphProto = true)
    (h : (main c e).2 = .success) :
    (main c e).1 = [.did .flags, .did .memlock, .did .kernelBtf, .did .detect, .showed (
      if c.disasm = true then "disasm" else if c.showFuncProto = true then "func proto" else "fgraph proto")] := by
  unfold main at h ⊢
  cases hc : check c.opts with
  | error _ => rw [hc] at h; cases h
  | ok r =>
    rw [hc] at h
    simp only at h ⊢
    have hp : ∃ cs, prog c e r = [.step .flags, .step .memlock, .step .kernelBtf, .step .detect, .show (
        if c.disasm = true then "disasm" else if c.showFuncProto = true then "func proto" else "fgraph proto")] ++ cs := by
      refine ⟨[], ?_⟩
      unfold prog
      by_cases h1 : c.disasm = true
      · simp [h1]
      · by_cases h2 : c.showFuncProto = true
        · simp [h1, h2]
        · have h3 : c.showFgraphProto = true := by
            rcases hm with h | h | h
            · exact absurd h h1
            · exact absurd h h2
            · exact h
          simp [h1, h2, h3]
    obtain ⟨cs, hp⟩ := hp
    rw [hp] at h ⊢
    simp only [List.cons_append, exec] at h ⊢
    cases f1 : failed c e r .flags with
    | true => rw [f1] at h; cases h
    | false =>
    cases f2 : failed c e r .memlock with
    | true => rw [f1, f2] at h; cases h
    | false =>
    cases f3 : failed c e r .kernelBtf with
    | true => rw [f1, f2, f3] at h; cases h
    | false =>
    cases f4 : failed c e r .detect with
    | true => rw [f1, f2, f3, f4] at h; cases h
    | false => rfl

/-! ### A run -/

/-- A kernel with everything. -/
def exKern : Kern := ⟨true, true, true, true, fun s =>
  if s = "bpf_func_id" then some ["BPF_FUNC_unspec", "BPF_FUNC_get_branch_snapshot"]
  else if s = "bpf_attach_type" then some ["BPF_TRACE_KPROBE_MULTI"] else none, some true⟩

/-- Two of three targets can be attached. -/
def exEnv : Env := ⟨fun _ => false, exKern, some false, [(0, .attach), (1, .skip), (2, .attach)], List.reverse, false, .finished⟩

/-- `-k '(l)tcp_*' -o FILE`. -/
def exCmd : Cmdline := { opts := { kfuncs := ["(l)tcp_*".toList] }, outputFile := true }

theorem witness : (main exCmd exEnv).2 = .success ∧
    ∃ a b, (main exCmd exEnv).1 = a ++ b ∧ (after {} a).records 0 ∧ (after {} a).records 2 ∧ ¬ (after {} a).records 1 ∧
      Ev.ran ∈ b := by
  refine ⟨by decide +kernel, (main exCmd exEnv).1.takeWhile (· ≠ .ran), (main exCmd exEnv).1.dropWhile (· ≠ .ran),
    (List.takeWhile_append_dropWhile).symm, ?_⟩
  unfold World.records
  decide +kernel

theorem lbr_gated_witness : WantsLbr exCmd.opts ⟨false, false, false, false, false, ["exit"]⟩ (fun _ => false) := by
  refine .inl ⟨_, List.mem_singleton.2 rfl, { name := "tcp_*".toList, imm := { fltrExpr := "tcp_*".toList, lbr := true } }, ?_, rfl⟩
  rw [parseKfuncFlag_iff]
  refine ⟨["(l)".toList], "tcp_*".toList, ⟨rfl, by decide, by decide⟩, ?_, by decide, rfl, rfl, by decide, by decide, by decide, by decide,
    by decide, by decide, rfl, rfl, by decide, by decide, by decide⟩
  exact (kfuncFields_iff false _ _ _ _).1 (by decide)

/-- A stack asked for by a selector is not gated: without `bpf_get_stackid` the run goes on. -/
theorem stack_gate_violated : ∃ (o : Opts) (r : Opt.Res) (k : Kern), NeedsStack o ∧ check o = .ok r ∧ k.stackid = false ∧
    (detect r.lbr r.stack k).isSome := by
  refine ⟨{ kfuncs := ["(s)tcp_*".toList] }, ⟨["exit"], none, none, false, true, false⟩, { exKern with stackid := false },
    .inr (.inr ⟨_, .inl (List.mem_singleton.2 rfl), [], "tcp_*".toList, rfl⟩), by rfl, rfl, by decide +kernel⟩

/-- If reading events fails, the process ends while `ready` is set and the probes are attached: it is the kernel that
removes them. -/
theorem fatal_attached_violated : (main exCmd { exEnv with finish := .error }).2 = .fatal ∧
    (after {} (main exCmd { exEnv with finish := .error }).1).records 0 := by
  unfold World.records
  decide +kernel

end Bpfsnoop.Sta
