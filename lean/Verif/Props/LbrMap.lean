import Verif.Model.LbrMap

/-! C60: the branch records shown under an event. -/
namespace Bpfsnoop.LbrM

/-! ### Specification -/

/-- Specification: what is to be shown of a snapshot: its entries, at most 32; nothing if it failed, is empty or begins
with an empty entry. -/
def due : Option (List Ent) → Option (List Ent)
  | none => none
  | some [] => none
  | some (e :: es) => if e = ⟨0, 0, 0⟩ then none else some ((e :: es).take 32)

/-- Specification: a history in which (1) no two runs have the same number, (2) between the snapshot of a run and its event
no other tracing program uses the buffer of that CPU (`own c` is the run whose snapshot it holds), (3) the session ids
of the waiting events `w` are distinct and fewer than the map holds, (4) no event is dropped. -/
def Calm (cap : Nat) : List Nat → (Nat → Option Nat) → List Nat → List Op → Prop
  | _, _, _, [] => True
  | used, own, w, .snap c i _ :: os => i ∉ used ∧ Calm cap (i :: used) (fun x => if x = c then some i else own x) w os
  | used, own, w, .clear c :: os => Calm cap used (fun x => if x = c then none else own x) w os
  | used, own, w, .out c i s :: os => own c = some i ∧ s ∉ w ∧ w.length < cap ∧ Calm cap used own (w ++ [s]) os
  | used, own, w, .handle :: os => Calm cap used own w.tail os
  | _, _, _, .skip :: _ => False

/-- Specification: what a run read. -/
def readBy : List Op → Nat → Option (List Ent)
  | [], _ => none
  | .snap _ i es :: os, j => if j = i then es else readBy os j
  | _ :: os, j => readBy os j

/-! ### One buffer -/

theorem snap_shown (b : Buf) (es : Option (List Ent)) : (b.snap es).shown = due es := by
  cases es with
  | none => simp [Buf.snap, Buf.shown, due]
  | some es =>
    cases es with
    | nil => simp [Buf.snap, Buf.shown, due]
    | cons e es =>
      have hpos : 0 < min (e :: es).length maxEnts := by simp [maxEnts]; omega
      have hdiv : (24 * ((min (e :: es).length maxEnts : Nat) : Int)).toNat / 24 = min (e :: es).length maxEnts := by omega
      have hhead : ((e :: es).take maxEnts ++ b.ents.drop (min (e :: es).length maxEnts)).head? = some e := by simp [maxEnts]
      simp only [Buf.snap, Buf.shown, hdiv, hhead, due]
      by_cases h0 : e = ⟨0, 0, 0⟩
      · simp [h0]
      · rw [if_pos ⟨by omega, by simpa using h0⟩, if_neg h0]
        have hl : min (e :: es).length maxEnts = ((e :: es).take maxEnts).length := by rw [List.length_take, Nat.min_comm]
        rw [hl, List.take_left]
        rfl

/-- The size says whether there is something to show, except for an empty first entry. -/
theorem snap_nr (b : Buf) (es : Option (List Ent)) : (b.snap es).nr > 0 ∨ due es = none := by
  cases es with
  | none => right; rfl
  | some es =>
    cases es with
    | nil => right; rfl
    | cons e es => left; simp only [Buf.snap, maxEnts, List.length_cons]; omega

theorem shown_nr (b : Buf) (h : ¬ b.nr > 0) : b.shown = none := by
  rw [Buf.shown, if_neg (fun hh => h hh.1)]

/-! ### The map -/

theorem get_none_iff (m : HMap) (k : Nat) : m.get k = none ↔ k ∉ m.map Prod.fst := by
  simp only [HMap.get, Option.map_eq_none_iff, List.find?_eq_none, List.mem_map, decide_eq_true_eq]
  constructor
  · rintro h ⟨x, hx, he⟩; exact h x hx he
  · intro h x hx he; exact h ⟨x, hx, he⟩

theorem get_append (m : HMap) (k : Nat) (b : Buf) (h : k ∉ m.map Prod.fst) : HMap.get (m ++ [(k, b)]) k = some b := by
  have := (get_none_iff m k).mpr h
  simp only [HMap.get, Option.map_eq_none_iff] at this
  simp [HMap.get, List.find?_append, this]

theorem get_append_ne (m : HMap) (k k' : Nat) (b : Buf) (h : k' ≠ k) : HMap.get (m ++ [(k, b)]) k' = m.get k' := by
  have : (decide (k = k')) = false := by simpa using fun he => h he.symm
  simp [HMap.get, List.find?_append, this]

theorem get_del_ne (m : HMap) (k k' : Nat) (h : k' ≠ k) : HMap.get (m.del k) k' = m.get k' := by
  simp only [HMap.get, HMap.del, List.find?_filter]
  congr 1
  congr 1
  funext x
  by_cases hx : x.1 = k'
  · simp [hx, h]
  · simp [hx]

theorem get_eq_of_mem (m : HMap) (k : Nat) (h : k ∈ m.map Prod.fst) : ∃ b, m.get k = some b := by
  cases hg : m.get k with
  | none => exact absurd h ((get_none_iff m k).mp hg)
  | some b => exact ⟨b, rfl⟩

/-! ### Histories -/

/-- The invariant of calm histories. -/
structure Inv (cap : Nat) (used : List Nat) (own : Nat → Option Nat) (w : List Nat) (st : St) : Prop where
  buf : ∀ c i : Nat, own c = some i → i ∈ used ∧ ∃ b : Buf, st.buf c = b.snap (st.took i)
  sids : st.queue.map Ev.sid = w
  nodup : w.Nodup
  keys : (st.map.map Prod.fst).Sublist w
  seen : ∀ e ∈ st.queue, e.inv ∈ used
  evs : ∀ e ∈ st.queue, (e.retval > 0 → ∃ b, st.map.get e.sid = some b ∧ b.shown = due (st.took e.inv)) ∧
    (¬ e.retval > 0 → due (st.took e.inv) = none)
  none : ∀ e ∈ st.queue, ¬ e.retval > 0 → st.map.get e.sid = none

theorem filter_sublist_tail {s : Nat} {w : List Nat} {l : List Nat} (hn : (s :: w).Nodup) (h : l.Sublist (s :: w)) :
    (l.filter (fun x => x ≠ s)).Sublist w := by
  have h1 := h.filter (fun x => decide (x ≠ s))
  have h2 : (s :: w).filter (fun x => decide (x ≠ s)) = w := by
    rw [List.filter_cons]
    simp only [ne_eq, not_true_eq_false, decide_false, Bool.false_eq_true, if_false]
    refine List.filter_eq_self.mpr ?_
    intro x hx
    have := (List.nodup_cons.mp hn).1
    simp only [decide_eq_true_eq]
    intro he; exact this (he ▸ hx)
  rw [h2] at h1
  exact h1

theorem del_keys (m : HMap) (k : Nat) : (m.del k).map Prod.fst = (m.map Prod.fst).filter (fun x => x ≠ k) := by
  rw [HMap.del, List.filter_map]
  rfl

theorem calm_run (cap : Nat) : ∀ (ops : List Op) (used : List Nat) (own : Nat → Option Nat) (w : List Nat) (st : St),
    Inv cap used own w st → Calm cap used own w ops →
    ∀ r ∈ run cap st ops, ∃ t : Nat → Option (List Ent), (∀ j ∈ used, t j = st.took j) ∧
      (∀ j, j ∉ used → t j = readBy ops j) ∧ r.2 = due (t r.1)
  | [], _, _, _, _, _, _ => by simp [run]
  | .snap c i es :: os, used, own, w, st, hI, hC => by
    obtain ⟨hi, hC⟩ := hC
    intro r hr
    have hI' : Inv cap (i :: used) (fun x => if x = c then some i else own x) w (step cap st (.snap c i es)).2 := by
      have hother : ∀ j ∈ used, (fun j => if j = i then es else st.took j) j = st.took j := by
        intro j hj
        have : j ≠ i := fun h => hi (h ▸ hj)
        simp [this]
      refine ⟨?_, hI.sids, hI.nodup, hI.keys, fun e he => List.mem_cons_of_mem _ (hI.seen e he), ?_, hI.none⟩
      · intro c' j hj
        by_cases hc : c' = c
        · subst hc
          simp only [if_true, Option.some.injEq] at hj
          subst hj
          exact ⟨by simp, st.buf c', by simp [step, setB]⟩
        · simp only [hc, if_false] at hj
          obtain ⟨hu, b, hb⟩ := hI.buf c' j hj
          refine ⟨by simp [hu], b, ?_⟩
          show setB st.buf c _ c' = _
          have : (step cap st (.snap c i es)).2.took j = st.took j := hother j hu
          rw [this]
          simp [setB, hc, hb]
      · intro e he
        have := hI.evs e he
        have hq := hI.seen e he
        show (_ → ∃ b, st.map.get e.sid = some b ∧ b.shown = due ((fun j => if j = i then es else st.took j) e.inv)) ∧
          (_ → due ((fun j => if j = i then es else st.took j) e.inv) = none)
        rw [hother _ hq]
        exact this
    obtain ⟨t, h1, h2, h3⟩ := calm_run cap os _ _ _ _ hI' hC r hr
    refine ⟨t, ?_, ?_, h3⟩
    · intro j hj
      rw [h1 j (by simp [hj])]
      have : j ≠ i := fun h => hi (h ▸ hj)
      simp [step, this]
    · intro j hj
      by_cases hji : j = i
      · subst hji
        rw [h1 j (by simp)]
        simp [step, readBy]
      · rw [h2 j (by simp [hji, hj])]
        simp [readBy, hji]
  | .clear c :: os, used, own, w, st, hI, hC => by
    intro r hr
    have hI' : Inv cap used (fun x => if x = c then none else own x) w (step cap st (.clear c)).2 := by
      refine ⟨?_, hI.sids, hI.nodup, hI.keys, hI.seen, hI.evs, hI.none⟩
      intro c' j hj
      by_cases hc : c' = c
      · simp [hc] at hj
      · simp only [hc, if_false] at hj
        obtain ⟨hu, b, hb⟩ := hI.buf c' j hj
        exact ⟨hu, b, by simp [step, setB, hc, hb]⟩
    obtain ⟨t, h1, h2, h3⟩ := calm_run cap os _ _ _ _ hI' hC r hr
    exact ⟨t, h1, fun j hj => h2 j hj, h3⟩
  | .out c i s :: os, used, own, w, st, hI, hC => by
    obtain ⟨ho, hs, hw, hC⟩ := hC
    intro r hr
    obtain ⟨hu, b, hb⟩ := hI.buf c i ho
    have hkey : s ∉ st.map.map Prod.fst := fun h => hs (hI.keys.subset h)
    have hlen : st.map.length < cap := by
      have := hI.keys.length_le
      simp only [List.length_map] at this
      omega
    have hupd : ∀ x : Buf, st.map.update cap s x = st.map ++ [(s, x)] := by
      intro x
      rw [HMap.update, (get_none_iff _ _).mpr hkey]
      simp [hlen]
    have hI' : Inv cap used own (w ++ [s]) (step cap st (.out c i s)).2 := by
      refine ⟨hI.buf, by simp [step, output, hI.sids], ?_, ?_, ?_, ?_, ?_⟩
      · rw [List.nodup_append]
        refine ⟨hI.nodup, by simp, ?_⟩
        intro a ha b hb
        simp only [List.mem_singleton] at hb
        intro he; exact hs (hb ▸ he ▸ ha)
      · simp only [step, output]
        split
        · rw [hupd, List.map_append]
          exact hI.keys.append (List.Sublist.refl _)
        · exact hI.keys.trans (List.sublist_append_left _ _)
      · intro e he
        rcases List.mem_append.mp he with he | he
        · exact hI.seen e he
        · simp only [List.mem_singleton] at he; subst he; exact hu
      · intro e he
        simp only [step, output]
        rcases List.mem_append.mp he with he | he
        · obtain ⟨h1, h2⟩ := hI.evs e he
          refine ⟨fun hp => ?_, h2⟩
          obtain ⟨b', h3, h4⟩ := h1 hp
          refine ⟨b', ?_, h4⟩
          have hne : e.sid ≠ s := by
            intro h
            apply hs
            rw [← hI.sids, ← h]
            exact List.mem_map.mpr ⟨e, he, rfl⟩
          split
          · rw [hupd, get_append_ne _ _ _ _ hne]; exact h3
          · exact h3
        · simp only [List.mem_singleton] at he
          subst he
          simp only
          rw [hb]
          refine ⟨fun hp => ?_, fun hp => ?_⟩
          · rw [if_pos hp, hupd]
            exact ⟨_, get_append _ _ _ hkey, snap_shown _ _⟩
          · exact (snap_nr b (st.took i)).resolve_left hp
      · intro e he hp
        simp only [step, output]
        rcases List.mem_append.mp he with he | he
        · have hne : e.sid ≠ s := by
            intro h
            apply hs
            rw [← hI.sids, ← h]
            exact List.mem_map.mpr ⟨e, he, rfl⟩
          split
          · rw [hupd, get_append_ne _ _ _ _ hne]; exact hI.none e he hp
          · exact hI.none e he hp
        · simp only [List.mem_singleton] at he
          subst he
          rw [if_neg hp]
          exact (get_none_iff _ _).mpr hkey
    obtain ⟨t, h1, h2, h3⟩ := calm_run cap os _ _ _ _ hI' hC r hr
    exact ⟨t, h1, fun j hj => h2 j hj, h3⟩
  | .handle :: os, used, own, w, st, hI, hC => by
    intro r hr
    cases hq : st.queue with
    | nil =>
      have hw : w = [] := by rw [← hI.sids, hq]; rfl
      have h1 : step cap st .handle = (none, st) := by simp [step, hq]
      rw [run, h1] at hr
      have hC' : Calm cap used own w os := by have : Calm cap used own w.tail os := hC; rwa [hw] at this ⊢
      obtain ⟨t, h1, h2, h3⟩ := calm_run cap os _ _ _ _ hI hC' r hr
      exact ⟨t, h1, fun j hj => h2 j hj, h3⟩
    | cons e q =>
      have hw : w = e.sid :: q.map Ev.sid := by rw [← hI.sids, hq]; rfl
      have hn := hI.nodup
      rw [hw] at hn
      have h1 : step cap st .handle = (some (e.inv, (show1 st e).1), { st with map := (show1 st e).2, queue := q }) := by
        simp [step, hq]
      have hmem : e ∈ st.queue := by rw [hq]; simp
      have hshow : (show1 st e).1 = due (st.took e.inv) := by
        obtain ⟨ha, hb⟩ := hI.evs e hmem
        unfold show1
        by_cases hp : e.retval > 0
        · obtain ⟨b, h2, h3⟩ := ha hp
          rw [if_pos hp, h2]; exact h3
        · rw [if_neg hp]; exact (hb hp).symm
      have hmap : (show1 st e).2 = st.map ∨ (show1 st e).2 = st.map.del e.sid := by
        unfold show1
        split
        · split
          · left; rfl
          · right; rfl
        · left; rfl
      rw [run, h1] at hr
      rcases List.mem_cons.mp hr with rfl | hr
      · refine ⟨fun j => if j ∈ used then st.took j else readBy (.handle :: os) j, ?_, ?_, ?_⟩
        · intro j hj; simp [hj]
        · intro j hj; simp [hj]
        · simp only [hI.seen e hmem, if_true]; exact hshow
      · have hI' : Inv cap used own (q.map Ev.sid) { st with map := (show1 st e).2, queue := q } := by
          refine ⟨hI.buf, rfl, (List.nodup_cons.mp hn).2, ?_, fun x hx => hI.seen x (by rw [hq]; simp [hx]), ?_, ?_⟩
          · have hk := hI.keys
            rw [hw] at hk
            show ((show1 st e).2.map Prod.fst).Sublist _
            by_cases hp : e.retval > 0
            · obtain ⟨b, h2, h3⟩ := (hI.evs e hmem).1 hp
              have : (show1 st e).2 = st.map.del e.sid := by unfold show1; rw [if_pos hp, h2]
              rw [this, del_keys]
              exact filter_sublist_tail hn hk
            · have hm : (show1 st e).2 = st.map := by unfold show1; rw [if_neg hp]
              have hno := (get_none_iff _ _).mp (hI.none e hmem hp)
              rw [hm]
              rcases List.sublist_cons_iff.mp hk with h | ⟨r, h, _⟩
              · exact h
              · exact absurd (h ▸ List.mem_cons_self) hno
          · intro x hx
            have hxm : x ∈ st.queue := by rw [hq]; simp [hx]
            obtain ⟨ha, hb⟩ := hI.evs x hxm
            refine ⟨fun hp => ?_, hb⟩
            obtain ⟨b, h2, h3⟩ := ha hp
            refine ⟨b, ?_, h3⟩
            have hne : x.sid ≠ e.sid := by
              intro h
              apply (List.nodup_cons.mp hn).1
              rw [← h]
              exact List.mem_map.mpr ⟨x, hx, rfl⟩
            rcases hmap with h | h
            · show HMap.get (show1 st e).2 _ = _
              rw [h]; exact h2
            · show HMap.get (show1 st e).2 _ = _
              rw [h, get_del_ne _ _ _ hne]; exact h2
          · intro x hx hp
            have hxm : x ∈ st.queue := by rw [hq]; simp [hx]
            have h2 := hI.none x hxm hp
            have hne : x.sid ≠ e.sid := by
              intro h
              apply (List.nodup_cons.mp hn).1
              rw [← h]
              exact List.mem_map.mpr ⟨x, hx, rfl⟩
            show HMap.get (show1 st e).2 _ = _
            rcases hmap with h | h
            · rw [h]; exact h2
            · rw [h, get_del_ne _ _ _ hne]; exact h2
        have hC' : Calm cap used own (q.map Ev.sid) os := by
          have : Calm cap used own w.tail os := hC
          rwa [hw] at this
        obtain ⟨t, h1, h2, h3⟩ := calm_run cap os _ _ _ _ hI' hC' r hr
        exact ⟨t, h1, fun j hj => h2 j hj, h3⟩
  | .skip :: os, _, _, _, _, _, hC => by cases hC

theorem inv_init (cap : Nat) : Inv cap [] (fun _ => none) [] init :=
  ⟨by simp, rfl, by simp, by simp [init], by simp [init], by simp [init], by simp [init]⟩

/-- In a calm history every event is shown with exactly the branch records its own run of the tracing program read. -/
theorem own_lbr_partial (cap : Nat) (ops : List Op) (h : Calm cap [] (fun _ => none) [] ops) :
    ∀ r ∈ run cap init ops, r.2 = due (readBy ops r.1) := by
  intro r hr
  obtain ⟨t, _, h2, h3⟩ := calm_run cap ops _ _ _ _ (inv_init cap) h r hr
  rw [h3, h2 r.1 (by simp)]

/-- Specification: the runs that send an event. -/
def sent (ops : List Op) : List Nat := ops.filterMap fun | .out _ i _ => some i | _ => none

theorem run_order (cap : Nat) : ∀ (ops : List Op) (st : St), Op.skip ∉ ops →
    (run cap st ops).map Prod.fst <+: st.queue.map Ev.inv ++ sent ops
  | [], st, _ => by simp [run]
  | .skip :: os, st, h => absurd (by simp) h
  | .snap c i es :: os, st, h => by
    have := run_order cap os (step cap st (.snap c i es)).2 (fun hm => h (by simp [hm]))
    exact this
  | .clear c :: os, st, h => by
    have := run_order cap os (step cap st (.clear c)).2 (fun hm => h (by simp [hm]))
    exact this
  | .out c i s :: os, st, h => by
    have := run_order cap os (step cap st (.out c i s)).2 (fun hm => h (by simp [hm]))
    have h2 : sent (.out c i s :: os) = i :: sent os := by simp [sent]
    rw [h2]
    simpa [step, output, run] using this
  | .handle :: os, st, h => by
    have h2 : sent (.handle :: os) = sent os := by simp [sent]
    rw [h2]
    cases hq : st.queue with
    | nil =>
      have := run_order cap os st (fun hm => h (by simp [hm]))
      rw [hq] at this
      simpa [run, step, hq] using this
    | cons e q =>
      have := run_order cap os { st with map := (show1 st e).2, queue := q } (fun hm => h (by simp [hm]))
      simpa [run, step, hq] using this

/-- Events are shown in the order in which they were sent, none twice and none left out. -/
theorem shown_in_order (cap : Nat) (ops : List Op) (h : Op.skip ∉ ops) : (run cap init ops).map Prod.fst <+: sent ops := by
  simpa [init] using run_order cap ops init h

/-! ### What breaks it -/

theorem snap_pos (b : Buf) (es : Option (List Ent)) (h : due es ≠ none) : (b.snap es).nr > 0 := (snap_nr b es).resolve_right h

/-- **C60 violated**: the buffer belongs to the CPU, not to the run: if a tracing program is interrupted by another one on
its CPU after it has read its branch records, its event is shown with those of the other. -/
theorem interrupted_violated (cap : Nat) (hcap : 2 ≤ cap) (c i j s s' : Nat) (hs : s ≠ s') (es es' : Option (List Ent)) (he' : due es' ≠ none) :
    run cap init [.snap c i es, .snap c j es', .out c j s', .out c i s, .handle, .handle] = [(j, due es'), (i, due es')] := by
  have h1 : ∀ st : St, (st.buf c).nr > 0 → st.map = [] → st.queue = [] →
      run cap st [.out c j s', .out c i s, .handle, .handle] = [(j, (st.buf c).shown), (i, (st.buf c).shown)] := by
    intro st hn hm hq
    have hc0 : 0 < cap := by omega
    have hc1 : 1 < cap := by omega
    have hne : s' ≠ s := fun h => hs h.symm
    have hn' : 0 < (st.buf c).nr := hn
    simp [run, step, output, hm, hq, HMap.update, HMap.get, hc0, hc1, hs, hne, show1, HMap.del, hn']
  have h2 := h1 ⟨setB (setB init.buf c ((init.buf c).snap es)) c (((init.buf c).snap es).snap es'), [], [], fun x => if x = j then es' else if x = i then es else none⟩
    (by simp only [setB, if_true]; exact snap_pos _ _ he') rfl rfl
  simp only [setB, if_true, snap_shown] at h2
  rw [← h2]
  simp [run, step, setB, init]

/-- **C60 violated**: nor is anything shown if the interrupting program shows no branch records at all. -/
theorem cleared_violated (cap : Nat) (c i s : Nat) (es : Option (List Ent)) :
    run cap init [.snap c i es, .clear c, .out c i s, .handle] = [(i, none)] := by
  simp [run, step, output, setB, init, show1]

/-- **C60 violated**: two waiting events with one (random) session id: the first is shown with the records of the second,
the second without. -/
theorem same_id_violated (cap : Nat) (hcap : 1 ≤ cap) (c i j s : Nat) (es es' : Option (List Ent)) (he : due es ≠ none) (he' : due es' ≠ none) :
    run cap init [.snap c i es, .out c i s, .snap c j es', .out c j s, .handle, .handle] = [(i, due es'), (j, none)] := by
  have p1 := snap_pos (init.buf c) es he
  have p2 := snap_pos ((init.buf c).snap es) es' he'
  have p1' : 0 < ((init.buf c).snap es).nr := p1
  have p2' : 0 < (((init.buf c).snap es).snap es').nr := p2
  have hc : 0 < cap := hcap
  have hm : init.map = [] := rfl
  have hq : init.queue = [] := rfl
  have h2 := snap_shown ((init.buf c).snap es) es'
  rw [← h2]
  generalize hb0 : init.buf c = b0 at *
  simp [run, step, output, setB, hm, hq, hb0, show1, HMap.update, HMap.get, HMap.del, hc, p1', p2']

/-- Keys that fill the map and whose events are gone. -/
theorem full_keeps (cap : Nat) (ks : List Nat) (hk : ks.length = cap) :
    ∀ (ops : List Op) (st : St), st.map.map Prod.fst = ks → (∀ e ∈ st.queue, e.sid ∉ ks) →
    (∀ c i s, Op.out c i s ∈ ops → s ∉ ks) → ∀ r ∈ run cap st ops, r.2 = none
  | [], _, _, _, _ => by simp [run]
  | .snap c i es :: os, st, hm, hq, ho => full_keeps cap ks hk os _ hm hq (fun c i s h => ho c i s (by simp [h]))
  | .clear c :: os, st, hm, hq, ho => full_keeps cap ks hk os _ hm hq (fun c i s h => ho c i s (by simp [h]))
  | .skip :: os, st, hm, hq, ho =>
    full_keeps cap ks hk os _ hm (fun e h => hq e (List.mem_of_mem_tail h)) (fun c i s h => ho c i s (by simp [h]))
  | .out c i s :: os, st, hm, hq, ho => by
    have hs : s ∉ ks := ho c i s (by simp)
    have hupd : st.map.update cap s (st.buf c) = st.map := by
      rw [HMap.update, (get_none_iff _ _).mpr (by rw [hm]; exact hs)]
      have : ¬ st.map.length < cap := by
        have : (st.map.map Prod.fst).length = cap := by rw [hm, hk]
        simp only [List.length_map] at this
        omega
      simp [this]
    refine full_keeps cap ks hk os (step cap st (.out c i s)).2 ?_ ?_ (fun c i s h => ho c i s (by simp [h]))
    · simp only [step, output, hupd, ite_self]; exact hm
    · intro e he
      rcases List.mem_append.mp he with he | he
      · exact hq e he
      · simp only [List.mem_singleton] at he; subst he; exact hs
  | .handle :: os, st, hm, hq, ho => by
    cases hqq : st.queue with
    | nil =>
      have h1 : step cap st .handle = (none, st) := by simp [step, hqq]
      rw [run, h1]
      exact full_keeps cap ks hk os st hm hq (fun c i s h => ho c i s (by simp [h]))
    | cons e q =>
      have hmiss : st.map.get e.sid = none := (get_none_iff _ _).mpr (by rw [hm]; exact hq e (by rw [hqq]; simp))
      have hsh : show1 st e = (none, st.map) := by unfold show1; rw [hmiss]; simp
      have h1 : step cap st .handle = (some (e.inv, none), { st with queue := q }) := by simp [step, hqq, hsh]
      rw [run, h1]
      intro r hr
      rcases List.mem_cons.mp hr with rfl | hr
      · rfl
      · exact full_keeps cap ks hk os { st with queue := q } hm (fun x hx => hq x (by rw [hqq]; simp [hx])) (fun c i s h => ho c i s (by simp [h])) r hr

/-- `n` runs on CPU 0 whose events are dropped. -/
def dropAll (es : Option (List Ent)) : List Nat → List Op
  | [] => []
  | s :: ks => [.snap 0 s es, .out 0 s s, .skip] ++ dropAll es ks

theorem dropAll_run (cap : Nat) (es : Option (List Ent)) (he : due es ≠ none) (ops : List Op) : ∀ (ks : List Nat) (st : St), st.queue = [] →
    (st.map.map Prod.fst ++ ks).Nodup → st.map.length + ks.length ≤ cap →
    ∃ st' : St, run cap st (dropAll es ks ++ ops) = run cap st' ops ∧ st'.queue = [] ∧ st'.map.map Prod.fst = st.map.map Prod.fst ++ ks
  | [], st, hq, _, _ => ⟨st, rfl, hq, by simp⟩
  | s :: ks, st, hq, hnd, hl => by
    have hs : s ∉ st.map.map Prod.fst := by
      intro h
      rw [List.nodup_append] at hnd
      exact hnd.2.2 s h s (by simp) rfl
    have hlt : st.map.length < cap := by simp only [List.length_cons] at hl; omega
    have hp := snap_pos (st.buf 0) es he
    have hupd : st.map.update cap s ((st.buf 0).snap es) = st.map ++ [(s, (st.buf 0).snap es)] := by
      rw [HMap.update, (get_none_iff _ _).mpr hs]; simp [hlt]
    obtain ⟨st', h1, h2, h3⟩ := dropAll_run cap es he ops ks
      ⟨setB st.buf 0 ((st.buf 0).snap es), st.map ++ [(s, (st.buf 0).snap es)], [], fun j => if j = s then es else st.took j⟩
      rfl (by simpa using hnd) (by simp only [List.length_append, List.length_cons, List.length_nil] at hl ⊢; omega)
    refine ⟨st', ?_, h2, by simpa using h3⟩
    rw [← h1]
    have hp' : 0 < ((st.buf 0).snap es).nr := hp
    simp [dropAll, run, step, output, setB, hq, hp', hupd]

/-- **C60 violated**: the records of dropped events are never removed. Once as many events have been dropped as the map
holds (65536), no later event is shown with its records, whatever happens. -/
theorem full_map_violated (ks : List Nat) (hnd : ks.Nodup) (es : Option (List Ent)) (he : due es ≠ none) (ops : List Op)
    (ho : ∀ c i s, Op.out c i s ∈ ops → s ∉ ks) : ∀ r ∈ run ks.length init (dropAll es ks ++ ops), r.2 = none := by
  obtain ⟨st', h1, h2, h3⟩ := dropAll_run ks.length es he ops ks init rfl (by simpa [init] using hnd) (by simp [init])
  rw [h1]
  have h3' : st'.map.map Prod.fst = ks := by simpa [init] using h3
  exact full_keeps ks.length ks rfl ops st' h3' (by simp [h2]) ho

/-! ### Which events are dropped -/

/-- An event of a function that is not marked `(m)`, or of a tracepoint (which is not traced by instruction), is never dropped if it carries branch records. -/
theorem lbr_not_dropped (lbr insn graph both tp modeExit hasFsession ret : Bool) (htp : tp = true → insn = false) :
    ∀ f ∈ funcProgs lbr insn graph both tp modeExit hasFsession, canLbr f ret = true → droppable f ret = false := by
  cases lbr <;> cases insn <;> cases graph <;> cases both <;> cases tp <;> cases modeExit <;> cases hasFsession <;> cases ret <;>
    first
    | decide
    | (exact absurd (htp rfl) (by decide))

/-- Events of tracepoints belong to no session, so they are printed at once and not held until an exit that never comes. -/
theorem tp_no_session (lbr graph both modeExit hasFsession : Bool) :
    ∀ f ∈ funcProgs lbr false graph both true modeExit hasFsession, needsSession f = false := by
  cases lbr <;> cases graph <;> cases both <;> cases modeExit <;> cases hasFsession <;> decide

/-- Functions marked `(m)` likewise, unless they are marked `(g)` too. -/
theorem multi_not_dropped (lbr both modeExit hasSession ret : Bool) :
    ∀ f ∈ multiProgs lbr false both modeExit hasSession, canLbr f ret = true → droppable f ret = false := by
  cases lbr <;> cases both <;> cases modeExit <;> cases hasSession <;> cases ret <;> decide

/-- **C60 violated**: the events of functions marked `(m)`, `(g)` and `(l)` traced at their exit are dropped, and their
branch records fill the map. -/
theorem multi_graph_dropped_violated (hasSession ret : Bool) :
    ∃ f ∈ multiProgs true true false true hasSession, canLbr f ret = true ∧ droppable f ret = true := by
  cases hasSession <;> cases ret <;> decide

/-- Specification: how often a program runs in one call of the function: twice, at entry and return, if it is attached to
the session, else once. -/
def runs (f : Flags) : List Bool := if f.session then [false, true] else [false]

/-- In each call of a function, or hit of a tracepoint, marked `(l)`, the branch records are read exactly once. -/
theorem lbr_once (insn graph both tp modeExit hasFsession : Bool) :
    ((funcProgs true insn graph both tp modeExit hasFsession).flatMap fun f => (runs f).filter (canLbr f)).length = 1 ∧
    ((multiProgs true graph both modeExit hasFsession).flatMap fun f => (runs f).filter (canLbr f)).length = 1 := by
  cases insn <;> cases graph <;> cases both <;> cases tp <;> cases modeExit <;> cases hasFsession <;> decide

/-- In both mode only the entry shows branch records; otherwise the one program does. -/
theorem canLbr_iff (f : Flags) (ret : Bool) : canLbr f ret = true ↔ f.outputLbr = true ∧ (f.both = true → atEntry f ret = true) := by
  cases f with | mk l b e s i g t => cases l <;> cases b <;> cases e <;> cases s <;> cases ret <;> decide +revert

/-- Non-vacuity: runs on two CPUs, interleaved, one of which clears its buffer in between; session ids are reused. -/
def exOps : List Op :=
  [.snap 0 1 (some [⟨1, 2, 0⟩, ⟨3, 4, 0⟩]), .snap 1 2 (some [⟨5, 6, 0⟩]), .out 1 2 20, .clear 1, .out 0 1 10, .handle, .snap 0 3 none,
    .out 0 3 20, .handle, .handle]

theorem own_lbr_witness : Calm 2 [] (fun _ => none) [] exOps ∧
    run 2 init exOps = [(2, some [⟨5, 6, 0⟩]), (1, some [⟨1, 2, 0⟩, ⟨3, 4, 0⟩]), (3, none)] := by
  refine ⟨?_, by decide +kernel⟩
  simp [exOps, Calm]

end Bpfsnoop.LbrM
