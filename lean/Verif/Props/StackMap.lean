import Verif.Model.StackMap

/-! C59: the stack shown under an event. -/
namespace Bpfsnoop.Stk

/-! ### Which frames are shown -/

/-- With `--verbose` all frames are shown, innermost first. -/
theorem frames_verbose (name : Nat → String) (s : Stack) (b : Bool) : frames true name s b = s.filter (· ≠ 0) := by
  induction s generalizing b with
  | nil => rfl
  | cons ip r ih =>
    by_cases h : ip = 0
    · subst h
      simpa [frames] using ih b
    · simpa [frames, h] using ih b

theorem frames_rest (v : Bool) (name : Nat → String) (s : Stack) : frames v name s false = s.filter (· ≠ 0) := by
  induction s with
  | nil => rfl
  | cons ip r ih =>
    by_cases h : ip = 0
    · subst h
      simpa [frames] using ih
    · simpa [frames, h] using ih

/-- The frames of the tracing machinery are those of trampolines and of the functions that call tracepoint programs. -/
theorem isEntryFrame_iff (name : String) : isEntryFrame name = true ↔
    (∃ r, name.toList = "bpf_trampoline_".toList ++ r) ∨ (∃ r, name.toList = "bpf_trace_run".toList ++ r) := by
  rw [isEntryFrame, Bool.or_eq_true, String.startsWith_string_iff, String.startsWith_string_iff]
  constructor
  · rintro (⟨r, h⟩ | ⟨r, h⟩)
    · exact .inl ⟨r, h.symm⟩
    · exact .inr ⟨r, h.symm⟩
  · rintro (⟨r, h⟩ | ⟨r, h⟩)
    · exact .inl ⟨r, h.symm⟩
    · exact .inr ⟨r, h.symm⟩

/-- Otherwise the frames outside the first one that belongs to the code calling the tracing program. -/
theorem frames_after (name : Nat → String) (inner : Stack) (e : Nat) (outer : Stack)
    (hi : ∀ ip ∈ inner, ip = 0 ∨ isEntryFrame (name ip) = false) (he : isEntryFrame (name e) = true) (he0 : e ≠ 0) :
    frames false name (inner ++ e :: outer) true = outer.filter (· ≠ 0) := by
  induction inner with
  | nil => simp [frames, he0, he, frames_rest]
  | cons ip r ih =>
    have := ih fun x hx => hi x (by simp [hx])
    by_cases h : ip = 0
    · subst h
      simpa [frames] using this
    · have h' := (hi ip (by simp)).resolve_left h
      simpa [frames, h, h'] using this

/-- **C59 violated**: a stack without such a frame, as of functions marked `(m)`, whose program is called by a kprobe, is
not shown at all without `--verbose`. -/
theorem no_entry_frame_violated (name : Nat → String) (s : Stack) (h : ∀ ip ∈ s, isEntryFrame (name ip) = false) :
    frames false name s true = [] := by
  induction s with
  | nil => rfl
  | cons ip r ih =>
    have := ih fun x hx => h x (by simp [hx])
    by_cases h0 : ip = 0
    · subst h0
      simpa [frames] using this
    · simpa [frames, h0, h ip (by simp)] using this

/-- A flame graph gets the same frames, outermost first. -/
theorem flame_order (v : Bool) (name : Nat → String) (s : Stack) : shown v true name s = (shown v false name s).reverse := rfl

/-! ### Whose stack it is -/

/-- Specification: the stacks of the events submitted. -/
def emitted (ops : List Op) : List Stack := ops.filterMap fun | .emit s => some s | _ => none

/-- The histories in which no event is dropped and an event is submitted only when no event still in the ring buffer
has a stack of the same bucket. `q` are the stacks of the events in the ring buffer. -/
def Apart (H : Hash) : List Stack → List Op → Prop
  | _, [] => True
  | q, .emit s :: os => (∀ x ∈ q, H.bucket x ≠ H.bucket s) ∧ Apart H (q ++ [s]) os
  | q, .handle :: os => Apart H q.tail os
  | _, .skip :: _ => False

structure Inv (H : Hash) (st : St) : Prop where
  held : ∀ e ∈ st.queue, e.id = some (H.bucket e.stack) ∧ st.map (H.bucket e.stack) = some ⟨H.h e.stack, e.stack⟩
  only : ∀ i b, st.map i = some b → ∃ e ∈ st.queue, H.bucket e.stack = i
  apart : st.queue.Pairwise (fun a b => H.bucket a.stack ≠ H.bucket b.stack)

theorem inv_emit {H : Hash} {st : St} (h : Inv H st) {s : Stack} (hs : ∀ e ∈ st.queue, H.bucket e.stack ≠ H.bucket s) :
    ∃ st', step H st (.emit s) = (none, st') ∧ Inv H st' ∧ st'.queue = st.queue ++ [⟨s, some (H.bucket s)⟩] := by
  have hn : st.map (H.bucket s) = none := by
    cases hm : st.map (H.bucket s) with
    | none => rfl
    | some b =>
      obtain ⟨e, he, hb⟩ := h.only _ _ hm
      exact absurd hb (hs e he)
  refine ⟨⟨set st.map (H.bucket s) (some ⟨H.h s, s⟩), st.queue ++ [⟨s, some (H.bucket s)⟩]⟩, by simp [step, capture, hn], ?_, rfl⟩
  refine ⟨?_, ?_, ?_⟩
  · intro e he
    rcases List.mem_append.mp he with he | he
    · obtain ⟨h1, h2⟩ := h.held e he
      refine ⟨h1, ?_⟩
      simp [set, hs e he, h2]
    · simp only [List.mem_singleton] at he
      subst he
      exact ⟨rfl, by simp [set]⟩
  · intro i b hi
    by_cases hc : i = H.bucket s
    · exact ⟨⟨s, some (H.bucket s)⟩, by simp, hc.symm⟩
    · simp only [set, if_neg hc] at hi
      obtain ⟨e, he, hb⟩ := h.only i b hi
      exact ⟨e, by simp [he], hb⟩
  · rw [List.pairwise_append]
    refine ⟨h.apart, by simp, ?_⟩
    intro a ha b hb
    simp only [List.mem_singleton] at hb
    subst hb
    exact hs a ha

theorem inv_handle {H : Hash} {st : St} (h : Inv H st) {e : Ev} {q : List Ev} (hq : st.queue = e :: q) :
    ∃ st', step H st .handle = (some (e.stack, some e.stack), st') ∧ Inv H st' ∧ st'.queue = q := by
  obtain ⟨h1, h2⟩ := h.held e (by rw [hq]; simp)
  have hap := h.apart
  rw [hq, List.pairwise_cons] at hap
  refine ⟨⟨set st.map (H.bucket e.stack) none, q⟩, by simp [step, hq, h1, fetch, h2], ?_, rfl⟩
  refine ⟨?_, ?_, hap.2⟩
  · intro x hx
    obtain ⟨h3, h4⟩ := h.held x (by rw [hq]; simp [hx])
    refine ⟨h3, ?_⟩
    have := hap.1 x hx
    simp only [set]
    rw [if_neg (fun h => this h.symm)]
    exact h4
  · intro i b hi
    simp only [set] at hi
    split at hi
    · cases hi
    · rename_i hne
      obtain ⟨x, hx, hb⟩ := h.only i b hi
      rw [hq] at hx
      rcases List.mem_cons.mp hx with rfl | hx
      · exact absurd hb.symm hne
      · exact ⟨x, hx, hb⟩

theorem own_of_inv (H : Hash) : ∀ (ops : List Op) (st : St), Inv H st → Apart H (st.queue.map Ev.stack) ops →
    (∀ r ∈ run H st ops, r.2 = some r.1) ∧ (run H st ops).map Prod.fst <+: st.queue.map Ev.stack ++ emitted ops
  | [], st, _, _ => by simp [run]
  | .skip :: os, st, _, ha => by simp [Apart] at ha
  | .emit s :: os, st, h, ha => by
    obtain ⟨hs, ha⟩ := ha
    obtain ⟨st', h1, h2, h3⟩ := inv_emit h (s := s) fun e he => hs _ (List.mem_map_of_mem he)
    have hq : st'.queue.map Ev.stack = st.queue.map Ev.stack ++ [s] := by rw [h3]; simp
    obtain ⟨i1, i2⟩ := own_of_inv H os st' h2 (by rw [hq]; exact ha)
    rw [run, h1]
    refine ⟨i1, ?_⟩
    rw [hq] at i2
    simpa [emitted] using i2
  | .handle :: os, st, h, ha => by
    cases hq : st.queue with
    | nil =>
      have h1 : step H st .handle = (none, st) := by simp [step, hq]
      rw [hq] at ha
      have := own_of_inv H os st h (by rw [hq]; exact ha)
      rw [run, h1, ← hq]
      simpa [emitted] using this
    | cons e q =>
      obtain ⟨st', h1, h2, h3⟩ := inv_handle h hq
      rw [hq] at ha
      obtain ⟨i1, i2⟩ := own_of_inv H os st' h2 (by rw [h3]; exact ha)
      rw [run, h1]
      refine ⟨?_, ?_⟩
      · intro r hr
        rcases List.mem_cons.mp hr with rfl | hr
        · rfl
        · exact i1 r hr
      · rw [h3] at i2
        simpa [emitted] using i2

/-- **C59.** The events are shown in the order they were submitted, and each with its own stack, if no event is submitted
while another one with a stack of the same bucket waits in the ring buffer and no event is dropped. -/
theorem own_stack_partial (H : Hash) (ops : List Op) (h : Apart H [] ops) :
    (∀ r ∈ run H init ops, r.2 = some r.1) ∧ (run H init ops).map Prod.fst <+: emitted ops := by
  have := own_of_inv H ops init ⟨by simp [init], by simp [init], by simp [init]⟩ h
  simpa [init] using this

/-- Events that are shown before the next is submitted always have their stacks, also if they are the same. -/
theorem one_by_one (H : Hash) (ss : List Stack) : Apart H [] (ss.flatMap fun s => [.emit s, .handle]) := by
  induction ss with
  | nil => trivial
  | cons s ss ih => exact ⟨by simp, ih⟩

/-- **C59 violated**: of two events with the same stack that are in the ring buffer together, the second is shown without
a stack, because showing the first deletes it. -/
theorem second_lost_violated (H : Hash) (s : Stack) :
    run H init [.emit s, .emit s, .handle, .handle] = [(s, some s), (s, none)] := by
  simp [run, step, capture, fetch, init, set]

/-- **C59 violated**: if a third event, with another stack of the same bucket, is submitted in between, the second event
is shown with the stack of the third. -/
theorem foreign_stack_violated (H : Hash) (s s' : Stack) (hb : H.bucket s = H.bucket s') :
    run H init [.emit s, .emit s, .handle, .emit s', .handle] = [(s, some s), (s, some s')] := by
  simp [run, step, capture, fetch, init, set, hb]

/-- **C59 violated**: two different stacks of one hash are not told apart. -/
theorem collision_violated (H : Hash) (s s' : Stack) (hb : H.h s = H.h s') :
    run H init [.emit s, .emit s', .handle] = [(s, some s)] ∧
    run H init [.emit s, .emit s', .skip, .handle] = [(s', some s)] := by
  have : H.bucket s = H.bucket s' := by simp [Hash.bucket, hb]
  constructor <;> simp [run, step, capture, fetch, init, set, this, hb]

/-- A bucket that holds a stack is not given up as long as no event with the hash of that stack comes. -/
theorem kept_bucket (H : Hash) (i : Nat) (b : Bucket) : ∀ (ops : List Op) (st : St), st.map i = some b →
    (∀ e ∈ st.queue, e.id ≠ some i) → (∀ s ∈ emitted ops, H.bucket s = i → H.h s ≠ b.hash) →
    (∀ e ∈ st.queue, H.bucket e.stack = i → e.id = none) →
    ∀ r ∈ run H st ops, H.bucket r.1 = i → r.2 = none
  | [], st, _, _, _, _ => by simp [run]
  | .skip :: os, st, hm, hq, he, hi => by
    show ∀ r ∈ run H ⟨st.map, st.queue.tail⟩ os, _
    exact kept_bucket H i b os _ hm (fun e h => hq e (List.mem_of_mem_tail h)) he (fun e h => hi e (List.mem_of_mem_tail h))
  | .handle :: os, st, hm, hq, he, hi => by
    have he' : ∀ s ∈ emitted os, H.bucket s = i → H.h s ≠ b.hash := he
    cases hqq : st.queue with
    | nil =>
      have h1 : step H st .handle = (none, st) := by simp [step, hqq]
      rw [run, h1]
      exact kept_bucket H i b os st hm hq he' hi
    | cons e q =>
      have hq' : ∀ x ∈ q, x.id ≠ some i := fun x hx => hq x (by rw [hqq]; simp [hx])
      have hi' : ∀ x ∈ q, H.bucket x.stack = i → x.id = none := fun x hx => hi x (by rw [hqq]; simp [hx])
      cases hid : e.id with
      | none =>
        have h1 : step H st .handle = (some (e.stack, none), ⟨st.map, q⟩) := by simp [step, hqq, hid]
        rw [run, h1]
        intro r hr
        rcases List.mem_cons.mp hr with rfl | hr
        · intro _; rfl
        · exact kept_bucket H i b os ⟨st.map, q⟩ hm hq' he' hi' r hr
      | some j =>
        have hj : j ≠ i := fun h => hq e (by rw [hqq]; simp) (by rw [hid, h])
        have h1 : step H st .handle = (some (e.stack, (st.map j).map Bucket.ips), ⟨set st.map j none, q⟩) := by
          simp [step, hqq, hid, fetch]
        rw [run, h1]
        intro r hr
        rcases List.mem_cons.mp hr with rfl | hr
        · intro hb
          have := hi e (by rw [hqq]; simp) hb
          rw [hid] at this; cases this
        · exact kept_bucket H i b os _ (by simp [set, hj.symm, hm]) hq' he' hi' r hr
  | .emit s :: os, st, hm, hq, he, hi => by
    have he1 : H.bucket s = i → H.h s ≠ b.hash := he s (by simp [emitted])
    have he' : ∀ s ∈ emitted os, H.bucket s = i → H.h s ≠ b.hash := fun x hx => he x (by simpa [emitted] using Or.inr (by simpa [emitted] using hx))
    by_cases hb : H.bucket s = i
    · have h1 : step H st (.emit s) = (none, ⟨st.map, st.queue ++ [⟨s, none⟩]⟩) := by
        simp only [step, capture, hb, hm]
        rw [if_neg (fun h => he1 hb h.symm)]
      rw [run, h1]
      refine kept_bucket H i b os _ hm ?_ he' ?_
      · intro e h
        rcases List.mem_append.mp h with h | h
        · exact hq e h
        · simp only [List.mem_singleton] at h; subst h; simp
      · intro e h
        rcases List.mem_append.mp h with h | h
        · exact hi e h
        · simp only [List.mem_singleton] at h; subst h; simp
    · have h1 : ∃ m id, step H st (.emit s) = (none, ⟨m, st.queue ++ [⟨s, id⟩]⟩) ∧ m i = some b ∧ id ≠ some i := by
        have hne : ¬ i = H.bucket s := fun h => hb h.symm
        simp only [step, capture]
        cases hs : st.map (H.bucket s) with
        | none => exact ⟨_, _, rfl, by simp [set, hne, hm], by simpa using hb⟩
        | some c =>
          by_cases hc : c.hash = H.h s
          · simp only [hc, if_true]; exact ⟨_, _, rfl, hm, by simpa using hb⟩
          · simp only [hc, if_false]; exact ⟨_, _, rfl, hm, by simp⟩
      obtain ⟨m, id, h1, h2, h3⟩ := h1
      rw [run, h1]
      refine kept_bucket H i b os _ h2 ?_ he' ?_
      · intro e h
        rcases List.mem_append.mp h with h | h
        · exact hq e h
        · simp only [List.mem_singleton] at h; subst h; exact h3
      · intro e h
        rcases List.mem_append.mp h with h | h
        · exact hi e h
        · simp only [List.mem_singleton] at h; subst h; exact fun h => absurd h hb

/-- **C59 violated**: the stack of a dropped event stays in the map; from then on no event with another stack of that
bucket is shown with its stack, until an event with the stack of the dropped one is shown. -/
theorem dropped_blocks_violated (H : Hash) (s : Stack) (ops : List Op)
    (h : ∀ x ∈ emitted ops, H.bucket x = H.bucket s → H.h x ≠ H.h s) :
    ∀ r ∈ run H init ([.emit s, .skip] ++ ops), H.bucket r.1 = H.bucket s → r.2 = none := by
  have hr : run H init ([.emit s, .skip] ++ ops) = run H ⟨set (fun _ => none) (H.bucket s) (some ⟨H.h s, s⟩), []⟩ ops := by
    simp [run, step, capture, init]
  rw [hr]
  exact kept_bucket H (H.bucket s) ⟨H.h s, s⟩ ops _ (by simp [set]) (by simp) h (by simp)

/-- Non-vacuity: two events with stacks of different buckets wait together and both are shown rightly. -/
theorem own_stack_witness : Apart ⟨List.sum, 256⟩ [] [.emit [1, 2], .emit [4, 5], .handle, .handle] ∧
    run ⟨List.sum, 256⟩ init [.emit [1, 2], .emit [4, 5], .handle, .handle] = [([1, 2], some [1, 2]), ([4, 5], some [4, 5])] := by
  refine ⟨⟨by simp, by decide, trivial⟩, by decide +kernel⟩

example : frames false (fun a => if a = 2 then "bpf_trampoline_6442" else "f") [1, 2, 3, 0, 4] true = [3, 4] := by decide +kernel

end Bpfsnoop.Stk
