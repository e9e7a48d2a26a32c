import Verif.Model.StackConc
import Verif.Props.KSess

/-!
C94: the depth of a graph event when programs interrupt each other.
-/
namespace Bpfsnoop.Sk

/-! ## Specification -/

/-- Run `i` is using the buffer of CPU `c`: it has begun to fill it and is not done. -/
def Uses (w : World) (i c : Nat) : Prop :=
  ∃ r, w.runs i = some r ∧ r.cpu = c ∧ match r.pc with
    | .copy j => 0 < j
    | .walk .. => True
    | .done _ => False

/-- Run `j` is about to write a word of its stack into the buffer of CPU `c`. -/
def Writes (mx : Nat) (w : World) (j c : Nat) : Prop :=
  ∃ r k, w.runs j = some r ∧ r.cpu = c ∧ r.pc = .copy k ∧ k < r.nr mx

/-- While run `i` uses the buffer of its CPU no other run writes into it, and there is only one run of that number. Everything else is allowed: any
program on another CPU, programs that interrupt it before or after, and those that do not capture a stack. -/
def Alone (fip : Addr → Addr) (mx i c : Nat) : World → List Act → Prop
  | _, [] => True
  | w, a :: as => (match a with
      | .start j _ => j ≠ i
      | .go j => j ≠ i → Writes mx w j c → ¬ Uses w i c) ∧ Alone fip mx i c (step fip mx w a) as

/-! ## One run -/

theorem goto_self (w : World) (i : Nat) (r : Run) (pc : Pc) : (w.goto i r pc).runs i = some { r with pc := pc } := by simp [World.goto]

theorem goto_other (w : World) {i j : Nat} (h : j ≠ i) (r : Run) (pc : Pc) : (w.goto i r pc).runs j = w.runs j := by simp [World.goto, h]

/-- What is true of a run nobody disturbs: `s` is what it walks. -/
def Good (fip : Addr → Addr) (mx : Nat) (s : List Addr) (w : World) (r : Run) : Prop :=
  match r.pc with
  | .copy j => s = r.stack.take mx ∧ j ≤ r.nr mx ∧ ∀ k, k < j → s[k]? = some (w.buf r.cpu k)
  | .walk k after d => s.length = r.nr mx ∧ (∀ m, m < r.nr mx → s[m]? = some (w.buf r.cpu m)) ∧
      KSess.walk fip r.sess r.cur r.maxDepth after d (s.drop k) = KSess.walk fip r.sess r.cur r.maxDepth false 1 s
  | .done x => x = KSess.walk fip r.sess r.cur r.maxDepth false 1 s

/-- Runs differ at most in their place. -/
def Same (r r' : Run) : Prop := ∃ pc, r' = { r with pc := pc }

theorem take_nr (mx : Nat) (r : Run) : (r.stack.take mx).length = r.nr mx := by simp [Run.nr, Nat.min_comm]

theorem own_good (fip : Addr → Addr) (mx : Nat) (s : List Addr) (w : World) (i : Nat) (r : Run) (hr : w.runs i = some r) (h : Good fip mx s w r) :
    ∃ r', (advance fip mx w i r).runs i = some r' ∧ Same r r' ∧ Good fip mx s (advance fip mx w i r) r' := by
  unfold advance
  cases hp : r.pc with
  | done x =>
    exact ⟨r, hr, ⟨r.pc, rfl⟩, h⟩
  | copy j =>
    have h' := h
    unfold Good at h'
    rw [hp] at h'
    obtain ⟨hs, h1, h2⟩ := h'
    have hl : s.length = r.nr mx := by rw [hs, take_nr]
    have hw : j = r.nr mx → Good fip mx s (w.goto i r (.walk 0 false 1)) { r with pc := .walk 0 false 1 } := fun e =>
      ⟨hl, fun m hm => h2 m (e ▸ hm), by simp⟩
    dsimp only
    split
    · rename_i hj
      split
      · rename_i hm
        refine ⟨_, goto_self .., ⟨_, rfl⟩, ?_⟩
        refine ⟨hs, by unfold Run.nr; simp only; omega, fun k hk => ?_⟩
        simp only [World.goto, World.put, true_and]
        by_cases e : k = j
        · subst e
          rw [if_pos rfl, hs, List.getElem?_take_of_lt hm]
          exact List.getElem?_eq_getElem hj
        · rw [if_neg e]; exact h2 k (by omega)
      · rename_i hm
        exact ⟨_, goto_self .., ⟨_, rfl⟩, hw (by unfold Run.nr at *; omega)⟩
    · rename_i hj
      split
      · rename_i e
        refine ⟨_, goto_self .., ⟨_, rfl⟩, ?_⟩
        have : r.stack = [] := List.length_eq_zero_iff.mp (by omega)
        show _ = _
        rw [hs, this, List.take_nil]
        rfl
      · exact ⟨_, goto_self .., ⟨_, rfl⟩, hw (by unfold Run.nr at *; omega)⟩
  | walk k after d =>
    have h' := h
    unfold Good at h'
    rw [hp] at h'
    obtain ⟨hl, h1, h2⟩ := h'
    dsimp only
    split
    · rename_i hk
      refine ⟨_, goto_self .., ⟨_, rfl⟩, ?_⟩
      have hkl : k < s.length := by rw [hl]; exact hk
      have hb : s[k] = w.buf r.cpu k := by
        have h3 := h1 k hk
        rw [List.getElem?_eq_getElem hkl] at h3
        exact Option.some.inj h3
      rw [List.drop_eq_getElem_cons hkl, hb, KSess.walk] at h2
      unfold look
      dsimp only at h2 ⊢
      by_cases hf : fip (w.buf r.cpu k) = 0
      · rw [if_pos hf] at h2 ⊢
        exact ⟨hl, h1, h2⟩
      · rw [if_neg hf] at h2 ⊢
        cases after with
        | true =>
          rw [if_pos rfl] at h2 ⊢
          by_cases hs : r.sess (fip (w.buf r.cpu k)) ≠ 0
          · rw [if_pos hs] at h2 ⊢
            exact h2
          · rw [if_neg hs] at h2 ⊢
            by_cases hd : d + 1 > r.maxDepth
            · rw [if_pos hd] at h2 ⊢
              exact h2
            · rw [if_neg hd] at h2 ⊢
              exact ⟨hl, h1, h2⟩
        | false =>
          rw [if_neg (by simp)] at h2 ⊢
          by_cases hc : fip (w.buf r.cpu k) = r.cur
          · rw [if_pos hc] at h2 ⊢
            exact ⟨hl, h1, h2⟩
          · rw [if_neg hc] at h2 ⊢
            exact ⟨hl, h1, h2⟩
    · rename_i hk
      refine ⟨_, goto_self .., ⟨_, rfl⟩, ?_⟩
      rw [List.drop_of_length_le (by rw [hl]; omega), KSess.walk] at h2
      exact h2

/-- Another run's step changes the buffer of a CPU only as said. -/
theorem other_buf (fip : Addr → Addr) (mx : Nat) (w : World) (j : Nat) (r : Run) (hr : w.runs j = some r) (c k : Nat)
    (h : (advance fip mx w j r).buf c k ≠ w.buf c k) : Writes mx w j c := by
  unfold advance at h
  split at h
  · rename_i n hp
    split at h
    · rename_i hj
      split at h
      · rename_i hm
        simp only [World.goto, World.put] at h
        split at h
        · rename_i e
          exact ⟨r, n, hr, e.1.symm, hp, by unfold Run.nr; omega⟩
        · exact absurd rfl h
      · exact absurd rfl h
    · split at h <;> exact absurd rfl h
  · split at h <;> exact absurd rfl h
  · exact absurd rfl h

theorem other_runs (fip : Addr → Addr) (mx : Nat) (w : World) {i j : Nat} (hij : i ≠ j) (r : Run) : (advance fip mx w j r).runs i = w.runs i := by
  unfold advance
  split
  · split
    · split
      · rw [goto_other _ hij]; rfl
      · rw [goto_other _ hij]
    · split <;> rw [goto_other _ hij]
  · split <;> rw [goto_other _ hij]
  · rfl

theorem good_buf (fip : Addr → Addr) (mx : Nat) (s : List Addr) (w w' : World) (i : Nat) (r : Run) (hr : w.runs i = some r) (h : Good fip mx s w r)
    (hb : Uses w i r.cpu → ∀ k, w'.buf r.cpu k = w.buf r.cpu k) : Good fip mx s w' r := by
  unfold Good at *
  cases hp : r.pc with
  | done x => rw [hp] at h; exact h
  | copy j =>
    rw [hp] at h
    refine ⟨h.1, h.2.1, fun k hk => ?_⟩
    rw [hb ⟨r, hr, rfl, by rw [hp]; show 0 < j; omega⟩]
    exact h.2.2 k hk
  | walk k a d =>
    rw [hp] at h
    refine ⟨h.1, fun m hm => ?_, h.2.2⟩
    rw [hb ⟨r, hr, rfl, by rw [hp]; trivial⟩]
    exact h.2.1 m hm

theorem exec_good (fip : Addr → Addr) (mx i : Nat) (s : List Addr) : ∀ (acts : List Act) (w : World) (r : Run), w.runs i = some r → Good fip mx s w r →
    Alone fip mx i r.cpu w acts → ∃ r', (exec fip mx w acts).runs i = some r' ∧ Same r r' ∧ Good fip mx s (exec fip mx w acts) r'
  | [], w, r, hr, h, _ => ⟨r, hr, ⟨r.pc, rfl⟩, h⟩
  | a :: as, w, r, hr, h, hal => by
    obtain ⟨h1, h2⟩ := hal
    have key : ∃ r', (step fip mx w a).runs i = some r' ∧ Same r r' ∧ Good fip mx s (step fip mx w a) r' := by
      cases a with
      | start j q =>
        refine ⟨r, ?_, ⟨r.pc, rfl⟩, ?_⟩
        · show (w.goto j q (.copy 0)).runs i = _
          rw [goto_other _ (Ne.symm h1), hr]
        · exact good_buf fip mx s w _ i r hr h fun _ _ => rfl
      | go j =>
        by_cases hj : j = i
        · subst hj
          simp only [step, hr]
          exact own_good fip mx s w j r hr h
        · cases hq : w.runs j with
          | none =>
            simp only [step, hq]
            exact ⟨r, hr, ⟨r.pc, rfl⟩, h⟩
          | some q =>
            simp only [step, hq]
            refine ⟨r, ?_, ⟨r.pc, rfl⟩, ?_⟩
            · rw [other_runs fip mx w (Ne.symm hj), hr]
            · refine good_buf fip mx s w _ i r hr h fun hu k => ?_
              apply Classical.byContradiction
              intro hc
              exact h1 hj (other_buf fip mx w j q hq _ _ hc) hu
    obtain ⟨r1, hr1, ⟨pc, rfl⟩, hg⟩ := key
    obtain ⟨r2, hr2, ⟨pc', rfl⟩, hg2⟩ := exec_good fip mx i s as _ _ hr1 hg h2
    exact ⟨_, hr2, ⟨pc', rfl⟩, hg2⟩

theorem result_good (fip : Addr → Addr) (mx : Nat) (s : List Addr) (w : World) (i : Nat) (r : Run) (hr : w.runs i = some r) (h : Good fip mx s w r)
    (x : Option (Addr × Nat)) (hx : w.result i = some x) : x = KSess.walk fip r.sess r.cur r.maxDepth false 1 s := by
  unfold World.result at hx
  rw [hr] at hx
  dsimp only at hx
  split at hx
  · rename_i y hy
    cases hx
    unfold Good at h
    rw [hy] at h
    exact h
  · cases hx

/-! ## The property -/

/-- **C94.** Whatever is going on, a run whose buffer is not written by another run while it uses it finds the session and the depth that its own stack
tells: `sid` is the session of the innermost enclosing traced call that has one, and there are `d - 1` traced calls in between. -/
theorem stack_kept_partial (fip : Addr → Addr) (mx i : Nat) (w : World) (r : Run) (acts : List Act) (hcur : r.cur ≠ 0)
    (hal : Alone fip mx i r.cpu (step fip mx w (.start i r)) acts) (x : Option (Addr × Nat))
    (hx : (exec fip mx w (.start i r :: acts)).result i = some x) (sid : BitVec 64) (d : Nat) :
    x = some (sid, d) ↔ KSess.GraphSpec fip r.sess r.cur (r.stack.take mx) sid d ∧ (d ≤ r.maxDepth ∨ d = 1) := by
  obtain ⟨r', hr, ⟨pc, rfl⟩, hg⟩ := exec_good fip mx i (r.stack.take mx) acts _ _ (goto_self w i r (.copy 0))
    ⟨rfl, Nat.zero_le _, fun k hk => absurd hk (by omega)⟩ hal
  have e := result_good fip mx _ _ i _ hr hg x hx
  rw [e]
  exact KSess.graph_depth_iff fip r.sess r.cur hcur r.maxDepth mx r.stack sid d

theorem adv_cpu (fip : Addr → Addr) (mx : Nat) (w : World) (i : Nat) (r : Run) (hr : w.runs i = some r) (r' : Run)
    (h : (advance fip mx w i r).runs i = some r') : r'.cpu = r.cpu := by
  have key : ∀ (w' : World) pc, (w'.goto i r pc).runs i = some r' → r'.cpu = r.cpu := fun w' pc h => by
    rw [goto_self] at h
    cases h
    rfl
  unfold advance at h
  split at h
  · split at h
    · split at h <;> exact key _ _ h
    · split at h <;> exact key _ _ h
  · split at h <;> exact key _ _ h
  · rw [hr] at h
    cases h
    rfl

/-- A run is never disturbed by programs on other CPUs. -/
theorem other_cpus (fip : Addr → Addr) (mx i : Nat) (c : Nat) : ∀ (acts : List Act) (w : World),
    (∀ j q, j ≠ i → w.runs j = some q → q.cpu ≠ c) → (∀ j q, .start j q ∈ acts → j ≠ i ∧ q.cpu ≠ c) → Alone fip mx i c w acts
  | [], _, _, _ => trivial
  | a :: as, w, h1, h2 => by
    refine ⟨?_, other_cpus fip mx i c as _ ?_ fun j q hq => h2 j q (List.mem_cons_of_mem _ hq)⟩
    · cases a with
      | start j q => exact (h2 j q (List.mem_cons_self ..)).1
      | go j =>
        rintro hj ⟨q, _, hq, hc, _⟩
        exact absurd hc (h1 j q hj hq)
    · intro j q hj hq
      cases a with
      | start j' q' =>
        simp only [step, World.goto] at hq
        split at hq
        · cases hq
          exact (h2 j' q' (List.mem_cons_self ..)).2
        · exact h1 j q hj hq
      | go j' =>
        simp only [step] at hq
        cases hw : w.runs j' with
        | none => rw [hw] at hq; exact h1 j q hj hq
        | some q' =>
          rw [hw] at hq
          dsimp only at hq
          by_cases e : j = j'
          · subst e
            have := adv_cpu fip mx w j q' hw q hq
            rw [this]
            exact h1 j q' hj hw
          · rw [other_runs fip mx w e] at hq
            exact h1 j q hj hq

/-- **Violated**: what a run walks is what is in the buffer then, not its own stack. -/
theorem walks_buffer_violated (fip : Addr → Addr) (mx i : Nat) (w : World) (r : Run) (acts : List Act) (hr : w.runs i = some r)
    (hp : r.pc = .walk 0 false 1) (hcur : r.cur ≠ 0) (hal : Alone fip mx i r.cpu w acts) (x : Option (Addr × Nat))
    (hx : (exec fip mx w acts).result i = some x) (sid : BitVec 64) (d : Nat) :
    x = some (sid, d) ↔ KSess.GraphSpec fip r.sess r.cur ((List.range (r.nr mx)).map (w.buf r.cpu)) sid d ∧ (d ≤ r.maxDepth ∨ d = 1) := by
  have hg : Good fip mx ((List.range (r.nr mx)).map (w.buf r.cpu)) w r := by
    unfold Good
    rw [hp]
    refine ⟨by simp, fun m hm => by simp [hm], by simp⟩
  obtain ⟨r', hr', ⟨pc, rfl⟩, hg'⟩ := exec_good fip mx i _ acts w r hr hg hal
  have e := result_good fip mx _ _ i _ hr' hg' x hx
  have hd := KSess.graph_depth_iff fip r.sess r.cur hcur r.maxDepth (r.nr mx) ((List.range (r.nr mx)).map (w.buf r.cpu)) sid d
  rw [KSess.tryGetSession, List.take_of_length_le (by simp)] at hd
  rw [e]
  exact hd

/-! ## A run ends -/

/-- How many steps a run still takes at most. -/
def left (mx : Nat) (r : Run) : Nat :=
  match r.pc with
  | .copy j => 2 * r.nr mx + 2 - j
  | .walk k _ _ => r.nr mx + 1 - k
  | .done _ => 0

/-- The place lies in the stack; so it is at the start. -/
def Fits (mx : Nat) (r : Run) : Prop :=
  match r.pc with
  | .copy j => j ≤ r.nr mx
  | .walk k _ _ => k ≤ r.nr mx
  | .done _ => True

theorem own_left (fip : Addr → Addr) (mx : Nat) (w : World) (i : Nat) (r : Run) (hr : w.runs i = some r) (hj : Fits mx r) :
    ∃ r', (advance fip mx w i r).runs i = some r' ∧ left mx r' ≤ left mx r - 1 ∧ Fits mx r' := by
  unfold advance
  cases hp : r.pc with
  | done x => exact ⟨r, hr, by simp [left, hp], hj⟩
  | copy j =>
    have hj' : j ≤ r.nr mx := by unfold Fits at hj; rw [hp] at hj; exact hj
    have hl : left mx r = 2 * r.nr mx + 2 - j := by unfold left; rw [hp]
    dsimp only
    split
    · split
      · refine ⟨_, goto_self .., ?_, ?_⟩
        · rw [hl]; simp only [left, Run.nr]; omega
        · simp only [Fits, Run.nr]; omega
      · refine ⟨_, goto_self .., ?_, by simp [Fits]⟩
        rw [hl]; simp only [left, Run.nr] at *; omega
    · split
      · exact ⟨_, goto_self .., by simp [left], by simp [Fits]⟩
      · refine ⟨_, goto_self .., ?_, by simp [Fits]⟩
        rw [hl]; simp only [left, Run.nr] at *; omega
  | walk k a d =>
    have hl : left mx r = r.nr mx + 1 - k := by unfold left; rw [hp]
    dsimp only
    split
    · rename_i hk
      have hlk : ∀ ip, (∃ a' d', look fip r k a d ip = .walk (k + 1) a' d') ∨ ∃ x, look fip r k a d ip = .done x := fun ip => by
        unfold look
        dsimp only
        repeat' split
        all_goals first | exact .inl ⟨_, _, rfl⟩ | exact .inr ⟨_, rfl⟩
      refine ⟨_, goto_self .., ?_, ?_⟩
      · rw [hl]
        rcases hlk (w.buf r.cpu k) with ⟨a', d', e⟩ | ⟨x, e⟩ <;> rw [e] <;> simp only [left, Run.nr] <;> omega
      · rcases hlk (w.buf r.cpu k) with ⟨a', d', e⟩ | ⟨x, e⟩ <;> rw [e] <;> simp only [Fits, Run.nr] at * <;> omega
    · exact ⟨_, goto_self .., by simp [left], by simp [Fits]⟩

/-- **C94.** Whatever the others do, a run ends after at most `2 * min (length of the stack) STACK_DEPTH + 2` steps of its own. -/
theorem ends (fip : Addr → Addr) (mx i : Nat) : ∀ (acts : List Act) (w : World) (r : Run), w.runs i = some r → Fits mx r →
    (∀ j q, .start j q ∈ acts → j ≠ i) → left mx r ≤ (acts.filter fun | .go j => j = i | .start .. => false).length →
    ∃ x, (exec fip mx w acts).result i = some x
  | [], w, r, hr, _, _, hn => by
    simp only [List.filter_nil, List.length_nil, Nat.le_zero_eq] at hn
    rename_i hf _
    unfold left at hn
    unfold Fits at hf
    cases hp : r.pc with
    | done x => exact ⟨x, by simp [exec, World.result, hr, hp]⟩
    | copy j => rw [hp] at hn hf; simp only at hn hf; omega
    | walk k a d => rw [hp] at hn hf; simp only at hn hf; omega
  | a :: as, w, r, hr, hf, hs, hn => by
    have hs' : ∀ j q, .start j q ∈ as → j ≠ i := fun j q h => hs j q (List.mem_cons_of_mem _ h)
    cases a with
    | start j q =>
      have hj := hs j q (List.mem_cons_self ..)
      exact ends fip mx i as _ r (by simp only [step]; rw [goto_other _ (Ne.symm hj), hr]) hf hs' (by simpa using hn)
    | go j =>
      by_cases hj : j = i
      · subst hj
        obtain ⟨r', h1, h2, h3⟩ := own_left fip mx w j r hr hf
        refine ends fip mx j as _ r' (by simp only [step, hr]; exact h1) h3 hs' ?_
        simp at hn
        omega
      · refine ends fip mx i as _ r ?_ hf hs' (by simpa [hj] using hn)
        cases hq : w.runs j with
        | none => simp only [step, hq, hr]
        | some q => simp only [step, hq]; rw [other_runs fip mx w (Ne.symm hj), hr]

/-! ## Examples -/

def exFip : Addr → Addr := fun x => if x ∈ [5#64, 6#64, 7#64, 8#64] then x else 0

/-- A call of 7 inside 6 inside the root 5, on CPU 3. -/
def exRun : Run := ⟨3, 7, 5, fun f => if f = 5 then 42 else 0, [100, 7, 101, 6, 102, 5], .copy 0⟩

/-- A call of 8 in another task. -/
def exOther (cpu : Nat) (stack : List Addr) : Run := ⟨cpu, 8, 5, fun _ => 0, stack, .copy 0⟩

def exWorld : World := ⟨fun _ _ => 77, fun _ => none⟩

def gos (i n : Nat) : List Act := List.replicate n (.go i)

/-- The other program runs on another CPU in the middle, or on the same CPU before and after: the depth is 2. -/
theorem stack_kept_witness :
    (exec exFip 127 exWorld (.start 0 exRun :: gos 0 3 ++ .start 1 (exOther 4 [8, 7, 5]) :: gos 1 8 ++ gos 0 14)).result 0 = some (some (42, 2)) ∧
    (exec exFip 127 exWorld (.start 1 (exOther 3 [8, 7, 5]) :: .start 0 exRun :: gos 1 8 ++ gos 0 14 ++ .start 2 (exOther 3 [1]) :: gos 2 4)).result 0 =
      some (some (42, 2)) := by
  constructor <;> decide +kernel

/-- **Violated**: a program on the same CPU captures its stack in between. The depth shown is 1 instead of 2, or the event is lost. -/
theorem stack_mixed_violated :
    (exec exFip 127 exWorld (.start 0 exRun :: gos 0 7 ++ .start 1 (exOther 3 [8, 7, 5]) :: gos 1 8 ++ gos 0 7)).result 0 = some (some (42, 1)) ∧
    (exec exFip 127 exWorld (.start 0 exRun :: gos 0 7 ++ .start 1 (exOther 3 [1, 2, 3, 4, 8, 9]) :: gos 1 14 ++ gos 0 7)).result 0 = some none := by
  constructor <;> decide +kernel

/-- The hypotheses of `stack_kept_partial` hold of the first history of the witness. -/
example : Alone exFip 127 0 3 (step exFip 127 exWorld (.start 0 exRun)) (gos 0 3 ++ .start 1 (exOther 4 [8, 7, 5]) :: gos 1 8 ++ gos 0 14) :=
  other_cpus exFip 127 0 3 _ _ (fun j q hj hq => by
    simp [step, World.goto, hj, exWorld] at hq) (fun j q hq => by
    simp [gos] at hq
    obtain ⟨rfl, rfl⟩ := hq
    decide)

end Bpfsnoop.Sk
