import Verif.Model.Cache
/-
C34 (debug-symbol cache), C44 (symbol loader under every schedule), C45 (KASLR translation),
C46 (addresses without a symbol).
-/
namespace Bpfsnoop.Cache

/-! ### C34 -/

/-- `(a, v)` was passed to `add` by some process in the history. -/
def Added (ops : List Op) (a v : Nat) : Prop := ∃ p o, Op.add p a v o ∈ ops

/-- Every value held on disk or in memory satisfies `P`. -/
structure AllVals (P : Nat → Nat → Prop) (s : St) : Prop where
  file : ∀ m, s.file = .data m → ∀ a v, m a = some v → P a v
  procs : ∀ p q, s.procs p = some q → ∀ a v, q.cache a = some v → P a v

theorem setProc_vals {P : Nat → Nat → Prop} {s : St} (h : AllVals P s) (p : Nat) (q : Option Proc)
    (hq : ∀ q', q = some q' → ∀ a v, q'.cache a = some v → P a v) :
    ∀ p' q', setProc s.procs p q p' = some q' → ∀ a v, q'.cache a = some v → P a v := by
  intro p' q' hp
  simp only [setProc] at hp
  split at hp
  · exact hq q' hp
  · exact h.procs p' q' hp

theorem step_vals {P : Nat → Nat → Prop} {s : St} (h : AllVals P s) (op : Op)
    (hadd : ∀ p a v o, op = .add p a v o → P a v) : AllVals P (step s op) := by
  cases op with
  | start p =>
    simp only [step]
    cases hl : load s.file with
    | none => exact ⟨h.file, setProc_vals h p none (by simp)⟩
    | some m =>
      refine ⟨h.file, setProc_vals h p _ ?_⟩
      intro q' hq'
      simp only [Option.some.injEq] at hq'
      subst hq'
      intro a v hv
      cases hf : s.file with
      | absent => simp only [hf, load, Option.some.injEq] at hl; subst hl; simp at hv
      | corrupt => simp [hf, load] at hl
      | data m' => simp only [hf, load, Option.some.injEq] at hl; subst hl; exact h.file _ hf a v hv
  | add p a v o =>
    simp only [step]
    cases hp : s.procs p with
    | none => exact h
    | some q =>
      simp only [add]
      cases hc : q.cache a with
      | some _ => exact h
      | none =>
        have hq' : ∀ a' v', (q.cache.set a v) a' = some v' → P a' v' := by
          intro a' v' hv
          simp only [Map.set] at hv
          split at hv
          · rename_i he; subst he; simp only [Option.some.injEq] at hv; subst hv; exact hadd p _ _ o rfl
          · exact h.procs p q hp a' v' hv
        have hset : ∀ p' q', setProc s.procs p (some ⟨q.cache.set a v, q.newEntriesCnt + 1⟩) p' = some q' →
            ∀ a v, q'.cache a = some v → P a v := setProc_vals h p _ (by
          intro q2 h2; simp only [Option.some.injEq] at h2; subst h2; exact hq')
        have hnone : ∀ p' q', setProc s.procs p none p' = some q' → ∀ a v, q'.cache a = some v → P a v :=
          setProc_vals h p none (by simp)
        simp only
        split
        · cases o with
          | ok => exact ⟨by intro m hm; simp only [save, File.data.injEq] at hm; subst hm; exact hq', hset⟩
          | failed => exact ⟨h.file, hset⟩
          | killedBefore => exact ⟨h.file, hnone⟩
          | killedAfter => exact ⟨by intro m hm; simp only [save, File.data.injEq] at hm; subst hm; exact hq', hnone⟩
        · exact ⟨h.file, hset⟩
  | kill p => exact ⟨h.file, setProc_vals h p none (by simp)⟩
  | powerLoss torn =>
    refine ⟨?_, by simp [step]⟩
    intro m hm
    simp only [step] at hm
    split at hm
    · simp at hm
    · exact h.file m hm
  | sync => exact ⟨h.file, h.procs⟩

theorem runOps_snoc (s : St) (ops : List Op) (op : Op) : runOps s (ops ++ [op]) = step (runOps s ops) op := by
  simp [runOps, List.foldl_append]

theorem AllVals.mono {P Q : Nat → Nat → Prop} {s : St} (h : AllVals P s) (hpq : ∀ a v, P a v → Q a v) :
    AllVals Q s :=
  ⟨fun m hm a v hv => hpq a v (h.file m hm a v hv), fun p q hp a v hv => hpq a v (h.procs p q hp a v hv)⟩

theorem runOps_vals {P : Nat → Nat → Prop} (ops : List Op) {s : St} (h : AllVals P s)
    (hadd : ∀ a v, Added ops a v → P a v) : AllVals P (runOps s ops) := by
  induction ops generalizing s with
  | nil => exact h
  | cons op ops ih =>
    refine ih (step_vals h op ?_) ?_
    · rintro p a v o rfl; exact hadd a v ⟨p, o, by simp⟩
    · rintro a v ⟨p, o, hm⟩; exact hadd a v ⟨p, o, by simp [hm]⟩

/-- **C34, soundness.** After any interleaving of any number of processes that start, add, save (with any
outcome), crash, and of power losses, a lookup returns nothing or a value that was added earlier for
exactly that address. -/
theorem cache_sound (ops : List Op) (p a v : Nat) (h : get (runOps init ops) p a = some v) :
    Added ops a v := by
  have hv := runOps_vals (P := Added ops) ops (s := init)
    ⟨by simp [init], by simp [init]⟩ (fun _ _ h => h)
  simp only [get, Option.bind_eq_some_iff] at h
  obtain ⟨q, hq, hc⟩ := h
  exact hv.procs p q hq a v hc

/-- **C34, same kernel.** If all processes resolve addresses with the same symbol table `res` (same boot),
a lookup returns nothing or the right entry. -/
theorem cache_correct_same_kernel (res : Nat → Nat) (ops : List Op)
    (hres : ∀ p a v o, Op.add p a v o ∈ ops → v = res a) (p a v : Nat)
    (h : get (runOps init ops) p a = some v) : v = res a := by
  obtain ⟨p', o, hm⟩ := cache_sound ops p a v h
  exact hres p' a v o hm

/-- **C34, stability.** While a process runs, a cached answer never changes. -/
theorem cache_stable (s : St) (op : Op) (p a v : Nat) (h : get s p a = some v)
    (hp : (step s op).procs p ≠ none) (hstart : op ≠ .start p) : get (step s op) p a = some v := by
  have keep : ∀ q, s.procs p = some q → q.cache a = some v → ∀ p' (r : Option Proc),
      (∀ q', p' = p → r = some q' → q'.cache a = some v) →
      setProc s.procs p' r p ≠ none → (setProc s.procs p' r p).bind (fun q => q.cache a) = some v := by
    intro q hq hqa p' r hr hne
    simp only [setProc] at *
    split
    · rename_i he
      rw [if_pos he] at hne
      cases r with
      | none => simp at hne
      | some q' => exact hr q' he.symm rfl
    · simp [hq, hqa]
  simp only [get, Option.bind_eq_some_iff] at h
  obtain ⟨q, hq, hqa⟩ := h
  cases op with
  | start p' =>
    have hne : p' ≠ p := by rintro rfl; exact hstart rfl
    simp only [step] at hp ⊢
    cases hl : load s.file with
    | none =>
      rw [hl] at hp
      exact keep q hq hqa p' none (by intro q' h1; exact absurd h1 hne) hp
    | some m =>
      rw [hl] at hp
      exact keep q hq hqa p' _ (by intro q' h1; exact absurd h1 hne) hp
  | add p' a' v' o =>
    simp only [step] at hp ⊢
    cases hp' : s.procs p' with
    | none => simp [get, hq, hqa]
    | some q1 =>
      rw [hp'] at hp
      simp only [add] at hp ⊢
      cases hc : q1.cache a' with
      | some _ => simp [get, hq, hqa]
      | none =>
        rw [hc] at hp
        have hset : ∀ q', p' = p → some (⟨q1.cache.set a' v', q1.newEntriesCnt + 1⟩ : Proc) = some q' →
            q'.cache a = some v := by
          intro q' he h2
          simp only [Option.some.injEq] at h2; subst h2
          subst he
          rw [hp'] at hq; simp only [Option.some.injEq] at hq; subst hq
          simp only [Map.set]
          split
          · rename_i h3; subst h3; rw [hqa] at hc; simp at hc
          · exact hqa
        simp only at hp ⊢
        split at hp
        · rename_i hb
          rw [if_pos hb]
          cases o <;> simp only [save, get] at hp ⊢ <;>
            first
            | exact keep q hq hqa p' _ hset hp
            | exact keep q hq hqa p' none (by simp) hp
        · rename_i hb
          rw [if_neg hb]
          exact keep q hq hqa p' _ hset hp
  | kill p' => exact keep q hq hqa p' none (by simp) hp
  | powerLoss t => simp [step] at hp
  | sync => simp [step, get, hq, hqa]

/-- At most one process runs, and unsynced data is not torn by a power loss. -/
def Exclusive : St → List Op → Prop
  | _, [] => True
  | s, op :: ops =>
    (match op with
      | .start p => ∀ p', p' ≠ p → s.procs p' = none
      | .powerLoss torn => torn = true → s.synced = true
      | _ => True) ∧ Exclusive (step s op) ops

/-- The running process knows everything that is on disk. -/
def Covers (s : St) : Prop :=
  (∀ p p' q q', s.procs p = some q → s.procs p' = some q' → p = p') ∧
  ∀ p q, s.procs p = some q → ∀ m, s.file = .data m → ∀ a v, m a = some v → q.cache a = some v

/-- The entry is on disk. -/
def OnDisk (s : St) (a v : Nat) : Prop := ∃ m, s.file = .data m ∧ m a = some v

theorem step_covers {s : St} (op : Op) (hc : Covers s) (he : Exclusive s [op]) :
    Covers (step s op) ∧ ∀ a v, OnDisk s a v → OnDisk (step s op) a v := by
  obtain ⟨huniq, hcov⟩ := hc
  have sub : ∀ p0, (∀ p p' q q', setProc s.procs p0 none p = some q → setProc s.procs p0 none p' = some q' → p = p') ∧
      ∀ p q, setProc s.procs p0 none p = some q → ∀ m, s.file = .data m → ∀ a v, m a = some v → q.cache a = some v := by
    intro p0
    have : ∀ p q, setProc s.procs p0 none p = some q → s.procs p = some q := by
      intro p q h; simp only [setProc] at h; split at h
      · simp at h
      · exact h
    exact ⟨fun p p' q q' h1 h2 => huniq p p' q q' (this _ _ h1) (this _ _ h2),
      fun p q h => hcov p q (this _ _ h)⟩
  cases op with
  | start p =>
    simp only [Exclusive, and_true] at he
    simp only [step]
    cases hl : load s.file with
    | none => exact ⟨sub p, fun a v h => h⟩
    | some m =>
      refine ⟨⟨?_, ?_⟩, fun a v h => h⟩
      · intro p1 p2 q1 q2 h1 h2
        have : ∀ p1 q1, setProc s.procs p (some ⟨m, 0⟩) p1 = some q1 → p1 = p := by
          intro p1 q1 h1
          by_cases h : p1 = p
          · exact h
          · simp [setProc, h, he p1 h] at h1
        rw [this _ _ h1, this _ _ h2]
      · intro p1 q1 h1 m' hm' a v hv
        simp only [setProc] at h1
        simp only at hm'
        split at h1
        · simp only [Option.some.injEq] at h1; subst h1
          rw [hm'] at hl; simp only [load, Option.some.injEq] at hl; subst hl; exact hv
        · exact hcov p1 q1 h1 m' hm' a v hv
  | add p a v o =>
    simp only [step]
    cases hp : s.procs p with
    | none => exact ⟨⟨huniq, hcov⟩, fun a v h => h⟩
    | some q =>
      simp only [add]
      cases hca : q.cache a with
      | some _ => exact ⟨⟨huniq, hcov⟩, fun a v h => h⟩
      | none =>
        have hgrow : ∀ a' v', q.cache a' = some v' → (q.cache.set a v) a' = some v' := by
          intro a' v' h
          simp only [Map.set]; split
          · rename_i h2; subst h2; rw [h] at hca; simp at hca
          · exact h
        have only : ∀ n p1 q1, setProc s.procs p (some ⟨q.cache.set a v, n⟩) p1 = some q1 →
            p1 = p ∧ q1.cache = q.cache.set a v := by
          intro n p1 q1 h1
          simp only [setProc] at h1
          split at h1
          · rename_i h; simp only [Option.some.injEq] at h1; subst h1; exact ⟨h, rfl⟩
          · rename_i h; exact absurd (huniq p1 p q1 q h1 hp) h
        have disk : ∀ a' v', OnDisk s a' v' → (q.cache.set a v) a' = some v' := by
          rintro a' v' ⟨m, hm, hv⟩; exact hgrow a' v' (hcov p q hp m hm a' v' hv)
        have ckeep : Covers { s with procs := setProc s.procs p (some ⟨q.cache.set a v, q.newEntriesCnt + 1⟩) } := by
          refine ⟨fun p1 p2 q1 q2 h1 h2 => by rw [(only _ _ _ h1).1, (only _ _ _ h2).1], ?_⟩
          intro p1 q1 h1 m hm a' v' hv
          rw [(only _ _ _ h1).2]; exact disk a' v' ⟨m, hm, hv⟩
        simp only
        split
        · cases o with
          | ok =>
            refine ⟨⟨fun p1 p2 q1 q2 h1 h2 => by rw [(only _ _ _ h1).1, (only _ _ _ h2).1], ?_⟩, ?_⟩
            · intro p1 q1 h1 m hm a' v' hv
              simp only [save, File.data.injEq] at hm; subst hm
              rw [(only _ _ _ h1).2]; exact hv
            · intro a' v' h; exact ⟨_, rfl, disk a' v' h⟩
          | failed => exact ⟨ckeep, fun a v h => h⟩
          | killedBefore => exact ⟨sub p, fun a v h => h⟩
          | killedAfter =>
            refine ⟨⟨(sub p).1, ?_⟩, ?_⟩
            · intro p1 q1 h1
              simp only [save, setProc] at h1
              split at h1
              · simp at h1
              · rename_i h; exact absurd (huniq p1 p q1 q h1 hp) h
            · intro a' v' h; exact ⟨_, rfl, disk a' v' h⟩
        · exact ⟨ckeep, fun a v h => h⟩
  | kill p => exact ⟨sub p, fun a v h => h⟩
  | powerLoss torn =>
    refine ⟨⟨by simp [step], by simp [step]⟩, ?_⟩
    rintro a v ⟨m, hm, hv⟩
    simp only [Exclusive, and_true] at he
    refine ⟨m, ?_, hv⟩
    simp only [step]
    split
    · rename_i h
      simp only [Bool.and_eq_true, Bool.not_eq_true'] at h
      simp [he h.1] at h
    · exact hm
  | sync => exact ⟨⟨huniq, hcov⟩, fun a v h => h⟩

theorem saved_kept {s : St} (ops : List Op) (hc : Covers s) (he : Exclusive s ops) :
    Covers (runOps s ops) ∧ ∀ a v, OnDisk s a v → OnDisk (runOps s ops) a v := by
  induction ops generalizing s with
  | nil => exact ⟨hc, fun a v h => h⟩
  | cons op ops ih =>
    obtain ⟨h1, h2⟩ := step_covers op hc ⟨he.1, trivial⟩
    obtain ⟨h3, h4⟩ := ih h1 he.2
    exact ⟨h3, fun a v h => h4 a v (h2 a v h)⟩

theorem covers_init : Covers init := ⟨by simp [init], by simp [init]⟩

theorem exclusive_append {s : St} (a b : List Op) (h : Exclusive s (a ++ b)) :
    Exclusive s a ∧ Exclusive (runOps s a) b := by
  induction a generalizing s with
  | nil => exact ⟨trivial, h⟩
  | cons op a ih => exact ⟨⟨h.1, (ih h.2).1⟩, (ih h.2).2⟩

/-- **C34, durability.** When processes do not overlap and no power loss tears unsynced data, an entry
that has reached the cache file stays in it with the same value whatever happens next: further adds,
failed saves, kills at any point of a save, restarts.
*Missing*: overlapping processes and power loss, see the two violations below. -/
theorem saved_never_lost_partial (ops₁ ops₂ : List Op) (he : Exclusive init (ops₁ ++ ops₂)) (a v : Nat)
    (h : OnDisk (runOps init ops₁) a v) : OnDisk (runOps init (ops₁ ++ ops₂)) a v := by
  obtain ⟨h1, h2⟩ := exclusive_append ops₁ ops₂ he
  have hc := (saved_kept ops₁ covers_init h1).1
  have := (saved_kept ops₂ hc h2).2 a v h
  simpa [runOps, List.foldl_append] using this

/-- A saved entry is served again after a restart. -/
theorem saved_served_after_restart (s : St) (p a v : Nat) (h : OnDisk s a v) :
    get (step s (.start p)) p a = some v := by
  obtain ⟨m, hm, hv⟩ := h
  simp [step, hm, load, get, setProc, hv]

/-- **C34, batching.** Every 30th new entry triggers a save, and if it succeeds the file holds everything
the process knows. -/
theorem batch_saved (s : St) (p : Nat) (q : Proc) (a v : Nat) (hp : s.procs p = some q)
    (hnew : q.cache a = none) (h30 : (q.newEntriesCnt + 1) % 30 = 0) :
    (step s (.add p a v .ok)).file = .data (q.cache.set a v) := by
  simp [step, hp, add, hnew, batch, h30, save]

/-- A process that adds `n` new entries and saves at the 30th. -/
def fill (p base : Nat) : List Op := (List.range 30).map fun i => .add p (base + i) (100 + base + i) .ok

theorem solo_add {s : St} {p : Nat} (h : ∀ p', p' ≠ p → s.procs p' = none) (a v : Nat) (o : Outcome) :
    ∀ p', p' ≠ p → (step s (.add p a v o)).procs p' = none := by
  intro p' hp'
  simp only [step]
  split
  · exact h p' hp'
  · simp only [add]
    split
    · exact h p' hp'
    · split
      · cases o <;> simp [save, setProc, hp', h p' hp']
      · simp [setProc, hp', h p' hp']

theorem solo_adds {p : Nat} (l : List (Nat × Nat × Outcome)) {s : St} (h : ∀ p', p' ≠ p → s.procs p' = none) :
    Exclusive s (l.map fun x => .add p x.1 x.2.1 x.2.2) ∧
    ∀ p', p' ≠ p → (runOps s (l.map fun x => .add p x.1 x.2.1 x.2.2)).procs p' = none := by
  induction l generalizing s with
  | nil => exact ⟨trivial, h⟩
  | cons x l ih =>
    obtain ⟨h1, h2⟩ := ih (solo_add h x.1 x.2.1 x.2.2)
    exact ⟨⟨trivial, h1⟩, h2⟩

theorem exclusive_append_mk {s : St} (a b : List Op) (h1 : Exclusive s a) (h2 : Exclusive (runOps s a) b) :
    Exclusive s (a ++ b) := by
  induction a generalizing s with
  | nil => exact h2
  | cons op a ih => exact ⟨h1.1, ih h1.2 h2⟩

/-- The premises of `saved_never_lost_partial` are met by a history with a real save, a kill, a restart
and a failing save. -/
example :
    let ops₁ := Op.start 0 :: fill 0 0
    let ops₂ := [Op.kill 0, .start 1, .add 1 77 5 .failed]
    Exclusive init (ops₁ ++ ops₂) ∧ OnDisk (runOps init ops₁) 3 103 := by
  constructor
  · have hf : fill 0 0 = ((List.range 30).map fun i => (0 + i, 100 + 0 + i, Outcome.ok)).map
        fun x => .add 0 x.1 x.2.1 x.2.2 := by
      simp only [fill, List.map_map]; rfl
    have h0 : ∀ p', p' ≠ 0 → (step init (.start 0)).procs p' = none := by
      intro p' hp'; simp [step, init, load, setProc, hp']
    have := solo_adds (p := 0) ((List.range 30).map fun i => (0 + i, 100 + 0 + i, Outcome.ok)) h0
    rw [← hf] at this
    refine ⟨by simp [init], exclusive_append_mk _ _ this.1 ?_⟩
    refine ⟨trivial, ?_, trivial, trivial⟩
    intro p' hp'
    by_cases h : p' = 0
    · subst h; rfl
    · show setProc _ 0 none p' = none
      simp only [setProc, h, if_false]
      exact this.2 p' h
  · exact ⟨_, rfl, by decide⟩

/-- **C34 is violated by overlapping processes**: the second saver silently drops what the first one
saved. -/
theorem concurrent_save_loses_violated :
    let ops₁ := .start 0 :: .start 1 :: fill 0 0
    get (step (runOps init ops₁) (.start 2)) 2 3 = some 103 ∧
    get (step (runOps init (ops₁ ++ fill 1 1000)) (.start 2)) 2 3 = none := by
  decide

/-- **C34 is violated by a power loss right after a save**: the file is renamed without fsync, may come
back undecodable, and then every later start fails. -/
theorem power_loss_violated :
    let s := runOps init (.start 0 :: fill 0 0 ++ [.powerLoss true])
    ∀ p, (step s (.start p)).procs p = none := by
  intro s p
  have : s.file = .corrupt := by rfl
  simp [step, this, load, setProc]

/-- **C34 is violated across reboots**: the file is keyed by run-time address only, so after a reboot
(new KASLR offset or new kernel) the old kernel's entry is served for an address that now resolves
to any other entry `w`, and adding the right one does not help. -/
theorem stale_after_reboot_violated (w : Nat) :
    let s := runOps init (.start 0 :: fill 0 0 ++ [.kill 0, .sync, .powerLoss false, .start 0])
    get s 0 3 = some 103 ∧ get (step s (.add 0 3 w .ok)) 0 3 = some 103 := by
  refine ⟨by decide, ?_⟩
  generalize hs : runOps init (Op.start 0 :: fill 0 0 ++ [Op.kill 0, Op.sync, Op.powerLoss false, Op.start 0]) = s
  have h3 : get s 0 3 = some 103 := by rw [← hs]; decide
  simp only [get, Option.bind_eq_some_iff] at h3
  obtain ⟨q, hq, hc⟩ := h3
  simp [step, hq, add, hc, get]

/-! ### C45 -/

/-- **C45.** Translating a run-time address to the debug image and back is the identity, in both
directions, for every pair of bases and every address; the base itself maps to the base; and distances
are preserved. -/
theorem kaslr_round_trip (k : Kaslr) (a : BitVec 64) :
    k.revertAddr (k.effectiveAddr a) = a ∧ k.effectiveAddr (k.revertAddr a) = a := by
  simp only [Kaslr.revertAddr, Kaslr.effectiveAddr]
  split <;> constructor
  · rw [BitVec.sub_add_cancel]
  · rw [BitVec.add_sub_cancel]
  · rw [BitVec.add_sub_cancel]
  · rw [BitVec.sub_add_cancel]

theorem kaslr_base (k : Kaslr) : k.effectiveAddr k.kaddr = k.saddr ∧ k.revertAddr k.saddr = k.kaddr := by
  simp only [Kaslr.revertAddr, Kaslr.effectiveAddr]
  split <;> constructor <;> (apply BitVec.eq_of_toNat_eq; simp [BitVec.toNat_sub, BitVec.toNat_add]; omega)

theorem kaslr_distance (k : Kaslr) (a b : BitVec 64) : k.effectiveAddr a - k.effectiveAddr b = a - b := by
  simp only [Kaslr.effectiveAddr]
  split <;> (apply BitVec.eq_of_toNat_eq; simp [BitVec.toNat_sub, BitVec.toNat_add]; omega)

/-- The displayed offset is the distance between the bases. -/
theorem kaslr_offset (k : Kaslr) :
    k.offset.toNat = max k.kaddr.toNat k.saddr.toNat - min k.kaddr.toNat k.saddr.toNat := by
  simp only [Kaslr.offset, BitVec.lt_def]
  split <;> rw [BitVec.toNat_sub_of_le (by rw [BitVec.le_def]; omega)] <;> omega

example : Kaslr.effectiveAddr ⟨0xffffffff9a000000, 0xffffffff81000000⟩ 0xffffffff9a001234 = 0xffffffff81001234 := by
  decide

/-! ### C44 -/

/-- **C44, failure.** If the debug symbols cannot be opened, then under every schedule the event loop
never gets past waiting: the tool hangs at the first address it has to resolve. -/
theorem loader_failure_hangs_violated (sch : List Bool) :
    let s := schedule { ok := false } sch
    s.rpc = .checkReady ∨ s.rpc = .blocked := by
  have inv : ∀ s : Loader, (s.ok = false ∧ s.ready = false ∧ s.doneClosed = false ∧
      (s.lpc = .start ∨ s.lpc = .finished) ∧ (s.rpc = .checkReady ∨ s.rpc = .blocked)) →
      ∀ b, (fun s : Loader => s.ok = false ∧ s.ready = false ∧ s.doneClosed = false ∧
      (s.lpc = .start ∨ s.lpc = .finished) ∧ (s.rpc = .checkReady ∨ s.rpc = .blocked))
        (if b = true then stepLoader s else stepReader s) := by
    rintro s ⟨h1, h2, h3, h4 | h4, h5 | h5⟩ b <;> cases b <;>
      simp [stepLoader, stepReader, h1, h2, h3, h4, h5]
  have : ∀ (sch : List Bool) (s : Loader), (s.ok = false ∧ s.ready = false ∧ s.doneClosed = false ∧
      (s.lpc = .start ∨ s.lpc = .finished) ∧ (s.rpc = .checkReady ∨ s.rpc = .blocked)) →
      (schedule s sch).rpc = .checkReady ∨ (schedule s sch).rpc = .blocked := by
    intro sch
    induction sch with
    | nil => intro s h; exact h.2.2.2.2
    | cons b sch ih => intro s h; exact ih _ (inv s h b)
  exact this sch _ ⟨rfl, rfl, rfl, .inl rfl, .inl rfl⟩

/-- **C44, race.** Even when the symbols open fine there is a schedule in which the event loop gets a nil
handle, so the address is reported as unknown although its line information exists. -/
theorem loader_race_violated : ∃ sch, (schedule { ok := true } sch).rpc = .gotNil := by
  exact ⟨[true, true, false, false, false, false], by decide⟩

/-- **C44, the part that holds.** With readable symbols no schedule yields an error, and once the loader
goroutine has finished every further schedule with four event-loop steps obtains the handle, unless a
nil handle was already read. -/
theorem loader_success_partial (sch : List Bool) :
    let s := schedule { ok := true } sch
    s.rpc ≠ .gotErr ∧
    (s.lpc = .finished → s.rpc ≠ .gotNil →
      (stepReader (stepReader (stepReader (stepReader s)))).rpc = .gotHandle) := by
  have inv : ∀ (sch : List Bool) (s : Loader), s.err = false → s.ok = true → s.rpc ≠ .gotErr →
      (s.lpc = .finished → s.ready = true ∧ s.a2l = true ∧ s.doneClosed = true) →
      (s.lpc = .settingA2l → s.ready = true ∧ s.doneClosed = true) →
      (s.lpc = .settingReady → s.doneClosed = true) →
      let s := schedule s sch
      s.err = false ∧ s.rpc ≠ .gotErr ∧ (s.lpc = .finished → s.ready = true ∧ s.a2l = true ∧ s.doneClosed = true) := by
    intro sch
    induction sch with
    | nil => intro s h1 _ h3 h4 _ _; exact ⟨h1, h3, h4⟩
    | cons b sch ih =>
      intro s h1 h2 h3 h4 h5 h6
      simp only [schedule, List.foldl_cons]
      apply ih
      · cases b <;> simp only [if_true, Bool.false_eq_true, if_false, stepLoader, stepReader] <;> (repeat' split) <;> simp_all
      · cases b <;> simp only [if_true, Bool.false_eq_true, if_false, stepLoader, stepReader] <;> (repeat' split) <;> simp_all
      · cases b <;> simp only [if_true, Bool.false_eq_true, if_false, stepLoader, stepReader] <;> (repeat' split) <;> simp_all
      · cases b <;> simp only [if_true, Bool.false_eq_true, if_false, stepLoader, stepReader] <;> (repeat' split) <;> simp_all
      · cases b <;> simp only [if_true, Bool.false_eq_true, if_false, stepLoader, stepReader] <;> (repeat' split) <;> simp_all
      · cases b <;> simp only [if_true, Bool.false_eq_true, if_false, stepLoader, stepReader] <;> (repeat' split) <;> simp_all
  obtain ⟨h1, h2, h3⟩ := inv sch { ok := true } rfl rfl (by simp) (by simp) (by simp) (by simp)
  refine ⟨h2, ?_⟩
  intro hl hn
  obtain ⟨hr, ha, hd⟩ := h3 hl
  generalize schedule { ok := true } sch = s at *
  obtain ⟨ok, err, dc, rd, a, l, r⟩ := s
  simp only at *
  subst h1 hr ha hd
  cases r <;> simp_all [stepReader]

/-! ### C46 -/

/-- **C46 is violated**: an address that has line information but no symbol (for example above the last
symbol, `find_above_last_violated`) crashes the tool; every other case answers. -/
theorem getEntry_panics_iff (cached : Option Nat) (m : Option String) (l : Option Nat) :
    getEntry cached m l = none ↔ cached = none ∧ l.isSome ∧ m = none := by
  cases cached <;> cases l <;> cases m <;> simp [getEntry]

/-- What is answered and what is remembered: a cached entry is answered as it is and not added again;
otherwise the DWARF answer is given, and it is added to the cache exactly when it exists and the
address belongs to kernel or module code, not to a BPF program. -/
theorem getEntry_answer (cached : Option Nat) (m : Option String) (l r : Option Nat) (added : Bool)
    (h : getEntry cached m l = some (r, added)) :
    (r = match cached with | some e => some e | none => l) ∧
    (added = true ↔ cached = none ∧ l.isSome ∧ ∃ n, m = some n ∧ n ≠ "bpf") := by
  cases cached <;> cases l <;> cases m <;> simp only [getEntry, Option.some.injEq, Prod.mk.injEq, reduceCtorEq] at h <;>
    first | (obtain ⟨rfl, rfl⟩ := h; simp) | exact h.elim

end Bpfsnoop.Cache
