import Verif.Spec.CcInit
import Verif.Props.CcViolate
import Verif.Props.CcKeep
import Verif.Props.CcLabel
import Verif.Props.CcViolate

/-
Compiled filters read only what has been written: the proof behind C90.
-/
namespace Bpfsnoop.Cc

/-! ### All paths through a block -/

/-- On every path from the start of the block (after skipping `k` instructions) everything read has been written; `Q` holds
at the end of the block, `X` at jumps to the exit label. -/
def wp (Q X : Ini → Prop) : List Insn → Nat → Ini → Prop
  | [], 0, d => Q d
  | [], _ + 1, _ => False
  | _ :: r, k + 1, d => wp Q X r k d
  | i :: r, 0, d =>
    i.sound d = true ∧
    match i with
    | .jmpImm _ _ _ off => wp Q X r 0 d ∧ wp Q X r off d
    | .jmpReg _ _ _ off => wp Q X r 0 d ∧ wp Q X r off d
    | .ja off => wp Q X r off d
    | .jexit _ => wp Q X r 0 d ∧ X d
    | .ret => True
    | i => wp Q X r 0 (i.after d)

theorem wp_mono {Q Q' X X' : Ini → Prop} (hq : ∀ d, Q d → Q' d) (hx : ∀ d, X d → X' d) :
    ∀ {c : List Insn} {k : Nat} {d : Ini}, wp Q X c k d → wp Q' X' c k d := by
  intro c
  induction c with
  | nil => intro k d h; cases k with | zero => exact hq d h | succ => exact h
  | cons i r ih =>
    intro k d h
    cases k with
    | succ k => exact ih (k := k) h
    | zero =>
      refine ⟨h.1, ?_⟩
      have h2 := h.2
      cases i <;> first | exact ih h2 | exact ⟨ih h2.1, ih h2.2⟩ | exact ⟨ih h2.1, hx _ h2.2⟩ | exact trivial

theorem wp_append {Q X : Ini → Prop} {c2 : List Insn} : ∀ {c1 : List Insn} {k : Nat} {d : Ini},
    wp (fun d => wp Q X c2 0 d) X c1 k d → wp Q X (c1 ++ c2) k d := by
  intro c1
  induction c1 with
  | nil => intro k d h; cases k with | zero => exact h | succ => exact h.elim
  | cons i r ih =>
    intro k d h
    cases k with
    | succ k => exact ih (k := k) h
    | zero =>
      refine ⟨h.1, ?_⟩
      have h2 := h.2
      cases i <;> first | exact ih h2 | exact ⟨ih h2.1, ih h2.2⟩ | exact ⟨ih h2.1, h2.2⟩ | exact trivial

theorem wp_skip {Q X : Ini → Prop} (c1 : List Insn) {c2 : List Insn} {d : Ini} :
    wp Q X (c1 ++ c2) c1.length d ↔ wp Q X c2 0 d := by
  induction c1 with
  | nil => exact Iff.rfl
  | cons i r ih => exact ih

/-- Without exits nothing need hold at them. -/
theorem wp_noExit {Q X X' : Ini → Prop} : ∀ {c : List Insn} {k : Nat} {d : Ini}, NoExit c → wp Q X c k d → wp Q X' c k d := by
  intro c
  induction c with
  | nil => intro k d _ h; cases k with | zero => exact h | succ => exact h
  | cons i r ih =>
    intro k d hn h
    have hr : NoExit r := fun x hx => hn x (List.mem_cons_of_mem _ hx)
    cases k with
    | succ k => exact ih (k := k) hr h
    | zero =>
      refine ⟨h.1, ?_⟩
      have h2 := h.2
      cases i with
      | jexit x => exact absurd List.mem_cons_self (hn x)
      | _ => first | exact ih hr h2 | exact ⟨ih hr h2.1, ih hr h2.2⟩ | exact trivial

/-! ### Registers in use have been written -/

/-- Everything the compiler counts as in use has been written. -/
def Has (u : Regs) (d : Ini) : Prop := d.reg 10 = true ∧ ∀ r, u r = true → d.reg r = true

def Sub (u v : Regs) : Prop := ∀ r, u r = true → v r = true

theorem has_sub {u v : Regs} {d : Ini} (h : Sub u v) (hd : Has v d) : Has u d := ⟨hd.1, fun r hr => hd.2 r (h r hr)⟩

theorem sub_refl (u : Regs) : Sub u u := fun _ h => h

theorem sub_trans {u v w : Regs} (h1 : Sub u v) (h2 : Sub v w) : Sub u w := fun r h => h2 r (h1 r h)

theorem has_wr {u : Regs} {d : Ini} (h : Has u d) (r : Nat) : Has u (d.wr r) :=
  ⟨by simp [Ini.wr, h.1], fun x hx => by simp [Ini.wr, h.2 x hx]⟩

theorem has_wr_new {u : Regs} {d : Ini} (h : Has u d) (r : Nat) : Has (setReg u r true) (d.wr r) := by
  refine ⟨by simp [Ini.wr, h.1], fun x hx => ?_⟩
  simp only [setReg] at hx
  simp only [Ini.wr, Bool.or_eq_true, beq_iff_eq]
  split at hx
  · exact .inl (by assumption)
  · exact .inr (h.2 x hx)

theorem has_wrSlot {u : Regs} {d : Ini} (h : Has u d) (k : Int) : Has u (d.wrSlot k) := h

theorem wr_same (d : Ini) (r : Nat) : (d.wr r).reg r = true := by simp [Ini.wr]

theorem wr_keep {d : Ini} {x : Nat} (h : d.reg x = true) (r : Nat) : (d.wr r).reg x = true := by simp [Ini.wr, h]

/-- None of R0 to R5 is in use. -/
def High (u : Regs) : Prop := ∀ r, r ≤ 5 → u r = false

theorem has_call {u : Regs} {d : Ini} (hu : High u) (h : Has u d) : Has u d.call := by
  refine ⟨by simp [Ini.call, h.1], fun x hx => ?_⟩
  have h5 : 5 < x := by
    apply Classical.byContradiction
    intro hn
    rw [hu x (by omega)] at hx
    cases hx
  simp [Ini.call, h5, h.2 x hx]

/-- Where R0 to R5 are used for values, no helper is called. -/
def Low (o : Opts) (u : Regs) : Prop := o.mode = .direct ∨ (6 ≤ o.lo ∧ High u)

/-- From states with `u` written to states with `u'` written, `b` at exits. -/
def Tri (b u u' : Regs) (c : List Insn) : Prop := ∀ d, Has u d → wp (Has u') (Has b) c 0 d

theorem tri_trans {b u u1 u2 : Regs} {c1 c2 : List Insn} (h1 : Tri b u u1 c1) (h2 : Tri b u1 u2 c2) : Tri b u u2 (c1 ++ c2) :=
  fun d hd => wp_append (wp_mono h2 (fun _ h => h) (h1 d hd))

theorem tri_nil {b u u' : Regs} (h : Sub u' u) : Tri b u u' [] := fun _ hd => has_sub h hd

theorem tri_base {b b' u u' : Regs} {c : List Insn} (h : Sub b b') (ht : Tri b' u u' c) : Tri b u u' c :=
  fun d hd => wp_mono (fun _ h => h) (fun _ hx => has_sub h hx) (ht d hd)

theorem tri_post {b u u1 u2 : Regs} {c : List Insn} (h : Sub u2 u1) (ht : Tri b u u1 c) : Tri b u u2 c :=
  fun d hd => wp_mono (fun _ hx => has_sub h hx) (fun _ h => h) (ht d hd)

theorem tri_noExit {b b' u u' : Regs} {c : List Insn} (hn : NoExit c) (ht : Tri b u u' c) : Tri b' u u' c :=
  fun d hd => wp_noExit hn (ht d hd)

theorem noExit_iff {c : List Insn} : noExits c = true ↔ NoExit c := by
  unfold noExits NoExit
  rw [List.all_eq_true]
  constructor
  · intro h r hr
    have := h _ hr
    simp at this
  · intro h i hi
    cases i with
    | jexit r => exact absurd hi (h r)
    | _ => rfl

/-- Straight code on registers in use. -/
def lineI (u : Regs) : Insn → Prop
  | .movImm d _ => d ≠ 10
  | .movReg d s => d ≠ 10 ∧ (u s = true ∨ s = 10)
  | .aluImm _ d _ => d ≠ 10 ∧ u d = true
  | .aluReg _ d s => d ≠ 10 ∧ u d = true ∧ u s = true
  | .neg d => d ≠ 10 ∧ u d = true
  | .ldx d s _ _ => d ≠ 10 ∧ u s = true
  | _ => False

theorem line_sound {u : Regs} {i : Insn} {d : Ini} (hi : lineI u i) (hd : Has u d) : i.sound d = true ∧ Has u (i.after d) := by
  cases i with
  | movImm r k =>
    have hi : r ≠ 10 := hi
    exact ⟨by simpa [Insn.sound, Insn.srcs, Insn.dst] using hi, has_wr hd r⟩
  | movReg r s =>
    refine ⟨?_, has_wr hd r⟩
    have hs : d.reg s = true := by
      rcases hi.2 with h | rfl
      · exact hd.2 s h
      · exact hd.1
    simpa [Insn.sound, Insn.srcs, Insn.dst, hs] using hi.1
  | aluImm op r k => exact ⟨by simpa [Insn.sound, Insn.srcs, Insn.dst, hd.2 r hi.2] using hi.1, has_wr hd r⟩
  | aluReg op r s => exact ⟨by simpa [Insn.sound, Insn.srcs, Insn.dst, hd.2 r hi.2.1, hd.2 s hi.2.2] using hi.1, has_wr hd r⟩
  | neg r => exact ⟨by simpa [Insn.sound, Insn.srcs, Insn.dst, hd.2 r hi.2] using hi.1, has_wr hd r⟩
  | ldx r s _ _ => exact ⟨by simpa [Insn.sound, Insn.srcs, Insn.dst, hd.2 s hi.2] using hi.1, has_wr hd r⟩
  | _ => exact hi.elim

theorem tri_line {b u : Regs} : ∀ {c : List Insn}, (∀ i ∈ c, lineI u i) → Tri b u u c := by
  intro c
  induction c with
  | nil => intro _; exact tri_nil (sub_refl u)
  | cons i r ih =>
    intro h d hd
    have hi := h i List.mem_cons_self
    obtain ⟨h1, h2⟩ := line_sound hi hd
    have h3 := ih (fun j hj => h j (List.mem_cons_of_mem _ hj)) _ h2
    refine ⟨h1, ?_⟩
    cases i <;> first | exact h3 | exact hi.elim

theorem addOff_line {u : Regs} {r : Nat} (hr : r ≠ 10) (hu : u r = true) (k : BitVec 64) : ∀ i ∈ addOff r k, lineI u i := by
  intro i hi
  unfold addOff at hi
  split at hi <;> simp at hi
  subst hi; exact ⟨hr, hu⟩

/-! ### Following a chain of pointers -/

theorem sound_of {i : Insn} {d : Ini} (h1 : ∀ r ∈ i.srcs, d.reg r = true) (h2 : i.dst ≠ some 10)
    (h3 : ∀ r k, i = .ldStack r k → d.slot k = true) : i.sound d = true := by
  unfold Insn.sound
  rw [Bool.and_eq_true, Bool.and_eq_true]
  refine ⟨⟨List.all_eq_true.mpr h1, by simpa using h2⟩, ?_⟩
  cases i <;> first | rfl | exact h3 _ _ rfl

/-- A call of `bpf_probe_read_kernel`, followed by a load of what it read. -/
theorem wp_probe {u : Regs} {Q X : Ini → Prop} {r : Nat} {rest : List Insn} {d : Ini} (hu : High u) (hr : r ≠ 10)
    (hd : Has u d) (h3 : d.reg 3 = true)
    (hk : ∀ d', Has u d' → d'.reg r = true → wp Q X rest 0 d') :
    wp Q X ([.movImm 2 8, .movReg 1 10, .aluImm .add 1 (-8), .callProbe, .ldStack r (-8)] ++ rest) 0 d := by
  have a1 := has_wr hd 2
  have a2 := has_wr a1 1
  have a3 := has_wr a2 1
  have a4 := has_call hu a3
  refine ⟨sound_of (by simp [Insn.srcs]) (by simp [Insn.dst]) (by simp), ?_⟩
  refine ⟨sound_of (by simp [Insn.srcs]; exact a1.1) (by simp [Insn.dst]) (by simp), ?_⟩
  refine ⟨sound_of (by simp [Insn.srcs, Insn.after, Ini.wr]) (by simp [Insn.dst]) (by simp), ?_⟩
  refine ⟨sound_of (by simp [Insn.srcs, Insn.after, Ini.wr, h3]) (by simp [Insn.dst]) (by simp), ?_⟩
  refine ⟨sound_of ?_ (by simpa [Insn.dst] using hr) ?_, ?_⟩
  · simp only [Insn.srcs, List.mem_singleton]
    rintro x rfl
    exact a4.1
  · intro x k he
    injection he with _ he
    subst he
    simp [Insn.after, Ini.wrSlot]
  · exact hk _ (has_wr (has_wrSlot a4 _) r) (wr_same _ _)

/-- `probeLoop` needs the address in R3. -/
theorem wp_probeLoop {u : Regs} {reg : Nat} (hu : High u) (hr : reg ≠ 10) : ∀ (offs : List Off) (d : Ini), Has u d →
    d.reg 3 = true → wp (Has u) (Has u) (probeLoop reg offs) 0 d := by
  have hadd : ∀ (k : BitVec 64) (d : Ini) (rest : List Insn), Has u d → d.reg 3 = true →
      (∀ d', Has u d' → d'.reg 3 = true → wp (Has u) (Has u) rest 0 d') →
      wp (Has u) (Has u) (addOff 3 k ++ rest) 0 d := by
    intro k d rest hd h3 h
    unfold addOff
    split
    · exact h d hd h3
    · exact ⟨sound_of (by simp [Insn.srcs, h3]) (by simp [Insn.dst]) (by simp), h _ (has_wr hd 3) (wr_same _ _)⟩
  intro offs
  induction offs with
  | nil => intro d hd _; exact hd
  | cons x r ih =>
    intro d hd h3
    cases r with
    | nil =>
      simp only [probeLoop]
      refine hadd _ _ _ hd h3 fun d hd h3 => ?_
      split
      · split
        · exact ⟨sound_of (by simp [Insn.srcs, h3]) (by simpa [Insn.dst] using hr) (by simp), has_wr hd reg⟩
        · exact hd
      · exact wp_probe (rest := []) hu hr hd h3 fun _ h _ => h
    | cons y r =>
      simp only [probeLoop, List.append_assoc]
      refine hadd _ _ _ hd h3 fun d hd h3 => ?_
      split
      · exact ih d hd h3
      · exact wp_probe (r := 3) (rest := .jexit 3 :: probeLoop reg (y :: r)) hu (by omega) hd h3 fun d' h h3 =>
          ⟨sound_of (by simp [Insn.srcs, h3]) (by simp [Insn.dst]) (by simp), ih d' h h3, h⟩

theorem tri_directLoop {u : Regs} {reg : Nat} (hr : reg ≠ 10) (hu : u reg = true) : ∀ offs : List Off,
    Tri u u u (directLoop reg offs) := by
  intro offs
  induction offs with
  | nil => exact tri_nil (sub_refl u)
  | cons x r ih =>
    cases r with
    | nil =>
      simp only [directLoop]
      split
      · exact tri_line (addOff_line hr hu _)
      · exact tri_line (by intro i hi; simp at hi; subst hi; exact ⟨hr, hu⟩)
    | cons y r =>
      simp only [directLoop]
      refine tri_trans ?_ ih
      split
      · exact tri_line (addOff_line hr hu _)
      · intro d hd
        refine ⟨(line_sound (i := .ldx reg reg x.off 8) (u := u) ⟨hr, hu⟩ hd).1, ?_⟩
        have h2 := has_wr hd reg
        exact ⟨sound_of (by simp [Insn.srcs]; exact wr_same _ _) (by simp [Insn.dst]) (by simp), h2, h2⟩

/-- One step of `emitCoreRead`: the pointer is in R1 before it, and after it unless it is the last. -/
theorem wp_coreStep {o : Opts} {reg : Nat} {x : Off} {last : Bool} {s s2 : CSt} {w : Unit} {c : List Insn}
    (h : coreStep o reg x last s = .ok (w, s2, c)) (hu : High s.used) (hr : reg ≠ 10) {d : Ini} (hd : Has s.used d)
    (h1 : d.reg 1 = true) :
    wp (fun d => Has s.used d ∧ (last = false → d.reg 1 = true)) (Has s.used) c 0 d := by
  have probe : ∀ {d : Ini}, Has s.used d → d.reg 1 = true →
      wp (fun d => Has s.used d ∧ (last = false → d.reg 1 = true)) (Has s.used) (coreProbe reg last) 0 d := by
    intro d hd h1
    refine ⟨sound_of (by simp [Insn.srcs, h1]) (by simp [Insn.dst]) (by simp), ?_⟩
    refine wp_probe (rest := []) hu (by split <;> omega) (has_wr hd 3) (wr_same _ _) fun d' h hq => ⟨h, fun hl => ?_⟩
    rw [hl] at hq; simpa using hq
  unfold coreStep at h
  by_cases hdr : x.deref = true
  · rw [if_neg (by simp [hdr])] at h
    cases hc : canRdonlyCast o.Γ x.prev with
    | none => rw [hc] at h; exact (reject_ok h).elim
    | some q =>
      rw [hc] at h
      cases q with
      | none => obtain ⟨rfl, rfl⟩ := emit_ok h; exact probe hd h1
      | some id =>
        cases hl : loadSize o.Γ x.ty with
        | none => simp only [hl] at h; exact (reject_ok h).elim
        | some size =>
          simp only [hl] at h
          have cast : ∀ (rest : List Insn) (Q : Ini → Prop), (∀ d', Has s.used d' → d'.reg 0 = true → wp Q (Has s.used) rest 0 d') →
              wp Q (Has s.used) (.movImm 2 (BitVec.ofNat 64 id) :: .callCast :: rest) 0 d := by
            intro rest Q hk
            refine ⟨sound_of (by simp [Insn.srcs]) (by simp [Insn.dst]) (by simp), ?_⟩
            refine ⟨sound_of (by simp [Insn.srcs, Insn.after, Ini.wr, h1]) (by simp [Insn.dst]) (by simp), ?_⟩
            exact hk _ (has_call hu (has_wr hd 2)) (by simp [Insn.after, Ini.call])
          split at h
          · obtain ⟨rfl, rfl⟩ := emit_ok h; exact probe hd h1
          · split at h
            · rename_i hlast
              obtain ⟨rfl, rfl⟩ := emit_ok h
              refine cast _ _ fun d' h' h0 => ?_
              split
              · exact ⟨sound_of (by simp [Insn.srcs, h0]) (by simpa [Insn.dst] using hr) (by simp), has_wr h' reg,
                  fun hl => by rw [hlast] at hl; cases hl⟩
              · exact ⟨h', fun hl => by rw [hlast] at hl; cases hl⟩
            · obtain ⟨_, s1, c1, c2, h1', h2, rfl⟩ := bind_ok h
              obtain ⟨rfl, rfl⟩ := useExit_ok h1'
              obtain ⟨rfl, rfl⟩ := emit_ok h2
              refine cast _ _ fun d' h' h0 => ?_
              refine ⟨sound_of (by simp [Insn.srcs, h0]) (by simp [Insn.dst]) (by simp), ?_⟩
              exact ⟨sound_of (by simp [Insn.srcs]; exact wr_same _ _) (by simp [Insn.dst]) (by simp),
                ⟨has_wr h' 1, fun _ => wr_same _ _⟩, has_wr h' 1⟩
  · rw [if_pos (by simp [hdr])] at h
    obtain ⟨hs2, rfl⟩ := emit_ok h
    have tail : ∀ {d : Ini}, Has s.used d → d.reg 1 = true →
        wp (fun d => Has s.used d ∧ (last = false → d.reg 1 = true)) (Has s.used)
          (if last && reg ≠ 1 then [.movReg reg 1] else []) 0 d := by
      intro d hd h1
      split
      · exact ⟨sound_of (by simp [Insn.srcs, h1]) (by simpa [Insn.dst] using hr) (by simp), has_wr hd reg, fun _ => wr_keep h1 reg⟩
      · exact ⟨hd, fun _ => h1⟩
    unfold addOff
    split
    · exact tail hd h1
    · exact ⟨sound_of (by simp [Insn.srcs, h1]) (by simp [Insn.dst]) (by simp), tail (has_wr hd 1) (wr_same _ _)⟩

theorem wp_coreLoop {o : Opts} {reg : Nat} (hr : reg ≠ 10) : ∀ {offs : List Off} {s s2 : CSt} {w : Unit} {c : List Insn},
    coreLoop o reg offs s = .ok (w, s2, c) → High s.used → ∀ {d : Ini}, Has s.used d → d.reg 1 = true →
    wp (Has s.used) (Has s.used) c 0 d := by
  intro offs
  induction offs with
  | nil => intro s s2 w c h _ d hd _; obtain ⟨_, rfl, rfl⟩ := pure_ok h; exact hd
  | cons x r ih =>
    intro s s2 w c h hu d hd h1
    obtain ⟨_, s1, c1, c2, h2, h3, rfl⟩ := bind_ok h
    have hs := (safe_coreStep h2).1
    refine wp_append (wp_mono ?_ (fun _ h => h) (wp_coreStep h2 hu hr hd h1))
    rintro d' ⟨hd', hl⟩
    cases r with
    | nil => obtain ⟨_, rfl, rfl⟩ := pure_ok h3; exact hd'
    | cons y r =>
      rw [← hs] at hu hd' ⊢
      exact ih h3 hu hd' (hl rfl)

theorem push_none {o : Opts} {n : Nat} (hn : n ≤ 5) {s s2 : CSt} {w : Unit} {c : List Insn} (hu : High s.used)
    (h : pushRegs o n s = .ok (w, s2, c)) : c = [] ∧ s2 = s := by
  have hk : usedNr s.used n = 0 := by
    unfold usedNr
    rw [List.length_eq_zero_iff, List.filter_eq_nil_iff]
    intro i hi
    rw [hu (1 + i) (by have := List.mem_range.mp hi; omega)]
    simp
  simp only [pushRegs, hk, hu 0 (by omega), Except.ok.injEq, Prod.mk.injEq] at h
  obtain ⟨_, rfl, rfl⟩ := h
  exact ⟨rfl, rfl⟩

theorem pop_none {o : Opts} {n : Nat} (hn : n ≤ 5) {s s2 : CSt} {w : Unit} {c : List Insn} (hu : High s.used)
    (h : popRegs o n s = .ok (w, s2, c)) : c = [] ∧ s2 = s := by
  have hk : usedNr s.used n = 0 := by
    unfold usedNr
    rw [List.length_eq_zero_iff, List.filter_eq_nil_iff]
    intro i hi
    rw [hu (1 + i) (by have := List.mem_range.mp hi; omega)]
    simp
  simp only [popRegs, hk, hu 0 (by omega), Except.ok.injEq, Prod.mk.injEq] at h
  obtain ⟨_, rfl, rfl⟩ := h
  exact ⟨rfl, rfl⟩

theorem tri_offsetChain {o : Opts} {offs : List Off} {reg : Nat} {s s2 : CSt} {w : Unit} {c : List Insn} (hr : reg ≠ 10)
    (hu : s.used reg = true) (hl : Low o s.used) (h : emitOffsetChain o offs reg s = .ok (w, s2, c)) :
    Tri s.used s.used s.used c := by
  unfold emitOffsetChain at h
  split at h
  · obtain ⟨rfl, rfl⟩ := emit_ok h
    refine tri_line ?_
    intro i hi
    rw [List.mem_flatMap] at hi
    obtain ⟨x, _, hx⟩ := hi
    exact addOff_line hr hu _ i hx
  · have mv : ∀ (k : Nat) (rest : List Insn) (d : Ini), k ≠ 10 → Has s.used d →
        (∀ d', Has s.used d' → d'.reg k = true → wp (Has s.used) (Has s.used) rest 0 d') →
        wp (Has s.used) (Has s.used) ((if reg ≠ k then [.movReg k reg] else []) ++ rest) 0 d := by
      intro k rest d hk hd h
      split
      · exact ⟨(line_sound (i := .movReg k reg) (u := s.used) ⟨hk, .inl hu⟩ hd).1, h _ (has_wr hd k) (wr_same _ _)⟩
      · rename_i he
        have he : reg = k := Classical.byContradiction he
        exact h d hd (he ▸ hd.2 reg hu)
    cases hm : o.mode with
    | core =>
      have hh : High s.used := by
        rcases hl with h' | h'
        · rw [hm] at h'; cases h'
        · exact h'.2
      simp only [hm, emitCoreRead] at h
      obtain ⟨_, s1, c1, c2, h1, h2, rfl⟩ := bind_ok h
      obtain ⟨rfl, rfl⟩ := push_none (by split <;> omega) hh h1
      obtain ⟨_, s3, c3, c4, h3, h4, rfl⟩ := bind_ok h2
      obtain ⟨rfl, rfl⟩ := emit_ok h3
      obtain ⟨_, s5, c5, c6, h5, h6, rfl⟩ := bind_ok h4
      have hs := (safe_coreLoop h5).1
      obtain ⟨rfl, rfl⟩ := pop_none (by split <;> omega) (by rw [hs]; exact hh) h6
      intro d hd
      rw [List.append_nil, List.nil_append]
      exact mv 1 _ d (by omega) hd fun d' hd' h1' => wp_coreLoop hr h5 hh hd' h1'
    | direct =>
      simp only [hm, emitDirectRead] at h
      obtain ⟨_, s1, c1, c2, h1, h2, rfl⟩ := bind_ok h
      obtain ⟨rfl, rfl⟩ := emit_ok h1
      obtain ⟨_, rfl⟩ := whenExit_ok h2
      rw [List.append_nil]
      exact tri_directLoop hr hu offs
    | probe =>
      have hh : High s.used := by
        rcases hl with h' | h'
        · rw [hm] at h'; cases h'
        · exact h'.2
      simp only [hm, emitProbeRead] at h
      obtain ⟨_, s1, c1, c2, h1, h2, rfl⟩ := bind_ok h
      obtain ⟨rfl, rfl⟩ := push_none (by omega) hh h1
      obtain ⟨_, s3, c3, c4, h3, h4, rfl⟩ := bind_ok h2
      obtain ⟨rfl, rfl⟩ := emit_ok h3
      obtain ⟨_, s5, c5, c6, h5, h6, rfl⟩ := bind_ok h4
      obtain ⟨rfl, rfl⟩ := emit_ok h5
      obtain ⟨_, s7, c7, c8, h7, h8, rfl⟩ := bind_ok h6
      obtain ⟨hs7, rfl⟩ := whenExit_ok h7
      obtain ⟨rfl, rfl⟩ := pop_none (by omega) (by rw [hs7]; exact hh) h8
      intro d hd
      rw [List.append_nil, List.nil_append, List.append_nil]
      exact mv 3 _ d (by omega) hd fun d' hd' h3' => wp_probeLoop hh hr _ d' hd' h3'

/-! ### Values and their registers -/

/-- The register a value is in or starts from. -/
def regOf : Val → Option Nat
  | .mat r _ _ => some r
  | .pend (.reg r) _ _ _ => some r
  | _ => none

def matReg : Val → Option Nat
  | .mat r _ _ => some r
  | _ => none

/-- The value's register, if it has one, was taken since `b`. -/
def Own (b u : Regs) (v : Val) : Prop := ∀ r, regOf v = some r → b r = false ∧ u r = true ∧ r ≤ 8

/-- `b`, and the register of the value. -/
def plus (b : Regs) (v : Val) : Regs := fun r => b r || matReg v == some r

theorem sub_plus (b : Regs) (v : Val) : Sub b (plus b v) := fun r h => by simp [plus, h]

theorem plus_sub {b u : Regs} {v : Val} (h : Sub b u) (hv : ∀ r, matReg v = some r → u r = true) : Sub (plus b v) u := by
  intro r hr
  simp only [plus, Bool.or_eq_true, beq_iff_eq] at hr
  rcases hr with hr | hr
  · exact h r hr
  · exact hv r hr

theorem own_mat {b u : Regs} {v : Val} (h : Own b u v) {r : Nat} (hr : matReg v = some r) : b r = false ∧ u r = true ∧ r ≤ 8 := by
  cases v with
  | mat r' t m => exact h r hr
  | _ => cases hr

theorem own_none {b u : Regs} {v : Val} (h : regOf v = none) : Own b u v := fun r hr => by rw [h] at hr; cases hr

theorem own_up {b u u' : Regs} {v : Val} (h : Own b u v) (hs : Sub u u') : Own b u' v :=
  fun r hr => ⟨(h r hr).1, hs r (h r hr).2.1, (h r hr).2.2⟩

theorem setReg_sub (u : Regs) (r : Nat) : Sub u (setReg u r true) := by
  intro x hx
  simp only [setReg]
  split
  · rfl
  · exact hx

theorem free_sub (u : Regs) (r : Nat) : Sub (free u r) u := by
  intro x hx
  by_cases h : u x = true
  · exact h
  · rw [free_false (by simpa using h)] at hx; cases hx

theorem low_sub {o : Opts} {u u' : Regs} (h : Low o u) (hs : Sub u' u) : Low o u' := by
  rcases h with h | h
  · exact .inl h
  · refine .inr ⟨h.1, fun r hr => ?_⟩
    cases hx : u' r with
    | false => rfl
    | true => exact absurd (hs r hx) (by simp [h.2 r hr])

theorem low_alloc {o : Opts} {u : Regs} {r : Nat} (h : Low o u) (hr : o.lo ≤ r) : Low o (setReg u r true) := by
  rcases h with h | h
  · exact .inl h
  · refine .inr ⟨h.1, fun x hx => ?_⟩
    simp only [setReg]
    rw [if_neg (by omega)]
    exact h.2 x hx

theorem cut_line {u : Regs} {r : Nat} (hr : r ≠ 10) (hu : u r = true) (Γ : Btf) (t : Ty) (m : Option Member) :
    ∀ i ∈ cutCode Γ t m r, lineI u i := by
  have hadj : ∀ i ∈ adjustSize Γ t r, lineI u i := by
    intro i hi
    unfold adjustSize at hi
    split at hi <;> simp at hi
    · subst hi; exact ⟨hr, hu⟩
    · subst hi; exact ⟨hr, hu⟩
    · rcases hi with rfl | rfl <;> exact ⟨hr, hu⟩
  intro i hi
  unfold cutCode at hi
  split at hi
  · split at hi
    · unfold bitfieldExtract at hi
      simp only [List.mem_append, List.mem_singleton] at hi
      rcases hi with hi | rfl
      · split at hi
        · simp only [List.mem_singleton] at hi; subst hi; exact ⟨hr, hu⟩
        · simp at hi
      · exact ⟨hr, hu⟩
    · exact hadj i hi
  · exact hadj i hi

/-- What `materialize` does with the registers. -/
structure Mat (o : Opts) (v : Val) (s s' : CSt) (r : Nat) (c : List Insn) : Prop where
  tri : Tri s'.used s.used s'.used c
  sub : Sub s.used s'.used
  used : s'.used r = true
  le : r ≤ 8
  low : Low o s'.used
  new : (matReg v = some r ∧ s'.used = s.used ∧ c = []) ∨ (matReg v = none ∧ s.used r = false ∧ s'.used = setReg s.used r true)

theorem mat_materialize {o : Opts} {v : Val} {s s' : CSt} {r : Nat} {t : Option Ty} {m : Option Member} {c : List Insn}
    (hl : Low o s.used) (h9 : s.used 9 = true) {b : Regs} (hv : Own b s.used v)
    (h : materialize o v s = .ok ((r, t, m), s', c)) : Mat o v s s' r c := by
  cases v with
  | mat r0 t0 m0 =>
    obtain ⟨h1, rfl, rfl⟩ := pure_ok h
    simp only [Prod.mk.injEq] at h1
    obtain ⟨rfl, rfl, rfl⟩ := h1
    obtain ⟨_, h2, h3⟩ := hv r rfl
    exact ⟨tri_nil (sub_refl _), sub_refl _, h2, h3, hl, .inl ⟨rfl, rfl, rfl⟩⟩
  | const n t0 =>
    simp only [materialize] at h
    obtain ⟨r', s1, c1, c2, h1, h2, rfl⟩ := bind_ok h
    obtain ⟨u, hu, rfl, rfl⟩ := allocM_ok h1
    obtain ⟨_, s3, c3, c4, h3, h4, rfl⟩ := bind_ok h2
    obtain ⟨rfl, rfl⟩ := emit_ok h3
    obtain ⟨h5, rfl, rfl⟩ := pure_ok h4
    simp only [Prod.mk.injEq] at h5
    obtain ⟨rfl, rfl, rfl⟩ := h5
    obtain ⟨a, b, c, rfl⟩ := alloc_facts hu
    refine ⟨?_, setReg_sub _ _, by simp [setReg], c, low_alloc hl b, .inr ⟨rfl, a, rfl⟩⟩
    intro d hd
    exact ⟨sound_of (by simp [Insn.srcs]) (by simp [Insn.dst]; omega) (by simp), has_wr_new hd r⟩
  | pend b0 offs t0 m0 =>
    obtain ⟨r', u, s3, c3, h1, h2, h3, rfl, rfl⟩ := materialize_pend_ok h
    simp only [Prod.mk.injEq] at h2
    obtain ⟨rfl, rfl, rfl⟩ := h2
    obtain ⟨a, hlo, h8, rfl⟩ := alloc_facts h1
    have hr : r ≠ 10 := by omega
    have hnew : setReg s.used r true r = true := by simp [setReg]
    have hlow := low_alloc hl hlo
    have hch : s'.used = setReg s.used r true ∧ Tri (setReg s.used r true) (setReg s.used r true) (setReg s.used r true) c3 := by
      cases he : offs.isEmpty with
      | true => rw [he] at h3; obtain ⟨_, h4, rfl⟩ := pure_ok h3; rw [h4]; exact ⟨rfl, tri_nil (sub_refl _)⟩
      | false => rw [he] at h3; exact ⟨(safe_offsetChain h3).1, tri_offsetChain hr hnew hlow h3⟩
    obtain ⟨hu, hc⟩ := hch
    refine ⟨?_, ?_, ?_, h8, ?_, .inr ⟨rfl, a, hu⟩⟩
    · rw [hu]
      refine tri_trans (tri_trans ?_ hc) (tri_line (cut_line hr hnew _ _ _))
      intro d hd
      cases b0 with
      | var i => exact ⟨sound_of (by simp [Insn.srcs, hd.2 9 h9]) (by simpa [Insn.dst] using hr) (by simp), has_wr_new hd r⟩
      | uptr k => exact ⟨sound_of (by simp [Insn.srcs]) (by simpa [Insn.dst] using hr) (by simp), has_wr_new hd r⟩
      | reg q =>
        have := (hv q rfl).2.1
        exact ⟨sound_of (by simp [Insn.srcs, hd.2 q this]) (by simpa [Insn.dst] using hr) (by simp), has_wr_new hd r⟩
    · rw [hu]; exact setReg_sub _ _
    · rw [hu]; exact hnew
    · rw [hu]; exact hlow
  | enumMaybe n t0 => exact (reject_ok (s := s) h).elim

/-- What a part of the compiler that combines values does; `lead` is the operand whose register the result goes to. -/
structure Res (o : Opts) (b : Regs) (lead : Val) (s s' : CSt) (v : Val) (c : List Insn) : Prop where
  tri : Tri (plus b v) s.used s'.used c
  sub : Sub b s'.used
  own : Own b s'.used v
  low : Low o s'.used
  same : ∀ r q, matReg lead = some r → matReg v = some q → r = q

/-- Operands at hand. -/
structure Hold (o : Opts) (b : Regs) (s : CSt) (l r : Val) : Prop where
  sub : Sub b s.used
  nine : s.used 9 = true
  low : Low o s.used
  left : Own b s.used l
  right : Own b s.used r
  apart : ∀ x, regOf l = some x → regOf r ≠ some x

theorem mat_fresh {o : Opts} {v : Val} {s s' : CSt} {r : Nat} {c : List Insn} (g : Mat o v s s' r c) {b : Regs}
    (hv : Own b s.used v) (hb : Sub b s.used) : b r = false := by
  rcases g.new with ⟨h, _, _⟩ | ⟨_, h, _⟩
  · exact (own_mat hv h).1
  · cases hx : b r with
    | false => rfl
    | true => rw [hb r hx] at h; cases h

theorem regOf_mat {v : Val} {r : Nat} (h : matReg v = some r) : regOf v = some r := by
  cases v <;> first | exact h | cases h

theorem mat_left {o : Opts} {v : Val} {s s' : CSt} {r : Nat} {c : List Insn} (g : Mat o v s s' r c) :
    ∀ x q, matReg v = some x → some r = some q → x = q := by
  intro x q hx hq
  injection hq with hq
  rcases g.new with ⟨h, _, _⟩ | ⟨h, _, _⟩
  · rw [h] at hx; injection hx with hx; omega
  · rw [h] at hx; cases hx

theorem res_unRun {o : Opts} {b : Regs} {x y : Val} {k : Nat → List Insn} {s s' : CSt} {v : Val} {c : List Insn}
    (hs : Sub b s.used) (h9 : s.used 9 = true) (hl : Low o s.used) (hx : Own b s.used x) (hy : y = x ∨ matReg y = none)
    (h : unRun o x k s = .ok (v, s', c))
    (hk : ∀ u r, u r = true → r ≤ 8 → Tri u u u (k r)) : Res o b y s s' v c := by
  obtain ⟨r, t, m, c1, h1, rfl, rfl⟩ := unRun_ok h
  have g := mat_materialize hl h9 hx h1
  have hb := mat_fresh g hx hs
  have hp : Sub (plus b (.mat r t none)) s'.used := plus_sub (sub_trans hs g.sub) (by
    intro q hq; injection hq with hq; rw [← hq]; exact g.used)
  refine ⟨tri_base hp (tri_trans g.tri (hk _ r g.used g.le)), sub_trans hs g.sub, ?_, g.low, ?_⟩
  · intro q hq; injection hq with hq; rw [← hq]; exact ⟨hb, g.used, g.le⟩
  · intro p q hp hq
    rcases hy with rfl | hy
    · exact mat_left g p q hp hq
    · rw [hy] at hp; cases hp

theorem res_binRun {o : Opts} {b : Regs} {l r y : Val} {k : Nat → Option Ty → Nat → List Insn} {s s' : CSt} {v : Val}
    {c : List Insn} (hh : Hold o b s l r) (hy : y = l ∨ matReg y = none) (h : binRun o l r k s = .ok (v, s', c))
    (hk : ∀ u a t q, u a = true → u q = true → a ≤ 8 → q ≤ 8 → Tri u u u (k a t q)) : Res o b y s s' v c := by
  obtain ⟨rl, tl, ml, rr, tr, mr, s1, s2, c1, c2, h1, h2, rfl, rfl, rfl⟩ := binRun_ok h
  have g1 := mat_materialize hh.low hh.nine hh.left h1
  have hr1 := own_up hh.right g1.sub
  have g2 := mat_materialize g1.low (g1.sub _ hh.nine) hr1 h2
  have hb1 := mat_fresh g1 hh.left hh.sub
  have hb2 := mat_fresh g2 hr1 (sub_trans hh.sub g1.sub)
  have hne : rl ≠ rr := by
    intro he
    subst he
    rcases g2.new with ⟨h, _, _⟩ | ⟨_, h, _⟩
    · have hr := regOf_mat h
      rcases g1.new with ⟨h', _, _⟩ | ⟨_, h', _⟩
      · exact hh.apart rl (regOf_mat h') hr
      · rw [(hh.right rl hr).2.1] at h'; cases h'
    · rw [g1.used] at h; cases h
  have hp : Sub (plus b (.mat rl tl none)) s1.used := plus_sub (sub_trans hh.sub g1.sub) (by
    intro q hq; injection hq with hq; rw [← hq]; exact g1.used)
  have hp2 := sub_trans hp g2.sub
  refine ⟨?_, ?_, ?_, ?_, ?_⟩
  · refine tri_post (free_sub _ _) ?_
    exact tri_trans (tri_trans (tri_base hp g1.tri) (tri_base hp2 g2.tri))
      (tri_base hp2 (hk _ _ _ _ (g2.sub _ g1.used) g2.used g1.le g2.le))
  · intro x hx
    have hx' := g2.sub x (g1.sub x (hh.sub x hx))
    show free s2.used rr x = true
    rw [free_other (by rintro rfl; rw [hb2] at hx; cases hx)]
    exact hx'
  · intro q hq; injection hq with hq; rw [← hq]
    refine ⟨hb1, ?_, g1.le⟩
    show free s2.used rr rl = true
    rw [free_other hne]
    exact g2.sub _ g1.used
  · exact low_sub g2.low (free_sub _ _)
  · intro p q hp hq
    rcases hy with rfl | hy
    · exact mat_left g1 p q hp hq
    · rw [hy] at hp; cases hp

/-- Nothing emitted, nothing allocated. -/
theorem res_pure {o : Opts} {b : Regs} {y v0 v : Val} {s s' : CSt} {c : List Insn} (hs : Sub b s.used) (hl : Low o s.used)
    (hv : Own b s.used v0) (hy : ∀ r q, matReg y = some r → matReg v0 = some q → r = q)
    (h : (pure v0 : CM Val) s = .ok (v, s', c)) : Res o b y s s' v c := by
  obtain ⟨rfl, rfl, rfl⟩ := pure_ok h
  exact ⟨tri_nil (sub_refl _), hs, hv, hl, hy⟩

theorem res_const {o : Opts} {b : Regs} {y v : Val} {n : BitVec 64} {t : Option Ty} {s s' : CSt} {c : List Insn}
    (hs : Sub b s.used) (hl : Low o s.used) (h : (pure (.const n t) : CM Val) s = .ok (v, s', c)) : Res o b y s s' v c :=
  res_pure (v0 := .const n t) hs hl (own_none rfl) (fun _ _ _ h => by cases h) h

theorem res_addConst {o : Opts} {b : Regs} {y : Val} {b0 : Base} {offs : List Off} {t : Ty} {m : Option Member} {n : BitVec 64}
    {s s' : CSt} {v : Val} {c : List Insn} (hs : Sub b s.used) (hl : Low o s.used) (hv : Own b s.used (.pend b0 offs t m))
    (h : addConst o b0 offs t m n s = .ok (v, s', c)) : Res o b y s s' v c := by
  obtain ⟨rfl, rfl, _, _, _, rfl⟩ := safe_addConst h
  refine ⟨tri_nil (sub_refl _), hs, ?_, hl, fun _ _ _ h => by cases h⟩
  intro r hr
  refine hv r ?_
  cases b0 <;> first | exact hr | cases hr

theorem scale_line {u : Regs} {r : Nat} (hr : r ≤ 8) (hu : u r = true) (Γ : Btf) (t : Option Ty) :
    ∀ i ∈ scale Γ t r, lineI u i := by
  have h10 : r ≠ 10 := by omega
  intro i hi
  unfold scale at hi
  split at hi
  · split at hi
    · simp only [List.mem_singleton] at hi; subst hi; exact ⟨h10, hu⟩
    · simp at hi
  · split at hi
    · simp only [List.mem_singleton] at hi; subst hi; exact ⟨h10, hu⟩
    · simp at hi
  · simp at hi

theorem tri_one {b u : Regs} {i : Insn} (h : lineI u i) : Tri b u u [i] :=
  tri_line fun j hj => by rw [List.mem_singleton] at hj; subst hj; exact h

theorem ne10 {r : Nat} (h : r ≤ 8) : r ≠ 10 := by omega

theorem res_addVals {o : Opts} {b : Regs} {l r : Val} {s s' : CSt} {v : Val} {c : List Insn} (hh : Hold o b s l r)
    (h : addVals o l r s = .ok (v, s', c)) : Res o b l s s' v c := by
  unfold addVals at h
  split at h
  · exact res_const hh.sub hh.low h
  · replace h := check1_ok (check1_ok h)
    split at h
    · exact res_addConst hh.sub hh.low hh.left h
    · exact res_addConst hh.sub hh.low hh.right h
    · exact res_binRun hh (.inl rfl) h fun u a t q ha hq ha8 hq8 =>
        tri_trans (tri_line (scale_line hq8 hq _ _)) (tri_one ⟨ne10 ha8, ha, hq⟩)

theorem res_subVals {o : Opts} {b : Regs} {l r : Val} {s s' : CSt} {v : Val} {c : List Insn} (hh : Hold o b s l r)
    (h : subVals o l r s = .ok (v, s', c)) : Res o b l s s' v c := by
  unfold subVals at h
  split at h
  · exact res_const hh.sub hh.low h
  · replace h := check1_ok (check1_ok h)
    split at h
    · exact res_addConst hh.sub hh.low hh.left h
    · exact res_binRun hh (.inl rfl) h fun u a t q ha hq ha8 hq8 =>
        tri_trans (tri_line (scale_line hq8 hq _ _)) (tri_one ⟨ne10 ha8, ha, hq⟩)

theorem res_mulVals {o : Opts} {b : Regs} {l r : Val} {s s' : CSt} {v : Val} {c : List Insn} (hh : Hold o b s l r)
    (h : mulVals o l r s = .ok (v, s', c)) : Res o b l s s' v c := by
  unfold mulVals at h
  split at h
  · exact res_const hh.sub hh.low h
  · exact res_binRun hh (.inl rfl) (check1_ok (check1_ok h)) fun u a t q ha hq ha8 hq8 => tri_one ⟨ne10 ha8, ha, hq⟩

theorem sound_jmpImm {u : Regs} {d : Ini} (hd : Has u d) {r : Nat} (hr : u r = true) (c : Cmp) (k : BitVec 64) (off : Nat) :
    (Insn.jmpImm c r k off).sound d = true :=
  sound_of (by simp [Insn.srcs, hd.2 r hr]) (by simp [Insn.dst]) (by simp)

theorem sound_jmpReg {u : Regs} {d : Ini} (hd : Has u d) {r q : Nat} (hr : u r = true) (hq : u q = true) (c : Cmp) (off : Nat) :
    (Insn.jmpReg c r q off).sound d = true :=
  sound_of (by simp [Insn.srcs, hd.2 r hr, hd.2 q hq]) (by simp [Insn.dst]) (by simp)

theorem sound_ja (d : Ini) (off : Nat) : (Insn.ja off).sound d = true :=
  sound_of (by simp [Insn.srcs]) (by simp [Insn.dst]) (by simp)

theorem tri_guarded {u : Regs} {a q : Nat} (op : Alu) (ha : u a = true) (hq : u q = true) (ha8 : a ≤ 8) :
    Tri u u u (guarded op a q) := by
  intro d hd
  have h1 := line_sound (i := .movImm a 0) (u := u) (d := d) (ne10 ha8) hd
  have h2 := line_sound (i := .aluReg op a q) (u := u) ⟨ne10 ha8, ha, hq⟩ hd
  exact ⟨sound_jmpImm hd hq _ _ _, ⟨h1.1, sound_ja _ _, h1.2⟩, h2.1, h2.2⟩

theorem res_divVals {o : Opts} {b : Regs} {l r : Val} {s s' : CSt} {v : Val} {c : List Insn} (hh : Hold o b s l r)
    (h : divVals o l r s = .ok (v, s', c)) : Res o b l s s' v c := by
  unfold divVals at h
  split at h
  · split at h
    · exact (reject_ok h).elim
    · exact res_const hh.sub hh.low h
  · split at h
    · exact (reject_ok h).elim
    · exact res_unRun hh.sub hh.nine hh.low hh.left (.inl rfl) (check1_ok h) fun u a ha ha8 => tri_one ⟨ne10 ha8, ha⟩
  · exact res_binRun hh (.inl rfl) (check1_ok (check1_ok h)) fun u a t q ha hq ha8 hq8 => tri_guarded _ ha hq ha8

theorem res_modVals {o : Opts} {b : Regs} {l r : Val} {s s' : CSt} {v : Val} {c : List Insn} (hh : Hold o b s l r)
    (h : modVals o l r s = .ok (v, s', c)) : Res o b l s s' v c := by
  unfold modVals at h
  split at h
  · split at h
    · exact (reject_ok h).elim
    · exact res_const hh.sub hh.low h
  · split at h
    · exact (reject_ok h).elim
    · refine res_unRun hh.sub hh.nine hh.low hh.left (.inl rfl) (check1_ok h) fun u a ha ha8 => ?_
      split
      · exact tri_one (ne10 ha8)
      · exact tri_one ⟨ne10 ha8, ha⟩
  · exact res_binRun hh (.inl rfl) (check1_ok (check1_ok h)) fun u a t q ha hq ha8 hq8 => tri_guarded _ ha hq ha8

theorem res_bitVals {o : Opts} {b : Regs} {op : Alu} {l r : Val} {s s' : CSt} {v : Val} {c : List Insn} (hh : Hold o b s l r)
    (h : bitVals o op l r s = .ok (v, s', c)) : Res o b l s s' v c := by
  unfold bitVals at h
  split at h
  · exact res_const hh.sub hh.low h
  · exact res_unRun hh.sub hh.nine hh.low hh.left (.inl rfl) (check1_ok h) fun u a ha ha8 => tri_one ⟨ne10 ha8, ha⟩
  · exact res_binRun hh (.inl rfl) (check1_ok (check1_ok h)) fun u a t q ha hq ha8 hq8 => tri_one ⟨ne10 ha8, ha, hq⟩

theorem res_shiftVals {o : Opts} {b : Regs} {left : Bool} {l r : Val} {s s' : CSt} {v : Val} {c : List Insn}
    (hh : Hold o b s l r) (h : shiftVals o left l r s = .ok (v, s', c)) : Res o b l s s' v c := by
  unfold shiftVals at h
  simp only at h
  split at h
  · unfold foldShift at h
    split at h
    · exact (panic_ok h).elim
    · exact res_const hh.sub hh.low h
  · replace h := check1_ok h
    obtain ⟨⟨rl, tl, ml⟩, s1, c1, c2, h1, h2, rfl⟩ := bind_ok h
    have g := mat_materialize hh.low hh.nine hh.left h1
    have hb := mat_fresh g hh.left hh.sub
    have fin : ∀ {t : Option Ty} {m : Option Member} {c2 : List Insn}, Tri s1.used s1.used s1.used c2 →
        Res o b l s s1 (.mat rl t m) (c1 ++ c2) := by
      intro t m c2 hc
      have hp : Sub (plus b (.mat rl t m)) s1.used := plus_sub (sub_trans hh.sub g.sub) (by
        intro q hq; injection hq with hq; rw [← hq]; exact g.used)
      refine ⟨tri_base hp (tri_trans g.tri hc), sub_trans hh.sub g.sub, ?_, g.low, fun x q hx hq => mat_left g x q hx hq⟩
      intro q hq; injection hq with hq; rw [← hq]; exact ⟨hb, g.used, g.le⟩
    simp only at h2
    split at h2
    · exact (reject_ok h2).elim
    · split at h2
      · obtain ⟨rfl, rfl, rfl⟩ := pure_ok h2
        exact fin (tri_nil (sub_refl _))
      · obtain ⟨_, s3, c3, c4, h3, h4, rfl⟩ := bind_ok h2
        obtain ⟨rfl, rfl⟩ := emit_ok h3
        obtain ⟨rfl, rfl, rfl⟩ := pure_ok h4
        rw [List.append_nil]
        exact fin (tri_one ⟨ne10 g.le, g.used⟩)
  · refine res_binRun hh (.inl rfl) (check1_ok (check1_ok h)) fun u a t q ha hq ha8 hq8 => ?_
    intro d hd
    have h2 := fun op => line_sound (i := .aluReg op a q) (u := u) ⟨ne10 ha8, ha, hq⟩ hd
    exact ⟨sound_jmpImm hd hq _ _ _, ⟨(h2 _).1, (h2 _).2⟩, hd⟩

/-- The two ends of a truth value: `mov r, 1; ja +1; xor r, r`. -/
theorem wp_reg2bool {u : Regs} {r : Nat} {d : Ini} (hd : Has u d) (hr : u r = true) (h8 : r ≤ 8) :
    wp (Has u) (Has u) (reg2bool r) 0 d ∧ wp (Has u) (Has u) (reg2bool r) 2 d := by
  have h1 := line_sound (i := .movImm r 1) (u := u) (d := d) (ne10 h8) hd
  have h2 := line_sound (i := .aluReg .xor r r) (u := u) ⟨ne10 h8, hr, hr⟩ hd
  exact ⟨⟨h1.1, sound_ja _ _, h1.2⟩, h2.1, h2.2⟩

theorem tri_cmpImm {u : Regs} {r : Nat} (hr : u r = true) (h8 : r ≤ 8) (c : Cmp) (k : BitVec 64) :
    Tri u u u (.jmpImm c r k 2 :: reg2bool r) := fun _ hd =>
  ⟨sound_jmpImm hd hr _ _ _, (wp_reg2bool hd hr h8).1, (wp_reg2bool hd hr h8).2⟩

/-- A value replaced by a constant, or not at all. -/
def Le (v' v : Val) : Prop := v' = v ∨ (regOf v' = none ∧ matReg v = none)

theorem le_refl (v : Val) : Le v v := .inl rfl

theorem own_le {b u : Regs} {v v' : Val} (h : Own b u v) (hl : Le v' v) : Own b u v' := by
  rcases hl with rfl | hl
  · exact h
  · exact own_none hl.1

theorem hold_le {o : Opts} {b : Regs} {s : CSt} {l l' r r' : Val} (h : Hold o b s l r) (hl : Le l' l) (hr : Le r' r) :
    Hold o b s l' r' := by
  refine ⟨h.sub, h.nine, h.low, own_le h.left hl, own_le h.right hr, ?_⟩
  intro x hx hy
  rcases hl with rfl | hl
  · rcases hr with rfl | hr
    · exact h.apart x hx hy
    · rw [hr.1] at hy; cases hy
  · rw [hl.1] at hx; cases hx

theorem res_le {o : Opts} {b : Regs} {l l' v : Val} {s s' : CSt} {c : List Insn} (h : Res o b l' s s' v c) (hl : Le l' l) :
    Res o b l s s' v c := by
  refine ⟨h.tri, h.sub, h.own, h.low, ?_⟩
  rcases hl with rfl | hl
  · exact h.same
  · intro r q hr; rw [hl.2] at hr; cases hr

theorem le_adjustNums (Γ : Btf) (l r : Val) : Le (adjustNums Γ l r).1 l ∧ Le (adjustNums Γ l r).2 r := by
  unfold adjustNums
  split <;> first | exact ⟨.inr ⟨rfl, rfl⟩, .inl rfl⟩ | exact ⟨.inl rfl, .inr ⟨rfl, rfl⟩⟩ | exact ⟨.inl rfl, .inl rfl⟩

theorem le_resolveEnums {o : Opts} {l r l' r' : Val} {s s' : CSt} {c : List Insn}
    (h : resolveEnums o l r s = .ok ((l', r'), s', c)) : Le l' l ∧ Le r' r := by
  have key : ∀ (x : Option (BitVec 64)) (f : BitVec 64 → Val × Val), (∀ n, Le (f n).1 l ∧ Le (f n).2 r) →
      (match x with | none => reject | some n => pure (f n) : CM (Val × Val)) s = .ok ((l', r'), s', c) →
      Le l' l ∧ Le r' r := by
    intro x f hf h
    cases x with
    | none => exact (reject_ok h).elim
    | some n => obtain ⟨h, _, _⟩ := pure_ok h; have := hf n; rw [← h] at this; exact this
  unfold resolveEnums at h
  split at h
  · exact key _ (fun n => (Val.const n none, _)) (fun _ => ⟨.inr ⟨rfl, rfl⟩, .inl rfl⟩) h
  · exact key _ (fun n => (Val.const n none, _)) (fun _ => ⟨.inr ⟨rfl, rfl⟩, .inl rfl⟩) h
  · exact key _ (fun n => (_, Val.const n none)) (fun _ => ⟨.inl rfl, .inr ⟨rfl, rfl⟩⟩) h
  · exact key _ (fun n => (_, Val.const n none)) (fun _ => ⟨.inl rfl, .inr ⟨rfl, rfl⟩⟩) h
  · obtain ⟨h, _, _⟩ := pure_ok h; cases h; exact ⟨.inl rfl, .inl rfl⟩

theorem res_cmpVals {o : Opts} {b : Regs} {cm : Cmp} {l r : Val} {s s' : CSt} {v : Val} {c : List Insn} (hh : Hold o b s l r)
    (h : cmpVals o cm l r s = .ok (v, s', c)) : Res o b l s s' v c := by
  unfold cmpVals at h
  obtain ⟨hl1, hr1⟩ := le_adjustNums o.Γ l r
  generalize hq : adjustNums o.Γ l r = q at h hl1 hr1
  obtain ⟨l', r'⟩ := q
  simp only at hl1 hr1
  have hh' := hold_le hh hl1 hr1
  refine res_le ?_ hl1
  have hun : ∀ {k : BitVec 64}, (do
      checkCalc o l'
      unRun o l' fun rl => .jmpImm (negCmp cm) rl k 2 :: reg2bool rl : CM Val) s = .ok (v, s', c) →
      Res o b l' s s' v c := by
    intro k h
    exact res_unRun hh'.sub hh'.nine hh'.low hh'.left (.inl rfl) (check1_ok h) fun u a ha ha8 => tri_cmpImm ha ha8 _ _
  have hbin : (do
      checkCalc o l'
      checkCalc o r'
      binRun o l' r' fun rl _ rr => .jmpReg (negCmp cm) rl rr 2 :: reg2bool rl : CM Val) s = .ok (v, s', c) →
      Res o b l' s s' v c := by
    intro h
    refine res_binRun hh' (.inl rfl) (check1_ok (check1_ok h)) fun u a t q ha hq ha8 hq8 => ?_
    intro d hd
    exact ⟨sound_jmpReg hd ha hq _ _, (wp_reg2bool hd ha ha8).1, (wp_reg2bool hd ha ha8).2⟩
  cases l' with
  | const a ta =>
    cases r' with
    | const b tb => exact res_const hh.sub hh.low h
    | _ => exact hbin h
  | _ =>
    cases r' with
    | const b tb => exact hun h
    | _ => exact hbin h

theorem res_freeConst {o : Opts} {b : Regs} {l r y : Val} {n : BitVec 64} {s s' : CSt} {v : Val} {c : List Insn}
    (hh : Hold o b s l r) (h : (do freeIfMat l; pure (.const n none) : CM Val) s = .ok (v, s', c)) : Res o b y s s' v c := by
  obtain ⟨_, s1, c1, c2, h1, h2, rfl⟩ := bind_ok h
  obtain ⟨rfl, rfl, rfl⟩ := pure_ok h2
  have keep : ∀ {s1 : CSt} {c1 : List Insn}, c1 = [] → Sub s1.used s.used → Sub b s1.used →
      Res o b y s s1 (.const n none) (c1 ++ []) := by
    rintro s1 _ rfl h1 h2
    exact ⟨tri_nil h1, h2, own_none rfl, low_sub hh.low h1, fun _ _ _ h => by cases h⟩
  cases l with
  | mat r t m =>
    obtain ⟨rfl, rfl⟩ := freeM_ok h1
    refine keep rfl (free_sub _ _) ?_
    intro x hx
    show free s.used r x = true
    rw [free_other (by rintro rfl; rw [(hh.left x rfl).1] at hx; cases hx)]
    exact hh.sub x hx
  | const => obtain ⟨_, rfl, rfl⟩ := pure_ok h1; exact keep rfl (sub_refl _) hh.sub
  | pend => obtain ⟨_, rfl, rfl⟩ := pure_ok h1; exact keep rfl (sub_refl _) hh.sub
  | enumMaybe => obtain ⟨_, rfl, rfl⟩ := pure_ok h1; exact keep rfl (sub_refl _) hh.sub

theorem res_andand {o : Opts} {b : Regs} {l r : Val} {s s' : CSt} {v : Val} {c : List Insn} (hh : Hold o b s l r)
    (h : andandVals o l r s = .ok (v, s', c)) : Res o b l s s' v c := by
  unfold andandVals at h
  split at h
  · exact res_const hh.sub hh.low h
  · replace h := check1_ok h
    split at h
    · exact res_const hh.sub hh.low h
    · exact res_unRun hh.sub hh.nine hh.low hh.right (.inr rfl) h fun u a ha ha8 => tri_cmpImm ha ha8 _ _
  · replace h := check1_ok h
    split at h
    · exact res_freeConst hh h
    · exact res_unRun hh.sub hh.nine hh.low hh.left (.inl rfl) h fun u a ha ha8 => tri_cmpImm ha ha8 _ _
  · refine res_binRun hh (.inl rfl) (check1_ok (check1_ok h)) fun u a t q ha hq ha8 hq8 => ?_
    intro d hd
    have h2 := wp_reg2bool hd ha ha8
    exact ⟨sound_jmpImm hd ha _ _ _, ⟨sound_jmpImm hd hq _ _ _, h2.1, h2.2⟩, h2.2⟩

theorem res_oror {o : Opts} {b : Regs} {l r : Val} {s s' : CSt} {v : Val} {c : List Insn} (hh : Hold o b s l r)
    (h : ororVals o l r s = .ok (v, s', c)) : Res o b l s s' v c := by
  unfold ororVals at h
  split at h
  · exact res_const hh.sub hh.low h
  · replace h := check1_ok h
    split at h
    · exact res_const hh.sub hh.low h
    · exact res_unRun hh.sub hh.nine hh.low hh.right (.inr rfl) h fun u a ha ha8 => tri_cmpImm ha ha8 _ _
  · replace h := check1_ok h
    split at h
    · exact res_freeConst hh h
    · exact res_unRun hh.sub hh.nine hh.low hh.left (.inl rfl) h fun u a ha ha8 => tri_cmpImm ha ha8 _ _
  · refine res_binRun hh (.inl rfl) (check1_ok (check1_ok h)) fun u a t q ha hq ha8 hq8 => ?_
    intro d hd
    have h1 := line_sound (i := .movImm a 1) (u := u) (d := d) (ne10 ha8) hd
    have h2 := line_sound (i := .aluReg .xor a a) (u := u) ⟨ne10 ha8, ha, ha⟩ hd
    have tail : wp (Has u) (Has u) [.aluReg .xor a a, .ja 1, .movImm a 1] 0 d := ⟨h2.1, sound_ja _ _, h2.2⟩
    exact ⟨sound_jmpImm hd ha _ _ _, ⟨sound_jmpImm hd hq _ _ _, tail, h1.1, h1.2⟩, h1.1, h1.2⟩

theorem res_binVals {o : Opts} {b : Regs} {op : Bop} {l r : Val} {s s' : CSt} {v : Val} {c : List Insn} (hh : Hold o b s l r)
    (h : binVals o op l r s = .ok (v, s', c)) : Res o b l s s' v c := by
  obtain ⟨l', r', he, h⟩ := binVals_ok h
  obtain ⟨hl, hr⟩ := le_resolveEnums he
  have hh := hold_le hh hl hr
  refine res_le ?_ hl
  cases op with
  | add => exact res_addVals hh h
  | sub => exact res_subVals hh h
  | mul => exact res_mulVals hh h
  | div => exact res_divVals hh h
  | mod => exact res_modVals hh h
  | and => exact res_bitVals hh h
  | or => exact res_bitVals hh h
  | xor => exact res_bitVals hh h
  | lsh => exact res_shiftVals hh h
  | rsh => exact res_shiftVals hh h
  | eq => exact res_cmpVals hh h
  | ne => exact res_cmpVals hh h
  | lt => exact res_cmpVals hh h
  | le => exact res_cmpVals hh h
  | gt => exact res_cmpVals hh h
  | ge => exact res_cmpVals hh h
  | andand => exact res_andand hh h
  | oror => exact res_oror hh h

theorem res_unVals {o : Opts} {b : Regs} {op : Uop} {x : Val} {s s' : CSt} {v : Val} {c : List Insn} (hs : Sub b s.used)
    (h9 : s.used 9 = true) (hl : Low o s.used) (hx : Own b s.used x) (h : unVals o op x s = .ok (v, s', c)) :
    Res o b x s s' v c := by
  have same : ∀ r q, matReg x = some r → matReg x = some q → r = q := by
    intro r q h1 h2; rw [h1] at h2; injection h2
  cases op with
  | not =>
    unfold unVals at h
    cases x with
    | const n t => exact res_const hs hl h
    | _ => exact res_unRun hs h9 hl hx (.inl rfl) h fun u a ha ha8 => tri_cmpImm ha ha8 _ _
  | paren => exact res_pure hs hl hx same h
  | plus => exact res_pure hs hl hx same h
  | minus =>
    unfold unVals at h
    cases x with
    | const n t => exact res_const hs hl h
    | _ => exact res_unRun hs h9 hl hx (.inl rfl) h fun u a ha ha8 => tri_one ⟨ne10 ha8, ha⟩
  | twid =>
    unfold unVals at h
    cases x with
    | const n t => exact res_const hs hl h
    | _ => exact res_unRun hs h9 hl hx (.inl rfl) (check1_ok h) fun u a ha ha8 => tri_one ⟨ne10 ha8, ha⟩
  | preinc =>
    unfold unVals at h
    cases x with
    | const n t => exact res_const hs hl h
    | _ => exact res_unRun hs h9 hl hx (.inl rfl) h fun u a ha ha8 => tri_one ⟨ne10 ha8, ha⟩
  | predec =>
    unfold unVals at h
    cases x with
    | const n t => exact res_const hs hl h
    | _ => exact res_unRun hs h9 hl hx (.inl rfl) h fun u a ha ha8 => tri_one ⟨ne10 ha8, ha⟩

/-- One arm of `?:` ends with no more registers in use than it began with, and not fewer of those in `b`. -/
theorem arm_condArm {o : Opts} {b : Regs} {rc : Nat} {x : Val} {s s' : CSt} {w : Unit} {c : List Insn} (hs : Sub b s.used)
    (h9 : s.used 9 = true) (hl : Low o s.used) (hx : Own b s.used x) (hrc : s.used rc = true) (h8 : rc ≤ 8)
    (hne : regOf x ≠ some rc) (h : condArm o rc x s = .ok (w, s', c)) :
    Tri s.used s.used s'.used c ∧ Sub s'.used s.used ∧ Sub b s'.used ∧ s'.used rc = true ∧
      (∀ q, s.used q = true → regOf x ≠ some q → s'.used q = true) := by
  rcases condArm_ok h with ⟨n, t, _, rfl, rfl⟩ | ⟨r, t, m, s1, c1, h1, rfl, rfl, _⟩
  · exact ⟨tri_one (ne10 h8), sub_refl _, hs, hrc, fun _ h _ => h⟩
  · have g := mat_materialize hl h9 hx h1
    have hb := mat_fresh g hx hs
    have hback : Sub (free s1.used r) s.used := by
      intro q hq
      have h1 := free_sub _ _ q hq
      rcases g.new with ⟨_, he, _⟩ | ⟨_, _, he⟩
      · rw [he] at h1; exact h1
      · rw [he] at h1
        simp only [setReg] at h1
        split at h1
        · rename_i hqr
          subst hqr
          exfalso
          have : free s1.used q q = false := by
            unfold free
            rw [if_pos (by have := g.le; omega)]
            simp [setReg]
          rw [this] at hq; cases hq
        · exact h1
    have hkeep : ∀ q, s.used q = true → regOf x ≠ some q → free s1.used r q = true := by
      intro q hq hn
      rw [free_other ?_]
      · exact g.sub q hq
      · rintro rfl
        rcases g.new with ⟨h, _, _⟩ | ⟨_, h, _⟩
        · exact hn (regOf_mat h)
        · rw [hq] at h; cases h
    refine ⟨?_, hback, ?_, hkeep rc hrc hne, hkeep⟩
    · refine tri_post (free_sub _ _) ?_
      refine tri_trans (tri_base g.sub g.tri) (tri_one ⟨ne10 h8, .inl g.used⟩)
    · intro q hq
      show free s1.used r q = true
      rw [free_other (by rintro rfl; rw [hb] at hq; cases hq)]
      exact g.sub q (hs q hq)

theorem res_condVals {o : Opts} {b : Regs} {x l r : Val} {s s' : CSt} {v : Val} {c : List Insn} (hxl : Hold o b s x l)
    (hxr : Hold o b s x r) (hlr : ∀ q, regOf l = some q → regOf r ≠ some q) (h : condVals o x l r s = .ok (v, s', c)) :
    Res o b (.const 0 none) s s' v c := by
  rcases condVals_ok h with ⟨n, _, _, rfl, rfl, rfl⟩ | ⟨_, rc, tc, mc, s1, c1, s2, cl, cr, h1, h2, h3, rfl, rfl⟩
  · refine ⟨tri_nil (sub_refl _), hxl.sub, ?_, hxl.low, fun _ _ h => by cases h⟩
    split
    · exact hxl.right
    · exact hxr.right
  · have g := mat_materialize hxl.low hxl.nine hxl.left h1
    have hb := mat_fresh g hxl.left hxl.sub
    have hne : ∀ y, Own b s.used y → (∀ q, regOf x = some q → regOf y ≠ some q) → regOf y ≠ some rc := by
      intro y hy hap he
      rcases g.new with ⟨h, _, _⟩ | ⟨_, h, _⟩
      · exact hap rc (regOf_mat h) he
      · rw [(hy rc he).2.1] at h; cases h
    have hs1 := sub_trans hxl.sub g.sub
    obtain ⟨t2, b2, k2, r2, p2⟩ := arm_condArm hs1 (g.sub _ hxl.nine) g.low (own_up hxl.right g.sub) g.used g.le
      (hne l hxl.right hxl.apart) h2
    have hr2 : Own b s2.used r := by
      intro q hq
      have := hxr.right q hq
      exact ⟨this.1, p2 q (g.sub q this.2.1) (fun hl => hlr q hl hq), this.2.2⟩
    have n2 : s2.used 9 = true := p2 9 (g.sub _ hxl.nine) (fun hl => by
      have := (hxl.right 9 hl).2.2; omega)
    obtain ⟨t3, b3, k3, r3, p3⟩ := arm_condArm k2 n2 (low_sub g.low b2) hr2 r2 g.le (hne r hxr.right hxr.apart) h3
    have hp1 : Sub (plus b (.mat rc tc none)) s1.used := plus_sub hs1 (by
      intro q hq; injection hq with hq; rw [← hq]; exact g.used)
    have hp2 : Sub (plus b (.mat rc tc none)) s2.used := plus_sub k2 (by
      intro q hq; injection hq with hq; rw [← hq]; exact r2)
    refine ⟨tri_trans (tri_base hp1 g.tri) ?_, k3, ?_, low_sub g.low (sub_trans b3 b2), fun _ _ h => by cases h⟩
    · intro d hd
      have right : wp (Has s'.used) (Has (plus b (.mat rc tc none))) cr 0 d := tri_base hp2 t3 d (has_sub b2 hd)
      refine ⟨sound_jmpImm hd g.used _ _ _, ?_, ?_⟩
      · show wp _ _ (cl ++ .ja cr.length :: cr) 0 d
        refine wp_append (wp_mono ?_ (fun _ h => h) (tri_base hp1 t2 d hd))
        intro d' hd'
        refine ⟨sound_ja _ _, ?_⟩
        have : wp (Has s'.used) (Has (plus b (.mat rc tc none))) (cr ++ []) cr.length d' :=
          (wp_skip cr).mpr (has_sub b3 hd')
        rwa [List.append_nil] at this
      · show wp _ _ (cl ++ .ja cr.length :: cr) (cl.length + 1) d
        have : wp (Has s'.used) (Has (plus b (.mat rc tc none))) ((cl ++ [.ja cr.length]) ++ cr)
            (cl ++ [Insn.ja cr.length]).length d := (wp_skip _).mpr right
        simpa using this
    · intro q hq; injection hq with hq; rw [← hq]
      exact ⟨hb, r3, g.le⟩

/-! ### Expressions -/

theorem reg_accessMember {o : Opts} {b : Val} {f : String} {arrow : Bool} {s s' : CSt} {v : Val}
    {c : List Insn} (h : accessMember o b f arrow s = .ok (v, s', c)) : regOf v = regOf b := by
  have fin : ∀ {b0 : Base} {l : List Off} {t : Ty} {m : Option Member}, regOf (.pend b0 l t m) = regOf b →
      (pure (.pend b0 l t m) : CM Val) s = .ok (v, s', c) → regOf v = regOf b := by
    intro b l t m hr h; obtain ⟨rfl, h1, h2⟩ := pure_ok h; exact hr
  have rej : ∀ {P : Prop}, (reject : CM Val) s = .ok (v, s', c) → P := fun h => (reject_ok h).elim
  have pb : ∀ (b0 : Base) (l l' : List Off) (t t' : Ty) (m m' : Option Member), regOf (.pend b0 l t m) = regOf (.pend b0 l' t' m') := by
    intro b0 l l' t t' m m'; cases b0 <;> rfl
  unfold accessMember at h
  split at h
  · exact rej h
  · dsimp only at h
    generalize hT : (if arrow = true then match o.Γ.kindO b.ty with
      | .ptr t => some (o.Γ.kindOf t) | _ => none else some (o.Γ.kindO b.ty)) = T at h
    cases T with
    | none => exact rej h
    | some k =>
      cases k with
      | comp id =>
        simp only at h
        cases hm : o.Γ.member id f with
        | none => simp only [hm] at h; exact rej h
        | some mem =>
          simp only [hm] at h
          cases b with
          | pend b offs t m =>
            simp only at h
            split at h
            · split at h
              · exact rej h
              · exact fin (pb _ _ _ _ _ _ _) h
            · exact fin (pb _ _ _ _ _ _ _) h
          | mat r t m =>
            simp only at h
            split at h
            · exact rej h
            · exact fin rfl h
          | const => exact rej h
          | enumMaybe => exact rej h
      | _ => exact rej h

theorem reg_evaluateIndex {o : Opts} {b : Val} {i : Expr} {s s' : CSt} {v : Val}
    {c : List Insn} (h : evaluateIndex o b i s = .ok (v, s', c)) : regOf v = regOf b := by
  have fin : ∀ {b0 : Base} {l : List Off} {t : Ty} {m : Option Member}, regOf (.pend b0 l t m) = regOf b →
      (pure (.pend b0 l t m) : CM Val) s = .ok (v, s', c) → regOf v = regOf b := by
    intro b l t m hr h; obtain ⟨rfl, h1, h2⟩ := pure_ok h; exact hr
  have rej : ∀ {P : Prop}, (reject : CM Val) s = .ok (v, s', c) → P := fun h => (reject_ok h).elim
  have pb : ∀ (b0 : Base) (l l' : List Off) (t t' : Ty) (m m' : Option Member), regOf (.pend b0 l t m) = regOf (.pend b0 l' t' m') := by
    intro b0 l l' t t' m m'; cases b0 <;> rfl
  unfold evaluateIndex at h
  split at h
  · exact rej h
  · cases i with
    | num text =>
      simp only at h
      cases hn : parseNumber text with
      | none => simp only [hn] at h; exact rej h
      | some n =>
        simp only [hn] at h
        cases hk : o.Γ.kindO b.ty with
        | ptr t =>
          simp only [hk] at h
          split at h
          · exact rej h
          · cases b with
            | pend b offs t m => exact fin (pb _ _ _ _ _ _ _) h
            | mat r t m => exact fin rfl h
            | const => exact rej h
            | enumMaybe => exact rej h
        | array t =>
          simp only [hk] at h
          split at h
          · exact rej h
          · cases b with
            | pend b offs t m => exact fin (pb _ _ _ _ _ _ _) h
            | mat r t m => exact fin rfl h
            | const => exact rej h
            | enumMaybe => exact rej h
        | _ => simp only [hk] at h; exact rej h
    | _ => exact rej h

theorem reg_evaluateIndir {o : Opts} {b : Val} {s s' : CSt} {v : Val}
    {c : List Insn} (h : evaluateIndir o b s = .ok (v, s', c)) : regOf v = regOf b := by
  have rej : ∀ {P : Prop}, (reject : CM Val) s = .ok (v, s', c) → P := fun h => (reject_ok h).elim
  unfold evaluateIndir at h
  split at h
  · exact rej h
  · cases hk : o.Γ.kindO b.ty with
    | ptr t =>
      simp only [hk] at h
      cases b with
      | pend b offs t m => obtain ⟨rfl, h1, h2⟩ := pure_ok h; cases b <;> rfl
      | mat r t m => obtain ⟨rfl, h1, h2⟩ := pure_ok h; rfl
      | const => exact rej h
      | enumMaybe => exact rej h
    | _ => simp only [hk] at h; exact rej h

theorem reg_evaluateAddr {b : Val} {s s' : CSt} {v : Val}
    {c : List Insn} (h : evaluateAddr b s = .ok (v, s', c)) : regOf v = regOf b := by
  unfold evaluateAddr at h
  cases b with
  | pend b offs t m =>
    simp only at h
    split at h
    · exact (reject_ok h).elim
    · obtain ⟨rfl, h1, h2⟩ := pure_ok h; cases b <;> rfl
  | mat r t m => exact (reject_ok h).elim
  | const => exact (reject_ok h).elim
  | enumMaybe => exact (reject_ok h).elim

theorem reg_castVal (t : Ty) (v : Val) : regOf (castVal t v) = regOf v := by
  cases v with
  | pend b offs t m => cases b <;> rfl
  | _ => rfl

theorem reg_name (o : Opts) (s : String) : regOf (evaluateName o s) = none := by
  unfold evaluateName
  split
  · rfl
  · split
    · rfl
    · split <;> rfl

/-- What evaluating an expression does with the registers. -/
structure Ev (o : Opts) (s s' : CSt) (v : Val) (c : List Insn) : Prop where
  tri : Tri s.used s.used s'.used c
  sub : Sub s.used s'.used
  own : Own s.used s'.used v
  low : Low o s'.used

theorem ev_access {o : Opts} {s s' : CSt} {v w : Val} {c1 c2 : List Insn} (g : Ev o s s' w c1) (hc : c2 = [])
    (hr : regOf v = regOf w) : Ev o s s' v (c1 ++ c2) := by
  subst hc
  rw [List.append_nil]
  exact ⟨g.tri, g.sub, fun r h => g.own r (hr ▸ h), g.low⟩

theorem ev_nil {o : Opts} {s : CSt} {v : Val} (hl : Low o s.used) (hr : regOf v = none) : Ev o s s v [] :=
  ⟨tri_nil (sub_refl _), sub_refl _, own_none hr, hl⟩

theorem hold_two {o : Opts} {s s1 s2 : CSt} {l r : Val} {c1 c2 : List Insn} (h9 : s.used 9 = true) (g1 : Ev o s s1 l c1)
    (g2 : Ev o s1 s2 r c2) : Hold o s.used s2 l r := by
  refine ⟨sub_trans g1.sub g2.sub, g2.sub _ (g1.sub _ h9), g2.low, own_up g1.own g2.sub, ?_, ?_⟩
  · intro x hx
    obtain ⟨h1, h2, h3⟩ := g2.own x hx
    refine ⟨?_, h2, h3⟩
    cases hs : s.used x with
    | false => rfl
    | true => rw [g1.sub x hs] at h1; cases h1
  · intro x hx hy
    have h1 := (g1.own x hx).2.1
    rw [(g2.own x hy).1] at h1; cases h1

theorem inReg_mat {v : Val} (h : v.inReg = true) : ∃ r, matReg v = some r := by
  cases v with
  | mat r t m => exact ⟨r, rfl⟩
  | _ => cases h

/-- The result of an operator goes to the register of its leading operand. -/
theorem plus_lead {o : Opts} {b : Regs} {lead v : Val} {s s' : CSt} {c : List Insn} (g : Res o b lead s s' v c)
    (hl : lead.inReg = true) : Sub (plus b v) (plus b lead) := by
  obtain ⟨r, hr⟩ := inReg_mat hl
  refine plus_sub (sub_plus _ _) fun q hq => ?_
  simp [plus, hr, g.same r q hr hq]

theorem ev_evaluate {o : Opts} : ∀ {e : Expr} {s s' : CSt} {v : Val} {c : List Insn}, Low o s.used → s.used 9 = true →
    e.castsZero = false → evaluate o e s = .ok (v, s', c) →
    Ev o s s' v c ∧ (timely o e s = true → Tri (plus s.used v) s.used s'.used c) := by
  intro e
  -- expressions for which nothing is said about the result register
  have wrap : ∀ {e : Expr} {s s' : CSt} {v : Val} {c : List Insn}, Ev o s s' v c →
      (timely o e s = true → noExits c = true) → Ev o s s' v c ∧ (timely o e s = true → Tri (plus s.used v) s.used s'.used c) := by
    intro e s s' v c g h
    exact ⟨g, fun ht => tri_noExit (noExit_iff.mp (h ht)) g.tri⟩
  induction e with
  | name n =>
    intro s s' v c hl h9 hz h
    have hh := h
    obtain ⟨rfl, rfl, rfl⟩ := pure_ok h
    exact wrap (ev_nil hl (reg_name _ _)) (fun _ => rfl)
  | num text =>
    intro s s' v c hl h9 hz h
    simp only [evaluate] at h
    cases hp : parseNumber text with
    | none => simp only [hp] at h; exact (reject_ok h).elim
    | some n =>
      simp only [hp] at h
      obtain ⟨rfl, rfl, rfl⟩ := pure_ok h
      exact wrap (ev_nil hl rfl) (fun _ => rfl)
  | arrow e f ih =>
    intro s s' v c hl h9 hz h
    have hh := h
    simp only [evaluate] at h
    obtain ⟨b, s1, c1, c2, h1, h2, rfl⟩ := bind_ok h
    obtain ⟨hc, rfl⟩ := accessMember_nil h2
    exact wrap (ev_access (ih hl h9 hz h1).1 hc (reg_accessMember h2)) (fun ht => by simpa only [timely, hh] using ht)
  | dot e f ih =>
    intro s s' v c hl h9 hz h
    have hh := h
    simp only [evaluate] at h
    obtain ⟨b, s1, c1, c2, h1, h2, rfl⟩ := bind_ok h
    obtain ⟨hc, rfl⟩ := accessMember_nil h2
    exact wrap (ev_access (ih hl h9 hz h1).1 hc (reg_accessMember h2)) (fun ht => by simpa only [timely, hh] using ht)
  | index e i ih _ =>
    intro s s' v c hl h9 hz h
    have hh := h
    simp only [evaluate] at h
    obtain ⟨b, s1, c1, c2, h1, h2, rfl⟩ := bind_ok h
    obtain ⟨hc, rfl⟩ := evaluateIndex_nil h2
    exact wrap (ev_access (ih hl h9 hz h1).1 hc (reg_evaluateIndex h2)) (fun ht => by simpa only [timely, hh] using ht)
  | indir e ih =>
    intro s s' v c hl h9 hz h
    have hh := h
    simp only [evaluate] at h
    obtain ⟨b, s1, c1, c2, h1, h2, rfl⟩ := bind_ok h
    obtain ⟨hc, rfl⟩ := evaluateIndir_nil h2
    exact wrap (ev_access (ih hl h9 hz h1).1 hc (reg_evaluateIndir h2)) (fun ht => by simpa only [timely, hh] using ht)
  | addr e ih =>
    intro s s' v c hl h9 hz h
    have hh := h
    simp only [evaluate] at h
    obtain ⟨b, s1, c1, c2, h1, h2, rfl⟩ := bind_ok h
    obtain ⟨hc, rfl⟩ := evaluateAddr_nil h2
    exact wrap (ev_access (ih hl h9 hz h1).1 hc (reg_evaluateAddr h2)) (fun ht => by simpa only [timely, hh] using ht)
  | cast t e ih =>
    intro s s' v c hl h9 hz h
    have hh := h
    rcases evaluate_cast h with ⟨text, n, ty, rfl, hp, _, rfl, rfl, rfl⟩ | ⟨hn, v0, ty, h1, _, rfl⟩
    · have hz' : BitVec.ofNat 64 n ≠ 0 := by
        simp only [Expr.castsZero, hp, Option.map_some] at hz
        intro h0
        rw [h0] at hz
        simp at hz
      rw [if_neg hz'] at hh ⊢
      exact wrap (ev_nil hl rfl) (fun _ => rfl)
    · have hz' : e.castsZero = false := by
        cases e with
        | num text => exact absurd rfl (hn text)
        | _ => exact hz
      have g := (ih hl h9 hz' h1).1
      refine wrap ⟨g.tri, g.sub, fun r hr => g.own r (by rw [reg_castVal] at hr; exact hr), g.low⟩
        (fun ht => by simpa only [timely, hh] using ht)
  | un op e ih =>
    intro s s' v c hl h9 hz h
    simp only [evaluate] at h
    obtain ⟨x, s1, c1, c2, h1, h2, rfl⟩ := bind_ok h
    obtain ⟨g1, t1⟩ := ih hl h9 hz h1
    have g2 := res_unVals g1.sub (g1.sub _ h9) g1.low g1.own h2
    refine ⟨⟨tri_trans g1.tri (tri_base (sub_plus _ _) g2.tri), g2.sub, g2.own, g2.low⟩, fun ht => tri_trans ?_ g2.tri⟩
    simp only [timely, h1, Bool.or_eq_true, Bool.and_eq_true] at ht
    rcases ht with ht | ⟨hr, ht⟩
    · exact tri_noExit (noExit_iff.mp ht) g1.tri
    · exact tri_base (plus_lead g2 hr) (t1 ht)
  | bin op l r ihl ihr =>
    intro s s' v c hl h9 hz h
    simp only [evaluate] at h
    obtain ⟨a, s1, c1, c2, h1, h2, rfl⟩ := bind_ok h
    obtain ⟨b, s3, c3, c4, h3, h4, rfl⟩ := bind_ok h2
    simp only [Expr.castsZero, Bool.or_eq_false_iff] at hz
    obtain ⟨g1, t1⟩ := ihl hl h9 hz.1 h1
    obtain ⟨g2, _⟩ := ihr g1.low (g1.sub _ h9) hz.2 h3
    have g3 := res_binVals (hold_two h9 g1 g2) h4
    refine ⟨⟨tri_trans g1.tri (tri_trans (tri_base g1.sub g2.tri) (tri_base (sub_plus _ _) g3.tri)), g3.sub, g3.own, g3.low⟩,
      fun ht => tri_trans (u1 := s1.used) ?_ (tri_trans ?_ g3.tri)⟩
    · simp only [timely, h1, h3, Bool.and_eq_true, Bool.or_eq_true] at ht
      rcases ht.1 with ht | ⟨hr, ht⟩
      · exact tri_noExit (noExit_iff.mp ht) g1.tri
      · exact tri_base (plus_lead g3 hr) (t1 ht)
    · simp only [timely, h1, h3, Bool.and_eq_true, Bool.or_eq_true] at ht
      rcases ht.2 with ht | hr
      · exact tri_noExit (noExit_iff.mp ht) g2.tri
      · refine tri_base (sub_trans (plus_lead g3 hr) (plus_sub g1.sub fun q hq => ?_)) g2.tri
        exact (own_mat g1.own hq).2.1
  | cond x l r ihx ihl ihr =>
    intro s s' v c hl h9 hz h
    have hh := h
    simp only [evaluate] at h
    obtain ⟨a, s1, c1, c2, h1, h2, rfl⟩ := bind_ok h
    obtain ⟨b, s3, c3, c4, h3, h4, rfl⟩ := bind_ok h2
    obtain ⟨d, s5, c5, c6, h5, h6, rfl⟩ := bind_ok h4
    simp only [Expr.castsZero, Bool.or_eq_false_iff] at hz
    obtain ⟨g1, _⟩ := ihx hl h9 hz.1.1 h1
    obtain ⟨g2, _⟩ := ihl g1.low (g1.sub _ h9) hz.1.2 h3
    obtain ⟨g3, _⟩ := ihr g2.low (g2.sub _ (g1.sub _ h9)) hz.2 h5
    have k1 := hold_two h9 g1 g2
    have n1 := g1.sub _ h9
    have k2 := hold_two n1 g2 g3
    have hxl : Hold o s.used s5 a b := ⟨sub_trans k1.sub g3.sub, k2.nine, g3.low, own_up k1.left g3.sub,
      own_up k1.right g3.sub, k1.apart⟩
    have g23 : Ev o s1 s5 d (c3 ++ c5) := by
      refine ⟨tri_trans g2.tri (tri_base g2.sub g3.tri), sub_trans g2.sub g3.sub, k2.right, g3.low⟩
    have hxr := hold_two h9 g1 g23
    have g4 := res_condVals hxl hxr k2.apart h6
    refine wrap ⟨?_, g4.sub, g4.own, g4.low⟩ (fun ht => by simpa only [timely, hh] using ht)
    exact tri_trans g1.tri (tri_trans (tri_base g1.sub g2.tri) (tri_trans (tri_base (sub_trans g1.sub g2.sub) g3.tri)
      (tri_base (sub_plus _ _) g4.tri)))
  | unsup => intro s s' v c hl h9 hz h; exact (reject_ok h).elim

/-! ### Programs -/

/-- A step keeps to paths that are fine. -/
theorem wp_step {X : Ini → Prop} {p : Prog} {pc t : Nat} {d : Ini} {i : Insn}
    (hx : ∀ d, X d → wp (fun _ => False) X (p.code.drop p.label) 0 d)
    (h : wp (fun _ => False) X (p.code.drop pc) 0 d) (hi : p.code[pc]? = some i) (ht : t ∈ p.succs pc i) :
    wp (fun _ => False) X (p.code.drop t) 0 (i.after d) := by
  have hd : p.code.drop pc = i :: p.code.drop (pc + 1) := by
    obtain ⟨hlt, rfl⟩ := List.getElem?_eq_some_iff.mp hi
    exact List.drop_eq_getElem_cons hlt
  have skip : ∀ (c : List Insn) (k : Nat) (d : Ini), wp (fun _ => False) X c k d → wp (fun _ => False) X (c.drop k) 0 d := by
    intro c
    induction c with
    | nil => intro k d h; cases k <;> exact h.elim
    | cons j r ih =>
      intro k d h
      cases k with
      | zero => exact h
      | succ k => exact ih k d h
  have skip' : ∀ (k : Nat) (d : Ini), wp (fun _ => False) X (p.code.drop (pc + 1)) k d →
      wp (fun _ => False) X (p.code.drop (pc + 1 + k)) 0 d := by
    intro k d h
    have := skip _ k d h
    rwa [List.drop_drop] at this
  rw [hd] at h
  have h2 := h.2
  cases i with
  | jmpImm c r k off =>
    simp only [Prog.succs, List.mem_cons, List.not_mem_nil, or_false] at ht
    rcases ht with rfl | rfl
    · exact h2.1
    · exact skip' _ _ h2.2
  | jmpReg c r k off =>
    simp only [Prog.succs, List.mem_cons, List.not_mem_nil, or_false] at ht
    rcases ht with rfl | rfl
    · exact h2.1
    · exact skip' _ _ h2.2
  | ja off =>
    simp only [Prog.succs, List.mem_singleton] at ht
    subst ht
    exact skip' _ _ h2
  | jexit r =>
    simp only [Prog.succs, List.mem_cons, List.not_mem_nil, or_false] at ht
    rcases ht with rfl | rfl
    · exact h2.1
    · exact hx _ h2.2
  | ret => simp [Prog.succs] at ht
  | _ =>
    simp only [Prog.succs, List.mem_singleton] at ht
    subst ht
    exact h2

theorem initialised_of_wp {X : Ini → Prop} {p : Prog} (hx : ∀ d, X d → wp (fun _ => False) X (p.code.drop p.label) 0 d)
    (h : wp (fun _ => False) X p.code 0 .entry) : p.Initialised := by
  have key : ∀ pc d, p.Gets pc d → wp (fun _ => False) X (p.code.drop pc) 0 d := by
    intro pc d hg
    induction hg with
    | entry => simpa using h
    | step _ hi ht ih => exact wp_step hx ih hi ht
  intro pc d hg
  have hw := key pc d hg
  cases hi : p.code[pc]? with
  | none =>
    rw [List.getElem?_eq_none_iff] at hi
    rw [List.drop_eq_nil_of_le hi] at hw
    exact hw.elim
  | some i =>
    refine ⟨i, rfl, ?_⟩
    obtain ⟨hlt, rfl⟩ := List.getElem?_eq_some_iff.mp hi
    rw [List.drop_eq_getElem_cons hlt] at hw
    exact hw.1

/-- The instruction the exit label is on does not read what it has to write first. -/
def Prog.exitFree (p : Prog) : Prop := ∃ i, p.code[p.label]? = some i ∧ i.srcs = []

theorem filter_initialised_aux {o : Opts} {e : Expr} {p : Prog} (h : compileFilter o e = .ok p)
    (hl : Low o initFilter.used) (hz : e.castsZero = false) (ht : timely o e initFilter = true ∨ p.exitFree) :
    p.Initialised := by
  unfold compileFilter at h
  split at h
  · cases h
  · rename_i htop
    have htop : topOp e = true := by simpa using htop
    cases he : evaluate o e initFilter with
    | error x => rw [he] at h; cases h
    | ok q =>
      obtain ⟨v, s', body⟩ := q
      rw [he] at h
      obtain ⟨x, _, hv⟩ := bool_evaluate htop he
      obtain ⟨g, gt⟩ := ev_evaluate hl (by decide) hz he
      rcases hv with ⟨n, rfl⟩ | ⟨r, t, rfl, pre, tl, hbody, _, _, _, hlast⟩
      · cases h
      · simp only [Except.ok.injEq] at h
        subst h
        have hown := g.own r rfl
        have hr10 : r ≠ 10 := ne10 hown.2.2
        -- the end of the program, with the result in `r`
        have tail : ∀ (X : Ini → Prop) (d : Ini), d.reg r = true →
            wp (fun _ => False) X ((if r ≠ 0 then [.movReg 0 r] else []) ++ [.ret]) 0 d := by
          intro X d hd
          split
          · exact ⟨sound_of (by simp [Insn.srcs, hd]) (by simp [Insn.dst]) (by simp),
              sound_of (by simp [Insn.srcs]; exact wr_same _ _) (by simp [Insn.dst]) (by simp), trivial⟩
          · rename_i h0
            have h0 : r = 0 := Classical.byContradiction h0
            subst h0
            exact ⟨sound_of (by simp [Insn.srcs, hd]) (by simp [Insn.dst]) (by simp), trivial⟩
        -- the last instruction of the body
        obtain ⟨init, last, hsplit, hl2⟩ : ∃ init last, body = init ++ [last] ∧
            (last = .aluReg .xor r r ∨ last = .movImm r 1) := by
          rcases hlast with ⟨_, hl⟩ | ⟨_, hl⟩
          · obtain ⟨ys, rfl⟩ := List.getLast?_eq_some_iff.mp hl
            exact ⟨pre ++ ys, _, by rw [hbody, List.append_assoc], .inl rfl⟩
          · obtain ⟨ys, rfl⟩ := List.getLast?_eq_some_iff.mp hl
            exact ⟨pre ++ ys, _, by rw [hbody, List.append_assoc], .inr rfl⟩
        have hlabel : ∀ z : List Insn, ((Insn.movReg 9 1 :: body) ++ z).drop body.length = last :: z := by
          intro z
          rw [hsplit]
          simp
        have start : Has initFilter.used ((Insn.movReg 9 1).after .entry) := by
          refine ⟨by decide, fun q hq => ?_⟩
          have : q = 9 := by
            simp only [initFilter, setReg] at hq
            split at hq
            · assumption
            · cases hq
          subst this
          decide
        have whole : ∀ (X : Ini → Prop), (∀ d, Has initFilter.used d → X d) ∨
            (∀ d, Has (plus initFilter.used (.mat r t none)) d → X d) ∧ timely o e initFilter = true →
            wp (fun _ => False) X ((Insn.movReg 9 1 :: body) ++ ((if r ≠ 0 then [.movReg 0 r] else []) ++ [.ret])) 0 .entry := by
          intro X hX
          refine ⟨by decide, ?_⟩
          refine wp_append (Q := fun _ => False) ?_
          have fin : ∀ d, Has s'.used d → wp (fun _ => False) X ((if r ≠ 0 then [.movReg 0 r] else []) ++ [.ret]) 0 d :=
            fun d hd => tail X d (hd.2 r hown.2.1)
          rcases hX with hX | ⟨hX, ht⟩
          · exact wp_mono fin hX (g.tri _ start)
          · exact wp_mono fin hX (gt ht _ start)
        rw [List.append_assoc]
        rcases ht with ht | ⟨i, hi, hs⟩
        · refine initialised_of_wp (X := fun d => d.reg r = true) ?_ (whole _ (.inr ⟨fun d hd => hd.2 r (by simp [plus, matReg]), ht⟩))
          intro d hd
          show wp _ _ (List.drop body.length _) 0 d
          rw [hlabel]
          rcases hl2 with rfl | rfl
          · exact ⟨sound_of (by simp [Insn.srcs, hd]) (by simpa [Insn.dst] using hr10) (by simp), tail _ _ (wr_same _ _)⟩
          · exact ⟨sound_of (by simp [Insn.srcs]) (by simpa [Insn.dst] using hr10) (by simp), tail _ _ (wr_same _ _)⟩
        · refine initialised_of_wp (X := fun _ => True) ?_ (whole _ (.inl fun _ _ => trivial))
          intro d _
          show wp _ _ (List.drop body.length _) 0 d
          rw [hlabel]
          rcases hl2 with rfl | rfl
          · exfalso
            have hi' : (((Insn.movReg 9 1 :: body) ++ ((if r ≠ 0 then [Insn.movReg 0 r] else []) ++ [Insn.ret])).drop body.length)[0]? = some i := by
              rw [List.getElem?_drop]
              simpa using hi
            rw [hlabel] at hi'
            simp only [List.getElem?_cons_zero, Option.some.injEq] at hi'
            rw [← hi'] at hs
            simp [Insn.srcs] at hs
          · exact ⟨sound_of (by simp [Insn.srcs]) (by simpa [Insn.dst] using hr10) (by simp), tail _ _ (wr_same _ _)⟩

/-- Whether the operands are compiled in time does not depend on the registers `Alloc` may hand out. -/
theorem timely_low {o : Opts} : ∀ {e : Expr} {s : CSt} {q : Val × CSt × List Insn}, evaluate o e s = .ok q →
    timely o.low e s = timely o e s := by
  intro e
  have leaf : ∀ {e : Expr} {s : CSt} {q : Val × CSt × List Insn}, evaluate o e s = .ok q →
      (match evaluate o.low e s with | .ok (_, _, c) => noExits c | .error _ => true) =
        (match evaluate o e s with | .ok (_, _, c) => noExits c | .error _ => true) := by
    intro e s q h
    rw [h, ref_evaluate o e _ _ h]
  induction e with
  | un op e ih =>
    intro s q h
    obtain ⟨v, s', c⟩ := q
    simp only [evaluate] at h
    obtain ⟨x, s1, c1, c2, h1, h2, rfl⟩ := bind_ok h
    simp only [timely, h1, ref_evaluate o e _ _ h1, ih h1]
  | bin op l r ihl ihr =>
    intro s q h
    obtain ⟨v, s', c⟩ := q
    simp only [evaluate] at h
    obtain ⟨a, s1, c1, c2, h1, h2, rfl⟩ := bind_ok h
    obtain ⟨b, s3, c3, c4, h3, h4, rfl⟩ := bind_ok h2
    simp only [timely, h1, h3, ref_evaluate o l _ _ h1, ref_evaluate o r _ _ h3, ihl h1]
  | _ => intro s q h; exact leaf h

/-- **C90 (part).** A filter that casts no literal 0, keeps no value in R0 to R5 across a helper call, and whose operands that
follow pointers are compiled in time (or whose exit label is on an instruction that reads nothing) reads only registers and stack
slots it has written, on every path, never writes the frame pointer and never runs off its end. -/
theorem filter_initialised_partial {o : Opts} {e : Expr} {p : Prog} (hlo : o.lo = 0) (h : compileFilter o e = .ok p)
    (hlive : FewLive o e) (hz : e.castsZero = false) (ht : timely o e initFilter = true ∨ p.exitFree) : p.Initialised := by
  rcases hlive with hd | ⟨q, hq⟩
  · exact filter_initialised_aux h (.inl hd) hz ht
  · have hp := compileFilter_low hq
    rw [few_low hlo, h] at hp
    injection hp with hp
    subst hp
    have hl : Low o.few initFilter.used := by
      refine .inr ⟨by simp [Opts.few], fun r hr => ?_⟩
      simp only [initFilter, setReg, noRegs]
      rw [if_neg (by omega)]
    refine filter_initialised_aux hq hl hz ?_
    rcases ht with ht | ht
    · left
      have hq' := hq
      unfold compileFilter at hq'
      split at hq'
      · cases hq'
      · cases he : evaluate o.few e initFilter with
        | error x => rw [he] at hq'; cases hq'
        | ok v =>
          have := timely_low he
          rw [few_low hlo] at this
          rw [← this]; exact ht
    · exact .inr ht

/-! ### What follows for runs -/

/-- Two states that agree on everything that has been written. -/
structure AgreeOn (d : Ini) (a b : St) : Prop where
  reg : ∀ r, d.reg r = true → a.regs r = b.regs r
  slot : ∀ k, d.slot k = true → a.stack k = b.stack k
  orc : a.orc = b.orc
  fp : a.regs 10 = b.regs 10

theorem agree_set {d : Ini} {a b : St} (h : AgreeOn d a b) {r : Nat} (hr : r ≠ 10) {x y : BitVec 64} (hxy : x = y) :
    AgreeOn (d.wr r) (a.set r x) (b.set r y) := by
  subst hxy
  refine ⟨fun q hq => ?_, h.slot, h.orc, ?_⟩
  · simp only [St.set]
    split
    · rfl
    · rename_i hne
      exact h.reg q (by simpa [Ini.wr, hne] using hq)
  · simp only [St.set, if_neg (Ne.symm hr)]
    exact h.fp

/-- What two agreeing states do next. -/
inductive NextRel (P : St → St → Prop) : Next → Next → Prop
  | seq {a b : St} : P a b → NextRel P (.seq a) (.seq b)
  | jump {a b : St} (off : Nat) : P a b → NextRel P (.jump off a) (.jump off b)
  | label {a b : St} : P a b → NextRel P (.label a) (.label b)
  | ret {a b : St} : a.regs 0 = b.regs 0 → NextRel P (.ret a) (.ret b)
  | stuck : NextRel P .stuck .stuck

theorem agree_jump {d : Ini} {a b : St} (h : AgreeOn d a b) (off : Nat) : NextRel (AgreeOn d) (jumpTo off a) (jumpTo off b) := by
  unfold jumpTo
  split
  · exact .jump off h
  · exact .stuck

theorem agree_step {d : Ini} {a b : St} {i : Insn} (m : Mem) (h : AgreeOn d a b) (hs : i.sound d = true) :
    NextRel (AgreeOn (i.after d)) (stepI m i a) (stepI m i b) := by
  unfold Insn.sound at hs
  rw [Bool.and_eq_true, Bool.and_eq_true] at hs
  obtain ⟨⟨hr, hdst⟩, hslot⟩ := hs
  rw [List.all_eq_true] at hr
  have R : ∀ r ∈ i.srcs, a.regs r = b.regs r := fun r hr' => h.reg r (hr r hr')
  cases i with
  | movImm r k => exact .seq (agree_set h (by simpa [Insn.dst] using hdst) rfl)
  | movReg r s => exact .seq (agree_set h (by simpa [Insn.dst] using hdst) (R s (by simp [Insn.srcs])))
  | aluImm op r k =>
    exact .seq (agree_set h (by simpa [Insn.dst] using hdst) (by rw [R r (by simp [Insn.srcs])]))
  | aluReg op r s =>
    exact .seq (agree_set h (by simpa [Insn.dst] using hdst) (by rw [R r (by simp [Insn.srcs]), R s (by simp [Insn.srcs])]))
  | neg r => exact .seq (agree_set h (by simpa [Insn.dst] using hdst) (by rw [R r (by simp [Insn.srcs])]))
  | jmpImm c r k off =>
    simp only [stepI]
    rw [R r (by simp [Insn.srcs])]
    split
    · exact agree_jump h off
    · exact .seq h
  | jmpReg c r s off =>
    simp only [stepI]
    rw [R r (by simp [Insn.srcs]), R s (by simp [Insn.srcs])]
    split
    · exact agree_jump h off
    · exact .seq h
  | ja off => exact agree_jump h off
  | jexit r =>
    simp only [stepI]
    rw [R r (by simp [Insn.srcs])]
    split
    · exact .label h
    · exact .seq h
  | ldx r s off size =>
    exact .seq (agree_set h (by simpa [Insn.dst] using hdst) (by rw [R s (by simp [Insn.srcs])]))
  | ldStack r k => exact .seq (agree_set h (by simpa [Insn.dst] using hdst) (h.slot k hslot))
  | stStack k s =>
    refine .seq ⟨h.reg, fun x hx => ?_, h.orc, h.fp⟩
    show (if x = k then a.regs s else a.stack x) = (if x = k then b.regs s else b.stack x)
    split
    · exact R s (by simp [Insn.srcs])
    · rename_i hne
      exact h.slot x (by simpa [Insn.after, Ini.wrSlot, hne] using hx)
  | callProbe =>
    simp only [stepI]
    rw [R 1 (by simp [Insn.srcs]), R 2 (by simp [Insn.srcs]), R 3 (by simp [Insn.srcs]), h.fp]
    split
    · refine .seq ⟨fun x hx => ?_, fun x hx => ?_, by simp only [St.clobber, h.orc], by simpa [St.clobber] using h.fp⟩
      · simp only [St.clobber, h.orc]
        split
        · rfl
        · refine h.reg x ?_
          simp only [Insn.after, Ini.wrSlot, Ini.call, Bool.or_eq_true, Bool.and_eq_true, beq_iff_eq] at hx
          rcases hx with hx | hx
          · omega
          · exact hx.2
      · dsimp only
        split
        · rfl
        · rename_i hne
          exact h.slot x (by simpa [Insn.after, Ini.wrSlot, Ini.call, hne] using hx)
    · exact .stuck
  | callCast =>
    simp only [stepI]
    rw [R 1 (by simp [Insn.srcs])]
    refine .seq ⟨fun x hx => ?_, h.slot, by simp only [St.set, St.clobber, h.orc], by simpa [St.set, St.clobber] using h.fp⟩
    simp only [St.set, St.clobber, h.orc]
    split
    · rfl
    · split
      · rfl
      · refine h.reg x ?_
        simp only [Insn.after, Ini.call, Bool.or_eq_true, Bool.and_eq_true, beq_iff_eq] at hx
        rcases hx with hx | hx
        · omega
        · exact hx.2
  | ret => exact .ret (R 0 (by simp [Insn.srcs]))

theorem run_agree {p : Prog} (hi : p.Initialised) (m : Mem) : ∀ (fuel pc : Nat) (d : Ini) (a b : St), p.Gets pc d → AgreeOn d a b →
    p.run m fuel pc a = p.run m fuel pc b := by
  intro fuel
  induction fuel with
  | zero => intros; rfl
  | succ fuel ih =>
    intro pc d a b hg h
    obtain ⟨i, hc, hs⟩ := hi pc d hg
    have hn := agree_step m h hs
    have go : ∀ t, t ∈ p.succs pc i → ∀ x y, AgreeOn (i.after d) x y → p.run m fuel t x = p.run m fuel t y :=
      fun t ht x y hxy => ih t _ x y (.step hg hc ht) hxy
    simp only [Prog.run, hc]
    -- where each kind of step goes is a successor
    cases ha : stepI m i a with
    | seq x =>
      cases hb : stepI m i b with
      | seq y =>
        rw [ha, hb] at hn
        cases hn with
        | seq hxy =>
          refine go (pc + 1) ?_ x y hxy
          cases i <;> first
            | exact List.mem_cons_self
            | (simp only [stepI, jumpTo] at ha; split at ha <;> simp at ha)
            | (simp only [stepI] at ha; simp at ha)
      | _ => rw [ha, hb] at hn; cases hn
    | jump off x =>
      cases hb : stepI m i b with
      | jump off' y =>
        rw [ha, hb] at hn
        cases hn with
        | jump _ hxy =>
          refine go (pc + 1 + off) ?_ x y hxy
          cases i with
          | jmpImm c r k o' =>
            have : off = o' := by
              simp only [stepI, jumpTo] at ha
              split at ha
              · split at ha <;> simp at ha
                exact ha.1.symm
              · simp at ha
            subst this; simp [Prog.succs]
          | jmpReg c r k o' =>
            have : off = o' := by
              simp only [stepI, jumpTo] at ha
              split at ha
              · split at ha <;> simp at ha
                exact ha.1.symm
              · simp at ha
            subst this; simp [Prog.succs]
          | ja o' =>
            have : off = o' := by
              simp only [stepI, jumpTo] at ha
              split at ha <;> simp at ha
              exact ha.1.symm
            subst this; simp [Prog.succs]
          | jexit r => simp only [stepI] at ha; split at ha <;> simp at ha
          | callProbe => simp only [stepI] at ha; split at ha <;> simp at ha
          | _ => simp [stepI] at ha
      | _ => rw [ha, hb] at hn; cases hn
    | label x =>
      cases hb : stepI m i b with
      | label y =>
        rw [ha, hb] at hn
        cases hn with
        | label hxy =>
          refine go p.label ?_ x y hxy
          cases i with
          | jexit r => simp [Prog.succs]
          | jmpImm c r k o' => simp only [stepI, jumpTo] at ha; split at ha <;> (try split at ha) <;> simp at ha
          | jmpReg c r k o' => simp only [stepI, jumpTo] at ha; split at ha <;> (try split at ha) <;> simp at ha
          | ja o' => simp only [stepI, jumpTo] at ha; split at ha <;> simp at ha
          | callProbe => simp only [stepI] at ha; split at ha <;> simp at ha
          | _ => simp [stepI] at ha
      | _ => rw [ha, hb] at hn; cases hn
    | ret x =>
      cases hb : stepI m i b with
      | ret y => rw [ha, hb] at hn; cases hn with | ret h0 => simp only [h0]
      | _ => rw [ha, hb] at hn; cases hn
    | stuck =>
      cases hb : stepI m i b with
      | stuck => rfl
      | _ => rw [ha, hb] at hn; cases hn

/-- **C90 (part).** The answer of such a filter is decided by the arguments and the memory: whatever the other registers and the
stack hold when it starts, it gives the same answer. -/
theorem filter_ignores_leftovers_partial {o : Opts} {e : Expr} {p : Prog} (hlo : o.lo = 0) (h : compileFilter o e = .ok p)
    (hlive : FewLive o e) (hz : e.castsZero = false) (ht : timely o e initFilter = true ∨ p.exitFree) (m : Mem) (fuel : Nat)
    (a b : St) (h1 : a.regs 1 = b.regs 1) (h10 : a.regs 10 = b.regs 10) (horc : a.orc = b.orc) :
    p.run m fuel 0 a = p.run m fuel 0 b := by
  refine run_agree (filter_initialised_partial hlo h hlive hz ht) m fuel 0 .entry a b .entry ⟨?_, ?_, horc, h10⟩
  · intro r hr
    simp only [Ini.entry, Bool.or_eq_true, beq_iff_eq] at hr
    rcases hr with rfl | rfl
    · exact h1
    · exact h10
  · intro k hk; cases hk

/-! ### Where it does not hold -/

/-- Follow a path given by the points it gets to. -/
def Prog.walk (p : Prog) : List Nat → Nat → Ini → Option (Nat × Ini)
  | [], pc, d => some (pc, d)
  | t :: ts, pc, d =>
    match p.code[pc]? with
    | none => none
    | some i => if t ∈ p.succs pc i then p.walk ts t (i.after d) else none

theorem walk_gets {p : Prog} : ∀ {ts : List Nat} {pc pc' : Nat} {d d' : Ini}, p.Gets pc d → p.walk ts pc d = some (pc', d') →
    p.Gets pc' d' := by
  intro ts
  induction ts with
  | nil => intro pc pc' d d' hg h; cases h; exact hg
  | cons t ts ih =>
    intro pc pc' d d' hg h
    simp only [Prog.walk] at h
    cases hc : p.code[pc]? with
    | none => rw [hc] at h; cases h
    | some i =>
      rw [hc] at h
      simp only at h
      split at h
      · rename_i ht
        exact ih (.step hg hc ht) h
      · cases h

/-- The path ends at an instruction that reads something not written on it. -/
def badPath (o : Opts) (e : Expr) (ts : List Nat) : Bool :=
  match compileFilter o e with
  | .error _ => false
  | .ok p =>
    match p.walk ts 0 .entry with
    | none => false
    | some (pc, d) =>
      match p.code[pc]? with
      | none => false
      | some i => !i.sound d

theorem bad_of_path {o : Opts} {e : Expr} {ts : List Nat} (h : badPath o e ts = true) :
    ∃ p, compileFilter o e = .ok p ∧ ¬ p.Initialised := by
  unfold badPath at h
  cases hc : compileFilter o e with
  | error x => rw [hc] at h; cases h
  | ok p =>
    rw [hc] at h
    refine ⟨p, rfl, fun hi => ?_⟩
    simp only at h
    cases hw : p.walk ts 0 .entry with
    | none => rw [hw] at h; cases h
    | some q =>
      obtain ⟨pc, d⟩ := q
      rw [hw] at h
      simp only at h
      obtain ⟨i, h1, h2⟩ := hi pc d (walk_gets .entry hw)
      rw [h1] at h
      simp [h2] at h

/-! ### Output expressions -/

/-- The code of an output expression with what surrounds it reduced to the least: R9 and R8 have been set before (to the
arguments and to the buffer), the result is used at the end, and at the exit label nothing is read. -/
def EvalRes.whole (p : EvalRes) : Prog :=
  ⟨[.movReg 9 1, .movReg 8 1] ++ (p.code ++ [.movReg 0 p.reg, .ret, .movImm 0 0, .ret]), 2 + (p.code.length + 2)⟩

theorem eval_initialised_aux {o : Opts} {e : Expr} {p : EvalRes} (hc : compileEval o [8, 9] false e = .ok p)
    (hlo : o.mode = .direct ∨ 6 ≤ o.lo) (hz : e.castsZero = false) : p.whole.Initialised := by
  unfold compileEval at hc
  have hmark : markAll noRegs [8, 9] = some (setReg (setReg noRegs 8 true) 9 true) := rfl
  rw [hmark] at hc
  simp only at hc
  generalize hU : (setReg (setReg noRegs 8 true) 9 true) = U at hc
  have hU9 : U 9 = true := by subst hU; rfl
  have hl : Low o U := by
    rcases hlo with h | h
    · exact .inl h
    · refine .inr ⟨h, fun r hr => ?_⟩
      subst hU
      simp only [setReg, noRegs]
      rw [if_neg (by omega), if_neg (by omega)]
  cases he : evaluate o e { used := U, exitUsed := false } with
  | error y => rw [he] at hc; simp at hc
  | ok q =>
    obtain ⟨v, s, body⟩ := q
    rw [he] at hc
    obtain ⟨g, _⟩ := ev_evaluate (s := { used := U, exitUsed := false }) hl hU9 hz he
    have key : ∀ {r t m s' c}, materialize o v s = .ok ((r, t, m), s', c) →
        p = ⟨body ++ c, r, t, m, s'.exitUsed⟩ → p.whole.Initialised := by
      intro r t m s' c hmat hp
      subst hp
      have gm := mat_materialize g.low (g.sub _ hU9) g.own hmat
      refine initialised_of_wp (X := fun _ => True) ?_ ?_
      · intro d _
        have : (EvalRes.whole ⟨body ++ c, r, t, m, s'.exitUsed⟩).code.drop
            (EvalRes.whole ⟨body ++ c, r, t, m, s'.exitUsed⟩).label = [.movImm 0 0, .ret] := by
          simp only [EvalRes.whole]
          generalize body ++ c = z
          show List.drop (2 + (z.length + 2)) (.movReg 9 1 :: .movReg 8 1 :: (z ++ _)) = _
          rw [show 2 + (z.length + 2) = (z.length + 2) + 1 + 1 by omega, List.drop_succ_cons, List.drop_succ_cons,
            ← List.drop_drop, List.drop_append]
          simp
        rw [this]
        exact ⟨by simp [Insn.sound, Insn.srcs, Insn.dst], sound_of (by simp [Insn.srcs]; exact wr_same _ _)
          (by simp [Insn.dst]) (by simp), trivial⟩
      · refine ⟨by decide, ?_⟩
        refine ⟨by decide, ?_⟩
        have start : Has U ((Insn.movReg 8 1).after ((Insn.movReg 9 1).after .entry)) := by
          refine ⟨by decide, fun q hq => ?_⟩
          subst hU
          have : q = 9 ∨ q = 8 := by
            simp only [setReg, noRegs] at hq
            split at hq
            · exact .inl (by assumption)
            · split at hq
              · exact .inr (by assumption)
              · cases hq
          rcases this with rfl | rfl <;> decide
        show wp _ _ ((body ++ c) ++ _) 0 _
        refine wp_append (wp_append (wp_mono ?_ (fun _ _ => trivial) (g.tri _ start)))
        intro d hd
        refine wp_mono ?_ (fun _ _ => trivial) (gm.tri d hd)
        intro d' hd'
        exact ⟨sound_of (by simp [Insn.srcs, hd'.2 r gm.used]) (by simp [Insn.dst]) (by simp),
          sound_of (by simp [Insn.srcs]; exact wr_same _ _) (by simp [Insn.dst]) (by simp), trivial⟩
    cases v with
    | const n t => simp at hc
    | _ =>
      simp only at hc
      split at hc
      · simp at hc
      · rename_i hm
        exact key hm (Except.ok.inj hc).symm

/-- **C90 (part), for output expressions.** The code that computes a shown expression reads only registers and stack slots it has
written, R8, R9 and the frame pointer, on every path, and leaves the register of the result written. -/
theorem eval_initialised_partial {o : Opts} {e : Expr} {p : EvalRes} (hlo : o.lo = 0)
    (hc : compileEval o [8, 9] false e = .ok p)
    (hlive : o.mode = .direct ∨ ∃ q, compileEval o.few [8, 9] false e = .ok q) (hz : e.castsZero = false) :
    p.whole.Initialised := by
  rcases hlive with hd | ⟨q, hq⟩
  · exact eval_initialised_aux hc (.inl hd) hz
  · have := compileEval_low hq
    rw [few_low hlo, hc] at this
    obtain rfl := Except.ok.inj this
    exact eval_initialised_aux hq (.inr (by simp [Opts.few])) hz

theorem eval_initialised_witness (mode : Mode) :
    ∃ p, compileEval (vOpts mode) [8, 9] false (.arrow (.arrow (V "p") "next") "a") = .ok p ∧ noExits p.code = false ∧
      p.whole.Initialised := by
  have hf : ∃ q, compileEval (vOpts mode).few [8, 9] false (.arrow (.arrow (V "p") "next") "a") = .ok q := by
    cases mode <;> exact ⟨_, rfl⟩
  have hc : ∃ p, compileEval (vOpts mode) [8, 9] false (.arrow (.arrow (V "p") "next") "a") = .ok p ∧
      noExits p.code = false := by
    cases mode <;> exact ⟨_, rfl, by decide +kernel⟩
  obtain ⟨p, h1, h2⟩ := hc
  exact ⟨p, h1, h2, eval_initialised_partial rfl h1 (.inr hf) rfl⟩

/-! ### Filters that meet the hypotheses -/

/-- `p->next->a == 1 && n > 1`: in every read mode it is accepted, it can be ended early by a NULL pointer, and it reads only what
it has written. -/
theorem filter_initialised_witness (mode : Mode) :
    ∃ p, compileFilter (vOpts mode) (.bin .andand (.bin .eq (.arrow (.arrow (V "p") "next") "a") (N "1"))
      (.bin .gt (V "n") (N "1"))) = .ok p ∧ noExits p.code = false ∧ p.Initialised := by
  have ht : timely (vOpts mode) (.bin .andand (.bin .eq (.arrow (.arrow (V "p") "next") "a") (N "1"))
      (.bin .gt (V "n") (N "1"))) initFilter = true := by
    cases mode <;> decide +kernel
  have hf : FewLive (vOpts mode) (.bin .andand (.bin .eq (.arrow (.arrow (V "p") "next") "a") (N "1"))
      (.bin .gt (V "n") (N "1"))) := by
    cases mode <;> exact .inr ⟨_, rfl⟩
  have hc : ∃ p, compileFilter (vOpts mode) (.bin .andand (.bin .eq (.arrow (.arrow (V "p") "next") "a") (N "1"))
      (.bin .gt (V "n") (N "1"))) = .ok p ∧ noExits p.code = false := by
    cases mode <;> exact ⟨_, rfl, by decide +kernel⟩
  obtain ⟨p, h1, h2⟩ := hc
  exact ⟨p, h1, h2, filter_initialised_partial rfl h1 hf rfl (.inl ht)⟩

/-! ### Filters the verifier refuses -/

/-- **C90.** `p && p->next->a == 1` is accepted, in every read mode, and when `p->next` is NULL the program jumps to an
instruction that reads the register of `p`, which has not been loaded yet. -/
theorem early_exit_uninitialised_violated (mode : Mode) :
    ∃ p, compileFilter (vOpts mode) (.bin .andand (V "p") (.bin .eq (.arrow (.arrow (V "p") "next") "a") (N "1"))) = .ok p ∧
      ¬ p.Initialised := by
  cases mode
  · exact bad_of_path (ts := [1, 2, 3, 4, 5, 6, 7, 8, 9, 27]) (by decide +kernel)
  · exact bad_of_path (ts := [1, 2, 3, 4, 5, 6, 21]) (by decide +kernel)
  · exact bad_of_path (ts := [1, 2, 3, 16]) (by decide +kernel)

/-- **C90.** `((struct T *)0)->a == 1` reads a member through R0, which has never been written. -/
theorem cast_zero_uninitialised_violated (mode : Mode) :
    ∃ p, compileFilter (vOpts mode) (.bin .eq (.arrow (.cast (some (.ptr (.base 0))) (N "0")) "a") (N "1")) = .ok p ∧
      ¬ p.Initialised := by
  cases mode
  · exact bad_of_path (ts := [1]) (by decide +kernel)
  · exact bad_of_path (ts := [1]) (by decide +kernel)
  · exact bad_of_path (ts := [1]) (by decide +kernel)

/-- **C90.** With four values in registers the fourth is in R5, which the helper call that reads `p->a` forgets, and which is
read afterwards. -/
theorem live_value_uninitialised_violated (mode : Mode) (hm : mode ≠ .direct) :
    ∃ p, compileFilter (vOpts mode) (.bin .eq (.bin .add (.bin .mul (V "n") (V "k")) (.bin .add (.bin .mul (V "n") (V "k"))
      (.bin .add (.bin .mul (V "n") (V "k")) (.bin .mul (V "k") (.arrow (V "p") "a"))))) (N "20")) = .ok p ∧
      ¬ p.Initialised := by
  cases mode
  · exact bad_of_path (ts := [1, 2, 3, 4, 5, 6, 7, 8, 9, 10, 11, 12, 13, 14, 15, 16, 17, 18, 19]) (by decide +kernel)
  · exact bad_of_path (ts := [1, 2, 3, 4, 5, 6, 7, 8, 9, 10, 11, 12, 13, 14, 15, 16, 17, 18, 19]) (by decide +kernel)
  · exact absurd rfl hm

end Bpfsnoop.Cc
