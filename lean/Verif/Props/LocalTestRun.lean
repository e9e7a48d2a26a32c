import Verif.Props.LocalTest
/-
C95: a run of a test. The steps of the command, of the goroutines and of `test` may come in any order.
-/
namespace Bpfsnoop.Lt
open Flg

/-- A line with the text to match. -/
def Hit (m : Str) (x : Fd × Str) : Prop := contains m x.2 = true

/-- What is known about the lines that went through: those that are in the pipes and the scanners were printed; a pass needs one with the match. -/
structure Inv (m : Str) (s : St) : Prop where
  pipe : ∀ f l, l ∈ s.pipe.get f → (f, l) ∈ s.printed
  buf : ∀ f l, l ∈ s.buf.get f → (f, l) ∈ s.printed
  sent : 0 < s.cnt ∨ (∃ f a, s.rd.get f = .sending a) ∨ s.phase = .join true ∨ s.phase = .done true → ∃ x ∈ s.printed, Hit m x

@[simp] theorem Both.get_set {α : Type} (b : Both α) (f g : Fd) (x : α) : (b.set f x).get g = if g = f then x else b.get g := by
  cases f <;> cases g <;> rfl

@[simp] theorem Both.get_mk {α : Type} (x : α) (f : Fd) : (Both.mk x x).get f = x := by cases f <;> rfl

theorem drop_phase {p q a b a' b' : Prop} (h : p ∨ q ∨ a ∨ b) (ha : ¬ a) (hb : ¬ b) : p ∨ q ∨ a' ∨ b' := by
  rcases h with h | h | h | h
  · exact .inl h
  · exact .inr (.inl h)
  · exact absurd h ha
  · exact absurd h hb

theorem announce_eq (s : St) : s.announce = { s with ready := true, panic := s.panic || s.ready } := by
  unfold St.announce
  cases s; rename_i r _ _ _ _ _ _; rename_i ready _ _ _ _ _
  cases ready <;> simp_all

theorem inv_step {m : Str} {ok : Bool} {s : St} {a : Act} (h : Inv m s) : Inv m (step m ok s a) := by
  obtain ⟨h1, h2, h3⟩ := h
  unfold step
  split
  · exact ⟨h1, h2, h3⟩
  · split
    · exact ⟨h1, h2, h3⟩
    · next ph hph =>
      cases a <;> simp only [announce_eq]
      case print =>
        split
        · next f l r _ _ =>
          refine ⟨fun g x hx => ?_, fun g x hx => ?_, fun hs => ?_⟩
          · simp only at hx ⊢
            split at hx
            · exact List.mem_append_left _ (h1 g x hx)
            · rw [Both.get_set] at hx
              split at hx
              · next e =>
                subst e
                rcases List.mem_append.mp hx with hx | hx
                · exact List.mem_append_left _ (h1 _ x hx)
                · simp only [List.mem_singleton] at hx; subst hx; simp
              · exact List.mem_append_left _ (h1 g x hx)
          · exact List.mem_append_left _ (h2 g x hx)
          · obtain ⟨x, hx, hh⟩ := h3 hs; exact ⟨x, List.mem_append_left _ hx, hh⟩
        · exact ⟨h1, h2, h3⟩
      case exit => split <;> exact ⟨h1, h2, h3⟩
      case fill f k =>
        split
        · refine ⟨fun g x hx => ?_, fun g x hx => ?_, h3⟩
          · simp only [Both.get_set] at hx
            split at hx
            · next e => subst e; exact h1 _ x (List.mem_of_mem_drop hx)
            · exact h1 g x hx
          · simp only [Both.get_set] at hx
            split at hx
            · next e =>
              subst e
              rcases List.mem_append.mp hx with hx | hx
              · exact h2 _ x hx
              · exact h1 _ x (List.mem_of_mem_take hx)
            · exact h2 g x hx
        · exact ⟨h1, h2, h3⟩
      case line f =>
        split
        · next l r hr hb =>
          have hl : (f, l) ∈ s.printed := h2 f l (by rw [hb]; simp)
          have hbuf : ∀ g x, x ∈ (s.buf.set f r).get g → (g, x) ∈ s.printed := fun g x hx => by
            rw [Both.get_set] at hx
            split at hx
            · next e => subst e; exact h2 _ x (by rw [hb]; exact List.mem_cons_of_mem _ hx)
            · exact h2 g x hx
          split
          · refine ⟨h1, fun g x hx => ?_, fun hs => h3 ?_⟩
            · simp only [Both.get_set] at hx
              split at hx
              · simp at hx
              · exact h2 g x hx
            · rcases hs with hs | ⟨g, a, hs⟩ | hs
              · exact .inl hs
              · simp only [Both.get_set] at hs
                split at hs
                · simp at hs
                · exact .inr (.inl ⟨g, a, hs⟩)
              · exact .inr (.inr hs)
          · split
            · next hm => exact ⟨h1, hbuf, fun _ => ⟨_, hl, hm⟩⟩
            · split
              · exact ⟨h1, hbuf, h3⟩
              · exact ⟨h1, hbuf, h3⟩
        · exact ⟨h1, h2, h3⟩
      case eof f =>
        split
        · refine ⟨h1, h2, fun hs => h3 ?_⟩
          rcases hs with hs | ⟨g, a, hs⟩ | hs
          · exact .inl hs
          · simp only [Both.get_set] at hs
            split at hs
            · simp at hs
            · exact .inr (.inl ⟨g, a, hs⟩)
          · exact .inr (.inr hs)
        · exact ⟨h1, h2, h3⟩
      case send f =>
        split
        · next ann hr =>
          have hp := h3 (.inr (.inl ⟨f, ann, hr⟩))
          split
          · split <;> exact ⟨h1, h2, fun _ => hp⟩
          · exact ⟨h1, h2, h3⟩
        · exact ⟨h1, h2, h3⟩
      case wait =>
        split
        · split
          · exact ⟨h1, h2, h3⟩
          · exact ⟨fun f l hl => by cases f <;> simp [Both.get] at hl, h2, h3⟩
        · exact ⟨h1, h2, h3⟩
      case selErr =>
        split
        · exact ⟨h1, h2, fun hs => h3 (by exact drop_phase hs (by simp) (by simp))⟩
        · exact ⟨h1, h2, fun hs => h3 (by exact drop_phase hs (by simp) (by simp))⟩
        · exact ⟨h1, h2, h3⟩
      case selReady =>
        split
        · refine ⟨h1, h2, fun hs => h3 ?_⟩
          rcases hs with hs | hs | hs | hs
          · exact .inl hs
          · exact .inr (.inl hs)
          · simp at hs
          · simp at hs
        · exact ⟨h1, h2, h3⟩
      case timeout =>
        split
        · exact ⟨h1, h2, fun hs => h3 (by exact drop_phase hs (by simp) (by simp))⟩
        · exact ⟨h1, h2, fun hs => h3 (by exact drop_phase hs (by simp) (by simp))⟩
        · exact ⟨h1, h2, h3⟩
      case selMatch =>
        split
        · next hc => exact ⟨h1, h2, fun _ => h3 (.inl hc.2)⟩
        · exact ⟨h1, h2, h3⟩
      case join =>
        split
        · next p hp =>
          split
          · refine ⟨h1, h2, fun hs => h3 ?_⟩
            rcases hs with hs | hs | hs | hs
            · exact .inl hs
            · exact .inr (.inl hs)
            · simp at hs
            · simp only [Phase.done.injEq] at hs
              subst hs
              exact .inr (.inr (.inl hp))
          · exact ⟨h1, h2, h3⟩
        · exact ⟨h1, h2, h3⟩

theorem exec_inv {P : St → Prop} {m : Str} {ok : Bool} (hs : ∀ s a, P s → P (step m ok s a)) : ∀ {acts : List Act} {s : St}, P s → P (exec m ok s acts)
  | [], _, h => h
  | a :: as, s, h => exec_inv (acts := as) hs (hs s a h)

/-- **A pass has a reason**: however the command and the goroutines are scheduled, if the test passes the command has printed a line that contains the
text to match. -/
theorem passed_sound {m : Str} {ok : Bool} {prog : List (Fd × Str)} {acts : List Act}
    (h : (exec m ok (init prog) acts).phase = .done true) : ∃ x ∈ (exec m ok (init prog) acts).printed, contains m x.2 = true := by
  have := exec_inv (P := Inv m) (fun s a h => inv_step (ok := ok) h) (acts := acts) (s := init prog)
    ⟨fun f l hl => by cases f <;> simp [init, Both.get] at hl, fun f l hl => by cases f <;> simp [init, Both.get] at hl, fun hs => by
      rcases hs with hs | ⟨f, a, hs⟩ | hs | hs
      · simp [init] at hs
      · cases f <;> simp [init, Both.get] at hs
      · simp [init] at hs
      · simp [init] at hs⟩
  exact this.sent (.inr (.inr (.inr h)))

/-- What has been printed is the beginning of what the command prints. -/
theorem printed_prefix {m : Str} {ok : Bool} {prog : List (Fd × Str)} {acts : List Act} : (exec m ok (init prog) acts).printed <+: prog := by
  have := exec_inv (P := fun s => ∃ r, prog = s.printed ++ s.left ++ r) (m := m) (ok := ok) (fun s a h => by
    obtain ⟨r, h⟩ := h
    unfold step
    split
    · exact ⟨r, h⟩
    · split
      · exact ⟨r, h⟩
      · cases a <;> simp only [announce_eq, St.kill]
        case print =>
          split
          · next f l q _ hl => exact ⟨r, by simp only [hl] at h; simpa using h⟩
          · exact ⟨r, h⟩
        all_goals
          repeat' split
        all_goals
          first
          | exact ⟨r, h⟩
          | exact ⟨s.left ++ r, by simpa using h⟩) (acts := acts) (s := init prog) ⟨[], by simp [init]⟩
  obtain ⟨r, h⟩ := this
  exact ⟨(exec m ok (init prog) acts).left ++ r, by rw [← List.append_assoc]; exact h.symm⟩

/-- **A failure has a reason**: a timer fired, or the command ended with an error. -/
theorem failed_reason {m : Str} {ok : Bool} {prog : List (Fd × Str)} {acts : List Act}
    (h : (exec m ok (init prog) acts).phase = .done false) : (exec m ok (init prog) acts).timedOut = true ∨ ok = false := by
  have := exec_inv (P := fun s => (s.phase = .start → (s.dead = none ∨ s.dead = some ok) ∧ (s.errCh = none ∨ s.errCh = some ok)) ∧
      (s.phase = .join false ∨ s.phase = .done false → s.timedOut = true ∨ ok = false)) (m := m) (ok := ok) (fun s a h => by
    obtain ⟨h1, h2⟩ := h
    unfold step
    split
    · exact ⟨h1, h2⟩
    · split
      · exact ⟨h1, h2⟩
      · next ph hph =>
        cases a <;> simp only [announce_eq, St.kill]
        case wait =>
          split
          · next b hb =>
            split
            · exact ⟨h1, h2⟩
            · refine ⟨fun e => ⟨(h1 e).1, .inr ?_⟩, h2⟩
              rcases (h1 e).1 with g | g
              · rw [hb] at g; simp at g
              · rw [hb] at g; simpa using g
          · exact ⟨h1, h2⟩
        case exit =>
          split
          · exact ⟨fun e => ⟨.inr rfl, (h1 e).2⟩, h2⟩
          · exact ⟨h1, h2⟩
        case selErr =>
          split
          · simp
          · next hp he =>
            simp only [reduceCtorEq, false_imp_iff, true_and]
            intro _
            rcases (h1 hp).2 with g | g
            · rw [he] at g; simp at g
            · rw [he] at g; right; simpa using g.symm
          · exact ⟨h1, h2⟩
        case join =>
          split
          · next p hp =>
            split
            · refine ⟨by simp, fun e => h2 (.inl ?_)⟩
              rw [hp]; simpa using e
            · exact ⟨h1, h2⟩
          · exact ⟨h1, h2⟩
        all_goals
          repeat' split
        all_goals
          first
          | exact ⟨h1, h2⟩
          | simp) (acts := acts) (s := init prog) (by simp [init])
  exact this.2 (.inr h)

/-! ### Lines that are lost, runs that do not end -/

theorem exec_append {m : Str} {ok : Bool} {s : St} {a b : List Act} : exec m ok s (a ++ b) = exec m ok (exec m ok s a) b := by
  simp [exec]

theorem exec_print {m : Str} {ok : Bool} : ∀ {prog pre : List (Fd × Str)} {s : St}, s.left = prog → s.printed = pre → s.dead = none → s.panic = false →
    s.phase = .start → s.closed = false →
    ∃ p, exec m ok s (prog.map fun _ => .print) = { s with left := [], printed := pre ++ prog, pipe := p }
  | [], pre, s, hl, hp, _, _, _, _ => ⟨s.pipe, by cases s; simp_all [exec]⟩
  | (f, l) :: r, pre, s, hl, hp, hd, hpa, hph, hc => by
    have e : step m ok s .print = { s with left := r, printed := s.printed ++ [(f, l)], pipe := s.pipe.set f (s.pipe.get f ++ [l]) } := by
      simp [step, hpa, hph, hd, hl, hc]
    obtain ⟨p, h⟩ := exec_print (m := m) (ok := ok) (prog := r) (pre := pre ++ [(f, l)]) (s := step m ok s .print) (by rw [e]) (by rw [e, hp])
      (by rw [e]; exact hd) (by rw [e]; exact hpa) (by rw [e]; exact hph) (by rw [e]; exact hc)
    refine ⟨p, ?_⟩
    have : exec m ok s (((f, l) :: r).map fun _ => Act.print) = exec m ok (step m ok s .print) (r.map fun _ => Act.print) := by simp [exec]
    rw [this, h, e]
    simp

/-- Nothing is left that could make the test pass. -/
def Dry (s : St) : Prop :=
  s.closed = true ∧ s.dead ≠ none ∧ s.pipe = ⟨[], []⟩ ∧ s.buf = ⟨[], []⟩ ∧ s.cnt = 0 ∧ (∀ f a, s.rd.get f ≠ .sending a) ∧ s.phase ≠ .join true ∧ s.phase ≠ .done true

theorem dry_step {m : Str} {ok : Bool} {s : St} {a : Act} (h : Dry s) : Dry (step m ok s a) := by
  obtain ⟨h1, h2, h3, h4, h5, h6, h7, h8⟩ := h
  unfold step
  split
  · exact ⟨h1, h2, h3, h4, h5, h6, h7, h8⟩
  · split
    · exact ⟨h1, h2, h3, h4, h5, h6, h7, h8⟩
    · cases a <;> simp only [announce_eq, St.kill]
      case print =>
        split
        · next h _ => exact absurd h h2
        · exact ⟨h1, h2, h3, h4, h5, h6, h7, h8⟩
      case fill f k => rw [if_neg (by simp [h1])]; exact ⟨h1, h2, h3, h4, h5, h6, h7, h8⟩
      case line f =>
        split
        · next hb => rw [h4] at hb; cases f <;> simp [Both.get] at hb
        · exact ⟨h1, h2, h3, h4, h5, h6, h7, h8⟩
      case eof f =>
        split
        · refine ⟨h1, h2, h3, h4, h5, fun g a => ?_, h7, h8⟩
          simp only [Both.get_set]
          split
          · simp
          · exact h6 g a
        · exact ⟨h1, h2, h3, h4, h5, h6, h7, h8⟩
      case send f =>
        split
        · next hr => exact absurd hr (h6 _ _)
        · exact ⟨h1, h2, h3, h4, h5, h6, h7, h8⟩
      case selMatch => rw [if_neg (by simp [h5])]; exact ⟨h1, h2, h3, h4, h5, h6, h7, h8⟩
      case join =>
        split
        · next p hp =>
          split
          · refine ⟨h1, h2, h3, h4, h5, h6, by simp, ?_⟩
            intro e
            simp only [Phase.done.injEq] at e
            subst e
            exact h7 hp
          · exact ⟨h1, h2, h3, h4, h5, h6, h7, h8⟩
        · exact ⟨h1, h2, h3, h4, h5, h6, h7, h8⟩
      all_goals
        repeat' split
      all_goals
        first
        | exact ⟨h1, h2, h3, h4, h5, h6, h7, h8⟩
        | exact ⟨h1, h2, h3, h4, h5, h6, by simp, by simp⟩
        | exact ⟨rfl, h2, rfl, h4, h5, h6, h7, h8⟩
        | exact ⟨h1, by simp, h3, h4, h5, h6, h7, h8⟩
        | exact ⟨h1, by simp, h3, h4, h5, h6, by simp, by simp⟩

/-- **Violated: what the command prints may never be seen.** `Wait` closes the pipes as soon as the command has ended. Whatever a command that ends with
success prints, there is a schedule after which the test cannot pass, however long it waits. -/
theorem output_lost_violated (m : Str) (prog : List (Fd × Str)) :
    ∃ acts, (exec m true (init prog) acts).printed = prog ∧ (exec m true (init prog) acts).phase = .start ∧
      ∀ more, (exec m true (init prog) (acts ++ more)).phase ≠ .done true := by
  obtain ⟨p, h⟩ := exec_print (m := m) (ok := true) (prog := prog) (pre := []) (s := init prog) rfl rfl rfl rfl rfl rfl
  have e : exec m true (init prog) ((prog.map fun _ => .print) ++ [.exit, .wait]) =
      { init prog with left := [], printed := prog, dead := some true, waited := true, closed := true, pipe := ⟨[], []⟩, errCh := some true } := by
    rw [exec_append, h]
    simp [exec, step, init]
  refine ⟨(prog.map fun _ => .print) ++ [.exit, .wait], by rw [e], by rw [e]; rfl, fun more => ?_⟩
  rw [exec_append, e]
  refine (exec_inv (P := Dry) (fun s a h => dry_step h) (acts := more) ?_).2.2.2.2.2.2.2
  refine ⟨rfl, by simp, rfl, rfl, rfl, fun f a => ?_, by simp [init], by simp [init]⟩
  cases f <;> simp [init, Both.get]

/-- `test` waits for a goroutine that waits for `test`. -/
def Stuck (s : St) : Prop := s.phase = .join true ∧ s.cnt = 10 ∧ ∃ a, s.rd.out = .sending a

theorem stuck_step {m : Str} {ok : Bool} {s : St} {a : Act} (h : Stuck s) : Stuck (step m ok s a) := by
  obtain ⟨h1, h2, ann, h3⟩ := h
  have hset : ∀ {g : Fd} {x : Rd}, g ≠ .out → (s.rd.set g x).out = s.rd.out := by
    intro g x hg; cases g
    · exact absurd rfl hg
    · rfl
  unfold step
  split
  · exact ⟨h1, h2, ann, h3⟩
  · rw [h1]
    simp only
    cases a <;> simp only [announce_eq, St.kill]
    case line f =>
      split
      · next hr _ =>
        have hf : f ≠ .out := by rintro rfl; rw [Both.get, h3] at hr; simp at hr
        repeat' split
        all_goals
          first
          | exact ⟨by first | exact h1 | rfl, h2, ann, h3⟩
          | exact ⟨by first | exact h1 | rfl, h2, ann, (hset hf).trans h3⟩
      · exact ⟨by first | exact h1 | rfl, h2, ann, h3⟩
    case eof f =>
      split
      · next hc =>
        have hf : f ≠ .out := by rintro rfl; rw [Both.get, h3] at hc; simp at hc
        exact ⟨by first | exact h1 | rfl, h2, ann, (hset hf).trans h3⟩
      · exact ⟨by first | exact h1 | rfl, h2, ann, h3⟩
    case send f =>
      split
      · rw [if_neg (by omega)]; exact ⟨by first | exact h1 | rfl, h2, ann, h3⟩
      · exact ⟨by first | exact h1 | rfl, h2, ann, h3⟩
    case join => rw [if_neg (by simp [h3])]; exact ⟨by first | exact h1 | rfl, h2, ann, h3⟩
    all_goals
      repeat' split
    all_goals
      first
      | exact ⟨by first | exact h1 | rfl, h2, ann, h3⟩
      | (next h => simp at h)
      | simp_all

/-- **Violated: a test that has passed may never end.** The channel takes ten matches; nobody takes them after the first. If the command prints a dozen
lines with the text to match, the goroutine that reads them can wait forever, and `test` waits for it: no verdict, and the tests after it are not run. -/
theorem hang_violated {m l : Str} {rest : List (Fd × Str)} (hl : contains m l = true) (hlen : l.length < maxLine) (hr : contains m running = false)
    (ok : Bool) :
    ∃ acts, ∀ more p, (exec m ok (init ((.err, running) :: List.replicate 12 (.out, l) ++ rest)) (acts ++ more)).phase ≠ .done p := by
  refine ⟨List.replicate 13 .print ++ [.fill .err 1, .line .err, .selReady, .fill .out 12, .line .out, .send .out, .selMatch] ++
    (List.replicate 10 [.line .out, .send .out]).flatten ++ [.line .out], fun more p => ?_⟩
  have hrr : contains running running = true := by decide +kernel
  have hrl : ¬ running.length ≥ maxLine := by decide +kernel
  have hlen' : ¬ l.length ≥ maxLine := by omega
  rw [exec_append]
  have : Stuck (exec m ok (init ((.err, running) :: List.replicate 12 (.out, l) ++ rest)) (List.replicate 13 .print ++
      [.fill .err 1, .line .err, .selReady, .fill .out 12, .line .out, .send .out, .selMatch] ++
      (List.replicate 10 [.line .out, .send .out]).flatten ++ [.line .out])) := by
    simp [exec, List.replicate, init, step, Both.get, Both.set, hrl, hr, hrr, St.announce, hl, hlen', St.kill, Stuck]
  have := exec_inv (P := Stuck) (fun s a h => stuck_step (m := m) (ok := ok) h) (acts := more) this
  rw [this.1]
  simp

/-- **Violated: the runner panics** if the command says twice that it runs. -/
theorem panic_violated {m : Str} (hr : contains m running = false) (ok : Bool) :
    ∃ acts, (exec m ok (init [(.err, running), (.err, running)]) acts).panic = true := by
  refine ⟨[.print, .print, .fill .err 2, .line .err, .line .err], ?_⟩
  have hrr : contains running running = true := by decide +kernel
  have hrl : ¬ running.length ≥ maxLine := by decide +kernel
  simp [exec, init, step, Both.get, Both.set, hrl, hr, hrr, St.announce]

/-! ### When a run ends -/

/-- One if the goroutine is about to send. -/
def Rd.sends : Rd → Nat
  | .sending _ => 1
  | _ => 0

/-- One if the goroutine is about to send and then to announce the start. -/
def Rd.announces : Rd → Nat
  | .sending true => 1
  | _ => 0

/-- The matches that are in the channel or can still get there. -/
def hits (m : Str) (s : St) : Nat :=
  s.cnt + s.rd.out.sends + s.rd.err.sends + s.buf.out.countP (contains m) + s.buf.err.countP (contains m) +
    s.pipe.out.countP (contains m) + s.pipe.err.countP (contains m) + s.left.countP fun x => contains m x.2

/-- The announcements that were made or can still be made, and the panics. -/
def announced (s : St) : Nat :=
  s.ready.toNat + s.panic.toNat + s.rd.err.announces + s.buf.err.countP (contains running) + s.pipe.err.countP (contains running) +
    s.left.countP fun x => x.1 = .err && contains running x.2

theorem countP_take_drop {α : Type} (p : α → Bool) (k : Nat) (l : List α) : (l.take k).countP p + (l.drop k).countP p = l.countP p := by
  rw [← List.countP_append, List.take_append_drop]

theorem hits_step {m : Str} {ok : Bool} {s : St} {a : Act} : hits m (step m ok s a) ≤ hits m s := by
  unfold step
  split
  · omega
  · split
    · omega
    · cases a <;> simp only [announce_eq, St.kill]
      case print =>
        split
        · next f l r _ hl =>
          split
          · simp only [hits, hl, List.countP_cons]; omega
          · cases f <;> simp only [hits, hl, List.countP_cons, Both.set, Both.get, List.countP_append, List.countP_nil] <;> omega
        · omega
      case fill f k =>
        split
        · cases f
          · have := countP_take_drop (contains m) k s.pipe.out
            simp only [hits, Both.set, Both.get, List.countP_append]; omega
          · have := countP_take_drop (contains m) k s.pipe.err
            simp only [hits, Both.set, Both.get, List.countP_append]; omega
        · omega
      case line f =>
        split
        · next l r hr hb =>
          split
          · cases f <;> simp only [Both.get] at hr hb <;> simp only [hits, Both.set, Rd.sends, List.countP_nil, hr] <;> omega
          · split
            · next hm => cases f <;> simp only [Both.get] at hr hb <;> simp only [hits, Both.set, Rd.sends, hr, hb, List.countP_cons, hm, if_true] <;> omega
            · split <;> cases f <;> simp only [Both.get] at hr hb <;> simp only [hits, Both.set, hr, hb, List.countP_cons] <;> omega
        · omega
      case eof f =>
        split
        · next hc => cases f <;> simp only [Both.get] at hc <;> simp only [hits, Both.set, Rd.sends, hc.1] <;> omega
        · omega
      case send f =>
        split
        · next ann hr =>
          split
          · split <;> cases f <;> simp only [Both.get] at hr <;> simp only [hits, Both.set, Rd.sends, hr] <;> omega
          · omega
        · omega
      all_goals
        repeat' split
      all_goals
        simp only [hits, List.countP_nil]
        try omega

theorem announced_step {m : Str} {ok : Bool} {s : St} {a : Act} (hp : (s.panic = true → s.ready = true) ∧ s.rd.out ≠ .sending true) :
    announced (step m ok s a) ≤ announced s ∧
      (((step m ok s a).panic = true → (step m ok s a).ready = true) ∧ (step m ok s a).rd.out ≠ .sending true) := by
  have hsame : announced s ≤ announced s ∧ ((s.panic = true → s.ready = true) ∧ s.rd.out ≠ .sending true) := ⟨Nat.le_refl _, hp⟩
  unfold step
  split
  · exact hsame
  · next hpan =>
    simp only [Bool.not_eq_true] at hpan
    split
    · exact hsame
    · cases a <;> simp only [announce_eq, St.kill]
      case print =>
        split
        · next f l r _ hl =>
          split
          · refine ⟨?_, hp⟩
            simp only [announced, hl, List.countP_cons]; omega
          · refine ⟨?_, hp⟩
            cases f <;> simp [announced, hl, List.countP_cons, Both.set, Both.get, List.countP_append] <;> omega
        · exact hsame
      case fill f k =>
        split
        · refine ⟨?_, hp⟩
          cases f
          · simp only [announced, Both.set, Both.get]; omega
          · have := countP_take_drop (contains running) k s.pipe.err
            simp only [announced, Both.set, Both.get, List.countP_append]; omega
        · exact hsame
      case line f =>
        split
        · next l r hr hb =>
          split
          · cases f <;> simp only [Both.get] at hr hb <;>
              refine ⟨by simp only [announced, Both.set, Rd.announces, List.countP_nil, hr]; omega, hp.1, by simp [Both.set, hp.2]⟩
          · split
            · cases f
              · simp only [Both.get] at hr hb
                exact ⟨by simp only [announced, Both.set]; omega, hp.1, by simp [Both.set]⟩
              · simp only [Both.get] at hr hb
                refine ⟨?_, hp.1, hp.2⟩
                cases hc : contains running l <;> simp [announced, Both.set, Rd.announces, hr, hb, List.countP_cons, hc] <;> omega
            · split
              · next hann =>
                cases f
                · simp at hann
                · simp only [Both.get] at hr hb
                  have hc : contains running l = true := by simpa using hann
                  refine ⟨?_, fun _ => rfl, hp.2⟩
                  cases hrd : s.ready <;> simp [announced, Both.set, hpan, hb, List.countP_cons, hc, hrd] <;> omega
              · cases f <;> simp only [Both.get] at hr hb <;>
                  refine ⟨by simp only [announced, Both.set, hb, List.countP_cons]; omega, hp.1, hp.2⟩
        · exact hsame
      case eof f =>
        split
        · next hc =>
          cases f <;> simp only [Both.get] at hc <;>
            refine ⟨by simp only [announced, Both.set, Rd.announces, hc.1]; omega, hp.1, by simp [Both.set, hp.2]⟩
        · exact hsame
      case send f =>
        split
        · next ann hr =>
          split
          · split
            · next ha =>
              subst ha
              cases f
              · exact absurd hr hp.2
              · simp only [Both.get] at hr
                refine ⟨?_, fun _ => rfl, hp.2⟩
                cases hrd : s.ready <;> simp [announced, Both.set, Rd.announces, hr, hpan, hrd] <;> omega
            · cases f <;> simp only [Both.get] at hr <;>
                refine ⟨by simp only [announced, Both.set, Rd.announces, hr]; omega, hp.1, by simp [Both.set, hp.2]⟩
          · exact hsame
        · exact hsame
      all_goals
        repeat' split
      all_goals
        first
        | exact hsame
        | exact ⟨by simp only [announced, List.countP_nil]; omega, hp⟩

/-- **The runner panics only if the command says at least twice that it runs.** -/
theorem panic_only {m : Str} {ok : Bool} {prog : List (Fd × Str)} {acts : List Act} (h : (exec m ok (init prog) acts).panic = true) :
    2 ≤ prog.countP fun x => x.1 = .err && contains running x.2 := by
  have := exec_inv (P := fun s => announced s ≤ announced (init prog) ∧ (s.panic = true → s.ready = true) ∧ s.rd.out ≠ .sending true)
    (fun s a h => by
      obtain ⟨h1, h2⟩ := announced_step (m := m) (ok := ok) (a := a) h.2
      exact ⟨Nat.le_trans h1 h.1, h2⟩) (acts := acts) (s := init prog) ⟨Nat.le_refl _, by simp [init]⟩
  obtain ⟨h1, h2, _⟩ := this
  have h3 := h2 h
  have e : announced (init prog) = prog.countP fun x => x.1 = .err && contains running x.2 := by simp [announced, init, Rd.announces]
  have e' : 2 ≤ announced (exec m ok (init prog) acts) := by simp only [announced, h, h3, Bool.toNat_true]; omega
  omega

/-- `test` waits for the goroutines; there is room in the channel for all matches that can come, and nothing panics. -/
structure Ending (m : Str) (p : Bool) (s : St) : Prop where
  phase : s.phase = .join p
  waited : s.waited = true
  closed : s.closed = true
  hits : hits m s ≤ 10
  ann : announced s ≤ 1
  ready : s.panic = true → s.ready = true
  out : s.rd.out ≠ .sending true

theorem Ending.quiet {m : Str} {p : Bool} {s : St} (h : Ending m p s) : s.panic = false := by
  cases hp : s.panic with
  | false => rfl
  | true =>
    have := h.ready hp
    have h2 := h.ann
    simp only [announced, hp, this, Bool.toNat_true] at h2
    omega

theorem Ending.step {m : Str} {ok p : Bool} {s : St} {a : Act} (h : Ending m p s)
    (hk : (step m ok s a).phase = .join p ∧ (step m ok s a).waited = true ∧ (step m ok s a).closed = true) : Ending m p (step m ok s a) := by
  have h1 := announced_step (m := m) (ok := ok) (a := a) ⟨h.ready, h.out⟩
  exact ⟨hk.1, hk.2.1, hk.2.2, Nat.le_trans hits_step h.hits, Nat.le_trans h1.1 h.ann, h1.2.1, h1.2.2⟩

/-- The other output. -/
def Fd.other : Fd → Fd
  | .out => .err
  | .err => .out

theorem drain {m : Str} {ok p : Bool} {f : Fd} : ∀ {n : Nat} {s : St}, 2 * (s.buf.get f).length + (s.rd.get f).sends ≤ n → Ending m p s →
    ∃ acts, Ending m p (exec m ok s acts) ∧ (exec m ok s acts).rd.get f = .stopped ∧
      (exec m ok s acts).rd.get f.other = s.rd.get f.other := by
  intro n
  induction n with
  | zero =>
    intro s hn h
    have hb : s.buf.get f = [] := List.eq_nil_of_length_eq_zero (by omega)
    cases hr : s.rd.get f with
    | sending a => rw [hr] at hn; simp [Rd.sends] at hn
    | stopped => exact ⟨[], h, hr, rfl⟩
    | reading =>
      have e : step m ok s (.eof f) = { s with rd := s.rd.set f .stopped } := by simp [step, h.quiet, h.phase, hr, hb, h.closed]
      refine ⟨[.eof f], ?_, ?_, ?_⟩
      · exact h.step (by rw [e]; exact ⟨h.phase, h.waited, h.closed⟩)
      · show (step m ok s (.eof f)).rd.get f = _
        rw [e]; simp
      · show (step m ok s (.eof f)).rd.get f.other = _
        rw [e]; cases f <;> simp [Fd.other]
  | succ n ih =>
    intro s hn h
    -- one step, then the rest
    have one : ∀ a, Ending m p (step m ok s a) → 2 * ((step m ok s a).buf.get f).length + ((step m ok s a).rd.get f).sends ≤ n →
        (step m ok s a).rd.get f.other = s.rd.get f.other →
        ∃ acts, Ending m p (exec m ok s acts) ∧ (exec m ok s acts).rd.get f = .stopped ∧
          (exec m ok s acts).rd.get f.other = s.rd.get f.other := by
      intro a h1 h2 h3
      obtain ⟨acts, e1, e2, e3⟩ := ih h2 h1
      exact ⟨a :: acts, e1, e2, by rw [← h3]; exact e3⟩
    cases hr : s.rd.get f with
    | stopped => exact ⟨[], h, hr, rfl⟩
    | sending ann =>
      have hc : s.cnt < 10 := by
        have := h.hits
        cases f <;> simp only [Both.get] at hr <;> simp only [Lt.hits, hr, Rd.sends] at this <;> omega
      have e : step m ok s (.send f) = (if ann then { s with cnt := s.cnt + 1, rd := s.rd.set f .reading }.announce
          else { s with cnt := s.cnt + 1, rd := s.rd.set f .reading }) := by simp [Lt.step, h.quiet, h.phase, hr, hc]
      rw [hr] at hn
      simp only [Rd.sends] at hn
      refine one (.send f) (h.step ?_) ?_ ?_ <;> rw [e] <;> simp only [announce_eq] <;> split <;>
        first
        | exact ⟨h.phase, h.waited, h.closed⟩
        | (simp [Rd.sends]; omega)
        | (cases f <;> simp [Fd.other])
    | reading =>
      cases hb : s.buf.get f with
      | nil =>
        have e : step m ok s (.eof f) = { s with rd := s.rd.set f .stopped } := by simp [Lt.step, h.quiet, h.phase, hr, hb, h.closed]
        refine one (.eof f) (h.step (by rw [e]; exact ⟨h.phase, h.waited, h.closed⟩)) ?_ ?_
        · rw [e]; simp [hb, Rd.sends]
        · rw [e]; cases f <;> simp [Fd.other]
      | cons l r =>
        rw [hb, hr] at hn
        simp only [List.length_cons, Rd.sends] at hn
        refine one (.line f) (h.step ?_) ?_ ?_ <;> simp only [Lt.step, h.quiet, h.phase, hr, hb, announce_eq] <;>
          repeat' split
        all_goals
          first
          | contradiction
          | exact ⟨h.phase, h.waited, h.closed⟩
          | exact ⟨rfl, h.waited, h.closed⟩
          | (simp [Rd.sends]; done)
          | (simp [Rd.sends]; omega)
          | (simp [Rd.sends, hr]; omega)
          | (cases f <;> simp [Fd.other])

/-- **A test ends**: if the command prints at most ten lines with the text to match and says at most once that it runs, then whatever happened so far,
once `test` waits for the goroutines they can go on until it returns its verdict. -/
theorem test_ends_partial {m : Str} {ok p : Bool} {prog : List (Fd × Str)} {acts : List Act}
    (hm : (prog.countP fun x => contains m x.2) ≤ 10) (hr : (prog.countP fun x => x.1 = .err && contains running x.2) ≤ 1)
    (h : (exec m ok (init prog) acts).phase = .join p) :
    ∃ more, (exec m ok (init prog) (acts ++ more)).phase = .done p := by
  have inv := exec_inv (P := fun s => hits m s ≤ hits m (init prog) ∧ announced s ≤ announced (init prog) ∧
      (s.panic = true → s.ready = true) ∧ s.rd.out ≠ .sending true) (m := m) (ok := ok)
    (fun s a h => by
      obtain ⟨h1, h2⟩ := announced_step (m := m) (ok := ok) (a := a) h.2.2
      exact ⟨Nat.le_trans hits_step h.1, Nat.le_trans h1 h.2.1, h2⟩) (acts := acts) (s := init prog)
    ⟨Nat.le_refl _, Nat.le_refl _, by simp [init]⟩
  have inv2 := exec_inv (P := fun s => ((∃ p, s.phase = .join p) → s.dead ≠ none) ∧ (s.waited = true → s.closed = true)) (m := m) (ok := ok)
    (fun s a h => by
      obtain ⟨h1, h2⟩ := h
      unfold step
      split
      · exact ⟨h1, h2⟩
      · split
        · exact ⟨h1, h2⟩
        · cases a <;> simp only [announce_eq, St.kill]
          all_goals
            repeat' split
          all_goals
            first
            | exact ⟨h1, h2⟩
            | exact ⟨h1, fun _ => rfl⟩
            | (refine ⟨fun ⟨_, e⟩ => ?_, h2⟩; simp at e; done)
            | (refine ⟨fun _ => ?_, h2⟩; simp; done)) (acts := acts) (s := init prog) (by simp [init])
  have e1 : hits m (init prog) = prog.countP fun x => contains m x.2 := by simp [hits, init, Rd.sends]
  have e2 : announced (init prog) = prog.countP fun x => x.1 = .err && contains running x.2 := by simp [announced, init, Rd.announces]
  generalize hs : exec m ok (init prog) acts = s at h inv inv2
  obtain ⟨i1, i2, i3, i4⟩ := inv
  have hpan : s.panic = false := by
    cases hp : s.panic with
    | false => rfl
    | true =>
      have h3 := i3 hp
      have : 2 ≤ announced s := by simp only [announced, hp, h3, Bool.toNat_true]; omega
      omega
  obtain ⟨b, hb⟩ := Option.ne_none_iff_exists'.mp (inv2.1 ⟨p, h⟩)
  have w : ∃ a, Ending m p (exec m ok s a) := by
    cases hw : s.waited with
    | true => exact ⟨[], h, hw, inv2.2 hw, by simp only [exec, List.foldl_nil]; omega, by simp only [exec, List.foldl_nil]; omega, i3, i4⟩
    | false =>
      have e : step m ok s .wait = { s with waited := true, closed := true, pipe := ⟨[], []⟩, errCh := some b } := by
        simp [step, hpan, h, hb, hw]
      have h1 := announced_step (m := m) (ok := ok) (a := .wait) ⟨i3, i4⟩
      have h2 := hits_step (m := m) (ok := ok) (s := s) (a := .wait)
      exact ⟨[.wait], by show (step m ok s .wait).phase = _; rw [e]; exact h, by show (step m ok s .wait).waited = _; rw [e],
        by show (step m ok s .wait).closed = _; rw [e], by show hits m (step m ok s .wait) ≤ _; omega,
        by show announced (step m ok s .wait) ≤ _; omega, h1.2.1, h1.2.2⟩
  obtain ⟨a1, w⟩ := w
  obtain ⟨a2, d1, d2, _⟩ := drain (ok := ok) (f := .out) (Nat.le_refl _) w
  obtain ⟨a3, d3, d4, d5⟩ := drain (ok := ok) (f := .err) (Nat.le_refl _) d1
  refine ⟨a1 ++ a2 ++ a3 ++ [.join], ?_⟩
  rw [exec_append, hs, exec_append, exec_append, exec_append]
  generalize exec m ok (exec m ok (exec m ok s a1) a2) a3 = t at d3 d4 d5
  have o : t.rd.out = .stopped := by rw [← d2]; exact d5
  have r : t.rd.err = .stopped := d4
  simp [exec, step, d3.quiet, d3.phase, d3.waited, o, r]

/-- The hypotheses of the above are met. -/
theorem run_witness : contains "x".toList "axb".toList = true ∧ contains "x".toList running = false ∧
    (exec "x".toList true (init [(.err, running), (.out, "axb".toList)])
      [.print, .fill .err 1, .line .err, .selReady, .print, .fill .out 1, .line .out, .send .out, .selMatch, .eof .out, .wait, .eof .err, .join]).phase =
      .done true := by
  decide +kernel

end Bpfsnoop.Lt
