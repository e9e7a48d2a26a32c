import Verif.Model.GraphCode
import Verif.Props.Graph
import Verif.Props.Callees

/-! C101: a call graph has what the code reaches by calls. -/
namespace Bpfsnoop.Gc
open Dis (NthInsn Unpadded)
open Cal (CallAt JumpAt Text CodeAt)

/-- Specification: the functions that can be reached through code, each with the depth on that way: `code p` is the code of `p`; a BPF program
that begins with a jump stands for what it jumps to. -/
inductive CodeReach (D : Dis.Decoder) (code : Nat → List KRead.Byte) (isBPF accept : Nat → Bool) (roots : List (Nat × Nat)) : Nat → Nat → Prop
  | root {ip d} : (ip, d) ∈ roots → CodeReach D code isBPF accept roots ip d
  | repl {p d ip bs x} : CodeReach D code isBPF accept roots p d → accept p = true → isBPF p = true → NthInsn D 0 p (code p) ip bs →
      JumpAt ip bs x → CodeReach D code isBPF accept roots x.toNat d
  | call {p d i pc bs x} : CodeReach D code isBPF accept roots p d → accept p = true → ¬ (isBPF p = true ∧ (code p).head? = some 0xE9#8) →
      NthInsn D i p (code p) pc bs → CallAt pc bs x → CodeReach D code isBPF accept roots x.toNat (d + 1)

/-- Specification: the code of every function let into the graph is readable kernel code: it has instructions, calls only what is in the kernel,
and a BPF program that begins with the byte of a jump begins with a jump into the kernel. -/
structure Good (e : Env) (code : Nat → List KRead.Byte) : Prop where
  buff : e.buff.length = KRead.buffSize
  mem : ∀ p, e.accept p = true → ∃ fn, CodeAt e.mem p fn ∧ e.len p = fn.length ∧ Unpadded fn (code p)
  first : ∀ p, e.accept p = true → ∃ ip bs, NthInsn e.dis 0 p (code p) ip bs
  calls : ∀ p, e.accept p = true → ∀ i pc bs x, NthInsn e.dis i p (code p) pc bs → CallAt pc bs x → Text x
  jump : ∀ p, e.accept p = true → e.isBPF p = true → (code p).head? = some 0xE9#8 →
    ∃ ip bs x, NthInsn e.dis 0 p (code p) ip bs ∧ JumpAt ip bs x ∧ Text x

theorem nth_ip {D : Dis.Decoder} {a : Nat} {code : List KRead.Byte} {ip : Nat} {bs : List KRead.Byte} (h : NthInsn D 0 a code ip bs) : ip = a := h.1

theorem nth_unique {D : Dis.Decoder} {i a : Nat} {code : List KRead.Byte} {p q : Nat} {b c : List KRead.Byte}
    (h : NthInsn D i a code p b) (g : NthInsn D i a code q c) : p = q ∧ b = c := by
  have h1 := (Dis.insnsOf_nth D _ _ _ _ _).2 h
  have h2 := (Dis.insnsOf_nth D _ _ _ _ _).2 g
  rw [h1] at h2
  simpa using h2

theorem jump_head {D : Dis.Decoder} {a : Nat} {code : List KRead.Byte} {ip : Nat} {bs : List KRead.Byte} {x : BitVec 64}
    (h : NthInsn D 0 a code ip bs) (hj : JumpAt ip bs x) : code.head? = some 0xE9#8 := by
  rw [← Cal.head_insn h]
  obtain ⟨r, rfl, _⟩ := hj
  rfl

theorem jump_unique {pc : Nat} {bs : List KRead.Byte} {x y : BitVec 64} (h : JumpAt pc bs x) (g : JumpAt pc bs y) : x = y := by
  obtain ⟨r, rfl, rfl⟩ := h
  obtain ⟨s, hs, rfl⟩ := g
  have h1 : Cal.operand r = Cal.operand s := (List.cons.inj hs).2
  have h2 : r = s := by
    rw [← Cal.leU32_operand r, ← Cal.leU32_operand s]
    unfold Cal.operand at h1
    simp only [List.cons.injEq] at h1
    rw [h1.1, h1.2.1, h1.2.2.1, h1.2.2.2.1]
  rw [h2]

theorem world_repl {e : Env} {code : Nat → List KRead.Byte} (g : Good e code) {p : Nat} (ha : e.accept p = true)
    (hb : e.isBPF p = true) (hh : (code p).head? = some 0xE9#8) :
    ∃ ip bs x, NthInsn e.dis 0 p (code p) ip bs ∧ JumpAt ip bs x ∧ e.world.repl p = some x.toNat := by
  obtain ⟨fn, hc, hl, hu⟩ := g.mem p ha
  obtain ⟨ip, bs, x, h1, h2, h3⟩ := g.jump p ha hb hh
  refine ⟨ip, bs, x, h1, h2, ?_⟩
  have hip := nth_ip h1
  have := Cal.replaced_found e.dis e.mem e.syms e.buff g.buff p fn (code p) hc hu ip bs h1 x (hip ▸ h2) h3
  unfold Env.world Env.look
  simp only []
  rw [hl, hb, this]

theorem world_calls {e : Env} {code : Nat → List KRead.Byte} (g : Good e code) {p : Nat} (ha : e.accept p = true)
    (hn : ¬ (e.isBPF p = true ∧ (code p).head? = some 0xE9#8)) :
    e.world.repl p = none ∧ ∀ c, c ∈ e.world.callees p ↔ ∃ i pc bs x, NthInsn e.dis i p (code p) pc bs ∧ CallAt pc bs x ∧ c = x.toNat := by
  obtain ⟨fn, hc, hl, hu⟩ := g.mem p ha
  obtain ⟨l, h1, h2⟩ := Cal.calls_found e.dis e.mem e.syms e.buff g.buff p fn (code p) hc hu (g.first p ha) (e.isBPF p)
    (fun h h' => hn ⟨h, h'⟩) (g.calls p ha)
  unfold Env.world Env.look
  simp only []
  rw [hl, h1]
  refine ⟨rfl, fun c => ?_⟩
  simp only [List.mem_map]
  constructor
  · rintro ⟨x, hx, rfl⟩
    obtain ⟨i, pc, bs, h3, h4⟩ := (h2 x).1 hx
    exact ⟨i, pc, bs, x, h3, h4, rfl⟩
  · rintro ⟨i, pc, bs, x, h3, h4, rfl⟩
    exact ⟨x, (h2 x).2 ⟨i, pc, bs, h3, h4⟩, rfl⟩

/-- What the parser looks for is what the code reaches. -/
theorem reach_iff {e : Env} {code : Nat → List KRead.Byte} (g : Good e code) (roots : List (Nat × Nat)) (ip d : Nat) :
    Gr.Reach e.world roots ip d ↔ CodeReach e.dis code e.isBPF e.accept roots ip d := by
  constructor
  · intro h
    induction h with
    | root h => exact .root h
    | @repl p c d _ ha hr ih =>
      by_cases hn : e.isBPF p = true ∧ (code p).head? = some 0xE9#8
      · obtain ⟨ip, bs, x, h1, h2, h3⟩ := world_repl g ha hn.1 hn.2
        rw [h3] at hr
        cases hr
        exact .repl ih ha hn.1 h1 h2
      · rw [(world_calls g ha hn).1] at hr
        cases hr
    | @call p c d _ ha hr hc ih =>
      by_cases hn : e.isBPF p = true ∧ (code p).head? = some 0xE9#8
      · obtain ⟨ip, bs, x, h1, h2, h3⟩ := world_repl g ha hn.1 hn.2
        rw [h3] at hr
        cases hr
      · obtain ⟨i, pc, bs, x, h1, h2, rfl⟩ := ((world_calls g ha hn).2 c).1 hc
        exact .call ih ha hn h1 h2
  · intro h
    induction h with
    | root h => exact .root h
    | @repl p d ip bs x _ ha hb hi hj ih =>
      obtain ⟨ip', bs', x', h1, h2, h3⟩ := world_repl g ha hb (jump_head hi hj)
      obtain ⟨rfl, rfl⟩ := nth_unique hi h1
      rw [jump_unique hj h2]
      exact .repl ih ha h3
    | @call p d i pc bs x _ ha hn hi hx ih =>
      obtain ⟨h1, h2⟩ := world_calls g ha hn
      exact .call ih ha h1 ((h2 _).2 ⟨i, pc, bs, x, hi, hx, rfl⟩)

/-- **C101.** In a call graph there are only functions that can be reached from the roots through the code of functions in the graph, in no more
calls than the greatest depth, whatever the goroutines' schedule. -/
theorem graph_code_sound {e : Env} {code : Nat → List KRead.Byte} (g : Good e code) (D : Nat) (roots : List (Nat × Nat)) (sched : List Nat)
    {deny : Gr.St} {ip : Nat} (h : Gr.found (Gr.run e.world D (Gr.initial roots) sched) deny false ip = true) :
    e.accept ip = true ∧ ∃ d, d ≤ D ∧ CodeReach e.dis code e.isBPF e.accept roots ip d := by
  obtain ⟨h1, ⟨d, h2, h3⟩, _⟩ := Gr.found_sound e.world D roots sched deny h
  exact ⟨h1, d, h2, (reach_iff g roots ip d).1 h3⟩

/-- **C101, partial.** And all of them are there when the goroutines have finished, of any schedule in which no function is looked at while
another goroutine is putting it in (`Gr.completeness_violated` is about the others). -/
theorem graph_code_complete_partial {e : Env} {code : Nat → List KRead.Byte} (g : Good e code) (D : Nat) (roots : List (Nat × Nat))
    (sched : List Nat) (hn : Gr.NoRace e.world D (Gr.initial roots) sched) (hq : Gr.Quiet (Gr.run e.world D (Gr.initial roots) sched))
    {deny : Gr.St} {ip d : Nat} (hr : CodeReach e.dis code e.isBPF e.accept roots ip d) (hd : d ≤ D) (ha : e.accept ip = true)
    (hy : deny.graphs ip = none) : Gr.found (Gr.run e.world D (Gr.initial roots) sched) deny false ip = true := by
  obtain ⟨r, h⟩ := Gr.graph_complete_partial e.world D roots sched hn hq ((reach_iff g roots ip d).2 hr) hd ha
  unfold Gr.found
  rw [h]
  simp [hy]

/-- **C101, violated.** What a kernel function reaches only by jumps is in no call graph: a function of which the code calls nothing has nothing
below it. -/
theorem jumps_missed {e : Env} {code : Nat → List KRead.Byte} (g : Good e code) (a D : Nat) (hk : e.isBPF a = false)
    (hn : ∀ i pc bs x, NthInsn e.dis i a (code a) pc bs → ¬ CallAt pc bs x) (sched : List Nat) {deny : Gr.St} {ip : Nat}
    (h : Gr.found (Gr.run e.world D (Gr.initial [(a, 0)]) sched) deny false ip = true) : ip = a := by
  obtain ⟨-, d, -, h2⟩ := graph_code_sound g D _ sched h
  clear h
  induction h2 with
  | root h => simp at h; exact h.1
  | repl _ _ hb _ _ ih => rw [ih, hk] at hb; cases hb
  | call _ _ _ hi hx ih => rw [ih] at hi; exact absurd hx (hn _ _ _ _ hi)

/-- A function that calls itself: `push %rbp`, the call, `ret`, padding. -/
def body : List KRead.Byte := [0x55#8, 0xE8#8, 0xFA#8, 0xFF#8, 0xFF#8, 0xFF#8, 0xC3#8, 0xCC#8]

def recursive (t : Kallsyms.Tables) : Env where
  dis := Cal.fiveOrOne
  mem := fun a => body[a.toNat - 0xFFFFFFFF81000000]?
  syms := t
  buff := KRead.fresh
  len := fun _ => 8
  isBPF := fun _ => false
  accept := fun p => p == 0xFFFFFFFF81000000

/-- Witness: a function that calls itself meets the hypotheses, and is reached in one call. -/
theorem recursive_witness (t : Kallsyms.Tables) : ∃ code, Good (recursive t) code ∧
    CodeReach (recursive t).dis code (recursive t).isBPF (recursive t).accept [(0xFFFFFFFF81000000, 0)] 0xFFFFFFFF81000000 1 := by
  have eq : ∀ p, (recursive t).accept p = true → p = 0xFFFFFFFF81000000 := fun p h => beq_iff_eq.1 h
  have hc : CodeAt (recursive t).mem 0xFFFFFFFF81000000 body := by
    refine ⟨by decide, by decide, [], by decide, by decide, ?_⟩
    intro i h
    rw [List.append_nil] at h
    have : ∀ i : Fin 8, body[(BitVec.ofNat 64 (0xFFFFFFFF81000000 + i.val)).toNat - 0xFFFFFFFF81000000]? =
        some ((body ++ [])[i.val]'(by have := i.isLt; simp [body])) := by
      decide +kernel
    exact this ⟨i, h⟩
  have hu : Unpadded body [0x55#8, 0xE8#8, 0xFA#8, 0xFF#8, 0xFF#8, 0xFF#8, 0xC3#8] := ⟨[0xCC#8], rfl, by decide, by decide⟩
  have only : ∀ i pc bs, NthInsn Cal.fiveOrOne i 0xFFFFFFFF81000000 [0x55#8, 0xE8#8, 0xFA#8, 0xFF#8, 0xFF#8, 0xFF#8, 0xC3#8] pc bs →
      bs = [0x55#8] ∨ bs = [0xC3#8] ∨ pc = 0xFFFFFFFF81000001 ∧ bs = [0xE8#8, 0xFA#8, 0xFF#8, 0xFF#8, 0xFF#8] := by
    intro i pc bs h
    rcases i with _ | _ | _ | i
    · obtain ⟨_, n, hn, rfl⟩ := h; cases hn; exact Or.inl rfl
    · obtain ⟨n, hn, rfl, k, hk, rfl⟩ := h; cases hn; cases hk; exact Or.inr (Or.inr ⟨rfl, rfl⟩)
    · obtain ⟨n, hn, k, hk, rfl, j, hj, rfl⟩ := h; cases hn; cases hk; cases hj; exact Or.inr (Or.inl rfl)
    · obtain ⟨n, hn, k, hk, j, hj, h⟩ := h
      cases hn; cases hk; cases hj
      cases i with
      | zero => obtain ⟨_, n, hn, _⟩ := h; cases hn
      | succ i => obtain ⟨n, hn, _⟩ := h; cases hn
  have target : ∀ pc bs x, pc = 0xFFFFFFFF81000001 → bs = [0xE8#8, 0xFA#8, 0xFF#8, 0xFF#8, 0xFF#8] → CallAt pc bs x →
      x = 0xFFFFFFFF81000000#64 := by
    rintro pc bs x rfl rfl ⟨r, hr, rfl⟩
    have h1 : Cal.operand r = Cal.operand 0xFFFFFFFA#32 := by
      have : Cal.operand 0xFFFFFFFA#32 = [0xFA#8, 0xFF#8, 0xFF#8, 0xFF#8] := by decide +kernel
      rw [this]
      exact (List.cons.inj hr).2.symm
    have h2 : r = 0xFFFFFFFA#32 := by
      rw [← Cal.leU32_operand r, ← Cal.leU32_operand 0xFFFFFFFA#32]
      unfold Cal.operand at h1
      simp only [List.cons.injEq] at h1
      rw [h1.1, h1.2.1, h1.2.2.1, h1.2.2.2.1]
    rw [h2]
    decide +kernel
  have none1 : ∀ b pc x, b = 0x55#8 ∨ b = 0xC3#8 → ¬ CallAt pc [b] x := by
    rintro b pc x hb ⟨r, hr, _⟩
    simp [Cal.operand] at hr
  refine ⟨fun _ => [0x55#8, 0xE8#8, 0xFA#8, 0xFF#8, 0xFF#8, 0xFF#8, 0xC3#8], ⟨List.length_replicate, ?_, ?_, ?_, ?_⟩, ?_⟩
  · intro p hp
    rw [eq p hp]
    exact ⟨body, hc, rfl, hu⟩
  · intro p hp
    rw [eq p hp]
    exact ⟨_, _, rfl, 1, rfl, rfl⟩
  · intro p hp i pc bs x hn hx
    rw [eq p hp] at hn
    rcases only i pc bs hn with rfl | rfl | ⟨h1, h2⟩
    · exact absurd hx (none1 _ _ _ (Or.inl rfl))
    · exact absurd hx (none1 _ _ _ (Or.inr rfl))
    · rw [target pc bs x h1 h2 hx]; unfold Text; decide
  · intro p _ hb
    cases hb
  · have h0 : CodeReach (recursive t).dis (fun _ => [0x55#8, 0xE8#8, 0xFA#8, 0xFF#8, 0xFF#8, 0xFF#8, 0xC3#8]) (recursive t).isBPF
        (recursive t).accept [(0xFFFFFFFF81000000, 0)] 0xFFFFFFFF81000000 0 := .root (by simp)
    exact .call (x := 0xFFFFFFFF81000000#64) (i := 1) (pc := 0xFFFFFFFF81000001) (bs := [0xE8#8, 0xFA#8, 0xFF#8, 0xFF#8, 0xFF#8]) h0
      (beq_iff_eq.2 rfl) (by rintro ⟨h, _⟩; cases h) ⟨1, rfl, rfl, 5, rfl, rfl⟩ ⟨0xFFFFFFFA#32, by decide +kernel, by decide +kernel⟩

end Bpfsnoop.Gc
