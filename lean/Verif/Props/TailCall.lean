import Verif.Model.TailCall
import Verif.Props.Util
/-
C41: which BPF subprograms are refused because of tail calls.
-/
namespace Bpfsnoop.Tc
open Util

/-! ### Specification -/

/-- The three encodings of a (possibly sealed) ENDBR instruction. -/
def endbrs : List Bytes := [[0xf3, 0x0f, 0x1e, 0xfa], [0xf3, 0x0f, 0x1e, 0xfb], [0x66, 0x0f, 0x1f, 0x00]]

/-- The code begins with ENDBR. -/
def StartsEndbr (b : Bytes) : Prop := ∃ e ∈ endbrs, e <+: b

/-- `xor eax, eax` and `xor rax, rax`, by which the kernel initialises the tail call counter. -/
def counterInit : List Bytes := [[0x31, 0xc0], [0x48, 0x31, 0xc0]]

/-- The function's code is: ENDBR if it begins with one, five bytes that a trampoline may patch, and the initialisation
of the tail-call counter. -/
def InitsCounter (b : Bytes) : Prop :=
  ∃ e p x r, b = e ++ p ++ x ++ r ∧ (e ∈ endbrs ∨ e = [] ∧ ¬ StartsEndbr b) ∧ p.length = 5 ∧ x ∈ counterInit

/-- The prologue that the x86 JIT of the kernel emits for an entry function (arch/x86/net/bpf_jit_comp.c,
`emit_prologue`), with `patch` the five bytes of the trampoline site. `new` is the layout since v6.12. -/
def jitPrologue (endbr : Bool) (patch : Bytes) (new reach : Bool) : Bytes :=
  ((if endbr then [0xf3, 0x0f, 0x1e, 0xfa] else []) : Bytes) ++ patch ++
    ((match new, reach with
      | false, true => [0x31, 0xc0]
      | false, false => [0x66, 0x90]
      | true, true => [0x48, 0x31, 0xc0]
      | true, false => [0x0f, 0x1f, 0x00]) : Bytes) ++
    [0x55, 0x48, 0x89, 0xe5]

/-- The instructions of a byte string at an address, as the disassembler cuts it; up to ten bytes at the end may be half an
instruction. -/
inductive Stream (disasm : Bytes → BitVec 64 → Option Bytes) : Bytes → BitVec 64 → List Bytes → Prop where
  | nil {pc} : Stream disasm [] pc []
  | stop {b pc} : disasm b pc = none → b.length ≤ 10 → Stream disasm b pc []
  | cons {b pc i l} : b ≠ [] → disasm b pc = some i → i ≠ [] →
      Stream disasm (b.drop i.length) (pc + BitVec.ofNat 64 i.length) l → Stream disasm b pc (i :: l)

/-- `push rax` comes before any `ret`. -/
def PushesCounter (l : List Bytes) : Prop := ∃ pre post, l = pre ++ [0x50] :: post ∧ [0xc3] ∉ pre

/-! ### Proofs -/

theorem isEndbr_iff (b0 b1 b2 b3 : UInt8) (r : Bytes) :
    isEndbrInsn (leU32 b0 b1 b2 b3) = true ↔ StartsEndbr (b0 :: b1 :: b2 :: b3 :: r) := by
  have h := endbr_exact (b0 :: b1 :: b2 :: b3 :: r)
  simp only [haveEndbrInsn] at h
  rw [h]
  simp only [StartsEndbr, endbrs, List.mem_cons, List.not_mem_nil, or_false, exists_eq_or_imp, exists_eq_left,
    List.prefix_iff_eq_append, List.cons_append, List.nil_append, List.cons.injEq]
  constructor
  · rintro ⟨rest, h | h | h⟩ <;> simp [h]
  · rintro (h | h | h)
    · exact ⟨r, by simp at h; simp [h]⟩
    · exact ⟨r, by simp at h; simp [h]⟩
    · exact ⟨r, by simp at h; simp [h]⟩

/-- The code after ENDBR and the patch site. -/
def afterSite (b : Bytes) (e : Bool) : Bytes := b.drop (if e then 9 else 5)

theorem first_word (b0 b1 b2 b3 : UInt8) (r : Bytes) :
    (slice (b0 :: b1 :: b2 :: b3 :: r) 0 4).bind u32 = some (leU32 b0 b1 b2 b3) := by
  have : slice (b0 :: b1 :: b2 :: b3 :: r) 0 4 = some [b0, b1, b2, b3] := by simp [slice]
  rw [this]; rfl

theorem slice_site (b0 b1 b2 b3 : UInt8) (r : Bytes) (h : 8 ≤ r.length) (e : Bool) (k : Nat) (hk : k ≤ 3) :
    slice (b0 :: b1 :: b2 :: b3 :: r) (if e then 5 + 4 else 5) ((if e then 5 + 4 else 5) + k) =
      some ((afterSite (b0 :: b1 :: b2 :: b3 :: r) e).take k) := by
  unfold slice afterSite
  rw [if_pos]
  · rw [Nat.add_sub_cancel_left]
  · cases e <;> simp <;> omega

theorem reach_steps {b : Bytes} (h : ¬ (b.length = 0 ∨ b.length < 4 + 5 + 3)) {v : BitVec 32}
    (h4 : (slice b 0 4).bind u32 = some v) {d : Bytes} {e : Bool} (he : isEndbrInsn v = e)
    (h1 : slice b (if e then 5 + 4 else 5) ((if e then 5 + 4 else 5) + 2) = some (d.take 2))
    (h2 : slice b (if e then 5 + 4 else 5) ((if e then 5 + 4 else 5) + 3) = some (d.take 3)) :
    isTailcallReachable b = some ((d.take 2 == [0x31, 0xc0]) || (d.take 3 == [0x48, 0x31, 0xc0])) := by
  unfold isTailcallReachable
  rw [if_neg h, h4]
  dsimp only
  rw [he, h1, h2]
  dsimp only [Option.map_some]
  cases (List.take 2 d == [0x31, 0xc0]) <;> simp

theorem reach_eval (b0 b1 b2 b3 : UInt8) (r : Bytes) (h : 8 ≤ r.length) :
    isTailcallReachable (b0 :: b1 :: b2 :: b3 :: r) =
      some (((afterSite (b0 :: b1 :: b2 :: b3 :: r) (isEndbrInsn (leU32 b0 b1 b2 b3))).take 2 == [0x31, 0xc0]) ||
        ((afterSite (b0 :: b1 :: b2 :: b3 :: r) (isEndbrInsn (leU32 b0 b1 b2 b3))).take 3 == [0x48, 0x31, 0xc0])) := by
  have hlen : ¬ ((b0 :: b1 :: b2 :: b3 :: r).length = 0 ∨ (b0 :: b1 :: b2 :: b3 :: r).length < 4 + 5 + 3) := by
    simp only [List.length_cons]; omega
  exact reach_steps hlen (first_word b0 b1 b2 b3 r) rfl (slice_site b0 b1 b2 b3 r h _ 2 (by omega))
    (slice_site b0 b1 b2 b3 r h _ 3 (by omega))

/-- C41. The detector never reads outside the code it is given. -/
theorem detector_total (b : Bytes) : ∃ r, isTailcallReachable b = some r := by
  by_cases h : b.length < 12
  · exact ⟨false, by unfold isTailcallReachable; rw [if_pos (.inr h)]⟩
  · rcases b with _ | ⟨b0, _ | ⟨b1, _ | ⟨b2, _ | ⟨b3, r⟩⟩⟩⟩ <;> simp at h
    exact ⟨_, reach_eval _ _ _ _ _ (by omega)⟩

/-- C41. Code of at least twelve bytes is taken for tail-call reachable exactly when it initialises the tail-call counter
after ENDBR, if there is one, and the patch site. -/
theorem detector_exact (b : Bytes) (h : 12 ≤ b.length) : isTailcallReachable b = some true ↔ InitsCounter b := by
  obtain ⟨b0, b1, b2, b3, r, rfl⟩ : ∃ b0 b1 b2 b3 r, b = b0 :: b1 :: b2 :: b3 :: r := by
    rcases b with _ | ⟨b0, _ | ⟨b1, _ | ⟨b2, _ | ⟨b3, r⟩⟩⟩⟩ <;> simp at h
    exact ⟨_, _, _, _, _, rfl⟩
  rw [reach_eval _ _ _ _ _ (by simp at h; omega)]
  have hE := isEndbr_iff b0 b1 b2 b3 r
  generalize isEndbrInsn (leU32 b0 b1 b2 b3) = e at hE
  generalize hb : b0 :: b1 :: b2 :: b3 :: r = b at *
  have hel : ∀ e ∈ endbrs, e.length = 4 := by simp [endbrs]
  simp only [Option.some.injEq, Bool.or_eq_true, beq_iff_eq]
  constructor
  · intro hx
    have hx' : ∃ x ∈ counterInit, x <+: afterSite b e := by
      rcases hx with hx | hx
      · exact ⟨_, by simp [counterInit], hx ▸ List.take_prefix 2 _⟩
      · exact ⟨_, by simp [counterInit], hx ▸ List.take_prefix 3 _⟩
    obtain ⟨x, hxm, rest, hr⟩ := hx'
    cases e with
    | true =>
      obtain ⟨e, he, re, hre⟩ := hE.1 rfl
      have h4 := hel e he
      refine ⟨e, re.take 5, x, rest, ?_, .inl he, ?_, hxm⟩
      · have : afterSite b true = re.drop 5 := by
          unfold afterSite; rw [← hre]; simp [List.drop_append, h4]
        rw [List.append_assoc, hr, this, List.append_assoc, List.take_append_drop, hre]
      · have : b.length = 4 + re.length := by rw [← hre]; simp [h4]
        rw [List.length_take]; omega
    | false =>
      refine ⟨[], b.take 5, x, rest, ?_, .inr ⟨rfl, ?_⟩, ?_, hxm⟩
      · rw [List.append_assoc, hr]; simp [afterSite]
      · intro hs; simp at hE; exact hE hs
      · rw [List.length_take]; omega
  · rintro ⟨e', p, x, r', hbe, hor, hp, hx⟩
    have hd : afterSite b e = x ++ r' := by
      rcases hor with he | ⟨rfl, hn⟩
      · have : e = true := hE.2 ⟨e', he, p ++ x ++ r', by rw [hbe]; simp⟩
        subst this
        have h4 := hel e' he
        unfold afterSite
        rw [hbe, show e' ++ p ++ x ++ r' = (e' ++ p) ++ (x ++ r') by simp]
        rw [if_pos rfl, List.drop_append_of_le_length (by simp [h4, hp])]
        rw [List.drop_eq_nil_of_le (by simp [h4, hp])]; simp
      · have : e = false := by
          cases e with
          | false => rfl
          | true => exact absurd (hE.1 rfl) hn
        subst this
        unfold afterSite
        rw [hbe]
        simp [List.drop_append, hp]
    rw [hd]
    simp only [counterInit, List.mem_cons, List.not_mem_nil, or_false] at hx
    rcases hx with rfl | rfl
    · left; rfl
    · right; rfl

/-- C41. On the prologue the kernel emits, patched by a trampoline or not, the answer is right. -/
theorem detector_jit (endbr new reach : Bool) (patch rest : Bytes) (hp : patch.length = 5)
    (hf : ∃ t, patch = 0x0f :: t ∨ patch = 0xe8 :: t ∨ patch = 0xe9 :: t) :
    12 ≤ (jitPrologue endbr patch new reach ++ rest).length →
    isTailcallReachable (jitPrologue endbr patch new reach ++ rest) = some reach := by
  intro hl
  obtain ⟨p0, p1, p2, p3, p4, rfl⟩ : ∃ p0 p1 p2 p3 p4, patch = [p0, p1, p2, p3, p4] := by
    rcases patch with _ | ⟨p0, _ | ⟨p1, _ | ⟨p2, _ | ⟨p3, _ | ⟨p4, _ | ⟨p5, r⟩⟩⟩⟩⟩⟩ <;> simp at hp
    exact ⟨_, _, _, _, _, rfl⟩
  have hn : isEndbrInsn (leU32 p0 p1 p2 p3) = false := by
    rw [Bool.eq_false_iff, Ne, isEndbr_iff p0 p1 p2 p3 []]
    rintro ⟨e, he, t, ht⟩
    obtain ⟨t', hf⟩ := hf
    simp only [List.cons.injEq] at hf
    simp only [endbrs, List.mem_cons, List.not_mem_nil, or_false] at he
    rcases he with rfl | rfl | rfl <;> simp at ht <;> rcases hf with ⟨rfl, _⟩ | ⟨rfl, _⟩ | ⟨rfl, _⟩ <;> simp at ht
  have hy : isEndbrInsn (leU32 0xf3 0x0f 0x1e 0xfa) = true := by decide
  cases endbr <;> cases new <;> cases reach <;>
    simp only [jitPrologue, Bool.false_eq_true, if_false, if_true, List.nil_append, List.cons_append] at hl ⊢ <;>
    rw [reach_eval _ _ _ _ _ (by simp at hl ⊢; try omega)] <;> simp only [hn, hy] <;> simp [afterSite]

/-- C41. On kernels with the tail-call problem, a function that is not the entry function of its program is skipped exactly
when the entry function initialises the tail-call counter; all other functions are traced. The code of a program is at
least twelve bytes long. -/
theorem skip_exact (i : Info) (idx : Nat) (jited : Bytes) (h : 12 ≤ jited.length) :
    (decision i idx (some jited) = .skip ↔ idx ≠ 0 ∧ i.support = true ∧ i.fixed = false ∧ InitsCounter jited) ∧
    (decision i idx (some jited) = .trace ↔ ¬ (idx ≠ 0 ∧ i.support = true ∧ i.fixed = false ∧ InitsCounter jited)) := by
  rw [← detector_exact jited h]
  obtain ⟨r, hr⟩ := detector_total jited
  unfold decision haveIssue
  by_cases hc : idx ≠ 0 ∧ (i.support && !i.fixed) = true
  · rw [if_pos hc]
    simp only [Bool.and_eq_true, Bool.not_eq_true'] at hc
    cases r <;> simp [hr, hc]
  · rw [if_neg hc]
    simp only [Bool.and_eq_true, Bool.not_eq_true'] at hc
    constructor
    · constructor
      · intro h; cases h
      · intro h; exact absurd ⟨h.1, h.2.1, h.2.2.1⟩ hc
    · constructor
      · intro _ h; exact hc ⟨h.1, h.2.1, h.2.2.1⟩
      · intro _; rfl

/-- C41. The entry function of a program is always traced, even when the code cannot be read. -/
theorem entry_traced (i : Info) (jited : Option Bytes) : decision i 0 jited = .trace := by
  simp [decision]

/-! ### Detecting the problem -/

theorem scan_exact {disasm : Bytes → BitVec 64 → Option Bytes} {b : Bytes} {pc : BitVec 64} {l : List Bytes}
    (hs : Stream disasm b pc l) : ∀ n, b.length ≤ n → ∃ f, scan disasm n b pc = some f ∧ (f = true ↔ PushesCounter l) := by
  have nilCase : ¬ PushesCounter [] := by
    rintro ⟨pre, post, h, _⟩
    cases pre <;> simp at h
  induction hs with
  | nil =>
    intro n _
    refine ⟨false, ?_, by simpa using nilCase⟩
    cases n <;> simp [scan]
  | @stop b pc hd hl =>
    intro n hn
    refine ⟨false, ?_, by simpa using nilCase⟩
    cases n with
    | zero => simp [scan]
    | succ n =>
      cases b with
      | nil => simp [scan]
      | cons x t => simp only [scan, hd]; rw [if_pos hl]
  | @cons b pc i l hb hd hi _ ih =>
    intro n hn
    obtain ⟨x, t, rfl⟩ := List.exists_cons_of_ne_nil hb
    cases n with
    | zero => simp at hn
    | succ n =>
      simp only [scan, hd]
      by_cases h1 : i = [0x50]
      · rw [if_pos h1]
        exact ⟨true, rfl, by simp only [true_iff]; exact ⟨[], l, by simp [h1], by simp⟩⟩
      · rw [if_neg h1]
        by_cases h2 : i = [0xc3]
        · rw [if_pos h2]
          refine ⟨false, rfl, ?_⟩
          simp only [Bool.false_eq_true, false_iff]
          rintro ⟨pre, post, h, hn⟩
          cases pre with
          | nil => simp at h; exact h1 h.1
          | cons y pre => simp only [List.cons_append, List.cons.injEq] at h; exact hn (by rw [← h.1, h2]; simp)
        · rw [if_neg h2]
          have hil : 1 ≤ i.length := by
            cases i with
            | nil => exact absurd rfl hi
            | cons _ _ => simp
          obtain ⟨f, hf, hiff⟩ := ih n (by rw [List.length_drop]; simp at hn ⊢; omega)
          refine ⟨f, hf, hiff.trans ?_⟩
          constructor
          · rintro ⟨pre, post, h, hn⟩
            exact ⟨i :: pre, post, by simp [h], by
              simp only [List.mem_cons, not_or]; exact ⟨fun h => h2 h.symm, hn⟩⟩
          · rintro ⟨pre, post, h, hn⟩
            cases pre with
            | nil => simp at h; exact absurd h.1 h1
            | cons y pre =>
              simp only [List.cons_append, List.cons.injEq] at h
              exact ⟨pre, post, h.2, fun hm => hn (by simp [hm])⟩

/-- The target of a call with displacement `rel` at the five-byte site of a function at `kaddr`. -/
def callTarget (kaddr : BitVec 64) (endbr : Bool) (rel : BitVec 32) : BitVec 64 :=
  kaddr + (if endbr then 4#64 else 0#64) + 5#64 + rel.signExtend 64

theorem zeroExtend_eq_signExtend {rel : BitVec 32} (h : rel.msb = false) : rel.zeroExtend 64 = rel.signExtend 64 := by
  rw [BitVec.signExtend_eq_setWidth_of_msb_false h]

/-- The code of the probe program, with a call of a trampoline at its site: opcode, displacement. -/
def patched (op : UInt8) (rel : BitVec 32) : Bytes :=
  [op, UInt8.ofBitVec (rel.extractLsb' 0 8), UInt8.ofBitVec (rel.extractLsb' 8 8),
    UInt8.ofBitVec (rel.extractLsb' 16 8), UInt8.ofBitVec (rel.extractLsb' 24 8)]

theorem leU32_patched (rel : BitVec 32) :
    leU32 (UInt8.ofBitVec (rel.extractLsb' 0 8)) (UInt8.ofBitVec (rel.extractLsb' 8 8))
      (UInt8.ofBitVec (rel.extractLsb' 16 8)) (UInt8.ofBitVec (rel.extractLsb' 24 8)) = rel := by
  apply BitVec.eq_of_toNat_eq
  have := rel.isLt
  simp only [leU32, BitVec.toNat_ofNat, UInt8.toNat_ofBitVec, BitVec.extractLsb'_toNat, Nat.shiftRight_eq_div_pow]
  omega

theorem probe_steps {readKernel : BitVec 64 → Option Bytes} {disasm : Bytes → BitVec 64 → Option Bytes}
    {kaddr ka : BitVec 64} {jited j : Bytes} {v off : BitVec 32} {data : Bytes} {f : Bool} (h0 : jited.length ≠ 0)
    (h1 : u32 jited = some v)
    (h2 : (if isEndbrInsn v then (kaddr + 4#64, jited.drop 4) else (kaddr, jited)) = (ka, j))
    (h3 : isTailcallReachable j = some true) (h4 : u32 (j.drop 1) = some off)
    (h5 : readKernel (ka + 5#64 + off.zeroExtend 64) = some data) (h6 : data ≠ [])
    (h7 : scan disasm data.length data (ka + 5#64 + off.zeroExtend 64) = some f) :
    probe readKernel disasm kaddr jited = .ok ⟨false, f⟩ := by
  unfold probe
  rw [if_neg h0, h1]
  dsimp only
  rw [h2]
  dsimp only
  rw [h3]
  dsimp only
  rw [h4]
  dsimp only
  rw [h5]
  cases data with
  | nil => exact absurd rfl h6
  | cons x t => dsimp only; rw [h7]

/-- C41, the part that holds. When the trampoline is above the probe program, the problem is reported exactly when the
trampoline does not save the tail-call counter before it returns. -/
theorem issue_exact_partial (kaddr : BitVec 64) (endbr new : Bool) (op : UInt8) (hop : op = 0xe8 ∨ op = 0xe9)
    (rel : BitVec 32) (hrel : rel.msb = false) (rest : Bytes) (hrest : 1 ≤ rest.length)
    (readKernel : BitVec 64 → Option Bytes) (disasm : Bytes → BitVec 64 → Option Bytes) (data : Bytes) (hd : data ≠ [])
    (hr : readKernel (callTarget kaddr endbr rel) = some data) (l : List Bytes)
    (hs : Stream disasm data (callTarget kaddr endbr rel) l) :
    ∃ i, probeIssue false false (probe readKernel disasm kaddr (jitPrologue endbr (patched op rel) new true ++ rest)) =
      .ok i ∧ (haveIssue i = true ↔ ¬ PushesCounter l) := by
  obtain ⟨f, hf, hiff⟩ := scan_exact hs data.length (Nat.le_refl _)
  have hreach : isTailcallReachable (jitPrologue false (patched op rel) new true ++ rest) = some true := by
    refine detector_jit false new true (patched op rel) rest rfl ⟨(patched op rel).tail, ?_⟩ ?_
    · rcases hop with rfl | rfl
      · right; left; rfl
      · right; right; rfl
    · cases new <;> simp [jitPrologue, patched] <;> omega
  have hz := zeroExtend_eq_signExtend hrel
  have hne : isEndbrInsn (leU32 op (UInt8.ofBitVec (rel.extractLsb' 0 8)) (UInt8.ofBitVec (rel.extractLsb' 8 8))
      (UInt8.ofBitVec (rel.extractLsb' 16 8))) = false := by
    rw [Bool.eq_false_iff, Ne, isEndbr_iff _ _ _ _ []]
    rintro ⟨e, he, t, ht⟩
    simp only [endbrs, List.mem_cons, List.not_mem_nil, or_false] at he
    rcases he with rfl | rfl | rfl <;> simp at ht <;> rcases hop with rfl | rfl <;> simp at ht
  have hk : probe readKernel disasm kaddr (jitPrologue endbr (patched op rel) new true ++ rest) = .ok ⟨false, f⟩ := by
    obtain ⟨tl, htl⟩ : ∃ tl, jitPrologue false (patched op rel) new true ++ rest =
        op :: UInt8.ofBitVec (rel.extractLsb' 0 8) :: UInt8.ofBitVec (rel.extractLsb' 8 8) ::
          UInt8.ofBitVec (rel.extractLsb' 16 8) :: UInt8.ofBitVec (rel.extractLsb' 24 8) :: tl := ⟨_, rfl⟩
    have hoff := leU32_patched rel
    have hoff' : u32 ((jitPrologue false (patched op rel) new true ++ rest).drop 1) = some rel := by
      rw [htl]; exact congrArg some hoff
    cases endbr with
    | false =>
      simp only [callTarget, Bool.false_eq_true, if_false, BitVec.add_zero] at hr hf
      refine probe_steps (by rw [htl]; simp) (by rw [htl]; rfl) (by rw [hne]; rfl) hreach hoff' (by rw [hz]; exact hr) hd
        (by rw [hz]; exact hf)
    | true =>
      have he : jitPrologue true (patched op rel) new true ++ rest =
          0xf3 :: 0x0f :: 0x1e :: 0xfa :: (jitPrologue false (patched op rel) new true ++ rest) := by
        simp [jitPrologue]
      have hy : isEndbrInsn (leU32 0xf3 0x0f 0x1e 0xfa) = true := by decide
      rw [he]
      simp only [callTarget, if_true] at hr hf
      refine probe_steps (by simp) rfl (by rw [hy]; rfl) hreach hoff' (by rw [hz]; exact hr) hd (by rw [hz]; exact hf)
  rw [hk]
  refine ⟨⟨true, f⟩, rfl, ?_⟩
  rw [← hiff]
  cases f <;> simp [haveIssue]


/-- A disassembler that knows the one-byte instructions `push rax` and `ret` and five-byte calls. -/
def exDisasm (b : Bytes) (_ : BitVec 64) : Option Bytes :=
  match b with
  | 0x50 :: _ => some [0x50]
  | 0xc3 :: _ => some [0xc3]
  | 0xe8 :: a :: b :: c :: d :: _ => some [0xe8, a, b, c, d]
  | _ => none

/-- C41. Where tail calls in programs with subprograms are refused by the kernel, and on arm64, no function is left out. -/
theorem no_issue_elsewhere (refused arm64 : Bool) (h : refused = true ∨ arm64 = true) (p : Res) :
    ∃ i, probeIssue refused arm64 p = .ok i ∧ ∀ idx jited, decision i idx jited = .trace := by
  cases refused with
  | true => exact ⟨_, rfl, fun idx jited => by simp [decision, haveIssue]⟩
  | false =>
    obtain rfl : arm64 = true := by simpa using h
    exact ⟨_, rfl, fun idx jited => by simp [decision, haveIssue]⟩

/-- C41, violated: the displacement of the call is taken as an unsigned number, so a trampoline below the probe program is
looked for at another address, where nothing can be read, and bpfsnoop ends with an error. -/
theorem issue_violated : ∃ (kaddr : BitVec 64) (rel : BitVec 32) (readKernel : BitVec 64 → Option Bytes) (data : Bytes)
    (l : List Bytes), readKernel (callTarget kaddr false rel) = some data ∧
      Stream exDisasm data (callTarget kaddr false rel) l ∧ PushesCounter l ∧
      probe readKernel exDisasm kaddr (jitPrologue false (patched 0xe8 rel) false true ++ [0x90]) = .err := by
  refine ⟨0xffffffffc0002000#64, 0xfffff000#32, fun a => if a = 0xffffffffc0001005#64 then some [0x50, 0xc3] else none,
    [0x50, 0xc3], [[0x50], [0xc3]], by decide +kernel, ?_, ⟨[], [[0xc3]], rfl, by simp⟩, by decide +kernel⟩
  exact .cons (by simp) rfl (by simp) (.cons (by simp) rfl (by simp) .nil)

/-- The hypotheses of `issue_exact_partial` are met, with either answer. -/
theorem issue_witness : ∃ (readKernel : BitVec 64 → Option Bytes),
    (probeIssue false false (probe readKernel exDisasm 0xffffffffc0002000#64
        (jitPrologue true (patched 0xe8 0x1000#32) true true ++ [0x90])) = .ok ⟨true, true⟩) ∧
    (probeIssue false false (probe readKernel exDisasm 0xffffffffc0002000#64
        (jitPrologue true (patched 0xe8 0x2000#32) true true ++ [0x90])) = .ok ⟨true, false⟩) ∧
    decision ⟨true, false⟩ 1 (some (jitPrologue true (patched 0xe8 0x2000#32) true true)) = .skip ∧
    decision ⟨true, false⟩ 1 (some (jitPrologue true (patched 0xe8 0x2000#32) true false)) = .trace := by
  refine ⟨fun a => if a = 0xffffffffc0003009#64 then some [0xe8, 0, 0, 0, 0, 0x50, 0xc3]
    else if a = 0xffffffffc0004009#64 then some [0xe8, 0, 0, 0, 0, 0xc3, 0x50] else none, ?_⟩
  decide +kernel

end Bpfsnoop.Tc
