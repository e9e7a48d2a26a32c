import Verif.Model.Sid
import Verif.Props.KSess
import Verif.Props.KRead
import Verif.Props.ArgMach

/-
C86: calls open at the same time have different session ids.
-/
namespace Bpfsnoop.Sid
open KRead (Mem Byte)

/-- Specification: eight bytes of memory from `a` on hold the word `v`, lowest byte first. -/
def Holds (m : Mem) (a v : BitVec 64) : Prop := ∀ i, i < 8 → m (a + BitVec.ofNat 64 i) = some ((v >>> (8 * i)).setWidth 8)

/-- Specification of the frame of a trampoline of the kernel on x86 (the drawing in bpfsnoop_stack.h 10-25): above `ctx` are
the arguments of the traced function, one word for its return value if the trampoline calls it (`slot`), and the saved frame
pointer of its caller. -/
def Tramp (m : Mem) (ctx rbp : BitVec 64) (nregs : Nat) (slot : Bool) : Prop :=
  Holds m (ctx + BitVec.ofNat 64 (8 * nregs + if slot then 8 else 0)) rbp

theorem get_holds (m : Mem) : ∀ (n : Nat) (a v : BitVec 64),
    (∀ i, i < n → m (a + BitVec.ofNat 64 i) = some ((v >>> (8 * i)).setWidth 8)) → m.get a n = some (Arg.le n v)
  | 0, _, _, _ => rfl
  | n + 1, a, v, h => by
    have h0 := h 0 (by omega)
    simp only [BitVec.add_zero, Nat.mul_zero, BitVec.ushiftRight_zero] at h0
    have := get_holds m n (a + 1#64) (v >>> 8) (fun i hi => by
      have := h (i + 1) (by omega)
      rw [Arg.ofNat_succ_add] at this
      rw [show a + 1#64 = a + 1 from rfl, this, ← BitVec.shiftRight_add, show 8 * (i + 1) = 8 + 8 * i by omega])
    simp only [Mem.get, h0, this, Arg.le]

/-- Reading a word that is there gives the word. -/
theorem read64_holds {m : Mem} {a v : BitVec 64} (h : Holds m a v) : read64 m a = v := by
  unfold read64 KRead.probeRead
  rw [get_holds m 8 a v h]
  simp only [Option.getD_some, List.drop_nil, List.append_nil]
  exact Arg.leVal_le8 v

/-- A word of which a byte faults reads as zero. -/
theorem read64_fault {m : Mem} {a : BitVec 64} (h : m.get a 8 = none) : read64 m a = 0 := by
  unfold read64 KRead.probeRead
  rw [h]
  rfl

theorem getPtr_eq (ctx : BitVec 64) (n : Nat) (hn : n < 16) (slot : Bool) :
    getPtr ctx (BitVec.ofNat 32 n) slot = ctx + BitVec.ofNat 64 (8 * n + if slot then 8 else 0) := by
  unfold getPtr
  congr 1
  have : ∀ k : Fin 16, ∀ s : Bool, ((((BitVec.ofNat 32 k.1) &&& 0xF#32) * 8#32) + if s then 8#32 else 0#32).setWidth 64 =
      BitVec.ofNat 64 (8 * k.1 + if s then 8 else 0) := by decide +kernel
  exact this ⟨n, hn⟩ slot

/-- x86: the low half of the id of a call is that of the frame pointer of the caller, if the program knows how the trampoline
is laid out. -/
theorem sessionId_x86 {m : Mem} {ctx rbp : BitVec 64} {nregs : Nat} {slot both withRet : Bool} (h : Tramp m ctx rbp nregs slot)
    (hn : nregs < 16) (hs : (both || withRet) = slot) (ip : BitVec 64) (rnd : BitVec 32) :
    sessionId m false both withRet ip ctx (BitVec.ofNat 32 nregs) rnd = KSess.genSessionId rnd rbp := by
  unfold sessionId callerFp trampFpX86
  rw [hs, if_neg (by decide), getPtr_eq _ _ hn, read64_holds h]

/-- A call that is open: the frame pointer of its caller and its id. -/
structure Open where
  rbp : BitVec 64
  id : BitVec 64

/-- Specification: the calls of traced functions open in one task, the innermost first, in a kernel whose functions keep frame
pointers. The stack grows downwards, so that the caller of an inner call has a lower frame than that of an outer one; the stack
lies within 4 GiB from `base` on. The id is what the program computes in a trampoline frame with arbitrary memory around it. -/
inductive Hist (base : BitVec 64) : List Open → Prop
  | start : Hist base []
  | call (s : List Open) (m : Mem) (ctx rbp ip : BitVec 64) (rnd : BitVec 32) (nregs : Nat) (slot both withRet : Bool) :
      Hist base s → (∀ o, s.head? = some o → rbp.toNat < o.rbp.toNat) → base.toNat ≤ rbp.toNat → rbp.toNat < base.toNat + 2 ^ 32 →
      Tramp m ctx rbp nregs slot → nregs < 16 → (both || withRet) = slot →
      Hist base (⟨rbp, sessionId m false both withRet ip ctx (BitVec.ofNat 32 nregs) rnd⟩ :: s)
  | ret (o : Open) (s : List Open) : Hist base (o :: s) → Hist base s

theorem Hist.inv {base : BitVec 64} {s : List Open} (h : Hist base s) :
    s.Pairwise (fun a b => a.rbp.toNat < b.rbp.toNat) ∧
    (∀ o ∈ s, base.toNat ≤ o.rbp.toNat ∧ o.rbp.toNat < base.toNat + 2 ^ 32 ∧ ∃ rnd, o.id = KSess.genSessionId rnd o.rbp) := by
  induction h with
  | start => exact ⟨.nil, nofun⟩
  | call s m ctx rbp ip rnd nregs slot both withRet _ hlt h1 h2 ht hn hs ih =>
    refine ⟨List.pairwise_cons.2 ⟨?_, ih.1⟩, ?_⟩
    · intro b hb
      cases s with
      | nil => cases hb
      | cons o s =>
        have h0 := hlt o rfl
        rcases List.mem_cons.1 hb with rfl | hb
        · exact h0
        · have := (List.pairwise_cons.1 ih.1).1 b hb
          show rbp.toNat < b.rbp.toNat
          omega
    · intro o ho
      rcases List.mem_cons.1 ho with rfl | ho
      · exact ⟨h1, h2, rnd, sessionId_x86 ht hn hs ip rnd⟩
      · exact ih.2 o ho
  | ret o s _ ih =>
    exact ⟨(List.pairwise_cons.1 ih.1).2, fun x hx => ih.2 x (List.mem_cons_of_mem _ hx)⟩

/-- C86: the ids of the calls open at the same time in one task are all different, after any history of calls and returns and
whatever the random numbers. -/
theorem open_ids_distinct {base : BitVec 64} {s : List Open} (h : Hist base s) : (s.map (·.id)).Nodup := by
  obtain ⟨hp, hi⟩ := h.inv
  rw [List.Nodup, List.pairwise_map]
  refine hp.imp_of_mem ?_
  intro a b ha hb hlt he
  obtain ⟨a1, a2, ra, ea⟩ := hi a ha
  obtain ⟨b1, b2, rb, eb⟩ := hi b hb
  rw [ea, eb, KSess.genSessionId_inj] at he
  have := congrArg BitVec.toNat he.2
  simp only [BitVec.toNat_setWidth] at this
  omega

/-- C86: calls of different tasks have the same id exactly if the random numbers agree and the low halves of the frame pointers
of their callers. -/
theorem ids_eq_iff {m m' : Mem} {ctx ctx' rbp rbp' : BitVec 64} {n n' : Nat} {s b w s' b' w' : Bool} (h : Tramp m ctx rbp n s)
    (h' : Tramp m' ctx' rbp' n' s') (hn : n < 16) (hn' : n' < 16) (hs : (b || w) = s) (hs' : (b' || w') = s') (ip ip' : BitVec 64)
    (rnd rnd' : BitVec 32) :
    sessionId m false b w ip ctx (BitVec.ofNat 32 n) rnd = sessionId m' false b' w' ip' ctx' (BitVec.ofNat 32 n') rnd' ↔
      rnd = rnd' ∧ rbp.toNat % 2 ^ 32 = rbp'.toNat % 2 ^ 32 := by
  rw [sessionId_x86 h hn hs, sessionId_x86 h' hn' hs', KSess.genSessionId_inj]
  refine and_congr_right fun _ => ?_
  constructor
  · intro e
    have := congrArg BitVec.toNat e
    simpa using this
  · intro e
    apply BitVec.eq_of_toNat_eq
    simpa using e

/-- A call whose trampoline has a word for the return value that the program does not know of (the entry of the function is
traced, another tool has an fexit on it): the low half of the id is the word for the return value, the same for every such
call that finds the same word there. -/
theorem foreign_fexit_violated {m m' : Mem} {ctx ctx' w : BitVec 64} {n n' : Nat} (hn : n < 16) (hn' : n' < 16)
    (h : Holds m (ctx + BitVec.ofNat 64 (8 * n)) w) (h' : Holds m' (ctx' + BitVec.ofNat 64 (8 * n')) w) (ip ip' : BitVec 64) (rnd : BitVec 32) :
    sessionId m false false false ip ctx (BitVec.ofNat 32 n) rnd = sessionId m' false false false ip' ctx' (BitVec.ofNat 32 n') rnd ∧
    sessionId m false false false ip ctx (BitVec.ofNat 32 n) rnd = KSess.genSessionId rnd w := by
  have t : Tramp m ctx w n false := by simpa [Tramp] using h
  have t' : Tramp m' ctx' w n' false := by simpa [Tramp] using h'
  rw [sessionId_x86 t hn rfl, sessionId_x86 t' hn' rfl]
  exact ⟨rfl, rfl⟩

/-- Without frame pointers (the unwinder of most kernels is ORC) `rbp` is a register like the others: two calls open at the same
time, one inside the other, may have the same value in it, and then have the same id exactly if the random numbers agree. -/
theorem orc_violated {m m' : Mem} {ctx ctx' rbp : BitVec 64} {n n' : Nat} {s b w s' b' w' : Bool} (h : Tramp m ctx rbp n s)
    (h' : Tramp m' ctx' rbp n' s') (hn : n < 16) (hn' : n' < 16) (hs : (b || w) = s) (hs' : (b' || w') = s') (ip ip' : BitVec 64)
    (rnd rnd' : BitVec 32) :
    sessionId m false b w ip ctx (BitVec.ofNat 32 n) rnd = sessionId m' false b' w' ip' ctx' (BitVec.ofNat 32 n') rnd' ↔ rnd = rnd' := by
  rw [ids_eq_iff h h' hn hn' hs hs']
  simp

/-- kprobe.multi: calls of one function have the same id exactly if the random numbers agree, also a call inside another. -/
theorem kmulti_violated (ip : BitVec 64) (rnd rnd' : BitVec 32) : kmultiId ip rnd = kmultiId ip rnd' ↔ rnd = rnd' := by
  unfold kmultiId
  rw [KSess.genSessionId_inj]
  simp

/-- kprobe.multi: calls of functions whose addresses differ in the low half have different ids, whatever the random numbers. -/
theorem kmulti_distinct (ip ip' : BitVec 64) (rnd rnd' : BitVec 32) (h : ip.toNat % 2 ^ 32 ≠ ip'.toNat % 2 ^ 32) :
    kmultiId ip rnd ≠ kmultiId ip' rnd' := by
  unfold kmultiId
  rw [Ne, KSess.genSessionId_inj]
  rintro ⟨_, e⟩
  have := congrArg BitVec.toNat e
  exact h (by simpa using this)

/-- Tracepoints: the hits of one tracepoint have the same id exactly if the random numbers agree. -/
theorem tp_violated (m m' : Mem) (b w b' w' : Bool) (ip ctx ctx' : BitVec 64) (n n' rnd rnd' : BitVec 32) :
    sessionId m true b w ip ctx n rnd = sessionId m' true b' w' ip ctx' n' rnd' ↔ rnd = rnd' := by
  unfold sessionId callerFp
  rw [if_pos rfl, if_pos rfl, KSess.genSessionId_inj]
  simp

/-- A call can have the id 0, which the program and the tool take for no id: exactly if the random number is 0 and the low half
of the frame pointer of the caller. -/
theorem zero_iff {m : Mem} {ctx rbp : BitVec 64} {n : Nat} {s b w : Bool} (h : Tramp m ctx rbp n s) (hn : n < 16) (hs : (b || w) = s)
    (ip : BitVec 64) (rnd : BitVec 32) :
    sessionId m false b w ip ctx (BitVec.ofNat 32 n) rnd = 0 ↔ rnd = 0 ∧ rbp.toNat % 2 ^ 32 = 0 := by
  rw [sessionId_x86 h hn hs, KSess.genSessionId_zero]
  refine and_congr_right fun _ => ?_
  constructor
  · intro e
    have := congrArg BitVec.toNat e
    simpa using this
  · intro e
    apply BitVec.eq_of_toNat_eq
    simpa using e

/-! ### arm64 -/

theorem detectLoop_none (m : Mem) (ptr ip : BitVec 64) (h0 : ip ≠ 0) (h1 : ip ≠ -14#64) (n : Nat) :
    ∀ i, detectLoop m ptr ip i n = none := by
  induction n with
  | zero => intro i; rfl
  | succ n ih =>
    intro i
    have : readRet m (ptr + BitVec.ofNat 64 (i * 8)) ≠ ip := by
      unfold readRet
      split
      · exact fun e => h0 e.symm
      · exact fun e => h1 e.symm
    simp only [detectLoop, if_neg this, ih]

/-- arm64: the search for the frame pointer of the trampoline never finds it, whatever is on the stack (what it compares is the
result of the read, not the word read): in every run of the program the offset stays unknown, and what goes into the id is the
word two words above the arguments and the return value, be it padding or the frame. -/
theorem arm_never_detected_violated (retval : Bool) : ∀ (rs : List (Mem × BitVec 64 × BitVec 32 × BitVec 64)),
    (∀ r ∈ rs, r.2.2.2 + 8#64 ≠ 0 ∧ r.2.2.2 + 8#64 ≠ -14#64) →
    armRuns retval rs 0 = (0, rs.map fun r => read64 r.1 (getPtr r.2.1 r.2.2.1 retval + 16#64))
  | [], _ => rfl
  | (m, ctx, nregs, ip) :: rs, h => by
    have h0 := h _ (List.mem_cons_self ..)
    have ih := arm_never_detected_violated retval rs (fun r hr => h r (List.mem_cons_of_mem _ hr))
    have hd : detectOffset m ctx nregs ip retval 0 = (0, getPtr ctx nregs retval + 16#64) := by
      unfold detectOffset
      simp only [detectLoop_none m _ _ h0.1 h0.2]
    have hc : callerFpArm m false 0 ctx nregs ip retval 0 = (0, read64 m (getPtr ctx nregs retval + 16#64)) := by
      unfold callerFpArm trampFpArm
      rw [if_neg (by decide), if_neg (by decide), hd]
    simp only [armRuns, hc, ih, List.map_cons]

/-! ### Examples -/

/-- Memory with the word `v` at `a` and zeros elsewhere. -/
def memWord (a v : BitVec 64) : Mem := fun x => if (x - a).toNat < 8 then some ((v >>> (8 * (x - a).toNat)).setWidth 8) else some 0

theorem memWord_holds (a v : BitVec 64) : Holds (memWord a v) a v := by
  intro i hi
  have : (a + BitVec.ofNat 64 i - a).toNat = i := by
    rw [BitVec.add_comm, BitVec.add_sub_cancel]
    simp; omega
  unfold memWord
  rw [this, if_pos hi]

/-- Two calls open, the inner one with the same random number as the outer one: the ids differ. -/
example : ∃ s, Hist 0xffffc90000000000#64 s ∧ s.map (·.id) = [0x5_00003e00#64, 0x5_00003f00#64] := by
  refine ⟨_, Hist.call _ (memWord (0xffffc90000003d80#64 + 24#64) 0xffffc90000003e00#64) 0xffffc90000003d80#64 0xffffc90000003e00#64 0x10#64 5#32 2 true true false
    (Hist.call _ (memWord (0xffffc90000003e80#64 + 8#64) 0xffffc90000003f00#64) 0xffffc90000003e80#64 0xffffc90000003f00#64 0x20#64 5#32 1 false false false
      .start nofun (by decide) (by decide) ?_ (by decide) rfl) ?_ (by decide) (by decide) ?_ (by decide) rfl, ?_⟩
  · exact memWord_holds _ _
  · intro o ho
    cases ho
    decide
  · exact memWord_holds _ _
  · show [_, _] = _
    decide +kernel

/-- Two calls of different tasks with the same random number and stacks 4 GiB apart: the same id. -/
example : sessionId (memWord 0xffffc90000003e88#64 0xffffc90000003f00#64) false false false 0 0xffffc90000003e80#64 1#32 5#32 =
    sessionId (memWord 0xffffc90100003e88#64 0xffffc90100003f00#64) false false false 0 0xffffc90100003e80#64 1#32 5#32 := by
  decide +kernel

/-- Another tool's fexit on the function: the words for the return values of two nested calls are both 0, and so the calls have
the same id although the frames of the callers differ. -/
example : Tramp (memWord 0xffffc90000003e90#64 0xffffc90000003f00#64) 0xffffc90000003e80#64 0xffffc90000003f00#64 1 true ∧
    Tramp (memWord 0xffffc90000003d90#64 0xffffc90000003e00#64) 0xffffc90000003d80#64 0xffffc90000003e00#64 1 true ∧
    sessionId (memWord 0xffffc90000003e90#64 0xffffc90000003f00#64) false false false 0 0xffffc90000003e80#64 1#32 5#32 =
      sessionId (memWord 0xffffc90000003d90#64 0xffffc90000003e00#64) false false false 0 0xffffc90000003d80#64 1#32 5#32 :=
  ⟨memWord_holds _ _, memWord_holds _ _, by decide +kernel⟩

/-- arm64 with the frame where the search looks for it: not found. -/
example : armRuns false [(memWord 0x1020#64 0xffff800080000008#64, 0x1000#64, 1#32, 0xffff800080000000#64)] 0 = (0, [0]) := by
  rw [arm_never_detected_violated _ _ (by decide)]
  decide +kernel

/-- arm64, nothing between the saved registers and the frame: the frame of the traced function is read after all. -/
example : armRuns true [(memWord 0x1020#64 0xffff800080000f00#64, 0x1000#64, 1#32, 0xffff800080000000#64)] 0 = (0, [0xffff800080000f00#64]) := by
  rw [arm_never_detected_violated _ _ (by decide)]
  decide +kernel

end Bpfsnoop.Sid
