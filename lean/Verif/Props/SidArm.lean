import Verif.Props.Sid

/-!
C86, continued: tracepoints on arm64.
-/
namespace Bpfsnoop.Sid
open KRead (Mem Byte)

/-- **Violated**: on arm64 too the hits of one tracepoint have the same id exactly if the random numbers agree, whatever the memory
and the context; the offset of the frame pointer is not touched. -/
theorem arm_tp_violated (m m' : Mem) (ip ctx ctx' bip bip' : BitVec 64) (n n' rnd rnd' off off' : BitVec 32) (rv rv' : Bool) :
    (callerFpArm m true ip ctx n bip rv off).1 = off ∧
    (KSess.genSessionId rnd (callerFpArm m true ip ctx n bip rv off).2 =
      KSess.genSessionId rnd' (callerFpArm m' true ip ctx' n' bip' rv' off').2 ↔ rnd = rnd') := by
  unfold callerFpArm
  rw [if_pos rfl, if_pos rfl]
  refine ⟨rfl, ?_⟩
  rw [KSess.genSessionId_inj]
  simp

/-- Two tracepoints whose numbers differ in the low half have different ids, whatever the random numbers. -/
theorem arm_tp_apart (m m' : Mem) (ip ip' ctx ctx' bip bip' : BitVec 64) (n n' rnd rnd' off off' : BitVec 32) (rv rv' : Bool)
    (h : ip.setWidth 32 ≠ ip'.setWidth 32) :
    KSess.genSessionId rnd (callerFpArm m true ip ctx n bip rv off).2 ≠
      KSess.genSessionId rnd' (callerFpArm m' true ip' ctx' n' bip' rv' off').2 := by
  unfold callerFpArm
  rw [if_pos rfl, if_pos rfl, Ne, KSess.genSessionId_inj]
  rintro ⟨_, e⟩
  exact h e

end Bpfsnoop.Sid
