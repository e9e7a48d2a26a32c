import Verif.Props.InsnRun
import Verif.Props.Flame
import Verif.Props.Util
/-
C27, C32, C84: facts that fix constants which other theorems leave open.
-/
namespace Bpfsnoop.Flame

theorem root_total : ∀ (ss : List (List String × Int)) (g : Graph), g.root.value = g.total → (addAll g ss).root.value = (addAll g ss).total
  | [], _, h => h
  | s :: ss, g, h => by
    refine root_total ss (g.addStack s.1 s.2) ?_
    unfold Graph.addStack
    split
    · exact h
    · show g.root.value + s.2 = g.total + s.2
      rw [h]

/-- The count of the root is that of all samples. -/
theorem root_counts_all (ss : List (List String × Int)) : (addAll newGraph ss).root.value = (addAll newGraph ss).total :=
  root_total ss newGraph rfl

end Bpfsnoop.Flame

namespace Bpfsnoop.Util

/-- The mask of the largest number is itself, and the loop is not entered. -/
theorem mask_largest (fuel : Nat) : mask fuel (2 ^ 63 - 1) = some (2 ^ 63 - 1) := by
  simp [mask, maxInt]

end Bpfsnoop.Util

namespace Bpfsnoop.Ir

/-- **The length a record of an instruction tells is its length**: what the program puts into the ring buffer with its four bytes of padding. -/
theorem insn_length {ip fip : Cg.Addr} {ready : Bool} {m : KSess.Map} {p : BitVec 64} {i : Insn} {pad b : List Cg.Byte} (hp : pad.length = 4)
    (h : insnProg ip fip ready m p i pad = some b) : (readIEvt b).length.toNat = b.length := by
  unfold insnProg at h
  split at h
  · simp at h
  · simp only at h
    split at h
    · simp at h
    · simp only [Option.some.injEq] at h
      subst h
      rw [ievt_read_back]
      simp [IEvt.bytes, Arg.le, Att.le32, hp, sizeOfInsnEvent]

end Bpfsnoop.Ir
