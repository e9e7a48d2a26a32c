import Verif.Model.Maps
import Verif.Props.Util

/-
C91: the maps the programs share are as large as the programs use them: each CPU has its own branch buffer in `.data.lbrs`, the stacks have room for
as many addresses as the kernel takes, the buffer of the functions of a graph is not read behind what the kernel wrote.
-/
namespace Bpfsnoop.Mp

/-- The sysctl has one value all the time. -/
def Sys.steady (s : Sys) (m : Nat) : Prop := ∀ k, s.maxStack k = some (m : Int)

theorem stackBytes_nat {m : Nat} (h : m ≤ 655360) : stackBytes m = m * 8 := by
  unfold stackBytes
  have h8 : (8 : BitVec 32).toNat = 8 := rfl
  rw [BitVec.toNat_mul, BitVec.toNat_ofInt, h8]
  omega

theorem lbr_bytes {n : Nat} (h : n ≤ 2 ^ 22) : (BitVec.ofNat 32 lbrSize * BitVec.ofNat 32 n).toNat = n * lbrSize := by
  rw [BitVec.toNat_mul, BitVec.toNat_ofNat, BitVec.toNat_ofNat]
  simp only [lbrSize]
  omega

theorem lbr_nonzero {n : Nat} (h0 : 0 < n) (h : n ≤ 2 ^ 22) : BitVec.ofNat 32 lbrSize * BitVec.ofNat 32 n ≠ 0 := by
  intro hh
  have := lbr_bytes h
  rw [hh] at this
  simp [lbrSize] at this
  omega

theorem update_sizes {s : Sys} {n m k : Nat} (hn : s.cpus = some n) (h0 : 0 < n) (hle : n ≤ 2 ^ 22) (hs : s.maxStack k = some (m : Int)) (hm : m ≤ 655360) :
    ∃ u, update s k object = some u ∧ u ".data.lbrs" = some ⟨true, n * lbrSize, [n * lbrSize]⟩ ∧
      u "bpfsnoop_stacks" = some ⟨false, m * 8, []⟩ ∧ u ".data.ready" = some ⟨true, 4, [4]⟩ := by
  have h1 := lbr_nonzero h0 hle
  have h2 := lbr_bytes hle
  have e1 : lbrsData s object = some (object.put ".data.lbrs" ⟨true, n * lbrSize, [n * lbrSize]⟩) := by
    unfold lbrsData
    simp only [hn]
    unfold mmapable
    rw [show object ".data.lbrs" = some ⟨false, lbrSize, [lbrSize]⟩ from rfl]
    simp only [if_neg h1, h2]
  have e2 : stacks s k (object.put ".data.lbrs" ⟨true, n * lbrSize, [n * lbrSize]⟩) =
      some ((object.put ".data.lbrs" ⟨true, n * lbrSize, [n * lbrSize]⟩).put "bpfsnoop_stacks" ⟨false, m * 8, []⟩) := by
    unfold stacks
    simp only [hs]
    rw [show (object.put ".data.lbrs" ⟨true, n * lbrSize, [n * lbrSize]⟩) "bpfsnoop_stacks" = some ⟨false, 127 * 8, []⟩ from rfl]
    simp only [stackBytes_nat hm]
  refine ⟨((object.put ".data.lbrs" ⟨true, n * lbrSize, [n * lbrSize]⟩).put "bpfsnoop_stacks" ⟨false, m * 8, []⟩).put
    ".data.ready" ⟨true, 4, [4]⟩, ?_, rfl, rfl, rfl⟩
  unfold update
  simp only [e1, e2]
  rfl

/-- **C91 (part).** With a `perf_event_max_stack` that is not 0 and does not change, the maps are created, on every number of CPUs: `.data.lbrs` with one
buffer per CPU, the map of stacks with room for as many addresses as the kernel allows, each filled with values of its size; and both maps that
bpfsnoop writes through memory can be mapped. -/
theorem maps_created_partial {s : Sys} {n m k : Nat} (hn : s.cpus = some n) (h0 : 0 < n) (hle : n ≤ 2 ^ 22) (hs : s.steady m)
    (h1 : 1 ≤ m) (hm : m ≤ 655360) :
    ∃ u, prepare s k m object = some u ∧ u ".data.lbrs" = some ⟨true, n * lbrSize, [n * lbrSize]⟩ ∧
      u "bpfsnoop_stacks" = some ⟨false, m * 8, []⟩ ∧ u ".data.ready" = some ⟨true, 4, [4]⟩ := by
  obtain ⟨u, hu, ha, hb, hc⟩ := update_sizes hn h0 hle (hs k) hm
  refine ⟨u, ?_, ha, hb, hc⟩
  unfold prepare
  simp only [hu, ha, hb, hc]
  rw [if_pos]
  have hp : 0 < n * lbrSize := Nat.mul_pos h0 (by decide)
  simp only [arrayOk, stackOk, Bool.and_eq_true, decide_eq_true_eq, List.all_cons, List.all_nil, beq_iff_eq, Bool.and_true]
  refine ⟨⟨⟨hp, trivial⟩, ⟨⟨by omega, by omega⟩, ?_⟩⟩, by decide, trivial⟩
  rw [Nat.mul_div_cancel _ (by decide)]
  exact Int.le_refl _

/-- **C91.** With `perf_event_max_stack` 0, which the kernel allows, bpfsnoop does not start, whether stacks are asked for or not. -/
theorem no_stack_violated {s : Sys} {n k : Nat} (hn : s.cpus = some n) (h0 : 0 < n) (hle : n ≤ 2 ^ 22) (hs : s.steady 0) (cur : Int) :
    prepare s k cur object = none := by
  obtain ⟨u, hu, ha, hb, hc⟩ := update_sizes hn h0 hle (hs k) (by decide)
  unfold prepare
  simp [hu, ha, hb, hc, stackOk]

/-- **C91.** If the sysctl is lowered between reading it and creating the map, bpfsnoop does not start. -/
theorem lowered_violated {s : Sys} {n m k : Nat} (hn : s.cpus = some n) (h0 : 0 < n) (hle : n ≤ 2 ^ 22) (hs : s.maxStack k = some (m : Int))
    (hm : m ≤ 655360) (cur : Int) (hc : cur < m) : prepare s k cur object = none := by
  obtain ⟨u, hu, ha, hb, hc'⟩ := update_sizes hn h0 hle hs hm
  unfold prepare
  simp only [hu, ha, hb, hc']
  have : stackOk cur ⟨false, m * 8, []⟩ = false := by
    unfold stackOk
    rw [Nat.mul_div_cancel _ (by decide)]
    simp [hc]
  simp [this]

/-! ### Branch buffers -/

theorem cpuMask_eq {n : Nat} (h0 : 0 < n) (hle : n ≤ 2 ^ 22) :
    ∃ j, j ≤ 22 ∧ n ≤ 2 ^ j ∧ cpuMask n = some (BitVec.ofNat 32 (2 ^ j - 1)) ∧ (Util.mask 62 n = some (2 ^ j - 1)) ∧ (n = 2 ^ j ∨ 2 ^ j < 2 * n) := by
  have hle' : n ≤ 2 ^ 62 := Nat.le_trans hle (by decide)
  obtain ⟨j, h1, h2, h3⟩ := Util.mask_least_partial (n : Int) (by exact_mod_cast hle') 62 (Nat.le_refl _)
  have hj : n ≤ 2 ^ j := by
    have := h2 (n - 1) (by omega)
    rw [Nat.and_two_pow_sub_one_eq_mod] at this
    have := Nat.mod_lt (n - 1) (Nat.two_pow_pos j)
    omega
  have hleast : ∀ i, i < j → 2 ^ i < n := by
    intro i hi
    obtain ⟨cpu, hc1, hc2⟩ := h3 i hi
    rw [Nat.and_two_pow_sub_one_eq_mod] at hc2
    apply Classical.byContradiction
    intro hh
    exact hc2 (Nat.mod_eq_of_lt (by omega))
  have hj22 : j ≤ 22 := by
    apply Classical.byContradiction
    intro hh
    have := hleast 22 (by omega)
    omega
  refine ⟨j, hj22, hj, ?_, h1, ?_⟩
  · unfold cpuMask
    rw [h1]
    simp only [Option.map_some]
    congr 1
    have : ((2 : Int) ^ j - 1) = ((2 ^ j - 1 : Nat) : Int) := by
      have h := Nat.two_pow_pos j
      have e : ((2 ^ j : Nat) : Int) = (2 : Int) ^ j := by simp
      omega
    rw [this]
    rfl
  · cases j with
    | zero => left; simp at hj ⊢; omega
    | succ i =>
      have := hleast i (by omega)
      right
      rw [Nat.pow_succ]
      omega

theorem and_mask {j : Nat} (hj : j ≤ 22) (c : BitVec 32) : (c &&& BitVec.ofNat 32 (2 ^ j - 1)).toNat = c.toNat % 2 ^ j := by
  have h1 : 2 ^ j ≤ 2 ^ 22 := Nat.pow_le_pow_right (by decide) hj
  rw [BitVec.toNat_and, BitVec.toNat_ofNat, Nat.mod_eq_of_lt (by omega), Nat.and_two_pow_sub_one_eq_mod]

/-- **C91 (part).** On a machine with `n` CPUs every CPU has a branch buffer of its own, inside the map, and the CPU shown for an event is the one it
happened on. -/
theorem own_buffer {n : Nat} (h0 : 0 < n) (hle : n ≤ 2 ^ 22) :
    ∃ mask, cpuMask n = some mask ∧ (∀ c : BitVec 32, c.toNat < n → c &&& mask = c ∧ (lbrPlace mask c).2 ≤ n * lbrSize) ∧
      ∀ c c' : BitVec 32, c.toNat < n → c'.toNat < n → c ≠ c' →
        (lbrPlace mask c).2 ≤ (lbrPlace mask c').1 ∨ (lbrPlace mask c').2 ≤ (lbrPlace mask c).1 := by
  obtain ⟨j, hj, hnj, hm, _, _⟩ := cpuMask_eq h0 hle
  have keep : ∀ c : BitVec 32, c.toNat < n → c &&& BitVec.ofNat 32 (2 ^ j - 1) = c := by
    intro c hc
    apply BitVec.eq_of_toNat_eq
    rw [and_mask hj, Nat.mod_eq_of_lt (by omega)]
  refine ⟨_, hm, fun c hc => ⟨keep c hc, ?_⟩, fun c c' hc hc' hne => ?_⟩
  · simp only [lbrPlace, keep c hc, lbrSize]
    omega
  · have : c.toNat ≠ c'.toNat := fun h => hne (BitVec.eq_of_toNat_eq h)
    simp only [lbrPlace, keep c hc, keep c' hc', lbrSize]
    omega

/-- **C91.** The kernel accepts the tracing programs exactly on machines whose number of CPUs is a power of two: the mask of any other number lets
through numbers of CPUs behind the end of the map, as far as the verifier knows. -/
theorem accepted_iff_violated {n : Nat} (h0 : 0 < n) (hle : n ≤ 2 ^ 22) :
    ∃ mask, cpuMask n = some mask ∧ (Accepted mask (n * lbrSize) ↔ ∃ j, n = 2 ^ j) := by
  obtain ⟨j, hj, hnj, hm, _, h2⟩ := cpuMask_eq h0 hle
  refine ⟨_, hm, fun h => ⟨j, ?_⟩, fun ⟨i, hi⟩ c => ?_⟩
  · have h3 := h (BitVec.ofNat 32 (2 ^ j - 1))
    have hp : 2 ^ j ≤ 2 ^ 22 := Nat.pow_le_pow_right (by decide) hj
    have h0 := Nat.two_pow_pos j
    simp only [lbrPlace, and_mask hj, lbrSize, BitVec.toNat_ofNat] at h3
    rw [Nat.mod_eq_of_lt (a := 2 ^ j - 1) (b := 2 ^ 32) (by omega), Nat.mod_eq_of_lt (a := 2 ^ j - 1) (b := 2 ^ j) (by omega)] at h3
    omega
  · have hij : n = 2 ^ j := by
      rcases h2 with h2 | h2
      · exact h2
      · subst hi
        have h3 : i ≤ j := (Nat.pow_le_pow_iff_right (by decide)).mp hnj
        have h4 : j < i + 1 := by
          rw [← Nat.pow_succ'] at h2
          exact (Nat.pow_lt_pow_iff_right (by decide)).mp h2
        rw [show i = j by omega]
    have := Nat.mod_lt c.toNat (Nat.two_pow_pos j)
    simp only [lbrPlace, and_mask hj, lbrSize, hij]
    omega

/-- On six CPUs the program is refused. -/
theorem six_cpus_violated : ∃ mask, cpuMask 6 = some mask ∧ ¬ Accepted mask (6 * lbrSize) := by
  refine ⟨7, rfl, fun h => ?_⟩
  have := h 7
  revert this
  decide

/-! ### Stacks -/

/-- **C91 (part).** The functions of a graph: the kernel is asked for what fits in the buffer, and the program looks at exactly the addresses the kernel
wrote. -/
theorem graph_stack {s : Sys} {k m : Nat} (hs : s.maxStack k = some (m : Int)) (hm : m ≤ 655360) :
    ∃ size elems depth, fgraphStack s k = some (size, elems, depth) ∧ size = 8 * m ∧ elems.toNat = m ∧ fgraphAsked depth = size ∧
      ∀ nr : Nat, nr ≤ m → fgraphReads depth (8 * nr : Nat) = List.range nr := by
  have hd : (BitVec.ofInt 32 (m : Int)).toNat = m := by
    rw [BitVec.toNat_ofInt]; omega
  refine ⟨stackBytes m, BitVec.ofInt 32 m, BitVec.ofInt 32 m, by simp [fgraphStack, hs], ?_, hd, ?_, ?_⟩
  · rw [stackBytes_nat hm]; omega
  · unfold fgraphAsked
    have h8 : (8 : BitVec 32).toNat = 8 := rfl
    rw [BitVec.toNat_mul, hd, stackBytes_nat hm, h8]
    omega
  · intro nr hnr
    unfold fgraphReads
    rw [hd]
    have hdiv : ((8 * nr : Nat) : Int).toNat / 8 = nr := by omega
    rw [hdiv]
    have take : ∀ (m : Nat), nr ≤ m → (List.range m).takeWhile (fun i => decide (i < nr)) = List.range nr := by
      intro m hm
      obtain ⟨d, rfl⟩ := Nat.exists_eq_add_of_le hm
      rw [List.range_add, List.takeWhile_append_of_pos (by intro a ha; simpa using List.mem_range.mp ha)]
      cases d with
      | zero => simp
      | succ d => rw [List.range_succ_eq_map]; simp
    split
    · have : nr = 0 := by omega
      subst this
      rfl
    · exact take m hnr

/-- **C91 (part).** A stack is read whole: the slice it is read into is as long as the values of the map. -/
theorem stack_fits {s : Sys} {n m k : Nat} (hn : s.cpus = some n) (h0 : 0 < n) (hle : n ≤ 2 ^ 22) (hs : s.steady m)
    (h1 : 1 ≤ m) (hm : m ≤ 655360) :
    ∃ u st, prepare s k m object = some u ∧ u "bpfsnoop_stacks" = some st ∧ ∀ k' x, s.maxStack k' = some x → lookupFits x st = true := by
  obtain ⟨u, hu, _, hb, _⟩ := maps_created_partial (k := k) hn h0 hle hs h1 hm
  refine ⟨u, _, hu, hb, fun k' x hx => ?_⟩
  rw [hs k'] at hx
  injection hx with hx
  subst hx
  simp [lookupFits]
  omega

/-- **C91.** If the sysctl is changed after the map has been created and read once more (functions traced together, functions of a graph), no stack can be
read any more. -/
theorem changed_violated {s : Sys} {n m m' k k' : Nat} (hn : s.cpus = some n) (h0 : 0 < n) (hle : n ≤ 2 ^ 22) (hs : s.maxStack k = some (m : Int))
    (h1 : 1 ≤ m) (hm : m ≤ 655360) (hs' : s.maxStack k' = some (m' : Int)) (hne : m' ≠ m) :
    ∃ u st x, prepare s k m object = some u ∧ u "bpfsnoop_stacks" = some st ∧ s.maxStack k' = some x ∧ lookupFits x st = false := by
  have hst : (⟨s.cpus, fun _ => some (m : Int)⟩ : Sys).steady m := fun _ => rfl
  obtain ⟨u, hu, _, hb, _⟩ := maps_created_partial (s := ⟨s.cpus, fun _ => some (m : Int)⟩) (k := k) hn h0 hle hst h1 hm
  have hu' : prepare s k m object = some u := by
    rw [← hu]
    unfold prepare update stacks lbrsData
    simp only [hs]
  refine ⟨u, _, _, hu', hb, hs', ?_⟩
  simp [lookupFits]
  omega

/-- The usual system: 8 CPUs, 127 addresses. -/
theorem maps_witness : ∃ s : Sys, s.cpus = some 8 ∧ s.steady 127 ∧
    (prepare s 0 127 object).bind (· ".data.lbrs") = some ⟨true, 6208, [6208]⟩ ∧ cpuMask 8 = some 7 ∧
    fgraphStack s 0 = some (1016, 127, 127) ∧ fgraphReads 127 24 = [0, 1, 2] :=
  ⟨⟨some 8, fun _ => some 127⟩, rfl, fun _ => rfl, by decide +kernel, by decide +kernel, by decide +kernel, by decide +kernel⟩

end Bpfsnoop.Mp
