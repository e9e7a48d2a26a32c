import Verif.Model.PktInject
import Verif.Props.AsmSess

/-
C50, errors of `--filter-pkt`.
-/
namespace Bpfsnoop.Pin
open Flg (Str)
open Asm (Prog Param PKind)

/-! ### Specification -/

/-- The first parameter that points to a packet structure: its index, the structure and how such packets are filtered. -/
def FirstPacket (params : List Param) (i : Nat) (s : Str) (k : PKind) : Prop :=
  (∃ q, params[i]? = some q ∧ q.target = some s) ∧ (s, k) ∈ Asm.packetStructs ∧
    ∀ j < i, ∀ q, params[j]? = some q → ∀ s', q.target = some s' → ∀ k', (s', k') ∉ Asm.packetStructs

/-- No parameter points to a packet structure. -/
def NoPacket (params : List Param) : Prop := ∀ q ∈ params, ∀ s, q.target = some s → ∀ k, (s, k) ∉ Asm.packetStructs

/-- What the library does with an expression it accepts: its code goes in front of the body of the stub. -/
def Takes (lib : Lib) (expr stub : Str) (code : Prog) : Prop := ∀ p, lib expr stub p = (Asm.pcapAt code stub p, true)

/-- The library refuses the expression. -/
def Refuses (lib : Lib) (expr stub : Str) : Prop := ∀ p, (lib expr stub p).2 = false

/-- The structures as programs see them, of which the kernel has another one. -/
def contexts : List Str := ["__sk_buff".toList, "xdp_md".toList]

/-! ### The loop -/

theorem case_skb (lib : Lib) (known : Str → Bool) (expr : Str) (i : Nat) (p : Prog) :
    pktCase lib known expr "sk_buff".toList i p = some (filterSkb lib expr i p) := by
  unfold pktCase; rw [if_pos rfl]

theorem case_skb_ctx (lib : Lib) (known : Str → Bool) (expr : Str) (i : Nat) (p : Prog) : pktCase lib known expr "__sk_buff".toList i p =
    some (if known "sk_buff".toList then ((filterSkb lib expr i p).1, true) else (p, false)) := by
  unfold pktCase; rw [if_neg (by decide +kernel), if_pos rfl]; split <;> rfl

theorem case_xdp (lib : Lib) (known : Str → Bool) (expr : Str) (i : Nat) (p : Prog) :
    pktCase lib known expr "xdp_buff".toList i p = some (filterXdp lib expr i Asm.sFXdp Asm.sFXdpF p) := by
  unfold pktCase; rw [if_neg (by decide +kernel), if_neg (by decide +kernel), if_pos rfl]

theorem case_xdp_ctx (lib : Lib) (known : Str → Bool) (expr : Str) (i : Nat) (p : Prog) : pktCase lib known expr "xdp_md".toList i p =
    some (if known "xdp_buff".toList then ((filterXdp lib expr i Asm.sFXdp Asm.sFXdpF p).1, true) else (p, false)) := by
  unfold pktCase; rw [if_neg (by decide +kernel), if_neg (by decide +kernel), if_neg (by decide +kernel), if_pos rfl]; split <;> rfl

theorem case_xdp_frame (lib : Lib) (known : Str → Bool) (expr : Str) (i : Nat) (p : Prog) :
    pktCase lib known expr "xdp_frame".toList i p = some (filterXdp lib expr i Asm.sFXdpF Asm.sFXdp p) := by
  unfold pktCase
  rw [if_neg (by decide +kernel), if_neg (by decide +kernel), if_neg (by decide +kernel), if_neg (by decide +kernel), if_pos rfl]

theorem case_none {lib : Lib} {known : Str → Bool} {expr s : Str} {i : Nat} {p : Prog} :
    pktCase lib known expr s i p = none ↔ ∀ k, (s, k) ∉ Asm.packetStructs := by
  unfold Asm.packetStructs
  constructor
  · intro h k hk
    simp only [List.mem_cons, Prod.mk.injEq, List.not_mem_nil, or_false] at hk
    rcases hk with ⟨rfl, -⟩ | ⟨rfl, -⟩ | ⟨rfl, -⟩ | ⟨rfl, -⟩ | ⟨rfl, -⟩
    · rw [case_skb] at h; cases h
    · rw [case_skb_ctx] at h; cases h
    · rw [case_xdp] at h; cases h
    · rw [case_xdp_ctx] at h; cases h
    · rw [case_xdp_frame] at h; cases h
  · intro h
    unfold pktCase
    rw [if_neg, if_neg, if_neg, if_neg, if_neg]
    all_goals (rintro rfl)
    · exact h .xdpFrame (by simp)
    · exact h .xdp (by simp)
    · exact h .xdp (by simp)
    · exact h .skb (by simp)
    · exact h .skb (by simp)

theorem loop_spec (lib : Lib) (known : Str → Bool) (expr : Str) (p : Prog) : ∀ (params : List Param) (n : Nat),
    (NoPacket params → pktLoop lib known expr p params n = (Asm.clearPktFilter p, true)) ∧
    ∀ (i : Nat) (s : Str) (k : PKind), FirstPacket params i s k → pktCase lib known expr s (n + i) p = some (pktLoop lib known expr p params n)
  | [], n => ⟨fun _ => rfl, fun i s k h => by obtain ⟨⟨q, hq, _⟩, _⟩ := h; simp at hq⟩
  | q :: qs, n => by
    obtain ⟨ih1, ih2⟩ := loop_spec lib known expr p qs (n + 1)
    constructor
    · intro h
      have hr := ih1 fun q' hq' => h q' (List.mem_cons_of_mem _ hq')
      unfold pktLoop
      cases ht : q.target with
      | none => exact hr
      | some s => simp only; rw [case_none.mpr (h q (List.mem_cons_self ..) s ht)]; exact hr
    · rintro i s k ⟨⟨q', hq', ht⟩, hs, hb⟩
      cases i with
      | zero =>
        simp at hq'; subst hq'
        unfold pktLoop
        rw [ht]
        simp only [Nat.add_zero]
        cases hc : pktCase lib known expr s n p with
        | none => exact (case_none.mp hc k hs).elim
        | some r => rfl
      | succ i =>
        have hfp : FirstPacket qs i s k := ⟨⟨q', by simpa using hq', ht⟩, hs, fun j hj q2 hq2 => hb (j + 1) (by omega) q2 (by simpa using hq2)⟩
        have hr := ih2 i s k hfp
        rw [show n + (i + 1) = n + 1 + i by omega, hr]
        conv => rhs; unfold pktLoop
        cases ht0 : q.target with
        | none => rfl
        | some s0 =>
          simp only
          rw [case_none.mpr (hb 0 (by omega) q rfl s0 ht0)]

theorem least {P : Nat → Prop} (h : ∃ n, P n) : ∃ n, P n ∧ ∀ m < n, ¬ P m := by
  obtain ⟨n, hn⟩ := h
  induction n using Nat.strongRecOn with
  | _ n ih =>
    by_cases hm : ∃ m, m < n ∧ P m
    · obtain ⟨m, h1, h2⟩ := hm; exact ih m h1 h2
    · exact ⟨n, hn, fun m h1 h2 => hm ⟨m, h1, h2⟩⟩

/-! ### Theorems -/

/-- **C50.** No packet among the parameters: packets are not looked at. -/
theorem no_packet (lib : Lib) (known : Str → Bool) {expr : Str} (he : expr ≠ []) {params : List Param} (h : NoPacket params) (p : Prog) :
    injectPktFilter lib known expr params p = (Asm.clearPktFilter p, true) := by
  unfold injectPktFilter; rw [if_neg he]; exact (loop_spec lib known expr p params 0).1 h

theorem first_case (lib : Lib) (known : Str → Bool) {expr : Str} (he : expr ≠ []) {params : List Param} {i : Nat} {s : Str} {k : PKind}
    (h : FirstPacket params i s k) (p : Prog) : pktCase lib known expr s i p = some (injectPktFilter lib known expr params p) := by
  unfold injectPktFilter; rw [if_neg he]
  have := (loop_spec lib known expr p params 0).2 i s k h
  rwa [Nat.zero_add] at this

theorem skb_taken {lib : Lib} {expr : Str} (he : expr ≠ []) {c2 c3 : Prog} (h2 : Takes lib expr Asm.sL2 c2)
    (h3 : Takes lib expr Asm.sL3 c3 ∨ Refuses lib expr Asm.sL3 ∧ (∀ p, (lib expr Asm.sL3 p).1 = p) ∧ Takes lib rejectAll Asm.sL3 c3) (i : Nat) (p : Prog) :
    filterSkb lib expr i p = (Asm.inject ([Asm.sL2s, Asm.sL3s, Asm.sFXdp, Asm.sFXdpF].foldl (Asm.clear true)
      (Asm.pcapAt c3 Asm.sL3 (Asm.pcapAt c2 Asm.sL2 p))) Asm.sFPkt (Asm.callStub i Asm.sFSkb), true) := by
  unfold filterSkb
  rw [if_neg he]
  simp only [h2 p, Bool.not_true, Bool.false_eq_true, if_false]
  rcases h3 with h3 | ⟨h3, h4, h5⟩
  · simp only [h3 _, if_true]
  · simp only [h3 _, h4, Bool.false_eq_true, if_false, h5 _]

theorem xdp_taken {lib : Lib} {expr : Str} (he : expr ≠ []) {c2 : Prog} (h2 : Takes lib expr Asm.sL2 c2) (i : Nat) (a b : Str) (p : Prog) :
    filterXdp lib expr i a b p = (Asm.inject ([Asm.sL2s, Asm.sL3s, Asm.sFSkb, b, Asm.sL3].foldl (Asm.clear true) (Asm.pcapAt c2 Asm.sL2 p)) Asm.sFPkt
      (Asm.callStub i a), true) := by
  unfold filterXdp
  rw [if_neg he]
  simp only [h2 p, Bool.not_true, Bool.false_eq_true, if_false]

/-- **C50.** An expression that the library accepts, with or without code for packets that have no link-layer header (in whose place everything is
rejected), is put into the program as the other theorems of C50 assume, without error, for every function whose packet structures the kernel has. -/
theorem accepted {lib : Lib} {known : Str → Bool} {expr : Str} (he : expr ≠ []) (hk : known "sk_buff".toList = true ∧ known "xdp_buff".toList = true)
    {code : Str → Prog} (h2 : Takes lib expr Asm.sL2 (code Asm.sL2))
    (h3 : Takes lib expr Asm.sL3 (code Asm.sL3) ∨
      Refuses lib expr Asm.sL3 ∧ (∀ p, (lib expr Asm.sL3 p).1 = p) ∧ Takes lib rejectAll Asm.sL3 (code Asm.sL3)) (params : List Param) (p : Prog) :
    injectPktFilter lib known expr params p = (Asm.injectPktFilter code true params p, true) := by
  unfold Asm.injectPktFilter
  rw [if_neg (by decide)]
  cases hp : Asm.packetParam params with
  | none =>
    refine no_packet lib known he (fun q hq s hs k hm => ?_) p
    obtain ⟨j, hj⟩ := List.mem_iff_getElem?.mp hq
    have hex : ∃ j, ∃ (s : Str) (k : PKind) (q : Param), params[j]? = some q ∧ q.target = some s ∧ (s, k) ∈ Asm.packetStructs := ⟨j, s, k, q, hj, hs, hm⟩
    obtain ⟨n, ⟨s', k', q', h1, h2, h3⟩, hmin⟩ := least hex
    have := (Asm.packet_param_spec params n k').mpr ⟨⟨q', h1, s', h2, h3⟩, fun m hm q hq s hs k hk => hmin m hm ⟨s, k, q, hq, hs, hk⟩⟩
    rw [hp] at this; cases this
  | some r =>
    obtain ⟨i, k⟩ := r
    obtain ⟨⟨q, hq, s, hs, hm⟩, hb⟩ := (Asm.packet_param_spec params i k).mp hp
    have hc := first_case lib known he (i := i) (s := s) (k := k) ⟨⟨q, hq, hs⟩, hm, fun j hj q hq s hs k' hk' => hb j hj q hq s hs k' hk'⟩ p
    simp only
    unfold Asm.packetStructs at hm
    simp only [List.mem_cons, Prod.mk.injEq, List.not_mem_nil, or_false] at hm
    rcases hm with ⟨rfl, rfl⟩ | ⟨rfl, rfl⟩ | ⟨rfl, rfl⟩ | ⟨rfl, rfl⟩ | ⟨rfl, rfl⟩
    · rw [case_skb, skb_taken he h2 h3] at hc; exact (Option.some.inj hc).symm
    · rw [case_skb_ctx, hk.1, if_pos rfl, skb_taken he h2 h3] at hc; exact (Option.some.inj hc).symm
    · rw [case_xdp, xdp_taken he h2] at hc; exact (Option.some.inj hc).symm
    · rw [case_xdp_ctx, hk.2, if_pos rfl, xdp_taken he h2] at hc; exact (Option.some.inj hc).symm
    · rw [case_xdp_frame, xdp_taken he h2] at hc; exact (Option.some.inj hc).symm

theorem skb_refused {lib : Lib} {expr : Str} (he : expr ≠ []) (h : Refuses lib expr Asm.sL2) (i : Nat) (p : Prog) :
    filterSkb lib expr i p = ((lib expr Asm.sL2 p).1, false) := by
  unfold filterSkb; rw [if_neg he]; simp [h p]

theorem xdp_refused {lib : Lib} {expr : Str} (he : expr ≠ []) (h : Refuses lib expr Asm.sL2) (i : Nat) (a b : Str) (p : Prog) :
    filterXdp lib expr i a b p = ((lib expr Asm.sL2 p).1, false) := by
  unfold filterXdp; rw [if_neg he]; simp [h p]

/-- **C50, partial.** An expression the library refuses is an error for every function whose packet is one of the kernel's structures.
(Missing: the structures of BPF programs, `ctx_violated`.) -/
theorem refused_partial {lib : Lib} {known : Str → Bool} {expr : Str} (he : expr ≠ []) (h : Refuses lib expr Asm.sL2) {params : List Param}
    {i : Nat} {s : Str} {k : PKind} (hf : FirstPacket params i s k) (hs : s ∉ contexts) (p : Prog) :
    (injectPktFilter lib known expr params p).2 = false := by
  have hc := first_case lib known he hf p
  have hm := hf.2.1
  unfold Asm.packetStructs at hm
  simp only [List.mem_cons, Prod.mk.injEq, List.not_mem_nil, or_false] at hm
  rcases hm with ⟨rfl, rfl⟩ | ⟨rfl, rfl⟩ | ⟨rfl, rfl⟩ | ⟨rfl, rfl⟩ | ⟨rfl, rfl⟩
  · rw [case_skb, skb_refused he h] at hc; rw [← Option.some.inj hc]
  · exact (hs (by simp [contexts])).elim
  · rw [case_xdp, xdp_refused he h] at hc; rw [← Option.some.inj hc]
  · exact (hs (by simp [contexts])).elim
  · rw [case_xdp_frame, xdp_refused he h] at hc; rw [← Option.some.inj hc]

/-- **C50 violated.** For BPF programs an expression the library refuses is no error: whatever the library has returned beside the error is loaded;
if that is the program it was given, the program is loaded without any packet filter. For every refused expression, every function and every program. -/
theorem ctx_violated {lib : Lib} {known : Str → Bool} (hk : known "sk_buff".toList = true ∧ known "xdp_buff".toList = true) {expr : Str} (he : expr ≠ [])
    (h : Refuses lib expr Asm.sL2) {params : List Param} {i : Nat} {s : Str} {k : PKind} (hf : FirstPacket params i s k) (hs : s ∈ contexts) (p : Prog) :
    injectPktFilter lib known expr params p = ((lib expr Asm.sL2 p).1, true) ∧
      ((lib expr Asm.sL2 p).1 = p → injectPktFilter lib known expr params p = injectPktFilter lib known [] params p) := by
  have key : injectPktFilter lib known expr params p = ((lib expr Asm.sL2 p).1, true) := by
    have hc := first_case lib known he hf p
    simp only [contexts, List.mem_cons, List.not_mem_nil, or_false] at hs
    rcases hs with rfl | rfl
    · rw [case_skb_ctx, hk.1, if_pos rfl, skb_refused he h] at hc; rw [← Option.some.inj hc]
    · rw [case_xdp_ctx, hk.2, if_pos rfl, xdp_refused he h] at hc; rw [← Option.some.inj hc]
  refine ⟨key, fun hp => ?_⟩
  rw [key, hp]; rfl

/-! ### Witnesses -/

/-- A library that accepts `icmp` for both stubs, `ether` for frames only, and nothing else. -/
def exLib : Lib := fun e stub p =>
  if e = "icmp".toList then (Asm.pcapAt [⟨none, none, .other 77⟩] stub p, true)
  else if e = "ether".toList ∧ stub = Asm.sL2 then (Asm.pcapAt [⟨none, none, .other 78⟩] stub p, true)
  else if e = rejectAll then (Asm.pcapAt [⟨none, none, .other 79⟩] stub p, true)
  else (p, false)

theorem ex_icmp (stub : Str) : Takes exLib "icmp".toList stub [⟨none, none, .other 77⟩] := fun p => by unfold exLib; rw [if_pos rfl]

theorem ex_ether : Takes exLib "ether".toList Asm.sL2 [⟨none, none, .other 78⟩] ∧ Refuses exLib "ether".toList Asm.sL3 ∧
    (∀ p, (exLib "ether".toList Asm.sL3 p).1 = p) ∧ Takes exLib rejectAll Asm.sL3 [⟨none, none, .other 79⟩] := by
  have h1 : ¬ ("ether".toList = "icmp".toList) := by decide +kernel
  have h2 : ¬ (Asm.sL3 = Asm.sL2) := by decide +kernel
  have h3 : ¬ ("ether".toList = rejectAll) := by decide +kernel
  have h4 : ¬ (rejectAll = "icmp".toList) := by decide +kernel
  have h5 : ¬ (rejectAll = "ether".toList) := by decide +kernel
  refine ⟨fun p => ?_, fun p => ?_, fun p => ?_, fun p => ?_⟩ <;> unfold exLib
  · rw [if_neg h1, if_pos ⟨rfl, rfl⟩]
  · rw [if_neg h1, if_neg (fun h => h2 h.2), if_neg h3]
  · rw [if_neg h1, if_neg (fun h => h2 h.2), if_neg h3]
  · rw [if_neg h4, if_neg (fun h => h5 h.1), if_pos rfl]

theorem ex_bad (stub : Str) : Refuses exLib "icpm".toList stub ∧ ∀ p, (exLib "icpm".toList stub p).1 = p := by
  have h1 : ¬ ("icpm".toList = "icmp".toList) := by decide +kernel
  have h2 : ¬ ("icpm".toList = "ether".toList) := by decide +kernel
  have h3 : ¬ ("icpm".toList = rejectAll) := by decide +kernel
  constructor <;> intro p <;> unfold exLib <;> rw [if_neg h1, if_neg (fun h => h2 h.1), if_neg h3]

/-- A function with a number and an `sk_buff`, and a program with a `__sk_buff`. -/
theorem ex_params : FirstPacket [⟨"n".toList, none⟩, ⟨"skb".toList, some "sk_buff".toList⟩] 1 "sk_buff".toList .skb ∧
    FirstPacket [⟨"skb".toList, some "__sk_buff".toList⟩] 0 "__sk_buff".toList .skb := by
  refine ⟨⟨⟨_, rfl, rfl⟩, by simp [Asm.packetStructs], fun j hj q hq s hs => ?_⟩, ⟨⟨_, rfl, rfl⟩, by simp [Asm.packetStructs], fun j hj => by omega⟩⟩
  obtain rfl : j = 0 := by omega
  cases hq; cases hs

/-- The expression `icpm`, which the library refuses: an error for the function, none for the program, which is loaded without filter. -/
theorem ex_typo (known : Str → Bool) (hk : known "sk_buff".toList = true ∧ known "xdp_buff".toList = true) (p : Prog) :
    (injectPktFilter exLib known "icpm".toList [⟨"n".toList, none⟩, ⟨"skb".toList, some "sk_buff".toList⟩] p).2 = false ∧
    injectPktFilter exLib known "icpm".toList [⟨"skb".toList, some "__sk_buff".toList⟩] p = (p, true) := by
  have he : "icpm".toList ≠ [] := by decide +kernel
  refine ⟨refused_partial he (ex_bad _).1 ex_params.1 (by unfold contexts; decide +kernel) p, ?_⟩
  rw [(ctx_violated hk he (ex_bad _).1 ex_params.2 (by simp [contexts]) p).1, (ex_bad _).2]

end Bpfsnoop.Pin
