import Verif.Props.Asm

/-
The session kfuncs in the tracing programs, and which parameters are packets (C50, C51).
-/
namespace Bpfsnoop.Asm
open Flg (Str)

/-! ### Specification -/

/-- The stub for the kernel function that gives the cookie of a session. -/
def sCookie : Str := "bpfsnoop_session_cookie".toList
/-- The stub for the kernel function that tells the return of a session. -/
def sIsRet : Str := "bpfsnoop_session_is_return".toList

/-- What a call becomes when the kernel knows the session kfuncs. -/
def sessionCall (cookieId isRetId : Nat) (i : Insn) : Insn :=
  if i.ref = some sCookie then ⟨none, none, .kfunc cookieId⟩
  else if i.ref = some sIsRet then ⟨none, none, .kfunc isRetId⟩ else i

/-- The structures that are packets, and of which kind. -/
def packetStructs : List (Str × PKind) :=
  [("sk_buff".toList, .skb), ("__sk_buff".toList, .skb), ("xdp_buff".toList, .xdp), ("xdp_md".toList, .xdp), ("xdp_frame".toList, .xdpFrame)]

/-! ### Packet parameters -/

/-- Which structures are packets, and as which kind of packet they are filtered and printed. -/
theorem kindOf_iff (s : Str) (k : PKind) : kindOf s = some k ↔ (s, k) ∈ packetStructs := by
  simp only [kindOf, packetStructs, List.mem_cons, Prod.mk.injEq, List.not_mem_nil, or_false]
  constructor
  · intro h
    split at h
    · rename_i hs
      cases h
      rcases hs with rfl | rfl
      · exact Or.inl ⟨rfl, rfl⟩
      · exact Or.inr (Or.inl ⟨rfl, rfl⟩)
    · split at h
      · rename_i hs
        cases h
        rcases hs with rfl | rfl
        · exact Or.inr (Or.inr (Or.inl ⟨rfl, rfl⟩))
        · exact Or.inr (Or.inr (Or.inr (Or.inl ⟨rfl, rfl⟩)))
      · split at h
        · rename_i hs
          cases h
          exact Or.inr (Or.inr (Or.inr (Or.inr ⟨hs, rfl⟩)))
        · simp at h
  · rintro (⟨rfl, rfl⟩ | ⟨rfl, rfl⟩ | ⟨rfl, rfl⟩ | ⟨rfl, rfl⟩ | ⟨rfl, rfl⟩) <;> decide +kernel

/-- The packet parameter of a function: the first that points to a packet; its index and its kind. -/
theorem packet_param_spec : ∀ (ps : List Param) (n : Nat) (k : PKind), packetParam ps = some (n, k) ↔
    (∃ p, ps[n]? = some p ∧ ∃ s, p.target = some s ∧ (s, k) ∈ packetStructs) ∧
      ∀ m < n, ∀ p, ps[m]? = some p → ∀ s, p.target = some s → ∀ k', (s, k') ∉ packetStructs
  | [], n, k => by simp [packetParam]
  | p :: ps, n, k => by
    have hk : ∀ k', p.target.bind kindOf = some k' ↔ ∃ s, p.target = some s ∧ (s, k') ∈ packetStructs := by
      intro k'
      simp [Option.bind_eq_some_iff, kindOf_iff]
    rw [packetParam]
    cases hb : p.target.bind kindOf with
    | some k0 =>
      have h0 := (hk k0).mp hb
      simp only [Option.some.injEq, Prod.mk.injEq]
      constructor
      · rintro ⟨rfl, rfl⟩
        exact ⟨⟨p, rfl, h0⟩, by omega⟩
      · rintro ⟨⟨q, hq, hs⟩, hm⟩
        cases n with
        | zero =>
          cases hq
          have := (hk k).mpr hs
          rw [hb] at this
          exact ⟨rfl, Option.some.inj this⟩
        | succ n =>
          obtain ⟨s, hs1, hs2⟩ := h0
          exact absurd hs2 (hm 0 (by omega) p rfl s hs1 k0)
    | none =>
      have h0 : ∀ s, p.target = some s → ∀ k', (s, k') ∉ packetStructs := fun s hs k' hk' => by
        have := (hk k').mpr ⟨s, hs, hk'⟩
        rw [hb] at this
        cases this
      have ih := packet_param_spec ps
      cases n with
      | zero =>
        constructor
        · intro h
          cases hp : packetParam ps with
          | none => simp [hp] at h
          | some x => obtain ⟨a, b⟩ := x; simp [hp] at h
        · rintro ⟨⟨q, hq, s, hs, hs2⟩, _⟩
          cases hq
          exact absurd hs2 (h0 s hs k)
      | succ n =>
        have : ((packetParam ps).map fun (x : Nat × PKind) => (x.1 + 1, x.2)) = some (n + 1, k) ↔ packetParam ps = some (n, k) := by
          cases packetParam ps with
          | none => simp
          | some x => obtain ⟨a, b⟩ := x; simp
        refine (show _ ↔ _ from this).trans ((ih n k).trans ?_)
        constructor
        · rintro ⟨h1, h2⟩
          refine ⟨h1, fun m hm q hq => ?_⟩
          cases m with
          | zero => cases hq; exact h0
          | succ m => exact h2 m (by omega) q hq
        · rintro ⟨h1, h2⟩
          exact ⟨h1, fun m hm q hq => h2 (m + 1) (by omega) q hq⟩

/-! ### Session kfuncs -/

theorem patch_eq (c r : Nat) (p : Prog) : patchSession c r p = inject (inject (p.map (sessionCall c r)) sCookie []) sIsRet [] := rfl

theorem call_ref (c r : Nat) (i : Insn) : (sessionCall c r i).ref ≠ some sCookie ∧ (sessionCall c r i).ref ≠ some sIsRet := by
  unfold sessionCall
  split
  · simp
  · split
    · simp
    · constructor <;> assumption

/-- No program refers to one of the two stubs afterwards. -/
theorem session_no_stub_calls (c r : Nat) (p : Prog) (i : Insn) (h : i ∈ patchSession c r p) :
    i.ref ≠ some sCookie ∧ i.ref ≠ some sIsRet := by
  rw [patch_eq] at h
  rcases inject_mem h with ⟨k, hk, _, e⟩ | h
  · rcases inject_mem hk with ⟨k', hk', _, e'⟩ | h
    · obtain ⟨j, _, rfl⟩ := List.mem_map.mp hk'
      rw [e, e']
      exact call_ref c r j
    · simp at h
  · simp at h

theorem map_keeps {p : Prog} {t : Str} {body : Prog} {f : Insn → Insn} (ht : FunAt p t body)
    (h1 : ∀ i ∈ p, i.sym.isSome → (f i).sym = i.sym) (h2 : ∀ i, (f i).sym = i.sym ∨ (f i).sym = none) :
    FunAt (p.map f) t (body.map f) := by
  obtain ⟨pre, post, fi, tl, hb, hp, hf, hpre, hpost⟩ := ht
  refine ⟨pre.map f, post.map f, f fi, tl.map f, by rw [hb]; rfl, by rw [hp]; simp, ?_, ?_, ?_⟩
  · rw [h1 fi (by rw [hp, hb]; simp) (by simp [hf]), hf]
  · intro i hi
    obtain ⟨k, hk, rfl⟩ := List.mem_map.mp hi
    rcases h2 k with h | h
    · rw [h]; exact hpre k hk
    · rw [h]; simp
  · rcases hpost with rfl | ⟨i, r, rfl, h⟩
    · exact Or.inl rfl
    · exact Or.inr ⟨f i, r.map f, rfl, by rw [h1 i (by rw [hp]; simp) h]; exact h⟩

theorem call_sym (c r : Nat) (i : Insn) : (sessionCall c r i).sym = i.sym ∨ (sessionCall c r i).sym = none := by
  unfold sessionCall
  split
  · exact Or.inr rfl
  · split
    · exact Or.inr rfl
    · exact Or.inl rfl

/-- Every other function of the program stays as it is, but its calls of the stubs become calls of the kernel functions:
the cookie stub's of the cookie kfunc, the other's of the other. Functions do not begin with such a call. -/
theorem session_patched {c r : Nat} {p : Prog} {t : Str} {body : Prog} (ht : FunAt p t body)
    (h1 : ∀ i ∈ p, i.sym.isSome → i.ref ≠ some sCookie ∧ i.ref ≠ some sIsRet)
    (h2 : ∀ i ∈ body, i.sym ≠ some sCookie ∧ i.sym ≠ some sIsRet) :
    FunAt (patchSession c r p) t (body.map (sessionCall c r)) := by
  have hs : ∀ s, (∀ i ∈ body, i.sym ≠ some s) → ∀ i ∈ body.map (sessionCall c r), i.sym ≠ some s := by
    intro s h i hi
    obtain ⟨k, hk, rfl⟩ := List.mem_map.mp hi
    rcases call_sym c r k with e | e
    · rw [e]; exact h k hk
    · rw [e]; simp
  rw [patch_eq]
  refine inject_keeps (inject_keeps (map_keeps ht ?_ (call_sym c r)) (hs _ fun i hi => (h2 i hi).1) (by simp)) (hs _ fun i hi => (h2 i hi).2) (by simp)
  intro i hi hsym
  have := h1 i hi hsym
  simp [sessionCall, this.1, this.2]

/-- The kernel function called in the place of each call. -/
theorem session_calls {c r : Nat} {i : Insn} :
    (i.ref = some sCookie → (sessionCall c r i).op = .kfunc c) ∧ (i.ref = some sIsRet → (sessionCall c r i).op = .kfunc r) ∧
    (i.ref ≠ some sCookie → i.ref ≠ some sIsRet → sessionCall c r i = i) := by
  refine ⟨fun h => by simp [sessionCall, h], fun h => ?_, fun h h' => by simp [sessionCall, h, h']⟩
  have : sIsRet ≠ sCookie := by decide +kernel
  simp [sessionCall, h, this]

example : patchSession 5 6 [⟨some "main".toList, none, .other 0⟩, ⟨none, some sIsRet, .call⟩, ⟨none, some sCookie, .call⟩,
    ⟨some sCookie, none, .other 1⟩, ⟨none, none, .exit⟩, ⟨some sIsRet, none, .other 2⟩, ⟨none, none, .exit⟩] =
    [⟨some "main".toList, none, .other 0⟩, ⟨none, none, .kfunc 6⟩, ⟨none, none, .kfunc 5⟩] := by decide +kernel

end Bpfsnoop.Asm
