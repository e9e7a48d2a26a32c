import Verif.Props.CcDiv

/-
C08 to C11, C15, C16: what the correctness of the compiler means for member chains, bit-fields, narrow values,
pointer arithmetic and comparisons with literals.
-/
namespace Bpfsnoop.Cc

/-! ### C08, C09, C10: member chains -/

/-- One step of a member chain. -/
inductive Step
  | arrow (f : String)
  | dot (f : String)

/-- `e` followed by the steps. -/
def path (e : Expr) : List Step → Expr
  | [] => e
  | .arrow f :: r => path (.arrow e f) r
  | .dot f :: r => path (.dot e f) r

/-- Where an object is: its address, its type, and its bits if it is a bit-field. -/
structure Place where
  addr : BitVec 64
  ty : Ty
  bf : Option (Nat × Nat)
deriving DecidableEq

/-- Member `f` of the struct or union of type `t` at `a`. -/
def inStruct (Γ : Btf) (t : Ty) (f : String) (a : BitVec 64) : Option Place :=
  match Γ.kindOf t with
  | .comp id => (Γ.member id f).map fun mem =>
      { addr := a + BitVec.ofNat 64 mem.byteOff, ty := mem.ty
        bf := if isArray Γ mem.ty || mem.bfSize == 0 then none else some (mem.bitOff % 8, mem.bfSize) }
  | _ => none

/-- Follow the steps; the flag says that a NULL pointer was followed. -/
def locate (Γ : Btf) (m : Mem) : Place → List Step → Option (Place × Bool)
  | p, [] => some (p, false)
  | p, .dot f :: r =>
    if p.bf.isSome then none
    else match inStruct Γ p.ty f p.addr with
      | none => none
      | some q => locate Γ m q r
  | p, .arrow f :: r =>
    if p.bf.isSome then none
    else match Γ.kindOf p.ty with
      | .ptr t =>
        if Γ.sizeOf p.ty = some 8 then
          match inStruct Γ t f (load m 8 p.addr) with
          | none => none
          | some q => (locate Γ m q r).map fun z => (z.1, load m 8 p.addr == 0 || z.2)
        else none
      | _ => none

/-- The value stored at a place: its bytes, or its bits. -/
def Place.read (Γ : Btf) (m : Mem) (p : Place) : BitVec 64 :=
  match p.bf with
  | none => load m (Γ.size0 p.ty) p.addr
  | some (d, n) => BitVec.ofNat 64 ((load m 8 p.addr).toNat / 2 ^ d % 2 ^ n)

/-- What the compiler can read: an integer, enum or pointer of 1, 2, 4 or 8 bytes, or a bit-field that ends within 8
bytes of its first byte (with `bpf_rdonly_cast`, within the size of its type). -/
def Place.readable (o : Opts) (p : Place) : Prop :=
  isScalar o.Γ p.ty = true ∧ okSize o.Γ p.ty = true ∧
  ∀ d n, p.bf = some (d, n) → d + n ≤ 64 ∧ (o.mode = .core → d + n ≤ 8 * o.Γ.size0 p.ty)

theorem locate_ceval {o : Opts} {w : World} : ∀ {r : List Step} {e : Expr} {p q : Place} {nul n0 : Bool},
    locate o.Γ w.mem p r = some (q, nul) → isScalar o.Γ q.ty = true →
    shape o e = some (.obj p.ty p.bf (!isArray o.Γ p.ty) true) → ceval o w e = some (.lv p.addr p.ty p.bf, n0) →
    shape o (path e r) = some (.obj q.ty q.bf true true) ∧
    ceval o w (path e r) = some (.lv q.addr q.ty q.bf, n0 || nul) := by
  intro r
  induction r with
  | nil =>
    intro e p q nul n0 h hq hs hv
    simp only [locate, Option.some.injEq, Prod.mk.injEq] at h
    obtain ⟨rfl, rfl⟩ := h
    have ha : isArray o.Γ p.ty = false := by
      unfold isScalar at hq; unfold isArray
      cases hk : o.Γ.kindOf p.ty <;> simp_all
    rw [ha] at hs
    simp only [path, hs, hv, Bool.or_false, Bool.not_false, and_self]
  | cons x r ih =>
    intro e p q nul n0 h hq hs hv
    cases x with
    | dot f =>
      simp only [locate] at h
      cases hb : p.bf with
      | some z => simp [hb] at h
      | none =>
        simp only [hb, Option.isSome_none] at h
        cases hi : inStruct o.Γ p.ty f p.addr with
        | none => simp [hi] at h
        | some q0 =>
          simp only [hi] at h
          unfold inStruct at hi
          cases hk : o.Γ.kindOf p.ty with
          | comp id =>
            simp only [hk] at hi
            obtain ⟨mem, hm, rfl⟩ := Option.map_eq_some_iff.mp hi
            have ha : isArray o.Γ p.ty = false := by unfold isArray; rw [hk]
            refine ih (e := .dot e f) h hq ?_ ?_
            · simp only [shape, hs, hb, Option.bind_eq_bind, Option.bind_some, memberSh, hk, hm, Option.map_some, ha, bfOf,
                Bool.not_false, Bool.true_and]
            · simp only [ceval, hv, hb, Option.bind_eq_bind, Option.bind_some, memberAt, hk, hm, Option.map_some, bfOf]
          | _ => simp [hk] at hi
    | arrow f =>
      simp only [locate] at h
      cases hb : p.bf with
      | some z => simp [hb] at h
      | none =>
        simp only [hb, Option.isSome_none] at h
        cases hk : o.Γ.kindOf p.ty with
        | ptr t =>
          by_cases h8 : o.Γ.sizeOf p.ty = some 8
          · simp only [hk, h8, if_true] at h
            cases hi : inStruct o.Γ t f (load w.mem 8 p.addr) with
            | none => simp [hi] at h
            | some q0 =>
              simp only [hi] at h
              obtain ⟨⟨q1, n1⟩, h1, h2⟩ := Option.map_eq_some_iff.mp h
              simp only [Prod.mk.injEq] at h2
              obtain ⟨rfl, rfl⟩ := h2
              unfold inStruct at hi
              cases hk' : o.Γ.kindOf t with
              | comp id =>
                simp only [hk'] at hi
                obtain ⟨mem, hm, rfl⟩ := Option.map_eq_some_iff.mp hi
                have ha : isArray o.Γ p.ty = false := by unfold isArray; rw [hk]
                have := ih (e := .arrow e f) (n0 := n0 || load w.mem 8 p.addr == 0) h1 hq ?_ ?_
                · rw [Bool.or_assoc] at this; exact this
                · simp [shape, hs, hb, Sh.target, hk, h8, ha, memberSh, hk', hm, bfOf]
                · simp [ceval, hv, hb, CV.pointer, hk, memberAt, hk', hm, bfOf]
              | _ => simp [hk'] at hi
          · simp [hk, h8] at h
        | _ => simp [hk] at h

/-- Nothing is emitted for a chain and no register is taken while it is evaluated. -/
theorem path_few {o : Opts} : ∀ {r : List Step} {e : Expr}, (∀ s, evaluate o.few e s = evaluate o e s) →
    ∀ s, evaluate o.few (path e r) s = evaluate o (path e r) s := by
  intro r
  induction r with
  | nil => intro e h; exact h
  | cons x r ih =>
    intro e h
    cases x with
    | arrow f =>
      refine ih (e := .arrow e f) fun s => ?_
      simp only [evaluate]
      rw [show evaluate o.few e = evaluate o e from funext h]; rfl
    | dot f =>
      refine ih (e := .dot e f) fun s => ?_
      simp only [evaluate]
      rw [show evaluate o.few e = evaluate o e from funext h]; rfl

theorem path_chain : ∀ {r : List Step} {e : Expr}, chainOnly e = true → chainOnly (path e r) = true := by
  intro r
  induction r with
  | nil => intro e h; exact h
  | cons x r ih => intro e h; cases x <;> exact ih h

theorem path_state {o : Opts} : ∀ {r : List Step} {e : Expr}, (∀ s v s' c, evaluate o e s = .ok (v, s', c) → s' = s) →
    ∀ s v s' c, evaluate o (path e r) s = .ok (v, s', c) → s' = s := by
  intro r
  induction r with
  | nil => intro e h; exact h
  | cons x r ih =>
    intro e h
    cases x with
    | arrow f =>
      refine ih (e := .arrow e f) fun s v s' c hv => ?_
      simp only [evaluate] at hv
      obtain ⟨b, s1, c1, c2, h1, h2, _⟩ := bind_ok hv
      have := h _ _ _ _ h1
      subst this
      exact (accessMember_nil h2).2
    | dot f =>
      refine ih (e := .dot e f) fun s v s' c hv => ?_
      simp only [evaluate] at hv
      obtain ⟨b, s1, c1, c2, h1, h2, _⟩ := bind_ok hv
      have := h _ _ _ _ h1
      subst this
      exact (accessMember_nil h2).2

theorem materialize_few {o : Opts} (hlo : o.lo = 0) {s : CSt} (ha : alloc 6 s.used = alloc 0 s.used) (v : Val) :
    materialize o.few v s = materialize o v s := by
  have hal : allocM o.few s = allocM o s := by simp only [allocM, hlo, show o.few.lo = 6 from rfl, ha]
  cases v with
  | mat r t m => rfl
  | enumMaybe x t => rfl
  | const n t =>
    simp only [materialize]
    cases h : allocM o s with
    | error e => simp only [Bind.bind, hal, h]
    | ok q => simp only [Bind.bind, hal, h]
  | pend b offs t m =>
    have hch : ∀ r, emitOffsetChain o.few offs r = emitOffsetChain o offs r := by
      intro r
      have := chain_low o.few offs r
      rw [few_low hlo] at this
      exact this.symm
    simp only [materialize, hch]
    cases h : allocM o s with
    | error e => simp only [Bind.bind, hal, h]
    | ok q => simp only [Bind.bind, hal, h]; rfl

theorem path_live {o : Opts} (hlo : o.lo = 0) {v : String} {r : List Step} {f : Bool} {p : EvalRes}
    (h : compileEval o [8, 9] f (path (.name v) r) = .ok p) : compileEval o.few [8, 9] f (path (.name v) r) = .ok p := by
  have hst := path_state (o := o) (r := r) (e := .name v) (fun s x s' c h => (pure_ok h).2.1)
  rw [← h]
  unfold compileEval
  have hm : markAll noRegs [8, 9] = some (setReg (setReg noRegs 8 true) 9 true) := rfl
  simp only [hm]
  rw [path_few fun s => rfl]
  cases he : evaluate o (path (.name v) r) { used := setReg (setReg noRegs 8 true) 9 true, exitUsed := false } with
  | error x => rfl
  | ok q =>
    obtain ⟨val, s, body⟩ := q
    have := hst _ _ _ _ he
    subst this
    cases val with
    | const n t => rfl
    | _ => simp only; rw [materialize_few hlo rfl]

/-- C08, C09, C10: for an argument `v` that is a pointer to a struct, the code for `v->f` followed by any steps
`->g` or `.g` leaves in the announced register exactly the bytes (or bits) stored at the place the steps lead to,
zero-extended, in every read mode; it leaves for the exit label if a NULL pointer has to be followed. -/
theorem member_chain_reads_partial {o : Opts} {v : String} {g : String} {r : List Step} {f : Bool} {p : EvalRes} {w : World}
    {st : St} {i : Nat} {t t0 : Ty} {q0 q : Place} {nul : Bool}
    (hlo : o.lo = 0) (hc : compileEval o [8, 9] f (path (.name v) (.arrow g :: r)) = .ok p)
    (hex : Exact p.code) (hargs : ArgsAt o w (st.regs 9)) (hw : WordReadable w.mem)
    (hname : v ≠ "NULL" ∧ v ≠ "false" ∧ v ≠ "true") (hv : findVar v o.vars 0 = some (i, t))
    (ht : o.Γ.kindOf t = .ptr t0) (h8 : o.Γ.sizeOf t = some 8)
    (hfirst : inStruct o.Γ t0 g (w.arg i) = some q0) (hloc : locate o.Γ w.mem q0 r = some (q, nul))
    (hr : q.readable o) :
    (nul = false → ∃ st', exec w.mem p.code st = .done st' ∧ st'.regs p.reg = q.read o.Γ w.mem) ∧
    (nul = true → ∃ st', exec w.mem p.code st = .exit st') := by
  have hsc : isScalar o.Γ t = true := by simp [isScalar, ht]
  have hok : okSize o.Γ t = true := by simp [okSize, h8]
  have hs : shape o (.name v) = some (.lazy t) := by
    simp only [shape, nameSh]
    rw [if_neg (not_or.mpr ⟨hname.1, hname.2.1⟩), if_neg hname.2.2]
    simp [hv, hsc, hok]
  have hcv : ceval o w (.name v) = some (.rv (w.arg i) (some t) false, false) := by
    simp only [ceval, nameC]
    rw [if_neg (not_or.mpr ⟨hname.1, hname.2.1⟩), if_neg hname.2.2]
    simp [hv, convert, h8]
  unfold inStruct at hfirst
  cases hk' : o.Γ.kindOf t0 with
  | comp id =>
    simp only [hk'] at hfirst
    obtain ⟨mem, hm, rfl⟩ := Option.map_eq_some_iff.mp hfirst
    obtain ⟨hr1, hr2, hr3⟩ := hr
    obtain ⟨hs', hcv'⟩ := locate_ceval (o := o) (w := w) (e := .arrow (.name v) g) (n0 := false) hloc hr1
      (by simp [shape, nameSh] at hs ⊢
          simp [hs, Sh.target, ht, h8, memberSh, hk', hm, bfOf])
      (by simp only [ceval] at hcv ⊢
          simp [hcv, CV.pointer, ht, memberAt, hk', hm, bfOf])
    have hu : (Sh.obj q.ty q.bf true true).usable o = true := by
      cases hb : q.bf with
      | none => simp [Sh.usable, hr1, hr2]
      | some z =>
        obtain ⟨d, n⟩ := z
        obtain ⟨h1, h2⟩ := hr3 d n hb
        cases hmode : o.mode <;> simp [Sh.usable, hr1, hr2, h1, hmode]
        exact h2 hmode
    obtain ⟨x, nul', hm1, h1, h2⟩ := eval_computes_partial hlo hc (.inr ⟨_, path_live hlo hc⟩) hs' hu rfl hex hargs hw
    have hval : (CV.lv q.addr q.ty q.bf).value o.Γ w.mem = some (q.read o.Γ w.mem) := by
      cases hb : q.bf with
      | some z => obtain ⟨d, n⟩ := z; simp [CV.value, Place.read, hb, bitsAt]
      | none =>
        unfold isScalar at hr1
        unfold okSize at hr2
        simp only [Bool.or_eq_true, beq_iff_eq] at hr2
        simp only [CV.value, Place.read, hb, Btf.size0]
        cases hk : o.Γ.kindOf q.ty <;> simp [hk] at hr1 <;> rcases hr2 with ((h | h) | h) | h <;> simp [h]
    have hpath : path (.name v) (.arrow g :: r) = path (.arrow (.name v) g) r := rfl
    rw [meaning, hpath, hcv'] at hm1
    simp only [Option.bind_some, hval, Option.map_some, Option.some.injEq, Prod.mk.injEq, Bool.false_or] at hm1
    obtain ⟨rfl, rfl⟩ := hm1
    exact ⟨fun h => let ⟨st', ha, hb, _⟩ := h1 h; ⟨st', ha, hb⟩, h2⟩
  | _ => simp [hk'] at hfirst

/-! ### C16: comparisons with literals -/

/-- The width in bits of an argument, an address or an object of 1, 2, 4 or 8 bytes, or of a bit-field. -/
def Sh.width (Γ : Btf) : Sh → Option Nat
  | .lazy t => if okSize Γ t then some (8 * Γ.size0 t) else none
  | .obj _ (some (_, k)) _ _ => some k
  | .obj t none _ _ => if okSize Γ t then some (8 * Γ.size0 t) else none
  | _ => none

/-- Unsigned comparison. -/
def compares : Bop → Nat → Nat → Bool
  | .eq, x, y => x == y
  | .ne, x, y => x != y
  | .lt, x, y => x < y
  | .le, x, y => x ≤ y
  | .gt, x, y => x > y
  | .ge, x, y => x ≥ y
  | _, _, _ => false

theorem lit_exists (n : BitVec 64) : ∃ k, litVal k = some n := by
  have : ∀ m : Nat, ∃ k, litVal k = some (BitVec.ofNat 64 m) := by
    intro m
    induction m with
    | zero => exact ⟨.num ['0'], rfl⟩
    | succ m ih =>
      obtain ⟨k, hk⟩ := ih
      refine ⟨.bin .add k (.num ['1']), ?_⟩
      have h1 : litVal (.num ['1']) = some 1 := rfl
      simp only [litVal, hk] at h1 ⊢
      rw [h1]
      simp only [onConsts, BitVec.ofNat_add]
      rfl
  obtain ⟨k, hk⟩ := this n.toNat
  exact ⟨k, by rw [hk]; simp⟩

theorem lit_shape {o : Opts} : ∀ {k : Expr} {n : BitVec 64}, litVal k = some n → shape o k = some (.num n none) := by
  intro k
  induction k with
  | num text => intro n h; simp only [litVal] at h; simp [shape, h]
  | un op e ih =>
    intro n h
    simp only [litVal, Option.map_eq_some_iff] at h
    obtain ⟨k, hk, rfl⟩ := h
    simp only [shape, ih hk, Option.bind_eq_bind, Option.bind_some]
    cases op <;> rfl
  | bin op l r ihl ihr =>
    intro n h
    simp only [litVal] at h
    cases ha : litVal l with
    | none => simp [ha] at h
    | some a =>
      cases hb : litVal r with
      | none => simp [ha, hb] at h
      | some b =>
        simp only [ha, hb] at h
        simp [shape, ihl ha, ihr hb, binSh, resolveSh, h]
  | _ => intro n h; simp [litVal] at h

theorem lit_ceval {o : Opts} {w : World} : ∀ {k : Expr} {n : BitVec 64}, litVal k = some n →
    ceval o w k = some (.num n none, false) := by
  intro k
  induction k with
  | num text => intro n h; simp only [litVal] at h; simp [ceval, h]
  | un op e ih =>
    intro n h
    simp only [litVal, Option.map_eq_some_iff] at h
    obtain ⟨k, hk, rfl⟩ := h
    simp only [ceval, ih hk, Option.bind_eq_bind, Option.bind_some]
    cases op <;> rfl
  | bin op l r ihl ihr =>
    intro n h
    simp only [litVal] at h
    cases ha : litVal l with
    | none => simp [ha] at h
    | some a =>
      cases hb : litVal r with
      | none => simp [ha, hb] at h
      | some b =>
        simp only [ha, hb] at h
        simp [ceval, ihl ha, ihr hb, binC, resolve, h]
  | _ => intro n h; simp [litVal] at h

theorem and_mask (n : BitVec 64) (k : Nat) (hk : k ≤ 64) : n &&& BitVec.ofNat 64 (2 ^ k - 1) = BitVec.ofNat 64 (n.toNat % 2 ^ k) := by
  apply BitVec.eq_of_toNat_eq
  have hn := n.isLt
  have hp : 2 ^ k ≤ 2 ^ 64 := Nat.pow_le_pow_right (by decide) hk
  have hpos : 0 < 2 ^ k := Nat.two_pow_pos k
  have hm : n.toNat % 2 ^ k ≤ n.toNat := Nat.mod_le _ _
  rw [BitVec.toNat_and, BitVec.toNat_ofNat, BitVec.toNat_ofNat, Nat.mod_eq_of_lt (by omega : 2 ^ k - 1 < 2 ^ 64),
    Nat.mod_eq_of_lt (by omega : n.toNat % 2 ^ k < 2 ^ 64)]
  exact Nat.and_two_pow_sub_one_eq_mod n.toNat k

/-- `adjustNum` cuts a constant to the width of the other operand. -/
theorem adjust_width {o : Opts} {w : World} {st : St} {v : Val} {σ : Sh} {cv : CV} {nul : Bool} {k : Nat}
    (h : Rep o w st v σ cv nul) (hk : σ.width o.Γ = some k) (hu : σ.usable o = true) (n : BitVec 64) :
    (∃ b offs t m, v = .pend b offs t m) ∧ adjustNum o.Γ n v.ty v.mem = BitVec.ofNat 64 (n.toNat % 2 ^ k) := by
  have size : ∀ (t : Ty) (m : Option Member), okSize o.Γ t = true → isBf m = false →
      adjustNum o.Γ n (some t) m = BitVec.ofNat 64 (n.toNat % 2 ^ (8 * o.Γ.size0 t)) := by
    intro t m ht hm
    obtain ⟨s, hs, h⟩ := okSize_iff ht
    unfold adjustNum
    rw [if_neg (by rw [hm]; simp)]
    simp only [Btf.sizeO, Btf.size0, hs, Option.getD_some]
    rcases h with rfl | rfl | rfl | rfl
    · exact and_mask n 8 (by decide)
    · exact and_mask n 16 (by decide)
    · exact and_mask n 32 (by decide)
    · rw [Nat.mod_eq_of_lt n.isLt]; simp
  cases σ with
  | lazy t =>
    obtain ⟨b, offs, m, rfl, hm, _⟩ := h
    simp only [Sh.width] at hk
    split at hk
    · rename_i hok
      obtain rfl := Option.some.inj hk
      exact ⟨⟨_, _, _, _, rfl⟩, size t m hok hm⟩
    · simp at hk
  | obj t bf loads cst =>
    obtain ⟨b, pre, z, m, rfl, hm, _⟩ := h
    refine ⟨⟨_, _, _, _, rfl⟩, ?_⟩
    cases bf with
    | none =>
      simp only [Sh.width] at hk
      split at hk
      · rename_i hok
        obtain rfl := Option.some.inj hk
        exact size t m hok hm
      · simp at hk
    | some p =>
      obtain ⟨d, k'⟩ := p
      obtain rfl := Option.some.inj hk
      obtain ⟨mem, rfl, hb, rfl, rfl⟩ := hm
      unfold adjustNum
      rw [if_pos (by simp [Val.mem, isBf, hb])]
      simp only [Val.mem, Option.map_some, Option.getD_some]
      rw [mask_and, bits, Nat.pow_zero, Nat.div_one]
  | _ => simp [Sh.width] at hk

theorem fits_width {o : Opts} {σ : Sh} {wd : Nat} (h : σ.width o.Γ = some wd) (n : BitVec 64) :
    fits o.Γ (BitVec.ofNat 64 (n.toNat % 2 ^ wd)) σ = true := by
  have hlt : ∀ k, n.toNat % 2 ^ k < 2 ^ 64 := fun k => Nat.lt_of_le_of_lt (Nat.mod_le _ _) n.isLt
  have hm : ∀ k, k ≤ 64 → BitVec.ofNat 64 (n.toNat % 2 ^ k) &&& BitVec.ofNat 64 (2 ^ k - 1) = BitVec.ofNat 64 (n.toNat % 2 ^ k) := by
    intro k hk
    rw [and_mask _ _ hk, BitVec.toNat_ofNat, Nat.mod_eq_of_lt (hlt k), Nat.mod_mod]
  have size : ∀ t, okSize o.Γ t = true → (match o.Γ.sizeO (some t) with
      | 1 => BitVec.ofNat 64 (n.toNat % 2 ^ (8 * o.Γ.size0 t)) &&& 0xFF == BitVec.ofNat 64 (n.toNat % 2 ^ (8 * o.Γ.size0 t))
      | 2 => BitVec.ofNat 64 (n.toNat % 2 ^ (8 * o.Γ.size0 t)) &&& 0xFFFF == BitVec.ofNat 64 (n.toNat % 2 ^ (8 * o.Γ.size0 t))
      | 4 => BitVec.ofNat 64 (n.toNat % 2 ^ (8 * o.Γ.size0 t)) &&& 0xFFFFFFFF == BitVec.ofNat 64 (n.toNat % 2 ^ (8 * o.Γ.size0 t))
      | _ => true) = true := by
    intro t ht
    obtain ⟨s, hs, h⟩ := okSize_iff ht
    simp only [Btf.sizeO, Btf.size0, hs, Option.getD_some]
    rcases h with rfl | rfl | rfl | rfl
    · exact beq_iff_eq.mpr (hm 8 (by decide))
    · exact beq_iff_eq.mpr (hm 16 (by decide))
    · exact beq_iff_eq.mpr (hm 32 (by decide))
    · rfl
  cases σ with
  | lazy t =>
    simp only [Sh.width] at h
    split at h
    · obtain rfl := Option.some.inj h
      rename_i hok
      exact size t hok
    · simp at h
  | obj t bf loads cst =>
    cases bf with
    | none =>
      simp only [Sh.width] at h
      split at h
      · obtain rfl := Option.some.inj h
        rename_i hok
        exact size t hok
      · simp at h
    | some z =>
      obtain ⟨d, k⟩ := z
      obtain rfl := Option.some.inj h
      simp only [fits, beq_iff_eq]
      rw [mask_and, bits, Nat.pow_zero, Nat.div_one, BitVec.toNat_ofNat, Nat.mod_eq_of_lt (hlt _), Nat.mod_mod]
  | _ => simp [Sh.width] at h

theorem bind_silent {α β : Type} {x : CM α} {f : α → CM β} {s s1 : CSt} {a : α} (h : x s = .ok (a, s1, [])) :
    (x >>= f) s = f a s1 := by
  rw [cm_bind_run h]
  cases f a s1 with
  | error e => rfl
  | ok q => rfl

theorem comparison_topOp {op : Bop} (h : op.cmp? ≠ none) (l r : Expr) : topOp (.bin op l r) = true := by
  cases op <;> simp_all [Bop.cmp?, topOp]

theorem literal_aux {o : Opts} {op : Bop} {e k : Expr} {n : BitVec 64} {σ : Sh} {wd : Nat} {p : Prog} {w : World} {st : St}
    (hc : compileFilter o (.bin op e k) = .ok p) (hlo : LoOK o initFilter.used) (hop : op.cmp? ≠ none)
    (hk : litVal k = some n) (hσ : shape o e = some σ) (hu : σ.usable o = true) (hwd : σ.width o.Γ = some wd)
    (hex : Exact p.code) (hargs : ArgsAt o w (st.regs 1)) (hw : WordReadable w.mem) :
    ∃ x nul, meaning o w e = some (x, nul) ∧
      (nul = false → ∀ fuel, p.code.length ≤ fuel →
        p.run w.mem fuel 0 st = some (if compares op x.toNat (n.toNat % 2 ^ wd) then 1 else 0)) ∧
      (nul = true → ∀ fuel, p.code.length ≤ fuel → p.run w.mem fuel 0 st = some 0) := by
  obtain ⟨cv, nul, x, hcv, hx, hm⟩ := usable_meaning w hσ hu
  refine ⟨x, nul, hm, ?_⟩
  obtain ⟨r, t, s, body, y, hev, hfb, hy, hrun⟩ := filter_run hc (exact_fits hex) w.mem st
  obtain ⟨htop, r', t', s', body', y', hev', _, _, hp⟩ := compileFilter_ok hc
  rw [hev] at hev'
  simp only [Except.ok.injEq, Prod.mk.injEq] at hev'
  obtain ⟨_, _, rfl⟩ := hev'
  have hexb : Exact body := by
    intro i hi
    apply hex
    rw [hp]
    simp [hi]
  have env : Env o w (st.regs 1) := ⟨hargs, hw⟩
  have hev2 := hev
  simp only [evaluate] at hev2
  obtain ⟨v, s1, c1, c2, h1, h2, rfl⟩ := bind_ok hev2
  rw [exact_append] at hexb
  have h9 : initFilter.used 9 = true := by simp [initFilter, setReg]
  rcases evaluate_correct env e h1 hσ hcv hexb.1 h9 hlo (st := st.set 9 (st.regs 1)) (set_same _ _ _) with
    ⟨rfl, st1, h3⟩ | ⟨_, st1, h3, _, hrep⟩
  · refine ⟨by simp, fun _ => ?_⟩
    have hy0 : y = 0 := by
      rcases hy with rfl | ⟨_, l, r, h⟩
      · rfl
      · simp only [Expr.bin.injEq] at h; rw [h.1] at hop; simp [Bop.cmp?] at hop
    subst hy0
    rcases hrun with ⟨st2, h4, _⟩ | ⟨st2, _, h5⟩
    · rw [exec_append_exit h3] at h4; simp at h4
    · exact h5
  · obtain ⟨⟨b, offs, ty, m, rfl⟩, had⟩ := adjust_width hrep hwd hu n
    obtain ⟨k', hk'⟩ := lit_exists (BitVec.ofNat 64 (n.toNat % 2 ^ wd))
    -- the same program for the literal that is already cut
    have hidem : adjustNum o.Γ (BitVec.ofNat 64 (n.toNat % 2 ^ wd)) (some ty) m = BitVec.ofNat 64 (n.toNat % 2 ^ wd) := by
      have := (adjust_width hrep hwd hu (BitVec.ofNat 64 (n.toNat % 2 ^ wd))).2
      simp only [Val.ty, Val.mem] at this
      rw [this, BitVec.toNat_ofNat, Nat.mod_eq_of_lt (a := n.toNat % 2 ^ wd)
        (Nat.lt_of_le_of_lt (Nat.mod_le _ _) n.isLt), Nat.mod_mod]
    have hsame : evaluate o (.bin op e k') initFilter = evaluate o (.bin op e k) initFilter := by
      simp only [evaluate]
      rw [cm_bind_run h1, cm_bind_run h1, cm_bind_run (litVal_evaluate o s1 hk), cm_bind_run (litVal_evaluate o s1 hk')]
      have : ∀ N, adjustNum o.Γ N (some ty) m = BitVec.ofNat 64 (n.toNat % 2 ^ wd) →
          binVals o op (.pend b offs ty m) (.const N none) s1 =
          (match op.cmp? with
            | some cm => (do
              checkCalc o (.pend b offs ty m)
              unRun o (.pend b offs ty m) fun rl => .jmpImm (negCmp cm) rl (BitVec.ofNat 64 (n.toNat % 2 ^ wd)) 2 :: reg2bool rl) s1
            | none => binVals o op (.pend b offs ty m) (.const N none) s1) := by
        intro N hN
        have hres : resolveEnums o (.pend b offs ty m) (.const N none) s1 =
            .ok ((.pend b offs ty m, .const N none), s1, []) := rfl
        have hbv : ∀ cm, op.cmp? = some cm → binVals o op (.pend b offs ty m) (.const N none) s1 =
            cmpVals o cm (.pend b offs ty m) (.const N none) s1 := by
          intro cm hcm
          unfold binVals
          rw [bind_silent hres]
          cases op <;> simp only [Bop.cmp?, Option.some.injEq, reduceCtorEq] at hcm <;> subst hcm <;> rfl
        cases hcm : op.cmp? with
        | none => rfl
        | some cm =>
          simp only
          rw [hbv cm hcm]
          unfold cmpVals
          simp only [adjustNums, hN]
      simp only [Val.ty, Val.mem] at had
      rw [this n had, this _ hidem]
      cases hcm : op.cmp? with
      | none => exact absurd hcm hop
      | some cm => rfl
    have hc' : compileFilter o (.bin op e k') = .ok p := by
      rw [← hc]
      unfold compileFilter
      rw [comparison_topOp hop, comparison_topOp hop, hsame]
    have hfit := fits_width hwd n
    have hs' : (shape o (.bin op e k')).isSome := by
      have hnn : ∃ σ', runSh o op σ (.num (BitVec.ofNat 64 (n.toNat % 2 ^ wd)) none) = some σ' := by
        cases op <;> simp [Bop.cmp?] at hop <;> cases σ <;> first
          | (simp [Sh.width] at hwd; done)
          | exact ⟨_, if_pos hfit⟩
      obtain ⟨σ', hσ'⟩ := hnn
      have : binSh o op σ (.num (BitVec.ofNat 64 (n.toNat % 2 ^ wd)) none) = some σ' := by
        cases σ with
        | lazy t => simp only [binSh, resolveSh, Option.bind_eq_bind, Option.bind_some]; rw [hu]; exact hσ'
        | obj t bf l c => simp only [binSh, resolveSh, Option.bind_eq_bind, Option.bind_some]; rw [hu]; exact hσ'
        | _ => simp [Sh.width] at hwd
      simp only [shape, hσ, lit_shape hk', Option.bind_eq_bind, Option.bind_some, this, Option.isSome_some]
    obtain ⟨z, nul', hz, h4, h5⟩ := filter_computes_aux hc' hlo hs' hex hargs hw
    have hmz : meaning o w (.bin op e k') = some (if compares op x.toNat (n.toNat % 2 ^ wd) then 1 else 0, nul) := by
      have hcvk : (∃ y t l, cv = .rv y t l) ∨ (∃ a t b, cv = .lv a t b) := by
        cases σ with
        | lazy t => obtain ⟨_, _, _, _, _, _, _, _, h, _⟩ := hrep; exact .inl ⟨_, _, _, h⟩
        | obj t bf l c =>
          obtain ⟨_, _, _, _, _, _, _, _, _, _, _, _, h | ⟨_, _, _, _, h⟩⟩ := hrep
          · exact .inr ⟨_, _, _, h⟩
          · exact .inl ⟨_, _, _, h⟩
        | _ => simp [Sh.width] at hwd
      have hon : onValues op (stride o.Γ cv.ty) (stride o.Γ none) x (BitVec.ofNat 64 (n.toNat % 2 ^ wd)) =
          some (if compares op x.toNat (n.toNat % 2 ^ wd) then 1 else 0) := by
        have hlt : n.toNat % 2 ^ wd < 2 ^ 64 := Nat.lt_of_le_of_lt (Nat.mod_le _ _) n.isLt
        have htn : (BitVec.ofNat 64 (n.toNat % 2 ^ wd)).toNat = n.toNat % 2 ^ wd := by
          rw [BitVec.toNat_ofNat, Nat.mod_eq_of_lt hlt]
        have heq : x = BitVec.ofNat 64 (n.toNat % 2 ^ wd) ↔ x.toNat = n.toNat % 2 ^ wd := by
          rw [← BitVec.toNat_inj, htn]
        cases op <;> simp [Bop.cmp?] at hop <;> simp only [onValues, compares, htn, heq, Option.some.injEq]
        · by_cases h : x.toNat = n.toNat % 2 ^ wd <;> simp [h]
        · by_cases h : x.toNat = n.toNat % 2 ^ wd <;> simp [h]
        all_goals simp
      have : binC o.Γ w.mem op cv (.num (BitVec.ofNat 64 (n.toNat % 2 ^ wd)) none) =
          some (.rv (if compares op x.toNat (n.toNat % 2 ^ wd) then 1 else 0) (binTy o.Γ op cv.isNum cv.ty none) false) := by
        rcases hcvk with ⟨y, t, l, rfl⟩ | ⟨a, t, b, rfl⟩
        · simp only [binC, resolve, Option.bind_eq_bind, Option.bind_some, hx]
          simp only [CV.value, CV.ty, Option.bind_some] at hon ⊢
          rw [hon]; rfl
        · simp only [binC, resolve, Option.bind_eq_bind, Option.bind_some, hx]
          simp only [CV.ty] at hon ⊢
          rw [show CV.value o.Γ w.mem (.num (BitVec.ofNat 64 (n.toNat % 2 ^ wd)) none) = some (BitVec.ofNat 64 (n.toNat % 2 ^ wd)) from rfl]
          simp only [Option.bind_some]
          rw [hon]; rfl
      simp only [meaning, ceval, hcv, lit_ceval hk', Option.bind_eq_bind, Option.bind_some, this, CV.value,
        Option.map_some, Bool.or_false]
    rw [hmz] at hz
    simp only [Option.some.injEq, Prod.mk.injEq] at hz
    obtain ⟨rfl, rfl⟩ := hz
    refine ⟨fun h => (h4 h).2, fun h => ?_⟩
    obtain ⟨y, hy, h6⟩ := h5 h
    rcases hy with rfl | ⟨_, l, r, h⟩
    · exact h6
    · simp only [Expr.bin.injEq] at h; rw [h.1] at hop; simp [Bop.cmp?] at hop

/-- C16: comparing an argument, a member or a bit-field of `wd` bits with a literal expression of value `n` answers
whether its bits compare, unsigned, with the low `wd` bits of `n`, if that literal is encoded without loss. -/
theorem literal_compared_at_width_partial {o : Opts} {op : Bop} {e k : Expr} {n : BitVec 64} {σ : Sh} {wd : Nat} {p : Prog}
    {w : World} {st : St} (hlo : o.lo = 0) (hc : compileFilter o (.bin op e k) = .ok p) (hlive : FewLive o (.bin op e k))
    (hop : op = .eq ∨ op = .ne ∨ op = .lt ∨ op = .le ∨ op = .gt ∨ op = .ge)
    (hk : litVal k = some n) (hσ : shape o e = some σ) (hu : σ.usable o = true) (hwd : σ.width o.Γ = some wd)
    (hex : Exact p.code) (hargs : ArgsAt o w (st.regs 1)) (hw : WordReadable w.mem) :
    ∃ x nul, meaning o w e = some (x, nul) ∧
      (nul = false → ∀ fuel, p.code.length ≤ fuel →
        p.run w.mem fuel 0 st = some (if compares op x.toNat (n.toNat % 2 ^ wd) then 1 else 0)) ∧
      (nul = true → ∀ fuel, p.code.length ≤ fuel → p.run w.mem fuel 0 st = some 0) := by
  have hop : op.cmp? ≠ none := by rcases hop with rfl | rfl | rfl | rfl | rfl | rfl <;> simp [Bop.cmp?]
  rcases hlive with hd | ⟨q, hq⟩
  · exact literal_aux hc (.inl hd) hop hk hσ hu hwd hex hargs hw
  · have := compileFilter_low hq
    rw [few_low hlo, hc] at this
    obtain rfl := Except.ok.inj this
    have := literal_aux (o := o.few) (w := w) (st := st) hq
      (.inr ⟨Nat.le_refl _, fun r hr => by simp only [initFilter, setReg, noRegs]; rw [if_neg (by omega)]⟩)
      hop hk (by rw [shape_few]; exact hσ) (by rw [usable_few]; exact hu) hwd hex hargs hw
    simp only [meaning, ceval_few] at this
    exact this

/-- `c == 300` for a 1-byte argument `c` meets the hypotheses; it is true for 44. -/
theorem literal_width_witness (mode : Mode) :
    ∃ p, compileFilter (vOpts mode) (.bin .eq (V "c") (N "300")) = .ok p ∧ FewLive (vOpts mode) (.bin .eq (V "c") (N "300")) ∧
      litVal (N "300") = some 300 ∧ shape (vOpts mode) (V "c") = some (.lazy (.base 1)) ∧
      (Sh.lazy (.base 1)).usable (vOpts mode) = true ∧ (Sh.lazy (.base 1)).width (vOpts mode).Γ = some 8 ∧ Exact p.code ∧
      compares .eq 44 (300 % 2 ^ 8) = true := by
  cases mode
  · exact ⟨_, rfl, .inr ⟨_, rfl⟩, rfl, rfl, rfl, rfl, by decide +kernel, by decide⟩
  · exact ⟨_, rfl, .inr ⟨_, rfl⟩, rfl, rfl, rfl, rfl, by decide +kernel, by decide⟩
  · exact ⟨_, rfl, .inr ⟨_, rfl⟩, rfl, rfl, rfl, rfl, by decide +kernel, by decide⟩

/-- `skb->dev->ifindex` meets the hypotheses of `member_chain_reads_partial`. -/
theorem member_chain_witness (mode : Mode) :
    ∃ p q0 q, compileEval (exOpts mode) [8, 9] false (path (.name "skb") [.arrow "dev", .arrow "ifindex"]) = .ok p ∧
      Exact p.code ∧ findVar "skb" (exOpts mode).vars 0 = some (0, .ptr (.base 0)) ∧
      inStruct (exOpts mode).Γ (.base 0) "dev" ((exWorld 0x2000 5).arg 0) = some q0 ∧
      locate (exOpts mode).Γ (exWorld 0x2000 5).mem q0 [.arrow "ifindex"] = some (q, false) ∧ q.readable (exOpts mode) ∧
      q.read (exOpts mode).Γ (exWorld 0x2000 5).mem = 5 := by
  have hloc : ∃ q0 q, inStruct exBtf (.base 0) "dev" ((exWorld 0x2000 5).arg 0) = some q0 ∧
      locate exBtf (exWorld 0x2000 5).mem q0 [.arrow "ifindex"] = some (q, false) ∧
      (∀ mode, q.readable (exOpts mode)) ∧ q.read exBtf (exWorld 0x2000 5).mem = 5 := by
    refine ⟨_, ⟨0x20D0, .base 2, none⟩, rfl, ?_, ?_, ?_⟩
    · decide +kernel
    · intro mode
      exact ⟨rfl, rfl, by simp⟩
    · decide +kernel
  obtain ⟨q0, q, h1, h2, h3, h4⟩ := hloc
  cases mode
  · exact ⟨_, q0, q, rfl, by decide +kernel, rfl, h1, h2, h3 _, h4⟩
  · exact ⟨_, q0, q, rfl, by decide +kernel, rfl, h1, h2, h3 _, h4⟩
  · exact ⟨_, q0, q, rfl, by decide +kernel, rfl, h1, h2, h3 _, h4⟩

/-! ### C15: pointer arithmetic -/

theorem addConstSh_lazy {o : Opts} {σ σ' : Sh} {n : BitVec 64} (h : addConstSh o σ n = some σ') : ∃ t, σ' = .lazy t := by
  unfold addConstSh at h
  split at h
  · simp at h
  · split at h
    · split at h
      · exact ⟨_, (Option.some.inj h).symm⟩
      · simp at h
    · split at h
      · exact ⟨_, (Option.some.inj h).symm⟩
      · simp at h
    · simp at h

theorem addSub_shape {o : Opts} {op : Bop} {l r σ : Sh} (hop : op = .add ∨ op = .sub) (h : runSh o op l r = some σ) :
    σ.usable o = true ∧ σ.isNum = false := by
  have lz : ∀ {τ : Sh} {n : BitVec 64}, addConstSh o τ n = some σ → σ.usable o = true ∧ σ.isNum = false := by
    intro τ n h
    obtain ⟨t, rfl⟩ := addConstSh_lazy h
    exact ⟨rfl, rfl⟩
  rcases hop with rfl | rfl
  · simp only [runSh] at h
    split at h
    all_goals split at h
    all_goals first
      | (simp at h; done)
      | exact lz h
      | (obtain rfl := Option.some.inj h; exact ⟨rfl, rfl⟩)
  · simp only [runSh] at h
    split at h
    all_goals split at h
    all_goals first
      | (simp at h; done)
      | exact lz h
      | (obtain rfl := Option.some.inj h; exact ⟨rfl, rfl⟩)

/-- C15: for a pointer expression `e` to objects of `s` bytes and an integer expression `k`, constant or not, the
code for `e + k` and `e - k` computes the address `k * s` bytes after, or before, the value of `e`. -/
theorem pointer_arith_partial {o : Opts} {op : Bop} {e k : Expr} {σ τ κ : Sh} {t t' : Ty} {s : Nat} {f : Bool} {p : EvalRes}
    {w : World} {st : St} (hlo : o.lo = 0) (hc : compileEval o [8, 9] f (.bin op e k) = .ok p)
    (hlive : o.mode = .direct ∨ ∃ q, compileEval o.few [8, 9] f (.bin op e k) = .ok q)
    (hop : op = .add ∨ op = .sub) (hσ : shape o (.bin op e k) = some σ)
    (hτ : shape o e = some τ) (hte : τ.ct = some t) (hen : τ.isNum = false) (ht : o.Γ.kindOf t = .ptr t')
    (hv : o.Γ.kindOf t' ≠ .void) (hs : o.Γ.sizeOf t' = some s)
    (hκ : shape o k = some κ) (hku : κ.usable o = true) (hki : stride o.Γ κ.ct = none)
    (hex : Exact p.code) (hargs : ArgsAt o w (st.regs 9)) (hw : WordReadable w.mem) :
    ∃ x y n1 n2, meaning o w e = some (x, n1) ∧ meaning o w k = some (y, n2) ∧
      ((n1 || n2) = false → ∃ st', exec w.mem p.code st = .done st' ∧
        st'.regs p.reg = if op = .add then x + y * BitVec.ofNat 64 s else x - y * BitVec.ofNat 64 s) ∧
      ((n1 || n2) = true → ∃ st', exec w.mem p.code st = .exit st') := by
  have hτn : ∀ z, τ ≠ .name z := by rintro z rfl; simp [Sh.ct] at hte
  have hκn : ∀ z, κ ≠ .name z := by rintro z rfl; simp [Sh.usable] at hku
  have hrs1 : resolveSh o.Γ τ κ = some τ := by
    cases τ <;> first | rfl | exact absurd rfl (hτn _)
  have hrs2 : resolveSh o.Γ κ τ = some κ := by
    cases κ <;> first | rfl | exact absurd rfl (hκn _)
  have hsh := hσ
  simp only [shape, hτ, hκ, Option.bind_eq_bind, Option.bind_some, binSh, hrs1, hrs2] at hsh
  have hrun : τ.usable o = true ∧ runSh o op τ κ = some σ := by
    cases τ with
    | num n t => simp [Sh.isNum] at hen
    | _ =>
      simp only [hku, Bool.and_true] at hsh
      split at hsh
      · exact ⟨by assumption, hsh⟩
      · simp at hsh
  obtain ⟨hu, hn⟩ := addSub_shape hop hrun.2
  obtain ⟨z, nul, hm, h1, h2⟩ := eval_computes_partial hlo hc hlive hσ hu hn hex hargs hw
  obtain ⟨cx, n1, hcx, hxo, -⟩ := shape_defined w hτ
  obtain ⟨cy, n2, hcy, hyo, -⟩ := shape_defined w hκ
  obtain ⟨x, hx⟩ := usable_value hxo hrun.1 w.mem
  obtain ⟨y, hy⟩ := usable_value hyo hku w.mem
  obtain ⟨hxt, hxn⟩ := shok_ct hxo
  obtain ⟨hyt, hyn⟩ := shok_ct hyo
  refine ⟨x, y, n1, n2, by simp [meaning, hcx, hx], by simp [meaning, hcy, hy], ?_⟩
  have hst : stride o.Γ cx.ty = some s := by
    rw [hxt, hte]; simp [stride, Btf.kindO, ht, hv, Btf.size0, hs]
  have hr1 : resolve o.Γ cx cy = some cx := by
    cases cx <;> first | rfl | (simp [CV.value] at hx; done)
  have hr2 : resolve o.Γ cy cx = some cy := by
    cases cy <;> first | rfl | (simp [CV.value] at hy; done)
  have hb : ∃ ty, binC o.Γ w.mem op cx cy =
      some (.rv (if op = .add then x + y * BitVec.ofNat 64 s else x - y * BitVec.ofNat 64 s) ty false) := by
    have hon : onValues op (stride o.Γ cx.ty) (stride o.Γ cy.ty) x y =
        some (if op = .add then x + y * BitVec.ofNat 64 s else x - y * BitVec.ofNat 64 s) := by
      rw [hst, hyt, hki]
      rcases hop with rfl | rfl <;> rfl
    simp only [binC, hr1, hr2, Option.bind_eq_bind, Option.bind_some]
    cases cx with
    | num n t => simp only [CV.isNum] at hxn; rw [← hxn] at hen; simp at hen
    | _ => simp only [hx, hy, hon, Option.bind_some]; exact ⟨_, rfl⟩
  obtain ⟨ty, hb⟩ := hb
  simp only [meaning, ceval, hcx, hcy, hb, Option.bind_eq_bind, Option.bind_some, CV.value, Option.map_some,
    Option.some.injEq, Prod.mk.injEq] at hm
  obtain ⟨rfl, rfl⟩ := hm
  exact ⟨fun h => let ⟨st', a, b, _⟩ := h1 h; ⟨st', a, b⟩, h2⟩

/-- C15: the code for `&e[n]`, for a pointer expression `e` to objects of type `t'`, computes `e + n * sizeof(*e)`. -/
theorem index_address_partial {o : Opts} {e : Expr} {text : List Char} {n : BitVec 64} {τ : Sh} {t t' : Ty} {f : Bool}
    {p : EvalRes} {w : World} {st : St} (hlo : o.lo = 0) (hc : compileEval o [8, 9] f (.addr (.index e (.num text))) = .ok p)
    (hlive : o.mode = .direct ∨ ∃ q, compileEval o.few [8, 9] f (.addr (.index e (.num text))) = .ok q)
    (htext : parseNumber text = some n) (hτ : shape o e = some τ) (hte : τ.ct = some t) (ht : o.Γ.kindOf t = .ptr t')
    (hel : τ.elem o = some t')
    (hex : Exact p.code) (hargs : ArgsAt o w (st.regs 9)) (hw : WordReadable w.mem) :
    ∃ x nul, meaning o w e = some (x, nul) ∧
      (nul = false → x ≠ 0 → ∃ st', exec w.mem p.code st = .done st' ∧
        st'.regs p.reg = x + n * BitVec.ofNat 64 (o.Γ.size0 t')) := by
  have hσ : shape o (.addr (.index e (.num text))) = some (.lazy (.ptr t')) := by
    simp [shape, hτ, hel, htext, isLval]
  obtain ⟨z, nul, hm, h1, h2⟩ := eval_computes_partial hlo hc hlive hσ rfl rfl hex hargs hw
  obtain ⟨cx, n1, hcx, hxo, -⟩ := shape_defined w hτ
  have hct := (shok_ct hxo).1
  rw [hte] at hct
  have hp : ∃ x zz, cx.elements o.Γ w.mem = some (x, t', zz) ∧ cx.value o.Γ w.mem = some x ∧ (x ≠ 0 → zz = false) := by
    cases τ with
    | num n t => simp [Sh.elem] at hel
    | name s => simp [Sh.elem] at hel
    | comp a ct =>
      obtain ⟨x, rfl⟩ := hxo
      simp only [CV.ty] at hct; subst hct
      exact ⟨x, false, by simp [CV.elements, CV.pointer, ht], rfl, fun _ => rfl⟩
    | lazy t1 =>
      obtain ⟨x, rfl⟩ := hxo
      simp only [CV.ty] at hct; rw [hct]
      exact ⟨x, false, by simp [CV.elements, CV.pointer, ht], rfl, fun _ => rfl⟩
    | obj t1 bf loads c =>
      simp only [Sh.ct, Option.some.injEq] at hte
      subst hte
      rcases hxo with ⟨a, rfl⟩ | ⟨rfl, rfl, _, x, rfl⟩
      · cases bf with
        | some z => simp [Sh.elem] at hel
        | none =>
          cases loads with
          | false => simp [Sh.elem, ht] at hel
          | true =>
            have h8 : o.Γ.sizeOf t1 = some 8 := by
              simp only [Sh.elem, ht, Sh.target] at hel
              split at hel
              · simp at hel
              · split at hel
                · assumption
                · simp at hel
            exact ⟨load w.mem 8 a, load w.mem 8 a == 0, by simp [CV.elements, CV.pointer, ht], by simp [CV.value, ht, h8],
              fun h => beq_false_of_ne h⟩
      · exact ⟨x, true && x == 0, by simp [CV.elements, CV.pointer, ht], rfl, fun h => by rw [Bool.true_and]; exact beq_false_of_ne h⟩
  obtain ⟨x, zz, hel', hval, hzz⟩ := hp
  refine ⟨x, n1, by simp [meaning, hcx, hval], fun hn hx => ?_⟩
  simp [meaning, ceval, hcx, hel', htext, CV.value] at hm
  obtain ⟨rfl, rfl⟩ := hm
  obtain ⟨st', a, b, _⟩ := h1 (by rw [hn, hzz hx]; rfl)
  exact ⟨st', a, b⟩

/-- `p + 3`, `p + n` and `&p[3]` meet the hypotheses for a pointer argument to structs of 100 bytes. -/
theorem pointer_arith_witness (mode : Mode) :
    (∃ p σ, compileEval (vOpts mode) [8, 9] false (.bin .add (V "p") (N "3")) = .ok p ∧
      (∃ q, compileEval (vOpts mode).few [8, 9] false (.bin .add (V "p") (N "3")) = .ok q) ∧
      shape (vOpts mode) (.bin .add (V "p") (N "3")) = some σ ∧ Exact p.code) ∧
    (∃ p σ, compileEval (vOpts mode) [8, 9] false (.bin .sub (V "p") (V "n")) = .ok p ∧
      (∃ q, compileEval (vOpts mode).few [8, 9] false (.bin .sub (V "p") (V "n")) = .ok q) ∧
      shape (vOpts mode) (.bin .sub (V "p") (V "n")) = some σ ∧ Exact p.code) ∧
    (∃ p, compileEval (vOpts mode) [8, 9] false (.addr (.index (V "p") (N "3"))) = .ok p ∧
      (∃ q, compileEval (vOpts mode).few [8, 9] false (.addr (.index (V "p") (N "3"))) = .ok q) ∧ Exact p.code) ∧
    shape (vOpts mode) (V "p") = some (.lazy (.ptr (.base 0))) ∧ vBtf.kindOf (.ptr (.base 0)) = .ptr (.base 0) ∧
    vBtf.kindOf (.base 0) ≠ .void ∧ vBtf.sizeOf (.base 0) = some 100 ∧
    (Sh.lazy (.ptr (.base 0))).elem (vOpts mode) = some (.base 0) := by
  cases mode
  all_goals refine ⟨⟨_, _, rfl, ⟨_, rfl⟩, rfl, by decide +kernel⟩, ⟨_, _, rfl, ⟨_, rfl⟩, rfl, by decide +kernel⟩,
    ⟨_, rfl, ⟨_, rfl⟩, by decide +kernel⟩, rfl, rfl, by decide, rfl, rfl⟩

/-! ### C11: live values -/

/-- C11: while the code for an expression of the fragment runs, with any number of helper or kfunc calls in it, no
register that was in use when its compilation started (values of the expressions before it, the argument pointer)
changes, provided no value is kept in R0 to R5 (or no helper is called, in direct mode). -/
theorem live_values_survive_partial {o : Opts} {e : Expr} {s s' : CSt} {v : Val} {c : List Insn} {w : World} {st st' : St}
    (he : evaluate o e s = .ok (v, s', c)) (hsh : (shape o e).isSome) (hex : Exact c)
    (hlow : o.mode = .direct ∨ (6 ≤ o.lo ∧ ∀ r, r ≤ 5 → s.used r = false)) (h9 : s.used 9 = true)
    (hargs : ArgsAt o w (st.regs 9)) (hw : WordReadable w.mem) (hrun : exec w.mem c st = .done st') :
    ∀ r, s.used r = true ∨ r = 10 → st'.regs r = st.regs r := by
  obtain ⟨σ, hσ⟩ := Option.isSome_iff_exists.mp hsh
  obtain ⟨cv, nul, hcv, -, -⟩ := shape_defined w hσ
  rcases evaluate_correct ⟨hargs, hw⟩ e he hσ hcv hex h9 hlow rfl with ⟨_, st1, h1⟩ | ⟨_, st1, h1, hsame, _⟩
  · rw [h1] at hrun; simp at hrun
  · rw [h1] at hrun
    obtain rfl := Out.done.inj hrun
    exact hsame

/-- With two values in R8 and R7, `p->a * k` compiles with a helper call in between. -/
theorem live_values_witness :
    ∃ v s' c, evaluate (vOpts .probe).few (.bin .mul (.arrow (V "p") "a") (V "k"))
        { used := setReg (setReg noRegs 9 true) 8 true, exitUsed := false } = .ok (v, s', c) ∧
      (shape (vOpts .probe).few (.bin .mul (.arrow (V "p") "a") (V "k"))).isSome ∧ Exact c ∧ Insn.callProbe ∈ c :=
  ⟨_, _, _, rfl, rfl, by decide +kernel, by decide +kernel⟩

end Bpfsnoop.Cc
