import Verif.Props.CcRep

/-
Member access, indexing, dereference, address-of and casts keep the representation.
-/
namespace Bpfsnoop.Cc

/-- A value seen as a base and a chain. -/
def Val.chain : Val → Option (Base × List Off)
  | .mat r _ _ => some (.reg r, [])
  | .pend b offs _ _ => some (b, offs)
  | _ => none

theorem mapLast_snoc (f : Off → Off) (pre : List Off) (z : Off) : mapLast f (pre ++ [z]) = pre ++ [f z] := by
  induction pre with
  | nil => rfl
  | cons y r ih =>
    cases r with
    | nil => rfl
    | cons a b =>
      simp only [List.cons_append, mapLast] at ih ⊢
      rw [ih]

theorem adjReg_8 {Γ : Btf} {t : Ty} (h : Γ.sizeOf t = some 8) (x : BitVec 64) : adjReg Γ t x = x := by
  rw [adjReg_size h (by simp), lowBytes_8]

/-- A represented value has the type the shape notes. -/
theorem rep_ty {o : Opts} {w : World} {st : St} {v : Val} {σ : Sh} {cv : CV} {nul : Bool}
    (h : Rep o w st v σ cv nul) : v.ty = σ.ann := by
  cases σ with
  | num n t => obtain ⟨rfl, _⟩ := h; rfl
  | name s => obtain ⟨rfl, _⟩ := h; rfl
  | comp a ct => obtain ⟨r, rfl, _⟩ := h; rfl
  | lazy t => obtain ⟨b, offs, m, rfl, _⟩ := h; rfl
  | obj t bf loads cst => obtain ⟨b, pre, z, m, rfl, _⟩ := h; rfl

theorem preOK_nil (o : Opts) : preOK o [] := fun _ y hy => by simp at hy

theorem preOK_snoc {o : Opts} {pre : List Off} {z : Off} (h : preOK o pre)
    (hz : o.mode = .core → z.deref = true → castable o.Γ z = true ∧ o.Γ.sizeOf z.ty = some 8) :
    preOK o (pre ++ [z]) := by
  intro hm y hy hd
  rw [List.mem_append, List.mem_singleton] at hy
  rcases hy with hy | rfl
  · exact h hm y hy hd
  · exact hz hm hd

/-- What following a value as a pointer needs. -/
structure Followed (o : Opts) (w : World) (st : St) (v : Val) (b : Base) (offs : List Off) (p : BitVec 64)
    (nul : Bool) : Prop where
  chain : v.chain = some (b, offs)
  base : baseOK o b
  pre : preOK o offs
  val : chainW w8 w.mem offs (baseVal w st b) = p
  nul : nulAll w8 w.mem offs (baseVal w st b) = nul

theorem target_go {Γ : Btf} {t t' : Ty}
    (h : (match Γ.kindOf t with
      | .ptr t' => if Γ.sizeOf t = some 8 then some t' else none
      | _ => none) = some t') : Γ.kindOf t = .ptr t' ∧ Γ.sizeOf t = some 8 := by
  cases hk : Γ.kindOf t with
  | ptr q =>
    simp only [hk] at h
    split at h
    · rename_i hs; simp only [Option.some.injEq] at h; subst h; exact ⟨rfl, hs⟩
    · simp at h
  | _ => simp [hk] at h

/-- Following a pointer. -/
theorem follow {o : Opts} {w : World} {st : St} {v : Val} {σ : Sh} {cv : CV} {nul : Bool} {t t2 : Ty}
    {p : BitVec 64} {z : Bool} (hrep : Rep o w st v σ cv nul) (ht : σ.target o = some t)
    (hp : cv.pointer o.Γ w.mem = some (p, t2, z)) :
    t2 = t ∧ ∃ tv b offs, v.ty = some tv ∧ o.Γ.kindOf tv = .ptr t ∧ Followed o w st v b offs p (nul || z) := by
  cases σ with
  | num n t => simp [Sh.target] at ht
  | name s => simp [Sh.target] at ht
  | comp a ct =>
    obtain ⟨r, rfl, rfl, rfl⟩ := hrep
    cases a with
    | none => simp [Sh.target] at ht
    | some a =>
      simp only [Sh.target] at ht
      split at ht
      · rename_i hct
        subst hct
        obtain ⟨hk, hs⟩ := target_go ht
        simp only [CV.pointer, hk, Option.some.injEq, Prod.mk.injEq] at hp
        obtain ⟨rfl, rfl, rfl⟩ := hp
        refine ⟨rfl, a, .reg r, [], rfl, hk, ⟨rfl, trivial, preOK_nil o, rfl, ?_⟩⟩
        simp [nulAll]
      · simp at ht
  | lazy t0 =>
    obtain ⟨b, offs, m, rfl, hm, hb, hpre, hlast, rfl, rfl, _⟩ := hrep
    simp only [Sh.target] at ht
    obtain ⟨hk, hs⟩ := target_go ht
    simp only [CV.pointer, hk, Option.some.injEq, Prod.mk.injEq, adjReg_8 hs] at hp
    obtain ⟨rfl, rfl, rfl⟩ := hp
    refine ⟨rfl, t0, b, offs, rfl, hk, ⟨rfl, hb, hpre, rfl, ?_⟩⟩
    simp
  | obj t0 bf loads cst =>
    obtain ⟨b, pre, zo, m, rfl, hm, hb, hpre, hd, hzt, rfl, hcore, hcv⟩ := hrep
    cases bf with
    | some q => cases loads <;> simp [Sh.target] at ht
    | none =>
      cases loads with
      | false => simp [Sh.target] at ht
      | true =>
        simp only [Sh.target] at ht
        split at ht
        · simp at ht
        · rename_i hnc
          obtain ⟨hk, hs⟩ := target_go ht
          have hstep : stepW w8 w.mem zo (chainW w8 w.mem pre (baseVal w st b)) =
              load w.mem 8 (chainW w8 w.mem pre (baseVal w st b) + zo.off) := by
            simp [stepW, hd, w8]
          have hz' : o.mode = .core → zo.deref = true → castable o.Γ zo = true ∧ o.Γ.sizeOf zo.ty = some 8 := by
            intro hmode _
            have hc : cst = true := by
              cases cst with
              | true => rfl
              | false => exact absurd ⟨hmode, rfl⟩ hnc
            refine ⟨castable_iff.mpr ⟨(hcore hmode rfl).1 (.inl hc), ?_⟩, by rw [hzt]; exact hs⟩
            rw [hzt]; simp [canReadByRdonlyCast, hk]
          have hfin : p = load w.mem 8 (chainW w8 w.mem pre (baseVal w st b) + zo.off) ∧ t2 = t ∧
              z = (load w.mem 8 (chainW w8 w.mem pre (baseVal w st b) + zo.off) == 0) := by
            rcases hcv with rfl | ⟨_, _, _, _, rfl⟩
            · simp only [CV.pointer, hk, Option.some.injEq, Prod.mk.injEq] at hp
              exact ⟨hp.1.symm, hp.2.1.symm, hp.2.2.symm⟩
            · simp only [CV.pointer, hk, Option.some.injEq, Prod.mk.injEq, convert_size hs (by simp : (8:Nat) = 1 ∨ 8 = 2 ∨ 8 = 4 ∨ 8 = 8), lowBytes_8, Bool.true_and] at hp
              exact ⟨hp.1.symm, hp.2.1.symm, hp.2.2.symm⟩
          obtain ⟨rfl, rfl, rfl⟩ := hfin
          refine ⟨rfl, t0, b, pre ++ [zo], rfl, hk, ⟨rfl, hb, preOK_snoc hpre hz', ?_, ?_⟩⟩
          · rw [chainW_snoc, hstep]
          · rw [nulAll_append]
            simp only [nulAll, hd, Bool.true_and, Bool.or_false, hstep]

/-- Elements of an array or pointer. -/
theorem follow_elem {o : Opts} {w : World} {st : St} {v : Val} {σ : Sh} {cv : CV} {nul : Bool} {t t2 : Ty}
    {p : BitVec 64} {z : Bool} (hrep : Rep o w st v σ cv nul) (ht : σ.elem o = some t)
    (hp : cv.elements o.Γ w.mem = some (p, t2, z)) :
    t2 = t ∧ ∃ tv b offs, v.ty = some tv ∧ (o.Γ.kindOf tv = .ptr t ∨ o.Γ.kindOf tv = .array t) ∧
      Followed o w st v b offs p (nul || z) := by
  have viaPtr : σ.target o = some t → cv.pointer o.Γ w.mem = some (p, t2, z) →
      t2 = t ∧ ∃ tv b offs, v.ty = some tv ∧ (o.Γ.kindOf tv = .ptr t ∨ o.Γ.kindOf tv = .array t) ∧
      Followed o w st v b offs p (nul || z) := by
    intro h1 h2
    obtain ⟨rfl, tv, b, offs, h3, h4, h5⟩ := follow hrep h1 h2
    exact ⟨rfl, tv, b, offs, h3, .inl h4, h5⟩
  cases σ with
  | num n t => simp [Sh.elem] at ht
  | name s => simp [Sh.elem] at ht
  | comp a ct =>
    have hrep0 := hrep
    obtain ⟨r, rfl, rfl, rfl⟩ := hrep
    cases a with
    | none => cases ct <;> simp [Sh.elem] at ht
    | some a =>
      cases ct with
      | none => simp [Sh.elem] at ht
      | some ct =>
        simp only [Sh.elem] at ht
        cases hk : o.Γ.kindOf a with
        | array t' =>
          simp only [hk] at ht
          split at ht
          · rename_i hct
            simp only [Option.some.injEq] at ht
            subst hct; subst ht
            simp only [CV.elements, hk, Option.some.injEq, Prod.mk.injEq] at hp
            obtain ⟨rfl, rfl, rfl⟩ := hp
            exact ⟨rfl, _, .reg r, [], rfl, .inr hk, ⟨rfl, trivial, preOK_nil o, rfl, by simp [nulAll]⟩⟩
          · simp at ht
        | _ =>
          simp only [hk] at ht
          have hct : ct = a := by
            simp only [Sh.target] at ht
            split at ht
            · rename_i h; exact Option.some.inj h
            · simp at ht
          subst hct
          refine viaPtr ht ?_
          simpa only [CV.elements, hk] using hp
  | lazy t0 =>
    obtain ⟨b, offs, m, rfl, hm, hb, hpre, hlast, rfl, rfl, hty⟩ := hrep
    simp only [Sh.elem] at ht
    cases hk : o.Γ.kindOf t0 with
    | array t' =>
      simp only [hk] at ht
      split at ht
      · rename_i hw
        simp only [Option.some.injEq] at ht
        subst ht
        simp only [CV.elements, hk, Option.some.injEq, Prod.mk.injEq, adjReg_wide hw] at hp
        obtain ⟨rfl, rfl, rfl⟩ := hp
        exact ⟨rfl, t0, b, offs, rfl, .inr hk, ⟨rfl, hb, hpre, rfl, by simp⟩⟩
      · simp at ht
    | _ =>
      simp only [hk] at ht
      refine viaPtr ht ?_
      simpa only [CV.elements, hk] using hp
  | obj t0 bf loads cst =>
    obtain ⟨b, pre, zo, m, rfl, hm, hb, hpre, hd, hzt, rfl, hcore, hcv⟩ := hrep
    cases bf with
    | some q => cases loads <;> simp [Sh.elem] at ht
    | none =>
      cases loads with
      | false =>
        simp only [Sh.elem] at ht
        cases hk : o.Γ.kindOf t0 with
        | array t' =>
          simp only [hk, Option.some.injEq] at ht
          subst ht
          rcases hcv with rfl | ⟨hf, _⟩
          · simp only [CV.elements, hk, Option.some.injEq, Prod.mk.injEq] at hp
            obtain ⟨rfl, rfl, rfl⟩ := hp
            refine ⟨rfl, t0, b, pre ++ [zo], rfl, .inr hk, ⟨rfl, hb, preOK_snoc hpre ?_, ?_, ?_⟩⟩
            · intro _ h; rw [hd] at h; simp at h
            · rw [chainW_snoc]; simp [stepW, hd]
            · rw [nulAll_append]; simp [nulAll, hd]
          · simp at hf
        | _ => simp [hk] at ht
      | true =>
        simp only [Sh.elem] at ht
        cases hk : o.Γ.kindOf t0 with
        | array t' => simp [hk] at ht
        | _ =>
          simp only [hk] at ht
          refine viaPtr ht ?_
          rcases hcv with rfl | ⟨_, _, _, _, rfl⟩
          · simpa only [CV.elements, hk] using hp
          · simpa only [CV.elements, hk] using hp

/-- The new object at the end of a chain. -/
theorem rep_append {o : Opts} {w : World} {st : St} {v : Val} {b : Base} {offs : List Off} {p : BitVec 64}
    {nul : Bool} (h : Followed o w st v b offs p nul) {z : Off} {t : Ty} {m : Option Member}
    {bf : Option (Nat × Nat)} {loads cst : Bool} (hm : memOK m bf) (hd : z.deref = loads) (ht : z.ty = t)
    (hc : o.mode = .core → loads = true → (cst = true ∨ isComp o.Γ t = true → toComp o.Γ z.prev = true) ∧
        (cst = false → z.off = 0)) :
    Rep o w st (.pend b (offs ++ [z]) t m) (.obj t bf loads cst) (.lv (p + z.off) t bf) nul :=
  ⟨b, offs, z, m, rfl, hm, h.base, h.pre, hd, ht, h.nul.symm, hc, .inl (by rw [h.val])⟩

theorem memOK_bfOf {Γ : Btf} {mem : Member} : memOK (if isArray Γ mem.ty then none else some mem) (bfOf Γ mem) := by
  unfold bfOf
  cases ha : isArray Γ mem.ty with
  | true => simp [memOK, isBf]
  | false =>
    by_cases hb : mem.bfSize = 0
    · simp [hb, memOK, isBf]
    · simp [hb, memOK]

theorem chain_reg {v : Val} {b : Base} {offs offs' : List Off} {t : Ty} {m : Option Member}
    (h : v.chain = some (b, offs)) : (Val.pend b offs' t m).reg? = v.reg? := by
  cases v with
  | mat r t m =>
    simp only [Val.chain, Option.some.injEq, Prod.mk.injEq] at h
    rw [← h.1]; rfl
  | pend b' offs t m =>
    simp only [Val.chain, Option.some.injEq, Prod.mk.injEq] at h
    rw [← h.1]
    cases b' <;> rfl
  | _ => simp [Val.chain] at h

/-- `p->f`. -/
theorem arrow_correct {o : Opts} {w : World} {st : St} {v v' : Val} {σ σ' : Sh} {cv cv' : CV} {nul : Bool} {t t2 : Ty}
    {f : String} {p : BitVec 64} {z : Bool} {s s' : CSt} {c : List Insn}
    (h : accessMember o v f true s = .ok (v', s', c)) (hrep : Rep o w st v σ cv nul)
    (ht : σ.target o = some t) (hsh : memberSh o t f true = some σ')
    (hp : cv.pointer o.Γ w.mem = some (p, t2, z)) (hm : memberAt o.Γ t2 f p = some cv') :
    Rep o w st v' σ' cv' (nul || z) ∧ v'.reg? = v.reg? := by
  obtain ⟨rfl, tv, b, offs, hty, hk, hf⟩ := follow hrep ht hp
  unfold memberSh at hsh
  unfold memberAt at hm
  cases hkt : o.Γ.kindOf t2 with
  | comp id =>
    simp only [hkt] at hsh hm
    cases hmem : o.Γ.member id f with
    | none => simp [hmem] at hsh
    | some mem =>
      simp only [hmem, Option.map_some, Option.some.injEq] at hsh hm
      subst hsh; subst hm
      unfold accessMember at h
      split at h
      · exact (reject_ok h).elim
      · have hkv : o.Γ.kindO v.ty = .ptr t2 := by rw [hty]; exact hk
        have htc : toComp o.Γ v.ty = true := by simp [toComp, hkv, hkt]
        simp only [hkv, hkt, hmem, if_true] at h
        have key : v' = .pend b (offs ++ [⟨BitVec.ofNat 64 mem.byteOff, !isArray o.Γ mem.ty, mem.ty, v.ty⟩]) mem.ty
            (if isArray o.Γ mem.ty then none else some mem) := by
          have hc := hf.chain
          cases v with
          | mat r t m =>
            simp only [Val.chain, Option.some.injEq, Prod.mk.injEq] at hc
            obtain ⟨rfl, rfl⟩ := hc
            simp only [Bool.not_true, Bool.false_eq_true, if_false] at h
            obtain ⟨rfl, _, _⟩ := pure_ok h
            rfl
          | pend b' offs' t m =>
            simp only [Val.chain, Option.some.injEq, Prod.mk.injEq] at hc
            obtain ⟨rfl, rfl⟩ := hc
            simp only [Bool.not_true, Bool.false_eq_true, if_false] at h
            obtain ⟨rfl, _, _⟩ := pure_ok h
            rfl
          | _ => simp [Val.chain] at hc
        refine ⟨?_, by rw [key]; exact chain_reg hf.chain⟩
        rw [key]
        exact rep_append hf memOK_bfOf (by simp) rfl fun _ _ => ⟨fun _ => htc, by simp⟩
  | _ => simp [hkt] at hsh

/-- `e.f`. -/
theorem dot_correct {o : Opts} {w : World} {st : St} {v v' : Val} {σ' : Sh} {cv' : CV} {nul : Bool} {t t2 : Ty}
    {loads cst : Bool} {a : BitVec 64}
    {f : String} {s s' : CSt} {c : List Insn}
    (h : accessMember o v f false s = .ok (v', s', c))
    (hrep : Rep o w st v (.obj t none loads cst) (.lv a t2 none) nul)
    (hsh : memberSh o t f loads = some σ') (hm : memberAt o.Γ t2 f a = some cv') :
    Rep o w st v' σ' cv' nul ∧ v'.reg? = v.reg? := by
  obtain ⟨b, pre, zo, m, rfl, hmo, hb, hpre, hd, hzt, hn, hcore, hcv⟩ := hrep
  have hcv : a = chainW w8 w.mem pre (baseVal w st b) + zo.off ∧ t2 = t := by
    rcases hcv with h | ⟨_, _, _, _, h⟩
    · simp only [CV.lv.injEq, and_true] at h; exact h
    · simp at h
  obtain ⟨rfl, rfl⟩ := hcv
  unfold memberSh at hsh
  unfold memberAt at hm
  cases hkt : o.Γ.kindOf t2 with
  | comp id =>
    simp only [hkt] at hsh hm
    cases hmem : o.Γ.member id f with
    | none => simp [hmem] at hsh
    | some mem =>
      simp only [hmem, Option.map_some, Option.some.injEq] at hsh hm
      subst hsh; subst hm
      unfold accessMember at h
      split at h
      · exact (reject_ok h).elim
      · have hkv : o.Γ.kindO (Val.ty (.pend b (pre ++ [zo]) t2 m)) = .comp id := hkt
        have hne : (pre ++ [zo]).isEmpty = false := by simp
        simp only [hkv, hmem, Bool.false_eq_true, if_false, Bool.not_false, if_true, hne] at h
        obtain ⟨rfl, _, _⟩ := pure_ok h
        have hchain : (if isArray o.Γ mem.ty = true then
            mapLast (fun x => { x with deref := false }) (mapLast (fun x => { x with off := x.off + BitVec.ofNat 64 mem.byteOff, ty := mem.ty }) (pre ++ [zo]))
            else mapLast (fun x => { x with off := x.off + BitVec.ofNat 64 mem.byteOff, ty := mem.ty }) (pre ++ [zo])) =
            pre ++ [(⟨zo.off + BitVec.ofNat 64 mem.byteOff, loads && !isArray o.Γ mem.ty, mem.ty, zo.prev⟩ : Off)] := by
          rw [mapLast_snoc]
          cases ha : isArray o.Γ mem.ty with
          | true => simp [mapLast_snoc]
          | false => simp [hd]
        rw [hchain]
        refine ⟨⟨b, pre, _, _, rfl, memOK_bfOf, hb, hpre, rfl, rfl, hn, ?_, .inl ?_⟩, ?_⟩
        · intro hmode hl
          have hl' : loads = true := by cases loads <;> simp_all
          refine ⟨fun _ => (hcore hmode hl').1 (.inr (by simp [isComp, hkt])), by simp⟩
        · simp only [BitVec.add_assoc]
        · cases b <;> rfl
  | _ => simp [hkt] at hsh

/-- `e[n]`. -/
theorem index_correct {o : Opts} {w : World} {st : St} {v v' : Val} {σ : Sh} {cv : CV} {nul : Bool} {t t2 : Ty}
    {text : List Char} {k p : BitVec 64} {z : Bool} {s s' : CSt} {c : List Insn}
    (h : evaluateIndex o v (.num text) s = .ok (v', s', c)) (hrep : Rep o w st v σ cv nul)
    (ht : σ.elem o = some t) (hk : parseNumber text = some k)
    (hp : cv.elements o.Γ w.mem = some (p, t2, z)) :
    Rep o w st v' (.obj t none false true) (.lv (p + k * BitVec.ofNat 64 (o.Γ.size0 t2)) t2 none) (nul || z) ∧
      v'.reg? = v.reg? := by
  obtain ⟨rfl, tv, b, offs, hty, hkd, hf⟩ := follow_elem hrep ht hp
  unfold evaluateIndex at h
  split at h
  · exact (reject_ok h).elim
  · have hkv : o.Γ.kindO v.ty = o.Γ.kindOf tv := by rw [hty]; rfl
    simp only [hk, hkv] at h
    rcases hkd with hkd | hkd
    all_goals
      simp only [hkd] at h
      split at h
      · exact (reject_ok h).elim
      · have key : ∃ pv, v' = .pend b (offs ++ [⟨k * BitVec.ofNat 64 (o.Γ.size0 t2), false, t2, pv⟩]) t2 none := by
          have hc := hf.chain
          cases v with
          | mat r t m =>
            simp only [Val.chain, Option.some.injEq, Prod.mk.injEq] at hc
            obtain ⟨rfl, rfl⟩ := hc
            obtain ⟨rfl, _, _⟩ := pure_ok h
            exact ⟨_, rfl⟩
          | pend b' offs' t m =>
            simp only [Val.chain, Option.some.injEq, Prod.mk.injEq] at hc
            obtain ⟨rfl, rfl⟩ := hc
            obtain ⟨rfl, _, _⟩ := pure_ok h
            exact ⟨_, rfl⟩
          | _ => simp [Val.chain] at hc
        obtain ⟨pv, key⟩ := key
        refine ⟨?_, by rw [key]; exact chain_reg hf.chain⟩
        rw [key]
        exact rep_append hf rfl rfl rfl (by simp)

/-- `*e`. -/
theorem indir_correct {o : Opts} {w : World} {st : St} {v v' : Val} {σ : Sh} {cv : CV} {nul : Bool} {t t2 : Ty}
    {p : BitVec 64} {z : Bool} {s s' : CSt} {c : List Insn}
    (h : evaluateIndir o v s = .ok (v', s', c)) (hrep : Rep o w st v σ cv nul)
    (ht : σ.target o = some t) (hp : cv.pointer o.Γ w.mem = some (p, t2, z)) :
    Rep o w st v' (.obj t none true (isComp o.Γ t)) (.lv p t2 none) (nul || z) ∧ v'.reg? = v.reg? := by
  obtain ⟨rfl, tv, b, offs, hty, hkd, hf⟩ := follow hrep ht hp
  unfold evaluateIndir at h
  split at h
  · exact (reject_ok h).elim
  · have hkv : o.Γ.kindO v.ty = .ptr t2 := by rw [hty]; exact hkd
    rw [hkv] at h
    simp only at h
    have key : v' = .pend b (offs ++ [⟨0, true, t2, v.ty⟩]) t2 none := by
      have hc := hf.chain
      cases v with
      | mat r t m =>
        simp only [Val.chain, Option.some.injEq, Prod.mk.injEq] at hc
        obtain ⟨rfl, rfl⟩ := hc
        obtain ⟨rfl, _, _⟩ := pure_ok h
        rfl
      | pend b' offs' t m =>
        simp only [Val.chain, Option.some.injEq, Prod.mk.injEq] at hc
        obtain ⟨rfl, rfl⟩ := hc
        obtain ⟨rfl, _, _⟩ := pure_ok h
        rfl
      | _ => simp [Val.chain] at hc
    refine ⟨?_, by rw [key]; exact chain_reg hf.chain⟩
    rw [key]
    have := rep_append (m := none) (bf := none) (loads := true) (cst := isComp o.Γ t2) (t := t2) hf
      (z := ⟨0, true, t2, v.ty⟩) rfl rfl rfl ?_
    · simpa using this
    · intro _ _
      refine ⟨fun h => ?_, fun _ => rfl⟩
      have hcomp : isComp o.Γ t2 = true := by rcases h with h | h <;> exact h
      simp only [toComp, hkv]
      unfold isComp at hcomp
      exact hcomp

/-- `&e`. -/
theorem addr_correct {o : Opts} {w : World} {st : St} {v v' : Val} {t t2 : Ty} {loads cst : Bool} {a : BitVec 64}
    {nul : Bool} {s s' : CSt} {c : List Insn} (h : evaluateAddr v s = .ok (v', s', c))
    (hrep : Rep o w st v (.obj t none loads cst) (.lv a t2 none) nul) :
    Rep o w st v' (.lazy (.ptr t)) (.rv a (some (.ptr t2)) false) nul ∧ v'.reg? = v.reg? := by
  obtain ⟨b, pre, zo, m, rfl, hmo, hb, hpre, hd, hzt, hn, hcore, hcv⟩ := hrep
  have hcv : a = chainW w8 w.mem pre (baseVal w st b) + zo.off ∧ t2 = t := by
    rcases hcv with h | ⟨_, _, _, _, h⟩
    · simp only [CV.lv.injEq, and_true] at h; exact h
    · simp at h
  obtain ⟨rfl, rfl⟩ := hcv
  unfold evaluateAddr at h
  have hne : (pre ++ [zo]).isEmpty = false := by simp
  simp only [hne, Bool.false_eq_true, if_false, mapLast_snoc] at h
  obtain ⟨rfl, _, _⟩ := pure_ok h
  refine ⟨⟨b, _, none, rfl, rfl, hb, ?_, .inr ⟨pre, _, rfl, rfl⟩, ?_, ?_, .inl ⟨rfl, rfl⟩⟩, by cases b <;> rfl⟩
  · exact preOK_snoc hpre fun _ h => by simp at h
  · rw [chainW_snoc, adjReg_8 rfl]
    simp [stepW]
  · rw [nulAll_append, hn]
    simp [nulAll]

theorem size_le {Γ : Btf} {t t0 : Ty} {s s0 : Nat} (h : Γ.sizeOf t = some s) (h0 : Γ.sizeOf t0 = some s0)
    (hle : Γ.size0 t ≤ Γ.size0 t0) : s ≤ s0 := by
  simpa [Btf.size0, h, h0] using hle

/-- Casts. -/
theorem cast_correct {o : Opts} {w : World} {a9 : BitVec 64} (env : Env o w a9) {st : St} {v : Val} {σ σ' : Sh} {cv cv' : CV} {nul : Bool} {t : Ty}
    (hrep : Rep o w st v σ cv nul) (hsh : castSh o t σ = some σ') (hc : castC o.Γ w.mem t cv = some cv') :
    Rep o w st (castVal t v) σ' cv' nul ∧ (castVal t v).reg? = v.reg? := by
  refine ⟨?_, by cases v with | pend b _ _ _ => cases b <;> rfl | _ => rfl⟩
  unfold castSh at hsh
  split at hsh
  · simp at hsh
  rename_i hso
  simp only [Bool.not_eq_true, Bool.not_eq_false', Bool.and_eq_true] at hso
  obtain ⟨hsc, hok⟩ := hso
  obtain ⟨sz, hsz, hs⟩ := okSize_iff hok
  unfold castC at hc
  rw [if_pos hsc] at hc
  cases σ with
  | num n t0 =>
    obtain ⟨rfl, rfl, rfl⟩ := hrep
    simp only at hsh
    split at hsh
    · rename_i hcn
      simp only [Option.some.injEq] at hsh hc
      subst hsh; subst hc
      exact ⟨rfl, by rw [hcn], rfl⟩
    · simp at hsh
  | name s => simp at hsh
  | comp a ct =>
    obtain ⟨r, rfl, rfl, rfl⟩ := hrep
    simp only at hsh
    split at hsh
    · rename_i h8
      simp only [Option.some.injEq] at hsh hc
      subst hsh; subst hc
      exact ⟨r, rfl, by rw [convert_size h8 (by simp), lowBytes_8], rfl⟩
    · simp at hsh
  | lazy t0 =>
    obtain ⟨b, offs, m, rfl, hm, hb, hpre, hlast, rfl, rfl, hty⟩ := hrep
    simp only [Option.some.injEq] at hc
    subst hc
    have hσ : σ' = .lazy t ∧ convert o.Γ t (adjReg o.Γ t0 (chainW w8 w.mem offs (baseVal w st b))) =
        adjReg o.Γ t (chainW w8 w.mem offs (baseVal w st b)) := by
      simp only at hsh
      split at hsh
      · rename_i h
        simp only [Bool.and_eq_true, decide_eq_true_eq] at h
        obtain ⟨s0, hs0, hs0'⟩ := okSize_iff h.1.2
        refine ⟨(Option.some.inj hsh).symm, ?_⟩
        rw [convert_size hsz hs, adjReg_size hs0 hs0', adjReg_size hsz hs, lowBytes_idem (size_le hsz hs0 h.2)]
      · split at hsh
        · rename_i h
          simp only [Bool.and_eq_true] at h
          refine ⟨(Option.some.inj hsh).symm, ?_⟩
          rw [adjReg_wide h.2, convert_size hsz hs, adjReg_size hsz hs]
        · simp at hsh
    obtain ⟨rfl, hval⟩ := hσ
    rw [hval]
    rcases hlast with rfl | ⟨pre, z, rfl, hz⟩
    · exact ⟨b, [], m, rfl, hm, hb, preOK_nil o, .inl rfl, rfl, rfl, .inl ⟨hsc, hok⟩⟩
    · refine ⟨b, pre ++ [{ z with ty := t }], m, by simp [castVal, mapLast_snoc], hm, hb,
        preOK_snoc (fun hmode y hy => hpre hmode y (by simp [hy])) (fun _ h => by simp [hz] at h),
        .inr ⟨pre, _, rfl, hz⟩, ?_, ?_, .inl ⟨hsc, hok⟩⟩
      · rw [chainW_snoc, chainW_snoc]; rfl
      · rw [nulAll_append, nulAll_append]; rfl
  | obj t0 bf loads cst =>
    obtain ⟨b, pre, zo, m, rfl, hm, hb, hpre, hd, hzt, rfl, hcore, hcv⟩ := hrep
    have hv : castVal t (.pend b (pre ++ [zo]) t0 m) = .pend b (pre ++ [{ zo with ty := t }]) t m := by
      simp [castVal, mapLast_snoc]
    rw [hv]
    cases bf with
    | some q => cases loads <;> simp at hsh
    | none =>
      cases loads with
      | true =>
        simp only at hsh
        split at hsh
        · rename_i h
          simp only [Bool.and_eq_true, decide_eq_true_eq] at h
          obtain ⟨s0, hs0, hs0'⟩ := okSize_iff h.1.2
          simp only [Option.some.injEq] at hsh
          subst hsh
          have hncomp : isComp o.Γ t = false := by
            unfold isScalar at hsc; unfold isComp
            cases hk : o.Γ.kindOf t <;> simp_all
          have hle := size_le hsz hs0 h.2
          have hcv' : cv' = .rv (convert o.Γ t (load w.mem 8 (chainW w8 w.mem pre (baseVal w st b) + zo.off))) (some t) true := by
            rcases hcv with rfl | ⟨_, _, _, _, rfl⟩
            · have hsc0 := h.1.1
              have hna : isArray o.Γ t0 = false := by
                unfold isScalar at hsc0; unfold isArray
                cases hk : o.Γ.kindOf t0 <;> simp_all
              have hval : CV.value o.Γ w.mem (.lv (chainW w8 w.mem pre (baseVal w st b) + zo.off) t0 none) =
                  some (load w.mem s0 (chainW w8 w.mem pre (baseVal w st b) + zo.off)) := by
                simp only [CV.value]
                unfold isScalar at hsc0
                cases hk : o.Γ.kindOf t0 <;> simp_all
              simp only [hval, Option.map_some, Option.some.injEq, hna] at hc
              rw [← hc, convert_size hsz hs, convert_size hsz hs, load_low env.words hs0', lowBytes_idem hle]
              rfl
            · simp only [Option.some.injEq] at hc
              rw [← hc, convert_size hsz hs, convert_size hs0 hs0', lowBytes_idem hle, convert_size hsz hs]
          refine ⟨b, pre, _, m, rfl, hm, hb, hpre, hd, rfl, rfl, ?_, .inr ⟨rfl, rfl, hsc, hok, hcv'⟩⟩
          intro hmode hl
          refine ⟨fun h => ?_, (hcore hmode hl).2⟩
          rcases h with h | h
          · exact (hcore hmode hl).1 (.inl h)
          · rw [hncomp] at h; simp at h
        · simp at hsh
      | false =>
        simp only at hsh
        split at hsh
        · rename_i h
          simp only [Bool.and_eq_true] at h
          simp only [Option.some.injEq] at hsh
          subst hsh
          rcases hcv with rfl | ⟨hf, _⟩
          · have hval : CV.value o.Γ w.mem (.lv (chainW w8 w.mem pre (baseVal w st b) + zo.off) t0 none) =
                some (chainW w8 w.mem pre (baseVal w st b) + zo.off) := by
              have := h.1
              simp only [CV.value]
              unfold isArray at this
              cases hk : o.Γ.kindOf t0 <;> simp_all
            simp only [hval, Option.map_some, Option.some.injEq, h.1] at hc
            subst hc
            refine ⟨b, _, m, rfl, hm, hb, preOK_snoc hpre (fun _ h => by simp [hd] at h), .inr ⟨pre, _, rfl, hd⟩, ?_, ?_,
              .inl ⟨hsc, hok⟩⟩
            · rw [chainW_snoc, convert_size hsz hs, adjReg_size hsz hs]
              simp [stepW, hd]
            · rw [nulAll_append]; simp [nulAll, hd]
          · simp at hf
        · simp at hsh

end Bpfsnoop.Cc
