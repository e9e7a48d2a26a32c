import Verif.Model.Bg
import Verif.Props.LineInfo

/-
C87: the table of BPF functions is filled in the background while tracing starts.
-/
namespace Bpfsnoop.Bg
open Li (PInfo PFunc newInfo allFuncs FuncIn Distinct)
open Kallsyms (lookup put lookup_put)

/-- Functions a goroutine has still to enter. -/
def pend : W → List PFunc
  | .start p => allFuncs [p]
  | .want fs => fs
  | .hold fs => fs
  | .wr f fs => f :: fs
  | .done => []

/-- Functions the main goroutine has still to enter. -/
def mpend (mine : List PInfo) : M → List PFunc
  | .trace => allFuncs mine
  | .add w rest => pend w ++ allFuncs rest
  | _ => []

/-- The goroutine holds the lock. -/
def holds : W → Bool
  | .hold _ => true
  | .wr _ _ => true
  | _ => false

/-- The goroutine is writing the map. -/
def writes : W → Bool
  | .wr _ _ => true
  | _ => false

/-- The goroutines that may add programs. -/
def adders (s : St) : List W := s.ws ++ match s.main with | .add w _ => [w] | _ => []

/-- The options last assigned to a function. -/
def flagOf (D : List (Nat × Nat)) (ip : Nat) : Option Nat := (D.find? (fun x => x.1 = ip)).map Prod.snd

/-- What remains to be assigned. -/
def left (tr : List (Nat × Nat)) : P → List (Nat × Nat)
  | .wait => tr
  | .flags r => r
  | _ => []

def b2n (b : Bool) : Nat := if b then 1 else 0

/-- What holds in every state of every execution. -/
structure Facts (ps mine : List PInfo) (tr : List (Nat × Nat)) (ips : List Nat) (s : St) (E : List PFunc) (D : List (Nat × Nat)) : Prop where
  perm : (E ++ (s.ws.flatMap pend ++ mpend mine s.main)).Perm (allFuncs ps ++ allFuncs mine)
  tab : ∀ ip, lookup s.table ip = (E.find? (fun g => g.start = ip)).map (fun g => { g with flag := flagOf D ip })
  flg : (D ++ left tr s.parser).Perm tr
  flgIn : ∀ x ∈ D, ∃ g ∈ E, g.start = x.1
  wt : s.parser ≠ .wait → ∀ w ∈ s.ws, w = .done
  lk : (adders s).countP holds = b2n s.lock
  wg : (adders s).countP writes = b2n s.writing
  ts : s.ts.map T.ip = ips
  fin : ∀ t ∈ s.ts, t.fin = true → (lookup s.table t.ip).isSome
  past : s.main ≠ .trace → ∀ t ∈ s.ts, t.fin = true

theorem allFuncs_append (a b : List PInfo) : allFuncs (a ++ b) = allFuncs a ++ allFuncs b := by
  unfold allFuncs
  exact List.flatMap_append ..

theorem newInfo_flag {p : PInfo} {fs : List PFunc} (h : newInfo p = .ok fs) : ∀ f ∈ fs, f.flag = none := by
  intro f hf
  obtain ⟨_, _, _, hfs⟩ := Li.newInfo_ok h
  obtain ⟨i, hi⟩ := List.getElem?_of_mem hf
  have := hfs i f hi
  exact this.flag

theorem allFuncs_flag {ps : List PInfo} {f : PFunc} (h : f ∈ allFuncs ps) : f.flag = none := by
  obtain ⟨p, _, fs, e, hf⟩ := (Li.mem_allFuncs ps f).1 h
  exact newInfo_flag e f hf

theorem allFuncs_ok {p : PInfo} {fs : List PFunc} (h : newInfo p = .ok fs) : allFuncs [p] = fs := by
  unfold allFuncs; simp [h]

theorem allFuncs_no {p : PInfo} (h : ∀ fs, newInfo p ≠ .ok fs) : allFuncs [p] = [] := by
  unfold allFuncs
  cases e : newInfo p with
  | ok fs => exact absurd e (h fs)
  | _ => simp [e]

/-- A step of a goroutine in `addProg` that does not crash: what it has still to enter, before and after. -/
theorem WStep.pend {table : List (Nat × PFunc)} {lock writing : Bool} {w w' t lk wg e} (h : WStep table lock writing w w' t lk wg e none) :
    (t = table ∧ Bg.pend w' = Bg.pend w) ∨ (∃ f, t = put table f.start f ∧ Bg.pend w = f :: Bg.pend w') := by
  generalize hc : (none : Option Crash) = c at h
  cases h with
  | parse p fs h => exact .inl ⟨rfl, (allFuncs_ok h).symm⟩
  | refuse p h => exact .inl ⟨rfl, (allFuncs_no (by simp [h])).symm⟩
  | panic p h => cases hc
  | acquire fs h => exact .inl ⟨rfl, rfl⟩
  | begin f fs h => exact .inl ⟨rfl, rfl⟩
  | clash f fs h => cases hc
  | commit f fs => exact .inr ⟨f, rfl, rfl⟩
  | release => exact .inl ⟨rfl, rfl⟩

/-- How a step changes who holds the lock and who writes, if a holder means the lock is taken and likewise for writing. -/
theorem WStep.counts {table : List (Nat × PFunc)} {lock writing : Bool} {w w' t lk wg e c} {n m : Nat}
    (h : WStep table lock writing w w' t lk wg e c) (hc : c = none) (hl : n + b2n (holds w) = b2n lock) (hw : m + b2n (writes w) = b2n writing) :
    n + b2n (holds w') = b2n lk ∧ m + b2n (writes w') = b2n wg := by
  cases h <;> simp_all [holds, writes, b2n]
  · cases writing <;> simp_all
  · cases lock <;> simp_all

theorem tab_put {table : List (Nat × PFunc)} {E : List PFunc} {D : List (Nat × Nat)} {f : PFunc}
    (h : ∀ ip, lookup table ip = (E.find? (fun g => g.start = ip)).map (fun g => { g with flag := flagOf D ip }))
    (hf : f.flag = none) (hD : flagOf D f.start = none) (ip : Nat) :
    lookup (put table f.start f) ip = ((f :: E).find? (fun g => g.start = ip)).map (fun g => { g with flag := flagOf D ip }) := by
  rw [lookup_put]
  by_cases e : ip = f.start
  · subst e
    simp only [if_pos, decide_true, List.find?_cons_of_pos, Option.map_some, hD]
    rw [← hf]
  · rw [if_neg e, List.find?_cons_of_neg (by simpa using fun h => e h.symm), h]

theorem flagOf_none {E : List PFunc} {D : List (Nat × Nat)} {ip : Nat} (h : ∀ x ∈ D, ∃ g ∈ E, g.start = x.1) (hn : ∀ g ∈ E, g.start ≠ ip) :
    flagOf D ip = none := by
  unfold flagOf
  rw [List.find?_eq_none.2, Option.map_none]
  intro x hx
  obtain ⟨g, hg, e⟩ := h x hx
  have := hn g hg
  simp only [decide_eq_true_eq]
  omega

/-- Entering a function into the table, or not. -/
theorem enter {A E R R' : List PFunc} {D : List (Nat × Nat)} {table t : List (Nat × PFunc)} (hA : (A.map PFunc.start).Nodup)
    (hfl : ∀ f ∈ A, f.flag = none) (hp : (E ++ R).Perm A)
    (htab : ∀ ip, lookup table ip = (E.find? (fun g => g.start = ip)).map (fun g => { g with flag := flagOf D ip }))
    (hD : ∀ x ∈ D, ∃ g ∈ E, g.start = x.1)
    (h : (t = table ∧ R' = R) ∨ ∃ f, t = put table f.start f ∧ R.Perm (f :: R')) :
    ∃ E', (E' ++ R').Perm A ∧ (∀ ip, lookup t ip = (E'.find? (fun g => g.start = ip)).map (fun g => { g with flag := flagOf D ip })) ∧
      (∀ x ∈ D, ∃ g ∈ E', g.start = x.1) ∧ (∀ ip, (lookup table ip).isSome → (lookup t ip).isSome) := by
  rcases h with ⟨rfl, rfl⟩ | ⟨f, rfl, hR⟩
  · exact ⟨E, hp, htab, hD, fun _ h => h⟩
  · have hp' : ((f :: E) ++ R').Perm A := by
      refine List.Perm.trans ?_ hp
      refine List.Perm.trans ?_ (List.Perm.append_left E hR.symm)
      exact (List.perm_middle).symm
    have hmem : f ∈ A := hp'.subset (by simp)
    have hnd : (((f :: E) ++ R').map PFunc.start).Nodup := (hp'.map PFunc.start).nodup_iff.2 hA
    have hne : ∀ g ∈ E, g.start ≠ f.start := by
      intro g hg e
      rw [List.cons_append, List.map_cons, List.nodup_cons] at hnd
      exact hnd.1 (e ▸ List.mem_map_of_mem (List.mem_append_left _ hg))
    refine ⟨f :: E, hp', tab_put htab (hfl f hmem) (flagOf_none hD hne), fun x hx => ?_, fun ip h => ?_⟩
    · obtain ⟨g, hg, e⟩ := hD x hx
      exact ⟨g, List.mem_cons_of_mem _ hg, e⟩
    · rw [lookup_put]
      split
      · rfl
      · exact h

theorem flat_same {a b : List W} {w w' : W} (h : pend w' = pend w) : (a ++ w' :: b).flatMap pend = (a ++ w :: b).flatMap pend := by
  simp [List.flatMap_append, List.flatMap_cons, h]

theorem flat_less {a b : List W} {w w' : W} {f : PFunc} (h : pend w = f :: pend w') :
    ((a ++ w :: b).flatMap pend).Perm (f :: (a ++ w' :: b).flatMap pend) := by
  simp only [List.flatMap_append, List.flatMap_cons, h]
  rw [List.cons_append]
  exact List.perm_middle

theorem isSome_of_not_isNone {α} {o : Option α} (h : ¬ (o.isNone = true)) : o.isSome = true := by
  cases o
  · exact absurd rfl h
  · rfl

theorem count_mid (p : W → Bool) (a b : List W) (w : W) : (a ++ w :: b).countP p = (a ++ b).countP p + b2n (p w) := by
  simp only [List.countP_append, List.countP_cons, b2n]
  omega

theorem count_mid3 (p : W → Bool) (a b c : List W) (w : W) : (a ++ w :: b ++ c).countP p = (a ++ b ++ c).countP p + b2n (p w) := by
  simp only [List.countP_append, List.countP_cons, b2n]
  omega

/-- One step keeps the facts. -/
theorem Facts.step {ps mine : List PInfo} {tr : List (Nat × Nat)} {ips : List Nat} {s s' : St} {w : Who} {E : List PFunc} {D : List (Nat × Nat)}
    (hd : ((allFuncs ps ++ allFuncs mine).map PFunc.start).Nodup) (F : Facts ps mine tr ips s E D) (st : Step tr mine s w s') (hc : s'.crash = none)
    (hm : s'.main ≠ .failed) : ∃ E' D', Facts ps mine tr ips s' E' D' := by
  have hfl : ∀ f ∈ allFuncs ps ++ allFuncs mine, f.flag = none := by
    intro f hf
    rcases List.mem_append.1 hf with h | h <;> exact allFuncs_flag h
  cases st with
  | worker a b w w' t lk wg e c h0 hws hw =>
    simp only at hc hm
    subst hc
    obtain ⟨E', hp, htab, hD, hmono⟩ := enter (R' := (a ++ w' :: b).flatMap pend ++ mpend mine s.main) hd hfl F.perm F.tab F.flgIn (t := t) (by
      rcases hw.pend with ⟨rfl, e⟩ | ⟨f, rfl, e⟩
      · exact .inl ⟨rfl, by rw [hws, flat_same e]⟩
      · refine .inr ⟨f, rfl, ?_⟩
        rw [hws]
        exact (flat_less e).append_right _)
    have hcnt := hw.counts rfl (n := ((a ++ b) ++ match s.main with | .add w _ => [w] | _ => []).countP holds)
      (m := ((a ++ b) ++ match s.main with | .add w _ => [w] | _ => []).countP writes) (by
        have := F.lk
        rw [← this]
        unfold adders
        rw [hws, count_mid3]) (by
        have := F.wg
        rw [← this]
        unfold adders
        rw [hws, count_mid3])
    refine ⟨E', D, ⟨hp, htab, F.flg, hD, ?_, ?_, ?_, F.ts, fun x hx hf => hmono _ (F.fin x hx hf), F.past⟩⟩
    · intro h
      have hdone := F.wt h w (by rw [hws]; simp)
      subst hdone
      cases hw
    · rw [← hcnt.1]
      unfold adders
      simp only
      rw [count_mid3]
    · rw [← hcnt.2]
      unfold adders
      simp only
      rw [count_mid3]
  | waited tr' h0 hp hall hperm =>
    refine ⟨E, D, ⟨F.perm, F.tab, ?_, F.flgIn, fun _ => hall, F.lk, F.wg, F.ts, F.fin, F.past⟩⟩
    have := F.flg
    rw [hp] at this
    simp only [left] at this ⊢
    exact (List.Perm.append_left D hperm).trans this
  | flag ip fl rest h0 hp =>
    simp only at hc
    unfold look at hc
    split at hc
    · cases hc
    · split at hc
      · cases hc
      · rename_i hnw hs
        obtain ⟨f, hf⟩ := Option.isSome_iff_exists.1 (isSome_of_not_isNone hs)
        have hset : setFlag s.table ip fl = put s.table ip { f with flag := some fl } := by
          unfold setFlag; rw [hf]
        have hfE := F.tab ip
        rw [hf] at hfE
        obtain ⟨g, hg, hgf⟩ := Option.map_eq_some_iff.1 hfE.symm
        have hgm := List.mem_of_find?_eq_some hg
        have hgs : g.start = ip := by simpa using List.find?_some hg
        refine ⟨E, (ip, fl) :: D, ⟨F.perm, ?_, ?_, ?_, fun h => F.wt (by rw [hp]; nofun), F.lk, F.wg, F.ts, ?_, F.past⟩⟩
        · intro ip'
          simp only [hset]
          rw [lookup_put]
          by_cases e : ip' = ip
          · subst e
            rw [if_pos rfl, hg]
            simp only [Option.map_some, flagOf, decide_true, List.find?_cons_of_pos, ← hgf]
          · rw [if_neg e, F.tab ip']
            have : flagOf ((ip, fl) :: D) ip' = flagOf D ip' := by
              unfold flagOf
              rw [List.find?_cons_of_neg (by simpa using fun h => e h.symm)]
            rw [this]
        · have := F.flg
          rw [hp] at this
          simp only [left] at this ⊢
          refine List.Perm.trans ?_ this
          rw [List.cons_append]
          exact (List.perm_middle).symm
        · intro x hx
          rcases List.mem_cons.1 hx with rfl | hx
          · exact ⟨g, hgm, hgs⟩
          · exact F.flgIn x hx
        · intro t ht hfin
          simp only [hset]
          rw [lookup_put]
          split
          · rfl
          · exact F.fin t ht hfin
  | close h0 hp =>
    refine ⟨E, D, ⟨F.perm, F.tab, ?_, F.flgIn, fun h => F.wt (by rw [hp]; nofun), F.lk, F.wg, F.ts, F.fin, F.past⟩⟩
    have := F.flg
    rw [hp] at this
    exact this
  | ready h0 hp =>
    refine ⟨E, D, ⟨F.perm, F.tab, ?_, F.flgIn, fun h => F.wt (by rw [hp]; nofun), F.lk, F.wg, F.ts, F.fin, F.past⟩⟩
    have := F.flg
    rw [hp] at this
    exact this
  | tracer a b ip h0 hts =>
    simp only at hc
    have hsome : (lookup s.table ip).isSome := by
      unfold look at hc
      split at hc
      · cases hc
      · split at hc
        · cases hc
        · rename_i hs; exact isSome_of_not_isNone hs
    refine ⟨E, D, ⟨F.perm, F.tab, F.flg, F.flgIn, F.wt, F.lk, F.wg, ?_, ?_, ?_⟩⟩
    · have := F.ts
      rw [hts] at this
      simpa using this
    · intro t ht hfin
      simp only [List.mem_append, List.mem_cons] at ht
      rcases ht with ht | rfl | ht
      · exact F.fin t (by rw [hts]; simp [ht]) hfin
      · exact hsome
      · exact F.fin t (by rw [hts]; simp [ht]) hfin
    · intro hmain
      have := F.past hmain ⟨ip, false⟩ (by rw [hts]; simp)
      cases this
  | traced h0 hp hall =>
    refine ⟨E, D, ⟨?_, F.tab, F.flg, F.flgIn, F.wt, ?_, ?_, F.ts, F.fin, fun _ => hall⟩⟩
    · have := F.perm
      rw [hp] at this
      simpa [mpend, pend] using this
    · have := F.lk
      unfold adders at this ⊢
      rw [hp] at this
      simpa [List.countP_append, holds] using this
    · have := F.wg
      unfold adders at this ⊢
      rw [hp] at this
      simpa [List.countP_append, writes] using this
  | adding rest w w' t lk wg e c h0 hmn hw =>
    simp only at hc hm
    subst hc
    cases e with
    | true => exact absurd rfl hm
    | false =>
      obtain ⟨E', hp, htab, hD, hmono⟩ := enter (R' := s.ws.flatMap pend ++ (pend w' ++ allFuncs rest)) hd hfl F.perm F.tab F.flgIn (t := t) (by
        rw [hmn]
        simp only [mpend]
        rcases hw.pend with ⟨rfl, e⟩ | ⟨f, rfl, e⟩
        · exact .inl ⟨rfl, by rw [e]⟩
        · refine .inr ⟨f, rfl, ?_⟩
          rw [e, List.cons_append]
          exact List.perm_middle)
      have hcnt := hw.counts rfl (n := s.ws.countP holds) (m := s.ws.countP writes) (by
          have := F.lk
          rw [← this]
          unfold adders
          rw [hmn]
          simp only
          rw [count_mid, List.append_nil]) (by
          have := F.wg
          rw [← this]
          unfold adders
          rw [hmn]
          simp only
          rw [count_mid, List.append_nil])
      refine ⟨E', D, ⟨hp, htab, F.flg, hD, F.wt, ?_, ?_, F.ts, fun x hx hf => hmono _ (F.fin x hx hf), fun _ => F.past (by rw [hmn]; nofun)⟩⟩
      · rw [← hcnt.1]
        unfold adders
        simp only [Bool.false_eq_true, if_false]
        rw [count_mid, List.append_nil]
      · rw [← hcnt.2]
        unfold adders
        simp only [Bool.false_eq_true, if_false]
        rw [count_mid, List.append_nil]
  | next p rest h0 hmn =>
    refine ⟨E, D, ⟨?_, F.tab, F.flg, F.flgIn, F.wt, ?_, ?_, F.ts, F.fin, fun _ => F.past (by rw [hmn]; nofun)⟩⟩
    · have := F.perm
      rw [hmn] at this
      simp only [mpend, pend, List.nil_append] at this ⊢
      rw [← allFuncs_append]
      exact this
    · have := F.lk
      unfold adders at this ⊢
      rw [hmn] at this
      simpa [List.countP_append, holds] using this
    · have := F.wg
      unfold adders at this ⊢
      rw [hmn] at this
      simpa [List.countP_append, writes] using this
  | added h0 hmn =>
    refine ⟨E, D, ⟨?_, F.tab, F.flg, F.flgIn, F.wt, ?_, ?_, F.ts, F.fin, fun _ => F.past (by rw [hmn]; nofun)⟩⟩
    · have := F.perm
      rw [hmn] at this
      simpa [mpend, pend, allFuncs] using this
    · have := F.lk
      unfold adders at this ⊢
      rw [hmn] at this
      simpa [List.countP_append, holds] using this
    · have := F.wg
      unfold adders at this ⊢
      rw [hmn] at this
      simpa [List.countP_append, writes] using this

theorem Step.from {tr : List (Nat × Nat)} {mine : List PInfo} {s s' : St} {w : Who} (st : Step tr mine s w s') :
    s.crash = none ∧ (s'.main ≠ .failed → s.main ≠ .failed) := by
  cases st
  all_goals refine ⟨by assumption, ?_⟩
  all_goals first
    | exact fun h => h
    | (intro _ h; simp_all; done)

theorem Facts.init (ps mine : List PInfo) (tr : List (Nat × Nat)) (ips : List Nat) : Facts ps mine tr ips (init ps ips) [] [] := by
  have hz : ∀ p : W → Bool, (∀ q, p (.start q) = false) → (adders (Bg.init ps ips)).countP p = 0 := by
    intro p hp
    unfold adders Bg.init
    simp only [List.append_nil, List.countP_eq_zero, List.mem_map]
    rintro _ ⟨q, _, rfl⟩
    simp [hp]
  refine ⟨?_, fun ip => rfl, List.Perm.refl _, nofun, fun h => absurd rfl h, hz _ fun _ => rfl, hz _ fun _ => rfl, ?_, ?_, fun h => absurd rfl h⟩
  · simp only [Bg.init, mpend, List.nil_append]
    refine List.Perm.append_right _ ?_
    have : (ps.map W.start).flatMap pend = allFuncs ps := by
      clear hz
      induction ps with
      | nil => rfl
      | cons p ps ih =>
        rw [List.map_cons, List.flatMap_cons, ih]
        show allFuncs [p] ++ _ = _
        rw [← allFuncs_append]
        rfl
    rw [this]
  · simp [Bg.init, Function.comp_def]
  · intro t ht hf
    obtain ⟨ip, _, rfl⟩ := List.mem_map.1 ht
    cases hf

theorem Run.facts {ps mine : List PInfo} {tr : List (Nat × Nat)} {ips : List Nat} {s : St}
    (hd : ((allFuncs ps ++ allFuncs mine).map PFunc.start).Nodup) (h : Run tr mine (init ps ips) s) :
    s.crash = none → s.main ≠ .failed → ∃ E D, Facts ps mine tr ips s E D := by
  induction h with
  | refl => exact fun _ _ => ⟨[], [], Facts.init ps mine tr ips⟩
  | step a b w _ st ih =>
    intro hc hm
    obtain ⟨h1, h2⟩ := st.from
    obtain ⟨E, D, F⟩ := ih h1 (h2 hm)
    exact F.step hd st hc hm

/-- Specification: the options given for the function at an address. -/
def Asked (tr : List (Nat × Nat)) (ip : Nat) (o : Option Nat) : Prop := ∀ fl, o = some fl ↔ (ip, fl) ∈ tr

theorem find_mem {D : List (Nat × Nat)} (h : (D.map Prod.fst).Nodup) (ip fl : Nat) : flagOf D ip = some fl ↔ (ip, fl) ∈ D := by
  unfold flagOf
  induction D with
  | nil => simp
  | cons x D ih =>
    rw [List.map_cons, List.nodup_cons] at h
    obtain ⟨a, b⟩ := x
    by_cases e : a = ip
    · subst e
      simp only [decide_true, List.find?_cons_of_pos, Option.map_some, Option.some.injEq, List.mem_cons, Prod.mk.injEq, true_and]
      constructor
      · exact fun h => .inl h.symm
      · rintro (h1 | h1)
        · exact h1.symm
        · exact absurd (List.mem_map_of_mem h1) h.1
    · rw [List.find?_cons_of_neg (by simpa using e), ih h.2]
      simp only [List.mem_cons, Prod.mk.injEq]
      exact ⟨.inr, fun h => h.elim (fun h => absurd h.1.symm e) id⟩

theorem find_fun {E : List PFunc} (h : (E.map PFunc.start).Nodup) (ip : Nat) (g : PFunc) :
    E.find? (fun g => g.start = ip) = some g ↔ g ∈ E ∧ g.start = ip := by
  induction E with
  | nil => simp
  | cons x E ih =>
    rw [List.map_cons, List.nodup_cons] at h
    by_cases e : x.start = ip
    · subst e
      simp only [decide_true, List.find?_cons_of_pos, Option.some.injEq, List.mem_cons]
      constructor
      · rintro rfl; exact ⟨.inl rfl, rfl⟩
      · rintro ⟨rfl | h1, h2⟩
        · rfl
        · exact absurd (h2 ▸ List.mem_map_of_mem h1) h.1
    · rw [List.find?_cons_of_neg (by simpa using e), ih h.2]
      simp only [List.mem_cons]
      constructor
      · exact fun h => ⟨.inr h.1, h.2⟩
      · rintro ⟨rfl | h1, h2⟩
        · exact absurd h2 e
        · exact ⟨h1, h2⟩

theorem Facts.nodup {ps mine : List PInfo} {tr : List (Nat × Nat)} {ips : List Nat} {s : St} {E : List PFunc} {D : List (Nat × Nat)}
    (hd : ((allFuncs ps ++ allFuncs mine).map PFunc.start).Nodup) (F : Facts ps mine tr ips s E D) : (E.map PFunc.start).Nodup := by
  have := (F.perm.map PFunc.start).nodup_iff.2 hd
  rw [List.map_append] at this
  exact (List.nodup_append.1 this).1

/-- **C87.** Whatever the schedule: if bpfsnoop did not crash, then once the programs have been read and its own added, the
table holds exactly the functions of the programs whose information was accepted and those of bpfsnoop's own programs, each
with the options it is traced with. -/
theorem table_complete {ps mine : List PInfo} {tr : List (Nat × Nat)} {ips : List Nat} {s : St} (hd : Distinct (ps ++ mine))
    (htr : (tr.map Prod.fst).Nodup) (h : Run tr mine (init ps ips) s) (hc : s.crash = none) (hm : s.main = .show)
    (hp : s.parser = .closed ∨ s.parser = .ready) (ip : Nat) (f : PFunc) :
    lookup s.table ip = some f ↔ ∃ g, FuncIn (ps ++ mine) g ∧ g.start = ip ∧ ∃ o, Asked tr ip o ∧ f = { g with flag := o } := by
  unfold Distinct at hd
  rw [allFuncs_append] at hd
  obtain ⟨E, D, F⟩ := h.facts hd hc (by rw [hm]; nofun)
  have hDt : D.Perm tr := by
    have := F.flg
    rcases hp with e | e <;> simpa [e, left] using this
  have hDn : (D.map Prod.fst).Nodup := (hDt.map Prod.fst).nodup_iff.2 htr
  have hAsk : Asked tr ip (flagOf D ip) := fun fl => by rw [find_mem hDn, hDt.mem_iff]
  have hdone : s.ws.flatMap pend = [] := by
    rw [List.flatMap_eq_nil_iff]
    intro w hw
    rw [F.wt (by rcases hp with e | e <;> rw [e] <;> nofun) w hw]
    rfl
  have hE : E.Perm (allFuncs ps ++ allFuncs mine) := by
    have := F.perm
    rw [hdone, hm] at this
    simpa [mpend] using this
  rw [F.tab, Option.map_eq_some_iff]
  constructor
  · rintro ⟨g, hg, rfl⟩
    obtain ⟨h1, h2⟩ := (find_fun (F.nodup hd) ip g).1 hg
    refine ⟨g, ?_, h2, _, hAsk, rfl⟩
    rw [← Li.mem_allFuncs, allFuncs_append]
    exact hE.mem_iff.1 h1
  · rintro ⟨g, hg, h2, o, ho, rfl⟩
    rw [← Li.mem_allFuncs, allFuncs_append] at hg
    refine ⟨g, (find_fun (F.nodup hd) ip g).2 ⟨hE.mem_iff.2 hg, h2⟩, ?_⟩
    have : flagOf D ip = o := by
      apply Option.ext
      intro fl
      rw [hAsk fl, ← ho fl]
    rw [this]

/-- **C87.** Whatever the schedule: if bpfsnoop did not crash, then when it shows events every traced function is in the table,
also if the programs are still being read. -/
theorem shown_traced {ps mine : List PInfo} {tr : List (Nat × Nat)} {ips : List Nat} {s : St} (hd : Distinct (ps ++ mine))
    (h : Run tr mine (init ps ips) s) (hc : s.crash = none) (hm : s.main = .show) {ip : Nat} (hip : ip ∈ ips) :
    ∃ f g, lookup s.table ip = some f ∧ FuncIn (ps ++ mine) g ∧ g.start = ip ∧ f.name = g.name ∧ f.stop = g.stop ∧ f.lines = g.lines := by
  unfold Distinct at hd
  rw [allFuncs_append] at hd
  obtain ⟨E, D, F⟩ := h.facts hd hc (by rw [hm]; nofun)
  rw [← F.ts] at hip
  obtain ⟨t, ht, rfl⟩ := List.mem_map.1 hip
  obtain ⟨f, hf⟩ := Option.isSome_iff_exists.1 (F.fin t ht (F.past (by rw [hm]; nofun) t ht))
  have h1 := F.tab t.ip
  rw [hf] at h1
  obtain ⟨g, hg, e⟩ := Option.map_eq_some_iff.1 h1.symm
  obtain ⟨h2, h3⟩ := (find_fun (F.nodup hd) _ g).1 hg
  refine ⟨f, g, hf, ?_, h3, ?_⟩
  · rw [← Li.mem_allFuncs, allFuncs_append]
    exact F.perm.subset (List.mem_append_left _ h2)
  · subst e
    exact ⟨rfl, rfl, rfl⟩

/-- The goroutines that add programs exclude each other: never do two of them write the map, and none writes it without the lock. -/
theorem writers_exclusive {ps mine : List PInfo} {tr : List (Nat × Nat)} {ips : List Nat} {s : St} (hd : Distinct (ps ++ mine))
    (h : Run tr mine (init ps ips) s) (hc : s.crash = none) (hm : s.main ≠ .failed) :
    (adders s).countP holds ≤ 1 ∧ (adders s).countP writes ≤ 1 ∧ (s.writing = true ↔ ∃ w ∈ adders s, writes w = true) := by
  unfold Distinct at hd
  rw [allFuncs_append] at hd
  obtain ⟨E, D, F⟩ := h.facts hd hc hm
  rw [F.lk, F.wg]
  refine ⟨by unfold b2n; split <;> decide, by unfold b2n; split <;> decide, ?_⟩
  have := F.wg
  constructor
  · intro e
    rw [e] at this
    exact List.countP_pos_iff.1 (by rw [this]; decide)
  · intro e
    have := List.countP_pos_iff.2 e
    rw [F.wg] at this
    cases hw : s.writing with
    | true => rfl
    | false => rw [hw] at this; cases this

/-- A crash because the map is written can only come from those that read it without the lock: the tracers and the end of the
reading of the programs. -/
theorem race_by_readers {ps mine : List PInfo} {tr : List (Nat × Nat)} {ips : List Nat} {a b : St} {w : Who} (hd : Distinct (ps ++ mine))
    (h : Run tr mine (init ps ips) a) (hm : a.main ≠ .failed) (st : Step tr mine a w b) (hc : b.crash = some .race) :
    w = .tracer ∨ w = .parser := by
  unfold Distinct at hd
  rw [allFuncs_append] at hd
  obtain ⟨E, D, F⟩ := h.facts hd st.from.1 hm
  have noclash : ∀ (x y : List W) (f : PFunc) (fs : List PFunc), adders a = x ++ W.hold (f :: fs) :: y → a.writing = true → False := by
    intro x y f fs e hw
    have h1 := F.lk
    have h2 := F.wg
    rw [e, count_mid] at h1 h2
    rw [hw] at h2
    have h3 : (x ++ y).countP writes = 1 := by simpa [b2n, writes] using h2
    have h4 : (x ++ y).countP writes ≤ (x ++ y).countP holds := by
      apply List.countP_mono_left
      intro w _ hw
      cases w <;> first | rfl | cases hw
    have h5 : (x ++ y).countP holds + 1 ≤ 1 := by
      have : b2n a.lock ≤ 1 := by unfold b2n; split <;> decide
      have h6 : b2n (holds (W.hold (f :: fs))) = 1 := rfl
      omega
    omega
  cases st with
  | worker x y w w' t lk wg e c h0 hws hw =>
    simp only at hc
    subst hc
    generalize hcc : (some Crash.race) = c at hw
    cases hw with
    | clash f fs hwr =>
      refine absurd (noclash x (y ++ match a.main with | .add w _ => [w] | _ => []) f fs ?_ hwr) id
      unfold adders
      rw [hws, List.append_assoc, List.cons_append]
    | _ => cases hcc
  | adding rest w w' t lk wg e c h0 hmn hw =>
    simp only at hc
    subst hc
    generalize hcc : (some Crash.race) = c at hw
    cases hw with
    | clash f fs hwr =>
      refine absurd (noclash a.ws [] f fs ?_ hwr) id
      unfold adders
      rw [hmn]
    | _ => cases hcc
  | tracer x y ip h0 h1 => exact .inl rfl
  | flag ip fl rest h0 h1 => exact .inr rfl
  | waited tr' h0 => exact .inr rfl
  | close h0 => exact .inr rfl
  | ready h0 => exact .inr rfl
  | traced h0 h1 h2 =>
    simp only at hc
    rw [h0] at hc
    cases hc
  | next p rest h0 h1 =>
    simp only at hc
    rw [h0] at hc
    cases hc
  | added h0 h1 =>
    simp only at hc
    rw [h0] at hc
    cases hc

/-- Executions in which no tracer looks its function up before the programs have been read. -/
inductive CalmRun (tr : List (Nat × Nat)) (mine : List PInfo) (s : St) : St → Prop
  | refl : CalmRun tr mine s s
  | step (a b : St) (w : Who) : CalmRun tr mine s a → Step tr mine a w b → (w = .tracer → a.parser = .closed ∨ a.parser = .ready) → CalmRun tr mine s b

theorem CalmRun.run {tr : List (Nat × Nat)} {mine : List PInfo} {s s' : St} (h : CalmRun tr mine s s') : Run tr mine s s' := by
  induction h with
  | refl => exact .refl
  | step a b w _ st _ ih => exact .step a b w ih st

/-- **C87.** If the tracers wait until the programs have been read, bpfsnoop does not crash, whatever the schedule otherwise. -/
theorem calm_no_crash {ps mine : List PInfo} {tr : List (Nat × Nat)} {ips : List Nat} {s : St} (hd : Distinct (ps ++ mine))
    (hps : ∀ p ∈ ps ++ mine, newInfo p ≠ .panic) (hin : ∀ x ∈ tr, ∃ f, FuncIn ps f ∧ f.start = x.1)
    (hips : ∀ ip, ip ∈ ips ↔ ip ∈ tr.map Prod.fst) (h : CalmRun tr mine (init ps ips) s) (hm : s.main ≠ .failed) :
    s.crash = none := by
  unfold Distinct at hd
  rw [allFuncs_append] at hd
  have key : s.crash = none ∧ ((s.parser = .closed ∨ s.parser = .ready) ∨ ∀ t ∈ s.ts, t.fin = false) ∧
      (∀ w ∈ adders s, ∀ p, w = .start p → p ∈ ps ++ mine) ∧ (∀ w rest, s.main = .add w rest → ∀ p ∈ rest, p ∈ mine) := by
    revert hm
    induction h with
    | refl =>
      intro _
      refine ⟨rfl, .inr ?_, ?_, nofun⟩
      · intro t ht
        obtain ⟨ip, _, rfl⟩ := List.mem_map.1 ht
        rfl
      · intro w hw p e
        simp only [adders, Bg.init, List.append_nil, List.mem_map] at hw
        obtain ⟨q, hq, rfl⟩ := hw
        cases e
        exact List.mem_append_left _ hq
    | step a b w hr st hcalm ih =>
      intro hm
      obtain ⟨hc0, hm0⟩ := st.from
      obtain ⟨_, ih1, ih2, ih3⟩ := ih (hm0 hm)
      obtain ⟨E, D, F⟩ := hr.run.facts hd hc0 (hm0 hm)
      have noW : (∀ w ∈ a.ws, w = .done) → a.main = .trace → a.writing = false := by
        intro h1 h2
        have := F.wg
        have h3 : (adders a).countP writes = 0 := by
          rw [List.countP_eq_zero]
          intro w hw
          unfold adders at hw
          rw [h2, List.append_nil] at hw
          rw [h1 w hw]
          nofun
        rw [h3] at this
        cases hw : a.writing with
        | false => rfl
        | true => rw [hw] at this; cases this
      have allIn : (∀ w ∈ a.ws, w = .done) → a.main = .trace → ∀ x ∈ tr, (lookup a.table x.1).isSome := by
        intro h1 h2 x hx
        obtain ⟨f, hf, hfs⟩ := hin x hx
        have hE : f ∈ E := by
          have hperm := F.perm
          rw [h2] at hperm
          have h3 : a.ws.flatMap pend = [] := by
            rw [List.flatMap_eq_nil_iff]
            intro w hw
            rw [h1 w hw]
            rfl
          rw [h3] at hperm
          simp only [mpend, List.nil_append] at hperm
          have hperm' := (List.perm_append_right_iff _).1 hperm
          exact hperm'.mem_iff.2 ((Li.mem_allFuncs ps f).2 hf)
        rw [F.tab, ← hfs, (find_fun (F.nodup hd) f.start f).2 ⟨hE, rfl⟩]
        rfl
      cases st with
      | worker x y w w' t lk wg e c h0 hws hw =>
        have hmem : w ∈ adders a := by unfold adders; rw [hws]; simp
        have hcn : c = none := by
          cases c with
          | none => rfl
          | some c =>
            generalize hcc : some c = c' at hw
            cases hw with
            | panic p hp => exact absurd hp (hps p (ih2 _ hmem p rfl))
            | clash f fs hwr =>
              have := race_by_readers (ps := ps) (mine := mine) (tr := tr) (ips := ips) (by unfold Distinct; rw [allFuncs_append]; exact hd) hr.run (hm0 hm)
                (Step.worker a x y _ _ _ _ _ _ _ h0 hws (WStep.clash f fs hwr)) rfl
              rcases this with h | h <;> cases h
            | _ => cases hcc
        refine ⟨hcn, ih1, ?_, ih3⟩
        intro v hv p e
        unfold adders at hv
        simp only [List.mem_append, List.mem_cons] at hv
        rcases hv with (hv | rfl | hv) | hv
        · exact ih2 v (by unfold adders; rw [hws]; simp [hv]) p e
        · subst e; cases hw
        · exact ih2 v (by unfold adders; rw [hws]; simp [hv]) p e
        · exact ih2 v (by unfold adders; exact List.mem_append_right _ hv) p e
      | waited tr' h0 h1 h2 => exact ⟨h0, ih1.imp (fun h => by rw [h1] at h; rcases h with h | h <;> cases h) id, ih2, ih3⟩
      | flag ip fl rest h0 h1 =>
        have hnf : ∀ t ∈ a.ts, t.fin = false := by
          rcases ih1 with h | h
          · rw [h1] at h
            rcases h with h | h <;> cases h
          · exact h
        have hx : (ip, fl) ∈ tr := by
          refine F.flg.subset ?_
          rw [h1]
          simp [left]
        have hmain : a.main = .trace := by
          cases hmm : a.main with
          | trace => rfl
          | _ =>
            have hpast := F.past (by rw [hmm]; nofun)
            have hip : ip ∈ a.ts.map T.ip := by
              rw [F.ts, hips]
              exact List.mem_map_of_mem hx
            obtain ⟨t, ht, _⟩ := List.mem_map.1 hip
            have := hnf t ht
            rw [hpast t ht] at this
            cases this
        have hdone := F.wt (by rw [h1]; nofun)
        refine ⟨?_, .inr hnf, ih2, ih3⟩
        show look a.table a.writing ip = none
        unfold look
        rw [noW hdone hmain, if_neg (by decide), if_neg]
        have := allIn hdone hmain _ hx
        intro hn
        cases hl : lookup a.table ip with
        | none => simp only [hl] at this; cases this
        | some f => rw [hl] at hn; cases hn
      | close h0 h1 => exact ⟨h0, .inl (.inl rfl), ih2, ih3⟩
      | ready h0 h1 => exact ⟨h0, .inl (.inr rfl), ih2, ih3⟩
      | tracer x y ip h0 hts =>
        have hp := hcalm rfl
        have hmain : a.main = .trace := by
          cases hmm : a.main with
          | trace => rfl
          | _ =>
            have := F.past (by rw [hmm]; nofun) ⟨ip, false⟩ (by rw [hts]; simp)
            cases this
        have hdone := F.wt (by rcases hp with e | e <;> rw [e] <;> nofun)
        refine ⟨?_, .inl hp, ih2, ih3⟩
        show look a.table a.writing ip = none
        unfold look
        rw [noW hdone hmain, if_neg (by decide), if_neg]
        have hip : ip ∈ ips := by
          rw [← F.ts, hts]
          simp
        obtain ⟨x, hx, e⟩ := List.mem_map.1 ((hips ip).1 hip)
        have := allIn hdone hmain _ hx
        rw [e] at this
        intro hn
        cases hl : lookup a.table ip with
        | none => rw [hl] at this; cases this
        | some f => rw [hl] at hn; cases hn
      | traced h0 h1 h2 =>
        refine ⟨h0, ih1, ?_, ?_⟩
        · intro v hv p e
          unfold adders at hv
          simp only [List.mem_append, List.mem_singleton] at hv
          rcases hv with hv | rfl
          · exact ih2 v (by unfold adders; exact List.mem_append_left _ hv) p e
          · cases e
        · intro w rest e p hp
          cases e
          exact hp
      | adding rest w w' t lk wg e c h0 hmn hw =>
        have hmem : w ∈ adders a := by unfold adders; rw [hmn]; simp
        have hcn : c = none := by
          cases c with
          | none => rfl
          | some c =>
            generalize hcc : some c = c' at hw
            cases hw with
            | panic p hp => exact absurd hp (hps p (ih2 _ hmem p rfl))
            | clash f fs hwr =>
              have := race_by_readers (ps := ps) (mine := mine) (tr := tr) (ips := ips) (by unfold Distinct; rw [allFuncs_append]; exact hd) hr.run (hm0 hm)
                (Step.adding a rest _ _ _ _ _ _ _ h0 hmn (WStep.clash f fs hwr)) rfl
              rcases this with h | h <;> cases h
            | _ => cases hcc
        cases e with
        | true => exact absurd rfl hm
        | false =>
          refine ⟨hcn, ih1, ?_, ?_⟩
          · intro v hv p e
            unfold adders at hv
            simp only [Bool.false_eq_true, if_false, List.mem_append, List.mem_singleton] at hv
            rcases hv with hv | rfl
            · exact ih2 v (by unfold adders; exact List.mem_append_left _ hv) p e
            · subst e; cases hw
          · intro w2 rest2 e p hp
            simp only [Bool.false_eq_true, if_false] at e
            cases e
            exact ih3 w rest hmn p hp
      | next p rest h0 hmn =>
        refine ⟨h0, ih1, ?_, ?_⟩
        · intro v hv q e
          unfold adders at hv
          simp only [List.mem_append, List.mem_singleton] at hv
          rcases hv with hv | rfl
          · exact ih2 v (by unfold adders; exact List.mem_append_left _ hv) q e
          · cases e
            exact List.mem_append_right _ (ih3 _ _ hmn p (List.mem_cons_self ..))
        · intro w2 rest2 e q hq
          cases e
          exact ih3 _ _ hmn q (List.mem_cons_of_mem _ hq)
      | added h0 hmn =>
        refine ⟨h0, ih1, ?_, nofun⟩
        intro v hv p e
        unfold adders at hv
        simp only [List.append_nil] at hv
        exact ih2 v (by unfold adders; exact List.mem_append_left _ hv) p e
  exact key.1

/-- **C87 violated.** Whatever the programs: a tracer that is faster than the reading of the programs crashes bpfsnoop, since the
function is not in the table yet. -/
theorem early_violated (ps mine : List PInfo) (tr : List (Nat × Nat)) (ips : List Nat) {ip : Nat} (h : ip ∈ ips) :
    ∃ s, Run tr mine (init ps ips) s ∧ s.crash = some .nil := by
  obtain ⟨a, b, e⟩ := List.append_of_mem h
  refine ⟨_, .step _ _ _ .refl (Step.tracer (init ps ips) (a.map (⟨·, false⟩)) (b.map (⟨·, false⟩)) ip rfl ?_), rfl⟩
  simp [init, e]

/-- **C87 violated.** A tracer that looks its function up while the first function of a program is entered crashes bpfsnoop. -/
theorem write_race_violated (p : PInfo) (ps mine : List PInfo) (tr : List (Nat × Nat)) (ips : List Nat) {ip : Nat} (h : ip ∈ ips) {f : PFunc} {fs : List PFunc}
    (hp : newInfo p = .ok (f :: fs)) : ∃ s, Run tr mine (init (p :: ps) ips) s ∧ s.crash = some .race := by
  obtain ⟨a, b, e⟩ := List.append_of_mem h
  have h1 := Run.step _ _ _ Run.refl (Step.worker (tr := tr) (mine := mine) (init (p :: ps) ips) [] (ps.map .start) _ _ _ _ _ _ _ rfl rfl (WStep.parse p _ hp))
  have h2 := Run.step _ _ _ h1 (Step.worker _ [] (ps.map .start) _ _ _ _ _ _ _ rfl rfl (WStep.acquire _ rfl))
  have h3 := Run.step _ _ _ h2 (Step.worker _ [] (ps.map .start) _ _ _ _ _ _ _ rfl rfl (WStep.begin f fs rfl))
  have h4 := Run.step _ _ _ h3 (Step.tracer _ (a.map (⟨·, false⟩)) (b.map (⟨·, false⟩)) ip rfl (by simp [init, e]))
  exact ⟨_, h4, rfl⟩

/-! ### Refused programs -/

/-- Whatever the schedule: once the programs have been read, an error is reported exactly if the information of one was refused. -/
theorem err_iff {ps mine : List PInfo} {tr : List (Nat × Nat)} {ips : List Nat} {s : St} (h : Run tr mine (init ps ips) s) (hp : s.parser ≠ .wait) :
    s.err = true ↔ ∃ p ∈ ps, newInfo p = .err := by
  have key : ((s.err = true ∨ ∃ p, W.start p ∈ s.ws ∧ newInfo p = .err) ↔ ∃ p ∈ ps, newInfo p = .err) ∧ (s.parser ≠ .wait → ∀ w ∈ s.ws, w = .done) := by
    clear hp
    induction h with
    | refl =>
      refine ⟨?_, fun h => absurd rfl h⟩
      simp only [init, Bool.false_eq_true, false_or]
      constructor
      · rintro ⟨p, hp, e⟩
        obtain ⟨q, hq, e'⟩ := List.mem_map.1 hp
        cases e'
        exact ⟨p, hq, e⟩
      · rintro ⟨p, hp, e⟩
        exact ⟨p, List.mem_map_of_mem hp, e⟩
    | step a b w _ st ih =>
      cases st with
      | worker x y w w' t lk wg e c h0 hws hw =>
        refine ⟨?_, ?_⟩
        · rw [← ih.1, hws]
          simp only [Bool.or_eq_true, List.mem_append, List.mem_cons]
          have hst : ∀ p, W.start p ≠ w' := by
            intro p h
            subst h
            cases hw
          have hst' : e = true ↔ ∃ p, W.start p = w ∧ newInfo p = .err := by
            cases hw <;> simp_all
          constructor
          · rintro ((h | h) | ⟨p, hx | h | hy, e⟩)
            · exact .inl h
            · obtain ⟨p, h1, h2⟩ := hst'.1 h
              exact .inr ⟨p, .inr (.inl h1), h2⟩
            · exact .inr ⟨p, .inl hx, e⟩
            · exact absurd h (hst p)
            · exact .inr ⟨p, .inr (.inr hy), e⟩
          · rintro (h | ⟨p, hx | h | hy, e⟩)
            · exact .inl (.inl h)
            · exact .inr ⟨p, .inl hx, e⟩
            · exact .inl (.inr (hst'.2 ⟨p, h, e⟩))
            · exact .inr ⟨p, .inr (.inr hy), e⟩
        · intro h
          have hdone := ih.2 h w (by rw [hws]; simp)
          subst hdone
          cases hw
      | waited tr' h0 h1 h2 h3 => exact ⟨ih.1, fun _ => h2⟩
      | flag ip fl rest h0 h1 => exact ⟨ih.1, fun _ => ih.2 (by rw [h1]; nofun)⟩
      | close h0 h1 => exact ⟨ih.1, fun _ => ih.2 (by rw [h1]; nofun)⟩
      | ready h0 h1 => exact ⟨ih.1, fun _ => ih.2 (by rw [h1]; nofun)⟩
      | _ => exact ih
  rw [← key.1]
  constructor
  · exact .inl
  · rintro (h | ⟨p, h, _⟩)
    · exact h
    · cases key.2 hp _ h

/-! ### No schedule gets stuck -/

theorem WStep.exists_hold (table : List (Nat × PFunc)) (lock writing : Bool) {w : W} (h : holds w = true) :
    ∃ w' t lk wg e c, WStep table lock writing w w' t lk wg e c := by
  cases w with
  | hold fs =>
    cases fs with
    | nil => exact ⟨_, _, _, _, _, _, .release⟩
    | cons f fs =>
      cases writing with
      | false => exact ⟨_, _, _, _, _, _, .begin f fs rfl⟩
      | true => exact ⟨_, _, _, _, _, _, .clash f fs rfl⟩
  | wr f fs => exact ⟨_, _, _, _, _, _, .commit f fs⟩
  | _ => cases h

theorem WStep.exists_free (table : List (Nat × PFunc)) {lock : Bool} (writing : Bool) {w : W} (h : w ≠ .done) (hl : (∃ fs, w = .want fs) → lock = false) :
    ∃ w' t lk wg e c, WStep table lock writing w w' t lk wg e c := by
  cases w with
  | start p =>
    cases e : newInfo p with
    | ok fs => exact ⟨_, _, _, _, _, _, .parse p fs e⟩
    | err => exact ⟨_, _, _, _, _, _, .refuse p e⟩
    | panic => exact ⟨_, _, _, _, _, _, .panic p e⟩
  | want fs => exact ⟨_, _, _, _, _, _, .acquire fs (hl ⟨fs, rfl⟩)⟩
  | hold fs => exact WStep.exists_hold table lock writing rfl
  | wr f fs => exact WStep.exists_hold table lock writing rfl
  | done => exact absurd rfl h

/-- **C87.** No schedule gets stuck: as long as bpfsnoop has not crashed or ended with an error, some goroutine can go on, until
the programs have been read and events are shown. -/
theorem progress {ps mine : List PInfo} {tr : List (Nat × Nat)} {ips : List Nat} {s : St} (hd : Distinct (ps ++ mine))
    (h : Run tr mine (init ps ips) s) (hc : s.crash = none) (hm : s.main ≠ .failed) (hend : ¬ (s.main = .show ∧ s.parser = .ready)) :
    ∃ w s', Step tr mine s w s' := by
  unfold Distinct at hd
  rw [allFuncs_append] at hd
  obtain ⟨E, D, F⟩ := h.facts hd hc hm
  have adder : ∀ w ∈ adders s, (∃ w' t lk wg e c, WStep s.table s.lock s.writing w w' t lk wg e c) → ∃ w s', Step tr mine s w s' := by
    intro w hw ⟨w', t, lk, wg, e, c, st⟩
    unfold adders at hw
    rcases List.mem_append.1 hw with hw | hw
    · obtain ⟨a, b, e'⟩ := List.append_of_mem hw
      exact ⟨_, _, Step.worker s a b w w' t lk wg e c hc e' st⟩
    · cases hmm : s.main with
      | add v rest =>
        rw [hmm] at hw
        cases List.mem_singleton.1 hw
        exact ⟨_, _, Step.adding s rest w w' t lk wg e c hc hmm st⟩
      | _ => rw [hmm] at hw; cases hw
  by_cases hlk : s.lock = true
  · have := F.lk
    rw [hlk] at this
    obtain ⟨w, hw, hh⟩ := List.countP_pos_iff.1 (by rw [this]; decide : 0 < (adders s).countP holds)
    exact adder w hw (WStep.exists_hold _ _ _ hh)
  · have hlk' : s.lock = false := by simpa using hlk
    by_cases hall : ∀ w ∈ adders s, w = .done
    · have hws : ∀ w ∈ s.ws, w = .done := fun w hw => hall w (List.mem_append_left _ hw)
      cases hpp : s.parser with
      | wait => exact ⟨_, _, Step.waited s tr hc hpp hws (.refl _)⟩
      | flags r =>
        cases r with
        | nil => exact ⟨_, _, Step.close s hc hpp⟩
        | cons x r => exact ⟨_, _, Step.flag s x.1 x.2 r hc hpp⟩
      | closed => exact ⟨_, _, Step.ready s hc hpp⟩
      | ready =>
        by_cases hfin : ∀ t ∈ s.ts, t.fin = true
        · cases hmm : s.main with
          | trace => exact ⟨_, _, Step.traced s hc hmm hfin⟩
          | add w rest =>
            have hw := hall w (by unfold adders; rw [hmm]; simp)
            subst hw
            cases rest with
            | nil => exact ⟨_, _, Step.added s hc hmm⟩
            | cons p rest => exact ⟨_, _, Step.next s p rest hc hmm⟩
          | «show» => exact absurd ⟨hmm, hpp⟩ hend
          | failed => exact absurd hmm hm
        · simp only [Classical.not_forall] at hfin
          obtain ⟨t, ht, hf⟩ := hfin
          obtain ⟨a, b, e⟩ := List.append_of_mem ht
          refine ⟨_, _, Step.tracer s a b t.ip hc ?_⟩
          rw [e]
          cases t with
          | mk ip fin =>
            cases fin with
            | false => rfl
            | true => exact absurd rfl hf
    · simp only [Classical.not_forall] at hall
      obtain ⟨w, hw, hne⟩ := hall
      exact adder w hw (WStep.exists_free _ _ hne (fun _ => hlk'))

/-- Steps left to a goroutine that adds a program. -/
def wSize : W → Nat
  | .start p => 3 + 2 * (allFuncs [p]).length
  | .want fs => 2 + 2 * fs.length
  | .hold fs => 1 + 2 * fs.length
  | .wr _ fs => 2 + 2 * fs.length
  | .done => 0

theorem WStep.size {table : List (Nat × PFunc)} {lock writing : Bool} {w w' t lk wg e c} (h : WStep table lock writing w w' t lk wg e c) :
    wSize w' < wSize w := by
  cases h with
  | parse p fs h => simp only [wSize, allFuncs_ok h]; omega
  | refuse p h => simp only [wSize]; omega
  | panic p h => simp only [wSize]; omega
  | acquire fs h => simp only [wSize]; omega
  | begin f fs h => simp only [wSize, List.length_cons]; omega
  | clash f fs h => simp only [wSize, List.length_cons]; omega
  | commit f fs => simp only [wSize]; omega
  | release => simp only [wSize]; omega

/-- Steps left to `parseProgs`. -/
def pSize (tr : List (Nat × Nat)) : P → Nat
  | .wait => 3 + tr.length
  | .flags r => 2 + r.length
  | .closed => 1
  | .ready => 0

def restSize (rest : List PInfo) : Nat := (rest.map (fun p => 1 + wSize (.start p))).sum

/-- Steps left to the main goroutine. -/
def mSize (mine : List PInfo) : M → Nat
  | .trace => 2 + restSize mine
  | .add w rest => 1 + wSize w + restSize rest
  | _ => 0

/-- A bound for the number of steps left. -/
def size (tr : List (Nat × Nat)) (mine : List PInfo) (s : St) : Nat :=
  (s.ws.map wSize).sum + pSize tr s.parser + s.ts.countP (fun t => !t.fin) + mSize mine s.main

/-- **C87.** Every execution ends: each step uses up one of a number of steps known from the start. -/
theorem terminates {tr : List (Nat × Nat)} {mine : List PInfo} {s s' : St} {w : Who} (st : Step tr mine s w s') : size tr mine s' < size tr mine s := by
  unfold size
  cases st with
  | worker a b w w' t lk wg e c h0 hws hw =>
    have := hw.size
    simp only [hws, List.map_append, List.map_cons, List.sum_append, List.sum_cons]
    omega
  | waited tr' h0 hp hall hperm =>
    simp only [hp, pSize, hperm.length_eq]
    omega
  | flag ip fl rest h0 hp => simp only [hp, pSize, List.length_cons]; omega
  | close h0 hp => simp only [hp, pSize, List.length_nil]; omega
  | ready h0 hp => simp only [hp, pSize]; omega
  | tracer a b ip h0 hts => simp [hts, List.countP_append]
  | traced h0 hp hall => simp only [hp, mSize, wSize]; omega
  | adding rest w w' t lk wg e c h0 hmn hw =>
    have := hw.size
    simp only [hmn]
    cases e <;> simp only [mSize, if_true, if_false, Bool.false_eq_true] <;> omega
  | next p rest h0 hmn =>
    simp only [hmn, mSize, restSize, List.map_cons, List.sum_cons]
    simp only [wSize]
    omega
  | added h0 hmn => simp only [hmn, mSize, wSize]; omega

/-! ### Examples -/

/-- A program of bpfsnoop itself. -/
def exMine : PInfo := { names := ["own"], ksyms := [0x4000], lens := [4], jlines := [], lines := [], insns := 4 }

theorem exMine_info : newInfo exMine = .ok [⟨0x4000, 0x4004, "own", [], none⟩] := by decide +kernel

theorem exProg_info : newInfo Li.exProg = .ok [⟨0x1000, 0x1010, "main", [(0x1000, ⟨"./a.c".toList, 1⟩), (0x1004, ⟨"./a.c".toList, 2⟩)], none⟩,
    ⟨0x2000, 0x2008, "sub", [(0x2000, ⟨"b.c".toList, 7⟩)], none⟩] := by decide +kernel

/-- The hypotheses of the theorems hold of a program with two functions, one of them traced, and one program of bpfsnoop. -/
theorem ex_hyps : Distinct ([Li.exProg] ++ [exMine]) ∧ (∀ p ∈ [Li.exProg] ++ [exMine], newInfo p ≠ .panic) ∧
    (∀ x ∈ [((0x1000, 5) : Nat × Nat)], ∃ f, FuncIn [Li.exProg] f ∧ f.start = x.1) := by
  refine ⟨by unfold Distinct; decide +kernel, ?_, ?_⟩
  · intro p hp
    simp only [List.cons_append, List.nil_append, List.mem_cons, List.not_mem_nil, or_false] at hp
    rcases hp with rfl | rfl
    · rw [exProg_info]; nofun
    · rw [exMine_info]; nofun
  · intro x hx
    cases List.mem_singleton.1 hx
    exact ⟨_, ⟨_, List.mem_singleton.2 rfl, _, exProg_info, List.mem_cons_self ..⟩, rfl⟩

/-- A schedule in which the tracer waits: events are shown, the table is complete. -/
theorem ex_calm : ∃ s, CalmRun [(0x1000, 5)] [exMine] (init [Li.exProg] [0x1000]) s ∧ s.main = .show ∧ s.parser = .closed ∧ s.crash = none := by
  have h := CalmRun.step _ _ _ CalmRun.refl (Step.worker (tr := [(0x1000, 5)]) (mine := [exMine]) (init [Li.exProg] [0x1000]) [] [] _ _ _ _ _ _ _ rfl rfl (WStep.parse _ _ exProg_info)) nofun
  have h := CalmRun.step _ _ _ h (Step.worker _ [] [] _ _ _ _ _ _ _ rfl rfl (WStep.acquire _ rfl)) nofun
  have h := CalmRun.step _ _ _ h (Step.worker _ [] [] _ _ _ _ _ _ _ rfl rfl (WStep.begin _ _ rfl)) nofun
  have h := CalmRun.step _ _ _ h (Step.worker _ [] [] _ _ _ _ _ _ _ rfl rfl (WStep.commit _ _)) nofun
  have h := CalmRun.step _ _ _ h (Step.worker _ [] [] _ _ _ _ _ _ _ rfl rfl (WStep.begin _ _ rfl)) nofun
  have h := CalmRun.step _ _ _ h (Step.worker _ [] [] _ _ _ _ _ _ _ rfl rfl (WStep.commit _ _)) nofun
  have h := CalmRun.step _ _ _ h (Step.worker _ [] [] _ _ _ _ _ _ _ rfl rfl WStep.release) nofun
  have h := CalmRun.step _ _ _ h (Step.waited _ [(0x1000, 5)] rfl rfl (by intro w hw; exact List.mem_singleton.1 hw) (.refl _)) nofun
  have h := CalmRun.step _ _ _ h (Step.flag _ 0x1000 5 [] rfl rfl) nofun
  have h := CalmRun.step _ _ _ h (Step.close _ rfl rfl) nofun
  have h := CalmRun.step _ _ _ h (Step.tracer _ [] [] 0x1000 rfl rfl) (fun _ => .inl rfl)
  have h := CalmRun.step _ _ _ h (Step.traced _ rfl rfl (by intro t ht; rw [List.mem_singleton.1 ht])) nofun
  have h := CalmRun.step _ _ _ h (Step.next _ exMine [] rfl rfl) nofun
  have h := CalmRun.step _ _ _ h (Step.adding _ [] _ _ _ _ _ _ _ rfl rfl (WStep.parse _ _ exMine_info)) nofun
  have h := CalmRun.step _ _ _ h (Step.adding _ [] _ _ _ _ _ _ _ rfl rfl (WStep.acquire _ rfl)) nofun
  have h := CalmRun.step _ _ _ h (Step.adding _ [] _ _ _ _ _ _ _ rfl rfl (WStep.begin _ _ rfl)) nofun
  have h := CalmRun.step _ _ _ h (Step.adding _ [] _ _ _ _ _ _ _ rfl rfl (WStep.commit _ _)) nofun
  have h := CalmRun.step _ _ _ h (Step.adding _ [] _ _ _ _ _ _ _ rfl rfl WStep.release) nofun
  have h := CalmRun.step _ _ _ h (Step.added _ rfl rfl) nofun
  exact ⟨_, h, rfl, rfl, rfl⟩

/-- **C87 violated.** `AddProgs` writes the map while the end of the reading of the programs reads it: the tracer was lucky, and
bpfsnoop crashes all the same. -/
theorem add_race_violated : ∃ s, Run [(0x1000, 5)] [exMine] (init [Li.exProg] [0x1000]) s ∧ s.crash = some .race ∧ ∀ t ∈ s.ts, t.fin = true := by
  have h := Run.step _ _ _ Run.refl (Step.worker (tr := [(0x1000, 5)]) (mine := [exMine]) (init [Li.exProg] [0x1000]) [] [] _ _ _ _ _ _ _ rfl rfl (WStep.parse _ _ exProg_info))
  have h := Run.step _ _ _ h (Step.worker _ [] [] _ _ _ _ _ _ _ rfl rfl (WStep.acquire _ rfl))
  have h := Run.step _ _ _ h (Step.worker _ [] [] _ _ _ _ _ _ _ rfl rfl (WStep.begin _ _ rfl))
  have h := Run.step _ _ _ h (Step.worker _ [] [] _ _ _ _ _ _ _ rfl rfl (WStep.commit _ _))
  have h := Run.step _ _ _ h (Step.worker _ [] [] _ _ _ _ _ _ _ rfl rfl (WStep.begin _ _ rfl))
  have h := Run.step _ _ _ h (Step.worker _ [] [] _ _ _ _ _ _ _ rfl rfl (WStep.commit _ _))
  have h := Run.step _ _ _ h (Step.worker _ [] [] _ _ _ _ _ _ _ rfl rfl WStep.release)
  have h := Run.step _ _ _ h (Step.tracer _ [] [] 0x1000 rfl rfl)
  have h := Run.step _ _ _ h (Step.traced _ rfl rfl (by intro t ht; rw [List.mem_singleton.1 ht]))
  have h := Run.step _ _ _ h (Step.next _ exMine [] rfl rfl)
  have h := Run.step _ _ _ h (Step.adding _ [] _ _ _ _ _ _ _ rfl rfl (WStep.parse _ _ exMine_info))
  have h := Run.step _ _ _ h (Step.adding _ [] _ _ _ _ _ _ _ rfl rfl (WStep.acquire _ rfl))
  have h := Run.step _ _ _ h (Step.adding _ [] _ _ _ _ _ _ _ rfl rfl (WStep.begin _ _ rfl))
  have h := Run.step _ _ _ h (Step.waited _ [(0x1000, 5)] rfl rfl (by intro w hw; exact List.mem_singleton.1 hw) (.refl _))
  have h := Run.step _ _ _ h (Step.flag _ 0x1000 5 [] rfl rfl)
  exact ⟨_, h, rfl, by intro t ht; rw [List.mem_singleton.1 ht]⟩

end Bpfsnoop.Bg
