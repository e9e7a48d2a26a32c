import Verif.Model.OutText
import Verif.Spec.TextSpec
import Verif.Props.OutArg

/-
C75: the texts of `--output-arg`; C76: the return values of XDP and TC programs.
-/
namespace Bpfsnoop.Ot
open Rp (Text dec decI hexDec numeral digits_value)
open Arg (OArg Item)

/-! ### Fields -/

theorem fields_ne_nil (c : Char) (x : Text) : fields c x ≠ [] := by
  cases x with
  | nil => simp [fields]
  | cons a r =>
    simp only [fields]
    split
    · simp
    · split <;> simp

theorem fields_word (c : Char) (w : Text) (hw : c ∉ w) : fields c w = [w] := by
  induction w with
  | nil => rfl
  | cons a r ih =>
    simp only [List.mem_cons, not_or] at hw
    simp only [fields]
    rw [if_neg (fun h => hw.1 h.symm), ih hw.2]

theorem fields_sep (c : Char) (w r : Text) (hw : c ∉ w) : fields c (w ++ c :: r) = w :: fields c r := by
  induction w with
  | nil => simp [fields]
  | cons a s ih =>
    simp only [List.mem_cons, not_or] at hw
    simp only [List.cons_append, fields]
    rw [if_neg (fun h => hw.1 h.symm), ih hw.2]

theorem fields_join (c : Char) (ws : List Text) (hne : ws ≠ []) (hw : ∀ w ∈ ws, c ∉ w) : fields c (join [c] ws) = ws := by
  induction ws with
  | nil => exact absurd rfl hne
  | cons x r ih =>
    cases r with
    | nil => exact fields_word c x (hw x (List.mem_cons_self ..))
    | cons y s =>
      simp only [join, List.append_assoc, List.singleton_append]
      rw [fields_sep c _ _ (hw x (List.mem_cons_self ..)), ih (by simp) (fun w h => hw w (List.mem_cons_of_mem _ h))]

theorem fields_append (c : Char) (ws : List Text) (r : Text) (hne : ws ≠ []) (hw : ∀ w ∈ ws, c ∉ w) :
    fields c (join [c] ws ++ c :: r) = ws ++ fields c r := by
  induction ws with
  | nil => exact absurd rfl hne
  | cons x s ih =>
    cases s with
    | nil => exact fields_sep c x r (hw x (List.mem_cons_self ..))
    | cons y u =>
      have := ih (by simp) (fun w h => hw w (List.mem_cons_of_mem _ h))
      simp only [join, List.append_assoc, List.singleton_append]
      rw [show x ++ (c :: join [c] (y :: u) ++ c :: r) = x ++ c :: (join [c] (y :: u) ++ c :: r) from rfl,
        fields_sep c _ _ (hw x (List.mem_cons_self ..)), this]
      rfl

/-! ### Digits -/

theorem digit_ne {c : Char} (hc : c = ':' ∨ c = ',' ∨ c = '.' ∨ c = '/') {d : Nat} (h : d < 16) : d.digitChar ≠ c := by
  have : ∀ d : Fin 16, d.val.digitChar ≠ ':' ∧ d.val.digitChar ≠ ',' ∧ d.val.digitChar ≠ '.' ∧ d.val.digitChar ≠ '/' := by decide
  have := this ⟨d, h⟩
  rcases hc with rfl | rfl | rfl | rfl
  · exact this.1
  · exact this.2.1
  · exact this.2.2.1
  · exact this.2.2.2

theorem toDigits_ne {c : Char} (hc : c = ':' ∨ c = ',' ∨ c = '.' ∨ c = '/') (base : Nat) (hb : 1 < base) (hb' : base ≤ 16) :
    ∀ n, c ∉ Nat.toDigits base n := by
  intro a
  induction a using Nat.strongRecOn with
  | _ a ih =>
    rw [Nat.toDigits_eq_if hb]
    split
    · next h => simp only [List.mem_singleton]; exact fun e => digit_ne hc (by omega) e.symm
    · next h =>
      have hm : a % base < base := Nat.mod_lt _ (by omega)
      simp only [List.mem_append, List.mem_singleton, not_or]
      exact ⟨ih _ (Nat.div_lt_self (by omega) hb), fun e => digit_ne hc (by omega) e.symm⟩

theorem hex2_ne {c : Char} (hc : c = ':' ∨ c = ',' ∨ c = '.' ∨ c = '/') (b : BitVec 8) : c ∉ hex2 b := by
  have := b.isLt
  simp only [hex2, List.mem_cons, List.not_mem_nil, or_false, not_or]
  exact ⟨fun e => digit_ne hc (by omega) e.symm, fun e => digit_ne hc (by omega) e.symm⟩

theorem hex2_value (b : BitVec 8) : numeral 16 (hex2 b) = b.toNat := by
  have hb := b.isLt
  have h1 := Rp.digitChar_value (b.toNat / 16) (by omega)
  have h2 := Rp.digitChar_value (b.toNat % 16) (by omega)
  simp only [numeral, hex2, List.foldl_cons, List.foldl_nil, Nat.zero_mul, Nat.zero_add]
  rw [h1, h2]
  omega

theorem map_nat_inj {a b : List (BitVec 8)} (h : a.map BitVec.toNat = b.map BitVec.toNat) : a = b := by
  induction a generalizing b with
  | nil => cases b <;> simp_all
  | cons x r ih =>
    cases b with
    | nil => simp at h
    | cons y s =>
      simp only [List.map_cons, List.cons.injEq] at h
      rw [BitVec.eq_of_toNat_eq h.1, ih h.2]

/-! ### Addresses -/

/-- C75. A hardware address: two hexadecimal digits for each byte, with colons. -/
theorem mac_shown (b : List (BitVec 8)) (hb : b ≠ []) :
    numbers ':' 16 (mac b) = b.map BitVec.toNat ∧ ∀ f ∈ fields ':' (mac b), f.length = 2 := by
  have hf : fields ':' (mac b) = b.map hex2 :=
    fields_join ':' _ (by simpa using hb) (by
      intro w hw
      obtain ⟨x, -, rfl⟩ := List.mem_map.mp hw
      exact hex2_ne (Or.inl rfl) x)
  refine ⟨?_, ?_⟩
  · rw [numbers, hf, List.map_map]
    exact List.map_congr_left fun x _ => hex2_value x
  · rw [hf]
    intro f h
    obtain ⟨x, -, rfl⟩ := List.mem_map.mp h
    rfl

/-- C75. An IPv4 address: the decimal numbers of its bytes, with dots. -/
theorem ip4_shown (b : List (BitVec 8)) (hb : b ≠ []) : numbers '.' 10 (ip4 b) = b.map BitVec.toNat := by
  have hf : fields '.' (ip4 b) = b.map fun x => dec x.toNat :=
    fields_join '.' _ (by simpa using hb) (by
      intro w hw
      obtain ⟨x, -, rfl⟩ := List.mem_map.mp hw
      exact toDigits_ne (Or.inr (Or.inr (Or.inl rfl))) 10 (by omega) (by omega) _)
  rw [numbers, hf, List.map_map]
  exact List.map_congr_left fun x _ => digits_value 10 (by omega) (by omega) _

theorem groups_bytes : ∀ (k : Nat) (b : List (BitVec 8)), b.length = 2 * k →
    bytesOf (groups b) = b.map BitVec.toNat ∧ (groups b).length = k
  | 0, b, h => by
    have : b = [] := List.eq_nil_of_length_eq_zero (by omega)
    subst this
    exact ⟨rfl, rfl⟩
  | k + 1, [], h => by simp at h
  | k + 1, [_], h => by simp at h; omega
  | k + 1, x :: y :: r, h => by
    have ⟨h1, h2⟩ := groups_bytes k r (by simp at h; omega)
    have hx := x.isLt
    have hy := y.isLt
    refine ⟨?_, by simp [groups, h2]⟩
    simp only [bytesOf] at h1
    simp only [groups, bytesOf, List.flatMap_cons, List.cons_append, List.nil_append, List.map_cons, h1]
    congr 1
    · omega
    · congr 1; omega

theorem takeWhile_zeros (l : List Nat) : l.takeWhile (fun x => decide (x = 0)) =
    List.replicate (l.takeWhile (fun x => decide (x = 0))).length 0 := by
  induction l with
  | nil => rfl
  | cons a r ih =>
    rw [List.takeWhile_cons]
    split
    · next h =>
      simp only [decide_eq_true_eq] at h
      rw [List.length_cons, List.replicate_succ, ← ih, h]
    · rfl

/-- A gap is a run of zero groups. -/
theorem gap_ok (g : List Nat) : (gap g).2 = 0 ∨
    g = g.take (gap g).1 ++ List.replicate (gap g).2 0 ++ g.drop ((gap g).1 + (gap g).2) := by
  have key : ∀ (l : List Nat) (s : Nat × Nat), (s.2 = 0 ∨ s.2 = zrun g s.1) →
      let r := l.foldl (fun s i => if 2 ≤ zrun g i ∧ s.2 < zrun g i then (i, zrun g i) else s) s
      r.2 = 0 ∨ r.2 = zrun g r.1 := by
    intro l
    induction l with
    | nil => intro s h; exact h
    | cons i l ih =>
      intro s h
      simp only [List.foldl_cons]
      split
      · exact ih _ (Or.inr rfl)
      · exact ih _ h
  rcases key (List.range 8) (255, 0) (Or.inl rfl) with h | h
  · exact Or.inl h
  · refine Or.inr ?_
    have hz := takeWhile_zeros (g.drop (gap g).1)
    have hl : (gap g).2 = ((g.drop (gap g).1).takeWhile (fun x => decide (x = 0))).length := h
    have hd : g.drop (gap g).1 = List.replicate (gap g).2 0 ++ g.drop ((gap g).1 + (gap g).2) := by
      have h1 := List.takeWhile_append_dropWhile (p := fun x => decide (x = 0)) (l := g.drop (gap g).1)
      have h2 : g.drop ((gap g).1 + (gap g).2) = (g.drop (gap g).1).dropWhile (fun x => decide (x = 0)) := by
        rw [← List.drop_drop]
        conv => lhs; rw [← h1]
        rw [hl, List.drop_append_of_le_length (Nat.le_refl _), List.drop_length, List.nil_append]
      rw [h2, hl, ← hz]
      exact h1.symm
    conv => lhs; rw [← List.take_append_drop (gap g).1 g, hd]
    rw [List.append_assoc]

theorem takeWhile_all {α : Type} (p : α → Bool) (l r : List α) (hl : ∀ x ∈ l, p x = true)
    (hr : ∀ x, r.head? = some x → p x = false) : (l ++ r).takeWhile p = l := by
  induction l with
  | nil =>
    cases r with
    | nil => rfl
    | cons x s => simp [hr x rfl]
  | cons x s ih =>
    rw [List.cons_append, List.takeWhile_cons, if_pos (hl x (List.mem_cons_self ..)),
      ih (fun y h => hl y (List.mem_cons_of_mem _ h))]

/-- C75. An IPv6 address reads back, group by group. -/
theorem ip6_groups_read (g : List Nat) (hg : g.length = 8) : readIp6 (ip6Groups g) = g := by
  have hv : ∀ l : List Nat, (l.map (Nat.toDigits 16)).map (numeral 16) = l := by
    intro l
    rw [List.map_map]
    conv => rhs; rw [← List.map_id l]
    exact List.map_congr_left fun x _ => digits_value 16 (by omega) (by omega) x
  have hc : ∀ l : List Nat, ∀ w ∈ l.map (Nat.toDigits 16), ':' ∉ w := by
    intro l w h
    obtain ⟨x, -, rfl⟩ := List.mem_map.mp h
    exact toDigits_ne (Or.inl rfl) 16 (by omega) (by omega) x
  have hn : ∀ l : List Nat, ∀ w ∈ l.map (Nat.toDigits 16), decide (w ≠ []) = true := by
    intro l w h
    obtain ⟨x, -, rfl⟩ := List.mem_map.mp h
    exact decide_eq_true Nat.toDigits_ne_nil
  unfold ip6Groups
  split
  · have hf : fields ':' (hexGroups g) = g.map (Nat.toDigits 16) :=
      fields_join ':' _ (by intro h; rw [List.map_eq_nil_iff] at h; subst h; simp at hg) (hc g)
    have htw : (g.map (Nat.toDigits 16)).takeWhile (fun w => decide (w ≠ [])) = g.map (Nat.toDigits 16) := by
      have := takeWhile_all (fun w : Text => decide (w ≠ [])) _ [] (hn g) (by simp)
      simpa using this
    unfold readIp6
    simp only [hf, htw]
    rw [if_pos trivial, hv]
  · next h0 =>
    have hgap := (gap_ok g).resolve_left h0
    generalize hl : g.take (gap g).1 = l at hgap ⊢
    generalize hr : g.drop ((gap g).1 + (gap g).2) = r at hgap ⊢
    generalize hk : (gap g).2 = k at hgap h0 ⊢
    -- the fields of `l::r`
    have hf : ∃ a b : List Text, fields ':' (hexGroups l ++ t "::" ++ hexGroups r) =
        l.map (Nat.toDigits 16) ++ (a ++ [[]] ++ b) ++ r.map (Nat.toDigits 16) ∧ (∀ w ∈ a, w = []) ∧ (∀ w ∈ b, w = []) := by
      have hright : ∃ b : List Text, fields ':' (hexGroups r) = b ++ r.map (Nat.toDigits 16) ∧ ∀ w ∈ b, w = [] := by
        cases r with
        | nil => exact ⟨[[]], rfl, by simp⟩
        | cons x s => exact ⟨[], fields_join ':' _ (by simp) (hc _), by simp⟩
      obtain ⟨b, hb, hbn⟩ := hright
      cases l with
      | nil =>
        refine ⟨[[]], b, ?_, by simp, hbn⟩
        show fields ':' (([] ++ [':', ':']) ++ hexGroups r) = _
        simp [fields, hb]
      | cons x s =>
        refine ⟨[], b, ?_, by simp, hbn⟩
        have := fields_append ':' ((x :: s).map (Nat.toDigits 16)) (':' :: hexGroups r) (by simp) (hc _)
        show fields ':' ((hexGroups (x :: s) ++ [':', ':']) ++ hexGroups r) = _
        rw [List.append_assoc]
        show fields ':' (join [':'] _ ++ ':' :: ':' :: hexGroups r) = _
        rw [this]
        simp [fields, hb]
    obtain ⟨a, b, hf, ha, hb⟩ := hf
    have hmid : ∀ w, (a ++ [[]] ++ b ++ r.map (Nat.toDigits 16)).head? = some w → decide (w ≠ ([] : Text)) = false := by
      intro w hw
      cases a with
      | nil => simp at hw; simp [← hw]
      | cons y s => simp at hw; simp [← hw, ha y (List.mem_cons_self ..)]
    have hmid' : ∀ w, (a ++ [[]] ++ b).reverse.head? = some w → decide (w ≠ ([] : Text)) = false := by
      intro w hw
      have : w ∈ (a ++ [[]] ++ b) := by
        have := List.mem_of_mem_head? hw
        exact List.mem_reverse.mp this
      simp only [List.mem_append, List.mem_singleton] at this
      rcases this with (h | h) | h
      · simp [ha w h]
      · simp [h]
      · simp [hb w h]
    have htl : (fields ':' (hexGroups l ++ t "::" ++ hexGroups r)).takeWhile (fun w => decide (w ≠ [])) =
        l.map (Nat.toDigits 16) := by
      rw [hf, List.append_assoc]
      exact takeWhile_all _ _ _ (hn l) hmid
    have htr : ((fields ':' (hexGroups l ++ t "::" ++ hexGroups r)).reverse.takeWhile (fun w => decide (w ≠ []))).reverse =
        r.map (Nat.toDigits 16) := by
      rw [hf, List.reverse_append, List.reverse_append]
      rw [takeWhile_all _ _ _ (fun w h => hn r w (List.mem_reverse.mp h)) (by
        intro w hw
        cases hz : (a ++ [[]] ++ b).reverse with
        | nil => simp at hz
        | cons y s =>
          rw [hz] at hw
          simp at hw
          exact hmid' w (by rw [hz, ← hw]; rfl))]
      exact List.reverse_reverse _
    unfold readIp6
    simp only [htl, htr]
    rw [if_neg (by rw [hf]; simp), hv, hv]
    have hlen := congrArg List.length hgap
    simp only [List.length_append, List.length_replicate] at hlen
    rw [List.length_map, List.length_map, show 8 - l.length - r.length = k by omega]
    exact hgap.symm

/-- C75. An IPv6 address: an IPv4-mapped address `::ffff:a.b.c.d` is shown as the IPv4 address, others in hexadecimal groups, and
the groups read back are those of the address. -/
theorem ip6_shown (b : List (BitVec 8)) (hb : b.length = 16) :
    if b.take 12 = List.replicate 10 0 ++ [0xff, 0xff] then numbers '.' 10 (ip6 b) = (b.drop 12).map BitVec.toNat
    else bytesOf (readIp6 (ip6 b)) = b.map BitVec.toNat := by
  have hm : mapped b = true ↔ b.take 12 = List.replicate 10 0 ++ [0xff, 0xff] := by
    have hs : b.take 12 = b.take 10 ++ (b.drop 10).take 2 := by rw [← List.take_add]
    simp only [mapped, Bool.and_eq_true, decide_eq_true_eq]
    constructor
    · rintro ⟨h1, h2⟩; rw [hs, h1, h2]
    · intro h
      rw [hs] at h
      exact List.append_inj h (by simp; omega)
  unfold ip6
  split
  · next h =>
    rw [if_pos (hm.mpr h)]
    exact ip4_shown _ (by intro e; have := congrArg List.length e; simp at this; omega)
  · next h =>
    rw [if_neg (fun e => h (hm.mp e)), ip6_groups_read _ (groups_bytes 8 b hb).2]
    exact (groups_bytes 8 b hb).1

/-! ### Bytes and numbers -/

/-- C75. `buf`: the bytes between brackets, with commas, each as `0x` and two hexadecimal digits. -/
theorem buf_shown (b : List (BitVec 8)) (hb : b ≠ []) :
    ∃ x, dumpBuf b = '[' :: x ++ [']'] ∧ (fields ',' x).length = b.length ∧
      ∀ i (h : i < b.length), ∃ d, (fields ',' x)[i]? = some ('0' :: 'x' :: d) ∧ d.length = 2 ∧ numeral 16 d = b[i].toNat := by
  have hj : ∀ (l : List (BitVec 8)), dumpLoop 0 l = join [','] (l.map fun x => '0' :: 'x' :: hex2 x) ∧
      ∀ i, i ≠ 0 → l ≠ [] → dumpLoop i l = ',' :: join [','] (l.map fun x => '0' :: 'x' :: hex2 x) := by
    intro l
    induction l with
    | nil => exact ⟨rfl, fun _ _ h => absurd rfl h⟩
    | cons x r ih =>
      cases r with
      | nil =>
        refine ⟨by simp [dumpLoop, join, t], fun i hi _ => ?_⟩
        simp [dumpLoop, join, hi, t]
      | cons y s =>
        have h1 := ih.2 1 (by omega) (by simp)
        refine ⟨?_, fun i hi _ => ?_⟩
        · rw [dumpLoop, h1]
          simp [join, t]
        · rw [dumpLoop, ih.2 (i + 1) (by omega) (by simp)]
          simp [join, hi, t]
  have hf : fields ',' (join [','] (b.map fun x => '0' :: 'x' :: hex2 x)) = b.map fun x => '0' :: 'x' :: hex2 x :=
    fields_join ',' _ (by simpa using hb) (by
      intro w hw
      obtain ⟨x, -, rfl⟩ := List.mem_map.mp hw
      simp only [List.mem_cons, not_or]
      exact ⟨by decide, by decide, hex2_ne (Or.inr (Or.inl rfl)) x⟩)
  refine ⟨join [','] (b.map fun x => '0' :: 'x' :: hex2 x), by rw [dumpBuf, (hj b).1]; rfl, by rw [hf, List.length_map], fun i h => ⟨hex2 b[i], ?_, rfl, hex2_value _⟩⟩
  rw [hf, List.getElem?_map, List.getElem?_eq_getElem h]
  rfl

/-- C75. `hex`: two hexadecimal digits for each byte, in order. -/
theorem hex_shown (b : List (BitVec 8)) : (hexString b).length = 2 * b.length ∧
    ∀ i (h : i < b.length), numeral 16 (((hexString b).drop (2 * i)).take 2) = b[i].toNat := by
  induction b with
  | nil => exact ⟨rfl, fun i h => by simp at h⟩
  | cons x r ih =>
    have he : hexString (x :: r) = hex2 x ++ hexString r := by simp [hexString]
    have hl : (hex2 x).length = 2 := rfl
    refine ⟨by rw [he, List.length_append, ih.1, hl, List.length_cons]; omega, fun i h => ?_⟩
    cases i with
    | zero =>
      rw [he]
      show numeral 16 ((hex2 x ++ hexString r).take 2) = x.toNat
      rw [List.take_append_of_le_length (by rw [hl]; omega), show (hex2 x).take 2 = hex2 x from rfl, hex2_value]
    | succ j =>
      have hd : (hexString (x :: r)).drop (2 * (j + 1)) = (hexString r).drop (2 * j) := by
        rw [he, show 2 * (j + 1) = (hex2 x).length + 2 * j by rw [hl]; omega, ← List.drop_drop, List.drop_left]
      rw [hd]
      exact ih.2 j (by simpa using h)

theorem leVal_little (b : List (BitVec 8)) : Arg.leVal b = little b := by
  induction b with
  | nil => rfl
  | cons x r ih => simp [Arg.leVal, little, ih]

theorem beVal_big (b : List (BitVec 8)) : beVal b = big b := by
  have h : ∀ (l : List (BitVec 8)), beVal l.reverse = little l := by
    intro l
    induction l with
    | nil => rfl
    | cons x r ih =>
      unfold beVal little at *
      rw [List.reverse_cons, List.foldl_append, ih]
      simp only [List.foldl_cons, List.foldl_nil, List.foldr_cons]
      omega
  have := h b.reverse
  rw [List.reverse_reverse] at this
  exact this

theorem reads_unsigned (n : Nat) : ReadsUnsigned (hexDec n) n :=
  ⟨_, _, rfl, digits_value 16 (by omega) (by omega) n, digits_value 10 (by omega) (by omega) n⟩

theorem reads_signed (n : Int) : ReadsSigned (decI n) n := by
  have h := Rp.number_texts 0 n
  by_cases hn : 0 ≤ n
  · exact Or.inl ⟨hn, (h.2.2.2.1 hn).1, (h.2.2.2.1 hn).2⟩
  · exact Or.inr ⟨by omega, h.2.2.2.2 (by omega)⟩

/-- C75. `port` and `port2`: decimal numbers in network byte order. -/
theorem port_shown (b : List (BitVec 8)) :
    (∀ x y, b = [x, y] → ∃ s, portText "port" b = some s ∧ numeral 10 s = x.toNat * 256 + y.toNat) ∧
    (∀ x y u v, b = [x, y, u, v] → ∃ s r, portText "port2" b = some ('[' :: s ++ ',' :: r ++ [']']) ∧
      numeral 10 s = x.toNat * 256 + y.toNat ∧ numeral 10 r = u.toNat * 256 + v.toNat ∧ ',' ∉ s ∧ ',' ∉ r) := by
  have hd : ∀ n, numeral 10 (dec n) = n := fun n => digits_value 10 (by omega) (by omega) n
  have hc : ∀ n, ',' ∉ dec n := fun n => toDigits_ne (Or.inr (Or.inl rfl)) 10 (by omega) (by omega) n
  constructor
  · rintro x y rfl
    refine ⟨_, rfl, ?_⟩
    rw [hd]
    simp [beVal]
  · rintro x y u v rfl
    refine ⟨dec (beVal [x, y]), dec (beVal [u, v]), ?_, ?_, ?_, hc _, hc _⟩
    · simp [portText, pair, t]
    · rw [hd]; simp [beVal]
    · rw [hd]; simp [beVal]

/-- The integer functions: bytes, whether the number is signed, whether its first byte is the most significant one. -/
def intFormats : List (String × Nat × Bool × Bool) :=
  [("u8", 1, false, false), ("u16", 2, false, false), ("u32", 4, false, false), ("u64", 8, false, false),
   ("s8", 1, true, false), ("s16", 2, true, false), ("s32", 4, true, false), ("s64", 8, true, false),
   ("le16", 2, false, false), ("le32", 4, false, false), ("le64", 8, false, false),
   ("be16", 2, false, true), ("be32", 4, false, true), ("be64", 8, false, true)]

theorem little_lt (b : List (BitVec 8)) : little b < 256 ^ b.length := by
  induction b with
  | nil => simp [little]
  | cons x r ih =>
    have := x.isLt
    simp only [little, List.foldr_cons, List.length_cons, Nat.pow_succ] at *
    omega

theorem signedVal_spec (k n : Nat) (hk : 0 < k) (hn : n < 256 ^ k) :
    -(2 : Int) ^ (8 * k - 1) ≤ signedVal k n ∧ signedVal k n < (2 : Int) ^ (8 * k - 1) ∧
    (signedVal k n - n) % (2 : Int) ^ (8 * k) = 0 := by
  have h2 : (2 : Int) ^ (8 * k) = 2 * 2 ^ (8 * k - 1) := by
    rw [show 8 * k = 8 * k - 1 + 1 by omega, Int.pow_succ]
    simp only [Nat.add_sub_cancel]
    omega
  have h256 : (256 : Nat) ^ k = 2 ^ (8 * k) := by rw [show 256 = 2 ^ 8 by rfl, ← Nat.pow_mul]
  have hc : ((2 ^ (8 * k) : Nat) : Int) = (2 : Int) ^ (8 * k) := by norm_cast
  have hc' : ((2 ^ (8 * k - 1) : Nat) : Int) = (2 : Int) ^ (8 * k - 1) := by norm_cast
  have hpos : (0 : Int) < 2 ^ (8 * k - 1) := by rw [← hc']; have := Nat.two_pow_pos (8 * k - 1); omega
  unfold signedVal
  split
  · next h =>
    refine ⟨by omega, by omega, ?_⟩
    rw [Int.sub_self, Int.zero_emod]
  · next h =>
    refine ⟨by omega, by omega, ?_⟩
    rw [show (n : Int) - 2 ^ (8 * k) - n = -(2 ^ (8 * k)) by omega]
    exact Int.emod_eq_zero_of_dvd (Int.dvd_neg.mpr (Int.dvd_refl _))

/-- C75. The integer functions: the number with these bytes in the byte order of the name; unsigned numbers in hexadecimal and
decimal; signed numbers in decimal, the number in two's complement. -/
theorem int_shown (name : String) (k : Nat) (sgn be : Bool) (hf : (name, k, sgn, be) ∈ intFormats) (b : List (BitVec 8))
    (hb : b.length = k) :
    ∃ s, intText name b = some s ∧
      if sgn then ∃ i : Int, ReadsSigned s i ∧ -(2 : Int) ^ (8 * k - 1) ≤ i ∧ i < (2 : Int) ^ (8 * k - 1) ∧
        (i - little b) % (2 : Int) ^ (8 * k) = 0
      else ReadsUnsigned s (if be then big b else little b) := by
  have hs : ∀ m, 0 < m → b.length = m → ∃ i : Int, ReadsSigned (decI (signedVal m (Arg.leVal b))) i ∧
      -(2 : Int) ^ (8 * m - 1) ≤ i ∧ i < (2 : Int) ^ (8 * m - 1) ∧ (i - little b) % (2 : Int) ^ (8 * m) = 0 := by
    intro m hm hl
    refine ⟨_, reads_signed _, ?_⟩
    rw [leVal_little]
    exact signedVal_spec m _ hm (by rw [← hl]; exact little_lt b)
  have ht : b.take k = b := List.take_of_length_le (by omega)
  have hu := reads_unsigned (Arg.leVal b)
  have hv := reads_unsigned (beVal b)
  rw [leVal_little] at hu
  rw [beVal_big] at hv
  simp only [intFormats, List.mem_cons, Prod.mk.injEq, List.not_mem_nil, or_false] at hf
  rcases hf with ⟨rfl, rfl, rfl, rfl⟩ | ⟨rfl, rfl, rfl, rfl⟩ | ⟨rfl, rfl, rfl, rfl⟩ | ⟨rfl, rfl, rfl, rfl⟩ |
    ⟨rfl, rfl, rfl, rfl⟩ | ⟨rfl, rfl, rfl, rfl⟩ | ⟨rfl, rfl, rfl, rfl⟩ | ⟨rfl, rfl, rfl, rfl⟩ |
    ⟨rfl, rfl, rfl, rfl⟩ | ⟨rfl, rfl, rfl, rfl⟩ | ⟨rfl, rfl, rfl, rfl⟩ |
    ⟨rfl, rfl, rfl, rfl⟩ | ⟨rfl, rfl, rfl, rfl⟩ | ⟨rfl, rfl, rfl, rfl⟩ <;>
    refine ⟨_, rfl, ?_⟩ <;> rw [ht] <;>
    first
      | exact hs _ (by omega) hb
      | (simp only [Bool.false_eq_true, if_false, if_true]; first | exact hv | (rw [leVal_little]; exact hu) | (rw [beVal_big]; exact hv))

/-! ### What is printed for an expression -/

/-- Specification: a notation for one address and the bytes it stands for. -/
def ReadsAddr (kind : String) (x : Text) (b : List (BitVec 8)) : Prop :=
  if kind = "eth" then numbers ':' 16 x = b.map BitVec.toNat
  else if kind = "ip4" then numbers '.' 10 x = b.map BitVec.toNat
  else if b.take 12 = List.replicate 10 0 ++ [0xff, 0xff] then numbers '.' 10 x = (b.drop 12).map BitVec.toNat
  else bytesOf (readIp6 x) = b.map BitVec.toNat

/-- The address functions: notation, bytes of an address, how many addresses. -/
def addrFormats : List (String × String × Nat × Nat) :=
  [("eth", "eth", 6, 1), ("eth2", "eth", 6, 2), ("ip4", "ip4", 4, 1), ("ip42", "ip4", 4, 2), ("ip6", "ip6", 16, 1), ("ip62", "ip6", 16, 2)]

/-- C75. The address functions print the bytes in the notation of the address: one address, or two in brackets. -/
theorem addr_shown (name kind : String) (size cnt : Nat) (hf : (name, kind, size, cnt) ∈ addrFormats) (b : List (BitVec 8))
    (hb : b.length = size * cnt) :
    (cnt = 1 → ∃ s, addrText name b = some s ∧ ReadsAddr kind s b) ∧
    (cnt = 2 → ∃ s r, addrText name b = some ('[' :: s ++ ',' :: r ++ [']']) ∧ ReadsAddr kind s (b.take size) ∧
      ReadsAddr kind r (b.drop size)) := by
  have hne : ∀ l : List (BitVec 8), 0 < l.length → l ≠ [] := by rintro l h rfl; simp at h
  simp only [addrFormats, List.mem_cons, Prod.mk.injEq, List.not_mem_nil, or_false] at hf
  rcases hf with ⟨rfl, rfl, rfl, rfl⟩ | ⟨rfl, rfl, rfl, rfl⟩ | ⟨rfl, rfl, rfl, rfl⟩ | ⟨rfl, rfl, rfl, rfl⟩ |
    ⟨rfl, rfl, rfl, rfl⟩ | ⟨rfl, rfl, rfl, rfl⟩
  · refine ⟨fun _ => ⟨_, rfl, ?_⟩, fun h => by simp at h⟩
    rw [List.take_of_length_le (by omega)]
    exact (mac_shown b (hne b (by omega))).1
  · refine ⟨fun h => by simp at h, fun _ => ⟨mac (b.take 6), mac ((b.drop 6).take 6), by simp [addrText, pair, t], ?_, ?_⟩⟩
    · exact (mac_shown _ (hne _ (by simp; omega))).1
    · rw [List.take_of_length_le (by simp; omega)]
      exact (mac_shown _ (hne _ (by simp; omega))).1
  · refine ⟨fun _ => ⟨_, rfl, ?_⟩, fun h => by simp at h⟩
    rw [List.take_of_length_le (by omega)]
    exact ip4_shown b (hne b (by omega))
  · refine ⟨fun h => by simp at h, fun _ => ⟨ip4 (b.take 4), ip4 ((b.drop 4).take 4), by simp [addrText, pair, t], ?_, ?_⟩⟩
    · exact ip4_shown _ (hne _ (by simp; omega))
    · rw [List.take_of_length_le (by simp; omega)]
      exact ip4_shown _ (hne _ (by simp; omega))
  · refine ⟨fun _ => ⟨_, rfl, ?_⟩, fun h => by simp at h⟩
    rw [List.take_of_length_le (by omega)]
    exact ip6_shown b (by omega)
  · refine ⟨fun h => by simp at h, fun _ => ⟨ip6 (b.take 16), ip6 ((b.drop 16).take 16), by simp [addrText, pair, t], ?_, ?_⟩⟩
    · exact ip6_shown _ (by simp; omega)
    · rw [List.take_of_length_le (by simp; omega)]
      exact ip6_shown _ (by simp; omega)

/-- The bytes an output function shows are exactly as many as the function reads: those of Model/OutArg. -/
theorem shown_length (a : OArg) (data : List (BitVec 8)) (b : List (BitVec 8)) (rest : List (BitVec 8))
    (h : Arg.decodeArg a data = some (.bytes b, rest)) :
    (a.typ = .addr → (Cc.addrFns.lookup a.addr).map BitVec.toNat = some b.length) ∧
    (a.typ = .port → (Cc.addrFns.lookup a.port).map BitVec.toNat = some b.length) ∧
    (a.typ = .int → (Cc.intFns.lookup a.int).map BitVec.toNat = some b.length) ∧
    (a.typ = .buf ∨ a.typ = .hex → a.trueSize.toNat = b.length) := by
  have hs : ∀ (n : BitVec 64), Arg.sliceTo data n = some b → n.toNat = b.length := by
    intro n hn
    unfold Arg.sliceTo at hn
    split at hn
    · next hc =>
      simp only [Option.some.injEq] at hn
      rw [← hn, List.length_take, Nat.min_eq_left hc.2]
    · exact absurd hn (by simp)
  have key : a.typ ≠ .hist → a.typ ≠ .tdigest → a.typ ≠ .dflt → Arg.showBytes a data = some (.bytes b) := by
    intro h1 h2 h3
    unfold Arg.decodeArg at h
    split at h
    · exact absurd h (by simp)
    · split at h
      · cases hq : Arg.sliceFrom data a.size <;> rw [hq] at h <;> simp at h
      · cases ht : a.typ <;> simp only [ht] at h h1 h2 h3 <;> try exact absurd rfl ‹_›
        all_goals
          cases hq : Arg.showBytes a data <;> cases hr : Arg.sliceFrom data a.size <;> simp only [hq, hr] at h <;>
            first
            | (simp only [Option.some.injEq, Prod.mk.injEq] at h; rw [h.1])
            | nomatch h
  refine ⟨fun ht => ?_, fun ht => ?_, fun ht => ?_, fun ht => ?_⟩
  · have := key (by simp [ht]) (by simp [ht]) (by simp [ht])
    simp only [Arg.showBytes, ht] at this
    cases hl : Cc.addrFns.lookup a.addr with
    | none => rw [hl] at this; simp at this
    | some n =>
      rw [hl] at this
      cases hq : Arg.sliceTo data n with
      | none => simp [hq] at this
      | some b' =>
        simp [hq] at this
        subst this
        rw [Option.map_some, hs n hq]
  · have := key (by simp [ht]) (by simp [ht]) (by simp [ht])
    simp only [Arg.showBytes, ht] at this
    cases hl : Cc.addrFns.lookup a.port with
    | none => rw [hl] at this; simp at this
    | some n =>
      rw [hl] at this
      cases hq : Arg.sliceTo data n with
      | none => simp [hq] at this
      | some b' =>
        simp [hq] at this
        subst this
        rw [Option.map_some, hs n hq]
  · have := key (by simp [ht]) (by simp [ht]) (by simp [ht])
    simp only [Arg.showBytes, ht] at this
    cases hl : Cc.intFns.lookup a.int with
    | none => rw [hl] at this; simp at this
    | some n =>
      rw [hl] at this
      cases hq : Arg.sliceTo data n with
      | none => simp [hq] at this
      | some b' =>
        simp [hq] at this
        subst this
        rw [Option.map_some, hs n hq]
  · have := key (by rcases ht with ht | ht <;> simp [ht]) (by rcases ht with ht | ht <;> simp [ht])
      (by rcases ht with ht | ht <;> simp [ht])
    have : Arg.sliceTo data a.trueSize = some b := by
      rcases ht with ht | ht <;> simp only [Arg.showBytes, ht] at this <;>
      · cases hq : Arg.sliceTo data a.trueSize with
        | none => simp [hq] at this
        | some b' => simp [hq] at this; rw [this]
    exact hs _ this

/-! ### Nothing is lost -/

theorem mem_join {c : Char} {sep : Text} : ∀ {ws : List Text}, c ∈ join sep ws → c ∈ sep ∨ ∃ w ∈ ws, c ∈ w
  | [], h => by simp [join] at h
  | [x], h => Or.inr ⟨x, by simp, h⟩
  | x :: y :: r, h => by
    simp only [join, List.mem_append] at h
    rcases h with (h | h) | h
    · exact Or.inr ⟨x, by simp, h⟩
    · exact Or.inl h
    · rcases mem_join h with h | ⟨w, hw, h⟩
      · exact Or.inl h
      · exact Or.inr ⟨w, List.mem_cons_of_mem _ hw, h⟩

theorem mac_inj {b b' : List (BitVec 8)} (hb : b ≠ []) (hb' : b' ≠ []) (h : mac b = mac b') : b = b' :=
  map_nat_inj (by rw [← (mac_shown b hb).1, ← (mac_shown b' hb').1, h])

theorem ip4_inj {b b' : List (BitVec 8)} (hb : b ≠ []) (hb' : b' ≠ []) (h : ip4 b = ip4 b') : b = b' :=
  map_nat_inj (by rw [← ip4_shown b hb, ← ip4_shown b' hb', h])

theorem ip4_colon (b : List (BitVec 8)) : ':' ∉ ip4 b := by
  intro h
  rcases mem_join h with h | ⟨w, hw, h⟩
  · revert h; decide
  · obtain ⟨x, -, rfl⟩ := List.mem_map.mp hw
    exact toDigits_ne (Or.inl rfl) 10 (by omega) (by omega) _ h

theorem readIp6_word (x : Text) (h : ':' ∉ x) : (readIp6 x).length ≤ 1 ∨ x = [] := by
  by_cases hx : x = []
  · exact Or.inr hx
  · left
    unfold readIp6
    simp only [fields_word ':' x h]
    simp [hx]

/-- C75. Different IPv6 addresses are shown differently. -/
theorem ip6_inj {b b' : List (BitVec 8)} (hb : b.length = 16) (hb' : b'.length = 16) (h : ip6 b = ip6 b') : b = b' := by
  have hne : ∀ l : List (BitVec 8), l.length = 16 → l.drop 12 ≠ [] := by
    intro l hl e
    have := congrArg List.length e
    simp at this
    omega
  have h4 : ∀ l : List (BitVec 8), l ≠ [] → ip4 l ≠ [] := by
    intro l hl e
    have := ip4_shown l hl
    rw [e] at this
    have hlen := congrArg List.length this
    cases l with
    | nil => exact hl rfl
    | cons x r =>
      cases r with
      | nil =>
        have hw : ip4 [x] = dec x.toNat := rfl
        rw [hw] at e
        exact absurd e Nat.toDigits_ne_nil
      | cons y s => simp [numbers, fields] at hlen
  have mixed : ∀ u v : List (BitVec 8), u.length = 16 → v.length = 16 → ip6Groups (groups u) ≠ ip4 (v.drop 12) := by
    intro u v hu hv e
    have h1 := ip6_groups_read (groups u) (groups_bytes 8 u hu).2
    rw [e] at h1
    rcases readIp6_word _ (ip4_colon (v.drop 12)) with h2 | h2
    · rw [h1, (groups_bytes 8 u hu).2] at h2
      omega
    · exact h4 _ (hne v hv) h2
  unfold ip6 at h
  by_cases hm : mapped b = true <;> by_cases hm' : mapped b' = true
  · rw [if_pos hm, if_pos hm'] at h
    have hd := ip4_inj (hne b hb) (hne b' hb') h
    have ht : ∀ l : List (BitVec 8), mapped l = true → l.take 12 = List.replicate 10 0 ++ [0xff, 0xff] := by
      intro l hl
      simp only [mapped, Bool.and_eq_true, decide_eq_true_eq] at hl
      rw [show l.take 12 = l.take 10 ++ (l.drop 10).take 2 by rw [← List.take_add], hl.1, hl.2]
    rw [← List.take_append_drop 12 b, ← List.take_append_drop 12 b', hd, ht b hm, ht b' hm']
  · rw [if_pos hm, if_neg hm'] at h
    exact absurd h.symm (mixed b' b hb' hb)
  · rw [if_neg hm, if_pos hm'] at h
    exact absurd h (mixed b b' hb hb')
  · rw [if_neg hm, if_neg hm'] at h
    have hg := ip6_groups_read (groups b) (groups_bytes 8 b hb).2
    rw [h, ip6_groups_read (groups b') (groups_bytes 8 b' hb').2] at hg
    exact map_nat_inj (by rw [← (groups_bytes 8 b hb).1, ← (groups_bytes 8 b' hb').1, hg])

theorem hex2_comma (b : List (BitVec 8)) : ',' ∉ mac b := by
  intro h
  rcases mem_join h with h | ⟨w, hw, h⟩
  · revert h; decide
  · obtain ⟨x, -, rfl⟩ := List.mem_map.mp hw
    exact hex2_ne (Or.inr (Or.inl rfl)) x h

theorem ip4_comma (b : List (BitVec 8)) : ',' ∉ ip4 b := by
  intro h
  rcases mem_join h with h | ⟨w, hw, h⟩
  · revert h; decide
  · obtain ⟨x, -, rfl⟩ := List.mem_map.mp hw
    exact toDigits_ne (Or.inr (Or.inl rfl)) 10 (by omega) (by omega) _ h

theorem ip6_comma (b : List (BitVec 8)) : ',' ∉ ip6 b := by
  have hg : ∀ g : List Nat, ',' ∉ hexGroups g := by
    intro g h
    rcases mem_join h with h | ⟨w, hw, h⟩
    · revert h; decide
    · obtain ⟨x, -, rfl⟩ := List.mem_map.mp hw
      exact toDigits_ne (Or.inr (Or.inl rfl)) 16 (by omega) (by omega) _ h
  unfold ip6
  split
  · exact ip4_comma _
  · unfold ip6Groups
    split
    · exact hg _
    · simp only [List.mem_append, not_or]
      exact ⟨⟨hg _, by decide⟩, hg _⟩

theorem pair_inj {x y x' y' : Text} (hx : ',' ∉ x) (hx' : ',' ∉ x') (h : pair x y = pair x' y') : x = x' ∧ y = y' := by
  have h1 : x ++ ',' :: (y ++ [']']) = x' ++ ',' :: (y' ++ [']']) := by
    have : '[' :: (x ++ ',' :: (y ++ [']'])) = '[' :: (x' ++ ',' :: (y' ++ [']'])) := by simpa [pair, t] using h
    exact (List.cons.inj this).2
  have h2 := fields_sep ',' x (y ++ [']']) hx
  rw [h1, fields_sep ',' x' _ hx'] at h2
  have hxx : x' = x := (List.cons.inj h2).1
  subst hxx
  have := List.append_cancel_left h1
  exact ⟨rfl, List.append_cancel_right (List.cons.inj this).2⟩

theorem little_inj : ∀ {b b' : List (BitVec 8)}, b.length = b'.length → little b = little b' → b = b'
  | [], [], _, _ => rfl
  | [], _ :: _, h, _ => by simp at h
  | _ :: _, [], h, _ => by simp at h
  | x :: r, y :: s, hl, h => by
    have hx := x.isLt
    have hy := y.isLt
    simp only [little, List.foldr_cons] at h
    have h1 : x = y := BitVec.eq_of_toNat_eq (by omega)
    have h2 : little r = little s := by unfold little; omega
    rw [h1, little_inj (by simpa using hl) h2]

theorem big_inj {b b' : List (BitVec 8)} (hl : b.length = b'.length) (h : big b = big b') : b = b' :=
  List.reverse_inj.mp (little_inj (by simpa using hl) h)

theorem hexDec_inj {n m : Nat} (h : hexDec n = hexDec m) : n = m := by
  have := fields_sep '/' (Rp.hex n) (dec n) (Rp.hex_slash n)
  rw [show Rp.hex n ++ '/' :: dec n = hexDec n from rfl, h, show hexDec m = Rp.hex m ++ '/' :: dec m from rfl,
    fields_sep '/' _ _ (Rp.hex_slash m), fields_word '/' _ (Rp.dec_slash n), fields_word '/' _ (Rp.dec_slash m)] at this
  simp only [List.cons.injEq, and_true] at this
  exact (Rp.dec_inj this.2).symm

theorem signedVal_inj {k n m : Nat} (hn : n < 256 ^ k) (hm : m < 256 ^ k) (h : signedVal k n = signedVal k m) : n = m := by
  have h256 : (256 : Nat) ^ k = 2 ^ (8 * k) := by rw [show 256 = 2 ^ 8 by rfl, ← Nat.pow_mul]
  have hc : ((2 ^ (8 * k) : Nat) : Int) = (2 : Int) ^ (8 * k) := by norm_cast
  unfold signedVal at h
  split at h <;> split at h <;> omega

theorem lookup_addr {name : String} {n : BitVec 64} (h : Cc.addrFns.lookup name = some n) :
    (name = "port" ∧ n = 2) ∨ (name = "port2" ∧ n = 4) ∨
    ∃ kind size cnt, (name, kind, size, cnt) ∈ addrFormats ∧ n.toNat = size * cnt := by
  have hm : (name, n) ∈ Cc.addrFns := by
    obtain ⟨l, r, hl, -⟩ := List.lookup_eq_some_iff.mp h
    rw [hl]
    simp
  have hall : ∀ p ∈ Cc.addrFns, (p.1 = "port" ∧ p.2 = 2) ∨ (p.1 = "port2" ∧ p.2 = 4) ∨
      ∃ q ∈ addrFormats, q.1 = p.1 ∧ p.2.toNat = q.2.2.1 * q.2.2.2 := by decide
  rcases hall _ hm with h | h | ⟨⟨a, k, s, c⟩, hq, he, hn⟩
  · exact Or.inl h
  · exact Or.inr (Or.inl h)
  · simp only at he hn
    subst he
    exact Or.inr (Or.inr ⟨k, s, c, hq, hn⟩)

theorem lookup_int {name : String} {n : BitVec 64} (h : Cc.intFns.lookup name = some n) :
    ∃ k sgn be, (name, k, sgn, be) ∈ intFormats ∧ n.toNat = k := by
  have hm : (name, n) ∈ Cc.intFns := by
    obtain ⟨l, r, hl, -⟩ := List.lookup_eq_some_iff.mp h
    rw [hl]
    simp
  have hall : ∀ p ∈ Cc.intFns, ∃ q ∈ intFormats, q.1 = p.1 ∧ p.2.toNat = q.2.1 := by decide
  obtain ⟨⟨a, k, s, c⟩, hq, he, hn⟩ := hall _ hm
  simp only at he hn
  subst he
  exact ⟨k, s, c, hq, hn⟩

theorem addr_inj {name kind : String} {size cnt : Nat} (hf : (name, kind, size, cnt) ∈ addrFormats) {b b' : List (BitVec 8)}
    (hb : b.length = size * cnt) (hb' : b'.length = size * cnt) (h : addrText name b = addrText name b') : b = b' := by
  have hne : ∀ l : List (BitVec 8), 0 < l.length → l ≠ [] := by rintro l h rfl; simp at h
  have ht : ∀ (l : List (BitVec 8)) (n : Nat), l.length ≤ n → l.take n = l := fun l n h => List.take_of_length_le h
  have hj : ∀ (n : Nat), b.take n = b'.take n → b.drop n = b'.drop n → b = b' := by
    intro n h1 h2
    rw [← List.take_append_drop n b, ← List.take_append_drop n b', h1, h2]
  simp only [addrFormats, List.mem_cons, Prod.mk.injEq, List.not_mem_nil, or_false] at hf
  rcases hf with ⟨rfl, rfl, rfl, rfl⟩ | ⟨rfl, rfl, rfl, rfl⟩ | ⟨rfl, rfl, rfl, rfl⟩ | ⟨rfl, rfl, rfl, rfl⟩ |
    ⟨rfl, rfl, rfl, rfl⟩ | ⟨rfl, rfl, rfl, rfl⟩
  · have h1 : mac (b.take 6) = mac (b'.take 6) := Option.some.inj h
    rw [ht b 6 (by omega), ht b' 6 (by omega)] at h1
    exact mac_inj (hne b (by omega)) (hne b' (by omega)) h1
  · have h1 : pair (mac (b.take 6)) (mac ((b.drop 6).take 6)) = pair (mac (b'.take 6)) (mac ((b'.drop 6).take 6)) :=
      Option.some.inj h
    have h2 := pair_inj (hex2_comma _) (hex2_comma _) h1
    rw [ht (b.drop 6) 6 (by simp; omega), ht (b'.drop 6) 6 (by simp; omega)] at h2
    exact hj 6 (mac_inj (hne _ (by simp; omega)) (hne _ (by simp; omega)) h2.1)
      (mac_inj (hne _ (by simp; omega)) (hne _ (by simp; omega)) h2.2)
  · have h1 : ip4 (b.take 4) = ip4 (b'.take 4) := Option.some.inj h
    rw [ht b 4 (by omega), ht b' 4 (by omega)] at h1
    exact ip4_inj (hne b (by omega)) (hne b' (by omega)) h1
  · have h1 : pair (ip4 (b.take 4)) (ip4 ((b.drop 4).take 4)) = pair (ip4 (b'.take 4)) (ip4 ((b'.drop 4).take 4)) :=
      Option.some.inj h
    have h2 := pair_inj (ip4_comma _) (ip4_comma _) h1
    rw [ht (b.drop 4) 4 (by simp; omega), ht (b'.drop 4) 4 (by simp; omega)] at h2
    exact hj 4 (ip4_inj (hne _ (by simp; omega)) (hne _ (by simp; omega)) h2.1)
      (ip4_inj (hne _ (by simp; omega)) (hne _ (by simp; omega)) h2.2)
  · have h1 : ip6 (b.take 16) = ip6 (b'.take 16) := Option.some.inj h
    rw [ht b 16 (by omega), ht b' 16 (by omega)] at h1
    exact ip6_inj (by omega) (by omega) h1
  · have h1 : pair (ip6 (b.take 16)) (ip6 ((b.drop 16).take 16)) = pair (ip6 (b'.take 16)) (ip6 ((b'.drop 16).take 16)) :=
      Option.some.inj h
    have h2 := pair_inj (ip6_comma _) (ip6_comma _) h1
    rw [ht (b.drop 16) 16 (by simp; omega), ht (b'.drop 16) 16 (by simp; omega)] at h2
    exact hj 16 (ip6_inj (by simp; omega) (by simp; omega) h2.1) (ip6_inj (by simp; omega) (by simp; omega) h2.2)

theorem int_inj {name : String} {k : Nat} {sgn be : Bool} (hf : (name, k, sgn, be) ∈ intFormats) {b b' : List (BitVec 8)}
    (hb : b.length = k) (hb' : b'.length = k) (h : intText name b = intText name b') : b = b' := by
  have hs : decI (signedVal k (Arg.leVal b)) = decI (signedVal k (Arg.leVal b')) → b = b' := by
    intro e
    rw [leVal_little, leVal_little] at e
    have h1 := little_lt b
    have h2 := little_lt b'
    rw [hb] at h1
    rw [hb'] at h2
    exact little_inj (by omega) (signedVal_inj h1 h2 (Rp.decI_inj e))
  have hu : hexDec (Arg.leVal b) = hexDec (Arg.leVal b') → b = b' := by
    intro e
    have := hexDec_inj e
    rw [leVal_little, leVal_little] at this
    exact little_inj (by omega) this
  have hv : hexDec (beVal b) = hexDec (beVal b') → b = b' := by
    intro e
    have := hexDec_inj e
    rw [beVal_big, beVal_big] at this
    exact big_inj (by omega) this
  have ht : b.take k = b := List.take_of_length_le (by omega)
  have ht' : b'.take k = b' := List.take_of_length_le (by omega)
  simp only [intFormats, List.mem_cons, Prod.mk.injEq, List.not_mem_nil, or_false] at hf
  rcases hf with ⟨rfl, rfl, rfl, rfl⟩ | ⟨rfl, rfl, rfl, rfl⟩ | ⟨rfl, rfl, rfl, rfl⟩ | ⟨rfl, rfl, rfl, rfl⟩ |
    ⟨rfl, rfl, rfl, rfl⟩ | ⟨rfl, rfl, rfl, rfl⟩ | ⟨rfl, rfl, rfl, rfl⟩ | ⟨rfl, rfl, rfl, rfl⟩ |
    ⟨rfl, rfl, rfl, rfl⟩ | ⟨rfl, rfl, rfl, rfl⟩ | ⟨rfl, rfl, rfl, rfl⟩ |
    ⟨rfl, rfl, rfl, rfl⟩ | ⟨rfl, rfl, rfl, rfl⟩ | ⟨rfl, rfl, rfl, rfl⟩ <;>
    simp only [intText, String.reduceEq, if_true, if_false, ht, ht', Option.some.injEq] at h <;>
    first | exact hs h | exact hu h | exact hv h

/-- C75. Nothing is lost: if two events show the same text for an address, port, integer, `buf` or `hex` expression, the bytes captured
were the same. -/
theorem text_determines (c : Ctx) (a : OArg) (hty : a.typ ∈ [.buf, .hex, .addr, .port, .int]) (data data' b b' rest rest' : List (BitVec 8))
    (hd : Arg.decodeArg a data = some (.bytes b, rest)) (hd' : Arg.decodeArg a data' = some (.bytes b', rest')) (s : Text)
    (hs : itemText c a (.bytes b) = some s) (hs' : itemText c a (.bytes b') = some s) : b = b' := by
  have hl := shown_length a data b rest hd
  have hl' := shown_length a data' b' rest' hd'
  have hv : valueText c a (.bytes b) = valueText c a (.bytes b') := by
    have : ∀ x, itemText c a (.bytes x) = (valueText c a (.bytes x)).map (lead c ++ ·) := by
      intro x
      simp only [List.mem_cons, List.not_mem_nil, or_false] at hty
      unfold itemText
      rcases hty with h | h | h | h | h <;> simp only [h]
    rw [this] at hs hs'
    cases hx : valueText c a (.bytes b) with
    | none => rw [hx] at hs; simp at hs
    | some x =>
      cases hy : valueText c a (.bytes b') with
      | none => rw [hy] at hs'; simp at hs'
      | some y =>
        rw [hx] at hs
        rw [hy] at hs'
        simp only [Option.map_some, Option.some.injEq] at hs hs'
        rw [List.append_cancel_left (hs.trans hs'.symm)]
  simp only [List.mem_cons, List.not_mem_nil, or_false] at hty
  rcases hty with h | h | h | h | h
  · have h1 := hl.2.2.2 (Or.inl h)
    have h2 := hl'.2.2.2 (Or.inl h)
    simp only [valueText, h, Option.some.injEq] at hv
    by_cases hb : b = []
    · subst hb
      have : b'.length = 0 := by rw [← h2, h1]; rfl
      exact (List.eq_nil_of_length_eq_zero this).symm
    · by_cases hb' : b' = []
      · subst hb'
        have : b.length = 0 := by rw [← h1, h2]; rfl
        exact List.eq_nil_of_length_eq_zero this
      · obtain ⟨x, hx, -, hxe⟩ := buf_shown b hb
        obtain ⟨y, hy, -, hye⟩ := buf_shown b' hb'
        rw [hx, hy] at hv
        have hxy : x = y := List.append_cancel_right (List.cons.inj hv).2
        subst hxy
        refine List.ext_getElem (by omega) fun i hi hi' => ?_
        obtain ⟨d, hd1, -, hd2⟩ := hxe i hi
        obtain ⟨d', hd1', -, hd2'⟩ := hye i hi'
        rw [hd1] at hd1'
        simp only [Option.some.injEq, List.cons.injEq, true_and] at hd1'
        exact BitVec.eq_of_toNat_eq (by rw [← hd2, ← hd2', hd1'])
  · have h1 := hl.2.2.2 (Or.inr h)
    have h2 := hl'.2.2.2 (Or.inr h)
    simp only [valueText, h, Option.some.injEq] at hv
    refine List.ext_getElem (by omega) fun i hi hi' => BitVec.eq_of_toNat_eq ?_
    rw [← (hex_shown b).2 i hi, ← (hex_shown b').2 i hi', hv]
  · have h1 := hl.1 h
    have h2 := hl'.1 h
    simp only [valueText, h] at hv
    cases hq : Cc.addrFns.lookup a.addr with
    | none => rw [hq] at h1; simp at h1
    | some n =>
      rw [hq] at h1 h2
      simp only [Option.map_some, Option.some.injEq] at h1 h2
      rcases lookup_addr hq with ⟨hp, -⟩ | ⟨hp, -⟩ | ⟨kind, size, cnt, hf, hn⟩
      · simp [valueText, h, hp, addrText, itemText] at hs
      · simp [valueText, h, hp, addrText, itemText] at hs
      · exact addr_inj hf (by omega) (by omega) hv
  · have h1 := hl.2.1 h
    have h2 := hl'.2.1 h
    simp only [valueText, h] at hv
    cases hq : Cc.addrFns.lookup a.port with
    | none => rw [hq] at h1; simp at h1
    | some n =>
      rw [hq] at h1 h2
      simp only [Option.map_some, Option.some.injEq] at h1 h2
      have hc : ∀ n, ',' ∉ dec n := fun n => toDigits_ne (Or.inr (Or.inl rfl)) 10 (by omega) (by omega) n
      have hbe : ∀ x y : List (BitVec 8), x.length = y.length → dec (beVal x) = dec (beVal y) → x = y := by
        intro x y hxy e
        have := Rp.dec_inj e
        rw [beVal_big, beVal_big] at this
        exact big_inj hxy this
      rcases lookup_addr hq with ⟨hp, rfl⟩ | ⟨hp, rfl⟩ | ⟨kind, size, cnt, hf, hn⟩
      · have e1 : b.length = 2 := by simpa using h1.symm
        have e2 : b'.length = 2 := by simpa using h2.symm
        simp only [hp, portText, if_true, Option.some.injEq] at hv
        rw [List.take_of_length_le (by omega), List.take_of_length_le (by omega)] at hv
        exact hbe _ _ (by omega) hv
      · have e1 : b.length = 4 := by simpa using h1.symm
        have e2 : b'.length = 4 := by simpa using h2.symm
        simp only [hp, portText, String.reduceEq, if_true, if_false, Option.some.injEq] at hv
        have h3 := pair_inj (hc _) (hc _) hv
        rw [List.take_of_length_le (l := b.drop 2) (by simp; omega), List.take_of_length_le (l := b'.drop 2) (by simp; omega)] at h3
        rw [← List.take_append_drop 2 b, ← List.take_append_drop 2 b', hbe _ _ (by simp; omega) h3.1,
          hbe _ _ (by simp; omega) h3.2]
      · have hp : portText a.port b = none := by
          simp only [addrFormats, List.mem_cons, Prod.mk.injEq, List.not_mem_nil, or_false] at hf
          rcases hf with ⟨hn, -⟩ | ⟨hn, -⟩ | ⟨hn, -⟩ | ⟨hn, -⟩ | ⟨hn, -⟩ | ⟨hn, -⟩ <;> rw [hn] <;> rfl
        simp [valueText, h, hp, itemText] at hs
  · have h1 := hl.2.2.1 h
    have h2 := hl'.2.2.1 h
    simp only [valueText, h] at hv
    cases hq : Cc.intFns.lookup a.int with
    | none => rw [hq] at h1; simp at h1
    | some n =>
      rw [hq] at h1 h2
      simp only [Option.map_some, Option.some.injEq] at h1 h2
      obtain ⟨k, sgn, be, hf, hn⟩ := lookup_int hq
      exact int_inj hf (by omega) (by omega) hv

/-- C75. The elements of a slice are shown in order; an element that cannot be shown makes the whole fail. -/
theorem slice_shown (c : Ctx) (a : OArg) (l : List (List (BitVec 8))) (s : Text) (h : valueText c a (.elems l) = some s) :
    ∃ ds : List Text, l.map c.dump = ds.map some ∧ s = t "[" ++ join (t ",") ds ++ t "]" := by
  have hd : ∀ (l : List (List (BitVec 8))) (ds : List Text), dumps c l = some ds → l.map c.dump = ds.map some := by
    intro l
    induction l with
    | nil => intro ds h; simp only [dumps, Option.some.injEq] at h; subst h; rfl
    | cons x r ih =>
      intro ds h
      simp only [dumps] at h
      cases hx : c.dump x with
      | none => rw [hx] at h; exact absurd h (by simp)
      | some y =>
        rw [hx] at h
        cases hr : dumps c r with
        | none => rw [hr] at h; exact absurd h (by simp)
        | some ys =>
          rw [hr] at h
          simp only [Option.map_some, Option.some.injEq] at h
          subst h
          rw [List.map_cons, List.map_cons, ih ys hr, hx]
  simp only [valueText] at h
  cases hq : dumps c l with
  | none => rw [hq] at h; exact absurd h (by simp)
  | some ds =>
    rw [hq] at h
    simp only [Option.map_some, Option.some.injEq] at h
    exact ⟨ds, hd l ds hq, h.symm⟩

/-! ### The line -/

theorem loop_values (vs : List (OArg × Ctx)) (hv : ∀ p ∈ vs, isAgg p.1 = false) : ∀ (comma : Bool) (data : List (BitVec 8)) (x : Text),
    attrsLoop comma vs data = some x →
    ∃ (items : List Item) (texts : List Text), Arg.decodeArgs (vs.map Prod.fst) data = some items ∧
      (vs.zip items).map (fun p => itemText p.1.2 p.1.1 p.2) = texts.map some ∧ texts.length = vs.length ∧
      x = (if comma = true ∧ texts ≠ [] then t ", " else []) ++ join (t ", ") texts ++ t "\n" := by
  induction vs with
  | nil =>
    intro comma data x h
    simp only [attrsLoop, Option.some.injEq] at h
    subst h
    exact ⟨[], [], rfl, rfl, rfl, by simp [join]⟩
  | cons p vs ih =>
    intro comma data x h
    obtain ⟨a, c⟩ := p
    have hag : isAgg a = false := hv (a, c) (List.mem_cons_self ..)
    simp only [attrsLoop, hag, Bool.not_false, Bool.or_true] at h
    cases hd : Arg.decodeArg a data with
    | none => rw [hd] at h; exact absurd h (by simp)
    | some q =>
      obtain ⟨i, rest⟩ := q
      rw [hd] at h
      dsimp only at h
      cases hs : itemText c a i with
      | none => rw [hs] at h; exact absurd h (by simp)
      | some s =>
        rw [hs] at h
        dsimp only at h
        cases hr : attrsLoop true vs rest with
        | none => rw [hr] at h; exact absurd h (by simp)
        | some y =>
          rw [hr] at h
          simp only [Option.map_some, Option.some.injEq] at h
          obtain ⟨items, texts, h1, h2, h3, h4⟩ := ih (fun p hp => hv p (List.mem_cons_of_mem _ hp)) true rest y hr
          refine ⟨i :: items, s :: texts, ?_, ?_, by simp [h3], ?_⟩
          · simp only [List.map_cons, Arg.decodeArgs, hd, h1, Option.map_some]
          · simp only [List.zip_cons_cons, List.map_cons, hs, h2]
          · rw [← h, h4]
            cases texts with
            | nil => cases comma <;> simp [join]
            | cons u us => cases comma <;> simp [join]

/-- C75. The line under an event: what is shown for the expressions, in order, with commas, after the values that only go into a
histogram or t-digest and show nothing. Partial: aggregated expressions must come first and not be NULL; see the two violations. -/
theorem line_shown_partial (gs vs : List (OArg × Ctx)) (data : List (BitVec 8)) (x : Text)
    (hg : ∀ p ∈ gs, isAgg p.1 = true) (hv : ∀ p ∈ vs, isAgg p.1 = false)
    (samples : ∀ items, Arg.decodeArgs ((gs ++ vs).map Prod.fst) data = some items →
      ∀ i ∈ items.take gs.length, ∃ b n, i = .sample b n)
    (hd : ∃ items, Arg.decodeArgs ((gs ++ vs).map Prod.fst) data = some items)
    (h : attrs (gs ++ vs) data = some x) :
    ∃ (items : List Item) (texts : List Text), Arg.decodeArgs ((gs ++ vs).map Prod.fst) data = some items ∧
      (vs.zip (items.drop gs.length)).map (fun p => itemText p.1.2 p.1.1 p.2) = texts.map some ∧ texts.length = vs.length ∧
      x = (if vs = [] then [] else t "Arg attrs: ") ++ join (t ", ") texts ++ t "\n" := by
  have loop : ∀ (gs : List (OArg × Ctx)) (data : List (BitVec 8)) (items : List Item) (y : Text),
      (∀ p ∈ gs, isAgg p.1 = true) → Arg.decodeArgs ((gs ++ vs).map Prod.fst) data = some items →
      (∀ i ∈ items.take gs.length, ∃ b n, i = Item.sample b n) → attrsLoop false (gs ++ vs) data = some y →
      ∃ (texts : List Text), (vs.zip (items.drop gs.length)).map (fun p => itemText p.1.2 p.1.1 p.2) = texts.map some ∧
        texts.length = vs.length ∧ y = join (t ", ") texts ++ t "\n" := by
    intro gs
    induction gs with
    | nil =>
      intro data items y _ hdec _ hy
      obtain ⟨items', texts, h1, h2, h3, h4⟩ := loop_values vs hv false data y hy
      have : items' = items := by
        rw [List.nil_append] at hdec
        rw [hdec] at h1
        exact (Option.some.inj h1).symm
      subst this
      exact ⟨texts, h2, h3, by simpa using h4⟩
    | cons p gs ih =>
      intro data items y hg hdec hsam hy
      obtain ⟨a, c⟩ := p
      have hag : isAgg a = true := hg (a, c) (List.mem_cons_self ..)
      simp only [List.cons_append, attrsLoop, hag, Bool.not_true, Bool.or_false] at hy
      simp only [List.cons_append, List.map_cons, Arg.decodeArgs] at hdec
      cases hd : Arg.decodeArg a data with
      | none => rw [hd] at hy; exact absurd hy (by simp)
      | some q =>
        obtain ⟨i, rest⟩ := q
        rw [hd] at hy hdec
        dsimp only at hy hdec
        cases hr : Arg.decodeArgs ((gs ++ vs).map Prod.fst) rest with
        | none => rw [hr] at hdec; exact absurd hdec (by simp)
        | some items' =>
          rw [hr] at hdec
          simp only [Option.map_some, Option.some.injEq] at hdec
          subst hdec
          obtain ⟨b, n, rfl⟩ := hsam i (by simp)
          have hs : itemText c a (.sample b n) = some [] := rfl
          rw [hs] at hy
          dsimp only at hy
          cases hl : attrsLoop false (gs ++ vs) rest with
          | none => rw [hl] at hy; exact absurd hy (by simp)
          | some z =>
            rw [hl] at hy
            simp only [Option.map_some, Option.some.injEq] at hy
            obtain ⟨texts, h2, h3, h4⟩ := ih rest items' z (fun p hp => hg p (List.mem_cons_of_mem _ hp)) hr
              (fun i hi => hsam i (by simp only [List.length_cons, List.take_succ_cons]; exact List.mem_cons_of_mem _ hi)) hl
            exact ⟨texts, by simpa using h2, h3, by rw [← hy, h4]; simp⟩
  obtain ⟨items, hdec⟩ := hd
  unfold attrs at h
  cases hl : attrsLoop false (gs ++ vs) data with
  | none => rw [hl] at h; exact absurd h (by simp)
  | some y =>
    rw [hl] at h
    simp only [Option.map_some, Option.some.injEq] at h
    obtain ⟨texts, h2, h3, h4⟩ := loop gs data items y hg hdec (samples items hdec) hl
    refine ⟨items, texts, hdec, h2, h3, ?_⟩
    have hall : ((gs ++ vs).all fun x => isAgg x.1) = decide (vs = []) := by
      cases vs with
      | nil => simpa [List.all_eq_true] using fun a b h => hg (a, b) h
      | cons p r =>
        have := hv p (List.mem_cons_self ..)
        simp [List.all_append, this]
    rw [hall] at h
    rw [← h, h4]
    by_cases hn : vs = [] <;> simp [hn]

/-- C75. A string is shown between quotation marks, byte by byte. -/
theorem string_shown (c : Ctx) (a : OArg) (s : List (BitVec 8)) (x : Text) (h : valueText c a (.str s) = some x) :
    ∃ u : Text, x = '"' :: u ++ ['"'] ∧ u.map Char.toNat = s.map BitVec.toNat := by
  refine ⟨s.map chr, ?_, ?_⟩
  · simp only [valueText, Option.some.injEq] at h
    exact h.symm
  · rw [List.map_map]
    apply List.map_congr_left
    intro b _
    have hb := b.isLt
    have hv : b.toNat.isValidChar := Or.inl (by omega)
    show (Char.ofNat b.toNat).toNat = b.toNat
    unfold Char.ofNat
    rw [dif_pos hv]
    rfl

theorem loop_exact (as : List (OArg × Ctx)) : ∀ (comma : Bool) (data : List (BitVec 8)) (x : Text),
    attrsLoop comma as data = some x →
    ∃ (items : List Item) (texts : List Text), Arg.decodeArgs (as.map Prod.fst) data = some items ∧ texts.length = as.length ∧
      (as.zip items).map (fun p => itemText p.1.2 p.1.1 p.2) = texts.map some ∧
      x = ((List.range as.length).map fun k =>
        (if comma = true ∨ ∃ p ∈ as.take k, p.1.typ ≠ .hist ∧ p.1.typ ≠ .tdigest then t ", " else []) ++
          texts.getD k []).flatten ++ t "\n" := by
  induction as with
  | nil =>
    intro comma data x h
    simp only [attrsLoop, Option.some.injEq] at h
    exact ⟨[], [], rfl, rfl, rfl, by simp [h]⟩
  | cons p as ih =>
    intro comma data x h
    obtain ⟨a, c⟩ := p
    simp only [attrsLoop] at h
    cases hd : Arg.decodeArg a data with
    | none => rw [hd] at h; exact absurd h (by simp)
    | some q =>
      obtain ⟨i, rest⟩ := q
      rw [hd] at h
      dsimp only at h
      cases hs : itemText c a i with
      | none => rw [hs] at h; exact absurd h (by simp)
      | some s =>
        rw [hs] at h
        dsimp only at h
        cases hr : attrsLoop (comma || !isAgg a) as rest with
        | none => rw [hr] at h; exact absurd h (by simp)
        | some y =>
          rw [hr] at h
          simp only [Option.map_some, Option.some.injEq] at h
          obtain ⟨items, texts, h1, h2, h3, h4⟩ := ih _ rest y hr
          refine ⟨i :: items, s :: texts, ?_, by simp [h2], ?_, ?_⟩
          · simp only [List.map_cons, Arg.decodeArgs, hd, h1, Option.map_some]
          · simp only [List.zip_cons_cons, List.map_cons, hs, h3]
          · rw [← h, h4]
            have hag : ((comma || !isAgg a) = true) = (comma = true ∨ (a.typ ≠ .hist ∧ a.typ ≠ .tdigest)) := by
              simp [isAgg]
            simp only [List.length_cons, List.range_succ_eq_map, List.map_cons, List.map_map, List.flatten_cons, hag,
              List.take_zero, List.not_mem_nil, false_and, exists_false, or_false, List.getD_cons_zero, Function.comp_def,
              List.take_succ_cons, List.mem_cons, exists_eq_or_imp, or_assoc, List.getD_cons_succ, List.append_assoc]

/-- C75. The line in full, for any list of expressions: every expression's text in order; a comma stands before an expression exactly
if some earlier expression is not for a histogram or t-digest; the title is left out exactly if all of them are. -/
theorem line_exact (as : List (OArg × Ctx)) (data : List (BitVec 8)) (x : Text) (h : attrs as data = some x) :
    ∃ (items : List Item) (texts : List Text), Arg.decodeArgs (as.map Prod.fst) data = some items ∧ texts.length = as.length ∧
      (as.zip items).map (fun p => itemText p.1.2 p.1.1 p.2) = texts.map some ∧
      x = (if ∀ p ∈ as, p.1.typ = .hist ∨ p.1.typ = .tdigest then [] else t "Arg attrs: ") ++
        ((List.range as.length).map fun k =>
          (if ∃ p ∈ as.take k, p.1.typ ≠ .hist ∧ p.1.typ ≠ .tdigest then t ", " else []) ++ texts.getD k []).flatten ++ t "\n" := by
  unfold attrs at h
  cases hl : attrsLoop false as data with
  | none => rw [hl] at h; exact absurd h (by simp)
  | some y =>
    rw [hl] at h
    simp only [Option.map_some, Option.some.injEq] at h
    obtain ⟨items, texts, h1, h2, h3, h4⟩ := loop_exact as false data y hl
    refine ⟨items, texts, h1, h2, h3, ?_⟩
    rw [← h, h4]
    simp only [Bool.false_eq_true, false_or, List.append_assoc]
    congr 1
    have hc : ((as.all fun x => isAgg x.1) = true) = (∀ p ∈ as, p.1.typ = .hist ∨ p.1.typ = .tdigest) := by
      simp [isAgg]
    simp only [hc]

/-! ### Examples and violations -/

/-- An expression `ip4(x)`. -/
def exIp : OArg := { typ := .addr, code := [], label := none, size := 5, trueSize := 4, isNumPtr := false, isStr := false, tsize := 4, addr := "ip4", port := "", int := "" }
/-- An expression `hist(y)` of one byte. -/
def exHist : OArg := { typ := .hist, code := [], label := none, size := 2, trueSize := 1, isNumPtr := false, isStr := false, tsize := 1, addr := "", port := "", int := "" }
def exCtx (e : String) : Ctx := { expr := t e, repr := t "u32", dump := fun _ => none, pkt := fun _ => [], plain := fun _ => [] }

example : Arg.decodeArg exIp [127, 0, 0, 1, 0] = some (.bytes [127, 0, 0, 1], []) ∧
    itemText (exCtx "x") exIp (.bytes [127, 0, 0, 1]) = some (t "(u32)'x'=127.0.0.1") := by decide +kernel
example : ip6 [0x20, 0x01, 0x0d, 0xb8, 0, 0, 0, 0, 0, 0, 0, 0, 0, 0, 0, 1] = t "2001:db8::1" ∧
    ip6 (List.replicate 16 0) = t "::" ∧ ip6 [0, 0, 0, 0, 0, 0, 0, 0, 0, 0, 0xff, 0xff, 10, 0, 0, 1] = t "10.0.0.1" ∧
    ip6 [0, 1, 0, 0, 0, 0, 0, 2, 0, 0, 0, 0, 0, 0, 0, 0] = t "1:0:0:2::" ∧ ip6 [0, 0, 0, 1, 0, 2, 0, 3, 0, 4, 0, 5, 0, 6, 0, 7] = t "0:1:2:3:4:5:6:7" := by
  decide +kernel
example : intText "s16" [0xfe, 0xff] = some (t "-2") ∧ intText "be16" [0x01, 0x02] = some (t "0x102/258") := by decide +kernel
example : dumpBuf [1, 0xab] = t "[0x01,0xab]" ∧ mac [0, 1, 2, 0xaa, 0xbb, 0xcc] = t "00:01:02:aa:bb:cc" := by decide +kernel
example : attrs [(exHist, exCtx "y"), (exIp, exCtx "x")] [3, 0, 0, 1, 0] = some (t "Arg attrs: (u32)'x'=3.0.0.1\n") := by decide +kernel

/-- C75, violated. A histogram after another expression leaves a comma with nothing behind it. -/
theorem trailing_comma_violated : attrs [(exIp, exCtx "x"), (exHist, exCtx "y")] [127, 0, 0, 1, 0, 3, 0] =
    some (t "Arg attrs: (u32)'x'=127.0.0.1, \n") := by decide +kernel

/-- C75, violated. If the expression of a histogram meets a NULL pointer, the next expression follows without a comma. -/
theorem missing_comma_violated : attrs [(exHist, exCtx "y"), (exIp, exCtx "x")] [0, 1, 127, 0, 0, 1, 0] =
    some (t "Arg attrs: (u32)'y'=[NULL](u32)'x'=127.0.0.1\n") := by decide +kernel

/-! ### Actions -/

/-- The actions of XDP programs (include/uapi/linux/bpf.h `enum xdp_action`). -/
def xdpSpec : List (BitVec 32 × String) :=
  [(0, "XDP_ABORTED"), (1, "XDP_DROP"), (2, "XDP_PASS"), (3, "XDP_TX"), (4, "XDP_REDIRECT")]

/-- The actions of TC programs, signed numbers (include/uapi/linux/pkt_cls.h `TC_ACT_..`). -/
def tcSpec : List (Int × String) :=
  [(-1, "TC_ACT_UNSPEC"), (0, "TC_ACT_OK"), (1, "TC_ACT_RECLASSIFY"), (2, "TC_ACT_SHOT"), (3, "TC_ACT_PIPE"), (4, "TC_ACT_STOLEN"),
   (5, "TC_ACT_QUEUED"), (6, "TC_ACT_REPEAT"), (7, "TC_ACT_REDIRECT"), (8, "TC_ACT_TRAP")]

/-- The first four bytes of the return value. -/
theorem ret_bytes (r : BitVec 64) (rest : List (BitVec 8)) :
    BitVec.ofNat 32 (Arg.leVal ((Arg.le 8 r ++ rest).take 4)) = r.setWidth 32 := by
  apply BitVec.eq_of_toNat_eq
  simp [Arg.le, Arg.leVal]
  omega

/-- C76. What is shown for an XDP program is the name of its action, or the number if it is no action. -/
theorem xdp_shown (typed : Text) (r : BitVec 64) (rest : List (BitVec 8)) :
    ∃ s, retText .xdp typed (Arg.le 8 r ++ rest) = t " retval=" ++ s ∧
      ((∃ n, (r.setWidth 32, n) ∈ xdpSpec ∧ s = t n) ∨
       ((∀ n, (r.setWidth 32, n) ∉ xdpSpec) ∧ numeral 10 s = (r.setWidth 32).toNat ∧ ∀ c ∈ s, c.isDigit = true)) := by
  refine ⟨xdpText (r.setWidth 32), by rw [retText, ret_bytes], ?_⟩
  generalize r.setWidth 32 = a
  unfold xdpText
  split
  · next h =>
    left
    have : a = 0 ∨ a = 1 ∨ a = 2 ∨ a = 3 ∨ a = 4 := by bv_omega
    rcases this with rfl | rfl | rfl | rfl | rfl
    · exact ⟨"XDP_ABORTED", by decide, rfl⟩
    · exact ⟨"XDP_DROP", by decide, rfl⟩
    · exact ⟨"XDP_PASS", by decide, rfl⟩
    · exact ⟨"XDP_TX", by decide, rfl⟩
    · exact ⟨"XDP_REDIRECT", by decide, rfl⟩
  · next h =>
    refine Or.inr ⟨fun n hn => ?_, digits_value 10 (by omega) (by omega) _, fun c hc => Rp.dec_digit hc⟩
    simp only [xdpSpec, List.mem_cons, Prod.mk.injEq, List.not_mem_nil, or_false] at hn
    rcases hn with ⟨rfl, -⟩ | ⟨rfl, -⟩ | ⟨rfl, -⟩ | ⟨rfl, -⟩ | ⟨rfl, -⟩ <;> exact absurd h (by decide)

/-- C76. What is shown for a TC program is the name of its action, or the number if it is no action. Partial: only if the return
value, a signed number, is not negative; see `tc_unspec_violated`. -/
theorem tc_shown_partial (typed : Text) (r : BitVec 64) (rest : List (BitVec 8)) (h0 : 0 ≤ (r.setWidth 32).toInt) :
    ∃ s, retText .tc typed (Arg.le 8 r ++ rest) = t " retval=" ++ s ∧
      ((∃ n, ((r.setWidth 32).toInt, n) ∈ tcSpec ∧ s = t n) ∨
       ((∀ n, ((r.setWidth 32).toInt, n) ∉ tcSpec) ∧ (numeral 10 s : Int) = (r.setWidth 32).toInt ∧ ∀ c ∈ s, c.isDigit = true)) := by
  refine ⟨tcText (r.setWidth 32), by rw [retText, ret_bytes], ?_⟩
  generalize r.setWidth 32 = a at h0 ⊢
  have hi : a.toInt = (a.toNat : Int) := by
    rw [BitVec.toInt_eq_toNat_cond] at h0 ⊢
    have := a.isLt
    split at h0 <;> split <;> omega
  unfold tcText tcAction
  split
  · next h =>
    left
    rw [hi]
    have : a.toNat = 0 ∨ a.toNat = 1 ∨ a.toNat = 2 ∨ a.toNat = 3 ∨ a.toNat = 4 ∨ a.toNat = 5 ∨ a.toNat = 6 ∨ a.toNat = 7 ∨
      a.toNat = 8 := by omega
    rcases this with h | h | h | h | h | h | h | h | h <;> rw [h]
    · exact ⟨"TC_ACT_OK", by decide, rfl⟩
    · exact ⟨"TC_ACT_RECLASSIFY", by decide, rfl⟩
    · exact ⟨"TC_ACT_SHOT", by decide, rfl⟩
    · exact ⟨"TC_ACT_PIPE", by decide, rfl⟩
    · exact ⟨"TC_ACT_STOLEN", by decide, rfl⟩
    · exact ⟨"TC_ACT_QUEUED", by decide, rfl⟩
    · exact ⟨"TC_ACT_REPEAT", by decide, rfl⟩
    · exact ⟨"TC_ACT_REDIRECT", by decide, rfl⟩
    · exact ⟨"TC_ACT_TRAP", by decide, rfl⟩
  · next h =>
    refine Or.inr ⟨fun n hn => ?_, ?_, fun c hc => Rp.dec_digit hc⟩
    · rw [hi] at hn
      simp only [tcSpec, List.mem_cons, Prod.mk.injEq, List.not_mem_nil, or_false] at hn
      omega
    · rw [hi]
      exact congrArg Int.ofNat (digits_value 10 (by omega) (by omega) a.toNat)

example : 0 ≤ ((7 : BitVec 64).setWidth 32).toInt ∧ retText .tc [] (Arg.le 8 7) = t " retval=TC_ACT_REDIRECT" := by decide +kernel

/-- C76, violated. A TC program that returns a negative number, such as `TC_ACT_UNSPEC`, the verdict that keeps the previous action, is
shown with the unsigned number: the 32 bits are made a 64-bit `int` without their sign. -/
theorem tc_unspec_violated :
    (-1, "TC_ACT_UNSPEC") ∈ tcSpec ∧ ((0xffffffff : BitVec 64).setWidth 32).toInt = -1 ∧
    retText .tc [] (Arg.le 8 0xffffffff) = t " retval=4294967295" ∧
    ∀ (typed : Text) (r : BitVec 64) (rest : List (BitVec 8)), (r.setWidth 32).toInt < 0 →
      retText .tc typed (Arg.le 8 r ++ rest) = t " retval=" ++ dec (r.setWidth 32).toNat := by
  refine ⟨by decide, by decide, by decide +kernel, fun typed r rest h => ?_⟩
  rw [retText, ret_bytes]
  generalize r.setWidth 32 = a at h ⊢
  have : 2 ^ 31 ≤ a.toNat := by
    rw [BitVec.toInt_eq_toNat_cond] at h
    have := a.isLt
    split at h <;> omega
  unfold tcText tcAction
  rw [if_neg (by omega)]
  rfl

end Bpfsnoop.Ot
