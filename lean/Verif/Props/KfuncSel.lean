import Verif.Props.Flags

/-! Kernel function selectors: parsing (C48) and which functions are traced (C38). -/
namespace Bpfsnoop.Flg

/-! ## C48: `-k` arguments -/

/-- Specification: `t` is `s` without the white space around it. -/
def Trimmed (s t : Str) : Prop :=
  ∃ l r, s = l ++ t ++ r ∧ (∀ c ∈ l, isSpace c = true) ∧ (∀ c ∈ r, isSpace c = true) ∧
    (∀ c, t.head? = some c → isSpace c = false) ∧ (∀ c, t.getLast? = some c → isSpace c = false)

theorem dropWhile_all {p : Char → Bool} (l r : Str) (h : ∀ c ∈ l, p c = true) : (l ++ r).dropWhile p = r.dropWhile p := by
  induction l with
  | nil => rfl
  | cons c l ih =>
    simp only [List.cons_append, List.dropWhile_cons, h c (by simp), if_true]
    exact ih fun x hx => h x (by simp [hx])

theorem dropWhile_head {p : Char → Bool} (r : Str) (h : ∀ c, r.head? = some c → p c = false) : r.dropWhile p = r := by
  cases r with
  | nil => rfl
  | cons c r => simp [h c rfl]

theorem dropWhile_split {p : Char → Bool} (s : Str) : ∃ l, s = l ++ s.dropWhile p ∧ (∀ c ∈ l, p c = true) ∧
    (∀ c, (s.dropWhile p).head? = some c → p c = false) := by
  induction s with
  | nil => exact ⟨[], rfl, by simp, by simp⟩
  | cons c s ih =>
    by_cases h : p c = true
    · obtain ⟨l, h1, h2, h3⟩ := ih
      simp only [List.dropWhile_cons, h, if_true]
      refine ⟨c :: l, by rw [List.cons_append, ← h1], ?_, h3⟩
      intro x hx
      rcases List.mem_cons.1 hx with rfl | hx
      · exact h
      · exact h2 x hx
    · refine ⟨[], by simp [List.dropWhile_cons, h], by simp, ?_⟩
      simp only [List.dropWhile_cons, h]
      intro x hx
      have : c = x := by simpa using hx
      rw [← this]; simpa using h

theorem trim_of {s t : Str} (h : Trimmed s t) : trim s = t := by
  obtain ⟨l, r, rfl, hl, hr, h1, h2⟩ := h
  unfold trim
  rw [List.append_assoc, dropWhile_all l _ hl]
  cases t with
  | nil =>
    have : (([] : Str) ++ r).dropWhile isSpace = [] := by
      have := dropWhile_all r [] hr
      simpa using this
    rw [this]; rfl
  | cons c t =>
    have e : (c :: t ++ r).dropWhile isSpace = c :: t ++ r := dropWhile_head _ (by intro x hx; exact h1 x (by simpa using hx))
    rw [e]
    rw [List.reverse_append, dropWhile_all _ _ (by intro x hx; exact hr x (List.mem_reverse.1 hx)),
      dropWhile_head _ (by rw [List.head?_reverse]; exact h2), List.reverse_reverse]

theorem trim_trimmed (s : Str) : Trimmed s (trim s) := by
  obtain ⟨l, h1, h2, h3⟩ := dropWhile_split (p := isSpace) s
  obtain ⟨r, g1, g2, g3⟩ := dropWhile_split (p := isSpace) (s.dropWhile isSpace).reverse
  have e : s.dropWhile isSpace = trim s ++ r.reverse := by
    have := congrArg List.reverse g1
    rw [List.reverse_reverse, List.reverse_append] at this
    exact this
  refine ⟨l, r.reverse, ?_, h2, fun c hc => g2 c (List.mem_reverse.1 hc), ?_, ?_⟩
  · rw [List.append_assoc, ← e]; exact h1
  · intro c hc
    apply h3
    rw [e]
    cases ht : trim s with
    | nil => rw [ht] at hc; cases hc
    | cons d t => rw [ht] at hc; simpa using hc
  · intro c hc
    apply g3
    unfold trim at hc
    rwa [List.getLast?_reverse] at hc

theorem trim_iff (s t : Str) : trim s = t ↔ Trimmed s t :=
  ⟨fun h => h ▸ trim_trimmed s, trim_of⟩

/-- Specification: the forms of a kernel function selector after the prefixes, and the name pattern, parameter name
and parameter type each denotes. -/
inductive KBody (skb : Bool) : Str → Str → Str → Str → Prop
  | name (a n) : ':' ∉ a → Trimmed a n →
      KBody skb a n (if skb then "skb".toList else []) (if skb then "struct sk_buff *".toList else [])
  | arg (a b n x) : ':' ∉ a → ':' ∉ b → Trimmed a n → Trimmed b x → x.head? ≠ some '(' →
      KBody skb (a ++ ':' :: b) n x (if skb then "struct sk_buff *".toList else [])
  | typed (a b n t r x ty) : ':' ∉ a → ':' ∉ b → Trimmed a n → Trimmed b ('(' :: t ++ ')' :: r) → ')' ∉ t → Trimmed r x →
      Trimmed t ty → KBody skb (a ++ ':' :: b) n x ty
  | full (a b c n x ty) : ':' ∉ a → ':' ∉ b → ':' ∉ c → Trimmed a n → Trimmed b x → Trimmed c ty →
      KBody skb (a ++ ':' :: b ++ ':' :: c) n x ty

theorem split_plain (a : Str) (h : ':' ∉ a) : split a = [a] := by
  induction a with
  | nil => rfl
  | cons c r ih =>
    have hc : c ≠ ':' := fun hc => h (by simp [hc])
    simp only [split, hc, if_false, ih (fun hx => h (by simp [hx]))]

theorem split_colon (a b : Str) (h : ':' ∉ a) : split (a ++ ':' :: b) = a :: split b := by
  induction a with
  | nil => simp [split]
  | cons c r ih =>
    have hc : c ≠ ':' := fun hc => h (by simp [hc])
    simp only [List.cons_append, split, hc, if_false, ih (fun hx => h (by simp [hx]))]

theorem split_inv (s : Str) : (':' ∉ s ∧ split s = [s]) ∨ ∃ a b, s = a ++ ':' :: b ∧ ':' ∉ a ∧ split s = a :: split b := by
  rcases cut_cases s with ⟨a, b, rfl, ha, _⟩ | ⟨h, _⟩
  · exact Or.inr ⟨a, b, rfl, ha, split_colon a b ha⟩
  · exact Or.inl ⟨h, split_plain s h⟩

theorem split_ne_nil (s : Str) : split s ≠ [] := by
  rcases split_inv s with ⟨_, h⟩ | ⟨a, b, _, _, h⟩ <;> rw [h] <;> simp

theorem takeWhile_paren (t r : Str) (h : ')' ∉ t) : (t ++ ')' :: r).takeWhile (· ≠ ')') = t := by
  induction t with
  | nil => simp
  | cons c t ih =>
    have hc : c ≠ ')' := fun e => h (by simp [e])
    have := ih (fun hx => h (by simp [hx]))
    simp only [List.cons_append, List.takeWhile_cons, hc, ne_eq, not_false_eq_true, decide_true, if_true]
    rw [this]

theorem getTypeDesc_some (t r : Str) (h : ')' ∉ t) : getTypeDesc ('(' :: (t ++ ')' :: r)) = some t := by
  unfold getTypeDesc
  have hm : ')' ∈ t ++ ')' :: r := by simp
  simp only [hm, if_true, takeWhile_paren t r h]

theorem paren_split (r : Str) (h : ')' ∈ r) : ∃ t u, r = t ++ ')' :: u ∧ ')' ∉ t := by
  induction r with
  | nil => cases h
  | cons c r ih =>
    by_cases hc : c = ')'
    · exact ⟨[], r, by simp [hc], by simp⟩
    · have : ')' ∈ r := by
        rcases List.mem_cons.1 h with h | h
        · exact absurd h.symm hc
        · exact h
      obtain ⟨t, u, rfl, ht⟩ := ih this
      exact ⟨c :: t, u, rfl, by simp [ht, Ne.symm hc]⟩

theorem kfuncFields_iff (skb : Bool) (k n x ty : Str) :
    kfuncFields (if skb then "skb".toList else []) (if skb then "struct sk_buff *".toList else []) k = some (n, x, ty) ↔
      KBody skb k n x ty := by
  constructor
  · intro h
    unfold kfuncFields at h
    rcases split_inv k with ⟨hk, he⟩ | ⟨a, b, rfl, ha, he⟩
    · simp only [he] at h
      cases h
      exact .name k _ hk (trim_trimmed k)
    · rcases split_inv b with ⟨hb, heb⟩ | ⟨b, c, rfl, hb, heb⟩
      · simp only [he, heb] at h
        cases hx : trim b with
        | nil =>
          simp only [hx] at h
          cases h
          exact .arg a b _ _ ha hb (trim_trimmed a) ((trim_iff _ _).1 hx) (by simp)
        | cons c0 r0 =>
          by_cases hc : c0 = '('
          · subst hc
            simp only [hx] at h
            by_cases hp : ')' ∈ r0
            · obtain ⟨t, u, rfl, ht⟩ := paren_split r0 hp
              rw [getTypeDesc_some t u ht] at h
              simp only [Option.some.injEq, Prod.mk.injEq] at h
              obtain ⟨rfl, rfl, rfl⟩ := h
              have hd : ('(' :: (t ++ ')' :: u)).drop (t.length + 2) = u := by
                have : '(' :: (t ++ ')' :: u) = ('(' :: t ++ [')']) ++ u := by simp
                rw [this]
                have hl : ('(' :: t ++ [')']).length = t.length + 2 := by simp
                rw [← hl, List.drop_left]
              rw [hd]
              exact .typed a b _ t u _ _ ha hb (trim_trimmed a) ((trim_iff _ _).1 hx) ht (trim_trimmed u) (trim_trimmed t)
            · have : getTypeDesc ('(' :: r0) = none := by
                unfold getTypeDesc
                simp only [hp, if_false]
              rw [this] at h
              cases h
          · have h' : some (trim a, trim b, if skb then "struct sk_buff *".toList else []) = some (n, x, ty) := by
              rw [← h, hx]
              generalize (if skb = true then "struct sk_buff *".toList else []) = d
              split
              · next he' => cases he'; exact absurd rfl hc
              · rfl
            cases h'
            exact .arg a b _ _ ha hb (trim_trimmed a) (trim_trimmed b) (by rw [hx]; simpa using hc)
      · rcases split_inv c with ⟨hc, hec⟩ | ⟨c, d, rfl, hc, hec⟩
        · simp only [he, heb, hec] at h
          cases h
          have := KBody.full (skb := skb) a b c _ _ _ ha hb hc (trim_trimmed a) (trim_trimmed b) (trim_trimmed c)
          simpa using this
        · simp only [he, heb, hec] at h
          cases hd : split d with
          | nil => exact absurd hd (split_ne_nil d)
          | cons y ys => rw [hd] at h; cases h
  · intro h
    unfold kfuncFields
    cases h with
    | name _ _ hk hn =>
      simp only [split_plain k hk, (trim_iff _ _).2 hn]
    | arg a b _ _ ha hb hn hx hp =>
      simp only [split_colon a b ha, split_plain b hb, (trim_iff _ _).2 hn, (trim_iff _ _).2 hx]
      split
      · exact absurd rfl hp
      · rfl
    | typed a b _ t r _ _ ha hb hn hx ht hr hty =>
      have hx' : trim b = '(' :: (t ++ ')' :: r) := (trim_iff _ _).2 (by simpa using hx)
      simp only [split_colon a b ha, split_plain b hb, (trim_iff _ _).2 hn, hx']
      rw [getTypeDesc_some t r ht]
      have hd : ('(' :: (t ++ ')' :: r)).drop (t.length + 2) = r := by
        have : '(' :: (t ++ ')' :: r) = ('(' :: t ++ [')']) ++ r := by simp
        rw [this]
        have hl : ('(' :: t ++ [')']).length = t.length + 2 := by simp
        rw [← hl, List.drop_left]
      simp only [hd, (trim_iff _ _).2 hr, (trim_iff _ _).2 hty]
    | full a b c _ _ _ ha hb hc hn hx hty =>
      have e : a ++ ':' :: b ++ ':' :: c = a ++ ':' :: (b ++ ':' :: c) := by simp
      rw [e]
      simp only [split_colon a _ ha, split_colon b c hb, split_plain c hc, (trim_iff _ _).2 hn, (trim_iff _ _).2 hx,
        (trim_iff _ _).2 hty]

/-- **C48.** A `-k` argument is accepted iff it is a sequence of known prefixes followed by a selector, instruction
tracing is not combined with graphs or `(m)`, and `(m)` comes with a parameter type; then it denotes what it says,
with the options of the prefixes and of the command line. -/
theorem parseKfuncFlag_iff (g : Glob) (k : Str) (r : KfuncFlag) :
    parseKfuncFlag g k = .ok r ↔
      ∃ toks body, Prefixed kfuncTok k toks body ∧
        KBody (toks.any fun t => t.map Char.toLower == "(skb)".toList) body r.name r.arg r.typ ∧
        r.insn = (toks.contains "(i)".toList || g.insns) ∧
        r.imm.fltrExpr = body ∧ r.imm.funcName = [] ∧
        r.imm.graph = (toks.contains "(g)".toList || g.graph) ∧
        r.imm.stack = (toks.contains "(s)".toList || g.stack) ∧
        r.imm.lbr = (toks.contains "(l)".toList || g.lbr) ∧
        r.imm.both = (toks.contains "(b)".toList || (g.modes.contains "entry" && g.modes.contains "exit")) ∧
        r.imm.pkt = (toks.contains "(p)".toList || g.pkt) ∧
        r.imm.multi = toks.contains "(m)".toList ∧
        r.imm.argName = (if r.imm.multi then r.arg else []) ∧ r.imm.argType = (if r.imm.multi then r.typ else []) ∧
        ¬ (r.insn = true ∧ r.imm.graph = true) ∧ ¬ (r.imm.multi = true ∧ r.insn = true) ∧
        ¬ (r.imm.multi = true ∧ r.typ = []) := by
  unfold parseKfuncFlag
  constructor
  · intro h
    cases hl : loop passK ({}, k) with
    | none => simp only [hl] at h; cases h
    | some y =>
      obtain ⟨f, body⟩ := y
      simp only [hl] at h
      obtain ⟨toks, hpre, rfl⟩ := (loop_iff passK_pass kfuncTok_shape k f body).1 hl
      split at h
      · cases h
      · next h1 =>
        split at h
        · cases h
        · next h2 =>
          cases hf : kfuncFields (if (asked toks).skb then "skb".toList else [])
              (if (asked toks).skb then "struct sk_buff *".toList else []) body with
          | none => simp only [hf] at h; cases h
          | some z =>
            obtain ⟨n, x, ty⟩ := z
            simp only [hf] at h
            split at h
            · cases h
            · next h3 =>
              cases h
              refine ⟨toks, body, hpre, (kfuncFields_iff _ body n x ty).1 hf, rfl, rfl, rfl, rfl, rfl, rfl, rfl, rfl, rfl, rfl,
                rfl, ?_, ?_, ?_⟩
              · intro ⟨a, b⟩; exact h1 (by rw [Bool.and_eq_true]; exact ⟨a, b⟩)
              · intro ⟨a, b⟩; exact h2 (by rw [Bool.and_eq_true]; exact ⟨a, b⟩)
              · rintro ⟨a, rfl⟩; exact h3 (by rw [Bool.and_eq_true]; exact ⟨a, rfl⟩)
  · rintro ⟨toks, body, hpre, hbody, e1, e2, e3, e4, e5, e6, e7, e8, e9, e10, e11, n1, n2, n3⟩
    rw [(loop_iff passK_pass kfuncTok_shape k (asked toks) body).2 ⟨toks, hpre, rfl⟩]
    obtain ⟨n, x, ty, insn, imm⟩ := r
    obtain ⟨i1, i2, i3, i4, i5, i6, i7, i8, i9, i10⟩ := imm
    simp only at *
    have hf : kfuncFields (if (asked toks).skb then "skb".toList else [])
        (if (asked toks).skb then "struct sk_buff *".toList else []) body = some (n, x, ty) := (kfuncFields_iff _ body n x ty).2 hbody
    have c1 : (((asked toks).insn || g.insns) && ((asked toks).graph || g.graph)) = false := by
      apply Bool.eq_false_iff.2
      intro hc
      rw [Bool.and_eq_true] at hc
      exact n1 ⟨e1.trans hc.1, e4.trans hc.2⟩
    have c2 : ((asked toks).multi && ((asked toks).insn || g.insns)) = false := by
      apply Bool.eq_false_iff.2
      intro hc
      rw [Bool.and_eq_true] at hc
      exact n2 ⟨e9.trans hc.1, e1.trans hc.2⟩
    have c3 : ((asked toks).multi && List.isEmpty ty) = false := by
      apply Bool.eq_false_iff.2
      intro hc
      rw [Bool.and_eq_true] at hc
      exact n3 ⟨e9.trans hc.1, by simpa using hc.2⟩
    rw [c1, c2, hf]
    simp only [c3]
    subst e1 e2 e3 e4 e5 e6 e7 e8 e9 e10 e11
    rfl

/-- **C48.** No argument has two readings. -/
theorem kfunc_unambiguous (k : Str) (t₁ t₂ : List Str) (b₁ b₂ n₁ n₂ x₁ x₂ y₁ y₂ : Str)
    (h₁ : Prefixed kfuncTok k t₁ b₁) (h₂ : Prefixed kfuncTok k t₂ b₂)
    (k₁ : KBody (t₁.any fun t => t.map Char.toLower == "(skb)".toList) b₁ n₁ x₁ y₁)
    (k₂ : KBody (t₂.any fun t => t.map Char.toLower == "(skb)".toList) b₂ n₂ x₂ y₂) :
    t₁ = t₂ ∧ b₁ = b₂ ∧ n₁ = n₂ ∧ x₁ = x₂ ∧ y₁ = y₂ := by
  obtain ⟨rfl, rfl⟩ := prefixed_unique kfuncTok_shape h₁ h₂
  have e₁ := (kfuncFields_iff _ _ _ _ _).2 k₁
  have e₂ := (kfuncFields_iff _ _ _ _ _).2 k₂
  rw [e₁] at e₂
  cases e₂
  exact ⟨rfl, rfl, rfl, rfl, rfl⟩

/-- **C48, violated.** The parser does not end on an unknown prefix. -/
theorem parseKfuncFlag_hang_iff (g : Glob) (k : Str) :
    parseKfuncFlag g k = .error .hang ↔ ¬ ∃ toks body, Prefixed kfuncTok k toks body := by
  rw [← loop_none_iff passK_pass kfuncTok_shape k]
  unfold parseKfuncFlag
  cases hl : loop passK ({}, k) with
  | none => simp
  | some x =>
    simp only [reduceCtorEq, iff_false]
    split
    · simp
    · split
      · simp
      · split
        · simp
        · split <;> simp

/-- The witness: `-k '(z)foo'`. -/
theorem parseKfuncFlag_hang_violated (g : Glob) : parseKfuncFlag g "(z)foo".toList = .error .hang := by
  unfold parseKfuncFlag
  have : loop passK ({}, "(z)foo".toList) = none := by
    rw [loop]
    decide +kernel
  rw [this]

/-- Witness: `(s)(SKB) *` and `(m)*:(struct sk_buff *)skb` denote what the manual says. -/
theorem parseKfuncFlag_witness (g : Glob) (hg : g = ⟨false, false, false, false, false, ["exit"]⟩) :
    parseKfuncFlag g "(m)*:(struct sk_buff *)skb".toList =
      .ok { name := "*".toList, arg := "skb".toList, typ := "struct sk_buff *".toList,
            imm := { fltrExpr := "*:(struct sk_buff *)skb".toList, multi := true, argName := "skb".toList,
                     argType := "struct sk_buff *".toList } } := by
  subst hg
  rw [parseKfuncFlag_iff]
  refine ⟨["(m)".toList], "*:(struct sk_buff *)skb".toList, ⟨rfl, by decide, by decide⟩, ?_, rfl, rfl, rfl, rfl, rfl, rfl, rfl, rfl,
    rfl, rfl, rfl, by decide, by decide, by decide⟩
  exact .typed "*".toList "(struct sk_buff *)skb".toList _ "struct sk_buff *".toList "skb".toList _ _ (by decide) (by decide)
    ((trim_iff _ _).1 (by decide +kernel)) ((trim_iff _ _).1 (by decide +kernel)) (by decide)
    ((trim_iff _ _).1 (by decide +kernel)) ((trim_iff _ _).1 (by decide +kernel))

/-! ## C38: which kernel functions are traced -/

/-- Specification: the pattern matches the function: its glob matches the name and, if it names a parameter, the first
parameter of that name has the type given, if one is given. -/
def Matches (glob : Str → Str → Bool) (m : KfuncFlag) (fn : BFunc) : Prop :=
  glob m.name fn.name = true ∧
    (m.arg = [] ∨ ∃ before ty after, fn.params = before ++ (m.arg, ty) :: after ∧ (∀ q ∈ before, q.1 ≠ m.arg) ∧
      (m.typ = [] ∨ ty = m.typ))

/-- Specification: `m` is the first pattern of the list that matches. -/
def FirstMatch (glob : Str → Str → Bool) (ms : List KfuncFlag) (fn : BFunc) (m : KfuncFlag) : Prop :=
  ∃ before after, ms = before ++ m :: after ∧ Matches glob m fn ∧ ∀ m' ∈ before, ¬ Matches glob m' fn

/-- Specification: a function that can be probed as the pattern asks: no variable arguments, no struct result, one
address (or `(m)`), parameters of at most 16 bytes, few enough of them (with `(m)`, the one selected). -/
def Eligible (ksyms : Str → Option Ksym) (maxArgs : Nat) (m : KfuncFlag) (fn : BFunc) (k : Ksym) : Prop :=
  fn.variadic = false ∧ fn.structRet = false ∧ ksyms fn.name = some k ∧ (k.duped = false ∨ m.imm.multi = true) ∧
    fn.paramsOk = true ∧
    (fn.params.length ≤ maxArgs ∨
      m.imm.multi = true ∧ ∃ before q after, fn.params = before ++ q :: after ∧ q.1 = m.imm.argName ∧
        (∀ q' ∈ before, q'.1 ≠ m.imm.argName) ∧ before.length < maxArgs)

/-- Specification: functions the kernel refuses to probe. -/
def Denied (g : Glob) (m : KfuncFlag) (fn : BFunc) : Prop :=
  tracingDenyFuncs.contains fn.name = true ∨
    noreturnFuncs.contains fn.name = true ∧ (g.exit = true ∨ m.imm.both = true ∨ m.insn = true ∨ m.imm.graph = true)

theorem kmatch_iff (glob : Str → Str → Bool) (m : KfuncFlag) (fn : BFunc) : kmatch glob m fn = true ↔ Matches glob m fn := by
  unfold kmatch Matches
  by_cases hg : glob m.name fn.name = true
  · simp only [hg, Bool.not_true, Bool.false_eq_true, if_false, true_and]
    by_cases ha : m.arg = []
    · simp [ha]
    · have ha' : m.arg.isEmpty = false := by simpa using ha
      simp only [ha', ha, false_or]
      cases hf : fn.params.find? (·.1 = m.arg) with
      | none =>
        simp only [Bool.false_eq_true, if_false, false_iff]
        rintro ⟨b, ty, a, hp, _⟩
        have := List.find?_eq_none.1 hf (m.arg, ty) (by rw [hp]; simp)
        simp at this
      | some q =>
        simp only [Bool.false_eq_true, if_false]
        obtain ⟨hq, b, a, hp, hb⟩ := List.find?_eq_some_iff_append.1 hf
        have hq' : q.1 = m.arg := by simpa using hq
        constructor
        · intro h
          refine ⟨b, q.2, a, ?_, fun x hx => ?_, ?_⟩
          · rw [hp, ← hq']
          · have := hb x hx; simpa using this
          · simpa using h
        · rintro ⟨b', ty, a', hp', hb', ht⟩
          have hl : fn.params.find? (·.1 = m.arg) = some (m.arg, ty) := by
            apply List.find?_eq_some_iff_append.2
            exact ⟨by simp, b', a', hp', fun x hx => by simpa using hb' x hx⟩
          rw [hf] at hl
          cases hl
          simpa using ht
  · simp [hg]

theorem matchKfunc_iff (glob : Str → Str → Bool) (fn : BFunc) (ms : List KfuncFlag) (m : KfuncFlag) :
    matchKfunc glob fn ms = some m ↔ FirstMatch glob ms fn m := by
  unfold matchKfunc FirstMatch
  rw [List.find?_eq_some_iff_append]
  constructor
  · rintro ⟨h, b, a, he, hb⟩
    refine ⟨b, a, he, (kmatch_iff _ _ _).1 h, fun m' hm' hc => ?_⟩
    have h1 := hb m' hm'
    rw [(kmatch_iff _ _ _).2 hc] at h1
    cases h1
  · rintro ⟨b, a, he, h, hb⟩
    refine ⟨(kmatch_iff _ _ _).2 h, b, a, he, fun m' hm' => ?_⟩
    cases hc : kmatch glob m' fn with
    | false => rfl
    | true => exact absurd ((kmatch_iff _ _ _).1 hc) (hb m' hm')

theorem findIdx_spec (l : List (Str × Str)) (x : Str) (n : Nat) :
    (∃ i, l.findIdx? (·.1 = x) = some i ∧ i < n) ↔
      ∃ before q after, l = before ++ q :: after ∧ q.1 = x ∧ (∀ q' ∈ before, q'.1 ≠ x) ∧ before.length < n := by
  induction l generalizing n with
  | nil => simp
  | cons c l ih =>
    rw [List.findIdx?_cons]
    by_cases hc : c.1 = x
    · simp only [hc, decide_true, if_true, Option.some.injEq]
      constructor
      · rintro ⟨i, rfl, hn⟩
        exact ⟨[], c, l, rfl, hc, by simp, hn⟩
      · rintro ⟨b, q, a, he, hq, hb, hn⟩
        exact ⟨0, rfl, by omega⟩
    · simp only [hc, decide_false, Bool.false_eq_true, if_false]
      constructor
      · rintro ⟨i, hi, hn⟩
        obtain ⟨j, hj, rfl⟩ := Option.map_eq_some_iff.1 hi
        obtain ⟨b, q, a, rfl, hq, hb, hbn⟩ := (ih (n - 1)).1 ⟨j, hj, by omega⟩
        refine ⟨c :: b, q, a, rfl, hq, ?_, by simp; omega⟩
        intro q' hq'
        rcases List.mem_cons.1 hq' with rfl | hq'
        · exact hc
        · exact hb q' hq'
      · rintro ⟨b, q, a, he, hq, hb, hn⟩
        cases b with
        | nil =>
          simp only [List.nil_append, List.cons.injEq] at he
          exact absurd (he.1 ▸ hq) hc
        | cons d b =>
          simp only [List.cons_append, List.cons.injEq] at he
          simp only [List.length_cons] at hn
          obtain ⟨i, hi, hin⟩ := (ih (n - 1)).2 ⟨b, q, a, he.2, hq, fun y hy => hb y (by simp [hy]), by omega⟩
          exact ⟨i + 1, by rw [hi]; rfl, by omega⟩

theorem matchKernelFunc_iff (glob : Str → Str → Bool) (ksyms : Str → Option Ksym) (maxArgs : Nat) (ms : List KfuncFlag)
    (fn : BFunc) (kf : KFunc) :
    matchKernelFunc glob ksyms maxArgs ms fn = some kf ↔
      ∃ m k, FirstMatch glob ms fn m ∧ Eligible ksyms maxArgs m fn k ∧ kf = ⟨k.addr, fn, m.insn, m.imm⟩ := by
  unfold matchKernelFunc
  cases hm : matchKfunc glob fn ms with
  | none =>
    simp only [reduceCtorEq, false_iff]
    rintro ⟨m, k, h1, _⟩
    rw [(matchKfunc_iff _ _ _ _).2 h1] at hm
    cases hm
  | some m =>
    have hfm := (matchKfunc_iff _ _ _ _).1 hm
    have huniq : ∀ m', FirstMatch glob ms fn m' → m' = m := by
      intro m' h'
      have := (matchKfunc_iff _ _ _ _).2 h'
      rw [hm] at this
      exact (Option.some.inj this).symm
    simp only []
    have red : (∃ m' k, FirstMatch glob ms fn m' ∧ Eligible ksyms maxArgs m' fn k ∧ kf = ⟨k.addr, fn, m'.insn, m'.imm⟩) ↔
        ∃ k, Eligible ksyms maxArgs m fn k ∧ kf = ⟨k.addr, fn, m.insn, m.imm⟩ := by
      constructor
      · rintro ⟨m', k, h1, h2, h3⟩
        obtain rfl := huniq m' h1
        exact ⟨k, h2, h3⟩
      · rintro ⟨k, h2, h3⟩
        exact ⟨m, k, hfm, h2, h3⟩
    rw [red]
    unfold checkTraceable Eligible
    cases hv : fn.variadic with
    | true => simp
    | false =>
      cases hr : fn.structRet with
      | true => simp
      | false =>
        simp only [Bool.or_self, Bool.false_eq_true, if_false]
        cases hk : ksyms fn.name with
        | none => simp
        | some k =>
          simp only [Option.some.injEq, true_and]
          by_cases hd : k.duped = true ∧ m.imm.multi = false
          · simp only [hd.1, hd.2, Bool.not_false, Bool.and_self, if_true, reduceCtorEq, false_iff]
            rintro ⟨k', ⟨rfl, h, _⟩, _⟩
            rw [hd.1] at h
            simp at h
          · have hd' : (k.duped && !m.imm.multi) = false := by
              cases h1 : k.duped <;> cases h2 : m.imm.multi <;> simp_all
            have hd'' : k.duped = false ∨ m.imm.multi = true := by
              cases h1 : k.duped <;> cases h2 : m.imm.multi <;> simp_all
            simp only [hd', Bool.false_eq_true, if_false]
            cases hp : fn.paramsOk with
            | false => simp
            | true =>
              simp only [Bool.not_true, Bool.false_eq_true, if_false, true_and]
              by_cases hl : fn.params.length ≤ maxArgs
              · simp only [hl, if_true, Option.some.injEq, true_or, and_true]
                constructor
                · intro h; exact ⟨k, ⟨rfl, hd''⟩, h.symm⟩
                · rintro ⟨k', ⟨rfl, _⟩, h⟩; exact h.symm
              · simp only [hl, if_false, false_or]
                cases hmu : m.imm.multi with
                | false =>
                  simp
                | true =>
                  simp only [if_true, true_and, or_true]
                  have hidx := findIdx_spec fn.params m.imm.argName maxArgs
                  cases hi : fn.params.findIdx? (·.1 = m.imm.argName) with
                  | none =>
                    simp only [reduceCtorEq, false_iff]
                    rintro ⟨k', ⟨_, h⟩, _⟩
                    obtain ⟨i, h1, _⟩ := hidx.2 h
                    rw [hi] at h1; cases h1
                  | some i =>
                    simp only []
                    by_cases hlt : i < maxArgs
                    · simp only [hlt, if_true, Option.some.injEq]
                      constructor
                      · intro h; exact ⟨k, ⟨rfl, hidx.1 ⟨i, hi, hlt⟩⟩, h.symm⟩
                      · rintro ⟨k', ⟨rfl, _⟩, h⟩; exact h.symm
                    · simp only [hlt, if_false, reduceCtorEq, false_iff]
                      rintro ⟨k', ⟨_, h⟩, _⟩
                      obtain ⟨j, h1, h2⟩ := hidx.2 h
                      rw [hi] at h1
                      cases h1
                      exact hlt h2

theorem foldl_find (step : BFunc → Option KFunc) (a : BitVec 64) : ∀ (fns : List BFunc) (acc : BitVec 64 → Option KFunc),
    (fns.foldl (fun acc fn => match step fn with
      | none => acc
      | some kf => fun a => if a = kf.addr then some kf else acc a) acc) a =
    ((fns.reverse.filterMap step).find? (·.addr = a)).orElse (fun _ => acc a) := by
  intro fns
  induction fns with
  | nil => intro acc; rfl
  | cons fn fns ih =>
    intro acc
    rw [List.foldl_cons, ih]
    simp only [List.reverse_cons, List.filterMap_append, List.find?_append]
    cases hf : (fns.reverse.filterMap step).find? (·.addr = a) with
    | some x => simp
    | none =>
      simp only [Option.none_or, Option.orElse_none]
      cases hs : step fn with
      | none => simp [hs]
      | some kf =>
        simp only [List.filterMap_cons, hs, List.filterMap_nil]
        by_cases ha : a = kf.addr
        · simp [ha]
        · have ha' : ¬ kf.addr = a := fun h => ha h.symm
          simp [ha, ha', List.find?_cons]

theorem denied_iff (g : Glob) (m : KfuncFlag) (fn : BFunc) (addr : BitVec 64) :
    (((g.exit || (KFunc.mk addr fn m.insn m.imm).flag.both || (KFunc.mk addr fn m.insn m.imm).insn ||
      (KFunc.mk addr fn m.insn m.imm).flag.graph) && noreturnFuncs.contains fn.name) ||
      tracingDenyFuncs.contains fn.name) = true ↔ Denied g m fn := by
  simp only [Denied, Bool.or_eq_true, Bool.and_eq_true]
  constructor
  · rintro (⟨h, h'⟩ | h)
    · refine Or.inr ⟨h', ?_⟩
      rcases h with ((h | h) | h) | h
      · exact Or.inl h
      · exact Or.inr (Or.inl h)
      · exact Or.inr (Or.inr (Or.inl h))
      · exact Or.inr (Or.inr (Or.inr h))
    · exact Or.inl h
  · rintro (h | ⟨h', h⟩)
    · exact Or.inr h
    · refine Or.inl ⟨?_, h'⟩
      rcases h with h | h | h | h
      · exact Or.inl (Or.inl (Or.inl h))
      · exact Or.inl (Or.inl (Or.inr h))
      · exact Or.inl (Or.inr h)
      · exact Or.inr h

theorem findKernelFuncs_eq (glob : Str → Str → Bool) (ksyms : Str → Option Ksym) (maxArgs : Nat) (ms : List KfuncFlag)
    (fns : List BFunc) (a : BitVec 64) : findKernelFuncs glob ksyms maxArgs ms fns a =
      (fns.reverse.filterMap (matchKernelFunc glob ksyms maxArgs ms)).find? (·.addr = a) := by
  have h := foldl_find (matchKernelFunc glob ksyms maxArgs ms) a fns (fun _ => none)
  have e : ∀ o : Option KFunc, o.orElse (fun _ => none) = o := by intro o; cases o <;> rfl
  rw [e] at h
  exact h

/-- **C38.** Every function traced is a function of the kernel's type information matched by a pattern; its options
are those of the first pattern that matches it; it can be probed and is not denied. -/
theorem traced_sound (g : Glob) (glob : Str → Str → Bool) (ksyms : Str → Option Ksym) (maxArgs : Nat) (ms : List KfuncFlag)
    (fns : List BFunc) (a : BitVec 64) (kf : KFunc) (h : searchKernelFuncs g glob ksyms maxArgs ms fns a = some kf) :
    kf.fn ∈ fns ∧ kf.addr = a ∧ ∃ m k, FirstMatch glob ms kf.fn m ∧ Eligible ksyms maxArgs m kf.fn k ∧ k.addr = a ∧
      kf.insn = m.insn ∧ kf.flag = m.imm ∧ ¬ Denied g m kf.fn := by
  unfold searchKernelFuncs at h
  rw [findKernelFuncs_eq] at h
  cases hf : (fns.reverse.filterMap (matchKernelFunc glob ksyms maxArgs ms)).find? (·.addr = a) with
  | none => rw [hf] at h; simp at h
  | some x =>
    rw [hf] at h
    simp only [] at h
    split at h
    · cases h
    · next hden =>
      cases h
      obtain ⟨fn, hfn, hx⟩ := List.mem_filterMap.1 (List.mem_of_find?_eq_some hf)
      have ha : kf.addr = a := by simpa using List.find?_some hf
      obtain ⟨m, k, h1, h2, rfl⟩ := (matchKernelFunc_iff _ _ _ _ _ _).1 hx
      exact ⟨List.mem_reverse.1 hfn, ha, m, k, h1, h2, ha, rfl, rfl, fun hd => hden ((denied_iff g m fn k.addr).2 hd)⟩

/-- **C38.** A function that can be probed as its first matching pattern asks and is not denied is traced, with that
pattern's options, if no other selected function has the same address. -/
theorem traced_complete (g : Glob) (glob : Str → Str → Bool) (ksyms : Str → Option Ksym) (maxArgs : Nat) (ms : List KfuncFlag)
    (fns : List BFunc) (fn : BFunc) (hfn : fn ∈ fns) (m : KfuncFlag) (k : Ksym) (hm : FirstMatch glob ms fn m)
    (he : Eligible ksyms maxArgs m fn k) (hd : ¬ Denied g m fn)
    (hsole : ∀ fn' ∈ fns, ∀ k', ksyms fn'.name = some k' → k'.addr = k.addr → fn' = fn) :
    searchKernelFuncs g glob ksyms maxArgs ms fns k.addr = some ⟨k.addr, fn, m.insn, m.imm⟩ := by
  have hx := (matchKernelFunc_iff glob ksyms maxArgs ms fn ⟨k.addr, fn, m.insn, m.imm⟩).2 ⟨m, k, hm, he, rfl⟩
  unfold searchKernelFuncs
  rw [findKernelFuncs_eq]
  have hmem : (⟨k.addr, fn, m.insn, m.imm⟩ : KFunc) ∈ fns.reverse.filterMap (matchKernelFunc glob ksyms maxArgs ms) :=
    List.mem_filterMap.2 ⟨fn, List.mem_reverse.2 hfn, hx⟩
  cases hf : (fns.reverse.filterMap (matchKernelFunc glob ksyms maxArgs ms)).find? (·.addr = k.addr) with
  | none =>
    have := List.find?_eq_none.1 hf _ hmem
    simp at this
  | some x =>
    obtain ⟨fn', hfn', hx'⟩ := List.mem_filterMap.1 (List.mem_of_find?_eq_some hf)
    have ha : x.addr = k.addr := by simpa using List.find?_some hf
    obtain ⟨m', k', h1, h2, rfl⟩ := (matchKernelFunc_iff _ _ _ _ _ _).1 hx'
    obtain rfl := hsole fn' (List.mem_reverse.1 hfn') k' h2.2.2.1 ha
    rw [hx] at hx'
    rw [← Option.some.inj hx']
    simp only []
    rw [if_neg (fun h => hd ((denied_iff g m fn' k.addr).1 h))]

/-- Witness: two patterns, the first one wins. -/
theorem traced_witness :
    let fn : BFunc := ⟨"tcp_v4_rcv".toList, [("skb".toList, "struct sk_buff *".toList)], false, false, true⟩
    let ms : List KfuncFlag := [{ name := "tcp_x".toList }, { name := "tcp_v4_rcv".toList, imm := { stack := true } },
      { name := "tcp_v4_rcv".toList, arg := "skb".toList }]
    searchKernelFuncs ⟨false, false, false, false, false, ["exit"]⟩ (fun p n => p == n) (fun _ => some ⟨4096, false⟩) 12 ms [fn] 4096 =
      some ⟨4096, fn, false, { stack := true }⟩ := by
  decide +kernel

/-- **C38, violated.** The first pattern also decides about functions it cannot trace: a function with 13 parameters
matched first by a plain pattern is not traced although a later `(m)` pattern could trace it. -/
theorem first_match_blocks_violated :
    let fn : BFunc := ⟨"f".toList, ("skb".toList, "t".toList) :: List.replicate 12 ("x".toList, "t".toList), false, false, true⟩
    let plain : KfuncFlag := { name := "f".toList }
    let multi : KfuncFlag := { name := "f".toList, arg := "skb".toList, typ := "t".toList, imm := { multi := true, argName := "skb".toList } }
    let search := fun ms => searchKernelFuncs ⟨false, false, false, false, false, ["exit"]⟩ (fun p n => p == n)
      (fun _ => some ⟨4096, false⟩) 12 ms [fn] 4096
    search [multi] = some ⟨4096, fn, false, multi.imm⟩ ∧ search [plain, multi] = none := by
  decide +kernel

end Bpfsnoop.Flg
