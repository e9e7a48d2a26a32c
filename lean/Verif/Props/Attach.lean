import Verif.Model.Attach
import Verif.Props.ArgMach
import Verif.Props.KfuncSel
import Verif.Props.Run

/-!
C35 (configuration shared with the BPF programs), C37 (probes and modes), C49 (layout of function events).
-/
namespace Bpfsnoop.Att

/-! ## C35. Configuration -/

/-- Specification: the option behind each flag of the BPF side. -/
def option (c : Cfg) : CFlag → Bool
  | .output_lbr => c.outputLbr
  | .output_stack => c.outputStack
  | .output_pkt => c.outputPkt
  | .output_arg => decide (c.argDataSz ≠ 0)
  | .both_entry_exit => c.bothEntryExit
  | .is_entry => !c.withRet
  | .is_session => c.session
  | .insn_mode => c.insnMode
  | .graph_mode => c.graphMode
  | .is_tp => c.isTp
  | .is_prog => c.isProg
  | .kmulti_mode => c.kmultiMode

theorem getLsbD_one_shl (k i : Nat) (hk : k < 32) : (1#32 <<< k).getLsbD i = decide (i = k) := by
  simp only [BitVec.getLsbD_shiftLeft, BitVec.getLsbD_one]
  by_cases h : i = k
  · subst h; simp [hk]
  · simp only [h, decide_false]
    by_cases h' : i < k
    · simp [h']
    · simp only [h', decide_false]
      have : i - k ≠ 0 := by omega
      simp [this]

theorem setFlag_bit (v : Bool) (k i : Nat) (f : BitVec 32) (hk : k < 32) :
    (setFlag v k f).getLsbD i = ((v && decide (i = k)) || f.getLsbD i) := by
  unfold setFlag
  cases v with
  | true => simp only [if_true, BitVec.getLsbD_or, getLsbD_one_shl k i hk, Bool.true_and]; exact Bool.or_comm _ _
  | false => simp

theorem flags_bit (pid : BitVec 32) (c : Cfg) (i : Nat) :
    (goConfig pid c).flags.getLsbD i =
      ((c.kmultiMode && decide (i = 11)) || ((c.isProg && decide (i = 10)) || ((c.isTp && decide (i = 9)) ||
      ((c.graphMode && decide (i = 8)) || ((c.insnMode && decide (i = 7)) || ((c.session && decide (i = 6)) ||
      ((!c.withRet && decide (i = 5)) || ((c.bothEntryExit && decide (i = 4)) ||
      (((c.argDataSz != 0) && decide (i = 3)) || ((c.outputPkt && decide (i = 2)) ||
      ((c.outputStack && decide (i = 1)) || (c.outputLbr && decide (i = 0))))))))))))) := by
  simp only [goConfig, idxKmultiMode, idxIsProg, idxIsTp, idxGraphMode, idxInsnMode, idxIsSession, idxIsEntry,
    idxBothEntryExit, idxOutputArg, idxOutputPkt, idxOutputStack, idxOutputLbr]
  repeat rw [setFlag_bit _ _ _ _ (by decide)]
  simp

/-- Every bit of the word is one option: its own, or none. -/
theorem flags_option (pid : BitVec 32) (c : Cfg) (f : CFlag) : (goConfig pid c).flags.getLsbD f.pos = option c f := by
  rw [flags_bit]
  cases f <;> simp [CFlag.pos, option, bne]
  by_cases h : c.argDataSz = 0 <;> simp [h]

theorem flags_pad (pid : BitVec 32) (c : Cfg) (i : Nat) (h : 12 ≤ i) : (goConfig pid c).flags.getLsbD i = false := by
  rw [flags_bit]
  have : ∀ k, k < 12 → decide (i = k) = false := fun k hk => by simp; omega
  rw [this 11 (by decide), this 10 (by decide), this 9 (by decide), this 8 (by decide), this 7 (by decide),
    this 6 (by decide), this 5 (by decide), this 4 (by decide), this 3 (by decide), this 2 (by decide),
    this 1 (by decide), this 0 (by decide)]
  simp

theorem pos_inj {f g : CFlag} (h : f.pos = g.pos) : f = g := by
  cases f <;> cases g <;> first | rfl | (simp [CFlag.pos] at h)

theorem pos_surj (i : Nat) (h : i < 12) : ∃ f : CFlag, f.pos = i := by
  match i, h with
  | 0, _ => exact ⟨.output_lbr, rfl⟩
  | 1, _ => exact ⟨.output_stack, rfl⟩
  | 2, _ => exact ⟨.output_pkt, rfl⟩
  | 3, _ => exact ⟨.output_arg, rfl⟩
  | 4, _ => exact ⟨.both_entry_exit, rfl⟩
  | 5, _ => exact ⟨.is_entry, rfl⟩
  | 6, _ => exact ⟨.is_session, rfl⟩
  | 7, _ => exact ⟨.insn_mode, rfl⟩
  | 8, _ => exact ⟨.graph_mode, rfl⟩
  | 9, _ => exact ⟨.is_tp, rfl⟩
  | 10, _ => exact ⟨.is_prog, rfl⟩
  | 11, _ => exact ⟨.kmulti_mode, rfl⟩

/-- **C35, own bit.** Two configurations that differ in one option only differ in one bit of the word, the bit of
that option. -/
theorem own_bit (pid pid' : BitVec 32) (c c' : Cfg) (f : CFlag) (hf : option c f ≠ option c' f)
    (hg : ∀ g, g ≠ f → option c g = option c' g) :
    (goConfig pid c).flags ^^^ (goConfig pid' c').flags = 1#32 <<< f.pos := by
  apply BitVec.eq_of_getLsbD_eq
  intro i hi
  have hp : f.pos < 32 := by cases f <;> decide
  rw [BitVec.getLsbD_xor, getLsbD_one_shl _ _ hp]
  by_cases h12 : i < 12
  · obtain ⟨g, rfl⟩ := pos_surj i h12
    rw [flags_option, flags_option]
    by_cases e : g = f
    · subst e
      cases h1 : option c g <;> cases h2 : option c' g <;> simp_all
    · rw [hg g e]
      have : ¬ g.pos = f.pos := fun h => e (pos_inj h)
      simp [this]
  · rw [flags_pad _ _ _ (by omega), flags_pad _ _ _ (by omega)]
    have : f.pos < 12 := by cases f <;> decide
    have : ¬ i = f.pos := by omega
    simp [this]

/-! ### Bytes -/

theorem le32_eq (v : BitVec 32) : le32 v = [v.setWidth 8, (v >>> 8).setWidth 8, (v >>> 16).setWidth 8, (v >>> 24).setWidth 8] := by
  unfold le32
  simp only [Arg.le]
  congr 1

theorem leVal_le32 (v : BitVec 32) : BitVec.ofNat 32 (Arg.leVal (le32 v)) = v := by
  unfold le32
  rw [Arg.leVal_le]
  apply BitVec.eq_of_toNat_eq
  have := v.isLt
  simp
  omega

theorem le32_length (v : BitVec 32) : (le32 v).length = 4 := by simp [le32, Arg.le_length]

theorem u32At_mid (a b : List Byte) (v : BitVec 32) (n : Nat) (h : a.length = n) : u32At (a ++ (le32 v ++ b)) n = v := by
  subst h
  unfold u32At
  rw [List.drop_left, List.take_append_of_le_length (by rw [le32_length]; exact Nat.le_refl _),
    List.take_of_length_le (by rw [le32_length]; exact Nat.le_refl _)]
  exact leVal_le32 v

theorem bytes_length (g : GoConfig) : g.bytes.length = 36 := by
  simp [GoConfig.bytes, le32_length]

/-- The word of the configuration as the BPF side reads it. -/
theorem cConfig_word (pid : BitVec 32) (c : Cfg) : (cConfig pid c).word = (goConfig pid c).flags := by
  show u32At (goConfig pid c).bytes 0 = _
  unfold GoConfig.bytes
  simp only [List.append_assoc]
  exact u32At_mid [] _ _ 0 rfl

theorem cConfig_flag (pid : BitVec 32) (c : Cfg) (f : CFlag) : (cConfig pid c).flag f = option c f := by
  rw [← flags_option pid, ← cConfig_word]; rfl

theorem u32_ofNat {n : Nat} (h : n < 2 ^ 32) : (BitVec.ofNat 32 n).toNat = n := by
  rw [BitVec.toNat_ofNat, Nat.mod_eq_of_lt h]

/-- **C35, both sides agree.** Whatever the options, the BPF program reads every option, and every number that fits in
32 bits, as user space set it, each from its own place in the shared structure. -/
theorem config_read_back (pid : BitVec 32) (c : Cfg) :
    (∀ f, (cConfig pid c).flag f = option c f) ∧
    (cConfig pid c).pid = pid ∧
    (cConfig pid c).with_retval = c.withRet ∧
    (c.fnArgsNr < 2 ^ 32 → (cConfig pid c).args_nr.toNat = c.fnArgsNr) ∧
    (c.fnArgsBufSz < 2 ^ 32 → (cConfig pid c).buf_size.toNat = c.fnArgsBufSz) ∧
    (c.argDataSz < 2 ^ 32 → (cConfig pid c).data_size.toNat = c.argDataSz) ∧
    (c.argEntrySz < 2 ^ 32 → (cConfig pid c).arg_entry_size.toNat = c.argEntrySz) ∧
    (c.argExitSz < 2 ^ 32 → (cConfig pid c).arg_exit_size.toNat = c.argExitSz) ∧
    (c.argDataSz < 2 ^ 32 → (cConfig pid c).arg_data_size.toNat = c.argDataSz) := by
  refine ⟨cConfig_flag pid c, ?_, ?_, ?_, ?_, ?_, ?_, ?_, ?_⟩
  · show u32At (goConfig pid c).bytes 4 = _
    unfold GoConfig.bytes
    rw [show ∀ a b c d e f g h i j : List Byte, a ++ b ++ c ++ d ++ e ++ f ++ g ++ h ++ i ++ j =
      a ++ (b ++ (c ++ d ++ e ++ f ++ g ++ h ++ i ++ j)) from by simp]
    exact u32At_mid _ _ _ 4 (by simp [le32_length])
  · show ((goConfig pid c).bytes[12]?.getD 0 != 0) = _
    have : ∀ g : GoConfig, (g.bytes[12]?.getD 0 != 0) = g.withRet := by
      intro g
      unfold GoConfig.bytes
      simp only [le32_eq]
      cases g.withRet <;> simp
    exact this _
  · intro h
    rw [← u32_ofNat h]
    congr 1
    show u32At (goConfig pid c).bytes 8 = _
    unfold GoConfig.bytes
    rw [show ∀ a b c d e f g h i j : List Byte, a ++ b ++ c ++ d ++ e ++ f ++ g ++ h ++ i ++ j =
      (a ++ b) ++ (c ++ (d ++ e ++ f ++ g ++ h ++ i ++ j)) from by simp]
    exact u32At_mid _ _ _ 8 (by simp [le32_length])
  · intro h
    rw [← u32_ofNat h]
    congr 1
    show u32At (goConfig pid c).bytes 16 = _
    unfold GoConfig.bytes
    rw [show ∀ a b c d e f g h i j : List Byte, a ++ b ++ c ++ d ++ e ++ f ++ g ++ h ++ i ++ j =
      (a ++ b ++ c ++ d ++ e) ++ (f ++ (g ++ h ++ i ++ j)) from by simp]
    exact u32At_mid _ _ _ 16 (by simp [le32_length])
  · intro h
    rw [← u32_ofNat h]
    congr 1
    show u32At (goConfig pid c).bytes 20 = _
    unfold GoConfig.bytes
    rw [show ∀ a b c d e f g h i j : List Byte, a ++ b ++ c ++ d ++ e ++ f ++ g ++ h ++ i ++ j =
      (a ++ b ++ c ++ d ++ e ++ f) ++ (g ++ (h ++ i ++ j)) from by simp]
    exact u32At_mid _ _ _ 20 (by simp [le32_length])
  · intro h
    rw [← u32_ofNat h]
    congr 1
    show u32At (goConfig pid c).bytes 24 = _
    unfold GoConfig.bytes
    rw [show ∀ a b c d e f g h i j : List Byte, a ++ b ++ c ++ d ++ e ++ f ++ g ++ h ++ i ++ j =
      (a ++ b ++ c ++ d ++ e ++ f ++ g) ++ (h ++ (i ++ j)) from by simp]
    exact u32At_mid _ _ _ 24 (by simp [le32_length])
  · intro h
    rw [← u32_ofNat h]
    congr 1
    show u32At (goConfig pid c).bytes 28 = _
    unfold GoConfig.bytes
    rw [show ∀ a b c d e f g h i j : List Byte, a ++ b ++ c ++ d ++ e ++ f ++ g ++ h ++ i ++ j =
      (a ++ b ++ c ++ d ++ e ++ f ++ g ++ h) ++ (i ++ j) from by simp]
    exact u32At_mid _ _ _ 28 (by simp [le32_length])
  · intro h
    rw [← u32_ofNat h]
    congr 1
    show u32At (goConfig pid c).bytes 32 = _
    unfold GoConfig.bytes
    rw [show ∀ a b c d e f g h i j : List Byte, a ++ b ++ c ++ d ++ e ++ f ++ g ++ h ++ i ++ j =
      (a ++ b ++ c ++ d ++ e ++ f ++ g ++ h ++ i) ++ (j ++ []) from by simp]
    exact u32At_mid _ _ _ 32 (by simp [le32_length])

theorem haveFlag_bit (w : BitVec 32) (k : Nat) (hk : k < 32) : haveFlag w (mask k) = w.getLsbD k := by
  unfold haveFlag mask
  cases hb : w.getLsbD k with
  | true =>
    simp only [bne_iff_ne, ne_eq]
    intro h
    have := congrArg (fun x => BitVec.getLsbD x k) h
    simp only [BitVec.getLsbD_and, getLsbD_one_shl k k hk, hb] at this
    simp at this
  | false =>
    have : w &&& 1#32 <<< k = 0 := by
      apply BitVec.eq_of_getLsbD_eq
      intro i hi
      rw [BitVec.getLsbD_and, getLsbD_one_shl k i hk]
      by_cases h : i = k
      · subst h; simp [hb]
      · simp [h]
    rw [this]; rfl

theorem andFlag_bit (w : BitVec 32) (f : CFlag) (v : Bool) (i : Nat) (hi : i < 32) :
    (andFlag w f v).getLsbD i = (w.getLsbD i && (v || decide (i ≠ f.pos))) := by
  have hp : f.pos < 32 := by cases f <;> decide
  unfold andFlag
  cases v with
  | true => simp
  | false =>
    simp only [Bool.false_eq_true, if_false, BitVec.getLsbD_and, BitVec.getLsbD_not, getLsbD_one_shl f.pos i hp, hi, decide_true,
      Bool.true_and, Bool.false_or]
    by_cases h : i = f.pos <;> simp [h]

/-- **C35, events.** User space reads every flag of an event as the option of the program that produced it; the flags
for LBR, packets and arguments also say whether this event carries them. -/
theorem event_flags (pid : BitVec 32) (c : Cfg) (lbr pkt arg : Bool) (f : CFlag) :
    haveFlag (evtFlags (cConfig pid c) lbr pkt arg) (mask f.pos) =
      (option c f && match f with
        | .output_lbr => lbr
        | .output_pkt => pkt
        | .output_arg => arg
        | _ => true) := by
  have hp : f.pos < 32 := by cases f <;> decide
  rw [haveFlag_bit _ _ hp]
  unfold evtFlags
  rw [andFlag_bit _ _ _ _ hp, andFlag_bit _ _ _ _ hp, andFlag_bit _ _ _ _ hp, cConfig_word, flags_option]
  cases f <;> simp [CFlag.pos]

/-- Example: a session program with LBR and 24 bytes of `--output-arg`, whose event carries neither LBR nor packet. -/
example :
    let c : Cfg := ⟨3, 32, 32, 32, 24, true, false, true, false, true, true, false, true, false, true, true⟩
    (goConfig 7 c).flags = 0b10101011101#32 ∧
      haveFlag (evtFlags (cConfig 7 c) false true true) (mask idxOutputLbr) = false ∧
      haveFlag (evtFlags (cConfig 7 c) false true true) (mask idxOutputPkt) = true := by
  decide +kernel

/-! ## C37. Which probes fire -/

open Flg (Str Glob)

/-- Specification: does the user ask for the moment `m` ("entry" or "exit") of calls of a target with prefixes
`toks`? Yes if the mode says so, or the target is traced with `(b)`, or is the root of a graph, or its instructions
are traced. -/
def Asks (g : Glob) (toks : List Str) (m : String) : Bool :=
  g.modes.contains m || toks.contains "(b)".toList || toks.contains "(g)".toList || g.graph ||
    toks.contains "(i)".toList || g.insns

/-- All events of the attached programs at one moment of a call. -/
def events (pid : BitVec 32) (as : List Att) (p : Phase) : List EvType := as.filterMap (·.event pid p)

theorem event_eq (pid : BitVec 32) (a : Att) (p : Phase) : a.event pid p =
    (a.hook.fires p).map fun r => evType (KSess.getMode (!a.cfg.withRet) a.cfg.bothEntryExit a.cfg.session r) := by
  unfold Att.event mode
  rw [cConfig_flag, cConfig_flag, cConfig_flag]
  rfl

theorem events_traceFunc (pid : BitVec 32) (fn : Fn) (both isExit fsession stack : Bool) (p : Phase) :
    (traceFunc fn both isExit fsession stack).event pid p =
      ((if fn.isTp then Hook.rawTp else if both && fsession then .fsession else if isExit then .fexit else .fentry).fires p).map
        fun r => evType (KSess.getMode (!(!fn.isTp && isExit)) both fsession r) := by
  rw [event_eq]; rfl

/-- The modes accepted are not empty. -/
theorem modes_some {ms : List String} (h : Flg.checkMode ms = true) : ms.contains "entry" = true ∨ ms.contains "exit" = true := by
  match ms, h with
  | [a], h =>
    simp only [Flg.checkMode, List.contains_cons, List.contains_nil, Bool.or_false, Bool.or_eq_true, beq_iff_eq] at h
    rcases h with rfl | rfl
    · left; rfl
    · right; rfl
  | [a, b], h =>
    simp only [Flg.checkMode, List.contains_cons, List.contains_nil, Bool.or_false, Bool.or_eq_true, beq_iff_eq,
      Bool.and_eq_true] at h
    rcases h.1 with rfl | rfl
    · left; rfl
    · right; rfl

/-- **C37, kernel functions.** For every accepted `-m` and `-k`, a call of a function traced without `(m)` hits
exactly one program at its entry if the user asks for entries and none otherwise, and the same for exits; and the
event is of the right kind. This holds with and without kernel support for `fsession`. -/
theorem func_events (pid : BitVec 32) (hasFsession : Bool) (g : Glob) (hm : Flg.checkMode g.modes = true) (k : Str)
    (r : Flg.KfuncFlag) (hk : Flg.parseKfuncFlag g k = .ok r) (toks : List Str) (body : Str)
    (ht : Flg.Prefixed Flg.kfuncTok k toks body) (fn : Fn) (htp : fn.isTp = false) (hi : fn.insn = r.insn)
    (hf : fn.flag = r.imm) :
    events pid (traceFuncs hasFsession g.exit fn) .call = (if Asks g toks "entry" then [.entry] else []) ∧
    events pid (traceFuncs hasFsession g.exit fn) .ret = (if Asks g toks "exit" then [.exit] else []) := by
  obtain ⟨toks', body', hp, _, hin, _, _, hgr, _, _, hb, _⟩ := (Flg.parseKfuncFlag_iff g k r).1 hk
  obtain ⟨rfl, rfl⟩ := Flg.prefixed_unique Flg.kfuncTok_shape ht hp
  rw [← hi] at hin
  rw [← hf] at hgr hb
  have hex : g.exit = g.modes.contains "exit" := rfl
  rw [hex]
  unfold traceFuncs Asks events
  rw [hgr, hb, hin]
  have hms := modes_some hm
  generalize g.modes.contains "entry" = me at hms ⊢
  generalize g.modes.contains "exit" = mx at hms ⊢
  generalize toks.contains "(b)".toList = tb
  generalize toks.contains "(g)".toList = tg
  generalize toks.contains "(i)".toList = ti
  generalize g.graph = gg
  generalize g.insns = gi
  cases hasFsession <;> cases me <;> cases mx <;> cases tb <;> cases tg <;> cases ti <;> cases gg <;> cases gi <;>
    simp [events_traceFunc, htp, Hook.fires, KSess.getMode, evType] at hms ⊢

/-- **C37, tracepoints.** A tracepoint hit produces one event, of the kind of an entry, whatever the options. -/
theorem tp_events (pid : BitVec 32) (hasFsession modeExit : Bool) (fn : Fn) (htp : fn.isTp = true) :
    events pid (traceFuncs hasFsession modeExit fn) .call = [.entry] ∧
    events pid (traceFuncs hasFsession modeExit fn) .ret = [] := by
  unfold traceFuncs events
  simp [htp, events_traceFunc, Hook.fires, KSess.getMode, evType]

theorem events_traceProg (pid : BitVec 32) (fn : Fn) (both fexit fsession stack : Bool) (p : Phase) :
    (traceProg fn both fexit fsession stack).event pid p =
      ((if both && fsession then Hook.fsession else if !fexit then .fentry else .fexit).fires p).map
        fun r => evType (KSess.getMode (!fexit) both fsession r) := by
  rw [event_eq]; rfl

/-- **C37, bpf programs.** The same for the targets of `-p`; they have no `(i)`. -/
theorem prog_events (pid : BitVec 32) (hasFsession : Bool) (g : Glob) (hm : Flg.checkMode g.modes = true)
    (fileExists : Str → Bool) (hfe : fileExists [] = false) (k : Str) (r : Flg.ProgFlag)
    (hk : Flg.parseProgFlag g fileExists k = .ok r) (toks : List Str) (body : Str)
    (ht : Flg.Prefixed Flg.progTok k toks body) (fn : Fn) (hf : fn.flag = r.imm) :
    events pid (traceProgs hasFsession g.exit fn) .call =
      (if g.modes.contains "entry" || toks.contains "(b)".toList || toks.contains "(g)".toList || g.graph
       then [.entry] else []) ∧
    events pid (traceProgs hasFsession g.exit fn) .ret =
      (if g.modes.contains "exit" || toks.contains "(b)".toList || toks.contains "(g)".toList || g.graph
       then [.exit] else []) := by
  obtain ⟨toks', body', fn', hp, _, himm⟩ := (Flg.parseProgFlag_iff g fileExists hfe k r).1 hk
  obtain ⟨rfl, rfl⟩ := Flg.prefixed_unique Flg.progTok_shape ht hp
  rw [← hf] at himm
  have hgr := congrArg Flg.Imm.graph himm
  have hb := congrArg Flg.Imm.both himm
  simp only at hgr hb
  have hex : g.exit = g.modes.contains "exit" := rfl
  rw [hex]
  unfold traceProgs events
  rw [hgr, hb]
  have hms := modes_some hm
  generalize g.modes.contains "entry" = me at hms ⊢
  generalize g.modes.contains "exit" = mx at hms ⊢
  generalize toks.contains "(b)".toList = tb
  generalize toks.contains "(g)".toList = tg
  generalize g.graph = gg
  cases hasFsession <;> cases me <;> cases mx <;> cases tb <;> cases tg <;> cases gg <;>
    simp [events_traceProg, Hook.fires, KSess.getMode, evType] at hms ⊢

theorem events_kmulti (pid : BitVec 32) (n : Nat) (fn : Fn) (pkt : Bool) (data : Nat) (isExit sessionMode : Bool) (p : Phase) :
    (traceKfuncMultiMode n fn pkt data isExit sessionMode).event pid p =
      ((if isExit && !sessionMode then Hook.kretprobe else if sessionMode then .ksession else .kprobe).fires p).map
        fun r => evType (KSess.getMode (!(sessionMode || isExit)) fn.flag.both sessionMode r) := by
  rw [event_eq]; rfl

/-- **C37, `(m)` targets** (partial). The same for a function traced with `(m)`, if the kernel can attach to it and
all functions selected through a parameter with the same index agree on `(b)`. Missing: groups whose
functions do not agree, see `kmulti_group_violated`; graphs, see `kmulti_graph_violated`. -/
theorem kmulti_events_partial (pid : BitVec 32) (hasSession : Bool) (maxArgs : Nat) (avail : Str → Bool) (g : Glob)
    (hm : Flg.checkMode g.modes = true) (k : Str)
    (r : Flg.KfuncFlag) (hk : Flg.parseKfuncFlag g k = .ok r) (toks : List Str) (body : Str)
    (ht : Flg.Prefixed Flg.kfuncTok k toks body) (fns : List MFn) (f : MFn) (hmem : f ∈ fns) (hf : f.fn.flag = r.imm)
    (hsame : ∀ f' ∈ fns, f'.arg = f.arg → f'.fn.flag.both = f.fn.flag.both)
    (hav : avail f.sym = true) (hskip : skipSym f.sym = false) :
    events pid (traceFuncsMulti hasSession g.exit maxArgs avail fns f) .call =
      (if g.modes.contains "entry" || toks.contains "(b)".toList then [.entry] else []) ∧
    events pid (traceFuncsMulti hasSession g.exit maxArgs avail fns f) .ret =
      (if g.modes.contains "exit" || toks.contains "(b)".toList then [.exit] else []) := by
  obtain ⟨toks', body', hp, _, hin, _, _, hgr, _, _, hb, _⟩ := (Flg.parseKfuncFlag_iff g k r).1 hk
  obtain ⟨rfl, rfl⟩ := Flg.prefixed_unique Flg.kfuncTok_shape ht hp
  rw [← hf] at hb
  unfold traceFuncsMulti
  cases hfind : fns.find? (·.arg = f.arg) with
  | none =>
    have := List.find?_eq_none.1 hfind f hmem
    simp at this
  | some f' =>
    have hb' : f'.fn.flag.both = f.fn.flag.both := by
      refine hsame f' (List.mem_of_find?_eq_some hfind) ?_
      simpa using List.find?_some hfind
    simp only [hav, hskip, Bool.not_false, Bool.and_self, if_true]
    have hex : g.exit = g.modes.contains "exit" := rfl
    rw [hex]
    unfold traceKfuncMulti events
    rw [hb', hb]
    rw [hb] at hb'
    have hms := modes_some hm
    generalize g.modes.contains "entry" = me at hms hb' ⊢
    generalize g.modes.contains "exit" = mx at hms hb' ⊢
    generalize toks.contains "(b)".toList = tb at hb' ⊢
    cases hasSession <;> cases me <;> cases mx <;> cases tb <;>
      simp [events_kmulti, Hook.fires, KSess.getMode, evType, hb'] at hms hb' ⊢ <;> simp [hb', KSess.getMode, evType]

/-- What `(m)*:(struct sk_buff *)skb` denotes under any options without `--output-insns`. -/
theorem parse_m (g : Glob) (hi : g.insns = false) : Flg.parseKfuncFlag g "(m)*:(struct sk_buff *)skb".toList =
    .ok { name := "*".toList, arg := "skb".toList, typ := "struct sk_buff *".toList
          imm := { fltrExpr := "*:(struct sk_buff *)skb".toList, graph := g.graph, stack := g.stack, lbr := g.lbr
                   both := g.modes.contains "entry" && g.modes.contains "exit", pkt := g.pkt
                   multi := true, argName := "skb".toList, argType := "struct sk_buff *".toList } } := by
  rw [Flg.parseKfuncFlag_iff]
  refine ⟨["(m)".toList], "*:(struct sk_buff *)skb".toList, ⟨rfl, by decide, by decide⟩, ?_, ?_, rfl, rfl, rfl, rfl, rfl, rfl, rfl,
    rfl, rfl, rfl, by simp, by simp, ?_⟩
  · exact .typed "*".toList "(struct sk_buff *)skb".toList _ "struct sk_buff *".toList "skb".toList _ _ (by decide) (by decide)
      ((Flg.trim_iff _ _).1 (by first | decide +kernel | (simp only []; decide +kernel))) ((Flg.trim_iff _ _).1 (by first | decide +kernel | (simp only []; decide +kernel))) (by decide)
      ((Flg.trim_iff _ _).1 (by first | decide +kernel | (simp only []; decide +kernel))) ((Flg.trim_iff _ _).1 (by first | decide +kernel | (simp only []; decide +kernel)))
  · rw [hi]; rfl
  · simp only []; decide

/-- What `(b)(m)b:(struct sk_buff *)skb` denotes. -/
theorem parse_bm : Flg.parseKfuncFlag ⟨false, false, false, false, false, ["entry"]⟩ "(b)(m)b:(struct sk_buff *)skb".toList =
    .ok { name := "b".toList, arg := "skb".toList, typ := "struct sk_buff *".toList
          imm := { fltrExpr := "b:(struct sk_buff *)skb".toList, both := true
                   multi := true, argName := "skb".toList, argType := "struct sk_buff *".toList } } := by
  rw [Flg.parseKfuncFlag_iff]
  refine ⟨["(b)".toList, "(m)".toList], "b:(struct sk_buff *)skb".toList, ⟨rfl, by decide, by decide⟩, ?_, rfl, rfl, rfl, rfl, rfl, rfl,
    rfl, rfl, rfl, rfl, rfl, by decide, by decide, by decide⟩
  exact .typed "b".toList "(struct sk_buff *)skb".toList _ "struct sk_buff *".toList "skb".toList _ _ (by decide) (by decide)
      ((Flg.trim_iff _ _).1 (by decide +kernel)) ((Flg.trim_iff _ _).1 (by decide +kernel)) (by decide)
      ((Flg.trim_iff _ _).1 (by decide +kernel)) ((Flg.trim_iff _ _).1 (by decide +kernel))

/-- What `(b)tcp_connect` denotes. -/
theorem parse_b : Flg.parseKfuncFlag ⟨false, false, false, false, false, ["entry"]⟩ "(b)tcp_connect".toList =
    .ok { name := "tcp_connect".toList, imm := { fltrExpr := "tcp_connect".toList, both := true } } := by
  rw [Flg.parseKfuncFlag_iff]
  refine ⟨["(b)".toList], "tcp_connect".toList, ⟨rfl, by decide, by decide⟩, ?_, rfl, rfl, rfl, rfl, rfl, rfl,
    rfl, rfl, rfl, rfl, rfl, by decide, by decide, by decide⟩
  exact .name _ _ (by decide) ((Flg.trim_iff _ _).1 (by decide +kernel))

/-- Example: `-m entry -k '(b)tcp_connect'` under both kinds of kernels, and `-k '(m)*:(struct sk_buff *)skb'`. -/
example :
    let g : Glob := ⟨false, false, false, false, false, ["entry"]⟩
    let num : Arg.PFlag := ⟨false, false, false⟩
    ∃ r r', Flg.parseKfuncFlag g "(b)tcp_connect".toList = .ok r ∧
      Flg.parseKfuncFlag g "(m)*:(struct sk_buff *)skb".toList = .ok r' ∧ Flg.checkMode g.modes = true ∧
      (∀ fs, events 0 (traceFuncs fs g.exit ⟨false, r.insn, r.imm, [num], num, false, 0⟩) .call = [.entry] ∧
        events 0 (traceFuncs fs g.exit ⟨false, r.insn, r.imm, [num], num, false, 0⟩) .ret = [.exit]) ∧
      (∀ fs, events 0 (traceKfuncMulti fs g.exit 6 ⟨false, r'.insn, r'.imm, [num], num, false, 0⟩) .call = [.entry] ∧
        events 0 (traceKfuncMulti fs g.exit 6 ⟨false, r'.insn, r'.imm, [num], num, false, 0⟩) .ret = []) := by
  refine ⟨_, _, parse_b, parse_m _ rfl, rfl, ?_, ?_⟩ <;> intro fs <;> cases fs <;> decide +kernel

/-- **C37 violated for `(m)`**: with `-m entry -k '(b)(m)b:(struct sk_buff *)skb' -k '(m)*:(struct sk_buff *)skb'` and
another function `a` with the parameter in the same place, exits of `b` are asked for but no program is attached to
them, if `a` happens to come first. -/
theorem kmulti_group_violated : ∃ (g : Glob) (ka kb : Str) (ra rb : Flg.KfuncFlag) (fa fb : MFn),
    Flg.checkMode g.modes = true ∧ Flg.parseKfuncFlag g ka = .ok ra ∧ Flg.parseKfuncFlag g kb = .ok rb ∧
    fa.fn.flag = ra.imm ∧ fb.fn.flag = rb.imm ∧ fa.arg = fb.arg ∧
    Flg.Prefixed Flg.kfuncTok kb ["(b)".toList, "(m)".toList] "b:(struct sk_buff *)skb".toList ∧
    ∀ pid hasSession, events pid (traceFuncsMulti hasSession g.exit 6 (fun _ => true) [fa, fb] fb) .ret = [] := by
  let g : Glob := ⟨false, false, false, false, false, ["entry"]⟩
  let num : Arg.PFlag := ⟨false, false, false⟩
  refine ⟨g, "(m)*:(struct sk_buff *)skb".toList, "(b)(m)b:(struct sk_buff *)skb".toList, _, _,
    ⟨"a".toList, 0, ⟨false, false, _, [num], num, true, 0⟩⟩, ⟨"b".toList, 0, ⟨false, false, _, [num], num, true, 0⟩⟩,
    rfl, parse_m g rfl, parse_bm, rfl, rfl, rfl, by unfold Flg.Prefixed; decide, ?_⟩
  intro pid hs
  have h : ∀ fa fb : MFn, fa.arg = fb.arg → fb.sym = "b".toList → fa.fn.flag.both = false →
      events pid (traceFuncsMulti hs g.exit 6 (fun _ => true) [fa, fb] fb) .ret = [] := by
    intro fa fb h1 h2 h3
    unfold traceFuncsMulti traceKfuncMulti events
    simp only [List.find?, h1, decide_true, h2, h3]
    rw [show skipSym "b".toList = false from by decide +kernel, show g.exit = false from rfl]
    simp [events_kmulti, Hook.fires]
  exact h _ _ rfl rfl rfl

/-- The flags of an event that the reader looks at (bpfsnoop.go 134-140), for a program with configuration `c`. -/
def funcEv (c : Cfg) (pid : BitVec 32) (mode : KSess.Mode) (lbr pkt arg : Bool) (ns : BitVec 32) (sid : BitVec 64) (tag : Nat) :
    Run.FuncEv :=
  let w := evtFlags (cConfig pid c) lbr pkt arg
  { typ := match evType mode with | .entry => 1 | .exit => 2
    kernNs := ns, sessID := sid
    isTp := haveFlag w (mask idxIsTp), isGraph := haveFlag w (mask idxGraphMode)
    insnMode := haveFlag w (mask idxInsnMode), bothMode := haveFlag w (mask idxBothEntryExit)
    session := haveFlag w (mask idxIsSession), tag := tag }

theorem graph_option (c : Cfg) (pid : BitVec 32) (lbr pkt arg : Bool) :
    haveFlag (evtFlags (cConfig pid c) lbr pkt arg) (mask idxGraphMode) = c.graphMode := by
  exact (event_flags pid c lbr pkt arg .graph_mode).trans (by simp [option])

theorem tp_option (c : Cfg) (pid : BitVec 32) (lbr pkt arg : Bool) :
    haveFlag (evtFlags (cConfig pid c) lbr pkt arg) (mask idxIsTp) = c.isTp := by
  exact (event_flags pid c lbr pkt arg .is_tp).trans (by simp [option])

theorem silent_entries (d : Int) (recs : List Run.Rec) : ∀ ss : Run.Sessions,
    (∀ r ∈ recs, ∃ e, r = .func e ∧ e.typ = 1 ∧ e.requiredSession = true) → ∃ ss', Run.steps d ss recs = some (ss', []) := by
  induction recs with
  | nil => intro ss _; exact ⟨ss, rfl⟩
  | cons r rs ih =>
    intro ss h
    obtain ⟨e, rfl, he, hq⟩ := h r (by simp)
    obtain ⟨ss', hs⟩ := ih (Run.set ss e.sessID (some { Run.mkSession e.kernNs e.isGraph with
      outputs := (Run.mkSession e.kernNs e.isGraph).outputs ++ [.func e.tag none] })) (fun x hx => h x (by simp [hx]))
    refine ⟨ss', ?_⟩
    simp only [Run.steps, Run.handle, hq, he, if_true]
    simp only [Option.bind_eq_bind, Option.bind_some]
    rw [hs]
    rfl

theorem silent_exits (d : Int) (recs : List Run.Rec)
    (h : ∀ r ∈ recs, ∃ e, r = .func e ∧ e.typ = 2 ∧ e.requiredSession = true) :
    Run.steps d Run.newSessions recs = some (Run.newSessions, []) := by
  induction recs with
  | nil => rfl
  | cons r rs ih =>
    obtain ⟨e, rfl, he, hq⟩ := h r (by simp)
    have := ih (fun x hx => h x (by simp [hx]))
    have hh : Run.handle d Run.newSessions (.func e) = some (Run.newSessions, none) := by
      simp [Run.handle, hq, he, Run.newSessions]
    simp [Run.steps, hh, this]

/-- **C37 violated for `(m)` under `-g`**: the combination is accepted, a program is attached at the entry (or the
exit), but whatever it reports, nothing is ever printed. -/
theorem kmulti_graph_violated : ∃ (k : Str) (body : Str),
    Flg.Prefixed Flg.kfuncTok k ["(m)".toList] body ∧
    ∀ (m : String), m = "entry" ∨ m = "exit" →
    ∃ r, Flg.parseKfuncFlag ⟨false, true, false, false, false, [m]⟩ k = .ok r ∧
    ∀ (fn : Fn) (pid : BitVec 32) (hasSession : Bool) (maxArgs : Nat) (d : Int), fn.flag = r.imm →
      ∃ a, traceKfuncMulti hasSession (m == "exit") maxArgs fn = [a] ∧
        (a.event pid (if m = "exit" then .ret else .call)).isSome = true ∧
        ∀ recs : List Run.Rec, (∀ x ∈ recs, ∃ ret lbr pkt arg ns sid tag,
            x = .func (funcEv a.cfg pid (mode (cConfig pid a.cfg) ret) lbr pkt arg ns sid tag)) →
          ∃ ss, Run.steps d Run.newSessions recs = some (ss, []) := by
  refine ⟨"(m)*:(struct sk_buff *)skb".toList, "*:(struct sk_buff *)skb".toList, by unfold Flg.Prefixed; decide, ?_⟩
  intro m hm
  rcases hm with rfl | rfl
  · refine ⟨_, parse_m _ rfl, ?_⟩
    intro fn pid hs n d hf
    have hb : fn.flag.both = false := by rw [hf]; decide
    have hg : fn.flag.graph = true := by rw [hf]
    refine ⟨traceKfuncMultiMode n fn fn.pkt fn.data false false, ?_, ?_, ?_⟩
    · unfold traceKfuncMulti; simp [hb]
    · rw [events_kmulti]; rfl
    · intro recs hr
      apply silent_entries
      intro x hx
      obtain ⟨ret, lbr, pkt, arg, ns, sid, tag, rfl⟩ := hr x hx
      refine ⟨_, rfl, ?_, ?_⟩
      · simp only [funcEv, mode]
        rw [cConfig_flag, cConfig_flag, cConfig_flag]
        simp [option, traceKfuncMultiMode, hb, KSess.getMode, evType]
      · unfold Run.FuncEv.requiredSession
        simp only [funcEv, graph_option, tp_option]
        simp [traceKfuncMultiMode, hg]
  · refine ⟨_, parse_m _ rfl, ?_⟩
    intro fn pid hs n d hf
    have hb : fn.flag.both = false := by rw [hf]; decide
    have hg : fn.flag.graph = true := by rw [hf]
    refine ⟨traceKfuncMultiMode n fn false 0 true false, ?_, ?_, ?_⟩
    · unfold traceKfuncMulti; simp [hb]
    · rw [events_kmulti]; rfl
    · intro recs hr
      refine ⟨_, silent_exits d recs ?_⟩
      intro x hx
      obtain ⟨ret, lbr, pkt, arg, ns, sid, tag, rfl⟩ := hr x hx
      refine ⟨_, rfl, ?_, ?_⟩
      · simp only [funcEv, mode]
        rw [cConfig_flag, cConfig_flag, cConfig_flag]
        simp [option, traceKfuncMultiMode, hb, KSess.getMode, evType]
      · unfold Run.FuncEv.requiredSession
        simp only [funcEv, graph_option, tp_option]
        simp [traceKfuncMultiMode, hg]

/-- **C37 violated by default**: without `-m` the documented mode is exit (docs/how_to_build.md 101), but if only
programs are traced (no `-k`) they are traced at their entry and not at their exit. -/
theorem default_mode_violated (pid : BitVec 32) (hasFsession : Bool) :
    ∃ (g : Glob) (r : Flg.ProgFlag), g.modes = Flg.setDefaultModes [] [] ∧
      Flg.parseProgFlag g (fun _ => false) "n:xdp".toList = .ok r ∧
      ∀ fn : Fn, fn.flag = r.imm → events pid (traceProgs hasFsession g.exit fn) .call = [.entry] ∧
        events pid (traceProgs hasFsession g.exit fn) .ret = [] := by
  refine ⟨⟨false, false, false, false, false, ["entry"]⟩, ⟨.name "xdp".toList, {}⟩, rfl, ?_, ?_⟩
  · unfold Flg.parseProgFlag
    have : Flg.loop Flg.passP ({}, "n:xdp".toList) = some ({}, "n:xdp".toList) := by
      rw [Flg.loop]; rfl
    rw [this]
    have h2 : Flg.parseSel (fun _ => false) "n:xdp".toList = some (.name "xdp".toList, []) := by decide +kernel
    simp only [h2]
    rfl
  intro fn hf
  have hb : fn.flag.both = false := by rw [hf]
  have hg : fn.flag.graph = false := by rw [hf]
  unfold traceProgs events
  simp [hb, hg, events_traceProg, Hook.fires, KSess.getMode, evType, Flg.Glob.exit]

/-! ### Instruction and graph events under `fsession` -/

theorem srun_map (s : SSt) (ops : List SOp) : (srun true s ops).1.1 = s.1 := by
  induction ops generalizing s with
  | nil => rfl
  | cons o os ih =>
    simp only [srun]
    rw [ih]
    cases o <;> simp only [sstep, if_true]
    split <;> rfl

/-- **C37 violated with `fsession`**: on a kernel with `fsession`, a function traced with `(i)` or `(g)` is traced by
one session program; then no history of calls ever produces an instruction event, and the function-graph programs
never find a session. -/
theorem fsession_insn_graph_violated (fn : Fn) (modeExit : Bool) (htp : fn.isTp = false)
    (h : fn.insn = true ∨ fn.flag.graph = true) (pid : BitVec 32) (cookies : Nat → BitVec 64) (ops : List SOp) :
    (∃ a, traceFuncs true modeExit fn = [a] ∧ (cConfig pid a.cfg).flag .is_session = true) ∧
    (∀ o ∈ (srun true (KSess.empty, cookies) ops).2, ∀ k sid, o ≠ some (.insn k sid)) ∧
    (∀ (fip : BitVec 64 → BitVec 64) (task cur : BitVec 64) (maxDepth maxStack : Nat) (stack : List (BitVec 64)),
      KSess.tryGetSession fip (fun f => KSess.getSession (srun true (KSess.empty, cookies) ops).1.1 ⟨task, f⟩) cur
        maxDepth maxStack stack = none) := by
  refine ⟨?_, ?_, ?_⟩
  · refine ⟨traceFunc fn true true true fn.flag.stack, ?_, ?_⟩
    · unfold traceFuncs
      rcases h with h | h <;> simp [htp, h]
    · rw [cConfig_flag]; rfl
  · have key : ∀ s : SSt, s.1 = KSess.empty → ∀ o ∈ (srun true s ops).2, ∀ k sid, o ≠ some (.insn k sid) := ?_
    · exact key _ rfl
    intro s hs
    clear h
    induction ops generalizing s with
    | nil => intro o ho; simp [srun] at ho
    | cons op os ih =>
      intro o ho
      simp only [srun, List.mem_cons] at ho
      rcases ho with rfl | ho
      · intro k sid
        cases op with
        | enter c k sid pass stale full => simp only [sstep]; split <;> simp
        | exit c k => simp only [sstep, if_true]; split <;> simp
        | insn k =>
          simp only [sstep, hs]
          simp [KSess.getSession, KSess.empty]
      · refine ih (sstep true s op).1 ?_ o ho
        have := srun_map s [op]
        simp only [srun] at this
        rw [this, hs]
  · intro fip task cur maxDepth maxStack stack
    rw [srun_map]
    have hz : (fun f => KSess.getSession KSess.empty ⟨task, f⟩) = fun _ => 0 := by
      funext f; rfl
    show KSess.tryGetSession fip (fun f => KSess.getSession KSess.empty ⟨task, f⟩) cur maxDepth maxStack stack = none
    rw [hz]
    unfold KSess.tryGetSession
    generalize stack.take maxStack = l
    have : ∀ (l : List (BitVec 64)) (after : Bool) (dep : Nat), KSess.walk fip (fun _ => 0) cur maxDepth after dep l = none := by
      intro l
      induction l with
      | nil => intro _ _; rfl
      | cons ip rest ih =>
        intro after dep
        simp only [KSess.walk]
        split
        · exact ih _ _
        · split
          · simp only [ne_eq, not_true_eq_false, if_false]
            split
            · rfl
            · exact ih _ _
          · split <;> exact ih _ _
    exact this l false 1

/-- The same history without `fsession` reports the instruction. -/
example : (srun false (KSess.empty, fun _ => 0)
      [.enter 0 ⟨1, 2⟩ 5 true (fun _ => 0) false, .insn ⟨1, 2⟩, .exit 0 ⟨1, 2⟩]).2 =
    [some (.entry ⟨1, 2⟩ 5), some (.insn ⟨1, 2⟩ 5), some (.exit ⟨1, 2⟩ 4)] := by decide +kernel

/-! ## C49. Function events are decoded as they were captured -/

theorem u16At_mid (a b : List Byte) (v : BitVec 16) (n : Nat) (h : a.length = n) :
    u16At (a ++ (Arg.le 2 (v.setWidth 64) ++ b)) n = v := by
  subst h
  have hl : (Arg.le 2 (v.setWidth 64)).length = 2 := Arg.le_length _ _
  unfold u16At
  rw [List.drop_left, List.take_append_of_le_length (by rw [hl]; exact Nat.le_refl _),
    List.take_of_length_le (by rw [hl]; exact Nat.le_refl _), Arg.leVal_le]
  apply BitVec.eq_of_toNat_eq
  have := v.isLt
  simp
  omega

theorem u64At_mid (a b : List Byte) (v : BitVec 64) (n : Nat) (h : a.length = n) :
    u64At (a ++ (Arg.le 8 v ++ b)) n = v := by
  subst h
  have hl : (Arg.le 8 v).length = 8 := Arg.le_length _ _
  unfold u64At
  rw [List.drop_left, List.take_append_of_le_length (by rw [hl]; exact Nat.le_refl _),
    List.take_of_length_le (by rw [hl]; exact Nat.le_refl _), Arg.leVal_le]
  apply BitVec.eq_of_toNat_eq
  have := v.isLt
  simp
  omega

theorem hdr_length (h : Hdr) (hc : h.comm.length = 16) : h.bytes.length = sizeOfEvent := by
  simp [Hdr.bytes, le32_length, Arg.le_length, hc, sizeOfEvent]

/-- **C49, header.** Every field of the header is read as it was written. -/
theorem hdr_read_back (h : Hdr) (hc : h.comm.length = 16) (rest : List Byte) : readHdr (h.bytes ++ rest) = h := by
  obtain ⟨typ, len, ns, sid, fip, cpu, pid, comm, stk, fl, en, ex, dt, lbr⟩ := h
  simp only at hc
  have e : ∀ a b c d e f g h i j k l m n o : List Byte, a ++ b ++ c ++ d ++ e ++ f ++ g ++ h ++ i ++ j ++ k ++ l ++ m ++ n ++ o =
      a ++ (b ++ (c ++ (d ++ (e ++ (f ++ (g ++ (h ++ (i ++ (j ++ (k ++ (l ++ (m ++ (n ++ o))))))))))))) := by simp
  have l2 : ∀ v, (Arg.le 2 v).length = 2 := fun v => Arg.le_length _ _
  have l8 : ∀ v, (Arg.le 8 v).length = 8 := fun v => Arg.le_length _ _
  unfold readHdr Hdr.bytes
  simp only [e]
  rw [Hdr.mk.injEq]
  refine ⟨?_, ?_, ?_, ?_, ?_, ?_, ?_, ?_, ?_, ?_, ?_, ?_, ?_, ?_⟩
  · exact u16At_mid [] _ _ 0 rfl
  · exact u16At_mid _ _ _ 2 (l2 _)
  · rw [← List.append_assoc]
    exact u32At_mid _ _ _ 4 (by simp [l2])
  · iterate 2 rw [← List.append_assoc]
    exact u64At_mid _ _ _ 8 (by simp [l2, le32_length])
  · iterate 3 rw [← List.append_assoc]
    exact u64At_mid _ _ _ 16 (by simp [l2, l8, le32_length])
  · iterate 4 rw [← List.append_assoc]
    exact u32At_mid _ _ _ 24 (by simp [l2, l8, le32_length])
  · iterate 5 rw [← List.append_assoc]
    exact u32At_mid _ _ _ 28 (by simp [l2, l8, le32_length])
  · iterate 6 rw [← List.append_assoc]
    rw [show (32 : Nat) = (Arg.le 2 (typ.setWidth 64) ++ Arg.le 2 (len.setWidth 64) ++ le32 ns ++ Arg.le 8 sid ++ Arg.le 8 fip ++
      le32 cpu ++ le32 pid).length from by simp [l2, l8, le32_length], List.drop_left]
    rw [List.take_append_of_le_length (by omega), List.take_of_length_le (by omega)]
  · iterate 7 rw [← List.append_assoc]
    exact u64At_mid _ _ _ 48 (by simp [l2, l8, le32_length, hc])
  · iterate 8 rw [← List.append_assoc]
    exact u32At_mid _ _ _ 56 (by simp [l2, l8, le32_length, hc])
  · iterate 9 rw [← List.append_assoc]
    exact u32At_mid _ _ _ 60 (by simp [l2, l8, le32_length, hc])
  · iterate 10 rw [← List.append_assoc]
    exact u32At_mid _ _ _ 64 (by simp [l2, l8, le32_length, hc])
  · iterate 11 rw [← List.append_assoc]
    exact u32At_mid _ _ _ 68 (by simp [l2, l8, le32_length, hc])
  · iterate 12 rw [← List.append_assoc]
    exact u64At_mid _ _ _ 72 (by simp [l2, l8, le32_length, hc])

theorem slice_left (a b : List Byte) (n : Nat) (h : a.length = n) : slice n (a ++ b) = some (a, b) := by
  subst h
  simp [slice]

/-- The programs that bpfsnoop attaches to a function, program or tracepoint. -/
inductive Traced : Att → Prop
  | func (hasFsession modeExit : Bool) (fn : Fn) (a : Att) : a ∈ traceFuncs hasFsession modeExit fn → Traced a
  | prog (hasFsession modeExit : Bool) (fn : Fn) (a : Att) : a ∈ traceProgs hasFsession modeExit fn → Traced a
  | multi (hasSession modeExit : Bool) (maxArgs : Nat) (fn : Fn) (a : Att) :
      a ∈ traceKfuncMulti hasSession modeExit maxArgs fn → Traced a

/-- In every program, the event kind is the moment it runs at, the size announced for that kind is the size of the
captured arguments; the exit program of `(m)` announces neither packet nor data. -/
theorem traced_sizes (a : Att) (h : Traced a) (pid : BitVec 32) (p : Phase) (r : Bool) (hf : a.hook.fires p = some r) :
    evType (mode (cConfig pid a.cfg) r) = (if p = .ret then .exit else .entry) ∧
    (if p = .ret then a.cfg.argExitSz else a.cfg.argEntrySz) = a.cfg.fnArgsBufSz ∧
    (a.cfg.kmultiMode = true → p = .ret → mode (cConfig pid a.cfg) r = .sessionExit ∨
      (a.cfg.outputPkt = false ∧ a.cfg.argDataSz = 0)) ∧
    (mode (cConfig pid a.cfg) r = .sessionExit → p = .ret) ∧
    (a.cfg.bothEntryExit = true → (mode (cConfig pid a.cfg) r = .sessionEntry ↔ p = .call)) := by
  unfold mode
  rw [cConfig_flag, cConfig_flag, cConfig_flag]
  cases h with
  | func fs me fn _ h =>
    unfold traceFuncs at h
    revert h hf
    cases htp : fn.isTp <;> generalize (fn.insn || fn.flag.graph || fn.flag.both) = b <;> cases b <;> cases fs <;> cases me <;>
      cases p <;> cases r <;> simp <;> rintro hf (rfl | rfl) <;>
      simp_all [traceFunc, Hook.fires, option, KSess.getMode, evType]
  | prog fs me fn _ h =>
    unfold traceProgs at h
    revert h hf
    generalize (fn.flag.graph || fn.flag.both) = b; cases b <;> cases fs <;> cases me <;>
      cases p <;> cases r <;> simp <;> rintro hf (rfl | rfl) <;>
      simp_all [traceProg, Hook.fires, option, KSess.getMode, evType]
  | multi fs me n fn _ h =>
    unfold traceKfuncMulti at h
    revert h hf
    cases hb : fn.flag.both <;> cases fs <;> cases me <;>
      cases p <;> cases r <;> simp <;> rintro hf (rfl | rfl) <;>
      simp_all [traceKfuncMultiMode, Hook.fires, option, KSess.getMode, evType]

/-- **C37.** What the configurations of the programs say of their target: its kind; of the programs of a function or program traced at entry
and exit, the stack is taken by the one that runs at the exit (with `fsession` one program runs at both); otherwise as asked for. `(m)` targets take
it in all. -/
theorem traced_flags (a : Att) (modeExit s : Bool) (fn : Fn) (maxArgs : Nat) :
    (a ∈ traceFuncs s modeExit fn → a.cfg.isProg = false ∧ a.cfg.kmultiMode = false ∧ a.cfg.isTp = fn.isTp ∧ a.cfg.outputLbr = fn.flag.lbr ∧
      a.cfg.insnMode = fn.insn ∧ a.cfg.graphMode = fn.flag.graph ∧ a.cfg.fnArgsNr = fn.prms.length ∧
      a.cfg.outputStack = (fn.flag.stack && !(a.cfg.bothEntryExit && decide (a.hook = .fentry)))) ∧
    (a ∈ traceProgs s modeExit fn → a.cfg.isProg = true ∧ a.cfg.kmultiMode = false ∧ a.cfg.isTp = false ∧ a.cfg.outputLbr = fn.flag.lbr ∧
      a.cfg.insnMode = false ∧ a.cfg.graphMode = fn.flag.graph ∧ a.cfg.fnArgsNr = fn.prms.length ∧
      a.cfg.outputStack = (fn.flag.stack && !(a.cfg.bothEntryExit && decide (a.hook = .fentry)))) ∧
    (a ∈ traceKfuncMulti s modeExit maxArgs fn → a.cfg.isProg = false ∧ a.cfg.kmultiMode = true ∧ a.cfg.isTp = false ∧
      a.cfg.outputLbr = fn.flag.lbr ∧ a.cfg.insnMode = false ∧ a.cfg.graphMode = fn.flag.graph ∧ a.cfg.fnArgsNr = maxArgs ∧
      a.cfg.outputStack = fn.flag.stack ∧ a.code = decide (a.hook ≠ .kretprobe)) := by
  refine ⟨?_, ?_, ?_⟩
  · unfold traceFuncs
    intro h
    revert h
    cases htp : fn.isTp <;> generalize hb : (fn.insn || fn.flag.graph || fn.flag.both) = b <;> cases b <;> cases s <;> cases modeExit <;>
      simp <;> (try rintro (rfl | rfl)) <;> (try rintro rfl) <;> simp_all [traceFunc]
  · unfold traceProgs
    intro h
    revert h
    generalize hb : (fn.flag.graph || fn.flag.both) = b
    cases b <;> cases s <;> cases modeExit <;> simp <;> (try rintro (rfl | rfl)) <;> (try rintro rfl) <;> simp_all [traceProg]
  · unfold traceKfuncMulti
    intro h
    revert h
    cases hb : fn.flag.both <;> cases s <;> cases modeExit <;> simp <;> (try rintro (rfl | rfl)) <;> (try rintro rfl) <;>
      simp_all [traceKfuncMultiMode]

/-- **C37.** The symbols that are never attached to with `(m)`: those beginning so. -/
theorem skipSym_iff (s : Str) : skipSym s = true ↔ "arch_cpu_idle".toList <+: s ∨ "default_idle".toList <+: s ∨ "rcu_".toList <+: s ∨
    "__ftrace_invalid_address__".toList <+: s := by
  simp only [skipSym, List.any_cons, List.any_nil, Bool.or_false, Bool.or_eq_true, List.isPrefixOf_iff_prefix]

/-- **C49, layout.** For every program bpfsnoop attaches, at every moment it runs: the reader recovers exactly the
bytes captured for the arguments, for the packet (if the target is traced with a packet) and for `--output-arg` (if it
has data), reading none of the stale bytes behind them, and knows whether it is an exit. The exit events of `(m)`
targets carry arguments only. There is a stack id exactly if the program is to output the stack, and branches exactly if
it is to output them, for a target traced at entry and exit only at the call. -/
theorem event_layout (a : Att) (h : Traced a) (pid : BitVec 32) (p : Phase) (r : Bool) (hf : a.hook.fires p = some r) (rt : Rt)
    (hc : rt.comm.length = 16) (ha : rt.args.length = a.cfg.fnArgsBufSz) (hp : rt.pkt.length = 16)
    (hd : rt.data.length = a.cfg.argDataSz) (hs : a.cfg.fnArgsBufSz < 2 ^ 32) (hs' : a.cfg.argDataSz < 2 ^ 32) :
    ∃ hdr, readEvent (outputEvent (cConfig pid a.cfg) a.cfg.kmultiMode (mode (cConfig pid a.cfg) r) rt) = some
      { hdr := hdr
        exit := decide (p = .ret)
        args := rt.args
        pkt := if a.cfg.outputPkt && !(a.cfg.kmultiMode && decide (p = .ret)) then some rt.pkt else none
        data := if a.cfg.argDataSz ≠ 0 ∧ ¬ (a.cfg.kmultiMode ∧ p = .ret) then some rt.data else none } ∧
      hdr.kernNs = rt.kernNs ∧ hdr.sessID = rt.sessID ∧ hdr.funcIP = rt.funcIP ∧ hdr.cpu = rt.cpu ∧ hdr.pid = rt.pid ∧
      hdr.comm = rt.comm ∧ hdr.stackID = (if a.cfg.outputStack then rt.stackID else -1) ∧
      hdr.lbrRetval = (if a.cfg.outputLbr = true ∧ (a.cfg.bothEntryExit = true → p = .call) then rt.nrBytes else 0) ∧
      hdr.length = BitVec.ofNat 16 sizeOfEvent := by
  obtain ⟨h1, h2, h3, h4, h5⟩ := traced_sizes a h pid p r hf
  have e3 := cConfig_flag pid a.cfg .output_stack
  have e4 := cConfig_flag pid a.cfg .output_lbr
  have e5 := cConfig_flag pid a.cfg .both_entry_exit
  simp only [option] at e3 e4 e5
  have e1 := cConfig_flag pid a.cfg .output_pkt
  have e2 := cConfig_flag pid a.cfg .output_arg
  simp only [option] at e1 e2
  obtain ⟨_, _, _, _, _, _, rb1, rb2, rb3⟩ := config_read_back pid a.cfg
  unfold outputEvent
  simp only []
  -- the header
  generalize hh : Hdr.mk _ _ _ _ _ _ _ _ _ _ _ _ _ _ = hdr
  have hcm : hdr.comm.length = 16 := by rw [← hh]; exact hc
  have hlbr : hdr.lbrRetval = (if a.cfg.outputLbr = true ∧ (a.cfg.bothEntryExit = true → p = .call) then rt.nrBytes else 0) := by
    rw [← hh]
    simp only [e4, e5]
    cases hb : a.cfg.bothEntryExit with
    | false => cases a.cfg.outputLbr <;> simp
    | true => cases a.cfg.outputLbr <;> simp [h5 hb]
  refine ⟨hdr, ?_, by rw [← hh], by rw [← hh], by rw [← hh], by rw [← hh], by rw [← hh], by rw [← hh], by rw [← hh]; simp only [e3], hlbr,
    by rw [← hh]⟩
  have hl := hdr_length hdr hcm
  generalize hoff : (a.cfg.kmultiMode && decide (mode (cConfig pid a.cfg) r = KSess.Mode.sessionExit)) = off at hh ⊢
  have hfl : haveFlag hdr.flags (mask idxOutputPkt) = (a.cfg.outputPkt && !off) := by
    rw [← hh]
    refine (event_flags pid a.cfg _ _ _ .output_pkt).trans ?_
    simp only [option, e1]
    cases a.cfg.outputPkt <;> simp
  have htyp : (hdr.typ == 2) = decide (p = .ret) := by
    rw [← hh]
    simp only [h1]
    cases p <;> rfl
  have hsz : (if (hdr.typ == 2) = true then hdr.exitSz else hdr.entrySz).toNat = rt.args.length := by
    rw [htyp, ← hh, ha]
    simp only [decide_eq_true_eq]
    cases p with
    | call =>
      simp only [reduceCtorEq, if_false] at h2 ⊢
      rw [rb1 (by omega), h2]
    | ret =>
      simp only [if_true] at h2 ⊢
      rw [rb2 (by omega), h2]
  have hdsz : hdr.dataSz.toNat = if off then 0 else a.cfg.argDataSz := by
    rw [← hh]
    simp only [e2]
    cases off with
    | true => simp
    | false =>
      by_cases h0 : a.cfg.argDataSz = 0
      · simp [h0]
      · simp [h0, rb3 hs']
  unfold readEvent
  rw [if_neg (by simp only [List.length_append, hl, sizeOfEvent]; omega)]
  simp only [List.append_assoc]
  rw [hdr_read_back hdr hcm]
  rw [hsz, show sizeOfEvent = hdr.bytes.length from hl.symm, List.drop_left, slice_left _ _ _ rfl]
  simp only []
  rw [hfl, htyp, e1, e2]
  have hoff' : (a.cfg.outputPkt && !off) = (a.cfg.outputPkt && !(a.cfg.kmultiMode && decide (p = .ret))) ∧
      ((decide (a.cfg.argDataSz ≠ 0) && !off) = true ↔ a.cfg.argDataSz ≠ 0 ∧ ¬ (a.cfg.kmultiMode ∧ p = .ret)) := by
    rw [← hoff]
    cases hk : a.cfg.kmultiMode with
    | false => simp
    | true =>
      by_cases hm : mode (cConfig pid a.cfg) r = .sessionExit
      · simp [hm, h4 hm]
      · by_cases hr : p = .ret
        · rcases h3 hk hr with h | ⟨h, h'⟩
          · exact absurd h hm
          · simp [hm, h, h']
        · simp [hm, hr]
  rw [← hoff'.1]
  have hd0 : hdr.dataSz ≠ 0 ↔ a.cfg.argDataSz ≠ 0 ∧ off = false := by
    rw [ne_eq, ← BitVec.toNat_inj, hdsz]
    cases off <;> simp
  have hdd : (a.cfg.argDataSz ≠ 0 ∧ ¬ (a.cfg.kmultiMode ∧ p = .ret)) ↔ hdr.dataSz ≠ 0 := by
    rw [← hoff'.2, hd0]; simp
  simp only [hdd]
  have hcan : (decide (a.cfg.argDataSz ≠ 0) && !off) = decide (hdr.dataSz ≠ 0) := by
    rw [Bool.eq_iff_iff, hoff'.2, hdd]; simp
  rw [hcan]
  have hlen : hdr.dataSz ≠ 0 → hdr.dataSz.toNat = rt.data.length := by
    intro h0
    rw [hdsz, hd, (hd0.1 h0).2]; simp
  cases hpk : (a.cfg.outputPkt && !off) with
  | true =>
    simp only [if_true]
    rw [show sizeOfPkt = 16 from rfl, slice_left _ _ _ hp]
    simp only [Option.map_some]
    by_cases h0 : hdr.dataSz = 0
    · simp [h0]
    · simp only [ne_eq, h0, not_false_eq_true, if_true, decide_true]
      rw [slice_left _ _ _ (hlen h0).symm]
      rfl
  | false =>
    simp only [Bool.false_eq_true, if_false, List.nil_append]
    by_cases h0 : hdr.dataSz = 0
    · simp [h0]
    · simp only [ne_eq, h0, not_false_eq_true, if_true, decide_true]
      rw [slice_left _ _ _ (hlen h0).symm]
      rfl

/-- Example: a `(b)` target with a packet and eight bytes of data, exit event, two stale bytes. -/
example :
    let num : Arg.PFlag := ⟨false, false, false⟩
    let fn : Fn := ⟨false, false, { both := true, pkt := true }, [num], num, true, 8⟩
    let a := traceFunc fn true true false false
    let rt : Rt := ⟨7, 8, 9, 1, 2, List.replicate 16 0, 3, 0, List.replicate 16 0xaa, List.replicate 16 0xbb, List.replicate 8 0xcc, [1, 2]⟩
    Traced a ∧ a.cfg.fnArgsBufSz = 16 ∧
    (readEvent (outputEvent (cConfig 0 a.cfg) a.cfg.kmultiMode (mode (cConfig 0 a.cfg) true) rt)).map (fun s => (s.exit, s.args, s.pkt, s.data)) =
      some (true, List.replicate 16 0xaa, some (List.replicate 16 0xbb), some (List.replicate 8 0xcc)) := by
  intro num fn a rt
  refine ⟨.func false false fn _ ?_, by decide +kernel, by decide +kernel⟩
  decide +kernel

/-- **C49, graph events** (without `fsession`). Entry and exit events of a function in a graph show exactly the
argument bytes captured by their program. -/
theorem graph_layout (prms : List Arg.PFlag) (ret : Arg.PFlag) (args stale : List Byte) (isExit : Bool)
    (h : args.length = if isExit then (graphSizes false prms ret).2.2 else (graphSizes false prms ret).2.1) :
    readGraph (graphSizes false prms ret).1 isExit (args ++ stale) = some args := by
  unfold readGraph
  rw [slice_left _ _ _ ?_]
  · rfl
  · rw [h]
    cases isExit <;> rfl

/-- **C49 violated, graph events with `fsession`.** On a kernel with `fsession`, every entry event of a function in a
graph shows no arguments, although the program captured them. -/
theorem graph_fsession_violated (prms : List Arg.PFlag) (ret : Arg.PFlag) (args stale : List Byte)
    (_ : args.length = (graphSizes true prms ret).2.1) :
    readGraph (graphSizes true prms ret).1 false (args ++ stale) = some [] := by
  unfold readGraph graphSizes traceGraph
  simp [slice]

/-- Example: two numbers are 16 bytes captured at the entry (8 more for the return value at the exit). -/
example :
    let num : Arg.PFlag := ⟨false, false, false⟩
    (graphSizes false [num, num] num) = ((16, 24), 16, 24) ∧ (graphSizes true [num, num] num) = ((0, 24), 24, 24) := by
  decide +kernel

/-! ### Tightened -/

/-- The id of the last accepted entry of a call in a history. -/
def lastEntry (c : Nat) : List SOp → Option (BitVec 64)
  | [] => none
  | .enter c' _ sid true _ _ :: os => (lastEntry c os).or (if c' = c then some sid else none)
  | _ :: os => lastEntry c os

theorem srun_cookie (c : Nat) (ops : List SOp) : ∀ s : SSt, (srun true s ops).1.2 c = (lastEntry c ops).getD (s.2 c) := by
  induction ops with
  | nil => intro s; rfl
  | cons o os ih =>
    intro s
    simp only [srun, ih]
    cases o with
    | enter c' k sid pass stale full =>
      cases pass with
      | false => simp [sstep, lastEntry]
      | true =>
        simp only [sstep, lastEntry, Bool.not_true, Bool.false_eq_true, if_false, if_true]
        cases lastEntry c os with
        | some x => simp
        | none =>
          by_cases h : c' = c
          · simp [h]
          · have : ¬ c = c' := fun e => h e.symm
            simp [h, this]
    | exit c' k => simp [sstep, lastEntry]
    | insn k => simp [sstep, lastEntry]

theorem srun_append (b : Bool) (s : SSt) (p q : List SOp) :
    (srun b s (p ++ q)).2 = (srun b s p).2 ++ (srun b (srun b s p).1 q).2 := by
  induction p generalizing s with
  | nil => rfl
  | cons o p ih => simp only [List.cons_append, srun, ih]

theorem srun_length (b : Bool) (s : SSt) (p : List SOp) : (srun b s p).2.length = p.length := by
  induction p generalizing s with
  | nil => rfl
  | cons o p ih => simp only [srun, List.length_cons, ih]

/-- **C22 with `fsession`.** In every history, an accepted entry is reported with its id, a rejected one is not; the exit of a call is reported with the id of the
last accepted entry of that call (less one, as with the map), whatever other calls happened in between and whatever their tasks and functions; if it was not accepted the
exit is reported only if its cookie was not zero before. -/
theorem fsession_paired (s : SSt) (pre post : List SOp) (c : Nat) (k : KSess.Key) :
    (srun true s (pre ++ .exit c k :: post)).2[pre.length]? =
      some (if (lastEntry c pre).getD (s.2 c) = 0 then none else some (.exit k ((lastEntry c pre).getD (s.2 c) - 1))) ∧
    ∀ sid pass stale full, (srun true s (pre ++ .enter c k sid pass stale full :: post)).2[pre.length]? =
      some (if pass then some (.entry k sid) else none) := by
  constructor
  · rw [srun_append, List.getElem?_append_right (by rw [srun_length]; exact Nat.le_refl _), srun_length, Nat.sub_self]
    simp only [srun, List.getElem?_cons_zero, sstep, if_true, srun_cookie]
  · intro sid pass stale full
    rw [srun_append, List.getElem?_append_right (by rw [srun_length]; exact Nat.le_refl _), srun_length, Nat.sub_self]
    cases pass <;> simp [srun, sstep]

/-- A call inside another of the same task and function: each exit has its own id. -/
example : ((srun true (KSess.empty, fun _ => 0) [.enter 0 ⟨1, 2⟩ 7 true (fun _ => 0) false, .enter 1 ⟨1, 2⟩ 9 true (fun _ => 0) false,
    .exit 1 ⟨1, 2⟩, .exit 0 ⟨1, 2⟩]).2) = [some (.entry ⟨1, 2⟩ 7), some (.entry ⟨1, 2⟩ 9), some (.exit ⟨1, 2⟩ 8), some (.exit ⟨1, 2⟩ 6)] := by
  rfl

end Bpfsnoop.Att
