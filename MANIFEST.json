{
 "claims": [
  {
   "property": "C01",
   "status": "partial",
   "theorems": [
    "Bpfsnoop.Cc.filter_computes_partial",
    "Bpfsnoop.Cc.eval_computes_partial",
    "Bpfsnoop.Cc.filter_computes_witness",
    "Bpfsnoop.Cc.eval_computes_witness",
    "Bpfsnoop.Cc.exWorld_ok",
    "Bpfsnoop.Cc.findVar_iff",
    "Bpfsnoop.Cc.extractEnum_iff",
    "Bpfsnoop.Cc.bfMask_bit",
    "Bpfsnoop.Cc.isArray_iff",
    "Bpfsnoop.Cc.high_bit_literal_violated",
    "Bpfsnoop.Cc.narrow_sum_violated",
    "Bpfsnoop.Cc.masked_literal_violated",
    "Bpfsnoop.Cc.cast_zero_violated",
    "Bpfsnoop.Cc.literal_address_violated",
    "Bpfsnoop.Cc.member_plus_constant_violated",
    "Bpfsnoop.Cc.widening_cast_violated",
    "Bpfsnoop.Cc.narrowing_cast_violated",
    "Bpfsnoop.Cc.small_array_violated",
    "Bpfsnoop.Cc.bool_scaled_violated",
    "Bpfsnoop.Cc.wide_divisor_violated",
    "Bpfsnoop.Cc.wide_literal_violated",
    "Bpfsnoop.Cc.cond_arm_violated",
    "Bpfsnoop.Cc.negative_shift_panics_violated",
    "Bpfsnoop.Cc.address_of_cast_violated"
   ],
   "note": "proved for the fragment accepted by the static check shape, with immediates that are encoded without loss and at most three values live across helper calls; the violations show what goes wrong outside"
  },
  {
   "property": "C02",
   "status": "partial",
   "theorems": [
    "Bpfsnoop.Cc.fold_exact",
    "Bpfsnoop.Cc.fold_agrees_partial",
    "Bpfsnoop.Cc.runs_to",
    "Bpfsnoop.Cc.runs_to_unique",
    "Bpfsnoop.Cc.agree_values",
    "Bpfsnoop.Cc.fold_signed_violated",
    "Bpfsnoop.Cc.fold_witness"
   ],
   "note": "folding is signed, run-time evaluation unsigned: they agree exactly on the operands listed in Agree"
  },
  {
   "property": "C03",
   "status": "partial",
   "theorems": [
    "Bpfsnoop.Cc.filter_never_divides_by_zero",
    "Bpfsnoop.Cc.constant_zero_rejected",
    "Bpfsnoop.Cc.division_by_zero_gives_zero",
    "Bpfsnoop.Cc.never_divides_witness",
    "Bpfsnoop.Cc.wide_divisor_violated"
   ],
   "note": "a constant divisor whose low 32 bits are 0 is encoded as 0"
  },
  {
   "property": "C04",
   "status": "proved",
   "theorems": [
    "Bpfsnoop.Cc.const_decides",
    "Bpfsnoop.Cc.filter_answers_bool",
    "Bpfsnoop.Cc.filter_witness"
   ],
   "note": "filters of at most 2^15 instructions"
  },
  {
   "property": "C05",
   "status": "proved",
   "theorems": [
    "Bpfsnoop.Cc.filter_terminates",
    "Bpfsnoop.Cc.filter_jumps_forward",
    "Bpfsnoop.Cc.filter_fits",
    "Bpfsnoop.Cc.filter_witness"
   ],
   "note": "filters of at most 2^15 instructions"
  },
  {
   "property": "C06",
   "status": "proved",
   "theorems": [
    "Bpfsnoop.Cc.alloc_exclusive",
    "Bpfsnoop.Cc.alloc_exhausted_iff",
    "Bpfsnoop.Cc.free_exact",
    "Bpfsnoop.Cc.markUsed_exact",
    "Bpfsnoop.Cc.allocator_history",
    "Bpfsnoop.Cc.alloc_lo",
    "Bpfsnoop.Cc.alloc_witness"
   ],
   "note": ""
  },
  {
   "property": "C07",
   "status": "partial",
   "theorems": [
    "Bpfsnoop.Cc.null_rejects_partial",
    "Bpfsnoop.Cc.oror_null_violated",
    "Bpfsnoop.Cc.indirect_null_core_violated"
   ],
   "note": "an outermost || accepts; *pp is not checked in core mode"
  },
  {
   "property": "C08",
   "status": "partial",
   "theorems": [
    "Bpfsnoop.Cc.member_chain_reads_partial",
    "Bpfsnoop.Cc.member_chain_witness",
    "Bpfsnoop.Cc.offsetChain_reads",
    "Bpfsnoop.Cc.index_reads_violated",
    "Bpfsnoop.Cc.far_member_violated",
    "Bpfsnoop.Cc.struct_member_core_violated",
    "Bpfsnoop.Cc.accepted_indir",
    "Bpfsnoop.Cc.accepted_addr",
    "Bpfsnoop.Cc.addr_rejected",
    "Bpfsnoop.Cc.accepted_member",
    "Bpfsnoop.Cc.accept_witness",
    "Bpfsnoop.Cc.accepted_bin",
    "Bpfsnoop.Cc.calc_witness"
   ],
   "note": "chains of -> and . on a pointer argument, offsets that fit 16 bits; array elements are not read"
  },
  {
   "property": "C09",
   "status": "partial",
   "theorems": [
    "Bpfsnoop.Cc.member_chain_reads_partial",
    "Bpfsnoop.Cc.bitfield_extracts",
    "Bpfsnoop.Cc.wide_bitfield_violated",
    "Bpfsnoop.Cc.bitfield_plus_constant_violated"
   ],
   "note": "masks must fit an immediate"
  },
  {
   "property": "C10",
   "status": "proved",
   "theorems": [
    "Bpfsnoop.Cc.adjustSize_cuts",
    "Bpfsnoop.Cc.member_chain_reads_partial",
    "Bpfsnoop.Cc.member_chain_witness",
    "Bpfsnoop.Cc.core_load_width"
   ],
   "note": ""
  },
  {
   "property": "C100",
   "status": "partial",
   "theorems": [
    "Bpfsnoop.Cal.calls_found",
    "Bpfsnoop.Cal.replaced_found",
    "Bpfsnoop.Cal.jump_violated",
    "Bpfsnoop.Cal.endbr_violated",
    "Bpfsnoop.Cal.large_violated",
    "Bpfsnoop.Cal.long_violated",
    "Bpfsnoop.Cal.undecodable_violated",
    "Bpfsnoop.Cal.calls_witness"
   ],
   "note": "partial because the code violates the rest: jumps, programs with endbr, long functions; amd64 only"
  },
  {
   "property": "C101",
   "status": "partial",
   "theorems": [
    "Bpfsnoop.Gc.reach_iff",
    "Bpfsnoop.Gc.graph_code_sound",
    "Bpfsnoop.Gc.graph_code_complete_partial",
    "Bpfsnoop.Gc.jumps_missed",
    "Bpfsnoop.Gc.recursive_witness"
   ],
   "note": "partial because the code violates the rest: functions reached by jumps only, and a race in the parser that loses functions; amd64 only, readable and decodable code"
  },
  {
   "property": "C11",
   "status": "partial",
   "theorems": [
    "Bpfsnoop.Cc.live_values_survive_partial",
    "Bpfsnoop.Cc.live_values_witness",
    "Bpfsnoop.Cc.saved_values_survive",
    "Bpfsnoop.Cc.saved_values_witness",
    "Bpfsnoop.Cc.live_values_lost_probe_violated",
    "Bpfsnoop.Cc.live_values_lost_core_violated"
   ],
   "note": "saved registers survive if those of R1 to R5 in use are the first ones; the code allocates from R5 down, and then a value kept in R0 to R5 across a call is lost"
  },
  {
   "property": "C12",
   "status": "partial",
   "theorems": [
    "Bpfsnoop.Cc.parseUnsigned_iff",
    "Bpfsnoop.Cc.parseNumber_iff",
    "Bpfsnoop.Cc.parseNumber_value",
    "Bpfsnoop.Cc.parseNumber_wraps_violated",
    "Bpfsnoop.Cc.parseNumber_examples"
   ],
   "note": "literals of 2^63 and above wrap instead of being rejected"
  },
  {
   "property": "C13",
   "status": "partial",
   "theorems": [
    "Bpfsnoop.Cc.func_call_accepted_iff",
    "Bpfsnoop.Cc.postCheck_iff",
    "Bpfsnoop.Cc.output_accepted_iff",
    "Bpfsnoop.Cc.constant_output",
    "Bpfsnoop.Cc.output_size_positive_partial",
    "Bpfsnoop.Cc.output_offset_nonneg_partial",
    "Bpfsnoop.Cc.fixed_size_reads",
    "Bpfsnoop.Cc.empty_call_panics_violated",
    "Bpfsnoop.Cc.negative_offset_violated",
    "Bpfsnoop.Cc.str_empty_array_violated",
    "Bpfsnoop.Cc.slice_overflow_violated",
    "Bpfsnoop.Cc.output_size_witness"
   ],
   "note": "literals of 2^63 and above give negative offsets; slice sizes can overflow; str() of an empty array has size 0; a call without arguments panics"
  },
  {
   "property": "C14",
   "status": "proved",
   "theorems": [
    "Bpfsnoop.Cc.filter_accepted_iff",
    "Bpfsnoop.Cc.filter_witness"
   ],
   "note": ""
  },
  {
   "property": "C15",
   "status": "partial",
   "theorems": [
    "Bpfsnoop.Cc.pointer_arith_partial",
    "Bpfsnoop.Cc.index_address_partial",
    "Bpfsnoop.Cc.pointer_arith_witness",
    "Bpfsnoop.Cc.int_plus_pointer_violated",
    "Bpfsnoop.Cc.pointer_difference_violated",
    "Bpfsnoop.Cc.increment_pointer_violated",
    "Bpfsnoop.Cc.accepted_index"
   ],
   "note": "p + n, p - n and &p[n]; n + p, p - q, ++p are wrong"
  },
  {
   "property": "C16",
   "status": "partial",
   "theorems": [
    "Bpfsnoop.Cc.literal_compared_at_width_partial",
    "Bpfsnoop.Cc.literal_width_witness",
    "Bpfsnoop.Cc.minus_one_violated",
    "Bpfsnoop.Cc.high_bit_literal_violated"
   ],
   "note": "32-bit literals with the top bit set are sign-extended"
  },
  {
   "property": "C17",
   "status": "partial",
   "theorems": [
    "Bpfsnoop.Arg.params_taken_iff",
    "Bpfsnoop.Arg.fn_args_roundtrip_partial",
    "Bpfsnoop.Arg.fn_args_upto_wide_partial",
    "Bpfsnoop.Arg.after_wide_violated",
    "Bpfsnoop.Arg.wide_last_violated",
    "Bpfsnoop.Arg.ret_after_wide_violated",
    "Bpfsnoop.Arg.wide_slots_differ",
    "Bpfsnoop.Arg.kmulti_roundtrip_partial",
    "Bpfsnoop.Arg.kmulti_wide_violated",
    "Bpfsnoop.Arg.fn_args_witness"
   ],
   "note": "parameters passed in two registers are mis-decoded"
  },
  {
   "property": "C18",
   "status": "partial",
   "theorems": [
    "Bpfsnoop.Arg.output_args_roundtrip_partial",
    "Bpfsnoop.Arg.compileTop_ok",
    "Bpfsnoop.Arg.outcome_meaning_partial",
    "Bpfsnoop.Arg.hist_then_violated",
    "Bpfsnoop.Arg.far_offset_violated",
    "Bpfsnoop.Arg.far_read_violated",
    "Bpfsnoop.Arg.output_args_witness"
   ],
   "note": "Buffers of 32 KiB or more and histogram/t-digest samples that are not last are excluded; for those the claim is false (violated theorems). outcome_meaning_partial links the shown value to the meaning of the expression under the restrictions of C01."
  },
  {
   "property": "C19",
   "status": "proved",
   "theorems": [
    "Bpfsnoop.Run.exit_paired",
    "Bpfsnoop.Run.exit_reported_iff",
    "Bpfsnoop.Run.printed_at_once_iff",
    "Bpfsnoop.Run.not_reported_twice"
   ],
   "note": "every history of ring buffer records; event text is opaque"
  },
  {
   "property": "C20",
   "status": "partial",
   "theorems": [
    "Bpfsnoop.Run.run_unlimited",
    "Bpfsnoop.Run.run_limited_partial",
    "Bpfsnoop.Run.run_limited_prefix",
    "Bpfsnoop.Run.run_huge_limit_violated"
   ],
   "note": "limits of 2^63 and above print nothing"
  },
  {
   "property": "C21",
   "status": "partial",
   "theorems": [
    "Bpfsnoop.Run.duration_exact_partial",
    "Bpfsnoop.Run.short_call_suppressed",
    "Bpfsnoop.Run.duration_wraps_violated"
   ],
   "note": "durations are kept modulo 2^32 ns"
  },
  {
   "property": "C22",
   "status": "partial",
   "theorems": [
    "Bpfsnoop.KSess.sessions_nest_partial",
    "Bpfsnoop.KSess.user_sid_of_exit",
    "Bpfsnoop.KSess.session_cookie_pairs_partial",
    "Bpfsnoop.KSess.sessions_nest_violated_by_rejected_recursion",
    "Bpfsnoop.KSess.sessions_nest_violated_at_depth_65",
    "Bpfsnoop.KSess.sessions_nest_violated_by_zero_id",
    "Bpfsnoop.KSess.sessions_nest_violated_on_idle_tasks",
    "Bpfsnoop.KSess.getMode_spec",
    "Bpfsnoop.KSess.genSessionId_inj",
    "Bpfsnoop.KSess.genSessionId_zero"
   ],
   "note": "fails for rejected recursion, more than 64 nested calls, id 0 and idle tasks; proved for all other histories"
  },
  {
   "property": "C23",
   "status": "proved",
   "theorems": [
    "Bpfsnoop.KSess.graph_depth_iff",
    "Bpfsnoop.KSess.graph_entry_exit_same_depth",
    "Bpfsnoop.KSess.graph_depth_violated_by_short_stack"
   ],
   "note": "the captured stack is limited to perf_event_max_stack frames"
  },
  {
   "property": "C24",
   "status": "partial",
   "theorems": [
    "Bpfsnoop.Kallsyms.find_floor_partial",
    "Bpfsnoop.Kallsyms.find_above_last_violated",
    "Bpfsnoop.Kallsyms.find_empty_panics",
    "Bpfsnoop.Kallsyms.next_successor_partial",
    "Bpfsnoop.Kallsyms.findByName_first",
    "Bpfsnoop.Kallsyms.findByName_sound",
    "Bpfsnoop.Kallsyms.findByName_complete",
    "Bpfsnoop.Kallsyms.findSymbol_last",
    "Bpfsnoop.Kallsyms.mods_nodup",
    "Bpfsnoop.Kallsyms.mods_mem",
    "Bpfsnoop.Kallsyms.isBuiltinMod_iff"
   ],
   "note": "addresses above the start of the last symbol are not found; an empty table panics"
  },
  {
   "property": "C25",
   "status": "partial",
   "theorems": [
    "Bpfsnoop.Hist.histogram_counts_partial",
    "Bpfsnoop.Hist.histogram_zero_panics_violated",
    "Bpfsnoop.Hist.label_correct_partial",
    "Bpfsnoop.Hist.label_last_violated",
    "Bpfsnoop.Hist.printed_lines_complete",
    "Bpfsnoop.Hist.bytes2i_le",
    "Bpfsnoop.Hist.tdigest_merge_conserves"
   ],
   "note": "adding 0 panics; the last label is wrong"
  },
  {
   "property": "C26",
   "status": "partial",
   "theorems": [
    "Bpfsnoop.Hist.bar_width",
    "Bpfsnoop.Hist.bar_monotone_partial",
    "Bpfsnoop.Hist.bar_monotone_overflow_violated"
   ],
   "note": "uint64 overflow of count*width"
  },
  {
   "property": "C27",
   "status": "partial",
   "theorems": [
    "Bpfsnoop.Flame.folded_exact_partial",
    "Bpfsnoop.Flame.folded_root_violated",
    "Bpfsnoop.Flame.root_counts_all"
   ],
   "note": "a function literally named root is merged with the root"
  },
  {
   "property": "C28",
   "status": "proved",
   "theorems": [
    "Bpfsnoop.Lbr.lbr_display",
    "Bpfsnoop.Lbr.lbr_lossless",
    "Bpfsnoop.Lbr.lbr_always_displayed",
    "Bpfsnoop.Lbr.select_infix",
    "Bpfsnoop.Lbr.select_verbose",
    "Bpfsnoop.Lbr.select_kfunc"
   ],
   "note": ""
  },
  {
   "property": "C29",
   "status": "proved",
   "theorems": [
    "Bpfsnoop.Util.endbr_exact",
    "Bpfsnoop.Util.endbr_none"
   ],
   "note": ""
  },
  {
   "property": "C30",
   "status": "proved",
   "theorems": [
    "Bpfsnoop.Util.calleeIP_correct_iff",
    "Bpfsnoop.Util.calleeIP_only_calls",
    "Bpfsnoop.Util.calleeIP_violated"
   ],
   "note": "exact: right for targets in the top 4 GiB and no others (calleeIP_violated shows one outside the property)"
  },
  {
   "property": "C31",
   "status": "proved",
   "theorems": [
    "Bpfsnoop.Util.nullTerminated_longest_prefix"
   ],
   "note": ""
  },
  {
   "property": "C32",
   "status": "partial",
   "theorems": [
    "Bpfsnoop.Util.mask_least_partial",
    "Bpfsnoop.Util.mask_diverges_violated",
    "Bpfsnoop.Util.mask_fits_iff_violated",
    "Bpfsnoop.Util.mask_largest"
   ],
   "note": "diverges for values >= 2^62; a buffer of v entries is large enough for every masked index only if v is a power of two"
  },
  {
   "property": "C33",
   "status": "proved",
   "theorems": [
    "Bpfsnoop.Util.readAt_contract",
    "Bpfsnoop.Util.readAt_negative"
   ],
   "note": ""
  },
  {
   "property": "C34",
   "status": "partial",
   "theorems": [
    "Bpfsnoop.Cache.cache_sound",
    "Bpfsnoop.Cache.cache_correct_same_kernel",
    "Bpfsnoop.Cache.cache_stable",
    "Bpfsnoop.Cache.saved_never_lost_partial",
    "Bpfsnoop.Cache.saved_served_after_restart",
    "Bpfsnoop.Cache.batch_saved",
    "Bpfsnoop.Cache.concurrent_save_loses_violated",
    "Bpfsnoop.Cache.power_loss_violated",
    "Bpfsnoop.Cache.stale_after_reboot_violated"
   ],
   "note": "durability only for non-overlapping processes without power loss; the file is not keyed by kernel or boot"
  },
  {
   "property": "C35",
   "status": "proved",
   "theorems": [
    "Bpfsnoop.Att.config_read_back",
    "Bpfsnoop.Att.own_bit",
    "Bpfsnoop.Att.flags_option",
    "Bpfsnoop.Att.flags_pad",
    "Bpfsnoop.Att.event_flags"
   ],
   "note": ""
  },
  {
   "property": "C36",
   "status": "partial",
   "theorems": [
    "Bpfsnoop.Flg.parseSel_iff",
    "Bpfsnoop.Flg.parseProgFlag_iff",
    "Bpfsnoop.Flg.selector_unambiguous",
    "Bpfsnoop.Flg.parseProgFlag_hang_iff",
    "Bpfsnoop.Flg.parseProgFlag_hang_violated",
    "Bpfsnoop.Flg.parseProgFlag_witness"
   ],
   "note": "an unknown prefix makes the parser loop forever instead of being rejected"
  },
  {
   "property": "C37",
   "status": "partial",
   "theorems": [
    "Bpfsnoop.Att.fsession_paired",
    "Bpfsnoop.Att.func_events",
    "Bpfsnoop.Att.traced_flags",
    "Bpfsnoop.Att.skipSym_iff",
    "Bpfsnoop.Att.tp_events",
    "Bpfsnoop.Att.prog_events",
    "Bpfsnoop.Att.kmulti_events_partial",
    "Bpfsnoop.Att.kmulti_group_violated",
    "Bpfsnoop.Att.kmulti_graph_violated",
    "Bpfsnoop.Att.default_mode_violated",
    "Bpfsnoop.Att.fsession_insn_graph_violated"
   ],
   "note": "proved for functions, tracepoints and programs; (m) targets are grouped by parameter index and use the first function of the group; (m) with -g prints nothing; with fsession, instruction and graph events never appear; without -m and -k the mode is not the documented one"
  },
  {
   "property": "C38",
   "status": "partial",
   "theorems": [
    "Bpfsnoop.Flg.traced_sound",
    "Bpfsnoop.Flg.traced_complete",
    "Bpfsnoop.Flg.matchKfunc_iff",
    "Bpfsnoop.Flg.traced_witness",
    "Bpfsnoop.Flg.first_match_blocks_violated"
   ],
   "note": "exact condition proved: also eligibility and deny lists; a function is lost if its first matching pattern cannot trace it; two functions of one address are excluded from completeness"
  },
  {
   "property": "C39",
   "status": "partial",
   "theorems": [
    "Bpfsnoop.Pkt.skb_tuple_partial",
    "Bpfsnoop.Pkt.skb_tunnel_partial",
    "Bpfsnoop.Pkt.xdp_tuple_partial",
    "Bpfsnoop.Pkt.tuple_witness",
    "Bpfsnoop.Pkt.options_violated",
    "Bpfsnoop.Pkt.stale_violated",
    "Bpfsnoop.Pkt.version_violated",
    "Bpfsnoop.Pkt.fragment_violated",
    "Bpfsnoop.Pkt.tunnel_options_violated"
   ],
   "note": "IPv4 with TCP, UDP or ICMP and at most two option words; the violations show what is printed otherwise"
  },
  {
   "property": "C40",
   "status": "partial",
   "theorems": [
    "Bpfsnoop.Gr.graph_sound",
    "Bpfsnoop.Gr.found_sound",
    "Bpfsnoop.Gr.discovery_terminates",
    "Bpfsnoop.Gr.quiet_or_enabled",
    "Bpfsnoop.Gr.graph_complete_partial",
    "Bpfsnoop.Gr.completeness_violated",
    "Bpfsnoop.Gr.root_mark_violated",
    "Bpfsnoop.Gr.universe_witness"
   ],
   "note": "completeness only for schedules in which no goroutine looks at a graph entered but not yet filled; the root mark depends on the schedule"
  },
  {
   "property": "C41",
   "status": "partial",
   "theorems": [
    "Bpfsnoop.Tc.detector_total",
    "Bpfsnoop.Tc.detector_exact",
    "Bpfsnoop.Tc.detector_jit",
    "Bpfsnoop.Tc.skip_exact",
    "Bpfsnoop.Tc.entry_traced",
    "Bpfsnoop.Tc.no_issue_elsewhere",
    "Bpfsnoop.Tc.issue_exact_partial",
    "Bpfsnoop.Tc.issue_violated",
    "Bpfsnoop.Tc.issue_witness"
   ],
   "note": "the problem is detected exactly when the trampoline lies above the probe program; below it the displacement is taken as unsigned and bpfsnoop fails"
  },
  {
   "property": "C42",
   "status": "partial",
   "theorems": [
    "Bpfsnoop.Rp.value_printed_partial",
    "Bpfsnoop.Rp.bool_printed",
    "Bpfsnoop.Rp.enum_printed",
    "Bpfsnoop.Rp.int_text_injective",
    "Bpfsnoop.Rp.number_texts",
    "Bpfsnoop.Rp.param_printed_partial",
    "Bpfsnoop.Rp.return_printed_partial",
    "Bpfsnoop.Rp.expr_printed_partial",
    "Bpfsnoop.Rp.bool_member_violated",
    "Bpfsnoop.Rp.enum_member_violated",
    "Bpfsnoop.Rp.enum_negative_violated",
    "Bpfsnoop.Rp.bitfield_violated",
    "Bpfsnoop.Rp.empty_member_violated",
    "Bpfsnoop.Rp.repr_witness"
   ],
   "note": "types without Boolean, enum or bit-field members, for which the violations show what is printed; Booleans and enums in a register of their own when its other bytes are zero"
  },
  {
   "property": "C43",
   "status": "proved",
   "theorems": [
    "Bpfsnoop.Run.graph_exit_own_cost",
    "Bpfsnoop.Run.handle_no_panic",
    "Bpfsnoop.Run.graph_on_plain_session_violated"
   ],
   "note": "the violated theorem is about graph events of sessions opened without the graph flag, outside the property"
  },
  {
   "property": "C44",
   "status": "partial",
   "theorems": [
    "Bpfsnoop.Cache.loader_failure_hangs_violated",
    "Bpfsnoop.Cache.loader_race_violated",
    "Bpfsnoop.Cache.loader_success_partial"
   ],
   "note": "sequentially consistent interleavings"
  },
  {
   "property": "C45",
   "status": "proved",
   "theorems": [
    "Bpfsnoop.Cache.kaslr_round_trip",
    "Bpfsnoop.Cache.kaslr_base",
    "Bpfsnoop.Cache.kaslr_distance",
    "Bpfsnoop.Cache.kaslr_offset"
   ],
   "note": ""
  },
  {
   "property": "C46",
   "status": "partial",
   "theorems": [
    "Bpfsnoop.Cache.getEntry_panics_iff",
    "Bpfsnoop.Cache.getEntry_answer"
   ],
   "note": "exact condition of the crash"
  },
  {
   "property": "C47",
   "status": "partial",
   "theorems": [
    "Bpfsnoop.Flg.selected_sound",
    "Bpfsnoop.Flg.selected_complete_partial",
    "Bpfsnoop.Flg.star_complete",
    "Bpfsnoop.Flg.pkt_lost_violated",
    "Bpfsnoop.Flg.repeated_selector_violated",
    "Bpfsnoop.Flg.star_overrides_violated",
    "Bpfsnoop.Flg.pkt_kept_by_id",
    "Bpfsnoop.Flg.selected_witness"
   ],
   "note": "packet option lost; repeated selectors overwrite each other; * overrides"
  },
  {
   "property": "C48",
   "status": "partial",
   "theorems": [
    "Bpfsnoop.Flg.parseKfuncFlag_iff",
    "Bpfsnoop.Flg.kfunc_unambiguous",
    "Bpfsnoop.Flg.trim_iff",
    "Bpfsnoop.Flg.parseKfuncFlag_hang_iff",
    "Bpfsnoop.Flg.parseKfuncFlag_hang_violated",
    "Bpfsnoop.Flg.parseKfuncFlag_witness"
   ],
   "note": "an unknown prefix makes the parser loop forever instead of being rejected"
  },
  {
   "property": "C49",
   "status": "partial",
   "theorems": [
    "Bpfsnoop.Att.event_layout",
    "Bpfsnoop.Att.hdr_read_back",
    "Bpfsnoop.Att.traced_sizes",
    "Bpfsnoop.Att.graph_layout",
    "Bpfsnoop.Att.graph_fsession_violated"
   ],
   "note": "entry events of graphs show no arguments on kernels with fsession"
  },
  {
   "property": "C50",
   "status": "partial",
   "theorems": [
    "Bpfsnoop.Asm.kindOf_iff",
    "Bpfsnoop.Asm.packet_param_spec",
    "Bpfsnoop.Asm.filter_arg_code",
    "Bpfsnoop.Asm.filter_arg_code_multi",
    "Bpfsnoop.Asm.filter_pkt_code",
    "Bpfsnoop.Asm.filter_l2_code",
    "Bpfsnoop.Asm.filter_kind_code",
    "Bpfsnoop.Asm.packetParam_iff",
    "Bpfsnoop.Asm.chosen_iff",
    "Bpfsnoop.Asm.chosen_none_iff",
    "Bpfsnoop.Asm.entry_intact",
    "Bpfsnoop.Asm.emits_iff",
    "Bpfsnoop.Asm.multi_keeps_default_filter_violated",
    "Bpfsnoop.Asm.default_filter_rejects",
    "Bpfsnoop.Asm.exSpec_ok",
    "Bpfsnoop.Asm.exJob_ok",
    "Bpfsnoop.Pin.no_packet",
    "Bpfsnoop.Pin.accepted",
    "Bpfsnoop.Pin.refused_partial",
    "Bpfsnoop.Pin.ctx_violated",
    "Bpfsnoop.Pin.ex_icmp",
    "Bpfsnoop.Pin.ex_ether",
    "Bpfsnoop.Pin.ex_bad",
    "Bpfsnoop.Pin.ex_params",
    "Bpfsnoop.Pin.ex_typo"
   ],
   "note": "an invalid --filter-pkt is not refused for BPF programs (Pin.ctx_violated); (m) targets without --filter-pkt keep the default packet filter of the C source, which rejects calls whose first argument is not readable; the code elibpcap emits is a parameter"
  },
  {
   "property": "C51",
   "status": "partial",
   "theorems": [
    "Bpfsnoop.Asm.session_patched",
    "Bpfsnoop.Asm.session_no_stub_calls",
    "Bpfsnoop.Asm.session_calls",
    "Bpfsnoop.Asm.no_dangling_calls",
    "Bpfsnoop.Asm.no_dangling_calls_multi",
    "Bpfsnoop.Asm.entry_intact",
    "Bpfsnoop.Asm.entry_intact_multi",
    "Bpfsnoop.Asm.inject_shape",
    "Bpfsnoop.Asm.clear_drops_name_violated",
    "Bpfsnoop.Asm.exSpec_ok",
    "Bpfsnoop.Asm.exJob_ok"
   ],
   "note": "assumes no compiled function begins with a call of a function that is removed (clear_drops_name_violated shows why)"
  },
  {
   "property": "C52",
   "status": "partial",
   "theorems": [
    "Bpfsnoop.Lbl.labels_right_partial",
    "Bpfsnoop.Lbl.labels_right_single",
    "Bpfsnoop.Lbl.refused_if",
    "Bpfsnoop.Lbl.labels_differ",
    "Bpfsnoop.Lbl.labels_all",
    "Bpfsnoop.Lbl.one_program",
    "Bpfsnoop.Lbl.one_expression",
    "Bpfsnoop.Lbl.assembled",
    "Bpfsnoop.Lbl.refused",
    "Bpfsnoop.Lbl.race_violated",
    "Bpfsnoop.Lbl.race_two_violated",
    "Bpfsnoop.Lbl.expressions",
    "Bpfsnoop.Lbl.turns_serial",
    "Bpfsnoop.Cc.label_noted"
   ],
   "note": "partial because the code violates the rest: calls of genExitLabel may overlap (race_violated). Proved for every schedule without overlap, for one program and for one expression each without that"
  },
  {
   "property": "C53",
   "status": "partial",
   "theorems": [
    "Bpfsnoop.Opt.contains_iff",
    "Bpfsnoop.Opt.setDefaultModes_inForce",
    "Bpfsnoop.Opt.inForce_unique",
    "Bpfsnoop.Opt.checkMode_iff",
    "Bpfsnoop.Opt.trimParen_iff",
    "Bpfsnoop.Opt.findAgg_iff",
    "Bpfsnoop.Opt.multiExitConflict_iff",
    "Bpfsnoop.Opt.fgraphMulti_iff",
    "Bpfsnoop.Opt.check_ok_iff",
    "Bpfsnoop.Opt.check_witness",
    "Bpfsnoop.Opt.kfuncs_divided",
    "Bpfsnoop.Opt.two_histograms_violated",
    "Bpfsnoop.Opt.tracepoint_lbr_violated"
   ],
   "note": "a second histogram with a leading blank is accepted; tracepoints marked (l) do not open the LBR events"
  },
  {
   "property": "C54",
   "status": "partial",
   "theorems": [
    "Bpfsnoop.KRead.read_exact",
    "Bpfsnoop.KRead.read_fresh",
    "Bpfsnoop.KRead.reads_exact",
    "Bpfsnoop.KRead.readKernel_buff",
    "Bpfsnoop.KRead.large_refused",
    "Bpfsnoop.KRead.fault_zeros_violated",
    "Bpfsnoop.KRead.full_buffer_stale_violated",
    "Bpfsnoop.KRead.huge_panics_violated"
   ],
   "note": "proved up to 65528 bytes; faults read as zeros, 65529 to 65536 bytes return stale bytes, the seven largest sizes panic"
  },
  {
   "property": "C55",
   "status": "partial",
   "theorems": [
    "Bpfsnoop.Dis.trimTail_spec",
    "Bpfsnoop.Dis.unpadded_unique",
    "Bpfsnoop.Dis.dump_spec",
    "Bpfsnoop.Dis.guess_given",
    "Bpfsnoop.Dis.guess_next",
    "Bpfsnoop.Dis.function_listed",
    "Bpfsnoop.Dis.jump_lost_violated",
    "Bpfsnoop.Dis.listing_65536_violated",
    "Bpfsnoop.Dis.target_name",
    "Bpfsnoop.Dis.address_text",
    "Bpfsnoop.Dis.address_selects",
    "Bpfsnoop.Dis.hex_name_violated"
   ],
   "note": "padding is removed byte by byte; names that are hexadecimal numbers are taken as addresses"
  },
  {
   "property": "C56",
   "status": "partial",
   "theorems": [
    "Bpfsnoop.Dis.insnsOf_nth",
    "Bpfsnoop.Dis.nth_within",
    "Bpfsnoop.Dis.nth_lt",
    "Bpfsnoop.Dis.insns_traced",
    "Bpfsnoop.Dis.insn_within",
    "Bpfsnoop.Dis.insn_unique",
    "Bpfsnoop.Dis.short_function_violated",
    "Bpfsnoop.Dis.body_funcAt",
    "Bpfsnoop.Dis.insns_witness"
   ],
   "note": "functions of one to three instructions panic"
  },
  {
   "property": "C57",
   "status": "partial",
   "theorems": [
    "Bpfsnoop.Li.search_spec",
    "Bpfsnoop.Li.get_miss",
    "Bpfsnoop.Li.get_line",
    "Bpfsnoop.Li.get_panics_iff_violated",
    "Bpfsnoop.Li.shared_address_violated",
    "Bpfsnoop.Li.trimFile_plain",
    "Bpfsnoop.Li.trimFile_rel",
    "Bpfsnoop.Li.hidden_directory_violated",
    "Bpfsnoop.Li.prog_address_partial",
    "Bpfsnoop.Li.prog_address_witness",
    "Bpfsnoop.Li.kernel_address_partial",
    "Bpfsnoop.Li.kernel_address_no_line",
    "Bpfsnoop.Li.cutDir_iff",
    "Bpfsnoop.Li.build_path_violated"
   ],
   "note": "proved for line records in strictly increasing order and functions that do not overlap; other tables panic"
  },
  {
   "property": "C58",
   "status": "partial",
   "theorems": [
    "Bpfsnoop.Li.newInfo_ok",
    "Bpfsnoop.Li.newInfo_accepts",
    "Bpfsnoop.Li.newInfo_err",
    "Bpfsnoop.Li.missing_code_panics_violated",
    "Bpfsnoop.Li.load_complete_partial",
    "Bpfsnoop.Li.load_reports",
    "Bpfsnoop.Li.load_crash_violated",
    "Bpfsnoop.Li.load_witness",
    "Bpfsnoop.Li.crash_witness"
   ],
   "note": "proved for programs with distinct addresses; a program without JIT code panics"
  },
  {
   "property": "C59",
   "status": "partial",
   "theorems": [
    "Bpfsnoop.Stk.isEntryFrame_iff",
    "Bpfsnoop.Stk.frames_verbose",
    "Bpfsnoop.Stk.frames_rest",
    "Bpfsnoop.Stk.frames_after",
    "Bpfsnoop.Stk.no_entry_frame_violated",
    "Bpfsnoop.Stk.own_stack_partial",
    "Bpfsnoop.Stk.one_by_one",
    "Bpfsnoop.Stk.second_lost_violated",
    "Bpfsnoop.Stk.foreign_stack_violated",
    "Bpfsnoop.Stk.collision_violated",
    "Bpfsnoop.Stk.kept_bucket",
    "Bpfsnoop.Stk.dropped_blocks_violated",
    "Bpfsnoop.Stk.own_stack_witness"
   ],
   "note": "proved for waiting events in different buckets and for events shown one by one without drops; otherwise stacks are lost or exchanged"
  },
  {
   "property": "C60",
   "status": "partial",
   "theorems": [
    "Bpfsnoop.LbrM.snap_shown",
    "Bpfsnoop.LbrM.own_lbr_partial",
    "Bpfsnoop.LbrM.shown_in_order",
    "Bpfsnoop.LbrM.interrupted_violated",
    "Bpfsnoop.LbrM.cleared_violated",
    "Bpfsnoop.LbrM.same_id_violated",
    "Bpfsnoop.LbrM.full_keeps",
    "Bpfsnoop.LbrM.full_map_violated",
    "Bpfsnoop.LbrM.lbr_not_dropped",
    "Bpfsnoop.LbrM.tp_no_session",
    "Bpfsnoop.LbrM.multi_not_dropped",
    "Bpfsnoop.LbrM.multi_graph_dropped_violated",
    "Bpfsnoop.LbrM.lbr_once",
    "Bpfsnoop.LbrM.canLbr_iff",
    "Bpfsnoop.LbrM.own_lbr_witness"
   ],
   "note": "proved for histories in which no program interrupts another between reading and sending, ids are fresh and the map has room; otherwise records are lost or exchanged"
  },
  {
   "property": "C61",
   "status": "partial",
   "theorems": [
    "Bpfsnoop.Tp.probe_kernel_partial",
    "Bpfsnoop.Tp.one_fails_all_violated",
    "Bpfsnoop.Tp.long_name_violated",
    "Bpfsnoop.Tp.walk_chain",
    "Bpfsnoop.Tp.modules_visited",
    "Bpfsnoop.Tp.bad_bounds_fail",
    "Bpfsnoop.Tp.broken_btf_fails",
    "Bpfsnoop.Tp.panics_iff",
    "Bpfsnoop.Tp.probe_modules_partial",
    "Bpfsnoop.Tp.addMods_spec",
    "Bpfsnoop.Tp.kernel_first",
    "Bpfsnoop.Tp.one_module",
    "Bpfsnoop.Tp.nothing_else",
    "Bpfsnoop.Tp.module_order_violated",
    "Bpfsnoop.Tp.matchOne_iff",
    "Bpfsnoop.Tp.selected_iff",
    "Bpfsnoop.Tp.selected_plain",
    "Bpfsnoop.Tp.kernel_selected_partial",
    "Bpfsnoop.Tp.merged_spec",
    "Bpfsnoop.Tp.found_witness"
   ],
   "note": "proved when every prototype resolves, names differ in 63 characters and no name is in two modules"
  },
  {
   "property": "C62",
   "status": "partial",
   "theorems": [
    "Bpfsnoop.Km.sortCompact_spec",
    "Bpfsnoop.Km.infer_iff",
    "Bpfsnoop.Km.prepare_iff",
    "Bpfsnoop.Km.flag_hides_module_violated",
    "Bpfsnoop.Km.prefix_hides_module_violated",
    "Bpfsnoop.Km.names_all",
    "Bpfsnoop.Km.names_partial",
    "Bpfsnoop.Km.names_panic_iff_violated",
    "Bpfsnoop.Km.names_given",
    "Bpfsnoop.Km.twice_violated",
    "Bpfsnoop.Km.proto_panics_violated",
    "Bpfsnoop.Km.search_sound",
    "Bpfsnoop.Km.search_complete",
    "Bpfsnoop.Km.named_searched",
    "Bpfsnoop.Km.flagged_not_found_violated",
    "Bpfsnoop.Km.broken_fails",
    "Bpfsnoop.Km.detect_found",
    "Bpfsnoop.Km.detect_absent",
    "Bpfsnoop.Km.detect_panics_violated",
    "Bpfsnoop.Km.detect_denied"
   ],
   "note": "proved unless vmlinux is given together with modules; options with flags lose their module"
  },
  {
   "property": "C63",
   "status": "partial",
   "theorems": [
    "Bpfsnoop.Tr.probe_x86_iff",
    "Bpfsnoop.Tr.probe_arm_iff",
    "Bpfsnoop.Tr.no_endbr_violated",
    "Bpfsnoop.Tr.far_bl_violated",
    "Bpfsnoop.Tr.own_call_violated",
    "Bpfsnoop.Tr.kept_iff",
    "Bpfsnoop.Tr.kept_arm_iff",
    "Bpfsnoop.Tr.short_read_violated",
    "Bpfsnoop.Tr.tramp_target",
    "Bpfsnoop.Tr.no_tramp",
    "Bpfsnoop.Tr.jmpMode_iff",
    "Bpfsnoop.Tr.probeTramps_spec",
    "Bpfsnoop.Tr.tracee_iff",
    "Bpfsnoop.Tr.extract_iff",
    "Bpfsnoop.Tr.jmp_iff_partial",
    "Bpfsnoop.Tr.depth_shown"
   ],
   "note": "proved for kernels where all functions have the same prologue; with jumps, if no two functions share a trampoline"
  },
  {
   "property": "C64",
   "status": "partial",
   "theorems": [
    "Bpfsnoop.Pt.mem_leaves",
    "Bpfsnoop.Pt.layout_shown_partial",
    "Bpfsnoop.Pt.layout_total",
    "Bpfsnoop.Pt.layout_witness",
    "Bpfsnoop.Pt.repr_total",
    "Bpfsnoop.Pt.declaration_partial",
    "Bpfsnoop.Pt.typedef_pointer_violated",
    "Bpfsnoop.Pt.array_semicolon_violated",
    "Bpfsnoop.Pt.qualifier_violated",
    "Bpfsnoop.Pt.qualifier_partial",
    "Bpfsnoop.Pt.sizeof_iff",
    "Bpfsnoop.Pt.under_iff",
    "Bpfsnoop.Pt.array_declaration_partial",
    "Bpfsnoop.Pt.array_text",
    "Bpfsnoop.Pt.function_pointer_shown",
    "Bpfsnoop.Pt.function_pointer_witness",
    "Bpfsnoop.Pt.enum_shown",
    "Bpfsnoop.Pt.negative_enum_violated",
    "Bpfsnoop.Pt.findType_iff",
    "Bpfsnoop.Pt.ambiguous_violated",
    "Bpfsnoop.Pt.types_shown",
    "Bpfsnoop.Pt.function_first_violated"
   ],
   "note": "layout proved for offsets below 2^32 bits and structs at whole bytes; declarations except arrays and pointers behind typedefs or qualifiers (shown wrong)"
  },
  {
   "property": "C65",
   "status": "partial",
   "theorems": [
    "Bpfsnoop.Pt.prototype_shown",
    "Bpfsnoop.Pt.listing_shown",
    "Bpfsnoop.Pt.prototype_read",
    "Bpfsnoop.Pt.prototype_witness",
    "Bpfsnoop.Pt.variadic_violated",
    "Bpfsnoop.Pt.function_pointer_violated"
   ],
   "note": "reading back proved for named parameters whose type texts have no comma or parenthesis (all but pointers to arrays); variadic functions and function pointers are shown wrong"
  },
  {
   "property": "C66",
   "status": "partial",
   "theorems": [
    "Bpfsnoop.Ct.report_shown_partial",
    "Bpfsnoop.Ct.report_witness",
    "Bpfsnoop.Ct.tree_lines",
    "Bpfsnoop.Ct.tree_unique",
    "Bpfsnoop.Ct.detect_iff",
    "Bpfsnoop.Ct.findBtf_iff",
    "Bpfsnoop.Ct.findBtf_none_iff",
    "Bpfsnoop.Ct.variadic_iff",
    "Bpfsnoop.Ct.structRet_iff",
    "Bpfsnoop.Ct.kernelRoot_sized",
    "Bpfsnoop.Ct.progRoot_sized",
    "Bpfsnoop.Ct.stdout_lines",
    "Bpfsnoop.Ct.disasm_bytes_violated",
    "Bpfsnoop.Ct.interrupted_violated",
    "Bpfsnoop.Ct.struct_name_violated",
    "Bpfsnoop.Ct.same_name_violated",
    "Bpfsnoop.Ct.ambiguous_bare_violated",
    "Bpfsnoop.Ct.noreturn_violated"
   ],
   "note": "proved without --disasm-bytes and where nothing crashes; interrupted: some lines missing"
  },
  {
   "property": "C67",
   "status": "partial",
   "theorems": [
    "Bpfsnoop.RdD.read_shown_partial",
    "Bpfsnoop.RdD.read_meaning_partial",
    "Bpfsnoop.RdD.not_run",
    "Bpfsnoop.RdD.read_witness"
   ],
   "note": "results below 32 KiB; meaning with the restrictions of C01"
  },
  {
   "property": "C68",
   "status": "proved",
   "theorems": [
    "Bpfsnoop.Sta.recorded_complete",
    "Bpfsnoop.Sta.end_clean",
    "Bpfsnoop.Sta.fatal_ready",
    "Bpfsnoop.Sta.detect_iff",
    "Bpfsnoop.Sta.lbr_gated",
    "Bpfsnoop.Sta.shows",
    "Bpfsnoop.Sta.witness",
    "Bpfsnoop.Sta.lbr_gated_witness",
    "Bpfsnoop.Sta.stack_gate_violated",
    "Bpfsnoop.Sta.fatal_attached_violated",
    "Bpfsnoop.Sta.did_succeeded"
   ],
   "note": "steps as parameters; LBR gate does not cover tracepoints (C53 tracepoint_lbr_violated)"
  },
  {
   "property": "C69",
   "status": "partial",
   "theorems": [
    "Bpfsnoop.Ln.duration_unit",
    "Bpfsnoop.Ln.insn_aligned",
    "Bpfsnoop.Ln.who_iff",
    "Bpfsnoop.Ln.duration_exact",
    "Bpfsnoop.Ln.clock_exact",
    "Bpfsnoop.Ln.head_unique",
    "Bpfsnoop.Ln.event_unique",
    "Bpfsnoop.Ln.graph_unique",
    "Bpfsnoop.Ln.insn_unique",
    "Bpfsnoop.Ln.one_line",
    "Bpfsnoop.Ln.name_unique",
    "Bpfsnoop.Ln.line_witness",
    "Bpfsnoop.Ln.one_line_violated"
   ],
   "note": "one line only without newline in the process name (one_line_violated); without colours; function names without blanks"
  },
  {
   "property": "C70",
   "status": "partial",
   "theorems": [
    "Bpfsnoop.Dp.source_shown",
    "Bpfsnoop.Dp.prog_listed",
    "Bpfsnoop.Dp.prog_listed_total",
    "Bpfsnoop.Dp.operand_address",
    "Bpfsnoop.Dp.operand_other",
    "Bpfsnoop.Dp.exInfo_sound",
    "Bpfsnoop.Dp.listing_witness",
    "Bpfsnoop.Dp.source_hidden_violated",
    "Bpfsnoop.Dp.undecodable_violated",
    "Bpfsnoop.Dp.any_program_violated",
    "Bpfsnoop.Dp.any_program_witness"
   ],
   "note": "only the last of several source lines at one address; nothing if a byte cannot be decoded; one of several programs at random"
  },
  {
   "property": "C71",
   "status": "partial",
   "theorems": [
    "Bpfsnoop.Df.places",
    "Bpfsnoop.Df.no_directory",
    "Bpfsnoop.Df.vmlinux_usual",
    "Bpfsnoop.Df.vmlinux_given",
    "Bpfsnoop.Df.vmlinux_used",
    "Bpfsnoop.Df.module_found",
    "Bpfsnoop.Df.module_notFound",
    "Bpfsnoop.Df.module_history",
    "Bpfsnoop.Df.module_answers_kept",
    "Bpfsnoop.Df.module_text_addr",
    "Bpfsnoop.Df.vmlinux_witness",
    "Bpfsnoop.Df.module_witness",
    "Bpfsnoop.Df.exTree_inOrder",
    "Bpfsnoop.Df.given_file_violated",
    "Bpfsnoop.Df.given_file_fatal_violated",
    "Bpfsnoop.Df.unreadable_violated",
    "Bpfsnoop.Df.stale_not_found_violated",
    "Bpfsnoop.Df.module_section_violated"
   ],
   "note": "violated by files of other names, unreadable directories, other sections"
  },
  {
   "property": "C72",
   "status": "partial",
   "theorems": [
    "Bpfsnoop.Sel.names_iff",
    "Bpfsnoop.Sel.prepare_iff",
    "Bpfsnoop.Sel.filter_chosen",
    "Bpfsnoop.Sel.filter_fails",
    "Bpfsnoop.Sel.outputs_chosen",
    "Bpfsnoop.Sel.filter_mentioned_only",
    "Bpfsnoop.Sel.output_mentioned_only",
    "Bpfsnoop.Sel.unsup_rejected",
    "Bpfsnoop.Sel.filter_chosen_witness",
    "Bpfsnoop.Sel.outputs_witness",
    "Bpfsnoop.Sel.first_argument_witness",
    "Bpfsnoop.Sel.mentioned_only_witness",
    "Bpfsnoop.Sel.second_filter_violated",
    "Bpfsnoop.Sel.foreign_name_violated",
    "Bpfsnoop.Sel.constant_address_violated",
    "Bpfsnoop.Sel.empty_call_violated",
    "Bpfsnoop.Sel.keyword_violated"
   ],
   "note": "violated by a second filter, foreign names, constant addresses, calls without arguments"
  },
  {
   "property": "C73",
   "status": "partial",
   "theorems": [
    "Bpfsnoop.Av.right_word_iff",
    "Bpfsnoop.Av.words_read",
    "Bpfsnoop.Av.filter_arguments_partial",
    "Bpfsnoop.Av.output_arguments_partial",
    "Bpfsnoop.Av.multi_filter_alone",
    "Bpfsnoop.Av.multi_output_alone",
    "Bpfsnoop.Av.multi_output_refused",
    "Bpfsnoop.Av.multi_arguments_partial",
    "Bpfsnoop.Av.correct_iff",
    "Bpfsnoop.Av.correct_params",
    "Bpfsnoop.Av.filter_arguments_witness",
    "Bpfsnoop.Av.multi_witness",
    "Bpfsnoop.Av.correct_witness",
    "Bpfsnoop.Av.wide_parameter_violated",
    "Bpfsnoop.Av.beyond_registers_violated",
    "Bpfsnoop.Av.other_place_violated",
    "Bpfsnoop.Av.other_selector_violated",
    "Bpfsnoop.Av.unnamed_selector_violated"
   ],
   "note": "violated by parameters of more than 8 bytes, by (m) beyond registers and in groups of different functions"
  },
  {
   "property": "C74",
   "status": "partial",
   "theorems": [
    "Bpfsnoop.Gs.verdict_sound",
    "Bpfsnoop.Gs.verdict_partial",
    "Bpfsnoop.Gs.shown_obeys",
    "Bpfsnoop.Gs.denied_never_shown",
    "Bpfsnoop.Gs.own_functions_never_shown",
    "Bpfsnoop.Gs.missing_types",
    "Bpfsnoop.Gs.missing_witness",
    "Bpfsnoop.Gs.shown_iff_partial",
    "Bpfsnoop.Gs.shown_witness",
    "Bpfsnoop.Gs.own_witness",
    "Bpfsnoop.Gs.unlisted_witness",
    "Bpfsnoop.Gs.unlisted_root_violated",
    "Bpfsnoop.Gs.include_all_violated",
    "Bpfsnoop.Gs.large_parameter_violated",
    "Bpfsnoop.Gs.denial_violated",
    "Bpfsnoop.Gs.denied_root_violated"
   ],
   "note": "exact where parameters take one register each and without the race of C40; violated otherwise and by roots not included"
  },
  {
   "property": "C75",
   "status": "partial",
   "theorems": [
    "Bpfsnoop.Ot.mac_shown",
    "Bpfsnoop.Ot.ip4_shown",
    "Bpfsnoop.Ot.ip6_groups_read",
    "Bpfsnoop.Ot.ip6_shown",
    "Bpfsnoop.Ot.ip6_inj",
    "Bpfsnoop.Ot.buf_shown",
    "Bpfsnoop.Ot.hex_shown",
    "Bpfsnoop.Ot.port_shown",
    "Bpfsnoop.Ot.int_shown",
    "Bpfsnoop.Ot.addr_shown",
    "Bpfsnoop.Ot.shown_length",
    "Bpfsnoop.Ot.text_determines",
    "Bpfsnoop.Ot.slice_shown",
    "Bpfsnoop.Ot.string_shown",
    "Bpfsnoop.Ot.line_shown_partial",
    "Bpfsnoop.Ot.line_exact",
    "Bpfsnoop.Ot.trailing_comma_violated",
    "Bpfsnoop.Ot.missing_comma_violated"
   ],
   "note": "the notations are exact; the line is only right if histograms come first and are not NULL"
  },
  {
   "property": "C76",
   "status": "partial",
   "theorems": [
    "Bpfsnoop.Ot.xdp_shown",
    "Bpfsnoop.Ot.tc_shown_partial",
    "Bpfsnoop.Ot.tc_unspec_violated"
   ],
   "note": "XDP is right; TC only for non-negative values"
  },
  {
   "property": "C77",
   "status": "partial",
   "theorems": [
    "Bpfsnoop.Lt.branches_read",
    "Bpfsnoop.Lt.branches_aligned",
    "Bpfsnoop.Lt.branch_colours",
    "Bpfsnoop.Lt.frames_read",
    "Bpfsnoop.Lt.frame_colours_iff",
    "Bpfsnoop.Lt.frame_colours_violated",
    "Bpfsnoop.Lt.branches_witness",
    "Bpfsnoop.Lt.frames_witness"
   ],
   "note": "all but colours of frames with very long names"
  },
  {
   "property": "C78",
   "status": "partial",
   "theorems": [
    "Bpfsnoop.Pl.listing_shown",
    "Bpfsnoop.Pl.listing_read",
    "Bpfsnoop.Pl.oneLine",
    "Bpfsnoop.Pl.comment_shown",
    "Bpfsnoop.Pl.listed_sound",
    "Bpfsnoop.Pl.listed_complete",
    "Bpfsnoop.Pl.mark_says",
    "Bpfsnoop.Pl.mark_traced_partial",
    "Bpfsnoop.Pl.listing_total",
    "Bpfsnoop.Pl.noreturn_marked_violated",
    "Bpfsnoop.Pl.duped_unmarked_violated",
    "Bpfsnoop.Pl.program_error_violated",
    "Bpfsnoop.Pl.alias_hidden_violated",
    "Bpfsnoop.Pl.first_module_only_violated",
    "Bpfsnoop.Pl.listing_witness"
   ],
   "note": "text, order, totals and reading proved; the mark agrees with tracing except for the violations listed"
  },
  {
   "property": "C79",
   "status": "partial",
   "theorems": [
    "Bpfsnoop.Cg.graph_shown_partial",
    "Bpfsnoop.Cg.graph_shown_limited_partial",
    "Bpfsnoop.Cg.gevt_read_back",
    "Bpfsnoop.Cg.fgraph_read",
    "Bpfsnoop.Cg.fgraph_type",
    "Bpfsnoop.Cg.chain_lines",
    "Bpfsnoop.Cg.lines_length",
    "Bpfsnoop.Cg.graph_shown_witness",
    "Bpfsnoop.Cg.fsession_no_records",
    "Bpfsnoop.Cg.fsession_violated",
    "Bpfsnoop.Cg.rejected_recursion_violated",
    "Bpfsnoop.Cg.same_id_violated",
    "Bpfsnoop.Cg.lost_record_violated"
   ],
   "note": "proved for all trees and schedules when sessions are kept in the map, ids differ, stacks are complete and no record is lost; each condition has a run that fails without it"
  },
  {
   "property": "C80",
   "status": "partial",
   "theorems": [
    "Bpfsnoop.Sf.kallsyms_read",
    "Bpfsnoop.Sf.kallsyms_find",
    "Bpfsnoop.Sf.kallsyms_special",
    "Bpfsnoop.Sf.kallsyms_mods",
    "Bpfsnoop.Sf.rawLines_last",
    "Bpfsnoop.Sf.available_read",
    "Bpfsnoop.Sf.available_kept",
    "Bpfsnoop.Sf.available_name_only_violated",
    "Bpfsnoop.Sf.pid_programs",
    "Bpfsnoop.Sf.pid_format_violated",
    "Bpfsnoop.Sf.lbr_nr",
    "Bpfsnoop.Sf.lbr_nr_fault_violated"
   ],
   "note": "all parts proved for the kernel's format; violated: attachable functions are compared by name only, a failed read of the number of branch records counts as zero"
  },
  {
   "property": "C81",
   "status": "partial",
   "theorems": [
    "Bpfsnoop.Ht.histogram_readback_partial",
    "Bpfsnoop.Ht.digest_readback",
    "Bpfsnoop.Ht.flamegraph_readback_partial",
    "Bpfsnoop.Ht.flamegraph_unwritable",
    "Bpfsnoop.Ht.nothing_printed",
    "Bpfsnoop.Ht.valMax_max",
    "Bpfsnoop.Ht.flamegraph_stale_violated"
   ],
   "note": "read back exactly; partial because zero samples panic and 2^63 and above are labelled wrong (C25), a function called root is lost (C27), and an old file stays if nothing was seen"
  },
  {
   "property": "C82",
   "status": "partial",
   "theorems": [
    "Bpfsnoop.Ft.args_shown_partial",
    "Bpfsnoop.Ft.enum_ptr_shown",
    "Bpfsnoop.Ft.enum_ptr_violated",
    "Bpfsnoop.Ft.nothing_shown",
    "Bpfsnoop.Ft.kmulti_shown_partial",
    "Bpfsnoop.Ft.fnptr_shown"
   ],
   "note": "partial: values of the types C42 shows to be printed wrong, parameters in two registers (C17) and negative TC results (C76) are left out"
  },
  {
   "property": "C83",
   "status": "partial",
   "theorems": [
    "Bpfsnoop.Wh.wanted_shown_partial",
    "Bpfsnoop.Wh.filter_answer",
    "Bpfsnoop.Wh.wanted_iff",
    "Bpfsnoop.Wh.record_text",
    "Bpfsnoop.Wh.single_moment",
    "Bpfsnoop.Wh.call_moment",
    "Bpfsnoop.Wh.return_moment",
    "Bpfsnoop.Wh.graph_record",
    "Bpfsnoop.Wh.history",
    "Bpfsnoop.Wh.packet_answer",
    "Bpfsnoop.Wh.passes_iff",
    "Bpfsnoop.Wh.multi_return_args_violated",
    "Bpfsnoop.Wh.multi_exit_filter_violated",
    "Bpfsnoop.Wh.default_packet_violated",
    "Bpfsnoop.Wh.multi_skip_ignored",
    "Bpfsnoop.Wh.multi_skip_tunnel_violated",
    "Bpfsnoop.Wh.graph_record_violated",
    "Bpfsnoop.Wh.dies_reason"
   ],
   "note": "partial: with (m) a return shows what is in the argument registers then, a filter is not applied in mode exit, the C source of the packet filter drops calls whose first argument looks like an empty sk_buff, and --skip-tunnel has no effect; prototypes of types that C42 and C17 show to be printed faithfully, filters in the fragment of C01 that read no null pointer; (i) and (g) for functions without session programs (C84, C79) and without (m); a record of a function of a graph has 32 bytes behind it; without session programs the histories that C22 shows to be paired"
  },
  {
   "property": "C84",
   "status": "partial",
   "theorems": [
    "Bpfsnoop.Ir.insns_shown_partial",
    "Bpfsnoop.Ir.insns_shown_limited_partial",
    "Bpfsnoop.Ir.ievt_read_back",
    "Bpfsnoop.Ir.insn_recs",
    "Bpfsnoop.Ir.insn_type",
    "Bpfsnoop.Ir.table_exact",
    "Bpfsnoop.Ir.table_whole",
    "Bpfsnoop.Ir.insnInfo_unique",
    "Bpfsnoop.Ir.line_unique",
    "Bpfsnoop.Ir.insns_shown_witness",
    "Bpfsnoop.Ir.fsession_no_records",
    "Bpfsnoop.Ir.fsession_violated",
    "Bpfsnoop.Ir.rejected_recursion_violated",
    "Bpfsnoop.Ir.misplaced_violated",
    "Bpfsnoop.Ir.short_function_violated",
    "Bpfsnoop.Ir.insn_length"
   ],
   "note": "partial because the code violates the rest: kernels with fsession, rejected calls within recorded calls of the same function, names shared by two functions, functions of fewer than four instructions; two calls with the same id at once and lost records as for C79"
  },
  {
   "property": "C85",
   "status": "partial",
   "theorems": [
    "Bpfsnoop.Pn.calls",
    "Bpfsnoop.Pn.silent",
    "Bpfsnoop.Pn.kept_sound",
    "Bpfsnoop.Pn.kept_complete",
    "Bpfsnoop.Pn.plain_up",
    "Bpfsnoop.Pn.multi_sound",
    "Bpfsnoop.Pn.multi_complete",
    "Bpfsnoop.Pn.multi_up",
    "Bpfsnoop.Pn.multi_calls_partial",
    "Bpfsnoop.Pn.tp_hits",
    "Bpfsnoop.Pn.prog_runs",
    "Bpfsnoop.Pn.finish_iff",
    "Bpfsnoop.Pn.finish_order",
    "Bpfsnoop.Pn.refused_iff",
    "Bpfsnoop.Pn.fate_attach_iff",
    "Bpfsnoop.Pn.fate_skip_iff",
    "Bpfsnoop.Pn.ignoreLoad_iff",
    "Bpfsnoop.Pn.ignoreLink_iff",
    "Bpfsnoop.Pn.parseAll_iff",
    "Bpfsnoop.Pn.groups_spec",
    "Bpfsnoop.Pn.plan_exists",
    "Bpfsnoop.Pn.exWanted",
    "Bpfsnoop.Pn.exWantedMulti",
    "Bpfsnoop.Pn.exPlan",
    "Bpfsnoop.Pn.no_tracefs_violated",
    "Bpfsnoop.Pn.half_violated",
    "Bpfsnoop.Pn.overlap_violated",
    "Bpfsnoop.Pn.stray_violated",
    "Bpfsnoop.Pn.twice_violated",
    "Bpfsnoop.Pn.recursive_violated"
   ],
   "note": "partial because the code violates the rest: half-attached functions, overlapping (m) options, groups of (m) functions that do not agree (C37), functions selected both ways"
  },
  {
   "property": "C86",
   "status": "partial",
   "theorems": [
    "Bpfsnoop.Sid.open_ids_distinct",
    "Bpfsnoop.Sid.ids_eq_iff",
    "Bpfsnoop.Sid.sessionId_x86",
    "Bpfsnoop.Sid.kmulti_distinct",
    "Bpfsnoop.Sid.zero_iff",
    "Bpfsnoop.Sid.foreign_fexit_violated",
    "Bpfsnoop.Sid.orc_violated",
    "Bpfsnoop.Sid.kmulti_violated",
    "Bpfsnoop.Sid.tp_violated",
    "Bpfsnoop.Sid.arm_never_detected_violated",
    "Bpfsnoop.Sid.arm_tp_violated",
    "Bpfsnoop.Sid.arm_tp_apart"
   ],
   "note": "partial because the code violates the rest: kernels without frame pointers, foreign fexit programs, (m), tracepoints, arm64"
  },
  {
   "property": "C87",
   "status": "partial",
   "theorems": [
    "Bpfsnoop.Bg.table_complete",
    "Bpfsnoop.Bg.shown_traced",
    "Bpfsnoop.Bg.writers_exclusive",
    "Bpfsnoop.Bg.race_by_readers",
    "Bpfsnoop.Bg.calm_no_crash",
    "Bpfsnoop.Bg.progress",
    "Bpfsnoop.Bg.terminates",
    "Bpfsnoop.Bg.err_iff",
    "Bpfsnoop.Bg.ex_hyps",
    "Bpfsnoop.Bg.ex_calm",
    "Bpfsnoop.Bg.early_violated",
    "Bpfsnoop.Bg.write_race_violated",
    "Bpfsnoop.Bg.add_race_violated"
   ],
   "note": "partial because the code violates the rest: the tracers do not wait for the programs to be read, and the table is read without the lock"
  },
  {
   "property": "C88",
   "status": "partial",
   "theorems": [
    "Bpfsnoop.LbrEv.unknown_refused",
    "Bpfsnoop.LbrEv.all_opened",
    "Bpfsnoop.LbrEv.first_refusal",
    "Bpfsnoop.LbrEv.asks_unique",
    "Bpfsnoop.LbrEv.types_as_a_set",
    "Bpfsnoop.LbrEv.close_all",
    "Bpfsnoop.LbrEv.ex_types",
    "Bpfsnoop.LbrEv.ex_open",
    "Bpfsnoop.LbrEv.ex_leak",
    "Bpfsnoop.LbrEv.ex_unknown",
    "Bpfsnoop.LbrEv.leak_violated",
    "Bpfsnoop.LbrEv.offline_violated"
   ],
   "note": "partial because the code violates the rest: after a refusal the events opened before stay open; a possible CPU that is offline makes bpfsnoop refuse to start"
  },
  {
   "property": "C89",
   "status": "partial",
   "theorems": [
    "Bpfsnoop.Cl.printed_asked_partial",
    "Bpfsnoop.Cl.option_modes",
    "Bpfsnoop.Cl.asked_runs",
    "Bpfsnoop.Cl.unasked_runs",
    "Bpfsnoop.Cl.probe_iff",
    "Bpfsnoop.Cl.node_iff"
   ],
   "note": "partial: the restrictions of C83 and C85 (types Simple, Proper histories, filters of the fragment of C01, homogeneous (m) groups)"
  },
  {
   "property": "C90",
   "status": "partial",
   "theorems": [
    "Bpfsnoop.Cc.filter_initialised_partial",
    "Bpfsnoop.Cc.filter_ignores_leftovers_partial",
    "Bpfsnoop.Cc.eval_initialised_partial",
    "Bpfsnoop.Cc.filter_initialised_witness",
    "Bpfsnoop.Cc.eval_initialised_witness",
    "Bpfsnoop.Cc.early_exit_uninitialised_violated",
    "Bpfsnoop.Cc.cast_zero_uninitialised_violated",
    "Bpfsnoop.Cc.live_value_uninitialised_violated"
   ],
   "note": "partial: the code violates it for operands that follow pointers and are compiled before the register of the result is chosen, for casts of the literal 0, and with four live values; types and bounds the verifier tracks are not modelled"
  },
  {
   "property": "C91",
   "status": "partial",
   "theorems": [
    "Bpfsnoop.Mp.maps_created_partial",
    "Bpfsnoop.Mp.own_buffer",
    "Bpfsnoop.Mp.graph_stack",
    "Bpfsnoop.Mp.stack_fits",
    "Bpfsnoop.Mp.accepted_iff_violated",
    "Bpfsnoop.Mp.six_cpus_violated",
    "Bpfsnoop.Mp.no_stack_violated",
    "Bpfsnoop.Mp.lowered_violated",
    "Bpfsnoop.Mp.changed_violated",
    "Bpfsnoop.Mp.maps_witness"
   ],
   "note": "partial: violated when the number of CPUs is no power of two (the verifier's range check, assumed), when the sysctl is 0 and when it changes"
  },
  {
   "property": "C92",
   "status": "partial",
   "theorems": [
    "Bpfsnoop.Sc.sessions_interrupted_partial",
    "Bpfsnoop.Sc.order_kept",
    "Bpfsnoop.Sc.sessions_interrupted_witness",
    "Bpfsnoop.Sc.shared_buffer_violated",
    "Bpfsnoop.Sc.same_function_violated",
    "Bpfsnoop.Sc.freed_element_violated"
   ],
   "note": "partial: proved for all interleavings in which no program of the same task and function overlaps and no program writes the CPU's buffer while another one is between filling it and the update; violated otherwise"
  },
  {
   "property": "C93",
   "status": "proved",
   "theorems": [
    "Bpfsnoop.Rf.not_refused",
    "Bpfsnoop.Rf.refused_never_ends",
    "Bpfsnoop.Rf.would_end",
    "Bpfsnoop.Rf.left_out_iff",
    "Bpfsnoop.Rf.passed_over_iff",
    "Bpfsnoop.Rf.graph_not_refused",
    "Bpfsnoop.Rf.proto_not_refused",
    "Bpfsnoop.Rf.entry_lost_violated"
   ],
   "note": "the two lists of the kernel are part of the specification; entry_lost_violated is no part of the statement: more is left out than needed"
  },
  {
   "property": "C94",
   "status": "partial",
   "theorems": [
    "Bpfsnoop.Sk.stack_kept_partial",
    "Bpfsnoop.Sk.other_cpus",
    "Bpfsnoop.Sk.ends",
    "Bpfsnoop.Sk.walks_buffer_violated",
    "Bpfsnoop.Sk.stack_mixed_violated",
    "Bpfsnoop.Sk.stack_kept_witness"
   ],
   "note": "partial: proved unless another run writes into the buffer of the CPU while it is in use; violated otherwise, with the exact result"
  },
  {
   "property": "C95",
   "status": "partial",
   "theorems": [
    "Bpfsnoop.Lt.part_read",
    "Bpfsnoop.Lt.part_means",
    "Bpfsnoop.Lt.file_run",
    "Bpfsnoop.Lt.file_passes",
    "Bpfsnoop.Lt.dir_passes",
    "Bpfsnoop.Lt.trailing_separator",
    "Bpfsnoop.Lt.passed_sound",
    "Bpfsnoop.Lt.printed_prefix",
    "Bpfsnoop.Lt.failed_reason",
    "Bpfsnoop.Lt.test_ends_partial",
    "Bpfsnoop.Lt.panic_only",
    "Bpfsnoop.Lt.nothing_run_violated",
    "Bpfsnoop.Lt.output_lost_violated",
    "Bpfsnoop.Lt.hang_violated",
    "Bpfsnoop.Lt.panic_violated",
    "Bpfsnoop.Lt.file_witness",
    "Bpfsnoop.Lt.run_witness"
   ],
   "note": "partial: a pass and a failure always have a reason; the end is proved for up to ten matching lines and one announcement; violated beyond that, and lines can be lost"
  },
  {
   "property": "C96",
   "status": "proved",
   "theorems": [
    "Bpfsnoop.Cc.Stk.reserved_rounds",
    "Bpfsnoop.Cc.Stk.made_iff",
    "Bpfsnoop.Cc.Stk.eval_slots",
    "Bpfsnoop.Cc.Stk.filter_slots",
    "Bpfsnoop.Cc.Stk.slot_means",
    "Bpfsnoop.Cc.Stk.eval_keeps_stack",
    "Bpfsnoop.Cc.Stk.filter_keeps_stack",
    "Bpfsnoop.Cc.Stk.stack_witness",
    "Bpfsnoop.Cc.Stk.filter_witness",
    "Bpfsnoop.Cc.Stk.top_word_violated",
    "Bpfsnoop.Cc.Stk.reserved_wraps_violated"
   ],
   "note": "proved for what lies outside the helper's word; that word, although counted as reserved, is overwritten; wrap-around at the largest int"
  },
  {
   "property": "C97",
   "status": "partial",
   "theorems": [
    "Bpfsnoop.Dis.name_selects",
    "Bpfsnoop.Dis.pattern_selects",
    "Bpfsnoop.Dis.number_selects",
    "Bpfsnoop.Dis.byName_iff",
    "Bpfsnoop.Dis.module_shows",
    "Bpfsnoop.Dis.module_none",
    "Bpfsnoop.Dis.always_selects",
    "Bpfsnoop.Dis.least_exists",
    "Bpfsnoop.Dis.module_branch_dead",
    "Bpfsnoop.Dis.module_address_violated",
    "Bpfsnoop.Dis.missing_module_violated",
    "Bpfsnoop.Dis.unparsed_module_violated",
    "Bpfsnoop.Dis.hex_name_violated",
    "Bpfsnoop.Dis.pattern_witness"
   ],
   "note": "partial because the code violates the rest: names that are hexadecimal numbers, addresses in modules, modules whose file is missing or unreadable"
  },
  {
   "property": "C98",
   "status": "partial",
   "theorems": [
    "Bpfsnoop.Ln.links_read",
    "Bpfsnoop.Ln.passed_iff",
    "Bpfsnoop.Ln.attached_passed",
    "Bpfsnoop.Ln.others_kept",
    "Bpfsnoop.Ln.kernel_target_violated",
    "Bpfsnoop.Ln.first_link_violated",
    "Bpfsnoop.Ln.one_failure_violated",
    "Bpfsnoop.Ln.links_witness"
   ],
   "note": "partial because the code violates the rest: programs attached to kernel functions, programs with several links, links without information; what the kernel reports is part of the specification"
  },
  {
   "property": "C99",
   "status": "partial",
   "theorems": [
    "Bpfsnoop.Mx.limit_tried",
    "Bpfsnoop.Mx.limit_new",
    "Bpfsnoop.Mx.limit_old",
    "Bpfsnoop.Mx.error_iff",
    "Bpfsnoop.Mx.any_tried",
    "Bpfsnoop.Mx.choice_violated",
    "Bpfsnoop.Mx.no_function_violated",
    "Bpfsnoop.Mx.limit_selects",
    "Bpfsnoop.Mx.limit_witness"
   ],
   "note": "partial because the code violates the rest: kernels without a function to try, kernels where only some of these functions load; whether a program loads is a parameter"
  }
 ]
}