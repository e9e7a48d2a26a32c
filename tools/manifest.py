#!/usr/bin/env python3
"""Writes MANIFEST.json: property -> status, theorems, note."""
import json, os
C = []
def add(p, s, ns, t, n=''):
    C.append(dict(property=p, status=s, theorems=[f'Bpfsnoop.{ns}.{x}' for x in t.split()], note=n))

def more(p, ns, t):
    for c in C:
        if c['property'] == p: c['theorems'] += [f'Bpfsnoop.{ns}.{x}' for x in t.split()]

add('C19','proved','Run','exit_paired exit_reported_iff printed_at_once_iff not_reported_twice','every history of ring buffer records; event text is opaque')
add('C20','partial','Run','run_unlimited run_limited_partial run_limited_prefix run_huge_limit_violated','limits of 2^63 and above print nothing')
add('C21','partial','Run','duration_exact_partial short_call_suppressed duration_wraps_violated','durations are kept modulo 2^32 ns')
add('C24','partial','Kallsyms','find_floor_partial find_above_last_violated find_empty_panics next_successor_partial findByName_first findByName_sound findByName_complete findSymbol_last mods_nodup mods_mem isBuiltinMod_iff','addresses above the start of the last symbol are not found; an empty table panics')
add('C25','partial','Hist','histogram_counts_partial histogram_zero_panics_violated label_correct_partial label_last_violated printed_lines_complete bytes2i_le tdigest_merge_conserves','adding 0 panics; the last label is wrong')
add('C26','partial','Hist','bar_width bar_monotone_partial bar_monotone_overflow_violated','uint64 overflow of count*width')
add('C27','partial','Flame','folded_exact_partial folded_root_violated','a function literally named root is merged with the root')
add('C28','proved','Lbr','lbr_display lbr_lossless lbr_always_displayed select_infix select_verbose select_kfunc','')
add('C29','proved','Util','endbr_exact endbr_none')
add('C30','proved','Util','calleeIP_correct_iff calleeIP_only_calls calleeIP_violated','exact: right for targets in the top 4 GiB and no others (calleeIP_violated shows one outside the property)')
add('C31','proved','Util','nullTerminated_longest_prefix')
add('C32','partial','Util','mask_least_partial mask_diverges_violated mask_fits_iff_violated','diverges for values >= 2^62; a buffer of v entries is large enough for every masked index only if v is a power of two')
add('C33','proved','Util','readAt_contract readAt_negative')
add('C34','partial','Cache','cache_sound cache_correct_same_kernel cache_stable saved_never_lost_partial saved_served_after_restart batch_saved concurrent_save_loses_violated power_loss_violated stale_after_reboot_violated','durability only for non-overlapping processes without power loss; the file is not keyed by kernel or boot')
add('C43','proved','Run','graph_exit_own_cost handle_no_panic graph_on_plain_session_violated','the violated theorem is about graph events of sessions opened without the graph flag, outside the property')
add('C44','partial','Cache','loader_failure_hangs_violated loader_race_violated loader_success_partial','sequentially consistent interleavings')
add('C45','proved','Cache','kaslr_round_trip kaslr_base kaslr_distance kaslr_offset')
add('C46','partial','Cache','getEntry_panics_iff getEntry_answer','exact condition of the crash')
add('C22','partial','KSess','sessions_nest_partial user_sid_of_exit session_cookie_pairs_partial sessions_nest_violated_by_rejected_recursion sessions_nest_violated_at_depth_65 sessions_nest_violated_by_zero_id sessions_nest_violated_on_idle_tasks getMode_spec genSessionId_inj genSessionId_zero','fails for rejected recursion, more than 64 nested calls, id 0 and idle tasks; proved for all other histories')
add('C23','proved','KSess','graph_depth_iff graph_entry_exit_same_depth graph_depth_violated_by_short_stack','the captured stack is limited to perf_event_max_stack frames')
add('C04','proved','Cc','const_decides filter_answers_bool filter_witness','filters of at most 2^15 instructions')
add('C05','proved','Cc','filter_terminates filter_jumps_forward filter_fits filter_witness','filters of at most 2^15 instructions')
add('C06','proved','Cc','alloc_exclusive alloc_exhausted_iff free_exact markUsed_exact allocator_history alloc_lo alloc_witness','')
add('C12','partial','Cc','parseUnsigned_iff parseNumber_iff parseNumber_value parseNumber_wraps_violated parseNumber_examples','literals of 2^63 and above wrap instead of being rejected')
add('C13','partial','Cc','func_call_accepted_iff postCheck_iff output_accepted_iff constant_output output_size_positive_partial output_offset_nonneg_partial fixed_size_reads empty_call_panics_violated negative_offset_violated str_empty_array_violated slice_overflow_violated output_size_witness','literals of 2^63 and above give negative offsets; slice sizes can overflow; str() of an empty array has size 0; a call without arguments panics')
add('C14','proved','Cc','filter_accepted_iff filter_witness','')
VIOL = 'high_bit_literal_violated narrow_sum_violated masked_literal_violated cast_zero_violated literal_address_violated member_plus_constant_violated widening_cast_violated narrowing_cast_violated small_array_violated bool_scaled_violated wide_divisor_violated wide_literal_violated cond_arm_violated negative_shift_panics_violated address_of_cast_violated'
add('C01','partial','Cc','filter_computes_partial eval_computes_partial filter_computes_witness eval_computes_witness exWorld_ok findVar_iff extractEnum_iff bfMask_bit isArray_iff '+VIOL,'proved for the fragment accepted by the static check shape, with immediates that are encoded without loss and at most three values live across helper calls; the violations show what goes wrong outside')
add('C02','partial','Cc','fold_exact fold_agrees_partial runs_to runs_to_unique agree_values fold_signed_violated fold_witness','folding is signed, run-time evaluation unsigned: they agree exactly on the operands listed in Agree')
add('C03','partial','Cc','filter_never_divides_by_zero constant_zero_rejected division_by_zero_gives_zero never_divides_witness wide_divisor_violated','a constant divisor whose low 32 bits are 0 is encoded as 0')
add('C07','partial','Cc','null_rejects_partial oror_null_violated indirect_null_core_violated','an outermost || accepts; *pp is not checked in core mode')
add('C08','partial','Cc','member_chain_reads_partial member_chain_witness offsetChain_reads index_reads_violated far_member_violated struct_member_core_violated accepted_indir accepted_addr addr_rejected accepted_member accept_witness accepted_bin calc_witness','chains of -> and . on a pointer argument, offsets that fit 16 bits; array elements are not read')
add('C09','partial','Cc','member_chain_reads_partial bitfield_extracts wide_bitfield_violated bitfield_plus_constant_violated','masks must fit an immediate')
add('C10','proved','Cc','adjustSize_cuts member_chain_reads_partial member_chain_witness core_load_width','')
add('C11','partial','Cc','live_values_survive_partial live_values_witness saved_values_survive saved_values_witness live_values_lost_probe_violated live_values_lost_core_violated','saved registers survive if those of R1 to R5 in use are the first ones; the code allocates from R5 down, and then a value kept in R0 to R5 across a call is lost')
add('C15','partial','Cc','pointer_arith_partial index_address_partial pointer_arith_witness int_plus_pointer_violated pointer_difference_violated increment_pointer_violated accepted_index','p + n, p - n and &p[n]; n + p, p - q, ++p are wrong')
add('C16','partial','Cc','literal_compared_at_width_partial literal_width_witness minus_one_violated high_bit_literal_violated','32-bit literals with the top bit set are sign-extended')
add('C17','partial','Arg','params_taken_iff fn_args_roundtrip_partial fn_args_upto_wide_partial after_wide_violated wide_last_violated ret_after_wide_violated wide_slots_differ kmulti_roundtrip_partial kmulti_wide_violated fn_args_witness','parameters passed in two registers are mis-decoded')
add("C18","partial","Arg","output_args_roundtrip_partial compileTop_ok outcome_meaning_partial hist_then_violated far_offset_violated far_read_violated output_args_witness","Buffers of 32 KiB or more and histogram/t-digest samples that are not last are excluded; for those the claim is false (violated theorems). outcome_meaning_partial links the shown value to the meaning of the expression under the restrictions of C01.")
add('C36','partial','Flg','parseSel_iff parseProgFlag_iff selector_unambiguous parseProgFlag_hang_iff parseProgFlag_hang_violated parseProgFlag_witness','an unknown prefix makes the parser loop forever instead of being rejected')
add('C38','partial','Flg','traced_sound traced_complete matchKfunc_iff traced_witness first_match_blocks_violated','exact condition proved: also eligibility and deny lists; a function is lost if its first matching pattern cannot trace it; two functions of one address are excluded from completeness')
add('C47','partial','Flg','selected_sound selected_complete_partial star_complete pkt_lost_violated repeated_selector_violated star_overrides_violated pkt_kept_by_id selected_witness','packet option lost; repeated selectors overwrite each other; * overrides')
add('C48','partial','Flg','parseKfuncFlag_iff kfunc_unambiguous trim_iff parseKfuncFlag_hang_iff parseKfuncFlag_hang_violated parseKfuncFlag_witness','an unknown prefix makes the parser loop forever instead of being rejected')
add('C35','proved','Att','config_read_back own_bit flags_option flags_pad event_flags','')
add('C37','partial','Att','fsession_paired func_events traced_flags skipSym_iff tp_events prog_events kmulti_events_partial kmulti_group_violated kmulti_graph_violated default_mode_violated fsession_insn_graph_violated','proved for functions, tracepoints and programs; (m) targets are grouped by parameter index and use the first function of the group; (m) with -g prints nothing; with fsession, instruction and graph events never appear; without -m and -k the mode is not the documented one')
add('C49','partial','Att','event_layout hdr_read_back traced_sizes graph_layout graph_fsession_violated','entry events of graphs show no arguments on kernels with fsession')
add('C39','partial','Pkt','skb_tuple_partial skb_tunnel_partial xdp_tuple_partial tuple_witness options_violated stale_violated version_violated fragment_violated tunnel_options_violated','IPv4 with TCP, UDP or ICMP and at most two option words; the violations show what is printed otherwise')
add('C50','partial','Asm','kindOf_iff packet_param_spec filter_arg_code filter_arg_code_multi filter_pkt_code filter_l2_code filter_kind_code packetParam_iff chosen_iff chosen_none_iff entry_intact emits_iff multi_keeps_default_filter_violated default_filter_rejects exSpec_ok exJob_ok','an invalid --filter-pkt is not refused for BPF programs (Pin.ctx_violated); (m) targets without --filter-pkt keep the default packet filter of the C source, which rejects calls whose first argument is not readable; the code elibpcap emits is a parameter')
add('C51','partial','Asm','session_patched session_no_stub_calls session_calls no_dangling_calls no_dangling_calls_multi entry_intact entry_intact_multi inject_shape clear_drops_name_violated exSpec_ok exJob_ok','assumes no compiled function begins with a call of a function that is removed (clear_drops_name_violated shows why)')
add('C52','partial','Lbl','labels_right_partial labels_right_single refused_if labels_differ labels_all one_program one_expression assembled refused race_violated race_two_violated expressions turns_serial','partial because the code violates the rest: calls of genExitLabel may overlap (race_violated). Proved for every schedule without overlap, for one program and for one expression each without that')
add('C40','partial','Gr','graph_sound found_sound discovery_terminates quiet_or_enabled graph_complete_partial completeness_violated root_mark_violated universe_witness','completeness only for schedules in which no goroutine looks at a graph entered but not yet filled; the root mark depends on the schedule')
add('C41','partial','Tc','detector_total detector_exact detector_jit skip_exact entry_traced no_issue_elsewhere issue_exact_partial issue_violated issue_witness','the problem is detected exactly when the trampoline lies above the probe program; below it the displacement is taken as unsigned and bpfsnoop fails')
add('C42','partial','Rp','value_printed_partial bool_printed enum_printed int_text_injective number_texts param_printed_partial return_printed_partial expr_printed_partial bool_member_violated enum_member_violated enum_negative_violated bitfield_violated empty_member_violated repr_witness','types without Boolean, enum or bit-field members, for which the violations show what is printed; Booleans and enums in a register of their own when its other bytes are zero')
add('C53','partial','Opt','contains_iff setDefaultModes_inForce inForce_unique checkMode_iff trimParen_iff findAgg_iff multiExitConflict_iff fgraphMulti_iff check_ok_iff check_witness kfuncs_divided two_histograms_violated tracepoint_lbr_violated','a second histogram with a leading blank is accepted; tracepoints marked (l) do not open the LBR events')
add('C54','partial','KRead','read_exact read_fresh reads_exact readKernel_buff large_refused fault_zeros_violated full_buffer_stale_violated huge_panics_violated','proved up to 65528 bytes; faults read as zeros, 65529 to 65536 bytes return stale bytes, the seven largest sizes panic')
add('C55','partial','Dis','trimTail_spec unpadded_unique dump_spec guess_given guess_next function_listed jump_lost_violated listing_65536_violated target_name address_text address_selects hex_name_violated','padding is removed byte by byte; names that are hexadecimal numbers are taken as addresses')
add('C56','partial','Dis','insnsOf_nth nth_within nth_lt insns_traced insn_within insn_unique short_function_violated body_funcAt insns_witness','functions of one to three instructions panic')
add('C57','partial','Li','search_spec get_miss get_line get_panics_iff_violated shared_address_violated trimFile_plain trimFile_rel hidden_directory_violated prog_address_partial prog_address_witness kernel_address_partial kernel_address_no_line cutDir_iff build_path_violated','proved for line records in strictly increasing order and functions that do not overlap; other tables panic')
add('C58','partial','Li','newInfo_ok newInfo_accepts newInfo_err missing_code_panics_violated load_complete_partial load_reports load_crash_violated load_witness crash_witness','proved for programs with distinct addresses; a program without JIT code panics')
add('C59','partial','Stk','isEntryFrame_iff frames_verbose frames_rest frames_after no_entry_frame_violated own_stack_partial one_by_one second_lost_violated foreign_stack_violated collision_violated kept_bucket dropped_blocks_violated own_stack_witness','proved for waiting events in different buckets and for events shown one by one without drops; otherwise stacks are lost or exchanged')
add('C60','partial','LbrM','snap_shown own_lbr_partial shown_in_order interrupted_violated cleared_violated same_id_violated full_keeps full_map_violated lbr_not_dropped tp_no_session multi_not_dropped multi_graph_dropped_violated lbr_once canLbr_iff own_lbr_witness','proved for histories in which no program interrupts another between reading and sending, ids are fresh and the map has room; otherwise records are lost or exchanged')
add('C61','partial','Tp','probe_kernel_partial one_fails_all_violated long_name_violated walk_chain modules_visited bad_bounds_fail broken_btf_fails panics_iff probe_modules_partial addMods_spec kernel_first one_module nothing_else module_order_violated matchOne_iff selected_iff selected_plain kernel_selected_partial merged_spec found_witness','proved when every prototype resolves, names differ in 63 characters and no name is in two modules')
add('C62','partial','Km','sortCompact_spec infer_iff prepare_iff flag_hides_module_violated prefix_hides_module_violated names_all names_partial names_panic_iff_violated names_given twice_violated proto_panics_violated search_sound search_complete named_searched flagged_not_found_violated broken_fails detect_found detect_absent detect_panics_violated detect_denied','proved unless vmlinux is given together with modules; options with flags lose their module')
add('C63','partial','Tr','probe_x86_iff probe_arm_iff no_endbr_violated far_bl_violated own_call_violated kept_iff kept_arm_iff short_read_violated tramp_target no_tramp jmpMode_iff probeTramps_spec tracee_iff extract_iff jmp_iff_partial depth_shown','proved for kernels where all functions have the same prologue; with jumps, if no two functions share a trampoline')
add('C64','partial','Pt','mem_leaves layout_shown_partial layout_total layout_witness repr_total declaration_partial typedef_pointer_violated array_semicolon_violated qualifier_violated qualifier_partial sizeof_iff under_iff array_declaration_partial array_text function_pointer_shown function_pointer_witness enum_shown negative_enum_violated findType_iff ambiguous_violated types_shown function_first_violated','layout proved for offsets below 2^32 bits and structs at whole bytes; declarations except arrays and pointers behind typedefs or qualifiers (shown wrong)')
add('C65','partial','Pt','prototype_shown listing_shown prototype_read prototype_witness variadic_violated function_pointer_violated','reading back proved for named parameters whose type texts have no comma or parenthesis (all but pointers to arrays); variadic functions and function pointers are shown wrong')
add('C66','partial','Ct','report_shown_partial report_witness tree_lines tree_unique detect_iff findBtf_iff findBtf_none_iff variadic_iff structRet_iff kernelRoot_sized progRoot_sized stdout_lines disasm_bytes_violated interrupted_violated struct_name_violated same_name_violated ambiguous_bare_violated noreturn_violated','proved without --disasm-bytes and where nothing crashes; interrupted: some lines missing')
add('C67','partial','RdD','read_shown_partial read_meaning_partial not_run read_witness','results below 32 KiB; meaning with the restrictions of C01')
add('C68','proved','Sta','recorded_complete end_clean fatal_ready detect_iff lbr_gated shows witness lbr_gated_witness stack_gate_violated fatal_attached_violated did_succeeded','steps as parameters; LBR gate does not cover tracepoints (C53 tracepoint_lbr_violated)')
add('C69','partial','Ln','duration_unit insn_aligned who_iff duration_exact clock_exact head_unique event_unique graph_unique insn_unique one_line name_unique line_witness one_line_violated','one line only without newline in the process name (one_line_violated); without colours; function names without blanks')
add('C70','partial','Dp','source_shown prog_listed prog_listed_total operand_address operand_other exInfo_sound listing_witness source_hidden_violated undecodable_violated any_program_violated any_program_witness','only the last of several source lines at one address; nothing if a byte cannot be decoded; one of several programs at random')
add('C71','partial','Df','places no_directory vmlinux_usual vmlinux_given vmlinux_used module_found module_notFound module_history module_answers_kept module_text_addr vmlinux_witness module_witness exTree_inOrder given_file_violated given_file_fatal_violated unreadable_violated stale_not_found_violated module_section_violated','violated by files of other names, unreadable directories, other sections')
add('C72','partial','Sel','names_iff prepare_iff filter_chosen filter_fails outputs_chosen filter_mentioned_only output_mentioned_only unsup_rejected filter_chosen_witness outputs_witness first_argument_witness mentioned_only_witness second_filter_violated foreign_name_violated constant_address_violated empty_call_violated keyword_violated','violated by a second filter, foreign names, constant addresses, calls without arguments')
add('C73','partial','Av','right_word_iff words_read filter_arguments_partial output_arguments_partial multi_filter_alone multi_output_alone multi_output_refused multi_arguments_partial correct_iff correct_params filter_arguments_witness multi_witness correct_witness wide_parameter_violated beyond_registers_violated other_place_violated other_selector_violated unnamed_selector_violated','violated by parameters of more than 8 bytes, by (m) beyond registers and in groups of different functions')
add('C74','partial','Gs','verdict_sound verdict_partial shown_obeys denied_never_shown own_functions_never_shown missing_types missing_witness shown_iff_partial shown_witness own_witness unlisted_witness unlisted_root_violated include_all_violated large_parameter_violated denial_violated denied_root_violated','exact where parameters take one register each and without the race of C40; violated otherwise and by roots not included')
add('C75','partial','Ot','mac_shown ip4_shown ip6_groups_read ip6_shown ip6_inj buf_shown hex_shown port_shown int_shown addr_shown shown_length text_determines slice_shown string_shown line_shown_partial line_exact trailing_comma_violated missing_comma_violated','the notations are exact; the line is only right if histograms come first and are not NULL')
add('C76','partial','Ot','xdp_shown tc_shown_partial tc_unspec_violated','XDP is right; TC only for non-negative values')
add('C77','partial','Lt','branches_read branches_aligned branch_colours frames_read frame_colours_iff frame_colours_violated branches_witness frames_witness','all but colours of frames with very long names')
add('C78','partial','Pl','listing_shown listing_read oneLine comment_shown listed_sound listed_complete mark_says mark_traced_partial listing_total noreturn_marked_violated duped_unmarked_violated program_error_violated alias_hidden_violated first_module_only_violated listing_witness','text, order, totals and reading proved; the mark agrees with tracing except for the violations listed')
add('C79','partial','Cg','graph_shown_partial graph_shown_limited_partial gevt_read_back fgraph_read fgraph_type chain_lines lines_length graph_shown_witness fsession_no_records fsession_violated rejected_recursion_violated same_id_violated lost_record_violated','proved for all trees and schedules when sessions are kept in the map, ids differ, stacks are complete and no record is lost; each condition has a run that fails without it')
add('C80','partial','Sf','kallsyms_read kallsyms_find kallsyms_special kallsyms_mods rawLines_last available_read available_kept available_name_only_violated pid_programs pid_format_violated lbr_nr lbr_nr_fault_violated',"all parts proved for the kernel's format; violated: attachable functions are compared by name only, a failed read of the number of branch records counts as zero")
add('C81','partial','Ht','histogram_readback_partial digest_readback flamegraph_readback_partial flamegraph_unwritable nothing_printed valMax_max flamegraph_stale_violated','read back exactly; partial because zero samples panic and 2^63 and above are labelled wrong (C25), a function called root is lost (C27), and an old file stays if nothing was seen')
add('C82','partial','Ft','args_shown_partial enum_ptr_shown enum_ptr_violated nothing_shown kmulti_shown_partial fnptr_shown','partial: values of the types C42 shows to be printed wrong, parameters in two registers (C17) and negative TC results (C76) are left out')
add('C83','partial','Wh','wanted_shown_partial filter_answer wanted_iff record_text single_moment call_moment return_moment graph_record history packet_answer passes_iff multi_return_args_violated multi_exit_filter_violated default_packet_violated multi_skip_ignored multi_skip_tunnel_violated graph_record_violated','partial: with (m) a return shows what is in the argument registers then, a filter is not applied in mode exit, the C source of the packet filter drops calls whose first argument looks like an empty sk_buff, and --skip-tunnel has no effect; prototypes of types that C42 and C17 show to be printed faithfully, filters in the fragment of C01 that read no null pointer; (i) and (g) for functions without session programs (C84, C79) and without (m); a record of a function of a graph has 32 bytes behind it; without session programs the histories that C22 shows to be paired')
add('C84','partial','Ir','insns_shown_partial insns_shown_limited_partial ievt_read_back insn_recs insn_type table_exact table_whole insnInfo_unique line_unique insns_shown_witness fsession_no_records fsession_violated rejected_recursion_violated misplaced_violated short_function_violated','partial because the code violates the rest: kernels with fsession, rejected calls within recorded calls of the same function, names shared by two functions, functions of fewer than four instructions; two calls with the same id at once and lost records as for C79')
add('C85','partial','Pn','calls silent kept_sound kept_complete plain_up multi_sound multi_complete multi_up multi_calls_partial tp_hits prog_runs finish_iff finish_order refused_iff fate_attach_iff fate_skip_iff ignoreLoad_iff ignoreLink_iff parseAll_iff groups_spec plan_exists exWanted exWantedMulti exPlan no_tracefs_violated half_violated overlap_violated stray_violated twice_violated recursive_violated','partial because the code violates the rest: half-attached functions, overlapping (m) options, groups of (m) functions that do not agree (C37), functions selected both ways')
add('C86','partial','Sid','open_ids_distinct ids_eq_iff sessionId_x86 kmulti_distinct zero_iff foreign_fexit_violated orc_violated kmulti_violated tp_violated arm_never_detected_violated','partial because the code violates the rest: kernels without frame pointers, foreign fexit programs, (m), tracepoints, arm64')
add('C87','partial','Bg','table_complete shown_traced writers_exclusive race_by_readers calm_no_crash progress terminates err_iff ex_hyps ex_calm early_violated write_race_violated add_race_violated','partial because the code violates the rest: the tracers do not wait for the programs to be read, and the table is read without the lock')
add('C88','partial','LbrEv','unknown_refused all_opened first_refusal asks_unique types_as_a_set close_all ex_types ex_open ex_leak ex_unknown leak_violated offline_violated','partial because the code violates the rest: after a refusal the events opened before stay open; a possible CPU that is offline makes bpfsnoop refuse to start')
more('C50','Pin','no_packet accepted refused_partial ctx_violated ex_icmp ex_ether ex_bad ex_params ex_typo')
more('C52','Cc','label_noted')
add('C89','partial','Cl','printed_asked_partial option_modes asked_runs unasked_runs probe_iff node_iff','partial: the restrictions of C83 and C85 (types Simple, Proper histories, filters of the fragment of C01, homogeneous (m) groups)')
add('C90','partial','Cc','filter_initialised_partial filter_ignores_leftovers_partial eval_initialised_partial filter_initialised_witness eval_initialised_witness early_exit_uninitialised_violated cast_zero_uninitialised_violated live_value_uninitialised_violated','partial: the code violates it for operands that follow pointers and are compiled before the register of the result is chosen, for casts of the literal 0, and with four live values; types and bounds the verifier tracks are not modelled')
add('C91','partial','Mp','maps_created_partial own_buffer graph_stack stack_fits accepted_iff_violated six_cpus_violated no_stack_violated lowered_violated changed_violated maps_witness',"partial: violated when the number of CPUs is no power of two (the verifier's range check, assumed), when the sysctl is 0 and when it changes")
add('C92','partial','Sc','sessions_interrupted_partial order_kept sessions_interrupted_witness shared_buffer_violated same_function_violated freed_element_violated',"partial: proved for all interleavings in which no program of the same task and function overlaps and no program writes the CPU's buffer while another one is between filling it and the update; violated otherwise")
add('C93','proved','Rf','not_refused refused_never_ends would_end left_out_iff passed_over_iff graph_not_refused proto_not_refused entry_lost_violated','the two lists of the kernel are part of the specification; entry_lost_violated is no part of the statement: more is left out than needed')
more('C86','Sid','arm_tp_violated arm_tp_apart')
more('C27','Flame','root_counts_all')
more('C32','Util','mask_largest')
more('C84','Ir','insn_length')
more('C83','Wh','dies_reason')
more('C95','Lt','valid_iff')
more('C95','Lt','no_match_invalid')
add('C94','partial','Sk','stack_kept_partial other_cpus ends walks_buffer_violated stack_mixed_violated stack_kept_witness','partial: proved unless another run writes into the buffer of the CPU while it is in use; violated otherwise, with the exact result')
add('C95','partial','Lt','part_read part_means file_run file_passes dir_passes trailing_separator passed_sound printed_prefix failed_reason test_ends_partial panic_only nothing_run_violated output_lost_violated hang_violated panic_violated file_witness run_witness','partial: a pass and a failure always have a reason; the end is proved for up to ten matching lines and one announcement; violated beyond that, and lines can be lost')
add('C96','proved','Cc.Stk','reserved_rounds made_iff eval_slots filter_slots slot_means eval_keeps_stack filter_keeps_stack stack_witness filter_witness top_word_violated reserved_wraps_violated',"proved for what lies outside the helper's word; that word, although counted as reserved, is overwritten; wrap-around at the largest int")
add('C97','partial','Dis','name_selects pattern_selects number_selects byName_iff module_shows module_none always_selects least_exists module_branch_dead module_address_violated missing_module_violated unparsed_module_violated hex_name_violated pattern_witness','partial because the code violates the rest: names that are hexadecimal numbers, addresses in modules, modules whose file is missing or unreadable')
add('C98','partial','Ln','links_read passed_iff attached_passed others_kept kernel_target_violated first_link_violated one_failure_violated links_witness','partial because the code violates the rest: programs attached to kernel functions, programs with several links, links without information; what the kernel reports is part of the specification')
add('C99','partial','Mx','limit_tried limit_new limit_old error_iff any_tried choice_violated no_function_violated limit_selects limit_witness','partial because the code violates the rest: kernels without a function to try, kernels where only some of these functions load; whether a program loads is a parameter')
add('C100','partial','Cal','calls_found replaced_found jump_violated endbr_violated large_violated long_violated undecodable_violated calls_witness','partial because the code violates the rest: jumps, programs with endbr, long functions; amd64 only')
add('C101','partial','Gc','reach_iff graph_code_sound graph_code_complete_partial jumps_missed recursive_witness','partial because the code violates the rest: functions reached by jumps only, and a race in the parser that loses functions; amd64 only, readable and decodable code')
C.sort(key=lambda c: c['property'])
here = os.path.dirname(os.path.abspath(__file__))
json.dump({'claims': C}, open(os.path.join(here, '..', 'MANIFEST.json'), 'w'), indent=1, ensure_ascii=False)
