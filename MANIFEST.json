{
 "claims": [
  {
   "property": "C01",
   "status": "proved",
   "theorems": [
    "Verif.BitBuffer.c01_step_refines",
    "Verif.BitBuffer.c01_history_refines",
    "Verif.BitBuffer.c01_fixed_history_refines",
    "Verif.BitBuffer.c01_constructors",
    "Verif.BitBuffer.c01_roundtrip",
    "Verif.BitBuffer.c01_write_refuses",
    "Verif.BitBuffer.c01_straddling_write_overshoots"
   ],
   "note": "Bit buffer refines a bit tape for every history of calls; round trip of any field list at any alignment. The straddling write on a growable buffer is a finding (c01_straddling_write_overshoots); all other calls are covered."
  },
  {
   "property": "C02",
   "status": "partial",
   "theorems": [
    "Verif.BitBuffer.c02_read_window",
    "Verif.BitBuffer.c02_write_frame",
    "Verif.BitBuffer.c02_copy",
    "Verif.BitBuffer.c02_sub_buffer",
    "Verif.BitBuffer.c02_window_copy",
    "Verif.BitBuffer.c02_bitstr",
    "Verif.BitBuffer.c02_moves",
    "Verif.BitBuffer.c02_bitvec_partial",
    "Verif.BitBuffer.c02_bitvec_ignores_start"
   ],
   "note": "Reads, writes, bit copies, sub-buffers and dumps stay in the window. The bit-vector conversion is proved only for windows starting at 0; c02_bitvec_ignores_start shows the code violates the property otherwise."
  },
  {
   "property": "C03",
   "status": "proved",
   "theorems": [
    "Verif.Tdma.c03_time_bijection",
    "Verif.Tdma.c03_add_spec",
    "Verif.Tdma.c03_add_total",
    "Verif.Tdma.c03_add_add",
    "Verif.Tdma.c03_add_sub",
    "Verif.Tdma.c03_diff_is_distance",
    "Verif.Tdma.c03_diff_add",
    "Verif.Tdma.c03_diff_zero",
    "Verif.Tdma.c03_units"
   ],
   "note": "Bijection with integers, addition and difference exact modulo the hyperframe range."
  },
  {
   "property": "C04",
   "status": "proved",
   "theorems": [
    "Verif.Tdma.c04_one_per_multiframe",
    "Verif.Tdma.c04_rotation",
    "Verif.Tdma.c04_forward"
   ],
   "note": "One BSCH and one BNCH per multiframe and timeslot, rotation over timeslots, forward_to_timeslot."
  },
  {
   "property": "C05",
   "status": "proved",
   "theorems": [
    "Verif.TsAlloc.c05_step_refines",
    "Verif.TsAlloc.c05_history_refines",
    "Verif.TsAlloc.c05_no_double_grant",
    "Verif.TsAlloc.c05_ownership_stable",
    "Verif.TsAlloc.c05_is_free",
    "Verif.TsAlloc.c05_is_free_outside"
   ],
   "note": "Allocator refines an ownership map over any history."
  },
  {
   "property": "C06",
   "status": "proved",
   "theorems": [
    "Verif.TxReceipt.c06_step",
    "Verif.TxReceipt.c06_illegal_aborts",
    "Verif.TxReceipt.c06_unacked_never_acked",
    "Verif.TxReceipt.c06_final_is_stable",
    "Verif.TxReceipt.c06_final_spec",
    "Verif.TxReceipt.c06_queries",
    "Verif.TxReceipt.c06_history"
   ],
   "note": "Receipt state machine over any history."
  },
  {
   "property": "C07",
   "status": "partial",
   "theorems": [
    "Verif.Ranges.c07_contains_exact",
    "Verif.Ranges.c07_order_irrelevant",
    "Verif.Ranges.c07_accepts_only_disjoint",
    "Verif.Ranges.c07_accepts_disjoint",
    "Verif.Ranges.c07_empty_range_order_dependent"
   ],
   "note": "Exact containment and disjointness; an inverted (empty) range makes acceptance order dependent (c07_empty_range_order_dependent)."
  },
  {
   "property": "C08",
   "status": "partial",
   "theorems": [
    "Verif.Freqs.c08_table",
    "Verif.Freqs.c08_offset_roundtrip",
    "Verif.Freqs.c08_freqs_exact",
    "Verif.Freqs.c08_standard_total",
    "Verif.Freqs.c08_band0_wraps",
    "Verif.Freqs.c08_custom_spacing_aborts"
   ],
   "note": "Exact frequencies for standard settings; band 0 with negative offset and oversized custom spacing violate it (c08_band0_wraps, c08_custom_spacing_aborts)."
  },
  {
   "property": "C09",
   "status": "proved",
   "theorems": [
    "Verif.TypedFields.c09_optional_part",
    "Verif.TypedFields.c09_backfill_type3",
    "Verif.TypedFields.c09_backfill_type4",
    "Verif.TypedFields.c09_type23_total",
    "Verif.TypedFields.c09_type3_length_honoured",
    "Verif.TypedFields.c09_type4_short_length_aborts",
    "Verif.TypedFields.c09_type3_generic_overlong_aborts",
    "Verif.TypedFields.c09_unknown_elements_rejected",
    "Verif.TypedFields.c09_type3_generic_long"
   ],
   "note": "Whole optional part of an arbitrary PDU description reads back, with any trailing bits; the back-filled lengths equal the direct encoding on the C01 tape. Malformed received elements that abort are findings (c09_type4_short_length_aborts, c09_type3_generic_overlong_aborts)."
  },
  {
   "property": "C10",
   "status": "proved",
   "theorems": [
    "Verif.Crc16.c10_accepts",
    "Verif.Crc16.c10_accepts_only",
    "Verif.Crc16.c10_rejects_burst",
    "Verif.Crc16.c10_rejects_single",
    "Verif.Crc16.c10_rejects_odd",
    "Verif.Crc16.c10_rejects_double"
   ],
   "note": "Appended CRC always accepted; every burst of at most 16 bits, every odd number of wrong bits and every double error within 288 bits rejected."
  },
  {
   "property": "C11",
   "status": "partial",
   "theorems": [
    "Verif.Scrambler.c11_involution",
    "Verif.Scrambler.c11_codes_differ",
    "Verif.Scrambler.c11_no_zero_run",
    "Verif.Scrambler.c11_networks_differ",
    "Verif.Scrambler.c11_valid_code_nonzero",
    "Verif.Scrambler.c11_colour_zero_disables"
   ],
   "note": "Involution for all codes and blocks; different codes give different keystreams; no zero run of 32 for nonzero codes; valid network parameters with nonzero colour code give distinct nonzero codes. Colour code 0 switches scrambling off (c11_colour_zero_disables), so the distinctness claim fails there."
  },
  {
   "property": "C12",
   "status": "proved",
   "theorems": [
    "Verif.Interleaver.c12_block_bijection",
    "Verif.Interleaver.c12_block_roundtrip",
    "Verif.Interleaver.c12_parameters",
    "Verif.Interleaver.c12_matrix_roundtrip",
    "Verif.Interleaver.c12_reorder_roundtrip",
    "Verif.Interleaver.c12_reorder_roundtrip'"
   ],
   "note": "Block, matrix and speech-order interleavers are bijections for all logical channels, both compositions are the identity on every block."
  },
  {
   "property": "C13",
   "status": "proved",
   "theorems": [
    "Verif.Rm3014.c13_taken",
    "Verif.Rm3014.c13_corrects_single",
    "Verif.Rm3014.c13_roundtrip",
    "Verif.Rm3014.c13_distance",
    "Verif.Rm3014.c13_unique_nearest",
    "Verif.Rm3014.c13_aach_roundtrip",
    "Verif.Rm3014.c13_double_error_unreported"
   ],
   "note": "Round trip and single-error correction for every word, minimum distance 8 for all pairs, scrambled AACH round trip. c13_double_error_unreported records that two errors are not flagged."
  },
  {
   "property": "C14",
   "status": "proved",
   "theorems": [
    "Verif.ErrorControl.c14_roundtrip",
    "Verif.ErrorControl.c14_good_means_intact",
    "Verif.ErrorControl.c14_needs_code"
   ],
   "note": "All six control-plane channels, every block, every scrambling code: round trip, also with any single transmitted bit wrong."
  },
  {
   "property": "C15",
   "status": "proved",
   "theorems": [
    "Verif.ErrorControl.c15_roundtrip",
    "Verif.ErrorControl.c15_protects",
    "Verif.ErrorControl.c15_half_slot",
    "Verif.ErrorControl.c15_odd_errors_flagged",
    "Verif.ErrorControl.c15_double_errors_flagged"
   ],
   "note": "Round trip for every frame and code, also with any single transmitted bit wrong (all class 1/2 bits right). Odd numbers of errors and all double errors in the 68 checked bits are flagged."
  },
  {
   "property": "C16",
   "status": "proved",
   "theorems": [
    "Verif.Viterbi.c16_control_most_likely",
    "Verif.Viterbi.c16_speech_most_likely",
    "Verif.Viterbi.c16_terminated_iff"
   ],
   "note": "Viterbi output is the terminated sequence with the fewest mismatches, for every received word of every length up to the sizes the 16-bit metrics allow."
  },
  {
   "property": "C17",
   "status": "partial",
   "theorems": [
    "Verif.Fcs.c17_accepts_partial",
    "Verif.Fcs.c17_rejects_burst",
    "Verif.Fcs.c17_empty_sdu_aborts",
    "Verif.Fcs.c17_short_rejected"
   ],
   "note": "Acceptance and burst rejection for every non-empty SDU at any alignment. The empty SDU is a finding: c17_empty_sdu_aborts."
  },
  {
   "property": "C18",
   "status": "proved",
   "theorems": [
    "Verif.FillBits.c18_count_exact",
    "Verif.FillBits.c18_roundtrip",
    "Verif.FillBits.c18_roundtrip_block",
    "Verif.FillBits.c18_required",
    "Verif.FillBits.c18_no_marker"
   ],
   "note": "Count equals what was written for every payload, cursor, window; amount of fill exact."
  },
  {
   "property": "C19",
   "status": "partial",
   "theorems": [
    "Verif.Umac.c19_reassembly",
    "Verif.Umac.c19_block",
    "Verif.Umac.c19_ends",
    "Verif.Umac.c19_received_partial",
    "Verif.Umac.c19_last_bits_lost",
    "Verif.Umac.c19_end_to_end"
   ],
   "note": "Proved: whatever blocks are offered, the parts on the air are a prefix of the SDU and the whole SDU once done, in well-formed PDUs in the right order that never overflow a block; the fragmenter ends; a mobile station in an idle timeslot passes up exactly the SDU, once (end to end, SDUs that need fragmenting, up to 4096 bits). Missing: an SDU sent whole in a MAC-RESOURCE that fills a slot whose size is not a multiple of eight loses its last bits (finding), so the statement for unfragmented SDUs holds only for octet-aligned PDUs."
  },
  {
   "property": "C20",
   "status": "partial",
   "theorems": [
    "Verif.Umac.c20_delivery_partial",
    "Verif.Umac.c20_only_at_last",
    "Verif.Umac.c20_total",
    "Verif.Umac.c20_exact",
    "Verif.Umac.c20_complete",
    "Verif.Umac.c20_empty_delivered",
    "Verif.Umac.c20_stale_resumed",
    "Verif.Umac.c20_ms_delivery",
    "Verif.Umac.c20_never_expires"
   ],
   "note": "Proved for every history: what is delivered at a last fragment is exactly the fragments of the latest reassembly of that station on that slot, never another station or slot; the mobile side in full. Missing: after an overflow or timeout the base station delivers an empty SDU under address 0, and the timeout is never driven by the code (findings)."
  },
  {
   "property": "C21",
   "status": "partial",
   "theorems": [
    "Verif.Umac.c21_frame_18_grant_late",
    "Verif.Umac.c21_exclusive",
    "Verif.Umac.c21_owner",
    "Verif.Umac.c21_owner_full",
    "Verif.Umac.c21_grant",
    "Verif.Umac.c21_total_partial",
    "Verif.Umac.c21_counted_from_grant",
    "Verif.Umac.c21_over_68_aborts",
    "Verif.Umac.c21_delay_not_expressible",
    "Verif.Umac.c21_delay_partial"
   ],
   "note": "For every history of ticks and requests: no half slot is granted twice, slot ownership equals what was granted, a grant is the earliest possible run and lies in the future outside common-linearization slots, and the ring position is cleared before reuse. Missing because the code violates it: a request for more than 68 slots aborts, and delays 14, 15 and 16 are produced although they cannot be expressed on the air interface (proved as findings); a grant due in frame 18 is sent after its slot (c21_frame_18_grant_late)."
  },
  {
   "property": "C22",
   "status": "partial",
   "theorems": [
    "Verif.Umac.c22_always_open",
    "Verif.Umac.c22_reserved_but_open",
    "Verif.Umac.c22_usage"
   ],
   "note": "The usage computed for an uplink slot and the owner looked up for received data equal the grants made, for every reachable state (c22_usage, c21_owner, c21_owner_full). The block announced on the air does not use that computation: c22_always_open says what it announces, c22_reserved_but_open is a counterexample."
  },
  {
   "property": "C23",
   "status": "partial",
   "theorems": [
    "Verif.Umac.c23_stranded_block_aborts",
    "Verif.Umac.c23_stale_block_next_call",
    "Verif.Umac.c23_overtaken",
    "Verif.Umac.c23_second_grant_replaces",
    "Verif.Umac.c23_total_partial",
    "Verif.Umac.c23_delivered",
    "Verif.Umac.c23_main",
    "Verif.Umac.c23_order",
    "Verif.Umac.c23_message",
    "Verif.Umac.c23_stolen"
   ],
   "note": "Every queued message is followed through every history (c23_message, c23_stolen): its bits go out once, in order, on its timeslot, and its sender is told exactly what happened. Messages served in one slot are in queueing order (c23_order). Delivered after a bounded number of signalling slots (c23_delivered), on the main channel after a bounded number of ticks (c23_main). The scheduler never aborts if no stolen block is stranded (c23_total_partial). Missing because the code violates it: stranded stolen blocks abort or reach the next call, later messages can overtake, a second grant replaces the first (proved as findings)."
  },
  {
   "property": "C24",
   "status": "proved",
   "theorems": [
    "Verif.Umac.c24_state",
    "Verif.Umac.c24_queries",
    "Verif.Umac.c24_voice",
    "Verif.Umac.c24_no_circuit",
    "Verif.Umac.c24_total"
   ],
   "note": "For every history of calls: state, queries, voice block order, no leak to a later circuit, no abort on valid slots."
  },
  {
   "property": "C25",
   "status": "partial",
   "theorems": [
    "Verif.Cmce.c25_in_use",
    "Verif.Cmce.c25_allocate",
    "Verif.Cmce.c25_ranges",
    "Verif.Cmce.c25_timeslots",
    "Verif.Cmce.c25_distinct_partial",
    "Verif.Cmce.c25_distinct_first_60",
    "Verif.Cmce.c25_usage_given_twice",
    "Verif.Cmce.c25_call_id_given_twice",
    "Verif.Cmce.c25_is_active_dir_aborts"
   ],
   "note": "Ranges and timeslots proved; identifiers distinct unless 60 (usage) or 1023 (call id) circuits were made in between, which the code does not prevent: findings c25_usage_given_twice, c25_call_id_given_twice."
  },
  {
   "property": "C26",
   "status": "partial",
   "theorems": [
    "Verif.Llc.c26_stop_and_wait",
    "Verif.Llc.c26_content",
    "Verif.Llc.c26_alternate",
    "Verif.Llc.c26_attempts",
    "Verif.Llc.c26_lost",
    "Verif.Llc.c26_acknowledged",
    "Verif.Llc.c26_prompt",
    "Verif.Llc.c26_total_partial",
    "Verif.Llc.c26_discarded_then_acknowledged_aborts",
    "Verif.Llc.c26_discarded_then_given_up_aborts",
    "Verif.Llc.c26_unexpected_acknowledgement_aborts",
    "Verif.Llc.c26_type_13_aborts"
   ],
   "note": "Order, stop-and-wait, sequence bits, attempts, timer, loss and acknowledgement reports and promptness are proved for every history that does not abort; absence of aborts is proved only when the MAC discards nothing and reporters expect acknowledgements, because the code aborts otherwise (Findings)."
  },
  {
   "property": "C27",
   "status": "partial",
   "theorems": [
    "Verif.Llc.c27_answered",
    "Verif.Llc.c27_answered_exactly",
    "Verif.Llc.c27_no_spurious",
    "Verif.Llc.c27_delivered",
    "Verif.Llc.c27_answer_delayed",
    "Verif.Llc.c27_duplicate_delivered",
    "Verif.Llc.c27_fcs_in_sdu"
   ],
   "note": "Proved by exact accounting per station, timeslot and sequence number. A piggybacked answer may wait for the link and is repeated with each retransmission of its carrier, so only its first transmission is counted (Findings)."
  },
  {
   "property": "C28",
   "status": "proved",
   "theorems": [
    "Verif.Cmce.c28_one_group_two_calls",
    "Verif.Cmce.c28_network_call_unanswered",
    "Verif.Cmce.c28_expiry_not_reported",
    "Verif.Cmce.c28_reused_number",
    "Verif.Cmce.c28_numbers",
    "Verif.Cmce.c28_total",
    "Verif.Cmce.c28_foreign_group_aborts",
    "Verif.Cmce.c28_exclusive",
    "Verif.Cmce.c28_connected",
    "Verif.Cmce.c28_heard",
    "Verif.Cmce.c28_served"
   ],
   "note": "All of cc_bs.rs is modelled. c28_numbers: identifiers collide at the earliest after 1023 calls. c28_exclusive (every call has one traffic slot, allocator agrees, nobody else has it) needs no condition. c28_heard (slot taken iff a call is announced on it; no leak) and c28_served are for histories in which no identifier is given out while in use; c28_reused_number shows the leak otherwise. c28_total: no abort for network calls to routable groups; c28_foreign_group_aborts otherwise."
  },
  {
   "property": "C29",
   "status": "proved",
   "theorems": [
    "Verif.Cmce.c29_any_station_ceases",
    "Verif.Cmce.c29_any_station_releases",
    "Verif.Cmce.c29_owner_moves",
    "Verif.Cmce.c29_network_end_stops_local_talker",
    "Verif.Cmce.c29_floor",
    "Verif.Cmce.c29_order",
    "Verif.Cmce.c29_known",
    "Verif.Cmce.c29_demand",
    "Verif.Cmce.c29_network_demand",
    "Verif.Cmce.c29_tick"
   ],
   "note": "c29_floor, c29_order, c29_demand: every history, no condition. c29_known, c29_network_demand, c29_tick: while no identifier is given out while in use (guaranteed for the first 1023 calls). Findings: anyone may free the floor or release the call (c29_any_station_ceases, c29_any_station_releases), the owner moves with the floor (c29_owner_moves), a late network end stops a local talker."
  },
  {
   "property": "C30",
   "status": "proved",
   "theorems": [
    "Verif.Cmce.c30_count",
    "Verif.Cmce.c30_listener",
    "Verif.Cmce.c30_calls",
    "Verif.Cmce.c30_update",
    "Verif.Cmce.c30_refused"
   ],
   "note": "Every history, with duplicates, any hash iteration order. affiliated is defined from the updates alone."
  },
  {
   "property": "C31",
   "status": "proved",
   "theorems": [
    "Verif.Config.c31_exact",
    "Verif.Config.c31_reregistration",
    "Verif.Config.c31_groups",
    "Verif.Config.c31_deaffiliate_registers"
   ],
   "note": "Registry equals what the history of registrations, deregistrations and affiliations says, for every history. Deaffiliating an unknown station registers it: c31_deaffiliate_registers."
  },
  {
   "property": "C32",
   "status": "partial",
   "theorems": [
    "Verif.Mm.c32_never_more",
    "Verif.Mm.c32_agree_partial",
    "Verif.Mm.c32_listener_partial",
    "Verif.Mm.c32_reattach_lost"
   ],
   "note": "Call control never counts a station for a group mobility management does not hold, and knows exactly the registered stations, for every history (c32_never_more); equality, also through call control itself, when no single message detaches and then attaches the same group (c32_agree_partial, c32_listener_partial). Otherwise false: c32_reattach_lost."
  },
  {
   "property": "C33",
   "status": "proved",
   "theorems": [
    "Verif.Brew.Jitter.c33_fresh",
    "Verif.Brew.Jitter.c33_latency",
    "Verif.Brew.Jitter.c33_order",
    "Verif.Brew.Jitter.c33_bounds",
    "Verif.Brew.Jitter.c33_overflow",
    "Verif.Brew.Jitter.c33_playout",
    "Verif.Brew.Jitter.c33_no_stall",
    "Verif.Brew.Jitter.c33_initial_target_above_maximum"
   ],
   "note": "Frame order, bounds, overflow and playout for every sequence of pushes, pops and clock advances; the floating point jitter estimate enters as an arbitrary value. Initial target above maximum is a finding."
  },
  {
   "property": "C34",
   "status": "proved",
   "theorems": [
    "Verif.Brew.c34_group",
    "Verif.Brew.c34_individual",
    "Verif.Brew.c34_inactive",
    "Verif.Brew.c34_service"
   ],
   "note": "Routability of groups, individuals, services and feature flags decided exactly by the configuration, for every configuration and number."
  },
  {
   "property": "C35",
   "status": "proved",
   "theorems": [
    "Verif.Router.c35_exactly_once",
    "Verif.Router.c35_fifo",
    "Verif.Router.c35_fifo_plain",
    "Verif.Router.c35_immediate",
    "Verif.Router.c35_tick"
   ],
   "note": "For every behaviour of the entities and every history: exactly once, in order, immediate first; ticks end with an empty queue. Termination of a tick depends on the entities and is not claimed."
  },
  {
   "property": "C36",
   "status": "partial",
   "theorems": [
    "Verif.Umac.c36_block_partial",
    "Verif.Umac.c36_block_aborts",
    "Verif.Umac.c36_u_blck_aborts",
    "Verif.Umac.c36_short_pdus_abort",
    "Verif.Umac.c36_secret_access_aborts_later",
    "Verif.Umac.c36_too_long_aborts_later",
    "Verif.Umac.c36_far_grant_aborts_later",
    "Verif.Umac.c36_end_hu_aborts"
   ],
   "note": "Proved: after every history, every block in which no PDU is of a listed kind is processed or dropped. Refuted for the listed kinds (each aborts in every state): MAC-ACCESS of 1-4 octets, MAC-DATA of 1-4 or 56-61 octets, a request for more than 68 slots, MAC-END of one octet, every MAC-U-BLCK. Some blocks which are processed make a later slot abort (witnesses). Missing: nothing can be added without changing the code."
  },
  {
   "property": "C37",
   "status": "partial",
   "theorems": [
    "Verif.Umac.c37_elements",
    "Verif.Umac.c37_mac_resource",
    "Verif.Umac.c37_mac_resource_exact",
    "Verif.Umac.c37_null_pdu",
    "Verif.Umac.c37_mac_resource_only",
    "Verif.Umac.c37_update_len",
    "Verif.Umac.c37_mac_end_dl",
    "Verif.Umac.c37_mac_end_dl_len_partial",
    "Verif.Umac.c37_mac_end_dl_len_wrong",
    "Verif.Umac.c37_mac_frag",
    "Verif.Umac.c37_mac_u_signal",
    "Verif.Umac.c37_mac_d_blck",
    "Verif.Umac.c37_mac_access",
    "Verif.Umac.c37_mac_data",
    "Verif.Umac.c37_mac_end_hu",
    "Verif.Umac.c37_mac_end_ul_partial",
    "Verif.Umac.c37_mac_end_ul_reservation_lost",
    "Verif.Umac.c37_mac_end_ul_never_reservation",
    "Verif.Umac.c37_mac_u_blck",
    "Verif.Umac.c37_access_assign",
    "Verif.Umac.c37_access_assign_default",
    "Verif.Umac.c37_access_assign_len",
    "Verif.Umac.c37_access_assign_fr18",
    "Verif.Umac.c37_mac_sync",
    "Verif.Umac.c37_mac_sysinfo",
    "Verif.Umac.c37_ext_services_no_class",
    "Verif.Umac.c37_sysinfo_common_frames_lost",
    "Verif.Umac.c37_sysinfo_common_frames",
    "Verif.Umac.c37_sysinfo_even_aborts",
    "Verif.Umac.c37_access_define"
   ],
   "note": "All sixteen MAC headers read back as written for every in-range field combination, and the computed header length equals the written length. Missing because the code violates it: the reservation form of uplink MAC-END is never accepted by the reader, SYSINFO loses the even/odd multiframe definitions and extended services without security class, and the MAC-END header length is two bits short with a slot grant (each proved as a finding)."
  },
  {
   "property": "C38",
   "status": "partial",
   "theorems": [
    "Verif.Mm.c38_mm_itsi_detach",
    "Verif.Mm.c38_mm_location_update_demand",
    "Verif.Mm.c38_mm_attach_detach",
    "Verif.Mm.c38_mm_uplink_ack",
    "Verif.Mm.c38_mm_status_reserved",
    "Verif.Mm.c38_mm_status",
    "Verif.Mm.c38_mm_location_update_accept",
    "Verif.Mm.c38_mm_downlink_ack",
    "Verif.Mm.c38_mm_downlink_attach",
    "Verif.Mm.c38_mm_proceeding",
    "Verif.Mm.c38_energy_saving_never",
    "Verif.Mm.c38_mm_unreadable",
    "Verif.Mm.c38_mm_not_supported",
    "Verif.Llc.c38_llc_adata",
    "Verif.Llc.c38_llc_data",
    "Verif.Llc.c38_llc_udata",
    "Verif.Llc.c38_llc_ack",
    "Verif.Llc.c38_llc_types_distinct",
    "Verif.Llc.c38_llc_safe",
    "Verif.Mle.c38_mle_sync",
    "Verif.Mle.c38_mle_sysinfo",
    "Verif.Mle.c38_mle_d_restore_fail",
    "Verif.Mle.c38_mle_d_channel_response",
    "Verif.Mle.c38_mle_d_nwrk_broadcast",
    "Verif.Mle.c38_mle_neighbours",
    "Verif.Mle.c38_mle_never_read",
    "Verif.Mle.c38_mle_unreadable",
    "Verif.Mle.c38_mle_sdu_lost",
    "Verif.Cmce.Pdu.c38_basic_service_ambiguous",
    "Verif.Cmce.Pdu.c38_basic_service_refused",
    "Verif.Cmce.Pdu.c38_cmce_u_alert",
    "Verif.Cmce.Pdu.c38_cmce_u_connect",
    "Verif.Cmce.Pdu.c38_cmce_u_disconnect",
    "Verif.Cmce.Pdu.c38_cmce_u_info",
    "Verif.Cmce.Pdu.c38_cmce_u_release",
    "Verif.Cmce.Pdu.c38_cmce_u_setup",
    "Verif.Cmce.Pdu.c38_cmce_u_status",
    "Verif.Cmce.Pdu.c38_cmce_u_tx_ceased",
    "Verif.Cmce.Pdu.c38_cmce_u_tx_demand",
    "Verif.Cmce.Pdu.c38_cmce_u_call_restore",
    "Verif.Cmce.Pdu.c38_cmce_u_sds_data",
    "Verif.Cmce.Pdu.c38_cmce_d_alert",
    "Verif.Cmce.Pdu.c38_cmce_d_call_proceeding",
    "Verif.Cmce.Pdu.c38_cmce_d_connect",
    "Verif.Cmce.Pdu.c38_cmce_d_connect_acknowledge",
    "Verif.Cmce.Pdu.c38_cmce_d_disconnect",
    "Verif.Cmce.Pdu.c38_cmce_d_info",
    "Verif.Cmce.Pdu.c38_cmce_d_release",
    "Verif.Cmce.Pdu.c38_cmce_d_status",
    "Verif.Cmce.Pdu.c38_cmce_d_tx_ceased",
    "Verif.Cmce.Pdu.c38_cmce_d_tx_continue",
    "Verif.Cmce.Pdu.c38_cmce_d_tx_granted",
    "Verif.Cmce.Pdu.c38_cmce_d_tx_wait",
    "Verif.Cmce.Pdu.c38_cmce_d_tx_interrupt",
    "Verif.Cmce.Pdu.c38_cmce_d_call_restore",
    "Verif.Cmce.Pdu.c38_cmce_d_sds_data",
    "Verif.Cmce.Pdu.c38_cmce_d_setup",
    "Verif.Cmce.Pdu.c38_cmce_d_setup_refused",
    "Verif.Cmce.Pdu.c38_cmce_facility",
    "Verif.Cmce.Pdu.c38_cmce_not_supported",
    "Verif.Cmce.Pdu.c38_cmce_not_supported_abort",
    "Verif.Cmce.Pdu.c38_cmce_u_status_abort",
    "Verif.Cmce.Pdu.c38_cmce_u_status_31743",
    "Verif.Cmce.Pdu.c38_cmce_uplink_abort"
   ],
   "note": "LLC basic-link PDUs, all MM PDUs, all CMCE PDUs and all MLE PDUs, both directions (round trip for every field value in range). The property is false of the PDUs in c38_energy_saving_never, c38_mm_unreadable, c38_mm_not_supported, c38_basic_service_ambiguous, c38_cmce_not_supported_abort, c38_cmce_u_status_31743, c38_mle_never_read, c38_mle_unreadable, c38_mle_neighbours, c38_mle_sdu_lost."
  },
  {
   "property": "C39",
   "status": "proved",
   "theorems": [
    "Verif.Cmce.c39_entity",
    "Verif.Cmce.c39_commands",
    "Verif.Cmce.c39_air",
    "Verif.Cmce.c39_end_to_end",
    "Verif.Cmce.c39_dropped",
    "Verif.Cmce.c39_total_partial",
    "Verif.Cmce.c39_from_backhaul",
    "Verif.Cmce.c39_from_control",
    "Verif.Cmce.c39_payload",
    "Verif.Cmce.c39_status_data",
    "Verif.Cmce.c39_status",
    "Verif.Cmce.c39_status_total_partial",
    "Verif.Cmce.c39_status_abort",
    "Verif.Cmce.c39_control_group",
    "Verif.Cmce.c39_group_only_local",
    "Verif.Cmce.c39_status_feature",
    "Verif.Cmce.c39_control_abort",
    "Verif.Cmce.c39_source_abort"
   ],
   "note": "c39_air and c39_end_to_end: exactly one destination by precedence, same source and data; c39_dropped, c39_payload; from backhaul and control link c39_from_backhaul, c39_from_control; status c39_status. c39_total_partial and c39_status_total_partial characterise the aborts (impossible element lengths, status 31743), which are findings."
  },
  {
   "property": "C40",
   "status": "partial",
   "theorems": [
    "Verif.Umac.LabelStore.c40_labels",
    "Verif.Umac.LabelStore.c40_sequence",
    "Verif.Umac.LabelStore.c40_not_zero_partial",
    "Verif.Umac.LabelStore.c40_label_zero_issued",
    "Verif.Umac.LabelStore.c40_create_total",
    "Verif.Umac.LabelStore.c40_wraparound_takes_label"
   ],
   "note": "Labels of distinct stations differ up to the first 510 allocations. Beyond that the code violates the property: label 0 is issued and wraparound takes labels in use (findings)."
  },
  {
   "property": "C41",
   "status": "proved",
   "theorems": [
    "Verif.Cmce.c41_expiry",
    "Verif.Cmce.c41_announcements",
    "Verif.Cmce.c41_other_timeslots"
   ],
   "note": "For every reachable table and every time."
  },
  {
   "property": "C42",
   "status": "proved",
   "theorems": [
    "Verif.Llc.c42_sent_once"
   ],
   "note": ""
  },
  {
   "property": "C43",
   "status": "proved",
   "theorems": [
    "Verif.Umac.c43_time",
    "Verif.Umac.c43_sync",
    "Verif.Umac.c43_sysinfo",
    "Verif.Umac.c43_when"
   ],
   "note": "Time, identity and presence of SYNC and SYSINFO for every history of proper calls from the start; SYNC and SYSINFO are decoded with the decoders of C37/C38."
  },
  {
   "property": "C44",
   "status": "proved",
   "theorems": [
    "Verif.Umac.c44_shape",
    "Verif.Umac.c44_signalling",
    "Verif.Umac.c44_idle"
   ],
   "note": "Shape, capacity, scrambling and content of every slot in every history of proper calls."
  },
  {
   "property": "C45",
   "status": "partial",
   "theorems": [
    "Verif.Umac.c45_hang_stolen_mismatch",
    "Verif.Umac.c45_announced",
    "Verif.Umac.c45_sent",
    "Verif.Umac.c45_owner_partial"
   ],
   "note": "The announcement equals a function of the circuits and the hang state (c45_announced); announced traffic is traffic (c45_sent); traffic is announced with the usage marker of its circuit outside hang time (c45_owner_partial). The missing half is false: during hang time a stolen block is sent as traffic in a slot announced as control (c45_hang_stolen_mismatch)."
  },
  {
   "property": "C46",
   "status": "proved",
   "theorems": [
    "Verif.Umac.c46_voice",
    "Verif.Umac.c46_whole_frames"
   ],
   "note": "The voice sent on the timeslot of an open circuit, over every history, is the output of a one-frame queue fed by the frames supplied for that timeslot."
  },
  {
   "property": "C47",
   "status": "partial",
   "theorems": [
    "Verif.Umac.c47_interleaved",
    "Verif.Umac.c47_lost",
    "Verif.Umac.c47_partial"
   ],
   "note": "Holds when all messages of the timeslot have headers of equal length and no grants are joined to them (c47_partial). False in general: c47_interleaved, and c47_lost shows the station loses a message reported as transmitted."
  },
  {
   "property": "C48",
   "status": "proved",
   "theorems": [
    "Verif.Umac.c48_orders",
    "Verif.Umac.c48_both",
    "Verif.Umac.c48_calls",
    "Verif.Umac.c48_voice_up",
    "Verif.Umac.c48_voice_down"
   ],
   "note": ""
  },
  {
   "property": "C49",
   "status": "proved",
   "theorems": [
    "Verif.Umac.c49_parts",
    "Verif.Umac.c49_origin",
    "Verif.Umac.c49_messages",
    "Verif.Umac.c49_reassembled",
    "Verif.Umac.c49_sent_data",
    "Verif.Umac.c49_sent_data_first",
    "Verif.Umac.c49_sent_access",
    "Verif.Umac.c49_sent_access_first",
    "Verif.Umac.c49_sent_frag",
    "Verif.Umac.c49_sent_end",
    "Verif.Umac.c49_sent_end_hu"
   ],
   "note": "c49_origin (soundness), c49_messages and c49_reassembled (completeness), c49_sent_* (what mobiles send meets the block grammar). The empty message of an overflowed reassembly is a stated disjunct."
  },
  {
   "property": "C50",
   "status": "proved",
   "theorems": [
    "Verif.Umac.c50_reports",
    "Verif.Umac.c50_waits",
    "Verif.Umac.c50_once"
   ],
   "note": ""
  },
  {
   "property": "C51",
   "status": "proved",
   "theorems": [
    "Verif.Mm.c51_registry"
   ],
   "note": "c51_registry"
  },
  {
   "property": "C52",
   "status": "proved",
   "theorems": [
    "Verif.Mm.c52_location_update",
    "Verif.Mm.c52_group_report",
    "Verif.Mm.c52_itsi_detach",
    "Verif.Mm.c52_status",
    "Verif.Mm.c52_refused"
   ],
   "note": "c52_location_update, c52_group_report, c52_itsi_detach, c52_status, c52_refused"
  },
  {
   "property": "C53",
   "status": "partial",
   "theorems": [
    "Verif.Mm.c53_mm_iff",
    "Verif.Mm.c53_mm_total_partial",
    "Verif.Mm.c53_mm_aborts"
   ],
   "note": "Exactly characterized: c53_mm_iff (a message aborts if and only if the reader of its type does); an abort implies an element header in the message whose announced length is too short, or an unrecognised element longer than the message (c53_mm_total_partial). Missing: those messages, for which it is false: c53_mm_aborts gives a 29 bit message which aborts in every state."
  },
  {
   "property": "C54",
   "status": "proved",
   "theorems": [
    "Verif.Mm.c54_backhaul",
    "Verif.Mm.c54_same_order"
   ],
   "note": "c54_backhaul, c54_same_order"
  },
  {
   "property": "C55",
   "status": "partial",
   "theorems": [
    "Verif.Mm.c55_telemetry_partial",
    "Verif.Mm.c55_detach_unreported",
    "Verif.Mm.c55_exact_partial"
   ],
   "note": "Stations exactly; groups at least (c55_telemetry_partial), and exactly as long as no message leaves a single group (c55_exact_partial). Exactness otherwise is false: c55_detach_unreported."
  },
  {
   "property": "C56",
   "status": "proved",
   "theorems": [
    "Verif.Cmce.c56_reason",
    "Verif.Cmce.c56_disconnect",
    "Verif.Cmce.c56_network_end"
   ],
   "note": "c56_reason, c56_disconnect, c56_network_end. U-RELEASE is accepted from any station (stated as a reason)."
  },
  {
   "property": "C57",
   "status": "proved",
   "theorems": [
    "Verif.Cmce.c57_terms",
    "Verif.Cmce.c57_heard",
    "Verif.Cmce.c57_floor",
    "Verif.Cmce.c57_numbers",
    "Verif.Cmce.c57_meaning_unique",
    "Verif.Cmce.c57_meaning",
    "Verif.Cmce.c57_service",
    "Verif.Cmce.c57_mobile_iff",
    "Verif.Cmce.c57_total_partial",
    "Verif.Cmce.c57_command_abort",
    "Verif.Cmce.c57_encryption_finding",
    "Verif.Cmce.c57_speaker_abort"
   ],
   "note": "c57_heard (simulation, with c57_floor and c57_numbers as instances), c57_service, c57_meaning. c57_mobile_iff: a mobile's message aborts if and only if the reader of its type does; c57_total_partial lists all causes of an abort; impossible element lengths (C09) and the status 31743 (C39) are among them."
  },
  {
   "property": "C58",
   "status": "proved",
   "theorems": [
    "Verif.Brew.c58_read",
    "Verif.Brew.c58_total",
    "Verif.Brew.c58_subscriber",
    "Verif.Brew.c58_traffic"
   ],
   "note": "c58_read is an iff between the reader and the table of layouts; c58_total; c58_subscriber and c58_traffic for what is written."
  },
  {
   "property": "C59",
   "status": "proved",
   "theorems": [
    "Verif.Brew.c59_total",
    "Verif.Brew.c59_short_data",
    "Verif.Brew.c59_calls"
   ],
   "note": "c59_short_data and c59_calls are iffs over histories; c59_total. The transport (WebSocket, TLS) is not modelled: a message it does not take is lost."
  },
  {
   "property": "C60",
   "status": "proved",
   "theorems": [
    "Verif.Brew.c60_subscribers",
    "Verif.Brew.c60_nothing_false",
    "Verif.Brew.c60_leave"
   ],
   "note": "c60_subscribers is an iff over histories; c60_nothing_false needs no quiet channel from the worker; c60_leave. The transport is assumed to have taken every message of this connection (`whole`); the server is assumed to forget a connection's registrations when it is lost."
  },
  {
   "property": "C61",
   "status": "partial",
   "theorems": [
    "Verif.Brew.c61_speaker_partial",
    "Verif.Brew.c61_leak",
    "Verif.Brew.c61_session_left_open",
    "Verif.Brew.c61_session_survives_reconnection",
    "Verif.Brew.c61_voice",
    "Verif.Brew.c61_only_voice",
    "Verif.Brew.c61_announced",
    "Verif.Brew.c61_sessions",
    "Verif.Brew.c61_released",
    "Verif.Brew.c61_example"
   ],
   "note": "Proved for the entity: c61_voice (iff, with the format), c61_only_voice, c61_announced (iff), c61_sessions, c61_released. With call control: c61_speaker_partial, up to three ways in which call control ends a turn without reporting it (GapIn). These are real: c61_leak sends the voice of a local group to the network, c61_session_left_open and c61_session_survives_reconnection show sessions without end."
  },
  {
   "property": "C62",
   "status": "partial",
   "theorems": [
    "Verif.Brew.c62_start",
    "Verif.Brew.c62_end",
    "Verif.Brew.c62_voice",
    "Verif.Brew.c62_order",
    "Verif.Brew.c62_flow",
    "Verif.Brew.c62_heard_partial",
    "Verif.Brew.c62_voice_in_other_call",
    "Verif.Brew.c62_two_voices",
    "Verif.Brew.c62_speaker_change",
    "Verif.Brew.c62_not_tried_again"
   ],
   "note": "Proved for the entity: c62_start (iff), c62_end (iff, at most once), c62_voice (iff, at most one block per tick), c62_order (sublist of what was received), c62_flow. With call control and queues: c62_heard_partial, up to the ways in which call control ends the turn without telling the backhaul (SilentIn). These are real: c62_voice_in_other_call, c62_two_voices. Further findings: c62_speaker_change, c62_not_tried_again."
  },
  {
   "property": "C63",
   "status": "partial",
   "theorems": [
    "Verif.Brew.c63_out",
    "Verif.Brew.c63_in",
    "Verif.Brew.c63_across",
    "Verif.Brew.c63_abort",
    "Verif.Brew.c63_two_frames_abort",
    "Verif.Brew.c63_report_early"
   ],
   "note": "c63_out, c63_in, c63_across for all messages and histories. The last sentence is false: c63_abort says exactly which messages of the server abort the base station, c63_two_frames_abort is a witness. c63_report_early: the report is sent before delivery."
  },
  {
   "property": "C64",
   "status": "partial",
   "theorems": [
    "Verif.Mm.c64_network",
    "Verif.Mm.c64_groups_partial",
    "Verif.Mm.c64_reattach_lost"
   ],
   "note": "c64_network: stations exactly, groups never too many, for all histories. c64_groups_partial: groups exactly, unless a message detaches a group and later attaches it again; for those it is false (c64_reattach_lost)."
  },
  {
   "property": "C65",
   "status": "proved",
   "theorems": [
    "Verif.Phy.c65_sequences",
    "Verif.Phy.c65_fill",
    "Verif.Phy.c65_sent",
    "Verif.Phy.c65_sync",
    "Verif.Phy.c65_half",
    "Verif.Phy.c65_full",
    "Verif.Phy.c65_voice",
    "Verif.Phy.c65_stolen"
   ],
   "note": "c65_sent, c65_sync, c65_half, c65_full, c65_voice, c65_stolen over every slot the scheduler can build. The receiver is modelled at bit level (no demodulation)."
  },
  {
   "property": "C66",
   "status": "partial",
   "theorems": [
    "Verif.Phy.c66_half_turn_off",
    "Verif.Phy.c66_partial"
   ],
   "note": "c66_partial: each symbol is right if its window turns the carrier by 3 eighths modulo a half turn, and otherwise half a turn off. False in general: c66_half_turn_off."
  },
  {
   "property": "C67",
   "status": "proved",
   "theorems": [
    "Verif.Phy.c67_alone",
    "Verif.Phy.c67_exact",
    "Verif.Phy.c67_control",
    "Verif.Phy.c67_full",
    "Verif.Phy.c67_halves",
    "Verif.Phy.c67_voice",
    "Verif.Phy.c67_messages",
    "Verif.Phy.c67_history"
   ],
   "note": "c67_exact (exactly what is told), c67_control, c67_full, c67_halves, c67_voice, c67_messages, c67_history, c67_alone. From demodulated bits; DSP is not modelled. Which half of the slot a control burst was in is lost: C69."
  },
  {
   "property": "C68",
   "status": "partial",
   "theorems": [
    "Verif.Phy.c68_steal_aborts",
    "Verif.Phy.c68_steal_control_aborts",
    "Verif.Phy.c68_sample_aborts",
    "Verif.Phy.c68_partial",
    "Verif.Phy.c68_down"
   ],
   "note": "c68_partial: reception ends well unless a block with a right checksum has one of the bad PDUs of C36 or wrongly says that the second half is stolen; c68_down: what is scheduled is sent. Both exceptions abort: C36, c68_steal_aborts, c68_steal_control_aborts."
  },
  {
   "property": "C69",
   "status": "partial",
   "theorems": [
    "Verif.Phy.c69_partial",
    "Verif.Phy.c69_second_half_as_first",
    "Verif.Phy.c69_half_slots_mixed_up"
   ],
   "note": "c69_partial: parts are attributed to the station granted the half the block was told as. False for second halves: c69_second_half_as_first, c69_half_slots_mixed_up."
  },
  {
   "property": "C70",
   "status": "proved",
   "theorems": [
    "Verif.Sig.c70_drains",
    "Verif.Sig.c70_all_heard_partial",
    "Verif.Sig.c70_heard",
    "Verif.Sig.c70_setup_overtakes"
   ],
   "note": "c70_heard, c70_drains; c70_all_heard_partial adds that after a history without aborts (C71) all is heard. The upper MAC and the backhaul are events from outside."
  },
  {
   "property": "C71",
   "status": "partial",
   "theorems": [
    "Verif.Sig.c71_total_partial",
    "Verif.Sig.c71_runs_partial",
    "Verif.Sig.c71_fatal",
    "Verif.Sig.c71_frame_iff",
    "Verif.Sig.c71_mm_aborts",
    "Verif.Sig.c71_status_aborts",
    "Verif.Sig.c71_packet_data_aborts",
    "Verif.Sig.c71_unacknowledged_aborts",
    "Verif.Sig.c71_numbers_finding"
   ],
   "note": "False; exactly characterized: c71_frame_iff (a frame leads to an abort if and only if it is `Fatal`), c71_total_partial, c71_runs_partial, c71_fatal. Missing: the fatal frames, for which it is false (c71_mm_aborts, c71_status_aborts, c71_packet_data_aborts, c71_unacknowledged_aborts), and histories of 2^32 - 2 messages (c71_numbers_finding)."
  },
  {
   "property": "C72",
   "status": "proved",
   "theorems": [
    "Verif.Sig.c72_ordered",
    "Verif.Sig.c72_unacknowledged",
    "Verif.Sig.c72_acknowledged"
   ],
   "note": "c72_ordered, c72_unacknowledged, c72_acknowledged. That acknowledged messages get acknowledged or repeated: C26."
  },
  {
   "property": "C73",
   "status": "proved",
   "theorems": [
    "Verif.Sig.c73_read",
    "Verif.Sig.c73_times"
   ],
   "note": "c73_times (which broadcasts are sent), c73_read (what a mobile reads). The calendar (seconds of the year, offset of a time zone) is chrono's. That the message reaches the MAC: c72_unacknowledged."
  },
  {
   "property": "C74",
   "status": "partial",
   "theorems": [
    "Verif.Net.c74_commands",
    "Verif.Net.c74_promptly",
    "Verif.Net.c74_done",
    "Verif.Net.c74_answers",
    "Verif.Net.c74_requests",
    "Verif.Net.c74_not_lost_partial",
    "Verif.Net.c74_abort_iff_partial",
    "Verif.Net.c74_command_abort",
    "Verif.Net.c74_answer_lost"
   ],
   "note": "Proved: c74_commands, c74_promptly, c74_done, c74_answers, c74_requests. False in general: answers are lost when the connection fails (c74_answer_lost; none else, c74_not_lost_partial); CommandA and TestCmdB abort the base station (c74_command_abort), and so do requests with a source or length out of range for a registered station and nothing else (c74_abort_iff_partial)."
  },
  {
   "property": "C75",
   "status": "partial",
   "theorems": [
    "Verif.Net.c75_events",
    "Verif.Net.c75_in_order",
    "Verif.Net.c75_lost_iff",
    "Verif.Net.c75_station_partial",
    "Verif.Net.c75_silent",
    "Verif.Net.c75_picture_partial",
    "Verif.Net.c75_no_resync"
   ],
   "note": "Proved: events are sent in order and never invented (c75_events, c75_in_order), lost exactly when the connection fails (c75_lost_iff); the picture is right if none was lost (c75_picture_partial, with the limits of C55), and for a station whose last event was sent (c75_station_partial, c75_silent). False in general: events lost in an outage are never made up for (c75_no_resync)."
  },
  {
   "property": "C76",
   "status": "partial",
   "theorems": [
    "Verif.Config.c76_written_partial",
    "Verif.Config.c76_command_partial",
    "Verif.Config.c76_left_out",
    "Verif.Config.c76_link_iff",
    "Verif.Config.c76_links",
    "Verif.Config.c76_command_typo",
    "Verif.Config.c76_neighbour_unused"
   ],
   "note": "Proved: every key but those of [command] is held as written or refused (c76_written_partial), in [command] the known keys (c76_command_partial), and defaults (c76_left_out). False in general: unknown keys of [command] are dropped silently (c76_command_typo); neighbor_cell_broadcast has no effect (c76_neighbour_unused). Two gain keys differing in case only are left to a hash map and not modelled."
  },
  {
   "property": "C77",
   "status": "partial",
   "theorems": [
    "Verif.Config.c77_ranges",
    "Verif.Config.c77_found_partial",
    "Verif.Config.c77_starts_iff_partial",
    "Verif.Config.c77_mode_ms",
    "Verif.Config.c77_colour_zero",
    "Verif.Config.c77_mode_example",
    "Verif.Config.c77_out_of_range",
    "Verif.Config.c77_custom_spacing"
   ],
   "note": "Proved: c77_found_partial, for values which fit, mode Bs, colour code and band not 0 and standard spacing; which values are not checked (c77_ranges), that exactly those stop the station, within two timeslots (c77_starts_iff_partial, c77_out_of_range). False in general: c77_mode_ms, c77_colour_zero, c77_custom_spacing."
  },
  {
   "property": "C78",
   "status": "partial",
   "theorems": [
    "Verif.Net.Ws.c78_in_order",
    "Verif.Net.Ws.c78_pongs",
    "Verif.Net.Ws.c78_ping_numbers",
    "Verif.Net.Ws.c78_pings",
    "Verif.Net.Ws.c78_dropped_iff",
    "Verif.Net.Ws.c78_kept_partial",
    "Verif.Net.Ws.c78_stall"
   ],
   "note": "Proved for every history: c78_in_order, c78_pongs, c78_pings, c78_dropped_iff. That a live server keeps its connection is proved with bounds on how late polls and answers are (c78_kept_partial) and is false without them (c78_stall). A server sending faster than frames are read is left out."
  },
  {
   "property": "C79",
   "status": "partial",
   "theorems": [
    "Verif.Net.Stream.c79_unique",
    "Verif.Net.Stream.c79_exact_partial",
    "Verif.Net.Stream.c79_invented",
    "Verif.Net.Stream.c79_large"
   ],
   "note": "c79_exact_partial: messages of at most 1 MiB all arrive if and only if no receive found a part of a message. False in general: the part read is not kept (c79_invented), and a message above the limit is read as messages (c79_large). What is written determines the messages (c79_unique)."
  },
  {
   "property": "C80",
   "status": "partial",
   "theorems": [
    "Verif.Net.Digest.c80_logs_in_partial",
    "Verif.Net.Digest.c80_wrong_password",
    "Verif.Net.Digest.c80_password_hidden",
    "Verif.Net.Digest.c80_comma",
    "Verif.Net.Digest.c80_scheme_case",
    "Verif.Net.Digest.c80_split",
    "Verif.Net.Digest.c80_quote"
   ],
   "note": "c80_logs_in_partial for values without comma, quote or backslash and answers in one piece; c80_wrong_password and c80_password_hidden in full. False beyond that: c80_comma, c80_scheme_case, c80_split, c80_quote."
  },
  {
   "property": "C81",
   "status": "partial",
   "theorems": [
    "Verif.Umac.c81_on_air_partial",
    "Verif.Umac.c81_checked",
    "Verif.Umac.c81_deaf",
    "Verif.Umac.c81_mandatory",
    "Verif.Umac.c81_tuned",
    "Verif.Umac.c81_hyperframe",
    "Verif.Umac.c81_hyperframe_aborts",
    "Verif.Umac.c81_cut_short",
    "Verif.Umac.c81_interleaved",
    "Verif.Umac.c81_ack_at_end_aborts",
    "Verif.Umac.c81_late_listener",
    "Verif.Umac.c81_unknown_pdu_aborts",
    "Verif.Umac.c81_broadcast_aborts",
    "Verif.Umac.c81_never_scrambles",
    "Verif.Umac.c81_partial",
    "Verif.Umac.c81_exact_partial",
    "Verif.Umac.c81_mixed_partial",
    "Verif.Umac.c81_delivered_partial"
   ],
   "note": "c81_partial, c81_exact_partial, c81_delivered_partial: headers of equal length, no grants or acknowledgements on the timeslot, at least four bits; exact unless a message ends one to four bits after a byte boundary. c81_on_air_partial: the same through burst, channel coding and the lower MAC of the station, on the control channel, with at most one wrong bit in each field. c81_mixed_partial: everything, as long as parts of two messages are never on the air at once and the station has not aborted. False beyond that: c81_cut_short, c81_interleaved, c81_ack_at_end_aborts, c81_late_listener, c81_deaf."
  },
  {
   "property": "C82",
   "status": "proved",
   "theorems": [
    "Verif.Dsp.c82_convolution"
   ],
   "note": "Exact arithmetic: rounding of floating point numbers is not modelled."
  },
  {
   "property": "C83",
   "status": "partial",
   "theorems": [
    "Verif.Dsp.c83_reads_partial"
   ],
   "note": "c83_reads_partial: exact arithmetic; the estimate of the symbol timing (an arc tangent) is assumed to be near enough, and the delay of the air is a whole number of samples."
  },
  {
   "property": "C84",
   "status": "partial",
   "theorems": [
    "Verif.Dsp.Slots.c84_slots",
    "Verif.Dsp.Slots.c84_all_slots",
    "Verif.Dsp.Slots.c84_ends"
   ],
   "note": "c84_slots is exact for every history of losses; c84_ends shows that the last clause fails: after 283115520 slots (46 days) no slot is read any more."
  },
  {
   "property": "C85",
   "status": "partial",
   "theorems": [
    "Verif.Dsp.Slots.c85_never_ahead",
    "Verif.Dsp.Slots.c85_in_step",
    "Verif.Dsp.Slots.c85_lost",
    "Verif.Dsp.Slots.c85_behind_for_ever"
   ],
   "note": "c85_in_step: without losses, for 46 days. c85_never_ahead: in general the stack is never ahead and never catches up. c85_behind_for_ever: one loss of less than a slot and it is behind for ever. The tick counter of the stack is a hyperframe counter as well."
  },
  {
   "property": "C86",
   "status": "partial",
   "theorems": [
    "Verif.Dsp.Slots.c86_modulator",
    "Verif.Dsp.Slots.c86_in_order",
    "Verif.Dsp.Slots.c86_on_time",
    "Verif.Dsp.Slots.c86_behind",
    "Verif.Dsp.Slots.c86_mixed"
   ],
   "note": "c86_on_time: without losses and with the clock at most 10 ms ahead. c86_in_order: in general blocks are in order, early enough, and no sample is sent before its time. c86_behind and c86_mixed show what goes wrong otherwise. The delay of the filter bank is not modelled (the source has a TODO)."
  },
  {
   "property": "C87",
   "status": "partial",
   "theorems": [
    "Verif.Dsp.Receive.c87_round_trip",
    "Verif.Dsp.Receive.c87_difference",
    "Verif.Dsp.Receive.c87_blocks",
    "Verif.Dsp.Receive.c87_all_blocks",
    "Verif.Dsp.Receive.c87_one_lost",
    "Verif.Dsp.Receive.c87_unstamped_lost"
   ],
   "note": "c87_blocks holds, with or without timestamps, if no loss is of exactly one sample and every loss is followed by a timestamp which is not the first; c87_one_lost and c87_unstamped_lost are counterexamples otherwise. Exact arithmetic instead of floating point. Errors reported by the radio end the program (phy_bs.rs, expect) and are not modelled."
  },
  {
   "property": "C88",
   "status": "partial",
   "theorems": [
    "Verif.Dsp.Bank.c88_analysis",
    "Verif.Dsp.Bank.c88_synthesis",
    "Verif.Dsp.Bank.c88_weights",
    "Verif.Dsp.Bank.c88_falling",
    "Verif.Dsp.Bank.c88_both",
    "Verif.Dsp.Bank.c88_carrier",
    "Verif.Dsp.Bank.c88_design"
   ],
   "note": "For signals which are sums of tones at whole bins, that is with a period of 2 ms: for other signals the bank is only approximately a filter, by design. Exact arithmetic; rustfft is taken to compute the transform."
  },
  {
   "property": "C89",
   "status": "partial",
   "theorems": [
    "Verif.Phy.Record.c89_replay",
    "Verif.Phy.Record.c89_short_file",
    "Verif.Phy.Record.c89_record",
    "Verif.Phy.Record.c89_record_replay",
    "Verif.Phy.Record.c89_not_created",
    "Verif.Phy.Record.c89_uplink"
   ],
   "note": "Replaying is exact for files with at least one whole slot (c89_replay); the recorder is exact as long as the file can be created and written (c89_record). The rest is violated by the code: c89_short_file, c89_not_created."
  },
  {
   "property": "C90",
   "status": "partial",
   "theorems": [
    "Verif.Umac.c90_signal",
    "Verif.Umac.c90_steal_ts",
    "Verif.Umac.c90_stolen",
    "Verif.Umac.c90_stolen_fits",
    "Verif.Umac.c90_stolen_read",
    "Verif.Umac.c90_stolen_cut",
    "Verif.Umac.c90_stolen_iff",
    "Verif.Umac.c90_stolen_aborts",
    "Verif.Umac.c90_tx_ceased_lost",
    "Verif.Umac.c90_tx_granted",
    "Verif.Umac.c90_ack"
   ],
   "note": "Signalling (c90_signal), the choice of the timeslot (c90_steal_ts) and the header of stolen half slots (c90_stolen) are proved; the contents of a stolen half slot are read as sent exactly when header and message are a whole number of octets (c90_stolen_iff). For other lengths the code violates the property: c90_stolen_cut, c90_tx_ceased_lost, c90_stolen_aborts."
  },
  {
   "property": "C91",
   "status": "partial",
   "theorems": [
    "Verif.Phy.c91_left_over",
    "Verif.Phy.c91_order",
    "Verif.Phy.c91_no_backlog",
    "Verif.Phy.c91_said",
    "Verif.Phy.c91_air",
    "Verif.Phy.c91_nth",
    "Verif.Phy.c91_next"
   ],
   "note": "Proved: order and silence (c91_order), no backlog in calls inside the cell (c91_no_backlog), the frame said is the next one sent (c91_said), from the burst of one station to the decoder of another (c91_air), one frame later and not in frame 18 (c91_next), the delay by what waits (c91_nth). The last sentence is violated: c91_left_over."
  },
  {
   "property": "C92",
   "status": "partial",
   "theorems": [
    "Verif.Sig.c92_release_finding",
    "Verif.Sig.c92_hang_release",
    "Verif.Sig.c92_handled",
    "Verif.Sig.c92_hang_release_finding",
    "Verif.Sig.c92_answers_partial",
    "Verif.Sig.c92_ended_witness",
    "Verif.Sig.c92_quiet_witness"
   ],
   "note": "Proved for answers to call setups, statuses, short data and registrations (c92_answers_partial). The end of a call is never told in its timeslot: c92_release_finding, c92_hang_release_finding."
  },
  {
   "property": "C93",
   "status": "partial",
   "theorems": [
    "Verif.Station.c93_reaches",
    "Verif.Station.c93_heard",
    "Verif.Station.c93_origin",
    "Verif.Station.c93_circuits_partial"
   ],
   "note": "What reaches the protocols and where it comes from is proved for all histories (c93_reaches, c93_heard, c93_origin). The circuits follow the calls while no call number is used twice and the order queue is empty (c93_circuits_partial; C28)."
  },
  {
   "property": "C94",
   "status": "partial",
   "theorems": [
    "Verif.Station.c94_asked",
    "Verif.Station.c94_plain",
    "Verif.Station.c94_fate",
    "Verif.Station.c94_reports",
    "Verif.Station.c94_station_partial"
   ],
   "note": "Fate and reports proved for all histories in which every answer to a station can be sent (Sayable; the three exceptions are findings of C36 and C21); addresses and usage markers of what is handed down for all histories (c94_plain). The mobile station is followed while parts of two messages are never on the air at once on its timeslot (C81), and messages in stolen half slots are left to C90."
  },
  {
   "property": "C95",
   "status": "partial",
   "theorems": [
    "Verif.Station.c95_burst_aborts",
    "Verif.Station.c95_one_burst",
    "Verif.Station.c95_total_partial"
   ],
   "note": "The negation is proved, for every configuration and every history (c95_one_burst), and for every burst with a fatal message (c95_burst_aborts); the fatal messages are exactly those of C71 for a single message (c71_frame_iff). The other direction is c95_total_partial: after a history without harmful events every harmless input is handled. A slot in which a stolen block waits on a timeslot without a circuit (C43) and receptions C68 leaves open count as harmful."
  },
  {
   "property": "C96",
   "status": "partial",
   "theorems": [
    "Verif.Umac.c96_only",
    "Verif.Umac.c96_told",
    "Verif.Umac.c96_waits",
    "Verif.Umac.c96_deferred",
    "Verif.Umac.c96_full_slot_late"
   ],
   "note": "Proved except that a grant whose slot is full is told a frame late and then names the wrong slot (c96_full_slot_late); slots of frame 18 and of calls tell nothing."
  },
  {
   "property": "C97",
   "status": "partial",
   "theorems": [
    "Verif.Llc.c97_once",
    "Verif.Llc.c97_acknowledged_partial",
    "Verif.Llc.c97_no_gaps_partial",
    "Verif.Llc.c97_after_giving_up"
   ],
   "note": "c97_once without conditions; c97_acknowledged_partial and c97_no_gaps_partial as long as no earlier message to the station was given up. Beyond that it is false: c97_after_giving_up. The order of frames on the air is assumed (C23, C94: one frame of a station is with the MAC at a time)."
  },
  {
   "property": "C98",
   "status": "partial",
   "theorems": [
    "Verif.Station.c98_answered",
    "Verif.Station.c98_registered",
    "Verif.Station.c98_goes_down",
    "Verif.Station.c98_acknowledged",
    "Verif.Station.c98_in_time",
    "Verif.Station.c98_heard_partial"
   ],
   "note": "Proved until the mobile station passes the acceptance up (c98_heard_partial), while parts of two messages are never on the air at once on the control channel (C81) and the station has not aborted. Timely sending is proved for the control channel; on timeslots of calls C94 says what can happen instead."
  },
  {
   "property": "C99",
   "status": "partial",
   "theorems": [
    "Verif.Station.c99_connected",
    "Verif.Station.c99_requested",
    "Verif.Station.c99_goes_down",
    "Verif.Station.c99_in_time",
    "Verif.Station.c99_heard_partial"
   ],
   "note": "Proved under the condition that no call number is used again while its call is on (NoReuse, see C41); heard by the stations on the control channel (c99_heard_partial) while parts of two messages are never on the air at once (C81). Timely sending is proved for messages on the control channel."
  },
  {
   "property": "C100",
   "status": "partial",
   "theorems": [
    "Verif.Tool.c100_header",
    "Verif.Tool.c100_next_block_partial",
    "Verif.Tool.c100_next_block_iff",
    "Verif.Tool.c100_sdu_finding",
    "Verif.Tool.c100_sdu_length_finding",
    "Verif.Tool.c100_same_block_finding",
    "Verif.Tool.c100_uplink_total",
    "Verif.Tool.c100_downlink_one",
    "Verif.Tool.c100_downlink_channels_abort",
    "Verif.Tool.c100_downlink_bits_abort"
   ],
   "note": "The header is always shown (c100_header) and the uplink never aborts. The end of the PDU is found exactly in the cases of c100_next_block_iff (enough bits behind the PDU); otherwise it is wrong, as is the SDU: see the findings."
  },
  {
   "property": "C101",
   "status": "partial",
   "theorems": [
    "Verif.Config.c101_taken",
    "Verif.Config.c101_gain_partial",
    "Verif.Config.c101_default",
    "Verif.Config.c101_rest",
    "Verif.Config.c101_keys",
    "Verif.Config.c101_file_partial",
    "Verif.Config.c101_two_spellings"
   ],
   "note": "Proved for gains written in one spelling (c101_file_partial, c101_gain_partial); two spellings are a finding. Frequencies are in C77; stream arguments and the choice of the clock are not modelled."
  },
  {
   "property": "C102",
   "status": "partial",
   "theorems": [
    "Verif.Net.Console.c102_exact_partial",
    "Verif.Net.Console.c102_typed",
    "Verif.Net.Console.c102_ascii",
    "Verif.Net.Console.c102_stray_letter",
    "Verif.Net.Console.c102_plus_sign",
    "Verif.Net.Console.c102_long_payload",
    "Verif.Net.Console.c102_told",
    "Verif.Net.Console.c102_handles"
   ],
   "note": "Reading is exact for lines without a plus sign (c102_exact_partial), the length for payloads below 8192 bytes (c102_typed), histories as long as no line stops the console (c102_told); the rest are findings. JSON and TLS are not modelled."
  },
  {
   "property": "C103",
   "status": "partial",
   "theorems": [
    "Verif.Net.Console.c103_exact",
    "Verif.Net.Console.c103_open",
    "Verif.Net.Console.c103_generated_partial",
    "Verif.Net.Console.c103_hash_name",
    "Verif.Net.Console.c103_blank_password"
   ],
   "note": "Who is let in is exact (c103_exact); credentials made by the program work for names which do not begin with # (c103_generated_partial), with the password without blanks at its ends. Argon2, Base64, TLS and HTTP itself are not modelled."
  },
  {
   "property": "C104",
   "status": "partial",
   "theorems": [
    "Verif.Net.Receiver.c104_anonymous",
    "Verif.Net.Receiver.c104_anonymous_one",
    "Verif.Net.Receiver.c104_one_partial",
    "Verif.Net.Receiver.c104_refused_partial",
    "Verif.Net.Receiver.c104_back",
    "Verif.Net.Receiver.c104_given_back_twice"
   ],
   "note": "Proved as long as no request comes with a name under which another is just being refused for its protocol (c104_one_partial, c104_refused_partial); such requests are a finding. That a user can come back is proved for every history (c104_back). Without passwords the names are numbered and everything holds for every history (c104_anonymous, c104_anonymous_one). Names are those of C103; messages and TLS are not modelled."
  },
  {
   "property": "C105",
   "status": "partial",
   "theorems": [
    "Verif.Net.Console.c105_heard_partial",
    "Verif.Net.Console.c105_abort",
    "Verif.Net.Console.c105_cut_short",
    "Verif.Net.Console.c105_history"
   ],
   "note": "Proved for sources of 24 bits and at most 255 bytes (c105_heard_partial); c105_abort says exactly which other lines abort the base station. Histories (c105_history) as long as no line stops the console. JSON is a pair of functions."
  },
  {
   "property": "C106",
   "status": "proved",
   "theorems": [
    "Verif.Enums.c106_refused",
    "Verif.Enums.c106_layers",
    "Verif.Enums.c106_faithful",
    "Verif.Enums.c106_known",
    "Verif.Enums.c106_full",
    "Verif.Enums.c106_delay"
   ],
   "note": "`Display` is not modelled. The lengths are those of the comments, except for three enums whose comment says 3 bits and which are written in 4 or 5."
  },
  {
   "property": "C107",
   "status": "partial",
   "theorems": [
    "Verif.Net.Console.c107_exact_partial",
    "Verif.Net.Console.c107_none",
    "Verif.Net.Console.c107_made_partial",
    "Verif.Net.Console.c107_colon"
   ],
   "note": "Exact for names without a colon (c107_exact_partial), what happens to the others is c107_colon; lines made by the program work for names not beginning with # and passwords without blanks at the ends (c107_made_partial; findings of C103). Base64 is a pair of functions, Argon2 a relation; TLS and HTTP are not modelled."
  },
  {
   "property": "C108",
   "status": "partial",
   "theorems": [
    "Verif.Config.c108_exact",
    "Verif.Config.c108_settings",
    "Verif.Config.c108_args_partial",
    "Verif.Config.c108_replaced",
    "Verif.Config.c108_kind"
   ],
   "note": "Which radio is used is exact (c108_exact), as are its settings (c108_settings) and kinds (c108_kind); the arguments of the file reach the driver except three of a Pluto (c108_args_partial, c108_replaced). That two devices with the same keys are told apart is not checked by the code and not claimed. Drivers are an environment."
  },
  {
   "property": "C109",
   "status": "partial",
   "theorems": [
    "Verif.Dsp.Receive.c109_aligned",
    "Verif.Dsp.Receive.c109_clock",
    "Verif.Dsp.Receive.c109_ahead",
    "Verif.Dsp.Receive.c109_one_lost"
   ],
   "note": "For histories of reads as in C87 (no loss of exactly one sample, no loss before a read without timestamp or before the first one); c109_one_lost is a counterexample otherwise. Equal whole rates for both directions, exact arithmetic; delays inside the radio are not modelled (the source has a TODO)."
  }
 ]
}