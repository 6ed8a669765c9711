{
 "C01": {
  "status": "proved",
  "note": "Bit buffer refines a bit tape for every history of calls; round trip of any field list at any alignment. The straddling write on a growable buffer is a finding (c01_straddling_write_overshoots); all other calls are covered."
 },
 "C02": {
  "status": "partial",
  "note": "Reads, writes, bit copies, sub-buffers and dumps stay in the window. The bit-vector conversion is proved only for windows starting at 0; c02_bitvec_ignores_start shows the code violates the property otherwise."
 },
 "C03": {
  "status": "proved",
  "note": "Bijection with integers, addition and difference exact modulo the hyperframe range."
 },
 "C04": {
  "status": "proved",
  "note": "One BSCH and one BNCH per multiframe and timeslot, rotation over timeslots, forward_to_timeslot."
 },
 "C05": {
  "status": "proved",
  "note": "Allocator refines an ownership map over any history."
 },
 "C06": {
  "status": "proved",
  "note": "Receipt state machine over any history."
 },
 "C07": {
  "status": "partial",
  "note": "Exact containment and disjointness; an inverted (empty) range makes acceptance order dependent (c07_empty_range_order_dependent)."
 },
 "C08": {
  "status": "partial",
  "note": "Exact frequencies for standard settings; band 0 with negative offset and oversized custom spacing violate it (c08_band0_wraps, c08_custom_spacing_aborts)."
 },
 "C10": {
  "status": "proved",
  "note": "Appended CRC always accepted; every burst of at most 16 bits, every odd number of wrong bits and every double error within 288 bits rejected."
 },
 "C11": {
  "status": "partial",
  "note": "Involution for all codes and blocks; different codes give different keystreams; no zero run of 32 for nonzero codes; valid network parameters with nonzero colour code give distinct nonzero codes. Colour code 0 switches scrambling off (c11_colour_zero_disables), so the distinctness claim fails there."
 },
 "C12": {
  "status": "proved",
  "note": "Block, matrix and speech-order interleavers are bijections for all logical channels, both compositions are the identity on every block."
 },
 "C13": {
  "status": "proved",
  "note": "Round trip and single-error correction for every word, minimum distance 8 for all pairs, scrambled AACH round trip. c13_double_error_unreported records that two errors are not flagged."
 },
 "C14": {
  "status": "proved",
  "note": "All six control-plane channels, every block, every scrambling code: round trip, also with any single transmitted bit wrong."
 },
 "C16": {
  "status": "proved",
  "note": "Viterbi output is the terminated sequence with the fewest mismatches, for every received word of every length up to the sizes the 16-bit metrics allow."
 },
 "C15": {
  "status": "proved",
  "note": "Round trip for every frame and code, also with any single transmitted bit wrong (all class 1/2 bits right). Odd numbers of errors and all double errors in the 68 checked bits are flagged."
 },
 "C17": {
  "status": "partial",
  "note": "Acceptance and burst rejection for every non-empty SDU at any alignment. The empty SDU is a finding: c17_empty_sdu_aborts."
 },
 "C18": {
  "status": "proved",
  "note": "Count equals what was written for every payload, cursor, window; amount of fill exact."
 },
 "C09": {
  "status": "proved",
  "note": "Whole optional part of an arbitrary PDU description reads back, with any trailing bits; the back-filled lengths equal the direct encoding on the C01 tape. Malformed received elements that abort are findings (c09_type4_short_length_aborts, c09_type3_generic_overlong_aborts)."
 },
 "C37": {
  "status": "partial",
  "note": "All sixteen MAC headers read back as written for every in-range field combination, and the computed header length equals the written length. Missing because the code violates it: the reservation form of uplink MAC-END is never accepted by the reader, SYSINFO loses the even/odd multiframe definitions and extended services without security class, and the MAC-END header length is two bits short with a slot grant (each proved as a finding)."
 },
 "C31": {
  "status": "proved",
  "note": "Registry equals what the history of registrations, deregistrations and affiliations says, for every history. Deaffiliating an unknown station registers it: c31_deaffiliate_registers."
 },
 "C33": {
  "status": "proved",
  "note": "Frame order, bounds, overflow and playout for every sequence of pushes, pops and clock advances; the floating point jitter estimate enters as an arbitrary value. Initial target above maximum is a finding."
 },
 "C34": {
  "status": "proved",
  "note": "Routability of groups, individuals, services and feature flags decided exactly by the configuration, for every configuration and number."
 },
 "C35": {
  "status": "proved",
  "note": "For every behaviour of the entities and every history: exactly once, in order, immediate first; ticks end with an empty queue. Termination of a tick depends on the entities and is not claimed."
 },
 "C40": {
  "status": "partial",
  "note": "Labels of distinct stations differ up to the first 510 allocations. Beyond that the code violates the property: label 0 is issued and wraparound takes labels in use (findings)."
 },
 "C24": {
  "status": "proved",
  "note": "For every history of calls: state, queries, voice block order, no leak to a later circuit, no abort on valid slots."
 },
 "C25": {
  "status": "partial",
  "note": "Ranges and timeslots proved; identifiers distinct unless 60 (usage) or 1023 (call id) circuits were made in between, which the code does not prevent: findings c25_usage_given_twice, c25_call_id_given_twice."
 },
 "C41": {
  "status": "proved",
  "note": "For every reachable table and every time."
 },
 "C19": {
  "status": "partial",
  "note": "Proved: whatever blocks are offered, the parts on the air are a prefix of the SDU and the whole SDU once done, in well-formed PDUs in the right order that never overflow a block; the fragmenter ends; a mobile station in an idle timeslot passes up exactly the SDU, once (end to end, SDUs that need fragmenting, up to 4096 bits). Missing: an SDU sent whole in a MAC-RESOURCE that fills a slot whose size is not a multiple of eight loses its last bits (finding), so the statement for unfragmented SDUs holds only for octet-aligned PDUs."
 },
 "C20": {
  "status": "partial",
  "note": "Proved for every history: what is delivered at a last fragment is exactly the fragments of the latest reassembly of that station on that slot, never another station or slot; the mobile side in full. Missing: after an overflow or timeout the base station delivers an empty SDU under address 0, and the timeout is never driven by the code (findings)."
 },
 "C26": {
  "status": "partial",
  "note": "Order, stop-and-wait, sequence bits, attempts, timer, loss and acknowledgement reports and promptness are proved for every history that does not abort; absence of aborts is proved only when the MAC discards nothing and reporters expect acknowledgements, because the code aborts otherwise (Findings)."
 },
 "C27": {
  "status": "partial",
  "note": "Proved by exact accounting per station, timeslot and sequence number. A piggybacked answer may wait for the link and is repeated with each retransmission of its carrier, so only its first transmission is counted (Findings)."
 },
 "C42": {
  "status": "proved",
  "note": ""
 },
 "C38": {
  "status": "partial",
  "note": "LLC basic-link PDUs, all MM PDUs, all CMCE PDUs and all MLE PDUs, both directions (round trip for every field value in range). The property is false of the PDUs in c38_energy_saving_never, c38_mm_unreadable, c38_mm_not_supported, c38_basic_service_ambiguous, c38_cmce_not_supported_abort, c38_cmce_u_status_31743, c38_mle_never_read, c38_mle_unreadable, c38_mle_neighbours, c38_mle_sdu_lost."
 },
 "C21": {
  "status": "partial",
  "note": "For every history of ticks and requests: no half slot is granted twice, slot ownership equals what was granted, a grant is the earliest possible run and lies in the future outside common-linearization slots, and the ring position is cleared before reuse. Missing because the code violates it: a request for more than 68 slots aborts, and delays 14, 15 and 16 are produced although they cannot be expressed on the air interface (proved as findings); a grant due in frame 18 is sent after its slot (c21_frame_18_grant_late)."
 },
 "C22": {
  "status": "partial",
  "note": "The usage computed for an uplink slot and the owner looked up for received data equal the grants made, for every reachable state (c22_usage, c21_owner, c21_owner_full). The block announced on the air does not use that computation: c22_always_open says what it announces, c22_reserved_but_open is a counterexample."
 },
 "C23": {
  "status": "partial",
  "note": "Every queued message is followed through every history (c23_message, c23_stolen): its bits go out once, in order, on its timeslot, and its sender is told exactly what happened. Messages served in one slot are in queueing order (c23_order). Delivered after a bounded number of signalling slots (c23_delivered), on the main channel after a bounded number of ticks (c23_main). The scheduler never aborts if no stolen block is stranded (c23_total_partial). Missing because the code violates it: stranded stolen blocks abort or reach the next call, later messages can overtake, a second grant replaces the first (proved as findings)."
 },
 "C43": {
  "status": "proved",
  "note": "Time, identity and presence of SYNC and SYSINFO for every history of proper calls from the start; SYNC and SYSINFO are decoded with the decoders of C37/C38."
 },
 "C44": {
  "status": "proved",
  "note": "Shape, capacity, scrambling and content of every slot in every history of proper calls."
 },
 "C45": {
  "status": "partial",
  "note": "The announcement equals a function of the circuits and the hang state (c45_announced); announced traffic is traffic (c45_sent); traffic is announced with the usage marker of its circuit outside hang time (c45_owner_partial). The missing half is false: during hang time a stolen block is sent as traffic in a slot announced as control (c45_hang_stolen_mismatch)."
 },
 "C46": {
  "status": "proved",
  "note": "The voice sent on the timeslot of an open circuit, over every history, is the output of a one-frame queue fed by the frames supplied for that timeslot."
 },
 "C47": {
  "status": "partial",
  "note": "Holds when all messages of the timeslot have headers of equal length and no grants are joined to them (c47_partial). False in general: c47_interleaved, and c47_lost shows the station loses a message reported as transmitted."
 },
 "C28": {
  "status": "proved",
  "note": "All of cc_bs.rs is modelled. c28_numbers: identifiers collide at the earliest after 1023 calls. c28_exclusive (every call has one traffic slot, allocator agrees, nobody else has it) needs no condition. c28_heard (slot taken iff a call is announced on it; no leak) and c28_served are for histories in which no identifier is given out while in use; c28_reused_number shows the leak otherwise. c28_total: no abort for network calls to routable groups; c28_foreign_group_aborts otherwise."
 },
 "C29": {
  "status": "proved",
  "note": "c29_floor, c29_order, c29_demand: every history, no condition. c29_known, c29_network_demand, c29_tick: while no identifier is given out while in use (guaranteed for the first 1023 calls). Findings: anyone may free the floor or release the call (c29_any_station_ceases, c29_any_station_releases), the owner moves with the floor (c29_owner_moves), a late network end stops a local talker."
 },
 "C30": {
  "status": "proved",
  "note": "Every history, with duplicates, any hash iteration order. affiliated is defined from the updates alone."
 },
 "C36": {
  "status": "partial",
  "note": "Proved: after every history, every block in which no PDU is of a listed kind is processed or dropped. Refuted for the listed kinds (each aborts in every state): MAC-ACCESS of 1-4 octets, MAC-DATA of 1-4 or 56-61 octets, a request for more than 68 slots, MAC-END of one octet, every MAC-U-BLCK. Some blocks which are processed make a later slot abort (witnesses). Missing: nothing can be added without changing the code."
 },
 "C48": {
  "status": "proved",
  "note": ""
 },
 "C50": {
  "status": "proved",
  "note": ""
 },
 "C49": {
  "status": "proved",
  "note": "c49_origin (soundness), c49_messages and c49_reassembled (completeness), c49_sent_* (what mobiles send meets the block grammar). The empty message of an overflowed reassembly is a stated disjunct."
 },
 "C32": {
  "status": "partial",
  "note": "Call control never counts a station for a group mobility management does not hold, and knows exactly the registered stations, for every history (c32_never_more); equality, also through call control itself, when no single message detaches and then attaches the same group (c32_agree_partial, c32_listener_partial). Otherwise false: c32_reattach_lost."
 },
 "C51": {
  "status": "proved",
  "note": "c51_registry"
 },
 "C52": {
  "status": "proved",
  "note": "c52_location_update, c52_group_report, c52_itsi_detach, c52_status, c52_refused"
 },
 "C53": {
  "status": "partial",
  "note": "Exactly characterized: c53_mm_iff (a message aborts if and only if the reader of its type does); an abort implies an element header in the message whose announced length is too short, or an unrecognised element longer than the message (c53_mm_total_partial). Missing: those messages, for which it is false: c53_mm_aborts gives a 29 bit message which aborts in every state."
 },
 "C54": {
  "status": "proved",
  "note": "c54_backhaul, c54_same_order"
 },
 "C55": {
  "status": "partial",
  "note": "Stations exactly; groups at least (c55_telemetry_partial), and exactly as long as no message leaves a single group (c55_exact_partial). Exactness otherwise is false: c55_detach_unreported."
 },
 "C56": {
  "status": "proved",
  "note": "c56_reason, c56_disconnect, c56_network_end. U-RELEASE is accepted from any station (stated as a reason)."
 },
 "C39": {
  "status": "proved",
  "note": "c39_air and c39_end_to_end: exactly one destination by precedence, same source and data; c39_dropped, c39_payload; from backhaul and control link c39_from_backhaul, c39_from_control; status c39_status. c39_total_partial and c39_status_total_partial characterise the aborts (impossible element lengths, status 31743), which are findings."
 },
 "C57": {
  "status": "proved",
  "note": "c57_heard (simulation, with c57_floor and c57_numbers as instances), c57_service, c57_meaning. c57_mobile_iff: a mobile's message aborts if and only if the reader of its type does; c57_total_partial lists all causes of an abort; impossible element lengths (C09) and the status 31743 (C39) are among them."
 },
 "C58": {
  "status": "proved",
  "note": "c58_read is an iff between the reader and the table of layouts; c58_total; c58_subscriber and c58_traffic for what is written."
 },
 "C59": {
  "status": "proved",
  "note": "c59_short_data and c59_calls are iffs over histories; c59_total. The transport (WebSocket, TLS) is not modelled: a message it does not take is lost."
 },
 "C60": {
  "status": "proved",
  "note": "c60_subscribers is an iff over histories; c60_nothing_false needs no quiet channel from the worker; c60_leave. The transport is assumed to have taken every message of this connection (`whole`); the server is assumed to forget a connection's registrations when it is lost."
 },
 "C61": {
  "status": "partial",
  "note": "Proved for the entity: c61_voice (iff, with the format), c61_only_voice, c61_announced (iff), c61_sessions, c61_released. With call control: c61_speaker_partial, up to three ways in which call control ends a turn without reporting it (GapIn). These are real: c61_leak sends the voice of a local group to the network, c61_session_left_open and c61_session_survives_reconnection show sessions without end."
 },
 "C62": {
  "status": "partial",
  "note": "Proved for the entity: c62_start (iff), c62_end (iff, at most once), c62_voice (iff, at most one block per tick), c62_order (sublist of what was received), c62_flow. With call control and queues: c62_heard_partial, up to the ways in which call control ends the turn without telling the backhaul (SilentIn). These are real: c62_voice_in_other_call, c62_two_voices. Further findings: c62_speaker_change, c62_not_tried_again."
 },
 "C63": {
  "status": "partial",
  "note": "c63_out, c63_in, c63_across for all messages and histories. The last sentence is false: c63_abort says exactly which messages of the server abort the base station, c63_two_frames_abort is a witness. c63_report_early: the report is sent before delivery."
 },
 "C64": {
  "status": "partial",
  "note": "c64_network: stations exactly, groups never too many, for all histories. c64_groups_partial: groups exactly, unless a message detaches a group and later attaches it again; for those it is false (c64_reattach_lost)."
 },
 "C65": {
  "status": "proved",
  "note": "c65_sent, c65_sync, c65_half, c65_full, c65_voice, c65_stolen over every slot the scheduler can build. The receiver is modelled at bit level (no demodulation)."
 },
 "C66": {
  "status": "partial",
  "note": "c66_partial: each symbol is right if its window turns the carrier by 3 eighths modulo a half turn, and otherwise half a turn off. False in general: c66_half_turn_off."
 },
 "C67": {
  "status": "proved",
  "note": "c67_exact (exactly what is told), c67_control, c67_full, c67_halves, c67_voice, c67_messages, c67_history, c67_alone. From demodulated bits; DSP is not modelled. Which half of the slot a control burst was in is lost: C69."
 },
 "C68": {
  "status": "partial",
  "note": "c68_partial: reception ends well unless a block with a right checksum has one of the bad PDUs of C36 or wrongly says that the second half is stolen; c68_down: what is scheduled is sent. Both exceptions abort: C36, c68_steal_aborts, c68_steal_control_aborts."
 },
 "C69": {
  "status": "partial",
  "note": "c69_partial: parts are attributed to the station granted the half the block was told as. False for second halves: c69_second_half_as_first, c69_half_slots_mixed_up."
 },
 "C70": {
  "status": "proved",
  "note": "c70_heard, c70_drains; c70_all_heard_partial adds that after a history without aborts (C71) all is heard. The upper MAC and the backhaul are events from outside."
 },
 "C71": {
  "status": "partial",
  "note": "False; exactly characterized: c71_frame_iff (a frame leads to an abort if and only if it is `Fatal`), c71_total_partial, c71_runs_partial, c71_fatal. Missing: the fatal frames, for which it is false (c71_mm_aborts, c71_status_aborts, c71_packet_data_aborts, c71_unacknowledged_aborts), and histories of 2^32 - 2 messages (c71_numbers_finding)."
 },
 "C72": {
  "status": "proved",
  "note": "c72_ordered, c72_unacknowledged, c72_acknowledged. That acknowledged messages get acknowledged or repeated: C26."
 },
 "C73": {
  "status": "proved",
  "note": "c73_times (which broadcasts are sent), c73_read (what a mobile reads). The calendar (seconds of the year, offset of a time zone) is chrono's. That the message reaches the MAC: c72_unacknowledged."
 },
 "C74": {
  "status": "partial",
  "note": "Proved: c74_commands, c74_promptly, c74_done, c74_answers, c74_requests. False in general: answers are lost when the connection fails (c74_answer_lost; none else, c74_not_lost_partial); CommandA and TestCmdB abort the base station (c74_command_abort), and so do requests with a source or length out of range for a registered station and nothing else (c74_abort_iff_partial)."
 },
 "C75": {
  "status": "partial",
  "note": "Proved: events are sent in order and never invented (c75_events, c75_in_order), lost exactly when the connection fails (c75_lost_iff); the picture is right if none was lost (c75_picture_partial, with the limits of C55), and for a station whose last event was sent (c75_station_partial, c75_silent). False in general: events lost in an outage are never made up for (c75_no_resync)."
 },
 "C76": {
  "status": "partial",
  "note": "Proved: every key but those of [command] is held as written or refused (c76_written_partial), in [command] the known keys (c76_command_partial), and defaults (c76_left_out). False in general: unknown keys of [command] are dropped silently (c76_command_typo); neighbor_cell_broadcast has no effect (c76_neighbour_unused). Two gain keys differing in case only are left to a hash map and not modelled."
 },
 "C77": {
  "status": "partial",
  "note": "Proved: c77_found_partial, for values which fit, mode Bs, colour code and band not 0 and standard spacing; which values are not checked (c77_ranges), that exactly those stop the station, within two timeslots (c77_starts_iff_partial, c77_out_of_range). False in general: c77_mode_ms, c77_colour_zero, c77_custom_spacing."
 },
 "C78": {
  "status": "partial",
  "note": "Proved for every history: c78_in_order, c78_pongs, c78_pings, c78_dropped_iff. That a live server keeps its connection is proved with bounds on how late polls and answers are (c78_kept_partial) and is false without them (c78_stall). A server sending faster than frames are read is left out."
 },
 "C79": {
  "status": "partial",
  "note": "c79_exact_partial: messages of at most 1 MiB all arrive if and only if no receive found a part of a message. False in general: the part read is not kept (c79_invented), and a message above the limit is read as messages (c79_large). What is written determines the messages (c79_unique)."
 },
 "C80": {
  "status": "partial",
  "note": "c80_logs_in_partial for values without comma, quote or backslash and answers in one piece; c80_wrong_password and c80_password_hidden in full. False beyond that: c80_comma, c80_scheme_case, c80_split, c80_quote."
 },
 "C81": {
  "status": "partial",
  "note": "c81_partial, c81_exact_partial, c81_delivered_partial: headers of equal length, no grants or acknowledgements on the timeslot, at least four bits; exact unless a message ends one to four bits after a byte boundary. c81_on_air_partial: the same through burst, channel coding and the lower MAC of the station, on the control channel, with at most one wrong bit in each field. c81_mixed_partial: everything, as long as parts of two messages are never on the air at once and the station has not aborted. False beyond that: c81_cut_short, c81_interleaved, c81_ack_at_end_aborts, c81_late_listener, c81_deaf."
 },
 "C82": {
  "status": "proved",
  "note": "Exact arithmetic: rounding of floating point numbers is not modelled."
 },
 "C83": {
  "status": "partial",
  "note": "c83_reads_partial: exact arithmetic; the estimate of the symbol timing (an arc tangent) is assumed to be near enough, and the delay of the air is a whole number of samples."
 },
 "C84": {
  "status": "partial",
  "note": "c84_slots is exact for every history of losses; c84_ends shows that the last clause fails: after 283115520 slots (46 days) no slot is read any more."
 },
 "C85": {
  "status": "partial",
  "note": "c85_in_step: without losses, for 46 days. c85_never_ahead: in general the stack is never ahead and never catches up. c85_behind_for_ever: one loss of less than a slot and it is behind for ever. The tick counter of the stack is a hyperframe counter as well."
 },
 "C86": {
  "status": "partial",
  "note": "c86_on_time: without losses and with the clock at most 10 ms ahead. c86_in_order: in general blocks are in order, early enough, and no sample is sent before its time. c86_behind and c86_mixed show what goes wrong otherwise. The delay of the filter bank is not modelled (the source has a TODO)."
 },
 "C87": {
  "status": "partial",
  "note": "c87_blocks holds, with or without timestamps, if no loss is of exactly one sample and every loss is followed by a timestamp which is not the first; c87_one_lost and c87_unstamped_lost are counterexamples otherwise. Exact arithmetic instead of floating point. Errors reported by the radio end the program (phy_bs.rs, expect) and are not modelled."
 },
 "C88": {
  "status": "partial",
  "note": "For signals which are sums of tones at whole bins, that is with a period of 2 ms: for other signals the bank is only approximately a filter, by design. Exact arithmetic; rustfft is taken to compute the transform."
 },
 "C89": {
  "status": "partial",
  "note": "Replaying is exact for files with at least one whole slot (c89_replay); the recorder is exact as long as the file can be created and written (c89_record). The rest is violated by the code: c89_short_file, c89_not_created."
 },
 "C90": {
  "status": "partial",
  "note": "Signalling (c90_signal), the choice of the timeslot (c90_steal_ts) and the header of stolen half slots (c90_stolen) are proved; the contents of a stolen half slot are read as sent exactly when header and message are a whole number of octets (c90_stolen_iff). For other lengths the code violates the property: c90_stolen_cut, c90_tx_ceased_lost, c90_stolen_aborts."
 },
 "C91": {
  "status": "partial",
  "note": "Proved: order and silence (c91_order), no backlog in calls inside the cell (c91_no_backlog), the frame said is the next one sent (c91_said), from the burst of one station to the decoder of another (c91_air), one frame later and not in frame 18 (c91_next), the delay by what waits (c91_nth). The last sentence is violated: c91_left_over."
 },
 "C92": {
  "status": "partial",
  "note": "Proved for answers to call setups, statuses, short data and registrations (c92_answers_partial). The end of a call is never told in its timeslot: c92_release_finding, c92_hang_release_finding."
 },
 "C93": {
  "status": "partial",
  "note": "What reaches the protocols and where it comes from is proved for all histories (c93_reaches, c93_heard, c93_origin). The circuits follow the calls while no call number is used twice and the order queue is empty (c93_circuits_partial; C28)."
 },
 "C94": {
  "status": "partial",
  "note": "Fate and reports proved for all histories in which every answer to a station can be sent (Sayable; the three exceptions are findings of C36 and C21); addresses and usage markers of what is handed down for all histories (c94_plain). The mobile station is followed while parts of two messages are never on the air at once on its timeslot (C81), and messages in stolen half slots are left to C90."
 },
 "C95": {
  "status": "partial",
  "note": "The negation is proved, for every configuration and every history (c95_one_burst), and for every burst with a fatal message (c95_burst_aborts); the fatal messages are exactly those of C71 for a single message (c71_frame_iff). The other direction is c95_total_partial: after a history without harmful events every harmless input is handled. A slot in which a stolen block waits on a timeslot without a circuit (C43) and receptions C68 leaves open count as harmful."
 },
 "C96": {
  "status": "partial",
  "note": "Proved except that a grant whose slot is full is told a frame late and then names the wrong slot (c96_full_slot_late); slots of frame 18 and of calls tell nothing."
 },
 "C97": {
  "status": "partial",
  "note": "c97_once without conditions; c97_acknowledged_partial and c97_no_gaps_partial as long as no earlier message to the station was given up. Beyond that it is false: c97_after_giving_up. The order of frames on the air is assumed (C23, C94: one frame of a station is with the MAC at a time)."
 },
 "C98": {
  "status": "partial",
  "note": "Proved until the mobile station passes the acceptance up (c98_heard_partial), while parts of two messages are never on the air at once on the control channel (C81) and the station has not aborted. Timely sending is proved for the control channel; on timeslots of calls C94 says what can happen instead."
 },
 "C99": {
  "status": "partial",
  "note": "Proved under the condition that no call number is used again while its call is on (NoReuse, see C41); heard by the stations on the control channel (c99_heard_partial) while parts of two messages are never on the air at once (C81). Timely sending is proved for messages on the control channel."
 },
 "C100": {
  "status": "partial",
  "note": "The header is always shown (c100_header) and the uplink never aborts. The end of the PDU is found exactly in the cases of c100_next_block_iff (enough bits behind the PDU); otherwise it is wrong, as is the SDU: see the findings."
 },
 "C101": {
  "status": "partial",
  "note": "Proved for gains written in one spelling (c101_file_partial, c101_gain_partial); two spellings are a finding. Frequencies are in C77; stream arguments and the choice of the clock are not modelled."
 },
 "C102": {
  "status": "partial",
  "note": "Reading is exact for lines without a plus sign (c102_exact_partial), the length for payloads below 8192 bytes (c102_typed), histories as long as no line stops the console (c102_told); the rest are findings. JSON and TLS are not modelled."
 },
 "C103": {
  "status": "partial",
  "note": "Who is let in is exact (c103_exact); credentials made by the program work for names which do not begin with # (c103_generated_partial), with the password without blanks at its ends. Argon2, Base64, TLS and HTTP itself are not modelled."
 },
 "C104": {
  "status": "partial",
  "note": "Proved as long as no request comes with a name under which another is just being refused for its protocol (c104_one_partial, c104_refused_partial); such requests are a finding. That a user can come back is proved for every history (c104_back). Without passwords the names are numbered and everything holds for every history (c104_anonymous, c104_anonymous_one). Names are those of C103; messages and TLS are not modelled."
 },
 "C105": {
  "status": "partial",
  "note": "Proved for sources of 24 bits and at most 255 bytes (c105_heard_partial); c105_abort says exactly which other lines abort the base station. Histories (c105_history) as long as no line stops the console. JSON is a pair of functions."
 },
 "C106": {
  "status": "proved",
  "note": "`Display` is not modelled. The lengths are those of the comments, except for three enums whose comment says 3 bits and which are written in 4 or 5."
 },
 "C107": {
  "status": "partial",
  "note": "Exact for names without a colon (c107_exact_partial), what happens to the others is c107_colon; lines made by the program work for names not beginning with # and passwords without blanks at the ends (c107_made_partial; findings of C103). Base64 is a pair of functions, Argon2 a relation; TLS and HTTP are not modelled."
 },
 "C108": {
  "status": "partial",
  "note": "Which radio is used is exact (c108_exact), as are its settings (c108_settings) and kinds (c108_kind); the arguments of the file reach the driver except three of a Pluto (c108_args_partial, c108_replaced). That two devices with the same keys are told apart is not checked by the code and not claimed. Drivers are an environment."
 },
 "C109": {
  "status": "partial",
  "note": "For histories of reads as in C87 (no loss of exactly one sample, no loss before a read without timestamp or before the first one); c109_one_lost is a counterexample otherwise. Equal whole rates for both directions, exact arithmetic; delays inside the radio are not modelled (the source has a TODO)."
 }
}