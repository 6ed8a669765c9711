{"id": "C01", "title": "Bit buffer fields read back exactly as written", "statement": "If a caller writes any sequence of (value,width) fields with BitBuffer::write_bits to an auto-expanding or large-enough buffer, seeks back and reads the same widths, read_bits returns exactly the same values in the same order, at every bit alignment.", "quantifier": "every buffer content, every start/pos alignment, every width 0..64, every value that fits, every sequence of writes", "why_tests_cant": "write_bits/read_bits have separate head, whole-byte and tail paths whose combination depends on the alignment and the width; the space of (alignment,width,value,prior content,sequence) is unbounded.", "anchors": ["crates/tetra-core/src/bitbuffer.rs: BitBuffer::write_bits, read_bits, peek_bits_startoffset, read_bits_at_unchecked"]}
{"id": "C02", "title": "Bit buffer accesses stay inside their window", "statement": "A read beyond the end of the window returns None and does not move the cursor; a read inside returns the MSB-first value of exactly those bits; a write of n bits changes only the n bits at the cursor and no other bit of the storage, before or after.", "quantifier": "every buffer state that satisfies start<=pos<=end<=capacity, every access width", "why_tests_cant": "out-of-window corruption of neighbouring bits appears only for particular alignments and contents.", "anchors": ["crates/tetra-core/src/bitbuffer.rs: BitBuffer::write_bits, read_bits, seek, set_raw_start, set_raw_end, copy_bits"]}
{"id": "C03", "title": "TDMA time arithmetic is modular arithmetic on a cyclic counter", "statement": "Valid (slot,frame,multiframe,hyperframe) times are in bijection with 0..283115520; add_timeslots(n) adds n modulo that length for every signed n, adding a then b equals adding a+b, and diff returns the unique representative of the distance in the half-open window of half the wrap length, so age/diff undo add_timeslots.", "quantifier": "every valid time, every i32 offset", "why_tests_cant": "the counter wraps only every ~46 days, and the wrap interacts with sign handling in the conversion loops.", "anchors": ["crates/tetra-core/src/tdma_time.rs: TdmaTime::{to_int,from_int,add_timeslots,diff,age,time_int_diff,is_valid}"]}
{"id": "C04", "title": "Mandatory broadcast slots", "statement": "In every multiframe exactly one slot is a mandatory BSCH slot and exactly one is a mandatory BNCH slot, both are in frame 18, they never coincide, and over every 4 consecutive multiframes each of the four timeslots carries each of them exactly once. forward_to_timeslot moves 0..3 slots ahead and lands on the requested slot.", "quantifier": "every valid time, every multiframe, every window of 4 consecutive multiframes including the wrap of the multiframe counter", "why_tests_cant": "the mapping cycles with the multiframe counter and its wrap; a test samples points of it.", "anchors": ["crates/tetra-core/src/tdma_time.rs: is_mandatory_bsch, is_mandatory_bnch, is_mandatory_clch, forward_to_timeslot"]}
{"id": "C05", "title": "Timeslot allocator gives exclusive ownership", "statement": "After any history of allocate/reserve/release calls, a traffic slot has exactly the owner that last obtained it and has not released it; no slot is handed out twice without an intervening successful release by its owner; only slots 2..4 are ever handed out; allocate_any fails only when all three are held, and failed calls change nothing.", "quantifier": "every finite sequence of calls by either owner with any timeslot argument", "why_tests_cant": "needs all interleavings of two clients over unbounded histories.", "anchors": ["crates/tetra-core/src/timeslot_alloc.rs: TimeslotAllocator"]}
{"id": "C06", "title": "Transmission receipts are linear and final states are final", "statement": "For every interleaving of the reporter and receipt holders, the observed state moves only along Pending->Discarded, Pending->Transmitted, Transmitted->Acknowledged and Transmitted->Lost; a state reported final never changes again except by an explicit reset; a receipt that does not expect an ack is never seen Acknowledged or Lost; illegal marks panic and leave the state unchanged.", "quantifier": "every finite interleaving of mark_*/reset calls and queries on the shared cell", "why_tests_cant": "the cell is shared across entities; orders of marks are unbounded.", "anchors": ["crates/tetra-core/src/tx_receipt.rs: TxReporter, TxReceipt, TxState"]}
{"id": "C07", "title": "Local SSI ranges answer membership exactly", "statement": "Once a list of SSI ranges has been accepted, contains(x) is true exactly for the x lying in at least one of the listed ranges, whatever the order they were listed in; overlapping, inverted or out-of-range lists are rejected.", "quantifier": "every list of ranges, every SSI", "why_tests_cant": "the lookup is a binary search over a normalised list; errors appear for particular list shapes only.", "anchors": ["crates/tetra-core/src/ranges.rs: SortedDisjointSsiRanges::from_vec_ssirange, contains"]}
{"id": "C08", "title": "Carrier frequencies are computed exactly or refused", "statement": "For every accepted channel configuration the downlink frequency is band*100MHz+carrier*25kHz+offset, the uplink lies exactly one duplex spacing below (normal) or above (reverse), and the 2-bit frequency offset code and its Hz value convert back and forth without loss.", "quantifier": "every band, carrier, offset, duplex index, reverse flag, custom spacing", "why_tests_cant": "combinatorial table plus wrapping unsigned arithmetic; tests sample one row.", "anchors": ["crates/tetra-core/src/freqs.rs: FreqInfo::{from_components,get_freqs,get_default_duplex_spacing,freq_offset_id_to_hz,freq_offset_hz_to_id}"]}
{"id": "C09", "title": "Optional PDU elements survive encode/decode", "statement": "Type 2, type 3 and type 4 optional elements written by the encoder are parsed back to the same presence pattern and values by the decoder, which consumes exactly the written bits, whatever follows in the buffer.", "quantifier": "every combination of present/absent elements, every width and value, every trailing content", "why_tests_cant": "presence bits, back-filled 11-bit lengths and counts interact; number of combinations is unbounded.", "anchors": ["crates/tetra-core/src/typed_pdu_fields.rs: delimiters, typed::*"]}
{"id": "C10", "title": "Block CRC accepts what the encoder produced and rejects corrupted blocks", "statement": "For every block the 16-bit CRC appended by the encoder passes the receiver check; any non-zero error pattern confined to 16 consecutive bits (in particular every single-bit error) fails it, for every block length.", "quantifier": "every block length and content, every error burst of at most 16 bits at any position", "why_tests_cant": "2^n contents times all burst positions and patterns.", "anchors": ["crates/tetra-entities/src/lmac/components/crc16.rs", "crates/tetra-entities/src/lmac/components/errorcontrol.rs"]}
{"id": "C11", "title": "Scrambling is undone by the same code and only by it", "statement": "Scrambling twice with the same code gives back the block, for every code and length; for scrambling codes differing in the extended colour code the 32-bit keystream prefixes differ, so distinct networks never share a keystream; the keystream never degenerates to all zero for a valid code.", "quantifier": "every 32-bit code, every block length and content, every pair of network identities", "why_tests_cant": "2^32 codes and unbounded lengths.", "anchors": ["crates/tetra-entities/src/lmac/components/scrambler.rs: tetra_scramb_bits, tetra_scramb_get_init"]}
{"id": "C12", "title": "Interleaving is a loss-free permutation", "statement": "For each logical channel's (K,a) the block interleaver is a bijection on positions and the deinterleaver is its inverse; the matrix interleaver of speech and the speech class reordering are bijections as well, so no coded bit is lost or duplicated.", "quantifier": "every K with a coprime to K, every block content, every matrix shape", "why_tests_cant": "a test on a pattern cannot show bijectivity for every content and parameter.", "anchors": ["crates/tetra-entities/src/lmac/components/interleaver.rs", "crates/tetra-entities/src/lmac/components/tch_reorder.rs", "crates/tetra-entities/src/lmac/components/errorcontrol_params.rs"]}
{"id": "C13", "title": "Access-assignment (AACH) code round-trips and separates all words", "statement": "Every 14-bit access-assign word is recovered from its RM(30,14) codeword, through scrambling; two distinct words always have codewords at Hamming distance of at least the code's minimum distance, so fewer errors than half of it never turn one word into another valid one.", "quantifier": "every 14-bit word, every scrambling code, every pair of words", "why_tests_cant": "2^28 pairs of words times 2^32 codes.", "anchors": ["crates/tetra-entities/src/lmac/components/rm3014.rs", "crates/tetra-entities/src/lmac/components/errorcontrol.rs: encode_aach, decode_aach"]}
{"id": "C14", "title": "Control channel coding round-trips", "statement": "For each control logical channel, decoding the block produced by the encoder (CRC, tail, convolutional code, puncturing, interleaving, scrambling and back through Viterbi) returns the original information bits with CRC pass, for every block and scrambling code.", "quantifier": "every control channel, every information block, every scrambling code", "why_tests_cant": "2^268 blocks times 2^32 codes; Viterbi behaviour is a global minimisation.", "anchors": ["crates/tetra-entities/src/lmac/components/errorcontrol.rs: encode_cp, decode_cp", "crates/tetra-entities/src/lmac/components/viterbi.rs", "crates/tetra-entities/src/lmac/components/convenc.rs"]}
{"id": "C15", "title": "Speech channel coding round-trips", "statement": "Decoding the speech burst produced by the encoder returns the 274 ACELP bits with the good-frame indication, for every speech frame and scrambling code; one corrupted class-2 bit is flagged as a bad frame.", "quantifier": "every 274-bit speech frame pair, every scrambling code", "why_tests_cant": "2^274 frames.", "anchors": ["crates/tetra-entities/src/lmac/components/errorcontrol.rs: encode_tp, decode_tp, speech_crc", "crates/tetra-entities/src/lmac/components/tch_reorder.rs"]}
{"id": "C16", "title": "Viterbi decoding is maximum-likelihood", "statement": "Among all input sequences of the required length that end in the all-zero state, the decoder returns one whose (re-encoded) distance to the received soft/erased sequence is minimal, for every received sequence for which the metrics do not saturate; consequently error patterns below half the free distance are corrected.", "quantifier": "every received sequence of any length below the saturation bound", "why_tests_cant": "exponentially many paths and received words.", "anchors": ["crates/tetra-entities/src/lmac/components/viterbi.rs: ViterbiDecoder::decode", "crates/tetra-entities/src/lmac/components/convenc.rs"]}
{"id": "C17", "title": "LLC frame check sequence", "statement": "A TL-SDU followed by the 32-bit FCS computed over it is accepted by check_fcs, for every SDU length from 0 up; every non-zero error burst of at most 32 bits is rejected.", "quantifier": "every SDU length and content, every burst", "why_tests_cant": "all lengths including shorter than 32 where the register initialisation differs.", "anchors": ["crates/tetra-entities/src/llc/components/fcs.rs: compute_fcs, check_fcs"]}
{"id": "C18", "title": "MAC fill bits are removed exactly", "statement": "Writing the fill bits the sender computes and stripping what the receiver counts leaves exactly the original payload, for every payload content and length, including payloads ending in zeros.", "quantifier": "every payload, every block capacity", "why_tests_cant": "depends on trailing bits pattern of the payload.", "anchors": ["crates/tetra-entities/src/umac/subcomp/fillbits.rs"]}
{"id": "C19", "title": "Fragmented downlink SDUs are reassembled exactly", "statement": "For every SDU that needs fragmentation and every sequence of slot capacities, concatenating the SDU parts the sender puts into the MAC-RESOURCE, MAC-FRAG and MAC-END PDUs yields the SDU in order, with nothing lost or duplicated, and the process ends.", "quantifier": "every SDU length and content, every sequence of remaining-capacity values", "why_tests_cant": "length of the SDU and split points unbounded.", "anchors": ["crates/tetra-entities/src/umac/subcomp/bs_frag.rs: BsFragger::get_next_chunk, get_resource_chunk, get_frag_or_end_chunk"]}
{"id": "C20", "title": "Uplink reassembly never mixes stations or slots", "statement": "For every interleaving of first/next/last fragments from many stations on four timeslots, the SDU delivered at the last fragment is the concatenation, in arrival order, of exactly the fragments received on that timeslot since the last first-fragment, under that station's address, or nothing; SDU length never exceeds the bound and stale reassemblies are never resumed.", "quantifier": "every finite sequence of fragment and ageing events", "why_tests_cant": "interleavings across stations and timeouts are unbounded.", "anchors": ["crates/tetra-entities/src/umac/subcomp/bs_defrag.rs", "crates/tetra-entities/src/umac/subcomp/defrag.rs", "crates/tetra-entities/src/umac/subcomp/ms_defrag.rs"]}
{"id": "C21", "title": "Uplink capacity is never granted twice", "statement": "After any history of ticks and capacity requests, every uplink half-slot has at most one owner; a grant returned to a station denotes exactly the half-slots/slots recorded as its own, all in the future, none in a common-linearization slot, with the granting delay the station will count; a slot's reservation is cleared before the ring position is reused.", "quantifier": "every finite history of ticks and requests from any stations with any requested sizes", "why_tests_cant": "ring buffer with lookahead and wrap; unbounded histories.", "anchors": ["crates/tetra-entities/src/umac/subcomp/bs_sched.rs: ul_find_grant_opportunity, ul_reserve_grant, ul_process_cap_req, ul_get_slot_owner, finalize_ts_for_tick"]}
{"id": "C22", "title": "Uplink usage announced equals reservations made", "statement": "The access-assignment announced for an uplink slot says assigned exactly for the half-slots reserved to some station and random access for the others; the station that was granted a slot is the one to which uplink data received in it is attributed.", "quantifier": "every schedule state reachable from the empty one", "why_tests_cant": "needs the ring invariant across histories.", "anchors": ["crates/tetra-entities/src/umac/subcomp/bs_sched.rs: ul_get_usage, ul_get_slot_owner, generate_bbk_block"]}
{"id": "C23", "title": "Downlink signalling blocks never overflow and never lose a queued resource", "statement": "Every signalling block built for a slot fits the channel capacity; each queued resource either leaves the queue inside exactly one block (possibly continuing as a fragment in later blocks) or remains queued in order.", "quantifier": "every queue content and every sequence of build calls", "why_tests_cant": "queue content and PDU sizes are unbounded.", "anchors": ["crates/tetra-entities/src/umac/subcomp/bs_sched.rs: dl_build_block_from_signalling, dl_take_prioritized_sched_item, dl_integrate_sched_elems_for_timeslot"]}
{"id": "C24", "title": "Traffic circuits: state is exactly open-minus-close", "statement": "After any history of create/close operations on the MAC circuit manager a direction of a timeslot is active exactly when the last operation on it was a create; voice blocks queued on a circuit are delivered in order, at most once, and never to a later circuit on the same timeslot.", "quantifier": "every finite history of create/close/put/take", "why_tests_cant": "histories and interleavings unbounded.", "anchors": ["crates/tetra-entities/src/umac/subcomp/circuit_mgr.rs", "crates/tetra-entities/src/cmce/components/circuit_mgr.rs"]}
{"id": "C25", "title": "Call identifiers and usage markers of concurrent circuits are distinct", "statement": "At any time all active circuits have pairwise distinct call identifiers, usage markers and timeslots, with call identifiers in 1..0x3FF and usage markers in 4..63.", "quantifier": "every finite history of allocations and closes", "why_tests_cant": "counters wrap after 1023 / 60 allocations; needs histories longer than any test.", "anchors": ["crates/tetra-entities/src/cmce/components/circuit_mgr.rs: CircuitMgr::allocate_circuit, get_next_call_id, get_next_usage_number"]}
{"id": "C26", "title": "MLE/LLC acknowledged service is stop-and-wait", "statement": "For every station, at any time at most one acknowledged message is outstanding at the MAC; messages to one station are first transmitted in submission order; consecutive messages alternate their sequence bit; a message is transmitted at most 1+N.252 times and is then reported lost; a message is reported acknowledged only after an acknowledgement carrying its sequence number was received after its transmission.", "quantifier": "every finite history of submissions, MAC reports, acknowledgements (including wrong or duplicate) and ticks, for any number of stations", "why_tests_cant": "unbounded interleavings of stations, losses and timers.", "anchors": ["crates/tetra-entities/src/llc/llc_bs_ms.rs: rx_tla_tldata_req_bl, process_incoming_ack, submit_free_messages_to_umac, submit_retransmissions_to_umac, tick_end"]}
{"id": "C27", "title": "Every received acknowledged message is acknowledged exactly once", "statement": "For each BL-DATA/BL-ADATA received from a station exactly one acknowledgement with its sequence number leaves the LLC: piggybacked on the next data to that station or as a BL-ACK at the end of the tick.", "quantifier": "every finite history of received data and outgoing messages", "why_tests_cant": "interleaving of both directions and several stations.", "anchors": ["crates/tetra-entities/src/llc/llc_bs_ms.rs: schedule_outgoing_ack, get_out_ack_seq_if_any, submit_ack_replies_to_umac"]}
{"id": "C28", "title": "Group calls hold exactly one exclusive traffic slot each", "statement": "After any history of call set-ups, floor changes, releases, network calls and timers, each active call owns exactly one traffic timeslot, no two calls share one, the slot allocator agrees, and when a call ends the slot is free again: no slot leaks.", "quantifier": "every finite history of call-control events from stations and the network, while call identifiers do not collide", "why_tests_cant": "state machine with unbounded histories and timers.", "anchors": ["crates/tetra-entities/src/cmce/subentities/cc_bs.rs: rx_u_setup, release_call, rx_network_call_start, rx_network_call_end, tick_start"]}
{"id": "C29", "title": "Floor control: one talker, hang time iff nobody talks", "statement": "In every active call either somebody holds the floor or a hang timer runs, never both and never neither; a demand while the floor is held does not change the holder; a call in hang time is released by the first tick after the hang time limit.", "quantifier": "every finite history of events from stations, the network, the MAC and the clock (the timing part: while call identifiers do not collide)", "why_tests_cant": "temporal property over unbounded histories.", "anchors": ["crates/tetra-entities/src/cmce/subentities/cc_bs.rs: rx_u_tx_demand, rx_u_tx_ceased, check_hangtime_expiry, handle_ul_inactivity_timeout"]}
{"id": "C30", "title": "Group listener counts are exact", "statement": "After any history of register/affiliate/deaffiliate/deregister updates, the number of listeners call control holds for a group equals the number of registered stations affiliated to it, and a local or network call to a group survives only while it has a listener.", "quantifier": "every finite history of subscriber updates in any order, including duplicates", "why_tests_cant": "reference counting over unbounded histories with duplicates.", "anchors": ["crates/tetra-entities/src/cmce/subentities/cc_bs.rs: handle_subscriber_update, inc_group_listener, dec_group_listener, drop_group_calls_if_unlistened"]}
{"id": "C31", "title": "Subscriber registry: group presence is exact", "statement": "After any history of register, deregister, affiliate and deaffiliate operations, the registry reports a group as having members exactly when some registered station is attached to it, and re-registration drops earlier attachments.", "quantifier": "every finite history over any stations and groups", "why_tests_cant": "derived global set maintained incrementally.", "anchors": ["crates/tetra-config/src/bluestation/state.rs: SubscriberRegistry"]}
{"id": "C32", "title": "Mobility management and call control agree on group membership", "statement": "After every mobility-management message has been processed and its notifications delivered, the groups mobility management holds attached for a station are exactly the groups call control counts for that station.", "quantifier": "every finite history of registrations, detaches and group attach/detach lists", "why_tests_cant": "order of notifications inside one PDU matters; unbounded lists.", "anchors": ["crates/tetra-entities/src/mm/mm_bs.rs: try_attach_detach_groups, rx_u_itsi_detach, rx_u_attach_detach_group_identity", "crates/tetra-entities/src/mm/components/client_state.rs", "crates/tetra-entities/src/cmce/subentities/cc_bs.rs: handle_subscriber_update"]}
{"id": "C33", "title": "Voice jitter buffer keeps order and bounds", "statement": "Frames come out of the jitter buffer in the order they went in, each at most once, at most 24 are held, only the oldest are dropped when it overflows, and play-out starts only once the target depth is buffered.", "quantifier": "every finite sequence of push/pop events and arrival times", "why_tests_cant": "adaptive target over unbounded arrival patterns.", "anchors": ["crates/tetra-entities/src/net_brew/components/jitter_buffer.rs"]}
{"id": "C34", "title": "Backhaul routing decisions", "statement": "A group or individual number is sent to the backhaul exactly when the documented rules allow it (not in the reserved tetrapack ranges when tetrapack, not in a local range, in the whitelist when there is one).", "quantifier": "every SSI, every configuration", "why_tests_cant": "2^24 SSIs times configurations.", "anchors": ["crates/tetra-entities/src/net_brew/components/brew_routable.rs"]}
{"id": "C35", "title": "Entity message queue delivers every message exactly once in order", "statement": "Messages pushed to the router queue are delivered exactly once; normal messages in FIFO order; an immediate message is delivered before every message already queued; within a tick all messages generated by deliveries are delivered before the clock advances, if delivery terminates.", "quantifier": "every finite sequence of pushes and every entity behaviour", "why_tests_cant": "entity behaviours are arbitrary and generate further messages.", "anchors": ["crates/tetra-entities/src/messagerouter.rs: MessageQueue, MessageRouter::deliver_all_messages, tick_start, tick_end"]}
{"id": "C36", "title": "Uplink MAC PDUs from the air never crash the base station", "statement": "Any bit content of a received uplink signalling block is either processed or dropped; it never aborts the process.", "quantifier": "every bit string of the block size and every base-station state", "why_tests_cant": "2^268 contents; requires the negative witnesses or a proof over all parse paths.", "anchors": ["crates/tetra-entities/src/umac/umac_bs.rs: rx_tmv_sch, rx_mac_data, rx_mac_access, rx_mac_frag_ul, rx_mac_end_ul, rx_mac_end_hu"]}
{"id": "C37", "title": "MAC PDU headers decode to what was encoded", "statement": "Each MAC header (MAC-RESOURCE, MAC-ACCESS, MAC-DATA, MAC-FRAG, MAC-END, ACCESS-ASSIGN, SYNC, SYSINFO) serialised with field values in range is parsed back to the same fields, consuming exactly the header.", "quantifier": "every combination of optional parts and in-range field values", "why_tests_cant": "combinatorial optional parts.", "anchors": ["crates/tetra-pdus/src/umac/pdus/"]}
{"id": "C38", "title": "Upper layer PDUs decode to what was encoded", "statement": "LLC, MLE, MM and CMCE PDUs for which both directions exist are parsed back to the fields they were serialised from.", "quantifier": "every field combination in range", "why_tests_cant": "combinatorial optional parts.", "anchors": ["crates/tetra-pdus/src/llc/pdus/", "crates/tetra-pdus/src/cmce/pdus/", "crates/tetra-pdus/src/mm/pdus/", "crates/tetra-pdus/src/mle/pdus/"]}
{"id": "C39", "title": "Short data is routed to exactly one place", "statement": "A short-data message from the air is delivered to the registered destination station, else to the attached group, else forwarded to the backhaul when allowed, else dropped: never to two of them, never twice, and with unchanged payload and addresses.", "quantifier": "every message, registry state and configuration", "why_tests_cant": "product of registry state and configuration.", "anchors": ["crates/tetra-entities/src/cmce/subentities/sds_bs.rs"]}
{"id": "C40", "title": "MAC access event labels are unique while in use", "statement": "At any time no two stations hold the same event label, the reserved label 0 is never issued, and a label always resolves to the station it was issued to most recently.", "quantifier": "every finite history of label allocations", "why_tests_cant": "counter wrap after 511 allocations.", "anchors": ["crates/tetra-entities/src/umac/subcomp/event_label_store.rs"]}
{"id": "C41", "title": "Call circuits expire and are announced on schedule", "statement": "On the first timeslot of each frame every circuit older than six minutes is closed and reported exactly once and no other is touched; a call set-up is announced exactly for the remaining downlink circuits younger than a frame or at a multiple of five multiframes of age; ticks never abort.", "quantifier": "every reachable circuit table and every time", "why_tests_cant": "ages run over millions of timeslots in combination with all tables.", "anchors": ["crates/tetra-entities/src/cmce/components/circuit_mgr.rs:tick_start, close_expired_circuits"]}
{"id": "C42", "title": "Unacknowledged messages are sent exactly once, in order", "statement": "Every unacknowledged request to the LLC leaves as exactly one BL-UDATA PDU, to its address and with its SDU, at the end of the tick; the order of requests is kept.", "quantifier": "every finite history of requests, receptions and ticks", "why_tests_cant": "unbounded histories with interleaved acknowledged traffic.", "anchors": ["crates/tetra-entities/src/llc/llc_bs_ms.rs: rx_tla_tlunitdata_req_bl, submit_udata_msgs_to_umac, tick_end"]}
{"id": "C43", "title": "Broadcast channels tell the truth about the slot they are in", "statement": "Every synchronisation burst the base station transmits decodes to the timeslot, frame and multiframe of the very slot that carries it and to the configured network and cell identity; every system information block decodes to the configured cell and to the current hyperframe; both are present in every frame 18 slot and in every unused slot of timeslots 2 to 4; the slots follow each other without gap or repetition.", "quantifier": "every configuration in range, every start time and every history of ticks and scheduler calls", "why_tests_cant": "time and history are unbounded; a wrong time in one slot of a hyperframe shows in no short test.", "anchors": ["crates/tetra-entities/src/umac/subcomp/bs_sched.rs: finalize_ts_for_tick, generate_default_blks", "crates/tetra-entities/src/umac/umac_bs.rs: generate_precomps"]}
{"id": "C44", "title": "Every slot is completely and lawfully filled", "statement": "Every slot handed to the lower MAC has one of the legal shapes (one full-slot channel, or two half-slot channels that may go together), no block exceeds the capacity of its channel, every block carries the scrambling code of its channel, the access assignment is exactly 14 bits; a signalling block consists of the PDUs of the messages served, in order, followed by a null PDU when there is room, and idle blocks are null PDUs.", "quantifier": "every history of ticks and scheduler calls", "why_tests_cant": "slot contents depend on the whole queue history.", "anchors": ["crates/tetra-entities/src/umac/subcomp/bs_sched.rs: finalize_ts_for_tick, dl_build_block_from_signalling"]}
{"id": "C45", "title": "Announced and transmitted use of a slot agree", "statement": "The access assignment block of a slot decodes to the use actually made of it: traffic with the usage marker of the circuit iff the slot carries traffic of that circuit, and likewise for the uplink mode in which the receiver listens.", "quantifier": "every history of ticks and scheduler calls", "why_tests_cant": "depends on circuits, hang time and queued stolen blocks over the whole history.", "anchors": ["crates/tetra-entities/src/umac/subcomp/bs_sched.rs: generate_bbk_block, finalize_ts_for_tick"]}
{"id": "C46", "title": "Voice goes out once, in order, on its own timeslot", "statement": "While a downlink circuit is open and carries traffic, each of its slots carries the most recently supplied unsent voice frame for that timeslot (or none), never a frame twice and never a frame supplied for another timeslot.", "quantifier": "every history of ticks and scheduler calls in which the circuit stays open", "why_tests_cant": "interleavings of voice blocks, ticks and stolen slots are unbounded.", "anchors": ["crates/tetra-entities/src/umac/subcomp/bs_sched.rs: dl_schedule_tmd, finalize_ts_for_tick", "crates/tetra-entities/src/umac/subcomp/circuit_mgr.rs: take_block, put_block"]}
{"id": "C47", "title": "One fragmented message at a time", "statement": "On each timeslot at most one message is begun and not finished at any time: fragments after the first carry no address, so stations attribute them to the last message begun.", "quantifier": "every history of ticks and scheduler calls", "why_tests_cant": "needs several long messages whose headers differ, and particular fill levels.", "anchors": ["crates/tetra-entities/src/umac/subcomp/bs_sched.rs: dl_build_block_from_signalling, dl_take_prioritized_sched_item", "crates/tetra-entities/src/umac/subcomp/fragger.rs"]}
{"id": "C48", "title": "The radio side carries exactly the calls that were announced", "statement": "Once the orders of call control have reached it, the upper MAC has a circuit on a timeslot, in each direction, exactly if call control has announced a call there that is not released, with the announced usage marker; the timeslot is in hang time exactly if nobody has the floor; uplink voice goes to the network and network voice to the air exactly while such a circuit exists.", "quantifier": "every history of call control (without reuse of a number in use) and every history of the upper MAC in which its orders arrived in order, with ticks, uplink blocks, voice and signalling in between", "why_tests_cant": "two components keep separate tables updated by messages; only an argument over all interleavings shows that they never diverge.", "anchors": ["crates/tetra-entities/src/umac/umac_bs.rs: rx_control_circuit_open, rx_control_circuit_close, rx_tmd_prim", "crates/tetra-entities/src/cmce/subentities/cc_bs.rs: signal_umac_circuit_open, signal_umac_circuit_close"]}
{"id": "C49", "title": "Messages from mobiles reach the upper layers as sent, and from nobody else", "statement": "Every message the upper MAC hands up was carried complete in the block just received, under the address it names, or is the concatenation of a first part sent by that station, middle parts and the last part, each sent in a capacity granted to that station; and conversely all messages of a readable block are handed up in order, and a message sent in parts in the granted slots is handed up complete at its last part.", "quantifier": "every history of the upper MAC whose blocks arrive within two slots, every block and every message length up to the reassembly limit", "why_tests_cant": "grants, reassembly slots and the cyclic slot table interact over unbounded histories with several stations interleaved.", "anchors": ["crates/tetra-entities/src/umac/umac_bs.rs: rx_ulstch_mac_data, rx_mac_access, rx_mac_frag_ul, rx_mac_end_ul, rx_mac_end_hu", "crates/tetra-entities/src/umac/subcomp/bs_defrag.rs: BsDefrag"]}
{"id": "C50", "title": "Silence is reported once, after three multiframes", "statement": "While a circuit is open for the uplink and somebody has the floor, the base station reports the silence of a timeslot to call control exactly when more than 216 slots have passed since the last voice (or the start of the call, or the grant of the floor): not earlier, once, and not in hang time or without a call.", "quantifier": "every history of ticks, voice, orders, uplink blocks and signalling, with circuits opened and closed in both directions at once (which C48 shows of call control)", "why_tests_cant": "the interval is hundreds of slots and the cyclic clock wraps; orders can arrive at any point.", "anchors": ["crates/tetra-entities/src/umac/umac_bs.rs: check_ul_inactivity, rx_control, rx_tmd_prim, tick_start"]}
{"id": "C51", "title": "The subscriber registry agrees with mobility management", "statement": "After every message, a station is in the shared subscriber registry exactly if mobility management holds it registered, with the same groups, and a group is reported to have members exactly if some registered station is attached to it.", "quantifier": "every finite history of messages from mobiles, readable or not", "why_tests_cant": "two independent data structures updated in different places over unbounded histories.", "anchors": ["crates/tetra-entities/src/mm/mm_bs.rs: rx_u_itsi_detach, rx_u_location_update_demand, rx_u_attach_detach_group_identity, try_attach_detach_groups", "crates/tetra-config/src/bluestation/subscribers: SubscriberRegistry"]}
{"id": "C52", "title": "A mobile gets what it asked for and is told so", "statement": "A supported location update registers the sender and attaches and detaches exactly the groups asked for, the last entry about a group deciding; the acceptance sent back to the sender decodes to the same update type, its own address and exactly the confirmed groups. A group report does the same, starting from no groups if it says so; a detach removes the station and its groups; unreadable or unsupported messages change nothing and are not answered; other stations are never affected.", "quantifier": "every state, every message and every 24-bit address", "why_tests_cant": "group lists, modes and states combine without bound; the answer has to be decoded.", "anchors": ["crates/tetra-entities/src/mm/mm_bs.rs: rx_u_location_update_demand, rx_u_attach_detach_group_identity, rx_u_itsi_detach, rx_u_mm_status", "crates/tetra-pdus/src/mm/pdus/d_location_update_accept.rs", "crates/tetra-pdus/src/mm/pdus/d_attach_detach_group_identity_acknowledgement.rs"]}
{"id": "C53", "title": "No message from a mobile aborts mobility management", "statement": "Whatever bits a station sends to mobility management, the message is processed or refused; the program goes on.", "quantifier": "every state and every bit string", "why_tests_cant": "all bit strings in all states.", "anchors": ["crates/tetra-entities/src/mm/mm_bs.rs: rx_lmm_mle_unitdata_ind", "crates/tetra-core/src/typed_pdu_fields"]}
{"id": "C54", "title": "The backhaul learns exactly the routable subscribers and groups", "statement": "With a backhaul, after every message the stations it has been told of are exactly the routable registered ones, and the groups exactly the routable ones among those call control has been told of, in the same order; without a backhaul nothing is sent to it.", "quantifier": "every finite history of messages and every configuration", "why_tests_cant": "configuration and history product; deltas must add up.", "anchors": ["crates/tetra-entities/src/mm/mm_bs.rs: emit_subscriber_update", "crates/tetra-entities/src/net_brew/components/brew_routable.rs"]}
{"id": "C55", "title": "Telemetry shows the registered stations and their groups", "statement": "From the telemetry events alone, the set of registered stations and their groups is exactly what mobility management holds.", "quantifier": "every finite history of messages", "why_tests_cant": "incremental events must add up over unbounded histories.", "anchors": ["crates/tetra-entities/src/mm/mm_bs.rs", "crates/tetra-entities/src/mm/components/client_state.rs", "crates/tetra-entities/src/net_telemetry/events.rs"]}
{"id": "C56", "title": "A call ends only for a stated reason", "statement": "An active call ends only because a station released it, the station it belongs to disconnected, the network ended it while nobody talked, its hang time or the maximum call duration is over, or nobody listens to the group any more. A disconnect from any other station is refused and changes nothing; a network end touches only the call with that identifier.", "quantifier": "every reachable state and every event", "why_tests_cant": "all interleavings of events from stations, network, MAC and clock.", "anchors": ["crates/tetra-entities/src/cmce/subentities/cc_bs.rs: rx_u_disconnect, rx_u_release, rx_network_call_end, check_hangtime_expiry, drop_group_calls_if_unlistened, tick_start"]}
{"id": "C57", "title": "Calls on the air are the calls decided on", "statement": "Whatever bits mobiles send, and whatever comes from the network and the control link: the call messages on the air, read by a mobile, and the signals to MAC and backhaul are exactly what call control decides on the events those bits mean, in order; the service and priority announced for a call are those asked for when it was connected; nothing a mobile sends about a call can abort the base station except an element with an impossible length.", "quantifier": "every history of messages from mobiles, backhaul, MAC and control link; every content of the registry", "why_tests_cant": "all bit strings and all histories; the theorem composes decoders, call control and encoders.", "anchors": ["crates/tetra-entities/src/cmce/cmce_bs.rs: CmceBs (tick_start, rx_prim, rx_lcmc_mle_unitdata_ind)", "crates/tetra-entities/src/cmce/subentities/cc_bs.rs: route_xx_deliver, feature_check_u_setup, send_*", "crates/tetra-pdus/src/cmce/pdus: d_*.rs, u_*.rs"]}
{"id": "C58", "title": "What is written on the backhaul link is what is read", "statement": "Every byte string received from the backhaul server is either refused or read as exactly one message, field by field as its layout says; no byte string aborts; every message the base station writes is read back as that message with the same numbers.", "quantifier": "every byte string; every value of every field of every message", "why_tests_cant": "the space of byte strings and of field values is unbounded; tests try samples.", "anchors": ["crates/tetra-entities/src/net_brew/protocol.rs: parse_brew_message, build_*"]}
{"id": "C59", "title": "What comes from the backhaul reaches the base station as it was meant", "statement": "Short data from the network is delivered if and only if its content arrives while its header still counts (no newer header, not delivered, not cleaned up after thirty seconds), short data over the network is enabled and the content is at most 2047 bits by its own account; source and destination are those of the header. A call starts if and only if the network announces it for a group routed over the network; it ends when the network says so; voice arrives as sent; nothing received aborts the thread.", "quantifier": "every history of received messages, commands and clean-ups, every iteration order of the hash tables", "why_tests_cant": "interleavings of headers, contents and timeouts of many messages are unbounded.", "anchors": ["crates/tetra-entities/src/net_brew/worker.rs: handle_incoming_binary, handle_call_control, handle_frame, message_loop"]}
{"id": "C60", "title": "The backhaul server knows the stations of this cell", "statement": "Whenever the connection to the backhaul server is up, its messages have been taken by the transport and no command is waiting, the server knows exactly the stations mobility management has reported as present and routed over the network, each with exactly its groups, whatever connections were lost and made before; it never knows a station or membership that is not there; when the base station takes its leave the server knows none of its stations any more.", "quantifier": "every history of registrations, affiliations, connections, losses, received messages and deliveries between the two threads, every iteration order of the hash tables", "why_tests_cant": "the interleavings of updates with losses of the connection and the two channels are unbounded.", "anchors": ["crates/tetra-entities/src/net_brew/entity.rs: handle_subscriber_update, resync_subscribers, process_events", "crates/tetra-entities/src/net_brew/worker.rs: message_loop, graceful_teardown, send_*"]}
{"id": "C61", "title": "The network hears exactly the local stations that talk in its groups", "statement": "A voice block received from a mobile is sent to the network if and only if the last turn reported for its timeslot was given to a station whose calls go over the network while connected, and was not reported as over; it is sent unaltered in the network's format, in a session announced for that station and group. Sessions are well-formed: announced first, then voice, closed at most once, nothing after. Whenever a timeslot carries a session, the station of the session is the one talking there, in a group of the network.", "quantifier": "every history of call control events, connections, losses and voice blocks; every voice block", "why_tests_cant": "it relates two state machines over unbounded histories; a stale session shows only after a particular sequence of calls on one timeslot.", "anchors": ["crates/tetra-entities/src/net_brew/entity.rs: handle_local_call_start, handle_local_call_tx_stopped, handle_local_call_end, handle_ul_voice", "crates/tetra-entities/src/cmce/subentities/cc_bs.rs: rx_u_tx_ceased, rx_u_tx_demand, release_call, rx_network_call_end"]}
{"id": "C62", "title": "A transmission from the network is heard in its own group, in order, and only while it lasts", "statement": "Every session the server announces is offered to call control once per speaker, and its end is passed on exactly once. Its voice goes to the radio only on the timeslot call control has given to it, at most one block per frame, never in frame 18, in the order received without repetition, and with twelve blocks waiting it does flow. Whenever voice of a session is sent to a timeslot, the mobiles there have been told of a call of the announced group in which the announced station talks.", "quantifier": "every history of server messages, losses of the connection, ticks and call control events; every delay of the messages between call control and the backhaul entity", "why_tests_cant": "it relates two state machines which exchange messages with delay over unbounded histories; wrong-call voice shows only after particular interleavings.", "anchors": ["crates/tetra-entities/src/net_brew/entity.rs: handle_group_call_start, handle_group_call_end, handle_voice_frame, drain_jitter_playout, rx_network_call_ready, drop_network_call", "crates/tetra-entities/src/cmce/subentities/cc_bs.rs: rx_network_call_start, rx_network_call_end, release_call"]}
{"id": "C63", "title": "Short data sent to a station of another base station arrives there", "statement": "Short data of any type which a mobile sends to a station not in its cell, when the backhaul takes it, leaves as a header naming both stations and a message with its bits; when the server hands both to a base station where the addressee is registered, the second before the header is superseded or thirty seconds old, the addressee gets exactly the same bits from the same station, acknowledged, and the server gets a report. Nothing the server sends for a registered station aborts the base station.", "quantifier": "every short data message, every history of both base stations, every history of the receiving worker between header and message", "why_tests_cant": "it composes two codecs, two worker histories and two routing decisions over unbounded histories and all payloads.", "anchors": ["crates/tetra-entities/src/cmce/subentities/sds_bs.rs: route_rf_deliver, rx_sds_from_brew, send_d_sds_data", "crates/tetra-entities/src/net_brew/entity.rs: handle_sds_send, handle_sds_transfer", "crates/tetra-entities/src/net_brew/worker.rs: handle_frame, handle_call_control, message_loop", "crates/tetra-pdus/src/cmce/fields/sds_user_data.rs"]}
{"id": "C64", "title": "The network knows the stations and groups the mobiles have told the cell", "statement": "Whatever messages mobiles have sent to mobility management, and whatever connections to the backhaul server were made and lost: once the updates which followed from them have been carried to the server, the server knows exactly the registered stations whose numbers are routed over the network, and for each of them exactly the groups it is attached to which are routed.", "quantifier": "every history of uplink messages as bits, every configuration, every history of connections, deliveries and executed commands in between", "why_tests_cant": "it spans four components (mobility management, entity, worker thread, server protocol) over unbounded histories.", "anchors": ["crates/tetra-entities/src/mm/mm_bs.rs: emit_subscriber_update, try_attach_detach_groups", "crates/tetra-entities/src/net_brew/entity.rs: handle_subscriber_update, resync_subscribers", "crates/tetra-entities/src/net_brew/worker.rs: message_loop, handle_frame", "crates/tetra-entities/src/net_brew/protocol.rs"]}
{"id": "C65", "title": "What is scheduled is what a mobile on the air reads", "statement": "Every slot the cell schedules is accepted by the lower layers and becomes one burst of 510 bits. A receiver which looks for the training sequences of the standard finds the burst and its kind, and reads from it exactly the scheduled access assignment, synchronisation block, broadcast and signalling blocks (with the scrambling code of the cell), even if one bit of the training sequence and one bit of each block were received wrong. Voice is heard exactly when nothing was hurt; with one wrong bit it is marked good and at most one of the least sensitive bits differs. In a slot with a stolen half, the other half is the second half of the coded voice.", "quantifier": "every history of the downlink scheduler, every cell configuration, every scheduled slot and every received burst within the given distance", "why_tests_cant": "it composes scheduler, coding chains, slot layout and burst search for arbitrary contents and error positions.", "anchors": ["crates/tetra-entities/src/lmac/lmac_bs.rs: rx_tmv_unitdata_req_slot", "crates/tetra-entities/src/phy/phy_bs.rs: rx_tpsap_prim", "crates/tetra-entities/src/phy/components/slotter.rs: build_sdb, build_ndb", "crates/tetra-entities/src/phy/components/burst_consts.rs", "crates/tetra-entities/src/phy/components/train_consts.rs"]}
{"id": "C66", "title": "Phase adjustment symbols bring the carrier back", "statement": "In every burst sent, each of the two phase adjustment symbols cancels the turn of the carrier over the symbols it accounts for, so that the training sequences of successive bursts have the same phase (EN 300 392-2 clause 9.4.4.3.6).", "quantifier": "every history of the downlink scheduler and every slot sent", "why_tests_cant": "it depends on every bit of every burst; the tests of the repository mask the two symbols out.", "anchors": ["crates/tetra-entities/src/phy/components/slotter.rs: PHASE2BITS, compute_phase_adj_bits, calc_phase_adj, build_sdb, build_ndb", "crates/tetra-entities/src/phy/components/modulator.rs: DqpskMapper"]}
{"id": "C67", "title": "What a mobile sends over the air is what the cell hears", "statement": "In every slot, whatever happened before: a control burst, a full-slot burst or a burst with two halves, wherever in the search window its training sequence is found (with at most one wrong bit), reaches the upper MAC as the block the mobile sent, bit for bit, even with one wrong coded bit, with the time of the slot it was sent in, and as signalling or voice according to what the cell scheduled for the uplink of that slot. The second half of a stolen slot is read as signalling exactly when the first half says so. Blocks with wrong checksums are dropped, and nothing else is delivered. Complete messages in the block are handed on under their addresses.", "quantifier": "every history of slots, receptions and orders of the layers above, every configuration, every received slot, every block and every position of one error", "why_tests_cant": "the claim composes burst search, slot bookkeeping, two coding chains and the upper MAC over arbitrary histories and bits.", "anchors": ["crates/tetra-entities/src/phy/phy_bs.rs: rx_tpsap_prim, split_rxslot_and_send_to_lmac", "crates/tetra-entities/src/phy/components/demodulator.rs: find_sequence", "crates/tetra-entities/src/lmac/lmac_bs.rs: determine_logical_channel_ul, rx_blk_control, rx_blk_traffic, rx_tp_prim, rx_tmv_configure_req", "crates/tetra-entities/src/umac/umac_bs.rs"]}
{"id": "C68", "title": "No reception and no transmission aborts the base station", "statement": "After every history, the reception of a slot with any bits whatsoever in it ends without abort, and what the upper MAC schedules always becomes a burst.", "quantifier": "every history, every configuration, every string of bits in a slot", "why_tests_cant": "aborts depend on combinations of blocks, slot kinds and flags which are not enumerable; everything on the air is under control of others.", "anchors": ["crates/tetra-entities/src/phy/phy_bs.rs", "crates/tetra-entities/src/lmac/lmac_bs.rs: rx_tp_prim", "crates/tetra-entities/src/umac/umac_bs.rs: rx_mac_data"]}
{"id": "C69", "title": "What a station sends in a half slot granted to it continues its own message", "statement": "When two stations are granted the two halves of a slot, what either of them sends in its half continues or completes its own message and never that of the other.", "quantifier": "every history of grants and receptions", "why_tests_cant": "it needs two stations in the middle of fragmented messages in the same slot, with either of them silent.", "anchors": ["crates/tetra-entities/src/phy/phy_bs.rs: split_rxslot_and_send_to_lmac (PhyBlockNum::Block1 for every control burst)", "crates/tetra-entities/src/umac/subcomp/bs_sched.rs: ul_reserve_grant, ul_get_slot_owner"]}
{"id": "C70", "title": "Mobility management and call control hear what mobiles send, once and in order", "statement": "Every frame with a message for mobility management or call control, in acknowledged mode with or without FCS, makes that protocol handle exactly that message, once, under the address and with the timeslot of the frame, in the order of the frames; nothing else makes them handle a message of a mobile. The message queue between the layers always gets empty, whatever is in it.", "quantifier": "every history of frames, ticks, messages of backhaul and control link and reports of the MAC, with deliveries from the queue interleaved in any way", "why_tests_cant": "messages cross three layers through one queue, interleaved with everything else the layers exchange; losses and duplicates appear only in particular interleavings.", "anchors": ["crates/tetra-entities/src/llc/llc_bs_ms.rs", "crates/tetra-entities/src/mle/mle_bs.rs: rx_tla_prim, rx_tla_data_ind_bl", "crates/tetra-entities/src/messagerouter.rs: deliver_message", "crates/tetra-entities/src/mm/mm_bs.rs: rx_lmm_mle_unitdata_ind", "crates/tetra-entities/src/cmce/cmce_bs.rs: rx_prim"]}
{"id": "C71", "title": "No frame of a mobile aborts the signalling layers", "statement": "After every history, whatever bits a mobile sends in a frame, the frame and all that follows from it is handled without an abort.", "quantifier": "every history of the signalling stack, every frame", "why_tests_cant": "aborts hide in combinations of frame type, length, checksum and message content; everything in a frame is under control of others.", "anchors": ["crates/tetra-entities/src/llc/llc_bs_ms.rs", "crates/tetra-entities/src/mle/mle_bs.rs", "crates/tetra-entities/src/mle/components/mle_router.rs: create_handle", "crates/tetra-entities/src/mm/mm_bs.rs", "crates/tetra-entities/src/cmce/cmce_bs.rs"]}
{"id": "C72", "title": "What mobility management and call control send is what goes down", "statement": "The LLC is asked to send exactly the messages mobility management and call control send, each once, in the order they were sent, to the address, in the mode, for the timeslot and with the channel allocation they asked for, stolen from voice where they asked for it, and besides these only the broadcasts of the network time. Messages not to be acknowledged reach the MAC at the end of the tick, once and in order; whatever the MAC is given as acknowledged message is the message asked for, with its bits, for its address.", "quantifier": "every history of the signalling stack, with deliveries from the queue interleaved in any way", "why_tests_cant": "as C70, for the other direction.", "anchors": ["crates/tetra-entities/src/mle/mle_bs.rs: rx_lmm_mle_unitdata_req, rx_lcmc_mle_unitdata_req", "crates/tetra-entities/src/llc/llc_bs_ms.rs: rx_tla_data_req, rx_tla_unitdata_req", "crates/tetra-entities/src/messagerouter.rs"]}
{"id": "C73", "title": "Mobiles are told the time, once per hyperframe", "statement": "If and only if a time zone is configured, the cell sends the network time to everyone once in every hyperframe, at the first slot of frame 1 of multiframe 20, and never else; a mobile which reads the message by the standard gets the year, the time of the year to two seconds and the local offset to a quarter of an hour, as the clock shows them, for years 2000 to 2063.", "quantifier": "every history of the signalling stack, every clock", "why_tests_cant": "tests fix a few times and zones; rounding, signs and packing must be right for all of them, and sending must not depend on what else happens.", "anchors": ["crates/tetra-entities/src/mle/components/network_time.rs: encode_tetra_network_time_inner", "crates/tetra-entities/src/mle/components/broadcast.rs: send_broadcast, send_d_nwrk_broadcast", "crates/tetra-entities/src/mle/mle_bs.rs: tick_start", "crates/tetra-pdus/src/mle/pdus/d_nwrk_broadcast.rs"]}
{"id": "C74", "title": "Commands of the control server are carried out and answered once, in order", "statement": "Every command the control server sends is handed to the part of the base station it is for, once, in the order sent, at the next tick. A request for short data sends exactly one message, which a mobile reads as the data from the given source, if the destination is registered, and none else, and the server gets exactly one answer, in order, telling which. No command aborts the base station.", "quantifier": "every interleaving of the worker thread and the stack, every behaviour of the connection, every history of registrations and calls", "why_tests_cant": "worker and stack are threads joined by queues, and the connection may fail between any two steps; tests run one command over a mock.", "anchors": ["crates/tetra-entities/src/net_control/worker.rs: ControlWorker", "crates/tetra-entities/src/net_control/channel.rs", "crates/tetra-entities/src/net_control/commands.rs", "crates/tetra-entities/src/cmce/cmce_bs.rs: tick_start", "crates/tetra-entities/src/cmce/subentities/sds_bs.rs: rx_sds_from_control", "crates/tetra-entities/src/mm/mm_bs.rs: tick_start"]}
{"id": "C75", "title": "The telemetry server has the true picture", "statement": "Whenever the connection to the telemetry server is up and no event waits, the picture the server has by what it was told \u2014 which stations are registered and which groups they are attached to \u2014 is what the base station holds.", "quantifier": "every interleaving of mobility management and the worker, every behaviour of the connection", "why_tests_cant": "connection failures may fall anywhere between events; the picture depends on the whole history.", "anchors": ["crates/tetra-entities/src/net_telemetry/worker.rs: TelemetryWorker", "crates/tetra-entities/src/net_telemetry/channel.rs", "crates/tetra-entities/src/net_telemetry/events.rs", "crates/tetra-entities/src/mm/mm_bs.rs"]}
{"id": "C76", "title": "The configuration is what the file says", "statement": "If the program accepts its configuration file, then every key of every section has taken effect with the value written: the value held for it is the value of the file. A key left out has its documented default. A key the program does not know is refused.", "quantifier": "every table a TOML file can hold", "why_tests_cant": "there are about seventy keys in seven sections, each optional or required with its own type and default; a misspelt key or swapped field shows only when that key is used.", "anchors": ["crates/tetra-config/src/bluestation/parsing.rs: from_toml_str, from_reader", "crates/tetra-config/src/bluestation/config.rs", "crates/tetra-config/src/bluestation/sec_cell.rs", "crates/tetra-config/src/bluestation/sec_brew.rs", "crates/tetra-config/src/bluestation/sec_phy.rs", "crates/tetra-config/src/bluestation/sec_phy_soapy.rs", "crates/tetra-config/src/bluestation/sec_net.rs", "crates/tetra-config/src/bluestation/sec_telemetry.rs", "crates/tetra-config/src/bluestation/sec_control.rs"]}
{"id": "C77", "title": "A configuration which is accepted goes on the air, and mobiles find the cell it describes", "statement": "When the base station accepts its configuration it starts and keeps transmitting, and a mobile which knows nothing of it and hears one synchronisation burst learns network, colour code, location area, frame number and both frequencies as configured, and these are the frequencies on which the radio sends and listens.", "quantifier": "every configuration file, every history of the cell, every burst within the error correction", "why_tests_cant": "every value which is accepted must fit its field of the broadcast and agree with the other places it is used; tests use one configuration.", "anchors": ["crates/tetra-config/src/bluestation/config.rs: StackConfig::validate, SharedConfig", "crates/tetra-config/src/bluestation/parsing.rs", "bins/bluestation-bs/src/main.rs", "crates/tetra-entities/src/phy/components/soapyio.rs: SoapyIo::new", "crates/tetra-core/src/freqs.rs", "crates/tetra-entities/src/umac/subcomp/bs_sched.rs", "crates/tetra-entities/src/lmac/components/scrambler.rs"]}
{"id": "C78", "title": "A connection to a server lasts as long as the server is alive, and messages arrive in order", "statement": "While a websocket connection lasts, the messages of the server are handed over once each and in order, and its pings are answered. A ping is sent when the last one is an interval ago. A server which was not heard for the timeout is given up at the next poll, and a server which answers every ping in time keeps its connection.", "quantifier": "every history of connections, frames arriving, polls and disconnections, at all times", "why_tests_cant": "the outcome depends on the interleaving of arrivals, polls and two timers; tests run for milliseconds and poll at once.", "anchors": ["crates/tetra-entities/src/network/transports/websocket.rs: receive_reliable, connect, disconnect", "crates/tetra-entities/src/net_brew/mod.rs: websocket_transport_config"]}
{"id": "C79", "title": "Messages over TCP and QUIC streams arrive whole, however the network cuts the stream", "statement": "Messages sent over a reliable stream are handed to the receiver unchanged, once each and in order, whatever the sizes of the pieces in which the network delivers the stream and whenever it is polled.", "quantifier": "all lists of messages, all ways to cut their stream, all times of receiving", "why_tests_cant": "on a local network a small message arrives in one piece, so that a test never sees a part of a message.", "anchors": ["crates/tetra-entities/src/network/transports/tcp.rs: try_send, receive_reliable, wait_for_response_reliable", "crates/tetra-entities/src/network/transports/quic.rs: send_on_channel, receive_from_channel"]}
{"id": "C80", "title": "A base station with the right password gets in, and only then", "statement": "A server which asks for HTTP Digest authentication lets the base station in if the configured name and password are those the server knows, and the base station then connects to the path the server named. With another password it does not get in. The password itself is not sent.", "quantifier": "all servers following RFC 7616 with MD5 (parameters in any order, quoted or not, any header layout), all names, passwords and hashes, all ways to cut the answers", "why_tests_cant": "tests use one server with one way of writing its challenge, on the local machine where answers come in one piece.", "anchors": ["crates/tetra-entities/src/network/transports/websocket.rs: parse_digest_challenge, build_digest_response, WebSocketTransport::authenticate, extract_endpoint"]}
{"id": "C81", "title": "What the base station reports as transmitted, a mobile station gets", "statement": "A mobile station running the MAC of this repository listens to a timeslot from the start. Each message which the base station reports as transmitted there is passed up by the station once, complete, with the address it was sent to and in the order of the reports; nothing else is passed up, and the station does not abort.", "quantifier": "all histories of the scheduler (messages of all lengths, broken over any number of slots, circuits, hang times, grants, acknowledgements, voice), all cells, all start times", "why_tests_cant": "the tests feed the station a few recorded blocks; how blocks are filled depends on the whole history of the queue, and a lost or doubled message shows only for particular remainders.", "anchors": ["crates/tetra-entities/src/umac/umac_ms.rs: UmacMs::rx_tmv_sch, rx_mac_resource, rx_mac_frag, rx_mac_end, rx_broadcast, rx_tmv_aach, rx_tmv_bsch", "crates/tetra-entities/src/umac/subcomp/ms_defrag.rs: MsDefrag", "crates/tetra-entities/src/umac/subcomp/bs_sched.rs: BsChannelScheduler::finalize_ts_for_tick"]}
{"id": "C82", "title": "The channel filter is the convolution with its impulse response", "statement": "The filter which shapes the transmitted pulses and matches the received ones gives, for every sequence of complex samples fed to it one by one, sample by sample the convolution of that sequence with the symmetric impulse response built from the taps. It needs no restart, however long it runs, and never aborts.", "quantifier": "all numbers of taps it can be built with, all taps, all input sequences of any length", "why_tests_cant": "the filter keeps a doubled ring buffer and sums pairs of samples in four lanes; an index off by one shows only at particular positions of the ring, and only for inputs which are not symmetric themselves.", "anchors": ["crates/tetra-entities/src/phy/components/fir.rs: FirComplexSym"]}
{"id": "C83", "title": "What the modulator sends the demodulator reads", "statement": "Bits given to the modulator slot by slot come out of the demodulator unchanged, whatever they are and however many slots there are, when the signal arrives with any delay, phase and attenuation, as long as noise and timing error stay below stated bounds.", "quantifier": "all sequences of slots of 510 bits, all delays, all complex gains, all noise below the bound, all sampling times near the symbols, all window positions and lengths", "why_tests_cant": "intersymbol interference depends on the 16 neighbouring symbols on each side: 4^16 patterns for each symbol; a test with random bits does not find the worst one.", "anchors": ["crates/tetra-entities/src/phy/components/modulator.rs: Modulator::sample, DqpskMapper", "crates/tetra-entities/src/phy/components/demodulator.rs: Demodulator::process_slot", "crates/tetra-entities/src/phy/components/history.rs: History", "crates/tetra-entities/src/phy/components/modem_common.rs: CHANNEL_FILTER_TAPS"]}
{"id": "C84", "title": "Each slot of the radio is read once, at its end", "statement": "From whichever samples the radio delivers, the demodulator reads exactly those slots whose last sample was delivered, or was lost with fewer than 1020 others from it on up to the next one delivered. The slots are read in order, none twice, and each when its last sample is there. It never aborts, and this goes on as long as samples arrive.", "quantifier": "all increasing sequences of sample counters (any losses, any gaps), of any length up to 305 days", "why_tests_cant": "what happens depends on where the gaps fall relative to slot boundaries, and on counters which overflow after weeks.", "anchors": ["crates/tetra-entities/src/phy/components/demodulator.rs: Demodulator::sample, process_sample, add_slots, set_slot_ready_time", "crates/tetra-entities/src/phy/components/soapy_dev.rs: DemodulatorChannel::process"]}
{"id": "C85", "title": "The clock of the stack stays with the radio", "statement": "The stack runs one tick for each slot of the radio: what is received in slot n is passed on as received in slot n, and the transmission for slot n + 1 is handed over then, in every tick, also after samples were lost.", "quantifier": "all sequences of received blocks (any losses), any number of ticks", "why_tests_cant": "the stack counts ticks, the radio counts samples, and nothing compares the two: whether they stay together depends on the whole history.", "anchors": ["crates/tetra-entities/src/phy/components/soapy_dev.rs: RxTxDevSoapySdr::rxtx_timeslot", "crates/tetra-entities/src/phy/phy_bs.rs: PhyBs::tick_start", "crates/tetra-entities/src/messagerouter.rs: MessageRouter::run_stack"]}
{"id": "C86", "title": "Every slot is sent whole and at its time", "statement": "The radio is given the samples of each downlink slot completely, in order, without repetition, each for the time at which it should be on the air, and at least two blocks in advance; also after samples were lost or the program was late.", "quantifier": "all sequences of answers of the radio: its clock and the blocks lost before each block received; any length up to the overflow of the hyperframe counter", "why_tests_cant": "transmitter and receiver are driven by one loop whose progress depends on the clock of the radio, on losses and on what is left in the buffer from the slot before.", "anchors": ["crates/tetra-entities/src/phy/components/soapy_dev.rs: RxTxDevSoapySdr::rxtx_timeslot, TxDsp::process_block, ModulatorChannel::process", "crates/tetra-entities/src/phy/components/modulator.rs: Modulator::sample", "crates/tetra-entities/src/phy/phy_bs.rs: PhyBs::tick_start"]}
{"id": "C87", "title": "Received samples are counted right across losses", "statement": "Samples are numbered from the timestamps of the radio: a block of samples given to the demodulators consists of consecutive samples, beginning at the sample which the number of the block says, also after any number of samples was lost; blocks are in order, and without losses none is left out.", "quantifier": "all sequences of reads of any sizes, with any losses before each; all block sizes and sample rates", "why_tests_cant": "what is in the buffer depends on the whole history of partial reads and losses, and timestamps are rounded to nanoseconds, so sample numbers are only recovered if the rounding errors of two conversions do not add up to half a sample.", "anchors": ["crates/tetra-entities/src/phy/components/soapy_time.rs: ticks_to_time_ns, time_ns_to_ticks", "crates/tetra-entities/src/phy/components/soapyio.rs: SoapyIo::receive", "crates/tetra-entities/src/phy/components/soapy_dev.rs: RxDsp::receive_block"]}
{"id": "C88", "title": "Carriers go through the filter bank without being changed", "statement": "A signal within 25 kHz around a carrier comes out of the receiver as it went into the transmitter, at the same sample numbers and without jumps between processing blocks; the signals of all channels are added, each at its frequency; what is outside the bins of a channel does not come through.", "quantifier": "all block numbers, all sums of tones at multiples of 500 Hz, all FFT sizes, channels, centre frequencies and sample rates", "why_tests_cant": "the phase of each block must be turned by an amount which depends on its number and on the centre bin, and the delays of both banks must fit together; a test hears some carriers at some block numbers.", "anchors": ["crates/tetra-entities/src/phy/components/fcfb.rs: AnalysisInputProcessor, AnalysisOutputProcessor, SynthesisInputProcessor, SynthesisOutputProcessor, raised_cosine_weights_default", "crates/tetra-entities/src/phy/components/soapy_dev.rs: DemodulatorChannel, ModulatorChannel, RxDsp::new, TxDsp::new"]}
{"id": "C89", "title": "What is recorded can be replayed", "statement": "A recording of the downlink holds the bursts sent, whole and in order; when it is replayed, exactly these bursts are sent again, in order and from the first after the last, however the system cuts reads and writes. From a recording of the uplink every burst received can be read, with its slot and time. If a file cannot be used, the operator is told.", "quantifier": "all files, all ways the system divides reads, all interleavings of the stack and the writing thread", "why_tests_cant": "how many bytes a read gives and when the writing thread runs is decided by the system; a test sees one way.", "anchors": ["crates/tetra-entities/src/phy/components/phy_io_file.rs: PhyIoFile::read_block, write_block, write_header_and_block, create_async_writer", "crates/tetra-entities/src/phy/phy_bs.rs: PhyBs::new, rx_tpsap_prim"]}
{"id": "C90", "title": "What the base station is asked to send is what stations read", "statement": "A message which a layer above asks the base station to send reaches stations with the address, usage marker and channel asked for and with its contents unchanged, whether it is sent as signalling or in a stolen half slot of a call; the half slot is stolen from the timeslot asked for, else from the first call.", "quantifier": "all addresses, channels, lengths and contents of messages; all states of base station and mobile station", "why_tests_cant": "whether a message is read whole depends on its length modulo eight and on its last bits; tests use a handful of messages.", "anchors": ["crates/tetra-entities/src/umac/umac_bs.rs: rx_ul_tma_unitdata_req, cmce_to_mac_chanalloc", "crates/tetra-entities/src/umac/umac_ms.rs: rx_tmv_sch, rx_mac_resource", "crates/tetra-entities/src/cmce/subentities/cc_bs.rs: build_sapmsg_stealing"]}
{"id": "C91", "title": "What one station says is what its group hears, one frame later", "statement": "While a call is on, each frame of voice that a station sends in its slot is what the other stations of the cell decode, bit for bit, in the next slot of the timeslot that carries voice: one frame later, and two where frame 18 is between. Voice from the network and from the air is sent in the order in which it came, each frame once; with nothing to send there is silence. What one talker said is not heard after the floor has gone to the next one.", "quantifier": "all histories of the radio side: orders of call control, requests, voice from the network, receptions of any bits; all frames of voice, all positions of the burst in its slot; all configurations", "why_tests_cant": "a frame goes through demodulation, decoding, repacking, a queue, the scheduler and coding again; what is sent depends on everything that was said, sent and ordered since the circuit was opened and on the place in the multiframe.", "anchors": ["crates/tetra-entities/src/umac/umac_bs.rs: rx_tmd_prim", "crates/tetra-entities/src/umac/subcomp/bs_sched.rs: dl_schedule_tmd, finalize_ts_for_tick, set_hangtime", "crates/tetra-entities/src/umac/subcomp/circuit_mgr.rs: put_block, take_block", "crates/tetra-entities/src/lmac/lmac_bs.rs: rx_blk_traffic, rx_tmv_unitdata_req_slot", "crates/tetra-entities/src/phy/phy_bs.rs: rx_tpsap_prim"]}
{"id": "C92", "title": "Stations are told about their call in the timeslot in which they listen", "statement": "What the cell answers to a station goes out in the timeslot in which the station sent. Stations in a call, which listen to the timeslot of the call, are told in that timeslot that the call is over: when a station ends it, and when the hang time passes.", "quantifier": "all histories of the signalling stack in which the clock ticks slot by slot, frames arrive two slots after they were sent and the message queue is empty at each tick; for the answers, all histories whatever", "why_tests_cant": "the timeslot of a message is that of a clock read somewhere in four layers; which slot that is depends on when the message is handled and on what happened hundreds of slots before.", "anchors": ["crates/tetra-entities/src/cmce/subentities/cc_bs.rs: release_call, check_hangtime_expiry, rx_u_disconnect, rx_u_tx_ceased", "crates/tetra-entities/src/cmce/subentities/sds_bs.rs", "crates/tetra-entities/src/umac/umac_bs.rs: rx_ul_tma_unitdata_req", "crates/tetra-entities/src/phy/phy_bs.rs: rx_tpsap_prim", "crates/tetra-entities/src/messagerouter.rs: run_stack"]}
{"id": "C93", "title": "What a mobile station sends is heard once by its protocol, and circuits follow the calls", "statement": "In the whole base station: if the reception of a slot holds a block with messages of a mobile station, in any of the bursts, with at most one wrong bit per coded block, then each message for mobility management or call control in it is handed to that protocol, under the number of the station and with the timeslot of the reception, in order, once; and these protocols hear nothing else. When the orders of call control have been delivered, the radio side has a circuit exactly on the timeslots of the calls the stations were told about, and hang time exactly where nobody has the floor.", "quantifier": "all histories of the whole base station: slots sent and received with any bits, events of the backhaul, commands on the control link, any order of the start of the entities in a slot, any interleaving of the deliveries to the upper MAC with the others", "why_tests_cant": "each layer can be tested alone; that nothing is lost, doubled or misattributed between a burst and a protocol depends on the queues between six entities, on reports shared in memory and on the history of all slots before.", "anchors": ["crates/tetra-entities/src/messagerouter.rs: MessageRouter::deliver_message, tick_start, tick_end", "crates/tetra-entities/src/umac/umac_bs.rs: rx_tmv_unitdata_ind, rx_control", "crates/tetra-entities/src/lmac/lmac_bs.rs: rx_blk", "crates/tetra-entities/src/llc/llc_bs_ms.rs: rx_tma_prim", "crates/tetra-entities/src/mle/mle_bs.rs", "crates/tetra-entities/src/cmce/subentities/cc_bs.rs"]}
{"id": "C94", "title": "What the LLC hands down is on the air once, waits, or is reported lost; and the LLC is told which", "statement": "In the whole base station, as long as no station was answered in a way which cannot be sent (C36, C21): every message the LLC has handed to the upper MAC is on the air complete, once, in one or more parts under its address, and reported as transmitted; or waits in the queue of its timeslot; or was thrown away at the end of a hang time and reported as discarded. The LLC is told exactly what was reported of the messages it keeps for repetition. A mobile station which listens on the timeslot passes up exactly the messages reported as transmitted, in that order. Whatever stations, the network and the control link do, no message handed down has an address or a usage marker which does not fit its field. What the upper MAC is asked for is, in order and word for word, what the LLC said: the same timeslot, address, bits, stealing and channel, and an acknowledgement carries the number acknowledged; nothing is asked for in the words of another message.", "quantifier": "all histories of the whole base station, all messages; for the mobile station, all timeslots", "why_tests_cant": "that a report is about the right message depends on numbers given in one entity and used in another many slots later.", "anchors": ["crates/tetra-entities/src/llc/llc_bs_ms.rs: tick_end, send_ack, rx_tl_unitdata_req", "crates/tetra-entities/src/umac/umac_bs.rs: rx_ul_tma_unitdata_req", "crates/tetra-entities/src/umac/subcomp/bs_sched.rs", "crates/tetra-entities/src/umac/umac_ms.rs", "crates/tetra-core/src/tx_receipt.rs", "crates/tetra-entities/src/llc/llc_bs_ms.rs: tick_end, rx_tl_unitdata_req, send_ack"]}
{"id": "C95", "title": "No burst from the air brings the base station down; nothing else does either", "statement": "Whatever has happened before, a burst received on the uplink does not make the base station abort. (It does: see the findings.) Short of the named harmful events (a fatal message, a command or backhaul message that cannot be carried out, a message discarded with a hang time, an answer that cannot be written, 2^32 messages) the base station handles every input in every state it can reach: every slot is built and encoded, every reception, delivery, request, order and block of voice is handled.", "quantifier": "all configurations in range, all histories of the whole base station, all inputs", "why_tests_cant": "whether a panic deep in one entity is reached from the air depends on every layer in between passing the message on, in every state they can be in.", "anchors": ["crates/tetra-entities/src/umac/umac_bs.rs: rx_mac_access", "crates/tetra-entities/src/llc/llc_bs_ms.rs: rx_tma_unitdata_ind (unimplemented!)", "crates/tetra-entities/src/mle/mle_bs.rs", "crates/tetra-entities/src/messagerouter.rs"]}
{"id": "C96", "title": "A slot grant or a random access acknowledgement reaches the station it was made for, in the next slot", "statement": "A slot tells a station that slots are granted to it, or that its random access was heard, only if this was asked for, for this station on this timeslot. What is asked for is told in the next slot of the timeslot that is free to carry signalling; if that slot is full it waits and is not lost. An acknowledgement thrown away with the hang time of a call is given with the next message in a stolen half slot, once.", "quantifier": "all histories of scheduler calls, all timeslots, all stations, all grants", "why_tests_cant": "the grant is merged into another message of the same slot, into one for the same station in the middle of the queue, or gets a message of its own; which one depends on everything queued before.", "anchors": ["crates/tetra-entities/src/umac/subcomp/bs_sched.rs: dl_enqueue_grant, dl_enqueue_random_access_ack, dl_integrate_sched_elems_for_timeslot, dl_take_all_grants_and_acks, take_pending_ra_ack", "crates/tetra-entities/src/umac/umac_bs.rs"]}
{"id": "C97", "title": "A message reported as acknowledged has arrived, and messages arrive once and in order", "statement": "A station which takes a frame with the sequence number of the frame before for a repetition, at the other end of a radio link which loses frames in both directions: whatever is lost, repeated or given up, the station passes up messages the base station was asked to send to it, unchanged, none twice, and in the order of the requests. A message the base station reports as acknowledged has been passed up by the station. As long as no message was given up, there are no gaps, and at most one message passed up is not yet reported as acknowledged.", "quantifier": "all histories of the LLC, all losses on the air in both directions, all numbers and times of acknowledgements by the station", "why_tests_cant": "correctness of a one bit protocol depends on the interleaving of repetitions, late acknowledgements and losses; unit tests try a few.", "anchors": ["crates/tetra-entities/src/llc/llc_bs_ms.rs: get_next_send_seq, process_incoming_ack, submit_retransmissions_to_umac, submit_free_messages_to_umac"]}
{"id": "C98", "title": "A mobile station which registers is accepted over the air", "statement": "When a mobile station sends a demand to register of a kind the base station supports, and the block is received with at most one wrong bit, mobility management asks for an acceptance of the same kind, to this station, on the timeslot of the block, with the groups the station asked for. The acceptance goes down with the next end of a tick unless an earlier acknowledged message to the same station is still open; on the control channel it is then on the air complete and reported after at most eight slots for each bit and message before it, whatever calls do meanwhile. If the base station takes it as acknowledged, it was on the air complete.", "quantifier": "all histories of the whole base station: bursts, blocks, messages, commands, calls, deliveries of the router in any order; all stations and demands", "why_tests_cant": "the answer passes six layers, each with its own queue, and any other traffic can come between; a test follows one path with empty queues.", "anchors": ["crates/tetra-entities/src/mm/mm_bs.rs: rx_u_location_update_demand", "crates/tetra-entities/src/mle/mle_bs.rs", "crates/tetra-entities/src/llc/llc_bs_ms.rs", "crates/tetra-entities/src/umac/umac_bs.rs", "crates/tetra-entities/src/umac/subcomp/bs_sched.rs", "crates/tetra-entities/src/messagerouter.rs"]}
{"id": "C99", "title": "A group call asked for over the air is connected over the air", "statement": "When a mobile station sends a request for a group call of a supported kind, and the block is received with at most one wrong bit, call control handles it under the number of the station. If then a station is affiliated to the group and one of the three traffic timeslots has no call on it, a call is made on such a free timeslot: the caller is told, to be acknowledged, that the call proceeds, and that it is connected, with this timeslot and a usage marker, that it may talk and owns the call; the group is told, with the same timeslot and marker, that a call with the service and priority asked for is on and who talks; the upper MAC is told to open the timeslot. The messages which connect it go down, and from the control channel they are on the air complete, with the allocation, after at most eight slots for each bit and message before them, whatever happens meanwhile.", "quantifier": "all histories of the whole base station: bursts, blocks, messages, network calls, commands, deliveries of the router in any order; all stations, groups and requests", "why_tests_cant": "the request and its three answers pass six layers with queues of their own, while any other calls come and go; a test follows one path with empty queues.", "anchors": ["crates/tetra-entities/src/cmce/subentities/cc_bs.rs: rx_u_setup", "crates/tetra-entities/src/mle/mle_bs.rs", "crates/tetra-entities/src/llc/llc_bs_ms.rs", "crates/tetra-entities/src/umac/umac_bs.rs", "crates/tetra-entities/src/umac/subcomp/bs_sched.rs", "crates/tetra-entities/src/messagerouter.rs"]}
{"id": "C100", "title": "The PDU tool shows the PDUs of a block", "statement": "Given a string of bits, a direction and a channel, the tool shows the header of the PDU the string begins with exactly as a station wrote it, whatever follows; it shows the SDU behind the header without fill bits and its length; it goes on with the next PDU where the previous one ends, or says where that is; and it does so for every string of bits and every channel it offers, without aborting.", "quantifier": "all strings of bits, both directions, all channels, all headers with all field values", "why_tests_cant": "there are as many inputs as strings of bits; whether the end of a PDU is found depends on its length, the length of its header and the number of bits after it.", "anchors": ["bins/pdu-tool/src/main.rs", "bins/pdu-tool/src/entities/umac.rs: UmacParser::parse_ul, parse_dl, print_sdu, apply_pdu_association, count_fill_bits, check_continue"]}
{"id": "C101", "title": "The radio is set as the file says", "statement": "If the program accepts its configuration file and the radio found takes it, the driver is told, for every gain named in the file in whatever case, the number written there and no other; sample rate, channels and antennas are those of the file; what the file leaves out has the value of the radio's table. A gain the radio does not have is refused, and nothing else is.", "quantifier": "every configuration file, every supported radio, both directions, every order in which a hash map yields its entries", "why_tests_cant": "the names are matched without regard to case against five tables of names, through a hash map whose order changes from start to start; a wrong gain is only noticed on the air.", "anchors": ["crates/tetra-entities/src/phy/components/soapy_settings.rs: SupportedDevice::detect, SdrSettings::get_settings", "crates/tetra-entities/src/phy/components/soapyio.rs: SoapyIo::new", "crates/tetra-config/src/bluestation/sec_phy.rs: phy_dto_to_cfg"]}
{"id": "C102", "title": "What is typed into the control console is what the base stations are told", "statement": "A line of the documented form is sent as a command with the addresses, the kind of destination and the bytes typed, and no other line is. In every history, every base station connected is sent all the commands typed since it connected, in order, each with its own handle, and nothing before its handshake is done. No line of plain text stops the console.", "quantifier": "every line, every history of connections, lines typed, messages sent and disconnections", "why_tests_cant": "lines are free text, and the threads of the connections run beside the one which reads; a test has a few lines and one client.", "anchors": ["bins/bluestation-control/src/main.rs: parse_command, parse_sendsds, hex_decode, next_handle, spawn_stdin_reader, handle_connection"]}
{"id": "C103", "title": "Only those with a password are let in", "statement": "With a file of credentials, a client is let in exactly if it offers the protocol and sends a name and a password which belongs to the hash on the last line of the file for that name. A line made by the program itself gives the name and password typed access.", "quantifier": "every file, every request, every behaviour of the hash and of Base64", "why_tests_cant": "the header, the file and the hash are free text with three ways to split it; letting in one wrong request is enough.", "anchors": ["bins/bluestation-control/src/main.rs: load_auth_db, generate_credential, check_basic_auth, handle_connection", "bins/bluestation-telemetry/src/main.rs: load_auth_db, check_basic_auth"]}
{"id": "C104", "title": "One connection for each user of the telemetry receiver", "statement": "Two connections are never live under the same user name. A request is refused for its name exactly if another connection under this name is live or being set up, and a user whose connection ended can connect again at once.", "quantifier": "every interleaving of the threads of any number of connections", "why_tests_cant": "the outcome depends on which thread holds the lock first, also while a refusal is being written to a slow client.", "anchors": ["bins/bluestation-telemetry/src/main.rs: SharedState, handle_connection"]}
{"id": "C105", "title": "A message typed into the console is what the mobile station reads", "statement": "A command typed for a registered destination makes the base station send one message, which a mobile station reads as exactly the bytes typed, from the source typed; for any other destination nothing is sent. What call control carries out is what was typed since the base station connected, in order. No line typed brings the base station down.", "quantifier": "every line, every history of the console, of the connection, of registrations and of the base station", "why_tests_cant": "three programs and four threads lie between the line and the air interface; each has its own way to cut a message.", "anchors": ["bins/bluestation-control/src/main.rs: parse_command, handle_connection", "crates/tetra-entities/src/net_control/worker.rs: ControlWorker", "crates/tetra-entities/src/cmce/subentities/sds_bs.rs: rx_sds_from_control"]}
{"id": "C106", "title": "The numbers of a message stand for what was meant", "statement": "For each enumeration which stands for a number in a message: a number that is read is written again as itself, a value that is written is read as itself, exactly the declared numbers are known, and each fits in its field.", "quantifier": "every number and every value of the 35 coded enumerations", "why_tests_cant": "some thousand table entries in three copies each; a test of one enum says nothing of the others, and most have none.", "anchors": ["crates/tetra-pdus/src/*/enums: try_from, into_raw", "crates/tetra-saps/src/control/enums, crates/tetra-saps/src/lcmc/enums: try_from, into_raw"]}
{"id": "C107", "title": "A base station gets into the console with the name and password of its configuration", "statement": "A base station is let in exactly if its configured password belongs to the hash on file for its configured name. A line made by the console for a name and password, put into the file, lets in the base station configured with them. Without credentials it is let in only by a console without a file.", "quantifier": "every name, password, file and hash function", "why_tests_cant": "the name and the password pass through two programs, a header and a file, each of which splits them at a character that may occur in them.", "anchors": ["crates/tetra-entities/src/network/transports/websocket.rs: connect", "bins/bluestation-control/src/main.rs: check_basic_auth, load_auth_db, generate_credential", "bins/bluestation-bs/src/main.rs: start_control_worker"]}
{"id": "C108", "title": "The radio that is opened is the one its settings are for", "statement": "Without a device in the configuration the first device listed that opens and is supported is used; with one, this one or none. The device in use is of the kind its settings belong to, also if it had to be opened twice. The arguments in the configuration reach the driver. The clock of a device is not read over the network.", "quantifier": "every list of devices, every result of each attempt to open one, every pair of keys, every configuration", "why_tests_cant": "which device answers an attempt, and whether the second attempt gets the same one, depends on the hardware present at that moment.", "anchors": ["crates/tetra-entities/src/phy/components/soapyio.rs: open_given_device, find_supported_device, open_device", "crates/tetra-entities/src/phy/components/soapy_settings.rs: detect, settings_pluto"]}
{"id": "C109", "title": "What is sent and what is received are counted by one clock", "statement": "A sample given a counter for sending leaves the radio at the moment at which a sample received gets the same counter. Sending is possible as soon as a read has come with a timestamp. The counter of the moment is the one of the sample the radio is at; a sample with a higher counter is sent later than that.", "quantifier": "every sequence of reads, with or without timestamps, every loss which timestamps can tell, every counter and every whole sample rate below 333 MHz", "why_tests_cant": "times are rounded to nanoseconds in three places, and the start is computed back from whichever read has the first timestamp.", "anchors": ["crates/tetra-entities/src/phy/components/soapyio.rs: transmit, rx_current_count, tx_current_count, tx_possible", "crates/tetra-entities/src/phy/components/soapy_time.rs"]}
