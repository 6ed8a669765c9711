# Formal model of tetra-bluestation: design

The code under study is the Rust workspace in `/repo` (MidnightBlueLabs/tetra-bluestation).
It is read as text only. This directory holds a Lean 4 model of its logic and machine-checked
theorems about that model. `properties.jsonl` lists the properties, `MANIFEST.json` says which
theorem settles which property, `seeded/LOG.jsonl` records the mutation tests of the theorems.

## Trusted base

* Lean 4.33.0's kernel, and the elaborator only in so far as it produced the statement shown.
* The axioms `propext`, `Classical.choice`, `Quot.sound` (the last lines of each `Props` file print
  nothing else with `#print axioms`; no axiom of our own, no `sorry`, no compiled evaluation).
* The reading of the Rust code. The code was not run. Every model definition cites the file and
  lines it models and says where it simplifies.
* Rust semantics assumed: arithmetic overflow, out-of-range indexing, failed `assert!`, `unwrap` on
  `None`, `unreachable!`, `unimplemented!` and `panic!` abort the process; the model makes them the
  explicit result `panic`. (Overflow aborts in builds with overflow checks. Where the property is
  about wrapping arithmetic the model uses fixed-width integers.)
* Logging (`tracing::*`) has no modelled effect.

## Conventions

* A Rust function taking `&mut self` becomes a function returning the new state.
* `Res α` is `ok a | panic`: `panic` stands for every abort of the process.
* Bits are `Bool`; a bit string is `List Bool`, first element transmitted first (MSB of a field first).
* `HashMap`/`HashSet` become functions or association lists; iteration order of hash containers is
  never used in a statement (where the code iterates over one, the model takes the order as a list
  and theorems hold for every order).
* Layout: `Verif/<Area>/Model.lean` (model), `Spec.lean` (small independent specification, when there
  is one), `Lemmas.lean` (helpers), `Props.lean` (property theorems and the examples which show their
  hypotheses are met).

## Plan per property

| id | what is modelled | how it is proved |
|----|------------------|------------------|
| C01 | `BitBuffer` byte array, `start/pos/end`, `write_bits` head/byte/tail paths, `read_bits` byte loop | refinement: the byte array denotes a bit string (`bitAt`); write = replace n bits by the big-endian digits, read = value of n bits; round-trip by induction over the field list |
| C02 | same | frame lemma from the same refinement |
| C03 | `TdmaTime` with integer fields, the diff loops, wrap | modular arithmetic (`omega`), uniqueness of the representative |
| C04 | `is_mandatory_*`, `forward_to_timeslot` | arithmetic case analysis, unbounded in the hyperframe and over all windows |
| C05 | `TimeslotAllocator` | abstract ownership derived from the log of successful calls; invariant by induction on the history |
| C06 | shared atomic cell with compare-exchange, reporter and receipt operations as atomic steps | invariant on traces of any interleaving |
| C07 | `from_vec_ssirange` (sort + checks), `contains` (binary search) | sorted/disjoint invariant, correctness of binary search by induction |
| C08 | the duplex table, `from_components`, `get_freqs` with u32 wrap/overflow | arithmetic; table is data |
| C09 | `typed_pdu_fields` on bit strings | round-trip by induction on element lists |
| C10 | `crc16` as bit-serial register | polynomial/linear argument over GF(2): register update is invertible and linear |
| C11 | LFSR keystream | xor involution; injectivity of the seed to first 32 outputs |
| C12 | block and matrix interleavers, class reorder tables | modular arithmetic (coprime multiplication is a bijection), table permutation checked by the kernel over the whole table |
| C13 | RM(30,14) generator, decoder | linearity + full finite table |
| C14 | `encode_cp`/`decode_cp` pipelines | composition of stage inverses; the noiseless Viterbi theorem (C16) |
| C15 | `encode_tp`/`decode_tp`, `speech_crc` | same |
| C16 | `ViterbiDecoder::decode` with i16 metrics | dynamic-programming invariant: metric = minimum over paths; traceback returns an optimal path |
| C17 | `compute_fcs`/`check_fcs` | as C10 with 32-bit register, incl. the short-SDU initialisation |
| C18 | `fillbits` | list lemma |
| C19 | `BsFragger` | measure + concatenation invariant |
| C20 | `BsDefrag`/`MsDefrag`/`DefragBuffer` | refinement to "log since last first-fragment" |
| C21,C22 | uplink schedule ring of `BsChannelScheduler` | ghost ownership map over absolute time, ring invariant by induction on history |
| C23 | downlink queue and block builder | invariant on queue, capacity arithmetic |
| C24,C25 | both circuit managers | invariants by induction; what is said about timeslots and usage numbers is compared with the list of circuits (Cmce/CircuitQueries.lean); counter collision is a concrete counterexample |
| C26,C27 | LLC basic link entity | invariant over event histories, ghost logs |
| C28,C29,C30 | call control `CcBsSubentity` | invariant over event histories |
| C31 | `SubscriberRegistry` | refinement to a relation |
| C32 | MM client manager + notification order + C30's model | simulation relation, counterexample for detach+attach in one PDU |
| C33 | `JitterBuffer` (floating point jitter estimate abstracted to an arbitrary value) | log refinement |
| C34 | `brew_routable` | direct decision logic |
| C35 | `MessageQueue`, router | list refinement |
| C36 | `Umac/UmacBs.lean`: upper MAC of the base station with explicit `panic`; `Umac/UmacBlocks.lean`: the PDUs of a block and the bad ones | every block without a bad PDU is processed after every history; every block which begins with a bad PDU aborts; concrete histories for delayed aborts |
| C37,C38 | PDU codecs on bit strings | round trip per PDU |
| C39 | `SdsBsSubentity` routing | decision logic |
| C40 | `EventLabelStore` | invariant; counterexample after 511 allocations |
| C41 | `CircuitMgr::tick_start` of call control | table invariant by induction over histories |
| C42 | LLC basic link entity | trace equality by induction over histories |
| C43 | whole scheduler, histories of calls | environment invariant by induction over histories; decoding of the block sent |
| C44 | whole scheduler | case analysis of the slot built in every reachable state |
| C45 | whole scheduler | decoding of the block sent against the history of circuit and hang-time calls |
| C46 | circuit buffers inside the scheduler | simulation of the trace by a one-frame queue |
| C47 | queues of the scheduler and the fragmenter | queue invariant (only the head is begun) by induction over histories |
| C48 | UmacBs, Cc with the messages of one as events of the other (Umac/UmacCall) | fold of the orders (`circuitBy`, `hangBy`) proved equal to the state of the MAC by induction over its history and to that of call control over its elementary steps; voice forwarding follows |
| C50 | UmacBs (Umac/UmacBs), specification `watch` (Umac/UmacWatch) | invariant linking the state of the MAC to the specification; exact characterisation of the reports, then counting over a silent stretch of any length |
| C49 | UmacBs with the block grammar `Starts`/`SentIn` and the grants of the scheduler log as specification (Umac/UmacSdu*) | invariant: every reassembly event comes from a block that carried it, in a slot granted to its station; completeness by induction over the PDUs of a block and over the middle parts; the exception (an overflowed reassembly delivers an empty message from address 0) is explicit in the statement |
| C51 | MM entity (Mm/MmBs) over the PDU decoders, registry of Config/ | invariant over histories; registry part through C30-style operation traces |
| C52 | MM entity with decoders and encoders of the MM PDUs | effect of the entry loop by induction; encoders by the round trips of C38; ranges of what decoders give |
| C53 | MM entity over total decoders with explicit panics | case analysis; decoders abort only on a bad element header |
| C54 | MM entity; folds of the updates sent | invariant over histories; per message the updates to the backhaul are the filtered updates to call control |
| C55 | MM entity; folds of the events sent | invariant over histories |
| C56 | call control of C28-C30 | case analysis per event over the invariant of C28/C30 |
| C57 | the entity around call control (C28-C30, C56) and short data (C39), with the PDUs of C38 as bits | simulation: each history of the entity reads as one of call control; invariant that all numbers fit their fields; the terms stations are told for a call (Cmce/CallTerms.lean) by cases over all messages |
| C58 | reader and writers of the protocol, bytes as numbers, the UTF-8 check as a parameter | a table of layouts as specification; the reader accepts m from data iff data is the layout of m followed by bytes the layout ignores |
| C59 | the worker thread as a state machine over C58 | invariant: the table of headers is what the history announces |
| C60 | entity and worker as state machines joined by FIFO channels and a connection; the server reads bytes with the reader of C58 | invariant: what the server knows plus what is under way is the routed part of the register |
| C61 | the entity of C60 and the call control of C28/C29 joined by an ordered queue | iff between the table of sessions and the history; invariant over both machines |
| C62 | the entity of C60 with the jitter buffer of C33 and the call control of C28/C29, joined by two ordered queues with any delay | session specification folded over the history; iff for each message; sublist for order; joint invariant over both machines and both queues |
| C63 | C39 (routing and codec), C58 (backhaul codec), C59 (worker histories) and the entity of C60 composed | composition of the theorems; an iff for aborts |
| C64 | C54 (mobility management from received bits to updates) and C60 (entity, worker and server) composed | an order invariant on the updates (only registered stations join groups), then composition of the two invariants |
| C65 | the scheduler (C43, C44), the coding chains (C13, C14, C15), slot layout and burst search as functions on bit lists | layout lemma (each field at its standard position), search lemma (distance of the sequences), composition with the round trip theorems of the chains |
| C66 | bursts as in C65, the phase of the modulator in eighths of a turn | induction on the symbols of the window, case analysis of the residue |
| C67 | physical layer from demodulated bits, lower MAC state and upper MAC (C36, C49) as one machine; search window positions as a specification of their own | search lemma, invariant over histories of the joint machine (slot times, traffic table, stolen flag), round trip theorems of the coding chains |
| C68 | as C67 | totality of search and decoding, invariant of the stolen flag, C36 for the upper MAC |
| C69 | as C67, with the grants of C21 | c49_origin on histories of the joint machine; concrete history for the negation |
| C70 | LLC (C26), MLE, mobility management (C52) and call control (C57) with the queue of the message router as one machine | invariant: what was handed over followed by what waits in the queue is what was sent; a measure on the queue for its emptying |
| C71 | as C70 | invariant of the queue: nothing in it can abort; conversely a fatal frame leads to an abort in every state |
| C72 | as C70 | invariant: what was asked for followed by what waits in the queue is what was sent; C26 and C42 on the calls of the LLC |
| C73 | MLE broadcast and clock as part of the stack of C70; the message as a specification bit by bit | packing as a sum of powers of two and its bits; invariant over histories with C72 |
| C74 | worker with its queues, mobility management and call control (C57) as one transition system; JSON and transport are the environment | invariants over histories: queues are exactly the difference between what was received, taken, answered and sent; c39 for what is sent |
| C75 | worker with its queue behind the mobility management of C55; the transport is the environment | invariant: events emitted = sent or lost ++ waiting, in order; composition with c55_telemetry_partial and c55_exact_partial |
| C76 | tables of TOML values, the derived deserializers by hand, conversion and patching of each section | an independent table of what key is held where; case analysis over keys |
| C77 | start-up from the table of the file to cell parameters, scrambling code and radio frequencies, joined with the scheduler (C43), coding and bursts (C65); a mobile looking for a cell as the specification | composition of C08, C11, C43, C65; a scheduler with nothing to send writes SYNC and SYSINFO within two slots, and a value which does not fit stops it |
| C78 | the transport as a state machine over time with a queue of frames; the socket and the library are the environment | invariants relating the state to the history; for keeping the connection an invariant with timing bounds |
| C79 | bytes which have arrived, pieces of any size, receiving as it takes bytes away | invariant against an ideal receiver; conservation of bytes for the converse |
| C80 | the client over lists of characters with an arbitrary hash; the server of the specification reads the answer by the grammar of the RFC | lemmas on trimming, splitting and reading back what was written; injectivity for wrong passwords |
| C81 | UmacMs.round / loop / call over bit strings, fed with the blocks built by the scheduler of C23 | each step of the fragmenter read back by one round of the station (UmacMsRound), then induction over the block (round_heard) and over the history with the invariant that the station holds exactly what has been sent of the message begun (InStep) |
| C82 | Fir over an arbitrary commutative ring (floating point rounding not modelled), ring buffer with positions as in the code | invariant that both copies in the ring hold the last samples; the lane sums are the sum over the impulse response |
| C83 | Modulator, Receiver and slotBits over rational numbers with the constants of the code; the timing estimate is an argument | the response of both filters together is nearly zero at the other symbols (kernel computation over the taps), so that every received symbol lies in a sector around the one sent (in_sector, open eye); the decision on the angle between two symbols is then right |
| C84 | Dsp/Slots.lean: the timing state of the demodulator, samples reduced to their counters | invariant Waits (the slot waited for is the first not yet read which is not in the past); processAll_ok gives the slots read as the slot ends among the counters, mem_fed which counters are seen with zeros filled in |
| C85 | Dsp/Slots.lean: Stack.run, ticks with the demodulator of C84 | run_ok: the ticks of a run take the slots read one after the other; from C84 these are 0, 1, 2, … without losses, and an increasing sequence in general |
| C86 | Dsp/Transmit.lean: the loops of rxtx_timeslot as a state machine which asks the radio for the time and for blocks; a sample is kept as its place in a slot | invariants over all runs (Good, BufOk), over runs in time (Timely: how far the transmitter has come in each tick) and over runs behind (Tail); c86_modulator links places in slots to what the modulator sends |
| C87 | Dsp/Receive.lean: conversions between time and sample numbers, the counter of SoapyIo, and the loops of receive_block as a step per read; samples are represented by their true number | rounding errors bounded, then invariants over reads (IoOk, RxOk) |
| C88 | Dsp/Bank.lean: both banks over complex numbers, with discrete Fourier transforms as sums | sums of roots of unity; linearity, so a signal is taken apart into tones; the state of the synthesis buffer by an invariant (Idle) |
| C89 | Phy/Record.lean: the reading loop step by step with adversarial reads; the writing thread with its channel | an invariant for the reader (Playing) and a measure which bounds the number of reads for each block (left); an invariant for the recorder; a parser for the uplink recording |
| C90 | Umac/UmacBs.lean: request, signal, stealTs, stolenBlock; Umac/UmacMs.lean: round, rxSch; Cmce/CmceBs.lean: the messages of call control | the header read back through C37; the half slot followed bit by bit through the mobile station: where the length ends, what is taken for fill bits, what is left |
| C91 | Phy/Uplink.lean: the radio side as one machine; Phy/LoopProps.lean: said, heard, backlog (specification) | what waits in the queue is, at every point of a history, what was said and not sent since the circuit was opened (induction over the history); between reception and the next slot of the timeslot at most one frame waits; C67 before, C65 after |
| C92 | Sig/Where.lean: Live (histories in time), clock, stopped (specification) over the stack of C70; Cmce/CallClock.lean: the clock of call control | invariant: the clock of call control is that of the last tick, and each call without a talker keeps the slot in which it was left; the hang time is a multiple of four slots, so that the slot in which it ends is known |
| C93 | Station/Station.lean: the radio side (C67, C68) and the signalling stack (C70) with the messages between them | each history of the station is a history of either side (`run_both`), what one hands on is what the other gets (`run_frames`, `run_gone`); then C67 and C70, C57 and C58 are put together |
| C94 | Station/Air.lean: the calls on the scheduler the requests of the LLC lead to; Station/AirProps.lean: Fate, reportFor (specification); Station/Asked.lean: `Faithful`, what a request must say | the n-th message handed down is the n-th call which brings the scheduler something, under number n; then C23 for each of them, C81 for the mobile station; an invariant over the history for the reports; invariants that every address and usage marker fits its field, from what is received through MM, CMCE and the LLC (Mm/MmShort.lean, Cmce/CallShort.lean, Cmce/CmceBsShort.lean, Sig/Short.lean, Umac/UmacAddr.lean, Station/Clean.lean); Station/Sample.lean: a registration from the burst to the report, evaluated in the kernel |
| C95 | Station/Aborts.lean: `runs`, inputs one after the other in the whole base station; Station/Total.lean: `Harmless` | c67_alone and c67_messages bring the message of the burst to the queue of the router after any history; C71 says that the deliveries then abort; the other direction (Station/Total.lean): invariants over the histories that all timeslots, times, orders and stolen messages are in range (Sig/Slots.lean, Umac/OrderRange.lean, Umac/UmacSound.lean, Station/Ranges.lean), then totality of every entity |
| C96 | Umac/Grants.lean: `Told`, `MacResource.Tells`, `SchedEv.Asks`, `SchedEv.Brings`; GrantProps.lean: `Book`, a log of asked and thrown away acknowledgements | integration keeps every statement that was due and adds none (integrate_says, integrate_carries); an invariant over histories relates the queue to what was asked for; the encoded messages are read back with C05 |
| C97 | Llc/LinkProps.lean: Link, the LLC of C26 with a radio link which loses frames and a station which takes equal numbers for repetitions (specification) | invariants on the link from what C26 says of each output: frames on the way are in the order of the requests; up to a frontier everything is acknowledged and passed up, and acknowledgements on the way for the next message come after the station has heard it |
| C98 | no new definitions: the whole base station of Station/Station.lean; `acknowledgedOrders`, `handed`, `Carried` and `Fate` of earlier properties | composition: C93 (the block reaches mobility management), C52 (the answer), C72 (the order reaches the LLC), C26 (the LLC sends it at the end of the tick, unless an earlier one is open), C94 and C23 (the upper MAC puts it on the air in time); calls never touch timeslot 1 (run_hang), so the hang time of a call never throws it away; the mobile station hears it by C94 and C81 (Station/HeardBack.lean) |
| C99 | no new definitions beyond `updatesIn` (what call control was told about affiliations, Cmce/Served.lean): the whole base station of Station/Station.lean; `heardIn`, `affiliated`, `Serveable` of C41 and C57 | composition: C93 (the block reaches call control), C28/C57 (what call control sends, bit by bit, Cmce/Served.lean), C72 (the orders reach the LLC), C94 and C23 (the upper MAC puts them on the air in time, Station/Answer.lean `sent_in_time`); the stations hear them by C94 and C81 (Station/HeardBack.lean); sample over the air in Station/SampleCall.lean |
| C100 | the program as a function from bits to what is shown (Tool/PduTool.lean), with the readers of the headers of C37; `Wire`: the bits a station writes for a header | by cases over the kinds of headers from the round trips of C37; arithmetic of lengths; negative claims as general theorems (Tool/PduToolProps.lean) |
| C101 | tables of gains, maps as lists without double keys, the order of entries as an arbitrary permutation, lower case as an arbitrary function which is right on the seven names; what the driver is told as a list (Config/Radio.lean) | lookup lemmas for maps; composition with the reading of the file of C76 (Config/RadioProps.lean) |
| C102 | lines as lists of characters with the lengths of their UTF-8 encoding, numbers as the library reads them, clients with their queues (Net/Console.lean) | equivalence of reading with a grammar of lines; induction over histories for one client (Net/ConsoleProps.lean) |
| C103 | Argon2 and Base64 as arbitrary functions, the map of users as a list with the newest entry first (Net/Console.lean) | induction over the lines of the file (Net/ConsoleAuth.lean) |
| C104 | the set of names and the phase of each connection; an event for each time a thread holds the lock (Net/Receiver.lean) | invariant: the set holds the names of the connections which are live or being set up, each once (Net/ReceiverProps.lean); names numbered by a counter are all different (Net/ReceiverAnon.lean) |
| C105 | no new definitions: the console of C102, the control link of C74, short data of C39 | composition of C102, C74 and C39 (Net/ConsoleHeard.lean) |
| C106 | each enum as declared, with its two tables (Core/Enums.lean) | cases over all values, and over all arms of `try_from` (Core/EnumsProps.lean) |
| C107 | the headers of the request (Net/ConsoleLogin.lean), the console of C103 | composition with C103; a text is split at its first colon in one way only |
| C108 | the attempts as an environment that may answer differently each time (Config/Opening.lean) | induction over the devices listed; an exact characterisation of the radio in use |
| C109 | the times given to the radio, from the state of C87 (Dsp/SendTime.lean) | the errors of three roundings together are less than half a sample; invariants of C87 |

## Not modelled

* SDR/DSP (`tetra-entities/src/phy` sample processing) except the channel filter, the modulator and the decisions of the
  demodulator (C82, C83) and their timing (C84, C85, C86, C87), the filter bank (C88); rounding of floating point numbers; SoapySDR, real time, sockets,
  TLS, QUIC and the websocket library (the heartbeat and the login of the websocket transport and the framing of messages on TCP and QUIC
  streams are modelled, C78 to C80; MD5, Argon2 and Base64 are arbitrary functions; the programs at the other end are modelled up to their
  sockets, C102 to C104; the workers above are modelled
  as threads over an arbitrary transport: C74, C75 and the Brew worker), TOML syntax, logging.
* Floating point (jitter estimate): replaced by an arbitrary natural number.
* Memory layout and performance.

## Findings

Places where the code at the pinned commit does not satisfy the property as stated; each has a machine
checked witness, and the property itself is proved with the exception carved out.

| Property | Finding | Theorem |
|---|---|---|
| C01 | a multi-bit write straddling the end of a growable buffer extends it by the full width of the field instead of the missing part, leaving stray zero bits behind the cursor | `c01_straddling_write_overshoots` |
| C02 | conversion of a buffer to a bit vector ignores the start of the window | `c02_bitvec_ignores_start` |
| C07 | an inverted (empty) range makes acceptance of further ranges depend on their order | `c07_empty_range_order_dependent` |
| C08 | see the C08 theorems: band 0 / custom spacing | C08 theorems |
| C11 | colour code 0 gives the all-zero register: no scrambling at all | `c11_colour_zero_disables` |
| C13 | two bit errors in the access assignment block are corrected to a wrong codeword or passed without a report | C13 theorems |
| C17 | computing the frame check of an empty SDU aborts | `c17_empty_sdu_aborts` |
| C09/C36 | a received type 4 element with a length below six aborts the process (checked subtraction) | `c09_type4_short_length_aborts` |
| C09/C36 | a received type 3 element read generically, with a length above 64 and above what the buffer holds, aborts the process | `c09_type3_generic_overlong_aborts` |
| C31 | deaffiliating a group from a station the registry does not know registers that station | `c31_deaffiliate_registers` |
| C33 | with the largest initial latency a fresh buffer reports a target depth of 14, above its documented maximum 12, until the first frame arrives | `c33_initial_target_above_maximum` |
| C37 | the reservation form of the uplink MAC-END header is never accepted by the reader | `c37_mac_end_ul_reservation_lost`, `c37_mac_end_ul_never_reservation` |
| C37 | the computed length of a downlink MAC-END header with a slot grant is two bits short | `c37_mac_end_dl_len_wrong` |
| C37 | SYSINFO: the odd multiframe definition reads back as absent; the even one is written without its twenty bits, so that reading it back aborts | `c37_sysinfo_common_frames_lost`, `c37_sysinfo_even_aborts` |
| C37 | extended services announcing neither class 2 nor class 3 read back as class 2 with key number zero | `c37_ext_services_no_class` |
| C40 | the 511th allocation issues the reserved label 0 | `c40_label_zero_issued` |
| C40 | after wraparound a new station silently takes a label still in use | `c40_wraparound_takes_label` |
| C25 | a usage number is given to a new circuit although a circuit still uses it, after sixty allocations; likewise a call identifier after 1023 | `c25_usage_given_twice`, `c25_call_id_given_twice` |
| C25 | asking whether the uplink of a timeslot is active aborts when a downlink-only and an uplink-only circuit share it | `c25_is_active_dir_aborts` |
| C19 | an SDU sent whole in a MAC-RESOURCE that fills its slot announces a length rounded down to octets: up to the last four bits of the SDU are lost, or part of its end is taken for fill bits | `c19_last_bits_lost` |
| C20 | after a reassembly overflows, its last fragment makes the base station deliver an empty SDU under address 0 | `c20_empty_delivered` |
| C20 | nothing in the code base ages reassemblies (no caller of `age_buffers`): a last fragment arriving any time later completes a stale one | `c20_stale_resumed` |
| C26 | An acknowledgement that arrives after the latest (re)transmission of its message was discarded by the MAC aborts (`mark_acknowledged` on a discarded receipt). | `c26_discarded_then_acknowledged_aborts` |
| C26 | Giving up on a message whose last transmission was discarded aborts instead of reporting the loss. | `c26_discarded_then_given_up_aborts` |
| C26 | A request whose reporter does not expect an acknowledgement aborts when the acknowledgement arrives. | `c26_unexpected_acknowledgement_aborts` |
| C26 | A received PDU of LLC type 13 or 14 aborts (`unimplemented` arm). | `c26_type_13_aborts` |
| C27 | An acknowledgement piggybacked on a queued message is withheld while the link is blocked by an earlier message. | `c27_answer_delayed` |
| C27 | A BL-DATA repeated by the station is delivered to the MLE twice: no duplicate detection. | `c27_duplicate_delivered` |
| C27 | The FCS stays at the end of the SDU handed to the MLE. | `c27_fcs_in_sdu` |
| C21 | A capacity request with requirement code 15 (more than 68 slots) reaches `unimplemented!()` and aborts the base station | c21_over_68_aborts |
| C21 | With 15 or more grants outstanding the granting delay becomes 14, 15 or 16: 14 and 15 mean something else on the air interface (frame 18, wait), 16 aborts when encoded | c21_delay_not_expressible |
| C21 | A slot grant due to be sent in frame 18 goes out in the next frame, after the granted slot has passed | `c21_frame_18_grant_late` |
| C23 | Closing a downlink circuit while a stolen block is waiting leaves the block behind: a long message afterwards aborts the base station | `c23_stranded_block_aborts` |
| C23 | A stranded stolen block is sent in the next call on the same timeslot | `c23_stale_block_next_call` |
| C23 | A message whose header does not fit in the rest of a slot is overtaken by a later one | `c23_overtaken` |
| C23 | A second grant to the same station for the same slot replaces the first; the slots first granted stay reserved and the station never hears of them | `c23_second_grant_replaces` |
| C45 | During hang time a stolen block is sent as traffic although the slot is announced as control | `c45_hang_stolen_mismatch` |
| C47 | Two fragmented messages of a timeslot can be interleaved; the receiving station loses one although it is reported as transmitted | `c47_interleaved`, `c47_lost` |
| C28 | A network call for a group which is not routed over the network aborts the base station (assertion in call control; the backhaul entity does not check). | `c28_foreign_group_aborts` |
| C28 | After 1023 calls the number of a call which is still going on is given out again; the old call disappears from the tables, its timeslot stays occupied, and when its circuit gets too old the new call is torn down instead, leaving its timeslot occupied. | `c28_reused_number` |
| C28 | A second U-SETUP to the same group takes a second timeslot. | `c28_one_group_two_calls` |
| C28 | When all timeslots are taken a network call gets no answer at all. | `c28_network_call_unanswered` |
| C28 | When a call ends because of its age the network is not told, although it was told of its start. | `c28_expiry_not_reported` |
| C29 | U-TX CEASED from a station which is not talking frees the floor. | `c29_any_station_ceases` |
| C29 | U-RELEASE from any station, member or not, ends the call. | `c29_any_station_releases` |
| C29 | The station which set up a call cannot disconnect it after another one has talked; the other one can. | `c29_owner_moves` |
| C29 | The end of a network transmission arriving after a local station took over the floor cuts off that station, or ends the call without hang time. | `c29_network_end_stops_local_talker` |
| C36 | every MAC-U-BLCK aborts the base station in every state | `c36_u_blck_aborts` |
| C36 | MAC-ACCESS or MAC-DATA with a length of one octet, or with the code for more than 68 slots, aborts the base station in every state; the whole list is `UlPdu.Bad` | `c36_short_pdus_abort`, `c36_block_aborts`, `c36_end_hu_aborts` |
| C36 | an encrypted MAC-ACCESS is dropped after its acknowledgement has been queued; the acknowledgement cannot be encoded and the next slot aborts | `c36_secret_access_aborts_later` |
| C20/C36 | a message longer than 4096 bits empties the reassembly but leaves it in place: its end delivers an empty message from address 0 to the LLC, and a request in that end is granted to no address, which aborts the next slot | `c36_too_long_aborts_later` |
| C21/C36 | a station which has seventeen slots and asks for one more is granted it with a delay of sixteen opportunities, which aborts the next slot | `c36_far_grant_aborts_later` |
| C20 | in the running upper MAC a first part more than 400 slots old is joined to the last part of a different message of the same station, and the result handed to the LLC | `c20_never_expires` |
| C32 | a group report which detaches a group and attaches it again leaves the station attached for mobility management and the registry but not for call control; asking for the group again does not help, as mobility management sees no change | `c32_reattach_lost` |
| C52 | a group report from a station which is not registered is answered with an acceptance which confirms no group, and nothing is attached | `c52_group_report` |
| C53 | a 29 bit group report from any station, registered or not, aborts the base station: the type-4 reader asserts on an element length below 6 | `c53_mm_aborts` |
| C55 | detaching from a single group is not reported to telemetry, which goes on showing the station in the group until it deregisters | `c55_detach_unreported` |
| C38 | the energy saving information element is never read back as written, for any value | `c38_energy_saving_never` |
| C38 | the readers of D-LOCATION UPDATE COMMAND, D-LOCATION UPDATE REJECT and D-MM STATUS abort on everything of their type; MM PDU/FUNCTION NOT SUPPORTED with a sub type is written but refused by its reader | `c38_mm_unreadable`, `c38_mm_not_supported` |
| C56 | U-RELEASE ends a call whoever sends it, while U-DISCONNECT checks the owner | `EndReason.released` in `c56_reason` |
| C38 | the writer of the basic service information accepts a speech service with a number of slots; the reader gives another service | `c38_basic_service_ambiguous` |
| C38 | CMCE FUNCTION NOT SUPPORTED with a pointer other than zero makes its reader abort (`unimplemented!`) | `c38_cmce_not_supported_abort` |
| C38, C39 | a U-STATUS with the pre-coded status 31743 makes the base station abort: `PreCodedStatus::from` unwraps a refused short report | `c38_cmce_u_status_31743` |
| C39 | a status sent to a registered or unregistered number with value 31743 aborts the base station, whoever sends it | `c39_status_abort` |
| C39 | the control link cannot address a group: the command has a flag for it, but the number must be registered as a station | `c39_control_group` |
| C39 | short data from the backhaul and status messages are never delivered to groups; short data from a station of the cell is | `c39_group_only_local` |
| C39 | a status is handed to the backhaul entity even if short data over the backhaul is switched off; the worker behind it then drops it | `c39_status_feature` |
| C39 | a control command (or a backhaul message) with a source above 24 bits, more than 2047 bits, or fewer bytes than the bits announced aborts the base station | `c39_control_abort`, `c39_source_abort` |
| C57 | Any command on the control link other than SendSds aborts the base station in the next tick | `c57_command_abort` |
| C57 | A U-SETUP asking for end-to-end encryption (or for another circuit mode) is served: the group is told so in D-SETUP, but the MAC circuit is opened as unencrypted speech | `c57_encryption_finding` |
| C57 | A network call whose source number does not fit 24 bits aborts the base station when a station listens to the group | `c57_speaker_abort` |
| C61 | The end of a local station's turn is not reported to the backhaul when the network ends the session attached to the call, when a call started by the network is released, or when a circuit expires: the timeslot keeps carrying the session, and the voice of the next call there, even of a local-only group, is sent to the network under the old station and group. | c61_leak |
| C61 | A call released while a station talks leaves its network session open (no GROUP_IDLE). | c61_session_left_open |
| C61 | Open sessions survive the loss of the connection: voice is sent on the next connection without GROUP_TX. | c61_session_survives_reconnection |
| C62 | Call control does not tell the backhaul entity when a mobile's U-RELEASE or U-TX CEASED, voice inactivity or circuit expiry ends a network call: the session keeps its timeslot, and its voice is played to the mobiles of whatever call gets the timeslot next, even of a local-only group. | c62_voice_in_other_call |
| C62 | When a session falls silent and another session starts in the same group, the voice of both is sent to the same timeslot in the same frame. | c62_two_voices |
| C62 | A change of speaker within an open session (GROUP_TX with the same UUID) makes call control refuse it: the session is dropped, its further voice is discarded, the first speaker is still shown as talking, and the end of the session is not passed on. | c62_speaker_change |
| C62 | A network session which finds no free timeslot is never answered nor tried again. | c62_not_tried_again |
| C63 | A short data message of the server with fewer bytes than its bit length says, or with a source above 24 bits, for a registered station aborts the base station (exactly these). | c63_abort, c63_two_frames_abort |
| C63 | The delivery report goes to the server before the message is sent; it also goes if the station leaves in between and nothing is sent. | c63_report_early |
| C64 | A mobile which detaches a group and attaches it again in one message is taken off that group at the network, and stays off; the cell holds it attached. | c64_reattach_lost |
| C66 | Two rows of PHASE2BITS are swapped bit by bit: the adjustments by minus one and plus three eighths are sent as the other of the two, half a turn off. In the first slot of a cell both symbols are wrong. (The captured reference burst in the tests has them right; the tests mask these bits.) | c66_half_turn_off |
| C68 | Any station can bring the base station down with one burst: outside a traffic slot, a burst with two halves whose first half begins with a MAC-DATA of length 62 ("the second half is stolen too") makes the lower MAC fail its assertion that a stolen second half needs a traffic slot (lmac_bs.rs:276-279). | c68_steal_aborts, c68_sample_aborts |
| C68 | In a traffic slot, a first half which says that the second is stolen, together with a control burst found in one of the half slots, fails the assertion that the first block of a slot cannot follow that announcement (lmac_bs.rs:272-275). | c68_steal_control_aborts |
| C69 | The physical layer reports every control burst as first half of its slot, so what a station sends in a second half slot granted to it is attributed to the station granted the first half: if that one is silent, its message is completed with bits of the other, and the message of the other is never completed. | c69_second_half_as_first, c69_half_slots_mixed_up |
| C70 | What mobility management tells call control about a registration goes to the end of the message queue: a setup received right behind it is handled first, finds nobody listening to the group, and is neither served nor answered. | c70_setup_overtakes |
| C70 | Messages of mobiles for MLE itself (protocol 5) are dropped without an answer. | c70_heard |
| C71 | Every frame in unacknowledged mode (BL-UDATA), every message of packet data and every acknowledged frame without content aborts the base station, whatever its state and whoever sends it; so do the frames of C26, the broken elements of C53 and the status message of C39. | c71_fatal, c71_packet_data_aborts, c71_unacknowledged_aborts, c71_mm_aborts, c71_status_aborts |
| C71 | MLE numbers the messages it hands on with 32 bits and aborts after 2^32 - 2 of them. | c71_numbers_finding |
| C38 | the readers of D-NEW-CELL, D-PREPARE-FAIL, D-RESTORE-ACK, U-PREPARE, U-RESTORE, U-CHANNEL CLASS ADVICE and D-NWRK-BROADCAST REMOVE accept nothing at all and abort on what the writers write (`unimplemented!`) | `c38_mle_never_read`, `c38_mle_unreadable` |
| C38 | a D-NWRK-BROADCAST with neighbour cells is written but makes its reader abort; U-PREPARE and U-RESTORE without optional elements drop the message they carry | `c38_mle_neighbours`, `c38_mle_sdu_lost` |
| C74 | A `CommandA` or `TestCmdB` received from the control server aborts the base station at the next tick: the entities panic on every command but `SendSds`. | c74_command_abort |
| C74 | When the connection fails while an answer is sent, the answer is lost for good although the request was carried out; the answer of a later request arrives. The server cannot tell whether to repeat. | c74_answer_lost |
| C75 | The telemetry worker drops events while the server cannot be reached and does not resynchronize: a station registered during an outage stays unregistered for the server, even when its groups are reported later. | c75_no_resync |
| C76 | An unknown key in `[command]` is dropped without a word while every other section refuses it: a misspelt `use_tls` sends the password over an unprotected connection. | c76_command_typo |
| C76 | `neighbor_cell_broadcast` is read and kept, but has no effect on what is broadcast. | c76_neighbour_unused |
| C77 | Network, colour, system code, sharing mode, reserved frames, location area and (beside a custom spacing) the spacing number are not checked against their fields; a value which does not fit is accepted and stops the program within the first two timeslots. | c77_out_of_range |
| C77 | `stack_mode = "Ms"` is accepted by the base station and makes it send on the uplink and listen on the downlink; `"Mon"` aborts. | c77_mode_ms |
| C77 | With colour code 0, the default, the cell does not scramble, while the standard has mobiles use the predefined code 3: 111 of every 216 bits are wrong after descrambling, so no mobile reads anything but SYNC. | c77_colour_zero |
| C77 | With `custom_duplex_spacing` the station listens where a mobile with the standard table does not send; the broadcast cannot tell. | c77_custom_spacing |
| C78 | The timeout is looked at before the frames which wait are read: when the thread was busy for 30 s the connection is given up and the messages waiting are lost, although the server was alive. | c78_stall |
| C79 | The TCP and QUIC receivers drop the part of a message they have read when the rest is not there yet, and go on in the middle of it: messages are lost and messages nobody sent are handed over. | c79_invented |
| C79 | A message above 1 MiB is not skipped: only its length is taken from the stream and its content is then read as messages. | c79_large |
| C80 | A comma in the realm cuts it, so that the right password is refused. | c80_comma |
| C80 | A challenge which writes the scheme `digest` in small letters passes the test for the scheme but its first parameter is lost, so that the right password is refused. | c80_scheme_case |
| C80 | The answer is read once: when it comes in two segments the base station takes the first part of the path for the path, or gives up. | c80_split |
| C80 | A quote in the configured name is not escaped; the server reads another name. | c80_quote |
| C81 | A message which ends four bits after a byte boundary together with the block loses its last four bits at the station, although it is reported as transmitted. | c81_cut_short |
| C81 | Of two messages whose parts are on the air at once one is lost at the station although both are reported as transmitted. | c81_interleaved |
| C81 | An acknowledgement on its own with exactly 44 bits left in the block is given a length shorter than its header; the station aborts. | c81_ack_at_end_aborts |
| C81 | A station which begins to listen in the middle of a message loses the messages which follow its end in the same block. | c81_late_listener |
| C81 | The station aborts on every supplementary PDU, every U-signalling PDU and every broadcast other than SYSINFO. | c81_unknown_pdu_aborts |
| C81 | The upper MAC of a mobile station never sets a scrambling code, in any history, so that the lower MAC below it decodes nothing but synchronisation bursts. | c81_never_scrambles |
| C81 | A mobile station which has just been switched on stays deaf: whatever arrives, its lower MAC gives the upper MAC nothing but synchronisation bursts, and these are dropped. | c81_deaf |
| C84 | The hyperframe counter overflows after 283115520 slots (46 days). The demodulator then skips "forward" by that number of slots, which brings it back to the same slot, in the past: no slot is ever read again, and as the stack runs one tick per slot read the whole base station stops (demodulator.rs:107-137, 167-178; the source mentions this for the modulator only). | c84_ends |
| C85 | If the radio loses so many samples that a slot is not read (972 suffice), the stack is one slot behind from then on, for ever: every burst is taken for that of an earlier slot (another user, another channel), and every transmission is handed over a slot late. The time the demodulator reports with each slot is not looked at (phy_bs.rs:254-287). | c85_behind_for_ever |
| C86 | Once the stack is a slot behind (C85), no slot is ever sent whole again: at least the first 249 of 1020 samples of every slot are missing. Once it is two slots behind nothing is ever sent again, although the program goes on. Two losses of 972 samples, or one longer loss, suffice. | c86_behind |
| C86 | If the program is late by 13 ms once, nothing being lost, the beginning of a block which is skipped stays in the buffer and is sent as the beginning of a later block: 20 samples of the end of one slot are sent in the middle of the next (TxDsp::process_block changes block_count, ModulatorChannel keeps buffer_i). | c86_mixed |
| C87 | If exactly one sample is lost, the loss is taken for jitter of the timestamps: the block is passed on with a gap in it and all later samples are numbered one too low (also for the transmitter, which then sends one sample late). | c87_one_lost |
| C89 | A file to be replayed which is shorter than a slot (or empty) makes `read_block` seek to the start again and again: the base station stops for ever at its first slot, without an error. | c89_short_file |
| C89 | If the file for a recording cannot be created, the writing thread ends and every message is dropped without a word: nothing is recorded. (`Shutdown` is never sent, either: what is still in the channel when the program ends is lost; and `ul_input_file` is opened but never read.) | c89_not_created |
| C22 | The access assignment on timeslot 1 says that the uplink slot is open for random access by everybody even when it is granted to a station, so another station may transmit into it; the computation of the usage from the grants is used by tests only. | c22_always_open, c22_reserved_but_open |
| C90 | The header of a stolen half slot announces fill bits whenever header and message are not a whole number of octets, but zeros are written in their place (`update_len_and_fill_ind` sets the flag, nothing writes the one which begins the fill bits). A station takes the last one of the message for their beginning and loses the end of the message. Every D-TX CEASED is hit: no station can read which call it is about. | c90_stolen_cut, c90_stolen_iff, c90_tx_ceased_lost |
| C90 | The free rest of a stolen half slot is left zero instead of being closed by a null PDU. The mobile station of this code reads on, finds a MAC-RESOURCE of length zero and aborts; this happens for every D-TX CEASED, every D-TX GRANTED and every acknowledgement sent to a station in a call. | c90_stolen_aborts, c90_tx_granted |
| C91 | A frame of voice which is waiting when the floor is released is kept (`set_hangtime` leaves the queue alone) and is played first when the floor is granted again, to another talker perhaps: the last frame said before frame 18 is heard at the beginning of the next transmission. | c91_left_over |
| C91 | Nothing ever shortens the queue of voice: a frame behind j others is sent in the j+1st slot with voice. Voice which the network hands over during hang time, or while a station of the cell also speaks, delays everything said in the rest of the call. | c91_nth |
| C92 | The D-RELEASE by which a call is ended on a message of a station is sent in the slot of the clock of call control, not in that of the call: two timeslots after the one in which the station sent. The stations of a call on timeslot 2, who listen to timeslot 2, are told in timeslot 4. | c92_release_finding, c92_ended_witness |
| C92 | The D-RELEASE at the end of the hang time is sent in timeslot 1 or in the third timeslot after the one in which the talker stopped, hence never in the timeslot of a call on 2, 3 or 4. | c92_hang_release, c92_hang_release_finding, c92_quiet_witness |
| C95 | One random access burst, the same for every configuration and history of a cell with a given scrambling code, aborts the whole base station: it holds a message of a reserved LLC type under any address, which the upper MAC passes up and the LLC answers with `unimplemented!` | c95_one_burst, c95_burst_aborts |
| C96 | When the next slot of the timeslot is full, a grant is told one frame later but not changed. "Next opportunity" then names a slot that is not reserved for the station, and the slot that was reserved for it passes unused | c96_full_slot_late |
| C97 | After a message was given up, the next one carries the number of the one before it. A station which missed the message given up takes the next one for a repetition: it acknowledges and drops it, and the base station reports it as acknowledged. | c97_after_giving_up |
| C81 | A mobile station which takes a new hyperframe number from a broadcast block aborts in the next timeslot: the clock of its message router, against which the lower MAC checks its time, is not told. | c81_hyperframe_aborts |
| C100 | Only the first PDU of a block is shown: the loop goes on only if the start of the window moved, and nothing moves it | `c100_uplink_total`, `c100_downlink_one` |
| C100 | The tool shows as SDU as many bits behind the header as the whole PDU has, running into the next PDU, and nothing if that is more than 64 bits; the length it gives for the SDU counts the header | `c100_sdu_finding`, `c100_sdu_length_finding` |
| C100 | Of a PDU which fills its block, with at most 64 bits behind the header, the tool says that the next block is the same block | `c100_same_block_finding` |
| C100 | On the downlink STCH, BNCH and SCH/HU abort the tool, and so does a MAC-RESOURCE with an extended carrier number | `c100_downlink_channels_abort`, `c100_downlink_bits_abort` |
| C100 | The end of a PDU, and with it the block suggested next, is found only if behind the SDU shown there are as many bits left as the PDU has | `c100_next_block_iff` |
| C05 | A timeslot which cannot be given to anybody, such as that of the control channel, is said to be free | `c05_is_free_outside` |
| C101 | A gain written twice in different case is not refused: one of the two numbers is used, and which one changes from start to start | `c101_two_spellings` |
| C102 | A payload with a character which is not ASCII can stop the thread reading commands; afterwards nothing typed is ever sent | `c102_stray_letter` |
| C102 | A plus sign is taken for the first digit of a byte of the payload (`+f` is 15) | `c102_plus_sign` |
| C102 | A payload of 8192 bytes is sent with a length of 0 bits (the length is kept modulo 2^16) | `c102_long_payload` |
| C103 | A name which begins with `#` is accepted when credentials are made, but its line is a comment in the file | `c103_hash_name` |
| C103 | Blanks at the ends of a password are left out when its hash is made and not when it is checked, so that this password is refused | `c103_blank_password` |
| C104 | A request refused for its protocol gives its name back twice, before and after the refusal is written; a connection under the same name made in between loses its place, and a second one is let in beside it | `c104_given_back_twice` |
| C105 | A line typed into the console with a source above 24 bits or a payload of 256 bytes or more, for a registered destination, aborts the base station | `c105_abort` |
| C105 | A payload of 8193 bytes is sent as its first byte only, and the answer says that it was sent | `c105_cut_short` |
| C107 | The configuration takes a name with a colon; the console splits it there, so that the base station is taken for another one, with another password | `c107_colon` |
| C108 | The arguments `direct`, `timestamp_every` and `loopback` written in the configuration for a Pluto are replaced by built-in values without a message | `c108_replaced` |
| C87 | Samples lost before a read without a timestamp are noticed only at the next timestamp; until then blocks have a gap in them and a wrong number | `c87_unstamped_lost` |
| C109 | After the loss of a single received sample all that is sent leaves one sample later than its counter says | `c109_one_lost` |
