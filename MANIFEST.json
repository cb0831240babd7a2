{
 "claims": [
  {
   "property": "C01",
   "status": "proved",
   "theorems": [
    "DyCAPS.C01_int_codec",
    "DyCAPS.C01_int_range",
    "DyCAPS.C01_uint32_codec",
    "DyCAPS.C01_injective",
    "DyCAPS.C01_lengths"
   ],
   "note": "all ints, all byte strings"
  },
  {
   "property": "C02",
   "status": "proved",
   "theorems": [
    "DyCAPS.C02_accept_iff",
    "DyCAPS.C02_value",
    "DyCAPS.C02_round_trip",
    "DyCAPS.C02_canonical",
    "DyCAPS.C02_injective"
   ],
   "note": "kilic back end (the default build)"
  },
  {
   "property": "C03",
   "status": "proved",
   "theorems": [
    "DyCAPS.C03_stream",
    "DyCAPS.C03_prefix",
    "DyCAPS.C03_cut"
   ],
   "note": "TCP taken as a reliable ordered byte stream"
  },
  {
   "property": "C04",
   "status": "proved",
   "theorems": [
    "DyCAPS.C04_all_types",
    "DyCAPS.C04_encapsulation"
   ],
   "note": "model of the protobuf wire format; unknown fields are dropped"
  },
  {
   "property": "C05",
   "status": "proved",
   "theorems": [
    "DyCAPS.C05_fifo",
    "DyCAPS.C05_same_channel",
    "DyCAPS.C05_read",
    "DyCAPS.C05_arrived"
   ],
   "note": "every interleaving of connection goroutines, dispatcher and consumers; sync.Map LoadOrStore is atomic, the two calls are separate steps"
  },
  {
   "property": "C06",
   "status": "partial",
   "theorems": [
    "DyCAPS.C06_refuted",
    "DyCAPS.C06_blocked",
    "DyCAPS.C06_delivery_partial"
   ],
   "note": "refuted: the code does not have this property. N*N+1 unread messages of one key stop the single dispatcher goroutine for all keys. What holds: with at most N*N unread messages per key the dispatcher delivers everything"
  },
  {
   "property": "C07",
   "status": "proved",
   "theorems": [
    "DyCAPS.C07_broadcast",
    "DyCAPS.C07_broadcastExclude",
    "DyCAPS.C07_send",
    "DyCAPS.C07_send_range",
    "DyCAPS.C07_next"
   ],
   "note": "queues below their capacity of 1024 (a full queue makes the call wait)"
  },
  {
   "property": "C08",
   "status": "proved",
   "theorems": [
    "DyCAPS.C08_modulus_prime",
    "DyCAPS.C08_root_table",
    "DyCAPS.C08_asFr_injective",
    "DyCAPS.C08_inverse"
   ],
   "note": ""
  },
  {
   "property": "C09",
   "status": "proved",
   "theorems": [
    "DyCAPS.C09_evalPolyAt"
   ],
   "note": ""
  },
  {
   "property": "C10",
   "status": "proved",
   "theorems": [
    "DyCAPS.C10_interpolates",
    "DyCAPS.C10_fatal_iff_duplicate"
   ],
   "note": ""
  },
  {
   "property": "C100",
   "status": "proved",
   "theorems": [
    "DyCAPS.C100_once",
    "DyCAPS.C100_committee"
   ],
   "note": ""
  },
  {
   "property": "C101",
   "status": "proved",
   "theorems": [
    "DyCAPS.C101_refresh",
    "DyCAPS.C101_broadcast",
    "DyCAPS.C101_agreement"
   ],
   "note": "For executions in which the ShareDist goroutines do not overlap; C112 shows what happens otherwise"
  },
  {
   "property": "C102",
   "status": "proved",
   "theorems": [
    "DyCAPS.C102_bounded",
    "DyCAPS.C102_reports"
   ],
   "note": "C102_reports covers every interleaving of the ShareDist goroutines, C102_bounded those without overlap"
  },
  {
   "property": "C103",
   "status": "partial",
   "theorems": [
    "DyCAPS.C103_refuted",
    "DyCAPS.C103_empty",
    "DyCAPS.C103_first_partial"
   ],
   "note": "refuted: the code does not have this property: the receiver takes the first VSSSend message and does not look at its sender, so a member that is faster than the client replaces the client's secret by its own, or ends the process of a member by an empty message. It holds if the client's message is the first one everywhere"
  },
  {
   "property": "C104",
   "status": "proved",
   "theorems": [
    "DyCAPS.C104",
    "DyCAPS.C104_words",
    "DyCAPS.C104_arithmetic",
    "DyCAPS.C104_tests",
    "DyCAPS.C104_conversions",
    "DyCAPS.C104_polynomial",
    "DyCAPS.C104_curve",
    "DyCAPS.C104_random"
   ],
   "note": ""
  },
  {
   "property": "C105",
   "status": "partial",
   "theorems": [
    "DyCAPS.C105_refuted_sign",
    "DyCAPS.C105_refuted_error",
    "DyCAPS.C105_round_trip",
    "DyCAPS.C105_nonnegative_partial",
    "DyCAPS.C105_all_numbers"
   ],
   "note": "refuted: the code does not have this property: SetFr takes the absolute value, so \"-5\" is stored as 5, and it drops the result of SetString, so a string that is no number is accepted and gives an undefined value. It holds for strings of non-negative numbers, in particular for everything FrStr prints"
  },
  {
   "property": "C106",
   "status": "proved",
   "theorems": [
    "DyCAPS.C106",
    "DyCAPS.C106_exponent",
    "DyCAPS.C106_whole"
   ],
   "note": ""
  },
  {
   "property": "C107",
   "status": "partial",
   "theorems": [
    "DyCAPS.C107_refuted_partial",
    "DyCAPS.C107_removes",
    "DyCAPS.C107_withLen"
   ],
   "note": "refuted for DeleteZero: bytes that end with a zero themselves lose it, so padding is undone exactly if they do not. It holds for DeleteZeroWithLen"
  },
  {
   "property": "C108",
   "status": "proved",
   "theorems": [
    "DyCAPS.C108"
   ],
   "note": ""
  },
  {
   "property": "C109",
   "status": "proved",
   "theorems": [
    "DyCAPS.C109"
   ],
   "note": ""
  },
  {
   "property": "C11",
   "status": "proved",
   "theorems": [
    "DyCAPS.C11_lagrange_coefficients",
    "DyCAPS.C11_wrong_length"
   ],
   "note": ""
  },
  {
   "property": "C110",
   "status": "proved",
   "theorems": [
    "DyCAPS.C110_verified"
   ],
   "note": "For executions in which the ShareDist goroutines do not overlap; C112 shows what happens otherwise"
  },
  {
   "property": "C111",
   "status": "proved",
   "theorems": [
    "DyCAPS.C111_recovered",
    "DyCAPS.C111_otherwise",
    "DyCAPS.C111_proposed"
   ],
   "note": "The Recover handlers hold mutexSRec while they change the stored points (lines 404-441), so their turns are atomic in the code, too"
  },
  {
   "property": "C112",
   "status": "partial",
   "theorems": [
    "DyCAPS.C112_refuted_lost",
    "DyCAPS.C112_refuted_panic",
    "DyCAPS.C112_refuted_twice",
    "DyCAPS.C112_refuted_each",
    "DyCAPS.C112_waits",
    "DyCAPS.C112_refuted_wrong",
    "DyCAPS.C112_safe_partial",
    "DyCAPS.C112_reader_partial",
    "DyCAPS.C112_uninterrupted_partial",
    "DyCAPS.C112_one_step"
   ],
   "note": "refuted: the code does not have this property: no mutex protects SB and SuccessSent. Verified shares can be lost, the process can panic, success can be reported by every goroutine, all but two of which then wait for ever, and a wrong share can be kept. Proved: what holds in every interleaving, for a goroutine not interrupted from its test on, and for goroutines that do not overlap. For every growth of capacities; a slice header and an element are read and written as a whole"
  },
  {
   "property": "C113",
   "status": "partial",
   "theorems": [
    "DyCAPS.C113_refuted",
    "DyCAPS.C113_senders_partial",
    "DyCAPS.C113_committee_partial"
   ],
   "note": "refuted: the code does not have this property: Success messages are counted without looking at the sender, so copies of one message of one corrupt party are enough. Proved: the member's own report, the number of messages, the F+1 honest senders if no sender is counted twice, and 2F+1 holders of shares in a committee without corrupt members"
  },
  {
   "property": "C114",
   "status": "proved",
   "theorems": [
    "DyCAPS.C114_agreed",
    "DyCAPS.C114_epoch",
    "DyCAPS.C114_one_round",
    "DyCAPS.C114_handoff"
   ],
   "note": "The conditions in the statement are needed: without them C24, C33 and C84 are refuted. Safety of the whole chain from the client to the refreshed shares, and completion of the hand-off. Messages of corrupt senders carry points that are combinations of the setup elements"
  },
  {
   "property": "C115",
   "status": "partial",
   "theorems": [
    "DyCAPS.C115_refuted",
    "DyCAPS.C115_any_stop",
    "DyCAPS.C115_refuted_every_size",
    "DyCAPS.C115_others_return_partial"
   ],
   "note": "refuted: the code does not have this property: a party that receives Halt returns without passing it on, so a party that stops while it sends Halt can leave the others with too few parties to go on (in committees of every size). It holds if everything the stopped parties have sent arrives and the votes of no round are split (C83)"
  },
  {
   "property": "C116",
   "status": "partial",
   "theorems": [
    "DyCAPS.C116_refuted",
    "DyCAPS.C116_refuted_all",
    "DyCAPS.C116_refuted_committee",
    "DyCAPS.C116_refuted_client",
    "DyCAPS.C116_refuted_happens",
    "DyCAPS.C116_nobody_stops_partial"
   ],
   "note": "refuted: the code does not have this property: the end of an incoming stream calls log.Fatalln, so every process that an ended one had connected to ends as well, and so on along the connections; the end of the client ends both committees. The only survivors are processes that no longer read because their receive queue is full. Proved: without any process stopping, connections end nobody unless somebody connects too early (C117). The theorems on parties that stop (C39, C83, C115) are about parties whose connections stay open"
  },
  {
   "property": "C117",
   "status": "partial",
   "theorems": [
    "DyCAPS.C117_refuted",
    "DyCAPS.C117_in_time_partial",
    "DyCAPS.C117_roles_partial"
   ],
   "note": "refuted: the code does not have this property: the loop around the connection attempt calls log.Fatalln instead of trying again. Proved: if everybody a process connects to is started before its waiting time is over and no process stops, all get connected"
  },
  {
   "property": "C118",
   "status": "partial",
   "theorems": [
    "DyCAPS.C118_refuted",
    "DyCAPS.C118_agree_partial",
    "DyCAPS.C118_power_partial",
    "DyCAPS.C118_bytes_partial",
    "DyCAPS.C118_polynomial_partial",
    "DyCAPS.C118_print_partial"
   ],
   "note": "refuted: the code does not have this property. EvalPolyAt of the empty list and a negative power of zero panic, and AsFr of 2^63 or more is another scalar. The _partial theorems: every computation whose integers are below 2^63 agrees, powers agree for all other exponents, bytes agree, polynomials with a coefficient agree, printed text agrees."
  },
  {
   "property": "C119",
   "status": "partial",
   "theorems": [
    "DyCAPS.C119_refuted",
    "DyCAPS.C119_separate_partial",
    "DyCAPS.C119_one_partial",
    "DyCAPS.C119_refuses_partial"
   ],
   "note": "refuted: the code does not have this property: out[i] is written before the values for out[i+1] are read, so with out = vals every length of two or more has values that are not transformed. It holds for slices that do not overlap and for one value."
  },
  {
   "property": "C12",
   "status": "proved",
   "theorems": [
    "DyCAPS.C12_commitments",
    "DyCAPS.C12_witnesses",
    "DyCAPS.C12_commitments_known"
   ],
   "note": "honest tables; indices 1..2F+1 below the modulus"
  },
  {
   "property": "C120",
   "status": "partial",
   "theorems": [
    "DyCAPS.C120_refuted",
    "DyCAPS.C120_few_partial"
   ],
   "note": "refuted: the code does not have this property: it logs all N shares of both polynomials, and 2F+1 of them determine the keys. It holds for N at most 2F. The heading calls the shares coefficients"
  },
  {
   "property": "C121",
   "status": "partial",
   "theorems": [
    "DyCAPS.C121_torn",
    "DyCAPS.C121_refuted",
    "DyCAPS.C121_prefix_partial",
    "DyCAPS.C121_quiet_partial"
   ],
   "note": "refuted: the code does not have this property: the Refresh loop reads Q[j] anew for every coefficient without mutexSRec, so a handler that recovers the contribution in between leaves the first coefficients out (C121_torn, for every size and every place; C121_refuted is a concrete case). Proved: in every interleaving each contribution enters from some coefficient on, and as a whole if no handler runs in the middle of an iteration"
  },
  {
   "property": "C122",
   "status": "proved",
   "theorems": [
    "DyCAPS.C122_in_order",
    "DyCAPS.C122_comes_to_rest",
    "DyCAPS.C122_all_there",
    "DyCAPS.C122_all_plain",
    "DyCAPS.C122_delivers"
   ],
   "note": "From the send channel of one process to the callers of GetMessage in another, with connections made. The conditions are needed: C51 (a peer ends the process), C06 (a full queue stops the dispatcher)"
  },
  {
   "property": "C123",
   "status": "proved",
   "theorems": [
    "DyCAPS.C123_renews",
    "DyCAPS.C123_agreed",
    "DyCAPS.C123_renewal",
    "DyCAPS.C123_one_round",
    "DyCAPS.C123_handoff"
   ],
   "note": "The conditions in the statement are needed: without them C24, C33 and C84 are refuted. One renewal; a second one of the same shares fails (C31)"
  },
  {
   "property": "C124",
   "status": "partial",
   "theorems": [
    "DyCAPS.C124_refuted",
    "DyCAPS.C124_refuted_waits",
    "DyCAPS.C124_all_read_partial",
    "DyCAPS.C124_few_partial",
    "DyCAPS.C124_rest_partial"
   ],
   "note": "refuted: the code does not have this property: Broadcast sends to the channels one after the other, so once 1024 messages wait for a peer that does not read and the TCP buffers are full, every call waits for it and the other members get nothing any more. It holds when all members read, and as long as at most 1024 messages have been meant for the one that does not"
  },
  {
   "property": "C125",
   "status": "proved",
   "theorems": [
    "DyCAPS.C125_never_full",
    "DyCAPS.C125_member",
    "DyCAPS.C125_bounded_senders"
   ],
   "note": "The dispatcher of Model/Dispatch with what the members of the refresh, broadcast and agreement machines send. C125_bounded_senders needs only that nobody sends more than N messages for one queue; more than that can stop the dispatcher (C06)"
  },
  {
   "property": "C126",
   "status": "partial",
   "theorems": [
    "DyCAPS.C126_refuted",
    "DyCAPS.C126_refuted_all",
    "DyCAPS.C126_code_partial",
    "DyCAPS.C126_contract_partial",
    "DyCAPS.C126_broadcast_partial",
    "DyCAPS.C126_matrix"
   ],
   "note": "refuted: the code does not have this property. The error of reedsolomon.New is ignored; with more than 256 members (or N <= F+1, e.g. a single member) there is no encoder and the first proposal ends every member that takes it. The parts hold for 2 to 256 members, with nothing assumed of the erasure code; C126_matrix relates the model to the matrices of the library, which is not part of the repository"
  },
  {
   "property": "C127",
   "status": "proved",
   "theorems": [
    "DyCAPS.C127_chain_hides",
    "DyCAPS.C127_views_exist"
   ],
   "note": "About the values of the shares, whoever computes them. In the code one refresh can follow a dealing (C57, C123); a further hand-off of refreshed shares fails for lack of commitments (C31)"
  },
  {
   "property": "C128",
   "status": "partial",
   "theorems": [
    "DyCAPS.C128_tapped_sharing",
    "DyCAPS.C128_tapped_handoff",
    "DyCAPS.C128_tapped_refresh",
    "DyCAPS.C128_few_partial"
   ],
   "note": "refuted: the code does not have this property: the connections carry the protobuf messages unencrypted. The three refutations give the computation of the observer explicitly and hold for every secret and every honest execution. The part is about the share values on at most F connections of the client; the commitments, the same on all connections, are not part of it"
  },
  {
   "property": "C129",
   "status": "partial",
   "theorems": [
    "DyCAPS.C129_refuted",
    "DyCAPS.C129_witnesses_stay",
    "DyCAPS.C129_in_place_partial"
   ],
   "note": "refuted: the code does not have this property: no code clears fullShare after ShareReduceSend, and the process of an old member stays (main.go:77). C129_refuted is about every execution of the old processes in which the message of the client is the first they read. A member that renews in place keeps the commitments and witnesses of the former share, which determine it (C129_witnesses_stay). The part is non-interference: the shares themselves are overwritten"
  },
  {
   "property": "C13",
   "status": "proved",
   "theorems": [
    "DyCAPS.C13_polyLongDiv",
    "DyCAPS.C13_zero_lead",
    "DyCAPS.C13_panics"
   ],
   "note": ""
  },
  {
   "property": "C130",
   "status": "proved",
   "theorems": [
    "DyCAPS.C130",
    "DyCAPS.C130_hand_over",
    "DyCAPS.C130_proof",
    "DyCAPS.C130_refresh"
   ],
   "note": ""
  },
  {
   "property": "C131",
   "status": "proved",
   "theorems": [
    "DyCAPS.C131",
    "DyCAPS.C131_polynomial",
    "DyCAPS.C131_power"
   ],
   "note": "math/big and holiman/uint256 are modelled by the numbers they compute"
  },
  {
   "property": "C132",
   "status": "partial",
   "theorems": [
    "DyCAPS.C132_agree_partial",
    "DyCAPS.C132_refuted_octal",
    "DyCAPS.C132_refuted_range",
    "DyCAPS.C132_refuted_sign",
    "DyCAPS.C132_round_trip_partial"
   ],
   "note": "refuted: the code does not have this property: the integer back ends call UnmarshalText, which takes the base from the text, so a leading zero means octal; they do not reduce; and a minus sign is read in three ways. It holds for the text that FrStr prints of a reduced scalar. Text with underscores is not modelled"
  },
  {
   "property": "C133",
   "status": "partial",
   "theorems": [
    "DyCAPS.C133_refuted",
    "DyCAPS.C133_true_shards_partial"
   ],
   "note": "refuted: the code does not have this property: in committees of every size one corrupt party chooses the set of honest parties at which an honest broadcast fails, by reporting a wrong shard to them first; the others return the message. It holds when no wrong shard is reported, no Echo is repeated and all proposals taken carry the same bytes"
  },
  {
   "property": "C134",
   "status": "proved",
   "theorems": [
    "DyCAPS.C134_text_determines",
    "DyCAPS.C134_same_polynomial"
   ],
   "note": ""
  },
  {
   "property": "C135",
   "status": "proved",
   "theorems": [
    "DyCAPS.C135_stored",
    "DyCAPS.C135_short",
    "DyCAPS.C135_from_message"
   ],
   "note": ""
  },
  {
   "property": "C136",
   "status": "partial",
   "theorems": [
    "DyCAPS.C136_refuted",
    "DyCAPS.C136_no_limit",
    "DyCAPS.C136_kept",
    "DyCAPS.C136_stays",
    "DyCAPS.C136_partial"
   ],
   "note": "refuted: the code does not have this property: the dispatcher makes a queue for every type and id that a peer cares to name, so one peer can have any number of messages kept that nobody has asked for (K*N*N for every K up to 2^32), and they stay. The limits of the single channels and queues hold"
  },
  {
   "property": "C14",
   "status": "proved",
   "theorems": [
    "DyCAPS.C14_completeness",
    "DyCAPS.C14_unoptimized",
    "DyCAPS.C14_F0_panics"
   ],
   "note": "F = 0 panics, proved separately"
  },
  {
   "property": "C15",
   "status": "proved",
   "theorems": [
    "DyCAPS.C15_binding_algebraic",
    "DyCAPS.C15_few_bad_secrets",
    "DyCAPS.C15_two_openings_break_sdh"
   ],
   "note": "algebraic prover: a false opening yields an explicit nonzero polynomial with the setup secret as a root"
  },
  {
   "property": "C16",
   "status": "partial",
   "theorems": [
    "DyCAPS.C16_setup_forgeable",
    "DyCAPS.C16_every_party_point",
    "DyCAPS.C15_few_bad_secrets"
   ],
   "note": "refuted: the code does not have this property: the deployed setup secret is a constant, so openings can be forged; the theorems prove this. C15_few_bad_secrets is what holds for a secret chosen after the prover"
  },
  {
   "property": "C17",
   "status": "proved",
   "theorems": [
    "DyCAPS.C17_commit_linear",
    "DyCAPS.C17_openings_linear"
   ],
   "note": ""
  },
  {
   "property": "C18",
   "status": "proved",
   "theorems": [
    "DyCAPS.C18_honest_sharing"
   ],
   "note": "F up to 2^20"
  },
  {
   "property": "C19",
   "status": "proved",
   "theorems": [
    "DyCAPS.C19_accepted_openings",
    "DyCAPS.C19_one_polynomial"
   ],
   "note": "second theorem for algebraic dealers: one polynomial, or an explicit nonzero polynomial with the setup secret as a root"
  },
  {
   "property": "C20",
   "status": "partial",
   "theorems": [
    "DyCAPS.C20_any_gs_accepted",
    "DyCAPS.C20_gs_bound_partial"
   ],
   "note": "refuted: the code does not have this property: the Gs test is only logged; C20_any_gs_accepted proves it, the partial theorem shows what the test would give"
  },
  {
   "property": "C21",
   "status": "proved",
   "theorems": [
    "DyCAPS.C21_secrecy"
   ],
   "note": "about the share values; the published commitments hide only computationally and are not part of the view"
  },
  {
   "property": "C22",
   "status": "partial",
   "theorems": [
    "DyCAPS.C22_panics_iff_malformed",
    "DyCAPS.C22_empty_payload_panics",
    "DyCAPS.C22_wellformed_partial"
   ],
   "note": "refuted: the code does not have this property; exact characterisation of the panicking messages"
  },
  {
   "property": "C23",
   "status": "proved",
   "theorems": [
    "DyCAPS.C23_adopts_honest",
    "DyCAPS.C23_prepare"
   ],
   "note": ""
  },
  {
   "property": "C24",
   "status": "partial",
   "theorems": [
    "DyCAPS.C24_sharereduce_replay_fatal",
    "DyCAPS.C24_prepare_single_sender",
    "DyCAPS.C24_prepare_arbitrary",
    "DyCAPS.C24_one_message_each_partial"
   ],
   "note": "refuted: the code does not have this property; the last theorem is the part that holds when each sender is heard once"
  },
  {
   "property": "C25",
   "status": "proved",
   "theorems": [
    "DyCAPS.C25_send",
    "DyCAPS.C25_verifies",
    "DyCAPS.C25_receive",
    "DyCAPS.C25_terminates",
    "DyCAPS.C25_end_to_end"
   ],
   "note": ""
  },
  {
   "property": "C26",
   "status": "proved",
   "theorems": [
    "DyCAPS.C26_zero_sharing",
    "DyCAPS.C26_honest_accepted",
    "DyCAPS.C26_nonzero_rejected"
   ],
   "note": ""
  },
  {
   "property": "C27",
   "status": "partial",
   "theorems": [
    "DyCAPS.C27_bad_pair_voted",
    "DyCAPS.C27_last_pair_partial",
    "DyCAPS.C27_honest_voted"
   ],
   "note": "refuted: the code does not have this property (the verified flag is overwritten in each iteration); the second theorem is the part that holds"
  },
  {
   "property": "C28",
   "status": "proved",
   "theorems": [
    "DyCAPS.C28_recovers",
    "DyCAPS.C28_handles"
   ],
   "note": ""
  },
  {
   "property": "C29",
   "status": "proved",
   "theorems": [
    "DyCAPS.C29_new_share",
    "DyCAPS.C29_reconstruct",
    "DyCAPS.C29_dist_completes",
    "DyCAPS.C29_honest_run",
    "DyCAPS.C29_honest_reveals_nothing"
   ],
   "note": ""
  },
  {
   "property": "C30",
   "status": "partial",
   "theorems": [
    "DyCAPS.C30_unrecovered_used",
    "DyCAPS.C30_reduced_share_partial"
   ],
   "note": "refuted: the code does not have this property; the second theorem is the part that holds when the recoveries are complete in time"
  },
  {
   "property": "C31",
   "status": "partial",
   "theorems": [
    "DyCAPS.C31_rehandoff_stalls",
    "DyCAPS.C31_own_shares_stall",
    "DyCAPS.C25_send",
    "DyCAPS.C25_end_to_end"
   ],
   "note": "refuted: the code does not have this property, neither for members that joined by a hand-off nor for members that renewed shares they got from the client; the C25 theorems cover the first hand-off"
  },
  {
   "property": "C32",
   "status": "proved",
   "theorems": [
    "DyCAPS.C32_agreement",
    "DyCAPS.C32_same_message"
   ],
   "note": "every interleaving of the four goroutines of every honest party; sender names of honest parties are authentic (assumed, the code does not check them); Reed-Solomon and SHA-256 through the contract REnv.Ok"
  },
  {
   "property": "C33",
   "status": "partial",
   "theorems": [
    "DyCAPS.C33_refuted",
    "DyCAPS.C32_agreement"
   ],
   "note": "refuted: the code does not have this property: Echoes are counted without looking at the sender. C32_agreement is the part that holds when no Echo is repeated"
  },
  {
   "property": "C34",
   "status": "partial",
   "theorems": [
    "DyCAPS.C34_refuted_forged_proposal",
    "DyCAPS.C34_refuted_wrong_shard",
    "DyCAPS.C34_validity_partial",
    "DyCAPS.C34_totality_partial",
    "DyCAPS.C34_termination_partial"
   ],
   "note": "refuted: the code does not have this property, for two independent reasons. What holds: validity, and termination with the broadcast message in every fair infinite execution, when proposals come from the broadcaster, no Echo is repeated and (for termination) no wrong shard is reported"
  },
  {
   "property": "C35",
   "status": "proved",
   "theorems": [
    "DyCAPS.C35_honest_share",
    "DyCAPS.C35_combine",
    "DyCAPS.C35_recover_sound",
    "DyCAPS.C35_unique",
    "DyCAPS.C35_repeated_index"
   ],
   "note": "kyber's Sign/VerifyPartial/Recover are transcribed from the library; hashing to the curve is an arbitrary function, the pairing non-degenerate; party indices below 65536. C35_repeated_index shows that distinctness is needed"
  },
  {
   "property": "C36",
   "status": "partial",
   "theorems": [
    "DyCAPS.C36_never_valid",
    "DyCAPS.C36_refuted",
    "DyCAPS.C36_degenerate_key_partial"
   ],
   "note": "refuted: the code does not have this property. Recover is called with threshold 2F on a key of degree 2F, so every certificate in every run is invalid unless the leading coefficient of the key is zero; the partial theorem is the exact condition"
  },
  {
   "property": "C37",
   "status": "proved",
   "theorems": [
    "DyCAPS.C37_certificates_unique",
    "DyCAPS.C37_stages_agree",
    "DyCAPS.kyber_schemeOk"
   ],
   "note": "any network, any message order, corrupt parties that do not forge honest shares; a certificate is any byte string that the verification accepts"
  },
  {
   "property": "C38",
   "status": "partial",
   "theorems": [
    "DyCAPS.C38_refuted",
    "DyCAPS.C38_any_split",
    "DyCAPS.C38_refuted_every_size",
    "DyCAPS.C38_same_leader_partial",
    "DyCAPS.C38_distinct_coins_partial"
   ],
   "note": "refuted: the code does not have this property: coin shares are counted without looking at who signed them, so parties can have different leaders; one corrupt party makes any part of the others decide one string and the rest another, in a committee of any size. It holds for parties with the same leader, and whenever the counted coin shares are of different parties"
  },
  {
   "property": "C39",
   "status": "partial",
   "theorems": [
    "DyCAPS.C39_refuted",
    "DyCAPS.C39_any_party",
    "DyCAPS.C39_refuted_every_size",
    "DyCAPS.C39_crash_partial"
   ],
   "note": "refuted: the code does not have this property even when all parties elect the same leader: the value adopted from a lost round is not checked when the next one is broadcast. It holds across all rounds if parties only stop and messages are not repeated"
  },
  {
   "property": "C40",
   "status": "partial",
   "theorems": [
    "DyCAPS.C40_refuted",
    "DyCAPS.C40_released_iff_partial"
   ],
   "note": "refuted: the code does not have this property. The second theorem is the exact condition on the order of the votes"
  },
  {
   "property": "C41",
   "status": "partial",
   "theorems": [
    "DyCAPS.C41_refuted",
    "DyCAPS.C41_only_deadly_partial"
   ],
   "note": "refuted: the code does not have this property. The second theorem says exactly which messages end the process"
  },
  {
   "property": "C42",
   "status": "proved",
   "theorems": [
    "DyCAPS.C42_fft",
    "DyCAPS.C42_inverse",
    "DyCAPS.C42_inplace",
    "DyCAPS.C42_settings"
   ],
   "note": "for power-of-two lengths both compositions are the identity; the in-place variant panics on an empty list and returns an error for other lengths"
  },
  {
   "property": "C43",
   "status": "proved",
   "theorems": [
    "DyCAPS.C43_fftG1",
    "DyCAPS.C43_multiples",
    "DyCAPS.C43_lengths"
   ],
   "note": "lengths 2^k up to MaxWidth; other lengths are described by C43_lengths"
  },
  {
   "property": "C44",
   "status": "proved",
   "theorems": [
    "DyCAPS.C44_reverseBitsLimited",
    "DyCAPS.C44_reverseBitOrder"
   ],
   "note": ""
  },
  {
   "property": "C45",
   "status": "partial",
   "theorems": [
    "DyCAPS.C45_extension_partial",
    "DyCAPS.C45_extension_wrong",
    "DyCAPS.C45_extension_small"
   ],
   "note": "refuted: the code does not have this property: with settings for more than 2n values it uses the wrong root, and one sample panics. It holds with settings for exactly 2n values, n >= 2"
  },
  {
   "property": "C46",
   "status": "proved",
   "theorems": [
    "DyCAPS.C46_zero_poly",
    "DyCAPS.C46_accepts",
    "DyCAPS.C46_rejects"
   ],
   "note": "missing indices below the length; up to half of the domain is always accepted"
  },
  {
   "property": "C47",
   "status": "partial",
   "theorems": [
    "DyCAPS.C47_recovery_partial",
    "DyCAPS.C47_recovery_any",
    "DyCAPS.C47_all_present_panics"
   ],
   "note": "refuted: the code does not have this property: it panics when no sample is missing. It holds whenever at least one is missing"
  },
  {
   "property": "C48",
   "status": "partial",
   "theorems": [
    "DyCAPS.C48_off_domain_partial",
    "DyCAPS.C48_domain",
    "DyCAPS.C48_wrong_on_domain"
   ],
   "note": "refuted: the code does not have this property: at points of the domain the result is 0. It holds for every other point"
  },
  {
   "property": "C49",
   "status": "partial",
   "theorems": [
    "DyCAPS.C49_partial",
    "DyCAPS.C49_exact",
    "DyCAPS.C49_rejected",
    "DyCAPS.C49_short_panics"
   ],
   "note": "refuted: the code does not have this property: ComputeProofMulti starts the power x^n at 0 and so divides by X^n. C49_exact is the exact condition for acceptance; it holds for n to 2n coefficients, X^(2n) is rejected, fewer than n coefficients panic"
  },
  {
   "property": "C50",
   "status": "partial",
   "theorems": [
    "DyCAPS.C50_single_partial",
    "DyCAPS.C50_da_optimized_partial",
    "DyCAPS.C50_da_partial",
    "DyCAPS.C50_one_panics",
    "DyCAPS.C50_length_panics"
   ],
   "note": "holds for every polynomial with n >= 2 coefficients (n a power of two, settings of size 2n); refuted for n = 1, where all three functions panic"
  },
  {
   "property": "C51",
   "status": "partial",
   "theorems": [
    "DyCAPS.C51_peer_can_stop_receiver",
    "DyCAPS.C51_ends_process",
    "DyCAPS.C51_plain_partial",
    "DyCAPS.C51_in_order_partial",
    "DyCAPS.C51_which_bytes_partial",
    "DyCAPS.C51_only_garbage_partial"
   ],
   "note": "refuted: the code does not have this property: in every state of a reader the end of the stream ends the process, and after any execution five bytes on a new connection end it, so that nobody reads anything any more. It goes on while all peers keep their connections and write only frames below 4 GB. Of byte streams on an open connection, exactly those end the reader that have a complete frame that does not decode after complete frames that do. While no connection is closed and each peer either runs the code or writes only bytes of its own, such a stream is the only way to end the process, and the bytes are read in the order written; a peer that does both on one connection is not covered"
  },
  {
   "property": "C52",
   "status": "partial",
   "theorems": [
    "DyCAPS.C52_published_not_secret",
    "DyCAPS.C52_honest_partial"
   ],
   "note": "refuted: the code does not have this property; the theorem builds the accepted message. It holds for a client that follows the protocol"
  },
  {
   "property": "C53",
   "status": "partial",
   "theorems": [
    "DyCAPS.C53_equivocation",
    "DyCAPS.C19_one_polynomial"
   ],
   "note": "refuted: the code does not have this property; the theorem shows two groups reconstructing different secrets"
  },
  {
   "property": "C54",
   "status": "partial",
   "theorems": [
    "DyCAPS.C54_spoofed_senders",
    "DyCAPS.C25_receive"
   ],
   "note": "refuted: the code does not have this property; C25_receive holds for at most F forged ids"
  },
  {
   "property": "C55",
   "status": "partial",
   "theorems": [
    "DyCAPS.C55_index_zero_blocks",
    "DyCAPS.C28_handles"
   ],
   "note": "refuted: the code does not have this property; C28_handles is the progress that holds for messages with a usable index"
  },
  {
   "property": "C56",
   "status": "partial",
   "theorems": [
    "DyCAPS.C56_recover_replay_fatal",
    "DyCAPS.C28_handles"
   ],
   "note": "refuted: the code does not have this property; C28_handles covers messages of senders not yet recorded"
  },
  {
   "property": "C57",
   "status": "proved",
   "theorems": [
    "DyCAPS.C57_epoch"
   ],
   "note": ""
  },
  {
   "property": "C58",
   "status": "partial",
   "theorems": [
    "DyCAPS.C58_refuted",
    "DyCAPS.C58_nil_partial"
   ],
   "note": "refuted: the code does not have this property. NewHonestParty allocates both slices, so the nil check never fires and the send waits forever on a nil channel. What holds: the error when the slices themselves are nil"
  },
  {
   "property": "C59",
   "status": "proved",
   "theorems": [
    "DyCAPS.C59_joint_secrecy",
    "DyCAPS.C59_tight"
   ],
   "note": "about the share values, as C21; the view is stated through the dealt bivariate polynomial, which C18 and C25 show to be what the parties hold"
  },
  {
   "property": "C60",
   "status": "partial",
   "theorems": [
    "DyCAPS.C60_refuted",
    "DyCAPS.C60_receipt_partial"
   ],
   "note": "refuted: the code does not have this property. The second theorem: only an empty proposal crashes on receipt"
  },
  {
   "property": "C61",
   "status": "proved",
   "theorems": [
    "DyCAPS.C61_domain_separation",
    "DyCAPS.C61_votes_apart"
   ],
   "note": "rounds and party numbers below 2^32, hashes of 64 bytes"
  },
  {
   "property": "C62",
   "status": "partial",
   "theorems": [
    "DyCAPS.C62_refuted",
    "DyCAPS.C62_any_sender",
    "DyCAPS.C62_certificate_partial"
   ],
   "note": "refuted: the code does not have this property: Echo shares are counted without looking at who signed them. It holds if the counted shares are of different parties"
  },
  {
   "property": "C63",
   "status": "partial",
   "theorems": [
    "DyCAPS.C63_refuted",
    "DyCAPS.C63_refuted_every_size",
    "DyCAPS.C63_leader_partial"
   ],
   "note": "refuted: the code does not have this property; it holds for parties that counted coin shares of different parties"
  },
  {
   "property": "C64",
   "status": "partial",
   "theorems": [
    "DyCAPS.C64_refuted",
    "DyCAPS.C64_any_value",
    "DyCAPS.C64_own_value_partial"
   ],
   "note": "refuted: the code does not have this property: receivers do not compare the sender of a Value with the owner of the instance. It holds if no party is corrupt"
  },
  {
   "property": "C65",
   "status": "partial",
   "theorems": [
    "DyCAPS.C65_refuted",
    "DyCAPS.C65_refuted_every_size",
    "DyCAPS.C65_first_stage_partial",
    "DyCAPS.C65_crash_partial"
   ],
   "note": "refuted: the code does not have this property: votes are counted without looking at who sent them. A first-stage quorum always exists, a second-stage quorum unless the decision came from votes, and always if no party is corrupt"
  },
  {
   "property": "C66",
   "status": "partial",
   "theorems": [
    "DyCAPS.C66_guard_never_fires",
    "DyCAPS.C66_three",
    "DyCAPS.C66_other_lengths_partial"
   ],
   "note": "refuted: the code does not have this property: the guard accepts every positive length (its condition uses or where and is needed)"
  },
  {
   "property": "C67",
   "status": "partial",
   "theorems": [
    "DyCAPS.C67_never_detects",
    "DyCAPS.C67_corruption_accepted",
    "DyCAPS.C47_recovery_any"
   ],
   "note": "refuted: the code does not have this property: the final comparison can never fail, so corrupted samples are accepted. Data of a polynomial with at most as many coefficients as present samples is recovered"
  },
  {
   "property": "C68",
   "status": "proved",
   "theorems": [
    "DyCAPS.C68_binding",
    "DyCAPS.C68_few_bad_secrets",
    "DyCAPS.C68_zero_point"
   ],
   "note": "algebraic prover, as C15; cosets of a non-zero x, power-of-two many values. For x = 0, which belongs to no coset, the verifier looks only at the mean of the values (C68_zero_point)"
  },
  {
   "property": "C69",
   "status": "partial",
   "theorems": [
    "DyCAPS.C69_multi_da_optimized_partial",
    "DyCAPS.C69_multi_da_partial",
    "DyCAPS.C69_multi_one_partial",
    "DyCAPS.C69_multi_panics",
    "DyCAPS.C69_one_chunk_panics"
   ],
   "note": "refuted: the code does not have this property: FK20Multi panics whenever a chunk has more than one coefficient, and all functions panic for a single chunk. The data-availability functions are correct for two or more chunks, and FK20Multi is correct for chunks of one coefficient (C69_multi_one_partial)"
  },
  {
   "property": "C70",
   "status": "partial",
   "theorems": [
    "DyCAPS.C70_refuted_panic",
    "DyCAPS.C70_refuted_wrong",
    "DyCAPS.C70_exact_partial",
    "DyCAPS.C70_high_partial",
    "DyCAPS.C70_from32_partial"
   ],
   "note": "refuted: the code does not have this property: FrTo32 panics for all scalars below 2^120 and permutes the bytes of most scalars of 16 to 30 bytes. C70_exact_partial is the exact condition; scalars of 31 and 32 bytes and FrFrom32 are correct"
  },
  {
   "property": "C71",
   "status": "proved",
   "theorems": [
    "DyCAPS.C71_pure",
    "DyCAPS.C71_pure_division",
    "DyCAPS.C71_hol256",
    "DyCAPS.C71_hol256_division",
    "DyCAPS.C71_hol256_unreduced"
   ],
   "note": "math/big and uint256 operations are taken as exact integer operations"
  },
  {
   "property": "C72",
   "status": "partial",
   "theorems": [
    "DyCAPS.C72_refuted_asFr",
    "DyCAPS.C72_refuted_inverse_of_zero",
    "DyCAPS.C72_refuted_setFr",
    "DyCAPS.C72_inverse_partial",
    "DyCAPS.C72_asFr_partial"
   ],
   "note": "refuted: the code does not have this property: bignum_hbls converts through int64, bignum_pure leaves the destination of a failed inversion unchanged and does not reduce in SetFr. SetFr of bignum_hol256: see C132"
  },
  {
   "property": "C73",
   "status": "proved",
   "theorems": [
    "DyCAPS.C73_key_files",
    "DyCAPS.C73_stops",
    "DyCAPS.C73_smaller_f"
   ],
   "note": "a gob file is taken to decode to what was encoded; scalars are 32 bytes big-endian"
  },
  {
   "property": "C74",
   "status": "partial",
   "theorems": [
    "DyCAPS.C74_refuted",
    "DyCAPS.C74_shares_hide_partial"
   ],
   "note": "refuted: the code does not have this property: every process reads the coefficients of both key polynomials at start and can sign alone for both committees. The shares themselves hide the key from any 2f parties"
  },
  {
   "property": "C75",
   "status": "proved",
   "theorems": [
    "DyCAPS.C75_roundtrip",
    "DyCAPS.C75_error_keeps",
    "DyCAPS.C75_accepts"
   ],
   "note": "for any point encoding whose decoder inverts it"
  },
  {
   "property": "C76",
   "status": "proved",
   "theorems": [
    "DyCAPS.C76_scale"
   ],
   "note": ""
  },
  {
   "property": "C77",
   "status": "proved",
   "theorems": [
    "DyCAPS.C77_samples",
    "DyCAPS.C77_rejects"
   ],
   "note": ""
  },
  {
   "property": "C78",
   "status": "proved",
   "theorems": [
    "DyCAPS.C78_commit_evals",
    "DyCAPS.C78_length"
   ],
   "note": ""
  },
  {
   "property": "C79",
   "status": "partial",
   "theorems": [
    "DyCAPS.C79_refuted",
    "DyCAPS.C79_first_lines",
    "DyCAPS.C79_too_few_partial"
   ],
   "note": "refuted: the code does not have this property: a file with one address too few that ends in a newline is accepted, the last address being empty. In all other cases the first n lines are used or the node stops"
  },
  {
   "property": "C80",
   "status": "partial",
   "theorems": [
    "DyCAPS.C80_refuted",
    "DyCAPS.C80_few_missing_panics",
    "DyCAPS.C80_recovers_partial"
   ],
   "note": "refuted: the code does not have this property: with at most four missing samples out of at least 2(m+1) it panics. In all other cases with at least one sample it recovers the data"
  },
  {
   "property": "C81",
   "status": "proved",
   "theorems": [
    "DyCAPS.C81_keeps_samples",
    "DyCAPS.C81_low_degree"
   ],
   "note": ""
  },
  {
   "property": "C82",
   "status": "partial",
   "theorems": [
    "DyCAPS.C82_refuted",
    "DyCAPS.C82_no_samples_zeros",
    "DyCAPS.C82_no_samples_refused_partial"
   ],
   "note": "refuted: the code does not have this property: for n smaller than the width of the settings it returns zeros. For n equal to the width it returns an error"
  },
  {
   "property": "C83",
   "status": "partial",
   "theorems": [
    "DyCAPS.C83_refuted",
    "DyCAPS.C83_any_split",
    "DyCAPS.C83_refuted_every_size",
    "DyCAPS.C83_ends_or_split_partial",
    "DyCAPS.C83_one_kind_partial"
   ],
   "note": "refuted: the code does not have this property: when both kinds of votes are cast and neither by 2F+1 parties, the order in which they are handled can leave all parties waiting for ever. This happens in committees of every size and for every such split of the votes (F+1 to 2F Yes votes). In every other finished execution without corrupt parties everybody returns"
  },
  {
   "property": "C84",
   "status": "partial",
   "theorems": [
    "DyCAPS.C84_refuted",
    "DyCAPS.C84_agreed_partial",
    "DyCAPS.C84_refresh_partial",
    "DyCAPS.C84_one_round_partial"
   ],
   "note": "refuted: the code does not have this property: one corrupt party out of four has two parties decide different contributions (C39) and makes a contribution that agrees with the others wherever the two parties compare, so both complete and their shares give another secret. It holds with at most F corrupt parties in the broadcasts (no Echo counted twice) and in the messages of the refresh, whenever the honest parties get one value from the agreement; they do if parties only stop in the agreement, or decide in one round on distinct coin shares"
  },
  {
   "property": "C85",
   "status": "partial",
   "theorems": [
    "DyCAPS.C85_stuck",
    "DyCAPS.C85_not_live",
    "DyCAPS.C85_no_crash",
    "DyCAPS.C85_bounded",
    "DyCAPS.C85_settles",
    "DyCAPS.C85_all_or_none",
    "DyCAPS.C85_completes_partial",
    "DyCAPS.C85_same_set_partial"
   ],
   "note": "refuted: the code does not have this property: a party does not wait for contributions that MVBA chose and it has not recovered, adds 0 for them and sends commitments nobody accepts; for every size there is an order of messages after which nobody completes. No crash, termination and all-or-none (for the parties that are not stuck in the Refresh loop, C98) are proved; it completes when 2F+1 parties had submitted all that MVBA chose. RBC and MVBA are ideal here (every broadcast delivered once, one decision, an input of a member)"
  },
  {
   "property": "C86",
   "status": "partial",
   "theorems": [
    "DyCAPS.C86_refuted",
    "DyCAPS.C86_envelope_partial"
   ],
   "note": "refuted: the code does not have this property: handlers ignore the error of Unmarshal and use the fields decoded before the damage; for every type, a message followed by a field with a number outside 1 to 2^29 - 1, and anything after it, does not decode and is processed like the message itself. Envelopes that do not decode are not delivered (the node stops)"
  },
  {
   "property": "C87",
   "status": "partial",
   "theorems": [
    "DyCAPS.C87_refuted",
    "DyCAPS.C87_any_value",
    "DyCAPS.C87_crash_partial"
   ],
   "note": "refuted: the code does not have this property: no value is checked, so whenever the coin names a corrupt leader, that party can have any byte string decided by all honest parties, for every committee size and every byte string. If no party is corrupt (they may stop), a decided value has the hash of some proposal"
  },
  {
   "property": "C88",
   "status": "proved",
   "theorems": [
    "DyCAPS.C88_epochs_hide",
    "DyCAPS.C88_needs_contribution"
   ],
   "note": "the shares held before and after the refresh; messages of the hand-off are the subject of C89. Without a contribution the claim fails (C88_needs_contribution)"
  },
  {
   "property": "C89",
   "status": "partial",
   "theorems": [
    "DyCAPS.C89_refuted",
    "DyCAPS.C89_same_numbers_partial"
   ],
   "note": "refuted: the code does not have this property: the Reshare messages contain Q(i,1..2F+1) of every contribution for the receiver i, so a new member computes the old full share of its number; any F old members and one new member with another number compute the secret. If the numbers seen in both committees are at most F different ones, nothing is learnt"
  },
  {
   "property": "C90",
   "status": "partial",
   "theorems": [
    "DyCAPS.C90_refuted",
    "DyCAPS.C90_submitted_partial",
    "DyCAPS.C90_crash_partial"
   ],
   "note": "refuted: the code does not have this property: one corrupt leader has the empty value decided, and every honest party completes the refresh with the shares it had before, for every committee size 3F+1. A value submitted by a party that follows the protocol names F+1 different parties; if no party is corrupt in the agreement, every value used names a party outside any set of F"
  },
  {
   "property": "C91",
   "status": "proved",
   "theorems": [
    "DyCAPS.C91_queues_apart",
    "DyCAPS.C91_reads_apart"
   ],
   "note": "rounds and party numbers of the agreement below 2^32, stages below 256; numbers written in decimal are not bounded"
  },
  {
   "property": "C92",
   "status": "partial",
   "theorems": [
    "DyCAPS.C92_refuted",
    "DyCAPS.C92_replay_decides",
    "DyCAPS.C92_other_identifier_partial"
   ],
   "note": "refuted: the code does not have this property: the program runs every agreement under the same constant identifier, so with the same key files 2F+1 coin shares and one Halt message of an earlier execution make any party decide the old value. With different identifiers no combined signature of one run is valid in the other"
  },
  {
   "property": "C93",
   "status": "partial",
   "theorems": [
    "DyCAPS.C93_refuted",
    "DyCAPS.C93_shares_hide_partial"
   ],
   "note": "refuted: the code does not have this property: every process reads the whole key at start and computes the leader of every round before the run. The last theorem is what the shares alone would hide"
  },
  {
   "property": "C94",
   "status": "partial",
   "theorems": [
    "DyCAPS.C94_refuted",
    "DyCAPS.C94_roles_partial"
   ],
   "note": "refuted: the code does not have this property: the script passes role names that the program does not know, so all 2n committee processes end without doing anything or reporting an error. With the role names of the program the two sides of each exchange use the same identifier"
  },
  {
   "property": "C95",
   "status": "partial",
   "theorems": [
    "DyCAPS.C95_refuted",
    "DyCAPS.C95_refuted_every_size",
    "DyCAPS.C95_totality_partial",
    "DyCAPS.C95_termination_partial"
   ],
   "note": "refuted: the code does not have this property: a party joining the Readys for one hash takes the first confirmed Echo of any hash and reports its shard of the other message, so with a broadcaster that sends two messages one honest party returns and two wait for ever. With two or more corrupt parties, in committees of every size and for every set of honest parties, one wrong shard makes exactly these wait for ever although the broadcaster is honest. It holds when all proposals taken carry the same bytes and no wrong shard is reported"
  },
  {
   "property": "C96",
   "status": "partial",
   "theorems": [
    "DyCAPS.C96_refuted",
    "DyCAPS.C96_exclude_partial",
    "DyCAPS.C96_termination_partial"
   ],
   "note": "refuted: the code does not have this property: with F silent parties the Echoes of the remaining N-F-1 parties never reach the threshold and nobody returns. It holds when N-F honest parties besides the left-out one remain"
  },
  {
   "property": "C97",
   "status": "partial",
   "theorems": [
    "DyCAPS.C97_reshare_refuted",
    "DyCAPS.C97_dist_refuted",
    "DyCAPS.C97_reshare_partial",
    "DyCAPS.C97_dist_partial"
   ],
   "note": "refuted: the code does not have this property: N goroutines take one message each and do not look at the sender, so N messages of one sender use them up. The messages of different senders are all taken"
  },
  {
   "property": "C98",
   "status": "partial",
   "theorems": [
    "DyCAPS.C98_refuted",
    "DyCAPS.C98_waits_forever",
    "DyCAPS.C98_in_time_partial"
   ],
   "note": "refuted: the code does not have this property: a Refresh loop that waits for a recovery waits for ever, because the Recover handlers stop after the agreement; for every size there is an order of messages in which one party is left behind while all others complete. A party that has the commitments of all chosen resharers in time never waits"
  },
  {
   "property": "C99",
   "status": "partial",
   "theorems": [
    "DyCAPS.C99_refuted",
    "DyCAPS.C99_refuted_every_size",
    "DyCAPS.C99_refuted_twice",
    "DyCAPS.C99_refuted_twice_every_size",
    "DyCAPS.C99_count_partial",
    "DyCAPS.C99_same_ready_partial"
   ],
   "note": "refuted: the code does not have this property: a party that waits for matching Echoes sends its Ready also when the Echo handler has meanwhile sent one, so a party sends two Readys, in an execution without corrupt parties twice the same, with one corrupt party two different ones; both in a committee of any size (every_size). There is at most one Echo and there are at most two Readys, and they are equal if nobody's Echo is counted twice"
  }
 ]
}