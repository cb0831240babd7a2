{"id": "C01", "title": "Length and index codec is a faithful 4-byte big-endian code", "statement": "IntToBytes always yields exactly 4 bytes; BytesToInt(IntToBytes(n)) = n for every 0 <= n < 2^32 and = n mod 2^32 for every other int; Uint32ToBytes/BytesToUint32 are mutually inverse on all uint32 / all 4-byte strings; two different uint32 never share an encoding; BytesToInt of fewer than 4 bytes is 0 and of more than 4 bytes ignores the tail.", "quantifier": "all ints, all byte strings", "why_tests_cant": "2^32 values times arbitrary byte strings; a test samples a handful", "anchors": ["pkg/utils/utils.go: IntToBytes, BytesToInt, Uint32ToBytes, BytesToUint32"]}
{"id": "C02", "title": "Scalar wire encoding is canonical and lossless", "statement": "FrFrom32 accepts a 32-byte string iff the little-endian integer it denotes is smaller than the BLS12-381 group order; on acceptance the scalar is that integer; on rejection the destination keeps its previous value; FrFrom32(FrTo32(x)) = x for every scalar x and FrTo32 is injective with image exactly the accepted strings.", "quantifier": "all 2^256 byte strings, all scalars", "why_tests_cant": "the accept/reject boundary is a four-limb comparison over 2^256 inputs", "anchors": ["internal/bls/bignum_all.go: ValidFr", "internal/bls/bignum_kilic.go: FrFrom32, FrTo32"]}
{"id": "C03", "title": "TCP framing delivers exactly the sent message sequence", "statement": "For every sequence of messages whose encodings are shorter than 2^32 bytes, the receiver of the byte stream produced by the sender outputs exactly that sequence in that order, nothing more; and on every prefix of the stream it has output a prefix of the sequence (a cut connection never invents or reorders a message).", "quantifier": "all message sequences, all cut points of the stream", "why_tests_cant": "unbounded streams and all possible cut points", "anchors": ["pkg/core/send.go: MakeSendChannel", "pkg/core/receive.go: MakeReceiveChannel", "pkg/utils/utils.go: IntToBytes, BytesToInt"]}
{"id": "C04", "title": "Protobuf payloads survive the wire", "statement": "For every message type of Message.proto, Unmarshal(Marshal(m)) returns m for every field content, including empty, repeated and nested fields; hence two senders that marshal equal contents produce equal bytes and different contents never produce equal bytes.", "quantifier": "all field values of all message types", "why_tests_cant": "unbounded byte fields and list lengths", "anchors": ["pkg/protobuf/Message.proto", "pkg/core/message_encapsulation.go: Encapsulation, Decapsulation"]}
{"id": "C05", "title": "Dispatcher routing is exact and FIFO", "statement": "A consumer that reads GetMessage(type,id) obtains only messages whose Type and Id are equal to the requested ones, each received message at most once, in arrival order; every message taken off the network and not yet consumed is in the queue of its own (type,id) or is the one message the dispatcher is currently holding; this is independent of whether the consumer asks before or after the message arrives.", "quantifier": "all arrival sequences, all interleavings of dispatcher and consumers", "why_tests_cant": "interleavings of concurrent goroutines are unbounded", "anchors": ["pkg/core/dispatche.go: MakeDispatcheChannels", "internal/party/party_utils.go: GetMessage"]}
{"id": "C06", "title": "Flooding one protocol instance does not stop others", "statement": "A peer that sends many messages for one (type,id) that nobody reads cannot prevent an honest message of another (type,id) from reaching its reader.", "quantifier": "all arrival sequences", "why_tests_cant": "needs reasoning about blocking of the single dispatcher goroutine", "anchors": ["pkg/core/dispatche.go: MakeDispatcheChannels", "internal/party/party_utils.go: GetMessage"]}
{"id": "C07", "title": "Broadcast and Send address exactly the committee", "statement": "On a party whose channels are initialised, Broadcast(m) appends m exactly once to the outgoing queue of each of the N members and to nothing else; BroadcastExclude(m,x) does the same for all members but x; Send(m,d) appends m only to d's queue when d < N and otherwise returns an error and changes nothing.", "quantifier": "all N, all messages, all destinations", "why_tests_cant": "for every committee size", "anchors": ["internal/party/party_utils.go: Send, Broadcast, BroadcastExclude, SendToNextCommittee, BroadcastToNextCommittee"]}
{"id": "C08", "title": "The scalar field is a field and the roots-of-unity table is right", "statement": "The modulus constant is prime, so every non-zero scalar has an inverse; entry k of the Scale2RootOfUnity table is a root of unity of multiplicative order exactly 2^k, for every k in the table; AsFr is injective on uint64.", "quantifier": "all scalars, all 32 table entries", "why_tests_cant": "primality of a 255-bit number and exact orders cannot be established by running sample arithmetic", "anchors": ["internal/bls/globals.go: ModulusStr, Scale2RootOfUnity, initGlobals", "internal/bls/bignum_kilic.go: AsFr"]}
{"id": "C09", "title": "EvalPolyAt evaluates the polynomial", "statement": "EvalPolyAt(coeffs,x) = sum_i coeffs[i]*x^i for every coefficient list (including the empty one) and every x (including 0).", "quantifier": "all coefficient lists, all points", "why_tests_cant": "unbounded degree and a 2^255 field", "anchors": ["internal/bls/globals.go: EvalPolyAtUnoptimized", "internal/bls/bignum_kilic.go: EvalPolyAt"]}
{"id": "C10", "title": "Lagrange interpolation returns the unique interpolant", "statement": "LagrangeInterpolate(d,x,y) with pairwise distinct x returns d+1 coefficients of the unique polynomial of degree <= d through all d+1 points; it terminates the process exactly when two x coincide.", "quantifier": "all d, all point sets", "why_tests_cant": "all degrees and all field points", "anchors": ["internal/polyring/interpolation.go: LagrangeInterpolate, mulPolyDegreeOne, divPolyDegreeOne"]}
{"id": "C11", "title": "Lagrange coefficients evaluate any low-degree polynomial", "statement": "With distinct known indexes x_0..x_d the coefficients returned by GetLagrangeCoefficients(d, x, t) satisfy sum_k lambda_k*f(x_k) = f(t) for every polynomial f of degree <= d and every target t (including t equal to a known index).", "quantifier": "all d, all indexes, all targets, all polynomials", "why_tests_cant": "universally quantified over polynomials", "anchors": ["internal/party/party_utils.go: GetLagrangeCoefficients"]}
{"id": "C12", "title": "Commitments and witnesses interpolate like the polynomials they commit to", "statement": "If List[k] is the commitment to (or the opening witness at a fixed point of) f_k where f_k = f(.,k) for k = 1..2F+1 and f has degree <= 2F in its second variable, then InterpolateComOrWit(2F, t, List) is the commitment to (witness of) f(.,t) for every t in 0..N, and InterpolateComOrWitByKnownIndexes gives the same from any 2F+1 distinct indexes.", "quantifier": "all F, all bivariate polynomials, all targets", "why_tests_cant": "all polynomials and committee sizes", "anchors": ["internal/party/party_utils.go: InterpolateComOrWit, InterpolateComOrWitByKnownIndexes", "internal/party/party.go: NewHonestParty"]}
{"id": "C13", "title": "Polynomial long division is exact", "statement": "polyLongDiv(a,b) with non-zero leading coefficient of b and len a >= len b returns q with a = q*b + rem, deg rem < deg b.", "quantifier": "all dividends and divisors", "why_tests_cant": "all degrees and coefficients", "anchors": ["internal/polycommit/poly.go: polyLongDiv"]}
{"id": "C14", "title": "KZG single openings always verify", "statement": "For every polynomial of at most n coefficients (n the setup size, n >= 2) and every point x, CheckProofSingle(CommitToPoly(f), ComputeProofSingle(f,x), x, f(x)) returns true, and an opening to any other value with the same proof returns false.", "quantifier": "all polynomials, all points, all setup secrets", "why_tests_cant": "2^255 points and unbounded degree", "anchors": ["internal/polycommit/kzg_single_proofs.go: CommitToPoly, ComputeProofSingle, CheckProofSingle", "internal/polycommit/setup.go: GenerateTestingSetup"]}
{"id": "C15", "title": "KZG openings are binding against algebraic provers", "statement": "A prover that derives commitments and proofs as known linear combinations of the setup powers cannot open one commitment at one point to two values: acceptance of (C,W,x,y) with C and W such combinations (identically in the setup secret) implies y = f(x) for the committed f; and from any two accepting openings of the same C at the same x with different y the value g/(s-x) is obtained by a fixed linear combination of the two proofs.", "quantifier": "all algebraic provers", "why_tests_cant": "quantifies over adversaries", "anchors": ["internal/polycommit/kzg_single_proofs.go: CheckProofSingle"]}
{"id": "C16", "title": "The deployed KZG setup is not forgeable by outsiders", "statement": "No party other than the setup generator can produce a proof that opens a commitment to a value different from the committed polynomial's evaluation, in the setup every party creates in NewHonestParty.", "quantifier": "all commitments, points, values", "why_tests_cant": "a security property; requires reasoning about the constant in the source", "anchors": ["internal/party/party.go: NewHonestParty", "internal/polycommit/setup.go: GenerateTestingSetup"]}
{"id": "C17", "title": "KZG commitments are additively homomorphic", "statement": "CommitToPoly(f+g) = CommitToPoly(f)+CommitToPoly(g), CommitToPoly(c*f) = c*CommitToPoly(f), and sums of accepted openings at the same point are accepted for the summed commitments and values.", "quantifier": "all polynomials, scalars, accepted openings", "why_tests_cant": "universally quantified", "anchors": ["internal/polycommit/kzg_single_proofs.go: CommitToPoly, CheckProofSingle"]}
{"id": "C18", "title": "An honest dealer's sharing is accepted by everyone and encodes the secret", "statement": "After Client.Share(s) every one of the N parties accepts its VSSSend message, party i's full share is the degree-2F polynomial B(i,.), and for every set of F+1 parties interpolating their full shares at 0 returns s.", "quantifier": "all secrets, all F >= 1, N >= 3F+1 below the field order, all dealer randomness, all (F+1)-subsets", "why_tests_cant": "all randomness and all subsets", "anchors": ["internal/party/client.go: Share", "internal/party/VSS.go: VSSShareReceive, VerifyVSSSendReceived", "internal/party/party_utils.go: EncapsulateVSSSend"]}
{"id": "C19", "title": "Accepted VSS shares are consistent with the published commitments", "statement": "If party i accepts a VSSSend message then for every k in 1..2F+1 its pair (value, witness) is a valid opening at point i of the published commitment of B(.,k), each CZ_k opens to 0 at 0 and CB_k = CZ_k + gF_k; consequently (algebraic dealer) all parties accepting the same commitments hold full shares of one bivariate polynomial of degree F in x and 2F in y.", "quantifier": "all messages from an arbitrary dealer", "why_tests_cant": "arbitrary malicious dealer messages", "anchors": ["internal/party/VSS.go: VerifyVSSSendReceived"]}
{"id": "C20", "title": "VSS binds the published g^s to the shared secret", "statement": "A party that accepts a VSSSend message has checked that the published Gs equals g raised to the secret interpolated from the published gF values.", "quantifier": "all messages from an arbitrary dealer", "why_tests_cant": "needs a malicious dealer message for the negative case", "anchors": ["internal/party/VSS.go: VerifyVSSSendReceived"]}
{"id": "C21", "title": "F full shares reveal nothing about the secret", "statement": "For every set of F parties, every view of their full shares and any two secrets s,s' the number of dealer random choices producing that view under s equals the number under s'.", "quantifier": "all F-subsets, all secrets, all views", "why_tests_cant": "a counting statement over the whole randomness space", "anchors": ["internal/party/client.go: Share"]}
{"id": "C22", "title": "A malformed VSSSend message is rejected, not fatal", "statement": "An honest party that receives a VSSSend message with undecodable points or with too few entries rejects it and keeps running.", "quantifier": "all byte contents", "why_tests_cant": "robustness against every malformed input", "anchors": ["internal/party/VSS.go: VSSShareReceive", "internal/party/party_utils.go: Pi.SetFromVSSMessage"]}
{"id": "C23", "title": "Prepare accepts only what an honest old-committee member sent", "statement": "If at most F of the Prepare messages received come from corrupt parties (one message per sender), the commitments a new-committee member adopts are those sent by some honest old-committee member; and if all honest members sent the same and all N-F honest messages arrive, it terminates.", "quantifier": "all arrival orders, all contents of the corrupt messages", "why_tests_cant": "all orders and adversarial contents", "anchors": ["internal/party/ShareReduce.go: PrepareSend, PrepareReceive"]}
{"id": "C24", "title": "One corrupt sender cannot decide Prepare or ShareReduce alone", "statement": "Messages repeated by one single sender are counted once towards the F+1 threshold of PrepareReceive and ShareReduceReceive, so one corrupt sender can neither fix the adopted commitments nor stop the receiver.", "quantifier": "all arrival sequences", "why_tests_cant": "adversarial repetition", "anchors": ["internal/party/ShareReduce.go: PrepareReceive, ShareReduceReceive"]}
{"id": "C25", "title": "Share reduction yields the right reduced share", "statement": "If old committee members hold B(i,.), every message they send to new party j verifies there, and from any F+1 messages of distinct senders that verify against one commitment to a polynomial f of degree <= F (algebraic senders), in any order among arbitrary non-verifying messages, party j obtains exactly the coefficients of f; for honest messages f = B(.,j).", "quantifier": "all bivariate polynomials, all arrival orders, all junk", "why_tests_cant": "arrival orders and adversarial junk", "anchors": ["internal/party/ShareReduce.go: ShareReduceSend, ShareReduceReceive"]}
{"id": "C26", "title": "Accepted refresh contributions keep the secret", "statement": "A Commit message that passes verification in Proactivize commits (algebraic committer) to a polynomial Q_j with Q_j(0,0) = 0; an honestly generated one always passes.", "quantifier": "all messages, all randomness", "why_tests_cant": "arbitrary malicious contributions", "anchors": ["internal/party/ProactivizeAndShareDist.go: Commit, Verify phases"]}
{"id": "C27", "title": "A resharing vote certifies all 2F+1 reshared values", "statement": "A party votes for a resharer only if every one of the 2F+1 (value, witness) pairs in the Reshare message is a valid opening of the corresponding commitment.", "quantifier": "all Reshare messages", "why_tests_cant": "adversarial messages", "anchors": ["internal/party/ProactivizeAndShareDist.go: Vote phase"]}
{"id": "C28", "title": "Recover reconstructs the resharer's polynomial", "statement": "From any F+1 verified Recover messages of distinct senders for resharer k, a party obtains the coefficients of the polynomial committed to by the interpolated commitment CQ[k][self].", "quantifier": "all arrival orders, all polynomials", "why_tests_cant": "adversarial messages", "anchors": ["internal/party/ProactivizeAndShareDist.go: Recover phase"]}
{"id": "C29", "title": "Refresh and share distribution preserve the secret", "statement": "With agreed set J of contributions Q_j, Q_j(0,0)=0, all recovered: the new reduced shares are B'(.,i), B' = B + sum_J Q_j, B'(0,0) = B(0,0); every ShareDist message of an honest party verifies; from any 2F+1 verified ones the new full share is B'(i,.); F+1 new full shares reconstruct the original secret.", "quantifier": "all committees, polynomials, sets J, subsets of senders", "why_tests_cant": "whole-protocol statement over all polynomials", "anchors": ["internal/party/ProactivizeAndShareDist.go: Refresh, ShareDist phases"]}
{"id": "C30", "title": "Refresh never uses a contribution that was not recovered", "statement": "When Refresh adds Q_j for j in the agreed set, the local polynomial Q[j] is the recovered one.", "quantifier": "all schedules", "why_tests_cant": "depends on goroutine scheduling", "anchors": ["internal/party/ProactivizeAndShareDist.go: Recover and Refresh phases"]}
{"id": "C31", "title": "A committee that received shares can hand them off again", "statement": "After ProactivizeAndShareDist a member can run PrepareSend/ShareReduceSend for the next committee and its messages verify there.", "quantifier": "all polynomials", "why_tests_cant": "tests run a single hand-off", "anchors": ["internal/party/ProactivizeAndShareDist.go: ShareDist phase", "internal/party/ShareReduce.go: ShareReduceSend"]}
{"id": "C32", "title": "Reliable broadcast agreement", "statement": "In every asynchronous execution with N = 3F+1, at most F corrupt parties and at most one Echo counted per sender, two honest parties that return from RBCReceive with a message return the same message (or a SHA-256 collision is exhibited).", "quantifier": "all executions", "why_tests_cant": "all interleavings and adversaries", "anchors": ["internal/party/RBC.go: RBCReceive"]}
{"id": "C33", "title": "Reliable broadcast tolerates repeated Echo messages", "statement": "Agreement and validity also hold when corrupt parties repeat Echo messages.", "quantifier": "all executions", "why_tests_cant": "adversarial executions", "anchors": ["internal/party/RBC.go: RBCReceive"]}
{"id": "C34", "title": "Reliable broadcast validity and totality", "statement": "If the broadcaster is honest and at most F parties are corrupt, every honest party eventually returns exactly the broadcast message.", "quantifier": "all fair executions", "why_tests_cant": "adversarial scheduling and shards", "anchors": ["internal/party/RBC.go: RBCSend, RBCReceive"]}
{"id": "C35", "title": "Threshold signatures: any 2F+1 shares give one signature", "statement": "With keys dealt by SigKeyGen(N,2F+1) any 2F+1 valid shares of distinct parties on a message combine to the same signature, which is the one the public key verifies.", "quantifier": "all subsets, messages, keys", "why_tests_cant": "all subsets", "anchors": ["internal/party/keygen.go: SigKeyGen, SigKeyGenFix"]}
{"id": "C36", "title": "Vote certificates attached to the agreement proposal are valid signatures", "statement": "Each combined signature a party attaches to its MVBA proposal for a resharer verifies under the committee public key.", "quantifier": "all keys, all share sets", "why_tests_cant": "algebraic identity over all keys", "anchors": ["internal/party/ProactivizeAndShareDist.go: Recover phase (tblsScheme.Recover)"]}
{"id": "C37", "title": "Provable broadcast certificates are unique", "statement": "For one provable-broadcast instance ID two certificates returned by PBSender (or assembled by anybody) cannot certify two different value hashes when at most F parties are corrupt.", "quantifier": "all executions", "why_tests_cant": "adversarial executions", "anchors": ["internal/party/pb.go: Sender, Receiver", "internal/party/spb.go: SPBSender, SPBReceiver"]}
{"id": "C38", "title": "sMVBA: decisions inside one round agree", "statement": "Any two honest parties that decide in the same round decide values with the same hash.", "quantifier": "all executions with N = 3F+1, at most F corrupt", "why_tests_cant": "adversarial executions", "anchors": ["internal/party/main_process.go: MainProcess", "internal/party/message_handler.go: messageHandler"]}
{"id": "C39", "title": "sMVBA: decisions of different rounds agree", "statement": "Any two honest parties decide the same value even if they decide in different rounds.", "quantifier": "all executions with N = 3F+1, at most F corrupt", "why_tests_cant": "adversarial executions over several rounds", "anchors": ["internal/party/main_process.go: MainProcess", "internal/party/spb.go: SPBReceiver"]}
{"id": "C40", "title": "sMVBA: a party that has 2F+1 valid votes leaves the round", "statement": "Once the vote handler has received 2F+1 valid votes of distinct parties it releases the main process with a decision, an adopted value, or its own value.", "quantifier": "all arrival orders of votes", "why_tests_cant": "order dependent", "anchors": ["internal/party/message_handler.go: messageHandler (Vote)"]}
{"id": "C41", "title": "sMVBA: a bad message cannot terminate an honest process", "statement": "A Byzantine peer cannot stop an honest process by sending a value whose validation fails.", "quantifier": "all messages", "why_tests_cant": "adversarial", "anchors": ["internal/party/pb.go: Receiver"]}
{"id": "C42", "title": "FFT computes the discrete Fourier transform and its inverse inverts it", "statement": "For every input of length n <= MaxWidth, FFT returns the evaluations of the zero-padded coefficient list at the powers of the 2^k-th root of unity (2^k the next power of two), the inverse transform returns coefficients such that FFT(FFT(v,inv)) = v for power-of-two length; lengths above MaxWidth are reported as errors.", "quantifier": "all scales <= 31, all inputs", "why_tests_cant": "unbounded sizes and field values", "anchors": ["internal/polycommit/fft.go: NewFFTSettings", "internal/polycommit/fft_fr.go: FFT, InplaceFFT, _fft, simpleFT"]}
{"id": "C43", "title": "Group FFT agrees with the scalar FFT", "statement": "FFTG1 maps [c_0 G,...,c_{n-1} G] to [v_0 G,...] where v = FFT(c), and its inverse inverts it.", "quantifier": "all inputs", "why_tests_cant": "unbounded sizes", "anchors": ["internal/polycommit/fft_g1.go: FFTG1"]}
{"id": "C44", "title": "Bit-reversal reordering is an involution that permutes", "statement": "reverseBitOrder applied twice to a list of power-of-two length <= 2^31 is the identity and element i moves to the bit-reversed index; reverseBitsLimited is a self-inverse bijection on [0,2^k).", "quantifier": "all lengths 2^k, k <= 31", "why_tests_cant": "2^32 values", "anchors": ["internal/polycommit/reverse_bit_order.go"]}
{"id": "C45", "title": "Data extension produces a codeword", "statement": "DASFFTExtension applied to n even-index samples yields the n odd-index samples of the unique polynomial of degree < n through the even ones.", "quantifier": "all n = 2^k, all samples", "why_tests_cant": "unbounded sizes", "anchors": ["internal/polycommit/das_extension.go"]}
{"id": "C46", "title": "Zero polynomial vanishes exactly on the missing indices", "statement": "ZeroPolyViaMultiplication(missing, n) returns a polynomial whose evaluations on the n-th roots of unity vanish exactly at the missing indices, for every non-empty missing set it accepts.", "quantifier": "all missing sets and lengths", "why_tests_cant": "exponentially many missing sets", "anchors": ["internal/polycommit/zero_poly.go"]}
{"id": "C47", "title": "Sample recovery reconstructs the data", "statement": "RecoverPolyFromSamples returns the original 2n samples whenever at least half of them are present and come from a polynomial of degree < n.", "quantifier": "all erasure patterns, all data", "why_tests_cant": "exponentially many erasure patterns", "anchors": ["internal/polycommit/recover_from_samples.go"]}
{"id": "C48", "title": "Evaluation-form evaluation agrees with coefficient form", "statement": "EvaluatePolyInEvaluationForm(evals, x) equals the value at x of the unique polynomial with the given evaluations on the domain, for every x.", "quantifier": "all evaluations, all x", "why_tests_cant": "field-wide", "anchors": ["internal/bls/globals.go: EvaluatePolyInEvaluationForm"]}
{"id": "C49", "title": "Multi-point KZG proofs verify", "statement": "CheckProofMulti accepts the proof produced by ComputeProofMulti for the evaluations of the polynomial on the coset x*<w>.", "quantifier": "all polynomials, cosets", "why_tests_cant": "field-wide", "anchors": ["internal/polycommit/kzg_multi_proofs.go: ComputeProofMulti, CheckProofMulti"]}
{"id": "C50", "title": "FK20 computes the same proofs as single openings", "statement": "FK20Single/DAUsingFK20 return, for each n-th root of unity, the proof ComputeProofSingle gives at that point.", "quantifier": "all polynomials", "why_tests_cant": "field-wide", "anchors": ["internal/polycommit/fk20_single.go"]}
{"id": "C51", "title": "A peer cannot end a receiving node", "statement": "Whatever bytes a peer writes to its connection, and also when it closes the connection, the receiving process goes on, and its goroutines can still read the messages of the other peers.", "quantifier": "all reader states, byte streams and numbers of connections; all executions before and after", "why_tests_cant": "a test closes one connection at one point; the claim covers every point of every stream", "anchors": ["pkg/core/receive.go: MakeReceiveChannel"]}
{"id": "C52", "title": "Published group elements are bound to the shared secret", "statement": "When all checks of the sharing phase succeed, including the comparison of Gs with the combination of the gF_k, the published Gs equals g^B(0,0) and gF_k equals g^B(0,k).", "quantifier": "all dealers, all setups", "why_tests_cant": "needs a malicious dealer that mixes setup elements into the published values", "anchors": ["internal/party/VSS.go: VerifyVSSSendReceived"]}
{"id": "C53", "title": "All parties that accept a sharing hold shares of one secret", "statement": "Any two groups of F+1 honest parties that accepted the dealer's message reconstruct the same secret, also when the dealer is malicious.", "quantifier": "all dealers, all groups of F+1 parties", "why_tests_cant": "needs an equivocating dealer", "anchors": ["internal/party/VSS.go: VSSShareReceive"]}
{"id": "C54", "title": "A process counts as one sender", "statement": "A single process that is not F+1 members of the old committee cannot determine the reduced share of a new member: the id in a message is bound to the process that sent it.", "quantifier": "all messages, all polynomials", "why_tests_cant": "needs an adversary that chooses sender ids and a consistent set of openings", "anchors": ["internal/party/ShareReduce.go: ShareReduceReceive", "pkg/core/receive.go: MakeReceiveChannel"]}
{"id": "C55", "title": "A Recover message with an unusable index does not block the party", "statement": "A Recover message carrying an index that names no resharer is discarded; messages received after it are still processed and the party can complete the refresh.", "quantifier": "all messages, all continuations of the run", "why_tests_cant": "tests only send well-formed messages", "anchors": ["internal/party/ProactivizeAndShareDist.go: Recover phase (lines 335-380)"]}
{"id": "C56", "title": "A replayed Recover message does not stop a party", "statement": "Receiving a valid Recover message a second time leaves the party running and able to recover the contribution.", "quantifier": "all polynomials, all states in which F messages have been recorded", "why_tests_cant": "needs duplicated network messages at one specific moment", "anchors": ["internal/party/ProactivizeAndShareDist.go: Recover phase", "internal/polyring/interpolation.go: LagrangeInterpolate"]}
{"id": "C57", "title": "A full epoch of honest parties preserves the secret", "statement": "If the client and all parties follow the protocol, then after Share, Prepare, ShareReduce, Proactivize and ShareDist every member of the new committee has terminated, and any F+1 of them reconstruct the secret the client shared.", "quantifier": "all secrets, all coins, all committee sizes N >= 3F+1, all choices of senders whose messages arrive first, all agreed sets", "why_tests_cant": "composition over all polynomials and all message subsets", "anchors": ["internal/party/client.go: Share", "internal/party/VSS.go: VSSShareReceive", "internal/party/ShareReduce.go", "internal/party/ProactivizeAndShareDist.go"]}
{"id": "C58", "title": "Sending before initialisation is reported", "statement": "Calling Send, Broadcast or their next-committee variants on a party whose outgoing channels have not been initialised yet returns the error 'send channels are not initialized yet' and changes nothing.", "quantifier": "all committee sizes, all destinations, all messages", "why_tests_cant": "a call that waits forever is not an observable test failure, and the claim is for every committee size", "anchors": ["internal/party/party_utils.go: Send, Broadcast, checkSendChannelsInit", "internal/party/party.go: NewHonestParty"]}
{"id": "C59", "title": "Full and reduced shares together hide the secret", "statement": "For any set of at most F full-share holders together with any set of at most 2F reduced-share holders (the two forms a mobile adversary can collect around a hand-off), the joint view of their shares has the same distribution for every two secrets; with 2F+1 reduced shares the secret is determined.", "quantifier": "all F, all sets within the bounds, all pairs of secrets, all views", "why_tests_cant": "a statement about the distribution over all dealer choices", "anchors": ["internal/party/client.go: Share", "internal/party/ShareReduce.go: ShareReduceReceive"]}
{"id": "C60", "title": "A reliable-broadcast message cannot crash the receiver", "statement": "No single RBC message of a corrupt party, whatever its content, makes an honest process panic.", "quantifier": "all messages, all receivers", "why_tests_cant": "needs every byte content; the crash comes from an error path of the erasure coding library", "anchors": ["internal/party/RBC.go: RBCReceive"]}
{"id": "C61", "title": "Signed strings of the agreement protocol are separated", "statement": "The byte strings over which shares are produced - echoes of a broadcast stage, coin shares, no-votes, unlock shares - differ whenever purpose, protocol instance, round, broadcaster, stage or value hash differ, and differ from the strings signed when voting for resharers, so a signature obtained for one purpose cannot be used for another.", "quantifier": "all instance identifiers of any length, rounds, parties, stages, hashes", "why_tests_cant": "unbounded identifiers; the concatenation has no length fields, so only a proof excludes an overlap", "anchors": ["internal/party/pb.go: Receiver, Sender", "internal/party/main_process.go: election, preVote, vote", "internal/party/ProactivizeAndShareDist.go: Recover phase"]}
{"id": "C62", "title": "The sender of a provable broadcast sends only valid certificates", "statement": "Whatever Echo messages arrive, an honest sender's second-stage Value and Finish messages carry a combined signature that every receiver accepts.", "quantifier": "all Echo sequences from any senders", "why_tests_cant": "needs corrupt parties that repeat shares", "anchors": ["internal/party/pb.go: Sender", "internal/party/spb.go: SPBSender"]}
{"id": "C63", "title": "All honest parties elect the same leader", "statement": "In every round any two honest parties that have computed a leader have computed the same one, the one given by the unique combined signature on the coin name.", "quantifier": "all executions with N = 3F+1, at most F corrupt", "why_tests_cant": "adversarial executions", "anchors": ["internal/party/main_process.go: election", "internal/party/message_handler.go: messageHandler (Done)"]}
{"id": "C64", "title": "A broadcast instance certifies only what its owner proposed", "statement": "If the owner of a broadcast instance is honest, then every certificate for this instance is for the hash of the owner's proposal of that round.", "quantifier": "all executions with N = 3F+1, at most F corrupt", "why_tests_cant": "adversarial executions", "anchors": ["internal/party/pb.go: Receiver"]}
{"id": "C65", "title": "A decision rests on a second-stage certificate of the leader", "statement": "If an honest party decides v in round r, then 2F+1 parties (F+1 of them honest) have signed v in the second stage of the round leader's broadcast.", "quantifier": "all executions with N = 3F+1, at most F corrupt", "why_tests_cant": "adversarial executions", "anchors": ["internal/party/main_process.go: MainProcess, vote", "internal/party/message_handler.go: messageHandler (Vote)"]}
{"id": "C66", "title": "Bit reversal rejects lengths that are not a power of two", "statement": "reverseBitOrder panics for every length that is not a power of two, as its guard announces, and never silently reorders part of the list.", "quantifier": "all lengths", "why_tests_cant": "the guard is a condition on an unbounded length", "anchors": ["internal/polycommit/reverse_bit_order.go: reverseBitOrder"]}
{"id": "C67", "title": "Recovery reports samples that do not fit a low-degree polynomial", "statement": "If the present samples are not the values of any polynomial of degree < n, RecoverPolyFromSamples returns an error instead of data.", "quantifier": "all erasure patterns, all samples", "why_tests_cant": "exponentially many erasure patterns and corruptions", "anchors": ["internal/polycommit/recover_from_samples.go: RecoverPolyFromSamples"]}
{"id": "C68", "title": "Multi-point openings bind", "statement": "Whoever gets CheckProofMulti to accept values ys on the coset x*<w> for a commitment to f has ys equal to the values of f there, or knows a non-zero polynomial vanishing at the setup secret.", "quantifier": "all polynomials, cosets, claimed values and proofs of an algebraic prover", "why_tests_cant": "soundness quantifies over all cheating provers and the whole field", "anchors": ["internal/polycommit/kzg_multi_proofs.go: CheckProofMulti"]}
{"id": "C69", "title": "FK20 multi proofs verify", "statement": "FK20Multi and DAUsingFK20Multi return, for every chunk of l evaluations on the domain, a proof that CheckProofMulti accepts for that coset.", "quantifier": "all polynomials, chunk lengths and settings", "why_tests_cant": "field-wide; sizes unbounded", "anchors": ["internal/polycommit/fk20_multi.go: FK20Multi, FK20MultiDAOptimized, DAUsingFK20Multi", "internal/polycommit/kzg.go: NewFK20MultiSettings"]}
{"id": "C70", "title": "Every field back end serialises scalars in the same way", "statement": "FrTo32 of the back ends bignum_pure and bignum_hol256 returns the 32-byte little-endian encoding that the default back end returns, and FrFrom32 inverts it.", "quantifier": "all scalars; all 32-byte inputs of FrFrom32", "why_tests_cant": "random scalars have 31 or 32 bytes except with probability 2^-16, so a random test never meets the short ones", "anchors": ["internal/bls/bignum_pure.go: FrTo32, FrFrom32", "internal/bls/bignum_hol256.go: FrTo32, FrFrom32"]}
{"id": "C71", "title": "Field back ends compute the same arithmetic", "statement": "On reduced arguments AddModFr, SubModFr, MulModFr, DivModFr, BatchInvModFr, InvModFr (of a non-zero scalar) and ExpModFr of bignum_pure and bignum_hol256 return the reduced result of the field operation, with x/0 = 0.", "quantifier": "all pairs of scalars, all exponents, lists of every length", "why_tests_cant": "the domain has 2^510 pairs; the borrow path of SubModFr depends on carries", "anchors": ["internal/bls/bignum_pure.go: AddModFr, SubModFr, MulModFr, DivModFr, InvModFr, BatchInvModFr, PowModFr, ExpModFr", "internal/bls/bignum_hol256.go: AddModFr, SubModFr, MulModFr, DivModFr, InvModFr, BatchInvModFr, ExpModFr"]}
{"id": "C72", "title": "Back ends agree in the corner cases of conversion and inversion", "statement": "AsFr(i) is the scalar i for every uint64, SetFr reduces its argument, and InvModFr of zero writes zero, on every back end.", "quantifier": "all uint64, all decimal strings, all previous contents of the destination", "why_tests_cant": "the differences are confined to values of measure zero and to the old content of the destination", "anchors": ["internal/bls/bignum_hbls.go: AsFr", "internal/bls/bignum_pure.go: InvModFr, SetFr, AsFr, EqualFr", "internal/bls/bignum_hol256.go: InvModFr, AsFr"]}
{"id": "C73", "title": "Key files give every process the generated keys", "statement": "After -op1 1 every process started with the same n and f holds share i = value at i+1 of the generated polynomial and its public commitment, with separate polynomials for the two committees; a larger f or a missing file stops the process; a smaller f does not, and then its signature shares are refused by the others unless the polynomials agree at its point.", "quantifier": "all coefficient lists, all n, f, all messages", "why_tests_cant": "keys are random; a mismatch of parameters between processes is never part of a test", "anchors": ["internal/party/keygen.go: GenCoefficientsFile, SigKeyGenFix, SigKeyGenFix_New, ReadFromFile, WriteToFile", "cmd/DyCAPs/main.go: main"]}
{"id": "C74", "title": "Signing needs 2f+1 parties", "statement": "The keys a single process holds do not let it produce a signature the committee's public key accepts; any 2f processes together learn nothing about the key.", "quantifier": "all messages, all key polynomials, all sets of up to 2f parties", "why_tests_cant": "the absence of an ability cannot be tested; the honest code never tries", "anchors": ["cmd/DyCAPs/main.go: main", "internal/party/keygen.go: SigKeyGenFix, SigKeyGenFix_New"]}
{"id": "C75", "title": "Text form of curve points round-trips and errors leave the receiver alone", "statement": "UnmarshalText(MarshalText(p)) yields p; exactly the hexadecimal texts (either case) of valid encodings are accepted; after an error, including a nil receiver, the receiver is unchanged.", "quantifier": "all points, all texts, all receivers", "why_tests_cant": "texts of any length and content; error paths", "anchors": ["internal/bls/bls_all.go: MarshalText, UnmarshalText"]}
{"id": "C76", "title": "Domain size for a committee", "statement": "GetScaleByCommitteeSize returns the least k with size+1 <= 2^k for 1 to 127 parties and panics for every other size, including the size where size+1 wraps around.", "quantifier": "all uint32 sizes", "why_tests_cant": "2^32 inputs; the wrap-around needs the largest one", "anchors": ["internal/party/party_utils.go: GetScaleByCommitteeSize"]}
{"id": "C77", "title": "GetSamples places values at their indices", "statement": "With valid arguments the result has the domain's width, holds at each position the value with this index (the last one, if repeated) and nil elsewhere; invalid arguments never return.", "quantifier": "all index lists (negative ones too), all value lists, all widths", "why_tests_cant": "combinations of repeated and out-of-range indices", "anchors": ["internal/party/party_utils.go: GetSamples"]}
{"id": "C78", "title": "Committing to evaluations equals committing to the polynomial", "statement": "CommitToEvalPoly with the inverse transform of the setup points and the values of a polynomial on the domain returns the commitment of the polynomial; a wrong number of values panics.", "quantifier": "all setups, all polynomials of full width, all power-of-two widths up to the settings", "why_tests_cant": "a test fixes one width and one setup", "anchors": ["internal/polycommit/kzg_single_proofs.go: CommitToEvalPoly", "internal/polycommit/fft_g1.go: FFTG1"]}
{"id": "C79", "title": "A node uses the first n addresses of its lists and refuses shorter lists", "statement": "ReadIpList and ReadPortList cut to N return the first N lines of the file; a file with fewer addresses is refused.", "quantifier": "all files, all N", "why_tests_cant": "files that end in a newline and have one address too few", "anchors": ["cmd/DyCAPs/main.go: ReadIpList, ReadPortList, main"]}
{"id": "C80", "title": "The older recovery reconstructs the data", "statement": "ErasureCodeRecover returns all n samples whenever the present ones, at least one, are values of a polynomial with at most as many coefficients as there are present samples.", "quantifier": "all power-of-two n up to the settings, all erasure patterns, all data", "why_tests_cant": "exponentially many erasure patterns; the repository's tests always drop half of the samples or more", "anchors": ["internal/polycommit/legacy_recovery.go: ErasureCodeRecover, _zPoly"]}
{"id": "C81", "title": "The older recovery never changes a sample", "statement": "If ErasureCodeRecover returns data, the data agrees with every sample that was given, and it is the set of values of one polynomial with at most as many coefficients as there are present samples.", "quantifier": "all settings, all sample lists", "why_tests_cant": "ranges over all samples, also inconsistent ones and lengths that are no power of two", "anchors": ["internal/polycommit/legacy_recovery.go: ErasureCodeRecover"]}
{"id": "C82", "title": "The older recovery refuses to work without samples", "statement": "When every sample is missing ErasureCodeRecover returns an error.", "quantifier": "all power-of-two n up to the settings", "why_tests_cant": "depends on the relation between n and the width of the settings", "anchors": ["internal/polycommit/legacy_recovery.go: ErasureCodeRecover"]}
{"id": "C83", "title": "sMVBA ends when no party is faulty", "statement": "With N = 3F+1, no corrupt party and every message delivered, an execution of the agreement in which nothing is left to do is one in which every party has returned from MainProcess with a value.", "quantifier": "all inputs, all signature schemes that meet the contract, all coins, all finished executions of any number of rounds", "why_tests_cant": "whether it hangs depends on the order in which the parties handle each other's votes; a test sees one order", "anchors": ["internal/party/main_process.go: MainProcess", "internal/party/message_handler.go: messageHandler"]}
{"id": "C84", "title": "A refresh over its own broadcasts and agreement keeps the secret", "statement": "In every execution of a refresh, taken together with the reliable broadcasts of the Commit messages and the agreement on the contributions, with at most F of N = 3F+1 parties corrupt: any F+1 honest parties that complete have used the same contributions and reconstruct the secret shared before (or colliding hash values, or a polynomial vanishing at the setup secret, are exhibited).", "quantifier": "all executions of all sub-protocols, all corrupt contributions, all choices of F+1 parties; the ShareDist goroutines of a member do not overlap (C112)", "why_tests_cant": "the parties see different interleavings of three sub-protocols and adversarial messages in each", "anchors": ["internal/party/ProactivizeAndShareDist.go: ProactivizeAndShareDist", "internal/party/RBC.go: RBCReceive", "internal/party/main_process.go: MainProcess"]}
{"id": "C85", "title": "A refresh without faulty parties completes", "statement": "If at least 2F+1 of the N >= 3F+1 parties take part in ProactivizeAndShareDist, all of them follow the protocol and every message is delivered, then no party crashes, the refresh comes to an end, every party has completed (Success received from enough parties) and any F+1 of them reconstruct the old secret.", "quantifier": "all committee sizes, shared polynomials, contributions, signature schemes that meet the contract and all orders of messages, including the order in which recoveries of contributions come in at each party; the ShareDist goroutines of a member do not overlap (C112)", "why_tests_cant": "whether it completes depends on which contributions each party happens to recover before it calls MVBA; a test on one machine sees the same order at all parties", "anchors": ["internal/party/ProactivizeAndShareDist.go: ProactivizeAndShareDist"]}
{"id": "C86", "title": "Payloads that do not decode are not used", "statement": "A protocol message whose payload proto.Unmarshal reports as malformed has no effect: no handler works with fields taken from it.", "quantifier": "all payload types of Message.proto, all messages and all ways of damaging them", "why_tests_cant": "tests only send well-formed payloads; which fields survive depends on where the damage is", "anchors": ["pkg/core/message_encapsulation.go: Decapsulation", "internal/party/ProactivizeAndShareDist.go: ProactivizeAndShareDist", "pkg/core/receive.go: MakeReceiveChannel"]}
{"id": "C88", "title": "Shares of two epochs together hide the secret", "statement": "If at least one contribution to the refresh was chosen at random by a party that follows the protocol, then the full shares of F members and the reduced shares of 2F members before the refresh together with the full shares of F members and the reduced shares of 2F members after it (any members, not the same ones) tell nothing about the secret.", "quantifier": "all secrets, all observed shares, all choices of members in both epochs, all other contributions (chosen by the adversary)", "why_tests_cant": "secrecy is a statement about the number of random choices that explain an observation", "anchors": ["internal/party/client.go: Share", "internal/party/ProactivizeAndShareDist.go: ProactivizeAndShareDist"]}
{"id": "C89", "title": "Members of both committees learn nothing in the hand-off", "statement": "F members of the old committee and F members of the new committee, who follow the protocol and pool everything they hold and receive in the hand-off, do not learn the secret.", "quantifier": "all secrets, all committee sizes, all members, all honest executions of an epoch", "why_tests_cant": "tests do not combine what different parties see", "anchors": ["internal/party/ProactivizeAndShareDist.go: ProactivizeAndShareDist", "internal/party/VSS.go: VSSShareReceive"]}
{"id": "C87", "title": "sMVBA: a decided value was proposed by an honest party or satisfies the validity predicate", "statement": "Every value that honest parties decide is a proposal of an honest party; a corrupt party cannot have the honest parties decide an arbitrary byte string.", "quantifier": "all executions with N = 3F+1 and at most F corrupt parties, all proposals, all committee sizes", "why_tests_cant": "the tests have no corrupt leader; the property speaks about all byte strings a corrupt leader may send", "anchors": ["internal/party/main_process.go: MainProcess", "internal/party/spb.go: SPBReceiver", "internal/party/pb.go: Receiver"]}
{"id": "C90", "title": "A completed refresh uses the contribution of an honest party", "statement": "Whenever honest parties complete a refresh, the set of contributions agreed on contains at least one contribution from outside the (at most F) corrupt parties, so the new shares are independent of the old ones.", "quantifier": "all executions of the refresh with its agreement, N = 3F+1, at most F corrupt parties, all committee sizes", "why_tests_cant": "the failing executions need a corrupt leader in the agreement; the holding part quantifies over all messages a party may get", "anchors": ["internal/party/ProactivizeAndShareDist.go: ProactivizeAndShareDist", "internal/party/main_process.go: MainProcess"]}
{"id": "C91", "title": "Every queue serves one purpose", "statement": "Any two GetMessage calls of the protocol that use the same (type, id) pair have the same purpose - the same phase, the same broadcast instance, round and stage - and belong to the same run identifier; so a message read for one purpose was not sent for another one.", "quantifier": "all run identifiers of any length and content, all broadcasters, rounds, stages; all interleavings of the dispatcher", "why_tests_cant": "identifiers are concatenated without length fields and with decimal numbers of variable length; only a proof excludes every overlap", "anchors": ["internal/party/party_utils.go: GetMessage", "internal/party/ProactivizeAndShareDist.go: RBCSend/RBCReceive identifiers", "internal/party/main_process.go: IDr, IDrj", "internal/party/spb.go: ID1, ID2"]}
{"id": "C92", "title": "Messages of an earlier run have no effect in a later one", "statement": "If the agreement of a refresh has been executed before with the same keys, then messages recorded in that execution do not make a party decide anything in a later execution.", "quantifier": "all earlier executions, all later parties and proposals", "why_tests_cant": "needs all pairs of executions; tests run one execution", "anchors": ["cmd/DyCAPs/main.go: main", "internal/party/message_handler.go: Done, Halt handlers", "internal/party/main_process.go: MainProcess"]}
{"id": "C93", "title": "The leader of a round is not known in advance", "statement": "Before F+1 honest parties have released their coin share of a round, nobody can compute the leader of this round.", "quantifier": "all committees, key files, identifiers, rounds, executions", "why_tests_cant": "a statement about what can be computed from a process's memory, for all later executions", "anchors": ["cmd/DyCAPs/main.go: main", "internal/party/keygen.go: SigKeyGenFix, SigKeyGenFix_New", "internal/party/message_handler.go: Done handler"]}
{"id": "C94", "title": "The start script brings up both committees", "statement": "The processes that test_multiCommittee.sh starts for the members of the old and the new committee execute the protocol of their role; a process with an unknown role reports an error.", "quantifier": "all committee sizes, all role names", "why_tests_cant": "the script is not covered by the test-suite, and a process with a wrong role name exits without a sign", "anchors": ["cmd/DyCAPs/test_multiCommittee.sh", "cmd/DyCAPs/main.go: main"]}
{"id": "C95", "title": "Broadcast: all or nobody", "statement": "Whoever broadcasts, if one honest party's RBCReceive returns a message then every honest party's RBCReceive of the same instance returns.", "quantifier": "all committees, broadcasters (honest or not), messages, executions, fair schedules", "why_tests_cant": "needs a broadcaster that sends two different messages and one particular order of Echoes at one party; the tests only broadcast honestly", "anchors": ["internal/party/RBC.go: RBCReceive", "internal/party/RBC.go: RBCSend"]}
{"id": "C96", "title": "A party left out of the proposal still gets the message", "statement": "With at most F faulty parties, after RBCSendExclude by an honest party every honest party's RBCReceive returns the message, including the one that was left out.", "quantifier": "all committees, messages, left-out parties, sets of at most F silent parties, fair schedules", "why_tests_cant": "the test leaves one party out while nobody is faulty; the waiting occurs when F parties are silent as well", "anchors": ["internal/party/RBC.go: RBCSendExclude, RBCReceive", "internal/party/party_utils.go: BroadcastExclude"]}
{"id": "C97", "title": "Messages of correct parties are not crowded out in a refresh", "statement": "During ProactivizeAndShareDist the Reshare and ShareDist message of every correct party is taken from the queue and handled, whatever other parties send.", "quantifier": "all parties, senders, messages and executions", "why_tests_cant": "the number of receiving goroutines equals the number of parties, so it suffices as long as everybody sends one message; only a sender of several messages shows the defect", "anchors": ["internal/party/ProactivizeAndShareDist.go: Vote phase (lines 259-274), ShareDist phase (lines 612-625)"]}
{"id": "C98", "title": "A party that gets a commitment late catches up", "statement": "A party to which the Commit broadcast of a chosen resharer is delivered only after its MVBA has returned still computes its new share and completes, once all messages of the correct parties have arrived.", "quantifier": "all committee sizes, shared polynomials, contributions and orders of messages; the ShareDist goroutines of a member do not overlap (C112)", "why_tests_cant": "needs a broadcast that is slower than the whole agreement at one party; on one machine the broadcasts are through long before", "anchors": ["internal/party/ProactivizeAndShareDist.go: Refresh loop (lines 464-486), Recover handlers (lines 376-449)"]}
{"id": "C99", "title": "An honest party does not contradict itself in a broadcast", "statement": "In one instance of reliable broadcast an honest party sends every party at most one Echo and at most one Ready.", "quantifier": "all committee sizes, message contents, corrupt broadcasters and orders of messages", "why_tests_cant": "the second Ready is sent only when the Echo threshold is reached between the moment the party starts to wait for matching Echoes and the moment it gets them", "anchors": ["internal/party/RBC.go: RBCReceive (lines 72-232)"]}
{"id": "C100", "title": "An honest party does not contradict itself in the agreement", "statement": "In one call of MainProcess a party sends at most one message of each kind (Value, Echo, Finish, Done, Prevote, Vote) per round, instance and stage, and at most one Halt, whatever messages it receives.", "quantifier": "all committee sizes, inputs, numbers of rounds and sequences of received messages", "why_tests_cant": "quantifies over all sequences of messages of corrupt parties, including repeated and out-of-order ones over any number of rounds", "anchors": ["internal/party/main_process.go: MainProcess, election, preVote, vote (lines 20-227)", "internal/party/pb.go: Sender, Receiver (lines 15-86)", "internal/party/message_handler.go: messageHandler"]}
{"id": "C101", "title": "Results are final", "statement": "What a member has obtained does not change any more, whatever it receives later: the value returned by a broadcast, the value decided by the agreement, the reduced share after the Refresh loop and the full share after the Success report. Before that a refresh leaves both shares as they were, and it changes nothing else of the member.", "quantifier": "all committee sizes, states, contents and sequences of received messages, including those of corrupt parties; the ShareDist goroutines of a member do not overlap (C112)", "why_tests_cant": "late messages of corrupt parties can arrive in any number and order after the result", "anchors": ["internal/party/ProactivizeAndShareDist.go: Refresh and ShareDist (lines 455-696)", "internal/party/RBC.go: RBCReceive", "internal/party/main_process.go: MainProcess"]}
{"id": "C102", "title": "The messages a member sends in a refresh are bounded", "statement": "In one call of ProactivizeAndShareDist a member sends each party at most N Recover messages, calls the agreement at most once and sends at most N Success reports, however many messages it receives and however its goroutines interleave in ShareDist; if they do not overlap there, it sends at most one Success report.", "quantifier": "all committee sizes, states, contents and sequences of received messages, including those of corrupt parties", "why_tests_cant": "quantifies over unboundedly many received messages", "anchors": ["internal/party/ProactivizeAndShareDist.go: ProactivizeAndShareDist (lines 17-716)"]}
{"id": "C103", "title": "Only the client's sharing is taken", "statement": "After the client has shared a secret, every member holds a share of the client's secret, even if a committee member also sends VSSSend messages.", "quantifier": "all committee sizes, secrets, randomness and contents and orders of further VSSSend messages", "why_tests_cant": "in the tests only the client sends VSSSend messages", "anchors": ["internal/party/VSS.go: VSSShareReceive (lines 12-74)", "internal/party/client.go: Share (lines 113-121)"]}
{"id": "C104", "title": "The stored form of a scalar is never visible", "statement": "The default back end stores a scalar multiplied by 2^256 modulo r. Whatever is computed with the functions of the bls package, the bytes written, the results of comparisons, the values of polynomials and the multiples of curve points are those of the scalars in the field; random scalars are as uniform as the library's draw.", "quantifier": "all scalars, all expressions built from integers, 32-byte strings, sums, differences, products, quotients, powers and comparisons, all points of all groups of order r", "why_tests_cant": "quantifies over all field elements and all computations", "anchors": ["internal/bls/bignum_kilic.go: all functions (lines 26-135)", "internal/bls/bls_kilic.go: MulG1, MulG2, LinCombG1 (lines 44-48, 82-86, 135-153)", "internal/bls/globals.go: EvalPolyAtUnoptimized (lines 79-98)"]}
{"id": "C105", "title": "Decimal strings are read as the numbers they stand for", "statement": "SetFr stores the number written in a decimal string modulo r, SetFr(FrStr(x)) gives x, and a string that is no decimal number is reported.", "quantifier": "all strings and all scalars", "why_tests_cant": "quantifies over all strings", "anchors": ["internal/bls/bignum_kilic.go: SetFr, FrStr (lines 28-32, 70-75)", "internal/bls/bignum_all.go: Fr.String (lines 10-12)", "internal/polycommit/setup.go: GenerateTestingSetup (lines 11-31)"]}
{"id": "C106", "title": "Both curve back ends accept the same pairing equations", "statement": "PairingsVerify(a1, a2, b1, b2) is true exactly when e(a1, a2) = e(b1, b2), in the default back end and in the herumi back end, which applies the final exponentiation a second time.", "quantifier": "all points and all bilinear maps into a group whose elements have order dividing r", "why_tests_cant": "quantifies over all points; only one back end is compiled into a test", "anchors": ["internal/bls/bls_kilic.go: PairingsVerify (lines 155-161)", "internal/bls/bls_hbls.go: PairingsVerify (lines 154-180)"]}
{"id": "C107", "title": "Removing zero padding gives back the bytes", "statement": "If bytes were padded with zeros at the end, DeleteZero returns the bytes, and DeleteZeroWithLen does so with their length.", "quantifier": "all byte strings and all amounts of padding", "why_tests_cant": "quantifies over all byte strings", "anchors": ["pkg/utils/utils.go: DeleteZero, DeleteZeroWithLen (lines 39-53)"]}
{"id": "C108", "title": "Linear combinations of coefficient vectors", "statement": "PolyLinComb returns the vector whose i-th entry is the sum of scalar times i-th entry; it reports an error exactly when there are vectors and the number of scalars differs from the number of vectors or some vector has another length than asked for.", "quantifier": "all lists of vectors and scalars and all lengths", "why_tests_cant": "quantifies over all vectors", "anchors": ["internal/bls/globals.go: PolyLinComb (lines 158-181)"]}
{"id": "C109", "title": "Padding coefficients keeps the polynomial", "statement": "PadCoeff returns exactly MaxWidth coefficients of a polynomial with the same values everywhere; it ends the program exactly when there are more than MaxWidth coefficients.", "quantifier": "all coefficient lists and widths", "why_tests_cant": "quantifies over all polynomials", "anchors": ["internal/party/party_utils.go: PadCoeff (lines 159-173)"]}
{"id": "C110", "title": "A refreshed full share rests on 2F+1 verified points of different senders", "statement": "A member that reports success in ShareDist holds the polynomial of degree 2F through 2F+1 points with different indices. Each point was in a ShareDist message of the sender with that index, and its witness opens, at the member's own index, the commitment that was broadcast as NewCommit of that sender and equals the old commitment plus the sum of the agreed contributions' commitments.", "quantifier": "all parties, all starting states, all messages in any order and number, from anybody; the ShareDist goroutines of a member do not overlap (C112)", "why_tests_cant": "quantifies over all interleavings of arbitrary, also adversarial, messages", "anchors": ["internal/party/ProactivizeAndShareDist.go: ShareDist (lines 570-684)"]}
{"id": "C111", "title": "A recovered contribution rests on F+1 verified points of different senders", "statement": "A contribution polynomial that a member has recovered goes through F+1 points with different indices; each was in a Recover message of the sender with that index together with a valid signature share on the contribution's number, and its witness opens the commitment that came with an accepted Commit of that contribution. A contribution not recovered is the member's own polynomial or zero. A member proposes F+1 different contributions to the agreement, all of them recovered in this sense.", "quantifier": "all parties, all starting states, all messages in any order and number, from anybody", "why_tests_cant": "quantifies over all interleavings of arbitrary, also adversarial, messages", "anchors": ["internal/party/ProactivizeAndShareDist.go: Recover (lines 337-451)"]}
{"id": "C112", "title": "Every verified share counts, however the goroutines interleave", "statement": "When the goroutines of ShareDist hold at least 2F+1 verified shares of different senders, the member finishes with the polynomial through verified points as its full share, reports success exactly once and does not crash, whatever the order in which the goroutines' reads and writes of the shared variables take place.", "quantifier": "all F and n, all shares, all interleavings of the goroutines' steps", "why_tests_cant": "the failing interleavings have small windows; a test sees one interleaving per run, the claim is about all of them and any number of parties", "anchors": ["internal/party/ProactivizeAndShareDist.go: ShareDist (lines 611-687)"]}
{"id": "C113", "title": "A member leaves the refresh only when enough members have their new shares", "statement": "When ProactivizeAndShareDist returns at a member, that member holds its new full share and, with at most F corrupt parties, at least F+1 members that follow the protocol have reported that they hold theirs.", "quantifier": "all committee sizes, all states, all messages in any order and number, from anybody; the ShareDist goroutines of a member do not overlap (C112)", "why_tests_cant": "quantifies over all sequences of messages of corrupt parties, including repetitions of one message", "anchors": ["internal/party/ProactivizeAndShareDist.go: receipt of Success (lines 680-700)"]}
{"id": "C114", "title": "A full epoch with corrupt members in both committees keeps the secret", "statement": "A client shares s in an old committee, a new committee takes the shares over and refreshes them. At most F old members send anything they like in the hand-off (every old member being heard at most once per phase), at most F new members send anything they like in the broadcasts and in the messages of the refresh (no Echo being counted twice), and the new members get one value from the agreement (they do when members only stop in it, and also when up to F members do anything in it but the others decide in one round, on coin shares of different members). Then any F+1 new members that follow the protocol and complete reconstruct s, unless a hash collision or a polynomial vanishing at the setup secret is exhibited; and a new member that hears F+1 old members following the protocol, with decodable messages, completes the hand-off with the right commitments and reduced share.", "quantifier": "all secrets, dealer coins, committee sizes with N >= 3F+1, sets of corrupt members, messages of corrupt members, orders of arrival, broadcasts, agreements and refresh executions; the ShareDist goroutines of a member do not overlap (C112)", "why_tests_cant": "quantifies over everything corrupt members of both committees may send and over all interleavings of four protocols", "anchors": ["internal/party/client.go", "internal/party/VSS.go", "internal/party/ShareReduce.go", "internal/party/ProactivizeAndShareDist.go", "internal/party/RBC.go", "internal/party/main_process.go"]}
{"id": "C115", "title": "The agreement ends although up to F parties stop", "statement": "If at most F of the N = 3F+1 parties stop at any point of MainProcess, all others follow the protocol and every message between these others is delivered, then all others return from MainProcess.", "quantifier": "all executions, inputs, committee sizes, points at which parties stop and messages of a stopping party that are lost; no corrupt parties, no message delivered twice", "why_tests_cant": "quantifies over the point at which a party stops, which can be in the middle of a broadcast, and over all orders of messages at all others", "anchors": ["internal/party/main_process.go: MainProcess (lines 96-150)", "internal/party/message_handler.go: Halt handler (lines 97-120)"]}
{"id": "C116", "title": "Members survive the end of a process", "statement": "When a process of the deployment ends (a crash, a signal, or because its main function returns), the other processes keep running: up to F members of a committee may be lost, and the client may leave after dealing.", "quantifier": "all executions of processes and connections: any order of connecting, writing, reading and ending, any committee size, any process that ends", "why_tests_cant": "tests keep all parties in one process; the claim is about every order in which streams end at every member, along every chain of connections", "anchors": ["pkg/core/receive.go: MakeReceiveChannel (lines 46-70)", "pkg/core/send.go: MakeSendChannel (lines 36-60)", "cmd/DyCAPs/main.go: main"]}
{"id": "C117", "title": "Members can be started one after the other", "statement": "However long after each other the processes of a committee are started, each of them gets connected to all others once they run: a process whose peer does not listen yet waits for it.", "quantifier": "all committee sizes, all starting times, all waiting times given on the command line", "why_tests_cant": "a test starts the parties in one order with one timing", "anchors": ["pkg/core/send.go: MakeSendChannel (lines 23-35)", "cmd/DyCAPs/main.go: main (lines 28-30, 53-58, 86-90, 123-128, 179-183)", "internal/party/party_utils.go: InitSendChannel, InitSendToNextChannel"]}
{"id": "C118", "title": "The herumi back end computes what the default back end computes", "statement": "Built with the tag bignum_hbls, every computation with the scalar functions of the bls package (AsFr, FrFrom32, AddModFr, SubModFr, MulModFr, DivModFr, ExpModFr, EqualFr, EvalPolyAt, BatchInvModFr, FrTo32) returns the scalar, and so the bytes, that the default back end returns, and does not panic.", "quantifier": "all scalars, all expressions built from integers, 32-byte strings, operations, powers and comparisons, all polynomials, all integer exponents, every SetString that reads reduced decimal numbers and rejects other text", "why_tests_cant": "quantifies over all field elements and computations; only one back end is compiled into a test", "anchors": ["internal/bls/bignum_hbls.go: all functions (lines 28-141)", "internal/bls/bignum_kilic.go: all functions (lines 26-135)"]}
{"id": "C119", "title": "InplaceFFT works in place", "statement": "InplaceFFT(vals, out, inv) leaves the transform of vals in out and changes nothing else, also when out is the slice vals itself.", "quantifier": "all settings, all power-of-two lengths up to MaxWidth, both directions, all values, all positions of the two slices in memory", "why_tests_cant": "quantifies over all lengths and field elements; the library calls it with separate slices only", "anchors": ["internal/polycommit/fft_fr.go: simpleFT, _fft, InplaceFFT (lines 11-108)"]}
{"id": "C120", "title": "Key generation shows the keys to nobody", "statement": "GenCoefficientsFile puts the generated signing keys into the two key files (mode 0600) only: its log output does not determine them.", "quantifier": "all committee sizes N and thresholds 2F+1, all generated polynomials", "why_tests_cant": "what a text does not determine is a statement about all keys that give the same text", "anchors": ["internal/party/keygen.go: GenCoefficientsFile (lines 86-123)", "cmd/DyCAPs/main.go: main (line 34)"]}
{"id": "C121", "title": "A refresh adds whole contributions", "statement": "When a member has completed the refresh, its new reduced share is the old one plus, for every resharer agreed on, the contribution of that resharer as a whole: either as recovered or as before recovery (zero, for another party's), but no mixture of the two.", "quantifier": "all committee sizes, all messages, all interleavings of the Refresh loop with the Recover handlers, coefficient by coefficient", "why_tests_cant": "the mixture needs a handler that was waiting for mutexSRec to run between two iterations of a short loop; a test does not control that", "anchors": ["internal/party/ProactivizeAndShareDist.go: Recover handlers (lines 404-417), Refresh loop (lines 464-486)"]}
{"id": "C122", "title": "What a member sends arrives once, unchanged and in order", "statement": "Messages that a member hands to Send for another process are read there, by the goroutines that ask GetMessage for their type and id, each at most once, unchanged, and in the order in which they were sent, whatever other peers write to their connections. The goroutines in between always come to rest; when they do, the process has not been ended by a peer and at most N*N messages of any type and id are unread, then everything sent has been read or is in the queue for its type and id.", "quantifier": "all messages below 4 GB, any number of connections, all interleavings of writers, readers, dispatcher and callers of GetMessage, any bytes from peers that do not run the code, any segmentation of the streams", "why_tests_cant": "a test sees a few messages in the orders its scheduler and the TCP stack produce; the claim is about every interleaving and every segmentation", "anchors": ["pkg/core/send.go: MakeSendChannel", "pkg/core/receive.go: MakeReceiveChannel", "pkg/core/dispatche.go: MakeDispatcheChannels", "internal/party/party_utils.go: Send, GetMessage"]}
{"id": "C123", "title": "A committee can renew its own shares", "statement": "In the role onlyOneCommittee every member gets its share from the client, sends Prepare to its own committee, receives Prepare, sends ShareReduce, receives ShareReduce and refreshes. If all follow the protocol, every call returns, every member completes and any F+1 members reconstruct the client's secret with their renewed shares. If up to F members say anything (every member being heard at most once per phase of the hand-off, no Echo being counted twice, the others getting one value from the agreement, as they do when members only stop in it or when the others decide in one round on coin shares of different members), receiving Prepare does not spoil the commitments a member holds, and any F+1 members following the protocol that complete reconstruct the secret, unless a hash collision or a polynomial vanishing at the setup secret is exhibited.", "quantifier": "all secrets, dealer coins, committee sizes with N >= 3F+1, sets of corrupt members and their messages, senders heard first by each member, agreed sets and refresh executions; the ShareDist goroutines of a member do not overlap (C112)", "why_tests_cant": "The state of a member is overwritten by messages of its peers between two of its own sends; which peers it hears first and what corrupt ones say ranges over an unbounded set of executions, and a wrong share shows only when shares of different members are combined.", "anchors": ["cmd/DyCAPs/main.go:112-162", "internal/party/ShareReduce.go:12-206", "internal/party/ProactivizeAndShareDist.go:15-716"]}
{"id": "C124", "title": "A peer that stops reading does not hold up the others", "statement": "A member that keeps its connections open but reads nothing does not keep the messages of the other members from each other: whatever a member broadcasts or sends reaches all members that read, each message once and those of each goroutine in order, and its calls of Send and Broadcast return.", "quantifier": "all committee sizes, all sizes of TCP buffers, all numbers of goroutines and calls, all messages, all orders in which goroutines, writers and readers run", "why_tests_cant": "the effect shows only after the channel of 1024 messages and the buffers of the operating system are full, and every interleaving of senders, writers and readers counts", "anchors": ["internal/party/party_utils.go: Send, Broadcast, BroadcastToNextCommittee (lines 37-105)", "pkg/core/send.go: MakeSendChannel (lines 36-60)"]}
{"id": "C125", "title": "The queues are large enough for members that follow the protocol", "statement": "In a committee of N >= 2 members that all follow the protocol, in one sharing, one hand-off and one refresh, the queue for which the dispatcher of a member holds a message always has room for it: every message that has arrived gets into its queue although nobody reads that queue any more. A member sends at most N messages for any queue of another member, whatever it receives.", "quantifier": "all committee sizes from 2 on, all executions of the refresh, of its broadcasts and of the agreement (fewer than 2^32 rounds), all orders of arrival, all patterns of reading; the ShareDist goroutines of a member do not overlap (C112)", "why_tests_cant": "goroutines stop reading at different moments and leave different messages behind; that the rest always fits into N*N places is a count over all executions of all sub-protocols", "anchors": ["pkg/core/dispatche.go: MakeDispatcheChannels (lines 12-26)", "internal/party/party_utils.go: GetMessage (lines 107-114)", "internal/party/ProactivizeAndShareDist.go: Recover, Success messages (lines 250-256, 325-330)", "internal/party/RBC.go", "internal/party/main_process.go"]}
{"id": "C126", "title": "Reliable broadcast works for every committee size", "statement": "In a committee of any number of members N >= 3F+1, a message broadcast by an honest member is cut into N shards such that any N-(F+1) of them give back the message, and every honest member returns the message.", "quantifier": "all N and F with N >= 3F+1, all messages, all sets of shards, all executions (proposals from the broadcaster only, no repeated Echo, no wrong shard)", "why_tests_cant": "the code is over a field of 256 elements: which shards are missing, how the message is padded and how many members there are multiply to far more cases than can be run; tests use small committees and never meet the size at which the library gives no encoder", "anchors": ["internal/party/RBC.go: RBCReceive, encoding (lines 76-92)", "internal/party/RBC.go: RBCReceive, decoding (lines 257-275)", "go.mod (line 11)"]}
{"id": "C127", "title": "Shares of any number of epochs together hide the secret", "statement": "If in every refresh at least one contribution was chosen at random by a party that follows the protocol, then the full shares of F members and the reduced shares of 2F members of every epoch together (any members, different ones in every epoch) tell nothing about the secret, however many epochs there are.", "quantifier": "all numbers of refreshes, all secrets, all observed shares, all choices of members per epoch, all other contributions (chosen by the adversary)", "why_tests_cant": "secrecy against an adversary that moves from member to member is a statement about the number of random choices that explain an observation of unbounded length", "anchors": ["internal/party/client.go: Share", "internal/party/ProactivizeAndShareDist.go: ProactivizeAndShareDist"]}
{"id": "C128", "title": "Someone who only reads the traffic does not learn the secret", "statement": "Someone who takes part in nothing, holds no key and only records the bytes on the TCP connections of the client and the members (sharing, hand-off, refresh) cannot compute the secret from them.", "quantifier": "all secrets, all random choices of the dealer, all setups, all recorded connections, whatever other messages they carry", "why_tests_cant": "a test sees that messages arrive; what a third party can compute from the bytes of all honest executions is a statement about all secrets and all random choices", "anchors": ["pkg/core/send.go: MakeSendChannel", "internal/party/client.go: Share", "internal/party/ShareReduce.go: ShareReduceSend", "internal/party/ProactivizeAndShareDist.go: ProactivizeAndShareDist"]}
{"id": "C129", "title": "A member that has handed off its share no longer holds it", "statement": "When a member of the old committee has completed the hand-off, its process no longer holds its share: getting into old members one after the other after the hand-off, however many, gives nothing from which the secret can be computed; and a member that renews its share in place keeps nothing of the former one.", "quantifier": "all secrets, all random choices, all committee sizes, all executions of the processes of cmd/DyCAPs, all sets of members entered", "why_tests_cant": "a test compares results; that nothing of a past value is left in the state of a process, for every value and every execution, shows in no result", "anchors": ["cmd/DyCAPs/main.go: main (lines 38-78, 111-165)", "internal/party/ShareReduce.go: ShareReduceSend", "internal/party/ProactivizeAndShareDist.go: ProactivizeAndShareDist (line 662)", "internal/party/VSS.go: VSSShareReceive (line 68)"]}
{"id": "C130", "title": "Whatever it has received, a member's state keeps its shape and it can hand over", "statement": "Start with NewHonestParty and make any sequence of the calls VSSShareReceive, PrepareSend, PrepareReceive, ShareReduceSend, ShareReduceReceive and ProactivizeAndShareDist, on any messages. If the calls return, then afterwards N, F, PID, the KZG setup and the Lagrange table are unchanged, the stored proof has 2F+2 entries, the full share 2F+1 coefficients, the reduced share F+1, there are 2F+1 witnesses and 2F+1 witness indices, and the indices are at most 2F+1. So with N >= 3F+1 a call of ShareReduceSend returns with one message for each of the N members of the next committee, no read of the stored proof is out of range, and the Refresh loop does not run out of coefficients.", "quantifier": "for all N, F, member numbers, sequences of calls, contents of all messages received, random choices and schedules of the refresh", "why_tests_cant": "the sequences of calls and the messages of corrupt members are unbounded", "anchors": ["internal/party/party.go:123-199", "internal/party/party_utils.go:151-156", "internal/party/ShareReduce.go:14-60", "internal/party/ShareReduce.go:171-206", "internal/party/VSS.go:31-74", "internal/party/ProactivizeAndShareDist.go:492-504", "internal/party/ProactivizeAndShareDist.go:627-676"]}
{"id": "C131", "title": "The integer back ends compute what the default back end computes", "statement": "Built with the tag bignum_pure or bignum_hol256, every computation with the scalar functions of the bls package (AsFr, FrFrom32, AddModFr, SubModFr, MulModFr, DivModFr, ExpModFr with an exponent that is not negative, EqualFr, EvalPolyAt) holds the reduced representative of the scalar that the default back end holds, so comparing stored integers is comparing scalars. A negative power is the power of the inverse; of zero it leaves the destination of bignum_pure alone and is a panic in bignum_hol256.", "quantifier": "all expressions built from integers, 32-byte arrays, operations, powers and comparisons; all polynomials at all points; all scalars with all integer exponents and all old contents of the destination", "why_tests_cant": "quantifies over all field elements and all computations; only one back end is compiled into a test", "anchors": ["internal/bls/bignum_pure.go: all functions (lines 25-136)", "internal/bls/bignum_hol256.go: all functions (lines 25-147)", "internal/bls/globals.go: EvalPolyAtUnoptimized (lines 79-98)"]}
{"id": "C132", "title": "SetFr reads the same number on every back end", "statement": "For every text, SetFr stores the same scalar on the back ends bignum_kilic, bignum_pure and bignum_hol256, or fails on all of them; what FrStr prints is read back.", "quantifier": "all texts (digits, signs and base prefixes; no underscores), all numbers", "why_tests_cant": "the texts that are read differently (a leading zero, a minus sign, numbers from r on) do not occur among the constants of the tests, and only one back end is compiled into a test", "anchors": ["internal/bls/bignum_pure.go: SetFr, FrStr (lines 53-65)", "internal/bls/bignum_hol256.go: SetFr, FrStr (lines 25-33, 69-74)", "internal/bls/bignum_kilic.go: SetFr, FrStr (lines 28-32, 70-75)"]}
{"id": "C133", "title": "Broadcast: no call fails next to one that succeeds", "statement": "With an honest broadcaster, if RBCReceive returns the message at one honest party then at no honest party does RBCReceive of the same instance panic, return nil or return anything else.", "quantifier": "all committees with N >= 3F+1 and F >= 1, all honest broadcasters, all messages, all sets of honest parties, all executions", "why_tests_cant": "needs a corrupt party that reports a wrong shard to some parties before the honest Readys reach them; the tests have honest parties only", "anchors": ["internal/party/RBC.go: RBCReceive (lines 240-300)", "internal/party/RBC.go: RBCSend"]}
{"id": "C134", "title": "Printed polynomials can be told apart", "statement": "PolyToString gives the same text for two coefficient lists only if they are the same polynomial, and zero coefficients at the end of a non-empty list do not change the text.", "quantifier": "all coefficient lists of all lengths over the scalar field", "why_tests_cant": "the tests only print polynomials for a person to read; the claim is about all pairs of lists", "anchors": ["internal/party/party_utils.go: PolyToString"]}
{"id": "C135", "title": "Storing a proof copies all of it", "statement": "Pi.Set gives the receiver the public value and the entries 1..2F+1 of the source and leaves the rest of the receiver alone; a proof read from a dealer's message is stored whole in a receiver as Init leaves it. With fewer than 2F+2 entries on either side it panics.", "quantifier": "all proofs, receivers, F and dealer messages", "why_tests_cant": "the tests store proofs of the right size of one honest dealer", "anchors": ["internal/party/party_utils.go: Pi.Set", "internal/party/party_utils.go: Pi.SetFromVSSMessage", "internal/party/VSS.go: VSSShareReceive"]}
{"id": "C136", "title": "A process keeps no more messages than its own goroutines have asked for", "statement": "However many messages peers send: at most 1024 messages wait in each channel that Send writes to and in the receive channel; a Send goes on exactly when fewer than 1024 messages wait in its channel; a queue of the dispatcher holds at most N*N messages; and the unread messages in all queues together number at most N*N for every (type, id) pair that a goroutine of the process has asked GetMessage for.", "quantifier": "all N, all peers and messages, all interleavings of the goroutines between Send and GetMessage", "why_tests_cant": "the tests send only messages that somebody asks for, and far fewer than the channels hold", "anchors": ["pkg/core/dispatche.go: MakeDispatcheChannels", "pkg/core/send.go: MakeSendChannel", "pkg/core/receive.go: MakeReceiveChannel", "internal/party/party_utils.go: Send, GetMessage"]}
