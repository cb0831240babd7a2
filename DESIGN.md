# DyCAPS: design of the Lean model and proofs

Target: the Go sources in /repo (read as text, never run). Toolchain: Lean 4.33.0 with Mathlib.
Lake project: `lean/`, modules under `lean/Verif/`.

## 1. Layout

| directory | contents |
|---|---|
| `Verif/Model/*` | definitions that transcribe the Go functions; every definition cites file and lines |
| `Verif/Spec/*` | the small independent vocabulary in which properties are stated (polynomial evaluation, degree, "is an opening of", quorum, ...) |
| `Verif/Lemmas/*` | helper lemmas about the model |
| `Verif/Props/*` | the property theorems `Cxx_...`, with concrete non-trivial `example`s beside them; those that need data of a later file are at the end of `Props/Epoch` (refresh) and in `Props/Cases`, `Props/Instances` and `Props/MoreCases` |

## 2. Modelling conventions

* **Scalars.** `Fr` is `ZMod r` with `r` the literal modulus of `internal/bls/globals.go`; `r` is proved prime, so `Fr`
  is a field. The stored words (Montgomery form) of the default back end are modelled in `Model/Kilic`, and C104 shows that the
  functions of `bignum_kilic.go` and `bls_kilic.go` act on them as `ZMod r` does; the library's operations on words are trusted.
  Definitions are polymorphic in a field `K` where nothing about `r` is needed; theorems are then specialised to `Fr`.
* **Groups.** G1, G2, GT are `K`-modules, written additively, with a bilinear map `e` (structure `Pairing`).
  Group operations of the library (`AddG1`, `MulG1`, `LinCombG1`, `PairingsVerify`) are the module operations.
  Two instances are used: the *discrete-log* instance (`G1 = G2 = GT = Fr`, every cyclic group of order `r` is of this
  form) and the *algebraic* instance (`G1 = G2 = GT = Fr[X]`, setup secret = the indeterminate), in which an
  adversary's group elements are known linear combinations of the setup powers; this expresses the usual algebraic group model.
* **Slices** are `List`s; a loop that fills a slice is a `map` over `List.range`; a loop that updates in place is a fold with `List.set`.
* **Go failures.** `Go α := Except Fault α` with `Fault.panic` (index out of range, nil dereference, explicit `panic`)
  and `Fault.fatal` (`log.Fatal*`). Wherever a failure can be reached from inputs the branch is explicit.
* **Concurrency.** Goroutines and channels are state machines whose steps are the lock/channel-granular actions of the source;
  network and scheduler are arbitrary (any step sequence).
* **Crypto.** SHA-256 is an arbitrary function; conclusions say "equal or a collision". Threshold BLS is either algebraic
  (shares are evaluations in the exponent) or ideal (a signature exists iff enough distinct parties signed), stated per theorem.
* **Randomness** is an explicit argument.

## 3. Per-property plan

| id | modelled | how proved |
|---|---|---|
| C01 | `pkg/utils/utils.go` byte conversions over `List UInt8` | arithmetic on digits base 256 |
| C02 | `ValidFr` limb comparison, `FrTo32`, `FrFrom32` (kilic) | limb comparison = numeric comparison; base-256 digits |
| C03 | `MakeSendChannel` writer, `MakeReceiveChannel` reader loop as a byte-stream automaton | induction over the stream |
| C04 | proto3 wire encoding of every message of `Message.proto` (varint, tags, length-delimited), decoder with unknown-field skipping | round trip per field kind, composed |
| C86 | the same decoder, with what is kept when the returned error is ignored (`unmarshalD`) | decoding is monotone under appending; false for every type |
| C05, C06 | dispatcher and `GetMessage` as a state machine over per-(type,id) queues of capacity N*N | invariant over all step sequences; C06 is false: witness |
| C07 | `Send`, `Broadcast*` over a vector of queues | direct |
| C08 | modulus, root table, `AsFr` | Lucas certificate checked by kernel arithmetic; orders by squaring |
| C09 | `EvalPolyAtUnoptimized` | Horner induction |
| C10 | `LagrangeInterpolate`, `mulPolyDegreeOne`, `divPolyDegreeOne` | product/quotient identities, uniqueness from root counting |
| C11, C12 | `GetLagrangeCoefficients`, `InterpolateComOrWit*` | Mathlib Lagrange basis |
| C13 | `polyLongDiv` in-place loop | loop invariant; a zero leading coefficient of the divisor gives zero quotients without an error |
| C14-C17 | `CommitToPoly`, `ComputeProofSingle`, `CheckProofSingle`, `GenerateTestingSetup` | bilinearity; algebraic instance for binding; C16 is false: the secret is a literal in the source |
| C18-C22 | `Client.Share`, `VSSShareReceive`, `VerifyVSSSendReceived` | polynomial identities; C20 and C22 are false: witnesses; C21 by a bijection on dealer randomness |
| C23-C25 | `PrepareSend/Receive`, `ShareReduceSend/Receive` as folds over the arrival sequence | counting; C24 false: witness |
| C26-C31 | `ProactivizeAndShareDist` phases | polynomial identities, state machine for Recover/Refresh; C27, C30, C31 false: witnesses |
| C32-C34 | `RBCSend`, `RBCReceive` as per-party state machine in an asynchronous network | quorum intersection invariant; C33 false: witness; termination under fairness by a decreasing potential |
| C35, C36 | `SigKeyGen`, kyber `Recover` algebra | Lagrange at 0; C36 false for every key with non-zero leading coefficient |
| C37-C41, C61-C65 | `Sender`, `Receiver`, `SPB*`, `MainProcess`, `messageHandler` | quorum invariants over all executions; a second invariant for crash faults; C38-C41, C62-C65 false: executions checked by evaluation in the kernel, and for C38, C39 and C62-C65 executions in committees of every size built from steps from arbitrary states (`Lemmas/MVBASplit`, `Props/Split`, `Props/SplitLate`) |
| C83 | the same machine, without corrupt parties, `MSettled` (`Spec/Agreement`) | a liveness invariant per (party, round) over all executions; false: a deadlocked execution checked by evaluation in the kernel, and one in committees of every size for every split of the votes that the positive theorem leaves open (`Lemmas/MVBAStuck`, `Props/Stuck`); every finished execution without a round of split votes ends with all parties returned |
| C84 | `proactStep`, `rbcStep` and `mvbaStep` together (`Spec/Epoch`) | the events `commit j d` and `mvba v` of each party are what its broadcast instances and its agreement returned; C32, C39 and C29 combined; false in general: the execution of C39 joined with a contribution chosen for it |
| C85 | all members run `proactStep` (`Model/RefreshNet`), given what the members sent | an invariant per phase over all executions; each step uses up an event that cannot recur (bound and termination); false: for every size a scripted order of messages after which nobody completes |
| C97 | `proactStep`: N receivers each for Reshare and ShareDist messages (`Props/Blocking`) | false: invariants count the messages taken and trace votes and collected shares to their senders; every continuation after N messages of one sender |
| C98 | `proactStep`, `Model/RefreshNet` | false: an invariant shows that the wait of the Refresh loop has no end; a scripted order of messages for every size; C85 for the other parties |
| C99 | `rbcStep`, `netStep` (`Props/OneVoice`) | false: two executions with the code of the library (`rsCode`) checked by evaluation in the kernel, an execution with two different Readys for every committee size and every two shards (`Lemmas/RBCTwoReady`) and one with the same Ready twice and no corrupt party (`Lemmas/RBCTwiceSame`); an invariant assigns every Ready sent to the Echo handler or to the wait of the Ready handler |
| C100 | `mvbaStep` (`Spec/OneVoice`, `Lemmas/MVBAOnce`) | every message leaves a mark in the variables of its round, the marks stay, and a step that sends has found its mark missing |
| C101 | `proactStep`, `rbcStep`, `mvbaStep` (`Props/Final`) | invariants over all executions of one party with arbitrary events |
| C102 | `proactStep` (`Spec/Traffic`, `Props/Final`) | messages sent plus receivers left are at most N; flags for the call and the report |
| C103 | `vssShareReceiveFrom`, `clientShare` (`Props/VSS`) | false: C18 applied to the sharing of the faster member; C18 itself when the client's message is first |
| C88 | dealer and contribution coins, `refreshed` (`Props/Proactive`) | shift both dealings by multiples of polynomials with the required zeros; a bijection on the coins |
| C89 | all of C57 and the Reshare messages | false: an explicit computation of the secret from F old and one new member's data; true when the numbers coincide: the same shift |
| C87 | `mvbaStep` (`Props/Validity`) | false: scripted phases at all honest parties, for any size, any proposals and any byte string; true without corrupt parties: a certified value is the proposal of the leader in that round, by induction on the round |
| C90 | `proactStep` and `mvbaStep` together (`Props/Contribution`) | false: the execution of C87 with the empty value, and a run of every honest party that completes with unchanged shares; true for submitted values: an invariant of the Recover handlers |
| C42-C45 | `FFT`, `InplaceFFT`, `FFTG1`, `DASFFTExtension` (`Model/FFT`), `reverseBitOrder` (`Model/BitRev`) | the recursion computes the transform; C45 false for settings of another size: witness |
| C46, C47, C67 | `ZeroPolyViaMultiplication`, `RecoverPolyFromSamples` (`Model/Recover`) | invariant of the reduction tree; shifted polynomial division; C47 false when nothing is missing, C67 false: witness |
| C48 | `EvaluatePolyInEvaluationForm` | barycentric formula; false on the domain: witness |
| C49, C68 | `ComputeProofMulti`, `CheckProofMulti` (`Model/FK20`) | coset interpolation = remainder modulo X^n - x^n; C49 false for more than 2n coefficients: witness; at x = 0 only the mean of the values is checked |
| C50, C69 | `FK20Single`, `FK20Multi`, the data-availability variants and their settings (`Model/FK20`) | cyclic convolution theorem in modules, telescoping quotient; C69 false for `FK20Multi`: panics on every input with chunks of two or more coefficients; right for chunks of one |
| C70-C72 | `bignum_pure.go`, `bignum_hol256.go`, `AsFr` of `bignum_hbls.go` (`Model/Backends`) | loop invariant of the swap loop with index checks; residues; C70, C72 false: witnesses |
| C104-C106 | `bignum_kilic.go`, `MulG1`, `MulG2`, `LinCombG1`, `PairingsVerify` of both curve back ends (`Model/Kilic`) | words as multiples of 2^256; induction on expressions; decimal digits; C105 false: the sign is lost and failures are dropped; (p^12 - 1)/r and r have no common factor |
| C118 | `bignum_hbls.go` (`Model/Hbls`; `SetString` of the library is a parameter with the contract `HblsLib.Good`) | induction on expressions; integer powers through decimal text; false: empty polynomial, negative power of zero, `AsFr` from 2^63 |
| C131, C132 | the rest of `bignum_pure.go` and `bignum_hol256.go` (`Model/BackendsCalc`; text with `_` is not modelled) | induction on expressions; the Horner loop on reduced integers; digits read in another base; C132 false: a leading zero is octal, no reduction, the sign |
| C119 | `simpleFT`, `_fft`, `InplaceFFT` on slices of one memory (`Model/FFTMemory`) | false: the butterflies can be undone, so an error in the first block of four stays; the part that holds: induction on the recursion |
| C120 | the log of `GenCoefficientsFile` (`Model/Setup`) | false: interpolation of the logged shares gives the coefficients; the part that holds: fewer shares fit every key (C74) |
| C107-C109 | `DeleteZero`, `DeleteZeroWithLen`, `PolyLinComb`, `PadCoeff` | loop invariants; C107 false for bytes that end with a zero |
| C110, C111 | `proactStep` (`Props/Account`) | invariants that trace stored points to messages: every stored point, its message, the commitment it was checked against and where that commitment came from |
| C112 | `distStep` (`Model/DistRace`, `Props/DistRace`) | the ShareDist goroutines read by read and write by write, with slices as headers that point to shared arrays: explicit schedules for the five failures (found in a simpler machine with lists and carried over by a simulation, `Lemmas/DistSim`), an invariant over all schedules, blocks of one goroutine |
| C121 | `fineStep` (`Model/RefreshRace`, `Props/RefreshRace`) | the Refresh loop coefficient by coefficient next to the events of `proactStep`: an explicit schedule for every size and every place of the interruption, an invariant over all schedules |
| C113 | `proactStep`, `PEvent.ofMessage`, `RefReach` (`Props/Report`) | counter of Success messages as an invariant; in a committee nobody takes more of them than members have reported |
| C114 | `clientShare`, `vssShareReceive`, `shareReduceSend`, `prepareReceive`, `shareReduceReceive`, `proactStep`, `rbcStep`, `mvbaStep` together (`Spec/Takeover`, `Props/EpochCorrupt`) | C18, C23 and C25 give every new member the commitments of one polynomial whatever F old members send; C84 takes over from there |
| C115 | `mvbaStep` (`Spec/Agreement`, `Props/MVBALive`) | the invariant of C83 for the parties that go on, counting only them; false: an execution checked by evaluation in the kernel, and one in committees of every size for every choice of the parties that go on (`Props/LostHalt`) |
| C116 | `cStep` (`Model/Connect`: `MakeSendChannel`, `MakeReceiveChannel` and the calls of `main`) | false: an invariant of all executions and induction along chains of connections; the part that holds: the first end of a process is a `stop` or a failed connection attempt |
| C117 | `cStep`, `TRun` with a clock (`Model/Connect`) | false: an execution for all waiting times, and an invariant of everything that follows; the part that holds: C116 and the order of times |
| C122 | `pathStep` (`Model/Path`: send channels, writers, byte streams, readers, dispatcher and `GetMessage` together) | an invariant that follows every byte and attributes every arrival to a connection, with C03 and C05; a measure of the steps still to do |
| C123 | the role `onlyOneCommittee`: `prepareReceive`, `shareReduceSend`, `shareReduceReceive`, `PRun` on one committee | the commitments adopted are those of a member following the protocol (C23), so the member still holds everything for ShareReduce (C25); then C84 or C29 |
| C124 | `outStep` (`Model/Outbound`): goroutines in `Send` and `Broadcast`, send channels of 1024 messages, writer goroutines, `room` bytes of TCP buffers per connection | false: one peer that does not read stops every broadcast; counting what fits on the way to it |
| C125 | `dStep` with the messages of `PRun`, `NRun` and `MLocal` by queue (`Spec/Clog`) | bounds of C99, C100, C102, keys of C91, sum over the members |
| C126 | `rsCode` (`Model/RS`, `Model/GF256`: the erasure code of `reedsolomon.New`, byte arithmetic by tables), `NRun` | the tables give a field (both tables checked entry by entry, distributivity by repeated doubling); shards are values of polynomials, Lagrange interpolation; false: without an encoder the first proposal ends a member |
| C127 | `refreshed` iterated (`Spec/Refresh`), dealer coins (`Props/VSS`) | a shift of the coins of the dealer and of one contribution per refresh that changes the secret and vanishes at all shares seen, epoch by epoch |
| C128 | `sendStream`, `recvBytes`, `clientShare`, `shareReduceSend`, `shareDistMsg` (`Spec/Tap`: what an observer of a connection computes) | false: the observer decodes the frames and interpolates twice; for the part, the recorded values of F connections are the shares of C21 |
| C129 | the calls of `main.go` on one party state (`Model/Process`), `shareReduceSend`, `shareReduceReceive`, `proactStep` | false: after the calls of the role `oldCommittee` the state is the one after VSS; after a renewal in place the stored commitments and witnesses still accept exactly the former share; for the part, the step functions do not read the full share and the completed refresh overwrites it |
| C130 | `ProcRun` with the shape of `Spec/Shape` (`Props/Room`) | invariant of every call and of every step of the refresh; totality of the interpolations from the sizes |
| C73, C74 | `keygen.go`, key set-up in `main.go` (`Model/Setup`) | round trip of scalars; C74 false: the process runs `Sign` and `Recover` with the shares it has read; hiding by a polynomial with roots at the known shares |
| C91 | arguments of all `GetMessage` calls (`Model/Program`), dispatcher | a broadcast identifier is cut at its last comma, the others have suffixes of fixed length; composition with C05 |
| C92 | `mvbaStep`, calls of `main.go` (`Model/Program`) | false: replay of the coin shares and a Halt message of any earlier execution; true for different identifiers: C35 and C61 |
| C93 | key set-up in `main.go`, Done handler | false: the coin signature computed from the files is the one of C63; hiding as in C74 |
| C94 | `main.go`, `test_multiCommittee.sh` (`Model/Program`) | false: evaluation of the role switch for the names in the script, for every n |
| C95, C96 | the RBC machine with a corrupt broadcaster, and `RBCSendExclude` as an event of the network | every finished execution with one returned party and one proposed value ends with all returned; false: C95 by an execution with the code of the library (`rsCode`) checked by evaluation in the kernel and continued for ever, and for every committee with `F ≥ 2` by a scripted execution with an honest broadcaster, C96 for every committee by a scripted execution |
| C133 | the RBC machine, one corrupt party | the invariant behind C95 says that no call fails while no wrong shard is reported; false otherwise: for every committee and every set of honest parties a scripted execution in which the calls of exactly these parties fail |
| C134, C135 | `PolyToString` (`Model/PolyText`), `Pi.Set` (`Model/PiSet`) | splitting the text at its first blank, induction on the degree; fold invariant |
| C136 | the path of a message (`Model/Path`), `asked`, `unread` (`Spec/Held`) | false: what one peer sends is queued under the type and id it names, by C122; the sizes of channels and queues are an invariant of all executions |
| C75 | `bls_all.go` text codecs (`Model/Setup`) | induction on the text; the digit table is a whole finite table |
| C76-C79 | `GetScaleByCommitteeSize`, `GetSamples`, `CommitToEvalPoly`, address lists of `main.go` (`Model/Setup`) | case analysis in 32-bit arithmetic; fold invariant; moving the transform from points to scalars; C79 false: witness |
| C80-C82 | `legacy_recovery.go` (`Model/Legacy`) | the recursion for the zero polynomial by odd and even positions; batch inversion; C80, C82 false: every case classified |
| C66 | guard of `reverseBitOrder` | false: witness |
| C51 | the frame reader (`Model/Framing`), the path of a message (`Model/Path`) | false: in every state of the reader the end of the stream ends the process, and after every execution five bytes on a new connection do; true: of byte streams on open connections, exactly those with a complete frame that does not decode (after frames that do) end the reader; bytes are read in the order written. Not covered there: a peer that runs the writer goroutine and also writes other bytes on the same connection |
| C52, C53 | as C18-C22 | C52: false, a message with published witnesses; true for an honest client; C53: false, two messages; accepted shares under the same commitments determine one polynomial |
| C54 | `ShareReduceReceive` | false: witness with forged sender ids |
| C55, C56 | Recover handler | false: witnesses |
| C57 | composition of C18, C23, C25 and C29 | one theorem about a whole epoch |
| C59 | as C21, with reduced shares | shift by a product of root polynomials |
| C60 | `RBCReceive` | false: an empty proposal panics |
| C58 | `checkSendChannelsInit` | false: the slices exist from construction on |

### Security statements

Statements about malicious senders have the form "the property holds, or *this explicit polynomial* is nonzero and vanishes at
the setup secret `t`". The polynomial is computed from a representation of the group elements the adversary sent (algebraic prover:
`RunAlg`, `CommitRep`, `OpeningReveals` in `Spec/RefreshRun`); an existential "some polynomial vanishes at t" would be trivially true
and is never used. `C29_honest_reveals_nothing` shows that in honest runs the second alternative is false.

### Event model of Proactivize (`Model/Proactivize`)

One party is a machine `proactStep` over events: an RBC instance delivering a Commit or NewCommit, arrival of a Reshare / Recover /
ShareDist / Success message, hand-over of a Recover message to its handler, one handler turn, MVBA returning, one iteration of the Refresh loop.
A run `PRun` is any finite sequence of enabled events. Simplifications: a handler turn is atomic (`Model/DistRace` has the finer steps of ShareDist, whose variables no mutex protects; C112 refutes that this is harmless, so C84, C85, C98, C101, C110, C113 and C114 are about executions in which the ShareDist goroutines of a member do not overlap; `Model/RefreshRace` has the steps of the Refresh loop coefficient by coefficient; C121 refutes that this makes no difference, so the properties of Proactivize are about executions in which no Recover handler runs in the middle of an iteration of the Refresh loop); a blocked goroutine is an event that is not
enabled. N goroutines take one Reshare message each and N goroutines one ShareDist message each, from any sender; one whose sender has not been verified yet waits for a token that only one
waiting goroutine gets (events `vote` and `dist`). The Refresh loop looks at `flgCom[j]` once and then waits for the recovery or goes on; RBC and MVBA enter through the value they return (their
own properties are C32-C41); goroutines that poll a flag are enabled when the flag is set.

### A whole committee (`Model/RefreshNet`)

A state holds every party's fields, local variables, past events and sent messages. Members are given, in any order, what members have sent: each Reshare, Recover and ShareDist message
at most once, and no more Success messages than members have sent. Reliable broadcast and MVBA are ideal in C85: a broadcast gives every member the bytes of its sender, MVBA gives all members one
value that a member submitted (C32-C41 say how far the code provides this). Parties that are not members send nothing.

### Dispatcher (`Model/Dispatch`)

Maps and channels are heap objects with addresses. The two `LoadOrStore` calls of the dispatcher and of `GetMessage` are separate steps, so any
number of consumers can interleave with them. A push into a full channel is not enabled. For sending, a call on a full or nil channel is the outcome
`blocked`; the goroutine that empties the queue onto TCP is `Model/Framing`.

### The path of a message (`Model/Path`)

One receiving process with any number of connections: the send channel of each peer, the bytes on the stream, the reader goroutine (which reads byte by byte and waits with a message in hand while the receive channel is full) and
the dispatcher machine above. Peers that do not run the code write any bytes. The connections have been made and stay open.

### Sending to peers that may not read (`Model/Outbound`)

The sending side of one process: any number of goroutines calling `Send` and `Broadcast` one call after the other, the send channels, the writer goroutines and TCP with room for `room` unread bytes per connection. Calls with a
destination out of range (C07) and before the connections exist (C58) are left out.

### Connections (`Model/Connect`)

One state holds all processes of a deployment, their connections and the numbers of messages on them and in the receive queues. Any process may end at any time; the others notice it when their reader gets to the end of the stream
or a write fails. The addresses in the lists are distinct and listening succeeds. The protocol models above assume that connections stay open: a party that stops there is one that sends nothing more.

### Reliable broadcast (`Model/RBC`)

Four goroutines per party with explicit program positions; every access to a shared variable, lock and channel operation is a step of its own. The network `NRun` delivers any message of a
corrupt party under the corrupt parties' names, and any message an honest party has sent, any number of times and in any order. Senders are not authenticated by the code; without this assumption
nothing holds, so it is part of `netStep`. The Reed-Solomon library enters through the contract `REnv.Ok` (systematic code, any k correct shards determine the rest, present shards are kept);
`rsCode_ok` shows that the code of `Model/RS` (GF(256) with the tables of the library, Vandermonde matrix made systematic) satisfies it for 2 to 256 members. `Settled` is an execution that has come to its end; `IRun.Fair` is an infinite execution in which every step of an honest party, and every delivery between honest parties, that is possible again and again happens.

### Threshold signatures (`Model/Tbls`)

The kyber library is not in the repository; `Sign`, `VerifyPartial`, `Recover`, `RecoverCommit` and the key polynomials are transcribed from its documented behaviour, over an arbitrary
bilinear group with cyclic G1 and a non-degenerate pairing. Hashing to the curve is an arbitrary function. Versions of the library differ in whether `Recover` skips an invalid share or gives up;
this is a parameter (`strict`) and no theorem depends on it.

### Agreement (`Model/MVBA`)

`mvbaStep` is one party of the sMVBA protocol: one event is one message handled by the handler goroutine of its (type, round), one action of a broadcast goroutine or one step of the main process (the places where
it waits on a channel). Handlers of all rounds up to the current one run concurrently; the code never stops them. A handler that the code lets wait (for the leader) is an event that is not enabled. `log.Fatalln` and index
errors set `dead`. The network `MRun` is asynchronous: a corrupt party may send any message whose signature fields are `Genuine`, that is, contain no share of an honest party that has not signed, and no combined
signature with fewer than 2F+1 signers (counting all corrupt parties as signers). Signatures from earlier executions under the same keys and identifier are thereby excluded as well; C92 shows that the program does
not exclude them when it is run twice with the same key files (`test_multiCommittee.sh` generates new ones at each start). Two switches say whether the network authenticates and whether it repeats messages of honest parties; the theorems that need neither
are stated for all settings, and all refutations are for the strongest network. The signature scheme is the record `MEnv` with the contract `SchemeOk`; `kyber_schemeOk` derives the contract for the transcribed
kyber scheme, and `Toy.schemeOk` for a computable scheme in which the refuting executions are evaluated by the kernel.

`MSettled` says that an execution is over: no party whose `MainProcess` has not returned has an enabled event, and every message between parties was handled by it or is one whose handler does not take it (a handler
that has stopped, or that does not exist yet because the round was not started). It is a statement about finite executions; an execution that runs through infinitely many rounds (an unlucky coin) never settles.

### Transforms (`Model/FFT`, `Model/Recover`)

The FFT works on slices with an offset and a stride; the model keeps offset and stride and reads from one list. `FFTG1` is modelled for any module over the field, and `InplaceFFT` is the
instance where the module is the field. In `ZeroPolyViaMultiplication` the leaves are slices of one array; the model keeps the array and gives each leaf as (offset, length). The random-access
scratch array is not part of the state because every call overwrites what it reads. `uint64` overflow of lengths is not modelled (all lengths are at most 2^31).

`Model/FK20`: a slice that is re-extended into its capacity (`h = h[:n2]`) is modelled by keeping the capacity; the entries beyond the old length are all overwritten by the code. Points are elements of any
module over the field.

### Sizes

`PointCodec.enc_len` bounds an encoded point by 48 bytes; where a payload must fit the 32-bit length field the theorems assume `F ≤ 2^20`.

For a property the code violates, the claim is kept in full in `properties.jsonl`; the manifest lists a theorem proving the
negation with a concrete witness and a `_partial` theorem with the strongest part that holds.

## 4. Trusted base

* The Lean 4 kernel and the axioms `propext`, `Classical.choice`, `Quot.sound` (checked with `#print axioms` for every property theorem).
* The transcription of the Go sources into `Verif/Model` (by reading).
* The contracts assumed for libraries that are not in the repository: kilic/bls12-381 (field and group operations), protobuf-go
  (proto3 wire format), klauspost/reedsolomon (that it computes the code of `Model/RS`; what that code guarantees is proved), kyber tbls/bls, SHA-256, Go runtime (channels, mutexes, scheduling).

Not modelled: TCP below the level of connections (`Model/Connect` has connecting, streams ending, and lost writes), logging (except what `GenCoefficientsFile` prints, C120), metadata/timing files, command line parsing (the flags `op1`, `op2` are arguments of `mainCalls`), the encodings of `encoding/gob` (a file is the value written to it), the curve operations of the herumi back end except its pairing check (`bls_hbls.go`), `RandomFr` of the other back ends.
