import Mathlib.Data.Finset.Card
import Mathlib.Data.Finset.Range
import Verif.Model.Bytes

/-!
# Multi-valued agreement (`internal/party/{pb,spb,main_process,message_handler}.go`)

One party's `MainProcess` with all its goroutines is one machine. A step is one message handled by the goroutine waiting for it, or one internal action; a goroutine that waits has no
enabled step. Goroutines of earlier rounds stay alive, as in the source (their context is cancelled only when the party decides; even after that a `select` may still take a message, so they
may go on here too).
Simplifications: a goroutine's reaction to one message is one step; the message queues of the dispatcher are not represented, any message may be handed over at any time; of the values pushed
into `preVoteFlagChannel`/`voteFlagChannel` only the first of a round is ever received, so only that one is kept; the two pushes into `doneFlagChannel` (capacity 1, one receive) are a flag;
decoding errors do not exist (`Decapsulation` yields empty fields, which is one of the possible contents); rounds are natural numbers (in the source a uint32 that could wrap).
-/

namespace DyCAPS

/-- The byte strings that are signed, by meaning: `"Echo"||ID||r||j||stage||h` (pb.go:26-31,71-76, spb.go:56-66, message_handler.go), `"Done"||ID||r` (main_process.go:159-162),
`0||ID||r` (main_process.go:185-188) and `"Unlock"||ID||r` (message_handler.go:162-165). See `SMsg.bytes`. -/
inductive SMsg where
  | echo (r j stage : ℕ) (h : Bytes)
  | done (r : ℕ)
  | no (r : ℕ)
  | unlock (r : ℕ)
  deriving DecidableEq

/-- `IDr` of main_process.go:45-48. -/
def idRound (ID : Bytes) (r : ℕ) : Bytes := ID ++ uint32ToBytes (UInt32.ofNat r)

/-- `IDrj`, main_process.go:50-56. -/
def idInstance (ID : Bytes) (r j : ℕ) : Bytes := idRound ID r ++ uint32ToBytes (UInt32.ofNat j)

/-- The signed bytes. pb.go:26-31,71-76, main_process.go:159-162,185-188, message_handler.go:162-165. -/
def SMsg.bytes (ID : Bytes) : SMsg → Bytes
  | .echo r j stage h => [69, 99, 104, 111] ++ idInstance ID r j ++ [UInt8.ofNat stage] ++ h
  | .done r => [68, 111, 110, 101] ++ idRound ID r
  | .no r => [0] ++ idRound ID r
  | .unlock r => [85, 110, 108, 111, 99, 107] ++ idRound ID r

/-- What is fixed: committee, SHA3-512, and the signature scheme. `share m s = some i`: `VerifyPartial` accepts `s` and its index is `i`. `cert`: `bls.Verify` under the public
key. `recover`: `Recover` with threshold `2F+1`, `none` is an error (the caller then uses the nil slice). `p.N`, `p.F`, `p.SigPK`, `p.SigSK` of internal/party/party.go. -/
structure MEnv where
  N : ℕ
  F : ℕ
  hash : Bytes → Bytes
  sign : ℕ → SMsg → Bytes
  share : SMsg → Bytes → Option ℕ
  cert : SMsg → Bytes → Bool
  recover : SMsg → List Bytes → Option Bytes

/-- The protobuf messages of the protocol; `r`, `j`, `stage` come from the `Id` field. pkg/core/message_encapsulation.go:12-84. -/
inductive MMsg where
  | value (r j stage : ℕ) (v val : Bytes)
  | echo (r j stage : ℕ) (sh : Bytes)
  | finish (r : ℕ) (v sig : Bytes)
  | done (r : ℕ) (sh : Bytes)
  | halt (r : ℕ) (v sig : Bytes)
  | prevote (r : ℕ) (yes : Bool) (v sig : Bytes)
  | vote (r : ℕ) (yes : Bool) (v sig sh : Bytes)
  deriving DecidableEq

/-- Position of an `SPBReceiver` (spb.go:37-54): in the first or the second `Receiver`, or returned. -/
inductive PbPos where
  | first
  | second
  | ended
  deriving DecidableEq

/-- Position of the `SPBSender` (spb.go:16-35) with the shares collected in the current `Sender`. -/
inductive SendPos where
  | first (sigs : List Bytes)
  | second (sigs : List Bytes)
  | ended
  deriving DecidableEq

/-- What the PreVote handler passes to `vote`. main_process.go:34-36, message_handler.go:120-180. -/
inductive PVOut where
  | yes (v sig : Bytes)
  | no (sig : Bytes)
  deriving DecidableEq

/-- What the Vote handler passes to the main process. main_process.go:37-40, message_handler.go:185-245. -/
inductive VOut where
  | yes (v sig : Bytes)
  | no (sig : Bytes)
  | other (v sig : Bytes)
  deriving DecidableEq

/-- The variables of one round, main_process.go:26-40 and the local variables of the handlers. `prop`: value and validation at the start of the round. -/
structure MRound where
  prop : Bytes × Bytes
  recv : ℕ → PbPos
  lock : ℕ → Option (Bytes × Bytes)
  send : SendPos
  fin : ℕ → Option (Bytes × Bytes)
  finLen : ℕ
  doneFlag : Bool
  elected : Bool
  coins : List Bytes
  leader : Option ℕ
  haltDone : Bool
  PNr : List Bytes
  pvOut : Option PVOut
  voteSpawned : Bool
  voted : Bool
  VYr : List Bytes
  VNr : List Bytes
  voteOut : Option VOut

/-- The start of a round, main_process.go:26-93. -/
def MRound.init (v val : Bytes) : MRound :=
  ⟨(v, val), fun _ => .first, fun _ => none, .first [], fun _ => none, 0, false, false, [], none, false, [], none, false, false, [], [], none⟩

/-- Position of the main process: at the first `select` (main_process.go:96), in `wg.Wait` with leader `l` (line 103), at the second `select` (line 125), or returned
value `v` on evidence from round `r`. -/
inductive MPhase where
  | wait
  | join (l : ℕ)
  | result (l : ℕ)
  | decided (r : ℕ) (v : Bytes)
  deriving DecidableEq

/-- One party. `halt` is `haltChannel` (capacity 1), with the round it came from; `dead`: the process has ended by a panic or `log.Fatal`. main_process.go:20-24. -/
structure MState where
  round : ℕ
  value : Bytes
  validation : Bytes
  rounds : ℕ → MRound
  halt : Option (ℕ × Bytes)
  phase : MPhase
  dead : Bool

/-- Steps of a party: a message is handled; an `SPBReceiver`/`SPBSender` notices that its context is cancelled; `election`; the main process takes the leader, passes
`wg.Wait`, takes from `haltChannel`, takes a vote result; `vote` sends. pb.go, spb.go, main_process.go:96-149, message_handler.go. -/
inductive MEvent where
  | recv (from_ : ℕ) (m : MMsg)
  | quitRecv (j : ℕ)
  | quitSend
  | elect (r : ℕ)
  | takeLeader
  | joined
  | sendVote (r : ℕ)
  | takeHalt
  | takeVote
  deriving DecidableEq

/-- Messages sent and strings signed in a step. `p.Broadcast` and `Sign` in pb.go, main_process.go and message_handler.go. -/
structure MOut where
  st : MState
  msgs : List MMsg := []
  signed : List SMsg := []

/-- Replace the variables of round `r`. The variables of main_process.go:26-56. -/
def MState.setRound (st : MState) (r : ℕ) (R : MRound) : MState := { st with rounds := fun r' => if r' = r then R else st.rounds r' }

/-- Is the context of the SPB goroutines of the current round cancelled? main_process.go:98-103. -/
def MState.cancelled (st : MState) : Bool :=
  match st.phase with
  | .wait => false
  | _ => true

/-- Start of a round, main_process.go:24-93: the SPBSender broadcasts its value (pb.go:18-23). -/
def startRound (i r : ℕ) (v val : Bytes) (st : MState) : MState × List MMsg :=
  ({ st with round := r, value := v, validation := val, phase := .wait, rounds := fun r' => if r' = r then MRound.init v val else st.rounds r' }, [.value r i 1 v val])

/-- `MainProcess(p, ID, value, validation)` before the first step. main_process.go:20-93. -/
def MState.init (i : ℕ) (v val : Bytes) : MState × List MMsg :=
  startRound i 0 v val ⟨0, v, val, fun _ => MRound.init [] [], none, .wait, false⟩

/-- `Receiver`, pb.go:55-86, called by `SPBReceiver` for instance `j`. -/
def onValue (env : MEnv) (st : MState) (r j stage : ℕ) (v val : Bytes) : Option MOut :=
  let R := st.rounds r
  if r ≤ st.round ∧ j < env.N then
    match R.recv j, stage with
    | .first, 1 =>
      let m := SMsg.echo r j 1 (env.hash v)
      some ⟨st.setRound r { R with recv := fun j' => if j' = j then .second else R.recv j' }, [], [m]⟩
    | .second, 2 =>
      if env.cert (.echo r j 1 (env.hash v)) val then
        let m := SMsg.echo r j 2 (env.hash v)
        some ⟨st.setRound r { R with
          recv := fun j' => if j' = j then .ended else R.recv j'
          lock := fun j' => if j' = j then some (v, val) else R.lock j' }, [], [m]⟩
      else some ⟨{ st with dead := true }, [], []⟩
    | _, _ => none
  else none

/-- `Sender`, pb.go:33-50, called by `SPBSender`, main_process.go:72-83. -/
def onEchoShare (env : MEnv) (i : ℕ) (st : MState) (r j stage : ℕ) (sh : Bytes) : Option MOut :=
  let R := st.rounds r
  let v := R.prop.1
  if r ≤ st.round ∧ j = i then
    match R.send, stage with
    | .first sigs, 1 =>
      let m := SMsg.echo r i 1 (env.hash v)
      if (env.share m sh).isSome then
        let sigs' := sigs ++ [sh]
        if 2 * env.F < sigs'.length then
          some ⟨st.setRound r { R with send := .second [] }, [.value r i 2 v ((env.recover m sigs').getD [])], []⟩
        else some ⟨st.setRound r { R with send := .first sigs' }, [], []⟩
      else some ⟨st, [], []⟩
    | .second sigs, 2 =>
      let m := SMsg.echo r i 2 (env.hash v)
      if (env.share m sh).isSome then
        let sigs' := sigs ++ [sh]
        if 2 * env.F < sigs'.length then
          some ⟨st.setRound r { R with send := .ended }, [.finish r v ((env.recover m sigs').getD [])], []⟩
        else some ⟨st.setRound r { R with send := .second sigs' }, [], []⟩
      else some ⟨st, [], []⟩
    | _, _ => none
  else none

/-- The Finish handler, message_handler.go:30-55; `IDrj[m.Sender]` panics if the sender number is not below `N`. -/
def onFinish (env : MEnv) (st : MState) (r s : ℕ) (v sig : Bytes) : Option MOut :=
  let R := st.rounds r
  if r ≤ st.round then
    if s < env.N then
      if env.cert (.echo r s 2 (env.hash v)) sig then
        some ⟨st.setRound r { R with
          fin := fun s' => if s' = s then some (v, sig) else R.fin s'
          finLen := R.finLen + 1
          doneFlag := R.doneFlag || decide (R.finLen + 1 = 2 * env.F + 1) }, [], []⟩
      else some ⟨st, [], []⟩
    else some ⟨{ st with dead := true }, [], []⟩
  else none

/-- `utils.BytesToUint32(coin) % p.N`, message_handler.go:82. -/
def leaderOf (env : MEnv) (coin : Bytes) : ℕ := (bytesToUint32 coin).toNat % env.N

/-- The Done handler, message_handler.go:59-92. -/
def onDone (env : MEnv) (st : MState) (r : ℕ) (sh : Bytes) : Option MOut :=
  let R := st.rounds r
  if r ≤ st.round ∧ R.leader = none then
    if (env.share (.done r) sh).isSome then
      let coins := R.coins ++ [sh]
      some ⟨st.setRound r { R with
        coins := coins
        doneFlag := R.doneFlag || decide (coins.length = env.F + 1)
        leader := if 2 * env.F < coins.length then some (leaderOf env ((env.recover (.done r) coins).getD [])) else none }, [], []⟩
    else some ⟨st, [], []⟩
  else none

/-- The Halt handler, message_handler.go:97-120; it waits while `haltChannel` is full. -/
def onHalt (env : MEnv) (st : MState) (r : ℕ) (v sig : Bytes) : Option MOut :=
  let R := st.rounds r
  match R.leader with
  | none => none
  | some l =>
    if r ≤ st.round ∧ R.haltDone = false then
      if env.cert (.echo r l 2 (env.hash v)) sig then
        match st.halt with
        | some _ => none
        | none => some ⟨{ st.setRound r { R with haltDone := true } with halt := some (r, v) }, [], []⟩
      else some ⟨st, [], []⟩
    else none

/-- The PreVote handler, message_handler.go:123-175. -/
def onPreVote (env : MEnv) (st : MState) (r : ℕ) (yes : Bool) (v sig : Bytes) : Option MOut :=
  let R := st.rounds r
  match R.leader with
  | none => none
  | some l =>
    if r ≤ st.round then
      if yes then
        if env.cert (.echo r l 1 (env.hash v)) sig then some ⟨st.setRound r { R with pvOut := R.pvOut.or (some (.yes v sig)) }, [], []⟩ else some ⟨st, [], []⟩
      else if (env.share (.no r) sig).isSome then
        let PNr := R.PNr ++ [sig]
        some ⟨st.setRound r { R with
          PNr := PNr
          pvOut := if 2 * env.F < PNr.length then R.pvOut.or (some (.no ((env.recover (.no r) PNr).getD []))) else R.pvOut }, [], []⟩
      else some ⟨st, [], []⟩
    else none

/-- The Vote handler, message_handler.go:178-238. In the No branch `Recover` is called with `VYr`, as in the source (line 228). -/
def onVote (env : MEnv) (st : MState) (r : ℕ) (yes : Bool) (v sig sh : Bytes) : Option MOut :=
  let R := st.rounds r
  match R.leader with
  | none => none
  | some l =>
    if r ≤ st.round then
      if yes then
        let h := env.hash v
        if env.cert (.echo r l 1 h) sig && (env.share (.echo r l 2 h) sh).isSome then
          let VYr := R.VYr ++ [sh]
          some ⟨st.setRound r { R with
            VYr := VYr
            voteOut :=
              if 2 * env.F < VYr.length then R.voteOut.or (some (.yes v ((env.recover (.echo r l 2 h) VYr).getD [])))
              else if 2 * env.F < VYr.length + R.VNr.length then R.voteOut.or (some (.other v sig))
              else R.voteOut }, [], []⟩
        else some ⟨st, [], []⟩
      else if env.cert (.no r) sig && (env.share (.unlock r) sh).isSome then
        let VNr := R.VNr ++ [sh]
        some ⟨st.setRound r { R with
          VNr := VNr
          voteOut := if 2 * env.F < VNr.length then R.voteOut.or (some (.no ((env.recover (.unlock r) R.VYr).getD []))) else R.voteOut }, [], []⟩
      else some ⟨st, [], []⟩
    else none

/-- After `wg.Wait`, main_process.go:105-122, including `preVote` (lines 174-197). -/
def onJoined (env : MEnv) (i : ℕ) (st : MState) : Option MOut :=
  match st.phase with
  | .join l =>
    let r := st.round
    let R := st.rounds r
    if (∀ j < env.N, R.recv j = .ended) ∧ R.send = .ended then
      match R.fin l with
      | some (v, sig) => some ⟨{ st with phase := .decided r v }, [.halt r v sig], []⟩
      | none =>
        let st' := { st.setRound r { R with voteSpawned := true } with phase := .result l }
        match R.lock l with
        | some (v, sig) => some ⟨st', [.prevote r true v sig], []⟩
        | none => some ⟨st', [.prevote r false [] (env.sign i (.no r))], [.no r]⟩
    else none
  | _ => none

/-- `vote`, main_process.go:199-227. A signature counts as made when it is sent. -/
def onSendVote (env : MEnv) (i : ℕ) (st : MState) (r : ℕ) : Option MOut :=
  let R := st.rounds r
  if r ≤ st.round ∧ R.voteSpawned = true ∧ R.voted = false then
    match R.leader, R.pvOut with
    | some l, some (.yes v sig) =>
      let m := SMsg.echo r l 2 (env.hash v)
      some ⟨st.setRound r { R with voted := true }, [.vote r true v sig (env.sign i m)], [m]⟩
    | some _, some (.no sig) => some ⟨st.setRound r { R with voted := true }, [.vote r false [] sig (env.sign i (.unlock r))], [.unlock r]⟩
    | _, _ => none
  else none

/-- Second `select`, main_process.go:129-149. -/
def onTakeVote (i : ℕ) (st : MState) : Option MOut :=
  match st.phase with
  | .result _ =>
    let r := st.round
    match (st.rounds r).voteOut with
    | none => none
    | some (.yes v sig) => some ⟨{ st with phase := .decided r v }, [.halt r v sig], []⟩
    | some (.no sig) =>
      let (st', out) := startRound i (r + 1) st.value (st.validation ++ sig) st
      some ⟨st', out, []⟩
    | some (.other v sig) =>
      let (st', out) := startRound i (r + 1) v sig st
      some ⟨st', out, []⟩
  | _ => none

/-- Echoes are sent to the instance's owner: the Echo of a Receiver step. pb.go:71-84. -/
def echoOf (env : MEnv) (i : ℕ) : SMsg → List MMsg
  | .echo r j stage h => [.echo r j stage (env.sign i (.echo r j stage h))]
  | _ => []

/-- One step of party `i`; `none` if it is not enabled. pb.go, spb.go, main_process.go, message_handler.go. -/
def mvbaStep (env : MEnv) (i : ℕ) (st : MState) (ev : MEvent) : Option MOut :=
  if st.dead then none
  else
    match ev with
    | .recv _ (.value r j stage v val) => (onValue env st r j stage v val).map fun o => { o with msgs := o.msgs ++ o.signed.flatMap (echoOf env i) }
    | .recv _ (.echo r j stage sh) => onEchoShare env i st r j stage sh
    | .recv s (.finish r v sig) => onFinish env st r s v sig
    | .recv _ (.done r sh) => onDone env st r sh
    | .recv _ (.halt r v sig) => onHalt env st r v sig
    | .recv _ (.prevote r yes v sig) => onPreVote env st r yes v sig
    | .recv _ (.vote r yes v sig sh) => onVote env st r yes v sig sh
    | .quitRecv j =>
      let R := st.rounds st.round
      if st.cancelled && decide (j < env.N) then
        match R.recv j with
        | .first => some ⟨st.setRound st.round { R with recv := fun j' => if j' = j then .second else R.recv j' }, [], []⟩
        | .second => some ⟨st.setRound st.round { R with recv := fun j' => if j' = j then .ended else R.recv j' }, [], []⟩
        | .ended => none
      else none
    | .quitSend =>
      let R := st.rounds st.round
      if st.cancelled && decide (R.send ≠ .ended) then some ⟨st.setRound st.round { R with send := .ended }, [], []⟩ else none
    | .elect r =>
      let R := st.rounds r
      if r ≤ st.round ∧ R.doneFlag = true ∧ R.elected = false then
        some ⟨st.setRound r { R with elected := true }, [.done r (env.sign i (.done r))], [.done r]⟩
      else none
    | .takeLeader =>
      match st.phase, (st.rounds st.round).leader with
      | .wait, some l => some ⟨{ st with phase := .join l }, [], []⟩
      | _, _ => none
    | .joined => onJoined env i st
    | .sendVote r => onSendVote env i st r
    | .takeHalt =>
      match st.phase, st.halt with
      | .wait, some (r, v) => some ⟨{ st with phase := .decided r v, halt := none }, [], []⟩
      | .result _, some (r, v) => some ⟨{ st with phase := .decided r v, halt := none }, [], []⟩
      | _, _ => none
    | .takeVote => onTakeVote i st

/-! ## The network -/

/-- Honest parties; `signed`: who has signed what; `sent`: messages of honest parties; `delivered`: (receiver, sender, message). The committee as a whole; no single place in /repo. -/
structure MNet where
  party : ℕ → MState
  signed : List (ℕ × SMsg)
  sent : List (ℕ × MMsg)
  delivered : List (ℕ × ℕ × MMsg)

/-- All honest parties have called `MainProcess` with their inputs. main_process.go:20. -/
def MNet.init (H : Finset ℕ) (input : ℕ → Bytes × Bytes) (N : ℕ) : MNet :=
  ⟨fun i => (MState.init i (input i).1 (input i).2).1, [],
    ((List.range N).filter fun i => decide (i ∈ H)).flatMap fun i => (MState.init i (input i).1 (input i).2).2.map fun m => (i, m), []⟩

/-- The parties that could have signed `m`: corrupt ones, and honest ones that did. An assumption about the signature scheme; no code. -/
def signers (N : ℕ) (H : Finset ℕ) (signed : List (ℕ × SMsg)) (m : SMsg) : Finset ℕ := (Finset.range N).filter fun i => i ∉ H ∨ (i, m) ∈ signed

/-- `m` has enough possible signers for a combined signature. `2*p.F+1` at pb.go:45 and message_handler.go:81,161,202,228. -/
def Quorum (env : MEnv) (H : Finset ℕ) (signed : List (ℕ × SMsg)) (m : SMsg) : Prop := 2 * env.F + 1 ≤ (signers env.N H signed m).card

/-- Unforgeability: the byte string `b` is no forgery. As a share: its index is a party's, and an honest party with this index has signed. As a combined signature: there are
enough signers. An assumption about the signature scheme; no code. -/
def Genuine (env : MEnv) (H : Finset ℕ) (signed : List (ℕ × SMsg)) (b : Bytes) : Prop :=
  ∀ m, (∀ i, env.share m b = some i → i < env.N ∧ (i ∈ H → (i, m) ∈ signed)) ∧ (env.cert m b = true → Quorum env H signed m)

/-- The signature fields of a message. pkg/protobuf/Message.proto:14-54. -/
def MMsg.sigs : MMsg → List Bytes
  | .value _ _ _ _ val => [val]
  | .echo _ _ _ sh => [sh]
  | .finish _ _ sig => [sig]
  | .done _ sh => [sh]
  | .halt _ _ sig => [sig]
  | .prevote _ _ _ sig => [sig]
  | .vote _ _ _ sig sh => [sig, sh]

/-- What is assumed about the network beyond unforgeability: `auth`: a message under an honest party's name was sent by it; `once`: no message of an honest party is delivered twice. An assumption about the network; no code. -/
structure MNetCfg where
  auth : Bool
  once : Bool

/-- Party `i` makes a step. No code of its own. -/
def MNet.at_ (env : MEnv) (net : MNet) (i : ℕ) (ev : MEvent) : Option MNet :=
  (mvbaStep env i (net.party i) ev).map fun o =>
    { net with
      party := fun j => if j = i then o.st else net.party j
      signed := net.signed ++ o.signed.map fun m => (i, m)
      sent := net.sent ++ o.msgs.map fun m => (i, m) }

/-- Messages in the `delivered` log. No code of its own. -/
def logDelivery (i : ℕ) : MEvent → List (ℕ × ℕ × MMsg)
  | .recv s m => [(i, s, m)]
  | _ => []

/-- May this event happen? An assumption about the network; no code. -/
def MAllowed (env : MEnv) (H : Finset ℕ) (cfg : MNetCfg) (net : MNet) (i : ℕ) : MEvent → Prop
  | .recv s m => (∀ b ∈ m.sigs, Genuine env H net.signed b) ∧ (cfg.auth = true → s ∈ H → (s, m) ∈ net.sent) ∧ (cfg.once = true → s ∈ H → (i, s, m) ∉ net.delivered)
  | _ => True

/-- Executions: honest party `i ∈ H` makes a step; order, delays and (unless excluded) repetition are arbitrary. No code of its own. -/
inductive MRun (env : MEnv) (H : Finset ℕ) (cfg : MNetCfg) (net₀ : MNet) : List (ℕ × MEvent) → MNet → Prop
  | nil : MRun env H cfg net₀ [] net₀
  | snoc {evs net i ev net'} (h : MRun env H cfg net₀ evs net) (hi : i ∈ H) (ha : MAllowed env H cfg net i ev) (hs : net.at_ env i ev = some net') :
      MRun env H cfg net₀ (evs ++ [(i, ev)]) { net' with delivered := net'.delivered ++ logDelivery i ev }

end DyCAPS
