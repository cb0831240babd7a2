import Verif.Model.Party

/-!
# Reliable broadcast (`internal/party/RBC.go`)

One party's `RBCReceive` is a machine whose steps are the lock- and channel-granular actions of its four goroutines (Propose handler, Echo handler, Ready
handler and the body of the function). A goroutine that waits has no enabled step. Simplifications: a read or write of one shared variable is atomic (the source
has unsynchronised accesses to `MaxReadyNumber`, `MaxReadyHash` and `isReadySent`; each access is a step of its own here, so all interleavings of whole
accesses are covered); sending never waits; the dispatcher's queues are not represented here, any message may be handed over at any time.
-/

namespace DyCAPS

/-- The Reed-Solomon code `reedsolomon.New(k, N-k)` as used by RBC.go. `encode` is `Split` followed by `Encode` (`none`: `Split` fails), `fill` is the content of the
shard slice after `if ok, _ := Verify(M); !ok { Reconstruct(M) }` (an empty shard is a missing one; errors are ignored by the caller). -/
structure RSCode where
  encode : Bytes → Option (List Bytes)
  fill : List Bytes → List Bytes

/-- What is fixed during an execution: committee size, threshold, SHA-256, the code, and the bytes that happen to lie between the length and the capacity of the slice
built by `append` at RBC.go:268-272 (reslicing beyond the length makes them visible). -/
structure REnv where
  N : ℕ
  F : ℕ
  sha : Bytes → Bytes
  rs : RSCode
  spare : Bytes → Bytes

/-- The Echo goroutine: in its loop, waiting to push into `readyChan` (holding `mutex` and `mutexEchoMap`), or finished. RBC.go:109-160. -/
inductive EchoPos where
  | running
  | blocked (h m : Bytes)
  | done
  deriving DecidableEq

/-- The Ready goroutine: waiting for a message; before the test at RBC.go:198; waiting on `readyChan` (RBC.go:204); having read it (RBC.go:207); before sending
(RBC.go:210-214); before the test at RBC.go:228. In all positions but `idle` it holds `mutexReadyMap`. -/
inductive ReadyPos where
  | idle
  | check (h : Bytes)
  | wait (h : Bytes)
  | got (h : Bytes) (res : Bytes × Bytes)
  | send (h m : Bytes)
  | fin (h : Bytes)
  deriving DecidableEq

/-- The body, RBC.go:242-291: waiting for `RSDecStartChan`; polling in round `r`; past the poll; with the reconstructed bytes; with the length; with the truncated hash
read but not yet written; before the comparison; returned (`none` is nil). -/
inductive MainPos where
  | start
  | poll (r : ℕ)
  | locked (r : ℕ)
  | gotM (r : ℕ) (rec : Bytes)
  | gotLen (r : ℕ) (rec : Bytes) (n : ℕ)
  | trunc (r : ℕ) (rec : Bytes) (n : ℕ) (v : Bytes)
  | cmp (r : ℕ) (m : Bytes)
  | returned (res : Option Bytes)
  deriving DecidableEq

/-- The variables of `RBCReceive`, RBC.go:44-69. `dead` records a panic in any of the goroutines. -/
structure RState where
  proposed : Bool
  echo : Bytes → Bytes → ℕ
  echoPos : EchoPos
  T : Bytes → List (ℕ × Bytes)
  maxN : ℕ
  maxH : Bytes
  readySent : Bool
  readyChan : List (Bytes × Bytes)
  decStart : Bool
  seen : ℕ → Bool
  readyPos : ReadyPos
  mainPos : MainPos
  dead : Bool

/-- The state when the goroutines start. RBC.go:45-69. -/
def RState.init : RState :=
  ⟨false, fun _ _ => 0, .running, fun _ => [], 0, [], false, [], false, fun _ => false, .idle, .start, false⟩

/-- The message types `RBCPropose`, `RBCEcho` and `RBCReady`, RBC.go:30,89,141. -/
inductive RKind where
  | propose
  | echo
  | ready
  deriving DecidableEq

/-- An outgoing message (`Sender` is the party itself). RBC.go:30,89,141,214. -/
structure ROut where
  dst : ℕ
  kind : RKind
  data : Bytes
  deriving DecidableEq

/-- `Broadcast`. RBC.go:30,141,214; internal/party/party_utils.go:63-75. -/
def rBroadcast (N : ℕ) (kind : RKind) (data : Bytes) : List ROut := (List.range N).map fun j => ⟨j, kind, data⟩

/-- `BroadcastExclude`. RBC.go:40; internal/party/party_utils.go:78-91. -/
def rBroadcastExcl (N x : ℕ) (kind : RKind) (data : Bytes) : List ROut := (rBroadcast N kind data).filter fun o => decide (o.dst ≠ x)

/-- The value put into the `Hash` field, RBC.go:88. -/
def echoHash (env : REnv) (D : Bytes) : Bytes := env.sha D ++ intToBytes D.length

/-- Steps: a goroutine takes a message, or makes progress. RBC.go:72-289. -/
inductive REvent where
  | propose (data : Bytes)
  | echo (data : Bytes)
  | ready (sender : ℕ) (data : Bytes)
  | echoPush
  | echoQuit
  | readyStep
  | main
  deriving DecidableEq

/-- Is it a step without an incoming message? RBC.go:137-158,196-231,243-289. -/
def REvent.internal : REvent → Bool
  | .echoPush | .echoQuit | .readyStep | .main => true
  | _ => false

/-- The payload of an Echo, RBC.go:113-116; decoding errors are ignored, as are those of Ready. -/
def echoPayload (data : Bytes) : PRBCEcho := unmarshalD ⟨[], []⟩ data

/-- The payload of a Ready, RBC.go:172-176. -/
def readyPayload (data : Bytes) : PRBCReady := unmarshalD ⟨[], []⟩ data

/-- Handling of one Echo, RBC.go:118-158. -/
def onEcho (env : REnv) (s : RState) (h m : Bytes) : RState × List ROut :=
  let cnt := s.echo h m + 1
  let quorum := !s.readySent && decide (env.N - env.F ≤ cnt)
  let sent := s.readySent || quorum
  let s1 := { s with echo := fun h' m' => if h' = h ∧ m' = m then cnt else s.echo h' m', readySent := sent }
  let out := if quorum then rBroadcast env.N .ready (marshal (⟨h, m⟩ : PRBCReady)) else []
  let next := if sent then EchoPos.done else .running
  if env.F + 1 ≤ cnt then
    if s.readyChan.length < env.N then ({ s1 with readyChan := s.readyChan ++ [(h, m)], echoPos := next }, out)
    else ({ s1 with echoPos := .blocked h m }, out)
  else ({ s1 with echoPos := next }, out)

/-- Handling of one Ready up to the test at RBC.go:198: RBC.go:165-194. -/
def onReady (s : RState) (j : ℕ) (h m : Bytes) : RState :=
  if s.seen j then s
  else
    let Th := s.T h ++ [(j, m)]
    let s1 := { s with
      seen := fun j' => if j' = j then true else s.seen j'
      T := fun h' => if h' = h then Th else s.T h'
      readyPos := .check h }
    if s.maxN < Th.length then { s1 with maxN := Th.length, maxH := h } else s1

/-- The Ready goroutine after that, RBC.go:196-232. -/
def onReadyStep (env : REnv) (s : RState) : Option (RState × List ROut) :=
  match s.readyPos with
  | .idle => none
  | .check h =>
    match s.echoPos with
    | .blocked _ _ => none
    | _ => some ({ s with readyPos := if s.readySent = false ∧ env.F + 1 ≤ (s.T h).length then .wait h else .fin h }, [])
  | .wait h =>
    match s.readyChan with
    | [] => none
    | res :: rest => some ({ s with readyChan := rest, readyPos := .got h res }, [])
  | .got h res =>
    match s.echoPos with
    | .blocked _ _ => none
    | _ => some ({ s with readyPos := if env.F + 1 ≤ s.echo res.1 res.2 then .send h res.2 else .wait h }, [])
  | .send h m =>
    match s.echoPos with
    | .blocked _ _ => none
    | _ => some ({ s with readySent := true, readyPos := .fin h }, rBroadcast env.N .ready (marshal (⟨h, m⟩ : PRBCReady)))
  | .fin h => some ({ s with decStart := s.decStart || decide (env.N - env.F ≤ (s.T h).length), readyPos := .idle }, [])

/-- `M[mReceivedTemp[i].j] = mReceivedTemp[i].mj` for all `i`, RBC.go:257-260; `none` is an index panic. -/
def placeShards (N : ℕ) : List (ℕ × Bytes) → List Bytes → Option (List Bytes)
  | [], M => some M
  | (j, m) :: rest, M => if j < N then placeShards N rest (M.set j m) else none

/-- `mReceivedTemp`: the first `n` entries, padded with zero values, RBC.go:252-255. -/
def snapshot (n : ℕ) (l : List (ℕ × Bytes)) : List (ℕ × Bytes) := (List.range n).map fun i => l.getD i (0, [])

/-- The body of the function, RBC.go:242-291. -/
def onMain (env : REnv) (s : RState) : Option RState :=
  match s.mainPos with
  | .start => if s.decStart then some { s with mainPos := .poll 0 } else none
  | .poll r =>
    if env.F < r then some { s with mainPos := .returned none }
    else if env.N - env.F + r ≤ s.maxN then some { s with mainPos := .locked r } else none
  | .locked r =>
    if s.readyPos = .idle then
      match placeShards env.N (snapshot (env.N - env.F + r) (s.T s.maxH)) (List.replicate env.N []) with
      | none => some { s with dead := true }
      | some M => some { s with mainPos := .gotM r ((env.rs.fill M).take (env.N - (env.F + 1))).flatten }
    else none
  | .gotM r rec =>
    if s.maxH.length < 32 then some { s with dead := true }
    else some { s with mainPos := .gotLen r rec (bytesToInt (s.maxH.drop 32)).toNat }
  | .gotLen r rec n =>
    if s.maxH.length < 32 then some { s with dead := true } else some { s with mainPos := .trunc r rec n (s.maxH.take 32) }
  | .trunc r rec n v =>
    let full := rec ++ env.spare rec
    if n ≤ full.length then some { s with maxH := v, mainPos := .cmp r (full.take n) } else some { s with maxH := v, dead := true }
  | .cmp r m => some { s with mainPos := if env.sha m = s.maxH then .returned (some m) else .poll (r + 1) }
  | .returned _ => none

/-- One step of a party; `none` if it is not enabled. RBC.go:44-292. -/
def rbcStep (env : REnv) (s : RState) (ev : REvent) : Option (RState × List ROut) :=
  if s.dead then none
  else
    match ev with
    | .propose data =>
      if s.proposed then none
      else
        match env.rs.encode data with
        | none => some ({ s with proposed := true, dead := true }, [])
        | some sh => some ({ s with proposed := true },
            (List.range env.N).map fun j => ⟨j, .echo, marshal (⟨echoHash env data, sh.getD j []⟩ : PRBCEcho)⟩)
    | .echo data => if s.echoPos = .running then some (onEcho env s (echoPayload data).hash (echoPayload data).m) else none
    | .echoPush =>
      match s.echoPos with
      | .blocked h m =>
        if s.readyChan.length < env.N then
          some ({ s with readyChan := s.readyChan ++ [(h, m)], echoPos := if s.readySent then .done else .running }, [])
        else none
      | _ => none
    | .echoQuit => if s.echoPos = .running ∧ s.readySent = true then some ({ s with echoPos := .done }, []) else none
    | .ready j data => if s.readyPos = .idle then some (onReady s j (readyPayload data).hash (readyPayload data).m, []) else none
    | .readyStep => onReadyStep env s
    | .main => (onMain env s).map fun s' => (s', [])

/-! ## The network -/

/-- Honest parties and what they have sent (source, message). The committee as a whole; no single place in /repo. -/
structure RNet where
  party : ℕ → RState
  sent : List (ℕ × ROut)

/-- All parties have called `RBCReceive`, RBC.go:44. -/
def RNet.init : RNet := ⟨fun _ => RState.init, []⟩

/-- `send b M`: party `b` calls `RBCSend(M)`, RBC.go:26-34. `sendExcl b M x`: it calls `RBCSendExclude(M, x)`, RBC.go:37-42. `deliver j kind s data`: party `j` takes a message of this kind with `Sender = s` from its queue.
`run j ev`: a step of `j` without a message. -/
inductive NEvent where
  | send (b : ℕ) (M : PMessage)
  | sendExcl (b : ℕ) (M : PMessage) (x : ℕ)
  | deliver (j : ℕ) (kind : RKind) (s : ℕ) (data : Bytes)
  | run (j : ℕ) (ev : REvent)
  deriving DecidableEq

/-- The receive of a message of each type, RBC.go:73,111,165. -/
def deliverEvent (kind : RKind) (s : ℕ) (data : Bytes) : REvent :=
  match kind with
  | .propose => .propose data
  | .echo => .echo data
  | .ready => .ready s data

/-- Party `j` makes a step. No code of its own. -/
def RNet.at_ (env : REnv) (net : RNet) (j : ℕ) (ev : REvent) : Option RNet :=
  (rbcStep env (net.party j) ev).map fun (s', out) =>
    ⟨fun i => if i = j then s' else net.party i, net.sent ++ out.map fun o => (j, o)⟩

/-- One step of the network with honest parties `H`. Everything outside `H` is the adversary: it may deliver anything under its own names. A message under the
name of an honest party was sent by that party (the code does not check `Sender`; this authentication is assumed). Payloads fit the 32-bit length
field of the framing. Order and repetition are arbitrary. RBC.go:27-292. -/
def netStep (env : REnv) (H : Finset ℕ) (net : RNet) : NEvent → Option RNet
  | .send b M => if b ∈ H then some { net with sent := net.sent ++ (rBroadcast env.N .propose (marshal M)).map fun o => (b, o) } else none
  | .sendExcl b M x => if b ∈ H then some { net with sent := net.sent ++ (rBroadcastExcl env.N x .propose (marshal M)).map fun o => (b, o) } else none
  | .deliver j kind s data =>
    if j ∈ H ∧ s < env.N ∧ data.length < 2 ^ 32 ∧ (s ∈ H → (s, (⟨j, kind, data⟩ : ROut)) ∈ net.sent) then net.at_ env j (deliverEvent kind s data) else none
  | .run j ev => if j ∈ H ∧ ev.internal = true then net.at_ env j ev else none

/-- Executions. No code of its own. -/
inductive NRun (env : REnv) (H : Finset ℕ) (net₀ : RNet) : List NEvent → RNet → Prop
  | nil : NRun env H net₀ [] net₀
  | snoc {evs net ev net'} (h : NRun env H net₀ evs net) (hs : netStep env H net ev = some net') : NRun env H net₀ (evs ++ [ev]) net'

/-- The value returned by `RBCReceive`, RBC.go:283-291. -/
def RState.result (s : RState) : Option (Option PMessage) :=
  match s.mainPos with
  | .returned none => some none
  | .returned (some m) => some (some (unmarshalD (⟨"", [], 0, []⟩ : PMessage) m))
  | _ => none

end DyCAPS
