import Verif.Model.VSS

/-!
# Proactivize and ShareDist

`HonestParty.ProactivizeAndShareDist`, internal/party/ProactivizeAndShareDist.go.  The function starts many goroutines; one party is
modelled as a state machine whose events are the actions of these goroutines: a reliable broadcast returning, a message being taken
from a queue, a channel hand-over, one iteration of a loop.  Each handler body is one atomic step (the Go code reads `flgCom`, `CQ`,
`Q`, `SB` without locks; `Model/DistRace` and `Model/RefreshRace` have the finer steps).  An event that would block is not enabled.  Messages sent are returned as outputs.

Reliable broadcast and MVBA appear through their results only (`commit`, `newCommit`, `mvba` events); threshold signatures through
the functions in `Tbls`.  Time stamps, log output and the completion channels that nobody reads are left out.
-/

namespace DyCAPS

/-- Threshold signature operations bound to the keys of one party: `Sign(p.SigSK, m)`, `VerifyPartial(p.SigPK, m, s) == nil`,
`Recover(p.SigPK, m, sigs, t, n)` (`none` is the error case, in which the signature is nil). ProactivizeAndShareDist.go:302,401,425. -/
structure Tbls where
  sign : Bytes → Bytes
  verifyPartial : Bytes → Bytes → Bool
  recover : Bytes → List Bytes → ℕ → ℕ → Option Bytes

/-- `[]byte(strconv.FormatUint(uint64(k), 10))`. ProactivizeAndShareDist.go:302,401,425. -/
def decimalBytes (k : ℕ) : Bytes := (Nat.toDigits 10 k).map fun c => UInt8.ofNat c.toNat

/-- `RecoverMsg`, party.go:114-120; `sender` and `index` as numbers, `x` is `uint64(mSender+1)` (a uint32 addition). -/
structure RecoverMsg (G1 : Type) where
  x : ℕ
  k : ℕ
  v : Fr
  w : G1
  sigShare : Bytes

/-- Where the Refresh loop stands, ProactivizeAndShareDist.go:453-504. -/
inductive Refresh (G1 : Type) where
  | waiting
  | looping (rest : List ℕ) (Qsum : List Fr) (CQsum : ℕ → G1)
  | done (CQsum : ℕ → G1)

/-- Local variables of `ProactivizeAndShareDist`. `Q k` is `Q[k][p.PID+1]`, `held k` the message handler `k` has taken from
`RecoverMsgChan[k]`, `slot` the message the receiving goroutine is trying to hand over, `exited k` that handler `k` left its loop,
`mvbaRunning` that `MainProcess` runs (its caller holds `mutexSRec`), `token j` that `SComChan[j]` holds a value. `comDone`, `newComDone`
record which of the one-shot Verify goroutines (one per `j`) have run. `voters` is the number of Vote goroutines that have not taken a Reshare message yet, `voteWait` are the messages of those that
wait at `startVote` (number of the resharer and payload), `voteToken j` that `startVote[j]` holds a value; `dists` and `distWait` are the same for the Interpolate goroutines and ShareDist.
`refreshWait`: the Refresh loop has found `flgCom[j]` unset for its next `j` and waits at `RecDone[j]`. ProactivizeAndShareDist.go:19-93,261-274,335-381,464-468,512-528,614-625. -/
structure PState (G1 : Type) where
  comDone : ℕ → Bool
  newComDone : ℕ → Bool
  flgCom : ℕ → Bool
  CQ : ℕ → ℕ → G1
  voters : ℕ
  voteWait : List (ℕ × Bytes)
  voteToken : ℕ → Bool
  flgRec : ℕ → Bool
  Q : ℕ → List Fr
  SRec : ℕ → List (ℕ × Fr)
  SSig : ℕ → List Bytes
  combined : ℕ → Bool
  slot : Option (RecoverMsg G1)
  held : ℕ → Option (RecoverMsg G1)
  exited : ℕ → Bool
  mvbaIn : List (ℕ × Bytes)
  mvbaSent : Bool
  mvbaRunning : Bool
  refresh : Refresh G1
  refreshWait : Bool
  dists : ℕ
  distWait : List (ℕ × Bytes)
  SCom : ℕ → Option G1
  token : ℕ → Bool
  SB : List (ℕ × Fr)
  successSent : Bool
  successCount : ℕ
  finished : Bool

/-- Messages sent to other parties: `recover l` goes to the party with index `l`. ProactivizeAndShareDist.go:134-140,250-256,325-330,550-570. -/
inductive POut where
  | recover (l : ℕ) (m : PRecover)
  | mvba (input : PMVBAIN)
  | success

/-- Events of one party. `vote j data` and `dist j data`: a goroutine that had to wait after taking its message goes on. The goroutines of ProactivizeAndShareDist.go. -/
inductive PEvent where
  | commit (j : ℕ) (data : Option Bytes)
  | reshare (sender : UInt32) (data : Bytes)
  | vote (j : ℕ) (data : Bytes)
  | takeRecover (sender : UInt32) (data : Bytes)
  | passRecover
  | handleRecover (k : ℕ)
  | mvba (result : Bytes)
  | refresh
  | newCommit (j : ℕ) (data : Option Bytes)
  | shareDist (sender : UInt32) (data : Bytes)
  | dist (j : ℕ) (data : Bytes)
  | success

/-- Functional update. Assignment to an entry of a slice or map, ProactivizeAndShareDist.go. -/
def upd {α : Type} (f : ℕ → α) (k : ℕ) (a : α) : ℕ → α := fun j => if j = k then a else f j

section
variable {G1 G2 GT : Type} [AddCommGroup G1] [Module Fr G1] [AddCommGroup G2] [Module Fr G2] [AddCommGroup GT] [Module Fr GT]

/-! ## Own contribution -/

/-- `Q[p.PID+1][j]`, j = 1..2F+1, ProactivizeAndShareDist.go:70-93: the coefficients of a sharing of zero. Random polynomials are those of `NewRandPoly`, internal/polyring/polyring.go:11-17; `polyF` is random with constant term zero,
`Q[..][j]` random with constant term `polyF(j)`, i.e. the dealer's polynomials for secret 0. -/
def ownQ (F : ℕ) (c : DealerCoins) (j : ℕ) : List Fr := dealerB F 0 c j

/-- The Commit payload, ProactivizeAndShareDist.go:99-133: entries `j = 1..2F+1` at positions `0..2F`. -/
def commitMsg (codec : PointCodec G1) (pp : Pairing Fr G1 G2 GT) (ks : KZGSettings G1 G2) (F : ℕ) (c : DealerCoins) : Go PCommit := do
  let cs ← (oneTo (2 * F + 1)).mapM (dealerContent pp ks F 0 c)
  pure ⟨cs.map fun x => encodeContent codec x x.j⟩

/-- The Reshare payload for the party with index `k`, ProactivizeAndShareDist.go:222-248. -/
def reshareMsg (codec : PointCodec G1) (ks : KZGSettings G1 G2) (F : ℕ) (c : DealerCoins) (k : ℕ) : Go PReshare := do
  let ws ← (oneTo (2 * F + 1)).mapM fun j => computeProofSingle ks (ownQ F c j) ((k : ℕ) : Fr)
  pure ⟨(oneTo (2 * F + 1)).map fun j => frTo32 (evalPolyAt (ownQ F c j) ((k : ℕ) : Fr)), ws.map codec.enc⟩

/-- Initial values of the local variables, ProactivizeAndShareDist.go:19-93 and 335-381, 512-528. The Commit goroutine also writes its commitments into its own row of `CQ` (line 110); this is left out, as that row is
read only after Verify has written it: by Vote and Recover after `flgCom`, by Refresh after `flgCom` or after Recover. -/
def PState.init (p : Party G1 G2) (c : DealerCoins) : PState G1 where
  comDone := fun _ => false
  newComDone := fun _ => false
  flgCom := fun _ => false
  CQ := fun _ _ => 0
  voters := p.N
  voteWait := []
  voteToken := fun _ => false
  flgRec := fun _ => false
  Q := fun k => if k = p.pid + 1 ∧ p.pid + 1 ≤ 2 * p.F + 1 then ownQ p.F c k else List.replicate (p.F + 1) 0
  SRec := fun _ => []
  SSig := fun _ => []
  combined := fun _ => false
  slot := none
  held := fun _ => none
  exited := fun _ => false
  mvbaIn := []
  mvbaSent := false
  mvbaRunning := false
  refresh := .waiting
  refreshWait := false
  dists := p.N
  distWait := []
  SCom := fun _ => none
  token := fun _ => false
  SB := []
  successSent := false
  successCount := 0
  finished := false

/-! ## Verify -/

/-- The four points of entry `k` of a Commit message, ProactivizeAndShareDist.go:170-173. -/
def commitEntry (codec : PointCodec G1) (m : PCommit) (k : ℕ) : Go (PiContent G1) := do
  let c ← idx m.pi k
  let cq ← codec.decode! c.CBj
  let cz ← codec.decode! c.CZj
  let wz ← codec.decode! c.WZ0
  let gf ← codec.decode! c.gFj
  pure ⟨k + 1, cq, cz, wz, gf⟩

variable [DecidableEq G1] [DecidableEq GT]

/-- The check of one entry, ProactivizeAndShareDist.go:175-182. -/
def commitEntryOk (pp : Pairing Fr G1 G2 GT) (p : Party G1 G2) (c : PiContent G1) : Go Bool := do
  let v ← checkProofSingle pp p.kzg c.CZj c.WZ0 0 0
  pure (decide (c.CBj = c.CZj + c.gFj) && v)

/-- Verification of the Commit message of `j`, ProactivizeAndShareDist.go:147-211: the new row `CQ[j]` and `flgCom[j]`. When a check fails the loop at
line 195 clears entries `0..2F` only, so entry `2F+1` keeps the value stored at line 189. -/
def verifyCommit (codec : PointCodec G1) (pp : Pairing Fr G1 G2 GT) (p : Party G1 G2) (row : ℕ → G1) (m : PCommit) :
    Go ((ℕ → G1) × Bool) := do
  let gf ← (List.range (2 * p.F + 1)).mapM fun i => do
    let c ← idx m.pi i
    codec.decode! c.gFj
  let inter ← interpolateComOrWit p.F p.table (2 * p.F) 0 gf
  let cs ← (List.range (2 * p.F + 1)).mapM (commitEntry codec m)
  let oks ← cs.mapM (commitEntryOk pp p)
  if decide (inter = 0) && oks.all id then do
    let cqs := cs.map (·.CBj)
    let tail ← (List.range' (2 * p.F + 2) (p.N - (2 * p.F + 1))).mapM fun k => interpolateComOrWit p.F p.table (2 * p.F) k cqs
    pure (fun k => if 1 ≤ k ∧ k ≤ 2 * p.F + 1 then cqs.getD (k - 1) 0
      else if 2 * p.F + 2 ≤ k ∧ k ≤ p.N then tail.getD (k - (2 * p.F + 2)) 0 else row k, true)
  else
    let last := cs.getD (2 * p.F) (PiContent.zero 0)
    pure (fun k => if k < 2 * p.F + 1 then 0
      else if k = 2 * p.F + 1 ∧ oks.getD (2 * p.F) false = true then last.CBj else row k, false)

/-! ## Vote -/

/-- One iteration of the loop at ProactivizeAndShareDist.go:280-297: value, witness and whether they open `CQ[indexJ][k]` at this party's index. -/
def voteEntry (codec : PointCodec G1) (pp : Pairing Fr G1 G2 GT) (p : Party G1 G2) (CQ : ℕ → G1) (m : PReshare) (k : ℕ) :
    Go (Fr × G1 × Bool) := do
  let vb ← idx m.Qk (k - 1)
  let wb ← idx m.wQk (k - 1)
  let w ← codec.decode! wb
  let v := (frFrom32 0 (copy32 vb)).1
  let ok ← checkProofSingle pp p.kzg (CQ k) w ((p.pid + 1 : ℕ) : Fr) v
  pure (v, w, ok)

/-- Handling of a Reshare message from the party with index `j`, ProactivizeAndShareDist.go:276-330: the Recover messages for parties `1..N`, or none
if the verification failed. `verifyReshareOK` is overwritten in every iteration, so only the last one counts. -/
def vote (codec : PointCodec G1) (pp : Pairing Fr G1 G2 GT) (tb : Tbls) (p : Party G1 G2) (CQ : ℕ → G1) (j : ℕ) (m : PReshare) :
    Go (List POut) := do
  let es ← (oneTo (2 * p.F + 1)).mapM (voteEntry codec pp p CQ m)
  let verifyReshareOK := match es.getLast? with
    | some e => e.2.2
    | none => false
  if verifyReshareOK then
    let vs := es.map (·.1)
    let ws := es.map (·.2.1)
    (oneTo p.N).mapM fun l =>
      if l ≤ 2 * p.F + 1 then
        pure (.recover l ⟨UInt32.ofNat j, frTo32 (vs.getD (l - 1) 0), codec.enc (ws.getD (l - 1) 0), tb.sign (decimalBytes j)⟩)
      else do
        let lam ← idx p.table l
        let v ← linCombFr vs lam
        let w ← linCombG1 ws lam
        pure (.recover l ⟨UInt32.ofNat j, frTo32 v, codec.enc w, tb.sign (decimalBytes j)⟩)
  else pure []

/-! ## Recover -/

/-- Decoding in the receiving goroutine, ProactivizeAndShareDist.go:360-369: a message whose index is above `N` is an index panic at the channel
array, one whose point does not decode a nil dereference. -/
def decodeRecover (codec : PointCodec G1) (p : Party G1 G2) (sender : UInt32) (data : Bytes) : Go (RecoverMsg G1) := do
  let m := unmarshalD (⟨0, [], [], []⟩ : PRecover) data
  let v := (frFrom32 0 (copy32 m.v)).1
  let w ← codec.decode! m.w
  if m.index.toNat ≤ p.N then pure ⟨(sender + 1).toNat, m.index.toNat, v, w, m.sigShare⟩
  else .error .panic

/-- Recording a verified point and interpolating once there are `F+1`, ProactivizeAndShareDist.go:405-416. -/
def recordPoint (p : Party G1 G2) (st : PState G1) (k : ℕ) (m : RecoverMsg G1) : Go (PState G1) :=
  let rec' := st.SRec k ++ [(m.x, m.v)]
  let st1 := { st with SRec := upd st.SRec k rec' }
  if !st.flgRec k && decide (p.F + 1 ≤ rec'.length) then
    if p.N + 1 < rec'.length then .error .panic
    else do
      let poly ← lagrangeInterpolate p.F ((rec'.take (p.F + 1)).map fun q => ((q.1 : ℕ) : Fr)) ((rec'.take (p.F + 1)).map (·.2))
      pure { st1 with Q := upd st1.Q k poly, flgRec := upd st1.flgRec k true }
  else .ok st1

/-- Recording a verified signature share, combining once there are `2F+1`, and calling MVBA once `F+1` signatures have been combined,
ProactivizeAndShareDist.go:418-442. The error of `Recover` is ignored: the signature is then empty. -/
def recordSig (tb : Tbls) (p : Party G1 G2) (st : PState G1) (k : ℕ) (m : RecoverMsg G1) : Go (PState G1 × List POut) :=
  let sigs := st.SSig k ++ [m.sigShare]
  let st1 := { st with SSig := upd st.SSig k sigs }
  if !st.combined k && decide (2 * p.F + 1 ≤ sigs.length) then
    if p.N + 1 < sigs.length then .error .panic
    else
      let tmpSig := sigs ++ List.replicate (p.N + 1 - sigs.length) []
      let sig := (tb.recover (decimalBytes k) tmpSig (2 * p.F) p.N).getD []
      let mvbaIn := st.mvbaIn ++ [(k, sig)]
      let st2 := { st1 with combined := upd st1.combined k true, mvbaIn := mvbaIn }
      if !st.mvbaSent && decide (p.F + 1 ≤ mvbaIn.length) then
        .ok ({ st2 with mvbaSent := true, mvbaRunning := true },
          [.mvba ⟨mvbaIn.map (·.2), mvbaIn.map fun q => UInt32.ofNat q.1⟩])
      else .ok (st2, [])
  else .ok (st1, [])

/-- End of an iteration of handler `k`, ProactivizeAndShareDist.go:446-449. -/
def endIteration (st : PState G1) (k : ℕ) : PState G1 :=
  { st with held := upd st.held k none, exited := upd st.exited k (st.exited k || st.mvbaSent) }

/-- The body of handler `k` after taking a message, ProactivizeAndShareDist.go:389-449, when `mutexSRec` is free. -/
def handleRecover (pp : Pairing Fr G1 G2 GT) (tb : Tbls) (p : Party G1 G2) (st : PState G1) (k : ℕ) (m : RecoverMsg G1) :
    Go (PState G1 × List POut) := do
  let ok ← checkProofSingle pp p.kzg (st.CQ k (p.pid + 1)) m.w ((m.x : ℕ) : Fr) m.v
  if ok && tb.verifyPartial (decimalBytes k) m.sigShare then do
    let st1 ← recordPoint p st k m
    let (st2, out) ← recordSig tb p st1 k m
    pure (endIteration st2 k, out)
  else pure (endIteration st k, [])

/-! ## Refresh -/

/-- `Qsum + Q[j][p.PID+1]` on the first `F+1` coefficients, ProactivizeAndShareDist.go:474-478. -/
def addPoly (F : ℕ) (a b : List Fr) : List Fr := (List.range (F + 1)).map fun i => a.getD i 0 + b.getD i 0

/-- One iteration of the Refresh loop (ProactivizeAndShareDist.go:464-486), the decision to wait in it (467-468), or the end of it (lines 492-504), when not blocked.
`none`: blocked on `RecDone[j]`. That channel gets its value when `flgRec[j]` is set and only this loop takes it, at most once for each `j`: handler `j` runs after `flgCom[j]` is set. -/
def refreshStep (p : Party G1 G2) (st : PState G1) : Option (Go (Party G1 G2 × PState G1)) :=
  match st.refresh with
  | .waiting => none
  | .done _ => none
  | .looping [] Qsum CQsum =>
    if p.reducedShare.length < p.F + 1 then some (.error .panic)
    else some (.ok ({ p with reducedShare := addPoly p.F Qsum p.reducedShare ++ p.reducedShare.drop (p.F + 1) },
      { st with refresh := .done CQsum }))
  | .looping (j :: rest) Qsum CQsum =>
    if p.N < j then some (.error .panic)
    else if st.refreshWait then
      if st.flgRec j then
        some (do
          let c ← commitToPoly p.kzg (st.Q j)
          let CQ := upd st.CQ j (upd (st.CQ j) (p.pid + 1) c)
          pure (p, { st with CQ := CQ, refreshWait := false, refresh := .looping rest (addPoly p.F Qsum (st.Q j)) (fun i => CQsum i + CQ j i) }))
      else none
    else if st.flgCom j then
      some (.ok (p, { st with refresh := .looping rest (addPoly p.F Qsum (st.Q j)) (fun i => CQsum i + st.CQ j i) }))
    else some (.ok (p, { st with refreshWait := true }))

/-! ## ShareDist -/

/-- The ShareDist payload for the party with index `j`, ProactivizeAndShareDist.go:535-550. -/
def shareDistMsg (codec : PointCodec G1) (p : Party G1 G2) (j : ℕ) : Go PShareDist := do
  let w ← computeProofSingle p.kzg p.reducedShare ((j : ℕ) : Fr)
  pure ⟨frTo32 (evalPolyAt p.reducedShare ((j : ℕ) : Fr)), codec.enc w⟩

/-- The NewCommit payload, ProactivizeAndShareDist.go:557-565 (the point itself, not a serialised `NewCommit`). -/
def newCommitMsg (codec : PointCodec G1) (p : Party G1 G2) : Go Bytes := do
  let c ← commitToPoly p.kzg p.reducedShare
  pure (codec.enc c)

/-- `oldCB`, ProactivizeAndShareDist.go:576-587. -/
def oldCom (p : Party G1 G2) (j : ℕ) : Go G1 :=
  if j ≤ 2 * p.F + 1 then pure (p.proof.contents.getD j (PiContent.zero j)).CBj
  else interpolateComOrWit p.F p.table (2 * p.F) j
    ((oneTo (2 * p.F + 1)).map fun i => (p.proof.contents.getD i (PiContent.zero i)).CBj)

/-- Verification of the NewCommit of `j`, ProactivizeAndShareDist.go:574-606. -/
def newCommitStep (codec : PointCodec G1) (p : Party G1 G2) (st : PState G1) (CQsum : ℕ → G1) (j : ℕ) (data : Bytes) : Go (PState G1) := do
  let old ← oldCom p j
  let cb ← codec.decode! data
  if cb = old + CQsum j then
    pure { st with newComDone := upd st.newComDone j true, SCom := upd st.SCom j (some cb), token := upd st.token j true }
  else pure { st with newComDone := upd st.newComDone j true }

/-- Handling of a ShareDist message once the token of its sender has been taken, ProactivizeAndShareDist.go:627-676. -/
def shareDistStep (codec : PointCodec G1) (pp : Pairing Fr G1 G2 GT) (p : Party G1 G2) (st : PState G1) (j : ℕ) (m : PShareDist) :
    Go (Party G1 G2 × PState G1 × List POut) := do
  let cb := (st.SCom j).getD 0
  let v := (frFrom32 0 (copy32 m.B)).1
  let w ← codec.decode! m.wB
  let st := { st with token := upd st.token j false }
  let ok ← checkProofSingle pp p.kzg cb w ((p.pid + 1 : ℕ) : Fr) v
  if ok then do
    let SB := st.SB ++ [(j, v)]
    let st := { st with SB := SB }
    if !st.successSent && decide (2 * p.F + 1 ≤ SB.length) then do
      let full ← lagrangeInterpolate (2 * p.F) ((SB.take (2 * p.F + 1)).map fun q => ((q.1 : ℕ) : Fr)) ((SB.take (2 * p.F + 1)).map (·.2))
      pure ({ p with fullShare := full }, { st with successSent := true }, [.success])
    else pure (p, st, [])
  else pure (p, st, [])

/-! ## One party -/

/-- The effect of an event; `none` if it is not enabled. Taking a Reshare or ShareDist message and going on at once, when nothing has to be waited for, is one step. ProactivizeAndShareDist.go. -/
def proactStep (codec : PointCodec G1) (pp : Pairing Fr G1 G2 GT) (tb : Tbls) (p : Party G1 G2) (st : PState G1) :
    PEvent → Option (Go (Party G1 G2 × PState G1 × List POut))
  | .commit j data =>
    if 1 ≤ j ∧ j ≤ p.N ∧ st.comDone j = false then
      match data with
      | none => some (.error .panic)
      | some d => some (do
          let (row, ok) ← verifyCommit codec pp p (st.CQ j) (unmarshalD (⟨[]⟩ : PCommit) d)
          pure (p, { st with comDone := upd st.comDone j true, CQ := upd st.CQ j row, flgCom := upd st.flgCom j ok, voteToken := upd st.voteToken j ok }, []))
    else none
  | .reshare sender data =>
    let j := (sender + 1).toNat
    if st.voters = 0 then none
    else if p.N < j then some (.error .panic)
    else if st.flgCom j then some (do
      let out ← vote codec pp tb p (st.CQ j) j (unmarshalD (⟨[], []⟩ : PReshare) data)
      pure (p, { st with voters := st.voters - 1 }, out))
    else some (.ok (p, { st with voters := st.voters - 1, voteWait := st.voteWait ++ [(j, data)] }, []))
  | .vote j data =>
    if (j, data) ∈ st.voteWait ∧ st.flgCom j = true ∧ st.voteToken j = true then some (do
      let out ← vote codec pp tb p (st.CQ j) j (unmarshalD (⟨[], []⟩ : PReshare) data)
      pure (p, { st with voteWait := st.voteWait.erase (j, data), voteToken := upd st.voteToken j false }, out))
    else none
  | .takeRecover sender data =>
    match st.slot with
    | some _ => none
    | none => some (do
        let m ← decodeRecover codec p sender data
        pure (p, { st with slot := some m }, []))
  | .passRecover =>
    match st.slot with
    | none => none
    | some m =>
      if 1 ≤ m.k ∧ m.k ≤ p.N ∧ st.flgCom m.k = true ∧ st.exited m.k = false ∧ (st.held m.k).isNone then
        some (.ok (p, { st with slot := none, held := upd st.held m.k (some m) }, []))
      else none
  | .handleRecover k =>
    if st.mvbaRunning then none
    else match st.held k with
      | none => none
      | some m => some (do
          let (st', out) ← handleRecover pp tb p st k m
          pure (p, st', out))
  | .mvba result =>
    if st.mvbaRunning then
      some (.ok (p, { st with
        mvbaRunning := false
        refresh := .looping ((unmarshalD (⟨[], []⟩ : PMVBAIN) result).j.map (·.toNat)) (List.replicate (p.F + 1) 0) (fun _ => 0) }, []))
    else none
  | .refresh =>
    match refreshStep p st with
    | none => none
    | some r => some (do
        let (p', st') ← r
        pure (p', st', []))
  | .newCommit j data =>
    if 1 ≤ j ∧ j ≤ p.N ∧ st.newComDone j = false then
      match st.refresh with
      | .done CQsum =>
        match data with
        | none => some (.error .panic)
        | some d => some (do
            let st' ← newCommitStep codec p st CQsum j d
            pure (p, st', []))
      | _ => none
    else none
  | .shareDist sender data =>
    let j := (sender + 1).toNat
    match st.refresh with
    | .done _ =>
      if st.dists = 0 then none
      else if p.N < j then some (.error .panic)
      else if st.token j then some (shareDistStep codec pp p { st with dists := st.dists - 1 } j (unmarshalD (⟨[], []⟩ : PShareDist) data))
      else some (.ok (p, { st with dists := st.dists - 1, distWait := st.distWait ++ [(j, data)] }, []))
    | _ => none
  | .dist j data =>
    match st.refresh with
    | .done _ =>
      if (j, data) ∈ st.distWait ∧ st.token j = true then
        some (shareDistStep codec pp p { st with distWait := st.distWait.erase (j, data) } j (unmarshalD (⟨[], []⟩ : PShareDist) data))
      else none
    | _ => none
  | .success =>
    if st.successSent = true ∧ st.finished = false then
      some (.ok (p, { st with successCount := st.successCount + 1, finished := decide (2 * p.F + 1 ≤ st.successCount + 1) }, []))
    else none

/-- `PRun p₀ st₀ evs outs p st`: the events `evs` can happen one after the other, lead from `(p₀, st₀)` to `(p, st)` and send `outs`. Executions of ProactivizeAndShareDist.go. -/
inductive PRun (codec : PointCodec G1) (pp : Pairing Fr G1 G2 GT) (tb : Tbls) (p₀ : Party G1 G2) (st₀ : PState G1) :
    List PEvent → List POut → Party G1 G2 → PState G1 → Prop
  | nil : PRun codec pp tb p₀ st₀ [] [] p₀ st₀
  | snoc {evs outs p st ev p' st' out} (h : PRun codec pp tb p₀ st₀ evs outs p st)
      (hs : proactStep codec pp tb p st ev = some (.ok (p', st', out))) : PRun codec pp tb p₀ st₀ (evs ++ [ev]) (outs ++ out) p' st'

end

end DyCAPS
