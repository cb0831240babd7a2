import Verif.Model.Party

/-!
# Verifiable secret sharing

`Client.Share` (internal/party/client.go), `EncapsulateVSSSend`, `Pi.SetFromVSSMessage` (internal/party/party_utils.go),
`VSSShareReceive`, `VerifyVSSSendReceived` (internal/party/VSS.go).
-/

namespace DyCAPS

/-- The dealer's random choices: `polyF[1..2F]` (client.go:31-35) and `ZList[k][1..F]`, k = 1..2F+1 (client.go:47-54). -/
structure DealerCoins where
  rF : ℕ → Fr
  rZ : ℕ → ℕ → Fr

/-- `polyF`, client.go:31-36. -/
def dealerF (F : ℕ) (s : Fr) (c : DealerCoins) : List Fr :=
  (List.range (2 * F + 1)).map fun i => if i = 0 then s else c.rF i

/-- `F_Vals[j]`, client.go:38-43. -/
def dealerFVal (F : ℕ) (s : Fr) (c : DealerCoins) (j : ℕ) : Fr := evalPolyAt (dealerF F s c) ((j : ℕ) : Fr)

/-- `ZList[k]`, client.go:48-54. -/
def dealerZ (F : ℕ) (c : DealerCoins) (k : ℕ) : List Fr :=
  (List.range (F + 1)).map fun j => if j = 0 then 0 else c.rZ k j

/-- `BList[k]`, client.go:56-66: a copy of `ZList[k]` with entry 0 replaced. -/
def dealerB (F : ℕ) (s : Fr) (c : DealerCoins) (k : ℕ) : List Fr := (dealerZ F c k).set 0 (dealerFVal F s c k)

/-- `BijList[i][j]`, client.go:104-111. -/
def dealerShare (F : ℕ) (s : Fr) (c : DealerCoins) (i j : ℕ) : Fr := evalPolyAt (dealerB F s c j) ((i : ℕ) : Fr)

section
variable {G1 G2 GT : Type} [AddCommGroup G1] [Module Fr G1] [AddCommGroup G2] [Module Fr G2] [AddCommGroup GT] [Module Fr GT]

/-- One iteration of the commitment loop, client.go:74-85. -/
def dealerContent (pp : Pairing Fr G1 G2 GT) (ks : KZGSettings G1 G2) (F : ℕ) (s : Fr) (c : DealerCoins) (k : ℕ) :
    Go (PiContent G1) := do
  let cb ← commitToPoly ks (dealerB F s c k)
  let cz ← commitToPoly ks (dealerZ F c k)
  let wz ← computeProofSingle ks (dealerZ F c k) 0
  pure ⟨k, cb, cz, wz, dealerFVal F s c k • pp.g1⟩

/-- The proof `pi` built by the dealer, client.go:18-24 and 74-85. -/
def dealerPi (pp : Pairing Fr G1 G2 GT) (ks : KZGSettings G1 G2) (F : ℕ) (s : Fr) (c : DealerCoins) : Go (Pi G1) := do
  let cs ← (oneTo (2 * F + 1)).mapM (dealerContent pp ks F s c)
  pure ⟨s • pp.g1, PiContent.zero 0 :: cs⟩

/-- `WBij[i][j]`, j = 1..2F+1 with an unused entry 0, client.go:91-101. -/
def dealerWitnesses (ks : KZGSettings G1 G2) (F : ℕ) (s : Fr) (c : DealerCoins) (i : ℕ) : Go (List G1) := do
  let ws ← (oneTo (2 * F + 1)).mapM fun j => computeProofSingle ks (dealerB F s c j) ((i : ℕ) : Fr)
  pure (0 :: ws)

/-- One `PiContents[j]` of the message, party_utils.go:222-233; entry 0 is left empty. -/
def encodeContent (codec : PointCodec G1) (c : PiContent G1) (j : ℕ) : PPiContent :=
  ⟨UInt32.ofNat j, codec.enc c.CBj, codec.enc c.CZj, codec.enc c.WZ0, codec.enc c.gFj⟩

/-- `EncapsulateVSSSend`, party_utils.go:201-238 (before `proto.Marshal`).
Callers pass lists of length `2F+2`, so the reads are in range. -/
def encapsulateVSSSend (codec : PointCodec G1) (pi : Pi G1) (bij : List Fr) (wbij : List G1) (F : ℕ) : PVSSSend where
  pi := some ⟨codec.enc pi.gs, ⟨0, [], [], [], []⟩ :: (oneTo (2 * F + 1)).map fun j =>
    encodeContent codec (pi.contents.getD j (PiContent.zero j)) j⟩
  BijList := [] :: (oneTo (2 * F + 1)).map fun j => frTo32 (bij.getD j 0)
  WBijList := [] :: (oneTo (2 * F + 1)).map fun j => codec.enc (wbij.getD j 0)

/-- `Client.Share`, client.go:17-128: the payloads sent to parties `0, ..., N-1`, in order. -/
def clientShare (codec : PointCodec G1) (pp : Pairing Fr G1 G2 GT) (ks : KZGSettings G1 G2) (N F : ℕ) (s : Fr)
    (c : DealerCoins) : Go (List Bytes) := do
  let pi ← dealerPi pp ks F s c
  (oneTo N).mapM fun i => do
    let ws ← dealerWitnesses ks F s c i
    let bij := 0 :: (oneTo (2 * F + 1)).map (dealerShare F s c i)
    pure (marshal (encapsulateVSSSend codec pi bij ws F))

/-- One iteration of the loop of `Pi.SetFromVSSMessage`, party_utils.go:245-258. -/
def decodeContent (codec : PointCodec G1) (m : PPi) (j : ℕ) : Go (PiContent G1) := do
  let c ← idx m.piContents j
  let cb ← codec.decode! c.CBj
  let cz ← codec.decode! c.CZj
  let wz ← codec.decode! c.WZ0
  let gf ← codec.decode! c.gFj
  pure ⟨j, cb, cz, wz, gf⟩

/-- `Pi.SetFromVSSMessage` on a freshly initialised `Pi`, party_utils.go:240-259. A nil `m` is dereferenced. -/
def setFromVSSMessage (codec : PointCodec G1) (m : Option PPi) (F : ℕ) : Go (Pi G1) :=
  match m with
  | none => .error .panic
  | some m => do
    let gs ← codec.decode! m.gs
    let cs ← (oneTo (2 * F + 1)).mapM (decodeContent codec m)
    pure ⟨gs, PiContent.zero 0 :: cs⟩

/-- One iteration of the value loop of `VSSShareReceive`, VSS.go:33-41. -/
def decodeShare (codec : PointCodec G1) (m : PVSSSend) (j : ℕ) : Go (Fr × G1) := do
  let vb ← idx m.BijList j
  let wb ← idx m.WBijList j
  let w ← codec.decode! wb
  pure ((frFrom32 0 (copy32 vb)).1, w)

variable [DecidableEq G1] [DecidableEq GT]

/-- `VerifyVSSSendReceived`, VSS.go:76-125. The comparison of `Gs` (lines 89-91) only writes a log line, so its result is
not used; the linear combination is still evaluated because it could panic.
`vals`, `wits` have entries `0..2F+1`, entry 0 unused. -/
def verifyVSSSendReceived (pp : Pairing Fr G1 G2 GT) (p : Party G1 G2) (vals : List Fr) (wits : List G1) (pi : Pi G1) :
    Go Bool := do
  let gFjList := (oneTo (2 * p.F + 1)).map fun j => (pi.contents.getD j (PiContent.zero j)).gFj
  let lam0 ← idx p.table 0
  let _tmpGs ← linCombG1 gFjList lam0
  let ok1 ← (oneTo (2 * p.F + 1)).allM fun k => do
    let c := pi.contents.getD k (PiContent.zero k)
    let verifyEval ← checkProofSingle pp p.kzg c.CZj c.WZ0 0 0
    pure (verifyEval && decide (c.CZj + c.gFj = c.CBj))
  if !ok1 then pure false
  else (oneTo (2 * p.F + 1)).allM fun j =>
    checkProofSingle pp p.kzg (pi.contents.getD j (PiContent.zero j)).CBj (wits.getD j 0) ((p.pid + 1 : ℕ) : Fr) (vals.getD j 0)

/-- `VSSShareReceive` on the decoded message, VSS.go:31-74: new state and `verifyOK`.
A rejected message leaves the party state unchanged. `p.Proof.Set`, party_utils.go:261-270, stores the whole of `pi`: `C135_from_message` in `Props/PiSet`. -/
def vssReceiveMsg (codec : PointCodec G1) (pp : Pairing Fr G1 G2 GT) (p : Party G1 G2) (m : PVSSSend) :
    Go (Party G1 G2 × Bool) := do
  let pi ← setFromVSSMessage codec m.pi p.F
  let shares ← (oneTo (2 * p.F + 1)).mapM (decodeShare codec m)
  let vals := 0 :: shares.map (·.1)
  let wits := 0 :: shares.map (·.2)
  let verifyOK ← verifyVSSSendReceived pp p vals wits pi
  if !verifyOK then pure (p, false)
  else do
    let full ← lagrangeInterpolate (2 * p.F) (firstIndices (2 * p.F + 1)) (shares.map (·.1))
    pure ({ p with
      proof := pi
      witness := shares.map (·.2)
      witnessIndexes := firstIndices (2 * p.F + 1)
      fullShare := full }, true)

/-- `VSSShareReceive` after the message has been taken from the queue, VSS.go:26-74. -/
def vssShareReceive (codec : PointCodec G1) (pp : Pairing Fr G1 G2 GT) (p : Party G1 G2) (data : Bytes) :
    Go (Party G1 G2 × Bool) :=
  vssReceiveMsg codec pp p (unmarshalD (⟨none, [], []⟩ : PVSSSend) data)

/-- `VSSShareReceive(ID)` with its queue: one message is taken, whoever sent it; with an empty queue the call waits (`none`). VSS.go:12-74; `GetMessage`, internal/party/party_utils.go:107-113. -/
def vssShareReceiveFrom (codec : PointCodec G1) (pp : Pairing Fr G1 G2 GT) (p : Party G1 G2) (queue : List PMessage) : Option (Go (Party G1 G2 × Bool)) :=
  match queue with
  | [] => none
  | m :: _ => some (vssShareReceive codec pp p m.data)

/-- The message of the client to party `i`. `Sender` is a constant that no committee member has as its number. client.go:113-121. -/
def clientMessage (ID : Bytes) (msgs : List Bytes) (i : ℕ) : PMessage := ⟨"VSSSend", ID, 0x7fffffff, msgs.getD i []⟩

end

end DyCAPS
