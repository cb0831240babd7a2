import Verif.Model.Party

/-!
# Prepare and ShareReduce

`internal/party/ShareReduce.go`.  The receivers are loops reading one message at a time from a queue; they are modelled as a step
function and its iteration over the sequence of messages read.  A message is given by its `Sender` and `Data` fields (type and id
only select the queue).  Time stamps and log output are left out.
-/

namespace DyCAPS

section
variable {G1 G2 GT : Type} [AddCommGroup G1] [Module Fr G1] [AddCommGroup G2] [Module Fr G2] [AddCommGroup GT] [Module Fr GT]

/-- The entries `CBj`, `j = 1..2F+1`, of the stored proof. ShareReduce.go:62-140. -/
def Party.coms (p : Party G1 G2) : List G1 :=
  (oneTo (2 * p.F + 1)).map fun j => (p.proof.contents.getD j (PiContent.zero j)).CBj

/-- The data sent to the party with id `j-1` of the next committee, ShareReduce.go:30-58. In the loop at lines 30-35 the first
`2F+1` entries of `tmpCB` are rewritten with themselves, so the list interpolated from does not change. -/
def shareReduceMsg (codec : PointCodec G1) (p : Party G1 G2) (j : ℕ) : Go PShareReduce := do
  let cb ← interpolateComOrWit p.F p.table (2 * p.F) j p.coms
  let wb ← interpolateByKnownIndexes p.F p.table (2 * p.F) j p.witnessIndexes p.witness
  pure ⟨codec.enc cb, frTo32 (evalPolyAt p.fullShare ((j : ℕ) : Fr)), codec.enc wb⟩

/-- `ShareReduceSend`, ShareReduce.go:14-60: the payloads for parties `0..N-1` of the next committee. Line 22-23 uses each
witness index as an index into a slice of length `N+1` (the entries written there are overwritten later). -/
def shareReduceSend (codec : PointCodec G1) (p : Party G1 G2) : Go (List Bytes) := do
  let ixs ← (List.range (2 * p.F + 1)).mapM (idx p.witnessIndexes)
  if ixs.all (fun x => decide (x.val < p.N + 1)) then do
    let ms ← (oneTo p.N).mapM (shareReduceMsg codec p)
    pure (ms.map marshal)
  else .error .panic

/-- Local variables of the loop in `ShareReduceReceive`, ShareReduce.go:63-72: `ShareReduceMap` (with `X` and `Y`; the witness is
never read again) and `vJ`. `ComMap[c]` always equals the number of points stored for `c`. -/
structure SRState where
  points : Bytes → List (ℕ × Fr)
  vJ : Fr

/-- Initial values. ShareReduce.go:62-80. -/
def SRState.init : SRState := ⟨fun _ => [], 0⟩

variable [DecidableEq GT]

/-- One iteration on a decoded message, ShareReduce.go:83-141; `some share` when the loop ends.
`m.Sender+1` is a uint32 addition. -/
def shareReduceStepMsg (codec : PointCodec G1) (pp : Pairing Fr G1 G2 GT) (p : Party G1 G2) (st : SRState) (sender : UInt32)
    (m : PShareReduce) : Go (SRState × Option (List Fr)) := do
  let C ← codec.decode! m.C
  let W ← codec.decode! m.W
  let v := (frFrom32 st.vJ (copy32 m.v)).1
  let x := (sender + 1).toNat
  let verified ← checkProofSingle pp p.kzg C W ((x : ℕ) : Fr) v
  if verified then
    let l := st.points m.C ++ [(x, v)]
    let st' : SRState := ⟨fun c => if c = m.C then l else st.points c, v⟩
    if p.F + 1 ≤ l.length then do
      let share ← lagrangeInterpolate p.F ((l.take (p.F + 1)).map fun q => ((q.1 : ℕ) : Fr)) ((l.take (p.F + 1)).map (·.2))
      pure (st', some share)
    else pure (st', none)
  else pure (⟨st.points, v⟩, none)

/-- One iteration, ShareReduce.go:75-141. -/
def shareReduceStep (codec : PointCodec G1) (pp : Pairing Fr G1 G2 GT) (p : Party G1 G2) (st : SRState) (msg : UInt32 × Bytes) :
    Go (SRState × Option (List Fr)) :=
  shareReduceStepMsg codec pp p st msg.1 (unmarshalD (⟨[], [], []⟩ : PShareReduce) msg.2)

/-- `ShareReduceReceive`, ShareReduce.go:62-141, reading the given messages: `none` means that it still waits for more. -/
def shareReduceReceive (codec : PointCodec G1) (pp : Pairing Fr G1 G2 GT) (p : Party G1 G2) :
    SRState → List (UInt32 × Bytes) → Go (Option (Party G1 G2))
  | _, [] => .ok none
  | st, m :: rest => do
    let (st', r) ← shareReduceStep codec pp p st m
    match r with
    | some share => pure (some { p with reducedShare := share })
    | none => shareReduceReceive codec pp p st' rest

/-- `PrepareSend`, ShareReduce.go:144-168: the payload broadcast to the next committee. -/
def prepareSend (codec : PointCodec G1) (p : Party G1 G2) : Bytes :=
  marshal (⟨[] :: p.coms.map codec.enc⟩ : PPrepare)

/-- Adoption of the commitments, ShareReduce.go:192-199: only the `CBj` fields are written. -/
def prepareAdopt (codec : PointCodec G1) (p : Party G1 G2) (data : Bytes) : Go (Party G1 G2) := do
  let m := unmarshalD (⟨[]⟩ : PPrepare) data
  let cs ← (oneTo (2 * p.F + 1)).mapM fun i => do
    let b ← idx m.commitments i
    let c ← codec.decode! b
    pure { (p.proof.contents.getD i (PiContent.zero i)) with CBj := c }
  pure { p with proof := { p.proof with contents := p.proof.contents.getD 0 (PiContent.zero 0) :: cs } }

/-- `PrepareReceive`, ShareReduce.go:171-206, reading the given payloads with `ProofMap` given by `count`. The `Sender` field of
the messages is not used. -/
def prepareReceive (codec : PointCodec G1) (sha : Bytes → Bytes) (p : Party G1 G2) :
    (Bytes → ℕ) → List Bytes → Go (Option (Party G1 G2))
  | _, [] => .ok none
  | count, data :: rest =>
    let h := sha data
    let counter := count h
    if counter + 1 = p.F + 1 then do
      let p' ← prepareAdopt codec p data
      pure (some p')
    else prepareReceive codec sha p (fun h' => if h' = h then counter + 1 else count h') rest

end

end DyCAPS
