import Verif.Spec.Shares

/-! What correct members of the old committee send to member `j` of the next committee during ShareReduce and Prepare. -/

namespace DyCAPS

variable {G1 G2 GT : Type} [AddCommGroup G1] [Module Fr G1] [AddCommGroup G2] [Module Fr G2] [AddCommGroup GT] [Module Fr GT]

/-- `data` is the ShareReduce payload from the holder with index `i` to the new member with index `j`: the commitment to
`B(·,j)`, the value `B(i,j)` and the opening proof at `i`. -/
def HonestSR (codec : PointCodec G1) (pp : Pairing Fr G1 G2 GT) (t : Fr) (b : ℕ → ℕ → Fr) (F i j : ℕ) (data : Bytes) : Prop :=
  ∃ C W, commitToPoly (newKZG pp t (F + 1)) (sliceX b F (2 * F) (j : Fr)) = .ok C ∧
    computeProofSingle (newKZG pp t (F + 1)) (sliceX b F (2 * F) (j : Fr)) (i : Fr) = .ok W ∧
    data = marshal (⟨codec.enc C, frTo32 (biVal b F (2 * F) (i : Fr) (j : Fr)), codec.enc W⟩ : PShareReduce)

/-- The decoded form of a ShareReduce payload; undecodable bytes count as the empty message. -/
def srMsg (data : Bytes) : PShareReduce := unmarshalD (⟨[], [], []⟩ : PShareReduce) data

/-- The two points of the payload decode. -/
def SRDecodable (codec : PointCodec G1) (data : Bytes) : Prop :=
  (∃ C, codec.dec (srMsg data).C = some C) ∧ ∃ W, codec.dec (srMsg data).W = some W

/-- Party `p` knows the commitments to `B(·,1), …, B(·,2F+1)`. -/
def KnowsComs (pp : Pairing Fr G1 G2 GT) (t : Fr) (b : ℕ → ℕ → Fr) (p : Party G1 G2) : Prop :=
  ∀ k, 1 ≤ k → k ≤ 2 * p.F + 1 →
    commitToPoly (newKZG pp t (p.F + 1)) (sliceX b p.F (2 * p.F) (k : Fr)) =
      .ok (p.proof.contents.getD k (PiContent.zero k)).CBj

end DyCAPS
