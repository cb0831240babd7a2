import Verif.Model.Party
import Verif.Spec.Bivar
import Verif.Spec.Poly

/-! What it means for a party to hold its part of a sharing of a bivariate polynomial. -/

namespace DyCAPS

variable {G1 G2 GT : Type} [AddCommGroup G1] [Module Fr G1] [AddCommGroup G2] [Module Fr G2] [AddCommGroup GT] [Module Fr GT]

/-- The public parameters of a party are those `NewHonestParty` produces for setup secret `t`. -/
structure Party.Setup (pp : Pairing Fr G1 G2 GT) (t : Fr) (p : Party G1 G2) : Prop where
  kzg : p.kzg = newKZG pp t (p.F + 1)
  table : lagrangeTable p.F p.N = .ok p.table

/-- Party `p` holds its full share `B(i,·)`, `i = pid+1`, of the polynomial with coefficients `b`, the commitments to
`B(·,1), …, B(·,2F+1)` and the opening witnesses of these at `i`. -/
structure HoldsFull (pp : Pairing Fr G1 G2 GT) (t : Fr) (b : ℕ → ℕ → Fr) (p : Party G1 G2) : Prop where
  share : p.fullShare = sliceY b p.F (2 * p.F) ((p.pid + 1 : ℕ) : Fr)
  coms : ∀ k, 1 ≤ k → k ≤ 2 * p.F + 1 →
    commitToPoly (newKZG pp t (p.F + 1)) (sliceX b p.F (2 * p.F) (k : Fr)) =
      .ok (p.proof.contents.getD k (PiContent.zero k)).CBj
  witLen : p.witness.length = 2 * p.F + 1
  wits : ∀ k, 1 ≤ k → k ≤ 2 * p.F + 1 →
    computeProofSingle (newKZG pp t (p.F + 1)) (sliceX b p.F (2 * p.F) (k : Fr)) ((p.pid + 1 : ℕ) : Fr) =
      .ok (p.witness.getD (k - 1) 0)
  witIdx : p.witnessIndexes = firstIndices (2 * p.F + 1)

/-- `F+1` parties reconstruct `s` from their full shares: interpolating the values `B(i,0)` at 0 gives `s`. -/
def Reconstructs (F : ℕ) (s : Fr) (parties : List (Party G1 G2)) : Prop :=
  ∃ f, lagrangeInterpolate F (parties.map fun p => ((p.pid + 1 : ℕ) : Fr)) (parties.map fun p => polyVal p.fullShare 0) = .ok f ∧
    polyVal f 0 = s

end DyCAPS
