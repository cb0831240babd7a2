import Verif.Spec.Handoff

/-! What Proactivize is meant to establish: sharings of zero, commitments to them, and the refreshed polynomial. -/

namespace DyCAPS

variable {G1 G2 GT : Type} [AddCommGroup G1] [Module Fr G1] [AddCommGroup G2] [Module Fr G2] [AddCommGroup GT] [Module Fr GT]

/-- `row k` is the commitment to `Q(·,k)` for every `k = 1..N`. -/
def CommitsTo (pp : Pairing Fr G1 G2 GT) (t : Fr) (F N : ℕ) (q : ℕ → ℕ → Fr) (row : ℕ → G1) : Prop :=
  ∀ k, 1 ≤ k → k ≤ N → commitToPoly (newKZG pp t (F + 1)) (sliceX q F (2 * F) (k : Fr)) = .ok (row k)

/-- The refreshed polynomial `B + Σ_{j ∈ J} Q_j`. -/
def refreshed (b : ℕ → ℕ → Fr) (q : ℕ → ℕ → ℕ → Fr) (J : List ℕ) : ℕ → ℕ → Fr :=
  fun i k => b i k + (J.map fun j => q j i k).sum

/-- The points of a Commit message as combinations of the setup elements: `CZ_k = cz_k(t)·g`, `WZ_k = wz_k(t)·g`, `gF_k = gf_k(t)·g`
with polynomials the sender knows. -/
structure CommitRep where
  cz : ℕ → Polynomial Fr
  wz : ℕ → Polynomial Fr
  gf : ℕ → Polynomial Fr

/-- The degrees are those the published setup elements allow. -/
def CommitRep.Bounded (F : ℕ) (r : CommitRep) : Prop := ∀ k, (r.cz k).degree < (F + 1 : ℕ) ∧ (r.gf k).degree < (F + 1 : ℕ)

/-- `q` is the bivariate polynomial the representation describes: `Q(·,k) = cz_k + gf_k` for `k = 1..2F+1`. -/
def CommitRep.Describes (F : ℕ) (r : CommitRep) (q : ℕ → ℕ → Fr) : Prop :=
  ∀ k, 1 ≤ k → k ≤ 2 * F + 1 → polyOf (sliceX q F (2 * F) (k : Fr)) = r.cz k + r.gf k

/-- The sender of a Commit message knows a nonzero polynomial with root `t`: one of `cz_k - X·wz_k`, or `Σ_k λ_k(0)·gf_k`. -/
def CommitRep.Reveals (F : ℕ) (t : Fr) (r : CommitRep) : Prop :=
  (∃ k, 1 ≤ k ∧ k ≤ 2 * F + 1 ∧ r.cz k - Polynomial.X * r.wz k ≠ 0 ∧ (r.cz k - Polynomial.X * r.wz k).eval t = 0) ∨
  (∑ i ∈ Finset.range (2 * F + 1), Polynomial.C (lagrangeCoeff (firstIndices (2 * F + 1)) (0 : Fr) (2 * F) i) * r.gf (i + 1) ≠ 0 ∧
   (∑ i ∈ Finset.range (2 * F + 1), Polynomial.C (lagrangeCoeff (firstIndices (2 * F + 1)) (0 : Fr) (2 * F) i) * r.gf (i + 1)).eval t = 0)

end DyCAPS
