import Verif.Spec.Shares

/-!
# The shape of a party's state

The sizes of the slices of `HonestParty` (party.go:39-70): the code indexes them up to these bounds without looking at their lengths.
-/

namespace DyCAPS

section
variable {G1 G2 GT : Type} [AddCommGroup G1] [Module Fr G1] [AddCommGroup G2] [Module Fr G2] [AddCommGroup GT] [Module Fr GT]

/-- Parameters as in the beginning, every slice of its full size, every witness index in range. -/
structure Party.Shape (pp : Pairing Fr G1 G2 GT) (t : Fr) (N F pid : ℕ) (p : Party G1 G2) : Prop where
  setup : p.Setup pp t
  sizeN : p.N = N
  sizeF : p.F = F
  number : p.pid = pid
  proof : p.proof.contents.length = 2 * F + 2
  full : p.fullShare.length = 2 * F + 1
  reduced : p.reducedShare.length = F + 1
  witness : p.witness.length = 2 * F + 1
  indexes : p.witnessIndexes.length = 2 * F + 1
  known : ∀ x ∈ p.witnessIndexes, x.val ≤ 2 * F + 1

end

end DyCAPS
