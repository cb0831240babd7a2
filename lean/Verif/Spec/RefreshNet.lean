import Verif.Spec.Handoff
import Verif.Spec.Refresh
import Verif.Model.RefreshNet

/-! What is assumed about a committee whose members follow the protocol. -/

namespace DyCAPS

variable {G1 G2 GT : Type} [AddCommGroup G1] [Module Fr G1] [AddCommGroup G2] [Module Fr G2] [AddCommGroup GT] [Module Fr GT]

/-- The members, at least `2F+1` of the `N` parties, hold their reduced shares and the commitments of one polynomial `b`, and accept each other's signature shares. -/
structure RefSetup.Holds (pp : Pairing Fr G1 G2 GT) (t : Fr) (b : ℕ → ℕ → Fr) (F N : ℕ) (S : RefSetup G1 G2) : Prop where
  F1 : 1 ≤ F
  F2 : F ≤ 2 ^ 20
  N1 : 3 * F + 1 ≤ N
  N2 : N < 2 ^ 32
  lt : ∀ i ∈ S.members, i < N
  enough : 2 * F + 1 ≤ S.members.card
  setup : ∀ i ∈ S.members, (S.start i).Setup pp t
  size : ∀ i ∈ S.members, (S.start i).F = F ∧ (S.start i).N = N ∧ (S.start i).pid = i
  coms : ∀ i ∈ S.members, KnowsComs pp t b (S.start i)
  share : ∀ i ∈ S.members, (S.start i).reducedShare = sliceX b F (2 * F) ((i + 1 : ℕ) : Fr)
  verify : ∀ i ∈ S.members, ∀ h ∈ S.members, ∀ m, (S.tb i).verifyPartial m ((S.tb h).sign m) = true
  signLen : ∀ h ∈ S.members, ∀ m, ((S.tb h).sign m).length < 2 ^ 32
  recoverLen : ∀ i ∈ S.members, ∀ m s a n r, (S.tb i).recover m s a n = some r → r.length < 2 ^ 32

/-- `q (h+1)` is the polynomial of the contribution of member `h`. -/
def RefSetup.Contributes (S : RefSetup G1 G2) (F : ℕ) (q : ℕ → ℕ → ℕ → Fr) : Prop :=
  ∀ h k, 1 ≤ k → k ≤ 2 * F + 1 → sliceX (q (h + 1)) F (2 * F) (k : Fr) = ownQ F (S.coins h) k

/-- The resharers that a value agreed on names. -/
def agreedIds (v : Bytes) : List ℕ := (unmarshalD (⟨[], []⟩ : PMVBAIN) v).j.map (·.toNat)

/-- The reduced share of member `h` is not its slice of the new polynomial, although the two have the same value at the setup secret and so the same commitment. -/
def RefNet.FitsByChance (t : Fr) (b : ℕ → ℕ → Fr) (q : ℕ → ℕ → ℕ → Fr) (F : ℕ) (J : List ℕ) (net : RefNet G1 G2) (h : ℕ) : Prop :=
  (net.party h).reducedShare ≠ sliceX (refreshed b q J) F (2 * F) ((h + 1 : ℕ) : Fr) ∧
    polyVal (net.party h).reducedShare t = polyVal (sliceX (refreshed b q J) F (2 * F) ((h + 1 : ℕ) : Fr)) t

end DyCAPS
