import Verif.Spec.Epoch
import Verif.Model.ShareReduce

/-!
# Taking over the shares of an old committee, of which some members are corrupt
-/

namespace DyCAPS

section
variable {G1 G2 GT : Type} [AddCommGroup G1] [Module Fr G1] [AddCommGroup G2] [Module Fr G2] [AddCommGroup GT] [Module Fr GT]
variable [DecidableEq G1] [DecidableEq GT]

/-- What a new member hears in the hand-off: Prepare and ShareReduce messages with their senders, in the order of arrival. -/
structure Heard where
  prep : List (UInt32 × Bytes)
  red : List (UInt32 × Bytes)

/-- New member `i` hears every old member at most once in each phase, and those outside `corrupt` (numbers below `N`) as they follow the protocol: `old k` is the state of old member `k`, `sr k` what it
sends in ShareReduce. The others may say anything. -/
structure Heard.Honest (codec : PointCodec G1) (N : ℕ) (old : ℕ → Party G1 G2) (sr : ℕ → List Bytes) (corrupt : Finset UInt32) (i : ℕ) (h : Heard) : Prop where
  prepOnce : (h.prep.map Prod.fst).Nodup
  redOnce : (h.red.map Prod.fst).Nodup
  prep : ∀ m ∈ h.prep, m.1 ∉ corrupt → m.1.toNat < N ∧ m.2 = prepareSend codec (old m.1.toNat)
  red : ∀ m ∈ h.red, m.1 ∉ corrupt → m.1.toNat < N ∧ m.2 = (sr m.1.toNat).getD i []

/-- New member `i` starts without shares, takes over from the old committee what it hears, and runs the refresh. -/
structure Member.TakesOver (codec : PointCodec G1) (sha : Bytes → Bytes) (pp : Pairing Fr G1 G2 GT) (t : Fr) (F N i : ℕ) (h : Heard) (m : Member G1 G2) : Prop where
  start : ∃ p0 p1, newParty pp t N F i = .ok p0 ∧ prepareReceive codec sha p0 (fun _ => 0) (h.prep.map Prod.snd) = .ok (some p1) ∧
    shareReduceReceive codec pp p1 SRState.init h.red = .ok (some m.before)
  run : PRun codec pp m.tb m.before (PState.init m.before m.coins) m.evs m.outs m.after m.st

/-- Two different Prepare messages a new member of `S` heard have the same SHA-256 value. -/
def PrepCollision (sha : Bytes → Bytes) (S : List ℕ) (heard : ℕ → Heard) : Prop :=
  ∃ i ∈ S, ∃ m ∈ (heard i).prep, ∃ m' ∈ (heard i).prep, m.2 ≠ m'.2 ∧ sha m.2 = sha m'.2

end

end DyCAPS
