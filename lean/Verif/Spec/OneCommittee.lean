import Verif.Spec.Takeover

/-!
# A committee that renews its own shares
-/

namespace DyCAPS

section
variable {G1 G2 GT : Type} [AddCommGroup G1] [Module Fr G1] [AddCommGroup G2] [Module Fr G2] [AddCommGroup GT] [Module Fr GT]
variable [DecidableEq G1] [DecidableEq GT]

/-- The members of one committee of `N` hand over to themselves: `old k` is member `k` when it begins, `heard k` what it hears. Every member outside `corrupt` hears each member at most once in each phase,
and those outside `corrupt` as they follow the protocol: they send their Prepare message at the beginning and their ShareReduce messages when they are through with receiving Prepare. The others may say anything. -/
structure Exchange (codec : PointCodec G1) (sha : Bytes → Bytes) (N : ℕ) (old : ℕ → Party G1 G2) (heard : ℕ → Heard) (corrupt : Finset UInt32) : Prop where
  prepOnce : ∀ i < N, UInt32.ofNat i ∉ corrupt → ((heard i).prep.map Prod.fst).Nodup
  redOnce : ∀ i < N, UInt32.ofNat i ∉ corrupt → ((heard i).red.map Prod.fst).Nodup
  prep : ∀ i < N, UInt32.ofNat i ∉ corrupt → ∀ m ∈ (heard i).prep, m.1 ∉ corrupt → m.1.toNat < N ∧ m.2 = prepareSend codec (old m.1.toNat)
  red : ∀ i < N, UInt32.ofNat i ∉ corrupt → ∀ m ∈ (heard i).red, m.1 ∉ corrupt → m.1.toNat < N ∧ ∃ kept out,
    prepareReceive codec sha (old m.1.toNat) (fun _ => 0) ((heard m.1.toNat).prep.map Prod.snd) = .ok (some kept) ∧ shareReduceSend codec kept = .ok out ∧ m.2 = out.getD i []

/-- The members outside `corrupt`. -/
def Following (N : ℕ) (corrupt : Finset UInt32) : List ℕ := (List.range N).filter fun i => UInt32.ofNat i ∉ corrupt

/-- A member goes from the state `old` through receiving Prepare and ShareReduce and the refresh. -/
structure Member.Renews (codec : PointCodec G1) (sha : Bytes → Bytes) (pp : Pairing Fr G1 G2 GT) (old : Party G1 G2) (h : Heard) (m : Member G1 G2) : Prop where
  start : ∃ p1, prepareReceive codec sha old (fun _ => 0) (h.prep.map Prod.snd) = .ok (some p1) ∧ shareReduceReceive codec pp p1 SRState.init h.red = .ok (some m.before)
  run : PRun codec pp m.tb m.before (PState.init m.before m.coins) m.evs m.outs m.after m.st

end

end DyCAPS
