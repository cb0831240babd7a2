import Verif.Spec.Refresh
import Verif.Model.Proactivize

/-! What is assumed about the senders of the messages in a run of Proactivize, and what the alternative to a security claim is. -/

namespace DyCAPS

open Polynomial

variable {G1 G2 GT : Type} [AddCommGroup G1] [Module Fr G1] [AddCommGroup G2] [Module Fr G2] [AddCommGroup GT] [Module Fr GT]

/-- The points in the received messages as combinations of the setup elements: `rep j` for the Commit message of `j`, whose polynomial is
`q j`, and `w ev` for the witness in a Recover or ShareDist message. A reliable broadcast of a Commit message delivers once. -/
structure RunAlg (codec : PointCodec G1) (pp : Pairing Fr G1 G2 GT) (t : Fr) (p0 : Party G1 G2) (q : ℕ → ℕ → ℕ → Fr)
    (rep : ℕ → CommitRep) (w : PEvent → Fr[X]) (evs : List PEvent) : Prop where
  commits : ∀ j d, PEvent.commit j (some d) ∈ evs → (rep j).Describes p0.F (q j) ∧
    ∀ k < 2 * p0.F + 1, ∀ c, commitEntry codec (unmarshalD (⟨[]⟩ : PCommit) d) k = .ok c →
      c.CZj = ((rep j).cz (k + 1)).eval t • pp.g1 ∧ c.WZ0 = ((rep j).wz (k + 1)).eval t • pp.g1 ∧ c.gFj = ((rep j).gf (k + 1)).eval t • pp.g1
  recover : ∀ s d, PEvent.takeRecover s d ∈ evs → ∀ W, codec.dec (unmarshalD (⟨0, [], [], []⟩ : PRecover) d).w = some W →
    W = (w (.takeRecover s d)).eval t • pp.g1
  dist : ∀ s d, PEvent.shareDist s d ∈ evs → ∀ W, codec.dec (unmarshalD (⟨[], []⟩ : PShareDist) d).wB = some W →
    W = (w (.shareDist s d)).eval t • pp.g1

/-- The result of MVBA names the contributions `J`. -/
def NamesJ (J : List ℕ) (evs : List PEvent) : Prop := ∀ r, PEvent.mvba r ∈ evs → (unmarshalD (⟨[], []⟩ : PMVBAIN) r).j.map (·.toNat) = J

/-- `f - v - w·(X - x)` is not zero and has the root `t`: what a false opening of a commitment to `f` reveals. -/
def OpeningReveals (t : Fr) (f : List Fr) (w : Fr[X]) (x v : Fr) : Prop :=
  polyOf f - C v - w * (X - C x) ≠ 0 ∧ (polyOf f - C v - w * (X - C x)).eval t = 0

/-- The sender of some message in the run knows a nonzero polynomial with root `t`, the setup secret. -/
def RunReveals (t : Fr) (p0 : Party G1 G2) (b : ℕ → ℕ → Fr) (q : ℕ → ℕ → ℕ → Fr) (J : List ℕ) (rep : ℕ → CommitRep) (w : PEvent → Fr[X])
    (evs : List PEvent) : Prop :=
  (∃ j d, PEvent.commit j (some d) ∈ evs ∧ (rep j).Reveals p0.F t) ∨
  (∃ s d, PEvent.takeRecover s d ∈ evs ∧
    OpeningReveals t (sliceX (q (unmarshalD (⟨0, [], [], []⟩ : PRecover) d).index.toNat) p0.F (2 * p0.F) ((p0.pid + 1 : ℕ) : Fr))
      (w (.takeRecover s d)) (((s + 1).toNat : ℕ) : Fr) (frFrom32 0 (copy32 (unmarshalD (⟨0, [], [], []⟩ : PRecover) d).v)).1) ∨
  (∃ s d, PEvent.shareDist s d ∈ evs ∧
    OpeningReveals t (sliceX (refreshed b q J) p0.F (2 * p0.F) (((s + 1).toNat : ℕ) : Fr)) (w (.shareDist s d)) ((p0.pid + 1 : ℕ) : Fr)
      (frFrom32 0 (copy32 (unmarshalD (⟨[], []⟩ : PShareDist) d).B)).1)

end DyCAPS
