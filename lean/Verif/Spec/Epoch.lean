import Verif.Spec.RBC
import Verif.Spec.RefreshRun
import Verif.Spec.Agreement

/-!
# A refresh together with the broadcasts and the agreement it uses
-/

namespace DyCAPS

open Polynomial

section
variable {G1 G2 GT : Type} [AddCommGroup G1] [Module Fr G1] [AddCommGroup G2] [Module Fr G2] [AddCommGroup GT] [Module Fr GT]
variable [DecidableEq G1] [DecidableEq GT]

/-- What one party of a refresh is: its state before and after, its randomness and signing key, what happened at it and what it sent. -/
structure Member (G1 G2 : Type) where
  before : Party G1 G2
  after : Party G1 G2
  coins : DealerCoins
  tb : Tbls
  evs : List PEvent
  outs : List POut
  st : PState G1

/-- The execution of the refresh at party `i`. -/
structure Member.Runs (codec : PointCodec G1) (pp : Pairing Fr G1 G2 GT) (t : Fr) (b : ℕ → ℕ → Fr) (F N i : ℕ) (m : Member G1 G2) : Prop where
  setup : m.before.Setup pp t
  F : m.before.F = F
  N : m.before.N = N
  pid : m.before.pid = i
  coms : KnowsComs pp t b m.before
  run : PRun codec pp m.tb m.before (PState.init m.before m.coins) m.evs m.outs m.after m.st

/-- The Commit messages party `i` works with are those it got from the broadcasts: `net j` is the broadcast of `j`'s Commit message. -/
def Member.Hears (net : ℕ → RNet) (i : ℕ) (m : Member G1 G2) : Prop :=
  ∀ j d, PEvent.commit j (some d) ∈ m.evs → ∃ M : PMessage, ((net j).party i).result = some (some M) ∧ M.data = d

/-- The contributions party `i` works with are those that the agreement returned to it. -/
def Member.Obeys (net : MNet) (i : ℕ) (m : Member G1 G2) : Prop :=
  ∀ v, PEvent.mvba v ∈ m.evs → ∃ r, (net.party i).phase = .decided r v

/-- The points in the messages party `m` has got, as combinations of the setup elements: `rep j d` for the bytes `d` broadcast by `j`, describing the polynomial `q j d`;
`w ev` for the witness in a Recover or ShareDist message. -/
structure Member.Alg (codec : PointCodec G1) (pp : Pairing Fr G1 G2 GT) (t : Fr) (q : ℕ → Bytes → ℕ → ℕ → Fr) (rep : ℕ → Bytes → CommitRep) (w : PEvent → Fr[X]) (m : Member G1 G2) : Prop where
  commits : ∀ j d, PEvent.commit j (some d) ∈ m.evs → (rep j d).Describes m.before.F (q j d) ∧
    ∀ k < 2 * m.before.F + 1, ∀ c, commitEntry codec (unmarshalD (⟨[]⟩ : PCommit) d) k = .ok c →
      c.CZj = ((rep j d).cz (k + 1)).eval t • pp.g1 ∧ c.WZ0 = ((rep j d).wz (k + 1)).eval t • pp.g1 ∧ c.gFj = ((rep j d).gf (k + 1)).eval t • pp.g1
  recover : ∀ s d, PEvent.takeRecover s d ∈ m.evs → ∀ W, codec.dec (unmarshalD (⟨0, [], [], []⟩ : PRecover) d).w = some W →
    W = (w (.takeRecover s d)).eval t • pp.g1
  dist : ∀ s d, PEvent.shareDist s d ∈ m.evs → ∀ W, codec.dec (unmarshalD (⟨[], []⟩ : PShareDist) d).wB = some W →
    W = (w (.shareDist s d)).eval t • pp.g1

/-- Two parties of `S` got different bytes with the same SHA-256 value out of one broadcast. -/
def CastCollision (env : REnv) (net : ℕ → RNet) (S : List ℕ) : Prop :=
  ∃ i ∈ S, ∃ i' ∈ S, ∃ j a a', ((net j).party i).mainPos = .returned (some a) ∧ ((net j).party i').mainPos = .returned (some a') ∧ Collision env a a'

/-- Two parties of `S` got different values with the same hash out of the agreement. -/
def ValueCollision (env : MEnv) (net : MNet) (S : List ℕ) : Prop :=
  ∃ i ∈ S, ∃ i' ∈ S, ∃ r r' v v', (net.party i).phase = .decided r v ∧ (net.party i').phase = .decided r' v' ∧ v ≠ v' ∧ env.hash v = env.hash v'

/-- The parties of `S` have got the same value from the agreement. -/
def SameValue (mem : ℕ → Member G1 G2) (S : List ℕ) : Prop :=
  ∀ i ∈ S, ∀ i' ∈ S, ∀ v v', PEvent.mvba v ∈ (mem i).evs → PEvent.mvba v' ∈ (mem i').evs → v = v'

/-- All parties of `S` have used the same contributions: `data j` of party `j`, for `j` in `J`. -/
def Common (mem : ℕ → Member G1 G2) (S : List ℕ) (data : ℕ → Bytes) (J : List ℕ) : Prop :=
  ∀ i ∈ S, (∀ j d, PEvent.commit j (some d) ∈ (mem i).evs → d = data j) ∧ NamesJ J (mem i).evs

end

end DyCAPS
