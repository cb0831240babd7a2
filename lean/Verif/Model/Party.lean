import Verif.Model.Interp
import Verif.Model.Wire

/-!
# Party state

`HonestParty`, `Pi`, `PiContent` (internal/party/party.go).  Kept: the fields that carry protocol state.  Left out: network
addresses and channels (see `Model/Dispatch.lean`), time stamps, mutexes (every access to the KZG settings is serialised by
`mutexKZG`; the settings are never written after construction).
-/

namespace DyCAPS

/-- `PiContent`, party.go:22-30. -/
structure PiContent (G1 : Type) where
  j : ℕ
  CBj : G1
  CZj : G1
  WZ0 : G1
  gFj : G1

/-- `Pi`, party.go:32-35; indices of `contents` start from 1, entry 0 is unused. -/
structure Pi (G1 : Type) where
  gs : G1
  contents : List (PiContent G1)

section
variable {G1 G2 GT : Type} [AddCommGroup G1] [Module Fr G1] [AddCommGroup G2] [Module Fr G2] [AddCommGroup GT] [Module Fr GT]

/-- Go zero value of a `PiContent` (the zero value of a point is the point at infinity). The type is at internal/party/party.go:22-30. -/
def PiContent.zero (j : ℕ) : PiContent G1 := ⟨j, 0, 0, 0, 0⟩

/-- `Pi.Init`, party_utils.go:151-156. -/
def Pi.init (F : ℕ) : Pi G1 := ⟨0, (List.range (2 * F + 2)).map PiContent.zero⟩

/-- The protocol state of `HonestParty`, party.go:39-70. -/
structure Party (G1 G2 : Type) where
  N : ℕ
  F : ℕ
  pid : ℕ
  kzg : KZGSettings G1 G2
  proof : Pi G1
  fullShare : List Fr
  reducedShare : List Fr
  witness : List G1
  witnessIndexes : List Fr
  table : List (List Fr)

/-- `NewHonestParty`, party.go:123-199, with the setup secret as a parameter (the deployed value is `deployedSecret`). -/
def newParty (pp : Pairing Fr G1 G2 GT) (s : Fr) (N F pid : ℕ) : Go (Party G1 G2) := do
  let table ← lagrangeTable F N
  pure {
    N := N, F := F, pid := pid
    kzg := newKZG pp s (F + 1)
    proof := Pi.init F
    fullShare := List.replicate (2 * F + 1) 0
    reducedShare := List.replicate (F + 1) 0
    witness := List.replicate (2 * F + 1) 0
    witnessIndexes := List.replicate (2 * F + 1) 0
    table := table }

end

/-- `copy(buf[:], b)` into a fresh `[32]byte`. For example ProactivizeAndShareDist.go:282, VSS.go:36, ShareReduce.go:86. -/
def copy32 (b : Bytes) : Bytes := (List.range 32).map fun i => b.getD i 0

/-- The loop indices `1, ..., n`. For example ProactivizeAndShareDist.go:87. -/
def oneTo (n : ℕ) : List ℕ := (List.range n).map (· + 1)

end DyCAPS
