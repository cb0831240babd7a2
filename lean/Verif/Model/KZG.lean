import Mathlib.Algebra.Module.LinearMap.Basic
import Mathlib.Algebra.Module.Submodule.Bilinear
import Verif.Model.Poly
import Verif.Model.Bytes

/-!
# KZG commitments

`internal/polycommit/setup.go`, `kzg.go` (settings), `kzg_single_proofs.go` and the group operations of
`internal/bls/bls_kilic.go`.  G1, G2 and GT are groups of prime order `r` written additively, i.e. `K`-modules.
-/

namespace DyCAPS

/-- A bilinear group: generators `GenG1`, `GenG2` (bls_kilic.go:25-30) and the pairing.  `gen1` says that G1 is cyclic
(the library's points live in the subgroup of order `r`), `nondeg` that the pairing is not trivial. -/
structure Pairing (K G1 G2 GT : Type) [Field K] [AddCommGroup G1] [Module K G1] [AddCommGroup G2] [Module K G2]
    [AddCommGroup GT] [Module K GT] where
  g1 : G1
  g2 : G2
  e : G1 →ₗ[K] G2 →ₗ[K] GT
  gen1 : ∀ a : G1, ∃ k : K, a = k • g1
  nondeg : e g1 g2 ≠ 0

/-- The discrete-log picture of a bilinear group of prime order: points are their logarithms. An instance for internal/bls/bls_kilic.go. -/
def Pairing.dlog (K : Type) [Field K] : Pairing K K K K where
  g1 := 1
  g2 := 1
  e := LinearMap.mul K K
  gen1 := fun a => ⟨a, by simp⟩
  nondeg := by simp

/-- Point encodings `ToCompressedG1`/`FromCompressedG1`, bls_kilic.go:117-124; `none` is the error case,
in which the returned pointer is nil. -/
structure PointCodec (G : Type) where
  enc : G → Bytes
  dec : Bytes → Option G
  dec_enc : ∀ p, dec (enc p) = some p
  enc_len : ∀ p, (enc p).length ≤ 48

/-- A codec in the discrete-log picture: the 32-byte scalar encoding (shows that codecs exist). Instance of `ToCompressedG1`, internal/bls/bls_kilic.go. -/
def frPointEnc : Fr → Bytes := frTo32
/-- Its decoder, an instance of `FromCompressedG1`, internal/bls/bls_kilic.go. -/
def frPointDec (b : Bytes) : Option Fr :=
  if b.length = 32 ∧ (frFrom32 0 b).2 then some (frFrom32 0 b).1 else none

/-- `p, _ := bls.FromCompressedG1(b); bls.CopyG1(&x, p)`: a nil pointer is dereferenced when decoding fails. For example ProactivizeAndShareDist.go:153-154, VSS.go, ShareReduce.go. -/
def PointCodec.decode! {G : Type} (c : PointCodec G) (b : Bytes) : Go G :=
  match c.dec b with
  | some p => .ok p
  | none => .error .panic

section
variable {K G1 G2 GT : Type} [Field K] [DecidableEq K] [AddCommGroup G1] [Module K G1] [AddCommGroup G2] [Module K G2]
  [AddCommGroup GT] [Module K GT]

/-- `LinCombG1`, internal/bls/bls_kilic.go:135-153 (the library's `MultiExp` is the sum of the products). -/
def linCombG1 {K G1 : Type} [Field K] [AddCommGroup G1] [Module K G1] (numbers : List G1) (factors : List K) : Go G1 :=
  if numbers.length ≠ factors.length then .error .panic
  else .ok ((List.range numbers.length).foldl (fun out i => out + factors.getD i 0 • numbers.getD i 0) 0)

/-- `PairingsVerify`, bls_kilic.go:156-161: `e(-a1, a2) + e(b1, b2) = 0`. -/
def pairingsVerify [DecidableEq GT] (pp : Pairing K G1 G2 GT) (a1 : G1) (a2 : G2) (b1 : G1) (b2 : G2) : Bool :=
  decide (pp.e (-a1) a2 + pp.e b1 b2 = 0)

/-- The `SecretG1`, `SecretG2` fields of `KZGSettings`, internal/polycommit/kzg.go:13-21. -/
structure KZGSettings (G1 G2 : Type) where
  secretG1 : List G1
  secretG2 : List G2

/-- Loop body of `GenerateTestingSetup`: appended points and the running power. setup.go:21-27. -/
def setupStep (pp : Pairing K G1 G2 GT) (s : K) (st : List G1 × List G2 × K) (_ : ℕ) : List G1 × List G2 × K :=
  (st.1 ++ [st.2.2 • pp.g1], st.2.1 ++ [st.2.2 • pp.g2], st.2.2 * s)

/-- `GenerateTestingSetup`, internal/polycommit/setup.go:12-29. -/
def generateTestingSetup (pp : Pairing K G1 G2 GT) (s : K) (n : ℕ) : List G1 × List G2 :=
  let r := (List.range n).foldl (setupStep pp s) ([], [], 1)
  (r.1, r.2.1)

/-- `NewKZGSettings(nil, GenerateTestingSetup(secret, n))`, party.go:127-128, kzg.go:23-38 (the length check cannot fail here). -/
def newKZG (pp : Pairing K G1 G2 GT) (s : K) (n : ℕ) : KZGSettings G1 G2 :=
  let st := generateTestingSetup pp s n
  ⟨st.1, st.2⟩

/-- `CommitToPoly`, kzg_single_proofs.go:21-23; slicing beyond the setup length panics. -/
def commitToPoly (ks : KZGSettings G1 G2) (coeffs : List K) : Go G1 :=
  if coeffs.length ≤ ks.secretG1.length then linCombG1 (ks.secretG1.take coeffs.length) coeffs else .error .panic

/-- `CommitToPolyUnoptimized`, kzg_single_proofs.go:26-37. -/
def commitToPolyUnoptimized (ks : KZGSettings G1 G2) (coeffs : List K) : Go G1 :=
  (List.range coeffs.length).foldlM (fun out i => do
    let g ← idx ks.secretG1 i
    pure (out + at0 coeffs i • g)) 0

/-- `ComputeProofSingle`, kzg_single_proofs.go:40-58. -/
def computeProofSingle (ks : KZGSettings G1 G2) (poly : List K) (x : K) : Go G1 := do
  let q ← polyLongDiv poly [0 - x, 1]
  if q.length ≤ ks.secretG1.length then linCombG1 (ks.secretG1.take q.length) q else .error .panic

/-- `CheckProofSingle`, kzg_single_proofs.go:61-79. -/
def checkProofSingle [DecidableEq GT] (pp : Pairing K G1 G2 GT) (ks : KZGSettings G1 G2) (commitment proof : G1)
    (x y : K) : Go Bool := do
  let s1 ← idx ks.secretG2 1
  let sMinusX := s1 - x • pp.g2
  let commitmentMinusY := commitment - y • pp.g1
  pure (pairingsVerify pp commitmentMinusY pp.g2 proof sMinusX)

end

end DyCAPS
