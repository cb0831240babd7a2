import Mathlib.Data.List.Sort
import Verif.Model.Proactivize

/-!
# Threshold BLS signatures

Key generation of `internal/party/keygen.go` and the functions of drand/kyber it and the protocols call (`share.PriPoly`, `share.PubPoly`, `sign/bls`, `sign/tbls` on G1).
The library is not part of the repository; it is transcribed from its documented behaviour. Scalars are `Fr` (BLS12-381), keys live in G2, signatures in G1.
Hashing to the curve is an arbitrary function `hm`.
-/

namespace DyCAPS

/-- The curve as kyber sees it: encoding of signatures, the pairing, hashing to G1. `strict` says what `Recover` does with a share that is malformed or does not verify:
give up with an error, or skip it (library versions differ; no theorem depends on it). keygen.go:16, party.go:124-125. -/
structure KyberSuite (G1 G2 GT : Type) [AddCommGroup G1] [Module Fr G1] [AddCommGroup G2] [Module Fr G2] [AddCommGroup GT] [Module Fr GT] where
  codec : PointCodec G1
  pp : Pairing Fr G1 G2 GT
  hm : Bytes → G1
  strict : Bool

variable {G1 G2 GT : Type} [AddCommGroup G1] [Module Fr G1] [AddCommGroup G2] [Module Fr G2] [AddCommGroup GT] [Module Fr GT] [DecidableEq GT]

/-- `PriPoly.Eval(i)`: the value at `1+i`, by Horner's rule from the highest coefficient. keygen.go:16-30. -/
def priEval (coeffs : List Fr) (i : ℕ) : Fr := coeffs.foldr (fun c v => v * ((i + 1 : ℕ) : Fr) + c) 0

/-- `PubPoly.Eval(i)`. keygen.go:16-30. -/
def pubEval (commits : List G2) (i : ℕ) : G2 := commits.foldr (fun c v => (((i + 1 : ℕ) : Fr)) • v + c) 0

/-- `PubPoly.Commit()`: the public key. spb.go:64. -/
def pubCommit (commits : List G2) : G2 := commits.getD 0 0

/-- `SigKeyGen`, keygen.go:15-29: `coeffs` are the `t` random coefficients of the private polynomial (`coeffs[0]` is the secret key). Also `SigKeyGenFix`,
`SigKeyGenFix_New`, keygen.go:32-73, with the coefficients read from a file. -/
def sigKeyGen (g2 : G2) (n : ℕ) (coeffs : List Fr) : List (ℕ × Fr) × List G2 :=
  ((List.range n).map fun i => (i, priEval coeffs i), coeffs.map fun c => c • g2)

/-- The index is written as a big-endian uint16. Inside `Sign`, for example pb.go:77. -/
def be16 (i : ℕ) : Bytes := [UInt8.ofNat (i / 256), UInt8.ofNat i]

/-- `tbls.Sign`. Used at pb.go:77, main_process.go:164,189, message_handler.go:146,166, ProactivizeAndShareDist.go:302. -/
def tblsSign (S : KyberSuite G1 G2 GT) (sk : ℕ × Fr) (msg : Bytes) : Bytes := be16 sk.1 ++ S.codec.enc (sk.2 • S.hm msg)

/-- `SigShare.Index()`; `none` is the error case. Inside `VerifyPartial`, pb.go:40. -/
def shareIndex (s : Bytes) : Option ℕ :=
  match s with
  | a :: b :: _ => some (a.toNat * 256 + b.toNat)
  | _ => none

/-- `bls.Verify(X, msg, sig)`: `e(H(msg), X) = e(sig, g2)`. Used at spb.go:64 and in message_handler.go. -/
def blsVerify (S : KyberSuite G1 G2 GT) (X : G2) (msg sig : Bytes) : Bool :=
  match S.codec.dec sig with
  | none => false
  | some s => decide (S.pp.e (S.hm msg) X = S.pp.e s S.pp.g2)

/-- `tbls.VerifyPartial`. Used at pb.go:40, message_handler.go:71,157,198,224, ProactivizeAndShareDist.go:401. -/
def tblsVerifyPartial (S : KyberSuite G1 G2 GT) (pub : List G2) (msg share : Bytes) : Bool :=
  match shareIndex share with
  | none => false
  | some i => blsVerify S (pubEval pub i) msg (share.drop 2)

/-- `x[idx] = ..; y[idx] = ..` on the two maps of `xyCommit`, as one list of pairs. Inside `Recover`, pb.go:45. -/
def putShare (acc : List (ℕ × G1)) (s : ℕ × G1) : List (ℕ × G1) :=
  if acc.any (fun q => q.1 == s.1) then acc.map (fun q => if q.1 = s.1 then s else q) else acc ++ [s]

/-- The loop of `xyCommit` over the sorted shares: stop when the map has `t` entries. Inside `Recover`, pb.go:45. -/
def collectShares (t : ℕ) : List (ℕ × G1) → List (ℕ × G1) → List (ℕ × G1)
  | [], acc => acc
  | s :: rest, acc =>
    let acc' := putShare acc s
    if acc'.length = t then acc' else collectShares t rest acc'

/-- The factor of entry `i`: the product of the `xj` over the product of the `xj - xi`, over the other entries. Inside `Recover`, pb.go:45. -/
def recoverCoeff (tbl : List (ℕ × G1)) (i : ℕ) : Fr :=
  let others := tbl.filter fun q => q.1 ≠ i
  (others.map fun q => ((q.1 + 1 : ℕ) : Fr)).prod / (others.map fun q => ((q.1 + 1 : ℕ) : Fr) - ((i + 1 : ℕ) : Fr)).prod

/-- `share.RecoverCommit`: the interpolated value at 0; `none` if there are fewer than `t` different indices. Inside `Recover`, pb.go:45. -/
def recoverCommit (shares : List (ℕ × G1)) (t : ℕ) : Option G1 :=
  let tbl := collectShares t (shares.insertionSort fun a b => a.1 ≤ b.1) []
  if tbl.length < t then none else some (tbl.map fun q => recoverCoeff tbl q.1 • q.2).sum

/-- The first loop of `tbls.Recover`: take verified shares until there are `t`. Inside `Recover`, pb.go:45. -/
def takeShares (S : KyberSuite G1 G2 GT) (pub : List G2) (msg : Bytes) (t : ℕ) : List Bytes → List (ℕ × G1) → Option (List (ℕ × G1))
  | [], acc => some acc
  | s :: rest, acc =>
    match shareIndex s, S.codec.dec (s.drop 2) with
    | some i, some v =>
      if tblsVerifyPartial S pub msg s then
        let acc' := acc ++ [(i, v)]
        if t ≤ acc'.length then some acc' else takeShares S pub msg t rest acc'
      else if S.strict then none else takeShares S pub msg t rest acc
    | _, _ => if S.strict then none else takeShares S pub msg t rest acc

/-- `tbls.Recover`. Used at pb.go:45, message_handler.go:81,161,202,228, ProactivizeAndShareDist.go:425. -/
def tblsRecover (S : KyberSuite G1 G2 GT) (pub : List G2) (msg : Bytes) (sigs : List Bytes) (t : ℕ) : Option Bytes :=
  match takeShares S pub msg t sigs [] with
  | none => none
  | some l => (recoverCommit l t).map S.codec.enc

/-- The functions as one party uses them. party.go:124-125,167. -/
def kyberTbls (S : KyberSuite G1 G2 GT) (pub : List G2) (sk : ℕ × Fr) : Tbls where
  sign := tblsSign S sk
  verifyPartial := tblsVerifyPartial S pub
  recover := fun msg sigs t _ => tblsRecover S pub msg sigs t

end DyCAPS
