import Verif.Lemmas.GF256
import Verif.Model.RBC
import Verif.Model.Poly

/-!
# The Reed-Solomon library

`reedsolomon.New`, `Split`, `Encode`, `Verify` and `Reconstruct` (`github.com/klauspost/reedsolomon`, go.mod:11) as RBC.go:81-83,262-266 uses them. The library is not part of /repo and is not in the
sandbox; this is its documented behaviour. Simplifications: `Split` pads with zeros (the library takes the bytes between length and capacity of the slice; those of `m.Data`, which the protobuf library
has copied, are zero), and the matrices are given by their entries: the library multiplies the Vandermonde matrix with the inverse of its upper square, and decodes with the inverse of a square of
the rows of the result. The entries of such a product are the Lagrange coefficients (`C126_matrix`).
-/

namespace DyCAPS

/-- The element with number `i`, `byte(i)`: the row of the Vandermonde matrix. Used through RBC.go:81. -/
def gfPoint (i : ℕ) : GF := ⟨UInt8.ofNat i⟩

/-- The row with which shard `t` is computed from the shards `xs`. Used through RBC.go:83,265. -/
def gfRow (xs : List ℕ) (t : ℕ) : List GF := (List.range xs.length).map (lagrangeCoeff (xs.map gfPoint) (gfPoint t) (xs.length - 1))

/-- `codeSomeShards` for one output: the combination of the first `size` bytes of the shards with the coefficients of the row. Used through RBC.go:83,265. -/
def codeShard (row : List GF) (shards : List Bytes) (size : ℕ) : Bytes :=
  (List.range size).map fun b => ((List.zipWith (fun c (s : Bytes) => c * ⟨s.getD b 0⟩) row shards).sum : GF).byte

/-- The length of a shard, `(len(data) + k - 1) / k`. Used through RBC.go:82. -/
def perShard (k : ℕ) (D : Bytes) : ℕ := (D.length + k - 1) / k

/-- The data shards of `Split`. Used through RBC.go:82. -/
def rsSplit (k : ℕ) (D : Bytes) : List Bytes := (List.range k).map fun i => (List.range (perShard k D)).map fun b => D.getD (i * perShard k D + b) 0

/-- `Split` and `Encode`; no data is an error of `Split`, and then `shards[j]` panics. RBC.go:82-83. -/
def rsEncode (k N : ℕ) (D : Bytes) : Option (List Bytes) :=
  if D = [] then none
  else some (rsSplit k D ++ (List.range (N - k)).map fun p => codeShard (gfRow (List.range k) (k + p)) (rsSplit k D) (perShard k D))

/-- The positions of the shards that are there. Used through RBC.go:263-266. -/
def rsPresent (N : ℕ) (M : List Bytes) : List ℕ := (List.range N).filter fun i => decide (M.getD i [] ≠ [])

/-- `Verify` and, if it does not accept, `Reconstruct`: shards of different sizes, too few shards and no missing shard leave all as it is, otherwise the missing shards are computed from the first `k`
that are there. RBC.go:263-266. -/
def rsFill (k N : ℕ) (M : List Bytes) : List Bytes :=
  let size := (M.getD ((rsPresent N M).headD 0) []).length
  if (rsPresent N M).any (fun i => decide ((M.getD i []).length ≠ size)) || decide ((rsPresent N M).length = N) || decide ((rsPresent N M).length < k) then M
  else
    let xs := (rsPresent N M).take k
    (List.range N).map fun i => if M.getD i [] ≠ [] then M.getD i [] else codeShard (gfRow xs i) (xs.map fun j => M.getD j []) size

/-- `reedsolomon.New(N-(F+1), F+1)`: no data shards or more than 256 shards are an error and a nil encoder, whose methods panic. RBC.go:81,262. In the second case of `fill` the panic is not
represented: without an encoder no party survives its Propose message. -/
def rsCode (N F : ℕ) : RSCode :=
  if N - (F + 1) = 0 ∨ 256 < N then ⟨fun _ => none, id⟩ else ⟨rsEncode (N - (F + 1)) N, rsFill (N - (F + 1)) N⟩

end DyCAPS
