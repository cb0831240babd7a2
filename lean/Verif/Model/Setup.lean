import Verif.Model.Tbls
import Verif.Model.FFT

/-!
# Start-up of a node, and small utilities

The key files of `internal/party/keygen.go`, what `cmd/DyCAPs/main.go` does with the files a node is started with, the text form of curve points (`internal/bls/bls_all.go`) and the helpers
`GetScaleByCommitteeSize`, `GetSamples` (`internal/party/party_utils.go`) and `CommitToEvalPoly` (`internal/polycommit/kzg_single_proofs.go`).
-/

namespace DyCAPS

/-! ## Key files -/

/-- `Scalar.MarshalBinary` of the library: 32 bytes, most significant first. keygen.go:86-123. -/
def scalarMarshal (x : Fr) : Bytes := beBytes32 x.val

/-- `Scalar.SetBytes` of the library: the bytes as a big-endian number, reduced modulo the group order. keygen.go:32-73. -/
def scalarSetBytes (b : Bytes) : Fr := (beNat b : Fr)

/-- The two key files. `none`: the file cannot be read or decoded. A file written by `WriteToFile` is taken to decode to the value that was encoded (the contract of `encoding/gob`). keygen.go:75-123. -/
structure KeyFiles where
  old : Option (List Bytes)
  new : Option (List Bytes)

/-- `GenCoefficientsFile`, keygen.go:86-123, with the coefficients of the two random polynomials of `T` coefficients each as arguments. What it prints is `genCoefficientsLog`. -/
def genCoefficientsFile (coeffs coeffsNew : List Fr) : KeyFiles := ⟨some (coeffs.map scalarMarshal), some (coeffsNew.map scalarMarshal)⟩

/-- A line that `GenCoefficientsFile` logs: "the coefficients written to file … are:" (`new` for "coefficients_new"), or a scalar. `log.Println` prints a scalar as the hexadecimal digits of its value, from which
the value can be read; the line is taken to be the value. keygen.go:95-98,111-114. -/
inductive KeyLogLine where
  | heading (new : Bool)
  | value (v : Fr)
deriving DecidableEq

/-- What `GenCoefficientsFile` logs, keygen.go:94-98,110-114: under each heading the `N` values `npoints[i].V` of `pripoly.Shares(N)`. -/
def genCoefficientsLog (N : ℕ) (coeffs coeffsNew : List Fr) : List KeyLogLine :=
  .heading false :: ((List.range N).map fun i => .value (priEval coeffs i)) ++ .heading true :: (List.range N).map fun i => .value (priEval coeffsNew i)

section
variable {G2 : Type} [AddCommGroup G2] [Module Fr G2]

/-- `SigKeyGenFix`, keygen.go:32-52, on the content of the file "coefficients"; `SigKeyGenFix_New`, keygen.go:54-73, is the same on "coefficients_new". `ReadFromFile` panics if there is no file
(keygen.go:75-84); the slice it fills gets the length of the encoded one, so a `t` above this is an index out of range. -/
def sigKeyGenFix (g2 : G2) (n t : ℕ) (file : Option (List Bytes)) : Go (List (ℕ × Fr) × List G2) := do
  match file with
  | none => .error .panic
  | some coeffBytes =>
    let coeffs ← (List.range t).mapM fun i => do pure (scalarSetBytes (← idx coeffBytes i))
    pure (sigKeyGen g2 n coeffs)

/-- The keys in the memory of every process started with `-op1 2`, main.go:37-38, whatever its role and identity: `(sk, pk)` and `(skNew, pkNew)`. -/
def nodeKeys (g2 : G2) (n f : ℕ) (files : KeyFiles) : Go ((List (ℕ × Fr) × List G2) × List (ℕ × Fr) × List G2) := do
  let old ← sigKeyGenFix g2 n (2 * f + 1) files.old
  let new ← sigKeyGenFix g2 n (2 * f + 1) files.new
  pure (old, new)

end

/-! ## Address lists -/

/-- `strings.Split(s, "\n")` on the bytes of a file; the first argument is the line so far. main.go:194-210. -/
def splitLines : Bytes → Bytes → List Bytes
  | cur, [] => [cur]
  | cur, b :: bs => if b = 10 then cur :: splitLines [] bs else splitLines (cur ++ [b]) bs

/-- `ReadIpList(..)[0:*N]` and `ReadPortList(..)[0:*N]`, main.go:48-51,194-210. No file: `log.Fatalf`. Slicing is up to the capacity, which is the number of lines (`strings.Split` allocates exactly that many). -/
def readList (file : Option Bytes) (n : ℕ) : Go (List Bytes) :=
  match file with
  | none => .error .fatal
  | some data => sliceTo (splitLines [] data) n

/-! ## Text form of points -/

/-- A hexadecimal digit as `hex.EncodeToString` writes it: "0123456789abcdef". bls_all.go:24. -/
def hexDigit (n : ℕ) : UInt8 := if n < 10 then UInt8.ofNat (48 + n) else UInt8.ofNat (87 + n)

/-- `hex.EncodeToString`. bls_all.go:24,46. -/
def hexEncode (b : Bytes) : Bytes := b.flatMap fun x => [hexDigit (x.toNat / 16), hexDigit (x.toNat % 16)]

/-- The value of a digit; `hex.DecodeString` accepts both cases. bls_all.go:32,54. -/
def hexVal (c : UInt8) : Option ℕ :=
  if 48 ≤ c.toNat ∧ c.toNat ≤ 57 then some (c.toNat - 48)
  else if 97 ≤ c.toNat ∧ c.toNat ≤ 102 then some (c.toNat - 87)
  else if 65 ≤ c.toNat ∧ c.toNat ≤ 70 then some (c.toNat - 55)
  else none

/-- `hex.DecodeString`; an odd length or another character is an error. bls_all.go:32,54. -/
def hexDecode : Bytes → Option Bytes
  | [] => some []
  | [_] => none
  | a :: b :: rest => do
    let x ← hexVal a
    let y ← hexVal b
    let r ← hexDecode rest
    pure (UInt8.ofNat (16 * x + y) :: r)

section
variable {G : Type}

/-- `MarshalText`, bls_all.go:23-25 (G1) and 45-47 (G2): `enc` is `ToCompressedG1` or `ToCompressedG2`. -/
def pointMarshalText (enc : G → Bytes) (p : G) : Bytes := hexEncode (enc p)

/-- `UnmarshalText`, bls_all.go:28-42 and 50-64: the receiver afterwards and whether `nil` was returned. A nil receiver is `none`. -/
def pointUnmarshalText (dec : Bytes → Option G) (p : Option G) (text : Bytes) : Option G × Bool :=
  match p with
  | none => (none, false)
  | some q =>
    match hexDecode text with
    | none => (some q, false)
    | some data =>
      match dec data with
      | none => (some q, false)
      | some d => (some d, true)

end

/-! ## Helpers -/

/-- `GetScaleByCommitteeSize`, party_utils.go:125-149; `size+1` is computed in 32 bits. -/
def getScaleByCommitteeSize (size : UInt32) : Go ℕ :=
  if size + 1 > 1 ∧ size + 1 ≤ 2 then .ok 1
  else if size + 1 > 2 ∧ size + 1 ≤ 4 then .ok 2
  else if size + 1 > 4 ∧ size + 1 ≤ 8 then .ok 3
  else if size + 1 > 8 ∧ size + 1 ≤ 16 then .ok 4
  else if size + 1 > 16 ∧ size + 1 ≤ 32 then .ok 5
  else if size + 1 > 32 ∧ size + 1 ≤ 64 then .ok 6
  else if size + 1 > 64 ∧ size + 1 ≤ 128 then .ok 7
  else .error .panic

/-- One round of the loop of `GetSamples`, party_utils.go:284-286; a negative index or one beyond the slice panics. -/
def putSample {α : Type} (ans : List (Option α)) (iv : ℤ × α) : Go (List (Option α)) :=
  if 0 ≤ iv.1 ∧ iv.1 < ans.length then .ok (ans.set iv.1.toNat (some iv.2)) else .error .panic

/-- `GetSamples`, party_utils.go:272-289: a nil pointer is `none`. -/
def getSamples {α : Type} (expIndexes : List ℤ) (values : List α) (maxWidth : ℕ) : Go (List (Option α)) :=
  if !isPowerOfTwo maxWidth then .error .fatal
  else if expIndexes.length ≠ values.length then .error .fatal
  else if expIndexes.length > maxWidth then .error .fatal
  else (expIndexes.zip values).foldlM putSample (List.replicate maxWidth none)

/-- `CommitToEvalPoly`, kzg_single_proofs.go:16-18, through `LinCombG1`. -/
def commitToEvalPoly {G : Type} [AddCommGroup G] [Module Fr G] (secretG1IFFT : List G) (eval : List Fr) : Go G := linCombG1 secretG1IFFT eval

end DyCAPS
