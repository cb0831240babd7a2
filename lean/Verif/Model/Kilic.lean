import Mathlib.Algebra.Module.Basic
import Mathlib.Data.Nat.Digits.Lemmas
import Verif.Model.Bytes

/-!
# The default back end at the level of its stored words

`internal/bls/bignum_kilic.go` and the scalar multiplications of `internal/bls/bls_kilic.go`. A `Fr` is stored in Montgomery form ("mont-red form", bignum_kilic.go:24-25): the scalar
`x` is the word `x · 2^256 mod r`. The rest of the model works with scalars; this file has the stored words, so that the conversions the code makes are part of a model too.
The library `kilic/bls12-381` is not in /repo: its operations on words (`ToRed`, `FromRed`, `RedMul`, …) are given by their documented meaning. Words are natural numbers below `r`.
Also here: decimal text (`SetFr`, `FrStr`), and the pairing check of the herumi back end, `internal/bls/bls_hbls.go`.
-/

namespace DyCAPS

/-- A stored `kbls.Fr`: four 64-bit limbs as one number. bignum_kilic.go:26. -/
abbrev Word := ℕ

/-- `2^256 mod r` and its inverse modulo `r` (the library's constants). bignum_kilic.go:24-26. -/
def montR : ℕ := 10920338887063814464675503992315976177888879664585288394250266608035967270910

/-- See `montR`. bignum_kilic.go:24-26. -/
def montRInv : ℕ := 12549076656233958353659347336803947287922716146853412054870763148006372261952

/-- Library `ToRed`: into Montgomery form. Used at bignum_kilic.go:94 and inside `RedFromBytes`. -/
def toRed (n : Word) : Word := n * montR % frModulus

/-- Library `FromRed`: out of Montgomery form. Used at bls_kilic.go:46, 84, 148 and inside `RedToBytes`, `RedToBig`. -/
def fromRed (n : Word) : Word := n * montRInv % frModulus

/-- Library `RedMul`: the Montgomery product. bignum_kilic.go:109, 113. -/
def redMul (a b : Word) : Word := a * b * montRInv % frModulus

/-- Library `RedInverse`: the word of the inverse, zero for zero. bignum_kilic.go:108, 117. -/
def redInverse (a : Word) : Word := toRed ((fromRed a : Fr)⁻¹).val

/-- Library `RedExp` for exponents that are not negative: square and multiply with Montgomery products, here the plain repeated product. bignum_kilic.go:134. -/
def redExp (a : Word) : ℕ → Word
  | 0 => toRed 1
  | e + 1 => redMul (redExp a e) a

/-- Library `RedFromBytes`: big-endian bytes, reduced modulo `r`, into Montgomery form. bignum_kilic.go:31, 44, 67. -/
def redFromBytes (b : Bytes) : Word := toRed (beNat b % frModulus)

/-- Library `RedToBytes`: out of Montgomery form, 32 big-endian bytes. bignum_kilic.go:50. -/
def redToBytes (a : Word) : Bytes := beBytes32 (fromRed a)

/-- `FrFrom32`, bignum_kilic.go:36-46. -/
def kFrFrom32 (dst : Word) (v : Bytes) : Word × Bool := if !validFr v then (dst, false) else (redFromBytes (swapLoop 31 16 v), true)

/-- `FrTo32`, bignum_kilic.go:49-58. -/
def kFrTo32 (src : Word) : Bytes := swapLoop 31 16 (redToBytes src)

/-- `AsFr`, bignum_kilic.go:64-68: eight big-endian bytes. -/
def kAsFr (i : UInt64) : Word := redFromBytes ((List.range 8).map fun k => UInt8.ofNat (i.toNat / 256 ^ (7 - k)))

/-- `EqualOne`, bignum_kilic.go:77-79: `IsRedOne` compares with `2^256 mod r`. -/
def kEqualOne (v : Word) : Bool := decide (v = montR)

/-- `EqualZero`, bignum_kilic.go:81-83. -/
def kEqualZero (v : Word) : Bool := decide (v = 0)

/-- `EqualFr`, bignum_kilic.go:85-87. -/
def kEqualFr (a b : Word) : Bool := decide (a = b)

/-- `RandomFr`, bignum_kilic.go:89-96: `draw` is the library's uniform draw below `r`. -/
def kRandomFr (draw : Word) : Word := toRed draw

/-- `SubModFr`, bignum_kilic.go:98-100: words subtract without conversion. -/
def kSub (a b : Word) : Word := (a + (frModulus - b)) % frModulus

/-- `AddModFr`, bignum_kilic.go:102-104. -/
def kAdd (a b : Word) : Word := (a + b) % frModulus

/-- `DivModFr`, bignum_kilic.go:106-110. -/
def kDiv (a b : Word) : Word := redMul (redInverse b) a

/-- `MulModFr`, bignum_kilic.go:112-114. -/
def kMul (a b : Word) : Word := redMul a b

/-- `InvModFr`, bignum_kilic.go:116-118. -/
def kInv (v : Word) : Word := redInverse v

/-- `BatchInvModFr`, bignum_kilic.go:120-122: the library inverts every element that is not zero. -/
def kBatchInv (f : List Word) : List Word := f.map redInverse

/-- `EvalPolyAt`, bignum_kilic.go:128-131, which is `EvalPolyAtUnoptimized`, globals.go:79-98, on words. -/
def kEvalPolyAt (coeffs : List Word) (x : Word) : Word :=
  if coeffs.length = 0 then 0
  else if kEqualZero x then coeffs.getD 0 0
  else ((List.range (coeffs.length - 1)).reverse).foldl (fun last i => kAdd (kMul last x) (coeffs.getD i 0)) (coeffs.getD (coeffs.length - 1) 0)

/-- `ExpModFr`, bignum_kilic.go:133-135, for exponents that are not negative. -/
def kExp (v : Word) (e : ℕ) : Word := redExp v e

/-- `MulG1`, bls_kilic.go:44-48, and `MulG2`, 82-86: a copy leaves Montgomery form, then the library's `MulScalar` adds the point that many times. -/
def kMulG {G : Type} [AddCommGroup G] (a : G) (b : Word) : G := fromRed b • a

/-- `LinCombG1`, bls_kilic.go:135-153; `MultiExp` is the sum of the multiples. -/
def kLinCombG1 {G : Type} [AddCommGroup G] (numbers : List G) (factors : List Word) : Go G :=
  if numbers.length ≠ factors.length then .error .panic
  else .ok ((numbers.zip (factors.map fromRed)).map fun p => p.2 • p.1).sum

/-! ## Decimal text -/

/-- The decimal digits of a number, most significant first, as `big.Int.String()` prints them. bignum_kilic.go:74. -/
def decimal (n : ℕ) : List Char := if n = 0 then ['0'] else ((Nat.digits 10 n).map fun d => Char.ofNat (48 + d)).reverse

/-- The value of a non-empty run of decimal digits. bignum_kilic.go:30. -/
def readDigits (s : List Char) : Option ℕ :=
  if s ≠ [] ∧ s.all (fun c => decide (48 ≤ c.toNat ∧ c.toNat ≤ 57)) then some (s.foldl (fun acc c => acc * 10 + (c.toNat - 48)) 0) else none

/-- `big.Int.SetString(v, 10)`: an optional sign, then digits. bignum_kilic.go:30. -/
def readDecimal : List Char → Option ℤ
  | '-' :: s => (readDigits s).map fun n : ℕ => -(n : ℤ)
  | '+' :: s => (readDigits s).map fun n : ℕ => (n : ℤ)
  | s => (readDigits s).map fun n : ℕ => (n : ℤ)

/-- `SetFr`, bignum_kilic.go:28-32. The result of `SetString` is dropped; after a failure the content of the `big.Int` is undefined (`junk`). `Bytes()` is the absolute value. -/
def kSetFr (junk : ℤ) (v : List Char) : Word := toRed (((readDecimal v).getD junk).natAbs % frModulus)

/-- `FrStr`, bignum_kilic.go:70-75; a nil pointer is `none`. `Fr.String`, bignum_all.go:10-12, is the same. -/
def kFrStr : Option Word → List Char
  | none => "<nil>".toList
  | some b => decimal (fromRed b)

/-! ## Pairing checks -/

/-- `AddPairInv`, `AddPair` and `Check` in bls_kilic.go:156-161: the product `e(-a1, a2) · e(b1, b2)` is one. `e` is the reduced pairing. -/
def kPairingsVerify {G1 G2 GT : Type} [AddCommGroup G1] [CommGroup GT] [DecidableEq GT] (e : G1 → G2 → GT) (a1 : G1) (a2 : G2) (b1 : G1) (b2 : G2) : Bool :=
  decide (e (-a1) a2 * e b1 b2 = 1)

/-- The base field's prime, fixed by the curve BLS12-381 (`hbls.Init(hbls.BLS12_381)`, bignum_hbls.go:22). -/
def fpModulus : ℕ := 4002409555221667393417789825735904156556882819939007885332058136124031650490837864442687629129015664037894272559787

/-- The exponent of the final exponentiation, `(p^12 - 1) / r`. bls_hbls.go:173. -/
def finalExpo : ℕ := (fpModulus ^ 12 - 1) / frModulus

/-- `PairingsVerify` of the herumi back end, bls_hbls.go:155-180: `hbls.Pairing` gives the reduced pairing, and the code applies `FinalExp` once more. -/
def hblsPairingsVerify {G1 G2 GT : Type} [CommGroup GT] [DecidableEq GT] (e : G1 → G2 → GT) (a1 : G1) (a2 : G2) (b1 : G1) (b2 : G2) : Bool :=
  let tmp := e a1 a2
  let tmp2 := e b1 b2
  let tmp3 := tmp⁻¹
  let tmp4 := tmp3 * tmp2
  decide (tmp4 ^ finalExpo = 1)

end DyCAPS
