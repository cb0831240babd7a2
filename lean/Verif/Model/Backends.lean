import Mathlib.Data.Nat.Digits.Lemmas
import Verif.Model.Bytes

/-!
# The other field back ends

`internal/bls/bignum_pure.go` (build tag `bignum_pure`, `math/big`), `internal/bls/bignum_hol256.go` (build tag `bignum_hol256`, 256-bit words) and the one function of
`internal/bls/bignum_hbls.go` that is not a direct library call. The rest of the model uses the default back end, `bignum_kilic.go`.
In every operation `dst` is the old content of the destination; the result is its new content.
-/

namespace DyCAPS

/-- `big.Int.Bytes()` and `uint256.Int.Bytes()`: big-endian, no leading zero byte (zero is the empty slice). Used at bignum_pure.go:39 and bignum_hol256.go:51. -/
def minBytes (n : ℕ) : Bytes := ((Nat.digits 256 n).map UInt8.ofNat).reverse

/-- `for i := 0; i < n; i++ { b[i], b[last-i] = b[last-i], b[i] }` with `last = len(b)-1`, bignum_pure.go:42-44 and bignum_hol256.go:54-56, with Go's index checks. -/
def swapChecked (n : ℕ) (b : Bytes) : Go Bytes :=
  (List.range n).foldlM (fun b i => if i < b.length then .ok ((b.set i (b.getD (b.length - 1 - i) 0)).set (b.length - 1 - i) (b.getD i 0)) else .error .panic) b

/-- `copy(v[:], b)` into a zero `[32]byte`. bignum_pure.go:45 and bignum_hol256.go:57. -/
def copyTo32 (b : Bytes) : Bytes := (b ++ List.replicate 32 0).take 32

/-! ## `bignum_pure`: `Fr` is `big.Int` -/

/-- `FrTo32`, bignum_pure.go:38-47. -/
def pureFrTo32 (x : ℤ) : Go Bytes := (swapChecked 16 (minBytes x.natAbs)).map copyTo32

/-- `FrFrom32`, bignum_pure.go:25-35. -/
def pureFrFrom32 (dst : ℤ) (v : Bytes) : ℤ × Bool := if !validFr v then (dst, false) else ((beNat (swapLoop 31 16 v) : ℤ), true)

/-- `AddModFr`, bignum_pure.go:92-95 (`Mod` is Euclidean). -/
def pureAdd (a b : ℤ) : ℤ := (a + b) % frModulus

/-- `SubModFr`, bignum_pure.go:87-90. -/
def pureSub (a b : ℤ) : ℤ := (a - b) % frModulus

/-- `MulModFr`, bignum_pure.go:104-107. -/
def pureMul (a b : ℤ) : ℤ := (a * b) % frModulus

/-- `big.Int.ModInverse(v, modulus)`: the destination is unchanged if there is no inverse. bignum_pure.go:114. -/
def modInverse (dst v : ℤ) : ℤ := if (v : Fr) = 0 then dst else (((v : Fr)⁻¹).val : ℤ)

/-- `InvModFr`, bignum_pure.go:113-115. -/
def pureInv (dst v : ℤ) : ℤ := modInverse dst v

/-- `DivModFr`, bignum_pure.go:97-102. -/
def pureDiv (a b : ℤ) : ℤ := (a * pureInv 0 b) % frModulus

/-- `BatchInvModFr`, bignum_pure.go:119-123. -/
def pureBatchInv (f : List ℤ) : List ℤ := f.map fun v => pureInv v v

/-- `PowModFr`, bignum_pure.go:109-111, and `ExpModFr`, 134-136, for exponents that are not negative. -/
def pureExp (v : ℤ) (e : ℕ) : ℤ := v ^ e % frModulus

/-- `SetFr`, bignum_pure.go:53-57, of a decimal string with value `n`. -/
def pureSetFr (n : ℤ) : ℤ := n

/-- `AsFr`, bignum_pure.go:59-61, and bignum_hol256.go:65-67. -/
def pureAsFr (i : UInt64) : ℤ := i.toNat

/-- `EqualFr`, bignum_pure.go:75-77; `EqualZero`, 71-73, and `EqualOne`, 67-69, compare with 0 and 1. -/
def pureEqual (a b : ℤ) : Bool := decide (a = b)

/-! ## `bignum_hol256`: `Fr` is a 256-bit word -/

/-- `uint256.Int.Sub`: subtraction of 256-bit words. bignum_hol256.go:98-104. -/
def wordSub (a b : ℕ) : ℕ := (a + 2 ^ 256 - b) % 2 ^ 256

/-- `FrTo32`, bignum_hol256.go:50-59. -/
def holFrTo32 (x : ℕ) : Go Bytes := (swapChecked 16 (minBytes x)).map copyTo32

/-- `FrFrom32`, bignum_hol256.go:37-47. -/
def holFrFrom32 (dst : ℕ) (v : Bytes) : ℕ × Bool := if !validFr v then (dst, false) else (beNat (swapLoop 31 16 v), true)

/-- `SubModFr`, bignum_hol256.go:98-104. -/
def holSub (a b : ℕ) : ℕ :=
  let d := wordSub a b
  if a < b then wordSub frModulus (wordSub 0 d) else d

/-- `AddModFr`, bignum_hol256.go:106-108 (the library reduces the 257-bit sum). -/
def holAdd (a b : ℕ) : ℕ := (a + b) % frModulus

/-- `MulModFr`, bignum_hol256.go:116-118 (the library reduces the 512-bit product). -/
def holMul (a b : ℕ) : ℕ := (a * b) % frModulus

/-- `InvModFr`, bignum_hol256.go:121-126: `ModInverse` into a fresh `big.Int`. -/
def holInv (v : ℕ) : ℕ := (modInverse 0 v).toNat

/-- `DivModFr`, bignum_hol256.go:110-114. -/
def holDiv (a b : ℕ) : ℕ := holMul a (holInv b)

/-- `BatchInvModFr`, bignum_hol256.go:130-134. -/
def holBatchInv (f : List ℕ) : List ℕ := f.map holInv

/-- `ExpModFr`, bignum_hol256.go:145-147, for exponents that are not negative. -/
def holExp (v e : ℕ) : ℕ := v ^ e % frModulus

/-! ## `bignum_hbls` -/

/-- `AsFr`, bignum_hbls.go:62-64: `SetInt64(int64(i))`; the conversion to `int64` is two's complement. -/
def hblsAsFr (i : UInt64) : Fr := ((if i.toNat < 2 ^ 63 then (i.toNat : ℤ) else (i.toNat : ℤ) - 2 ^ 64 : ℤ) : Fr)

end DyCAPS
