import Verif.Model.Hbls

/-!
# Polynomials, powers and text in the two integer back ends

The rest of `internal/bls/bignum_pure.go` and `internal/bls/bignum_hol256.go` (`Model/Backends` has the operations). `math/big` and `holiman/uint256` are not in /repo.
-/

namespace DyCAPS

/-- `EvalPolyAt`, bignum_pure.go:129-131, which is `EvalPolyAtUnoptimized`, globals.go:79-98, on integers. -/
def pureEvalPolyAt (coeffs : List ℤ) (x : ℤ) : ℤ :=
  if coeffs.length = 0 then 0
  else if pureEqual x 0 then coeffs.getD 0 0
  else ((List.range (coeffs.length - 1)).reverse).foldl (fun last i => pureAdd (pureMul last x) (coeffs.getD i 0)) (coeffs.getD (coeffs.length - 1) 0)

/-- `EvalPolyAt`, bignum_hol256.go:140-142, which is `EvalPolyAtUnoptimized`, globals.go:79-98, on 256-bit words. -/
def holEvalPolyAt (coeffs : List ℕ) (x : ℕ) : ℕ :=
  if coeffs.length = 0 then 0
  else if x = 0 then coeffs.getD 0 0
  else ((List.range (coeffs.length - 1)).reverse).foldl (fun last i => holAdd (holMul last x) (coeffs.getD i 0)) (coeffs.getD (coeffs.length - 1) 0)

/-- `ExpModFr`, bignum_pure.go:134-136, for every exponent: `big.Int.Exp` leaves the destination alone if there is no result. -/
def pureExpInt (dst v e : ℤ) : ℤ :=
  match bigExp v e with
  | some n => n
  | none => dst

/-- `ExpModFr`, bignum_hol256.go:145-147, for every exponent: `SetFromBig` reads the words of its argument, so it panics on nil. -/
def holExpInt (v : ℕ) (e : ℤ) : Go ℕ :=
  match bigExp v e with
  | some n => .ok n
  | none => .error .panic

/-! ## Text -/

/-- The value of a digit character up to 15. bignum_pure.go:54. -/
def digitOf (c : Char) : Option ℕ :=
  if 48 ≤ c.toNat ∧ c.toNat ≤ 57 then some (c.toNat - 48)
  else if 97 ≤ c.toNat ∧ c.toNat ≤ 102 then some (c.toNat - 87)
  else if 65 ≤ c.toNat ∧ c.toNat ≤ 70 then some (c.toNat - 55)
  else none

/-- A non-empty run of digits in base `b`. bignum_pure.go:54. -/
def readBase (b : ℕ) (s : List Char) : Option ℕ :=
  if s = [] then none else s.foldl (fun acc c => acc.bind fun a => (digitOf c).bind fun d => if d < b then some (a * b + d) else none) (some 0)

/-- The number after the sign when the base is taken from the text: `0x`, `0b` and `0o` in either case, a leading `0` for octal, else decimal. bignum_pure.go:54. -/
def readUnsigned : List Char → Option ℕ
  | ['0'] => some 0
  | '0' :: c :: s =>
    if c = 'x' ∨ c = 'X' then readBase 16 s
    else if c = 'b' ∨ c = 'B' then readBase 2 s
    else if c = 'o' ∨ c = 'O' then readBase 8 s
    else readBase 8 (c :: s)
  | s => readBase 10 s

/-- `big.Int.UnmarshalText`: an optional sign, then a number whose base is taken from its prefix. The library also allows `_` between digits; text with `_` is not modelled (it is `none` here).
bignum_pure.go:54 and bignum_hol256.go:27. -/
def readText : List Char → Option ℤ
  | '-' :: s => (readUnsigned s).map fun n : ℕ => -(n : ℤ)
  | '+' :: s => (readUnsigned s).map fun n : ℕ => (n : ℤ)
  | s => (readUnsigned s).map fun n : ℕ => (n : ℤ)

/-- `SetFr`, bignum_pure.go:53-57: no reduction; panics on an error. -/
def pureSetText (v : List Char) : Go ℤ :=
  match readText v with
  | some n => .ok n
  | none => .error .panic

/-- `SetFr`, bignum_hol256.go:25-33: panics on an error and from `2^256`; a negative number is stored as its two's complement. -/
def holSetText (v : List Char) : Go ℕ :=
  match readText v with
  | some n => if n.natAbs < 2 ^ 256 then .ok (n % 2 ^ 256).toNat else .error .panic
  | none => .error .panic

/-- `FrStr`, bignum_pure.go:63-65; a negative number has a minus sign. -/
def pureFrStr (x : ℤ) : List Char := if x < 0 then '-' :: decimal x.natAbs else decimal x.natAbs

/-- `FrStr`, bignum_hol256.go:69-74; a nil pointer is `none`. -/
def holFrStr : Option ℕ → List Char
  | none => "<nil>".toList
  | some x => decimal x

end DyCAPS
