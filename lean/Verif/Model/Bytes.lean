import Verif.Model.Field
import Verif.Model.Go

/-!
# Byte level helpers

`pkg/utils/utils.go`, `internal/bls/bignum_all.go` (`ValidFr`) and the 32-byte scalar codec of
`internal/bls/bignum_kilic.go`.  Byte slices are `List UInt8`.
-/

namespace DyCAPS

/-- `[]byte`, in all files. -/
abbrev Bytes := List UInt8

/-- `Uint32ToBytes`, pkg/utils/utils.go:9-13 (`binary.Write` big endian of a uint32). -/
def uint32ToBytes (n : UInt32) : Bytes :=
  [UInt8.ofNat (n.toNat / 2 ^ 24), UInt8.ofNat (n.toNat / 2 ^ 16), UInt8.ofNat (n.toNat / 2 ^ 8), UInt8.ofNat n.toNat]

/-- `BytesToUint32`, pkg/utils/utils.go:16-21. `binary.Read` of fewer than 4 bytes fails, its error is dropped, the result
stays 0; bytes after the fourth are not read. -/
def bytesToUint32 : Bytes → UInt32
  | b0 :: b1 :: b2 :: b3 :: _ =>
    UInt32.ofNat (b0.toNat * 2 ^ 24 + b1.toNat * 2 ^ 16 + b2.toNat * 2 ^ 8 + b3.toNat)
  | _ => 0

/-- `BytesToInt`, pkg/utils/utils.go:24-29. -/
def bytesToInt (b : Bytes) : Int := ((bytesToUint32 b).toNat : Int)

/-- `IntToBytes`, pkg/utils/utils.go:32-37; `uint32(n)` keeps the low 32 bits of the two's complement. -/
def intToBytes (n : Int) : Bytes := uint32ToBytes (UInt32.ofNat (n % 2 ^ 32).toNat)

/-- The descending loop of `DeleteZero`, pkg/utils/utils.go:41-47; `i + 1` is the loop index plus one, which is the length of `src`. -/
def deleteZeroLoop : ℕ → Bytes → Bytes
  | 0, src => src
  | i + 1, src => if src.getD i 0 = 0 then deleteZeroLoop i (src.take i) else src

/-- `DeleteZero`, pkg/utils/utils.go:39-49: strip trailing zero bytes. -/
def deleteZero (src : Bytes) : Bytes := deleteZeroLoop src.length src

/-- `DeleteZeroWithLen`, pkg/utils/utils.go:51-53; a length above the slice length panics (capacity = length is assumed). -/
def deleteZeroWithLen (src : Bytes) (n : ℕ) : Go Bytes :=
  if n ≤ src.length then .ok (src.take n) else .error .panic

/-- `binary.LittleEndian.Uint64(val[i:i+8])` as a number. internal/bls/bignum_all.go:15. -/
def leU64 (val : Bytes) (i : ℕ) : ℕ :=
  ((List.range 8).map fun j => (val.getD (i + j) 0).toNat * 256 ^ j).sum

/-- `ValidFr`, internal/bls/bignum_all.go:15-38; `val` is a `[32]byte`. -/
def validFr (val : Bytes) : Bool :=
  if val.getD 31 0 == 0 then true
  else
    let a := leU64 val 24
    if a > 0x73eda753299d7d48 then false
    else if a < 0x73eda753299d7d48 then true
    else
      let b := leU64 val 16
      if b > 0x3339d80809a1d805 then false
      else if b < 0x3339d80809a1d805 then true
      else
        let c := leU64 val 8
        if c > 0x53bda402fffe5bfe then false
        else if c < 0x53bda402fffe5bfe then true
        else decide (leU64 val 0 ≤ 0xffffffff00000000)

/-- The byte-swap loop `for i := 0; i < n; i++ { b[i], b[last-i] = b[last-i], b[i] }` (bignum_kilic.go:41-43, 53-55)
on a slice of length `last+1`. -/
def swapLoop (last n : ℕ) (b : Bytes) : Bytes :=
  (List.range n).foldl (fun b i => (b.set i (b.getD (last - i) 0)).set (last - i) (b.getD i 0)) b

/-- Big-endian bytes to a number, as `RedFromBytes` reads them. bignum_kilic.go:36-47. -/
def beNat (b : Bytes) : ℕ := b.foldl (fun acc x => acc * 256 + x.toNat) 0

/-- `RedToBytes`: 32 big-endian bytes of the canonical representative. bignum_kilic.go:49-58. -/
def beBytes32 (n : ℕ) : Bytes := (List.range 32).map fun i => UInt8.ofNat (n / 256 ^ (31 - i))

/-- `FrFrom32(dst, v)`, internal/bls/bignum_kilic.go:36-46: new value of `dst` and the returned flag. -/
def frFrom32 (dst : Fr) (v : Bytes) : Fr × Bool :=
  if !validFr v then (dst, false)
  else ((beNat (swapLoop 31 16 v) : Fr), true)

/-- `FrTo32`, internal/bls/bignum_kilic.go:49-58. -/
def frTo32 (x : Fr) : Bytes := swapLoop 31 16 (beBytes32 x.val)

end DyCAPS
