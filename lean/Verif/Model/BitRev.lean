import Verif.Model.Go

/-!
# Bit-reversal order

`internal/polycommit/reverse_bit_order.go` and its callers `reverseBitOrderFr` (fft_fr.go:111-121), `reverseBitOrderG1` (fft_g1.go:100-110). A `uint32` is a natural number below `2^32`; a shift to the right by
32 bits gives 0 in Go and here.
-/

namespace DyCAPS

/-- `mask0 … mask4`, reverse_bit_order.go:7-14: `^uint32((1 << (1 << i)) - 1)`. -/
def revMask (i : ℕ) : ℕ := 2 ^ 32 - 1 - (2 ^ 2 ^ i - 1)

/-- One of the conditionals of `bitIndex`: `if v&mask != 0 { v >>= bit; out |= bit }` with `bit = 1 << i`. reverse_bit_order.go:29-76. -/
def bitIndexStep (st : ℕ × ℕ) (i : ℕ) : ℕ × ℕ :=
  if st.1 &&& revMask i ≠ 0 then (st.1 >>> 2 ^ i, st.2 ||| 2 ^ i) else st

/-- `bitIndex`, reverse_bit_order.go:29-57 (the last conditional need not shift). -/
def bitIndex (v : ℕ) : ℕ := if v = 0 then 0 else ([4, 3, 2, 1, 0].foldl bitIndexStep (v, 0)).2

/-- `revByte`, reverse_bit_order.go:59-76. -/
def revByte : List ℕ := [
  0b00000000, 0b10000000, 0b01000000, 0b11000000, 0b00100000, 0b10100000, 0b01100000, 0b11100000, 0b00010000, 0b10010000, 0b01010000, 0b11010000, 0b00110000, 0b10110000, 0b01110000, 0b11110000,
  0b00001000, 0b10001000, 0b01001000, 0b11001000, 0b00101000, 0b10101000, 0b01101000, 0b11101000, 0b00011000, 0b10011000, 0b01011000, 0b11011000, 0b00111000, 0b10111000, 0b01111000, 0b11111000,
  0b00000100, 0b10000100, 0b01000100, 0b11000100, 0b00100100, 0b10100100, 0b01100100, 0b11100100, 0b00010100, 0b10010100, 0b01010100, 0b11010100, 0b00110100, 0b10110100, 0b01110100, 0b11110100,
  0b00001100, 0b10001100, 0b01001100, 0b11001100, 0b00101100, 0b10101100, 0b01101100, 0b11101100, 0b00011100, 0b10011100, 0b01011100, 0b11011100, 0b00111100, 0b10111100, 0b01111100, 0b11111100,
  0b00000010, 0b10000010, 0b01000010, 0b11000010, 0b00100010, 0b10100010, 0b01100010, 0b11100010, 0b00010010, 0b10010010, 0b01010010, 0b11010010, 0b00110010, 0b10110010, 0b01110010, 0b11110010,
  0b00001010, 0b10001010, 0b01001010, 0b11001010, 0b00101010, 0b10101010, 0b01101010, 0b11101010, 0b00011010, 0b10011010, 0b01011010, 0b11011010, 0b00111010, 0b10111010, 0b01111010, 0b11111010,
  0b00000110, 0b10000110, 0b01000110, 0b11000110, 0b00100110, 0b10100110, 0b01100110, 0b11100110, 0b00010110, 0b10010110, 0b01010110, 0b11010110, 0b00110110, 0b10110110, 0b01110110, 0b11110110,
  0b00001110, 0b10001110, 0b01001110, 0b11001110, 0b00101110, 0b10101110, 0b01101110, 0b11101110, 0b00011110, 0b10011110, 0b01011110, 0b11011110, 0b00111110, 0b10111110, 0b01111110, 0b11111110,
  0b00000001, 0b10000001, 0b01000001, 0b11000001, 0b00100001, 0b10100001, 0b01100001, 0b11100001, 0b00010001, 0b10010001, 0b01010001, 0b11010001, 0b00110001, 0b10110001, 0b01110001, 0b11110001,
  0b00001001, 0b10001001, 0b01001001, 0b11001001, 0b00101001, 0b10101001, 0b01101001, 0b11101001, 0b00011001, 0b10011001, 0b01011001, 0b11011001, 0b00111001, 0b10111001, 0b01111001, 0b11111001,
  0b00000101, 0b10000101, 0b01000101, 0b11000101, 0b00100101, 0b10100101, 0b01100101, 0b11100101, 0b00010101, 0b10010101, 0b01010101, 0b11010101, 0b00110101, 0b10110101, 0b01110101, 0b11110101,
  0b00001101, 0b10001101, 0b01001101, 0b11001101, 0b00101101, 0b10101101, 0b01101101, 0b11101101, 0b00011101, 0b10011101, 0b01011101, 0b11011101, 0b00111101, 0b10111101, 0b01111101, 0b11111101,
  0b00000011, 0b10000011, 0b01000011, 0b11000011, 0b00100011, 0b10100011, 0b01100011, 0b11100011, 0b00010011, 0b10010011, 0b01010011, 0b11010011, 0b00110011, 0b10110011, 0b01110011, 0b11110011,
  0b00001011, 0b10001011, 0b01001011, 0b11001011, 0b00101011, 0b10101011, 0b01101011, 0b11101011, 0b00011011, 0b10011011, 0b01011011, 0b11011011, 0b00111011, 0b10111011, 0b01111011, 0b11111011,
  0b00000111, 0b10000111, 0b01000111, 0b11000111, 0b00100111, 0b10100111, 0b01100111, 0b11100111, 0b00010111, 0b10010111, 0b01010111, 0b11010111, 0b00110111, 0b10110111, 0b01110111, 0b11110111,
  0b00001111, 0b10001111, 0b01001111, 0b11001111, 0b00101111, 0b10101111, 0b01101111, 0b11101111, 0b00011111, 0b10011111, 0b01011111, 0b11011111, 0b00111111, 0b10111111, 0b01111111, 0b11111111]

/-- `reverseBits`, reverse_bit_order.go:78-83; `uint8(x)` is `x % 256`, and the table has 256 entries. -/
def reverseBits (b : ℕ) : ℕ :=
  (revByte.getD (b % 256) 0 <<< 24) ||| (revByte.getD ((b >>> 8) % 256) 0 <<< 16) ||| (revByte.getD ((b >>> 16) % 256) 0 <<< 8) ||| revByte.getD ((b >>> 24) % 256) 0

/-- `reverseBitsLimited`, reverse_bit_order.go:85-88. -/
def reverseBitsLimited (length value : ℕ) : ℕ := reverseBits value >>> (32 - bitIndex length)

section
variable {α : Type}

/-- The `swap` callback: `tmp = values[i]; values[i] = values[j]; values[j] = tmp`. fft_fr.go:111-122, fft_g1.go:100-111. -/
def swapAt (values : List α) (i j : ℕ) : Go (List α) := do
  let vi ← idx values i
  let vj ← idx values j
  pure ((values.set i vj).set j vi)

/-- `reverseBitOrder`, reverse_bit_order.go:90-105, with the swaps applied to `values`. In the guard `length-1` wraps around. -/
def reverseBitOrder (length : ℕ) (values : List α) : Go (List α) :=
  if !(decide (length > 0) || (length &&& ((length + (2 ^ 32 - 1)) % 2 ^ 32) == 0)) then .error .panic
  else (List.range length).foldlM (fun values i =>
    let r := reverseBits i >>> (32 - bitIndex length)
    if r > i then swapAt values r i else pure values) values

/-- `reverseBitOrderFr`, fft_fr.go:111-121, `reverseBitOrderFrPtr`, fft_fr.go:124-131 (the elements are pointers), and `reverseBitOrderG1`, fft_g1.go:100-110: the new content of `values`. -/
def reverseBitOrderList (values : List α) : Go (List α) :=
  if values.length > 2 ^ 31 then .error .panic else reverseBitOrder values.length values

end

end DyCAPS
