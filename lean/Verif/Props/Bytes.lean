import Verif.Spec.Bytes
import Verif.Lemmas.Bytes

/-! C01 (4-byte integer codec) and C02 (scalar codec). -/

namespace DyCAPS

/-- C01: every int is encoded in exactly 4 bytes, and decoding gives it back modulo 2^32, whatever bytes follow. -/
theorem C01_int_codec (n : Int) (rest : Bytes) :
    (intToBytes n).length = 4 ∧ bytesToInt (intToBytes n ++ rest) = n % 2 ^ 32 := by
  refine ⟨rfl, ?_⟩
  unfold bytesToInt intToBytes
  rw [bytesToUint32_uint32ToBytes, UInt32.toNat_ofNat']
  have h0 : 0 ≤ n % 2 ^ 32 := Int.emod_nonneg _ (by norm_num)
  have h1 : n % 2 ^ 32 < 2 ^ 32 := Int.emod_lt_of_pos _ (by norm_num)
  omega

/-- C01: ints in the uint32 range survive exactly. -/
theorem C01_int_range (n : Int) (h0 : 0 ≤ n) (h1 : n < 2 ^ 32) : bytesToInt (intToBytes n) = n := by
  have := (C01_int_codec n []).2
  rw [List.append_nil] at this
  rw [this]; omega

example : bytesToInt (intToBytes 70000) = 70000 := C01_int_range 70000 (by norm_num) (by norm_num)
example : bytesToInt (intToBytes (-1)) = 4294967295 := by
  have := (C01_int_codec (-1) []).2; rw [List.append_nil] at this; rw [this]; norm_num

/-- C01: the uint32 code is a bijection between uint32 and 4-byte strings, and it is big endian. -/
theorem C01_uint32_codec :
    (∀ n : UInt32, (uint32ToBytes n).length = 4 ∧ bytesToUint32 (uint32ToBytes n) = n) ∧
    (∀ b : Bytes, b.length = 4 → uint32ToBytes (bytesToUint32 b) = b) ∧
    (∀ b : Bytes, b.length = 4 → (bytesToUint32 b).toNat = leValue b.reverse) := by
  refine ⟨fun n => ⟨rfl, ?_⟩, uint32ToBytes_bytesToUint32, ?_⟩
  · have := bytesToUint32_uint32ToBytes n []
    rwa [List.append_nil] at this
  · intro b hb
    obtain ⟨b0, b1, b2, b3, rfl⟩ := list4 b hb
    have h0 := b0.toNat_lt
    have h1 := b1.toNat_lt
    have h2 := b2.toNat_lt
    have h3 := b3.toNat_lt
    simp [bytesToUint32, leValue, Finset.sum_range_succ]
    omega

example : bytesToUint32 [0, 0, 1, 2] = 258 := by decide

/-- C01: different uint32 values never share an encoding. -/
theorem C01_injective (m n : UInt32) (h : uint32ToBytes m = uint32ToBytes n) : m = n := by
  have h1 := (C01_uint32_codec.1 m).2
  rw [h, (C01_uint32_codec.1 n).2] at h1
  exact h1.symm

/-- C01: short input decodes to 0, extra input is ignored. -/
theorem C01_lengths (b : Bytes) :
    (b.length < 4 → bytesToInt b = 0) ∧ (4 ≤ b.length → ∀ rest, bytesToInt (b ++ rest) = bytesToInt (b.take 4)) := by
  constructor
  · intro h
    match b, h with
    | [], _ => rfl
    | [_], _ => rfl
    | [_, _], _ => rfl
    | [_, _, _], _ => rfl
    | _ :: _ :: _ :: _ :: _, h => simp at h; omega
  · intro h rest
    match b, h with
    | [], h => simp at h
    | [_], h => simp at h
    | [_, _], h => simp at h
    | [_, _, _], h => simp at h
    | _ :: _ :: _ :: _ :: _, _ => rfl

/-- C02: a 32-byte string is accepted iff the little-endian number it denotes is below the group order. -/
theorem C02_accept_iff (dst : Fr) (v : Bytes) (h : v.length = 32) :
    (frFrom32 dst v).2 = true ↔ leValue v < frModulus := by
  by_cases hv : leValue v < frModulus
  · simp [frFrom32_ok dst v h hv, hv]
  · simp [frFrom32_bad dst v h hv, hv]

/-- C02: an accepted string sets the scalar to the denoted number; a rejected one leaves the destination alone. -/
theorem C02_value (dst : Fr) (v : Bytes) (h : v.length = 32) :
    (leValue v < frModulus → ((frFrom32 dst v).1).val = leValue v) ∧
    (frModulus ≤ leValue v → (frFrom32 dst v).1 = dst) := by
  constructor
  · intro hv
    rw [frFrom32_ok dst v h hv]
    exact ZMod.val_cast_of_lt hv
  · intro hv
    rw [frFrom32_bad dst v h (by omega)]

/-- C02: encoding a scalar and reading it back gives the scalar, from any destination state. -/
theorem C02_round_trip (dst x : Fr) : (frTo32 x).length = 32 ∧ frFrom32 dst (frTo32 x) = (x, true) := by
  have hlt : leValue (frTo32 x) < frModulus := by rw [leValue_frTo32]; exact ZMod.val_lt x
  refine ⟨frTo32_length x, ?_⟩
  rw [frFrom32_ok dst _ (frTo32_length x) hlt, leValue_frTo32]
  simp

/-- A byte string is determined by its length and the number it denotes. -/
theorem leValue_inj (a b : Bytes) (hl : a.length = b.length) (h : leValue a = leValue b) : a = b := by
  induction a generalizing b with
  | nil => cases b with
    | nil => rfl
    | cons _ _ => simp at hl
  | cons x a ih => cases b with
    | nil => simp at hl
    | cons y b =>
      have key : ∀ (z : UInt8) (l : Bytes), leValue (z :: l) = z.toNat + 256 * leValue l := by
        intro z l
        rw [leValue, leValue, List.length_cons, Finset.sum_range_succ', Finset.mul_sum, add_comm]
        congr 1
        · simp
        · apply Finset.sum_congr rfl
          intro i _
          simp only [List.getD_cons_succ]; ring
      rw [key, key] at h
      have hx := x.toNat_lt
      have hy := y.toNat_lt
      have h1 : x.toNat = y.toNat := by omega
      have h2 : leValue a = leValue b := by omega
      rw [ih b (by simpa using hl) h2, UInt8.toNat_inj.1 h1]

/-- C02: `FrTo32` is injective and its image is exactly the set of accepted strings. -/
theorem C02_canonical (v : Bytes) :
    (∃ x : Fr, frTo32 x = v) ↔ v.length = 32 ∧ ∀ dst : Fr, (frFrom32 dst v).2 = true := by
  constructor
  · rintro ⟨x, rfl⟩
    exact ⟨frTo32_length x, fun dst => by rw [(C02_round_trip dst x).2]⟩
  · rintro ⟨hl, h⟩
    have hv := (C02_accept_iff 0 v hl).1 (h 0)
    refine ⟨(leValue v : Fr), leValue_inj _ _ (by rw [frTo32_length, hl]) ?_⟩
    rw [leValue_frTo32]
    exact ZMod.val_cast_of_lt hv

theorem C02_injective (x y : Fr) (h : frTo32 x = frTo32 y) : x = y := by
  have h1 := (C02_round_trip 0 x).2
  rw [h, (C02_round_trip 0 y).2] at h1
  exact (Prod.mk.inj h1).1.symm

example : frFrom32 5 (frTo32 1234567) = (1234567, true) := (C02_round_trip 5 1234567).2
/-- The all-ones string is a rejected input: the hypothesis of the second half of `C02_value` is met. -/
example : frModulus ≤ leValue (List.replicate 32 255) := by
  have : leValue (List.replicate 32 (255 : UInt8)) = 2 ^ 256 - 1 := by
    simp [leValue, Finset.sum_range_succ]
  rw [this]; decide +kernel

/-- No other number has the code of 70000. -/
example (n : UInt32) (h : uint32ToBytes n = [0, 1, 17, 112]) : n = 70000 := C01_injective n 70000 (by rw [h]; decide)

/-- Three bytes decode to 0; of seven bytes the first four count. -/
example : bytesToInt [1, 2, 3] = 0 ∧ bytesToInt ([0, 0, 1, 2] ++ [9, 9, 9]) = 258 := by
  refine ⟨(C01_lengths [1, 2, 3]).1 (by decide), ?_⟩
  rw [(C01_lengths [0, 0, 1, 2]).2 (by decide)]
  decide

/-- The string of 32 bytes 255 is not accepted, so it is the code of no scalar; that of 31 zero bytes and a 115 is accepted. -/
example : (frFrom32 5 (List.replicate 32 255)).2 = false ∧ (¬ ∃ x : Fr, frTo32 x = List.replicate 32 255) ∧ (frFrom32 5 (List.replicate 31 0 ++ [115])).2 = true := by
  have h : ¬ leValue (List.replicate 32 (255 : UInt8)) < frModulus := by decide +kernel
  refine ⟨Bool.eq_false_iff.2 fun hc => h ((C02_accept_iff 5 _ (by rfl)).1 hc), fun hc => ?_, (C02_accept_iff 5 _ (by rfl)).2 (by decide +kernel)⟩
  exact h ((C02_accept_iff 5 _ (by rfl)).1 (((C02_canonical _).1 hc).2 5))

end DyCAPS
