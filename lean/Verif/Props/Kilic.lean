import Verif.Lemmas.Kilic
import Verif.Props.Bytes

/-!
# C104-C106: stored words, decimal text and the two pairing checks

`rep x` is the word in which the default back end stores the scalar `x` (`x · 2^256 mod r`).
-/

namespace DyCAPS

/-- Every word below `r` stores exactly one scalar. -/
theorem C104_words (w : Word) (h : w < frModulus) : ∃! x : Fr, rep x = w := by
  refine ⟨(w : Fr) * (montRInv : Fr), ?_, fun y hy => ?_⟩
  · change rep _ = w
    unfold rep
    rw [mul_assoc, montRInv_mul, mul_one, ZMod.val_natCast, Nat.mod_eq_of_lt h]
  · change rep y = w at hy
    rw [← hy, rep_cast, mul_assoc, two_pow_mul, mul_one]

/-- The word 5 stands for one scalar; it is not 5. -/
example : (∃! x : Fr, rep x = 5) ∧ rep (5 : Fr) ≠ 5 ∧ rep ((5 : Fr) * (montRInv : Fr)) = 5 := ⟨C104_words 5 (by decide +kernel), by decide +kernel, by decide +kernel⟩

/-- Arithmetic on stored words is arithmetic of the scalars. -/
theorem C104_arithmetic (x y : Fr) (e : ℕ) (l : List Fr) : kAdd (rep x) (rep y) = rep (x + y) ∧ kSub (rep x) (rep y) = rep (x - y) ∧ kMul (rep x) (rep y) = rep (x * y) ∧
    kInv (rep x) = rep x⁻¹ ∧ kDiv (rep x) (rep y) = rep (x / y) ∧ kExp (rep x) e = rep (x ^ e) ∧ kBatchInv (l.map rep) = l.map fun v => rep v⁻¹ :=
  ⟨kAdd_rep x y, kSub_rep x y, kMul_rep x y, kInv_rep x, kDiv_rep x y, kExp_rep x e, kBatchInv_rep l⟩

/-- Computed with the stored words: 7 + 5, 5 - 7, 7 · 5, 1/7, 12/4, 3⁴, and the inverses of 2, 0 and 4 at once. -/
example : kAdd (rep 7) (rep 5) = rep 12 ∧ kSub (rep 5) (rep 7) = rep (-2) ∧ kMul (rep 7) (rep 5) = rep 35 ∧ kMul (rep 7) (kInv (rep 7)) = rep 1 ∧ kDiv (rep 12) (rep 4) = rep 3 ∧ kExp (rep 3) 4 = rep 81 ∧
    kBatchInv [rep 2, rep 0, rep 4] = [rep (1 / 2), rep 0, rep (1 / 4)] := by decide +kernel

/-- The tests compare scalars. -/
theorem C104_tests (x y : Fr) : (kEqualFr (rep x) (rep y) = true ↔ x = y) ∧ (kEqualZero (rep x) = true ↔ x = 0) ∧ (kEqualOne (rep x) = true ↔ x = 1) := by
  refine ⟨?_, kEqualZero_rep x, ?_⟩
  · unfold kEqualFr
    rw [decide_eq_true_iff]
    exact ⟨rep_inj, fun h => by rw [h]⟩
  · unfold kEqualOne
    rw [decide_eq_true_iff, ← rep_one]
    exact ⟨rep_inj, fun h => by rw [h]⟩

/-- 3 is 3 and not 4, 0 is zero, 1 is one and not zero. -/
example : kEqualFr (rep 3) (rep 3) = true ∧ kEqualFr (rep 3) (rep 4) = false ∧ kEqualZero (rep 0) = true ∧ kEqualZero (rep 1) = false ∧ kEqualOne (rep 1) = true ∧ kEqualOne (rep 2) = false := by decide +kernel

/-- Conversions see the scalar: 32 bytes in both directions and machine integers. -/
theorem C104_conversions (x d : Fr) (v : Bytes) (i : UInt64) : kFrTo32 (rep x) = frTo32 x ∧ kFrFrom32 (rep d) v = (rep (frFrom32 d v).1, (frFrom32 d v).2) ∧
    kAsFr i = rep (i.toNat : Fr) := by
  refine ⟨?_, ?_, ?_⟩
  · unfold kFrTo32 redToBytes frTo32
    rw [fromRed_rep]
  · unfold kFrFrom32 frFrom32
    split
    · rfl
    · rw [redFromBytes_rep]
  · unfold kAsFr
    rw [redFromBytes_rep]
    congr 2
    have hi : i.toNat < 256 ^ 8 := i.toNat_lt
    have h : (List.range 8).map (fun k => UInt8.ofNat (i.toNat / 256 ^ (7 - k))) = [UInt8.ofNat (i.toNat / 256 ^ 7), UInt8.ofNat (i.toNat / 256 ^ 6), UInt8.ofNat (i.toNat / 256 ^ 5),
      UInt8.ofNat (i.toNat / 256 ^ 4), UInt8.ofNat (i.toNat / 256 ^ 3), UInt8.ofNat (i.toNat / 256 ^ 2), UInt8.ofNat (i.toNat / 256 ^ 1), UInt8.ofNat (i.toNat / 256 ^ 0)] := rfl
    rw [h]
    simp only [beNat, List.foldl_cons, List.foldl_nil, UInt8.toNat_ofNat']
    omega

/-- 258 is written with its low byte first and read back; 2^256 - 1 is refused and the old value stays. -/
example : kFrTo32 (rep 258) = 2 :: 1 :: List.replicate 30 0 ∧ kFrFrom32 (rep 9) (2 :: 1 :: List.replicate 30 0) = (rep 258, true) ∧ kFrFrom32 (rep 9) (List.replicate 32 255) = (rep 9, false) ∧ kAsFr 258 = rep 258 := by
  decide +kernel

/-- Evaluating a polynomial on words gives the word of its value. -/
theorem C104_polynomial (l : List Fr) (x : Fr) : kEvalPolyAt (l.map rep) (rep x) = rep ((List.range l.length).map fun i => l.getD i 0 * x ^ i).sum := by
  rw [kEvalPolyAt_rep, evalPolyAt_eq, polyVal]
  rfl

/-- 5 + 7·3². -/
example : kEvalPolyAt [rep 5, rep 0, rep 7] (rep 3) = rep 68 := by decide +kernel

/-- Multiplying a point uses the scalar, not the stored word; so do linear combinations. Lists of different lengths are refused. -/
theorem C104_curve {G : Type} [AddCommGroup G] [Module Fr G] (a : G) (x : Fr) (l : List (G × Fr)) : kMulG a (rep x) = x • a ∧
    kLinCombG1 (l.map Prod.fst) (l.map fun p => rep p.2) = .ok (l.map fun p => p.2 • p.1).sum ∧
    ∀ (ps : List G) (ws : List Word), ps.length ≠ ws.length → kLinCombG1 ps ws = .error .panic := by
  refine ⟨kMulG_rep a x, ?_, fun ps ws h => by rw [kLinCombG1, if_pos h]⟩
  unfold kLinCombG1
  rw [if_neg (by simp)]
  congr 2
  induction l with
  | nil => rfl
  | cons p l ih =>
    simp only [List.map_cons, List.zip_cons_cons]
    rw [ih, fromRed_rep, ← Nat.cast_smul_eq_nsmul Fr, ZMod.natCast_zmod_val]

/-- With the field itself as the group: 3·10, 3·10 + 4·100, and a list that is too short. -/
example : kMulG (10 : Fr) (rep 3) = 30 ∧ kLinCombG1 ([10, 100] : List Fr) [rep 3, rep 4] = .ok 430 ∧ kLinCombG1 ([10, 100] : List Fr) [rep 3] = .error .panic := by decide +kernel

/-- A random scalar is as uniform as the library's draw: each scalar comes from exactly one draw below `r`. -/
theorem C104_random (x : Fr) : ∃! draw : Word, draw < frModulus ∧ kRandomFr draw = rep x := by
  refine ⟨x.val, ⟨ZMod.val_lt x, ?_⟩, ?_⟩
  · unfold kRandomFr
    rw [toRed_rep, ZMod.natCast_zmod_val]
  · rintro d ⟨hd, h⟩
    unfold kRandomFr at h
    rw [toRed_rep] at h
    exact word_eq hd (rep_inj h)

/-- The draw 7 gives the scalar 7. -/
example : kRandomFr 7 = rep 7 ∧ kRandomFr 8 ≠ rep 7 := by decide +kernel

/-- A computation with scalars: integers, 32-byte strings (zero if out of range), and the operations. -/
inductive ScalarExpr
  | num (i : UInt64)
  | bytes (v : Bytes)
  | add (a b : ScalarExpr)
  | sub (a b : ScalarExpr)
  | mul (a b : ScalarExpr)
  | div (a b : ScalarExpr)
  | pow (a : ScalarExpr) (e : ℕ)
  | ite (a b c d : ScalarExpr)

/-- Its value in the field; `ite a b c d` is `c` if `a = b`, else `d`. -/
def ScalarExpr.value : ScalarExpr → Fr
  | num i => (i.toNat : Fr)
  | bytes v => (frFrom32 0 v).1
  | add a b => a.value + b.value
  | sub a b => a.value - b.value
  | mul a b => a.value * b.value
  | div a b => a.value / b.value
  | pow a e => a.value ^ e
  | ite a b c d => if a.value = b.value then c.value else d.value

/-- The same computation with the functions of the back end, on words. -/
def ScalarExpr.run : ScalarExpr → Word
  | num i => kAsFr i
  | bytes v => (kFrFrom32 0 v).1
  | add a b => kAdd a.run b.run
  | sub a b => kSub a.run b.run
  | mul a b => kMul a.run b.run
  | div a b => kDiv a.run b.run
  | pow a e => kExp a.run e
  | ite a b c d => if kEqualFr a.run b.run then c.run else d.run

/-- **C104.** However scalars are computed, what leaves the back end (bytes, or a multiple of a point) is determined by the value in the field. -/
theorem C104 (t : ScalarExpr) : t.run = rep t.value ∧ kFrTo32 t.run = frTo32 t.value ∧ ∀ {G : Type} [AddCommGroup G] [Module Fr G] (g : G), kMulG g t.run = t.value • g := by
  have h : t.run = rep t.value := by
    induction t with
    | num i => exact (C104_conversions 0 0 [] i).2.2
    | bytes v =>
      simp only [ScalarExpr.run, ScalarExpr.value]
      have := (C104_conversions 0 0 v 0).2.1
      rw [rep_zero] at this
      rw [this]
    | add a b iha ihb => rw [ScalarExpr.run, ScalarExpr.value, iha, ihb, kAdd_rep]
    | sub a b iha ihb => rw [ScalarExpr.run, ScalarExpr.value, iha, ihb, kSub_rep]
    | mul a b iha ihb => rw [ScalarExpr.run, ScalarExpr.value, iha, ihb, kMul_rep]
    | div a b iha ihb => rw [ScalarExpr.run, ScalarExpr.value, iha, ihb, kDiv_rep]
    | pow a e iha => rw [ScalarExpr.run, ScalarExpr.value, iha, kExp_rep]
    | ite a b c d iha ihb ihc ihd =>
      rw [ScalarExpr.run, ScalarExpr.value, iha, ihb, ihc, ihd]
      by_cases hab : a.value = b.value
      · rw [if_pos ((C104_tests _ _).1.2 hab), if_pos hab]
      · rw [if_neg (fun h => hab ((C104_tests _ _).1.1 h)), if_neg hab]
  refine ⟨h, ?_, fun g => ?_⟩
  · rw [h]; exact (C104_conversions _ 0 [] 0).1
  · rw [h]; exact kMulG_rep g _

/-- (2 - 3)·(1/2) computed on words, seen as bytes. -/
example : kFrTo32 (kMul (kSub (kAsFr 2) (kAsFr 3)) (kInv (kAsFr 2))) = frTo32 (-1 / 2) := by decide +kernel

/-- The stored word itself is another number: without `FromRed`, a point would be multiplied by 2^256 instead of 1. -/
example : kEqualOne (kAsFr 1) = true ∧ kAsFr 1 ≠ 1 ∧ fromRed (kAsFr 1) = 1 := by decide +kernel

/-! ## C105 -/

/-- What is printed is read back: `SetFr(FrStr(x)) = x`. -/
theorem C105_round_trip (junk : ℤ) (x : Fr) : kSetFr junk (kFrStr (some (rep x))) = rep x := by
  have h : kFrStr (some (rep x)) = decimal (fromRed (rep x)) := by rw [kFrStr]
  unfold kSetFr
  rw [h, fromRed_rep, readDecimal_decimal, Option.getD_some, Int.natAbs_natCast, toRed_rep, cast_modr, ZMod.natCast_zmod_val]

/-- 1907 is printed and read back. -/
example : kSetFr 0 (kFrStr (some (rep 1907))) = rep 1907 := by decide +kernel

/-- Strings of non-negative numbers are read modulo `r`. -/
theorem C105_nonnegative_partial (junk : ℤ) (v : List Char) (n : ℤ) (h : readDecimal v = some n) (hn : 0 ≤ n) : kSetFr junk v = rep (n : Fr) := by
  unfold kSetFr
  rw [h, Option.getD_some, toRed_rep, cast_modr]
  congr 1
  obtain ⟨k, rfl⟩ := Int.eq_ofNat_of_zero_le hn
  simp

/-- Every number in decimal has a string that is read so, with or without a plus sign. -/
theorem C105_all_numbers (junk : ℤ) (n : ℕ) : kSetFr junk (decimal n) = rep (n : Fr) ∧ kSetFr junk ('+' :: decimal n) = rep (n : Fr) := by
  constructor
  · have := C105_nonnegative_partial junk (decimal n) n (readDecimal_decimal n) (Int.natCast_nonneg n)
    rwa [Int.cast_natCast] at this
  · have := C105_nonnegative_partial junk ('+' :: decimal n) n (by simp only [readDecimal, readDigits_decimal, Option.map_some]) (Int.natCast_nonneg n)
    rwa [Int.cast_natCast] at this

/-- "1907" and "+1907" are the number; r + 5 is 5. -/
example : kSetFr 0 "1907".toList = rep 1907 ∧ kSetFr 0 "+1907".toList = rep 1907 ∧ kSetFr 0 (decimal (frModulus + 5)) = rep 5 := by decide +kernel

/-- The sign is lost: a negative number is stored as its absolute value, which is a different scalar unless it is a multiple of `r`. -/
theorem C105_refuted_sign (junk : ℤ) (n : ℕ) : kSetFr junk ('-' :: decimal n) = rep (n : Fr) ∧ (kSetFr junk ('-' :: decimal n) = rep (-(n : Fr)) ↔ (n : Fr) = 0) := by
  have h : kSetFr junk ('-' :: decimal n) = rep (n : Fr) := by
    have hr : readDecimal ('-' :: decimal n) = some (-(n : ℤ)) := by simp only [readDecimal, readDigits_decimal, Option.map_some]
    unfold kSetFr
    rw [hr, Option.getD_some, Int.natAbs_neg, Int.natAbs_natCast, toRed_rep, cast_modr]
  refine ⟨h, ?_⟩
  rw [h]
  constructor
  · intro h2
    have h3 : (n : Fr) + n = 0 := by
      nth_rewrite 1 [rep_inj h2]
      exact neg_add_cancel _
    have h4 : (2 : Fr) * n = 0 := by rw [two_mul]; exact h3
    rcases mul_eq_zero.1 h4 with h5 | h5
    · exact absurd (show (2 : Fr) ^ 256 = 0 by rw [h5, zero_pow (by norm_num)]) two_pow_ne
    · exact h5
  · intro h2; rw [h2, neg_zero]

/-- A string that is no number is accepted silently: the result is whatever the `big.Int` holds after the failed read, and no error is reported. -/
theorem C105_refuted_error (v : List Char) (h : readDecimal v = none) (x : Fr) : ∃ junk, kSetFr junk v = rep x := by
  refine ⟨x.val, ?_⟩
  unfold kSetFr
  rw [h, Option.getD_none, Int.natAbs_natCast, toRed_rep, cast_modr, ZMod.natCast_zmod_val]

/-- `SetFr(&s, "-5")` stores 5, and "12x" is not a number. -/
example : kSetFr 0 "-5".toList = rep 5 ∧ kSetFr 0 "-5".toList ≠ rep (-5) ∧ readDecimal "12x".toList = none ∧ readDecimal "".toList = none ∧ readDecimal "0x10".toList = none := by
  decide +kernel

/-- The strings printed for 0, for 1907 and for a nil pointer. -/
example : kFrStr (some (rep 0)) = "0".toList ∧ kFrStr (some (rep 1907)) = "1907".toList ∧ kFrStr none = "<nil>".toList := by decide +kernel

/-! ## C106 -/

/-- **C106.** For a bilinear map into a group of exponent `r`, both back ends accept exactly when `e(a1, a2) = e(b1, b2)`; the second final exponentiation of the herumi back end changes nothing. -/
theorem C106 {G1 G2 GT : Type} [AddCommGroup G1] [CommGroup GT] [DecidableEq GT] (e : G1 → G2 → GT) (hneg : ∀ a b, e (-a) b = (e a b)⁻¹) (hr : ∀ a b, e a b ^ frModulus = 1)
    (a1 : G1) (a2 : G2) (b1 : G1) (b2 : G2) :
    (kPairingsVerify e a1 a2 b1 b2 = true ↔ e a1 a2 = e b1 b2) ∧ (hblsPairingsVerify e a1 a2 b1 b2 = true ↔ e a1 a2 = e b1 b2) := by
  constructor
  · unfold kPairingsVerify
    rw [decide_eq_true_iff, hneg, inv_mul_eq_one]
  · unfold hblsPairingsVerify
    rw [decide_eq_true_iff, pow_finalExpo, inv_mul_eq_one]
    rw [mul_pow, inv_pow, hr, hr, inv_one, one_mul]

/-- The exponent matters: raising to a multiple of `r` would accept everything. -/
theorem C106_exponent {GT : Type} [CommGroup GT] (t : GT) (h : t ^ frModulus = 1) : (t ^ finalExpo = 1 ↔ t = 1) ∧ t ^ (finalExpo * frModulus) = 1 :=
  ⟨pow_finalExpo t h, by rw [mul_comm, pow_mul, h, one_pow]⟩

/-- In the additive group of the field, written multiplicatively: 5 is not killed by the exponent, 0 is. -/
example : (Multiplicative.ofAdd (5 : Fr)) ^ finalExpo ≠ 1 ∧ (Multiplicative.ofAdd (0 : Fr)) ^ finalExpo = 1 := by
  have h : ∀ a : Fr, Multiplicative.ofAdd a ^ frModulus = 1 := fun a => by rw [← ofAdd_nsmul, nsmul_eq_mul, ZMod.natCast_self, zero_mul, ofAdd_zero]
  exact ⟨fun h0 => absurd ((C106_exponent _ (h 5)).1.1 h0) (by decide +kernel), (C106_exponent _ (h 0)).1.2 rfl⟩

/-- The exponent of the code is the one of the final exponentiation: the division leaves no remainder. -/
theorem C106_whole : finalExpo * frModulus = fpModulus ^ 12 - 1 := by decide +kernel

/-- The hypotheses hold for the pairing of logarithms, `e(a, b) = a·b` in the additive group of the field. -/
example : (∀ a b : Fr, Multiplicative.ofAdd (-a * b) = (Multiplicative.ofAdd (a * b))⁻¹) ∧ (∀ a b : Fr, Multiplicative.ofAdd (a * b) ^ frModulus = 1) := by
  refine ⟨fun a b => by rw [neg_mul]; rfl, fun a b => ?_⟩
  rw [← ofAdd_nsmul, nsmul_eq_mul, ZMod.natCast_self, zero_mul, ofAdd_zero]

/-- Accepted: e(2, 3) = e(6, 1). Rejected: e(2, 3) against e(1, 1). -/
example : kPairingsVerify (fun a b : Fr => Multiplicative.ofAdd (a * b)) 2 3 6 1 = true ∧ kPairingsVerify (fun a b : Fr => Multiplicative.ofAdd (a * b)) 2 3 1 1 = false ∧
    hblsPairingsVerify (fun a b : Fr => Multiplicative.ofAdd (a * b)) 2 3 6 1 = true ∧ hblsPairingsVerify (fun a b : Fr => Multiplicative.ofAdd (a * b)) 2 3 1 1 = false := by
  have h := fun a1 a2 b1 b2 => C106 (fun a b : Fr => Multiplicative.ofAdd (a * b)) (fun a b => by rw [neg_mul]; rfl)
    (fun a b => by rw [← ofAdd_nsmul, nsmul_eq_mul, ZMod.natCast_self, zero_mul, ofAdd_zero]) a1 a2 b1 b2
  have h1 : Multiplicative.ofAdd ((2 : Fr) * 3) = Multiplicative.ofAdd (6 * 1) := by norm_num
  have h2 : Multiplicative.ofAdd ((2 : Fr) * 3) ≠ Multiplicative.ofAdd ((1 : Fr) * 1) := by decide +kernel
  exact ⟨(h 2 3 6 1).1.2 h1, Bool.eq_false_iff.2 fun h3 => h2 ((h 2 3 1 1).1.1 h3), (h 2 3 6 1).2.2 h1, Bool.eq_false_iff.2 fun h3 => h2 ((h 2 3 1 1).2.1 h3)⟩

end DyCAPS
