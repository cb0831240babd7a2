import Verif.Lemmas.Hbls
import Verif.Props.Kilic
import Verif.Props.Backends

/-!
# C118: the herumi back end computes what the default back end computes

`ScalarExpr` (`Props/Kilic`) is a computation with the functions of the bls package; `t.run` runs it on the stored words of the default back end.
-/

namespace DyCAPS

/-- The same computation with the functions of the herumi back end. -/
def ScalarExpr.runHbls (L : HblsLib) : ScalarExpr → Go Fr
  | num i => .ok (hblsAsFr i)
  | bytes v => .ok (hblsFrFrom32 0 v).1
  | add a b => do return hblsAdd (← a.runHbls L) (← b.runHbls L)
  | sub a b => do return hblsSub (← a.runHbls L) (← b.runHbls L)
  | mul a b => do return hblsMul (← a.runHbls L) (← b.runHbls L)
  | div a b => do return hblsDiv (← a.runHbls L) (← b.runHbls L)
  | pow a e => do hblsExp L (← a.runHbls L) e
  | ite a b c d => do if hblsEqualFr (← a.runHbls L) (← b.runHbls L) then c.runHbls L else d.runHbls L

/-- All machine integers in the computation are below `2^63`. -/
def ScalarExpr.Small : ScalarExpr → Prop
  | num i => i.toNat < 2 ^ 63
  | bytes v => v.length = 32
  | add a b | sub a b | mul a b | div a b => a.Small ∧ b.Small
  | pow a _ => a.Small
  | ite a b c d => a.Small ∧ b.Small ∧ c.Small ∧ d.Small

/-- **C118 (part, powers).** `ExpModFr` is the power in the field for every integer exponent, positive or negative, with one exception; there it panics. -/
theorem C118_power_partial {L : HblsLib} (hL : L.Good) (v : Fr) (e : ℤ) :
    (¬ (v = 0 ∧ e < 0) → hblsExp L v e = .ok (v ^ e)) ∧ (v = 0 ∧ e < 0 → hblsExp L v e = .error .panic) := by
  have hs : readDecimal (hblsFrStr (some v)) = some (v.val : ℤ) := readDecimal_decimal _
  have hc : (((v.val : ℤ)) : Fr) = v := by rw [Int.cast_natCast, ZMod.natCast_zmod_val]
  constructor
  · intro h
    unfold hblsExp
    rw [hs]
    by_cases he : 0 ≤ e
    · have hb : bigExp (v.val : ℤ) e = some (v ^ e).val := by
        unfold bigExp
        rw [if_pos he]
        congr 1
        obtain ⟨k, rfl⟩ := Int.eq_ofNat_of_zero_le he
        rw [Int.toNat_natCast, zpow_natCast, ← Nat.cast_pow, ← Int.natCast_mod, Int.toNat_natCast]
        conv_rhs => rw [← ZMod.natCast_zmod_val v, ← Nat.cast_pow, ZMod.val_natCast]
      simp only [hb]
      exact hblsSetFr_decimal hL _
    · have hv : v ≠ 0 := fun hv => h ⟨hv, by omega⟩
      have hb : bigExp (v.val : ℤ) e = some (v ^ e).val := by
        unfold bigExp
        rw [if_neg he, hc, if_neg hv]
        congr 2
        obtain ⟨k, hk⟩ := Int.eq_ofNat_of_zero_le (show 0 ≤ -e by omega)
        have : e = -(k : ℤ) := by omega
        subst this
        rw [neg_neg, Int.toNat_natCast, zpow_neg, zpow_natCast, inv_pow]
      simp only [hb]
      exact hblsSetFr_decimal hL _
  · rintro ⟨rfl, he⟩
    have hb : bigExp ((0 : Fr).val : ℤ) e = none := by
      unfold bigExp
      rw [if_neg (by omega), hc, if_pos rfl]
    unfold hblsExp
    rw [hs]
    simp only [hb]
    unfold hblsSetFr
    rw [hL.rejects _ (by decide +kernel)]

/-- **C118 (part, bytes).** Scalars are written and read as by the default back end; a string out of range leaves the destination alone. -/
theorem C118_bytes_partial (x d : Fr) (v : Bytes) (hv : v.length = 32) : hblsFrTo32 x = kFrTo32 (rep x) ∧
    kFrFrom32 (rep d) v = (rep (hblsFrFrom32 d v).1, (hblsFrFrom32 d v).2) ∧ hblsFrFrom32 d (hblsFrTo32 x) = (x, true) := by
  have hf : ∀ d v, v.length = 32 → hblsFrFrom32 d v = frFrom32 d v := by
    intro d v hv
    unfold hblsFrFrom32 frFrom32
    rw [swapLoop_31 v hv]
  have hx : hblsFrTo32 x = frTo32 x := rfl
  refine ⟨by rw [hx, (C104_conversions x d v 0).1], ?_, ?_⟩
  · rw [hf d v hv]
    exact (C104_conversions x d v 0).2.1
  · rw [hx, hf d _ (C02_round_trip d x).1]
    exact (C02_round_trip d x).2

/-- **C118 (part, computations).** A computation whose machine integers are below `2^63` gives the same scalar, hence the same bytes, on both back ends, and never panics. -/
theorem C118_agree_partial {L : HblsLib} (hL : L.Good) (t : ScalarExpr) (ht : t.Small) :
    t.runHbls L = .ok t.value ∧ t.run = rep t.value ∧ (t.runHbls L).map hblsFrTo32 = .ok (kFrTo32 t.run) := by
  have h : t.runHbls L = .ok t.value := by
    induction t with
    | num i =>
      rw [ScalarExpr.runHbls, (C72_refuted_asFr i).2 ht]
      rfl
    | bytes v =>
      rw [ScalarExpr.runHbls, ScalarExpr.value]
      unfold hblsFrFrom32 frFrom32
      rw [swapLoop_31 v ht]
    | add a b iha ihb => rw [ScalarExpr.runHbls, iha ht.1, ihb ht.2]; rfl
    | sub a b iha ihb => rw [ScalarExpr.runHbls, iha ht.1, ihb ht.2]; rfl
    | mul a b iha ihb => rw [ScalarExpr.runHbls, iha ht.1, ihb ht.2]; rfl
    | div a b iha ihb => rw [ScalarExpr.runHbls, iha ht.1, ihb ht.2, ScalarExpr.value, div_eq_mul_inv]; rfl
    | pow a e iha =>
      rw [ScalarExpr.runHbls, iha ht, ScalarExpr.value, ← zpow_natCast]
      exact (C118_power_partial hL a.value e).1 (by omega)
    | ite a b c d iha ihb ihc ihd =>
      rw [ScalarExpr.runHbls, iha ht.1, ihb ht.2.1, ihc ht.2.2.1, ihd ht.2.2.2, ScalarExpr.value]
      change (if hblsEqualFr a.value b.value = true then _ else _) = _
      unfold hblsEqualFr
      simp only [decide_eq_true_eq]
      split <;> rfl
  refine ⟨h, (C104 t).1, ?_⟩
  rw [h, (C104 t).2.1]
  rfl

/-- **C118 (part, polynomials and lists).** A polynomial with at least one coefficient has the same value; lists of scalars are inverted element by element, in place. -/
theorem C118_polynomial_partial (l : List Fr) (x : Fr) (hl : l ≠ []) : hblsEvalPolyAt l x = .ok ((List.range l.length).map fun i => l.getD i 0 * x ^ i).sum ∧
    (hblsEvalPolyAt l x).map rep = .ok (kEvalPolyAt (l.map rep) (rep x)) ∧ (hblsBatchInv l).map rep = kBatchInv (l.map rep) := by
  have h : hblsEvalPolyAt l x = .ok (polyVal l x) := by
    unfold hblsEvalPolyAt
    rw [if_neg (by simpa using hl), horner_polyVal]
  refine ⟨h, ?_, ?_⟩
  · rw [h, kEvalPolyAt_rep, evalPolyAt_eq]
    rfl
  · rw [hblsBatchInv_eq, kBatchInv_rep, List.map_map]
    rfl

/-- **C118 (refuted).** With `bignum_hbls` the polynomial without coefficients panics, where the default back end returns zero; so does a negative power of zero; and an integer of `2^63` or
more becomes another scalar, so other bytes. -/
theorem C118_refuted {L : HblsLib} (hL : L.Good) (x : Fr) (e : ℕ) (i : UInt64) (hi : 2 ^ 63 ≤ i.toNat) :
    hblsEvalPolyAt [] x = .error .panic ∧ kEvalPolyAt [] (rep x) = rep 0 ∧ hblsExp L 0 (-(e + 1 : ℕ)) = .error .panic ∧
    ((ScalarExpr.num i).runHbls L).map hblsFrTo32 ≠ .ok (kFrTo32 (ScalarExpr.num i).run) := by
  refine ⟨rfl, ?_, (C118_power_partial hL 0 _).2 ⟨rfl, by omega⟩, ?_⟩
  · rw [rep_zero]; rfl
  · intro h
    rw [(C104 _).2.1] at h
    have h1 : frTo32 (hblsAsFr i) = frTo32 (asFr i) := Except.ok.inj h
    have := (C72_refuted_asFr i).1 (C02_injective _ _ h1)
    omega

/-- **C118 (the part that holds).** Both back ends print the same text, also for a nil pointer, and different scalars print differently. -/
theorem C118_print_partial : (∀ x : Option Fr, hblsFrStr x = kFrStr (x.map rep)) ∧ ∀ x y : Fr, hblsFrStr (some x) = hblsFrStr (some y) → x = y := by
  refine ⟨fun x => ?_, fun x y h => ?_⟩
  · cases x with
    | none => rfl
    | some x => simp only [hblsFrStr, kFrStr, Option.map_some, fromRed_rep]
  · have h1 := readDecimal_decimal x.val
    rw [show decimal x.val = decimal y.val from h, readDecimal_decimal] at h1
    exact ZMod.val_injective _ (Int.natCast_inj.1 (Option.some.inj h1)).symm

/-- The texts of 0, 1907 and nil. -/
example : hblsFrStr (some 0) = "0".toList ∧ hblsFrStr (some 1907) = "1907".toList ∧ hblsFrStr none = "<nil>".toList := by decide +kernel

/-- A library as the code expects it: decimal text of numbers below `r`, everything else an error. -/
def exactLib : HblsLib where
  setString v := (readDecimal v).bind fun n => if 0 ≤ n ∧ n < (frModulus : ℤ) then some (n : Fr) else none

/-- It satisfies the assumptions. -/
example : exactLib.Good where
  reads x := by
    change (readDecimal (decimal x.val)).bind _ = _
    rw [readDecimal_decimal, Option.bind_some, if_pos ⟨Int.natCast_nonneg _, by exact_mod_cast ZMod.val_lt x⟩, Int.cast_natCast, ZMod.natCast_zmod_val]
  rejects v h := by
    change (readDecimal v).bind _ = _
    rw [h, Option.bind_none]

/-- `3^5 = 243`; `2^(-1)` is the inverse of 2; `0^(-1)` panics; `1 + 2x + 3x^2` at 10; `AsFr(2^64 - 1)` stores -1. -/
example : hblsExp exactLib 3 5 = .ok 243 ∧ hblsExp exactLib 2 (-1) = .ok (2⁻¹) ∧ hblsExp exactLib 0 (-1) = .error .panic ∧ hblsEvalPolyAt [1, 2, 3] 10 = .ok 321 ∧
    hblsAsFr (2 ^ 64 - 1) = -1 ∧ hblsBatchInv [1, 0, 2] = [1, 0, 2⁻¹] ∧ hblsFrTo32 258 = [2, 1] ++ List.replicate 30 0 := by
  decide +kernel

/-- The bytes of 258 are read back, and a string out of range leaves 7 where it is. -/
example : hblsFrFrom32 7 (hblsFrTo32 258) = (258, true) ∧ hblsFrFrom32 7 (List.replicate 32 255) = (7, false) := ⟨(C118_bytes_partial 258 7 (List.replicate 32 0) rfl).2.2, by decide +kernel⟩

end DyCAPS
