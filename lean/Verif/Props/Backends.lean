import Mathlib.Tactic.LinearCombination
import Verif.Lemmas.Backends
import Verif.Props.Bytes

/-!
# C70, C71, C72: the field back ends selected by the build tags `bignum_pure`, `bignum_hol256` and `bignum_hbls`
-/

namespace DyCAPS

/-! ## C70: serialisation -/

/-- The two back ends have the same `FrTo32`. -/
theorem holFrTo32_eq (n : ℕ) : holFrTo32 n = pureFrTo32 n := rfl

/-- **C70 (refuted, first reason).** With `bignum_pure` or `bignum_hol256`, serialising a scalar panics exactly for the scalars below `2^120`; among them 0 and 1. -/
theorem C70_refuted_panic (x : Fr) : (pureFrTo32 x.val = .error .panic ↔ x.val < 2 ^ 120) ∧ (holFrTo32 x.val = .error .panic ↔ x.val < 2 ^ 120) := by
  rw [holFrTo32_eq, and_self]
  unfold pureFrTo32
  rw [Int.natAbs_natCast]
  have e : (2 : ℕ) ^ 120 = 256 ^ 15 := by norm_num
  constructor
  · intro h
    by_contra hx
    have hl : 16 ≤ (minBytes x.val).length := (minBytes_length_lt _ 15).2 (by omega)
    obtain ⟨c, hc, _, _⟩ := swapChecked_spec _ 16 hl
    rw [hc] at h
    cases h
  · intro h
    have hl : (minBytes x.val).length ≤ 15 := (minBytes_length_le _ 15).2 (by omega)
    rw [swapChecked_panic _ 16 (by omega)]
    rfl

/-- What `FrTo32` writes when it does not panic: the outer bytes in little-endian order, the middle ones in big-endian order. -/
theorem pureFrTo32_bytes (x : Fr) (hx : 2 ^ 120 ≤ x.val) : ∃ c, pureFrTo32 x.val = .ok c ∧ c.length = 32 ∧ (minBytes x.val).length ≤ 32 ∧ 16 ≤ (minBytes x.val).length ∧
    ∀ k < 32, c.getD k 0 = if (minBytes x.val).length ≤ k + 16 ∧ k < 16 then UInt8.ofNat (x.val / 256 ^ ((minBytes x.val).length - 1 - k)) else UInt8.ofNat (x.val / 256 ^ k) := by
  have e : (2 : ℕ) ^ 120 = 256 ^ 15 := by norm_num
  have hl : 16 ≤ (minBytes x.val).length := (minBytes_length_lt _ 15).2 (by omega)
  have hu : (minBytes x.val).length ≤ 32 := (minBytes_length_le _ 32).2 (lt_trans (ZMod.val_lt x) (by decide +kernel))
  obtain ⟨c, h1, h2, h3⟩ := swapChecked_spec _ 16 hl
  refine ⟨copyTo32 c, by unfold pureFrTo32; rw [Int.natAbs_natCast, h1]; rfl, copyTo32_length c, hu, hl, fun k hk => ?_⟩
  rw [copyTo32_getD c (by omega)]
  by_cases hk' : k < (minBytes x.val).length
  · rw [h3 k hk']
    by_cases hm : (minBytes x.val).length ≤ k + 16 ∧ k < 16
    · rw [if_pos hm, if_pos (by omega)]
      have := minBytes_getD x.val ((minBytes x.val).length - 1 - k) (by omega)
      rwa [show (minBytes x.val).length - 1 - ((minBytes x.val).length - 1 - k) = k by omega] at this
    · rw [if_neg hm, if_neg (by omega)]
      exact minBytes_getD x.val k hk'
  · rw [if_neg (by omega), List.getD_eq_default _ _ (by omega)]
    have : x.val < 256 ^ k := (minBytes_length_le _ k).1 (by omega)
    rw [Nat.div_eq_of_lt this]; rfl

/-- **C70 (part).** Exactly when these back ends serialise a scalar correctly: it has at least 16 bytes and the bytes at positions `L-16 … 15` of its `L` bytes read the same in both directions. -/
theorem C70_exact_partial (x : Fr) : pureFrTo32 x.val = .ok (frTo32 x) ↔
    2 ^ 120 ≤ x.val ∧ ∀ k, (minBytes x.val).length ≤ k + 16 → k < 16 → x.val / 256 ^ ((minBytes x.val).length - 1 - k) % 256 = x.val / 256 ^ k % 256 := by
  constructor
  · intro h
    have hx : 2 ^ 120 ≤ x.val := by
      by_contra hx
      have h' := ((C70_refuted_panic x).1).2 (by omega)
      have h2 : (Except.error Fault.panic : Go Bytes) = .ok (frTo32 x) := h'.symm.trans h
      exact absurd h2 (by simp)
    refine ⟨hx, fun k h1 h2 => ?_⟩
    obtain ⟨c, hc, _, _, _, hb⟩ := pureFrTo32_bytes x hx
    have hcx : frTo32 x = c := Except.ok.inj (h.symm.trans hc)
    have := hb k (by omega)
    rw [← hcx] at this
    rw [if_pos ⟨h1, h2⟩, frTo32_getD x k (by omega)] at this
    have := congrArg UInt8.toNat this
    simpa using this.symm
  · rintro ⟨hx, h⟩
    obtain ⟨c, hc, hl, _, _, hb⟩ := pureFrTo32_bytes x hx
    have hcx : c = frTo32 x := by
      refine (ext32 hl (frTo32_length x)).2 fun k hk => ?_
      rw [hb k hk, frTo32_getD x k hk]
      split
      · rename_i hm
        apply UInt8.toNat_inj.1
        simpa using h k hm.1 hm.2
      · rfl
    rw [hc, hcx]

/-- **C70 (part).** Deserialising is right for all 32-byte inputs. -/
theorem C70_from32_partial (v : Bytes) (h : v.length = 32) (dst : ℤ) (dst' : ℕ) :
    pureFrFrom32 dst v = (if leValue v < frModulus then ((leValue v : ℤ), true) else (dst, false)) ∧
    holFrFrom32 dst' v = (if leValue v < frModulus then (leValue v, true) else (dst', false)) := by
  have hv := validFr_iff v h
  have hn : beNat (swapLoop 31 16 v) = leValue v := by rw [swapLoop_31 v h]; exact beNat_reverse v
  unfold pureFrFrom32 holFrFrom32
  by_cases hl : leValue v < frModulus
  · rw [if_pos hl, if_pos hl, hv.2 hl, hn]; exact ⟨rfl, rfl⟩
  · rw [if_neg hl, if_neg hl]
    have : validFr v = false := by
      by_contra hc
      exact hl (hv.1 (by simpa using hc))
    rw [this]; exact ⟨rfl, rfl⟩

/-- **C70 (part).** Scalars of 31 or 32 bytes are serialised correctly, and reading them back gives them again. -/
theorem C70_high_partial (x : Fr) (hx : 2 ^ 240 ≤ x.val) (dst : ℤ) (dst' : ℕ) : pureFrTo32 x.val = .ok (frTo32 x) ∧ holFrTo32 x.val = .ok (frTo32 x) ∧
    pureFrFrom32 dst (frTo32 x) = ((x.val : ℤ), true) ∧ holFrFrom32 dst' (frTo32 x) = (x.val, true) := by
  have h1 : pureFrTo32 x.val = .ok (frTo32 x) := by
    refine (C70_exact_partial x).2 ⟨le_trans (by norm_num) hx, fun k h1 h2 => ?_⟩
    have : 30 < (minBytes x.val).length := (minBytes_length_lt _ 30).2 (le_trans (by norm_num) hx)
    have hk : k = 15 := by omega
    have hL : (minBytes x.val).length = 31 := by omega
    rw [hL, hk]
  obtain ⟨h2, h3⟩ := C70_from32_partial (frTo32 x) (frTo32_length x) dst dst'
  rw [leValue_frTo32, if_pos (ZMod.val_lt x)] at h2 h3
  exact ⟨h1, h1, h2, h3⟩

/-- **C70 (refuted, second reason).** `2^120` is written as the encoding of 1, and comes back as 1. -/
theorem C70_refuted_wrong (dst : ℤ) : pureFrTo32 (2 ^ 120) = .ok (frTo32 1) ∧ pureFrTo32 (2 ^ 120) ≠ .ok (frTo32 ((2 ^ 120 : ℕ) : Fr)) ∧ pureFrFrom32 dst (frTo32 1) = (1, true) := by
  have h : minBytes (2 ^ 120) = 1 :: List.replicate 15 0 := by decide +kernel
  have h1 : pureFrTo32 (2 ^ 120) = .ok (1 :: List.replicate 31 0) := by
    unfold pureFrTo32
    rw [show ((2 : ℤ) ^ 120).natAbs = 2 ^ 120 by rfl, h]
    rfl
  have v1 : (1 : Fr).val = 1 := ZMod.val_one'' (ne_of_gt one_lt_frModulus)
  have h2 : frTo32 1 = 1 :: List.replicate 31 0 := by
    rw [frTo32_eq, v1]
    decide +kernel
  have v2 : ((2 ^ 120 : ℕ) : Fr).val = 2 ^ 120 := ZMod.val_natCast_of_lt (by decide +kernel)
  refine ⟨by rw [h1, h2], ?_, ?_⟩
  · have h3 := (C70_exact_partial ((2 ^ 120 : ℕ) : Fr)).not
    rw [v2, h] at h3
    refine h3.2 fun hc => ?_
    exact absurd (hc.2 0 (by simp) (by norm_num)) (by decide +kernel)
  · have := (C70_from32_partial (frTo32 1) (frTo32_length 1) dst 0).1
    rw [leValue_frTo32, v1, if_pos one_lt_frModulus] at this
    exact this

/-! ## C71: arithmetic -/

theorem intCast_emod (a : ℤ) : ((a % frModulus : ℤ) : Fr) = (a : Fr) := by
  rw [ZMod.intCast_eq_intCast_iff]; exact Int.mod_modEq _ _

/-- A reduced integer is determined by its residue. -/
theorem reduced_eq {a : ℤ} {x : Fr} (h0 : 0 ≤ a) (h1 : a < frModulus) (h : (a : Fr) = x) : a = x.val := by
  subst h
  rw [ZMod.val_intCast, Int.emod_eq_of_lt h0 h1]

theorem emod_val {a : ℤ} {x : Fr} (h : (a : Fr) = x) : a % frModulus = x.val := by
  have hp : (0 : ℤ) < frModulus := by exact_mod_cast Nat.lt_trans Nat.zero_lt_one one_lt_frModulus
  exact reduced_eq (Int.emod_nonneg _ hp.ne') (Int.emod_lt_of_pos _ hp) (by rw [intCast_emod]; exact h)

theorem mod_val {a : ℕ} {x : Fr} (h : (a : Fr) = x) : a % frModulus = x.val := by
  subst h; rw [ZMod.val_natCast]

theorem val_cast_int (x : Fr) : (((x.val : ℕ) : ℤ) : Fr) = x := by
  rw [Int.cast_natCast, ZMod.natCast_zmod_val]

/-- **C71.** Addition, subtraction, multiplication and powers of `bignum_pure` are those of the field, with a reduced result. -/
theorem C71_pure (x y : Fr) (e : ℕ) : pureAdd x.val y.val = (x + y).val ∧ pureSub x.val y.val = (x - y).val ∧ pureMul x.val y.val = (x * y).val ∧ pureExp x.val e = (x ^ e).val := by
  refine ⟨emod_val ?_, emod_val ?_, emod_val ?_, emod_val ?_⟩
  · rw [Int.cast_add, val_cast_int, val_cast_int]
  · rw [Int.cast_sub, val_cast_int, val_cast_int]
  · rw [Int.cast_mul, val_cast_int, val_cast_int]
  · rw [Int.cast_pow, val_cast_int]

theorem modInverse_ne {x : Fr} (hx : x ≠ 0) (dst : ℤ) : modInverse dst x.val = (x⁻¹).val := by
  unfold modInverse
  rw [val_cast_int, if_neg hx]

theorem modInverse_zero (dst : ℤ) : modInverse dst ((0 : Fr).val : ℕ) = dst := by
  unfold modInverse
  rw [val_cast_int, if_pos rfl]

/-- **C71.** Inversion and division of `bignum_pure`: `InvModFr` for non-zero arguments, `DivModFr` and `BatchInvModFr` for all, with `1/0 = 0`. -/
theorem C71_pure_division (x y : Fr) (dst : ℤ) (l : List Fr) : (y ≠ 0 → pureInv dst y.val = (y⁻¹).val) ∧ pureDiv x.val y.val = (x / y).val ∧
    pureBatchInv (l.map fun z => (z.val : ℤ)) = l.map fun z => ((z⁻¹).val : ℤ) := by
  have hi : ∀ y : Fr, ((pureInv 0 y.val : ℤ) : Fr) = y⁻¹ := by
    intro y
    unfold pureInv
    by_cases hy : y = 0
    · subst hy; rw [modInverse_zero, inv_zero]; simp
    · rw [modInverse_ne hy, val_cast_int]
  refine ⟨fun hy => modInverse_ne hy dst, emod_val ?_, ?_⟩
  · rw [Int.cast_mul, val_cast_int, hi, div_eq_mul_inv]
  · unfold pureBatchInv
    rw [List.map_map]
    refine List.map_congr_left fun z _ => ?_
    simp only [Function.comp_apply, pureInv]
    by_cases hz : z = 0
    · subst hz; rw [modInverse_zero, inv_zero]
    · exact modInverse_ne hz _

theorem wordSub_of_le {a b : ℕ} (h : b ≤ a) (ha : a < 2 ^ 256) : wordSub a b = a - b := by
  unfold wordSub
  rw [show a + 2 ^ 256 - b = (a - b) + 2 ^ 256 by omega, Nat.add_mod_right, Nat.mod_eq_of_lt (by omega)]

theorem wordSub_of_lt {a b : ℕ} (h : a < b) (hb : b < 2 ^ 256) : wordSub a b = a + 2 ^ 256 - b := by
  unfold wordSub
  exact Nat.mod_eq_of_lt (by omega)

/-- The detour over two's complement is right for reduced arguments. -/
theorem holSub_eq {a b : ℕ} (ha : a < frModulus) (hb : b < frModulus) : holSub a b = if a < b then a + frModulus - b else a - b := by
  have hm := frModulus_lt
  unfold holSub
  simp only
  split
  · rename_i h
    rw [wordSub_of_lt h (by omega), wordSub_of_lt (a := 0) (b := a + 2 ^ 256 - b) (by omega) (by omega), wordSub_of_le (by omega) hm]
    omega
  · exact wordSub_of_le (by omega) (by omega)

/-- **C71.** Addition, subtraction, multiplication and powers of `bignum_hol256` are those of the field, with a reduced result. -/
theorem C71_hol256 (x y : Fr) (e : ℕ) : holAdd x.val y.val = (x + y).val ∧ holSub x.val y.val = (x - y).val ∧ holMul x.val y.val = (x * y).val ∧ holExp x.val e = (x ^ e).val := by
  refine ⟨mod_val ?_, ?_, mod_val ?_, mod_val ?_⟩
  · rw [Nat.cast_add, ZMod.natCast_zmod_val, ZMod.natCast_zmod_val]
  · have hx := ZMod.val_lt x
    have hy := ZMod.val_lt y
    rw [holSub_eq hx hy]
    have key : ∀ n : ℕ, n < frModulus → (n : Fr) = x - y → n = (x - y).val := by
      intro n hn h
      rw [← h, ZMod.val_natCast, Nat.mod_eq_of_lt hn]
    split
    · refine key _ (by omega) ?_
      rw [Nat.cast_sub (by omega), Nat.cast_add, ZMod.natCast_zmod_val, ZMod.natCast_zmod_val, ZMod.natCast_self, add_zero]
    · refine key _ (by omega) ?_
      rw [Nat.cast_sub (by omega), ZMod.natCast_zmod_val, ZMod.natCast_zmod_val]
  · rw [Nat.cast_mul, ZMod.natCast_zmod_val, ZMod.natCast_zmod_val]
  · rw [Nat.cast_pow, ZMod.natCast_zmod_val]

theorem holInv_val (y : Fr) : holInv y.val = (y⁻¹).val := by
  unfold holInv
  by_cases hy : y = 0
  · subst hy; rw [modInverse_zero, inv_zero, ZMod.val_zero]; rfl
  · rw [modInverse_ne hy, Int.toNat_natCast]

/-- **C71.** Inversion and division of `bignum_hol256`, with `1/0 = 0`. -/
theorem C71_hol256_division (x y : Fr) (l : List Fr) : holInv y.val = (y⁻¹).val ∧ holDiv x.val y.val = (x / y).val ∧
    holBatchInv (l.map ZMod.val) = l.map fun z => (z⁻¹).val := by
  refine ⟨holInv_val y, ?_, ?_⟩
  · unfold holDiv
    rw [holInv_val, (C71_hol256 x y⁻¹ 0).2.2.1, div_eq_mul_inv]
  · unfold holBatchInv
    rw [List.map_map]
    exact List.map_congr_left fun z _ => holInv_val z

/-- **C71.** Inversion, division, sums and products of `bignum_hol256` for arguments that are not reduced, which `SetFr` of `bignum_hol256` can make: the result is the reduced scalar, and zero for the inverse of a multiple of the
modulus. -/
theorem C71_hol256_unreduced (a v : ℕ) : holInv v = ((v : Fr)⁻¹).val ∧ holDiv a v = ((a : Fr) / (v : Fr)).val ∧ holAdd a v = ((a : Fr) + (v : Fr)).val ∧ holMul a v = ((a : Fr) * (v : Fr)).val := by
  have h : holInv v = ((v : Fr)⁻¹).val := by
    unfold holInv modInverse
    rw [Int.cast_natCast]
    by_cases hv : (v : Fr) = 0
    · rw [if_pos hv, hv, inv_zero, ZMod.val_zero]; rfl
    · rw [if_neg hv, Int.toNat_natCast]
  refine ⟨h, ?_, ?_, ?_⟩
  · unfold holDiv holMul
    rw [h, ← ZMod.val_natCast, Nat.cast_mul, ZMod.natCast_zmod_val, div_eq_mul_inv]
  · unfold holAdd
    rw [← ZMod.val_natCast, Nat.cast_add]
  · unfold holMul
    rw [← ZMod.val_natCast, Nat.cast_mul]

/-- The inverse of the modulus and of its double is zero. -/
example : holInv frModulus = 0 ∧ holInv (2 * frModulus) = 0 ∧ holDiv 5 frModulus = 0 := by
  refine ⟨?_, ?_, ?_⟩
  · rw [(C71_hol256_unreduced 0 frModulus).1, ZMod.natCast_self, inv_zero, ZMod.val_zero]
  · rw [(C71_hol256_unreduced 0 (2 * frModulus)).1, Nat.cast_mul, ZMod.natCast_self, mul_zero, inv_zero, ZMod.val_zero]
  · rw [(C71_hol256_unreduced 5 frModulus).2.1, ZMod.natCast_self, div_zero, ZMod.val_zero]

/-- Arguments that are not reduced: the difference of `bignum_hol256` is not reduced either (`modulus - 0` is the modulus, not 0). -/
theorem holSub_not_reduced : holSub frModulus 0 = frModulus ∧ ((frModulus : ℕ) : Fr) = 0 := ⟨by decide +kernel, ZMod.natCast_self _⟩

/-! ## C72: corner cases -/

/-- **C72 (refuted, first reason).** With `bignum_hbls`, `AsFr` is right exactly below `2^63`; above, it gives a negative number. -/
theorem C72_refuted_asFr (i : UInt64) : hblsAsFr i = asFr i ↔ i.toNat < 2 ^ 63 := by
  have hi := i.toNat_lt
  unfold hblsAsFr asFr
  constructor
  · intro h
    by_contra hc
    rw [if_neg hc] at h
    have h2 : ((2 ^ 64 : ℕ) : Fr) = 0 := by
      push_cast at h ⊢
      linear_combination -h
    rw [ZMod.natCast_eq_zero_iff] at h2
    exact absurd (Nat.le_of_dvd (by norm_num) h2) (by decide +kernel)
  · intro h
    rw [if_pos h, Int.cast_natCast]

/-- **C72 (refuted, second reason).** With `bignum_pure`, `InvModFr` of zero leaves the destination as it was; with `bignum_hol256` it writes zero. -/
theorem C72_refuted_inverse_of_zero (dst : ℤ) : pureInv dst 0 = dst ∧ holInv 0 = 0 := by
  have h1 := modInverse_zero dst
  have h2 := holInv_val 0
  rw [ZMod.val_zero] at h1
  rw [inv_zero, ZMod.val_zero] at h2
  exact ⟨h1, h2⟩

/-- **C72 (part).** Exactly when `InvModFr` of `bignum_pure` writes the inverse, with `1/0 = 0`, for every argument and every previous content: the argument is not a multiple of the modulus, or the destination was zero. -/
theorem C72_inverse_partial (dst v : ℤ) : pureInv dst v = (((v : Fr)⁻¹).val : ℤ) ↔ ¬ (frModulus : ℤ) ∣ v ∨ dst = 0 := by
  unfold pureInv modInverse
  rw [← ZMod.intCast_zmod_eq_zero_iff_dvd v frModulus]
  by_cases hv : (v : Fr) = 0
  · rw [if_pos hv, hv, inv_zero, ZMod.val_zero, Nat.cast_zero]
    exact ⟨Or.inr, fun h => h.resolve_left fun hn => hn rfl⟩
  · rw [if_neg hv]
    exact ⟨fun _ => Or.inl hv, fun _ => rfl⟩

/-- The modulus, which `SetFr` of `bignum_pure` does not reduce, leaves a 7 in the destination; a destination of 0 hides the difference. -/
example : pureInv 7 frModulus ≠ ((((frModulus : ℤ) : Fr)⁻¹).val : ℤ) ∧ pureInv 0 frModulus = ((((frModulus : ℤ) : Fr)⁻¹).val : ℤ) :=
  ⟨fun h => ((C72_inverse_partial 7 frModulus).1 h).elim (fun hn => hn (dvd_refl _)) (by norm_num), (C72_inverse_partial 0 frModulus).2 (Or.inr rfl)⟩

/-- **C72 (refuted, third reason).** With `bignum_pure`, `SetFr` does not reduce: the modulus read from its decimal form is not equal to zero, although it is zero in the field. -/
theorem C72_refuted_setFr : pureEqual (pureSetFr frModulus) 0 = false ∧ ((pureSetFr frModulus : ℤ) : Fr) = 0 := by
  refine ⟨by decide +kernel, ?_⟩
  unfold pureSetFr
  rw [Int.cast_natCast, ZMod.natCast_self]

/-- **C72 (part).** `AsFr` of `bignum_pure` and `bignum_hol256` is the reduced image of the integer for all 64-bit values, and comparing reduced values is comparing scalars. -/
theorem C72_asFr_partial (i : UInt64) (x y : Fr) : pureAsFr i = (asFr i).val ∧ (pureEqual x.val y.val = true ↔ x = y) := by
  refine ⟨?_, ?_⟩
  · unfold pureAsFr asFr
    rw [ZMod.val_natCast_of_lt (lt_trans i.toNat_lt (by decide +kernel))]
  · unfold pureEqual
    rw [decide_eq_true_eq, Nat.cast_inj]
    exact ⟨fun h => ZMod.val_injective _ h, fun h => by rw [h]⟩

/-! ## Concrete cases -/

/-- `1 - 2` in the 256-bit back end. -/
example : holSub 1 2 = frModulus - 1 := by decide +kernel

/-- The scalar 1 cannot be serialised by the two back ends. -/
example : holFrTo32 1 = .error .panic := by rfl

/-- A scalar of 32 bytes can. -/
example : pureFrTo32 ((2 ^ 248 : ℕ) : ℤ) = .ok (List.replicate 31 0 ++ [1]) := by
  unfold pureFrTo32
  rw [Int.natAbs_natCast, show minBytes (2 ^ 248) = 1 :: List.replicate 31 0 by decide +kernel]
  rfl

/-- A scalar of 17 bytes is permuted: the outer bytes are exchanged, the middle stays. -/
example : pureFrTo32 ((2 ^ 128 + 2 ^ 120 : ℕ) : ℤ) = .ok ([0, 1] ++ List.replicate 14 0 ++ [1] ++ List.replicate 15 0) := by
  unfold pureFrTo32
  rw [Int.natAbs_natCast, show minBytes (2 ^ 128 + 2 ^ 120) = [1, 1] ++ List.replicate 15 0 by decide +kernel]
  rfl

example : hblsAsFr (2 ^ 63) ≠ asFr (2 ^ 63) := fun h => absurd ((C72_refuted_asFr _).1 h) (by decide +kernel)

/-- The scalar `2^248` has 32 bytes and is serialised correctly; the scalar of 17 bytes above is not. -/
example : pureFrTo32 (((2 ^ 248 : ℕ) : Fr).val : ℤ) = .ok (frTo32 ((2 ^ 248 : ℕ) : Fr)) ∧ pureFrTo32 (((2 ^ 128 + 2 ^ 120 : ℕ) : Fr).val : ℤ) ≠ .ok (frTo32 ((2 ^ 128 + 2 ^ 120 : ℕ) : Fr)) := by
  have e1 : ((2 ^ 248 : ℕ) : Fr).val = 2 ^ 248 := ZMod.val_natCast_of_lt (by decide +kernel)
  have e2 : ((2 ^ 128 + 2 ^ 120 : ℕ) : Fr).val = 2 ^ 128 + 2 ^ 120 := ZMod.val_natCast_of_lt (by decide +kernel)
  refine ⟨(C70_exact_partial _).2 ?_, fun h => ?_⟩
  · rw [e1]
    refine ⟨by norm_num, fun k hk hk' => ?_⟩
    rw [show (minBytes (2 ^ 248)).length = 32 by decide +kernel] at hk
    omega
  · have := ((C70_exact_partial _).1 h).2 1 (by rw [e2]; decide +kernel) (by norm_num)
    rw [e2] at this
    exact absurd this (by decide +kernel)

/-- The two back ends read 258, and leave the destination 7 as it is when the number is not below the group order. -/
example : pureFrFrom32 7 ([2, 1] ++ List.replicate 30 0) = (258, true) ∧ pureFrFrom32 7 (List.replicate 32 255) = (7, false) ∧ holFrFrom32 7 (List.replicate 32 255) = (7, false) := by
  have h1 := (C70_from32_partial ([2, 1] ++ List.replicate 30 0) (by rfl) 7 7).1
  have h2 := C70_from32_partial (List.replicate 32 255) (by rfl) 7 7
  rw [if_pos (by decide +kernel), show leValue ([2, 1] ++ List.replicate 30 (0 : UInt8)) = 258 by decide +kernel] at h1
  rw [if_neg (by decide +kernel), if_neg (by decide +kernel)] at h2
  exact ⟨h1, h2⟩

end DyCAPS
