import Verif.Lemmas.BackText
import Verif.Props.Hbls

/-!
# C131, C132: computations and text in the two integer back ends

`ScalarExpr` (`Props/Kilic`) is a computation with the functions of the bls package; `t.run` runs it on the stored words of the default back end.
-/

namespace DyCAPS

/-- The computation with the functions of `bignum_pure`. -/
def ScalarExpr.runPure : ScalarExpr → ℤ
  | num i => pureAsFr i
  | bytes v => (pureFrFrom32 0 v).1
  | add a b => pureAdd a.runPure b.runPure
  | sub a b => pureSub a.runPure b.runPure
  | mul a b => pureMul a.runPure b.runPure
  | div a b => pureDiv a.runPure b.runPure
  | pow a e => pureExp a.runPure e
  | ite a b c d => if pureEqual a.runPure b.runPure then c.runPure else d.runPure

/-- The computation with the functions of `bignum_hol256`. -/
def ScalarExpr.runHol : ScalarExpr → ℕ
  | num i => i.toNat
  | bytes v => (holFrFrom32 0 v).1
  | add a b => holAdd a.runHol b.runHol
  | sub a b => holSub a.runHol b.runHol
  | mul a b => holMul a.runHol b.runHol
  | div a b => holDiv a.runHol b.runHol
  | pow a e => holExp a.runHol e
  | ite a b c d => if a.runHol = b.runHol then c.runHol else d.runHol

/-- The byte strings in the computation are `[32]byte` arrays. -/
def ScalarExpr.Bytes32 : ScalarExpr → Prop
  | num _ => True
  | bytes v => v.length = 32
  | add a b | sub a b | mul a b | div a b => a.Bytes32 ∧ b.Bytes32
  | pow a _ => a.Bytes32
  | ite a b c d => a.Bytes32 ∧ b.Bytes32 ∧ c.Bytes32 ∧ d.Bytes32

theorem frFrom32_val (v : Bytes) (hv : v.length = 32) : ((frFrom32 0 v).1).val = if leValue v < frModulus then leValue v else 0 := by
  have h := validFr_iff v hv
  have hn : beNat (swapLoop 31 16 v) = leValue v := by rw [swapLoop_31 v hv]; exact beNat_reverse v
  unfold frFrom32
  by_cases hl : leValue v < frModulus
  · rw [if_pos hl, h.2 hl, hn]
    exact ZMod.val_natCast_of_lt hl
  · rw [if_neg hl]
    have : validFr v = false := by
      by_contra hc
      exact hl (h.1 (by simpa using hc))
    rw [this]
    exact ZMod.val_zero

/-- **C131.** However scalars are computed, both integer back ends hold the reduced representative of the scalar, and the default back end the same scalar: intermediate results never leave the range, so
that comparing stored integers is comparing scalars. -/
theorem C131 (t : ScalarExpr) (ht : t.Bytes32) : t.runPure = t.value.val ∧ t.runHol = t.value.val ∧ t.run = rep t.value := by
  refine ⟨?_, ?_, (C104 t).1⟩
  · induction t with
    | num i => exact (C72_asFr_partial i 0 0).1
    | bytes v =>
      rw [ScalarExpr.runPure, ScalarExpr.value, frFrom32_val v ht, (C70_from32_partial v ht 0 0).1]
      split <;> simp
    | add a b iha ihb => rw [ScalarExpr.runPure, iha ht.1, ihb ht.2]; exact (C71_pure _ _ 0).1
    | sub a b iha ihb => rw [ScalarExpr.runPure, iha ht.1, ihb ht.2]; exact (C71_pure _ _ 0).2.1
    | mul a b iha ihb => rw [ScalarExpr.runPure, iha ht.1, ihb ht.2]; exact (C71_pure _ _ 0).2.2.1
    | div a b iha ihb => rw [ScalarExpr.runPure, iha ht.1, ihb ht.2]; exact (C71_pure_division _ _ 0 []).2.1
    | pow a e iha => rw [ScalarExpr.runPure, iha ht]; exact (C71_pure _ 0 e).2.2.2
    | ite a b c d iha ihb ihc ihd =>
      rw [ScalarExpr.runPure, iha ht.1, ihb ht.2.1, ihc ht.2.2.1, ihd ht.2.2.2, ScalarExpr.value]
      have h := (C72_asFr_partial 0 a.value b.value).2
      by_cases hab : a.value = b.value
      · rw [if_pos (h.2 hab), if_pos hab]
      · rw [if_neg (fun e => hab (h.1 e)), if_neg hab]
  · induction t with
    | num i => exact (ZMod.val_natCast_of_lt (lt_trans i.toNat_lt (by decide +kernel))).symm
    | bytes v =>
      rw [ScalarExpr.runHol, ScalarExpr.value, frFrom32_val v ht, (C70_from32_partial v ht 0 0).2]
      split <;> rfl
    | add a b iha ihb => rw [ScalarExpr.runHol, iha ht.1, ihb ht.2]; exact (C71_hol256 _ _ 0).1
    | sub a b iha ihb => rw [ScalarExpr.runHol, iha ht.1, ihb ht.2]; exact (C71_hol256 _ _ 0).2.1
    | mul a b iha ihb => rw [ScalarExpr.runHol, iha ht.1, ihb ht.2]; exact (C71_hol256 _ _ 0).2.2.1
    | div a b iha ihb => rw [ScalarExpr.runHol, iha ht.1, ihb ht.2]; exact (C71_hol256_division _ _ []).2.1
    | pow a e iha => rw [ScalarExpr.runHol, iha ht]; exact (C71_hol256 _ 0 e).2.2.2
    | ite a b c d iha ihb ihc ihd =>
      rw [ScalarExpr.runHol, iha ht.1, ihb ht.2.1, ihc ht.2.2.1, ihd ht.2.2.2, ScalarExpr.value]
      by_cases hab : a.value = b.value
      · rw [if_pos (by rw [hab]), if_pos hab]
      · rw [if_neg (fun e => hab (ZMod.val_injective _ e)), if_neg hab]

/-- `3/(5 - 7)` if `2^2 = 4`, on both back ends, times `5 - 7` is 3. -/
example : let q := ScalarExpr.div (.num 3) (.sub (.num 5) (.num 7))
    let t := ScalarExpr.ite (.pow (.num 2) 2) (.num 4) (.mul q (.sub (.num 5) (.num 7))) (.num 0)
    t.runPure = 3 ∧ t.runHol = 3 ∧ q.runPure ≠ 3 ∧ t.run = rep 3 := by
  have hv : ((5 - 7 : Fr)) ≠ 0 := by decide +kernel
  have hq : (ScalarExpr.ite (.pow (.num 2) 2) (.num 4) (.mul (.div (.num 3) (.sub (.num 5) (.num 7))) (.sub (.num 5) (.num 7))) (.num 0)).value = 3 := by
    have h4 : ((2 : Fr)) ^ 2 = 4 := by norm_num
    show (if (((2 : UInt64).toNat : Fr)) ^ 2 = ((4 : UInt64).toNat : Fr) then _ else _) = _
    rw [if_pos (by exact_mod_cast h4)]
    show (3 : Fr) / (5 - 7) * (5 - 7) = 3
    exact div_mul_cancel₀ _ hv
  have h3 : (3 : Fr).val = 3 := by decide +kernel
  obtain ⟨h1, h2, h4⟩ := C131 _ (show (ScalarExpr.ite (.pow (.num 2) 2) (.num 4) (.mul (.div (.num 3) (.sub (.num 5) (.num 7))) (.sub (.num 5) (.num 7))) (.num 0)).Bytes32 by simp [ScalarExpr.Bytes32])
  rw [hq] at h1 h2 h4
  rw [h3] at h1 h2
  refine ⟨h1, h2, fun e => ?_, h4⟩
  have h5 := (C131 (.div (.num 3) (.sub (.num 5) (.num 7))) (by simp [ScalarExpr.Bytes32])).1
  rw [e] at h5
  have h6 : (((3 : Fr) / (5 - 7)).val : ℤ) = 3 := h5.symm
  have h7 : (3 : Fr) / (5 - 7) = 3 := by
    apply ZMod.val_injective
    rw [h3]
    exact_mod_cast h6
  rw [div_eq_iff hv] at h7
  revert h7
  decide +kernel

theorem pureHorner (l : List Fr) (x : Fr) (n : ℕ) (last : Fr) :
    ((List.range n).reverse).foldl (fun last i => pureAdd (pureMul last (x.val : ℤ)) ((l.map fun z => (z.val : ℤ)).getD i 0)) (last.val : ℤ) = (hornerLoop l x n last).val := by
  induction n generalizing last with
  | zero => rfl
  | succ n ih =>
    rw [List.range_succ, List.reverse_append, List.reverse_singleton, List.singleton_append, List.foldl_cons, (C71_pure last x 0).2.2.1]
    have hg : (l.map fun z => (z.val : ℤ)).getD n 0 = ((at0 l n).val : ℤ) := by
      unfold at0
      rw [List.getD_eq_getElem?_getD, List.getD_eq_getElem?_getD, List.getElem?_map]
      cases l[n]? <;> simp
    rw [hg, (C71_pure (last * x) (at0 l n) 0).1, ih]
    rfl

theorem holHorner (l : List Fr) (x : Fr) (n : ℕ) (last : Fr) :
    ((List.range n).reverse).foldl (fun last i => holAdd (holMul last x.val) ((l.map ZMod.val).getD i 0)) last.val = (hornerLoop l x n last).val := by
  induction n generalizing last with
  | zero => rfl
  | succ n ih =>
    rw [List.range_succ, List.reverse_append, List.reverse_singleton, List.singleton_append, List.foldl_cons, (C71_hol256 last x 0).2.2.1]
    have hg : (l.map ZMod.val).getD n 0 = (at0 l n).val := by
      unfold at0
      rw [List.getD_eq_getElem?_getD, List.getD_eq_getElem?_getD, List.getElem?_map]
      cases l[n]? <;> simp
    rw [hg, (C71_hol256 (last * x) (at0 l n) 0).1, ih]
    rfl

/-- **C131.** Polynomials have the same values in both integer back ends as in the default back end, also the empty one and at 0. -/
theorem C131_polynomial (l : List Fr) (x : Fr) : pureEvalPolyAt (l.map fun z => (z.val : ℤ)) x.val = (((List.range l.length).map fun i => l.getD i 0 * x ^ i).sum).val ∧
    holEvalPolyAt (l.map ZMod.val) x.val = (((List.range l.length).map fun i => l.getD i 0 * x ^ i).sum).val ∧
    kEvalPolyAt (l.map rep) (rep x) = rep ((List.range l.length).map fun i => l.getD i 0 * x ^ i).sum := by
  have hs : ((List.range l.length).map fun i => l.getD i 0 * x ^ i).sum = evalPolyAt l x := by
    rw [evalPolyAt_eq]; rfl
  rw [hs]
  refine ⟨?_, ?_, kEvalPolyAt_rep l x⟩
  · unfold pureEvalPolyAt evalPolyAt
    rw [List.length_map]
    by_cases h0 : l.length = 0
    · rw [if_pos h0, if_pos h0, ZMod.val_zero]; rfl
    · have hg : ∀ n, (l.map fun z => (z.val : ℤ)).getD n 0 = ((at0 l n).val : ℤ) := fun n => by
        unfold at0
        rw [List.getD_eq_getElem?_getD, List.getD_eq_getElem?_getD, List.getElem?_map]
        cases l[n]? <;> simp
      rw [if_neg h0, if_neg h0]
      have he := (C72_asFr_partial 0 x 0).2
      rw [ZMod.val_zero, Nat.cast_zero] at he
      by_cases hx : x = 0
      · rw [if_pos (he.2 hx), if_pos hx, hg]
      · rw [if_neg (fun e => hx (he.1 e)), if_neg hx, hg]
        exact pureHorner l x _ _
  · unfold holEvalPolyAt evalPolyAt
    rw [List.length_map]
    by_cases h0 : l.length = 0
    · rw [if_pos h0, if_pos h0, ZMod.val_zero]
    · have hg : ∀ n, (l.map ZMod.val).getD n 0 = (at0 l n).val := fun n => by
        unfold at0
        rw [List.getD_eq_getElem?_getD, List.getD_eq_getElem?_getD, List.getElem?_map]
        cases l[n]? <;> simp
      rw [if_neg h0, if_neg h0]
      by_cases hx : x = 0
      · rw [if_pos (by rw [hx, ZMod.val_zero]), if_pos hx, hg]
      · rw [if_neg (fun e => hx ((ZMod.val_eq_zero x).1 e)), if_neg hx, hg]
        exact holHorner l x _ _

/-- `5 + 6x + 7x²` at 2 and at 0. -/
example : pureEvalPolyAt [5, 6, 7] 2 = 45 ∧ holEvalPolyAt [5, 6, 7] 2 = 45 ∧ pureEvalPolyAt [5, 6, 7] 0 = 5 ∧ holEvalPolyAt [] 2 = 0 := by decide +kernel

/-- **C131 (powers).** `ExpModFr` of both integer back ends is the power in the field for every integer exponent; a negative power of zero leaves the destination of `bignum_pure` as it was and is a panic in
`bignum_hol256`. -/
theorem C131_power (v : Fr) (e dst : ℤ) : (¬ (v = 0 ∧ e < 0) → pureExpInt dst v.val e = (v ^ e).val ∧ holExpInt v.val e = .ok (v ^ e).val) ∧
    (v = 0 ∧ e < 0 → pureExpInt dst v.val e = dst ∧ holExpInt v.val e = .error .panic) := by
  have hc : (((v.val : ℤ)) : Fr) = v := by rw [Int.cast_natCast, ZMod.natCast_zmod_val]
  constructor
  · intro h
    have hb : bigExp (v.val : ℤ) e = some (v ^ e).val := by
      unfold bigExp
      by_cases he : 0 ≤ e
      · rw [if_pos he]
        congr 1
        obtain ⟨k, rfl⟩ := Int.eq_ofNat_of_zero_le he
        rw [Int.toNat_natCast, zpow_natCast, ← Nat.cast_pow, ← Int.natCast_mod, Int.toNat_natCast]
        conv_rhs => rw [← ZMod.natCast_zmod_val v, ← Nat.cast_pow, ZMod.val_natCast]
      · have hv : v ≠ 0 := fun hv => h ⟨hv, by omega⟩
        rw [if_neg he, hc, if_neg hv]
        congr 2
        obtain ⟨k, hk⟩ := Int.eq_ofNat_of_zero_le (show 0 ≤ -e by omega)
        have : e = -(k : ℤ) := by omega
        subst this
        rw [neg_neg, Int.toNat_natCast, zpow_neg, zpow_natCast, inv_pow]
    unfold pureExpInt holExpInt
    rw [hb]
    exact ⟨rfl, rfl⟩
  · rintro ⟨rfl, he⟩
    have hb : bigExp ((0 : Fr).val : ℤ) e = none := by
      unfold bigExp
      rw [if_neg (by omega), hc, if_pos rfl]
    unfold pureExpInt holExpInt
    rw [hb]
    exact ⟨rfl, rfl⟩

/-- The power 3 of 2 is 8; the power -1 of 0 leaves a 9 where it was. -/
example : pureExpInt 0 2 3 = 8 ∧ holExpInt 2 3 = .ok 8 ∧ pureExpInt 9 0 (-1) = 9 ∧ holExpInt 0 (-1) = .error .panic := by decide +kernel

/-! ## C132: text -/

/-- **C132 (the part that holds).** The decimal text of a number below `r`, as `FrStr` prints it, is read as that scalar by all four back ends. -/
theorem C132_agree_partial {L : HblsLib} (hL : L.Good) (junk : ℤ) (x : Fr) : kSetFr junk (decimal x.val) = rep x ∧ pureSetText (decimal x.val) = .ok (x.val : ℤ) ∧ holSetText (decimal x.val) = .ok x.val ∧
    hblsSetFr L (decimal x.val) = .ok x ∧ pureFrStr x.val = decimal x.val ∧ holFrStr (some x.val) = decimal x.val ∧ kFrStr (some (rep x)) = decimal x.val := by
  have ht := (readText_decimal x.val).1
  have hlt : x.val < 2 ^ 256 := lt_trans (ZMod.val_lt x) (by decide +kernel)
  refine ⟨?_, ?_, ?_, hblsSetFr_decimal hL x, ?_, rfl, ?_⟩
  · rw [(C105_all_numbers junk x.val).1, ZMod.natCast_zmod_val]
  · unfold pureSetText; rw [ht]
  · unfold holSetText
    rw [ht]
    simp only [Int.natAbs_natCast]
    rw [if_pos hlt, Int.emod_eq_of_lt (Int.natCast_nonneg _) (by exact_mod_cast hlt), Int.toNat_natCast]
  · unfold pureFrStr
    rw [if_neg (by omega), Int.natAbs_natCast]
  · rw [kFrStr, fromRed_rep]

/-- 1907 on the three back ends whose libraries are modelled. -/
example : kSetFr 0 "1907".toList = rep 1907 ∧ pureSetText "1907".toList = .ok 1907 ∧ holSetText "1907".toList = .ok 1907 := by decide +kernel

/-- **C132 is refuted, a leading zero.** The default back end reads decimal digits behind a zero as what they say; the two integer back ends read them in octal, so they have the same number only below 8. -/
theorem C132_refuted_octal (junk : ℤ) (n : ℕ) : kSetFr junk ('0' :: decimal n) = rep (n : Fr) ∧ (pureSetText ('0' :: decimal n) = .ok (n : ℤ) ↔ n < 8) ∧ (holSetText ('0' :: decimal n) = .ok n ↔ n < 8) := by
  have hz := readText_zero n
  refine ⟨?_, ?_, ?_⟩
  · refine C105_nonnegative_partial junk _ (n : ℤ) ?_ (Int.natCast_nonneg n) |>.trans (by rw [Int.cast_natCast])
    have h : readDigits ('0' :: decimal n) = some n := by
      have hd := readDigits_decimal n
      unfold readDigits at hd ⊢
      split at hd
      · rename_i hc
        rw [if_pos ⟨List.cons_ne_nil _ _, by rw [List.all_cons, hc.2]; rfl⟩]
        exact hd
      · cases hd
    show (readDigits _).map _ = _
    rw [h, Option.map_some]
  · rw [← readBase_eight n]
    unfold pureSetText
    rw [hz]
    cases readBase 8 (decimal n) with
    | none => simp
    | some m => simp
  · rw [← readBase_eight n]
    unfold holSetText
    rw [hz]
    cases h8 : readBase 8 (decimal n) with
    | none => simp
    | some m =>
      simp only [Option.map_some, Int.natAbs_natCast, Option.some.injEq]
      by_cases hm : m < 2 ^ 256
      · rw [if_pos hm, Int.emod_eq_of_lt (Int.natCast_nonneg _) (by exact_mod_cast hm), Int.toNat_natCast, Except.ok.injEq]
      · rw [if_neg hm]
        refine ⟨fun h => by simp at h, fun h => ?_⟩
        subst h
        have := (readBase_eight m).1 h8
        exact absurd (lt_trans this (by norm_num)) hm

/-- `010` is ten or eight; `08` is eight or a panic; `0x10` is dropped or sixteen. -/
example : kSetFr 0 "010".toList = rep 10 ∧ pureSetText "010".toList = .ok 8 ∧ holSetText "010".toList = .ok 8 ∧ pureSetText "08".toList = .error .panic ∧ kSetFr 0 "08".toList = rep 8 ∧
    readDecimal "0x10".toList = none ∧ pureSetText "0x10".toList = .ok 16 := by decide +kernel

/-- **C132 is refuted, large numbers.** The default back end reduces; `bignum_pure` stores the number as it is, so that a number from `r` on is not equal to its scalar; `bignum_hol256` does the same below `2^256` and
panics from there on. -/
theorem C132_refuted_range (junk : ℤ) (n : ℕ) : kSetFr junk (decimal n) = rep (n : Fr) ∧ pureSetText (decimal n) = .ok (n : ℤ) ∧ holSetText (decimal n) = (if n < 2 ^ 256 then .ok n else .error .panic) ∧
    (pureEqual n ((n : Fr).val) = true ↔ n < frModulus) := by
  have ht := (readText_decimal n).1
  refine ⟨(C105_all_numbers junk n).1, ?_, ?_, ?_⟩
  · unfold pureSetText; rw [ht]
  · unfold holSetText
    rw [ht]
    simp only [Int.natAbs_natCast]
    split
    · rename_i hlt
      rw [Int.emod_eq_of_lt (Int.natCast_nonneg _) (by exact_mod_cast hlt), Int.toNat_natCast]
    · rfl
  · unfold pureEqual
    rw [decide_eq_true_eq, Nat.cast_inj, ZMod.val_natCast]
    constructor
    · intro h
      rw [h]
      exact Nat.mod_lt _ (by decide +kernel)
    · exact fun h => (Nat.mod_eq_of_lt h).symm

/-- The modulus itself, and `2^256`. -/
example : kSetFr 0 (decimal frModulus) = rep 0 ∧ pureSetText (decimal frModulus) = .ok frModulus ∧ pureEqual frModulus 0 = false ∧ holSetText (decimal (2 ^ 256)) = .error .panic := by
  have h := C132_refuted_range 0 frModulus
  refine ⟨by rw [h.1, ZMod.natCast_self], h.2.1, by decide +kernel, ?_⟩
  rw [(C132_refuted_range 0 (2 ^ 256)).2.2.1, if_neg (lt_irrefl _)]

/-- **C132 is refuted, a minus sign.** `bignum_pure` stores the negative number; the default back end drops the sign; `bignum_hol256` stores another scalar than the negative. -/
theorem C132_refuted_sign (junk : ℤ) (n : ℕ) (hn : 1 ≤ n) (hlt : n < 2 ^ 256) : pureSetText ('-' :: decimal n) = .ok (-(n : ℤ)) ∧ kSetFr junk ('-' :: decimal n) = rep (n : Fr) ∧
    ∃ m, holSetText ('-' :: decimal n) = .ok m ∧ (m : Fr) ≠ -(n : Fr) := by
  have ht := (readText_decimal n).2.2
  refine ⟨?_, (C105_refuted_sign junk n).1, 2 ^ 256 - n, ?_, ?_⟩
  · unfold pureSetText; rw [ht]
  · unfold holSetText
    rw [ht]
    simp only [Int.natAbs_neg, Int.natAbs_natCast]
    rw [if_pos hlt]
    congr 1
    have : (-(n : ℤ)) % 2 ^ 256 = ((2 ^ 256 - n : ℕ) : ℤ) := by
      rw [Int.natCast_sub (le_of_lt hlt)]
      rw [← Int.add_emod_right, Int.emod_eq_of_lt] <;> push_cast <;> omega
    rw [this, Int.toNat_natCast]
  · rw [Nat.cast_sub (le_of_lt hlt), sub_eq_add_neg]
    intro h
    have h0 : ((2 ^ 256 : ℕ) : Fr) = 0 := by simpa using h
    rw [ZMod.natCast_eq_zero_iff] at h0
    revert h0
    decide +kernel

/-- Minus five. -/
example : pureSetText "-5".toList = .ok (-5) ∧ kSetFr 0 "-5".toList = rep 5 ∧ holSetText "-5".toList = .ok (2 ^ 256 - 5) := by decide +kernel

/-- **C132 (the part that holds, printing).** What `FrStr` prints is read back as it was stored, for every stored integer of `bignum_pure` and every 256-bit word of `bignum_hol256`. -/
theorem C132_round_trip_partial (x : ℤ) (w : ℕ) (hw : w < 2 ^ 256) : pureSetText (pureFrStr x) = .ok x ∧ holSetText (holFrStr (some w)) = .ok w := by
  constructor
  · unfold pureFrStr pureSetText
    by_cases hx : x < 0
    · rw [if_pos hx, (readText_decimal _).2.2]
      simp only [Except.ok.injEq]
      omega
    · rw [if_neg hx, (readText_decimal _).1]
      simp only [Except.ok.injEq]
      omega
  · have := (C132_refuted_range 0 w).2.2.1
    rw [if_pos hw] at this
    exact this

/-- A negative stored integer, and a word above `r`. -/
example : pureSetText (pureFrStr (-12)) = .ok (-12) ∧ holSetText (holFrStr (some (frModulus + 1))) = .ok (frModulus + 1) :=
  ⟨(C132_round_trip_partial _ 0 (by norm_num)).1, (C132_round_trip_partial 0 _ (by decide +kernel)).2⟩

end DyCAPS
