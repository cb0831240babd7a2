import Verif.Lemmas.Poly
import Verif.Lemmas.Setup
import Verif.Model.Kilic
import Verif.Model.KZG

/-!
# Lemmas on the words of the default back end
-/

namespace DyCAPS

/-- The word in which a scalar is stored: the scalar times `2^256`. -/
def rep (x : Fr) : Word := (x * 2 ^ 256).val

theorem two_pow_cast : ((2 : Fr) ^ 256) = (montR : Fr) := by
  have h : ((2 ^ 256 : ℕ) : Fr) = ((montR : ℕ) : Fr) := by
    rw [ZMod.natCast_eq_natCast_iff']
    decide +kernel
  rw [← h, Nat.cast_pow, Nat.cast_ofNat]

theorem montRInv_mul : (montRInv : Fr) * 2 ^ 256 = 1 := by
  have h : ((montRInv * 2 ^ 256 : ℕ) : Fr) = ((1 : ℕ) : Fr) := by
    rw [ZMod.natCast_eq_natCast_iff']
    decide +kernel
  have h2 : ((montRInv * 2 ^ 256 : ℕ) : Fr) = (montRInv : Fr) * 2 ^ 256 := by rw [Nat.cast_mul, Nat.cast_pow, Nat.cast_ofNat]
  rw [← h2, h, Nat.cast_one]

theorem two_pow_mul : (2 : Fr) ^ 256 * (montRInv : Fr) = 1 := by rw [mul_comm, montRInv_mul]

theorem two_pow_ne : (2 : Fr) ^ 256 ≠ 0 := fun h => by
  have := montRInv_mul
  rw [h, mul_zero] at this
  exact zero_ne_one this

theorem cast_modr (n : ℕ) : ((n % frModulus : ℕ) : Fr) = (n : Fr) := ZMod.natCast_mod n frModulus

theorem word_eq {n : ℕ} {x : Fr} (h : n < frModulus) (hx : (n : Fr) = x) : n = x.val := by
  rw [← hx, ZMod.val_natCast, Nat.mod_eq_of_lt h]

theorem frModulus_pos : 0 < frModulus := by decide +kernel

theorem rep_lt (x : Fr) : rep x < frModulus := ZMod.val_lt _

theorem rep_cast (x : Fr) : (rep x : Fr) = x * 2 ^ 256 := ZMod.natCast_zmod_val _

theorem mod_rep {n : ℕ} {x : Fr} (h : (n : Fr) = x * 2 ^ 256) : n % frModulus = rep x :=
  word_eq (Nat.mod_lt _ frModulus_pos) (by rw [cast_modr, h])

theorem rep_inj {x y : Fr} (h : rep x = rep y) : x = y := by
  have h2 : ((rep x : ℕ) : Fr) = ((rep y : ℕ) : Fr) := by rw [h]
  rw [rep_cast, rep_cast] at h2
  exact mul_right_cancel₀ two_pow_ne h2

theorem toRed_rep (n : ℕ) : toRed n = rep (n : Fr) := mod_rep (by rw [Nat.cast_mul, two_pow_cast])

theorem fromRed_rep (x : Fr) : fromRed (rep x) = x.val := by
  unfold fromRed
  refine word_eq (Nat.mod_lt _ frModulus_pos) ?_
  rw [cast_modr, Nat.cast_mul, rep_cast, mul_assoc, two_pow_mul, mul_one]

theorem redMul_rep (x y : Fr) : redMul (rep x) (rep y) = rep (x * y) := by
  refine mod_rep ?_
  rw [Nat.cast_mul, Nat.cast_mul, rep_cast, rep_cast]
  linear_combination (x * y * 2 ^ 256) * two_pow_mul

theorem redInverse_rep (x : Fr) : redInverse (rep x) = rep x⁻¹ := by
  unfold redInverse
  rw [fromRed_rep, toRed_rep, ZMod.natCast_zmod_val, ZMod.natCast_zmod_val]

theorem redExp_rep (x : Fr) (e : ℕ) : redExp (rep x) e = rep (x ^ e) := by
  induction e with
  | zero => simp only [redExp, toRed_rep, Nat.cast_one, pow_zero]
  | succ e ih => rw [redExp, ih, redMul_rep, pow_succ]

theorem redFromBytes_rep (b : Bytes) : redFromBytes b = rep (beNat b : Fr) := by
  unfold redFromBytes
  rw [toRed_rep, cast_modr]

theorem kAdd_rep (x y : Fr) : kAdd (rep x) (rep y) = rep (x + y) := mod_rep (by rw [Nat.cast_add, rep_cast, rep_cast]; ring)

theorem kSub_rep (x y : Fr) : kSub (rep x) (rep y) = rep (x - y) := by
  refine mod_rep ?_
  rw [Nat.cast_add, Nat.cast_sub (rep_lt y).le, rep_cast, rep_cast, ZMod.natCast_self]; ring

theorem kMul_rep (x y : Fr) : kMul (rep x) (rep y) = rep (x * y) := by
  unfold kMul
  exact redMul_rep x y

theorem kDiv_rep (x y : Fr) : kDiv (rep x) (rep y) = rep (x / y) := by
  unfold kDiv
  rw [redInverse_rep, redMul_rep, mul_comm, div_eq_mul_inv]

theorem kExp_rep (x : Fr) (e : ℕ) : kExp (rep x) e = rep (x ^ e) := by
  unfold kExp
  exact redExp_rep x e

theorem kInv_rep (x : Fr) : kInv (rep x) = rep x⁻¹ := by
  unfold kInv
  exact redInverse_rep x

theorem kBatchInv_rep (l : List Fr) : kBatchInv (l.map rep) = l.map fun v => rep v⁻¹ := by
  unfold kBatchInv
  induction l with
  | nil => rw [List.map_nil, List.map_nil, List.map_nil]
  | cons v l ih => rw [List.map_cons, List.map_cons, List.map_cons, ih, redInverse_rep]

theorem rep_zero : rep 0 = 0 := by
  unfold rep
  rw [zero_mul, ZMod.val_zero]

theorem rep_one : rep 1 = montR := by
  unfold rep
  rw [one_mul, two_pow_cast, ZMod.val_natCast]
  exact Nat.mod_eq_of_lt (by decide +kernel)

theorem getD_map_rep (l : List Fr) (i : ℕ) : (l.map rep).getD i 0 = rep (at0 l i) := by
  unfold at0
  rw [List.getD_eq_getElem?_getD, List.getD_eq_getElem?_getD, List.getElem?_map]
  cases h : l[i]? with
  | none => rw [Option.map_none, Option.getD_none, Option.getD_none, rep_zero]
  | some v => rw [Option.map_some, Option.getD_some, Option.getD_some]

theorem horner_words (l : List Fr) (x : Fr) (n : ℕ) (last : Fr) :
    ((List.range n).reverse).foldl (fun last i => kAdd (kMul last (rep x)) ((l.map rep).getD i 0)) (rep last) = rep (hornerLoop l x n last) := by
  induction n generalizing last with
  | zero => rw [List.range_zero, List.reverse_nil, List.foldl_nil, hornerLoop]
  | succ n ih =>
    rw [List.range_succ, List.reverse_append, List.reverse_singleton, List.singleton_append, List.foldl_cons, getD_map_rep]
    unfold kMul at ih ⊢
    rw [redMul_rep, kAdd_rep, ih, hornerLoop]

theorem kEqualZero_rep (x : Fr) : kEqualZero (rep x) = true ↔ x = 0 := by
  unfold kEqualZero
  rw [decide_eq_true_iff]
  constructor
  · intro h; exact rep_inj (h.trans rep_zero.symm)
  · rintro rfl; exact rep_zero

theorem kEvalPolyAt_rep (l : List Fr) (x : Fr) : kEvalPolyAt (l.map rep) (rep x) = rep (evalPolyAt l x) := by
  unfold kEvalPolyAt evalPolyAt
  rw [List.length_map]
  by_cases h0 : l.length = 0
  · rw [if_pos h0, if_pos h0, rep_zero]
  · rw [if_neg h0, if_neg h0]
    by_cases hx : x = 0
    · rw [if_pos ((kEqualZero_rep x).2 hx), if_pos hx, getD_map_rep]
    · rw [if_neg (fun h => hx ((kEqualZero_rep x).1 h)), if_neg hx, getD_map_rep]
      exact horner_words l x _ _

theorem kMulG_rep {G : Type} [AddCommGroup G] [Module Fr G] (a : G) (x : Fr) : kMulG a (rep x) = x • a := by
  unfold kMulG
  rw [fromRed_rep, ← Nat.cast_smul_eq_nsmul Fr, ZMod.natCast_zmod_val]

/-! ## Decimal text -/

theorem digit_char {d : ℕ} (h : d < 10) : (Char.ofNat (48 + d)).toNat = 48 + d := by
  interval_cases d <;> decide

theorem readDigits_foldl (l : List ℕ) (h : ∀ d ∈ l, d < 10) : ((l.map fun d => Char.ofNat (48 + d)).reverse).foldl (fun acc c => acc * 10 + (c.toNat - 48)) 0 = Nat.ofDigits 10 l := by
  induction l with
  | nil => rfl
  | cons d l ih =>
    rw [List.map_cons, List.reverse_cons, List.foldl_append, ih fun e he => h e (List.mem_cons_of_mem _ he), List.foldl_cons, List.foldl_nil, Nat.ofDigits_cons,
      digit_char (h d List.mem_cons_self)]
    omega

theorem readDigits_decimal (n : ℕ) : readDigits (decimal n) = some n := by
  unfold decimal
  by_cases h0 : n = 0
  · subst h0; decide
  · rw [if_neg h0]
    unfold readDigits
    have hd : ∀ d ∈ Nat.digits 10 n, d < 10 := fun d hd => Nat.digits_lt_base (by norm_num) hd
    rw [if_pos, readDigits_foldl _ hd, Nat.ofDigits_digits]
    refine ⟨?_, ?_⟩
    · intro h
      rw [List.reverse_eq_nil_iff, List.map_eq_nil_iff, Nat.digits_eq_nil_iff_eq_zero] at h
      exact h0 h
    · rw [List.all_reverse, List.all_map, List.all_eq_true]
      intro d hdm
      have := hd d hdm
      simp only [Function.comp_apply, digit_char this, decide_eq_true_eq]
      omega

theorem decimal_cons (n : ℕ) : ∃ d s, d < 10 ∧ decimal n = Char.ofNat (48 + d) :: s := by
  unfold decimal
  by_cases h0 : n = 0
  · exact ⟨0, [], by norm_num, by rw [if_pos h0]⟩
  · rw [if_neg h0]
    have hne : ((Nat.digits 10 n).map fun d => Char.ofNat (48 + d)).reverse ≠ [] := by
      intro h
      rw [List.reverse_eq_nil_iff, List.map_eq_nil_iff, Nat.digits_eq_nil_iff_eq_zero] at h
      exact h0 h
    obtain ⟨c, s, hcs⟩ := List.exists_cons_of_ne_nil hne
    have hc : c ∈ ((Nat.digits 10 n).map fun d => Char.ofNat (48 + d)).reverse := hcs ▸ List.mem_cons_self
    rw [List.mem_reverse, List.mem_map] at hc
    obtain ⟨d, hd, rfl⟩ := hc
    exact ⟨d, s, Nat.digits_lt_base (by norm_num) hd, hcs⟩

theorem readDecimal_decimal (n : ℕ) : readDecimal (decimal n) = some (n : ℤ) := by
  have hr := readDigits_decimal n
  obtain ⟨d, s, hd, h⟩ := decimal_cons n
  rw [h] at hr ⊢
  have h1 : Char.ofNat (48 + d) ≠ '-' := by interval_cases d <;> decide
  have h2 : Char.ofNat (48 + d) ≠ '+' := by interval_cases d <;> decide
  unfold readDecimal
  split
  · rename_i heq; exact absurd (List.cons.inj heq).1 h1
  · rename_i heq; exact absurd (List.cons.inj heq).1 h2
  · rw [hr, Option.map_some]

/-! ## The second final exponentiation -/

theorem finalExpo_coprime : Nat.gcd finalExpo frModulus = 1 := by decide +kernel

theorem pow_finalExpo {GT : Type} [CommGroup GT] (t : GT) (h : t ^ frModulus = 1) : t ^ finalExpo = 1 ↔ t = 1 := by
  constructor
  · intro h2
    have := Nat.dvd_gcd (orderOf_dvd_of_pow_eq_one h2) (orderOf_dvd_of_pow_eq_one h)
    rw [finalExpo_coprime, Nat.dvd_one, orderOf_eq_one_iff] at this
    exact this
  · rintro rfl; exact one_pow _

end DyCAPS
