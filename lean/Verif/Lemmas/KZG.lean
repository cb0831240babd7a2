import Mathlib.Algebra.Ring.GeomSum
import Mathlib.Algebra.Module.BigOperators
import Mathlib.Algebra.Order.BigOperators.Group.Finset
import Mathlib.Tactic.Module
import Verif.Model.KZG
import Verif.Spec.Bivar
import Verif.Lemmas.Poly

/-! Helper lemmas about the KZG model. -/

set_option linter.unusedSectionVars false

namespace DyCAPS

open Polynomial

variable {K G1 G2 GT : Type} [Field K] [DecidableEq K] [AddCommGroup G1] [Module K G1] [AddCommGroup G2] [Module K G2]
  [AddCommGroup GT] [Module K GT]

theorem foldl_add_smul (numbers : List G1) (factors : List K) (n : ℕ) :
    (List.range n).foldl (fun out i => out + factors.getD i 0 • numbers.getD i 0) 0 =
      ∑ i ∈ Finset.range n, factors.getD i 0 • numbers.getD i 0 := by
  induction n with
  | zero => simp
  | succ n ih => rw [List.range_succ, List.foldl_append, ih, Finset.sum_range_succ]; simp

theorem linCombG1_ok (numbers : List G1) (factors : List K) (h : numbers.length = factors.length) :
    linCombG1 numbers factors = .ok (∑ i ∈ Finset.range factors.length, factors.getD i 0 • numbers.getD i 0) := by
  unfold linCombG1
  rw [if_neg (by simpa using h), foldl_add_smul, h]

theorem setup_aux (pp : Pairing K G1 G2 GT) (s : K) (n : ℕ) :
    (List.range n).foldl (setupStep pp s) ([], [], 1) =
      ((List.range n).map fun i => s ^ i • pp.g1, (List.range n).map fun i => s ^ i • pp.g2, s ^ n) := by
  induction n with
  | zero => simp
  | succ n ih =>
    rw [List.range_succ, List.foldl_append, ih]
    simp [setupStep, pow_succ]

theorem newKZG_eq (pp : Pairing K G1 G2 GT) (s : K) (n : ℕ) :
    newKZG pp s n = ⟨(List.range n).map fun i => s ^ i • pp.g1, (List.range n).map fun i => s ^ i • pp.g2⟩ := by
  simp [newKZG, generateTestingSetup, setup_aux]

theorem linComb_setup (pp : Pairing K G1 G2 GT) (s : K) (n : ℕ) (c : List K) (h : c.length ≤ n) :
    linCombG1 ((newKZG pp s n).secretG1.take c.length) c = .ok (polyVal c s • pp.g1) := by
  have hl : ((newKZG pp s n).secretG1.take c.length).length = c.length := by
    rw [newKZG_eq]; simp [h]
  rw [linCombG1_ok _ _ hl, polyVal, Finset.sum_smul]
  congr 1
  apply Finset.sum_congr rfl
  intro i hi
  have hi' : i < c.length := by simpa using hi
  rw [mul_smul]
  congr 1
  rw [List.getD_eq_getElem _ _ (by rw [hl]; exact hi')]
  simp [newKZG_eq]

theorem commitToPoly_ok (pp : Pairing K G1 G2 GT) (s : K) (n : ℕ) (c : List K) (h : c.length ≤ n) :
    commitToPoly (newKZG pp s n) c = .ok (polyVal c s • pp.g1) := by
  unfold commitToPoly
  rw [if_pos (by rw [newKZG_eq]; simpa using h), linComb_setup pp s n c h]

theorem pairing_inj (pp : Pairing K G1 G2 GT) (a : G1) (h : pp.e a pp.g2 = 0) : a = 0 := by
  obtain ⟨k, rfl⟩ := pp.gen1 a
  rw [map_smul, LinearMap.smul_apply, smul_eq_zero] at h
  rcases h with h | h
  · simp [h]
  · exact absurd h pp.nondeg

theorem smul_g1_inj (pp : Pairing K G1 G2 GT) {a b : K} (h : a • pp.g1 = b • pp.g1) : a = b := by
  have h0 : pp.g1 ≠ 0 := by
    intro h; apply pp.nondeg; rw [h]; simp
  have : (a - b) • pp.g1 = 0 := by rw [sub_smul, h, sub_self]
  rcases smul_eq_zero.1 this with h1 | h1
  · exact sub_eq_zero.1 h1
  · exact absurd h1 h0

/-- What `CheckProofSingle` decides. -/
theorem checkProofSingle_ok [DecidableEq GT] [DecidableEq G1] (pp : Pairing K G1 G2 GT) (s : K) (n : ℕ) (hn : 2 ≤ n)
    (C W : G1) (x y : K) :
    checkProofSingle pp (newKZG pp s n) C W x y = .ok (decide (C - y • pp.g1 = (s - x) • W)) := by
  unfold checkProofSingle
  have hi : idx (newKZG pp s n).secretG2 1 = .ok (s • pp.g2) := by
    rw [newKZG_eq, idx_of_lt (by simp; omega)]; simp
  rw [hi]
  show Except.ok _ = _
  congr 1
  unfold pairingsVerify
  congr 1
  apply propext
  rw [← sub_smul, map_smul, map_neg, LinearMap.neg_apply]
  constructor
  · intro h
    have : pp.e (-(C - y • pp.g1) + (s - x) • W) pp.g2 = 0 := by
      rw [map_add, map_neg, map_smul]; simpa using h
    have h2 := pairing_inj pp _ this
    rw [neg_add_eq_zero] at h2
    exact h2
  · intro h
    rw [h, map_smul]; simp

theorem checkProofSingle_panic [DecidableEq GT] (pp : Pairing K G1 G2 GT) (s : K) (n : ℕ) (hn : n < 2) (C W : G1) (x y : K) :
    checkProofSingle pp (newKZG pp s n) C W x y = .error .panic := by
  unfold checkProofSingle
  rw [newKZG_eq, idx_of_ge (by simp; omega)]
  rfl

/-- `∑ c_i (s^(i-1) + s^(i-2) x + ... + x^(i-1))`: the quotient of `f` by `X - x`, at `s`. -/
def quotVal (c : List K) (x s : K) : K :=
  ∑ i ∈ Finset.range c.length, c.getD i 0 * ∑ j ∈ Finset.range i, s ^ j * x ^ (i - 1 - j)

theorem quotVal_mul (c : List K) (x s : K) : quotVal c x s * (s - x) = polyVal c s - polyVal c x := by
  rw [quotVal, Finset.sum_mul, polyVal, polyVal, ← Finset.sum_sub_distrib]
  apply Finset.sum_congr rfl
  intro i _
  rw [mul_assoc, (Commute.all s x).geom_sum₂_mul]; ring

/-- The same as a polynomial identity. -/
theorem polyOf_quot (c q : List K) (x : K) (r : K) (h : polyOf c = polyOf q * (X - C x) + C r) (s : K) :
    polyVal q s = quotVal c x s := by
  let Q : K[X] := ∑ i ∈ Finset.range c.length, C (c.getD i 0) * ∑ j ∈ Finset.range i, X ^ j * C x ^ (i - 1 - j)
  have hQ : Q * (X - C x) = polyOf c - C (polyVal c x) := by
    show (∑ i ∈ Finset.range c.length, _) * _ = _
    rw [Finset.sum_mul]
    have : polyOf c - C (polyVal c x) = ∑ i ∈ Finset.range c.length, (C (c.getD i 0) * (X ^ i - C x ^ i)) := by
      rw [polyOf, polyVal, map_sum, ← Finset.sum_sub_distrib]
      apply Finset.sum_congr rfl
      intro i _
      rw [mul_sub, map_mul, map_pow]
    rw [this]
    apply Finset.sum_congr rfl
    intro i _
    rw [mul_assoc, (Commute.all (X : K[X]) (C x)).geom_sum₂_mul]
  have hr : r = polyVal c x := by
    rw [polyVal_eq_eval, h]; simp
  have hQq : Q = polyOf q := by
    have h1 : Q * (X - C x) = polyOf q * (X - C x) := by rw [hQ, h, hr]; ring
    exact mul_right_cancel₀ (X_sub_C_ne_zero x) h1
  rw [polyVal_eq_eval, ← hQq]
  simp only [Q, quotVal, eval_finsetSum, eval_mul, eval_C, eval_pow, eval_X]

theorem quotient_ok (c : List K) (x : K) (hc : c ≠ []) :
    ∃ q, polyLongDiv c [0 - x, 1] = .ok q ∧ q.length = c.length - 1 ∧ ∀ s, polyVal q s = quotVal c x s := by
  have hl : 0 < c.length := List.length_pos_of_ne_nil hc
  obtain ⟨q, rem, h1, h2, h3, h4, h5⟩ := polyLongDiv_spec c [0 - x, 1] (by simp) (by simp) (by simp; omega)
  refine ⟨q, h1, by simp at h2; omega, ?_⟩
  have hd : (polyOf rem).degree < (1 : ℕ) := by simpa using h5
  have hr : polyOf rem = C ((polyOf rem).coeff 0) := by
    apply eq_C_of_degree_le_zero
    rw [← Order.lt_succ_iff]
    calc (polyOf rem).degree < 1 := by exact_mod_cast hd
      _ = _ := rfl
  have hdiv : polyOf ([0 - x, 1] : List K) = X - C x := by
    simp [polyOf, Finset.sum_range_succ]; ring
  rw [hdiv, hr] at h4
  exact polyOf_quot c q x _ h4

theorem computeProofSingle_ok (pp : Pairing K G1 G2 GT) (s : K) (n : ℕ) (c : List K) (x : K) (hc : c ≠ [])
    (h : c.length ≤ n + 1) :
    computeProofSingle (newKZG pp s n) c x = .ok (quotVal c x s • pp.g1) := by
  obtain ⟨q, h1, h2, h3⟩ := quotient_ok c x hc
  unfold computeProofSingle
  rw [h1]
  show (if _ then _ else _) = _
  rw [if_pos (by rw [newKZG_eq]; simp; omega), linComb_setup pp s n q (by omega), h3]

theorem commitUnoptimized_ok (pp : Pairing K G1 G2 GT) (s : K) (n : ℕ) (c : List K) (h : c.length ≤ n) :
    commitToPolyUnoptimized (newKZG pp s n) c = .ok (polyVal c s • pp.g1) := by
  have key : ∀ m ≤ c.length, (List.range m).foldlM (fun out i => do
      let g ← idx (newKZG pp s n).secretG1 i
      pure (out + at0 c i • g)) (0 : G1) =
      (Except.ok ((∑ i ∈ Finset.range m, c.getD i 0 * s ^ i) • pp.g1) : Go G1) := by
    intro m hm
    induction m with
    | zero => simp
    | succ m ih =>
      rw [List.range_succ, List.foldlM_append, ih (by omega)]
      have hi : idx (newKZG pp s n).secretG1 m = .ok (s ^ m • pp.g1) := by
        rw [newKZG_eq, idx_of_lt (by simp; omega)]; simp
      rw [Finset.sum_range_succ, add_smul, mul_smul]
      rw [Go.ok_bind, List.foldlM_cons, hi]
      rfl
  exact key c.length le_rfl

end DyCAPS
