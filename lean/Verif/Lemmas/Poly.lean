import Mathlib.Data.List.GetD
import Mathlib.LinearAlgebra.Lagrange
import Mathlib.Tactic.Ring
import Mathlib.Tactic.LinearCombination
import Verif.Model.Poly
import Verif.Spec.Poly

/-! Helper lemmas about the polynomial model. -/

namespace DyCAPS

set_option linter.unusedSectionVars false

open Polynomial

section general
variable {K : Type*} [Semiring K]

theorem eval_polyOf {K : Type*} [CommSemiring K] (c : List K) (x : K) : (polyOf c).eval x = polyVal c x := by
  simp [polyOf, polyVal, eval_finsetSum]

theorem coeff_polyOf (c : List K) (j : ℕ) : (polyOf c).coeff j = c.getD j 0 := by
  simp only [polyOf, finsetSum_coeff, coeff_C_mul, coeff_X_pow]
  by_cases h : j < c.length
  · rw [Finset.sum_eq_single j]
    · simp
    · intro b _ hb; simp [Ne.symm hb]
    · intro hj; simp at hj; omega
  · rw [Finset.sum_eq_zero]
    · rw [List.getD_eq_default _ _ (by omega)]
    · intro i hi
      have : j ≠ i := by simp at hi; omega
      simp [this]

theorem degree_polyOf_lt (c : List K) : (polyOf c).degree < c.length := by
  rw [degree_lt_iff_coeff_zero]
  intro m hm
  rw [coeff_polyOf, List.getD_eq_default _ _ hm]

theorem natDegree_polyOf_lt (c : List K) (h : c ≠ []) : (polyOf c).natDegree < c.length := by
  by_cases h0 : polyOf c = 0
  · rw [h0]; simpa using List.length_pos_of_ne_nil h
  · exact (natDegree_lt_iff_degree_lt h0).2 (degree_polyOf_lt c)

theorem list_ext_getD {α : Type*} {d : α} {l l' : List α} (hl : l.length = l'.length)
    (h : ∀ i, i < l.length → l.getD i d = l'.getD i d) : l = l' := by
  apply List.ext_getElem hl
  intro i h1 h2
  have := h i h1
  simpa [List.getD_eq_getElem, h1, h2] using this

theorem polyOf_inj {c c' : List K} (hl : c.length = c'.length) (h : polyOf c = polyOf c') : c = c' := by
  apply list_ext_getD (d := 0) hl
  intro i _
  rw [← coeff_polyOf, ← coeff_polyOf, h]

theorem polyOf_nil : polyOf ([] : List K) = 0 := by simp [polyOf]

theorem getD_set {α : Type*} (l : List α) (i j : ℕ) (a d : α) :
    (l.set i a).getD j d = if i = j ∧ i < l.length then a else l.getD j d := by
  simp only [List.getD_eq_getElem?_getD, List.getElem?_set]
  by_cases h : i = j
  · subst h
    by_cases h2 : i < l.length
    · simp [h2]
    · simp [h2]
  · simp [h]

theorem getD_replicate {α : Type*} (n j : ℕ) (a : α) : (List.replicate n a).getD j a = a := by
  simp only [List.getD_eq_getElem?_getD, List.getElem?_replicate]
  split <;> simp

/-- A fold over `range n` that updates position `j` from the old value at `j` acts pointwise. -/
theorem foldl_range_set {α : Type*} (d : α) (f : ℕ → α → α) (l : List α) (n k : ℕ) (hn : n ≤ l.length) :
    ((List.range n).foldl (fun l j => l.set j (f j (l.getD j d))) l).getD k d =
      (if k < n then f k (l.getD k d) else l.getD k d) ∧
    ((List.range n).foldl (fun l j => l.set j (f j (l.getD j d))) l).length = l.length := by
  induction n generalizing k with
  | zero => simp
  | succ n ih =>
    rw [List.range_succ, List.foldl_append]
    simp only [List.foldl_cons, List.foldl_nil, List.length_set]
    have hlen := (ih 0 (by omega)).2
    refine ⟨?_, hlen⟩
    rw [getD_set, hlen, (ih k (by omega)).1, (ih n (by omega)).1]
    by_cases h : n = k
    · subst h; simp; omega
    · simp only [h, false_and, if_false]
      by_cases h2 : k < n
      · simp [h2, Nat.lt_succ_of_lt h2]
      · have : ¬ k < n + 1 := by omega
        simp [h2, this]

theorem foldl_range_set_succ {α : Type*} (d : α) (f : ℕ → α → α) (l : List α) (n k : ℕ) (hn : n < l.length) :
    ((List.range n).foldl (fun l j => l.set (j+1) (f j (l.getD (j+1) d))) l).getD k d =
      (if 0 < k ∧ k ≤ n then f (k-1) (l.getD k d) else l.getD k d) ∧
    ((List.range n).foldl (fun l j => l.set (j+1) (f j (l.getD (j+1) d))) l).length = l.length := by
  induction n generalizing k with
  | zero => simp; omega
  | succ n ih =>
    rw [List.range_succ, List.foldl_append]
    simp only [List.foldl_cons, List.foldl_nil, List.length_set]
    have hlen := (ih 0 (by omega)).2
    refine ⟨?_, hlen⟩
    rw [getD_set, hlen, (ih k (by omega)).1, (ih (n+1) (by omega)).1]
    by_cases h : n + 1 = k
    · subst h; simp; omega
    · simp only [h, false_and, if_false]
      by_cases h2 : 0 < k ∧ k ≤ n
      · have : 0 < k ∧ k ≤ n + 1 := by omega
        simp [h2, this]
      · have : ¬ (0 < k ∧ k ≤ n + 1) := by omega
        simp [h2, this]

end general

variable {K : Type*} [Field K] [DecidableEq K]

theorem hornerLoop_eq (c : List K) (x : K) (n : ℕ) (last : K) :
    hornerLoop c x n last = last * x ^ n + ∑ i ∈ Finset.range n, c.getD i 0 * x ^ i := by
  induction n generalizing last with
  | zero => simp [hornerLoop]
  | succ n ih =>
    rw [hornerLoop, ih, Finset.sum_range_succ]
    simp only [at0]; ring

theorem evalPolyAt_eq (c : List K) (x : K) : evalPolyAt c x = polyVal c x := by
  unfold evalPolyAt
  split
  · rename_i h; simp [polyVal, h]
  · rename_i h
    split
    · rename_i hx
      subst hx
      rw [polyVal, Finset.sum_eq_single 0]
      · simp
      · intro b _ hb; simp [hb]
      · intro h0; simp at h0; simp [h0] at h
    · rw [hornerLoop_eq, polyVal]
      obtain ⟨m, hm⟩ : ∃ m, c.length = m + 1 := ⟨c.length - 1, by omega⟩
      rw [hm, Finset.sum_range_succ]
      simp only [at0, Nat.add_sub_cancel]; ring

theorem polyVal_eq_eval (c : List K) (x : K) : polyVal c x = (polyOf c).eval x := (eval_polyOf c x).symm

theorem mulPolyDegreeOne_ok (poly : List K) (a b : K) :
    ∃ ans, mulPolyDegreeOne poly [a, b] = .ok ans ∧ ans.length = poly.length + 1 ∧
      polyOf ans = polyOf poly * (C a + C b * X) := by
  refine ⟨_, rfl, ?_, ?_⟩
  · simp only [at0, List.getD_cons_zero, List.getD_cons_succ]
    rw [(foldl_range_set_succ 0 (fun i v => v + poly.getD i 0 * b) _ _ 0 ?_).2]
    · rw [(foldl_range_set 0 (fun i _ => poly.getD i 0 * a) _ _ 0 (by simp)).2]; simp
    · rw [(foldl_range_set 0 (fun i _ => poly.getD i 0 * a) _ _ 0 (by simp)).2]; simp
  · ext k
    rw [coeff_polyOf]
    simp only [at0, List.getD_cons_zero, List.getD_cons_succ]
    rw [(foldl_range_set_succ 0 (fun i v => v + poly.getD i 0 * b) _ _ k ?_).1]
    · rw [(foldl_range_set 0 (fun i _ => poly.getD i 0 * a) _ _ k (by simp)).1]
      rw [getD_replicate]
      have e : polyOf poly * (C a + C b * X) = C a * polyOf poly + C b * (polyOf poly * X) := by ring
      rw [e, coeff_add, coeff_C_mul, coeff_C_mul, coeff_polyOf]
      rcases k with _ | k
      · by_cases h : 0 < poly.length
        · simp [h]; ring
        · simp only [Nat.not_lt, Nat.le_zero] at h
          have : poly = [] := List.length_eq_zero_iff.1 h
          subst this; simp
      · rw [coeff_mul_X, coeff_polyOf]
        simp only [Nat.succ_eq_add_one, Nat.add_sub_cancel]
        by_cases h1 : k + 1 < poly.length
        · have h2 : 0 < k + 1 ∧ k + 1 ≤ poly.length := by omega
          simp only [h1, h2, and_self, if_true]; ring
        · rw [List.getD_eq_default poly (n := k+1) 0 (by omega)]
          by_cases h2 : k + 1 ≤ poly.length
          · have h2 : 0 < k + 1 ∧ k + 1 ≤ poly.length := by omega
            simp only [h1, h2, and_self, if_true]; simp; ring
          · have h3 : ¬(0 < k + 1 ∧ k + 1 ≤ poly.length) := by omega
            rw [List.getD_eq_default poly (n := k) 0 (by omega)]
            simp [h1, h3]
    · rw [(foldl_range_set 0 (fun i _ => poly.getD i 0 * a) _ _ 0 (by simp)).2]; simp

/-- The recurrence computed by the division loop. -/
theorem divLoop_spec (c : K) (n : ℕ) (ans inter : List K) (hi : n < inter.length) (ha : n ≤ ans.length) :
    (divLoop c n ans inter).length = ans.length ∧
    (∀ j, n ≤ j → (divLoop c n ans inter).getD j 0 = ans.getD j 0) ∧
    (0 < n → (divLoop c n ans inter).getD (n-1) 0 = inter.getD n 0) ∧
    (∀ j, 0 < j → j < n → (divLoop c n ans inter).getD (j-1) 0
        = inter.getD j 0 - (divLoop c n ans inter).getD j 0 * c) := by
  induction n generalizing ans inter with
  | zero => simp [divLoop]
  | succ n ih =>
    rw [divLoop]
    simp only [at0]
    obtain ⟨h1, h2, h3, h4⟩ := ih (ans.set n (inter.getD (n+1) 0))
      (inter.set n (inter.getD n 0 - inter.getD (n+1) 0 * c)) (by simp; omega) (by simp; omega)
    refine ⟨by simpa using h1, ?_, ?_, ?_⟩
    · intro j hj
      rw [h2 j (by omega), getD_set]
      have : ¬ (n = j ∧ n < ans.length) := by omega
      simp [this]
    · intro _
      rw [Nat.add_sub_cancel, h2 n le_rfl, getD_set]
      have : n = n ∧ n < ans.length := ⟨rfl, by omega⟩
      simp [this.2]
    · intro j hj hjn
      rcases Nat.lt_or_ge j n with h | h
      · rw [h4 j hj h, getD_set]
        have : ¬ (n = j ∧ n < inter.length) := by omega
        simp [this]
      · have hjn' : j = n := by omega
        subst hjn'
        rw [h3 hj, h2 j le_rfl, getD_set, getD_set]
        have h5 : j < inter.length := by omega
        have h6 : j < ans.length := by omega
        simp [h5, h6]

theorem divPolyDegreeOne_ok (op1 : List K) (a : K) (h : op1 ≠ []) (hroot : (polyOf op1).eval a = 0) :
    ∃ ans, divPolyDegreeOne op1 [0 - a, 1] = .ok ans ∧ ans.length = op1.length - 1 ∧
      polyOf op1 = (X - C a) * polyOf ans := by
  have hl : 0 < op1.length := List.length_pos_of_ne_nil h
  refine ⟨_, by simp [divPolyDegreeOne, hl.ne', h]; rfl, ?_, ?_⟩
  · rw [(divLoop_spec _ _ _ _ (by omega) (by simp)).1]; simp
  · obtain ⟨h1, h2, h3, h4⟩ := divLoop_spec (-a) (op1.length - 1) (List.replicate (op1.length - 1) 0) op1
      (by omega) (by simp)
    set ans := divLoop (-a) (op1.length - 1) (List.replicate (op1.length - 1) 0) op1 with hans
    -- the difference is a constant, and vanishes at `a`
    have hpos : ∀ j, 0 < j → (polyOf op1).coeff j = ((X - C a) * polyOf ans).coeff j := by
      intro j hj
      obtain ⟨k, rfl⟩ : ∃ k, j = k + 1 := ⟨j - 1, by omega⟩
      rw [sub_mul, coeff_sub, coeff_X_mul, coeff_C_mul, coeff_polyOf, coeff_polyOf, coeff_polyOf]
      rcases lt_trichotomy (k+1) (op1.length - 1) with hk | hk | hk
      · have := h4 (k+1) (by omega) hk
        rw [Nat.add_sub_cancel] at this
        rw [this]; ring
      · have := h3 (by omega)
        rw [← hk, Nat.add_sub_cancel] at this
        rw [this, h2 (k+1) (by omega), getD_replicate]; ring
      · rw [List.getD_eq_default op1 (n := k+1) 0 (by omega), h2 k (by omega), h2 (k+1) (by omega),
          getD_replicate, getD_replicate]; ring
    have hconst : polyOf op1 - (X - C a) * polyOf ans
        = C ((polyOf op1 - (X - C a) * polyOf ans).coeff 0) := by
      ext j
      rcases j with _ | j
      · simp
      · rw [coeff_sub, hpos (j+1) (by omega), sub_self, coeff_C]; simp
    have he := congrArg (eval a) hconst
    simp only [eval_sub, hroot, eval_mul, eval_X, eval_C, sub_self, zero_mul] at he
    rw [← he, C_0, sub_eq_zero] at hconst
    exact hconst

theorem addScaled_spec (res inter : List K) (c : K) (h : inter.length ≤ res.length) :
    (addScaled res inter c).length = res.length ∧
    polyOf (addScaled res inter c) = polyOf res + C c * polyOf inter := by
  constructor
  · simp only [addScaled, at0]
    exact (foldl_range_set 0 (fun j v => v + inter.getD j 0 * c) res inter.length 0 h).2
  · ext k
    rw [coeff_add, coeff_C_mul, coeff_polyOf, coeff_polyOf, coeff_polyOf]
    simp only [addScaled, at0]
    rw [(foldl_range_set 0 (fun j v => v + inter.getD j 0 * c) res inter.length k h).1]
    split
    · ring
    · rw [List.getD_eq_default inter 0 (by omega)]; ring

theorem polyOf_replicate_zero (n : ℕ) : polyOf (List.replicate n (0 : K)) = 0 := by
  ext k; rw [coeff_polyOf, getD_replicate]; simp

theorem lagrangeProduct_aux (x : List K) (n : ℕ) (hx : n ≤ x.length) :
    ∃ p, (List.range n).foldlM (fun product i => do
        let xi ← idx x i
        mulPolyDegreeOne product [0 - xi, 1]) [1] = (.ok p : Go (List K)) ∧ p.length = n + 1 ∧
      polyOf p = ∏ i ∈ Finset.range n, (X - C (x.getD i 0)) := by
  induction n with
  | zero => exact ⟨[1], by rfl, rfl, by simp [polyOf]⟩
  | succ n ih =>
    obtain ⟨p, hp, hlen, hpoly⟩ := ih (by omega)
    obtain ⟨q, hq, hqlen, hqpoly⟩ := mulPolyDegreeOne_ok p (0 - x.getD n 0) 1
    refine ⟨q, ?_, by omega, ?_⟩
    · rw [List.range_succ, List.foldlM_append, hp]
      simp only [List.foldlM_cons, List.foldlM_nil]
      have : idx x n = .ok (x.getD n 0) := by
        rw [idx_of_lt (by omega), List.getD_eq_getElem _ _ (by omega)]
      simp only [this, bind, Except.bind, hq]; rfl
    · rw [hqpoly, hpoly, Finset.prod_range_succ]
      congr 1
      simp; ring

theorem lagrangeProduct_ok (d : ℕ) (x : List K) (hx : d + 1 ≤ x.length) :
    ∃ p, lagrangeProduct d x = .ok p ∧ p.length = d + 2 ∧
      polyOf p = ∏ i ∈ Finset.range (d+1), (X - C (x.getD i 0)) :=
  lagrangeProduct_aux x (d+1) hx

/-- `inter` of iteration `i` is the product over the other points. -/
theorem lagrange_inter (d : ℕ) (x : List K) (p : List K) (hplen : p.length = d + 2)
    (hp : polyOf p = ∏ i ∈ Finset.range (d+1), (X - C (x.getD i 0))) (i : ℕ) (hi : i ≤ d) :
    ∃ inter, divPolyDegreeOne p [0 - x.getD i 0, 1] = .ok inter ∧ inter.length = d + 1 ∧
      polyOf inter = ∏ j ∈ (Finset.range (d+1)).erase i, (X - C (x.getD j 0)) := by
  have hmem : i ∈ Finset.range (d+1) := by simp; omega
  obtain ⟨inter, h1, h2, h3⟩ := divPolyDegreeOne_ok p (x.getD i 0) (by intro h; simp [h] at hplen) (by
    rw [hp, eval_prod]
    exact Finset.prod_eq_zero hmem (by simp))
  refine ⟨inter, h1, by omega, ?_⟩
  rw [hp, ← Finset.mul_prod_erase _ _ hmem] at h3
  exact (mul_left_cancel₀ (X_sub_C_ne_zero _) h3).symm

theorem lagrange_den (d : ℕ) (x inter : List K) (i : ℕ)
    (h : polyOf inter = ∏ j ∈ (Finset.range (d+1)).erase i, (X - C (x.getD j 0))) :
    evalPolyAt inter (x.getD i 0) = ∏ j ∈ (Finset.range (d+1)).erase i, (x.getD i 0 - x.getD j 0) := by
  rw [evalPolyAt_eq, polyVal_eq_eval, h, eval_prod]; simp

/-- The Lagrange sum over the first `n` points, as a polynomial. -/
noncomputable def lagSum (d : ℕ) (x y : List K) (n : ℕ) : K[X] :=
  ∑ i ∈ Finset.range n, C ((∏ j ∈ (Finset.range (d+1)).erase i, (x.getD i 0 - x.getD j 0))⁻¹ * y.getD i 0) *
    ∏ j ∈ (Finset.range (d+1)).erase i, (X - C (x.getD j 0))

theorem lagrangeStep_ok (d : ℕ) (x y p : List K) (hx : d + 1 ≤ x.length) (hy : d + 1 ≤ y.length)
    (hplen : p.length = d + 2)
    (hp : polyOf p = ∏ i ∈ Finset.range (d+1), (X - C (x.getD i 0)))
    (i : ℕ) (hi : i ≤ d) (res : List K) (hres : res.length = d + 1)
    (hne : ∀ j ≤ d, j ≠ i → x.getD i 0 ≠ x.getD j 0) :
    ∃ res', lagrangeStep p x y res i = .ok res' ∧ res'.length = d + 1 ∧
      polyOf res' = polyOf res + C ((∏ j ∈ (Finset.range (d+1)).erase i, (x.getD i 0 - x.getD j 0))⁻¹ * y.getD i 0) *
        ∏ j ∈ (Finset.range (d+1)).erase i, (X - C (x.getD j 0)) := by
  obtain ⟨inter, h1, h2, h3⟩ := lagrange_inter d x p hplen hp i hi
  have hden := lagrange_den d x inter i h3
  have hden0 : ∏ j ∈ (Finset.range (d+1)).erase i, (x.getD i 0 - x.getD j 0) ≠ 0 := by
    rw [Finset.prod_ne_zero_iff]
    intro j hj
    simp only [Finset.mem_erase, Finset.mem_range] at hj
    exact sub_ne_zero.2 (hne j (by omega) hj.1)
  have ix : idx x i = .ok (x.getD i 0) := by
    rw [idx_of_lt (by omega), List.getD_eq_getElem _ _ (by omega)]
  have iy : idx y i = .ok (y.getD i 0) := by
    rw [idx_of_lt (by omega), List.getD_eq_getElem _ _ (by omega)]
  refine ⟨addScaled res inter ((∏ j ∈ (Finset.range (d+1)).erase i, (x.getD i 0 - x.getD j 0))⁻¹ * y.getD i 0), ?_, ?_, ?_⟩
  · simp only [lagrangeStep, ix, iy, bind, Except.bind, h1, hden, hden0, if_false]; rfl
  · rw [(addScaled_spec _ _ _ (by omega)).1, hres]
  · rw [(addScaled_spec _ _ _ (by omega)).2, h3]

theorem lagrange_loop_ok (d : ℕ) (x y p : List K) (hx : d + 1 ≤ x.length) (hy : d + 1 ≤ y.length)
    (hplen : p.length = d + 2)
    (hp : polyOf p = ∏ i ∈ Finset.range (d+1), (X - C (x.getD i 0)))
    (n : ℕ) (hn : n ≤ d + 1) (hne : ∀ i < n, ∀ j ≤ d, j ≠ i → x.getD i 0 ≠ x.getD j 0) :
    ∃ res, (List.range n).foldlM (lagrangeStep p x y) (List.replicate (d+1) 0) = .ok res ∧
      res.length = d + 1 ∧ polyOf res = lagSum d x y n := by
  induction n with
  | zero => exact ⟨_, rfl, by simp, by simp [lagSum, polyOf_replicate_zero]⟩
  | succ n ih =>
    obtain ⟨res, hr, hl, hpoly⟩ := ih (by omega) (fun i hi => hne i (by omega))
    obtain ⟨res', hr', hl', hpoly'⟩ := lagrangeStep_ok d x y p hx hy hplen hp n (by omega) res hl
      (fun j hj hji => hne n (by omega) j hj hji)
    refine ⟨res', ?_, hl', ?_⟩
    · rw [List.range_succ, List.foldlM_append, hr]
      simp only [List.foldlM_cons, List.foldlM_nil, bind, Except.bind, hr']; rfl
    · rw [hpoly', hpoly, lagSum, lagSum, Finset.sum_range_succ]

theorem lagSum_eval (d : ℕ) (x y : List K)
    (hne : ∀ i ≤ d, ∀ j ≤ d, j ≠ i → x.getD i 0 ≠ x.getD j 0) (k : ℕ) (hk : k ≤ d) :
    (lagSum d x y (d+1)).eval (x.getD k 0) = y.getD k 0 := by
  rw [lagSum, eval_finsetSum, Finset.sum_eq_single k]
  · rw [eval_mul, eval_C, eval_prod]
    have hden0 : ∏ j ∈ (Finset.range (d+1)).erase k, (x.getD k 0 - x.getD j 0) ≠ 0 := by
      rw [Finset.prod_ne_zero_iff]
      intro j hj
      simp only [Finset.mem_erase, Finset.mem_range] at hj
      exact sub_ne_zero.2 (hne k hk j (by omega) hj.1)
    simp only [eval_sub, eval_X, eval_C]
    field_simp
  · intro i hi hik
    rw [eval_mul, eval_prod]
    apply mul_eq_zero_of_right
    apply Finset.prod_eq_zero (i := k)
    · simp; exact ⟨Ne.symm hik, by omega⟩
    · rw [eval_sub, eval_X, eval_C, sub_self]
  · intro h; simp at h; omega

/-- Two polynomials of degree `< d+1` that agree on `d+1` distinct points are equal. -/
theorem poly_unique (d : ℕ) (x : List K) (f g : K[X]) (hf : f.degree < (d+1 : ℕ)) (hg : g.degree < (d+1 : ℕ))
    (hne : ∀ i ≤ d, ∀ j ≤ d, j ≠ i → x.getD i 0 ≠ x.getD j 0)
    (h : ∀ k ≤ d, f.eval (x.getD k 0) = g.eval (x.getD k 0)) : f = g := by
  apply Polynomial.eq_of_degrees_lt_of_eval_index_eq (Finset.range (d+1)) (v := fun k => x.getD k 0)
  · intro i hi j hj hij
    by_contra hc
    simp only [Finset.coe_range, Set.mem_Iio] at hi hj
    exact hne i (by omega) j (by omega) (Ne.symm hc) hij
  · simpa using hf
  · simpa using hg
  · intro k hk; simp only [Finset.mem_range] at hk; exact h k (by omega)

theorem lagrangeInterpolate_ok (d : ℕ) (x y : List K) (hx : d + 1 ≤ x.length) (hy : d + 1 ≤ y.length)
    (hne : ∀ i ≤ d, ∀ j ≤ d, j ≠ i → x.getD i 0 ≠ x.getD j 0) :
    ∃ res, lagrangeInterpolate d x y = .ok res ∧ res.length = d + 1 ∧
      ∀ k ≤ d, (polyOf res).eval (x.getD k 0) = y.getD k 0 := by
  obtain ⟨p, hp, hplen, hpp⟩ := lagrangeProduct_ok d x hx
  obtain ⟨res, hr, hl, hpoly⟩ := lagrange_loop_ok d x y p hx hy hplen hpp (d+1) le_rfl
    (fun i hi => hne i (by omega))
  refine ⟨res, ?_, hl, ?_⟩
  · simp only [lagrangeInterpolate, hp, bind, Except.bind, hr]
  · intro k hk; rw [hpoly, lagSum_eval d x y hne k hk]

/-- Any coefficient list that interpolates the points equals the result. -/
theorem lagrangeInterpolate_eq_of_eval (d : ℕ) (x y f : List K) (hx : d + 1 ≤ x.length) (hy : d + 1 ≤ y.length)
    (hne : ∀ i ≤ d, ∀ j ≤ d, j ≠ i → x.getD i 0 ≠ x.getD j 0) (hf : f.length = d + 1)
    (h : ∀ k ≤ d, polyVal f (x.getD k 0) = y.getD k 0) :
    lagrangeInterpolate d x y = .ok f := by
  obtain ⟨res, hr, hl, he⟩ := lagrangeInterpolate_ok d x y hx hy hne
  rw [hr]; congr 1
  apply polyOf_inj (by omega)
  apply poly_unique d x _ _ _ _ hne
  · intro k hk; rw [he k hk, eval_polyOf, h k hk]
  · rw [← hl]; exact degree_polyOf_lt res
  · rw [← hf]; exact degree_polyOf_lt f

theorem foldlM_error_append {α β : Type*} (f : β → α → Go β) (l l' : List α) (b : β) (e : Fault)
    (h : l.foldlM f b = .error e) : (l ++ l').foldlM f b = .error e := by
  rw [List.foldlM_append, h]; rfl

/-- A repeated point stops the process. -/
theorem lagrangeInterpolate_fatal (d : ℕ) (x y : List K) (hx : d + 1 ≤ x.length) (hy : d + 1 ≤ y.length)
    (hdup : ∃ i ≤ d, ∃ j ≤ d, j ≠ i ∧ x.getD i 0 = x.getD j 0) :
    lagrangeInterpolate d x y = .error .fatal := by
  classical
  obtain ⟨p, hp, hplen, hpp⟩ := lagrangeProduct_ok d x hx
  let i := Nat.find hdup
  obtain ⟨hid, j, hj, hji, hxx⟩ := Nat.find_spec hdup
  have hmin : ∀ i' < i, ∀ j ≤ d, j ≠ i' → x.getD i' 0 ≠ x.getD j 0 := by
    intro i' hi' j' hj' hne heq
    exact Nat.find_min hdup hi' ⟨by have : i ≤ d := hid; omega, j', hj', hne, heq⟩
  obtain ⟨res, hr, hl, -⟩ := lagrange_loop_ok d x y p hx hy hplen hpp i (by have : i ≤ d := hid; omega) hmin
  obtain ⟨inter, h1, h2, h3⟩ := lagrange_inter d x p hplen hpp i hid
  have hden := lagrange_den d x inter i h3
  have hden0 : ∏ j ∈ (Finset.range (d+1)).erase i, (x.getD i 0 - x.getD j 0) = 0 := by
    apply Finset.prod_eq_zero (i := j)
    · simp; exact ⟨hji, by omega⟩
    · exact sub_eq_zero.2 hxx
  have ix : idx x i = .ok (x.getD i 0) := by
    have : i ≤ d := hid
    rw [idx_of_lt (by omega), List.getD_eq_getElem _ _ (by omega)]
  have hstep : lagrangeStep p x y res i = .error .fatal := by
    simp only [lagrangeStep, ix, bind, Except.bind, h1, hden, hden0, if_true]
  have hloop : (List.range (i+1)).foldlM (lagrangeStep p x y) (List.replicate (d+1) 0) = .error .fatal := by
    rw [List.range_succ, List.foldlM_append, hr]
    simp only [List.foldlM_cons, List.foldlM_nil, bind, Except.bind, hstep]
  obtain ⟨m, hm⟩ : ∃ m, d + 1 = (i + 1) + m := ⟨d - i, by have : i ≤ d := hid; omega⟩
  have hfull : (List.range (d+1)).foldlM (lagrangeStep p x y) (List.replicate (d+1) 0) = .error .fatal := by
    have hsplit : List.range (d+1) = List.range (i+1) ++ (List.range m).map (fun k => (i+1) + k) := by
      rw [hm, List.range_add]
    rw [hsplit]
    exact foldlM_error_append _ _ _ _ _ hloop
  simp only [lagrangeInterpolate, hp, bind, Except.bind, hfull]

/-! ### Lagrange coefficients -/

theorem lagrangeCoeff_aux (x : List K) (t : K) (i n : ℕ) :
    (List.range n).foldl (fun res j =>
      if j ≠ i then (at0 x i - at0 x j)⁻¹ * (res * (t - at0 x j)) else res) 1
    = ∏ j ∈ (Finset.range n).erase i, ((x.getD i 0 - x.getD j 0)⁻¹ * (t - x.getD j 0)) := by
  induction n with
  | zero => simp
  | succ n ih =>
    rw [List.range_succ, List.foldl_append, ih]
    simp only [List.foldl_cons, List.foldl_nil, at0]
    by_cases h : n = i
    · subst h
      rw [if_neg (by simp)]
      congr 1
      ext j; simp; omega
    · rw [if_pos h]
      have : (Finset.range (n+1)).erase i = insert n ((Finset.range n).erase i) := by
        ext j; simp; omega
      rw [this, Finset.prod_insert (by simp)]; ring

theorem lagrangeCoeff_eq (x : List K) (t : K) (d i : ℕ) :
    lagrangeCoeff x t d i = (Lagrange.basis (Finset.range (d+1)) (fun k => x.getD k 0) i).eval t := by
  rw [lagrangeCoeff, lagrangeCoeff_aux, Lagrange.basis, eval_prod]
  apply Finset.prod_congr rfl
  intro j _
  simp [Lagrange.basisDivisor]

/-- The coefficients evaluate every polynomial of degree at most `d` at the target. -/
theorem lagrangeCoeff_sum (x : List K) (t : K) (d : ℕ) (f : K[X]) (hf : f.degree < (d+1 : ℕ))
    (hne : ∀ i ≤ d, ∀ j ≤ d, j ≠ i → x.getD i 0 ≠ x.getD j 0) :
    ∑ i ∈ Finset.range (d+1), lagrangeCoeff x t d i * f.eval (x.getD i 0) = f.eval t := by
  have hinj : Set.InjOn (fun k => x.getD k 0) (Finset.range (d+1) : Set ℕ) := by
    intro i hi j hj hij
    by_contra hc
    simp only [Finset.coe_range, Set.mem_Iio] at hi hj
    exact hne i (by omega) j (by omega) (Ne.symm hc) hij
  have h := Lagrange.eq_interpolate (s := Finset.range (d+1)) (v := fun k => x.getD k 0) hinj
    (f := f) (by simpa using hf)
  conv_rhs => rw [h]
  rw [Lagrange.interpolate_apply, eval_finsetSum]
  apply Finset.sum_congr rfl
  intro i _
  rw [eval_mul, eval_C, lagrangeCoeff_eq]; ring

/-! ### Long division -/

theorem longDiv_inner (divisor : List K) (q : K) (d n : ℕ) (a : List K) (hn : d + n ≤ a.length) (k : ℕ) :
    (((List.range n).reverse.foldl
      (fun a i => a.set (d + i) (at0 a (d + i) - q * at0 divisor i)) a).getD k 0 =
      (if d ≤ k ∧ k < d + n then a.getD k 0 - q * divisor.getD (k - d) 0 else a.getD k 0)) ∧
    ((List.range n).reverse.foldl
      (fun a i => a.set (d + i) (at0 a (d + i) - q * at0 divisor i)) a).length = a.length := by
  induction n generalizing a k with
  | zero => simp
  | succ n ih =>
    rw [List.range_succ, List.reverse_append]
    simp only [List.reverse_cons, List.reverse_nil, List.nil_append, List.singleton_append, List.foldl_cons]
    have h := ih (a.set (d + n) (at0 a (d + n) - q * at0 divisor n)) (by simp; omega) k
    refine ⟨?_, by rw [h.2]; simp⟩
    rw [h.1, getD_set]
    by_cases h1 : d + n = k
    · subst h1
      have h3 : d + n < a.length := by omega
      simp [h3]
    · simp only [h1, false_and, if_false]
      by_cases h2 : d ≤ k ∧ k < d + n
      · have : d ≤ k ∧ k < d + (n + 1) := by omega
        simp [h2, this]
      · have : ¬ (d ≤ k ∧ k < d + (n + 1)) := by omega
        simp [h2, this]

theorem polyOf_set (l : List K) (i : ℕ) (v : K) (hi : i < l.length) :
    polyOf (l.set i v) = polyOf l + C (v - l.getD i 0) * X ^ i := by
  ext k
  rw [coeff_add, coeff_C_mul, coeff_X_pow, coeff_polyOf, coeff_polyOf, getD_set]
  by_cases h : i = k
  · subst h; simp [hi]
  · simp [h, Ne.symm h]

/-- Loop invariant of `polyLongDiv`. -/
theorem longDivLoop_spec (divisor : List K) (hb : divisor ≠ []) (hlead : divisor.getD (divisor.length - 1) 0 ≠ 0)
    (n : ℕ) (out a : List K) (ho : n ≤ out.length) (ha : n + (divisor.length - 1) ≤ a.length)
    (hz : ∀ k, n + (divisor.length - 1) ≤ k → a.getD k 0 = 0)
    (hout : ∀ k, k < n → out.getD k 0 = 0) :
    let r := longDivLoop divisor n out a
    r.1.length = out.length ∧ r.2.length = a.length ∧
    polyOf r.1 * polyOf divisor + polyOf r.2 = polyOf out * polyOf divisor + polyOf a ∧
    ∀ k, divisor.length - 1 ≤ k → r.2.getD k 0 = 0 := by
  induction n generalizing out a with
  | zero =>
    simp only [longDivLoop]
    refine ⟨trivial, trivial, trivial, ?_⟩
    intro k hk; exact hz k (by omega)
  | succ n ih =>
    have hl : 0 < divisor.length := List.length_pos_of_ne_nil hb
    simp only [longDivLoop]
    set q := (at0 divisor (divisor.length - 1))⁻¹ * at0 a (n + (divisor.length - 1)) with hq
    set a' := (List.range (divisor.length - 1 + 1)).reverse.foldl
      (fun a i => a.set (n + i) (at0 a (n + i) - q * at0 divisor i)) a with ha'
    have hin := fun k => longDiv_inner divisor q n (divisor.length - 1 + 1) a (by omega) k
    have ha'poly : polyOf a' = polyOf a - C q * X ^ n * polyOf divisor := by
      ext k
      rw [coeff_sub, coeff_polyOf, coeff_polyOf, mul_assoc, coeff_C_mul, coeff_X_pow_mul', coeff_polyOf, ha', (hin k).1]
      by_cases h : n ≤ k
      · by_cases h2 : k < n + (divisor.length - 1 + 1)
        · simp [h, h2]
        · rw [List.getD_eq_default divisor 0 (by omega)]
          simp [h2]
      · simp [h]
    have h := ih (out.set n q) a' (by simp; omega) (by rw [ha', (hin 0).2]; omega) ?_ ?_
    · obtain ⟨h1, h2, h3, h4⟩ := h
      refine ⟨by rw [h1]; simp, by rw [h2, ha', (hin 0).2], ?_, h4⟩
      rw [h3, ha'poly, polyOf_set _ _ _ (by omega), hout n (by omega)]
      simp only [sub_zero]; ring
    · intro k hk
      rw [ha', (hin k).1]
      by_cases h : k = n + (divisor.length - 1)
      · subst h
        have : n ≤ n + (divisor.length - 1) ∧ n + (divisor.length - 1) < n + (divisor.length - 1 + 1) := by omega
        rw [if_pos this, Nat.add_sub_cancel_left, hq]
        simp only [at0]
        field_simp
        ring
      · have : ¬ (n ≤ k ∧ k < n + (divisor.length - 1 + 1)) := by omega
        rw [if_neg this]
        exact hz k (by omega)
    · intro k hk
      rw [getD_set]
      have : ¬ (n = k ∧ n < out.length) := by omega
      rw [if_neg this]
      exact hout k (by omega)

theorem polyLongDiv_spec (a b : List K) (hb : b ≠ []) (hlead : b.getD (b.length - 1) 0 ≠ 0)
    (hlen : b.length ≤ a.length + 1) :
    ∃ q rem, polyLongDiv a b = .ok q ∧ q.length = a.length + 1 - b.length ∧
      rem.length = a.length ∧ polyOf a = polyOf q * polyOf b + polyOf rem ∧
      (polyOf rem).degree < (b.length - 1 : ℕ) := by
  have hl : 0 < b.length := List.length_pos_of_ne_nil hb
  have h := longDivLoop_spec b hb hlead (a.length + 1 - b.length) (List.replicate (a.length + 1 - b.length) 0) a
    (by simp) (by omega) (fun k hk => List.getD_eq_default _ _ (by omega)) (fun k _ => getD_replicate _ _ _)
  obtain ⟨h1, h2, h3, h4⟩ := h
  refine ⟨(longDivLoop b (a.length + 1 - b.length) (List.replicate (a.length + 1 - b.length) 0) a).1, _, ?_, ?_, h2, ?_, ?_⟩
  · unfold polyLongDiv
    rw [if_neg (by omega), if_neg (by omega)]
  · rw [h1]; simp
  · rw [h3, polyOf_replicate_zero]; ring
  · rw [degree_lt_iff_coeff_zero]
    intro m hm
    rw [coeff_polyOf]; exact h4 m hm

theorem foldl_add_range (f : ℕ → K) (n : ℕ) :
    (List.range n).foldl (fun out i => f i + out) 0 = ∑ i ∈ Finset.range n, f i := by
  induction n with
  | zero => simp
  | succ n ih => rw [List.range_succ, List.foldl_append, ih, Finset.sum_range_succ]; simp [add_comm]

end DyCAPS
