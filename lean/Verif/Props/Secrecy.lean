import Verif.Props.VSS

/-!
# C59: full and reduced shares together

The reason for degree `2F` in `y`: around a hand-off an adversary may hold shares in both forms.
-/

namespace DyCAPS

open Polynomial

/-- `b` is the bivariate polynomial dealt for secret `s` with the given coins: its slices `B(·,k)` are the dealer's polynomials. -/
def Deals (F : ℕ) (s : Fr) (c : DealerCoins) (b : ℕ → ℕ → Fr) : Prop :=
  ∀ k, 1 ≤ k → k ≤ 2 * F + 1 → sliceX b F (2 * F) (k : Fr) = dealerB F s c k

/-- Dealer coins shifted by the polynomial with coefficients `d`. -/
def coinShift (F : ℕ) (d : ℕ → ℕ → Fr) : CoinSpace F :=
  (fun m => d 0 (m + 1), fun k j => ∑ l ∈ Finset.range (2 * F + 1), d (j + 1) l * ((k : ℕ) + 1 : Fr) ^ l)

theorem dealerFVal_coinShift (F : ℕ) (s : Fr) (d : ℕ → ℕ → Fr) (r : CoinSpace F) (k : ℕ) :
    dealerFVal F (s + d 0 0) (coinsOf F (r + coinShift F d)) k = dealerFVal F s (coinsOf F r) k + ∑ l ∈ Finset.range (2 * F + 1), d 0 l * (k : Fr) ^ l := by
  rw [dealerFVal_eq, dealerFVal_eq, polyVal, polyVal, dealerF_length, dealerF_length, ← Finset.sum_add_distrib]
  apply Finset.sum_congr rfl
  intro m hm
  have hm' : m < 2 * F + 1 := by simpa using hm
  rw [List.getD_eq_getElem _ _ (by rw [dealerF_length]; omega), List.getD_eq_getElem _ _ (by rw [dealerF_length]; omega)]
  simp only [dealerF, List.getElem_map, List.getElem_range]
  rcases m with _ | m
  · simp
  · simp only [Nat.succ_ne_zero, if_false, coinsOf]
    rw [dif_pos (by omega), dif_pos (by omega)]
    simp [coinShift]
    ring

theorem deals_shift (F : ℕ) (s : Fr) (d : ℕ → ℕ → Fr) (r : CoinSpace F) (b : ℕ → ℕ → Fr) (h : Deals F s (coinsOf F r) b) :
    Deals F (s + d 0 0) (coinsOf F (r + coinShift F d)) (fun i l => b i l + d i l) := by
  intro k hk1 hk2
  apply list_ext_getD (d := 0) (by rw [sliceX_length, dealerB_length])
  intro i hi
  rw [sliceX_length] at hi
  rw [sliceX_getD _ _ _ _ _ hi, dealerB_getD _ _ _ _ _ hi]
  have hb := congrArg (fun l => l.getD i 0) (h k hk1 hk2)
  simp only [sliceX_getD _ _ _ _ _ hi, dealerB_getD _ _ _ _ _ hi] at hb
  simp only [add_mul, Finset.sum_add_distrib]
  rw [hb]
  rcases i with _ | i
  · simp only [if_true]
    rw [dealerFVal_coinShift]
  · simp only [Nat.succ_ne_zero, if_false, coinsOf]
    rw [dif_pos (by omega), dif_pos (by omega)]
    simp only [Prod.snd_add, Pi.add_apply, coinShift]
    congr 1
    apply Finset.sum_congr rfl
    intro l _
    congr 2
    have : ((k - 1 : ℕ) : Fr) + 1 = ((k - 1 + 1 : ℕ) : Fr) := by push_cast; rfl
    rw [this, Nat.sub_add_cancel hk1]

/-- The polynomial with value 1 at 0 and roots at the given indices. -/
noncomputable def rootPoly (S : Finset ℕ) : Fr[X] := ∏ i ∈ S, (1 - C ((i : Fr)⁻¹) * X)

theorem rootPoly_natDegree (S : Finset ℕ) : (rootPoly S).natDegree ≤ S.card := by
  refine (natDegree_prod_le _ _).trans ?_
  refine (Finset.sum_le_sum (g := fun _ => 1) fun i _ => ?_).trans (by simp)
  refine (natDegree_sub_le _ _).trans (max_le (by simp) ?_)
  exact (natDegree_C_mul_le _ _).trans natDegree_X_le

theorem rootPoly_zero (S : Finset ℕ) : (rootPoly S).coeff 0 = 1 := by
  rw [coeff_zero_eq_eval_zero]; simp [rootPoly, eval_prod]

theorem rootPoly_root (S : Finset ℕ) (i : ℕ) (hi : i ∈ S) (h1 : 1 ≤ i) (h2 : i < frModulus) (n : ℕ) (hn : S.card ≤ n) :
    ∑ j ∈ Finset.range (n + 1), (rootPoly S).coeff j * (i : Fr) ^ j = 0 := by
  rw [← eval_eq_sum_range' (Nat.lt_succ_of_le ((rootPoly_natDegree S).trans hn))]
  simp only [rootPoly, eval_prod, eval_sub, eval_one, eval_mul, eval_C, eval_X]
  rw [Finset.prod_eq_zero hi]
  have : (i : Fr) ≠ 0 := by
    have := fr_natCast_ne (a := i) (b := 0) h2 (by decide +kernel) (by omega)
    simpa using this
  rw [inv_mul_cancel₀ this, sub_self]

/-- What full-share holders `S` and reduced-share holders `J` see of a dealing. -/
def JointView (F : ℕ) (s : Fr) (c : DealerCoins) (S J : Finset ℕ) (full red : ℕ → List Fr) : Prop :=
  ∃ b, Deals F s c b ∧ (∀ i ∈ S, sliceY b F (2 * F) (i : Fr) = full i) ∧ ∀ j ∈ J, sliceX b F (2 * F) (j : Fr) = red j

theorem jointView_shift (F : ℕ) (S J : Finset ℕ) (hS : S.card ≤ F) (hJ : J.card ≤ 2 * F) (hSi : ∀ i ∈ S, 1 ≤ i ∧ i < frModulus)
    (hJi : ∀ i ∈ J, 1 ≤ i ∧ i < frModulus) (s e : Fr) (full red : ℕ → List Fr) (r : CoinSpace F) (h : JointView F s (coinsOf F r) S J full red) :
    JointView F (s + e) (coinsOf F (r + coinShift F fun i l => e * (rootPoly S).coeff i * (rootPoly J).coeff l)) S J full red := by
  obtain ⟨b, h1, h2, h3⟩ := h
  have hd := deals_shift F s (fun i l => e * (rootPoly S).coeff i * (rootPoly J).coeff l) r b h1
  simp only [rootPoly_zero, mul_one] at hd
  refine ⟨_, hd, fun i hi => ?_, fun j hj => ?_⟩
  · rw [← h2 i hi]
    simp only [sliceY]
    apply List.map_congr_left
    intro l _
    simp only [add_mul, Finset.sum_add_distrib]
    have hz := rootPoly_root S i hi (hSi i hi).1 (hSi i hi).2 F hS
    have : ∑ x ∈ Finset.range (F + 1), e * (rootPoly S).coeff x * (rootPoly J).coeff l * (i : Fr) ^ x =
        e * (rootPoly J).coeff l * ∑ x ∈ Finset.range (F + 1), (rootPoly S).coeff x * (i : Fr) ^ x := by
      rw [Finset.mul_sum]
      exact Finset.sum_congr rfl fun x _ => by ring
    rw [this, hz, mul_zero, add_zero]
  · rw [← h3 j hj]
    simp only [sliceX]
    apply List.map_congr_left
    intro i _
    simp only [add_mul, Finset.sum_add_distrib]
    have hz := rootPoly_root J j hj (hJi j hj).1 (hJi j hj).2 (2 * F) hJ
    have : ∑ x ∈ Finset.range (2 * F + 1), e * (rootPoly S).coeff i * (rootPoly J).coeff x * (j : Fr) ^ x =
        e * (rootPoly S).coeff i * ∑ x ∈ Finset.range (2 * F + 1), (rootPoly J).coeff x * (j : Fr) ^ x := by
      rw [Finset.mul_sum]
      exact Finset.sum_congr rfl fun x _ => by ring
    rw [this, hz, mul_zero, add_zero]

/-- **C59.** For any `F` full shares together with any `2F` reduced shares, any two secrets and any view: as many dealer choices lead to the view
under `s` as under `s'`. -/
theorem C59_joint_secrecy (F : ℕ) (S J : Finset ℕ) (hS : S.card ≤ F) (hJ : J.card ≤ 2 * F) (hSi : ∀ i ∈ S, 1 ≤ i ∧ i < frModulus)
    (hJi : ∀ i ∈ J, 1 ≤ i ∧ i < frModulus) (s s' : Fr) (full red : ℕ → List Fr) :
    Nat.card {r : CoinSpace F // JointView F s (coinsOf F r) S J full red} = Nat.card {r : CoinSpace F // JointView F s' (coinsOf F r) S J full red} := by
  have key : ∀ a a' : Fr, ∀ r : CoinSpace F, JointView F a (coinsOf F r) S J full red →
      JointView F a' (coinsOf F (r + coinShift F fun i l => (a' - a) * (rootPoly S).coeff i * (rootPoly J).coeff l)) S J full red := by
    intro a a' r h
    have := jointView_shift F S J hS hJ hSi hJi a (a' - a) full red r h
    rwa [add_sub_cancel] at this
  have hneg : ∀ a a' : Fr, coinShift F (fun i l => (a - a') * (rootPoly S).coeff i * (rootPoly J).coeff l) =
      - coinShift F (fun i l => (a' - a) * (rootPoly S).coeff i * (rootPoly J).coeff l) := by
    intro a a'
    refine Prod.ext (funext fun m => ?_) (funext fun k => funext fun j => ?_)
    · simp only [coinShift, Prod.fst_neg, Pi.neg_apply]; ring
    · simp only [coinShift, Prod.snd_neg, Pi.neg_apply, ← Finset.sum_neg_distrib]
      exact Finset.sum_congr rfl fun x _ => by ring
  apply Nat.card_congr
  refine (Equiv.addRight (coinShift F fun i l => (s' - s) * (rootPoly S).coeff i * (rootPoly J).coeff l)).subtypeEquiv fun r => ?_
  rw [Equiv.coe_addRight]
  refine ⟨key s s' r, fun h => ?_⟩
  have := key s' s _ h
  rw [hneg s s'] at this
  simp only [add_neg_cancel_right] at this
  exact this

/-- **C59.** The bounds are tight: one more reduced share determines the secret. -/
theorem C59_tight (F : ℕ) (hr : 2 * F + 1 < frModulus) (s s' : Fr) (c c' : DealerCoins) (b b' : ℕ → ℕ → Fr) (h : Deals F s c b) (h' : Deals F s' c' b')
    (hv : ∀ j, 1 ≤ j → j ≤ 2 * F + 1 → sliceX b F (2 * F) (j : Fr) = sliceX b' F (2 * F) (j : Fr)) : s = s' := by
  have h1 : ∀ k, 1 ≤ k → k ≤ 2 * F + 1 → polyVal (dealerF F s c) (k : Fr) = polyVal (dealerF F s' c') (k : Fr) := by
    intro k hk1 hk2
    have e := (h k hk1 hk2).symm.trans ((hv k hk1 hk2).trans (h' k hk1 hk2))
    rw [← dealerFVal_eq, ← dealerFVal_eq, ← dealerB_zero, ← dealerB_zero, e]
  have h2 : polyOf (dealerF F s c) = polyOf (dealerF F s' c') := by
    apply Polynomial.eq_of_degrees_lt_of_eval_index_eq (Finset.Icc 1 (2 * F + 1)) (v := fun k : ℕ => (k : Fr))
    · intro a ha b hb hab
      simp only [Finset.coe_Icc, Set.mem_Icc] at ha hb
      by_contra hne
      exact fr_natCast_ne (a := a) (b := b) (by omega) (by omega) hne hab
    · have := degree_polyOf_lt (dealerF F s c); rw [dealerF_length] at this; simpa using this
    · have := degree_polyOf_lt (dealerF F s' c'); rw [dealerF_length] at this; simpa using this
    · intro k hk
      rw [Finset.mem_Icc] at hk
      rw [eval_polyOf, eval_polyOf, h1 k hk.1 hk.2]
  have h3 := congrArg (Polynomial.eval 0) h2
  rw [eval_polyOf, eval_polyOf, dealerF_zero, dealerF_zero] at h3
  exact h3

/-- `F = 1`: one full share and two reduced shares, secrets 0 and 1. -/
example (full red : ℕ → List Fr) :=
  C59_joint_secrecy 1 {3} {1, 4} (by simp) (by simp) (by intro i hi; rw [Finset.mem_singleton.1 hi]; exact ⟨by norm_num, by decide +kernel⟩)
    (by
      intro i hi
      simp only [Finset.mem_insert, Finset.mem_singleton] at hi
      rcases hi with rfl | rfl
      · exact ⟨by norm_num, by decide +kernel⟩
      · exact ⟨by norm_num, by decide +kernel⟩) 0 1 full red

/-- The view is not empty: every dealing has one. -/
example (F : ℕ) (h : 2 * F + 1 < frModulus) (s : Fr) (r : CoinSpace F) (S J : Finset ℕ) : ∃ full red, JointView F s (coinsOf F r) S J full red := by
  obtain ⟨b, hb, -⟩ := dealer_bivariate F s (coinsOf F r) h
  exact ⟨_, _, b, hb, fun _ _ => rfl, fun _ _ => rfl⟩

end DyCAPS
