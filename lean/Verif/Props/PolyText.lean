import Verif.Lemmas.PolyText
import Verif.Lemmas.Poly
import Verif.Spec.Poly

/-!
# C134: polynomials as text
-/

namespace DyCAPS

/-- **C134.** Two coefficient lists with the same text are the same polynomial. -/
theorem C134_text_determines (a b : List Fr) (h : polyToString a = polyToString b) : polyOf a = polyOf b := by
  have key : ∀ (c : List Fr) (m : ℕ), c ≠ [] → c.length ≤ m → textTo (fun i => c.getD i 0) m = polyToString c := by
    intro c m hc hm
    rw [polyToString_eq]
    refine textTo_pad (List.length_pos_iff.2 hc) hm (fun i hi => ?_)
    exact List.getD_eq_default _ _ hi
  have hnil : ∀ c : List Fr, polyToString c = [] → c = [] := by
    intro c hc
    by_contra hne
    have hk := key c (c.length + 1) hne (by omega)
    rw [hc] at hk
    rcases textTo_form (fun i => c.getD i 0) c.length with h | ⟨v, i, r, _, _, h⟩ <;> rw [hk] at h
    · obtain ⟨d, s, _, hd⟩ := decimal_cons ((fun i => c.getD i 0) 0).val
      rw [hd] at h; cases h
    · have := congrArg List.length h
      simp at this
  by_cases ha : a = []
  · subst ha
    rw [hnil b (by rw [← h]; rfl)]
  by_cases hb : b = []
  · subst hb
    exact absurd (hnil a (by rw [h]; rfl)) ha
  rw [← key a (max a.length b.length + 1) ha (by omega), ← key b (max a.length b.length + 1) hb (by omega)] at h
  have hi := textTo_inj _ h
  ext i
  rw [coeff_polyOf, coeff_polyOf]
  by_cases hl : i < max a.length b.length + 1
  · exact hi i hl
  · rw [List.getD_eq_default _ _ (by omega), List.getD_eq_default _ _ (by omega)]

/-- **C134.** And the text of a non-empty list depends on the polynomial only: zero coefficients at the end do not show. -/
theorem C134_same_polynomial (a b : List Fr) (ha : a ≠ []) (hb : b ≠ []) (h : polyOf a = polyOf b) : polyToString a = polyToString b := by
  have hc : (fun i => a.getD i 0) = fun i => b.getD i 0 := by
    funext i
    rw [← coeff_polyOf, ← coeff_polyOf, h]
  have key : ∀ (c : List Fr), c ≠ [] → c.length ≤ max a.length b.length → polyToString c = textTo (fun i => c.getD i 0) (max a.length b.length) := by
    intro c hc hm
    rw [polyToString_eq]
    exact (textTo_pad (List.length_pos_iff.2 hc) hm (fun i hi => List.getD_eq_default _ _ hi)).symm
  rw [key a ha (le_max_left _ _), key b hb (le_max_right _ _), hc]

/-- 5 + 7 X ^ 2, with and without a zero at the end; the zero polynomial; the empty list. -/
example : polyToString [5, 0, 7] = "7 x^2 + 5".toList ∧ polyToString [5, 0, 7, 0] = "7 x^2 + 5".toList ∧ polyToString [0, -1] =
      "52435875175126190479447740508185965837690552500527637822603658699938581184512 x^1 + 0".toList ∧ polyToString [0, 0] = "0".toList ∧ polyToString [] = [] ∧
    polyToString [5, 7] ≠ polyToString [7, 5] := by decide +kernel

end DyCAPS
