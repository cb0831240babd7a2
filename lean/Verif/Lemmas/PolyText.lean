import Verif.Model.PolyText
import Verif.Lemmas.Kilic

/-!
# The text of a polynomial
-/

namespace DyCAPS

theorem decimal_no_space (n : ℕ) : ' ' ∉ decimal n := by
  intro h
  have hr := readDigits_decimal n
  unfold readDigits at hr
  split at hr
  · rename_i hc
    have := List.all_eq_true.1 hc.2 _ h
    revert this; decide
  · cases hr

theorem decimal_inj {m n : ℕ} (h : decimal m = decimal n) : m = n := by
  have := readDigits_decimal m
  rw [h, readDigits_decimal] at this
  exact (Option.some.inj this).symm

/-- Two texts agree up to the first blank. -/
theorem split_blank {u v r s : List Char} (hu : ' ' ∉ u) (hv : ' ' ∉ v) (h : u ++ ' ' :: r = v ++ ' ' :: s) : u = v ∧ r = s := by
  induction u generalizing v with
  | nil =>
    cases v with
    | nil => simpa using h
    | cons c v => simp only [List.nil_append, List.cons_append, List.cons.injEq] at h; exact absurd (h.1 ▸ List.mem_cons_self) hv
  | cons c u ih =>
    cases v with
    | nil => simp only [List.nil_append, List.cons_append, List.cons.injEq] at h; exact absurd (h.1 ▸ List.mem_cons_self) hu
    | cons d v =>
      simp only [List.cons_append, List.cons.injEq] at h
      obtain ⟨h1, h2⟩ := ih (fun h' => hu (List.mem_cons_of_mem _ h')) (fun h' => hv (List.mem_cons_of_mem _ h')) h.2
      exact ⟨by rw [h.1, h1], h2⟩

/-- The text of the coefficients of degree below `n`. -/
def textTo (a : ℕ → Fr) : ℕ → List Char
  | 0 => []
  | n + 1 => polyTerm n (a n) ++ textTo a n

theorem polyToString_eq (coeffs : List Fr) : polyToString coeffs = textTo (fun i => coeffs.getD i 0) coeffs.length := by
  unfold polyToString
  generalize coeffs.length = n
  induction n with
  | zero => rfl
  | succ n ih => rw [List.range_succ, List.reverse_append, List.reverse_singleton, List.singleton_append, List.flatMap_cons, ih]; rfl

theorem polyTerm_pos {i : ℕ} (hi : 0 < i) {c : Fr} (hc : c ≠ 0) (r : List Char) : polyTerm i c ++ r = decimal c.val ++ ' ' :: 'x' :: '^' :: (decimal i ++ ' ' :: '+' :: ' ' :: r) := by
  unfold polyTerm
  rw [if_neg (fun h => hc h.2), if_pos hi]
  simp [List.append_assoc]

theorem polyTerm_gone {i : ℕ} (hi : 0 < i) : polyTerm i 0 = [] := if_pos ⟨by omega, rfl⟩

/-- A text begins with its term of highest degree. -/
theorem textTo_form (a : ℕ → Fr) (n : ℕ) : textTo a (n + 1) = decimal (a 0).val ∨ ∃ v i r, 0 < i ∧ i < n + 1 ∧ textTo a (n + 1) = decimal v ++ ' ' :: 'x' :: '^' :: (decimal i ++ ' ' :: r) := by
  induction n with
  | zero => left; simp [textTo, polyTerm]
  | succ n ih =>
    by_cases h : a (n + 1) = 0
    · have e : textTo a (n + 1 + 1) = textTo a (n + 1) := by
        show polyTerm (n + 1) (a (n + 1)) ++ textTo a (n + 1) = _
        rw [h, polyTerm_gone (by omega), List.nil_append]
      rw [e]
      rcases ih with h | ⟨v, i, r, h1, h2, h3⟩
      · exact Or.inl h
      · exact Or.inr ⟨v, i, r, h1, by omega, h3⟩
    · right
      refine ⟨_, n + 1, _, by omega, by omega, polyTerm_pos (by omega) h _⟩

theorem textTo_ne_lead {a b : ℕ → Fr} {n : ℕ} (ha : a (n + 1) ≠ 0) (hb : b (n + 1) = 0) : textTo a (n + 1 + 1) ≠ textTo b (n + 1 + 1) := by
  intro h
  have e : textTo b (n + 1 + 1) = textTo b (n + 1) := by
    show polyTerm (n + 1) (b (n + 1)) ++ textTo b (n + 1) = _
    rw [hb, polyTerm_gone (by omega), List.nil_append]
  have e' : textTo a (n + 1 + 1) = decimal (a (n + 1)).val ++ ' ' :: 'x' :: '^' :: (decimal (n + 1) ++ ' ' :: '+' :: ' ' :: textTo a (n + 1)) := polyTerm_pos (by omega) ha _
  rw [e, e'] at h
  rcases textTo_form b n with h' | ⟨v, i, r, h1, h2, h3⟩
  · rw [h'] at h
    exact decimal_no_space (b 0).val (h ▸ List.mem_append_right _ List.mem_cons_self)
  · rw [h3] at h
    obtain ⟨-, h⟩ := split_blank (decimal_no_space _) (decimal_no_space _) h
    simp only [List.cons.injEq, true_and] at h
    obtain ⟨h, -⟩ := split_blank (decimal_no_space _) (decimal_no_space _) h
    have := decimal_inj h
    omega

theorem textTo_inj {a b : ℕ → Fr} (n : ℕ) (h : textTo a (n + 1) = textTo b (n + 1)) : ∀ i, i < n + 1 → a i = b i := by
  induction n with
  | zero =>
    intro i hi
    obtain rfl : i = 0 := by omega
    simp only [textTo, polyTerm, List.append_nil, gt_iff_lt, lt_irrefl, if_false, ne_eq, not_true_eq_false, false_and] at h
    exact ZMod.val_injective _ (decimal_inj h)
  | succ n ih =>
    have hlast : a (n + 1) = b (n + 1) ∧ textTo a (n + 1) = textTo b (n + 1) := by
      by_cases ha : a (n + 1) = 0
      · by_cases hb : b (n + 1) = 0
        · refine ⟨by rw [ha, hb], ?_⟩
          change polyTerm (n + 1) (a (n + 1)) ++ textTo a (n + 1) = polyTerm (n + 1) (b (n + 1)) ++ textTo b (n + 1) at h
          rwa [ha, hb, polyTerm_gone (by omega), List.nil_append, List.nil_append] at h
        · exact absurd h.symm (textTo_ne_lead hb ha)
      · by_cases hb : b (n + 1) = 0
        · exact absurd h (textTo_ne_lead ha hb)
        · change polyTerm (n + 1) (a (n + 1)) ++ textTo a (n + 1) = polyTerm (n + 1) (b (n + 1)) ++ textTo b (n + 1) at h
          rw [polyTerm_pos (by omega) ha, polyTerm_pos (by omega) hb] at h
          obtain ⟨h1, h⟩ := split_blank (decimal_no_space _) (decimal_no_space _) h
          simp only [List.cons.injEq, true_and, List.append_cancel_left_eq] at h
          exact ⟨ZMod.val_injective _ (decimal_inj h1), h⟩
    intro i hi
    rcases Nat.lt_succ_iff_lt_or_eq.1 hi with h' | rfl
    · exact ih hlast.2 i h'
    · exact hlast.1

/-- Zero coefficients at the end do not show. -/
theorem textTo_pad {a : ℕ → Fr} {n m : ℕ} (hn : 0 < n) (hnm : n ≤ m) (hz : ∀ i, n ≤ i → a i = 0) : textTo a m = textTo a n := by
  induction m, hnm using Nat.le_induction with
  | base => rfl
  | succ m hm ih =>
    show polyTerm m (a m) ++ textTo a m = _
    rw [hz m hm, polyTerm_gone (by omega), List.nil_append, ih]

end DyCAPS
