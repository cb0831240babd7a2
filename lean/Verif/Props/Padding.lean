import Verif.Lemmas.Poly
import Verif.Model.Bytes

/-!
# C107-C109: zero padding and linear combinations of coefficient vectors
-/

namespace DyCAPS

theorem deleteZeroLoop_zeros (k : ℕ) (b : Bytes) (h : b.getLast? ≠ some 0) : deleteZeroLoop (b.length + k) (b ++ List.replicate k 0) = b := by
  induction k with
  | zero =>
    rw [List.replicate_zero, List.append_nil, Nat.add_zero]
    rcases List.eq_nil_or_concat b with rfl | ⟨b', x, rfl⟩
    · rfl
    · rw [List.concat_eq_append] at h ⊢
      rw [List.length_append, List.length_singleton, deleteZeroLoop, if_neg]
      rw [List.getD_eq_getElem?_getD, List.getElem?_append_right (le_refl _), Nat.sub_self]
      intro h2
      apply h
      rw [List.getLast?_append, List.getLast?_singleton]
      exact congrArg some h2
  | succ k ih =>
    have h1 : (b ++ List.replicate (k + 1) 0).getD (b.length + k) 0 = 0 := by
      rw [List.getD_eq_getElem?_getD, List.getElem?_append_right (Nat.le_add_right _ _), List.getElem?_replicate]
      split <;> rfl
    have h2 : (b ++ List.replicate (k + 1) (0 : UInt8)).take (b.length + k) = b ++ List.replicate k 0 := by
      rw [List.take_append, List.take_of_length_le (Nat.le_add_right _ _), Nat.add_sub_cancel_left, List.take_replicate, Nat.min_eq_left (Nat.le_succ k)]
    rw [← Nat.add_assoc, deleteZeroLoop, if_pos h1, h2, ih]

theorem deleteZero_pad (b : Bytes) (k : ℕ) (h : b.getLast? ≠ some 0) : deleteZero (b ++ List.replicate k 0) = b := by
  unfold deleteZero
  rw [List.length_append, List.length_replicate]
  exact deleteZeroLoop_zeros k b h

theorem split_zeros (src : Bytes) : ∃ b k, src = b ++ List.replicate k 0 ∧ b.getLast? ≠ some 0 := by
  induction src using List.reverseRecOn with
  | nil => exact ⟨[], 0, rfl, by decide⟩
  | append_singleton l x ih =>
    by_cases hx : x = 0
    · obtain ⟨b, k, rfl, hb⟩ := ih
      exact ⟨b, k + 1, by rw [hx, List.replicate_succ', List.append_assoc], hb⟩
    · exact ⟨l ++ [x], 0, by rw [List.replicate_zero, List.append_nil], by rw [List.getLast?_append, List.getLast?_singleton]; exact fun h => hx (Option.some.inj h)⟩

/-- `DeleteZero` removes zeros at the end and all of them. -/
theorem C107_removes (src : Bytes) : (∃ k, src = deleteZero src ++ List.replicate k 0) ∧ (deleteZero src).getLast? ≠ some 0 := by
  obtain ⟨b, k, rfl, hb⟩ := split_zeros src
  rw [deleteZero_pad b k hb]
  exact ⟨⟨k, rfl⟩, hb⟩

/-- Zero padding is undone by `DeleteZero` exactly if the bytes do not end with a zero themselves. -/
theorem C107_refuted_partial (b : Bytes) (k : ℕ) : deleteZero (b ++ List.replicate k 0) = b ↔ b.getLast? ≠ some 0 :=
  ⟨fun h => h ▸ (C107_removes _).2, deleteZero_pad b k⟩

/-- With the length, padding is always undone; a length beyond the end panics. -/
theorem C107_withLen (b pad : Bytes) (n : ℕ) : deleteZeroWithLen (b ++ pad) b.length = .ok b ∧ (deleteZeroWithLen b n = .error .panic ↔ b.length < n) := by
  constructor
  · unfold deleteZeroWithLen
    rw [if_pos (by rw [List.length_append]; omega), List.take_left]
  · unfold deleteZeroWithLen
    split
    · rename_i h
      exact ⟨fun h2 => (by cases h2), fun h2 => (by omega)⟩
    · rename_i h
      exact ⟨fun _ => by omega, fun _ => rfl⟩

/-- The bytes 7, 0 lose their zero; 0, 7 do not. -/
example : deleteZero [7, 0, 0, 0] = [7] ∧ deleteZero [0, 7, 0] = [0, 7] ∧ deleteZero [0, 0] = [] ∧ deleteZeroWithLen [7, 0, 0, 0] 2 = .ok [7, 0] := by decide

/-! ## C108 -/

theorem fold_add_row {K : Type} [Field K] (s : K) (v : List K) : ∀ (m : ℕ) (r : List K), m ≤ r.length →
    ((List.range m).foldl (fun r i => r.set i (at0 r i + s * at0 v i)) r).length = r.length ∧
      ∀ i, at0 ((List.range m).foldl (fun r i => r.set i (at0 r i + s * at0 v i)) r) i = if i < m then at0 r i + s * at0 v i else at0 r i
  | 0, r, _ => ⟨rfl, fun i => by simp⟩
  | m + 1, r, h => by
    obtain ⟨h1, h2⟩ := fold_add_row s v m r (by omega)
    rw [List.range_succ, List.foldl_append, List.foldl_cons, List.foldl_nil]
    refine ⟨by rw [List.length_set, h1], fun i => ?_⟩
    have hm : m < ((List.range m).foldl (fun r i => r.set i (at0 r i + s * at0 v i)) r).length := by rw [h1]; omega
    by_cases him : i = m
    · subst him
      rw [at0, List.getD_eq_getElem?_getD, List.getElem?_set_self hm, Option.getD_some, h2, if_neg (by omega), if_pos (by omega)]
    · rw [at0, List.getD_eq_getElem?_getD, List.getElem?_set_ne (fun h => him h.symm), ← List.getD_eq_getElem?_getD]
      have := h2 i
      rw [at0] at this
      rw [this]
      by_cases h3 : i < m
      · rw [if_pos h3, if_pos (by omega)]
      · rw [if_neg h3, if_neg (by omega)]

theorem polyLinComb_loop {K : Type} [Field K] (vectors : List (List K)) (scalars : List K) (d m : ℕ) (hm : m ≤ vectors.length) :
    ((List.range m).foldlM (fun r j =>
      if (vectors.getD j []).length ≠ d then none
      else some ((List.range (vectors.getD j []).length).foldl (fun r i => r.set i (at0 r i + at0 scalars j * at0 (vectors.getD j []) i)) r)) (List.replicate d (0 : K)) = none ∧
        ∃ j < m, (vectors.getD j []).length ≠ d) ∨
    ∃ r, (List.range m).foldlM (fun r j =>
      if (vectors.getD j []).length ≠ d then none
      else some ((List.range (vectors.getD j []).length).foldl (fun r i => r.set i (at0 r i + at0 scalars j * at0 (vectors.getD j []) i)) r)) (List.replicate d (0 : K)) = some r ∧
        (∀ j < m, (vectors.getD j []).length = d) ∧ r.length = d ∧ ∀ i < d, at0 r i = ((List.range m).map fun j => at0 scalars j * at0 (vectors.getD j []) i).sum := by
  induction m with
  | zero =>
    refine .inr ⟨List.replicate d 0, rfl, fun j hj => absurd hj (Nat.not_lt_zero j), by simp, fun i hi => ?_⟩
    simp [at0, hi]
  | succ m ih =>
    rw [List.range_succ, List.foldlM_append]
    rcases ih (by omega) with ⟨h, j, hj, hd⟩ | ⟨r, h, hall, hl, hv⟩
    · exact .inl ⟨by rw [h]; rfl, j, by omega, hd⟩
    · rw [h]
      by_cases hlen : (vectors.getD m []).length = d
      · have hf := fold_add_row (at0 scalars m) (vectors.getD m []) (vectors.getD m []).length r (by rw [hlen, hl])
        refine .inr ⟨_, ?_, fun j hj => ?_, hf.1.trans hl, fun i hi => ?_⟩
        · rw [Option.bind_eq_bind, Option.bind_some, List.foldlM_cons, if_neg (not_not.2 hlen)]
          rfl
        · rcases Nat.lt_succ_iff_lt_or_eq.1 hj with h | rfl
          · exact hall j h
          · exact hlen
        · rw [hf.2 i, if_pos (by rw [hlen]; exact hi), hv i hi, List.map_append, List.sum_append, List.map_singleton, List.sum_singleton]
      · refine .inl ⟨?_, m, by omega, hlen⟩
        rw [Option.bind_eq_bind, Option.bind_some, List.foldlM_cons, if_pos hlen]
        rfl

/-- **C108.** `PolyLinComb` reports an error exactly if there is a vector and the number of scalars or a length is wrong; otherwise coefficient `i` of the result is the sum of scalar times coefficient. -/
theorem C108 (vectors : List (List Fr)) (scalars : List Fr) (d : ℕ) :
    (polyLinComb vectors scalars d = none ↔ vectors ≠ [] ∧ (scalars.length ≠ vectors.length ∨ ∃ v ∈ vectors, v.length ≠ d)) ∧
    ∀ r, polyLinComb vectors scalars d = some r → r.length = d ∧ ∀ i < d, r.getD i 0 = ((List.range vectors.length).map fun j => scalars.getD j 0 * (vectors.getD j []).getD i 0).sum := by
  unfold polyLinComb
  by_cases h0 : vectors.length = 0
  · rw [if_pos h0]
    have hn := List.eq_nil_of_length_eq_zero h0
    subst hn
    refine ⟨⟨fun h => (by cases h), fun h => absurd rfl h.1⟩, fun r hr => ?_⟩
    cases hr
    refine ⟨List.length_replicate, fun i hi => ?_⟩
    simp [hi]
  · rw [if_neg h0]
    have hne : vectors ≠ [] := fun h => h0 (by rw [h]; rfl)
    by_cases hs : scalars.length ≠ vectors.length
    · rw [if_pos hs]
      exact ⟨⟨fun _ => ⟨hne, .inl hs⟩, fun _ => rfl⟩, fun r hr => by cases hr⟩
    · rw [if_neg hs]
      have key := polyLinComb_loop vectors scalars d vectors.length (le_refl _)
      rcases key with ⟨h, j, hj, hd⟩ | ⟨r, h, hall, hl, hv⟩
      · refine ⟨⟨fun _ => ⟨hne, .inr ⟨vectors.getD j [], ?_, hd⟩⟩, fun _ => h⟩, fun r hr => ?_⟩
        · rw [List.getD_eq_getElem _ _ hj]; exact List.getElem_mem hj
        · rw [show (List.range vectors.length).foldlM _ _ = _ from h] at hr; cases hr
      · refine ⟨⟨fun h2 => ?_, fun h2 => ?_⟩, fun r' hr => ?_⟩
        · rw [show (List.range vectors.length).foldlM _ _ = _ from h] at h2; cases h2
        · rcases h2.2 with h3 | ⟨v, hv', hd⟩
          · exact absurd h3 hs
          · obtain ⟨j, hj, rfl⟩ := List.getElem_of_mem hv'
            have := hall j hj
            rw [List.getD_eq_getElem _ _ hj] at this
            exact absurd this hd
        · rw [show (List.range vectors.length).foldlM _ _ = _ from h] at hr
          cases hr
          exact ⟨hl, hv⟩

/-- 2·(1, 2) + 3·(10, 20), a short vector, a missing scalar, and no vector at all. -/
example : polyLinComb [[1, 2], [10, 20]] [2, 3] 2 = some [(32 : Fr), 64] ∧ polyLinComb [[1, 2], [10]] [2, 3] 2 = (none : Option (List Fr)) ∧
    polyLinComb [[1, 2], [10, 20]] [2] 2 = (none : Option (List Fr)) ∧ polyLinComb [] [2] 2 = some [(0 : Fr), 0] := by decide +kernel

/-! ## C109 -/

/-- **C109.** `PadCoeff` keeps the polynomial and gives it the wanted number of coefficients; it ends the program exactly if there are too many. -/
theorem C109 (poly : List Fr) (w : ℕ) : (padCoeff poly w = .error .fatal ↔ w < poly.length) ∧
    (poly.length ≤ w → padCoeff poly w = .ok (poly ++ List.replicate (w - poly.length) 0)) ∧
    ∀ r, padCoeff poly w = .ok r → r.length = w ∧ ∀ x : Fr, ((List.range r.length).map fun i => r.getD i 0 * x ^ i).sum = ((List.range poly.length).map fun i => poly.getD i 0 * x ^ i).sum := by
  have hp : poly.length ≤ w → padCoeff poly w = .ok (poly ++ List.replicate (w - poly.length) 0) := by
    intro h
    unfold padCoeff
    rw [if_neg (by omega)]
    congr 1
    apply List.ext_getElem
    · simp; omega
    · intro i h1 h2
      rw [List.getElem_map, List.getElem_range, List.getElem_append]
      split
      · rename_i h3; rw [at0, List.getD_eq_getElem _ _ h3]
      · rw [List.getElem_replicate]
  refine ⟨?_, hp, fun r hr => ?_⟩
  · constructor
    · intro h
      by_contra h2
      rw [hp (by omega)] at h
      cases h
    · intro h
      unfold padCoeff
      rw [if_pos h]
  · by_cases h : poly.length ≤ w
    · rw [hp h] at hr
      cases hr
      obtain ⟨k, rfl⟩ := Nat.exists_eq_add_of_le h
      refine ⟨by simp, fun x => ?_⟩
      rw [List.length_append, List.length_replicate, Nat.add_sub_cancel_left, List.range_add, List.map_append, List.sum_append]
      have h1 : (List.range poly.length).map (fun i => (poly ++ List.replicate k (0 : Fr)).getD i 0 * x ^ i) = (List.range poly.length).map fun i => poly.getD i 0 * x ^ i := by
        refine List.map_congr_left fun i hi => ?_
        rw [List.getD_append _ _ _ _ (List.mem_range.1 hi)]
      have h2 : (((List.range k).map fun i => poly.length + i).map fun i => (poly ++ List.replicate k (0 : Fr)).getD i 0 * x ^ i).sum = 0 := by
        apply List.sum_eq_zero
        intro v hv
        rw [List.map_map, List.mem_map] at hv
        obtain ⟨i, hi, rfl⟩ := hv
        rw [Function.comp_apply, List.getD_append_right _ _ _ _ (Nat.le_add_right _ _), Nat.add_sub_cancel_left, List.getD_eq_getElem?_getD, List.getElem?_replicate,
          if_pos (List.mem_range.1 hi), Option.getD_some, zero_mul]
      rw [h1, h2, add_zero]
    · unfold padCoeff at hr
      rw [if_pos (by omega)] at hr
      cases hr

/-- Three coefficients in a slice of five; three in a slice of two. -/
example : padCoeff [(1 : Fr), 2, 3] 5 = .ok [1, 2, 3, 0, 0] ∧ padCoeff [(1 : Fr), 2, 3] 2 = .error .fatal := by decide +kernel

end DyCAPS
