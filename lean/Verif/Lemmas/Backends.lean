import Mathlib.Data.List.GetD
import Verif.Lemmas.Bytes
import Verif.Model.Backends

/-! Helper lemmas about the other field back ends. -/

namespace DyCAPS

theorem swapChecked_succ (n : ℕ) (b : Bytes) : swapChecked (n + 1) b =
    swapChecked n b >>= fun b => if n < b.length then .ok ((b.set n (b.getD (b.length - 1 - n) 0)).set (b.length - 1 - n) (b.getD n 0)) else .error .panic := by
  unfold swapChecked
  rw [List.range_succ, List.foldlM_append]
  congr 1
  funext b
  simp only [List.foldlM_cons, List.foldlM_nil]
  exact bind_pure _

/-- After `n` rounds a position is exchanged with its mirror image if exactly one of the two has been visited. -/
theorem swapChecked_spec (b : Bytes) (n : ℕ) (hn : n ≤ b.length) : ∃ c, swapChecked n b = .ok c ∧ c.length = b.length ∧
    ∀ k < b.length, c.getD k 0 = if (k < n ↔ b.length - 1 - k < n) then b.getD k 0 else b.getD (b.length - 1 - k) 0 := by
  induction n with
  | zero => exact ⟨b, rfl, rfl, fun k _ => by rw [if_pos (by simp)]⟩
  | succ n ih =>
    obtain ⟨c, h1, h2, h3⟩ := ih (by omega)
    refine ⟨(c.set n (c.getD (c.length - 1 - n) 0)).set (c.length - 1 - n) (c.getD n 0), ?_, by simp [h2], ?_⟩
    · rw [swapChecked_succ, h1]
      show (if n < c.length then _ else _) = _
      rw [if_pos (by omega)]
    · intro k hk
      rw [getD_set_byte, getD_set_byte]
      simp only [List.length_set, h2]
      rw [h3 n (by omega), h3 (b.length - 1 - n) (by omega), h3 k hk]
      have e0 : b.length - 1 - (b.length - 1 - n) = n := by omega
      rw [e0]
      by_cases e1 : b.length - 1 - n = k
      · rw [if_pos (by omega)]
        subst e1
        rw [e0]
        by_cases e2 : b.length - 1 - n < n + 1
        · rw [if_pos (show (b.length - 1 - n < n + 1 ↔ n < n + 1) by omega)]
          by_cases e3 : b.length - 1 - n = n
          · rw [e3]; simp
          · rw [if_neg (by omega)]
        · rw [if_neg (show ¬ (b.length - 1 - n < n + 1 ↔ n < n + 1) by omega), if_pos (by omega)]
      · rw [if_neg (by omega)]
        by_cases e2 : n = k
        · subst e2
          rw [if_pos (by omega)]
          by_cases e3 : b.length - 1 - n < n
          · rw [if_neg (by omega), if_pos (by omega)]
          · rw [if_pos (by omega), if_neg (by omega)]
        · rw [if_neg (by omega)]
          by_cases e3 : (k < n ↔ b.length - 1 - k < n)
          · rw [if_pos e3, if_pos (by omega)]
          · rw [if_neg e3, if_neg (by omega)]

theorem swapChecked_panic (b : Bytes) (n : ℕ) (hn : b.length < n) : swapChecked n b = .error .panic := by
  induction n with
  | zero => omega
  | succ n ih =>
    rw [swapChecked_succ]
    by_cases h : b.length < n
    · rw [ih h]; rfl
    · obtain ⟨c, h1, h2, _⟩ := swapChecked_spec b n (by omega)
      rw [h1]
      show (if n < c.length then _ else _) = _
      rw [if_neg (by omega)]

theorem minBytes_length_le (n k : ℕ) : (minBytes n).length ≤ k ↔ n < 256 ^ k := by
  unfold minBytes
  rw [List.length_reverse, List.length_map]
  exact Nat.digits_length_le_iff (by norm_num) n

theorem minBytes_length_lt (n k : ℕ) : k < (minBytes n).length ↔ 256 ^ k ≤ n := by
  rw [← not_iff_not, not_lt, not_le]; exact minBytes_length_le n k

/-- Byte `k` from the right has weight `256^k`. -/
theorem minBytes_getD (n k : ℕ) (h : k < (minBytes n).length) : (minBytes n).getD ((minBytes n).length - 1 - k) 0 = UInt8.ofNat (n / 256 ^ k) := by
  have hl : (minBytes n).length = (Nat.digits 256 n).length := by simp [minBytes]
  have hd : (Nat.digits 256 n).getD k 0 = n / 256 ^ k % 256 := Nat.getD_digits n k (by norm_num)
  rw [hl] at h ⊢
  rw [List.getD_eq_getElem _ _ (by rw [hl]; omega)]
  unfold minBytes
  rw [List.getElem_reverse, List.getElem_map]
  rw [List.getD_eq_getElem _ _ h] at hd
  have : (Nat.digits 256 n)[List.length (List.map UInt8.ofNat (Nat.digits 256 n)) - 1 - ((Nat.digits 256 n).length - 1 - k)]'(by simp; omega) = (Nat.digits 256 n)[k] := by
    congr 1; rw [List.length_map]; omega
  rw [this, hd]
  apply UInt8.toNat_inj.1
  simp

theorem frTo32_getD (x : Fr) (k : ℕ) (hk : k < 32) : (frTo32 x).getD k 0 = UInt8.ofNat (x.val / 256 ^ k) := by
  rw [List.getD_eq_getElem _ _ (by rw [frTo32_length]; exact hk)]
  have e : frTo32 x = (beBytes32 x.val).reverse := swapLoop_31 _ (by simp [beBytes32])
  have : (frTo32 x)[k]? = some (UInt8.ofNat (x.val / 256 ^ k)) := by
    rw [e, List.getElem?_reverse (by simp [beBytes32]; exact hk)]
    simp only [beBytes32, List.length_map, List.length_range, List.getElem?_map]
    rw [List.getElem?_range (by omega)]
    simp only [Option.map_some]
    rw [show 31 - (32 - 1 - k) = k by omega]
  rw [List.getElem?_eq_getElem (by rw [frTo32_length]; exact hk)] at this
  exact Option.some.inj this

theorem copyTo32_length (b : Bytes) : (copyTo32 b).length = 32 := by simp [copyTo32]

theorem copyTo32_getD (b : Bytes) (h : b.length ≤ 32) (k : ℕ) : (copyTo32 b).getD k 0 = b.getD k 0 := by
  unfold copyTo32
  rw [List.getD_eq_getElem?_getD, List.getD_eq_getElem?_getD]
  by_cases h1 : k < b.length
  · rw [List.getElem?_take_of_lt (by omega), List.getElem?_append_left h1]
  · rw [List.getElem?_eq_none (l := b) (by omega)]
    by_cases h2 : k < 32
    · rw [List.getElem?_take_of_lt h2, List.getElem?_append_right (by omega), List.getElem?_replicate]
      split <;> rfl
    · rw [List.getElem?_eq_none (by simp; omega)]

theorem ext32 {a b : Bytes} (ha : a.length = 32) (hb : b.length = 32) : a = b ↔ ∀ k < 32, a.getD k 0 = b.getD k 0 := by
  refine ⟨fun h k _ => by rw [h], fun h => List.ext_getElem (by omega) fun k h1 h2 => ?_⟩
  have := h k (by omega)
  rwa [List.getD_eq_getElem _ _ h1, List.getD_eq_getElem _ _ h2] at this

end DyCAPS
