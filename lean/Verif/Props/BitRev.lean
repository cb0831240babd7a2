import Verif.Lemmas.BitRev

/-! # Bit-reversal order (C44, C66) -/

namespace DyCAPS

/-- `reverseBitsLimited(2^k, ·)` reverses the lowest `k` bits; it maps into `[0, 2^k)` and is its own inverse there. -/
theorem C44_reverseBitsLimited {k : ℕ} (hk : k < 32) (v : ℕ) : reverseBitsLimited (2 ^ k) v < 2 ^ k ∧
    (∀ i < k, (reverseBitsLimited (2 ^ k) v).testBit i = v.testBit (k - 1 - i)) ∧
    (v < 2 ^ k → reverseBitsLimited (2 ^ k) (reverseBitsLimited (2 ^ k) v) = v) := by
  have hb : bitIndex (2 ^ k) = k := by
    rw [bitIndex_eq (by positivity) (Nat.pow_lt_pow_right (by norm_num) hk), Nat.log_pow (by norm_num)]
  unfold reverseBitsLimited
  rw [hb]
  exact ⟨reverseBits_shift_lt (by omega) v, fun i hi => by rw [reverseBits_shift (by omega)]; simp [hi], fun hv => reverseBits_shift_shift (by omega) hv⟩

example : reverseBitsLimited 8 3 = 6 ∧ reverseBitsLimited (2 ^ 31) 5 = 2 ^ 30 + 2 ^ 28 := by decide +kernel

section
variable {α : Type}

theorem reverseBitOrderList_eq (v : List α) (h0 : 0 < v.length) (hlen : v.length ≤ 2 ^ 31) : ∃ out, reverseBitOrderList v = .ok out ∧ out.length = v.length ∧
    ∀ j, out[j]? = if j < 2 ^ Nat.log 2 v.length then v[reverseBits j >>> (32 - Nat.log 2 v.length)]? else v[j]? := by
  have hk : Nat.log 2 v.length ≤ 31 := by
    calc Nat.log 2 v.length ≤ Nat.log 2 (2 ^ 31) := Nat.log_mono_right hlen
      _ = 31 := Nat.log_pow (by norm_num) 31
  have hb : bitIndex v.length = Nat.log 2 v.length := bitIndex_eq h0 (lt_of_le_of_lt hlen (by norm_num))
  have hle : 2 ^ Nat.log 2 v.length ≤ v.length := Nat.pow_log_le_self 2 h0.ne'
  obtain ⟨out, h1, h2, h3⟩ := swap_fold (fun i => reverseBits i >>> (32 - Nat.log 2 v.length)) (2 ^ Nat.log 2 v.length) (fun i => reverseBits_shift_lt (by omega) i)
    (fun i hi => reverseBits_shift_shift (by omega) hi) v hle v.length le_rfl
  refine ⟨out, ?_, h2, fun j => ?_⟩
  · rw [reverseBitOrderList, if_neg (by omega), reverseBitOrder, if_neg (by simp [h0]), hb]
    exact h1
  · rw [h3]
    refine if_congr ⟨fun h => h.1, fun h => ⟨h, ?_⟩⟩ rfl rfl
    omega

/-- On `2^k` elements (`k ≤ 31`) the element at index `i` moves to the index whose `k` bits are those of `i` in reverse order. -/
theorem C44_reverseBitOrder {k : ℕ} (hk : k ≤ 31) (v : List α) (hl : v.length = 2 ^ k) : ∃ out, reverseBitOrderList v = .ok out ∧ out.length = 2 ^ k ∧
    (∀ i j, i < 2 ^ k → j < 2 ^ k → (∀ b < k, j.testBit b = i.testBit (k - 1 - b)) → out[j]? = v[i]?) ∧ reverseBitOrderList out = .ok v := by
  have hle : v.length ≤ 2 ^ 31 := by rw [hl]; exact Nat.pow_le_pow_right (by norm_num) hk
  have hpos : 0 < v.length := by rw [hl]; positivity
  obtain ⟨out, h1, h2, h3⟩ := reverseBitOrderList_eq v hpos hle
  have hlog : Nat.log 2 v.length = k := by rw [hl, Nat.log_pow (by norm_num)]
  rw [hlog] at h3
  refine ⟨out, h1, h2.trans hl, ?_, ?_⟩
  · intro i j hi hj hb
    rw [h3, if_pos hj]
    congr 1
    refine Nat.eq_of_testBit_eq fun b => ?_
    rw [reverseBits_shift (by omega)]
    by_cases h : b < k
    · rw [hb _ (by omega), show k - 1 - (k - 1 - b) = b by omega]
      simp [h]
    · rw [Nat.testBit_lt_two_pow (lt_of_lt_of_le hi (Nat.pow_le_pow_right (by norm_num) (by omega)))]
      simp [h]
  · obtain ⟨out', h1', h2', h3'⟩ := reverseBitOrderList_eq out (by omega) (by omega)
    rw [h2, hlog] at h3'
    rw [h1']
    congr 1
    refine List.ext_getElem? fun j => ?_
    rw [h3']
    split
    · rename_i hj
      rw [h3, if_pos (reverseBits_shift_lt (by omega) j), reverseBits_shift_shift (by omega) hj]
    · rename_i hj
      rw [h3, if_neg hj]

example : reverseBitOrderList [10, 11, 12, 13, 14, 15, 16, 17] = .ok [10, 14, 12, 16, 11, 15, 13, 17] := by decide +kernel

/-- The guard "length is not a power of 2" never fires: every list of at most 2^31 elements is accepted. -/
theorem C66_guard_never_fires (v : List α) (hlen : v.length ≤ 2 ^ 31) : ∃ out, reverseBitOrderList v = .ok out ∧ out.length = v.length := by
  rcases Nat.eq_zero_or_pos v.length with h | h
  · rw [List.length_eq_zero_iff] at h
    subst h
    exact ⟨[], by simp [reverseBitOrderList, reverseBitOrder], rfl⟩
  · obtain ⟨out, h1, h2, -⟩ := reverseBitOrderList_eq v h hlen
    exact ⟨out, h1, h2⟩

/-- Three elements are accepted and returned unchanged, although 3 is not a power of two. -/
theorem C66_three : reverseBitOrderList [10, 11, 12] = .ok [10, 11, 12] ∧ ∀ k, 3 ≠ 2 ^ k := by
  refine ⟨by decide +kernel, fun k h => ?_⟩
  rcases k with _ | _ | k
  · omega
  · omega
  · rw [pow_succ, pow_succ] at h; omega

/-- What happens for other lengths: the largest power-of-two prefix is reordered and the rest stays in place. Lists longer than 2^31 are rejected. -/
theorem C66_other_lengths_partial (v : List α) : (v.length > 2 ^ 31 → reverseBitOrderList v = .error .panic) ∧
    ∀ k ≤ 31, 2 ^ k ≤ v.length → v.length < 2 ^ (k + 1) → v.length ≤ 2 ^ 31 →
      ∃ pre, reverseBitOrderList (v.take (2 ^ k)) = .ok pre ∧ reverseBitOrderList v = .ok (pre ++ v.drop (2 ^ k)) := by
  refine ⟨fun h => by rw [reverseBitOrderList, if_pos h], fun k hk hlo hhi hlen => ?_⟩
  have hpow : 0 < 2 ^ k := by positivity
  have htl : (v.take (2 ^ k)).length = 2 ^ k := by rw [List.length_take]; omega
  obtain ⟨out, h1, h2, h3⟩ := reverseBitOrderList_eq v (by omega) hlen
  obtain ⟨pre, p1, p2, p3⟩ := reverseBitOrderList_eq (v.take (2 ^ k)) (by omega) (by omega)
  have hlog : Nat.log 2 v.length = k := Nat.log_eq_of_pow_le_of_lt_pow hlo hhi
  have hlog' : Nat.log 2 (v.take (2 ^ k)).length = k := by rw [htl, Nat.log_pow (by norm_num)]
  rw [hlog] at h3
  rw [hlog'] at p3
  refine ⟨pre, p1, h1.trans ?_⟩
  congr 1
  refine List.ext_getElem? fun j => ?_
  rw [h3, List.getElem?_append, p2, htl]
  split
  · rw [p3]
    rename_i hj
    rw [if_pos hj, List.getElem?_take_of_lt (reverseBits_shift_lt (by omega) j)]
  · rename_i hj
    rw [List.getElem?_drop]
    congr 1
    omega

end

/-- Of six elements the first four are reordered and the last two stay. -/
example : reverseBitOrderList [10, 11, 12, 13, 14, 15] = .ok [10, 12, 11, 13, 14, 15] ∧ ∃ out : List ℕ, reverseBitOrderList (List.range 1000003) = .ok out ∧ out.length = 1000003 := by
  constructor
  · obtain ⟨pre, h1, h2⟩ := (C66_other_lengths_partial [10, 11, 12, 13, 14, 15]).2 2 (by norm_num) (by decide) (by decide) (by decide)
    rw [h2]
    have : (.ok pre : Go (List ℕ)) = .ok [10, 12, 11, 13] := h1.symm.trans (by decide +kernel)
    cases this
    rfl
  · obtain ⟨out, h1, h2⟩ := C66_guard_never_fires (List.range 1000003) (by rw [List.length_range]; norm_num)
    exact ⟨out, h1, by rw [h2, List.length_range]⟩

end DyCAPS
