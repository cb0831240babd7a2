import Mathlib.Tactic.LinearCombination
import Mathlib.Data.List.GetD
import Verif.Lemmas.Bytes
import Verif.Lemmas.FFT
import Verif.Lemmas.Tbls
import Verif.Model.Setup

/-! Helper lemmas about key files, text forms, address lists and samples. -/

namespace DyCAPS

/-! ## Key files -/

theorem beNat_beBytes32 (x : Fr) : beNat (beBytes32 x.val) = x.val := by
  have h : frTo32 x = (beBytes32 x.val).reverse := swapLoop_31 _ (beBytes32_length _)
  have h2 := leValue_frTo32 x
  rw [h, ← beNat_reverse, List.reverse_reverse] at h2
  exact h2

theorem scalar_roundtrip (x : Fr) : scalarSetBytes (scalarMarshal x) = x := by
  rw [scalarSetBytes, scalarMarshal, beNat_beBytes32]
  exact ZMod.natCast_zmod_val x

theorem mapM_idx_ok {α β : Type} (l : List α) (f : α → β) : ∀ t, t ≤ l.length →
    (List.range t).mapM (fun i => do pure (f (← idx l i)) : ℕ → Go β) = .ok ((l.take t).map f) := by
  intro t
  induction t with
  | zero => intro _; rfl
  | succ t ih =>
    intro ht
    rw [List.range_succ, List.mapM_append, ih (by omega), Go.ok_bind, List.mapM_cons, List.mapM_nil, idx_of_lt (by omega)]
    simp only [Go.ok_bind, Go.pure_eq]
    rw [List.take_succ, List.map_append, List.getElem?_eq_getElem (by omega : t < l.length)]
    rfl

theorem mapM_idx_panic {α β : Type} (l : List α) (f : α → β) (t : ℕ) (h : l.length < t) :
    (List.range t).mapM (fun i => do pure (f (← idx l i)) : ℕ → Go β) = .error .panic := by
  obtain ⟨m, rfl⟩ : ∃ m, t = l.length + 1 + m := ⟨t - (l.length + 1), by omega⟩
  rw [List.range_add, List.mapM_append, List.range_succ, List.mapM_append, mapM_idx_ok l f _ le_rfl, Go.ok_bind, List.mapM_cons, idx_of_ge le_rfl]
  rfl

variable {G2 : Type} [AddCommGroup G2] [Module Fr G2]

theorem sigKeyGenFix_ok (g2 : G2) (n t : ℕ) (coeffs : List Fr) (h : t ≤ coeffs.length) :
    sigKeyGenFix g2 n t (some (coeffs.map scalarMarshal)) = .ok (sigKeyGen g2 n (coeffs.take t)) := by
  rw [sigKeyGenFix]
  have := mapM_idx_ok (coeffs.map scalarMarshal) scalarSetBytes t (by simpa using h)
  simp only [this, Go.ok_bind]
  rw [← List.map_take, List.map_map]
  have e : scalarSetBytes ∘ scalarMarshal = id := funext scalar_roundtrip
  rw [e, List.map_id]
  rfl

theorem sigKeyGenFix_panic (g2 : G2) (n t : ℕ) (coeffs : List Fr) (h : coeffs.length < t) :
    sigKeyGenFix g2 n t (some (coeffs.map scalarMarshal)) = .error .panic := by
  rw [sigKeyGenFix]
  have := mapM_idx_panic (coeffs.map scalarMarshal) scalarSetBytes t (by simpa using h)
  simp only [this, Go.error_bind]

/-! ## Hexadecimal -/

theorem hexVal_hexDigit (n : ℕ) (h : n < 16) : hexVal (hexDigit n) = some n := by
  have : ∀ m : Fin 16, hexVal (hexDigit m) = some m.val := by decide +kernel
  exact this ⟨n, h⟩

theorem hexVal_lt {c : UInt8} {n : ℕ} (h : hexVal c = some n) : n < 16 := by
  rw [hexVal] at h
  split at h
  · cases h; omega
  split at h
  · cases h; omega
  split at h
  · cases h; omega
  · cases h

theorem hexDecode_encode : ∀ b : Bytes, hexDecode (hexEncode b) = some b
  | [] => rfl
  | x :: b => by
    have hx := x.toNat_lt
    show hexDecode (hexDigit (x.toNat / 16) :: hexDigit (x.toNat % 16) :: hexEncode b) = _
    rw [hexDecode, hexVal_hexDigit _ (by omega), hexVal_hexDigit _ (by omega), hexDecode_encode b]
    simp only [Option.bind_eq_bind, Option.bind_some]
    have : UInt8.ofNat (16 * (x.toNat / 16) + x.toNat % 16) = x := by
      apply UInt8.toNat_inj.1
      rw [UInt8.toNat_ofNat']
      omega
    rw [this]
    rfl

/-! ## Lines -/

theorem splitLines_append (l : Bytes) (hl : (10 : UInt8) ∉ l) : ∀ (cur rest : Bytes), splitLines cur (l ++ 10 :: rest) = (cur ++ l) :: splitLines [] rest := by
  induction l with
  | nil => intro cur rest; simp [splitLines]
  | cons b l ih =>
    intro cur rest
    have hb : b ≠ 10 := fun e => hl (by simp [e])
    rw [List.cons_append, splitLines, if_neg hb, ih (fun h => hl (by simp [h]))]
    simp

theorem splitLines_last (l : Bytes) (hl : (10 : UInt8) ∉ l) : ∀ cur, splitLines cur l = [cur ++ l] := by
  induction l with
  | nil => intro cur; simp [splitLines]
  | cons b l ih =>
    intro cur
    have hb : b ≠ 10 := fun e => hl (by simp [e])
    rw [splitLines, if_neg hb, ih (fun h => hl (by simp [h]))]
    simp

/-! ## Samples -/

theorem putSample_fold {α : Type} : ∀ (l : List (ℤ × α)) (ans : List (Option α)), (∀ iv ∈ l, 0 ≤ iv.1 ∧ iv.1 < ans.length) →
    ∃ out, l.foldlM putSample ans = .ok out ∧ out.length = ans.length ∧
      ∀ j < ans.length, out.getD j none = match (l.filter fun iv => iv.1 = (j : ℤ)).getLast? with
        | some iv => some iv.2
        | none => ans.getD j none
  | [], ans, _ => ⟨ans, rfl, rfl, fun j _ => rfl⟩
  | iv :: l, ans, h => by
    obtain ⟨h0, h1⟩ := h iv (by simp)
    obtain ⟨out, e, hl, hg⟩ := putSample_fold l (ans.set iv.1.toNat (some iv.2)) (fun q hq => by rw [List.length_set]; exact h q (by simp [hq]))
    rw [List.length_set] at hl hg
    refine ⟨out, ?_, hl, ?_⟩
    · rw [List.foldlM_cons, putSample, if_pos ⟨h0, h1⟩, Go.ok_bind, e]
    · intro j hj
      rw [hg j hj]
      by_cases hij : iv.1 = (j : ℤ)
      · rw [List.filter_cons_of_pos (by simpa using hij)]
        have hj' : iv.1.toNat = j := by omega
        cases hf : l.filter (fun iv => iv.1 = (j : ℤ)) with
        | nil =>
          simp only [List.getLast?_nil, List.getLast?_singleton]
          rw [List.getD_eq_getElem?_getD, hj', List.getElem?_set_self hj]
          rfl
        | cons a t => rw [List.getLast?_cons_cons, List.getLast?_cons]
      · rw [List.filter_cons_of_neg (by simpa using hij)]
        cases (l.filter fun iv => iv.1 = (j : ℤ)).getLast? with
        | some q => rfl
        | none =>
          simp only
          rw [List.getD_eq_getElem?_getD, List.getElem?_set_ne (by omega), ← List.getD_eq_getElem?_getD]

theorem putSample_panic {α : Type} : ∀ (l : List (ℤ × α)) (ans : List (Option α)), (∃ iv ∈ l, iv.1 < 0 ∨ (ans.length : ℤ) ≤ iv.1) → l.foldlM putSample ans = .error .panic
  | [], _, h => by simp at h
  | iv :: l, ans, h => by
    rw [List.foldlM_cons, putSample]
    by_cases hin : 0 ≤ iv.1 ∧ iv.1 < ans.length
    · rw [if_pos hin, Go.ok_bind]
      apply putSample_panic l
      obtain ⟨q, hq, hq'⟩ := h
      rcases List.mem_cons.1 hq with rfl | hq
      · omega
      · exact ⟨q, hq, by rw [List.length_set]; exact hq'⟩
    · rw [if_neg hin]; rfl

/-! ## Commitments to evaluations -/

open Finset

variable {K G : Type} [Field K] [AddCommGroup G] [Module K G]

/-- The transform can be moved from the points to the scalars. -/
theorem sum_dft_swap (u : K) (n : ℕ) (e : ℕ → K) (v : ℕ → G) : ∑ i ∈ range n, e i • dft u n v i = ∑ j ∈ range n, dft u n e j • v j := by
  simp only [dft, Finset.smul_sum, Finset.sum_smul]
  rw [Finset.sum_comm]
  refine Finset.sum_congr rfl fun j _ => Finset.sum_congr rfl fun i _ => ?_
  rw [smul_smul, smul_eq_mul, mul_comm i j, mul_comm]

end DyCAPS
