import Mathlib.Algebra.Polynomial.BigOperators
import Mathlib.Algebra.Polynomial.Eval.Degree
import Verif.Lemmas.FFTUse
import Verif.Model.Recover

/-! Lemmas about the zero polynomial. -/

namespace DyCAPS

open Finset Polynomial

/-! ## Transforms of polynomials -/

section
variable {K : Type} [Field K]

theorem dft_coeff (ω : K) {n : ℕ} (P : K[X]) (hP : P.degree < n) (i : ℕ) : dft ω n P.coeff i = P.eval (ω ^ i) := by
  rcases Nat.eq_zero_or_pos n with rfl | hn
  · have : P = 0 := by simpa using hP
    subst this
    simp [dft]
  · have hP' : P.natDegree < n := by
      by_cases h0 : P = 0
      · subst h0; simpa using hn
      · exact (natDegree_lt_iff_degree_lt h0).2 hP
    rw [eval_eq_sum_range' hP', dft]
    refine sum_congr rfl fun j _ => ?_
    rw [smul_eq_mul, pow_mul, mul_comm]

variable [DecidableEq K]

theorem ftOf_eval {ω : K} {k : ℕ} (hω : IsPrimitiveRoot ω (2 ^ k)) (P : K[X]) (hP : P.degree < (2 ^ k : ℕ)) (m : ℕ) (hm : m < 2 ^ k) :
    ftOf ω k true (fun i => P.eval (ω ^ i)) m = P.coeff m := by
  have e : (fun i => P.eval (ω ^ i)) = ftOf ω k false P.coeff := by
    funext i
    rw [← dft_coeff ω P hP i]
    simp [ftOf]
  rw [e]
  exact ftOf_inv hω false P.coeff m hm

theorem fft_pow {fs : FFTSettings K} {s : ℕ} {w : K} (h : fs.Ok s w) {k : ℕ} (hk : k ≤ s) (vals : List K) (hl : vals.length = 2 ^ k) (inv : Bool) :
    fft fs vals inv = inplaceFFT fs vals inv := by
  have hle : 2 ^ k ≤ 2 ^ s := Nat.pow_le_pow_right (by norm_num) hk
  obtain ⟨k', h1, h2, h3⟩ := nextPowOf2_spec vals.length
  have : k' = k := le_antisymm (h3 k hl.le) ((Nat.pow_le_pow_iff_right (by norm_num)).1 (hl ▸ h2))
  subst this
  rw [fft, if_neg (by rw [h.width]; omega), h1, hl, Nat.sub_self, List.replicate_zero, List.append_nil]

theorem inplace_eval {fs : FFTSettings K} {s : ℕ} {w : K} (h : fs.Ok s w) {k : ℕ} (hk : k ≤ s) (P : K[X]) (hP : P.degree < (2 ^ k : ℕ)) (c : List K) (hl : c.length = 2 ^ k)
    (hc : ∀ j < 2 ^ k, c.getD j 0 = P.coeff j) : inplaceFFT fs c false = .ok (some ((List.range (2 ^ k)).map fun i => P.eval ((w ^ 2 ^ (s - k)) ^ i))) := by
  rw [inplaceFFT_eq, fftG1_ok h hk c hl]
  congr 3
  funext i
  rw [ftOf_congr (v' := P.coeff) hc, ← dft_coeff _ P hP]
  simp [ftOf]

theorem inplace_coeff {fs : FFTSettings K} {s : ℕ} {w : K} (h : fs.Ok s w) {k : ℕ} (hk : k ≤ s) (P : K[X]) (hP : P.degree < (2 ^ k : ℕ)) (v : List K) (hl : v.length = 2 ^ k)
    (hv : ∀ j < 2 ^ k, v.getD j 0 = P.eval ((w ^ 2 ^ (s - k)) ^ j)) : inplaceFFT fs v true = .ok (some ((List.range (2 ^ k)).map P.coeff)) := by
  rw [inplaceFFT_eq, fftG1_ok h hk v hl]
  congr 2
  refine List.map_congr_left fun m hm => ?_
  rw [ftOf_congr hv]
  exact ftOf_eval (h.sub_root hk) P hP m (List.mem_range.1 hm)

end

/-! ## Loops -/

theorem foldlM_range_inv {β : Type} (f : β → ℕ → Go β) (P : ℕ → β → Prop) (E : Prop) (b : β) (h0 : P 0 b) : ∀ m,
    (∀ i < m, ∀ b, P i b → (∃ b', f b i = .ok b' ∧ P (i + 1) b') ∨ (f b i = .error .panic ∧ E)) →
    (∃ b', (List.range m).foldlM f b = .ok b' ∧ P m b') ∨ ((List.range m).foldlM f b = .error .panic ∧ E)
  | 0, _ => Or.inl ⟨b, rfl, h0⟩
  | m + 1, hs => by
    rw [List.range_succ, List.foldlM_append]
    rcases foldlM_range_inv f P E b h0 m fun i hi => hs i (by omega) with ⟨b', h1, h2⟩ | ⟨h1, h2⟩
    · rw [h1, Go.ok_bind, List.foldlM_cons]
      rcases hs m (by omega) b' h2 with ⟨b'', h3, h4⟩ | ⟨h3, h4⟩
      · exact Or.inl ⟨b'', by rw [h3]; rfl, h4⟩
      · exact Or.inr ⟨by rw [h3]; rfl, h4⟩
    · exact Or.inr ⟨by rw [h1]; rfl, h2⟩

section
variable {K : Type} [Field K] [DecidableEq K]

/-! ## A leaf -/

theorem leafInner_length (c : K) : ∀ (n : ℕ) (d : List K), (leafInner c n d).length = d.length
  | 0, _ => rfl
  | n + 1, d => by rw [leafInner, leafInner_length c n]; simp

theorem leafInner_getD (c : K) : ∀ (n : ℕ) (d : List K), n < d.length → ∀ k,
    (leafInner c n d).getD k 0 = if 1 ≤ k ∧ k ≤ n then d.getD k 0 * c + d.getD (k - 1) 0 else d.getD k 0
  | 0, d, _, k => by rw [leafInner, if_neg (by omega)]
  | n + 1, d, h, k => by
    rw [leafInner, leafInner_getD c n _ (by simp; omega)]
    simp only [getD_set]
    by_cases h1 : k = n + 1
    · subst h1
      rw [if_neg (by omega), if_pos ⟨rfl, h⟩, if_pos (by omega)]
      rfl
    · by_cases h2 : 1 ≤ k ∧ k ≤ n
      · rw [if_pos h2, if_neg (by omega), if_neg (by omega), if_pos (by omega)]
      · rw [if_neg h2, if_neg (by omega), if_neg (by omega)]

/-- `Π (X - ρ v)`. -/
noncomputable def vanish (ρ : ℕ → K) (l : List ℕ) : K[X] := (l.map fun v => X - Polynomial.C (ρ v)).prod

omit [DecidableEq K] in
theorem vanish_monic (ρ : ℕ → K) (l : List ℕ) : (vanish ρ l).Monic := by
  induction l with
  | nil => simp [vanish]
  | cons v l ih =>
    have : vanish ρ (v :: l) = (X - Polynomial.C (ρ v)) * vanish ρ l := by simp [vanish]
    rw [this]
    exact (monic_X_sub_C _).mul ih

omit [DecidableEq K] in
theorem vanish_natDegree (ρ : ℕ → K) (l : List ℕ) : (vanish ρ l).natDegree = l.length := by
  induction l with
  | nil => simp [vanish]
  | cons v l ih =>
    have : vanish ρ (v :: l) = (X - Polynomial.C (ρ v)) * vanish ρ l := by simp [vanish]
    rw [this, (monic_X_sub_C _).natDegree_mul (vanish_monic ρ l), natDegree_X_sub_C, ih, List.length_cons, Nat.add_comm]

omit [DecidableEq K] in
theorem vanish_degree_lt (ρ : ℕ → K) (l : List ℕ) {n : ℕ} (h : l.length < n) : (vanish ρ l).degree < n := by
  rw [degree_eq_natDegree (vanish_monic ρ l).ne_zero, vanish_natDegree]
  exact_mod_cast h

omit [DecidableEq K] in
theorem vanish_coeff_gt (ρ : ℕ → K) (l : List ℕ) {k : ℕ} (h : l.length < k) : (vanish ρ l).coeff k = 0 :=
  coeff_eq_zero_of_natDegree_lt (by rwa [vanish_natDegree])

omit [DecidableEq K] in
theorem vanish_append (ρ : ℕ → K) (l l' : List ℕ) : vanish ρ (l ++ l') = vanish ρ l * vanish ρ l' := by simp [vanish]

omit [DecidableEq K] in
theorem vanish_eval (ρ : ℕ → K) (l : List ℕ) (x : K) : (vanish ρ l).eval x = 0 ↔ ∃ v ∈ l, x = ρ v := by
  induction l with
  | nil => simp [vanish]
  | cons v l ih =>
    have : vanish ρ (v :: l) = (X - Polynomial.C (ρ v)) * vanish ρ l := by simp [vanish]
    rw [this, eval_mul, mul_eq_zero, ih]
    simp [sub_eq_zero]

theorem makeLeaf_ok (fs : FFTSettings K) (ρ : ℕ → K) (stride : ℕ) (dst : List K) (indices : List ℕ) (hl : indices.length < dst.length)
    (hr : ∀ v ∈ indices, fs.expanded[v * stride]? = some (ρ v)) :
    ∃ res, makeZeroPolyMulLeaf fs dst indices stride = .ok res ∧ res.length = dst.length ∧ ∀ k, res.getD k 0 = (vanish ρ indices).coeff k := by
  rw [makeZeroPolyMulLeaf, if_neg (by omega)]
  have hz : (List.range indices.length).zip indices = (List.range indices.length).map fun i => (i, indices.getD i 0) := by
    refine List.ext_getElem (by simp) fun i h1 h2 => ?_
    simp at h1 h2
    simp [List.getElem?_eq_getElem h1]
  simp only [hz, List.foldlM_map]
  set L := indices.length with hL
  have key := foldlM_range_inv (fun b i => leafStep fs stride b (i, indices.getD i 0))
    (fun i d => d.length = dst.length ∧ (∀ k < i, d.getD k 0 = (vanish ρ (indices.take i)).coeff k) ∧ d.getD L 0 = 1 ∧ ∀ k > L, d.getD k 0 = 0) False
    ((dst.take (L + 1) ++ List.replicate (dst.length - (L + 1)) 0).set L 1)
    ⟨by simp; omega, by simp, by rw [getD_set, if_pos]; simp; omega, fun k hk => by
      rw [getD_set, if_neg (by omega)]
      simp only [List.getD, List.getElem?_append, List.length_take]
      rw [if_neg (by omega), List.getElem?_replicate]
      split <;> rfl⟩ L (by
    rintro i hi d ⟨d1, d2, d3, d4⟩
    left
    have hroot := hr (indices.getD i 0) (by rw [List.getD_eq_getElem _ _ hi]; exact List.getElem_mem hi)
    set v := indices.getD i 0 with hv
    have htake : indices.take (i + 1) = indices.take i ++ [v] := by
      rw [List.take_succ_eq_append_getElem hi, hv, List.getD_eq_getElem _ _ hi]
    have hP : vanish ρ (indices.take (i + 1)) = vanish ρ (indices.take i) * (X - Polynomial.C (ρ v)) := by
      rw [htake, vanish_append]; simp [vanish]
    set P := vanish ρ (indices.take i) with hPdef
    have hdeg : P.natDegree = i := by rw [hPdef, vanish_natDegree, List.length_take]; omega
    have hPi : P.coeff i = 1 := by
      have := vanish_monic ρ (indices.take i)
      rw [Polynomial.Monic, leadingCoeff, ← hPdef, hdeg] at this
      exact this
    have hc0 : (P * (X - Polynomial.C (ρ v))).coeff 0 = P.coeff 0 * (0 - ρ v) := by
      rw [mul_coeff_zero]; simp
    have hcS : ∀ k, (P * (X - Polynomial.C (ρ v))).coeff (k + 1) = P.coeff (k + 1) * (0 - ρ v) + P.coeff k := by
      intro k
      rw [mul_sub, coeff_sub, coeff_mul_X, coeff_mul_C]
      ring
    unfold leafStep
    rw [show idx fs.expanded (v * stride) = .ok (ρ v) by simp [idx, hroot], Go.ok_bind]
    by_cases h0 : i > 0
    · simp only [if_pos h0, Go.pure_eq]
      set e := (d.set i (0 - ρ v)).set i (at0 (d.set i (0 - ρ v)) i + at0 (d.set i (0 - ρ v)) (i - 1)) with he
      have hel : e.length = dst.length := by rw [he]; simp [d1]
      have heg : ∀ m, e.getD m 0 = if m = i then (0 - ρ v) + d.getD (i - 1) 0 else d.getD m 0 := by
        intro m
        rw [he, getD_set, getD_set, at0, at0, getD_set, getD_set]
        by_cases hm : m = i
        · rw [if_pos ⟨hm.symm, by simp; omega⟩, if_pos hm, if_pos ⟨rfl, by omega⟩, if_neg (by omega)]
        · rw [if_neg (fun h => hm h.1.symm), if_neg (fun h => hm h.1.symm), if_neg hm]
      clear_value e
      have hin := leafInner_getD (0 - ρ v) (i - 1) e (by omega)
      have hil := leafInner_length (0 - ρ v) (i - 1) e
      refine ⟨_, rfl, by rw [List.length_set, hil, hel], ?_, ?_, ?_⟩
      · intro k hk
        rw [hP, getD_set, hil]
        rcases Nat.eq_zero_or_pos k with rfl | hk0
        · rw [if_pos ⟨rfl, by omega⟩, at0, hin, if_neg (by omega), heg, if_neg (by omega), hc0, d2 0 h0]
        · obtain ⟨k, rfl⟩ : ∃ k', k = k' + 1 := ⟨k - 1, by omega⟩
          rw [if_neg (by omega), hcS, hin]
          by_cases hki : k + 1 = i
          · rw [if_neg (by omega), heg, if_pos hki, hki, hPi, one_mul, show i - 1 = k by omega, d2 k (by omega)]
          · rw [if_pos (by omega), heg, if_neg (by omega), heg, if_neg (by omega), Nat.add_sub_cancel, d2 (k + 1) (by omega), d2 k (by omega)]
      · rw [getD_set, if_neg (by omega), hin, if_neg (by omega), heg, if_neg (by omega), d3]
      · intro k hk
        rw [getD_set, if_neg (by omega), hin, if_neg (by omega), heg, if_neg (by omega), d4 k hk]
    · have hi0 : i = 0 := by omega
      subst hi0
      simp only [if_neg h0, Go.pure_eq]
      refine ⟨_, rfl, by simp [d1], ?_, ?_, ?_⟩
      · intro k hk
        have : k = 0 := by omega
        subst this
        rw [hP, hc0, hPi, one_mul, getD_set, if_pos ⟨rfl, by omega⟩]
      · rw [getD_set, if_neg (by omega), d3]
      · intro k hk
        rw [getD_set, if_neg (by omega), d4 k hk])
  rcases key with ⟨res, h1, h2, h3, h4, h5⟩ | ⟨-, h⟩
  · refine ⟨res, h1, h2, fun k => ?_⟩
    rw [List.take_of_length_le (by omega)] at h3
    rcases lt_trichotomy k L with h | h | h
    · exact h3 k h
    · rw [h, h4]
      have := vanish_monic ρ indices
      rw [Polynomial.Monic, leadingCoeff, vanish_natDegree] at this
      exact this.symm
    · rw [h5 k h, vanish_coeff_gt ρ indices h]
  · exact h.elim

end

end DyCAPS
