import Verif.Lemmas.Recover
import Verif.Lemmas.VSS
import Verif.Model.Legacy

/-! Lemmas about the older recovery of samples. -/

namespace DyCAPS

open Finset Polynomial

section
variable {K : Type} [Field K] [DecidableEq K]

/-! ## Batch inversion -/

theorem multiInvPartials_getD : ∀ (vs : List K) (acc : K) (i : ℕ), i ≤ vs.length → (multiInvPartials acc vs).getD i 0 = acc * (vs.take i).prod
  | [], acc, i, h => by
    have : i = 0 := by simpa using h
    subst this
    simp [multiInvPartials]
  | v :: vs, acc, 0, _ => by simp [multiInvPartials]
  | v :: vs, acc, i + 1, h => by
    rw [multiInvPartials, List.getD_cons_succ, multiInvPartials_getD vs _ i (by simpa using h), List.take_succ_cons, List.prod_cons, mul_assoc]

theorem multiInvLoop_length (partials values : List K) : ∀ (i : ℕ) (inv : K) (out : List K), (multiInvLoop partials values i inv out).length = i + out.length
  | 0, _, out => by simp [multiInvLoop]
  | i + 1, inv, out => by rw [multiInvLoop, multiInvLoop_length partials values i, List.length_cons]; omega

theorem multiInvLoop_ok (values : List K) (acc : K) (hacc : acc ≠ 0) (hv : ∀ v ∈ values, v ≠ 0) : ∀ i ≤ values.length,
    multiInvLoop (multiInvPartials acc values) values i (acc * (values.take i).prod)⁻¹ ((values.drop i).map (·⁻¹)) = values.map (·⁻¹)
  | 0, _ => by simp [multiInvLoop]
  | i + 1, h => by
    have hi : i < values.length := by omega
    have htk : values.take (i + 1) = values.take i ++ [values[i]] := by rw [List.take_succ, List.getElem?_eq_getElem hi]; rfl
    have hd : values.drop i = values[i] :: values.drop (i + 1) := List.drop_eq_getElem_cons hi
    have hne : values[i] ≠ 0 := hv _ (List.getElem_mem hi)
    have hp : (values.take i).prod ≠ 0 := List.prod_ne_zero fun h0 => hv 0 (List.mem_of_mem_take h0) rfl
    have h1 : at0 values i = values[i] := by simp [at0, List.getD, List.getElem?_eq_getElem hi]
    have h2 : at0 (multiInvPartials acc values) i = acc * (values.take i).prod := multiInvPartials_getD values acc i (by omega)
    rw [multiInvLoop, h1, h2, htk, List.prod_append, List.prod_singleton]
    have e1 : (acc * ((values.take i).prod * values[i]))⁻¹ * values[i] = (acc * (values.take i).prod)⁻¹ := by field_simp
    have e2 : acc * (values.take i).prod * (acc * ((values.take i).prod * values[i]))⁻¹ = values[i]⁻¹ := by field_simp
    rw [e1, e2]
    have := multiInvLoop_ok values acc hacc hv i (by omega)
    rw [hd, List.map_cons] at this
    exact this

theorem multiInv_ok (values : List K) (hne : values ≠ []) (hv : ∀ v ∈ values, v ≠ 0) : multiInv values = .ok (values.map (·⁻¹)) := by
  cases values with
  | nil => exact absurd rfl hne
  | cons v vs =>
    have := multiInvLoop_ok (v :: vs) v (hv v (by simp)) hv (v :: vs).length le_rfl
    rw [List.take_length, List.drop_length, List.map_nil] at this
    have h2 : at0 (multiInvPartials v (v :: vs)) (v :: vs).length = v * (v :: vs).prod := by
      have := multiInvPartials_getD (v :: vs) v (v :: vs).length le_rfl
      rwa [List.take_length] at this
    rw [multiInv, idx_of_lt (by simp)]
    simp only [Go.ok_bind, List.getElem_cons_zero]
    rw [h2, this]
    rfl

theorem multiInv_any (values : List K) (hne : values ≠ []) : ∃ out, multiInv values = .ok out ∧ out.length = values.length := by
  cases values with
  | nil => exact absurd rfl hne
  | cons v vs =>
    rw [multiInv, idx_of_lt (by simp)]
    exact ⟨_, rfl, by rw [multiInvLoop_length]; simp⟩

/-! ## Scaling -/

theorem unKX_length (x : K) (l : List K) : (unKX x l).length = l.length := by
  match l with
  | [] => rfl
  | [a] => rfl
  | a :: b :: l => simp [unKX, scalePoly_length]

theorem unKX_getD (x : K) (l : List K) (j : ℕ) : (unKX x l).getD j 0 = l.getD j 0 * x ^ j := by
  match l, j with
  | [], j => simp [unKX]
  | [a], 0 => simp [unKX]
  | [a], j + 1 => simp [unKX]
  | a :: b :: l, 0 => simp [unKX]
  | a :: b :: l, 1 => simp [unKX]
  | a :: b :: l, j + 2 =>
    rw [unKX, List.getD_cons_succ, List.getD_cons_succ, List.getD_cons_succ, List.getD_cons_succ, scalePoly_getD]
    ring

theorem pOfKX_length (l : List K) (x : K) : (pOfKX l x).length = l.length := scalePoly_length x l 1

theorem pOfKX_getD (l : List K) (x : K) (P : K[X]) (h : ∀ j, l.getD j 0 = P.coeff j) (j : ℕ) : (pOfKX l x).getD j 0 = (P.comp (C x * X)).coeff j := by
  rw [pOfKX, scalePoly_getD, h, comp_C_mul_X_coeff, one_mul]

/-! ## The naive zero polynomial -/

theorem zInner_length (x : K) : ∀ (n : ℕ) (d : List K), (zInner x n d).length = d.length
  | 0, _ => rfl
  | n + 1, d => by rw [zInner, zInner_length x n]; simp

theorem zInner_getD (x : K) : ∀ (n : ℕ) (d : List K), n < d.length → ∀ k,
    (zInner x n d).getD k 0 = if 1 ≤ k ∧ k ≤ n then d.getD k 0 - d.getD (k - 1) 0 * x else d.getD k 0
  | 0, d, _, k => by rw [zInner, if_neg (by omega)]
  | n + 1, d, h, k => by
    rw [zInner, zInner_getD x n _ (by simp; omega)]
    simp only [getD_set]
    by_cases h1 : k = n + 1
    · subst h1
      rw [if_neg (by omega), if_pos ⟨rfl, h⟩, if_pos (by omega)]
      rfl
    · by_cases h2 : 1 ≤ k ∧ k ≤ n
      · rw [if_pos h2, if_neg (by omega), if_neg (by omega), if_pos (by omega)]
      · rw [if_neg h2, if_neg (by omega), if_neg (by omega)]

theorem vanish_snoc_coeff (ρ : ℕ → K) (l : List ℕ) (v : ℕ) (m : ℕ) :
    (vanish ρ (l ++ [v])).coeff m = (if m = 0 then 0 else (vanish ρ l).coeff (m - 1)) - (vanish ρ l).coeff m * ρ v := by
  have : vanish ρ (l ++ [v]) = vanish ρ l * X - vanish ρ l * C (ρ v) := by
    rw [vanish_append]
    simp [vanish]
    ring
  rw [this, coeff_sub, coeff_mul_C]
  cases m with
  | zero => simp
  | succ m => simp [coeff_mul_X]

theorem zFold_ok (fs : FFTSettings K) (ρ : ℕ → K) (stride N : ℕ) : ∀ (rest done : List ℕ) (root : List K), root.length = N + 1 → done.length + rest.length = N →
    (∀ v ∈ rest, fs.expanded[v * stride]? = some (ρ v)) → (∀ j, root.getD j 0 = if j ≤ done.length then (vanish ρ done).coeff (done.length - j) else 0) →
    ∃ res, ((List.range' (done.length + 1) rest.length).zip rest).foldlM (zStep fs stride) root = .ok res ∧ res.length = N + 1 ∧
      ∀ j, res.getD j 0 = if j ≤ N then (vanish ρ (done ++ rest)).coeff (N - j) else 0
  | [], done, root, hl, hN, _, hr => ⟨root, rfl, hl, by simpa [show done.length = N by simpa using hN] using hr⟩
  | v :: rest, done, root, hl, hN, hx, hr => by
    have hN' : done.length + (rest.length + 1) = N := by simpa using hN
    have hset : (root.set (done.length + 1) 0).length = N + 1 := by simpa using hl
    have hstep : zStep fs stride root (done.length + 1, v) = .ok (zInner (ρ v) (done.length + 1) (root.set (done.length + 1) 0)) := by
      rw [zStep]
      have : idx fs.expanded (v * stride) = .ok (ρ v) := by rw [idx, hx v (by simp)]
      simp only [this, Go.ok_bind, Go.pure_eq]
    obtain ⟨res, h1, h2, h3⟩ := zFold_ok fs ρ stride N rest (done ++ [v]) (zInner (ρ v) (done.length + 1) (root.set (done.length + 1) 0))
      (by rw [zInner_length, hset]) (by simp; omega) (fun u hu => hx u (by simp [hu])) (by
        intro j
        rw [zInner_getD _ _ _ (by rw [hset]; omega)]
        simp only [getD_set, hr, List.length_append, List.length_singleton]
        have hV : ∀ m, done.length < m → (vanish ρ done).coeff m = 0 := fun m hm => vanish_coeff_gt ρ done hm
        by_cases hj0 : j = 0
        · subst hj0
          rw [if_neg (by omega), if_neg (by omega), if_pos (by omega), if_pos (by omega), vanish_snoc_coeff, if_neg (by omega), hV (done.length + 1 - 0) (by omega), zero_mul, sub_zero]
          congr 1
        · by_cases hj1 : j = done.length + 1
          · subst hj1
            rw [if_pos (by omega), if_pos ⟨rfl, by omega⟩, if_neg (by omega), if_pos (by omega), if_pos (by omega), vanish_snoc_coeff, if_pos (by omega)]
            congr 3
            omega
          · by_cases hj2 : j ≤ done.length
            · rw [if_pos (by omega), if_neg (by omega), if_pos hj2, if_neg (by omega), if_pos (by omega), if_pos (by omega), vanish_snoc_coeff, if_neg (by omega),
                show done.length + 1 - j - 1 = done.length - j by omega, show done.length + 1 - j = done.length - (j - 1) by omega]
            · rw [if_neg (by omega), if_neg (by omega), if_neg hj2, if_neg (by omega)])
    refine ⟨res, ?_, h2, ?_⟩
    · rw [List.length_cons, List.range'_succ, List.zip_cons_cons, List.foldlM_cons, hstep, Go.ok_bind]
      simpa using h1
    · simpa using h3

theorem zNaive_ok (fs : FFTSettings K) (ρ : ℕ → K) (stride : ℕ) (ps : List ℕ) (hx : ∀ v ∈ ps, fs.expanded[v * stride]? = some (ρ v)) :
    ∃ z, zNaive fs ps stride = .ok z ∧ z.length = ps.length + 1 ∧ ∀ j, z.getD j 0 = (vanish ρ ps).coeff j := by
  obtain ⟨res, h1, h2, h3⟩ := zFold_ok fs ρ stride ps.length ps [] ((List.replicate (ps.length + 1) 0).set 0 1) (by simp) (by simp) hx (by
    intro j
    rw [getD_set]
    by_cases hj : j = 0
    · subst hj; simp [vanish]
    · rw [if_neg (by omega), if_neg (by simpa using hj), getD_replicate])
  refine ⟨res.reverse, ?_, by simpa using h2, ?_⟩
  · rw [zNaive]
    simp only [List.length_nil, zero_add] at h1
    rw [h1]
    rfl
  · intro j
    by_cases hj : j ≤ ps.length
    · rw [List.getD_eq_getElem?_getD, List.getElem?_reverse (by omega), h2, show ps.length + 1 - 1 - j = ps.length - j by omega, ← List.getD_eq_getElem?_getD, h3,
        if_pos (by omega), List.nil_append, show ps.length - (ps.length - j) = j by omega]
    · rw [List.getD_eq_default _ _ (by rw [List.length_reverse]; omega), vanish_coeff_gt _ _ (by omega)]

/-! ## Multiplication -/

theorem degree_of_getD (l : List K) (P : K[X]) (h : ∀ j, l.getD j 0 = P.coeff j) {n : ℕ} (hl : l.length ≤ n) : P.degree < n ∨ (n = 0 ∧ P = 0) := by
  left
  rw [degree_lt_iff_coeff_zero]
  intro m hm
  rw [← h, List.getD_eq_default _ _ (by omega)]

theorem mulPolys_ok {fs : FFTSettings K} {s : ℕ} {w : K} (hfs : fs.Ok s w) {k : ℕ} (hk : k ≤ s) (a b : List K) (P Q : K[X]) (ha : ∀ j, a.getD j 0 = P.coeff j) (hb : ∀ j, b.getD j 0 = Q.coeff j)
    (hal : a.length ≤ 2 ^ k) (hbl : b.length ≤ 2 ^ k) :
    mulPolysWithFFT fs a b (2 ^ (s - k)) = .ok ((List.range (2 ^ k)).map (dft (w ^ 2 ^ (s - k))⁻¹ (2 ^ k) fun i => (P * Q).eval ((w ^ 2 ^ (s - k)) ^ i))) := by
  set ω := w ^ 2 ^ (s - k) with hω
  have hprim := hfs.sub_root hk
  rw [← hω] at hprim
  have hdiv : fs.maxWidth / 2 ^ (s - k) = 2 ^ k := by
    rw [hfs.width, Nat.pow_div (by omega) (by norm_num)]
    congr 1
    omega
  have hst : fs.maxWidth / 2 ^ k = 2 ^ (s - k) := by rw [hfs.width, Nat.pow_div hk (by norm_num)]
  have hsmall := hfs.small
  have pad : ∀ (l : List K) (R : K[X]), (∀ j, l.getD j 0 = R.coeff j) → l.length ≤ 2 ^ k → ∀ rootz, (∀ m < 2 ^ k, rootz[m * 2 ^ (s - k)]? = some (ω ^ m)) →
      fftRec 64 (l ++ List.replicate (2 ^ k - l.length) 0) 0 1 rootz (2 ^ (s - k)) (2 ^ k) = .ok ((List.range (2 ^ k)).map fun i => R.eval (ω ^ i)) := by
    intro l R hlR hll rootz hr
    rw [fftRec_eq, fftG1Rec_ok 64 k (by omega) hprim (by intro j hj; simp; omega) hr]
    congr 1
    refine List.map_congr_left fun i _ => ?_
    have hd : R.degree < (2 ^ k : ℕ) := by
      rcases degree_of_getD l R hlR hll with h | ⟨h, -⟩
      · exact h
      · exact absurd h (by positivity)
    rw [← dft_coeff ω R hd]
    refine dft_congr (fun j hj => ?_) i
    rw [← hlR, Nat.zero_add, Nat.mul_one, List.getD_eq_getElem?_getD, List.getD_eq_getElem?_getD, List.getElem?_append]
    split
    · rfl
    · rename_i h
      rw [List.getElem?_replicate, List.getElem?_eq_none (by omega)]
      split <;> rfl
  obtain ⟨rz, h1, h2⟩ := hfs.rootz hk false
  obtain ⟨rr, h3, h4⟩ := hfs.rootz hk true
  rw [hst] at h2 h4
  simp only [Bool.false_eq_true, if_false, if_true] at h1 h2 h3 h4
  rw [mulPolysWithFFT, if_neg (by positivity)]
  simp only [hdiv]
  rw [if_neg (by omega), if_neg (by omega), h1, Go.ok_bind, pad a P ha hal rz h2, Go.ok_bind, pad b Q hb hbl rz h2, Go.ok_bind, h3, Go.ok_bind, fftRec_eq]
  have hz : List.zipWith (· * ·) ((List.range (2 ^ k)).map fun i => P.eval (ω ^ i)) ((List.range (2 ^ k)).map fun i => Q.eval (ω ^ i)) = (List.range (2 ^ k)).map fun i => (P * Q).eval (ω ^ i) := by
    rw [List.zipWith_map, List.zipWith_self]
    simp only [eval_mul]
  rw [hz, fftG1Rec_ok 64 k (by omega) hprim.inv (by intro j hj; simp; omega) h4]
  congr 1
  refine List.map_congr_left fun i _ => dft_congr (fun j hj => ?_) i
  rw [Nat.zero_add, Nat.mul_one]
  exact getD_map_range _ _ _ _ hj

/-! ## The recursive zero polynomial -/

theorem vanish_perm (ρ : ℕ → K) {l l' : List ℕ} (h : l.Perm l') : vanish ρ l = vanish ρ l' := (h.map _).prod_eq

theorem vanish_split (ρ : ℕ → K) (ps : List ℕ) : vanish ρ ps = vanish ρ (ps.filter fun p => p % 2 = 0) * vanish ρ (ps.filter fun p => p % 2 = 1) := by
  rw [← vanish_append]
  refine vanish_perm ρ ?_
  have h := List.filter_append_perm (fun p : ℕ => decide (p % 2 = 0)) ps
  have e : (ps.filter fun p => p % 2 = 1) = ps.filter fun p => !decide (p % 2 = 0) := by
    refine List.filter_congr fun p _ => ?_
    rcases Nat.mod_two_eq_zero_or_one p with h | h <;> simp [h]
  rw [e]
  exact h.symm

theorem vanish_even (ω : K) (l : List ℕ) (h : ∀ v ∈ l, v % 2 = 0) : vanish (fun v => (ω ^ 2) ^ v) (l.map (· / 2)) = vanish (fun v => ω ^ v) l := by
  rw [vanish, vanish, List.map_map]
  congr 1
  refine List.map_congr_left fun v hv => ?_
  have := h v hv
  simp only [Function.comp, ← pow_mul]
  congr 3
  omega

theorem vanish_odd (ω : K) (hω : ω ≠ 0) : ∀ (l : List ℕ), (∀ v ∈ l, v % 2 = 1) →
    (vanish (fun v => (ω ^ 2) ^ v) (l.map (· / 2))).comp (C ω⁻¹ * X) = C (ω⁻¹ ^ l.length) * vanish (fun v => ω ^ v) l
  | [], _ => by simp [vanish]
  | v :: l, h => by
    have ih := vanish_odd ω hω l fun u hu => h u (by simp [hu])
    have hv := h v (by simp)
    have e1 : ∀ (ρ : ℕ → K) u (l : List ℕ), vanish ρ (u :: l) = (X - C (ρ u)) * vanish ρ l := fun ρ u l => by simp [vanish]
    rw [List.map_cons, e1, mul_comp, ih, e1, List.length_cons, pow_succ (ω⁻¹) l.length]
    have e2 : ((X - C ((ω ^ 2) ^ (v / 2))).comp (C ω⁻¹ * X) : K[X]) = C ω⁻¹ * (X - C (ω ^ v)) := by
      rw [sub_comp, X_comp, C_comp, mul_sub, ← C_mul]
      congr 2
      rw [← pow_mul]
      conv_rhs => rw [show v = 2 * (v / 2) + 1 by omega, pow_succ]
      field_simp
    rw [e2, C_mul]
    ring

theorem length_le_of_lt {ps : List ℕ} (hnd : ps.Nodup) {n : ℕ} (h : ∀ v ∈ ps, v < n) : ps.length ≤ n := by
  rw [← List.toFinset_card_of_nodup hnd]
  have : ps.toFinset ⊆ Finset.range n := fun v hv => Finset.mem_range.2 (h v (List.mem_toFinset.1 hv))
  simpa using Finset.card_le_card this

theorem mem_of_full {ps : List ℕ} (hnd : ps.Nodup) {n : ℕ} (h : ∀ v ∈ ps, v < n) (hl : ps.length = n) {i : ℕ} (hi : i < n) : i ∈ ps := by
  have hsub : ps.toFinset ⊆ Finset.range n := fun v hv => Finset.mem_range.2 (h v (List.mem_toFinset.1 hv))
  have : ps.toFinset = Finset.range n := Finset.eq_of_subset_of_card_le hsub (by rw [List.toFinset_card_of_nodup hnd, hl, Finset.card_range])
  exact List.mem_toFinset.1 (this ▸ Finset.mem_range.2 hi)

theorem vanish_full {ω : K} {n : ℕ} (hprim : IsPrimitiveRoot ω n) (hn : 0 < n) {ps : List ℕ} (hnd : ps.Nodup) (h : ∀ v ∈ ps, v < n) (hl : ps.length = n) :
    vanish (fun v => ω ^ v) ps = X ^ n - 1 := by
  have hm := vanish_monic (fun v => ω ^ v) ps
  have hm' : (X ^ n - 1 : K[X]).Monic := monic_X_pow_sub_C 1 hn.ne'
  have hd : (X ^ n - 1 : K[X]).natDegree = n := natDegree_X_pow_sub_C (r := (1 : K))
  have hd' : (vanish (fun v => ω ^ v) ps).natDegree = n := by rw [vanish_natDegree, hl]
  have hinj : Set.InjOn (fun i => ω ^ i) (Finset.range n : Set ℕ) := by
    intro a ha b hb e
    exact hprim.pow_inj (by simpa using ha) (by simpa using hb) e
  refine eq_of_degree_sub_lt_of_eval_finset_eq ((Finset.range n).image fun i => ω ^ i) ?_ ?_
  · rw [Finset.card_image_of_injOn hinj, Finset.card_range]
    have := degree_sub_lt (p := vanish (fun v => ω ^ v) ps) (q := X ^ n - 1) (by rw [degree_eq_natDegree hm.ne_zero, degree_eq_natDegree hm'.ne_zero, hd, hd']) hm.ne_zero (by rw [hm.leadingCoeff, hm'.leadingCoeff])
    rwa [degree_eq_natDegree hm.ne_zero, hd'] at this
  · intro x hx
    obtain ⟨i, hi, rfl⟩ := Finset.mem_image.1 hx
    rw [(vanish_eval _ _ _).2 ⟨i, mem_of_full hnd h hl (Finset.mem_range.1 hi), rfl⟩]
    simp only [eval_sub, eval_pow, eval_X, eval_one]
    rw [← pow_mul, mul_comm, pow_mul, hprim.pow_eq_one, one_pow, sub_self]

/-- What `_zPoly` returns: a non-zero multiple of the zero polynomial, in a list of this length. -/
theorem zPoly_spec {fs : FFTSettings K} {s : ℕ} {w : K} (hfs : fs.Ok s w) : ∀ (fuel k : ℕ) (ps : List ℕ), k < fuel → k ≤ s → ps.Nodup → (∀ v ∈ ps, v < 2 ^ k) →
    ∃ z c, zPoly fs fuel ps (2 ^ (s - k)) = .ok z ∧ c ≠ 0 ∧ (∀ j, z.getD j 0 = (C c * vanish (fun v => (w ^ 2 ^ (s - k)) ^ v) ps).coeff j) ∧
      z.length = if ps.length ≤ 4 then ps.length + 1 else if ps.length = 2 ^ k then 2 ^ k + 1 else 2 ^ k
  | 0, k, ps, h, _, _, _ => by omega
  | fuel + 1, k, ps, hf, hk, hnd, hlt => by
    rw [zPoly]
    by_cases h4 : ps.length ≤ 4
    · rw [if_pos h4, if_pos h4]
      obtain ⟨z, h1, h2, h3⟩ := zNaive_ok fs (fun v => (w ^ 2 ^ (s - k)) ^ v) (2 ^ (s - k)) ps (by
        intro v hv
        have := hlt v hv
        have hb : v * 2 ^ (s - k) ≤ 2 ^ s := by
          calc v * 2 ^ (s - k) ≤ 2 ^ k * 2 ^ (s - k) := Nat.mul_le_mul_right _ this.le
            _ = 2 ^ s := by rw [← pow_add]; congr 1; omega
        rw [hfs.exp_get hb, mul_comm, pow_mul])
      exact ⟨z, 1, h1, one_ne_zero, by simpa using h3, h2⟩
    · rw [if_neg h4, if_neg h4]
      have hle := length_le_of_lt hnd hlt
      have hk3 : 3 ≤ k := by
        by_contra hc
        have : 2 ^ k ≤ 2 ^ 2 := Nat.pow_le_pow_right (by norm_num) (by omega)
        omega
      obtain ⟨k, rfl⟩ : ∃ k', k = k' + 1 := ⟨k - 1, by omega⟩
      set ω := w ^ 2 ^ (s - (k + 1)) with hω
      have hprim : IsPrimitiveRoot ω (2 ^ (k + 1)) := hfs.sub_root hk
      have hω0 : ω ≠ 0 := hprim.ne_zero (by positivity)
      have hω2 : w ^ 2 ^ (s - k) = ω ^ 2 := by
        rw [hω, ← pow_mul, ← pow_succ]
        congr 2
        omega
      have hst : 2 ^ (s - (k + 1)) * 2 = 2 ^ (s - k) := by rw [← pow_succ]; congr 1; omega
      have hpow : 2 ^ (k + 1) = 2 * 2 ^ k := by rw [pow_succ, mul_comm]
      have h8 : 4 ≤ 2 ^ k := by
        calc 4 = 2 ^ 2 := by norm_num
          _ ≤ 2 ^ k := Nat.pow_le_pow_right (by norm_num) (by omega)
      have hev : ((ps.filter fun p => p % 2 = 0).map (· / 2)).Nodup := by
        refine List.Nodup.map_on ?_ (hnd.filter _)
        intro a ha b hb e
        have h1 := (List.mem_filter.1 ha).2
        have h2 := (List.mem_filter.1 hb).2
        simp only [decide_eq_true_eq] at h1 h2
        omega
      have hod : ((ps.filter fun p => p % 2 = 1).map (· / 2)).Nodup := by
        refine List.Nodup.map_on ?_ (hnd.filter _)
        intro a ha b hb e
        have h1 := (List.mem_filter.1 ha).2
        have h2 := (List.mem_filter.1 hb).2
        simp only [decide_eq_true_eq] at h1 h2
        omega
      have hevlt : ∀ v ∈ (ps.filter fun p => p % 2 = 0).map (· / 2), v < 2 ^ k := by
        intro v hv
        obtain ⟨u, hu, rfl⟩ := List.mem_map.1 hv
        have := hlt u (List.mem_filter.1 hu).1
        show u / 2 < _
        omega
      have hodlt : ∀ v ∈ (ps.filter fun p => p % 2 = 1).map (· / 2), v < 2 ^ k := by
        intro v hv
        obtain ⟨u, hu, rfl⟩ := List.mem_map.1 hv
        have := hlt u (List.mem_filter.1 hu).1
        show u / 2 < _
        omega
      obtain ⟨left, c1, l1, l2, l3, l4⟩ := zPoly_spec hfs fuel k _ (by omega) (by omega) hev hevlt
      obtain ⟨right, c2, r1, r2, r3, r4⟩ := zPoly_spec hfs fuel k _ (by omega) (by omega) hod hodlt
      rw [hω2] at l3 r3
      have hll : left.length ≤ 2 ^ (k + 1) := by rw [l4]; split_ifs <;> omega
      have hrl : right.length ≤ 2 ^ (k + 1) := by rw [r4]; split_ifs <;> omega
      have hinv : idx fs.reversed (2 ^ (s - (k + 1))) = .ok ω⁻¹ := by
        rw [idx, hfs.rev_get (Nat.pow_le_pow_right (by norm_num) (by omega)), inv_pow]
      have hmul := mulPolys_ok hfs hk left (pOfKX right ω⁻¹) _ _ l3 (pOfKX_getD right ω⁻¹ _ r3) hll (by rw [pOfKX_length]; exact hrl)
      rw [← hω] at hmul
      set V := vanish (fun v => ω ^ v) ps with hV
      set e : ℕ := (ps.filter fun p => p % 2 = 1).length with he
      have hprod : (C c1 * vanish (fun v => (ω ^ 2) ^ v) ((ps.filter fun p => p % 2 = 0).map (· / 2))) *
          (C c2 * vanish (fun v => (ω ^ 2) ^ v) ((ps.filter fun p => p % 2 = 1).map (· / 2))).comp (C ω⁻¹ * X) = C (c1 * c2 * ω⁻¹ ^ e) * V := by
        rw [mul_comp, C_comp, vanish_even ω _ (fun v hv => by simpa using (List.mem_filter.1 hv).2), vanish_odd ω hω0 _ (fun v hv => by simpa using (List.mem_filter.1 hv).2), hV,
          vanish_split _ ps, C_mul, C_mul]
        ring
      rw [hprod] at hmul
      set d := c1 * c2 * ω⁻¹ ^ e with hd
      have hd0 : d ≠ 0 := mul_ne_zero (mul_ne_zero l2 r2) (pow_ne_zero _ (inv_ne_zero hω0))
      have hn : 0 < 2 ^ (k + 1) := by positivity
      have hn0 := natCast_ne_zero_of_root hprim hn
      simp only [oddEvenDiv2, hst]
      rw [l1, Go.ok_bind, r1, Go.ok_bind, hinv, Go.ok_bind, hmul, Go.ok_bind]
      by_cases hfull : ps.length = 2 ^ (k + 1)
      · rw [if_pos hfull]
        have hzero : (List.range (2 ^ (k + 1))).map (dft ω⁻¹ (2 ^ (k + 1)) fun i => (C d * V).eval (ω ^ i)) = List.replicate (2 ^ (k + 1)) 0 := by
          rw [List.eq_replicate_iff]
          refine ⟨by simp, fun x hx => ?_⟩
          obtain ⟨m, -, rfl⟩ := List.mem_map.1 hx
          rw [dft]
          refine Finset.sum_eq_zero fun j hj => ?_
          have : V.eval (ω ^ j) = 0 := (vanish_eval _ _ _).2 ⟨j, mem_of_full hnd hlt hfull (Finset.mem_range.1 hj), rfl⟩
          rw [eval_mul, this, mul_zero, smul_zero]
        rw [hzero, if_pos (by simp), if_neg (by simp)]
        refine ⟨_, -1, rfl, by simp, ?_, by simp⟩
        intro j
        rw [hV, vanish_full hprim hn hnd hlt hfull]
        have e1 : (C (-1) * (X ^ 2 ^ (k + 1) - 1) : K[X]) = 1 - X ^ 2 ^ (k + 1) := by simp
        rw [e1, coeff_sub, coeff_one, coeff_X_pow]
        rw [List.getD_eq_getElem?_getD, List.getElem?_append]
        simp only [List.length_set, List.length_replicate]
        by_cases hj : j < 2 ^ (k + 1)
        · rw [if_pos hj, if_neg (c := j = 2 ^ (k + 1)) (by omega), ← List.getD_eq_getElem?_getD, getD_set, getD_replicate]
          by_cases hj0 : j = 0
          · subst hj0; simp
          · rw [if_neg (c := 0 = j ∧ _) (by omega), if_neg (c := j = 0) hj0]; simp
        · rw [if_neg hj, if_neg (by omega)]
          by_cases hj1 : j = 2 ^ (k + 1)
          · subst hj1; simp
          · rw [if_neg hj1, List.getElem?_eq_none (by simp; omega)]; simp
      · rw [if_neg hfull]
        have hdeg : (C d * V).degree < (2 ^ (k + 1) : ℕ) := by
          rw [degree_C_mul hd0]
          exact vanish_degree_lt _ _ (by omega)
        have hout : (List.range (2 ^ (k + 1))).map (dft ω⁻¹ (2 ^ (k + 1)) fun i => (C d * V).eval (ω ^ i)) =
            (List.range (2 ^ (k + 1))).map fun j => ((2 ^ (k + 1) : ℕ) : K) * (C d * V).coeff j := by
          refine List.map_congr_left fun j hj => ?_
          have : (fun i => (C d * V).eval (ω ^ i)) = dft ω (2 ^ (k + 1)) (C d * V).coeff := by
            funext i
            rw [dft_coeff _ _ hdeg]
          rw [this, dft_inv hprim hn _ _ (List.mem_range.1 hj), smul_eq_mul]
        rw [hout]
        have hnz : ¬ ((List.range (2 ^ (k + 1))).map fun j => ((2 ^ (k + 1) : ℕ) : K) * (C d * V).coeff j).all (fun c => c = 0) = true := by
          intro hall
          rw [List.all_eq_true] at hall
          have := hall _ (List.mem_map.2 ⟨ps.length, List.mem_range.2 (by omega), rfl⟩)
          have hc : V.coeff ps.length = 1 := by
            have := (vanish_monic (fun v => ω ^ v) ps).coeff_natDegree
            rwa [vanish_natDegree] at this
          rw [coeff_C_mul, hc, mul_one] at this
          exact mul_ne_zero hn0 hd0 (by simpa using this)
        rw [if_neg hnz]
        refine ⟨_, ((2 ^ (k + 1) : ℕ) : K) * d, rfl, mul_ne_zero hn0 hd0, ?_, by simp⟩
        intro j
        by_cases hj : j < 2 ^ (k + 1)
        · rw [getD_map_range _ _ _ _ hj, coeff_C_mul, coeff_C_mul, hd]
          ring
        · rw [List.getD_eq_default _ _ (by simp; omega), coeff_C_mul, vanish_coeff_gt _ _ (by omega), mul_zero]

/-! ## Recovery -/

theorem getD_append_zero (c : List K) (m j : ℕ) : (c ++ List.replicate m 0).getD j 0 = c.getD j 0 := by
  simp only [List.getD, List.getElem?_append, List.getElem?_replicate]
  by_cases h : j < c.length
  · rw [if_pos h]
  · rw [if_neg h, List.getElem?_eq_none (by omega)]
    split <;> rfl

/-- The transform of a coefficient list that is padded to `2^p` entries. -/
theorem fft_eval_pad {fs : FFTSettings K} {s : ℕ} {w : K} (hfs : fs.Ok s w) {p : ℕ} (hp : p ≤ s) (c : List K) (P : K[X]) (hc : ∀ j, c.getD j 0 = P.coeff j) (hn : nextPowOf2 c.length = 2 ^ p) :
    fft fs c false = .ok (some ((List.range (2 ^ p)).map fun i => P.eval ((w ^ 2 ^ (s - p)) ^ i))) := by
  obtain ⟨k, h1, h2, -⟩ := nextPowOf2_spec c.length
  have hl : c.length ≤ 2 ^ p := by rw [← hn, h1]; exact h2
  have hps : 2 ^ p ≤ 2 ^ s := Nat.pow_le_pow_right (by norm_num) hp
  rw [fft, if_neg (by rw [hfs.width]; omega), hn]
  refine inplace_eval hfs hp P ?_ _ (by simp; omega) fun j _ => by rw [getD_append_zero, hc]
  rcases degree_of_getD c P hc hl with h | ⟨h, -⟩
  · exact h
  · exact absurd h (by positivity)

theorem checkOutput_true (output : List K) : ∀ (vals : List (Option K)) (i : ℕ), (∀ j x, vals.getD j none = some x → output[i + j]? = some x) → checkOutput output i vals = .ok true
  | [], _, _ => rfl
  | none :: vals, i, h => by
    rw [checkOutput]
    refine checkOutput_true output vals (i + 1) fun j x hx => ?_
    have := h (j + 1) x (by simpa using hx)
    rwa [show i + 1 + j = i + (j + 1) by omega]
  | some v :: vals, i, h => by
    have h0 := h 0 v (by simp)
    rw [Nat.add_zero] at h0
    have : idx output i = .ok v := by rw [idx, h0]
    rw [checkOutput, this, Go.ok_bind, if_pos rfl]
    refine checkOutput_true output vals (i + 1) fun j x hx => ?_
    have := h (j + 1) x (by simpa using hx)
    rwa [show i + 1 + j = i + (j + 1) by omega]

theorem checkOutput_sound (output : List K) : ∀ (vals : List (Option K)) (i : ℕ), checkOutput output i vals = .ok true → ∀ j x, vals.getD j none = some x → output[i + j]? = some x
  | [], _, _, j, x, hx => by simp at hx
  | none :: vals, i, h, j, x, hx => by
    rw [checkOutput] at h
    cases j with
    | zero => simp at hx
    | succ j =>
      have := checkOutput_sound output vals (i + 1) h j x (by simpa using hx)
      rwa [show i + (j + 1) = i + 1 + j by omega]
  | some v :: vals, i, h, j, x, hx => by
    rw [checkOutput] at h
    cases hi : idx output i with
    | error e => rw [hi] at h; cases h
    | ok y =>
      rw [hi, Go.ok_bind] at h
      by_cases hv : v = y
      · rw [if_pos hv] at h
        cases j with
        | zero =>
          have hx' : v = x := by simpa using hx
          rw [Nat.add_zero, ← hx', hv]
          rw [idx] at hi
          cases ho : output[i]? with
          | none => rw [ho] at hi; cases hi
          | some z => rw [ho] at hi; cases hi; rfl
        | succ j =>
          have := checkOutput_sound output vals (i + 1) h j x (by simpa using hx)
          rwa [show i + (j + 1) = i + 1 + j by omega]
      · rw [if_neg hv] at h
        cases h

/-- Everything that is known about the zero polynomial of the missing samples when at least one is present. -/
theorem legacy_z {fs : FFTSettings K} {s : ℕ} {w : K} (hfs : fs.Ok s w) {p : ℕ} (hp : p ≤ s) (hp64 : p < 65) (vals : List (Option K)) (hlen : vals.length = 2 ^ p) :
    ∃ z c, zPoly fs 65 (missingIndices vals) (fs.maxWidth / vals.length) = .ok z ∧ c ≠ 0 ∧
      (∀ j, z.getD j 0 = (C c * vanish (fun v => (w ^ 2 ^ (s - p)) ^ v) (missingIndices vals)).coeff j) ∧
      z.length = if (missingIndices vals).length ≤ 4 then (missingIndices vals).length + 1 else if (missingIndices vals).length = 2 ^ p then 2 ^ p + 1 else 2 ^ p := by
  have hst : fs.maxWidth / vals.length = 2 ^ (s - p) := by rw [hfs.width, hlen, Nat.pow_div hp (by norm_num)]
  rw [hst]
  exact zPoly_spec hfs 65 p _ hp64 hp (List.Nodup.filter _ List.nodup_range) fun v hv => hlen ▸ ((mem_missingIndices vals v).1 hv).1

/-- The recovery works in its first attempt when the transform of the zero polynomial is as long as the samples. -/
theorem legacy_spec {fs : FFTSettings K} {s : ℕ} {w : K} (hfs : fs.Ok s w) (h2 : (2 : K) ≠ 0) (h2s : (2 : K) ^ 2 ^ s ≠ 1) {p : ℕ} (hp : p ≤ s) (hp64 : p < 65) (vals : List (Option K)) (hlen : vals.length = 2 ^ p)
    (hM : (missingIndices vals).length < 2 ^ p) (hbig : 4 < (missingIndices vals).length ∨ nextPowOf2 ((missingIndices vals).length + 1) = 2 ^ p)
    (R : K[X]) (hR : R.degree < (2 ^ p - (missingIndices vals).length : ℕ)) (hval : ∀ i < 2 ^ p, ∀ x, vals.getD i none = some x → R.eval ((w ^ 2 ^ (s - p)) ^ i) = x) :
    erasureCodeRecover fs vals = .ok (some ((List.range (2 ^ p)).map fun i => R.eval ((w ^ 2 ^ (s - p)) ^ i))) := by
  obtain ⟨z, c, hz1, hc0, hz2, hz3⟩ := legacy_z hfs hp hp64 vals hlen
  set ω := w ^ 2 ^ (s - p) with hω
  have hprim : IsPrimitiveRoot ω (2 ^ p) := hfs.sub_root hp
  set ms := missingIndices vals with hms
  set Z := C c * vanish (fun v => ω ^ v) ms with hZ
  have hzn : nextPowOf2 z.length = 2 ^ p := by
    rcases hbig with hb | hb
    · rw [hz3, if_neg (by omega), if_neg (by omega)]
      obtain ⟨k, h1, h2, h3⟩ := nextPowOf2_spec (2 ^ p)
      rw [h1]
      congr 1
      exact le_antisymm (h3 p le_rfl) ((Nat.pow_le_pow_iff_right (by norm_num)).1 h2)
    · by_cases h4 : ms.length ≤ 4
      · rw [hz3, if_pos h4, hb]
      · rw [hz3, if_neg h4, if_neg (by omega)]
        obtain ⟨k, h1, h2, h3⟩ := nextPowOf2_spec (2 ^ p)
        rw [h1]
        congr 1
        exact le_antisymm (h3 p le_rfl) ((Nat.pow_le_pow_iff_right (by norm_num)).1 h2)
  have hZeval : ∀ x, Z.eval x = 0 ↔ (vanish (fun v => ω ^ v) ms).eval x = 0 := fun x => by rw [hZ, eval_mul, eval_C, mul_eq_zero, or_iff_right hc0]
  have hroot : ∀ i < 2 ^ p, (Z.eval (ω ^ i) = 0 ↔ vals.getD i none = none) := by
    intro i hi
    rw [hZeval, vanish_eval]
    constructor
    · rintro ⟨v, hv, e⟩
      obtain ⟨hv1, hv2⟩ := (mem_missingIndices vals v).1 hv
      rw [hprim.pow_inj hi (by omega) e, hv2]
    · intro h
      exact ⟨i, (mem_missingIndices vals i).2 ⟨by omega, h⟩, rfl⟩
  have hZne : Z ≠ 0 := mul_ne_zero (C_ne_zero.2 hc0) (vanish_monic _ _).ne_zero
  have hZn : Z.natDegree = ms.length := by rw [hZ, natDegree_C_mul hc0, vanish_natDegree]
  have hRZ : (R * Z).degree < (2 ^ p : ℕ) := by
    by_cases h0 : R = 0
    · rw [h0, zero_mul, degree_zero]; exact WithBot.bot_lt_coe _
    · have h1 : R.natDegree < 2 ^ p - ms.length := (natDegree_lt_iff_degree_lt h0).2 hR
      rw [degree_eq_natDegree (mul_ne_zero h0 hZne), natDegree_mul h0 hZne, hZn]
      exact_mod_cast (by omega : R.natDegree + ms.length < 2 ^ p)
  have hRd : R.degree < (2 ^ p : ℕ) := lt_of_lt_of_le hR (by exact_mod_cast Nat.sub_le _ _)
  have hshift : ∀ i, Z.eval (2 * ω ^ i) ≠ 0 := by
    intro i h
    rw [hZeval, vanish_eval] at h
    obtain ⟨v, -, e⟩ := h
    have e2 : 2 ^ 2 ^ s * (ω ^ i) ^ 2 ^ s = (ω ^ v) ^ 2 ^ s := by rw [← mul_pow, e]
    have e3 : ∀ j, (ω ^ j) ^ 2 ^ s = 1 := by
      intro j
      rw [hω, ← pow_mul, ← pow_mul, show 2 ^ (s - p) * (j * 2 ^ s) = 2 ^ s * (2 ^ (s - p) * j) by ring, pow_mul, hfs.prim.pow_eq_one, one_pow]
    rw [e3, e3, mul_one] at e2
    exact h2s e2
  have hidx : ∀ {α : Type} (g : ℕ → α) (i : ℕ), i < 2 ^ p → idx ((List.range (2 ^ p)).map g) i = .ok (g i) := by
    intro α g i hi
    rw [idx_of_lt (by simpa using hi)]
    simp
  have hgetD : ∀ (g : ℕ → K) (j : ℕ), j < 2 ^ p → ((List.range (2 ^ p)).map g).getD j 0 = g j := fun g j hj => getD_map_range g (2 ^ p) j 0 hj
  have hll : ∀ g : ℕ → K, ((List.range (2 ^ p)).map g).length = 2 ^ p := fun g => by simp
  have hpos : 0 < 2 ^ p := by positivity
  unfold erasureCodeRecover
  rw [if_neg (by omega), hz1, Go.ok_bind, fft_eval_pad hfs hp z Z hz2 hzn, Go.ok_bind]
  simp only
  have ht : timesZ vals ((List.range (2 ^ p)).map fun i => Z.eval (ω ^ i)) = .ok ((List.range (2 ^ p)).map fun i => (R * Z).eval (ω ^ i)) := by
    rw [timesZ, hlen]
    refine mapM_ok _ _ _ fun i hi => ?_
    have hi' := List.mem_range.1 hi
    cases hsi : vals.getD i none with
    | none =>
      simp only [eval_mul, (hroot i hi').2 hsi, mul_zero]
      rfl
    | some x =>
      simp only [hidx _ i hi', Go.ok_bind, eval_mul, hval i hi' x hsi]
      rfl
  rw [ht, Go.ok_bind, fft_pow hfs hp _ (hll _), inplace_coeff hfs hp (R * Z) hRZ _ (hll _) fun j hj => hgetD _ j hj]
  simp only [Go.ok_bind]
  rw [recoverAttempts]
  have hk : ((2 : ℕ) : K) = 2 := by norm_num
  rw [hk, fft_pow hfs hp _ (by rw [pOfKX_length, hll]), inplace_eval hfs hp ((R * Z).comp (C 2 * X)) (comp_scale_degree _ _ hRZ) _ (by rw [pOfKX_length, hll]) fun j hj => by
    rw [pOfKX, scalePoly_getD, hgetD _ j hj, comp_C_mul_X_coeff, one_mul]]
  simp only [Go.ok_bind]
  rw [fft_eval_pad hfs hp (pOfKX z 2) (Z.comp (C 2 * X)) (pOfKX_getD z 2 Z hz2) (by rw [pOfKX_length]; exact hzn)]
  simp only [Go.ok_bind]
  rw [multiInv_ok _ (by rw [ne_eq, List.map_eq_nil_iff, List.range_eq_nil]; omega), Go.ok_bind]
  swap
  · intro v hv
    obtain ⟨i, -, rfl⟩ := List.mem_map.1 hv
    have e : (C 2 * X : K[X]).eval ((w ^ 2 ^ (s - p)) ^ i) = 2 * ω ^ i := by rw [eval_mul, eval_C, eval_X]
    rw [eval_comp, e]
    exact hshift i
  simp only [List.length_map, List.length_range, List.map_map]
  rw [mapM_ok _ (fun i => (R.comp (C 2 * X)).eval (ω ^ i)), Go.ok_bind]
  swap
  · intro i hi
    have hi' := List.mem_range.1 hi
    rw [hidx _ i hi', Go.ok_bind, at0, hgetD _ i hi']
    simp only [Function.comp, eval_comp, eval_mul, eval_C, eval_X, Go.pure_eq]
    rw [mul_assoc, mul_inv_cancel₀ (hshift i), mul_one]
  rw [fft_pow hfs hp _ (hll _), inplace_coeff hfs hp (R.comp (C 2 * X)) (comp_scale_degree _ _ hRd) _ (hll _) fun j hj => hgetD _ j hj]
  simp only [Go.ok_bind]
  rw [fft_pow hfs hp _ (by rw [unKX_length, hll]), inplace_eval hfs hp R hRd _ (by rw [unKX_length, hll]) fun j hj => by
    rw [unKX_getD, hgetD _ j hj, comp_C_mul_X_coeff, mul_assoc, ← mul_pow, mul_inv_cancel₀ h2, one_pow, mul_one]]
  simp only [Go.ok_bind]
  rw [checkOutput_true]
  · simp only [Go.ok_bind, if_true]
    rfl
  · intro j x hx
    have hj : j < 2 ^ p := by
      by_contra hc
      rw [List.getD_eq_default _ _ (by omega)] at hx
      cases hx
    rw [Nat.zero_add, ← hval j hj x hx, List.getElem?_map, List.getElem?_range hj]
    rfl

/-- With at most four missing samples the table of values of the zero polynomial can be shorter than the samples: index out of range. -/
theorem legacy_panics {fs : FFTSettings K} {s : ℕ} {w : K} (hfs : fs.Ok s w) {p : ℕ} (hp : p ≤ s) (hp64 : p < 65) (vals : List (Option K)) (hlen : vals.length = 2 ^ p)
    (hM : (missingIndices vals).length ≤ 4) (hsmall : nextPowOf2 ((missingIndices vals).length + 1) < 2 ^ p) : erasureCodeRecover fs vals = .error .panic := by
  obtain ⟨z, c, hz1, hc0, hz2, hz3⟩ := legacy_z hfs hp hp64 vals hlen
  rw [if_pos hM] at hz3
  obtain ⟨q, hq1, hq2, hq3⟩ := nextPowOf2_spec ((missingIndices vals).length + 1)
  have hqp : q < p := by
    rw [hq1] at hsmall
    exact (Nat.pow_lt_pow_iff_right (by norm_num)).1 hsmall
  have hpos : 0 < 2 ^ p := by positivity
  unfold erasureCodeRecover
  rw [if_neg (by omega), hz1, Go.ok_bind, fft_eval_pad hfs (hqp.le.trans hp) z _ hz2 (by rw [hz3, hq1]), Go.ok_bind]
  simp only
  have hex : ∃ i, 2 ^ q ≤ i ∧ i < 2 ^ p ∧ vals.getD i none ≠ none := by
    by_contra hc
    have hall : ∀ i, 2 ^ q ≤ i → i < 2 ^ p → i ∈ missingIndices vals := fun i h1 h2 =>
      (mem_missingIndices vals i).2 ⟨by omega, by by_contra h3; exact hc ⟨i, h1, h2, h3⟩⟩
    have hsub : Finset.Ico (2 ^ q) (2 ^ p) ⊆ (missingIndices vals).toFinset := fun i hi => by
      rw [Finset.mem_Ico] at hi
      exact List.mem_toFinset.2 (hall i hi.1 hi.2)
    have hcard := Finset.card_le_card hsub
    rw [Nat.card_Ico] at hcard
    have h1 := List.toFinset_card_le (missingIndices vals)
    have h2 : 2 ^ (q + 1) ≤ 2 ^ p := Nat.pow_le_pow_right (by norm_num) hqp
    rw [pow_succ] at h2
    omega
  obtain ⟨i, hi1, hi2, hi3⟩ := hex
  have ht : ∀ zv : List K, zv.length = 2 ^ q → timesZ vals zv = .error .panic := by
    intro zv hzv
    rw [timesZ]
    refine mapM_panic _ _ ?_ i (List.mem_range.2 (by omega)) ?_
    · intro a _
      cases vals.getD a none with
      | none => exact fun h => by cases h
      | some v =>
        simp only
        cases ha : idx zv a with
        | ok y => exact fun h => by cases h
        | error e =>
          rw [idx] at ha
          cases hg : zv[a]? with
          | none => rw [hg] at ha; cases ha; exact fun h => by cases h
          | some y => rw [hg] at ha; cases ha
    · cases hv : vals.getD i none with
      | none => exact absurd hv hi3
      | some v =>
        simp only
        rw [idx, List.getElem?_eq_none (by omega)]
        rfl
  rw [ht _ (by simp)]
  rfl

end

end DyCAPS
