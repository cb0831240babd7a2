import Mathlib.Tactic.Linarith
import Verif.Lemmas.ZeroPoly

/-! The tree reduction of the zero polynomial. -/

namespace DyCAPS

open Finset Polynomial

variable {K : Type} [Field K] [DecidableEq K]

/-! ## Products -/

theorem isPowerOfTwo_two_pow (k : ℕ) : isPowerOfTwo (2 ^ k) = true := isPowerOfTwo_pow k

theorem inplaceFFT_too_long {fs : FFTSettings K} {vals : List K} (h : fs.maxWidth < vals.length) (inv : Bool) : inplaceFFT fs vals inv = .ok none := by
  rw [inplaceFFT]
  simp [h]

omit [DecidableEq K] in
theorem prod_degree_le (ps : List (List K)) : (∀ p ∈ ps, p ≠ []) → ((ps.map polyOf).prod).natDegree ≤ (ps.map fun p => p.length - 1).sum := by
  induction ps with
  | nil => simp
  | cons p ps ih =>
    intro h
    rw [List.map_cons, List.prod_cons, List.map_cons, List.sum_cons]
    refine natDegree_mul_le.trans (Nat.add_le_add ?_ (ih fun q hq => h q (by simp [hq])))
    have := natDegree_polyOf_lt p (h p (by simp))
    omega

theorem reduceLeaves_ok {fs : FFTSettings K} {s : ℕ} {w : K} (h : fs.Ok s w) {k : ℕ} {scratch F : ℕ} (ps : List (List K)) (hscr : 3 * 2 ^ k ≤ scratch)
    (hne : ps ≠ []) (hps : ∀ p ∈ ps, p ≠ []) (hdeg : (ps.map fun p => p.length - 1).sum + 1 ≤ 2 ^ k) (hF : ∀ p ∈ ps.dropLast, p.length = F)
    (hlast : ∀ j, F ≤ j → (ps.getLastD []).getD j 0 = 0 ∨ ps.dropLast = []) :
    (∃ dst, reduceLeaves fs scratch (2 ^ k) ps = .ok (dst, (ps.map fun p => p.length - 1).sum + 1) ∧ dst.length = 2 ^ k ∧ ∀ j, dst.getD j 0 = ((ps.map polyOf).prod).coeff j) ∨
      (reduceLeaves fs scratch (2 ^ k) ps = .error .panic ∧ fs.maxWidth < 2 ^ k) := by
  have hlen : ∀ p ∈ ps, p.length ≤ 2 ^ k := by
    intro p hp
    have h1 := List.single_le_sum (l := ps.map fun p => p.length - 1) (by simp) (p.length - 1) (List.mem_map_of_mem hp)
    have := List.length_pos_of_ne_nil (hps p hp)
    omega
  have hlastmem : ps.getLastD [] ∈ ps := by
    rw [List.getLastD_eq_getLast?, List.getLast?_eq_getLast_of_ne_nil hne]
    exact List.getLast_mem hne
  have hany : ps.any (fun p => p.length == 0) = false := by
    rw [List.any_eq_false]
    intro p hp
    simpa using hps p hp
  have hpadl : (ps.getLastD [] ++ List.replicate (2 ^ k - (ps.getLastD []).length) (0 : K)).length = 2 ^ k := by
    have := hlen _ hlastmem
    rw [List.length_append, List.length_replicate]; omega
  have hpad : padPoly (2 ^ k) (ps.getLastD []) = .ok (ps.getLastD [] ++ List.replicate (2 ^ k - (ps.getLastD []).length) 0) := by
    rw [padPoly, if_neg (by have := hlen _ hlastmem; omega)]
  have hun : reduceLeaves fs scratch (2 ^ k) ps = (do
      let mulEvalPs ← fftOrPanic (inplaceFFT fs (ps.getLastD [] ++ List.replicate (2 ^ k - (ps.getLastD []).length) 0) false)
      let (_, mulEvalPs) ← ps.dropLast.foldlM (reduceStep fs (2 ^ k)) (ps.getLastD [] ++ List.replicate (2 ^ k - (ps.getLastD []).length) 0, mulEvalPs)
      let dst ← fftOrPanic (inplaceFFT fs mulEvalPs true)
      pure (dst, (ps.map fun p => p.length - 1).sum + 1)) := by
    rw [reduceLeaves, isPowerOfTwo_pow]
    simp only [Bool.not_true, Bool.false_eq_true, if_false, hany]
    rw [if_neg (by simpa using hne), if_neg (by omega), if_neg (by omega), hpad]
    rfl
  by_cases hw : 2 ^ k ≤ fs.maxWidth
  swap
  · right
    refine ⟨?_, by omega⟩
    rw [hun, inplaceFFT_too_long (by rw [hpadl]; omega)]
    rfl
  · left
    have hk : k ≤ s := by rw [h.width] at hw; exact (Nat.pow_le_pow_iff_right (by norm_num)).1 hw
    set ω := w ^ 2 ^ (s - k) with hω
    have hdegp : ∀ p ∈ ps, (polyOf p).degree < (2 ^ k : ℕ) := fun p hp => lt_of_lt_of_le (degree_polyOf_lt p) (by exact_mod_cast hlen p hp)
    have hpadc : ∀ (p : List K) (m j : ℕ), (p ++ List.replicate m 0).getD j 0 = (polyOf p).coeff j := by
      intro p m j
      rw [coeff_polyOf]
      simp only [List.getD, List.getElem?_append, List.getElem?_replicate]
      by_cases hj : j < p.length
      · rw [if_pos hj]
      · rw [if_neg hj, List.getElem?_eq_none (by omega)]
        split <;> rfl
    have e1 := inplace_eval h hk (polyOf (ps.getLastD [])) (hdegp _ hlastmem) _ hpadl (fun j _ => hpadc _ _ j)
    rw [hun, e1]
    simp only [fftOrPanic, Go.ok_bind, Go.pure_eq]
    -- the loop
    have loop : ∀ (qs : List (List K)) (pad : List K) (Q : K[X]), (∀ p ∈ qs, p ∈ ps) → (∀ p ∈ qs, p.length = F) → pad.length = 2 ^ k → (qs ≠ [] → ∀ j, F ≤ j → pad.getD j 0 = 0) →
        ∃ pad', qs.foldlM (reduceStep fs (2 ^ k)) (pad, (List.range (2 ^ k)).map fun i => Q.eval (ω ^ i)) = .ok (pad', (List.range (2 ^ k)).map fun i => (Q * (qs.map polyOf).prod).eval (ω ^ i)) := by
      intro qs
      induction qs with
      | nil => intro pad Q _ _ _ _; exact ⟨pad, by simp⟩
      | cons p qs ih =>
        intro pad Q hmem hqF hpl hz
        have hpl' : (p ++ pad.drop p.length).length = 2 ^ k := by
          have := hlen p (hmem p (by simp))
          simp [hpl]; omega
        have hpF := hqF p (by simp)
        have hcoef : ∀ j, (p ++ pad.drop p.length).getD j 0 = (polyOf p).coeff j := by
          intro j
          rw [coeff_polyOf]
          by_cases hj : j < p.length
          · simp [List.getD, List.getElem?_append, hj]
          · have := hz (by simp) j (by omega)
            rw [List.getD_eq_default p _ (by omega), ← this]
            simp only [List.getD, List.getElem?_append, if_neg hj, List.getElem?_drop]
            congr 2
            omega
        have e2 := inplace_eval h hk (polyOf p) (hdegp p (hmem p (by simp))) _ hpl' (fun j _ => hcoef j)
        have hstep : reduceStep fs (2 ^ k) (pad, (List.range (2 ^ k)).map fun i => Q.eval (ω ^ i)) p =
            .ok (p ++ pad.drop p.length, (List.range (2 ^ k)).map fun i => (Q * polyOf p).eval (ω ^ i)) := by
          rw [reduceStep, if_neg (by have := hlen p (hmem p (by simp)); omega)]
          simp only [e2]
          simp only [fftOrPanic, Go.ok_bind, Go.pure_eq]
          congr 2
          rw [List.zipWith_map, List.zipWith_self]
          simp [eval_mul, hω]
        obtain ⟨pad', h'⟩ := ih (p ++ pad.drop p.length) (Q * polyOf p) (fun q hq => hmem q (by simp [hq])) (fun q hq => hqF q (by simp [hq])) hpl' (by
          intro _ j hj
          rw [hcoef, coeff_polyOf, List.getD_eq_default _ _ (by omega)])
        refine ⟨pad', ?_⟩
        rw [List.foldlM_cons, hstep, Go.ok_bind, h', List.map_cons, List.prod_cons, mul_assoc]
    obtain ⟨pad', hloop⟩ := loop ps.dropLast (ps.getLastD [] ++ List.replicate (2 ^ k - (ps.getLastD []).length) 0) (polyOf (ps.getLastD [])) (fun p hp => List.dropLast_subset _ hp) hF hpadl (by
      intro hd j hj
      rw [hpadc, coeff_polyOf]
      exact (hlast j hj).resolve_right hd)
    rw [hloop]
    simp only [Go.ok_bind]
    have hprod : polyOf (ps.getLastD []) * (ps.dropLast.map polyOf).prod = (ps.map polyOf).prod := by
      conv_rhs => rw [← List.dropLast_append_getLast hne]
      rw [List.map_append, List.prod_append, List.getLastD_eq_getLast?, List.getLast?_eq_getLast_of_ne_nil hne, mul_comm]
      simp
    rw [hprod]
    have hdP : ((ps.map polyOf).prod).degree < (2 ^ k : ℕ) := by
      refine lt_of_le_of_lt degree_le_natDegree ?_
      have := prod_degree_le ps hps
      exact_mod_cast (by omega : ((ps.map polyOf).prod).natDegree < 2 ^ k)
    have e3 := inplace_coeff h hk _ hdP ((List.range (2 ^ k)).map fun i => ((ps.map polyOf).prod).eval (ω ^ i)) (by simp) (fun j hj => getD_map_range _ _ _ _ hj)
    rw [e3]
    refine ⟨_, rfl, by simp, fun j => ?_⟩
    by_cases hj : j < 2 ^ k
    · exact getD_map_range _ _ _ _ hj
    · rw [List.getD_eq_default _ _ (by simpa using hj), coeff_eq_zero_of_degree_lt (lt_of_lt_of_le hdP (by exact_mod_cast not_lt.1 hj))]

/-! ## Chunks of the missing indices -/

/-- The polynomial of chunk `i` of length `C`. -/
noncomputable def chunkPoly (ρ : ℕ → K) (ms : List ℕ) (C i : ℕ) : K[X] := vanish ρ ((ms.drop (i * C)).take C)

omit [DecidableEq K] in
theorem chunkPoly_coeff_gt (ρ : ℕ → K) (ms : List ℕ) (C i : ℕ) {k : ℕ} (hk : min C (ms.length - i * C) < k) : (chunkPoly ρ ms C i).coeff k = 0 :=
  vanish_coeff_gt _ _ (by rw [List.length_take, List.length_drop]; exact hk)

omit [DecidableEq K] in
theorem chunks_prod (ρ : ℕ → K) (ms : List ℕ) (C a : ℕ) : ∀ c, ((List.range' a c).map (chunkPoly ρ ms C)).prod = vanish ρ ((ms.drop (a * C)).take (c * C))
  | 0 => by simp [vanish]
  | c + 1 => by
    rw [List.range'_concat, List.map_append, List.prod_append, chunks_prod ρ ms C a c, show (c + 1) * C = c * C + C from Nat.succ_mul c C, List.take_add, vanish_append, List.drop_drop, one_mul, ← Nat.add_mul]
    simp [chunkPoly]

omit [DecidableEq K] in
theorem chunks_four (ρ : ℕ → K) (ms : List ℕ) (C i c : ℕ) (h : c = 4 ∨ ms.length ≤ (4 * i + c) * C) (hc : c ≤ 4) :
    ((List.range' (4 * i) c).map (chunkPoly ρ ms C)).prod = chunkPoly ρ ms (4 * C) i := by
  rw [chunks_prod, chunkPoly, show 4 * i * C = i * (4 * C) by ring]
  rcases h with rfl | h
  · rfl
  · have hl : (ms.drop (i * (4 * C))).length ≤ c * C := by
      rw [List.length_drop]
      have : (4 * i + c) * C = i * (4 * C) + c * C := by ring
      omega
    have hl' : c * C ≤ 4 * C := Nat.mul_le_mul_right _ hc
    rw [List.take_of_length_le hl, List.take_of_length_le (by omega)]

/-! ## The array -/

theorem writeAt_getD (out : List K) (o : ℕ) (dst : List K) (h : o + dst.length ≤ out.length) (k : ℕ) :
    (writeAt out o dst).getD k 0 = if k < o then out.getD k 0 else if k < o + dst.length then dst.getD (k - o) 0 else out.getD k 0 := by
  have hto : (out.take o).length = o := by rw [List.length_take]; omega
  unfold writeAt
  simp only [List.getD]
  by_cases h1 : k < o
  · rw [if_pos h1, List.getElem?_append_left (by rw [List.length_append, hto]; omega), List.getElem?_append_left (by omega), List.getElem?_take_of_lt h1]
  · rw [if_neg h1]
    by_cases h2 : k < o + dst.length
    · rw [if_pos h2, List.getElem?_append_left (by rw [List.length_append, hto]; omega), List.getElem?_append_right (by omega), hto]
    · rw [if_neg h2, List.getElem?_append_right (by rw [List.length_append, hto]; omega), List.getElem?_drop, List.length_append, hto]
      congr 2
      omega

theorem writeAt_length (out : List K) (o : ℕ) (dst : List K) (h : o + dst.length ≤ out.length) : (writeAt out o dst).length = out.length := by
  unfold writeAt
  simp
  omega

theorem sliceOf_length (out : List K) (o l : ℕ) (h : o + l ≤ out.length) : (sliceOf out (o, l)).length = l := by
  unfold sliceOf
  simp
  omega

theorem sliceOf_getD (out : List K) (o l k : ℕ) (h : k < l) : (sliceOf out (o, l)).getD k 0 = out.getD (o + k) 0 := by
  unfold sliceOf
  simp only [List.getD]
  rw [List.getElem?_take_of_lt h, List.getElem?_drop]

/-- The state of the reduction: `m` leaves in windows of length `S = 2^q`, for chunks of length `C`. -/
structure TreeInv (ρ : ℕ → K) (ms : List ℕ) (N S C : ℕ) (out : List K) (m : ℕ) (lf : ℕ → ℕ) : Prop where
  len : out.length = N
  pos : 0 < m
  lo : (m - 1) * C < ms.length
  hi : ms.length ≤ m * C
  le : ∀ i < m, lf i ≤ S ∧ i * S + lf i ≤ N ∧ min C (ms.length - i * C) < lf i
  full : ∀ i, i + 1 < m → lf i = C + 1
  content : ∀ i < m, ∀ k < S, out.getD (i * S + k) 0 = (chunkPoly ρ ms C i).coeff k
  rest : ∀ k, m * S ≤ k → out.getD k 0 = 0

theorem pow_window {p q a : ℕ} (h : a * 2 ^ q < 2 ^ p) (hle : 2 ^ q ≤ 2 ^ p) : (a + 1) * 2 ^ q ≤ 2 ^ p := by
  have hqp : q ≤ p := (Nat.pow_le_pow_iff_right (by norm_num)).1 hle
  have : 2 ^ p = 2 ^ (p - q) * 2 ^ q := by rw [← pow_add]; congr 1; omega
  rw [this] at h ⊢
  exact Nat.mul_le_mul_right _ (Nat.lt_of_mul_lt_mul_right h)

/-- A group of up to four leaves is replaced by one leaf. -/
theorem group_ok {fs : FFTSettings K} {s : ℕ} {w : K} (hfs : fs.Ok s w) {ρ : ℕ → K} {ms : List ℕ} {p q C m : ℕ} {out : List K} {lf : ℕ → ℕ}
    (inv : TreeInv ρ ms (2 ^ p) (2 ^ q) C out m lf) (hCS : C < 2 ^ q) (hm : 2 ≤ m) (i : ℕ) (hi : 4 * i < m) (out' : List K) (nl : List (ℕ × ℕ)) (hlen : out'.length = 2 ^ p)
    (hun : ∀ k, 4 * i * 2 ^ q ≤ k → out'.getD k 0 = out.getD k 0) :
    (∃ out'' l, reduceGroup fs ((List.range m).map fun i => (i * 2 ^ q, lf i)) (2 ^ q) (out', nl) i = .ok (out'', nl ++ [(i * (4 * 2 ^ q), l)]) ∧ out''.length = 2 ^ p ∧
      (∀ k < 4 * i * 2 ^ q, out''.getD k 0 = out'.getD k 0) ∧ (∀ k < 4 * 2 ^ q, out''.getD (i * (4 * 2 ^ q) + k) 0 = (chunkPoly ρ ms (4 * C) i).coeff k) ∧
      (∀ k, (4 * i + 4) * 2 ^ q ≤ k → out''.getD k 0 = out'.getD k 0) ∧ l ≤ 4 * 2 ^ q ∧ i * (4 * 2 ^ q) + l ≤ 2 ^ p ∧ min (4 * C) (ms.length - i * (4 * C)) < l ∧
      (4 * (i + 1) < m → l = 4 * C + 1)) ∨
    (reduceGroup fs ((List.range m).map fun i => (i * 2 ^ q, lf i)) (2 ^ q) (out', nl) i = .error .panic ∧ fs.maxWidth < 2 ^ p) := by
  set S := 2 ^ q with hS
  set N := 2 ^ p with hN
  have eA : i * 4 = 4 * i := by omega
  set A := 4 * i with hA
  have eAS : i * (4 * S) = A * S := by rw [hA]; ring
  have eAC : i * (4 * C) = A * C := by rw [hA]; ring
  have e4 : (A + 4) * S = A * S + 4 * S := by ring
  -- sizes
  have hSN : S ≤ N := by
    have h1 := (inv.le 1 (by omega)).2.1
    rw [one_mul] at h1
    omega
  have hAN : A * S < N := by have := inv.le A hi; omega
  have hmN : m * S ≤ N := by
    have h1 := inv.le (m - 1) (by omega)
    have h2 : (m - 1) * S < N := by omega
    have := pow_window h2 hSN
    rwa [Nat.sub_add_cancel (by omega)] at this
  have hend : ∃ r, min ((A + 4) * S) N - A * S = 2 ^ r ∧ (4 * S ≤ N ∧ 2 ^ r = 4 * S ∨ N < 4 * S ∧ 2 ^ r = N ∧ A = 0) := by
    by_cases h4 : 4 * S ≤ N
    · have e : 4 * S = 2 ^ (q + 2) := by rw [hS, pow_add]; ring
      have : (i + 1) * (4 * S) ≤ N := by
        rw [e]
        exact pow_window (by rw [← e, eAS]; exact hAN) (by rw [← e]; exact h4)
      have h5 : (i + 1) * (4 * S) = A * S + 4 * S := by rw [Nat.succ_mul, eAS]
      refine ⟨q + 2, ?_, Or.inl ⟨h4, e.symm⟩⟩
      rw [← e, e4]
      omega
    · have h0 : i = 0 := by
        by_contra h0
        have : 1 * (4 * S) ≤ i * (4 * S) := Nat.mul_le_mul_right _ (by omega)
        omega
      have hA0 : A = 0 := by omega
      refine ⟨p, ?_, Or.inr ⟨by omega, rfl, hA0⟩⟩
      rw [e4, hA0]
      omega
  obtain ⟨r, hr, hrc⟩ := hend
  have hrN : A * S + 2 ^ r ≤ N := by
    have := Nat.min_le_right ((A + 4) * S) N
    omega
  have hsub : min ((A + 4) * S) N - A * S = 2 ^ r := hr
  unfold reduceGroup
  simp only [hlen, List.length_map, List.length_range, eA]
  rw [if_neg (by rw [e4]; omega)]
  by_cases hone : min (A + 4) m > A + 1
  · -- two or more leaves
    rw [if_pos hone]
    obtain ⟨c, hc⟩ : ∃ c, min (A + 4) m = A + c := ⟨min (A + 4) m - A, by omega⟩
    have hc2 : 2 ≤ c := by omega
    have hc4 : c ≤ 4 := by omega
    have hcm : A + c ≤ m := by omega
    have hcc : c = 4 ∨ A + c = m := by omega
    have hcS : c * S ≤ 2 ^ r := by
      rcases hrc with ⟨-, h⟩ | ⟨-, h, h0⟩
      · rw [h]; exact Nat.mul_le_mul_right _ hc4
      · rw [h]; exact (Nat.mul_le_mul_right _ (by omega)).trans hmN
    rw [hc, Nat.add_sub_cancel_left, hsub]
    have hps : (((List.range m).map fun i => (i * S, lf i)).drop A |>.take c).map (sliceOf out') = (List.range' A c).map fun t => sliceOf out' (t * S, lf t) := by
      have : ((List.range m).drop A).take c = List.range' A c := by
        refine List.ext_getElem (by simp; omega) fun j h1 h2 => ?_
        simp
      rw [← List.map_drop, ← List.map_take, List.map_map, this]
      rfl
    rw [hps]
    set g := fun t => sliceOf out' (t * S, lf t) with hg
    obtain ⟨d, rfl⟩ : ∃ d, c = d + 1 := ⟨c - 1, by omega⟩
    have hsplit : (List.range' A (d + 1)).map g = (List.range' A d).map g ++ [g (A + d)] := by
      rw [List.range'_concat, List.map_append, one_mul]; rfl
    have hmem : ∀ t, t ∈ List.range' A (d + 1) → A ≤ t ∧ t < m := by
      intro t ht
      have := List.mem_range'_1.1 ht
      omega
    have hgl : ∀ t, A ≤ t → t < m → (g t).length = lf t := by
      intro t _ htm
      exact sliceOf_length _ _ _ (by rw [hlen]; exact (inv.le t htm).2.1)
    have hgp : ∀ t, A ≤ t → t < m → polyOf (g t) = chunkPoly ρ ms C t := by
      intro t hAt htm
      obtain ⟨l1, l2, l3⟩ := inv.le t htm
      ext k
      rw [coeff_polyOf]
      by_cases hk : k < lf t
      · have hle : A * S ≤ t * S := Nat.mul_le_mul_right _ hAt
        rw [hg, sliceOf_getD _ _ _ _ hk, hun _ (by omega), inv.content t htm k (by omega)]
      · rw [List.getD_eq_default _ _ (by rw [hgl t hAt htm]; omega), chunkPoly_coeff_gt ρ ms C t (by omega)]
    have hfull : ∀ t, A ≤ t → t < A + d → lf t = C + 1 := fun t _ ht => inv.full t (by omega)
    have hlast := inv.le (A + d) (by omega)
    have hsum : (((List.range' A (d + 1)).map g).map fun p => p.length - 1).sum = d * C + (lf (A + d) - 1) := by
      rw [hsplit, List.map_append, List.sum_append, List.map_map]
      have : (List.range' A d).map ((fun p => p.length - 1) ∘ g) = (List.range' A d).map fun _ => C := by
        refine List.map_congr_left fun t ht => ?_
        have := List.mem_range'_1.1 ht
        simp only [Function.comp]
        rw [hgl t this.1 (by omega), hfull t this.1 this.2]
        rfl
      rw [this]
      simp [hgl (A + d) (by omega) (by omega)]
    have hdC : d * C ≤ d * S := Nat.mul_le_mul_left _ hCS.le
    have hdS : (d + 1) * S = d * S + S := Nat.succ_mul _ _
    have hred := reduceLeaves_ok hfs (k := r) (scratch := 3 * N) (F := C + 1) ((List.range' A (d + 1)).map g) (by omega) (by rw [hsplit]; simp)
      (by
        intro x hx
        obtain ⟨t, ht, rfl⟩ := List.mem_map.1 hx
        obtain ⟨h1, h2⟩ := hmem t ht
        have h3 := hgl t h1 h2
        have h4 := (inv.le t h2).2.2
        intro h0
        rw [h0] at h3
        simp at h3
        omega)
      (by rw [hsum]; omega)
      (by
        intro x hx
        rw [hsplit, List.dropLast_concat] at hx
        obtain ⟨t, ht, rfl⟩ := List.mem_map.1 hx
        have := List.mem_range'_1.1 ht
        rw [hgl t this.1 (by omega), hfull t this.1 this.2])
      (by
        intro j hj
        left
        rw [hsplit, List.getLastD_concat, ← coeff_polyOf, hgp (A + d) (by omega) (by omega)]
        exact chunkPoly_coeff_gt _ _ _ _ (by omega))
    rw [hsum] at hred
    have hprod : (((List.range' A (d + 1)).map g).map polyOf).prod = chunkPoly ρ ms (4 * C) i := by
      rw [List.map_map, ← chunks_four ρ ms C i (d + 1) (by
        rcases hcc with h | h
        · exact Or.inl h
        · right
          rw [← hA, h]
          exact inv.hi) hc4, ← hA]
      congr 1
      refine List.map_congr_left fun t ht => ?_
      obtain ⟨h1, h2⟩ := hmem t ht
      exact hgp t h1 h2
    rw [hprod] at hred
    rcases hred with ⟨dst, h1, h2, h3⟩ | ⟨h1, h2⟩
    · left
      rw [h1]
      refine ⟨writeAt out' (A * S) dst, d * C + (lf (A + d) - 1) + 1, ?_, ?_, ?_, ?_, ?_, ?_, ?_, ?_, ?_⟩
      · rw [eAS]; rfl
      · rw [writeAt_length _ _ _ (by rw [h2, hlen]; exact hrN), hlen]
      · intro k hk
        rw [writeAt_getD _ _ _ (by rw [h2, hlen]; exact hrN), if_pos hk]
      · intro k hk
        rw [eAS, writeAt_getD _ _ _ (by rw [h2, hlen]; exact hrN), if_neg (by omega), h2, Nat.add_sub_cancel_left, h3]
        split
        · rfl
        · rename_i hge
          rw [← h3, List.getD_eq_default dst _ (by omega)]
          rcases hrc with ⟨-, h⟩ | ⟨-, h, h0⟩
          · omega
          · rw [List.getD_eq_default _ _ (by omega)]
      · intro k hk
        rw [writeAt_getD _ _ _ (by rw [h2, hlen]; exact hrN), if_neg (by omega), if_neg]
        rw [h2]
        rcases hrc with ⟨-, h⟩ | ⟨-, h, h0⟩ <;> omega
      · rcases hrc with ⟨-, h⟩ | ⟨-, h, h0⟩ <;> omega
      · omega
      · have h4 := hlast.2.2
        have e : (A + d) * C = A * C + d * C := Nat.add_mul _ _ _
        rw [eAC]
        rcases hcc with h | h
        · have hd3 : d = 3 := by omega
          subst hd3
          by_cases hl : A + 3 + 1 < m
          · have := inv.full (A + 3) hl
            omega
          · have hmm : m = A + 4 := by omega
            have h5 := inv.hi
            rw [hmm, Nat.add_mul] at h5
            omega
        · have h5 := inv.hi
          rw [← h, Nat.add_mul, Nat.succ_mul] at h5
          omega
      · intro hlt
        have hd3 : d = 3 := by omega
        subst hd3
        have := inv.full (A + 3) (by omega)
        omega
    · right
      rw [h1]
      refine ⟨rfl, ?_⟩
      omega
  · -- a single leaf
    left
    rw [if_neg hone, hsub]
    have hmA : m = A + 1 := by omega
    have hl := inv.le A hi
    have hhi := inv.hi
    have e1 : m * C = A * C + C := by rw [hmA, Nat.succ_mul]
    have e1' : m * S = A * S + S := by rw [hmA, Nat.succ_mul]
    have hpoly : chunkPoly ρ ms (4 * C) i = chunkPoly ρ ms C A := by
      rw [← chunks_four ρ ms C i 1 (by right; rw [← hA, ← hmA]; exact inv.hi) (by norm_num), ← hA]
      simp
    refine ⟨out', 2 ^ r, ?_, hlen, fun _ _ => rfl, ?_, fun _ _ => rfl, ?_, by omega, ?_, fun h => by omega⟩
    · rw [eAS]; rfl
    · intro k hk
      rw [eAS, hun _ (by omega), hpoly]
      by_cases hkS : k < S
      · exact inv.content A hi k hkS
      · rw [inv.rest _ (by omega), chunkPoly_coeff_gt ρ ms C A (by omega)]
    · rcases hrc with ⟨-, h⟩ | ⟨-, h, h0⟩ <;> omega
    · rw [eAC]
      rcases hrc with ⟨-, h⟩ | ⟨-, h, h0⟩ <;> omega

theorem nextPowOf2_eq {v q : ℕ} (h1 : v ≤ 2 ^ q) (h2 : 2 ^ q < 2 * v) : nextPowOf2 v = 2 ^ q := by
  obtain ⟨k, e, hk, hmin⟩ := nextPowOf2_spec v
  have hkq := hmin q h1
  rw [e]
  congr 1
  rcases Nat.lt_or_eq_of_le hkq with h | h
  · exfalso
    have : 2 ^ (k + 1) ≤ 2 ^ q := Nat.pow_le_pow_right (by norm_num) h
    rw [pow_succ] at this
    omega
  · exact h

theorem round_ok {fs : FFTSettings K} {s : ℕ} {w : K} (hfs : fs.Ok s w) {ρ : ℕ → K} {ms : List ℕ} {p q C m : ℕ} {out : List K} {lf : ℕ → ℕ}
    (inv : TreeInv ρ ms (2 ^ p) (2 ^ q) C out m lf) (hCS : C < 2 ^ q) (hCS' : 2 ^ q < 2 * (C + 1)) (hm : 2 ≤ m) :
    (∃ out' lf', reduceRound fs (out, (List.range m).map fun i => (i * 2 ^ q, lf i)) = .ok (out', (List.range ((m + 3) / 4)).map fun i => (i * (4 * 2 ^ q), lf' i)) ∧
      TreeInv ρ ms (2 ^ p) (4 * 2 ^ q) (4 * C) out' ((m + 3) / 4) lf') ∨
    (reduceRound fs (out, (List.range m).map fun i => (i * 2 ^ q, lf i)) = .error .panic ∧ fs.maxWidth < 2 ^ p) := by
  have hl0 : idx ((List.range m).map fun i => (i * 2 ^ q, lf i)) 0 = .ok (0, C + 1) := by
    rw [idx_of_lt (by simp; omega)]
    simp [inv.full 0 (by omega)]
  unfold reduceRound
  simp only [hl0, Go.ok_bind, List.length_map, List.length_range]
  rw [nextPowOf2_eq (by omega) hCS']
  set S := 2 ^ q with hS
  have key := foldlM_range_inv (reduceGroup fs ((List.range m).map fun i => (i * S, lf i)) S)
    (fun i st => ∃ lf' : ℕ → ℕ, st.1.length = 2 ^ p ∧ st.2 = (List.range i).map (fun t => (t * (4 * S), lf' t)) ∧
      (∀ t < i, lf' t ≤ 4 * S ∧ t * (4 * S) + lf' t ≤ 2 ^ p ∧ min (4 * C) (ms.length - t * (4 * C)) < lf' t ∧ (4 * (t + 1) < m → lf' t = 4 * C + 1)) ∧
      (∀ t < i, ∀ k < 4 * S, st.1.getD (t * (4 * S) + k) 0 = (chunkPoly ρ ms (4 * C) t).coeff k) ∧
      ∀ k, 4 * i * S ≤ k → st.1.getD k 0 = out.getD k 0)
    (fs.maxWidth < 2 ^ p) (out, []) ⟨fun _ => 0, inv.len, rfl, by simp, by simp, fun _ _ => rfl⟩ ((m + 3) / 4) (by
    rintro i hi ⟨out', nl⟩ ⟨lf', h1, h2, h3, h4, h5⟩
    simp only at h1 h2 h4 h5
    rcases group_ok hfs inv hCS hm i (by omega) out' nl h1 h5 with ⟨out'', l, g1, g2, g3, g4, g5, g6, g7, g8, g9⟩ | g
    · left
      refine ⟨_, g1, fun t => if t = i then l else lf' t, g2, ?_, ?_, ?_, ?_⟩
      · simp only
        rw [h2, List.range_succ, List.map_append]
        congr 1
        · refine List.map_congr_left fun t ht => ?_
          rw [if_neg (by have := List.mem_range.1 ht; omega)]
        · simp [hS]
      · intro t ht
        by_cases hti : t = i
        · subst hti
          simp only [if_true]
          exact ⟨g6, g7, g8, g9⟩
        · simp only [if_neg hti]
          exact h3 t (by omega)
      · intro t ht k hk
        by_cases hti : t = i
        · subst hti
          exact g4 k hk
        · have : (t + 1) * (4 * S) ≤ i * (4 * S) := Nat.mul_le_mul_right _ (by omega)
          rw [Nat.succ_mul] at this
          rw [g3 _ (by rw [show 4 * i * S = i * (4 * S) by ring]; omega)]
          exact h4 t (by omega) k hk
      · intro k hk
        rw [show 4 * (i + 1) * S = (4 * i + 4) * S by ring] at hk
        rw [g5 k hk]
        rw [show (4 * i + 4) * S = 4 * i * S + 4 * S by ring] at hk
        exact h5 k (by omega)
    · exact Or.inr g)
  rcases key with ⟨⟨out', nl⟩, k1, lf', h1, h2, h3, h4, h5⟩ | k
  · left
    simp only at h1 h2 h4 h5
    refine ⟨out', lf', by rw [k1, h2], ⟨h1, by omega, ?_, ?_, fun t ht => ⟨(h3 t ht).1, (h3 t ht).2.1, (h3 t ht).2.2.1⟩, ?_, h4, ?_⟩⟩
    · have h6 : ((m + 3) / 4 - 1) * 4 * C ≤ (m - 1) * C := Nat.mul_le_mul_right _ (by omega)
      have := inv.lo
      rw [show ((m + 3) / 4 - 1) * (4 * C) = ((m + 3) / 4 - 1) * 4 * C by ring]
      omega
    · have h6 : m * C ≤ (m + 3) / 4 * 4 * C := Nat.mul_le_mul_right _ (by omega)
      have := inv.hi
      rw [show (m + 3) / 4 * (4 * C) = (m + 3) / 4 * 4 * C by ring]
      omega
    · intro t ht
      exact (h3 t (by omega)).2.2.2 (by omega)
    · intro k hk
      have h6 : m * S ≤ 4 * ((m + 3) / 4) * S := Nat.mul_le_mul_right _ (by omega)
      rw [show (m + 3) / 4 * (4 * S) = 4 * ((m + 3) / 4) * S by ring] at hk
      rw [h5 k hk, inv.rest k (by omega)]
  · exact Or.inr k

theorem reduceAll_ok {fs : FFTSettings K} {s : ℕ} {w : K} (hfs : fs.Ok s w) {ρ : ℕ → K} {ms : List ℕ} {p : ℕ} : ∀ (fuel j m : ℕ) (out : List K) (lf : ℕ → ℕ),
    m ≤ fuel → TreeInv ρ ms (2 ^ p) (2 ^ (6 + 2 * j)) (63 * 2 ^ (2 * j)) out m lf →
    (∃ out' l j' lf', reduceAll fs fuel (out, (List.range m).map fun i => (i * 2 ^ (6 + 2 * j), lf i)) = .ok (out', [(0, l)]) ∧ l = lf' 0 ∧
      TreeInv ρ ms (2 ^ p) (2 ^ (6 + 2 * j')) (63 * 2 ^ (2 * j')) out' 1 lf') ∨
    (reduceAll fs fuel (out, (List.range m).map fun i => (i * 2 ^ (6 + 2 * j), lf i)) = .error .panic ∧ fs.maxWidth < 2 ^ p)
  | 0, j, m, out, lf, hm, inv => by have := inv.pos; omega
  | fuel + 1, j, m, out, lf, hm, inv => by
    rw [reduceAll]
    simp only [List.length_map, List.length_range]
    by_cases h1 : m > 1
    · rw [if_pos h1]
      have e64 : 2 ^ (6 + 2 * j) = 64 * 2 ^ (2 * j) := by rw [pow_add]; norm_num
      have hpos : 0 < 2 ^ (2 * j) := by positivity
      have eS : 4 * 2 ^ (6 + 2 * j) = 2 ^ (6 + 2 * (j + 1)) := by rw [show 6 + 2 * (j + 1) = 6 + 2 * j + 2 by ring, pow_add _ _ 2]; ring
      have eC : 4 * (63 * 2 ^ (2 * j)) = 63 * 2 ^ (2 * (j + 1)) := by rw [show 2 * (j + 1) = 2 * j + 2 by ring, pow_add _ _ 2]; ring
      rcases round_ok hfs inv (by omega) (by omega) (by omega) with ⟨out', lf', h2, h3⟩ | ⟨h2, h3⟩
      · rw [h2, Go.ok_bind, eS]
        rw [eS, eC] at h3
        exact reduceAll_ok hfs fuel (j + 1) _ out' lf' (by omega) h3
      · rw [h2]
        exact Or.inr ⟨rfl, h3⟩
    · rw [if_neg h1]
      have hm1 : m = 1 := by have := inv.pos; omega
      subst hm1
      exact Or.inl ⟨out, lf 0, j, lf, by simp, rfl, inv⟩

theorem build_ok {fs : FFTSettings K} {ρ : ℕ → K} {ms : List ℕ} {stride N : ℕ} (hr : ∀ v ∈ ms, fs.expanded[v * stride]? = some (ρ v)) (hms : ms ≠ []) (hN : (ms.length + 62) / 63 * 64 ≤ N) :
    ∃ out, (List.range ((ms.length + 62) / 63)).foldlM (buildLeaf fs ms stride) (List.replicate N 0, []) =
      .ok (out, (List.range ((ms.length + 62) / 63)).map fun i => (i * 64, 64)) ∧ TreeInv ρ ms N 64 63 out ((ms.length + 62) / 63) fun _ => 64 := by
  have hM := List.length_pos_of_ne_nil hms
  set L := (ms.length + 62) / 63 with hL
  have key := foldlM_range_inv (buildLeaf fs ms stride)
    (fun i st => st.1.length = N ∧ st.2 = (List.range i).map (fun t => (t * 64, 64)) ∧ (∀ t < i, ∀ k < 64, st.1.getD (t * 64 + k) 0 = (chunkPoly ρ ms 63 t).coeff k) ∧
      ∀ k, i * 64 ≤ k → st.1.getD k 0 = 0) False (List.replicate N 0, []) ⟨by simp, rfl, by simp, fun k _ => by simp [List.getD, List.getElem?_replicate]; split <;> rfl⟩ L (by
    rintro i hi ⟨out, nl⟩ ⟨h1, h2, h3, h4⟩
    simp only at h1 h2 h3 h4
    left
    obtain ⟨res, r1, r2, r3⟩ := makeLeaf_ok fs ρ stride (sliceOf out (i * 64, 64)) ((ms.drop (i * 63)).take 63) (by
      rw [sliceOf_length _ _ _ (by omega), List.length_take]; omega) (fun v hv => hr v (List.mem_of_mem_drop (List.mem_of_mem_take hv)))
    rw [sliceOf_length _ _ _ (by omega)] at r2
    refine ⟨(writeAt out (i * 64) res, nl ++ [(i * 64, 64)]), ?_, ?_, ?_, ?_, ?_⟩
    · rw [buildLeaf, if_neg (by simp only; omega)]
      simp only [r1, Go.ok_bind, Go.pure_eq]
    · simp only
      rw [writeAt_length _ _ _ (by omega), h1]
    · simp only
      rw [h2, List.range_succ, List.map_append]
      simp
    · intro t ht k hk
      simp only
      rw [writeAt_getD _ _ _ (by omega)]
      by_cases hti : t = i
      · subst hti
        rw [if_neg (by omega), if_pos (by omega), Nat.add_sub_cancel_left, r3]
        rfl
      · rw [if_pos (by omega)]
        exact h3 t (by omega) k hk
    · intro k hk
      simp only
      rw [writeAt_getD _ _ _ (by omega), if_neg (by omega), if_neg (by omega)]
      exact h4 k (by omega))
  rcases key with ⟨⟨out, nl⟩, k1, h1, h2, h3, h4⟩ | k
  · simp only at h1 h2 h3 h4
    refine ⟨out, by rw [k1, h2], ⟨h1, by omega, by omega, by omega, ?_, fun _ _ => rfl, h3, h4⟩⟩
    intro i hi
    refine ⟨le_rfl, by omega, ?_⟩
    have : min 63 (ms.length - i * 63) ≤ 63 := Nat.min_le_left _ _
    omega
  · exact k.2.elim

/-! ## The result -/

theorem zeroPoly_spec {fs : FFTSettings K} {s : ℕ} {w : K} (hfs : fs.Ok s w) {p : ℕ} (hp : p ≤ s) (ms : List ℕ) (hne : ms ≠ []) (hlt : ∀ v ∈ ms, v < 2 ^ p) :
    (∃ ev co, zeroPolyViaMultiplication fs ms (2 ^ p) = .ok (ev, co) ∧ ms.length < 2 ^ p ∧
      ev = (List.range (2 ^ p)).map (fun i => (vanish (fun v => (w ^ 2 ^ (s - p)) ^ v) ms).eval ((w ^ 2 ^ (s - p)) ^ i)) ∧
      co = (List.range (2 ^ p)).map (vanish (fun v => (w ^ 2 ^ (s - p)) ^ v) ms).coeff) ∨
    (zeroPolyViaMultiplication fs ms (2 ^ p) = .error .panic ∧ 2 ^ p < 2 * ms.length) := by
  set ω := w ^ 2 ^ (s - p) with hω
  set ρ : ℕ → K := fun v => ω ^ v with hρ
  have hM := List.length_pos_of_ne_nil hne
  have hppos : 0 < 2 ^ p := by positivity
  have hple : 2 ^ p ≤ 2 ^ s := Nat.pow_le_pow_right (by norm_num) hp
  have hstride : fs.maxWidth / 2 ^ p = 2 ^ (s - p) := by rw [hfs.width, Nat.pow_div hp (by norm_num)]
  have hr : ∀ v ∈ ms, fs.expanded[v * 2 ^ (s - p)]? = some (ρ v) := by
    intro v hv
    have h1 : v * 2 ^ (s - p) ≤ 2 ^ s := by
      calc v * 2 ^ (s - p) ≤ 2 ^ p * 2 ^ (s - p) := Nat.mul_le_mul_right _ (hlt v hv).le
        _ = 2 ^ s := by rw [← pow_add]; congr 1; omega
    rw [hfs.exp_get h1, hρ]
    simp only [hω]
    rw [← pow_mul w, mul_comm]
  -- the last step
  have fin : ∀ z : List K, z.length ≤ 2 ^ p → (∀ k, z.getD k 0 = (vanish ρ ms).coeff k) →
      (∃ ev co, (do
        let zeroEval ← fftOrPanic (fft fs (z ++ List.replicate (2 ^ p - z.length) 0) false)
        pure (zeroEval, z ++ List.replicate (2 ^ p - z.length) 0) : Go (List K × List K)) = .ok (ev, co) ∧ ms.length < 2 ^ p ∧
        ev = (List.range (2 ^ p)).map (fun i => (vanish ρ ms).eval (ω ^ i)) ∧ co = (List.range (2 ^ p)).map (vanish ρ ms).coeff) := by
    intro z hz hc
    have hzl : (z ++ List.replicate (2 ^ p - z.length) (0 : K)).length = 2 ^ p := by rw [List.length_append, List.length_replicate]; omega
    have hcp : ∀ k, (z ++ List.replicate (2 ^ p - z.length) (0 : K)).getD k 0 = (vanish ρ ms).coeff k := by
      intro k
      rw [← hc k]
      simp only [List.getD, List.getElem?_append, List.getElem?_replicate]
      by_cases hk : k < z.length
      · rw [if_pos hk]
      · rw [if_neg hk, List.getElem?_eq_none (by omega)]
        split <;> rfl
    have hMz : ms.length < 2 ^ p := by
      by_contra hge
      have h1 := hc ms.length
      have h2 := vanish_monic ρ ms
      rw [Polynomial.Monic, leadingCoeff, vanish_natDegree] at h2
      rw [h2, List.getD_eq_default _ _ (by omega)] at h1
      exact zero_ne_one h1
    have hdeg : (vanish ρ ms).degree < (2 ^ p : ℕ) := vanish_degree_lt ρ ms hMz
    rw [fft_pow hfs hp _ hzl, inplace_eval hfs hp _ hdeg _ hzl fun j _ => hcp j]
    refine ⟨_, _, rfl, hMz, rfl, ?_⟩
    rw [← map_range_getD (z ++ List.replicate (2 ^ p - z.length) (0 : K)) (2 ^ p) 0 hzl]
    exact List.map_congr_left fun k _ => hcp k
  rw [zeroPolyViaMultiplication, if_neg (by omega), if_neg (by rw [hfs.width]; omega), isPowerOfTwo_pow]
  simp only [Bool.not_true, Bool.false_eq_true, if_false, if_neg hppos.ne', hstride]
  by_cases hsmall : ms.length ≤ 63
  · rw [if_pos hsmall]
    by_cases hfit : ms.length + 1 > 2 ^ p
    · rw [if_pos hfit]
      exact Or.inr ⟨rfl, by omega⟩
    · left
      rw [if_neg hfit]
      obtain ⟨res, h1, h2, h3⟩ := makeLeaf_ok fs ρ (2 ^ (s - p)) (List.replicate (ms.length + 1) (0 : K)) ms (by simp) hr
      rw [h1, Go.ok_bind]
      rw [List.length_replicate] at h2
      have := fin res (by omega) h3
      rw [h2] at this
      exact this
  · rw [if_neg hsmall]
    set L := (ms.length + 62) / 63 with hL
    obtain ⟨q, hq, hq1, hq2⟩ := nextPowOf2_spec (L * 64)
    obtain ⟨out, b1, b2⟩ := build_ok (N := 2 ^ q) hr hne hq1
    rw [hq, b1, Go.ok_bind]
    have hbig : 2 * ms.length ≤ 2 ^ p → 2 ^ q ≤ 2 ^ p := by
      intro h
      exact Nat.pow_le_pow_right (by norm_num) (hq2 p (by omega))
    rcases reduceAll_ok hfs L 0 L out (fun _ => 64) le_rfl b2 with ⟨out', l, j', lf', a1, a2, a3⟩ | ⟨a1, a2⟩
    · have a1' : reduceAll fs L (out, (List.range L).map fun i => (i * 64, 64)) = .ok (out', [(0, l)]) := a1
      rw [a1', Go.ok_bind]
      have hidx : idx [((0 : ℕ), l)] 0 = .ok (0, l) := rfl
      simp only [hidx, Go.ok_bind]
      obtain ⟨l1, l2, l3⟩ := a3.le 0 (by norm_num)
      rw [zero_mul, zero_add, ← a2] at l2
      rw [← a2] at l1 l3
      have hsl : (sliceOf out' (0, l)).length = l := sliceOf_length _ _ _ (by rw [a3.len]; omega)
      have hchunk : chunkPoly ρ ms (63 * 2 ^ (2 * j')) 0 = vanish ρ ms := by
        have := a3.hi
        rw [one_mul] at this
        rw [chunkPoly, zero_mul, List.drop_zero, List.take_of_length_le this]
      have hco : ∀ k, (sliceOf out' (0, l)).getD k 0 = (vanish ρ ms).coeff k := by
        intro k
        rw [← hchunk]
        by_cases hk : k < l
        · have := a3.content 0 (by norm_num) k (by omega)
          rw [zero_mul] at this
          rw [sliceOf_getD _ _ _ _ hk, this]
        · rw [List.getD_eq_default _ _ (by omega), chunkPoly_coeff_gt _ _ _ _ (by omega)]
      rw [hsl]
      by_cases hfit : l > 2 ^ p
      · rw [if_pos hfit]
        refine Or.inr ⟨rfl, ?_⟩
        by_contra hge
        have := hbig (by omega)
        omega
      · left
        rw [if_neg hfit]
        have := fin (sliceOf out' (0, l)) (by omega) hco
        rw [hsl] at this
        exact this
    · right
      have a1' : reduceAll fs L (out, (List.range L).map fun i => (i * 64, 64)) = .error .panic := a1
      rw [a1']
      refine ⟨rfl, ?_⟩
      by_contra hge
      have := hbig (by omega)
      rw [hfs.width] at a2
      omega

end DyCAPS
