import Mathlib.Algebra.Field.GeomSum
import Verif.Lemmas.FFT
import Verif.Lemmas.Poly

/-! Lemmas about the users of the FFT: extension and evaluation form. -/

namespace DyCAPS

open Finset

variable {K : Type} [Field K]

/-! ## Evaluations -/

theorem dft_polyVal (w : K) (c : List K) (n : ℕ) (hn : c.length ≤ n) (i : ℕ) : dft w n (fun j => c.getD j 0) i = polyVal c (w ^ i) := by
  unfold dft polyVal
  rw [← Finset.sum_subset (s₁ := range c.length) (by intro x hx; rw [mem_range] at *; omega)]
  · refine sum_congr rfl fun j _ => ?_
    rw [smul_eq_mul, pow_mul, mul_comm]
  · intro j _ hj
    show w ^ (i * j) • c.getD j 0 = 0
    rw [List.getD_eq_default _ _ (by simpa using hj), smul_zero]

/-! ## Data extension -/

theorem dft_freq_even {u : K} {h : ℕ} (hu : u ^ h = -1) (a : ℕ → K) (m : ℕ) : dft u (2 * h) a (2 * m) = dft (u ^ 2) h (fun i => a i + a (i + h)) m := by
  unfold dft
  rw [two_mul h, sum_range_add, ← sum_add_distrib]
  refine sum_congr rfl fun i _ => ?_
  rw [show 2 * m * (h + i) = 2 * m * i + h * (2 * m) by ring, pow_add, pow_mul u h, hu, pow_mul (-1 : K), ← pow_mul u 2, Nat.add_comm h i]
  simp only [smul_eq_mul, neg_one_sq, one_pow, show 2 * m * i = 2 * (m * i) by ring]
  ring

theorem dft_freq_odd {u : K} {h : ℕ} (hu : u ^ h = -1) (a : ℕ → K) (m : ℕ) : dft u (2 * h) a (2 * m + 1) = dft (u ^ 2) h (fun i => (a i - a (i + h)) * u ^ i) m := by
  unfold dft
  rw [two_mul h, sum_range_add, ← sum_add_distrib]
  refine sum_congr rfl fun i _ => ?_
  rw [show (2 * m + 1) * (h + i) = (2 * m + 1) * i + h * (2 * m) + h by ring, pow_add, pow_add, pow_mul u h, hu, pow_mul (-1 : K), ← pow_mul u 2, Nat.add_comm h i]
  simp only [smul_eq_mul, neg_one_sq, one_pow, show (2 * m + 1) * i = 2 * (m * i) + i by ring, pow_add u]
  ring

/-- `n` times the values at the odd powers of `W` of the polynomial with values `a` at the even powers. -/
def oddVals (W : K) (n : ℕ) (a : ℕ → K) (i : ℕ) : K := dft (W ^ 2) n (fun j => W ^ j * dft (W ^ 2)⁻¹ n a j) i

theorem oddVals_split {W : K} {h : ℕ} (hh : 0 < h) (hW : W ^ (2 * h) = -1) (a : ℕ → K) (i : ℕ) :
    oddVals W (2 * h) a i = oddVals (W ^ 2) h (fun i => a i + a (i + h)) i + oddVals (W ^ 2) h (fun i => (a i - a (i + h)) * (W ^ 2)⁻¹ ^ i) i * W ^ (2 * i + 1) := by
  have hu : ((W ^ 2)⁻¹) ^ h = -1 := by rw [inv_pow, ← pow_mul, hW]; norm_num
  have h0 : W ≠ 0 := by rintro rfl; rw [zero_pow (by omega)] at hW; norm_num at hW
  unfold oddVals
  rw [dft_split]
  simp only [dft_freq_even hu, dft_freq_odd hu, inv_pow]
  have e1 : ∀ j, W ^ (2 * j) = (W ^ 2) ^ j := fun j => pow_mul W 2 j
  have e2 : ∀ j, W ^ (2 * j + 1) = W * (W ^ 2) ^ j := fun j => by rw [pow_succ, e1, mul_comm]
  simp only [e1, e2, mul_assoc]
  congr 1
  rw [show ∀ f : ℕ → K, (fun j => W * f j) = fun j => W • f j from fun f => rfl, dft_smul, smul_eq_mul, smul_eq_mul]
  ring

theorem oddVals_period {W : K} {h : ℕ} (hW : W ^ (2 * h) = 1) (a : ℕ → K) (i : ℕ) : oddVals W h a (i + h) = oddVals W h a i :=
  dft_period _ _ (by rw [← pow_mul]; exact hW) _ _

variable [DecidableEq K]

theorem dasExt_ok {fs : FFTSettings K} {s : ℕ} {w : K} (hfs : fs.Ok s w) : ∀ (fuel k d : ℕ) (ab : List K), k < fuel → ab.length = 2 ^ (k + 1) → 2 ^ (k + 2) * d = 2 ^ s →
    dasExt fs fuel ab d = .ok ((List.range (2 ^ (k + 1))).map (oddVals (w ^ d) (2 ^ (k + 1)) fun j => ab.getD j 0))
  | 0, _, _, _, h, _, _ => absurd h (Nat.not_lt_zero _)
  | fuel + 1, k, d, ab, hk, hl, hd => by
    have hd0 : 0 < d := Nat.pos_of_ne_zero (by rintro rfl; rw [mul_zero] at hd; exact absurd hd.symm (by positivity))
    have hle : ∀ m ≤ 2 ^ (k + 2), m * d ≤ 2 ^ s := fun m hm => by rw [← hd]; exact Nat.mul_le_mul_right _ hm
    have hpW : IsPrimitiveRoot (w ^ d) (2 ^ (k + 2)) := hfs.prim.pow (by positivity) (by rw [mul_comm d, hd])
    have hhalf := pow_half hpW
    rw [dasExt]
    rcases k with _ | k
    · have hl2 : ab.length = 2 := hl
      rw [if_pos hl2, idx_of_lt (by omega), Go.ok_bind, idx_of_lt (by omega), Go.ok_bind]
      have hi : idx fs.expanded d = .ok (w ^ d) := by
        have := hfs.exp_get (i := d) (by have := hle 1 (by norm_num); omega)
        simp [idx, this]
      rw [hi, Go.ok_bind, Go.pure_eq]
      obtain ⟨x, y, rfl⟩ := List.length_eq_two.1 hl2
      have hW : (w ^ d) ^ 2 = -1 := by simpa using hhalf
      simp [oddVals, dft, sum_range_succ, hW, List.range_succ]
      constructor <;> ring
    · have hp : (2 : ℕ) ^ (k + 1 + 1) = 2 * 2 ^ (k + 1) := by rw [pow_succ 2 (k + 1), mul_comm]
      have hpos : 0 < 2 ^ k := by positivity
      have hp' : (2 : ℕ) ^ (k + 1) = 2 * 2 ^ k := by rw [pow_succ 2 k, mul_comm]
      rw [if_neg (by omega), if_neg (by omega)]
      have hh : ab.length / 2 = 2 ^ (k + 1) := by omega
      simp only [hh]
      set h := 2 ^ (k + 1) with hhdef
      have hp3 : (2 : ℕ) ^ (k + 1 + 2) = 4 * h := by rw [pow_add]; ring
      rw [mapM_ok _ (fun i => (ab.getD i 0 + ab.getD (i + h) 0, (ab.getD i 0 - ab.getD (i + h) 0) * ((w ^ d) ^ 2)⁻¹ ^ i))]
      swap
      · intro i hi
        rw [List.mem_range] at hi
        have h1 : idx (ab.take h) i = .ok (ab.getD i 0) := by
          rw [idx_of_lt (by rw [List.length_take]; omega), List.getElem_take, List.getD_eq_getElem _ _ (by omega)]
        have h2 : idx (ab.drop h) i = .ok (ab.getD (i + h) 0) := by
          rw [idx_of_lt (by rw [List.length_drop]; omega), List.getElem_drop, List.getD_eq_getElem _ _ (by omega)]
          simp only [Nat.add_comm]
        have h3 : idx fs.reversed (i * 2 * d) = .ok (((w ^ d) ^ 2)⁻¹ ^ i) := by
          have := hfs.rev_get (i := i * 2 * d) (hle _ (by omega))
          simp only [idx, this]
          rw [← pow_mul w, ← inv_pow w, ← pow_mul, show i * 2 * d = d * 2 * i by ring]
        rw [h1, Go.ok_bind, h2, Go.ok_bind, h3]
        rfl
      rw [Go.ok_bind]
      have hdrop : (ab.drop h).drop h = [] := by rw [List.drop_drop]; exact List.drop_eq_nil_of_le (by omega)
      rw [hdrop, List.append_nil, List.map_map, List.map_map]
      have hd' : 2 ^ (k + 2) * (d * 2) = 2 ^ s := by rw [← hd, pow_succ 2 (k + 2)]; ring
      rw [dasExt_ok hfs fuel k (d * 2) _ (by omega) (by simp [hhdef]) hd', Go.ok_bind, dasExt_ok hfs fuel k (d * 2) _ (by omega) (by simp [hhdef]) hd', Go.ok_bind]
      have hcong : ∀ f : ℕ → K, oddVals (w ^ (d * 2)) h (fun j => ((List.range h).map f).getD j 0) = oddVals (w ^ (d * 2)) h f := by
        intro f
        funext i
        unfold oddVals
        refine dft_congr (fun j hj => ?_) i
        rw [dft_congr fun m hm => getD_map_range f h m 0 hm]
      simp only [← hhdef, hcong]
      have hWW : w ^ (d * 2) = (w ^ d) ^ 2 := pow_mul w d 2
      rw [hWW]
      set W := w ^ d
      have hWh : W ^ (2 * h) = -1 := by rw [← hp]; exact hhalf
      set L := oddVals (W ^ 2) h (Prod.fst ∘ fun i => (ab.getD i 0 + ab.getD (i + h) 0, (ab.getD i 0 - ab.getD (i + h) 0) * (W ^ 2)⁻¹ ^ i)) with hL
      set R := oddVals (W ^ 2) h (Prod.snd ∘ fun i => (ab.getD i 0 + ab.getD (i + h) 0, (ab.getD i 0 - ab.getD (i + h) 0) * (W ^ 2)⁻¹ ^ i)) with hR
      rw [mapM_ok _ (fun i => (L i + R i * W ^ (2 * i + 1), L i - R i * W ^ (2 * i + 1)))]
      swap
      · intro i hi
        rw [List.mem_range] at hi
        have h3 : idx fs.expanded ((1 + 2 * i) * d) = .ok (W ^ (2 * i + 1)) := by
          have := hfs.exp_get (i := (1 + 2 * i) * d) (hle _ (by omega))
          simp only [idx, this]
          rw [← pow_mul w, show (1 + 2 * i) * d = d * (2 * i + 1) by ring]
        rw [idx_of_lt (by simpa using hi), Go.ok_bind, idx_of_lt (by simpa using hi), Go.ok_bind, h3]
        simp
      rw [Go.ok_bind, Go.pure_eq]
      congr 1
      rw [List.drop_eq_nil_of_le (by simp), List.append_nil, List.map_map, List.map_map, hp, show List.range (2 * h) = List.range h ++ (List.range h).map (h + ·) by rw [two_mul, List.range_add], List.map_append, List.map_map]
      have key : ∀ i, oddVals W (2 * h) (fun j => ab.getD j 0) i = L i + R i * W ^ (2 * i + 1) := fun i => oddVals_split (by omega) hWh _ i
      congr 1
      · refine List.map_congr_left fun i _ => ?_
        rw [Function.comp, key]
      · refine List.map_congr_left fun i _ => ?_
        simp only [Function.comp]
        have hper : (W ^ 2) ^ (2 * h) = 1 := by rw [pow_right_comm, hWh]; norm_num
        rw [key, Nat.add_comm h i, hL, hR, oddVals_period hper, oddVals_period hper, show 2 * (i + h) + 1 = 2 * i + 1 + 2 * h by ring, pow_add W (2 * i + 1) (2 * h), hWh]
        ring

/-! ## Evaluation form -/

omit [DecidableEq K] in
theorem bary_term {w x : K} {n : ℕ} (hn : 0 < n) (hw : IsPrimitiveRoot w n) (hx : x ^ n ≠ 1) (j : ℕ) (hj : j < n) :
    ∑ i ∈ range n, w ^ (i * j) * w ^ i * (x - w ^ i)⁻¹ * (x ^ n - 1) = n * x ^ j := by
  have hne : ∀ i, x - w ^ i ≠ 0 := by
    intro i h
    apply hx
    rw [sub_eq_zero.1 h, ← pow_mul, mul_comm, pow_mul, hw.pow_eq_one, one_pow]
  have e : ∀ i ∈ range n, w ^ (i * j) * w ^ i * (x - w ^ i)⁻¹ * (x ^ n - 1) = ∑ m ∈ range n, x ^ m * (w⁻¹ ^ (m * i) * w ^ (i * j)) := by
    intro i _
    have hw0 : w ≠ 0 := hw.ne_zero hn.ne'
    have hg : (∑ m ∈ range n, x ^ m * (w ^ i) ^ (n - 1 - m)) * (x - w ^ i) = x ^ n - 1 := by
      have := (Commute.all x (w ^ i)).geom_sum₂_mul n
      rw [this, ← pow_mul w, mul_comm i n, pow_mul w n, hw.pow_eq_one, one_pow]
    rw [← hg, mul_comm _ (x - w ^ i), ← mul_assoc, inv_mul_cancel_right₀ (hne i), mul_sum]
    refine sum_congr rfl fun m hm => ?_
    rw [mem_range] at hm
    have h1 : w ^ i * (w ^ i) ^ (n - 1 - m) = w⁻¹ ^ (m * i) := by
      rw [inv_pow]
      refine eq_inv_of_mul_eq_one_left ?_
      rw [← pow_succ', ← pow_mul, ← pow_add, show i * (n - 1 - m + 1) + m * i = n * i by
        rw [show n - 1 - m + 1 = n - m by omega, mul_comm i, ← add_mul, Nat.sub_add_cancel hm.le], pow_mul, hw.pow_eq_one, one_pow]
    calc w ^ (i * j) * w ^ i * (x ^ m * (w ^ i) ^ (n - 1 - m)) = x ^ m * ((w ^ i * (w ^ i) ^ (n - 1 - m)) * w ^ (i * j)) := by ring
      _ = _ := by rw [h1]
  rw [sum_congr rfl e, sum_comm]
  simp only [← mul_sum]
  rw [sum_congr rfl fun m hm => by rw [sum_pow_mul hw hn j m hj (mem_range.1 hm)]]
  simp [hj, mul_comm]

theorem foldl_range_add_sum {M : Type*} [AddCommMonoid M] (h : ℕ → M) (n : ℕ) : (List.range n).foldl (fun b j => b + h j) 0 = ∑ j ∈ range n, h j := by
  induction n with
  | zero => simp
  | succ n ih => rw [List.range_succ, List.foldl_append, ih, List.foldl_cons, List.foldl_nil, sum_range_succ]

theorem evalForm_ok {w : K} {n : ℕ} {poly roots : List K} {scale : ℕ} (hl : poly.length = n) (hr : roots.length / 2 ^ scale = n) (hroots : ∀ i < n, roots[i * 2 ^ scale]? = some (w ^ i)) (x : K) :
    evaluatePolyInEvaluationForm poly x roots scale = .ok ((∑ i ∈ range n, poly.getD i 0 * w ^ i * (x - w ^ i)⁻¹) * ((x ^ n - 1) * (n : K)⁻¹)) := by
  rw [evaluatePolyInEvaluationForm, if_neg (by rw [hl, hr]; simp), foldlM_ok _ (fun y i => y + poly.getD i 0 * w ^ i * (x - w ^ i)⁻¹), hl, foldl_range_add_sum]
  · rfl
  · intro i hi b
    rw [List.mem_range, hl] at hi
    simp [idx, hroots i hi]

theorem evalForm_off {w : K} {n : ℕ} (hn : 0 < n) (hw : IsPrimitiveRoot w n) {poly roots : List K} {scale : ℕ} (hl : poly.length = n) (hr : roots.length / 2 ^ scale = n)
    (hroots : ∀ i < n, roots[i * 2 ^ scale]? = some (w ^ i)) (x : K) (hx : x ^ n ≠ 1) (c : List K) (hc : c.length ≤ n) (hev : ∀ i < n, poly.getD i 0 = polyVal c (w ^ i)) :
    evaluatePolyInEvaluationForm poly x roots scale = .ok (polyVal c x) := by
  rw [evalForm_ok hl hr hroots]
  congr 1
  have h0 := natCast_ne_zero_of_root hw hn
  have hsum : ∀ i ∈ range n, poly.getD i 0 * w ^ i * (x - w ^ i)⁻¹ * (x ^ n - 1) = ∑ j ∈ range c.length, c.getD j 0 * (w ^ (i * j) * w ^ i * (x - w ^ i)⁻¹ * (x ^ n - 1)) := by
    intro i hi
    rw [hev i (mem_range.1 hi), polyVal, sum_mul, sum_mul, sum_mul]
    refine sum_congr rfl fun j _ => ?_
    rw [← pow_mul w]
    ring
  rw [← mul_assoc, sum_mul, sum_congr rfl hsum, sum_comm]
  simp only [← mul_sum]
  rw [sum_congr rfl fun j hj => by rw [bary_term hn hw hx j (by rw [mem_range] at hj; omega)], polyVal, sum_mul]
  refine sum_congr rfl fun j _ => ?_
  field_simp

end DyCAPS
