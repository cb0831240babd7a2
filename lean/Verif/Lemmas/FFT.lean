import Mathlib.RingTheory.RootsOfUnity.PrimitiveRoots
import Verif.Lemmas.Interp
import Verif.Model.FFT
import Verif.Props.Field

/-!
# Lemmas about the FFT

`dft w l v i` is the discrete Fourier transform of `v` in a module; the recursions of the model compute it.
-/

namespace DyCAPS

open Finset

theorem foldlM_ok {α β : Type} (f : β → α → Go β) (g : β → α → β) : ∀ (l : List α) (b : β), (∀ a ∈ l, ∀ b, f b a = .ok (g b a)) → l.foldlM f b = .ok (l.foldl g b)
  | [], b, _ => rfl
  | a :: l, b, h => by
    rw [List.foldlM_cons, h a (by simp), Go.ok_bind, List.foldl_cons]
    exact foldlM_ok f g l _ fun x hx => h x (by simp [hx])

theorem foldl_add_range' {M : Type*} [AddCommMonoid M] (h : ℕ → M) (n : ℕ) : (List.range' 1 n).foldl (fun b j => b + h j) (h 0) = ∑ j ∈ range (n + 1), h j := by
  induction n with
  | zero => simp
  | succ n ih => rw [List.range'_concat, List.foldl_append, ih, List.foldl_cons, List.foldl_nil, sum_range_succ _ (n + 1), one_mul, Nat.add_comm 1 n]

theorem isPowerOfTwo_pow (k : ℕ) : isPowerOfTwo (2 ^ k) = true := by
  simp [isPowerOfTwo]

variable {K : Type} [Field K]

section dft
variable {M : Type} [AddCommGroup M] [Module K M]

/-- The discrete Fourier transform. -/
def dft (w : K) (l : ℕ) (v : ℕ → M) (i : ℕ) : M := ∑ j ∈ range l, w ^ (i * j) • v j

theorem dft_split (w : K) (m : ℕ) (v : ℕ → M) (i : ℕ) : dft w (2 * m) v i = dft (w ^ 2) m (fun j => v (2 * j)) i + w ^ i • dft (w ^ 2) m (fun j => v (2 * j + 1)) i := by
  unfold dft
  rw [Finset.smul_sum, ← Finset.sum_add_distrib]
  induction m with
  | zero => simp
  | succ m ih =>
    rw [show 2 * (m + 1) = 2 * m + 1 + 1 by ring, sum_range_succ, sum_range_succ, ih, sum_range_succ, ← pow_mul, ← mul_smul, ← pow_add, add_assoc]
    congr 3
    · congr 1; ring
    · congr 1; ring

theorem dft_period (w : K) (l : ℕ) (hw : w ^ l = 1) (v : ℕ → M) (i : ℕ) : dft w l v (i + l) = dft w l v i := by
  unfold dft
  refine sum_congr rfl fun j _ => ?_
  rw [add_mul, pow_add, pow_mul w l, hw, one_pow, mul_one]

theorem pow_half {w : K} {k : ℕ} (hw : IsPrimitiveRoot w (2 ^ (k + 1))) : w ^ 2 ^ k = -1 := by
  have h1 : (w ^ 2 ^ k) ^ 2 = 1 := by rw [← pow_mul, ← pow_succ]; exact hw.pow_eq_one
  rcases sq_eq_one_iff.1 h1 with h | h
  · exact absurd h (hw.pow_ne_one_of_pos_of_lt (by positivity) (Nat.pow_lt_pow_right (by norm_num) (by omega)))
  · exact h

theorem simpleFTG1_ok {w : K} {vals : List M} {off st : ℕ} {roots : List K} {rst l : ℕ} (hl : 0 < l) (hw : w ^ l = 1) (hv : ∀ j < l, off + j * st < vals.length)
    (hr : ∀ m < l, roots[m * rst]? = some (w ^ m)) :
    simpleFTG1 vals off st roots rst l = .ok ((List.range l).map (dft w l fun j => vals.getD (off + j * st) 0)) := by
  unfold simpleFTG1
  refine mapM_ok _ _ _ fun i _ => ?_
  have h0 : idx vals off = .ok (vals.getD (off + 0 * st) 0) := by
    have := hv 0 hl
    rw [zero_mul, add_zero] at this ⊢
    rw [idx_of_lt this, List.getD_eq_getElem _ _ this]
  have h1 : idx roots 0 = .ok (w ^ (i * 0)) := by
    have := hr 0 hl
    rw [zero_mul] at this
    simp [idx, this]
  rw [h0, Go.ok_bind, h1, Go.ok_bind]
  rw [foldlM_ok _ (fun b j => b + w ^ (i * j) • vals.getD (off + j * st) 0)]
  · rw [foldl_add_range' fun j => w ^ (i * j) • vals.getD (off + j * st) 0, Nat.sub_add_cancel hl]
    rfl
  · intro j hj b
    have hj' : j < l := by have := List.mem_range'_1.1 hj; omega
    have e2 : idx roots (i * j % l * rst) = .ok (w ^ (i * j)) := by
      have := hr _ (Nat.mod_lt (i * j) hl)
      simp only [idx, this]
      congr 1
      rw [← Nat.div_add_mod (i * j) l] 
      rw [Nat.mul_add_mod, Nat.mod_mod, pow_add, pow_mul, hw, one_pow, one_mul]
    rw [idx_of_lt (hv j hj'), Go.ok_bind, e2, Go.ok_bind, List.getD_eq_getElem _ _ (hv j hj')]
    rfl

theorem fftG1Rec_ok {vals : List M} {roots : List K} : ∀ (fuel k : ℕ) {w : K} {off st rst : ℕ}, k < fuel → IsPrimitiveRoot w (2 ^ k) → (∀ j < 2 ^ k, off + j * st < vals.length) →
    (∀ m < 2 ^ k, roots[m * rst]? = some (w ^ m)) →
    fftG1Rec fuel vals off st roots rst (2 ^ k) = .ok ((List.range (2 ^ k)).map (dft w (2 ^ k) fun j => vals.getD (off + j * st) 0))
  | 0, _, _, _, _, _, h, _, _, _ => absurd h (Nat.not_lt_zero _)
  | fuel + 1, k, w, off, st, rst, hk, hw, hv, hr => by
    rw [fftG1Rec]
    split
    · exact simpleFTG1_ok (by positivity) hw.pow_eq_one hv hr
    · rename_i hlt
      obtain ⟨k, rfl⟩ : ∃ k', k = k' + 1 := ⟨k - 1, by rcases k with _ | k <;> simp at hlt ⊢⟩
      have hw2 : IsPrimitiveRoot (w ^ 2) (2 ^ k) := hw.pow (by positivity) (by rw [pow_succ, mul_comm])
      have hhalf : 2 ^ (k + 1) / 2 = 2 ^ k := by rw [pow_succ]; simp
      have hhalf' : 2 ^ (k + 1) - 2 ^ k = 2 ^ k := by rw [pow_succ]; omega
      have hle : (2 : ℕ) ^ (k + 1) = 2 * 2 ^ k := by rw [pow_succ, mul_comm]
      have hr2 : ∀ m < 2 ^ k, roots[m * (rst * 2)]? = some ((w ^ 2) ^ m) := by
        intro m hm
        have := hr (m * 2) (by omega)
        rw [show m * (rst * 2) = m * 2 * rst by ring, this, ← pow_mul, mul_comm 2 m]
      simp only [hhalf, hhalf']
      rw [fftG1Rec_ok fuel k (w := w ^ 2) (by omega) hw2 (fun j hj => by have := hv (j * 2) (by omega); rwa [show off + j * (st * 2) = off + j * 2 * st by ring]) hr2, Go.ok_bind,
        fftG1Rec_ok fuel k (w := w ^ 2) (by omega) hw2 (fun j hj => by have := hv (j * 2 + 1) (by omega); rwa [show off + st + j * (st * 2) = off + (j * 2 + 1) * st by ring]) hr2, Go.ok_bind]
      set v : ℕ → M := fun j => vals.getD (off + j * st) 0 with hvdef
      have ee : (fun j => vals.getD (off + j * (st * 2)) 0) = fun j => v (2 * j) := by funext j; rw [hvdef]; simp only; congr 1; ring
      have eo : (fun j => vals.getD (off + st + j * (st * 2)) 0) = fun j => v (2 * j + 1) := by funext j; rw [hvdef]; simp only; congr 1; ring
      rw [ee, eo]
      rw [mapM_ok _ fun i => (dft w (2 ^ (k + 1)) v i, dft w (2 ^ (k + 1)) v (2 ^ k + i))]
      · rw [Go.ok_bind, List.map_map, List.map_map, List.drop_eq_nil_of_le (by simp), List.append_nil]
        simp only [Go.pure_eq]
        congr 1
        rw [hle, two_mul, List.range_add, List.map_append, List.map_map, ← two_mul, ← hle]
        rfl
      · intro i hi
        have hi' : i < 2 ^ k := List.mem_range.1 hi
        rw [idx_of_lt (by simpa using hi'), Go.ok_bind, idx_of_lt (by simpa using hi'), Go.ok_bind]
        have e2 : idx roots (i * rst) = .ok (w ^ i) := by simp [idx, hr i (by omega)]
        rw [e2, Go.ok_bind]
        simp only [List.getElem_map, List.getElem_range, Go.pure_eq]
        congr 2
        · rw [hle, dft_split]
        · rw [hle, dft_split, pow_add, pow_half hw, Nat.add_comm (2 ^ k) i, dft_period _ _ hw2.pow_eq_one, dft_period _ _ hw2.pow_eq_one, neg_one_mul, neg_smul, sub_eq_add_neg]

end dft

/-! ## Inversion -/

section inv
variable {M : Type} [AddCommGroup M] [Module K M]

theorem sum_pow_mul {w : K} {n : ℕ} (hw : IsPrimitiveRoot w n) (hn : 0 < n) (j m : ℕ) (hj : j < n) (hm : m < n) :
    ∑ i ∈ range n, w⁻¹ ^ (m * i) * w ^ (i * j) = if m = j then (n : K) else 0 := by
  have hw0 : w ≠ 0 := hw.ne_zero hn.ne'
  have e : ∀ i, w⁻¹ ^ (m * i) * w ^ (i * j) = (w⁻¹ ^ m * w ^ j) ^ i := by
    intro i
    rw [mul_pow, ← pow_mul, ← pow_mul, mul_comm i j]
  simp only [e]
  split
  · rename_i h
    subst h
    rw [inv_pow, inv_mul_cancel₀ (pow_ne_zero _ hw0)]
    simp
  · rename_i h
    have h1 : w⁻¹ ^ m * w ^ j ≠ 1 := by
      intro hh
      rw [inv_pow, inv_mul_eq_one₀ (pow_ne_zero _ hw0)] at hh
      exact h (hw.pow_inj hm hj hh)
    have h2 : (w⁻¹ ^ m * w ^ j) ^ n = 1 := by
      rw [mul_pow, ← pow_mul, ← pow_mul, mul_comm m n, mul_comm j n, pow_mul, pow_mul, inv_pow, hw.pow_eq_one]
      simp
    have := mul_geom_sum (w⁻¹ ^ m * w ^ j) n
    rw [h2, sub_self] at this
    exact (mul_eq_zero.1 this).resolve_left (sub_ne_zero.2 h1)

theorem dft_inv {w : K} {n : ℕ} (hw : IsPrimitiveRoot w n) (hn : 0 < n) (v : ℕ → M) (m : ℕ) (hm : m < n) : dft w⁻¹ n (dft w n v) m = (n : K) • v m := by
  unfold dft
  simp only [Finset.smul_sum, ← mul_smul]
  rw [Finset.sum_comm]
  simp only [← Finset.sum_smul]
  rw [Finset.sum_congr rfl fun j hj => by rw [sum_pow_mul hw hn j m (mem_range.1 hj) hm]]
  simp [hm]

theorem dft_inv' {w : K} {n : ℕ} (hw : IsPrimitiveRoot w n) (hn : 0 < n) (v : ℕ → M) (m : ℕ) (hm : m < n) : dft w n (dft w⁻¹ n v) m = (n : K) • v m := by
  have := dft_inv hw.inv hn v m hm
  rwa [inv_inv] at this

theorem dft_congr {w : K} {n : ℕ} {v v' : ℕ → M} (h : ∀ j < n, v j = v' j) (i : ℕ) : dft w n v i = dft w n v' i :=
  Finset.sum_congr rfl fun j hj => by rw [h j (mem_range.1 hj)]

theorem dft_smul (w : K) (n : ℕ) (c : K) (v : ℕ → M) (i : ℕ) : dft w n (fun j => c • v j) i = c • dft w n v i := by
  unfold dft
  rw [Finset.smul_sum]
  exact Finset.sum_congr rfl fun j _ => smul_comm _ _ _

theorem natCast_ne_zero_of_root {w : K} {n : ℕ} (hw : IsPrimitiveRoot w n) (hn : 0 < n) : (n : K) ≠ 0 := by
  haveI : NeZero n := ⟨hn.ne'⟩
  exact hw.neZero'.ne

end inv

/-! ## The settings -/

/-- The settings hold the powers of a primitive `2^s`-th root of unity. -/
structure FFTSettings.Ok (fs : FFTSettings K) (s : ℕ) (w : K) : Prop where
  width : fs.maxWidth = 2 ^ s
  prim : IsPrimitiveRoot w (2 ^ s)
  exp : fs.expanded = (List.range (2 ^ s + 1)).map fun i => w ^ i
  rev : fs.reversed = fs.expanded.reverse
  small : s < 64

namespace FFTSettings.Ok
variable {fs : FFTSettings K} {s : ℕ} {w : K}

theorem exp_get (h : fs.Ok s w) {i : ℕ} (hi : i ≤ 2 ^ s) : fs.expanded[i]? = some (w ^ i) := by
  rw [h.exp, List.getElem?_map, List.getElem?_range (by omega)]
  rfl

theorem exp_length (h : fs.Ok s w) : fs.expanded.length = 2 ^ s + 1 := by rw [h.exp]; simp

theorem rev_length (h : fs.Ok s w) : fs.reversed.length = 2 ^ s + 1 := by rw [h.rev, List.length_reverse, h.exp_length]

theorem rev_get (h : fs.Ok s w) {i : ℕ} (hi : i ≤ 2 ^ s) : fs.reversed[i]? = some (w⁻¹ ^ i) := by
  rw [h.rev, List.getElem?_reverse (by rw [h.exp_length]; omega), h.exp_length, h.exp_get (by omega)]
  congr 1
  refine (eq_inv_of_mul_eq_one_left ?_).trans (inv_pow _ _).symm
  rw [← pow_add, show 2 ^ s + 1 - 1 - i + i = 2 ^ s by omega, h.prim.pow_eq_one]

/-- The root of unity of order `2^k` that the settings use for inputs of this length. -/
theorem sub_root (h : fs.Ok s w) {k : ℕ} (hk : k ≤ s) : IsPrimitiveRoot (w ^ 2 ^ (s - k)) (2 ^ k) :=
  h.prim.pow (by positivity) (by rw [← pow_add]; congr 1; omega)

theorem rootz (h : fs.Ok s w) {k : ℕ} (hk : k ≤ s) (inv : Bool) :
    ∃ rootz, sliceTo (if inv then fs.reversed else fs.expanded) fs.maxWidth = .ok rootz ∧
      ∀ m < 2 ^ k, rootz[m * (fs.maxWidth / 2 ^ k)]? = some ((if inv then (w ^ 2 ^ (s - k))⁻¹ else w ^ 2 ^ (s - k)) ^ m) := by
  have hlen : (if inv then fs.reversed else fs.expanded).length = 2 ^ s + 1 := by cases inv <;> simp [h.rev_length, h.exp_length]
  have hdiv : fs.maxWidth / 2 ^ k = 2 ^ (s - k) := by rw [h.width, Nat.pow_div hk (by norm_num)]
  refine ⟨(if inv then fs.reversed else fs.expanded).take fs.maxWidth, ?_, fun m hm => ?_⟩
  · rw [sliceTo, if_pos (by rw [hlen, h.width]; omega)]
  · have hlt : m * 2 ^ (s - k) < 2 ^ s := by
      calc m * 2 ^ (s - k) < 2 ^ k * 2 ^ (s - k) := Nat.mul_lt_mul_of_pos_right hm (by positivity)
        _ = 2 ^ s := by rw [← pow_add]; congr 1; omega
    rw [hdiv, List.getElem?_take_of_lt (by rw [h.width]; exact hlt)]
    cases inv
    · simp only [Bool.false_eq_true, if_false]
      rw [h.exp_get hlt.le, ← pow_mul, mul_comm]
    · simp only [if_true]
      rw [h.rev_get hlt.le, ← inv_pow, ← pow_mul, mul_comm]

end FFTSettings.Ok

theorem nextPowOf2_spec (v : ℕ) : ∃ k, nextPowOf2 v = 2 ^ k ∧ v ≤ 2 ^ k ∧ ∀ j, v ≤ 2 ^ j → k ≤ j := by
  unfold nextPowOf2
  split
  · rename_i h
    subst h
    exact ⟨0, rfl, Nat.zero_le _, fun j _ => Nat.zero_le _⟩
  · rename_i h
    refine ⟨Nat.size (v - 1), rfl, ?_, fun j hj => ?_⟩
    · have := Nat.lt_size_self (v - 1)
      omega
    · rw [Nat.size_le]
      omega

variable [DecidableEq K]

theorem expandLoop_ok {w : K} {n : ℕ} (hw : IsPrimitiveRoot w n) : ∀ (fuel i : ℕ), 0 < i → i ≤ n → n - i < fuel →
    expandLoop w fuel ((List.range (i + 1)).map fun j => w ^ j) (w ^ i) = some ((List.range (n + 1)).map fun j => w ^ j)
  | 0, _, _, _, h => absurd h (Nat.not_lt_zero _)
  | fuel + 1, i, h0, hi, hf => by
    rw [expandLoop]
    split
    · rename_i h1
      have : i = n := by
        rcases Nat.lt_or_eq_of_le hi with h | h
        · exact absurd h1 (hw.pow_ne_one_of_pos_of_lt h0.ne' h)
        · exact h
      rw [this]
    · rename_i h1
      have hne : i ≠ n := fun h => h1 (h ▸ hw.pow_eq_one)
      have := expandLoop_ok hw fuel (i + 1) (by omega) (by omega) (by omega)
      rw [List.range_succ, List.map_append] at this
      simpa [pow_succ] using this

theorem scale2Root_eq (k : ℕ) (hk : k < 32) : scale2Root k = some ((7 : Fr) ^ ((frModulus - 1) / 2 ^ k)) := by
  obtain ⟨-, he⟩ := table_check.2 k (by simpa using hk)
  rw [scale2Root, he, Option.map_some, powMod_eq _ _ _ _ (lt_of_le_of_lt (Nat.div_le_self _ _) frModulus_pred_lt), ZMod.natCast_mod]
  push_cast
  rfl

theorem scale2Root_prim {k : ℕ} {w : Fr} (h : scale2Root k = some w) : k < 32 ∧ IsPrimitiveRoot w (2 ^ k) := by
  have hk : k < 32 := by
    by_contra hge
    rw [(C08_root_table k).2 (by omega)] at h
    cases h
  obtain ⟨w', h1, h2, h3⟩ := (C08_root_table k).1 hk
  rw [h] at h1
  cases h1
  exact ⟨hk, IsPrimitiveRoot.mk_of_lt w (by positivity) h2 h3⟩

theorem scale2Root_sub {s k : ℕ} {w : Fr} (h : scale2Root s = some w) (hk : k ≤ s) : scale2Root k = some (w ^ 2 ^ (s - k)) := by
  have hs := (scale2Root_prim h).1
  rw [scale2Root_eq s hs] at h
  cases h
  rw [scale2Root_eq k (by omega), ← pow_mul]
  congr 2
  have hd := (table_check.2 s (by simpa using hs)).1
  have hd' : 2 ^ k * 2 ^ (s - k) = 2 ^ s := by rw [← pow_add]; congr 1; omega
  obtain ⟨q, hq⟩ := hd
  rw [hq, Nat.mul_div_cancel_left _ (by positivity), ← hd', mul_assoc, Nat.mul_div_cancel_left _ (by positivity), mul_comm]

theorem two_pow_lt_frModulus {k : ℕ} (hk : k < 32) : 2 ^ k < frModulus :=
  lt_of_lt_of_le (Nat.pow_lt_pow_right (by norm_num) hk) (by decide +kernel : 2 ^ 32 ≤ frModulus)

theorem newFFTSettings_ok {s : ℕ} (hs : s < 32) : ∃ fs w, newFFTSettings s = some fs ∧ scale2Root s = some w ∧ fs.Ok s w := by
  obtain ⟨w, h1, -, -⟩ := (C08_root_table s).1 hs
  have hp := (scale2Root_prim h1).2
  have he : expandRootOfUnity w = some ((List.range (2 ^ s + 1)).map fun j => w ^ j) := by
    have := expandLoop_ok hp frModulus 1 (by norm_num) (Nat.one_le_two_pow) (by have := two_pow_lt_frModulus hs; have := Nat.one_le_two_pow (n := s); omega)
    simpa [List.range_succ, expandRootOfUnity] using this
  refine ⟨⟨2 ^ s, _, ((List.range (2 ^ s + 1)).map fun j => w ^ j).reverse⟩, w, ?_, h1, ⟨rfl, hp, rfl, rfl, by omega⟩⟩
  rw [newFFTSettings, h1, Option.bind_eq_bind, Option.bind_some, he]
  rfl

theorem newFFTSettings_some {s : ℕ} {fs : FFTSettings Fr} (h : newFFTSettings s = some fs) : s < 32 ∧ ∃ w, scale2Root s = some w ∧ fs.Ok s w := by
  have hs : s < 32 := by
    by_contra hge
    rw [newFFTSettings, (C08_root_table s).2 (by omega)] at h
    cases h
  obtain ⟨fs', w, h1, h2, h3⟩ := newFFTSettings_ok hs
  rw [h] at h1
  cases h1
  exact ⟨hs, w, h2, h3⟩

/-! ## The transforms -/

theorem simpleFT_eq (vals : List K) (off st : ℕ) (roots : List K) (rst l : ℕ) : simpleFT vals off st roots rst l = simpleFTG1 vals off st roots rst l := by
  unfold simpleFT simpleFTG1
  simp only [smul_eq_mul, mul_comm]

theorem fftRec_eq : ∀ (fuel : ℕ) (vals : List K) (off st : ℕ) (roots : List K) (rst l : ℕ), fftRec fuel vals off st roots rst l = fftG1Rec fuel vals off st roots rst l
  | 0, _, _, _, _, _, _ => rfl
  | fuel + 1, vals, off, st, roots, rst, l => by
    rw [fftRec, fftG1Rec, simpleFT_eq]
    simp only [fftRec_eq fuel, smul_eq_mul, mul_comm]

theorem inplaceFFT_eq (fs : FFTSettings K) (vals : List K) (inv : Bool) : inplaceFFT fs vals inv = fftG1 fs vals inv := by
  unfold inplaceFFT fftG1
  simp only [fftRec_eq, smul_eq_mul, mul_comm]

section
variable {M : Type} [AddCommGroup M] [Module K M]

/-- What the transforms compute. -/
def ftOf (w : K) (k : ℕ) (inv : Bool) (v : ℕ → M) (i : ℕ) : M :=
  if inv then ((2 ^ k : ℕ) : K)⁻¹ • dft w⁻¹ (2 ^ k) v i else dft w (2 ^ k) v i

theorem fftG1_ok {fs : FFTSettings K} {s : ℕ} {w : K} (h : fs.Ok s w) {k : ℕ} (hk : k ≤ s) (vals : List M) (hl : vals.length = 2 ^ k) (inv : Bool) :
    fftG1 fs vals inv = .ok (some ((List.range (2 ^ k)).map (ftOf (w ^ 2 ^ (s - k)) k inv fun j => vals.getD j 0))) := by
  obtain ⟨rootz, h1, h2⟩ := h.rootz hk inv
  have hp : IsPrimitiveRoot (if inv then (w ^ 2 ^ (s - k))⁻¹ else w ^ 2 ^ (s - k)) (2 ^ k) := by
    cases inv
    · exact h.sub_root hk
    · exact (h.sub_root hk).inv
  have hr := fftG1Rec_ok 64 k (by have := h.small; omega) hp (vals := vals) (off := 0) (st := 1) (by rw [hl]; omega) h2
  have hle : 2 ^ k ≤ 2 ^ s := Nat.pow_le_pow_right (by norm_num) hk
  have hne : 2 ^ k ≠ 0 := by positivity
  rw [fftG1]
  simp only [hl, h.width, isPowerOfTwo_pow]
  rw [if_neg (by omega), if_neg (by simp), if_neg hne]
  rw [h.width] at h1 hr
  rw [h1]
  simp only [bind, Except.bind]
  rw [hr]
  simp only [pure, Except.pure, zero_add, mul_one]
  cases inv
  · rfl
  · simp only [if_true, List.map_map]
    rfl

theorem ftOf_inv {w : K} {k : ℕ} (hw : IsPrimitiveRoot w (2 ^ k)) (inv : Bool) (v : ℕ → M) (m : ℕ) (hm : m < 2 ^ k) :
    ftOf w k (!inv) (ftOf w k inv v) m = v m := by
  have hn : 0 < 2 ^ k := by positivity
  have h0 := natCast_ne_zero_of_root hw hn
  cases inv
  · have e : ftOf w k false v = dft w (2 ^ k) v := by funext i; simp [ftOf]
    rw [e]
    simp only [ftOf, Bool.not_false, if_true]
    rw [dft_inv hw hn v m hm, smul_smul, inv_mul_cancel₀ h0, one_smul]
  · have e : ftOf w k true v = fun i => ((2 ^ k : ℕ) : K)⁻¹ • dft w⁻¹ (2 ^ k) v i := by funext i; simp [ftOf]
    rw [e]
    simp only [ftOf, Bool.not_true, Bool.false_eq_true, if_false]
    rw [dft_smul, dft_inv' hw hn v m hm, smul_smul, inv_mul_cancel₀ h0, one_smul]

theorem ftOf_congr {w : K} {k : ℕ} {inv : Bool} {v v' : ℕ → M} (h : ∀ j < 2 ^ k, v j = v' j) (i : ℕ) : ftOf w k inv v i = ftOf w k inv v' i := by
  unfold ftOf
  rw [dft_congr h, dft_congr h]

theorem getD_map_range {α : Type*} (f : ℕ → α) (n j : ℕ) (d : α) (hj : j < n) : ((List.range n).map f).getD j d = f j := by
  simp [List.getD, List.getElem?_range hj]

theorem map_range_getD {α : Type*} (l : List α) (n : ℕ) (d : α) (hl : l.length = n) : (List.range n).map (fun j => l.getD j d) = l := by
  subst hl
  refine List.ext_getElem (by simp) fun i h1 h2 => ?_
  simp [List.getD, List.getElem?_eq_getElem h2]

/-- Transforming forth and back. -/
theorem fftG1_inv {fs : FFTSettings K} {s : ℕ} {w : K} (h : fs.Ok s w) {k : ℕ} (hk : k ≤ s) (vals : List M) (hl : vals.length = 2 ^ k) (inv : Bool)
    {out : List M} (ho : fftG1 fs vals inv = .ok (some out)) : out.length = 2 ^ k ∧ fftG1 fs out (!inv) = .ok (some vals) := by
  rw [fftG1_ok h hk vals hl inv] at ho
  cases ho
  have hlen : ((List.range (2 ^ k)).map (ftOf (w ^ 2 ^ (s - k)) k inv fun j => vals.getD j 0)).length = 2 ^ k := by simp
  refine ⟨hlen, ?_⟩
  rw [fftG1_ok h hk _ hlen]
  congr 2
  conv_rhs => rw [← map_range_getD vals (2 ^ k) 0 hl]
  refine List.map_congr_left fun m hm => ?_
  rw [List.mem_range] at hm
  rw [ftOf_congr (v' := ftOf (w ^ 2 ^ (s - k)) k inv fun j => vals.getD j 0) fun j hj => getD_map_range _ _ _ _ hj]
  exact ftOf_inv (h.sub_root hk) inv _ m hm

end

end DyCAPS
