import Verif.Model.RS
import Verif.Lemmas.Poly
import Verif.Spec.RBC
import Mathlib.LinearAlgebra.Lagrange

/-!
# The Reed-Solomon code gives back what was encoded
-/

namespace DyCAPS

open Polynomial

theorem gfPoint_inj {i j : ℕ} (hi : i < 256) (hj : j < 256) (h : gfPoint i = gfPoint j) : i = j := by
  have := congrArg (fun x : GF => x.byte.toNat) h
  simp only [gfPoint, UInt8.toNat_ofNat'] at this
  omega

/-- The row computes the value of a polynomial at `t` from its values at `xs`. -/
theorem gfRow_eval {xs : List ℕ} (hnd : xs.Nodup) (hlt : ∀ i ∈ xs, i < 256) (hne : xs ≠ []) (t : ℕ) {f : GF[X]} (hf : f.degree < (xs.length : ℕ)) :
    ∑ i ∈ Finset.range xs.length, (gfRow xs t).getD i 0 * f.eval (gfPoint (xs.getD i 0)) = f.eval (gfPoint t) := by
  have hlen : xs.length - 1 + 1 = xs.length := Nat.succ_pred_eq_of_pos (List.length_pos_of_ne_nil hne)
  have hget : ∀ i, i < xs.length → (xs.map gfPoint).getD i 0 = gfPoint (xs.getD i 0) := fun i hi => by
    simp [List.getD_eq_getElem?_getD, hi]
  have hs := lagrangeCoeff_sum (xs.map gfPoint) (gfPoint t) (xs.length - 1) f (by rw [hlen]; exact hf) (by
    intro i hi j hj hij
    have hi' : i < xs.length := by omega
    have hj' : j < xs.length := by omega
    rw [hget i hi', hget j hj', List.getD_eq_getElem _ _ hi', List.getD_eq_getElem _ _ hj']
    intro he
    have := gfPoint_inj (hlt _ (List.getElem_mem hi')) (hlt _ (List.getElem_mem hj')) he
    exact hij ((List.Nodup.getElem_inj_iff hnd).1 this).symm)
  rw [hlen] at hs
  rw [← hs]
  refine Finset.sum_congr rfl fun i hi => ?_
  have hi' := Finset.mem_range.1 hi
  rw [hget i hi']
  congr 1
  simp [gfRow, List.getD_eq_getElem?_getD, hi']

theorem zipWith_sum_gf (row : List GF) (shards : List Bytes) (b : ℕ) (h : row.length = shards.length) :
    (List.zipWith (fun c (s : Bytes) => c * (⟨s.getD b 0⟩ : GF)) row shards).sum = ∑ i ∈ Finset.range row.length, row.getD i 0 * (⟨(shards.getD i []).getD b 0⟩ : GF) := by
  induction row generalizing shards with
  | nil => simp
  | cons c row ih =>
    cases shards with
    | nil => simp at h
    | cons s shards =>
      rw [List.zipWith_cons_cons, List.sum_cons, ih shards (by simpa using h), List.length_cons, Finset.sum_range_succ']
      simp [add_comm]

/-- The shard with number `t` of the codeword with the polynomials `f`. -/
def polyShard (size : ℕ) (f : ℕ → GF[X]) (t : ℕ) : Bytes := (List.range size).map fun b => ((f b).eval (gfPoint t)).byte

theorem polyShard_length (size : ℕ) (f : ℕ → GF[X]) (t : ℕ) : (polyShard size f t).length = size := by simp [polyShard]

theorem codeShard_poly {xs : List ℕ} (hnd : xs.Nodup) (hlt : ∀ i ∈ xs, i < 256) (hne : xs ≠ []) (t size : ℕ) {f : ℕ → GF[X]} (hf : ∀ b, (f b).degree < (xs.length : ℕ)) {shards : List Bytes}
    (hs : shards = xs.map (polyShard size f)) : codeShard (gfRow xs t) shards size = polyShard size f t := by
  subst hs
  unfold codeShard
  rw [polyShard, List.map_inj_left]
  intro b hb
  congr 1
  have hr : (gfRow xs t).length = xs.length := by simp [gfRow]
  rw [zipWith_sum_gf _ _ _ (by simp [hr]), ← gfRow_eval hnd hlt hne t (hf b), hr]
  refine Finset.sum_congr rfl fun i hi => ?_
  have hi' := Finset.mem_range.1 hi
  congr 1
  have hb' := List.mem_range.1 hb
  refine GF.ext' ?_
  simp [List.getD_eq_getElem?_getD, hi', polyShard, hb']

/-- The polynomials through the data shards. -/
noncomputable def dataPoly (k : ℕ) (D : Bytes) (b : ℕ) : GF[X] :=
  Lagrange.interpolate (Finset.range k) gfPoint fun i => ⟨D.getD (i * perShard k D + b) 0⟩

theorem gfPoint_injOn {k : ℕ} (hk : k ≤ 256) : Set.InjOn gfPoint (Finset.range k : Set ℕ) := by
  intro i hi j hj h
  simp only [Finset.coe_range, Set.mem_Iio] at hi hj
  exact gfPoint_inj (by omega) (by omega) h

theorem dataPoly_degree {k : ℕ} (hk : k ≤ 256) (D : Bytes) (b : ℕ) : (dataPoly k D b).degree < (k : ℕ) := by
  have := Lagrange.degree_interpolate_lt (s := Finset.range k) (fun i => (⟨D.getD (i * perShard k D + b) 0⟩ : GF)) (gfPoint_injOn hk)
  simpa [dataPoly] using this

theorem rsSplit_poly {k : ℕ} (hk : k ≤ 256) (D : Bytes) : rsSplit k D = (List.range k).map (polyShard (perShard k D) (dataPoly k D)) := by
  unfold rsSplit
  rw [List.map_inj_left]
  intro i hi
  unfold polyShard
  rw [List.map_inj_left]
  intro b _
  have := Lagrange.eval_interpolate_at_node (s := Finset.range k) (fun i => (⟨D.getD (i * perShard k D + b) 0⟩ : GF)) (gfPoint_injOn hk) (Finset.mem_range.2 (List.mem_range.1 hi))
  rw [dataPoly, this]

theorem rsEncode_poly {k N : ℕ} (h1 : 1 ≤ k) (h2 : k ≤ N) (h3 : N ≤ 256) {D : Bytes} (hD : D ≠ []) :
    rsEncode k N D = some ((List.range N).map (polyShard (perShard k D) (dataPoly k D))) := by
  rw [rsEncode, if_neg hD]
  congr 1
  have e : List.range N = List.range k ++ (List.range (N - k)).map (k + ·) := by
    rw [← List.range_add]
    congr 1
    omega
  rw [e, List.map_append, ← rsSplit_poly (by omega) D, List.map_map]
  congr 1
  rw [List.map_inj_left]
  intro p _
  exact codeShard_poly List.nodup_range (fun i hi => by have := List.mem_range.1 hi; omega) (by
    intro e
    have := congrArg List.length e
    simp at this
    omega) _ _ (fun b => by simpa using dataPoly_degree (by omega) D b) (rsSplit_poly (by omega) D)

theorem perShard_pos {k : ℕ} (h1 : 1 ≤ k) {D : Bytes} (hD : D ≠ []) : 1 ≤ perShard k D := by
  have := List.length_pos_of_ne_nil hD
  rw [perShard, Nat.le_div_iff_mul_le h1]
  omega

theorem perShard_le {k : ℕ} (h1 : 1 ≤ k) {D : Bytes} (hD : D ≠ []) : perShard k D ≤ D.length := by
  have := List.length_pos_of_ne_nil hD
  rw [perShard]
  have : (D.length + k - 1) / k < D.length + 1 := by
    rw [Nat.div_lt_iff_lt_mul h1]
    nlinarith [Nat.sub_lt (show 0 < D.length + k by omega) (show 0 < 1 by omega)]
  omega

theorem perShard_mul {k : ℕ} (h1 : 1 ≤ k) (D : Bytes) : D.length ≤ k * perShard k D := by
  rw [perShard]
  have h := Nat.div_add_mod (D.length + k - 1) k
  have := Nat.mod_lt (D.length + k - 1) h1
  omega

/-- Cutting the rows of a table one after the other is reading it in one go. -/
theorem flatten_rows (g : ℕ → UInt8) (k m : ℕ) : ((List.range k).map fun i => (List.range m).map fun b => g (i * m + b)).flatten = (List.range (k * m)).map g := by
  induction k with
  | zero => simp
  | succ k ih =>
    rw [List.range_succ, List.map_append, List.flatten_append, ih, Nat.succ_mul, List.range_add, List.map_append, List.map_map]
    simp [Function.comp_def]

theorem rsSplit_prefix {k : ℕ} (h1 : 1 ≤ k) (D : Bytes) : D <+: (rsSplit k D).flatten := by
  rw [rsSplit, flatten_rows fun j => D.getD j 0]
  have hle := perShard_mul h1 D
  have e : k * perShard k D = D.length + (k * perShard k D - D.length) := by omega
  rw [e, List.range_add, List.map_append]
  have e2 : (List.range D.length).map (fun j => D.getD j 0) = D := by
    refine List.ext_getElem (by simp) fun i _ hi => ?_
    simp [List.getD_eq_getElem?_getD, hi]
  rw [e2]
  exact List.prefix_append _ _

/-- A set of shards of which none is wrong and `k` are there is completed to the codeword. -/
theorem rsFill_poly {k N size : ℕ} (h1 : 1 ≤ k) (h3 : N ≤ 256) {f : ℕ → GF[X]} (hf : ∀ b, (f b).degree < (k : ℕ)) {M : List Bytes} (hM : M.length = N)
    (hok : ∀ i, i < N → M.getD i [] = polyShard size f i ∨ M.getD i [] = []) (hn : k ≤ (rsPresent N M).length) : rsFill k N M = (List.range N).map (polyShard size f) := by
  have hpres : ∀ i ∈ rsPresent N M, i < N ∧ M.getD i [] = polyShard size f i := fun i hi => by
    have := List.mem_filter.1 hi
    have hlt := List.mem_range.1 this.1
    refine ⟨hlt, (hok i hlt).resolve_right (by simpa using this.2)⟩
  have hsize : (M.getD ((rsPresent N M).headD 0) []).length = size := by
    have : (rsPresent N M).headD 0 ∈ rsPresent N M := by
      cases hp : rsPresent N M with
      | nil => rw [hp] at hn; simp at hn; omega
      | cons a l => simp
    rw [(hpres _ this).2, polyShard_length]
  unfold rsFill
  simp only [hsize]
  have hany : (rsPresent N M).any (fun i => decide ((M.getD i []).length ≠ size)) = false := by
    rw [List.any_eq_false]
    intro i hi
    rw [(hpres i hi).2, polyShard_length]
    simp
  rw [hany]
  simp only [Bool.false_or, Bool.or_eq_true, decide_eq_true_eq]
  by_cases hall : (rsPresent N M).length = N
  · rw [if_pos (Or.inl hall)]
    have hfil : rsPresent N M = List.range N := (List.filter_sublist).eq_of_length (by rw [List.length_range]; exact hall)
    refine List.ext_getElem (by simp [hM]) fun i hi hi' => ?_
    have hiN : i < N := by omega
    have := (hpres i (by rw [hfil]; exact List.mem_range.2 hiN)).2
    rw [List.getD_eq_getElem _ _ hi] at this
    simp [this]
  · rw [if_neg (by omega)]
    rw [List.map_inj_left]
    intro i hi
    have hiN := List.mem_range.1 hi
    split_ifs with hemp
    · exact (hok i hiN).resolve_right hemp
    · have hlen : ((rsPresent N M).take k).length = k := by simp [hn]
      have hsub : ∀ j ∈ (rsPresent N M).take k, j ∈ rsPresent N M := fun j hj => List.mem_of_mem_take hj
      refine codeShard_poly ?_ (fun j hj => by have := (hpres j (hsub j hj)).1; omega) (fun e => by rw [e] at hlen; simp at hlen; omega) i size (fun b => by rw [hlen]; exact hf b) ?_
      · exact (List.take_sublist _ _).nodup (List.Nodup.filter _ List.nodup_range)
      · rw [List.map_inj_left]
        exact fun j hj => (hpres j (hsub j hj)).2

theorem rsFill_length {k N : ℕ} {M : List Bytes} (hM : M.length = N) : (rsFill k N M).length = N := by
  unfold rsFill
  dsimp only
  split_ifs
  · exact hM
  · simp

theorem rsFill_keep {k N : ℕ} {M : List Bytes} (hM : M.length = N) (i : ℕ) (h : M.getD i [] ≠ []) : (rsFill k N M).getD i [] = M.getD i [] := by
  unfold rsFill
  dsimp only
  split_ifs
  · rfl
  · have hi : i < N := by
      by_contra hc
      exact h (List.getD_eq_default _ _ (by omega))
    rw [List.getD_eq_getElem _ _ (by simpa using hi), List.getElem_map, List.getElem_range, if_pos h]

theorem rsFill_few {k N : ℕ} {M : List Bytes} (h : (rsPresent N M).length < k) : rsFill k N M = M := by
  unfold rsFill
  dsimp only
  rw [if_pos (by simp [h])]

theorem rsEncode_getD {k N : ℕ} (h1 : 1 ≤ k) (h2 : k ≤ N) (h3 : N ≤ 256) {D : Bytes} (hD : D ≠ []) {sh : List Bytes} (h : rsEncode k N D = some sh) {i : ℕ} (hi : i < N) :
    sh.getD i [] = polyShard (perShard k D) (dataPoly k D) i := by
  rw [rsEncode_poly h1 h2 h3 hD] at h
  obtain rfl := Option.some.inj h
  simp [List.getD_eq_getElem?_getD, hi]

/-- The contract of the library holds for committees of at most 256 members. -/
theorem rsCode_ok {N F : ℕ} (hs : 3 * F + 1 ≤ N) (h2 : 2 ≤ N) (h3 : N ≤ 256) {sha : Bytes → Bytes} (hsha : ∀ x, (sha x).length = 32) (spare : Bytes → Bytes) :
    (⟨N, F, sha, rsCode N F, spare⟩ : REnv).Ok := by
  have hk : 1 ≤ N - (F + 1) := by omega
  have hkN : N - (F + 1) ≤ N := by omega
  have hc : rsCode N F = ⟨rsEncode (N - (F + 1)) N, rsFill (N - (F + 1)) N⟩ := if_neg (by omega)
  have hne : ∀ {D sh}, rsEncode (N - (F + 1)) N D = some sh → D ≠ [] := fun {D sh} h e => by rw [e, rsEncode, if_pos rfl] at h; cases h
  rw [hc]
  refine ⟨hs, hsha, ?_, ?_, ?_, ?_, ?_, ?_, ?_, ?_⟩
  · intro D
    show rsEncode _ _ D = none ↔ _
    rw [rsEncode]
    by_cases h : D = [] <;> simp [h]
  · intro D sh h
    replace h : rsEncode (N - (F + 1)) N D = some sh := h
    rw [rsEncode_poly hk hkN h3 (hne h)] at h
    obtain rfl := Option.some.inj h
    simp
  · intro D sh h x hx
    have hD := hne h
    replace h : rsEncode (N - (F + 1)) N D = some sh := h
    rw [rsEncode_poly hk hkN h3 hD] at h
    obtain rfl := Option.some.inj h
    obtain ⟨i, _, rfl⟩ := List.mem_map.1 hx
    rw [polyShard_length]
    exact ⟨perShard_pos hk hD, perShard_le hk hD⟩
  · intro D sh h
    have hD := hne h
    replace h : rsEncode (N - (F + 1)) N D = some sh := h
    rw [rsEncode, if_neg hD] at h
    obtain rfl := Option.some.inj h
    show D <+: (List.take (N - (F + 1)) _).flatten
    rw [List.take_append_of_le_length (by simp [rsSplit]), List.take_of_length_le (by simp [rsSplit])]
    exact rsSplit_prefix hk D
  · intro D sh M h hM hok hn
    have hD := hne h
    have hsh := fun {i} => rsEncode_getD hk hkN h3 hD h (i := i)
    show rsFill _ _ M = sh
    rw [rsFill_poly hk h3 (f := dataPoly (N - (F + 1)) D) (fun b => dataPoly_degree (by omega) D b) hM (fun i hi => by rw [← hsh hi]; exact hok i hi) hn]
    exact (Option.some.inj (h.symm.trans (rsEncode_poly hk hkN h3 hD))).symm
  · exact fun M hM i h => rsFill_keep hM i h
  · exact fun M hM => rsFill_length hM
  · exact fun M _ h => rsFill_few h

end DyCAPS
