import Verif.Lemmas.Proactivize

/-! Lemmas on the Reshare/vote step of Proactivize. -/

set_option linter.unusedSectionVars false

namespace DyCAPS

open Polynomial

theorem linCombFr_ok {K : Type} [Field K] (numbers factors : List K) (h : numbers.length = factors.length) :
    linCombFr numbers factors = .ok (∑ i ∈ Finset.range factors.length, factors.getD i 0 * numbers.getD i 0) := by
  unfold linCombFr
  rw [if_neg (by simpa using h), h]
  have key : ∀ n : ℕ, (List.range n).foldl (fun out i => at0 numbers i * at0 factors i + out) (0 : K) =
      ∑ i ∈ Finset.range n, factors.getD i 0 * numbers.getD i 0 := by
    intro n
    induction n with
    | zero => simp
    | succ n ih => rw [List.range_succ, List.foldl_append, ih, Finset.sum_range_succ]; simp [at0]; ring
  rw [key]

section
variable {G1 G2 GT : Type} [AddCommGroup G1] [Module Fr G1] [AddCommGroup G2] [Module Fr G2] [AddCommGroup GT] [Module Fr GT]

/-- A Reshare message with the given values and witnesses (entries `1..2F+1`). -/
def reshareOf (codec : PointCodec G1) (F : ℕ) (v : ℕ → Fr) (w : ℕ → G1) : PReshare :=
  ⟨(oneTo (2 * F + 1)).map fun k => frTo32 (v k), (oneTo (2 * F + 1)).map fun k => codec.enc (w k)⟩

theorem size_reshare (codec : PointCodec G1) (F : ℕ) (hF : F ≤ 2 ^ 20) (v : ℕ → Fr) (w : ℕ → G1) :
    (marshal (reshareOf codec F v w)).length < 2 ^ 64 := by
  show (encFields (putRep 1 _ ++ putRep 2 _)).length < _
  rw [encFields_append, List.length_append]
  have h1 := size_putRep 1 (by norm_num) ((reshareOf codec F v w).Qk) 48 (by
    intro b hb
    obtain ⟨k, -, rfl⟩ := List.mem_map.1 hb
    rw [(C02_round_trip 0 _).1]; norm_num)
  have h2 := size_putRep 2 (by norm_num) ((reshareOf codec F v w).wQk) 48 (by
    intro b hb
    obtain ⟨k, -, rfl⟩ := List.mem_map.1 hb
    exact codec.enc_len _)
  have l1 : (reshareOf codec F v w).Qk.length = 2 * F + 1 := by simp [reshareOf, oneTo]
  have l2 : (reshareOf codec F v w).wQk.length = 2 * F + 1 := by simp [reshareOf, oneTo]
  rw [l1] at h1
  rw [l2] at h2
  have : (2:ℕ) ^ 20 * 1000 < 2 ^ 64 := by norm_num
  omega

/-- The value a voter sends to party `l`. -/
def voteVal (F : ℕ) (v : ℕ → Fr) (l : ℕ) : Fr :=
  if l ≤ 2 * F + 1 then v l
  else ∑ i ∈ Finset.range (2 * F + 1), lagrangeCoeff (firstIndices (2 * F + 1)) (l : Fr) (2 * F) i * v (i + 1)

/-- The witness a voter sends to party `l`. -/
def voteWit (F : ℕ) (w : ℕ → G1) (l : ℕ) : G1 :=
  if l ≤ 2 * F + 1 then w l
  else ∑ i ∈ Finset.range (2 * F + 1), lagrangeCoeff (firstIndices (2 * F + 1)) (l : Fr) (2 * F) i • w (i + 1)

theorem table_idx (pp : Pairing Fr G1 G2 GT) (t : Fr) (p : Party G1 G2) (hp : p.Setup pp t) (l : ℕ) (hl : l ≤ p.N) :
    idx p.table l = .ok ((List.range (2 * p.F + 1)).map (lagrangeCoeff (firstIndices (2 * p.F + 1)) (l : Fr) (2 * p.F))) := by
  have ht := hp.table
  rw [lagrangeTable_ok] at ht
  rw [← Except.ok.inj ht, idx_of_lt (by simp; omega)]
  simp

variable [DecidableEq G1] [DecidableEq GT]

theorem voteEntry_of (codec : PointCodec G1) (pp : Pairing Fr G1 G2 GT) (t : Fr) (p : Party G1 G2) (hp : p.Setup pp t) (hF : 1 ≤ p.F)
    (CQ : ℕ → G1) (v : ℕ → Fr) (w : ℕ → G1) (k : ℕ) (h1 : 1 ≤ k) (h2 : k ≤ 2 * p.F + 1) :
    voteEntry codec pp p CQ (reshareOf codec p.F v w) k =
      .ok (v k, w k, decide (CQ k - v k • pp.g1 = (t - ((p.pid + 1 : ℕ) : Fr)) • w k)) := by
  unfold voteEntry
  have e1 : idx (reshareOf codec p.F v w).Qk (k - 1) = .ok (frTo32 (v k)) := by
    have : k - 1 < (reshareOf codec p.F v w).Qk.length := by simp [reshareOf, oneTo]; omega
    rw [idx_of_lt this]
    simp [reshareOf, oneTo, Nat.sub_add_cancel h1]
  have e2 : idx (reshareOf codec p.F v w).wQk (k - 1) = .ok (codec.enc (w k)) := by
    have : k - 1 < (reshareOf codec p.F v w).wQk.length := by simp [reshareOf, oneTo]; omega
    rw [idx_of_lt this]
    simp [reshareOf, oneTo, Nat.sub_add_cancel h1]
  rw [e1, Go.ok_bind, e2, Go.ok_bind, decode!_enc, Go.ok_bind]
  simp only [frFrom32_copy]
  rw [hp.kzg, checkProofSingle_ok pp t _ (by omega)]
  rfl

/-- The messages a voter sends after a Reshare message with the given contents. -/
theorem vote_of (codec : PointCodec G1) (pp : Pairing Fr G1 G2 GT) (t : Fr) (tb : Tbls) (p : Party G1 G2) (hp : p.Setup pp t) (hF : 1 ≤ p.F)
    (CQ : ℕ → G1) (j : ℕ) (v : ℕ → Fr) (w : ℕ → G1) :
    vote codec pp tb p CQ j (reshareOf codec p.F v w) =
      .ok (if CQ (2 * p.F + 1) - v (2 * p.F + 1) • pp.g1 = (t - ((p.pid + 1 : ℕ) : Fr)) • w (2 * p.F + 1) then
        (oneTo p.N).map fun l => .recover l ⟨UInt32.ofNat j, frTo32 (voteVal p.F v l), codec.enc (voteWit p.F w l), tb.sign (decimalBytes j)⟩
      else []) := by
  unfold vote
  rw [mapM_ok _ (fun k => (v k, w k, decide (CQ k - v k • pp.g1 = (t - ((p.pid + 1 : ℕ) : Fr)) • w k)))]
  swap
  · intro k hk
    rw [mem_oneTo] at hk
    exact voteEntry_of codec pp t p hp hF CQ v w k hk.1 hk.2
  rw [Go.ok_bind]
  have hlast : ((oneTo (2 * p.F + 1)).map (fun k => (v k, w k, decide (CQ k - v k • pp.g1 = (t - ((p.pid + 1 : ℕ) : Fr)) • w k)))).getLast? =
      some (v (2 * p.F + 1), w (2 * p.F + 1),
        decide (CQ (2 * p.F + 1) - v (2 * p.F + 1) • pp.g1 = (t - ((p.pid + 1 : ℕ) : Fr)) • w (2 * p.F + 1))) := by
    rw [List.getLast?_eq_getElem?]
    simp [oneTo]
  simp only [hlast, decide_eq_true_eq]
  split
  · rename_i hc
    apply mapM_ok
    intro l hl
    rw [mem_oneTo] at hl
    have lv : ∀ l, 1 ≤ l → l ≤ 2 * p.F + 1 → ((oneTo (2 * p.F + 1)).map fun k => v k).getD (l - 1) 0 = v l := by
      intro l a1 a2; rw [oneTo_map_getD _ _ _ _ (by omega), Nat.sub_add_cancel a1]
    have lw : ∀ l, 1 ≤ l → l ≤ 2 * p.F + 1 → ((oneTo (2 * p.F + 1)).map fun k => w k).getD (l - 1) 0 = w l := by
      intro l a1 a2; rw [oneTo_map_getD _ _ _ _ (by omega), Nat.sub_add_cancel a1]
    simp only [List.map_map, Function.comp_def]
    by_cases hle : l ≤ 2 * p.F + 1
    · rw [if_pos hle, lv l hl.1 hle, lw l hl.1 hle, voteVal, voteWit, if_pos hle, if_pos hle]
      rfl
    · rw [if_neg hle, table_idx pp t p hp l hl.2, Go.ok_bind, linCombFr_ok _ _ (by simp [oneTo]), Go.ok_bind,
        linCombG1_ok _ _ (by simp [oneTo]), Go.ok_bind, voteVal, voteWit, if_neg hle, if_neg hle]
      simp only [List.length_map, List.length_range]
      have s1 : ∑ i ∈ Finset.range (2 * p.F + 1), ((List.range (2 * p.F + 1)).map (lagrangeCoeff (firstIndices (2 * p.F + 1)) (l : Fr) (2 * p.F))).getD i 0 *
          ((oneTo (2 * p.F + 1)).map fun k => v k).getD i 0 = ∑ i ∈ Finset.range (2 * p.F + 1), lagrangeCoeff (firstIndices (2 * p.F + 1)) (l : Fr) (2 * p.F) i * v (i + 1) := by
        apply Finset.sum_congr rfl
        intro i hi
        rw [Finset.mem_range] at hi
        rw [range_map_getD _ _ _ _ hi, oneTo_map_getD _ _ _ _ hi]
      have s2 : ∑ i ∈ Finset.range (2 * p.F + 1), ((List.range (2 * p.F + 1)).map (lagrangeCoeff (firstIndices (2 * p.F + 1)) (l : Fr) (2 * p.F))).getD i 0 •
          ((oneTo (2 * p.F + 1)).map fun k => w k).getD i 0 = ∑ i ∈ Finset.range (2 * p.F + 1), lagrangeCoeff (firstIndices (2 * p.F + 1)) (l : Fr) (2 * p.F) i • w (i + 1) := by
        apply Finset.sum_congr rfl
        intro i hi
        rw [Finset.mem_range] at hi
        rw [range_map_getD _ _ _ _ hi, oneTo_map_getD _ _ _ _ hi]
      rw [s1, s2]
      rfl
  · rfl

/-- When the values are those of `Q(i,·)` and the witnesses the proofs of `Q(·,k)` at `i`, what is sent to every party `l` is the value
`Q(i,l)` with the proof for `Q(·,l)`. -/
theorem voteVal_poly (F : ℕ) (hr : 2 * F + 1 < frModulus) (q : ℕ → ℕ → Fr) (i : Fr) (l : ℕ) :
    voteVal F (fun k => biVal q F (2 * F) i (k : Fr)) l = biVal q F (2 * F) i (l : Fr) := by
  unfold voteVal
  split
  · rfl
  · have hsum := lagrangeCoeff_sum (firstIndices (2 * F + 1)) (l : Fr) (2 * F) (polyOf (sliceY q F (2 * F) i))
      (by have := degree_polyOf_lt (sliceY q F (2 * F) i); rwa [sliceY_length] at this) (distinct_firstIndices _ hr)
    rw [eval_polyOf, polyVal_sliceY] at hsum
    rw [← hsum]
    apply Finset.sum_congr rfl
    intro k hk
    rw [Finset.mem_range] at hk
    rw [firstIndices_getD _ _ hk, eval_polyOf, polyVal_sliceY]

theorem voteWit_poly (pp : Pairing Fr G1 G2 GT) (t : Fr) (F : ℕ) (hr : 2 * F + 1 < frModulus) (q : ℕ → ℕ → Fr) (i : Fr) (l : ℕ) :
    voteWit F (fun k : ℕ => quotVal (sliceX q F (2 * F) (k : Fr)) i t • pp.g1) l = quotVal (sliceX q F (2 * F) (l : Fr)) i t • pp.g1 := by
  unfold voteWit
  split
  · rfl
  · have := polyFun_interp (2 * F) _ (polyFun_witness pp q F (2 * F) i t) (firstIndices (2 * F + 1)) (distinct_firstIndices _ hr) (l : Fr)
    rw [← this]
    apply Finset.sum_congr rfl
    intro k hk
    rw [Finset.mem_range] at hk
    rw [firstIndices_getD _ _ hk]

theorem vote_empty (codec : PointCodec G1) (pp : Pairing Fr G1 G2 GT) (tb : Tbls) (p : Party G1 G2) (CQ : ℕ → G1) (j : ℕ) (m : PReshare)
    (out : List POut) (h : vote codec pp tb p CQ j m = .ok out) (hne : out ≠ []) :
    ∃ v w, voteEntry codec pp p CQ m (2 * p.F + 1) = .ok (v, w, true) := by
  unfold vote at h
  cases hm : (oneTo (2 * p.F + 1)).mapM (voteEntry codec pp p CQ m) with
  | error e => rw [hm] at h; cases h
  | ok es =>
    rw [hm, Go.ok_bind] at h
    obtain ⟨g, hg1, hg2⟩ := mapM_ok_inv (0, 0, false) _ _ _ hm
    have hlast : es.getLast? = some (g (2 * p.F + 1)) := by
      rw [hg2, List.getLast?_eq_getElem?]
      simp [oneTo]
    simp only [hlast] at h
    cases hb : (g (2 * p.F + 1)).2.2 with
    | false =>
      rw [hb] at h
      simp at h
      exact absurd h.symm (by simpa using hne)
    | true =>
      refine ⟨(g (2 * p.F + 1)).1, (g (2 * p.F + 1)).2.1, ?_⟩
      rw [hg1 _ (by rw [mem_oneTo]; omega), ← hb]

end

end DyCAPS
