import Verif.Lemmas.ProactRun
import Verif.Props.ShareReduce

/-!
# C26-C30, C55: Proactivize and ShareDist

`b` is the polynomial shared before the refresh, `q j` the polynomial contributed by party `j`. Knowledge of the points in a message as
combinations of the setup elements is expressed by polynomials; the alternative to a claim is always an explicit nonzero polynomial
vanishing at the setup secret `t`.
-/

set_option linter.unusedSectionVars false

namespace DyCAPS

open Polynomial

section
variable {G1 G2 GT : Type} [AddCommGroup G1] [Module Fr G1] [AddCommGroup G2] [Module Fr G2] [AddCommGroup GT] [Module Fr GT]
variable [DecidableEq G1] [DecidableEq GT]

/-! ### C26 -/

theorem exists_described (F : ℕ) (hr : 2 * F + 1 < frModulus) (r : CommitRep) (hb : r.Bounded F) : ∃ q, r.Describes F q := by
  choose a ha using fun i => exists_interp (2 * F) hr (fun k => (r.cz k + r.gf k).coeff i)
  refine ⟨a, fun k hk1 hk2 => ?_⟩
  ext i
  rw [coeff_polyOf]
  by_cases hi : i < F + 1
  · rw [sliceX_getD _ _ _ _ _ hi]; exact ha i k hk1 hk2
  · rw [List.getD_eq_default _ _ (by rw [sliceX_length]; omega), coeff_eq_zero_of_degree_lt]
    have : (r.cz k + r.gf k).degree < (F + 1 : ℕ) := lt_of_le_of_lt (degree_add_le _ _) (max_lt (hb k).1 (hb k).2)
    exact lt_of_lt_of_le this (by exact_mod_cast Nat.le_of_not_lt hi)

/-- **C26.** If a Commit message is accepted then the stored row consists of commitments to `Q(·,1), …, Q(·,N)` for the one bivariate
polynomial `Q` the message describes, and `Q(0,0) = 0` — or the sender knows a nonzero polynomial that vanishes at the setup secret. -/
theorem C26_zero_sharing (codec : PointCodec G1) (pp : Pairing Fr G1 G2 GT) (t : Fr) (p : Party G1 G2) (hp : p.Setup pp t)
    (hF : 1 ≤ p.F) (hN : 3 * p.F + 1 ≤ p.N) (hr : 2 * p.F + 1 < frModulus) (row row' : ℕ → G1) (m : PCommit)
    (h : verifyCommit codec pp p row m = .ok (row', true)) (r : CommitRep) (q : ℕ → ℕ → Fr) (hq : r.Describes p.F q)
    (halg : ∀ k < 2 * p.F + 1, ∀ c, commitEntry codec m k = .ok c →
      c.CZj = (r.cz (k + 1)).eval t • pp.g1 ∧ c.WZ0 = (r.wz (k + 1)).eval t • pp.g1 ∧ c.gFj = (r.gf (k + 1)).eval t • pp.g1) :
    (CommitsTo pp t p.F p.N q row' ∧ biVal q p.F (2 * p.F) 0 0 = 0) ∨ r.Reveals p.F t := by
  obtain ⟨c, hc1, hc2, hc3, hc4, hc5⟩ := verifyCommit_true codec pp t p hp hF row row' m h
  have halg' : ∀ k, 1 ≤ k → k ≤ 2 * p.F + 1 → (c k).CZj = (r.cz k).eval t • pp.g1 ∧ (c k).WZ0 = (r.wz k).eval t • pp.g1 ∧
      (c k).gFj = (r.gf k).eval t • pp.g1 := by
    intro k h1 h2
    have := halg (k - 1) (by omega) _ (hc1 (k - 1) (by omega))
    rwa [Nat.sub_add_cancel h1] at this
  have hcom : CommitsTo pp t p.F p.N q row' := by
    apply row_commits pp t p hp hN hr q row' (fun k => (c k).CBj) _ hc4 hc5
    intro k h1 h2
    beta_reduce
    rw [(hc2 k h1 h2).1, (halg' k h1 h2).1, (halg' k h1 h2).2.2, ← add_smul, ← eval_polyOf, hq k h1 h2, eval_add]
  by_cases hrev : r.Reveals p.F t
  · exact Or.inr hrev
  left
  refine ⟨hcom, ?_⟩
  unfold CommitRep.Reveals at hrev
  push Not at hrev
  obtain ⟨hz, hs⟩ := hrev
  have hcz : ∀ k, 1 ≤ k → k ≤ 2 * p.F + 1 → (r.cz k).eval 0 = 0 := by
    intro k h1 h2
    have he : (r.cz k - X * r.wz k).eval t = 0 := by
      have := (hc2 k h1 h2).2
      rw [(halg' k h1 h2).1, (halg' k h1 h2).2.1, smul_smul] at this
      rw [eval_sub, eval_mul, eval_X, smul_g1_inj pp this, sub_self]
    have h0 : r.cz k - X * r.wz k = 0 := by
      by_contra hne
      exact hz k h1 h2 hne he
    have := congrArg (eval 0) h0
    simpa using this
  have hgf : ∑ i ∈ Finset.range (2 * p.F + 1), lagrangeCoeff (firstIndices (2 * p.F + 1)) (0 : Fr) (2 * p.F) i * (r.gf (i + 1)).eval 0 = 0 := by
    have he : (∑ i ∈ Finset.range (2 * p.F + 1), C (lagrangeCoeff (firstIndices (2 * p.F + 1)) (0 : Fr) (2 * p.F) i) * r.gf (i + 1)).eval t = 0 := by
      have h3 : (∑ i ∈ Finset.range (2 * p.F + 1), lagrangeCoeff (firstIndices (2 * p.F + 1)) (0 : Fr) (2 * p.F) i * (r.gf (i + 1)).eval t) •
          pp.g1 = (0 : Fr) • pp.g1 := by
        rw [zero_smul, Finset.sum_smul, ← hc3]
        apply Finset.sum_congr rfl
        intro i hi
        rw [Finset.mem_range] at hi
        rw [(halg' (i + 1) (by omega) (by omega)).2.2, smul_smul]
      have := smul_g1_inj pp h3
      rw [eval_finsetSum]
      refine Eq.trans (Finset.sum_congr rfl fun i _ => ?_) this
      rw [eval_mul, eval_C]
    have h0 : (∑ i ∈ Finset.range (2 * p.F + 1), C (lagrangeCoeff (firstIndices (2 * p.F + 1)) (0 : Fr) (2 * p.F) i) * r.gf (i + 1)) = 0 := by
      by_contra hne
      exact hs hne he
    have := congrArg (eval 0) h0
    rw [eval_finsetSum] at this
    simpa using this
  have hsum := lagrangeCoeff_sum (firstIndices (2 * p.F + 1)) (0 : Fr) (2 * p.F) (polyOf (sliceY q p.F (2 * p.F) 0))
    (by have := degree_polyOf_lt (sliceY q p.F (2 * p.F) 0); rwa [sliceY_length] at this) (distinct_firstIndices _ hr)
  rw [eval_polyOf, polyVal_sliceY] at hsum
  rw [← hsum]
  refine Eq.trans (Finset.sum_congr rfl fun i hi => ?_) hgf
  rw [Finset.mem_range] at hi
  rw [firstIndices_getD _ _ hi, eval_polyOf, polyVal_sliceY, ← polyVal_sliceX, ← eval_polyOf, hq (i + 1) (by omega) (by omega), eval_add,
    hcz (i + 1) (by omega) (by omega), zero_add]

theorem size_commit (codec : PointCodec G1) (F : ℕ) (hF : F ≤ 2 ^ 20) (c : ℕ → PiContent G1) :
    (marshal (commitOf codec F c)).length < 2 ^ 64 := by
  show (encFields (putRep 1 _)).length < _
  have h := size_putRep 1 (by norm_num) ((commitOf codec F c).pi.map marshal) (2 ^ 22) (by
    intro b hb
    obtain ⟨x, hx, rfl⟩ := List.mem_map.1 hb
    obtain ⟨k, hk, rfl⟩ := List.mem_map.1 hx
    rw [mem_oneTo] at hk
    have := size_content codec (c k) k
    have : k + 400 ≤ 2 ^ 22 := by
      have := Nat.mul_le_mul_left 2 hF
      norm_num at this ⊢
      omega
    omega)
  refine lt_of_le_of_lt h ?_
  simp only [commitOf, List.length_map, oneTo_length]
  have : 2 * F + 1 ≤ 2 ^ 22 := by
    have := Nat.mul_le_mul_left 2 hF
    norm_num at this ⊢
    omega
  calc (2 * F + 1) * (2 * 2 ^ 22 + 2) ≤ 2 ^ 22 * (2 * 2 ^ 22 + 2) := Nat.mul_le_mul_right _ this
    _ < 2 ^ 64 := by norm_num

/-- The honest Commit payload. -/
theorem commitMsg_ok (codec : PointCodec G1) (pp : Pairing Fr G1 G2 GT) (t : Fr) (F : ℕ) (c : DealerCoins) :
    commitMsg codec pp (newKZG pp t (F + 1)) F c = .ok (commitOf codec F (honestContent pp t F 0 c)) := by
  unfold commitMsg
  have : (oneTo (2 * F + 1)).mapM (dealerContent pp (newKZG pp t (F + 1)) F 0 c) = .ok ((oneTo (2 * F + 1)).map (honestContent pp t F 0 c)) := by
    have h := dealerPi_ok pp t F 0 c
    unfold dealerPi at h
    cases hm : (oneTo (2 * F + 1)).mapM (dealerContent pp (newKZG pp t (F + 1)) F 0 c) with
    | error e => rw [hm] at h; cases h
    | ok cs =>
      rw [hm, Go.ok_bind] at h
      have := Except.ok.inj h
      unfold honestPi at this
      have := (Pi.mk.inj this).2
      rw [(List.cons.inj this).2]
  rw [this, Go.ok_bind, List.map_map]
  rfl

/-- The content of a dealer message for secret `s` passes the local checks, and its values at 0 sum to `s`. -/
theorem honestContent_conds (pp : Pairing Fr G1 G2 GT) (t : Fr) (F : ℕ) (hr : 2 * F + 1 < frModulus) (s : Fr) (c : DealerCoins) :
    (∀ k, 1 ≤ k → k ≤ 2 * F + 1 → (honestContent pp t F s c k).CBj = (honestContent pp t F s c k).CZj + (honestContent pp t F s c k).gFj ∧
      (honestContent pp t F s c k).CZj = t • (honestContent pp t F s c k).WZ0) ∧
    ∑ i ∈ Finset.range (2 * F + 1), lagrangeCoeff (firstIndices (2 * F + 1)) (0 : Fr) (2 * F) i • (honestContent pp t F s c (i + 1)).gFj = s • pp.g1 := by
  constructor
  · intro k _ _
    simp only [honestContent]
    refine ⟨by rw [dealerB_val, add_smul], ?_⟩
    have := quotVal_mul (dealerZ F c k) 0 t
    rw [dealerZ_zero, sub_zero, sub_zero] at this
    rw [smul_smul, ← this, mul_comm]
  · have hsum := lagrangeCoeff_sum (firstIndices (2 * F + 1)) (0 : Fr) (2 * F) (polyOf (dealerF F s c))
      (by have := degree_polyOf_lt (dealerF F s c); rwa [dealerF_length] at this) (distinct_firstIndices _ hr)
    rw [eval_polyOf, dealerF_zero] at hsum
    refine Eq.trans (Finset.sum_congr rfl fun i hi => ?_) ((Finset.sum_smul ..).symm.trans (congrArg (· • pp.g1) hsum))
    rw [Finset.mem_range] at hi
    rw [firstIndices_getD _ _ hi, eval_polyOf, ← dealerFVal_eq, mul_smul]
    rfl

/-- **C26 (completeness).** The Commit message of a party that follows the protocol is accepted by every party, whatever is in its table,
and the accepted row belongs to a polynomial with `Q(0,0) = 0`, the one with `Q(·,k)` the sender's polynomial number `k`. -/
theorem C26_honest_accepted (codec : PointCodec G1) (pp : Pairing Fr G1 G2 GT) (t : Fr) (p : Party G1 G2) (hp : p.Setup pp t)
    (hF : 1 ≤ p.F) (hF' : p.F ≤ 2 ^ 20) (hN : 3 * p.F + 1 ≤ p.N) (hr : 2 * p.F + 1 < frModulus) (c : DealerCoins) :
    ∃ (m : PCommit) (q : ℕ → ℕ → Fr), commitMsg codec pp (newKZG pp t (p.F + 1)) p.F c = .ok m ∧ biVal q p.F (2 * p.F) 0 0 = 0 ∧
      (∀ k, 1 ≤ k → k ≤ 2 * p.F + 1 → sliceX q p.F (2 * p.F) (k : Fr) = ownQ p.F c k) ∧
      ∀ row, ∃ row', verifyCommit codec pp p row (unmarshalD (⟨[]⟩ : PCommit) (marshal m)) = .ok (row', true) ∧
        CommitsTo pp t p.F p.N q row' := by
  obtain ⟨q, hq1, hq2⟩ := dealer_bivariate p.F 0 c hr
  refine ⟨_, q, commitMsg_ok codec pp t p.F c, ?_, hq1, fun row => ?_⟩
  · rw [← polyVal_sliceY, hq2, dealerF_zero]
  rw [unmarshalD, rt_PCommit _ (size_commit codec p.F hF' _)]
  obtain ⟨row', ok, h1, h2⟩ := verifyCommit_of codec pp t p hp hF hN row (honestContent pp t p.F 0 c)
  obtain ⟨g1, g2⟩ := honestContent_conds pp t p.F hr 0 c
  have hok : ok = true := h2.2 ⟨g1, by rw [g2, zero_smul]⟩
  subst hok
  refine ⟨row', h1, ?_⟩
  obtain ⟨c', hc1, hc2, hc3, hc4, hc5⟩ := verifyCommit_true codec pp t p hp hF row row' _ h1
  apply row_commits pp t p hp hN hr q row' (fun k => (c' k).CBj) _ hc4 hc5
  intro k k1 k2
  have := hc1 (k - 1) (by omega)
  rw [commitEntry_of codec p.F _ (k - 1) (by omega), Nat.sub_add_cancel k1] at this
  have := Except.ok.inj this
  beta_reduce
  rw [← this, hq1 k k1 k2]
  rfl

/-- **C26 (rejection).** A sharing of a nonzero value, otherwise correctly formed, is rejected by every party. -/
theorem C26_nonzero_rejected (codec : PointCodec G1) (pp : Pairing Fr G1 G2 GT) (t : Fr) (p : Party G1 G2) (hp : p.Setup pp t)
    (hF : 1 ≤ p.F) (hN : 3 * p.F + 1 ≤ p.N) (hr : 2 * p.F + 1 < frModulus) (c : DealerCoins) (s : Fr) (hs : s ≠ 0)
    (row : ℕ → G1) : ∃ row', verifyCommit codec pp p row (commitOf codec p.F (honestContent pp t p.F s c)) = .ok (row', false) := by
  obtain ⟨row', ok, h1, h2⟩ := verifyCommit_of codec pp t p hp hF hN row (honestContent pp t p.F s c)
  cases ok with
  | false => exact ⟨row', h1⟩
  | true =>
    exfalso
    have := (h2.1 rfl).2
    rw [(honestContent_conds pp t p.F hr s c).2] at this
    exact hs (smul_g1_inj pp (by rw [this, zero_smul]))

end

end DyCAPS
