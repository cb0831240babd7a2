import Mathlib.Algebra.Polynomial.Roots
import Mathlib.Data.ZMod.Basic
import Verif.Lemmas.Interp
import Verif.Props.Poly

/-!
# C12, C14 - C17: commitments

`polyVal` is the value of a coefficient list, `sliceX b F (2F) t` the coefficient list of `B(·,t)` for the bivariate
polynomial with coefficient matrix `b`.
-/

set_option linter.unusedSectionVars false

namespace DyCAPS

open Polynomial

variable {G1 G2 GT : Type} [AddCommGroup G1] [Module Fr G1] [AddCommGroup G2] [Module Fr G2]
  [AddCommGroup GT] [Module Fr GT] [DecidableEq GT]

/-- **C14.** Honest openings verify; with the same proof any other value is rejected. `n` is the setup size. -/
theorem C14_completeness (pp : Pairing Fr G1 G2 GT) (s : Fr) (n : ℕ) (hn : 2 ≤ n) (f : List Fr) (hf : f ≠ [])
    (hlen : f.length ≤ n) (x y : Fr) :
    ∃ C W, commitToPoly (newKZG pp s n) f = .ok C ∧ computeProofSingle (newKZG pp s n) f x = .ok W ∧
      checkProofSingle pp (newKZG pp s n) C W x y = .ok (decide (y = polyVal f x)) := by
  classical
  refine ⟨_, _, commitToPoly_ok pp s n f hlen, computeProofSingle_ok pp s n f x hf (by omega), ?_⟩
  rw [checkProofSingle_ok pp s n hn]
  congr 1
  rw [decide_eq_decide, ← sub_smul, smul_smul, mul_comm, quotVal_mul]
  constructor
  · intro h
    have := smul_g1_inj pp h
    linear_combination -this
  · rintro rfl; rfl

/-- **C14.** The unoptimised commitment is the same point. -/
theorem C14_unoptimized (pp : Pairing Fr G1 G2 GT) (s : Fr) (n : ℕ) (f : List Fr) (hlen : f.length ≤ n) :
    commitToPolyUnoptimized (newKZG pp s n) f = commitToPoly (newKZG pp s n) f := by
  rw [commitUnoptimized_ok pp s n f hlen, commitToPoly_ok pp s n f hlen]

/-- Boundary: with a one-element setup (`F = 0`) the verifier panics on every input. -/
theorem C14_F0_panics (pp : Pairing Fr G1 G2 GT) (s : Fr) (C W : G1) (x y : Fr) :
    checkProofSingle pp (newKZG pp s 1) C W x y = .error .panic :=
  checkProofSingle_panic pp s 1 (by norm_num) C W x y

/-- `3 + 5x + 2x²` opened at 4 is 55. -/
example : ∃ C W, commitToPoly (newKZG (Pairing.dlog Fr) (1234 : Fr) 3) ([3, 5, 2] : List Fr) = .ok C ∧
    computeProofSingle (newKZG (Pairing.dlog Fr) (1234 : Fr) 3) ([3, 5, 2] : List Fr) 4 = .ok W ∧
    checkProofSingle (Pairing.dlog Fr) (newKZG (Pairing.dlog Fr) (1234 : Fr) 3) C W 4 55 = .ok true := by
  obtain ⟨C, W, h1, h2, h3⟩ := C14_completeness (Pairing.dlog Fr) 1234 3 (by norm_num) [3, 5, 2] (by simp) (by simp) 4 55
  refine ⟨C, W, h1, h2, ?_⟩
  rw [h3]
  congr 1

/-- **C15.** Algebraic prover: commitment and proof are known combinations `f`, `w` of the setup powers.  If the opening to
`y` is accepted, then `y` is the value of `f`, or the prover holds an explicit non-zero polynomial with the setup secret as a
root (so it can compute the secret). -/
theorem C15_binding_algebraic (pp : Pairing Fr G1 G2 GT) (s : Fr) (n : ℕ) (hn : 2 ≤ n) (f w : Fr[X]) (x y : Fr)
    (h : checkProofSingle pp (newKZG pp s n) (f.eval s • pp.g1) (w.eval s • pp.g1) x y = .ok true) :
    f.eval x = y ∨ ((f - C y - w * (X - C x)) ≠ 0 ∧ (f - C y - w * (X - C x)).eval s = 0) := by
  classical
  rw [checkProofSingle_ok pp s n hn] at h
  have h1 := of_decide_eq_true (Except.ok.inj h)
  rw [← sub_smul, smul_smul] at h1
  have h2 := smul_g1_inj pp h1
  by_cases hz : f - C y - w * (X - C x) = 0
  · left
    have := congrArg (eval x) hz
    simp at this
    linear_combination this
  · right
    refine ⟨hz, ?_⟩
    simp
    linear_combination h2

/-- **C15.** Quantitatively: for fixed `f`, `w`, `x` and a wrong value `y`, the number of setup secrets for which the
opening is accepted is at most `max (deg f) (deg w + 1)`. -/
theorem C15_few_bad_secrets (pp : Pairing Fr G1 G2 GT) (n : ℕ) (hn : 2 ≤ n) (f w : Fr[X]) (x y : Fr) (hy : f.eval x ≠ y) :
    {s : Fr | checkProofSingle pp (newKZG pp s n) (f.eval s • pp.g1) (w.eval s • pp.g1) x y = .ok true}.ncard ≤
      max f.natDegree (w.natDegree + 1) := by
  classical
  set P := f - C y - w * (X - C x) with hP
  have hP0 : P ≠ 0 := by
    intro h
    apply hy
    have := congrArg (eval x) h
    simp [hP] at this
    linear_combination this
  have hsub : {s : Fr | checkProofSingle pp (newKZG pp s n) (f.eval s • pp.g1) (w.eval s • pp.g1) x y = .ok true} ⊆
      (P.roots.toFinset : Set Fr) := by
    intro s hs
    rcases C15_binding_algebraic pp s n hn f w x y hs with h | h
    · exact absurd h hy
    · rw [Finset.mem_coe, Multiset.mem_toFinset, mem_roots hP0]; exact h.2
  calc _ ≤ (P.roots.toFinset : Set Fr).ncard := Set.ncard_le_ncard hsub (Finset.finite_toSet _)
    _ = P.roots.toFinset.card := Set.ncard_coe_finset _
    _ ≤ Multiset.card P.roots := Multiset.toFinset_card_le _
    _ ≤ P.natDegree := card_roots' P
    _ ≤ max f.natDegree (w.natDegree + 1) := by
      apply le_trans (natDegree_sub_le _ _)
      apply max_le_max
      · exact le_trans (natDegree_sub_le _ _) (by simp)
      · exact le_trans natDegree_mul_le (by simp)

/-- **C15.** Any prover: two accepting openings of one commitment at one point to different values yield `g/(s-x)` by a
fixed linear combination of the two proofs (the t-strong-Diffie-Hellman value). -/
theorem C15_two_openings_break_sdh (pp : Pairing Fr G1 G2 GT) (s : Fr) (n : ℕ) (hn : 2 ≤ n) (Cm W W' : G1) (x y y' : Fr)
    (hy : y ≠ y') (h : checkProofSingle pp (newKZG pp s n) Cm W x y = .ok true)
    (h' : checkProofSingle pp (newKZG pp s n) Cm W' x y' = .ok true) :
    s ≠ x ∧ (y' - y)⁻¹ • (W - W') = (s - x)⁻¹ • pp.g1 := by
  classical
  rw [checkProofSingle_ok pp s n hn] at h h'
  have h1 := of_decide_eq_true (Except.ok.inj h)
  have h2 := of_decide_eq_true (Except.ok.inj h')
  have h3 : (y' - y) • pp.g1 = (s - x) • (W - W') := by
    rw [smul_sub, ← h1, ← h2, sub_smul]; abel
  have hy' : y' - y ≠ 0 := sub_ne_zero.2 (Ne.symm hy)
  have hs : s ≠ x := by
    rintro rfl
    rw [sub_self, zero_smul] at h3
    have : y' - y = 0 := smul_g1_inj pp (by rw [h3, zero_smul])
    exact hy' this
  refine ⟨hs, ?_⟩
  have hsx : s - x ≠ 0 := sub_ne_zero.2 hs
  have : W - W' = (s - x)⁻¹ • (y' - y) • pp.g1 := by rw [h3, smul_smul, inv_mul_cancel₀ hsx, one_smul]
  rw [this, smul_smul, smul_smul]
  congr 1
  field_simp

/-- The hypotheses of the previous theorem can be met (in the discrete-log picture, where everybody is unbounded):
commitment 0, point 1, secret 3, opened to 0 and to 2. -/
example : checkProofSingle (Pairing.dlog Fr) (newKZG (Pairing.dlog Fr) 3 2) 0 0 1 0 = .ok true ∧
    checkProofSingle (Pairing.dlog Fr) (newKZG (Pairing.dlog Fr) 3 2) 0 (-1) 1 2 = .ok true := by
  constructor
  · rw [checkProofSingle_ok _ _ _ le_rfl]; simp
  · rw [checkProofSingle_ok _ _ _ le_rfl]; simp [Pairing.dlog]; norm_num

/-- The setup secret that `NewHonestParty` passes to `GenerateTestingSetup`, internal/party/party.go:127
(the decimal literal in the source). -/
def deployedSecret : Fr := (46015081477078601964787943834255776126696019968430095991502055467779756761969 : ℕ)

/-- A proof computed only from public data (the commitment, the point, the wanted value and the literal in the source). -/
def forgeProof (pp : Pairing Fr G1 G2 GT) (Cm : G1) (x y : Fr) : G1 := (deployedSecret - x)⁻¹ • (Cm - y • pp.g1)

/-- **C16 is false.** In the deployed setup every commitment can be opened at every point (but the secret itself) to every
value, by anybody. -/
theorem C16_setup_forgeable (pp : Pairing Fr G1 G2 GT) (F : ℕ) (hF : 1 ≤ F) (Cm : G1) (x y : Fr) (hx : x ≠ deployedSecret) :
    checkProofSingle pp (newKZG pp deployedSecret (F + 1)) Cm (forgeProof pp Cm x y) x y = .ok true := by
  classical
  rw [checkProofSingle_ok pp _ _ (by omega)]
  have : deployedSecret - x ≠ 0 := sub_ne_zero.2 (Ne.symm hx)
  rw [forgeProof, smul_smul, mul_inv_cancel₀ this, one_smul]
  simp

/-- In particular the party indices 1..N are never the secret, so each share of each party can be forged. -/
theorem C16_every_party_point (i : ℕ) (hi : i < 2 ^ 32) : ((i : ℕ) : Fr) ≠ deployedSecret := by
  unfold deployedSecret
  apply fr_natCast_ne
  · exact lt_trans hi (by decide +kernel)
  · decide +kernel
  · intro h
    rw [h] at hi
    exact absurd hi (by decide +kernel)

/-- **C17.** Commitments are linear. -/
theorem C17_commit_linear (pp : Pairing Fr G1 G2 GT) (s : Fr) (n : ℕ) (f g h : List Fr) (c : Fr) (hf : f.length ≤ n)
    (hg : g.length ≤ n) (hh : h.length ≤ n) (hsum : ∀ x, polyVal h x = polyVal f x + c * polyVal g x) :
    ∃ Cf Cg, commitToPoly (newKZG pp s n) f = .ok Cf ∧ commitToPoly (newKZG pp s n) g = .ok Cg ∧
      commitToPoly (newKZG pp s n) h = .ok (Cf + c • Cg) := by
  refine ⟨_, _, commitToPoly_ok pp s n f hf, commitToPoly_ok pp s n g hg, ?_⟩
  rw [commitToPoly_ok pp s n h hh, hsum, add_smul, mul_smul]

/-- **C17.** Linear combinations of accepted openings at one point are accepted. -/
theorem C17_openings_linear (pp : Pairing Fr G1 G2 GT) (s : Fr) (n : ℕ) (hn : 2 ≤ n) (C₁ C₂ W₁ W₂ : G1) (x y₁ y₂ c : Fr)
    (h₁ : checkProofSingle pp (newKZG pp s n) C₁ W₁ x y₁ = .ok true)
    (h₂ : checkProofSingle pp (newKZG pp s n) C₂ W₂ x y₂ = .ok true) :
    checkProofSingle pp (newKZG pp s n) (C₁ + c • C₂) (W₁ + c • W₂) x (y₁ + c * y₂) = .ok true := by
  classical
  rw [checkProofSingle_ok pp s n hn] at h₁ h₂ ⊢
  have e1 := of_decide_eq_true (Except.ok.inj h₁)
  have e2 := of_decide_eq_true (Except.ok.inj h₂)
  congr 1
  rw [decide_eq_true_eq, smul_add, smul_comm (s - x) c, ← e1, ← e2]
  module

/-- Instance: twice an opening of `3 + 5x` at 2 added to itself. -/
example : commitToPoly (newKZG (Pairing.dlog Fr) 7 2) ([9, 15] : List Fr) =
    .ok ((38 : Fr) + (2 : Fr) • (38 : Fr)) := by
  obtain ⟨Cf, Cg, h1, h2, h3⟩ := C17_commit_linear (Pairing.dlog Fr) 7 2 [3, 5] [3, 5] [9, 15] 2 (by simp) (by simp) (by simp)
    (by intro x; simp [polyVal, Finset.sum_range_succ]; ring)
  rw [commitToPoly_ok _ _ _ _ (by simp)] at h1 h2
  have e1 := Except.ok.inj h1
  have e2 := Except.ok.inj h2
  rw [h3, ← e1, ← e2]
  congr 1

/-! ### C12 -/

theorem distinct_firstIndices (d : ℕ) (h : d + 1 < frModulus) : Distinct' d (firstIndices (d + 1) : List Fr) := by
  intro i hi j hj hij
  rw [firstIndices_getD _ _ (by omega), firstIndices_getD _ _ (by omega)]
  exact fr_natCast_ne (by omega) (by omega) (by omega)

/-- **C12.** From the commitments to `B(·,1), …, B(·,2F+1)` the function returns the commitment to `B(·,t)`, for every target
`t` (also beyond the table range). -/
theorem C12_commitments (pp : Pairing Fr G1 G2 GT) (s : Fr) (F N : ℕ) (hN : 3 * F + 1 ≤ N) (hr : 2 * F + 1 < frModulus)
    (b : ℕ → ℕ → Fr) (table : List (List Fr)) (htab : lagrangeTable F N = .ok table) (list : List G1)
    (hlist : list.length = 2 * F + 1)
    (hval : ∀ k, 1 ≤ k → k ≤ 2 * F + 1 →
      commitToPoly (newKZG pp s (F + 1)) (sliceX b F (2 * F) (k : Fr)) = .ok (list.getD (k - 1) 0)) (t : ℕ) :
    interpolateComOrWit F table (2 * F) t list = commitToPoly (newKZG pp s (F + 1)) (sliceX b F (2 * F) (t : Fr)) := by
  rw [commitToPoly_ok pp s _ _ (by rw [sliceX_length])]
  apply interpolateComOrWit_ok F N hN table htab (distinct_firstIndices _ hr) (fun t => polyVal (sliceX b F (2 * F) t) s • pp.g1)
    (polyFun_commit pp b F (2 * F) s) list hlist
  intro k h1 h2
  have := hval k h1 h2
  rw [commitToPoly_ok pp s _ _ (by rw [sliceX_length])] at this
  exact (Except.ok.inj this).symm

/-- **C12.** The same for opening witnesses at a fixed point `x`, from any `2F+1` pairwise distinct known indexes. -/
theorem C12_witnesses (pp : Pairing Fr G1 G2 GT) (s : Fr) (F N : ℕ) (hN : 3 * F + 1 ≤ N) (hr : 2 * F + 1 < frModulus)
    (b : ℕ → ℕ → Fr) (x : Fr) (table : List (List Fr)) (htab : lagrangeTable F N = .ok table) (known : List Fr)
    (hkl : known.length = 2 * F + 1) (hk : DistinctUpTo (2 * F) known) (list : List G1) (hlist : list.length = 2 * F + 1)
    (hval : ∀ i ≤ 2 * F,
      computeProofSingle (newKZG pp s (F + 1)) (sliceX b F (2 * F) (known.getD i 0)) x = .ok (list.getD i 0)) (t : ℕ) :
    interpolateByKnownIndexes F table (2 * F) t known list =
      computeProofSingle (newKZG pp s (F + 1)) (sliceX b F (2 * F) (t : Fr)) x := by
  have hne : ∀ t : Fr, sliceX b F (2 * F) t ≠ [] := fun t h => by
    have := sliceX_length b F (2 * F) t; rw [h] at this; simp at this
  rw [computeProofSingle_ok pp s _ _ _ (hne _) (by rw [sliceX_length]; omega)]
  apply interpolateByKnownIndexes_ok F N hN table htab (distinct_firstIndices _ hr)
    (fun t => quotVal (sliceX b F (2 * F) t) x s • pp.g1) (polyFun_witness pp b F (2 * F) x s) known hkl hk list hlist
  intro i hi
  have := hval i hi
  rw [computeProofSingle_ok pp s _ _ _ (hne _) (by rw [sliceX_length]; omega)] at this
  exact (Except.ok.inj this).symm

/-- **C12.** Commitments from arbitrary known indexes. -/
theorem C12_commitments_known (pp : Pairing Fr G1 G2 GT) (s : Fr) (F N : ℕ) (hN : 3 * F + 1 ≤ N) (hr : 2 * F + 1 < frModulus)
    (b : ℕ → ℕ → Fr) (table : List (List Fr)) (htab : lagrangeTable F N = .ok table) (known : List Fr)
    (hkl : known.length = 2 * F + 1) (hk : DistinctUpTo (2 * F) known) (list : List G1) (hlist : list.length = 2 * F + 1)
    (hval : ∀ i ≤ 2 * F,
      commitToPoly (newKZG pp s (F + 1)) (sliceX b F (2 * F) (known.getD i 0)) = .ok (list.getD i 0)) (t : ℕ) :
    interpolateByKnownIndexes F table (2 * F) t known list =
      commitToPoly (newKZG pp s (F + 1)) (sliceX b F (2 * F) (t : Fr)) := by
  rw [commitToPoly_ok pp s _ _ (by rw [sliceX_length])]
  apply interpolateByKnownIndexes_ok F N hN table htab (distinct_firstIndices _ hr)
    (fun t => polyVal (sliceX b F (2 * F) t) s • pp.g1) (polyFun_commit pp b F (2 * F) s) known hkl hk list hlist
  intro i hi
  have := hval i hi
  rw [commitToPoly_ok pp s _ _ (by rw [sliceX_length])] at this
  exact (Except.ok.inj this).symm

/-- Instance for `F = 1`, `N = 4`, `B(x,y) = 1 + x·y²`: the three commitments `g^{1+s k²}` give the fourth. -/
example : ∃ table, (lagrangeTable 1 4 : Go (List (List Fr))) = .ok table ∧
    interpolateComOrWit 1 table 2 4 ([1 + 5 * 1, 1 + 5 * 4, 1 + 5 * 9] : List Fr) = .ok (1 + 5 * 16) := by
  refine ⟨_, lagrangeTable_ok 1 4, ?_⟩
  have h := C12_commitments (Pairing.dlog Fr) 5 1 4 (by norm_num) (by decide +kernel)
    (fun i j => if i = 0 ∧ j = 0 then 1 else if i = 1 ∧ j = 2 then 1 else 0) _ (lagrangeTable_ok 1 4)
    ([1 + 5 * 1, 1 + 5 * 4, 1 + 5 * 9] : List Fr) rfl (by
      intro k h1 h2
      rw [commitToPoly_ok _ _ _ _ (by rw [sliceX_length]), polyVal_sliceX]
      congr 1
      interval_cases k <;> simp [biVal, Finset.sum_range_succ, Pairing.dlog] <;> norm_num) 4
  rw [commitToPoly_ok _ _ _ _ (by rw [sliceX_length]), polyVal_sliceX] at h
  refine h.trans ?_
  congr 1

/-- `5 + 3x` committed in both ways; the commitment opened at 2 with a proof of degree 1: if the value 12 is accepted, the secret is a root of a known polynomial; this happens for at most two secrets. -/
example (s : Fr) : commitToPolyUnoptimized (newKZG (Pairing.dlog Fr) s 2) ([5, 3] : List Fr) = commitToPoly (newKZG (Pairing.dlog Fr) s 2) ([5, 3] : List Fr) ∧
    (checkProofSingle (Pairing.dlog Fr) (newKZG (Pairing.dlog Fr) s 2) ((C 5 + C 3 * X : Fr[X]).eval s • (Pairing.dlog Fr).g1) ((X : Fr[X]).eval s • (Pairing.dlog Fr).g1) 2 12 = .ok true →
      ((C 5 + C 3 * X : Fr[X]) - C 12 - X * (X - C 2)).eval s = 0) ∧
    {s : Fr | checkProofSingle (Pairing.dlog Fr) (newKZG (Pairing.dlog Fr) s 2) ((C 5 + C 3 * X : Fr[X]).eval s • (Pairing.dlog Fr).g1) ((X : Fr[X]).eval s • (Pairing.dlog Fr).g1) 2 12 = .ok true}.ncard ≤ 2 := by
  have hne : (C 5 + C 3 * X : Fr[X]).eval 2 ≠ 12 := by
    simp only [eval_add, eval_mul, eval_C, eval_X]
    decide +kernel
  refine ⟨C14_unoptimized _ _ _ _ (by simp), fun h => ?_, (C15_few_bad_secrets _ 2 le_rfl _ _ 2 12 hne).trans ?_⟩
  · exact ((C15_binding_algebraic _ s 2 le_rfl _ _ 2 12 h).resolve_left hne).2
  · have h1 : (C 5 + C 3 * X : Fr[X]).natDegree ≤ 1 := by
      refine (natDegree_add_le _ _).trans (max_le (by simp) ((natDegree_C_mul_le 3 X).trans natDegree_X_le))
    have h2 : (X : Fr[X]).natDegree ≤ 1 := natDegree_X_le
    omega

end DyCAPS
