import Verif.Props.Secrecy
import Verif.Props.Epoch

/-!
# C88, C89: secrecy across a hand-off

C88: the shares of both epochs together. C89: what parties of both committees learn while the hand-off runs.
-/

set_option linter.unusedSectionVars false

namespace DyCAPS

open Polynomial

/-! ### Adding a polynomial with given zeros -/

/-- `e · ∏_{i ∈ S} (1 - x/i) · ∏_{j ∈ J} (1 - y/j)`: value `e` at `(0,0)`, zero for `x ∈ S` and for `y ∈ J`. -/
noncomputable def mask (S J : Finset ℕ) (e : Fr) : ℕ → ℕ → Fr := fun i l => e * (rootPoly S).coeff i * (rootPoly J).coeff l

theorem mask_zero (S J : Finset ℕ) (e : Fr) : mask S J e 0 0 = e := by simp [mask, rootPoly_zero]

theorem sliceY_mask (F : ℕ) (S J : Finset ℕ) (e : Fr) (b : ℕ → ℕ → Fr) (hS : S.card ≤ F) (i : ℕ) (hi : i ∈ S) (h1 : 1 ≤ i) (h2 : i < frModulus) :
    sliceY (fun a l => b a l + mask S J e a l) F (2 * F) (i : Fr) = sliceY b F (2 * F) (i : Fr) := by
  simp only [sliceY]
  apply List.map_congr_left
  intro l _
  simp only [add_mul, Finset.sum_add_distrib]
  have : ∑ x ∈ Finset.range (F + 1), mask S J e x l * (i : Fr) ^ x = e * (rootPoly J).coeff l * ∑ x ∈ Finset.range (F + 1), (rootPoly S).coeff x * (i : Fr) ^ x := by
    rw [Finset.mul_sum]
    exact Finset.sum_congr rfl fun x _ => by simp only [mask]; ring
  rw [this, rootPoly_root S i hi h1 h2 F hS, mul_zero, add_zero]

theorem sliceX_mask (F : ℕ) (S J : Finset ℕ) (e : Fr) (b : ℕ → ℕ → Fr) (hJ : J.card ≤ 2 * F) (j : ℕ) (hj : j ∈ J) (h1 : 1 ≤ j) (h2 : j < frModulus) :
    sliceX (fun a l => b a l + mask S J e a l) F (2 * F) (j : Fr) = sliceX b F (2 * F) (j : Fr) := by
  simp only [sliceX]
  apply List.map_congr_left
  intro i _
  simp only [add_mul, Finset.sum_add_distrib]
  have : ∑ x ∈ Finset.range (2 * F + 1), mask S J e i x * (j : Fr) ^ x = e * (rootPoly S).coeff i * ∑ x ∈ Finset.range (2 * F + 1), (rootPoly J).coeff x * (j : Fr) ^ x := by
    rw [Finset.mul_sum]
    exact Finset.sum_congr rfl fun x _ => by simp only [mask]; ring
  rw [this, rootPoly_root J j hj h1 h2 (2 * F) hJ, mul_zero, add_zero]

theorem coinShift_neg (F : ℕ) (d d' : ℕ → ℕ → Fr) (h : ∀ i l, d' i l = - d i l) : coinShift F d' = - coinShift F d := by
  refine Prod.ext (funext fun m => ?_) (funext fun k => funext fun j => ?_)
  · simp only [coinShift, Prod.fst_neg, Pi.neg_apply, h]
  · simp only [coinShift, Prod.snd_neg, Pi.neg_apply, ← Finset.sum_neg_distrib, h]
    exact Finset.sum_congr rfl fun x _ => by ring

theorem sum_update (J : List ℕ) (h : ℕ) (hJ : J.Nodup) (hh : h ∈ J) (f : ℕ → Fr) (x y : Fr) :
    (J.map fun j => if j = h then x + y else f j).sum = (J.map fun j => if j = h then x else f j).sum + y := by
  induction J with
  | nil => simp at hh
  | cons a J ih =>
    rw [List.nodup_cons] at hJ
    rw [List.map_cons, List.map_cons, List.sum_cons, List.sum_cons]
    by_cases ha : a = h
    · subst ha
      rw [if_pos rfl, if_pos rfl]
      have : ∀ z : Fr, (J.map fun j => if j = a then z else f j) = J.map f := fun z => List.map_congr_left fun j hj => if_neg fun e : j = a => hJ.1 (by rw [← e]; exact hj)
      rw [this, this]
      ring
    · rw [if_neg ha, if_neg ha, ih hJ.2 ((List.mem_cons.1 hh).resolve_left fun e => ha e.symm)]
      ring

/-! ### C88 -/

/-- The contributions of a refresh: `q` from party `h`, `others j` from every other `j`. -/
def withOwn (h : ℕ) (q : ℕ → ℕ → Fr) (others : ℕ → ℕ → ℕ → Fr) : ℕ → ℕ → ℕ → Fr := fun j => if j = h then q else others j

/-- Indices of parties. -/
def Indices (S : Finset ℕ) : Prop := ∀ i ∈ S, 1 ≤ i ∧ i < frModulus

/-- What is seen of two epochs: a dealing of `s` with coins `c` and a refresh with the contributions `J`, of which party `h` chose its own with coins `ch`. Before the refresh the full shares
of `S` and the reduced shares of `K`, after it the full shares of `S'` and the reduced shares of `K'`. -/
def EpochsView (F : ℕ) (s : Fr) (c ch : DealerCoins) (h : ℕ) (others : ℕ → ℕ → ℕ → Fr) (J : List ℕ) (S K S' K' : Finset ℕ) (full red full' red' : ℕ → List Fr) : Prop :=
  ∃ b q, Deals F s c b ∧ Deals F 0 ch q ∧
    (∀ i ∈ S, sliceY b F (2 * F) (i : Fr) = full i) ∧ (∀ j ∈ K, sliceX b F (2 * F) (j : Fr) = red j) ∧
    (∀ i ∈ S', sliceY (refreshed b (withOwn h q others) J) F (2 * F) (i : Fr) = full' i) ∧
    ∀ j ∈ K', sliceX (refreshed b (withOwn h q others) J) F (2 * F) (j : Fr) = red' j

theorem refreshed_shift (b q : ℕ → ℕ → Fr) (f g : ℕ → ℕ → Fr) (h : ℕ) (others : ℕ → ℕ → ℕ → Fr) (J : List ℕ) (hJ : J.Nodup) (hh : h ∈ J) :
    refreshed (fun i l => b i l + f i l) (withOwn h (fun i l => q i l + (g i l - f i l)) others) J = fun i l => refreshed b (withOwn h q others) J i l + g i l := by
  funext i l
  simp only [refreshed, withOwn]
  have e : ∀ Q : ℕ → ℕ → Fr, (J.map fun j => (if j = h then Q else others j) i l) = J.map fun j => if j = h then Q i l else others j i l := by
    intro Q
    apply List.map_congr_left
    intro j _
    split <;> rfl
  rw [e, e, sum_update J h hJ hh]
  ring

/-- The change of the coins that turns secret `s` into `s + e` and cannot be seen. -/
noncomputable def hide (F : ℕ) (S K S' K' : Finset ℕ) (e : Fr) : CoinSpace F × CoinSpace F :=
  (coinShift F (mask S K e), coinShift F fun i l => mask S' K' e i l - mask S K e i l)

theorem hide_neg (F : ℕ) (S K S' K' : Finset ℕ) (e : Fr) : hide F S K S' K' (-e) = - hide F S K S' K' e := by
  refine Prod.ext ?_ ?_
  · exact coinShift_neg F (mask S K e) (mask S K (-e)) fun i l => by simp only [mask]; ring
  · exact coinShift_neg F (fun i l => mask S' K' e i l - mask S K e i l) (fun i l => mask S' K' (-e) i l - mask S K (-e) i l) fun i l => by simp only [mask]; ring

theorem epochsView_hide (F : ℕ) (h : ℕ) (others : ℕ → ℕ → ℕ → Fr) (J : List ℕ) (hJ : J.Nodup) (hh : h ∈ J) (S K S' K' : Finset ℕ)
    (hS : S.card ≤ F) (hK : K.card ≤ 2 * F) (hS' : S'.card ≤ F) (hK' : K'.card ≤ 2 * F) (iS : Indices S) (iK : Indices K) (iS' : Indices S') (iK' : Indices K')
    (s e : Fr) (full red full' red' : ℕ → List Fr) (r : CoinSpace F × CoinSpace F)
    (hv : EpochsView F s (coinsOf F r.1) (coinsOf F r.2) h others J S K S' K' full red full' red') :
    EpochsView F (s + e) (coinsOf F (r + hide F S K S' K' e).1) (coinsOf F (r + hide F S K S' K' e).2) h others J S K S' K' full red full' red' := by
  obtain ⟨b, q, d1, d2, v1, v2, v3, v4⟩ := hv
  have e1 := deals_shift F s (mask S K e) r.1 b d1
  have e2 := deals_shift F 0 (fun i l => mask S' K' e i l - mask S K e i l) r.2 q d2
  rw [mask_zero] at e1
  simp only [mask_zero, sub_self, add_zero] at e2
  refine ⟨_, _, e1, e2, fun i hi => ?_, fun j hj => ?_, fun i hi => ?_, fun j hj => ?_⟩
  · rw [← v1 i hi, sliceY_mask F S K e b hS i hi (iS i hi).1 (iS i hi).2]
  · rw [← v2 j hj, sliceX_mask F S K e b hK j hj (iK j hj).1 (iK j hj).2]
  · rw [← v3 i hi, refreshed_shift b q _ _ h others J hJ hh, sliceY_mask F S' K' e _ hS' i hi (iS' i hi).1 (iS' i hi).2]
  · rw [← v4 j hj, refreshed_shift b q _ _ h others J hJ hh, sliceX_mask F S' K' e _ hK' j hj (iK' j hj).1 (iK' j hj).2]

/-- **C88.** `F` full and `2F` reduced shares of the old epoch together with `F` full and `2F` reduced shares of the new epoch, of any parties: if one of the contributions used was chosen at
random by a party (and the adversary has not seen it), any two secrets explain what is seen by the same number of random choices. The other contributions are arbitrary. -/
theorem C88_epochs_hide (F : ℕ) (h : ℕ) (others : ℕ → ℕ → ℕ → Fr) (J : List ℕ) (hJ : J.Nodup) (hh : h ∈ J) (S K S' K' : Finset ℕ)
    (hS : S.card ≤ F) (hK : K.card ≤ 2 * F) (hS' : S'.card ≤ F) (hK' : K'.card ≤ 2 * F) (iS : Indices S) (iK : Indices K) (iS' : Indices S') (iK' : Indices K')
    (s s' : Fr) (full red full' red' : ℕ → List Fr) :
    Nat.card {r : CoinSpace F × CoinSpace F // EpochsView F s (coinsOf F r.1) (coinsOf F r.2) h others J S K S' K' full red full' red'} =
      Nat.card {r : CoinSpace F × CoinSpace F // EpochsView F s' (coinsOf F r.1) (coinsOf F r.2) h others J S K S' K' full red full' red'} := by
  have key : ∀ a a' : Fr, ∀ r : CoinSpace F × CoinSpace F, EpochsView F a (coinsOf F r.1) (coinsOf F r.2) h others J S K S' K' full red full' red' →
      EpochsView F a' (coinsOf F (r + hide F S K S' K' (a' - a)).1) (coinsOf F (r + hide F S K S' K' (a' - a)).2) h others J S K S' K' full red full' red' := by
    intro a a' r hv
    have := epochsView_hide F h others J hJ hh S K S' K' hS hK hS' hK' iS iK iS' iK' a (a' - a) full red full' red' r hv
    rwa [add_sub_cancel] at this
  apply Nat.card_congr
  refine (Equiv.addRight (hide F S K S' K' (s' - s))).subtypeEquiv fun r => ?_
  rw [Equiv.coe_addRight]
  refine ⟨key s s' r, fun hv => ?_⟩
  have := key s' s _ hv
  rw [show s - s' = -(s' - s) by ring, hide_neg, add_neg_cancel_right] at this
  exact this

/-- **C88 (the contribution is needed).** A refresh without contributions changes nothing: then the full share of one party after it and those of `F` others before it determine the secret. -/
theorem C88_needs_contribution (F : ℕ) (b b' : ℕ → ℕ → Fr) (q q' : ℕ → ℕ → ℕ → Fr) (S : Finset ℕ) (hS : F ≤ S.card) (iS : Indices S) (i : ℕ) (hi : i ∉ S) (i1 : 1 ≤ i) (i2 : i < frModulus)
    (hold : ∀ a ∈ S, sliceY b F (2 * F) (a : Fr) = sliceY b' F (2 * F) (a : Fr))
    (hnew : sliceY (refreshed b q []) F (2 * F) (i : Fr) = sliceY (refreshed b' q' []) F (2 * F) (i : Fr)) : biVal b F (2 * F) 0 0 = biVal b' F (2 * F) 0 0 := by
  have hr : ∀ (x : ℕ → ℕ → Fr) y, refreshed x y [] = x := fun x y => by funext a l; simp [refreshed]
  rw [hr, hr] at hnew
  have hv : ∀ a ∈ insert i S, polyVal (sliceX b F (2 * F) 0) (a : Fr) = polyVal (sliceX b' F (2 * F) 0) (a : Fr) := by
    intro a ha
    rw [polyVal_sliceX, polyVal_sliceX, ← polyVal_sliceY, ← polyVal_sliceY]
    rcases Finset.mem_insert.1 ha with rfl | ha
    · rw [hnew]
    · rw [hold a ha]
  have hlen : ∀ x : ℕ → ℕ → Fr, (polyOf (sliceX x F (2 * F) 0)).degree < ((insert i S).card : ℕ) := by
    intro x
    have := degree_polyOf_lt (sliceX x F (2 * F) 0)
    rw [sliceX_length] at this
    refine lt_of_lt_of_le this ?_
    rw [Finset.card_insert_of_notMem hi]
    exact_mod_cast Nat.succ_le_succ hS
  have hp : polyOf (sliceX b F (2 * F) 0) = polyOf (sliceX b' F (2 * F) 0) := by
    apply Polynomial.eq_of_degrees_lt_of_eval_index_eq (insert i S) (v := fun k : ℕ => (k : Fr)) _ (hlen b) (hlen b')
    · intro a ha
      rw [eval_polyOf, eval_polyOf, hv a ha]
    · intro a ha c hc hac
      have ha' : 1 ≤ a ∧ a < frModulus := by
        rcases Finset.mem_insert.1 ha with rfl | ha
        exacts [⟨i1, i2⟩, iS a ha]
      have hc' : 1 ≤ c ∧ c < frModulus := by
        rcases Finset.mem_insert.1 hc with rfl | hc
        exacts [⟨i1, i2⟩, iS c hc]
      by_contra hne
      exact fr_natCast_ne ha'.2 hc'.2 hne hac
  have := congrArg (Polynomial.eval 0) hp
  rwa [eval_polyOf, eval_polyOf, polyVal_sliceX, polyVal_sliceX] at this

/-- `F = 1`: parties 1 (before) and 3 (after) with reduced shares of 2 and 4 before and after. The old index 1 and the new index 3 differ. -/
example (others : ℕ → ℕ → ℕ → Fr) (full red full' red' : ℕ → List Fr) :=
  have i : ∀ S : Finset ℕ, S ⊆ {1, 2, 3, 4} → Indices S := fun S h a ha => by
    have := h ha
    simp only [Finset.mem_insert, Finset.mem_singleton] at this
    rcases this with rfl | rfl | rfl | rfl <;> exact ⟨by norm_num, by decide +kernel⟩
  C88_epochs_hide 1 2 others [2, 4] (by decide) (by decide) {1} {2, 4} {3} {2, 4} (by simp) (by simp) (by simp) (by simp) (i _ (by decide)) (i _ (by decide)) (i _ (by decide))
    (i _ (by decide)) 0 1 full red full' red'

/-- Every dealing and every refresh has such a view. -/
example (F : ℕ) (hr : 2 * F + 1 < frModulus) (s : Fr) (r : CoinSpace F × CoinSpace F) (h : ℕ) (others : ℕ → ℕ → ℕ → Fr) (J : List ℕ) (S K S' K' : Finset ℕ) :
    ∃ full red full' red', EpochsView F s (coinsOf F r.1) (coinsOf F r.2) h others J S K S' K' full red full' red' := by
  obtain ⟨b, hb, -⟩ := dealer_bivariate F s (coinsOf F r.1) hr
  obtain ⟨q, hq, -⟩ := dealer_bivariate F 0 (coinsOf F r.2) hr
  exact ⟨_, _, _, _, b, q, hb, hq, fun _ _ => rfl, fun _ _ => rfl, fun _ _ => rfl, fun _ _ => rfl⟩

/-! ### C89 -/

section
variable {G1 G2 GT : Type} [AddCommGroup G1] [Module Fr G1] [AddCommGroup G2] [Module Fr G2] [AddCommGroup GT] [Module Fr GT]
variable [DecidableEq G1] [DecidableEq GT]

/-- What anybody can compute from a Reshare message: the values `Q(i,1), …, Q(i,2F+1)` in it give `Q(i,0)`. -/
def reshareAtZero (F : ℕ) (d : Bytes) : Go Fr := do
  let f ← lagrangeInterpolate (2 * F) (firstIndices (2 * F + 1)) ((unmarshalD (⟨[], []⟩ : PReshare) d).Qk.map fun v => (frFrom32 0 (copy32 v)).1)
  pure (polyVal f 0)

/-- What a member of the new committee can compute from its new full share and the Reshare messages `ds` it has got from the chosen parties: `B(i,0)` of the old sharing. -/
def oldShareAtZero (F : ℕ) (share : List Fr) (ds : List Bytes) : Go Fr := do
  let qs ← ds.mapM (reshareAtZero F)
  pure (polyVal share 0 - qs.sum)

/-- What old members with the given indices and full shares can compute together with the new member with index `i`. -/
def stealSecret (F : ℕ) (old : List (ℕ × List Fr)) (i : ℕ) (share : List Fr) (ds : List Bytes) : Go Fr := do
  let v ← oldShareAtZero F share ds
  let f ← lagrangeInterpolate F ((old.map (·.1) ++ [i]).map fun a : ℕ => (a : Fr)) (old.map (fun a => polyVal a.2 0) ++ [v])
  pure (polyVal f 0)

theorem reshareMsg_eq (codec : PointCodec G1) (pp : Pairing Fr G1 G2 GT) (t : Fr) (F : ℕ) (c : DealerCoins) (i : ℕ) :
    reshareMsg codec (newKZG pp t (F + 1)) F c i = .ok (reshareOf codec F (fun k => evalPolyAt (ownQ F c k) (i : Fr)) fun k => quotVal (ownQ F c k) (i : Fr) t • pp.g1) := by
  unfold reshareMsg
  have hws : (oneTo (2 * F + 1)).mapM (fun j => computeProofSingle (newKZG pp t (F + 1)) (ownQ F c j) ((i : ℕ) : Fr)) =
      .ok ((oneTo (2 * F + 1)).map fun j => quotVal (ownQ F c j) ((i : ℕ) : Fr) t • pp.g1) := by
    apply mapM_ok
    intro j _
    exact computeProofSingle_ok pp t _ _ _ (ne_nil_of_length (dealerB_length F 0 c j)) (by unfold ownQ; rw [dealerB_length]; omega)
  rw [hws, Go.ok_bind, List.map_map]
  rfl

theorem reshareAtZero_of (codec : PointCodec G1) (F : ℕ) (hF : F ≤ 2 ^ 20) (v : ℕ → Fr) (w : ℕ → G1) (f : List Fr) (hf : f.length = 2 * F + 1)
    (hv : ∀ k, 1 ≤ k → k ≤ 2 * F + 1 → polyVal f (k : Fr) = v k) : reshareAtZero F (marshal (reshareOf codec F v w)) = .ok (polyVal f 0) := by
  have hr : 2 * F + 1 < frModulus := lt_of_le_of_lt (by omega : 2 * F + 1 ≤ 2 ^ 22) (by decide +kernel)
  have hd : unmarshalD (⟨[], []⟩ : PReshare) (marshal (reshareOf codec F v w)) = reshareOf codec F v w := by
    rw [unmarshalD, rt_PReshare _ (size_reshare codec F hF _ _), Option.getD_some]
  have hvals : (reshareOf codec F v w).Qk.map (fun v => (frFrom32 0 (copy32 v)).1) = (oneTo (2 * F + 1)).map v := by
    rw [reshareOf, List.map_map]
    apply List.map_congr_left
    intro k _
    rw [Function.comp_apply, frFrom32_copy]
  have hl : lagrangeInterpolate (2 * F) (firstIndices (2 * F + 1)) ((oneTo (2 * F + 1)).map v) = .ok f := by
    apply lagrangeInterpolate_eq_of_eval (2 * F) _ _ _ (by simp [firstIndices]) (by simp [oneTo]) _ hf
    · intro k hk
      rw [firstIndices_getD _ _ (by omega), List.getD_eq_getElem _ _ (by simp [oneTo]; omega), hv (k + 1) (by omega) (by omega)]
      simp [oneTo]
    · exact fun a ha c hc hne => distinct_firstIndices (2 * F) hr a ha c hc hne
  unfold reshareAtZero
  rw [hd, hvals, hl, Go.ok_bind]
  rfl

theorem reshareAtZero_ok (codec : PointCodec G1) (pp : Pairing Fr G1 G2 GT) (t : Fr) (F : ℕ) (hF : F ≤ 2 ^ 20) (c : DealerCoins) (q : ℕ → ℕ → Fr)
    (hq : ∀ k, 1 ≤ k → k ≤ 2 * F + 1 → sliceX q F (2 * F) (k : Fr) = ownQ F c k) (i : ℕ) (m : PReshare) (hm : reshareMsg codec (newKZG pp t (F + 1)) F c i = .ok m) :
    reshareAtZero F (marshal m) = .ok (biVal q F (2 * F) (i : Fr) 0) := by
  rw [reshareMsg_eq] at hm
  rw [← Except.ok.inj hm, reshareAtZero_of codec F hF _ _ (sliceY q F (2 * F) (i : Fr)) (sliceY_length _ _ _ _), polyVal_sliceY]
  intro k h1 h2
  rw [polyVal_sliceY, evalPolyAt_eq, ← hq k h1 h2, polyVal_sliceX]

/-- **C89 is refuted.** A client shares `s` and a new committee takes over and refreshes, all following the protocol (the hypotheses are those of `C57_epoch`). Any `F` members of the old
committee and one member `i` of the new committee with another number compute the secret from what they hold: their old full shares, and the new full share and the received Reshare messages. -/
theorem C89_refuted (codec : PointCodec G1) (sha : Bytes → Bytes) (pp : Pairing Fr G1 G2 GT) (tb : Tbls) (t : Fr) (N F : ℕ) (s : Fr) (c : DealerCoins)
    (hF : 1 ≤ F) (hF' : F ≤ 2 ^ 20) (hN : 3 * F + 1 ≤ N) (hN' : N < 2 ^ 32) (coins : ℕ → DealerCoins)
    (ids : List ℕ) (hnd : ids.Nodup) (hlen : F + 1 ≤ ids.length) (hlt : ∀ i ∈ ids, i < N)
    (sg : ℕ → ℕ → Bytes) (hsg : ∀ k i, (sg k i).length < 2 ^ 32) (hver : ∀ k i, 1 ≤ i → i ≤ 2 * F + 1 → tb.verifyPartial (decimalBytes k) (sg k i) = true)
    (hrec : ∀ m s a n r, tb.recover m s a n = some r → r.length < 2 ^ 32)
    (J : List ℕ) (hJ : J.Nodup) (hJl : J.length = F + 1) (hJ1 : ∀ k ∈ J, 1 ≤ k ∧ k ≤ N)
    (js : ℕ → List ℕ) (hjs : ∀ j, (js j).Nodup ∧ (js j).length = 2 * F + 1 ∧ ∀ k ∈ js j, 1 ≤ k ∧ k ≤ N) :
    ∃ (b : ℕ → ℕ → Fr) (q : ℕ → ℕ → ℕ → Fr) (msgs : List Bytes) (sr : ℕ → List Bytes) (D : ℕ → PCommit) (R : ℕ → ℕ → PReshare) (old new : ℕ → Party G1 G2),
      clientShare codec pp (newKZG pp t (F + 1)) N F s c = .ok msgs ∧
      (∀ i < N, ∃ p, newParty pp t N F i = .ok p ∧ vssShareReceive codec pp p (msgs.getD i []) = .ok (old i, true) ∧
        shareReduceSend codec (old i) = .ok (sr i)) ∧
      (∀ j, commitMsg codec pp (newKZG pp t (F + 1)) F (coins j) = .ok (D j)) ∧
      (∀ j i, reshareMsg codec (newKZG pp t (F + 1)) F (coins j) (i + 1) = .ok (R j i)) ∧
      (∀ j < N, ∃ p0 p1 p2 st, newParty pp t N F j = .ok p0 ∧
        prepareReceive codec sha p0 (fun _ => 0) (ids.map fun i => prepareSend codec (old i)) = .ok (some p1) ∧
        shareReduceReceive codec pp p1 SRState.init (ids.map fun i => (UInt32.ofNat i, (sr i).getD j [])) = .ok (some p2) ∧
        PRun codec pp tb p2 (PState.init p2 (coins (j + 1)))
          (refreshEvents codec pp t F N (j + 1) q (fun j => marshal (D j)) sg J (marshal (mvbaInput tb F N sg J)) ++
            completeEvents codec pp t F (j + 1) (refreshed b q J) (js j)) [.mvba (mvbaInput tb F N sg J), .success] (new j) st ∧
        st.finished = true) ∧
      ∀ A : List ℕ, A.Nodup → A.length = F → (∀ a ∈ A, a < N) → ∀ i < N, i ∉ A →
        stealSecret F (A.map fun a => (a + 1, (old a).fullShare)) (i + 1) (new i).fullShare (J.map fun j => marshal (R j i)) = .ok s := by
  obtain ⟨b, q, msgs, sr, D, old, new, h1, h2, h3, h4, h5, h6, h7, h8, -⟩ :=
    epoch_core codec sha pp tb t N F s c hF hF' hN hN' coins ids hnd hlen hlt sg hsg hver hrec J hJ hJl hJ1 js hjs
  have hR : ∀ j i, ∃ m, reshareMsg codec (newKZG pp t (F + 1)) F (coins j) (i + 1) = .ok m := fun j i => ⟨_, reshareMsg_eq codec pp t F (coins j) (i + 1)⟩
  choose R hR using hR
  refine ⟨b, q, msgs, sr, D, R, old, new, h1, h2, h3, hR, h4, fun A hA hAl hAlt i hi hiA => ?_⟩
  have hr' : N < frModulus := lt_trans hN' (by decide +kernel)
  have hv : oldShareAtZero F (new i).fullShare (J.map fun j => marshal (R j i)) = .ok (biVal b F (2 * F) ((i + 1 : ℕ) : Fr) 0) := by
    unfold oldShareAtZero
    have hm : (J.map fun j => marshal (R j i)).mapM (reshareAtZero F) = .ok (J.map fun j => biVal (q j) F (2 * F) ((i + 1 : ℕ) : Fr) 0) := by
      rw [List.mapM_map]
      exact mapM_ok _ _ _ fun j _ => reshareAtZero_ok codec pp t F hF' (coins j) (q j) (h7 j) (i + 1) _ (hR j i)
    rw [hm, Go.ok_bind,
      (h8 i hi).2, polyVal_sliceY, biVal_refreshed, add_sub_cancel_right]
    rfl
  unfold stealSecret
  rw [hv, Go.ok_bind]
  have hfst : (A.map fun a => (a + 1, (old a).fullShare)).map (·.1) ++ [i + 1] = (A ++ [i]).map (· + 1) := by simp
  have hsnd : (A.map fun a => (a + 1, (old a).fullShare)).map (fun a => polyVal a.2 0) ++ [biVal b F (2 * F) ((i + 1 : ℕ) : Fr) 0] =
      (A ++ [i]).map fun a => biVal b F (2 * F) ((a + 1 : ℕ) : Fr) 0 := by
    rw [List.map_append, List.map_map]
    congr 1
    apply List.map_congr_left
    intro a ha
    simp only [Function.comp_apply]
    rw [(h6 a (hAlt a ha)).2, polyVal_sliceY]
  rw [hfst, hsnd]
  have hl : (A ++ [i]).length = F + 1 := by simp [hAl]
  have hndA : (A ++ [i]).Nodup := List.nodup_append.2 ⟨hA, by simp, fun a ha c hc e => hiA (by rw [← List.mem_singleton.1 hc, ← e]; exact ha)⟩
  have hltA : ∀ a ∈ A ++ [i], a + 1 < frModulus := by
    intro a ha
    have : a < N := by
      rcases List.mem_append.1 ha with ha | ha
      · exact hAlt a ha
      · rw [List.mem_singleton.1 ha]; exact hi
    omega
  have hlag : lagrangeInterpolate F (((A ++ [i]).map (· + 1)).map fun a : ℕ => (a : Fr)) ((A ++ [i]).map fun a => biVal b F (2 * F) ((a + 1 : ℕ) : Fr) 0) = .ok (sliceX b F (2 * F) 0) := by
    apply lagrangeInterpolate_eq_of_eval F _ _ _ (by simp [hAl]) (by simp [hAl]) _ (sliceX_length _ _ _ _)
    · intro k hk
      have hk' : k < (A ++ [i]).length := by omega
      rw [List.getD_eq_getElem _ _ (by simpa using hk'), List.getD_eq_getElem _ _ (by simpa using hk'), List.getElem_map, List.getElem_map, List.getElem_map, polyVal_sliceX]
    · intro k hk l hl' hne
      have hk' : k < (A ++ [i]).length := by omega
      have hl'' : l < (A ++ [i]).length := by omega
      rw [List.getD_eq_getElem _ _ (by simpa using hk'), List.getD_eq_getElem _ _ (by simpa using hl''), List.getElem_map, List.getElem_map, List.getElem_map, List.getElem_map]
      apply fr_natCast_ne (hltA _ (List.getElem_mem _)) (hltA _ (List.getElem_mem _))
      intro h
      exact hne ((hndA.getElem_inj_iff).1 (Nat.succ_injective h)).symm
  rw [hlag, Go.ok_bind, polyVal_sliceX, h5]
  rfl

/-- What old members `S` hold and what the new members `S'` see of the hand-off, if even all contributions `q` of the refresh are public. -/
def HandoffView (F : ℕ) (s : Fr) (c : DealerCoins) (q : ℕ → ℕ → ℕ → Fr) (J : List ℕ) (S S' : Finset ℕ) (full red full' red' : ℕ → List Fr) : Prop :=
  ∃ b, Deals F s c b ∧ (∀ i ∈ S, sliceY b F (2 * F) (i : Fr) = full i) ∧ (∀ i ∈ S', sliceX b F (2 * F) (i : Fr) = red i) ∧
    (∀ i ∈ S', sliceY (refreshed b q J) F (2 * F) (i : Fr) = full' i) ∧ ∀ i ∈ S', sliceX (refreshed b q J) F (2 * F) (i : Fr) = red' i

/-- **C89 (the part that holds).** If the numbers of the members seen in both committees are at most `F` different ones, nothing is learnt about the secret, even if all contributions to the
refresh are known. Missing: different numbers, see `C89_refuted`. -/
theorem C89_same_numbers_partial (F : ℕ) (q : ℕ → ℕ → ℕ → Fr) (J : List ℕ) (S S' : Finset ℕ) (hS : (S ∪ S').card ≤ F) (iS : Indices (S ∪ S')) (s s' : Fr) (full red full' red' : ℕ → List Fr) :
    Nat.card {r : CoinSpace F // HandoffView F s (coinsOf F r) q J S S' full red full' red'} = Nat.card {r : CoinSpace F // HandoffView F s' (coinsOf F r) q J S S' full red full' red'} := by
  have hS' : S'.card ≤ 2 * F := by
    have := Finset.card_le_card (Finset.subset_union_right (s₁ := S) (s₂ := S'))
    omega
  have key : ∀ a a' : Fr, ∀ r : CoinSpace F, HandoffView F a (coinsOf F r) q J S S' full red full' red' →
      HandoffView F a' (coinsOf F (r + coinShift F (mask (S ∪ S') S' (a' - a)))) q J S S' full red full' red' := by
    rintro a a' r ⟨b, d, v1, v2, v3, v4⟩
    have e := deals_shift F a (mask (S ∪ S') S' (a' - a)) r b d
    rw [mask_zero, add_sub_cancel] at e
    have hre : refreshed (fun i l => b i l + mask (S ∪ S') S' (a' - a) i l) q J = fun i l => refreshed b q J i l + mask (S ∪ S') S' (a' - a) i l := by
      funext i l
      simp only [refreshed]
      ring
    have iU := fun i (hi : i ∈ S') => iS i (Finset.mem_union_right _ hi)
    refine ⟨_, e, fun i hi => ?_, fun i hi => ?_, fun i hi => ?_, fun i hi => ?_⟩
    · have hU := Finset.mem_union_left S' hi
      rw [← v1 i hi, sliceY_mask F _ _ _ _ hS i hU (iS i hU).1 (iS i hU).2]
    · rw [← v2 i hi, sliceX_mask F _ _ _ _ hS' i hi (iU i hi).1 (iU i hi).2]
    · have hU := Finset.mem_union_right S hi
      rw [← v3 i hi, hre, sliceY_mask F _ _ _ _ hS i hU (iS i hU).1 (iS i hU).2]
    · rw [← v4 i hi, hre, sliceX_mask F _ _ _ _ hS' i hi (iU i hi).1 (iU i hi).2]
  apply Nat.card_congr
  refine (Equiv.addRight (coinShift F (mask (S ∪ S') S' (s' - s)))).subtypeEquiv fun r => ?_
  rw [Equiv.coe_addRight]
  refine ⟨key s s' r, fun hv => ?_⟩
  have := key s' s _ hv
  rw [coinShift_neg F (mask (S ∪ S') S' (s' - s)) (mask (S ∪ S') S' (s - s')) (fun i l => by simp only [mask]; ring), add_neg_cancel_right] at this
  exact this

end

/-- `C89_refuted` for four parties, secret 42, setup secret 7 and contributions 2 and 4. -/
example (c : DealerCoins) (coins : ℕ → DealerCoins) :=
  C89_refuted frCodec (fun _ => []) (Pairing.dlog Fr) tb0 7 4 1 42 c le_rfl (by norm_num) (by norm_num) (by norm_num) coins [3, 0] (by decide) (by decide)
    (by decide) (fun _ _ => []) (by intro k i; norm_num) (fun _ _ _ _ => rfl) (by intro m s a n r h; cases h; norm_num) [2, 4] (by decide) (by decide) (by decide)
    (fun _ => [4, 1, 2]) (fun _ => by decide)

/-- `C89_same_numbers_partial` for `F = 1` and one party that is corrupt before and after: the secrets 42 and 43 are equally likely. -/
example (q : ℕ → ℕ → ℕ → Fr) (full red full' red' : ℕ → List Fr) :
    Nat.card {r : CoinSpace 1 // HandoffView 1 42 (coinsOf 1 r) q [2, 4] {3} {3} full red full' red'} = Nat.card {r : CoinSpace 1 // HandoffView 1 43 (coinsOf 1 r) q [2, 4] {3} {3} full red full' red'} :=
  C89_same_numbers_partial 1 q [2, 4] {3} {3} (by simp) (by intro i hi; simp only [Finset.union_idempotent, Finset.mem_singleton] at hi; subst hi; exact ⟨by norm_num, by decide +kernel⟩) 42 43 full red full' red'

end DyCAPS
