import Verif.Props.Proactive

/-!
# C127: secrecy over any number of epochs
-/

namespace DyCAPS

/-- What is seen of `E + 1` epochs: a dealing of `s` with coins `c` and `E` refreshes, the one numbered `e` with the contributions `J e`, of which party `h e` chose its own with coins `ch e` and
the others are arbitrary. In epoch `e` the full shares of `S e` and the reduced shares of `K e` are seen. -/
def ChainView (F E : ℕ) (s : Fr) (c : DealerCoins) (ch : Fin E → DealerCoins) (h : ℕ → ℕ) (others : ℕ → ℕ → ℕ → ℕ → Fr) (J : ℕ → List ℕ) (S K : ℕ → Finset ℕ)
    (full red : ℕ → ℕ → List Fr) : Prop :=
  ∃ b q : ℕ → ℕ → ℕ → Fr, Deals F s c (b 0) ∧ (∀ e : Fin E, Deals F 0 (ch e) (q e) ∧ b (e + 1) = refreshed (b e) (withOwn (h e) (q e) (others e)) (J e)) ∧
    ∀ e ≤ E, (∀ i ∈ S e, sliceY (b e) F (2 * F) (i : Fr) = full e i) ∧ ∀ j ∈ K e, sliceX (b e) F (2 * F) (j : Fr) = red e j

/-- The change of all coins that turns secret `s` into `s + d` and cannot be seen in any epoch. -/
noncomputable def hideAll (F E : ℕ) (S K : ℕ → Finset ℕ) (d : Fr) : CoinSpace F × (Fin E → CoinSpace F) :=
  (coinShift F (mask (S 0) (K 0) d), fun e => coinShift F fun i l => mask (S (e + 1)) (K (e + 1)) d i l - mask (S e) (K e) d i l)

theorem hideAll_neg (F E : ℕ) (S K : ℕ → Finset ℕ) (d : Fr) : hideAll F E S K (-d) = - hideAll F E S K d := by
  refine Prod.ext ?_ (funext fun e => ?_)
  · exact coinShift_neg F (mask (S 0) (K 0) d) (mask (S 0) (K 0) (-d)) fun i l => by simp only [mask]; ring
  · exact coinShift_neg F (fun i l => mask (S (e + 1)) (K (e + 1)) d i l - mask (S e) (K e) d i l) (fun i l => mask (S (e + 1)) (K (e + 1)) (-d) i l - mask (S e) (K e) (-d) i l)
      fun i l => by simp only [mask]; ring

theorem chainView_hide {F E : ℕ} {h : ℕ → ℕ} {others : ℕ → ℕ → ℕ → ℕ → Fr} {J : ℕ → List ℕ} (hJ : ∀ e < E, (J e).Nodup ∧ h e ∈ J e) {S K : ℕ → Finset ℕ}
    (hS : ∀ e ≤ E, (S e).card ≤ F ∧ Indices (S e)) (hK : ∀ e ≤ E, (K e).card ≤ 2 * F ∧ Indices (K e)) (s d : Fr) (full red : ℕ → ℕ → List Fr) (r : CoinSpace F × (Fin E → CoinSpace F))
    (hv : ChainView F E s (coinsOf F r.1) (fun e => coinsOf F (r.2 e)) h others J S K full red) :
    ChainView F E (s + d) (coinsOf F (r + hideAll F E S K d).1) (fun e => coinsOf F ((r + hideAll F E S K d).2 e)) h others J S K full red := by
  obtain ⟨b, q, d1, d2, v⟩ := hv
  refine ⟨fun e i l => b e i l + mask (S e) (K e) d i l, fun e i l => q e i l + (mask (S (e + 1)) (K (e + 1)) d i l - mask (S e) (K e) d i l), ?_, fun e => ⟨?_, ?_⟩,
    fun e he => ⟨fun i hi => ?_, fun j hj => ?_⟩⟩
  · have := deals_shift F s (mask (S 0) (K 0) d) r.1 (b 0) d1
    rwa [mask_zero] at this
  · have := deals_shift F 0 (fun i l => mask (S (e + 1)) (K (e + 1)) d i l - mask (S e) (K e) d i l) (r.2 e) (q e) (d2 e).1
    simp only [mask_zero, sub_self, add_zero] at this
    exact this
  · have := hJ e e.2
    show (fun i l => b (e + 1) i l + _) = _
    rw [refreshed_shift (b e) (q e) _ _ (h e) (others e) (J e) this.1 this.2, (d2 e).2]
  · rw [← (v e he).1 i hi]
    exact sliceY_mask F (S e) (K e) d (b e) (hS e he).1 i hi ((hS e he).2 i hi).1 ((hS e he).2 i hi).2
  · rw [← (v e he).2 j hj]
    exact sliceX_mask F (S e) (K e) d (b e) (hK e he).1 j hj ((hK e he).2 j hj).1 ((hK e he).2 j hj).2

/-- **C127.** `F` full and `2F` reduced shares of every one of any number of epochs, of any parties: if in every refresh one of the contributions used was chosen at random by a party (and the adversary has
not seen it), any two secrets explain what is seen by the same number of random choices. The other contributions, and who is corrupted when, are arbitrary and may depend on what is seen. -/
theorem C127_chain_hides {F E : ℕ} {h : ℕ → ℕ} {others : ℕ → ℕ → ℕ → ℕ → Fr} {J : ℕ → List ℕ} (hJ : ∀ e < E, (J e).Nodup ∧ h e ∈ J e) {S K : ℕ → Finset ℕ}
    (hS : ∀ e ≤ E, (S e).card ≤ F ∧ Indices (S e)) (hK : ∀ e ≤ E, (K e).card ≤ 2 * F ∧ Indices (K e)) (s s' : Fr) (full red : ℕ → ℕ → List Fr) :
    Nat.card {r : CoinSpace F × (Fin E → CoinSpace F) // ChainView F E s (coinsOf F r.1) (fun e => coinsOf F (r.2 e)) h others J S K full red} =
      Nat.card {r : CoinSpace F × (Fin E → CoinSpace F) // ChainView F E s' (coinsOf F r.1) (fun e => coinsOf F (r.2 e)) h others J S K full red} := by
  apply Nat.card_congr
  refine (Equiv.addRight (hideAll F E S K (s' - s))).subtypeEquiv fun r => ?_
  rw [Equiv.coe_addRight]
  refine ⟨fun hv => ?_, fun hv => ?_⟩
  · have := chainView_hide hJ hS hK s (s' - s) full red r hv
    rwa [add_sub_cancel] at this
  · have := chainView_hide hJ hS hK s' (s - s') full red _ hv
    rw [show s - s' = -(s' - s) by ring, hideAll_neg, add_neg_cancel_right, show s' + -(s' - s) = s by ring] at this
    exact this

/-- Every dealing followed by any number of refreshes has such a view. -/
theorem C127_views_exist {F E : ℕ} (hr : 2 * F + 1 < frModulus) (s : Fr) (r : CoinSpace F × (Fin E → CoinSpace F)) (h : ℕ → ℕ) (others : ℕ → ℕ → ℕ → ℕ → Fr) (J : ℕ → List ℕ) (S K : ℕ → Finset ℕ) :
    ∃ full red, ChainView F E s (coinsOf F r.1) (fun e => coinsOf F (r.2 e)) h others J S K full red := by
  obtain ⟨b0, hb, -⟩ := dealer_bivariate F s (coinsOf F r.1) hr
  have hq : ∀ e : ℕ, ∃ q, ∀ he : e < E, Deals F 0 (coinsOf F (r.2 ⟨e, he⟩)) q := fun e => by
    by_cases he : e < E
    · obtain ⟨q, hq, -⟩ := dealer_bivariate F 0 (coinsOf F (r.2 ⟨e, he⟩)) hr
      exact ⟨q, fun _ => hq⟩
    · exact ⟨0, fun h => absurd h he⟩
  choose q hq using hq
  exact ⟨_, _, fun e => Nat.rec (motive := fun _ => ℕ → ℕ → Fr) b0 (fun e b => refreshed b (withOwn (h e) (q e) (others e)) (J e)) e, q, hb, fun e => ⟨hq e e.2, rfl⟩, fun _ _ => ⟨fun _ _ => rfl, fun _ _ => rfl⟩⟩

/-- `F = 1`, a hundred refreshes: in every epoch another member is seen (1, 2, 3, 4, 1, …) with its full share, together with the reduced shares of two members. -/
example (others : ℕ → ℕ → ℕ → ℕ → Fr) (s s' : Fr) (full red : ℕ → ℕ → List Fr) :=
  have i : ∀ S : Finset ℕ, S ⊆ {1, 2, 3, 4} → Indices S := fun S h a ha => by
    have := h ha
    simp only [Finset.mem_insert, Finset.mem_singleton] at this
    rcases this with rfl | rfl | rfl | rfl <;> exact ⟨by norm_num, by decide +kernel⟩
  C127_chain_hides (F := 1) (E := 100) (h := fun _ => 2) (others := others) (J := fun _ => [2, 4]) (fun _ _ => ⟨by decide, by decide⟩) (S := fun e => {e % 4 + 1}) (K := fun _ => {2, 4})
    (fun e _ => ⟨by simp, i _ fun a ha => by
      rw [Finset.mem_singleton] at ha
      subst ha
      have := Nat.mod_lt e (show 4 > 0 by norm_num)
      simp only [Finset.mem_insert, Finset.mem_singleton]
      omega⟩)
    (fun _ _ => ⟨by simp, i _ (by decide)⟩) s s' full red

end DyCAPS
