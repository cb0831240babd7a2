import Verif.Props.VSS

/-! C52: what an honest client publishes. -/

namespace DyCAPS

section
variable {G1 G2 GT : Type} [AddCommGroup G1] [Module Fr G1] [AddCommGroup G2] [Module Fr G2] [AddCommGroup GT] [Module Fr GT] [DecidableEq G1] [DecidableEq GT]

/-- **C52, the part that holds.** If the client follows the protocol, every party accepts its message, holds its share of the client's bivariate polynomial `B`, and keeps `Gs = g^B(0,0)` and `gF_k = g^B(0,k)` for
all `k = 1, …, 2F+1`. -/
theorem C52_honest_partial (codec : PointCodec G1) (pp : Pairing Fr G1 G2 GT) (t : Fr) (N F : ℕ) (s : Fr) (c : DealerCoins) (hF : 1 ≤ F) (hF' : F ≤ 2 ^ 20) (hr : 2 * F + 1 < frModulus) :
    ∃ (msgs : List Bytes) (b : ℕ → ℕ → Fr), clientShare codec pp (newKZG pp t (F + 1)) N F s c = .ok msgs ∧ biVal b F (2 * F) 0 0 = s ∧
      ∀ i < N, ∃ p q, newParty pp t N F i = .ok p ∧ vssShareReceive codec pp p (msgs.getD i []) = .ok (q, true) ∧ HoldsFull pp t b q ∧
        q.proof.gs = biVal b F (2 * F) 0 0 • pp.g1 ∧
        ∀ k, 1 ≤ k → k ≤ 2 * F + 1 → (q.proof.contents.getD k (PiContent.zero k)).gFj = biVal b F (2 * F) 0 (k : Fr) • pp.g1 := by
  obtain ⟨b, hb1, hb2⟩ := dealer_bivariate F s c hr
  have hsec : biVal b F (2 * F) 0 0 = s := by rw [← polyVal_sliceY, hb2, dealerF_zero]
  refine ⟨_, b, clientShare_ok codec pp t N F s c, hsec, fun i hi => ?_⟩
  obtain ⟨p, hp1, hp2, hp3, hp4, hp5⟩ := newParty_setup pp t N F i
  have hdata : unmarshalD (⟨none, [], []⟩ : PVSSSend)
      (((oneTo N).map fun i => marshal (honestMsg codec pp t F s c i)).getD i []) = honestMsg codec pp t F s c (i + 1) := by
    rw [oneTo_map_getD _ _ _ _ hi]
    have := (rt_PVSSSend (honestMsg codec pp t F s c (i + 1))) (size_vssSend codec _ _ _ F hF')
    rw [unmarshalD, this]; rfl
  subst hp4
  obtain ⟨q, h1, h2, h3, h4, h5, h6, h7⟩ := receive_of_poly codec pp t p hp2 hF hr b (s • pp.g1)
    (fun k => polyVal (dealerZ p.F c k) t • pp.g1) (fun k => quotVal (dealerZ p.F c k) 0 t • pp.g1)
    (fun k => dealerFVal p.F s c k • pp.g1) (by
      intro k _ _
      have := quotVal_mul (dealerZ p.F c k) 0 t
      rw [dealerZ_zero, sub_zero, sub_zero] at this
      rw [smul_smul, ← this, mul_comm]) (by
      intro k h1 h2
      rw [hb1 k h1 h2, dealerB_val, add_smul])
  rw [← honest_as_poly codec pp t p.F s c b hb1 (s • pp.g1)] at h7
  refine ⟨p, q, hp1, ?_, h5, by rw [h6, hsec], fun k hk1 hk2 => ?_⟩
  · rw [vssShareReceive, hdata, ← h7, ← hp5]
    rfl
  · rw [h6]
    dsimp only
    rw [cons_oneTo_getD _ _ _ _ _ hk1 hk2]
    dsimp only
    rw [← polyVal_sliceX, hb1 k hk1 hk2, dealerB_zero]

end

/-- Seven parties, two faults, the secret 42: the published elements of the accepted message, in discrete logarithms. -/
example (c : DealerCoins) : ∃ (msgs : List Bytes) (b : ℕ → ℕ → Fr), clientShare frCodec (Pairing.dlog Fr) (newKZG (Pairing.dlog Fr) 7 3) 7 2 42 c = .ok msgs ∧
    ∃ p q : Party Fr Fr, newParty (Pairing.dlog Fr) 7 7 2 6 = .ok p ∧ vssShareReceive frCodec (Pairing.dlog Fr) p (msgs.getD 6 []) = .ok (q, true) ∧
      q.proof.gs = 42 ∧ (q.proof.contents.getD 5 (PiContent.zero 5)).gFj = biVal b 2 4 0 5 := by
  obtain ⟨msgs, b, h1, h2, h3⟩ := C52_honest_partial frCodec (Pairing.dlog Fr) 7 7 2 42 c (by norm_num) (by norm_num) (by decide +kernel)
  obtain ⟨p, q, k1, k2, -, k4, k5⟩ := h3 6 (by norm_num)
  refine ⟨msgs, b, h1, p, q, k1, k2, ?_, ?_⟩
  · rw [k4, h2]; exact mul_one (42 : Fr)
  · rw [k5 5 (by norm_num) (by norm_num)]; exact mul_one (biVal b 2 4 0 5)

end DyCAPS
