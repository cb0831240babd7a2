import Verif.Lemmas.VSS
import Verif.Lemmas.Size

/-!
# C18-C22, C52, C53: the sharing phase

`codec` is any point encoding, `pp` any bilinear group of order r, `t` the setup secret (all values).
-/

set_option linter.unusedSectionVars false

namespace DyCAPS

open Polynomial

section
variable {G1 G2 GT : Type} [AddCommGroup G1] [Module Fr G1] [AddCommGroup G2] [Module Fr G2] [AddCommGroup GT] [Module Fr GT]

/-- Parties with pairwise different ids below `r` holding `B(i,·)` reconstruct `B(0,0)`. -/
theorem reconstructs_of_shares (F : ℕ) (b : ℕ → ℕ → Fr) (parties : List (Party G1 G2)) (hlen : parties.length = F + 1)
    (hid : (parties.map (·.pid)).Nodup) (hlt : ∀ p ∈ parties, p.pid + 1 < frModulus)
    (hsh : ∀ p ∈ parties, p.fullShare = sliceY b F (2 * F) ((p.pid + 1 : ℕ) : Fr)) :
    Reconstructs F (biVal b F (2 * F) 0 0) parties := by
  refine ⟨sliceX b F (2 * F) 0, ?_, polyVal_sliceX b F (2 * F) 0 0⟩
  apply lagrangeInterpolate_eq_of_eval F _ _ _ (by simp [hlen]) (by simp [hlen]) _ (sliceX_length _ _ _ _)
  · intro k hk
    rw [List.getD_eq_getElem _ _ (by simp; omega), List.getD_eq_getElem _ _ (by simp; omega), List.getElem_map,
      List.getElem_map, polyVal_sliceX, hsh _ (List.getElem_mem _), polyVal_sliceY]
  · intro i hi j hj hij
    rw [List.getD_eq_getElem _ _ (by simp; omega), List.getD_eq_getElem _ _ (by simp; omega), List.getElem_map, List.getElem_map]
    apply fr_natCast_ne (hlt _ (List.getElem_mem _)) (hlt _ (List.getElem_mem _))
    intro h
    apply hij
    have h1 : i < (parties.map (·.pid)).length := by simp; omega
    have h2 : j < (parties.map (·.pid)).length := by simp; omega
    have := (hid.getElem_inj_iff (hi := h1) (hj := h2)).1 (by simp; omega)
    exact this.symm

variable [DecidableEq G1] [DecidableEq GT]

/-- **C18.** The honest dealer's messages: every party accepts its message and then holds its part of one bivariate polynomial
whose value at (0,0) is the secret; any `F+1` of the parties reconstruct the secret. -/
theorem C18_honest_sharing (codec : PointCodec G1) (pp : Pairing Fr G1 G2 GT) (t : Fr) (N F : ℕ) (s : Fr) (c : DealerCoins)
    (hF : 1 ≤ F) (hF' : F ≤ 2 ^ 20) (hN : 3 * F + 1 ≤ N) (hr : N < frModulus) :
    ∃ msgs, clientShare codec pp (newKZG pp t (F + 1)) N F s c = .ok msgs ∧ msgs.length = N ∧
        ∃ (b : ℕ → ℕ → Fr) (q : ℕ → Party G1 G2), biVal b F (2 * F) 0 0 = s ∧
          (∀ i < N, (q i).pid = i ∧ (q i).F = F ∧ (q i).N = N ∧ (q i).Setup pp t ∧ HoldsFull pp t b (q i) ∧
            ∃ p, newParty pp t N F i = .ok p ∧ vssShareReceive codec pp p (msgs.getD i []) = .ok (q i, true)) ∧
          ∀ pids : List ℕ, pids.Nodup → pids.length = F + 1 → (∀ i ∈ pids, i < N) → Reconstructs F s (pids.map q) := by
  refine ⟨_, clientShare_ok codec pp t N F s c, by simp [oneTo], ?_⟩
  obtain ⟨b, hb1, hb2⟩ := dealer_bivariate F s c (by omega)
  have hsec : biVal b F (2 * F) 0 0 = s := by
    rw [← polyVal_sliceY, hb2, dealerF_zero]
  have key : ∀ i, ∃ q : Party G1 G2, i < N → (q.pid = i ∧ q.F = F ∧ q.N = N ∧ q.Setup pp t ∧ HoldsFull pp t b q ∧
      ∃ p, newParty pp t N F i = .ok p ∧ vssShareReceive codec pp p
        (((oneTo N).map fun i => marshal (honestMsg codec pp t F s c i)).getD i []) = .ok (q, true)) := by
    intro i
    obtain ⟨p, hp1, hp2, hp3, hp4, hp5⟩ := newParty_setup pp t N F i
    by_cases hi : i < N
    swap
    · exact ⟨p, fun h => absurd h hi⟩
    have hdata : unmarshalD (⟨none, [], []⟩ : PVSSSend)
        (((oneTo N).map fun i => marshal (honestMsg codec pp t F s c i)).getD i []) = honestMsg codec pp t F s c (i + 1) := by
      rw [oneTo_map_getD _ _ _ _ hi]
      have := (rt_PVSSSend (honestMsg codec pp t F s c (i + 1))) (size_vssSend codec _ _ _ F hF')
      rw [unmarshalD, this]; rfl
    subst hp4
    obtain ⟨q, h1, h2, h3, h4, h5, -, h7⟩ := receive_honest codec pp t p hp2 hF (by omega) s c b hb1 (s • pp.g1)
    refine ⟨q, fun _ => ⟨h1.trans hp5, h2, h3.trans hp3, h4, h5, p, hp1, ?_⟩⟩
    rw [vssShareReceive, hdata, ← h7, ← hp5]
    rfl
  choose q hq using key
  refine ⟨b, q, hsec, fun i hi => hq i hi, ?_⟩
  intro pids h1 h2 h3
  rw [← hsec]
  have hpid : ∀ i ∈ pids, (q i).pid = i := fun i hi => (hq i (h3 i hi)).1
  apply reconstructs_of_shares
  · simpa using h2
  · rw [List.map_map]
    have : pids.map ((fun p : Party G1 G2 => p.pid) ∘ q) = pids := by
      conv_rhs => rw [← List.map_id pids]
      exact List.map_congr_left hpid
    rw [this]; exact h1
  · intro p hp
    obtain ⟨i, hi, rfl⟩ := List.mem_map.1 hp
    rw [hpid i hi]; have := h3 i hi; omega
  · intro p hp
    obtain ⟨i, hi, rfl⟩ := List.mem_map.1 hp
    have h := hq i (h3 i hi)
    have := h.2.2.2.2.1.share
    rwa [h.2.1] at this

/-! ### C19 -/

theorem decodeContent_noFatal (codec : PointCodec G1) (m : PPi) (k : ℕ) : NoFatal (decodeContent codec m k) := by
  unfold decodeContent NoFatal idx PointCodec.decode!
  rcases m.piContents[k]? with _ | c
  · simp
  · simp only [Go.ok_bind]
    rcases codec.dec c.CBj with _ | _ <;> rcases codec.dec c.CZj with _ | _ <;> rcases codec.dec c.WZ0 with _ | _ <;>
      rcases codec.dec c.gFj with _ | _ <;> simp

theorem decodeShare_noFatal (codec : PointCodec G1) (m : PVSSSend) (k : ℕ) : NoFatal (decodeShare codec m k) := by
  unfold decodeShare NoFatal idx PointCodec.decode!
  rcases m.BijList[k]? with _ | c
  · simp
  · rcases m.WBijList[k]? with _ | w
    · simp
    · simp only [Go.ok_bind]
      rcases codec.dec w with _ | _ <;> simp

/-- Every outcome of receiving a message: a panic while decoding, or acceptance with the conditions met, or rejection. -/
theorem vssReceiveMsg_cases (codec : PointCodec G1) (pp : Pairing Fr G1 G2 GT) (t : Fr) (p : Party G1 G2) (hp : p.Setup pp t)
    (hF : 1 ≤ p.F) (hr : 2 * p.F + 1 < frModulus) (m : PVSSSend) :
    vssReceiveMsg codec pp p m = .error .panic ∨
    ∃ (pi : Pi G1) (v : ℕ → Fr) (w : ℕ → G1), setFromVSSMessage codec m.pi p.F = .ok pi ∧
      (oneTo (2 * p.F + 1)).mapM (decodeShare codec m) = .ok ((oneTo (2 * p.F + 1)).map fun k => (v k, w k)) ∧
      ((VSSConds pp t p.F p.pid (0 :: (oneTo (2 * p.F + 1)).map v) (0 :: (oneTo (2 * p.F + 1)).map w) pi ∧
      ∃ full : List Fr, full.length = 2 * p.F + 1 ∧ (∀ k, 1 ≤ k → k ≤ 2 * p.F + 1 → polyVal full (k : Fr) = v k) ∧
      vssReceiveMsg codec pp p m = .ok ({ p with
        proof := pi, witness := (oneTo (2 * p.F + 1)).map w, witnessIndexes := firstIndices (2 * p.F + 1), fullShare := full },
        true)) ∨
      (¬ VSSConds pp t p.F p.pid (0 :: (oneTo (2 * p.F + 1)).map v) (0 :: (oneTo (2 * p.F + 1)).map w) pi ∧
      vssReceiveMsg codec pp p m = .ok (p, false))) := by
  cases hpi : setFromVSSMessage codec m.pi p.F with
  | error e =>
    left
    have : e = .panic := by
      cases e with
      | panic => rfl
      | fatal =>
        exfalso
        revert hpi
        unfold setFromVSSMessage
        cases m.pi with
        | none => simp
        | some mp =>
          simp only
          unfold PointCodec.decode!
          cases codec.dec mp.gs with
          | none => simp
          | some g =>
            simp only [Go.ok_bind]
            rcases mapM_cases (PiContent.zero 0) (decodeContent codec mp) (oneTo (2 * p.F + 1))
              (fun k _ => decodeContent_noFatal codec mp k) with ⟨g, -, h⟩ | ⟨-, h⟩ <;> rw [h] <;> simp
    subst this
    unfold vssReceiveMsg
    rw [hpi]; rfl
  | ok pi =>
    rcases mapM_cases ((0, 0) : Fr × G1) (decodeShare codec m) (oneTo (2 * p.F + 1))
      (fun k _ => decodeShare_noFatal codec m k) with ⟨g, -, h⟩ | ⟨-, h⟩
    · right
      refine ⟨pi, fun k => (g k).1, fun k => (g k).2, rfl, h, ?_⟩
      exact vssReceiveMsg_of_decoded codec pp t p hp hF hr m pi (fun k => (g k).1) (fun k => (g k).2) hpi h
    · left
      unfold vssReceiveMsg
      rw [hpi, Go.ok_bind, h]; rfl

/-- **C19.** Whatever the dealer sent: if the party accepts, then for every `k` its full share value at `k` together with its
stored witness is a valid opening, at the party's point, of the published commitment of index `k`; the published `CZ_k` opens
to 0 at 0; and `CB_k = CZ_k + gF_k`. -/
theorem C19_accepted_openings (codec : PointCodec G1) (pp : Pairing Fr G1 G2 GT) (t : Fr) (p p' : Party G1 G2) (hp : p.Setup pp t)
    (hF : 1 ≤ p.F) (hr : 2 * p.F + 1 < frModulus) (data : Bytes) (h : vssShareReceive codec pp p data = .ok (p', true)) :
    p'.pid = p.pid ∧ p'.fullShare.length = 2 * p.F + 1 ∧
    ∀ k, 1 ≤ k → k ≤ 2 * p.F + 1 → ∃ c, p'.proof.contents[k]? = some c ∧
      checkProofSingle pp p.kzg c.CBj (p'.witness.getD (k - 1) 0) ((p.pid + 1 : ℕ) : Fr) (polyVal p'.fullShare (k : Fr)) = .ok true ∧
      checkProofSingle pp p.kzg c.CZj c.WZ0 0 0 = .ok true ∧ c.CBj = c.CZj + c.gFj := by
  rw [vssShareReceive] at h
  rcases vssReceiveMsg_cases codec pp t p hp hF hr (unmarshalD (⟨none, [], []⟩ : PVSSSend) data) with h0 | ⟨pi, v, w, hpi, -, h0 | h0⟩
  · rw [h0] at h; cases h
  · obtain ⟨hc, full, h1, h2, h3⟩ := h0
    rw [h3] at h
    cases h
    refine ⟨rfl, h1, fun k hk1 hk2 => ?_⟩
    have hlen : pi.contents.length = 2 * p.F + 2 := by
      revert hpi
      unfold setFromVSSMessage
      cases (unmarshalD (⟨none, [], []⟩ : PVSSSend) data).pi with
      | none => simp
      | some mp =>
        simp only
        cases codec.decode! mp.gs with
        | error e => simp
        | ok g =>
          simp only [Go.ok_bind]
          intro hpi
          cases hm : (oneTo (2 * p.F + 1)).mapM (decodeContent codec mp) with
          | error e => rw [hm] at hpi; cases hpi
          | ok cs =>
            rw [hm] at hpi
            obtain ⟨g', -, rfl⟩ := mapM_ok_inv (PiContent.zero 0) _ _ _ hm
            cases hpi
            simp [oneTo]
    obtain ⟨c1, c2, c3⟩ := hc k hk1 hk2
    refine ⟨pi.contents.getD k (PiContent.zero k), ?_, ?_, ?_, ?_⟩
    · show pi.contents[k]? = _
      rw [List.getD_eq_getElem _ _ (by omega), List.getElem?_eq_getElem]
    · rw [hp.kzg, checkProofSingle_ok pp t _ (by omega)]
      congr 1
      rw [decide_eq_true_eq]
      rw [cons_oneTo_getD _ _ _ _ _ hk1 hk2, cons_oneTo_getD _ _ _ _ _ hk1 hk2] at c3
      show _ - polyVal full (k : Fr) • pp.g1 = _ • ((oneTo (2 * p.F + 1)).map w).getD (k - 1) 0
      rw [h2 k hk1 hk2, oneTo_map_getD _ _ _ _ (by omega), Nat.sub_add_cancel hk1]
      exact c3
    · rw [hp.kzg, checkProofSingle_ok pp t _ (by omega)]
      congr 1
      rw [decide_eq_true_eq]
      simpa using c1
    · exact c2.symm
  · rw [h0.2] at h
    cases h

/-- **C19 (algebraic dealer).** Take any family of parties that accepted messages carrying the same commitments
`CB_k = f_k(t)·g`, where the dealer knows the `f_k` of degree at most `F`, and the witness of party `i` for `k` is `w_{i,k}(t)·g`.
Then either all full shares are slices `B(i,·)` of one bivariate polynomial with `B(·,k) = f_k`, or the dealer knows a nonzero
polynomial (one of the listed ones) that vanishes at the setup secret. -/
theorem C19_one_polynomial (codec : PointCodec G1) (pp : Pairing Fr G1 G2 GT) (t : Fr) (F : ℕ) (hF : 1 ≤ F)
    (hr : 2 * F + 1 < frModulus) (f : ℕ → Fr[X]) (hf : ∀ k, (f k).degree < (F + 1 : ℕ)) (w : ℕ → ℕ → Fr[X])
    (accepted : Party G1 G2 → Prop)
    (hacc : ∀ p', accepted p' → ∃ p data, p.F = F ∧ p.Setup pp t ∧ vssShareReceive codec pp p data = .ok (p', true))
    (hcom : ∀ p', accepted p' → ∀ k, 1 ≤ k → k ≤ 2 * F + 1 →
      (p'.proof.contents.getD k (PiContent.zero k)).CBj = (f k).eval t • pp.g1)
    (hwit : ∀ p', accepted p' → ∀ k, 1 ≤ k → k ≤ 2 * F + 1 → p'.witness.getD (k - 1) 0 = (w p'.pid k).eval t • pp.g1) :
    (∃ b : ℕ → ℕ → Fr, (∀ k, 1 ≤ k → k ≤ 2 * F + 1 → polyOf (sliceX b F (2 * F) (k : Fr)) = f k) ∧
      ∀ p', accepted p' → p'.fullShare = sliceY b F (2 * F) ((p'.pid + 1 : ℕ) : Fr)) ∨
    ∃ p', accepted p' ∧ ∃ k, 1 ≤ k ∧ k ≤ 2 * F + 1 ∧
      (f k - C (polyVal p'.fullShare (k : Fr)) - w p'.pid k * (X - C ((p'.pid + 1 : ℕ) : Fr))) ≠ 0 ∧
      (f k - C (polyVal p'.fullShare (k : Fr)) - w p'.pid k * (X - C ((p'.pid + 1 : ℕ) : Fr))).eval t = 0 := by
  classical
  rw [or_iff_not_imp_right]
  intro hno
  push Not at hno
  have hval : ∀ p', accepted p' → p'.fullShare.length = 2 * F + 1 ∧ ∀ k, 1 ≤ k → k ≤ 2 * F + 1 →
      polyVal p'.fullShare (k : Fr) = (f k).eval ((p'.pid + 1 : ℕ) : Fr) := by
    intro p' hp'
    obtain ⟨p, data, hpF, hps, hrec⟩ := hacc p' hp'
    obtain ⟨hpid, hlen, hall⟩ := C19_accepted_openings codec pp t p p' hps (by omega) (by omega) data hrec
    rw [hpF] at hlen hall
    refine ⟨hlen, fun k hk1 hk2 => ?_⟩
    obtain ⟨c, hc, h1, -⟩ := hall k hk1 hk2
    have hc' : p'.proof.contents.getD k (PiContent.zero k) = c := by
      rw [List.getD_eq_getElem?_getD, hc]; rfl
    rw [hps.kzg, checkProofSingle_ok pp t _ (by omega)] at h1
    have h1' := Except.ok.inj h1
    rw [decide_eq_true_eq, ← hc', hcom p' hp' k hk1 hk2, hwit p' hp' k hk1 hk2, ← hpid, ← sub_smul, smul_smul] at h1'
    have h2 := smul_g1_inj pp h1'
    by_contra hne
    have hz : (f k - C (polyVal p'.fullShare (k : Fr)) - w p'.pid k * (X - C ((p'.pid + 1 : ℕ) : Fr))).eval t = 0 := by
      simp only [eval_sub, eval_mul, eval_C, eval_X]
      rw [h2]; ring
    by_cases h0 : f k - C (polyVal p'.fullShare (k : Fr)) - w p'.pid k * (X - C ((p'.pid + 1 : ℕ) : Fr)) = 0
    · apply hne
      have := congrArg (eval ((p'.pid + 1 : ℕ) : Fr)) h0
      simp only [eval_sub, eval_mul, eval_C, eval_X, sub_self, mul_zero, sub_zero, eval_zero] at this
      exact (sub_eq_zero.1 this).symm
    · exact hno p' hp' k hk1 hk2 h0 hz
  choose a ha using fun i => exists_interp (2 * F) hr (fun k => (f k).coeff i)
  have hslice : ∀ k, 1 ≤ k → k ≤ 2 * F + 1 → polyOf (sliceX a F (2 * F) (k : Fr)) = f k := by
    intro k hk1 hk2
    ext i
    rw [coeff_polyOf]
    by_cases hi : i < F + 1
    · rw [sliceX_getD _ _ _ _ _ hi]; exact ha i k hk1 hk2
    · rw [List.getD_eq_default _ _ (by rw [sliceX_length]; omega), coeff_eq_zero_of_degree_lt]
      exact lt_of_lt_of_le (hf k) (by exact_mod_cast Nat.le_of_not_lt hi)
  refine ⟨a, hslice, fun p' hp' => ?_⟩
  obtain ⟨hlen, hv⟩ := hval p' hp'
  apply polyOf_inj (by rw [hlen, sliceY_length])
  apply poly_unique (2 * F) (firstIndices (2 * F + 1)) _ _ _ _ (distinct_firstIndices (2 * F) hr)
  · intro k hk
    rw [eval_polyOf, eval_polyOf, firstIndices_getD _ _ (by omega), hv (k + 1) (by omega) (by omega), polyVal_sliceY,
      ← hslice (k + 1) (by omega) (by omega), eval_polyOf, polyVal_sliceX]
  · rw [← hlen]; exact degree_polyOf_lt _
  · have := degree_polyOf_lt (sliceY a F (2 * F) ((p'.pid + 1 : ℕ) : Fr))
    rwa [sliceY_length] at this

/-! ### C20: the published `g^s` is not bound (violation) -/

/-- **C20 fails.** For every sharing of every secret `s` and *any* point `h`: the dealer may publish `h` instead of `g^s` (all
other data unchanged), every party still accepts, keeps `h` as the published value and holds its share of a polynomial with
`B(0,0) = s`. -/
theorem C20_any_gs_accepted (codec : PointCodec G1) (pp : Pairing Fr G1 G2 GT) (t : Fr) (p : Party G1 G2) (hp : p.Setup pp t)
    (hF : 1 ≤ p.F) (hr : 2 * p.F + 1 < frModulus) (s : Fr) (c : DealerCoins) (h : G1) :
    ∃ (m : PVSSSend) (ppi : PPi) (b : ℕ → ℕ → Fr) (q : Party G1 G2), m.pi = some ppi ∧ codec.dec ppi.gs = some h ∧
      vssReceiveMsg codec pp p m = .ok (q, true) ∧ q.proof.gs = h ∧ HoldsFull pp t b q ∧ q.pid = p.pid ∧
      biVal b p.F (2 * p.F) 0 0 = s ∧
      ∀ k, 1 ≤ k → k ≤ 2 * p.F + 1 → (m.BijList.getD k [] = frTo32 (dealerShare p.F s c (p.pid + 1) k)) := by
  obtain ⟨b, hb1, hb2⟩ := dealer_bivariate p.F s c hr
  obtain ⟨q, h1, h2, h3, h4, h5, h6, h7⟩ := receive_honest codec pp t p hp hF hr s c b hb1 h
  refine ⟨_, _, b, q, rfl, codec.dec_enc h, h7, h6, h5, h1, ?_, ?_⟩
  · rw [← polyVal_sliceY, hb2, dealerF_zero]
  · intro k hk1 hk2
    simp only [encapsulateVSSSend]
    rw [cons_oneTo_getD _ _ _ _ _ hk1 hk2, cons_oneTo_getD _ _ _ _ _ hk1 hk2]

/-- **C20, what remains (partial).** The part of the check that is enforced: if the published `Gs` happens to equal the
combination of the published `gF_k` (the test whose result is only logged) and the `gF_k` are `g^{F(k)}` for a polynomial `F`
of degree at most `2F`, then `Gs = g^{F(0)}`. Missing: nothing forces the first condition. -/
theorem C20_gs_bound_partial (pp : Pairing Fr G1 G2 GT) (F N : ℕ) (hr : 2 * F + 1 < frModulus) (table : List (List Fr))
    (htab : lagrangeTable F N = .ok table) (f : List Fr) (hf : f.length = 2 * F + 1) (gF : List G1) (hg : gF.length = 2 * F + 1)
    (hgF : ∀ k, 1 ≤ k → k ≤ 2 * F + 1 → gF.getD (k - 1) 0 = polyVal f (k : Fr) • pp.g1) (gs : G1) (lam0 : List Fr)
    (h0 : idx table 0 = .ok lam0) (hgs : linCombG1 gF lam0 = .ok gs) : gs = polyVal f 0 • pp.g1 := by
  have hpf : PolyFun (2 * F) fun x : Fr => polyVal f x • pp.g1 := by
    refine ⟨fun m => f.getD m 0 • pp.g1, fun x => ?_⟩
    simp only [polyVal, hf, Finset.sum_smul, smul_smul]
    apply Finset.sum_congr rfl
    intro m _
    rw [mul_comm]
  have := linComb_lagrange (2 * F) _ hpf (firstIndices (2 * F + 1)) (firstIndices_length _) (distinct_firstIndices _ hr) 0 gF hg (by
    intro i hi
    rw [firstIndices_getD _ _ (by omega)]
    exact hgF (i + 1) (by omega) (by omega))
  rw [lagrangeTable_ok] at htab
  have ht := Except.ok.inj htab
  rw [← ht, idx_of_lt (by simp)] at h0
  have h0' := Except.ok.inj h0
  rw [getLagrangeCoefficients, if_neg (by simp [firstIndices_length]), Go.ok_bind] at this
  rw [← h0'] at hgs
  simp only [List.getElem_map, List.getElem_range, Nat.cast_zero] at hgs
  rw [hgs] at this
  exact Except.ok.inj this

/-! ### C52: even with the `Gs` test, published values are not bound to the shared secret -/

/-- **C52 fails.** A dealer who only uses public setup elements shares `B(x,y) = x`, whose secret is 0, but publishes
`gF_k = Gs = g^t` (the second setup element): every check, including the one on `Gs`, succeeds at every party, and the published
`Gs` is not `g^0`. -/
theorem C52_published_not_secret (codec : PointCodec G1) (pp : Pairing Fr G1 G2 GT) (t : Fr) (ht : t ≠ 0) (N F : ℕ) (hF : 1 ≤ F)
    (hr : 2 * F + 1 < frModulus) :
    ∃ b : ℕ → ℕ → Fr, biVal b F (2 * F) 0 0 = 0 ∧ ∀ i, ∃ m p q, newParty pp t N F i = .ok p ∧
      vssReceiveMsg codec pp p m = .ok (q, true) ∧ q.pid = i ∧ HoldsFull pp t b q ∧
      idx (newKZG pp t (F + 1)).secretG1 1 = .ok q.proof.gs ∧
      (∀ k, 1 ≤ k → k ≤ 2 * F + 1 → (q.proof.contents.getD k (PiContent.zero k)).gFj = q.proof.gs) ∧
      (do let lam0 ← idx p.table 0
          linCombG1 ((oneTo (2 * F + 1)).map fun k => (q.proof.contents.getD k (PiContent.zero k)).gFj) lam0) = .ok q.proof.gs ∧
      q.proof.gs ≠ (0 : Fr) • pp.g1 := by
  let b : ℕ → ℕ → Fr := fun i j => if i = 1 ∧ j = 0 then 1 else 0
  have hbv : ∀ x y, biVal b F (2 * F) x y = x := by
    intro x y
    rw [biVal, Finset.sum_eq_single 1, Finset.sum_eq_single 0]
    · simp [b]
    · intro j _ hj; simp [b, hj]
    · simp
    · intro i _ hi
      apply Finset.sum_eq_zero
      intro j _; simp [b, hi]
    · intro h; simp at h; omega
  refine ⟨b, hbv 0 0, fun i => ?_⟩
  obtain ⟨p, hp1, hp2, hp3, hp4, hp5⟩ := newParty_setup pp t N F i
  subst hp4
  obtain ⟨q, h1, h2, h3, h4, h5, h6, h7⟩ := receive_of_poly codec pp t p hp2 hF hr b (t • pp.g1) (fun _ => 0) (fun _ => 0)
    (fun _ => t • pp.g1) (by simp) (by
      intro k _ _
      rw [zero_add, polyVal_sliceX, hbv])
  have hgf : ∀ k, 1 ≤ k → k ≤ 2 * p.F + 1 → (q.proof.contents.getD k (PiContent.zero k)).gFj = t • pp.g1 := by
    intro k hk1 hk2
    rw [h6]
    simp only
    rw [cons_oneTo_getD _ _ _ _ _ hk1 hk2]
  refine ⟨_, p, q, hp1, h7, h1.trans hp5, h5, ?_, ?_, ?_, ?_⟩
  · rw [h6, newKZG_eq, idx_of_lt (by simp; omega)]
    simp
  · intro k hk1 hk2
    rw [hgf k hk1 hk2, h6]
  · have hpf : PolyFun (2 * p.F) fun _ : Fr => t • pp.g1 := by
      refine ⟨fun m => if m = 0 then t • pp.g1 else 0, fun x => ?_⟩
      rw [Finset.sum_eq_single 0]
      · simp
      · intro m _ hm; simp [hm]
      · simp
    have := linComb_lagrange (2 * p.F) _ hpf (firstIndices (2 * p.F + 1)) (firstIndices_length _) (distinct_firstIndices _ hr) 0
      ((oneTo (2 * p.F + 1)).map fun k => (q.proof.contents.getD k (PiContent.zero k)).gFj) (by simp [oneTo]) (by
      intro i hi
      rw [oneTo_map_getD _ _ _ _ (by omega)]
      exact hgf (i + 1) (by omega) (by omega))
    have htab := hp2.table
    rw [lagrangeTable_ok] at htab
    rw [← Except.ok.inj htab, idx_of_lt (by simp), h6]
    rw [getLagrangeCoefficients, if_neg (by simp [firstIndices_length]), Go.ok_bind, h6] at this
    simpa using this
  · rw [h6]
    simp only
    intro h
    exact ht (smul_g1_inj pp h)

/-! ### C53: equivocation -/

/-- **C53 fails.** A dealer may send to parties `0..F` the messages of a sharing of `s` and to the others those of a sharing of
`s'`: everybody accepts, the first group reconstructs `s` and parties `F+1..2F+1` reconstruct `s'`. -/
theorem C53_equivocation (codec : PointCodec G1) (pp : Pairing Fr G1 G2 GT) (t : Fr) (N F : ℕ) (s s' : Fr) (c c' : DealerCoins)
    (hF : 1 ≤ F) (hF' : F ≤ 2 ^ 20) (hN : 3 * F + 1 ≤ N) (hr : N < frModulus) (msgs msgs' : List Bytes)
    (h : clientShare codec pp (newKZG pp t (F + 1)) N F s c = .ok msgs)
    (h' : clientShare codec pp (newKZG pp t (F + 1)) N F s' c' = .ok msgs') :
    ∃ q : ℕ → Party G1 G2,
      (∀ i < N, (q i).pid = i ∧ ∃ p, newParty pp t N F i = .ok p ∧
        vssShareReceive codec pp p (if i ≤ F then msgs.getD i [] else msgs'.getD i []) = .ok (q i, true)) ∧
      Reconstructs F s ((List.range (F + 1)).map q) ∧
      Reconstructs F s' ((List.range' (F + 1) (F + 1)).map q) := by
  obtain ⟨ms, e1, -, β1, q1, -, a1, r1⟩ := C18_honest_sharing codec pp t N F s c hF hF' hN hr
  obtain ⟨ms', e2, -, β2, q2, -, a2, r2⟩ := C18_honest_sharing codec pp t N F s' c' hF hF' hN hr
  rw [h] at e1; cases e1
  rw [h'] at e2; cases e2
  refine ⟨fun i => if i ≤ F then q1 i else q2 i, ?_, ?_, ?_⟩
  · intro i hi
    by_cases hle : i ≤ F
    · simp only [hle, if_true]
      obtain ⟨b1, -, -, -, -, b2⟩ := a1 i hi
      exact ⟨b1, b2⟩
    · simp only [hle, if_false]
      obtain ⟨b1, -, -, -, -, b2⟩ := a2 i hi
      exact ⟨b1, b2⟩
  · have := r1 (List.range (F + 1)) List.nodup_range (by simp) (by intro i hi; simp at hi; omega)
    rw [List.map_congr_left (g := q1)]
    · exact this
    · intro i hi; simp at hi; simp [show i ≤ F by omega]
  · have := r2 (List.range' (F + 1) (F + 1)) List.nodup_range' (by simp) (by intro i hi; simp at hi; omega)
    rw [List.map_congr_left (g := q2)]
    · exact this
    · intro i hi; simp at hi; simp [show ¬ i ≤ F by omega]

/-! ### C103: somebody else's sharing -/

/-- **C103 is refuted.** A committee member (any number `k` in the `Sender` field, not the client's) that sends everybody a sharing of `s'` before the client's messages arrive replaces the client's secret:
every party returns with its part of a sharing of `s'`, although the client's message is in its queue. -/
theorem C103_refuted (codec : PointCodec G1) (pp : Pairing Fr G1 G2 GT) (t : Fr) (N F : ℕ) (s s' : Fr) (c c' : DealerCoins) (ID : Bytes) (k : UInt32)
    (hF : 1 ≤ F) (hF' : F ≤ 2 ^ 20) (hN : 3 * F + 1 ≤ N) (hr : N < frModulus) (msgs msgs' : List Bytes)
    (h : clientShare codec pp (newKZG pp t (F + 1)) N F s c = .ok msgs)
    (h' : clientShare codec pp (newKZG pp t (F + 1)) N F s' c' = .ok msgs') :
    ∃ q : ℕ → Party G1 G2,
      (∀ i < N, ∃ p, newParty pp t N F i = .ok p ∧
        vssShareReceiveFrom codec pp p [⟨"VSSSend", ID, k, msgs'.getD i []⟩, clientMessage ID msgs i] = some (.ok (q i, true))) ∧
      ∀ pids : List ℕ, pids.Nodup → pids.length = F + 1 → (∀ i ∈ pids, i < N) → Reconstructs F s' (pids.map q) := by
  obtain ⟨ms, e, -, β, q, -, a, r⟩ := C18_honest_sharing codec pp t N F s' c' hF hF' hN hr
  rw [h'] at e; cases e
  refine ⟨q, fun i hi => ?_, r⟩
  obtain ⟨-, -, -, -, -, p, h1, h2⟩ := a i hi
  exact ⟨p, h1, congrArg some h2⟩

/-- **C103 (the part that holds).** If the client's message is the first one in the queue of every party, everybody gets its part of a sharing of the client's secret, whatever follows. -/
theorem C103_first_partial (codec : PointCodec G1) (pp : Pairing Fr G1 G2 GT) (t : Fr) (N F : ℕ) (s : Fr) (c : DealerCoins) (ID : Bytes)
    (hF : 1 ≤ F) (hF' : F ≤ 2 ^ 20) (hN : 3 * F + 1 ≤ N) (hr : N < frModulus) (msgs : List Bytes) (h : clientShare codec pp (newKZG pp t (F + 1)) N F s c = .ok msgs)
    (rest : ℕ → List PMessage) :
    ∃ q : ℕ → Party G1 G2,
      (∀ i < N, ∃ p, newParty pp t N F i = .ok p ∧ vssShareReceiveFrom codec pp p (clientMessage ID msgs i :: rest i) = some (.ok (q i, true))) ∧
      ∀ pids : List ℕ, pids.Nodup → pids.length = F + 1 → (∀ i ∈ pids, i < N) → Reconstructs F s (pids.map q) := by
  obtain ⟨ms, e, -, β, q, -, a, r⟩ := C18_honest_sharing codec pp t N F s c hF hF' hN hr
  rw [h] at e; cases e
  refine ⟨q, fun i hi => ?_, r⟩
  obtain ⟨-, -, -, -, -, p, h1, h2⟩ := a i hi
  exact ⟨p, h1, congrArg some h2⟩

/-! ### C22: malformed messages -/

/-- Everything the receiver dereferences is present and decodes. -/
def VSSWellFormed (codec : PointCodec G1) (F : ℕ) (m : PVSSSend) : Prop :=
  ∃ ppi, m.pi = some ppi ∧ (codec.dec ppi.gs).isSome ∧ ∀ k, 1 ≤ k → k ≤ 2 * F + 1 →
    (∃ c, ppi.piContents[k]? = some c ∧ (codec.dec c.CBj).isSome ∧ (codec.dec c.CZj).isSome ∧ (codec.dec c.WZ0).isSome ∧
      (codec.dec c.gFj).isSome) ∧
    (∃ v, m.BijList[k]? = some v) ∧ ∃ w, m.WBijList[k]? = some w ∧ (codec.dec w).isSome

theorem decodeContent_ok_iff (codec : PointCodec G1) (ppi : PPi) (k : ℕ) :
    (∃ r, decodeContent codec ppi k = .ok r) ↔ ∃ c, ppi.piContents[k]? = some c ∧ (codec.dec c.CBj).isSome ∧
      (codec.dec c.CZj).isSome ∧ (codec.dec c.WZ0).isSome ∧ (codec.dec c.gFj).isSome := by
  unfold decodeContent idx PointCodec.decode!
  rcases ppi.piContents[k]? with _ | c
  · simp
  · simp only [Go.ok_bind]
    rcases h1 : codec.dec c.CBj with _ | _ <;> rcases h2 : codec.dec c.CZj with _ | _ <;>
      rcases h3 : codec.dec c.WZ0 with _ | _ <;> rcases h4 : codec.dec c.gFj with _ | _ <;> simp [h1, h2, h3, h4]

theorem decodeShare_ok_iff (codec : PointCodec G1) (m : PVSSSend) (k : ℕ) :
    (∃ r, decodeShare codec m k = .ok r) ↔ (∃ v, m.BijList[k]? = some v) ∧ ∃ w, m.WBijList[k]? = some w ∧ (codec.dec w).isSome := by
  unfold decodeShare idx PointCodec.decode!
  rcases m.BijList[k]? with _ | c
  · simp
  · rcases m.WBijList[k]? with _ | w
    · simp
    · simp only [Go.ok_bind]
      rcases h : codec.dec w with _ | _ <;> simp [h]

/-- **C22 fails.** Receiving a message panics (ending the process) exactly when the message is malformed: no proof, too few
entries, or any point that does not decode. -/
theorem C22_panics_iff_malformed (codec : PointCodec G1) (pp : Pairing Fr G1 G2 GT) (t : Fr) (p : Party G1 G2) (hp : p.Setup pp t)
    (hF : 1 ≤ p.F) (hr : 2 * p.F + 1 < frModulus) (m : PVSSSend) :
    vssReceiveMsg codec pp p m = .error .panic ↔ ¬ VSSWellFormed codec p.F m := by
  constructor
  · rintro h ⟨ppi, h1, h2, h3⟩
    obtain ⟨g, hg⟩ := Option.isSome_iff_exists.1 h2
    rcases mapM_cases (PiContent.zero 0) (decodeContent codec ppi) (oneTo (2 * p.F + 1))
        (fun k _ => decodeContent_noFatal codec ppi k) with ⟨f, -, e1⟩ | ⟨⟨k, hk, e1⟩, -⟩
    swap
    · rw [mem_oneTo] at hk
      obtain ⟨r, hr⟩ := (decodeContent_ok_iff codec ppi k).2 (h3 k hk.1 hk.2).1
      rw [e1] at hr; cases hr
    rcases mapM_cases ((0, 0) : Fr × G1) (decodeShare codec m) (oneTo (2 * p.F + 1))
        (fun k _ => decodeShare_noFatal codec m k) with ⟨f', -, e2⟩ | ⟨⟨k, hk, e2⟩, -⟩
    swap
    · rw [mem_oneTo] at hk
      obtain ⟨r, hr⟩ := (decodeShare_ok_iff codec m k).2 (h3 k hk.1 hk.2).2
      rw [e2] at hr; cases hr
    have hpi : setFromVSSMessage codec m.pi p.F = .ok ⟨g, PiContent.zero 0 :: (oneTo (2 * p.F + 1)).map f⟩ := by
      rw [h1]
      simp only [setFromVSSMessage, PointCodec.decode!, hg, Go.ok_bind, e1]
      rfl
    rcases vssReceiveMsg_of_decoded codec pp t p hp hF hr m _ (fun k => (f' k).1) (fun k => (f' k).2) hpi e2 with
      ⟨-, full, -, -, h4⟩ | ⟨-, h4⟩ <;> rw [h4] at h <;> cases h
  · intro h
    rcases vssReceiveMsg_cases codec pp t p hp hF hr m with h0 | ⟨pi, v, w, hpi, hsh, -⟩
    · exact h0
    · exfalso
      apply h
      cases hm : m.pi with
      | none => rw [hm] at hpi; cases hpi
      | some ppi =>
        rw [hm] at hpi
        simp only [setFromVSSMessage, PointCodec.decode!] at hpi
        cases hg : codec.dec ppi.gs with
        | none => rw [hg] at hpi; cases hpi
        | some g =>
          rw [hg] at hpi
          simp only [Go.ok_bind] at hpi
          cases hcs : (oneTo (2 * p.F + 1)).mapM (decodeContent codec ppi) with
          | error e => rw [hcs] at hpi; cases hpi
          | ok cs =>
            obtain ⟨f, hf, -⟩ := mapM_ok_inv (PiContent.zero 0) _ _ _ hcs
            obtain ⟨f', hf', -⟩ := mapM_ok_inv ((0, 0) : Fr × G1) _ _ _ hsh
            refine ⟨ppi, hm, by simp [hg], fun k hk1 hk2 => ⟨?_, ?_⟩⟩
            · exact (decodeContent_ok_iff codec ppi k).1 ⟨_, hf k (mem_oneTo.2 ⟨hk1, hk2⟩)⟩
            · exact (decodeShare_ok_iff codec m k).1 ⟨_, hf' k (mem_oneTo.2 ⟨hk1, hk2⟩)⟩

/-- **C22 fails.** Even a message with an empty payload ends the process. -/
theorem C22_empty_payload_panics (codec : PointCodec G1) (pp : Pairing Fr G1 G2 GT) (p : Party G1 G2) :
    unmarshal PVSSSend [] = some ⟨none, [], []⟩ ∧ vssShareReceive codec pp p [] = .error .panic := by
  have : unmarshal PVSSSend [] = some ⟨none, [], []⟩ := rfl
  refine ⟨this, ?_⟩
  rw [vssShareReceive, unmarshalD, this]
  rfl

/-- **C103 is refuted** also by a single message without content: a party whose queue starts with it ends by a panic and does not get to the client's message. -/
theorem C103_empty (codec : PointCodec G1) (pp : Pairing Fr G1 G2 GT) (p : Party G1 G2) (ID : Bytes) (k : UInt32) (m : PMessage) :
    vssShareReceiveFrom codec pp p [⟨"VSSSend", ID, k, []⟩, m] = some (.error .panic) :=
  congrArg some (C22_empty_payload_panics codec pp p).2

/-- **C22, what holds (partial).** A well-formed message never stops the receiver, and if it is rejected the state is unchanged.
Missing: malformed messages, see above. -/
theorem C22_wellformed_partial (codec : PointCodec G1) (pp : Pairing Fr G1 G2 GT) (t : Fr) (p : Party G1 G2) (hp : p.Setup pp t)
    (hF : 1 ≤ p.F) (hr : 2 * p.F + 1 < frModulus) (m : PVSSSend) (hm : VSSWellFormed codec p.F m) :
    ∃ p' r, vssReceiveMsg codec pp p m = .ok (p', r) ∧ (r = false → p' = p) := by
  rcases vssReceiveMsg_cases codec pp t p hp hF hr m with h0 | ⟨pi, v, w, -, -, ⟨-, full, -, -, h4⟩ | ⟨-, h4⟩⟩
  · exact absurd hm ((C22_panics_iff_malformed codec pp t p hp hF hr m).1 h0)
  · exact ⟨_, true, h4, by simp⟩
  · exact ⟨p, false, h4, fun _ => rfl⟩

end

/-! ### C21: secrecy of `F` shares -/

/-- The dealer's random choices as a finite space: `2F` coefficients of `F(y)` and `F` coefficients for each of the `2F+1`
polynomials `Z(x,k)`. -/
abbrev CoinSpace (F : ℕ) : Type := (Fin (2 * F) → Fr) × (Fin (2 * F + 1) → Fin F → Fr)

/-- The choices as the dealer uses them (indices from 1). -/
def coinsOf (F : ℕ) (r : CoinSpace F) : DealerCoins where
  rF i := if h : 1 ≤ i ∧ i ≤ 2 * F then r.1 ⟨i - 1, by omega⟩ else 0
  rZ k j := if h : (1 ≤ k ∧ k ≤ 2 * F + 1) ∧ 1 ≤ j ∧ j ≤ F then r.2 ⟨k - 1, by omega⟩ ⟨j - 1, by omega⟩ else 0

/-- Shifting the coins by the coefficients `d_1..d_F` and the secret by `d_0` shifts the share of party `i` by `D(i)`. -/
theorem dealerShare_shift (F : ℕ) (s : Fr) (d : ℕ → Fr) (r : CoinSpace F) (i k : ℕ) (hk1 : 1 ≤ k) (hk2 : k ≤ 2 * F + 1) :
    dealerShare F (s + d 0) (coinsOf F (r + ((0, fun _ j => d (j + 1)) : CoinSpace F))) i k =
      dealerShare F s (coinsOf F r) i k + ∑ j ∈ Finset.range (F + 1), d j * (i : Fr) ^ j := by
  have hFv : dealerFVal F (s + d 0) (coinsOf F (r + ((0, fun _ j => d (j + 1)) : CoinSpace F))) k = dealerFVal F s (coinsOf F r) k + d 0 := by
    rw [dealerFVal_eq, dealerFVal_eq, polyVal, polyVal, dealerF_length, dealerF_length, Finset.sum_range_succ',
      Finset.sum_range_succ']
    have : ∀ m ∈ Finset.range (2 * F), (dealerF F (s + d 0) (coinsOf F (r + ((0, fun _ j => d (j + 1)) : CoinSpace F)))).getD (m + 1) 0 *
        (k : Fr) ^ (m + 1) = (dealerF F s (coinsOf F r)).getD (m + 1) 0 * (k : Fr) ^ (m + 1) := by
      intro m hm
      have hm' : m < 2 * F := by simpa using hm
      congr 1
      rw [List.getD_eq_getElem _ _ (by rw [dealerF_length]; omega), List.getD_eq_getElem _ _ (by rw [dealerF_length]; omega)]
      simp [dealerF, coinsOf]
    rw [Finset.sum_congr rfl this]
    simp [dealerF]
    ring
  rw [dealerShare_eq, dealerShare_eq, dealerB_val, dealerB_val, hFv]
  have hZ : polyVal (dealerZ F (coinsOf F (r + ((0, fun _ j => d (j + 1)) : CoinSpace F))) k) (i : Fr) =
      polyVal (dealerZ F (coinsOf F r) k) (i : Fr) + ∑ j ∈ Finset.range F, d (j + 1) * (i : Fr) ^ (j + 1) := by
    rw [polyVal, polyVal, dealerZ_length, dealerZ_length, Finset.sum_range_succ', Finset.sum_range_succ',
      dealerZ_getD _ _ _ _ (by omega), dealerZ_getD _ _ _ _ (by omega)]
    simp only [if_true, zero_mul, add_zero]
    rw [← Finset.sum_add_distrib]
    apply Finset.sum_congr rfl
    intro j hj
    have hj' : j < F := by simpa using hj
    rw [dealerZ_getD _ _ _ _ (by omega), dealerZ_getD _ _ _ _ (by omega)]
    simp only [coinsOf, Nat.succ_ne_zero, if_false]
    rw [dif_pos (by omega), dif_pos (by omega)]
    simp
    ring
  rw [hZ, Finset.sum_range_succ' (fun j => d j * (i : Fr) ^ j)]
  simp
  ring

/-- **C21.** For every set of at most `F` parties, any two secrets and any view (the share values these parties receive, which
determine their full shares): as many dealer choices lead to the view under `s` as under `s'`. -/
theorem C21_secrecy (F : ℕ) (S : Finset ℕ) (hS : S.card ≤ F) (hi : ∀ i ∈ S, 1 ≤ i ∧ i < frModulus) (s s' : Fr)
    (view : ℕ → ℕ → Fr) :
    Nat.card {r : CoinSpace F // ∀ i ∈ S, ∀ k, 1 ≤ k → k ≤ 2 * F + 1 → dealerShare F s (coinsOf F r) i k = view i k} =
    Nat.card {r : CoinSpace F // ∀ i ∈ S, ∀ k, 1 ≤ k → k ≤ 2 * F + 1 → dealerShare F s' (coinsOf F r) i k = view i k} := by
  let P : Fr[X] := C (s' - s) * ∏ i ∈ S, (1 - C ((i : Fr)⁻¹) * X)
  have hdeg : P.degree < (F + 1 : ℕ) := by
    have h1 : P.natDegree ≤ F := by
      refine (natDegree_C_mul_le _ _).trans ((natDegree_prod_le _ _).trans ?_)
      refine (Finset.sum_le_sum (g := fun _ => 1) fun i _ => ?_).trans (by simpa using hS)
      refine (natDegree_sub_le _ _).trans (max_le (by simp) ?_)
      exact (natDegree_C_mul_le _ _).trans natDegree_X_le
    refine degree_le_natDegree.trans_lt ?_
    exact_mod_cast Nat.lt_succ_of_le h1
  have hP0 : P.coeff 0 = s' - s := by
    rw [coeff_zero_eq_eval_zero]
    simp [P, eval_prod]
  have hPi : ∀ i ∈ S, ∑ j ∈ Finset.range (F + 1), P.coeff j * (i : Fr) ^ j = 0 := by
    intro i his
    rw [← eval_eq_sum_range' (by
      rcases eq_or_ne P 0 with h | h
      · rw [h]; simp
      · exact (natDegree_lt_iff_degree_lt h).2 hdeg)]
    simp only [P, eval_mul, eval_C, eval_prod, eval_sub, eval_one, eval_X]
    rw [Finset.prod_eq_zero his, mul_zero]
    have : (i : Fr) ≠ 0 := by
      have := fr_natCast_ne (a := i) (b := 0) (hi i his).2 (by decide +kernel) (by have := (hi i his).1; omega)
      simpa using this
    rw [inv_mul_cancel₀ this, sub_self]
  apply Nat.card_congr
  refine (Equiv.addRight ((0, fun _ j => P.coeff (j + 1)) : CoinSpace F)).subtypeEquiv fun r => ?_
  have hs : s' = s + P.coeff 0 := by rw [hP0]; ring
  rw [Equiv.coe_addRight, hs]
  constructor
  · intro h i his k hk1 hk2
    rw [dealerShare_shift F s (fun j => P.coeff j) r i k hk1 hk2, hPi i his, add_zero]
    exact h i his k hk1 hk2
  · intro h i his k hk1 hk2
    have := h i his k hk1 hk2
    rwa [dealerShare_shift F s (fun j => P.coeff j) r i k hk1 hk2, hPi i his, add_zero] at this

/-! ### Concrete cases -/

/-- The discrete-log instance used in the examples. -/
theorem dec_enc_fr (x : Fr) : frPointDec (frPointEnc x) = some x := by
  rw [frPointDec, frPointEnc, if_pos ⟨(C02_round_trip 0 x).1, by rw [(C02_round_trip 0 x).2]⟩, (C02_round_trip 0 x).2]

def frCodec : PointCodec Fr := ⟨frPointEnc, frPointDec, dec_enc_fr, fun p => by rw [frPointEnc, (C02_round_trip 0 p).1]; norm_num⟩

/-- `F = 1`, `N = 4`, secret 42, dealer coins `rF i = i`, `rZ k j = k + j`: `C18` applies. -/
example : ∃ msgs, clientShare frCodec (Pairing.dlog Fr) (newKZG (Pairing.dlog Fr) 7 2) 4 1 42 ⟨fun i => i, fun k j => k + j⟩ =
    .ok msgs ∧ msgs.length = 4 := by
  obtain ⟨m, h1, h2, -⟩ := C18_honest_sharing frCodec (Pairing.dlog Fr) 7 4 1 42 ⟨fun i => i, fun k j => k + j⟩ le_rfl
    (by norm_num) (by norm_num) (by decide +kernel)
  exact ⟨m, h1, h2⟩

/-- Honest parties satisfy the hypotheses of C19, C20 and C22: some message is accepted, with a published value 5 although the
secret is 42. -/
example : ∃ p : Party Fr Fr, newParty (Pairing.dlog Fr) 7 4 1 2 = .ok p ∧ ∃ m q, vssReceiveMsg frCodec (Pairing.dlog Fr) p m = .ok (q, true) ∧
    q.proof.gs = 5 ∧ VSSWellFormed frCodec 1 m := by
  obtain ⟨p, h1, h2, h3, h4, h5⟩ := newParty_setup (Pairing.dlog Fr) 7 4 1 2
  obtain ⟨m, ppi, b, q, -, -, k3, k4, -⟩ := C20_any_gs_accepted frCodec (Pairing.dlog Fr) 7 p h2 (by omega) (by rw [h4]; decide +kernel) 42
    ⟨fun i => i, fun k j => k + j⟩ 5
  refine ⟨p, h1, m, q, k3, k4, ?_⟩
  rw [← h4]
  by_contra hc
  rw [(C22_panics_iff_malformed frCodec (Pairing.dlog Fr) 7 p h2 (by omega) (by rw [h4]; decide +kernel) m).2 hc] at k3
  cases k3

/-- One corrupted party out of four, secrets 0 and 1. -/
example (view : ℕ → ℕ → Fr) :=
  C21_secrecy 1 {3} (by simp) (by intro i hi; rw [Finset.mem_singleton.1 hi]; exact ⟨by norm_num, by decide +kernel⟩) 0 1 view

/-- Party 2 sends a sharing of 7 before the client's sharing of 42 arrives: parties 0 and 3 hold shares of 7. -/
example : ∃ (msgs msgs' : List Bytes) (q : ℕ → Party Fr Fr),
    clientShare frCodec (Pairing.dlog Fr) (newKZG (Pairing.dlog Fr) 7 2) 4 1 42 ⟨fun i => i, fun k j => k + j⟩ = .ok msgs ∧
    (∀ i < 4, ∃ p, newParty (Pairing.dlog Fr) 7 4 1 i = .ok p ∧
      vssShareReceiveFrom frCodec (Pairing.dlog Fr) p [⟨"VSSSend", [1], 2, msgs'.getD i []⟩, clientMessage [1] msgs i] = some (.ok (q i, true))) ∧
    Reconstructs 1 7 [q 0, q 3] := by
  obtain ⟨m, h1, -⟩ := C18_honest_sharing frCodec (Pairing.dlog Fr) 7 4 1 42 ⟨fun i => i, fun k j => k + j⟩ le_rfl (by norm_num) (by norm_num) (by decide +kernel)
  obtain ⟨m', h1', -⟩ := C18_honest_sharing frCodec (Pairing.dlog Fr) 7 4 1 7 ⟨fun i => i + 1, fun k j => k * j⟩ le_rfl (by norm_num) (by norm_num) (by decide +kernel)
  obtain ⟨q, a, r⟩ := C103_refuted frCodec (Pairing.dlog Fr) 7 4 1 42 7 _ _ [1] 2 le_rfl (by norm_num) (by norm_num) (by decide +kernel) m m' h1 h1'
  exact ⟨m, m', q, h1, a, r [0, 3] (by decide) rfl (by decide)⟩

end DyCAPS
