import Verif.Props.ShareDist

/-!
# C57: a full epoch

Sharing by a client, Prepare and ShareReduce towards a new committee, Proactivize and ShareDist there. All parties follow the protocol; the order of
messages and the sets of senders heard first are arbitrary.
-/

set_option linter.unusedSectionVars false

namespace DyCAPS

open Polynomial

section
variable {G1 G2 GT : Type} [AddCommGroup G1] [Module Fr G1] [AddCommGroup G2] [Module Fr G2] [AddCommGroup GT] [Module Fr GT]
variable [DecidableEq G1] [DecidableEq GT]

/-- The messages of honest holders `ids` lead to the reduced share, also when the receiver has already adopted commitments. -/
theorem sr_from_holders (codec : PointCodec G1) (pp : Pairing Fr G1 G2 GT) (t : Fr) (b : ℕ → ℕ → Fr) (p : Party G1 G2) (hp : p.Setup pp t)
    (hF : 1 ≤ p.F) (hN : p.N < 2 ^ 32) (out : ℕ → Bytes) (ids : List ℕ) (hnd : ids.Nodup) (hlen : p.F + 1 ≤ ids.length) (hlt : ∀ i ∈ ids, i < p.N)
    (hout : ∀ i ∈ ids, HonestSR codec pp t b p.F (i + 1) (p.pid + 1) (out i)) :
    shareReduceReceive codec pp p SRState.init (ids.map fun i => (UInt32.ofNat i, out i)) =
      .ok (some { p with reducedShare := sliceX b p.F (2 * p.F) ((p.pid + 1 : ℕ) : Fr) }) := by
  set ms : List (UInt32 × Bytes) := ids.map fun i => (UInt32.ofNat i, out i) with hms
  have hto : ∀ i ∈ ids, (UInt32.ofNat i).toNat = i := by
    intro i hi
    have := hlt i hi
    rw [UInt32.toNat_ofNat', Nat.mod_eq_of_lt (by omega)]
  have hnd' : (ms.map Prod.fst).Nodup := by
    have : ((ms.map Prod.fst).map UInt32.toNat) = ids := by
      rw [List.map_map, hms, List.map_map]
      conv_rhs => rw [← List.map_id ids]
      exact List.map_congr_left hto
    exact (this ▸ hnd : ((ms.map Prod.fst).map UInt32.toNat).Nodup).of_map
  have hhon : ∀ m ∈ ms, m.1 ∉ (∅ : Finset UInt32) → HonestSR codec pp t b p.F (m.1 + 1).toNat (p.pid + 1) m.2 := by
    intro m hm _
    obtain ⟨i, hi, rfl⟩ := List.mem_map.1 hm
    have : (UInt32.ofNat i + 1).toNat = i + 1 := by
      have h2 := hlt i hi
      rw [UInt32.toNat_add, hto i hi]
      simp
      omega
    simp only
    rw [this]
    exact hout i hi
  have hdec : ∀ m ∈ ms, SRDecodable codec m.2 := by
    intro m hm
    have hh := srMsg_honest _ _ _ _ _ _ _ _ (hhon m hm (by simp))
    unfold SRDecodable
    rw [hh]
    exact ⟨⟨_, codec.dec_enc _⟩, ⟨_, codec.dec_enc _⟩⟩
  obtain ⟨p', hp'⟩ := C25_terminates codec pp t b p hp hF ∅ (by simp) ms hnd' hhon hdec (by
    rw [List.filter_eq_self.2 (by simp), hms]; simpa using hlen)
  rcases C25_receive codec pp t b p hp hF ∅ (by simp) ms hnd' hhon (fun _ => 0) (by simp) p' hp' with h | h
  · rw [hp', h]
  · obtain ⟨m, _, h, _⟩ := h; simp at h

/-- The Prepare messages of honest holders `ids` install the commitments. -/
theorem prepare_from_holders (codec : PointCodec G1) (sha : Bytes → Bytes) (pp : Pairing Fr G1 G2 GT) (t : Fr) (b : ℕ → ℕ → Fr) (p : Party G1 G2)
    (hF : p.F ≤ 2 ^ 20) (old : ℕ → Party G1 G2) (ids : List ℕ) (hlen : p.F + 1 ≤ ids.length)
    (hold : ∀ i ∈ ids, KnowsComs pp t b (old i) ∧ (old i).F = p.F) :
    ∃ pi, prepareReceive codec sha p (fun _ => 0) (ids.map fun i => prepareSend codec (old i)) = .ok (some { p with proof := pi }) ∧
      KnowsComs pp t b { p with proof := pi } := by
  obtain ⟨i0, rest, rfl⟩ : ∃ a l, ids = a :: l := by
    cases ids with
    | nil => simp at hlen
    | cons a l => exact ⟨a, l, rfl⟩
  obtain ⟨pi, h1, h2⟩ := prepareAdopt_honest codec pp t b p (old i0) (hold i0 (by simp)).1 (hold i0 (by simp)).2 hF
  refine ⟨pi, ?_, h2⟩
  have heq : (i0 :: rest).map (fun i => prepareSend codec (old i)) = List.replicate (i0 :: rest).length (prepareSend codec (old i0)) := by
    rw [List.eq_replicate_iff]
    refine ⟨by simp, fun x hx => ?_⟩
    obtain ⟨i, hi, rfl⟩ := List.mem_map.1 hx
    rw [prepareSend_eq codec pp t b _ (hold i hi).1, prepareSend_eq codec pp t b _ (hold i0 (by simp)).1, (hold i hi).2, (hold i0 (by simp)).2]
  rw [heq]
  obtain ⟨k, hk⟩ : ∃ k, (i0 :: rest).length = p.F + 1 + k := ⟨_, (Nat.add_sub_of_le hlen).symm⟩
  have := C24_prepare_single_sender codec sha p _ 0 (prepareSend codec (old i0)) h1 (List.replicate k (0, prepareSend codec (old i0)))
  rw [List.map_append, List.map_replicate, List.map_replicate, List.replicate_append_replicate] at this
  rw [hk]
  exact this

/-- A client shares, a new committee takes over and refreshes; all follow the protocol. See `C57_epoch`; here with what everybody holds. -/
theorem epoch_core (codec : PointCodec G1) (sha : Bytes → Bytes) (pp : Pairing Fr G1 G2 GT) (tb : Tbls) (t : Fr) (N F : ℕ) (s : Fr) (c : DealerCoins)
    (hF : 1 ≤ F) (hF' : F ≤ 2 ^ 20) (hN : 3 * F + 1 ≤ N) (hN' : N < 2 ^ 32) (coins : ℕ → DealerCoins)
    (ids : List ℕ) (hnd : ids.Nodup) (hlen : F + 1 ≤ ids.length) (hlt : ∀ i ∈ ids, i < N)
    (sg : ℕ → ℕ → Bytes) (hsg : ∀ k i, (sg k i).length < 2 ^ 32) (hver : ∀ k i, 1 ≤ i → i ≤ 2 * F + 1 → tb.verifyPartial (decimalBytes k) (sg k i) = true)
    (hrec : ∀ m s a n r, tb.recover m s a n = some r → r.length < 2 ^ 32)
    (J : List ℕ) (hJ : J.Nodup) (hJl : J.length = F + 1) (hJ1 : ∀ k ∈ J, 1 ≤ k ∧ k ≤ N)
    (js : ℕ → List ℕ) (hjs : ∀ j, (js j).Nodup ∧ (js j).length = 2 * F + 1 ∧ ∀ k ∈ js j, 1 ≤ k ∧ k ≤ N) :
    ∃ (b : ℕ → ℕ → Fr) (q : ℕ → ℕ → ℕ → Fr) (msgs : List Bytes) (sr : ℕ → List Bytes) (D : ℕ → PCommit) (old new : ℕ → Party G1 G2),
      clientShare codec pp (newKZG pp t (F + 1)) N F s c = .ok msgs ∧
      (∀ i < N, ∃ p, newParty pp t N F i = .ok p ∧ vssShareReceive codec pp p (msgs.getD i []) = .ok (old i, true) ∧
        shareReduceSend codec (old i) = .ok (sr i)) ∧
      (∀ j, commitMsg codec pp (newKZG pp t (F + 1)) F (coins j) = .ok (D j)) ∧
      (∀ j < N, ∃ p0 p1 p2 st, newParty pp t N F j = .ok p0 ∧
        prepareReceive codec sha p0 (fun _ => 0) (ids.map fun i => prepareSend codec (old i)) = .ok (some p1) ∧
        shareReduceReceive codec pp p1 SRState.init (ids.map fun i => (UInt32.ofNat i, (sr i).getD j [])) = .ok (some p2) ∧
        PRun codec pp tb p2 (PState.init p2 (coins (j + 1)))
          (refreshEvents codec pp t F N (j + 1) q (fun j => marshal (D j)) sg J (marshal (mvbaInput tb F N sg J)) ++
            completeEvents codec pp t F (j + 1) (refreshed b q J) (js j)) [.mvba (mvbaInput tb F N sg J), .success] (new j) st ∧
        st.finished = true) ∧
      biVal b F (2 * F) 0 0 = s ∧ (∀ i < N, (old i).pid = i ∧ (old i).fullShare = sliceY b F (2 * F) ((i + 1 : ℕ) : Fr)) ∧
      (∀ j k, 1 ≤ k → k ≤ 2 * F + 1 → sliceX (q j) F (2 * F) (k : Fr) = ownQ F (coins j) k) ∧
      (∀ j < N, (new j).pid = j ∧ (new j).fullShare = sliceY (refreshed b q J) F (2 * F) ((j + 1 : ℕ) : Fr)) ∧
      ∀ R : List ℕ, R.Nodup → R.length = F + 1 → (∀ i ∈ R, i < N) → Reconstructs F s (R.map new) := by
  have hr' : N < frModulus := lt_trans hN' (by decide +kernel)
  obtain ⟨msgs, hm, -, b, old, hb, hold, -⟩ := C18_honest_sharing codec pp t N F s c hF hF' hN hr'
  have hsr : ∀ i, ∃ out, i < N → shareReduceSend codec (old i) = .ok out ∧ ∀ j < N, HonestSR codec pp t b F (i + 1) (j + 1) (out.getD j []) := by
    intro i
    by_cases hi : i < N
    swap
    · exact ⟨[], fun h => absurd h hi⟩
    obtain ⟨h1, h2, h3, h4, h5, -⟩ := hold i hi
    obtain ⟨out, k1, -, k3⟩ := C25_send codec pp t b (old i) h4 h5 (by omega) (by omega)
    refine ⟨out, fun _ => ⟨k1, fun j hj => ?_⟩⟩
    have := k3 j (by omega)
    rwa [h1, h2] at this
  choose sr hsr using hsr
  choose q hq1 hq2 using fun j => dealer_bivariate F 0 (coins j) (by omega)
  have hnew : ∀ j, ∃ n : Party G1 G2, j < N → (n.pid = j ∧ n.fullShare = sliceY (refreshed b q J) F (2 * F) ((j + 1 : ℕ) : Fr) ∧
      biVal (refreshed b q J) F (2 * F) 0 0 = s ∧ ∃ p0 p1 p2 st, newParty pp t N F j = .ok p0 ∧
        prepareReceive codec sha p0 (fun _ => 0) (ids.map fun i => prepareSend codec (old i)) = .ok (some p1) ∧
        shareReduceReceive codec pp p1 SRState.init (ids.map fun i => (UInt32.ofNat i, (sr i).getD j [])) = .ok (some p2) ∧
        PRun codec pp tb p2 (PState.init p2 (coins (j + 1)))
          (refreshEvents codec pp t F N (j + 1) q (fun j => marshal (commitOf codec F (honestContent pp t F 0 (coins j)))) sg J (marshal (mvbaInput tb F N sg J)) ++
            completeEvents codec pp t F (j + 1) (refreshed b q J) (js j)) [.mvba (mvbaInput tb F N sg J), .success] n st ∧
        st.finished = true) := by
    intro j
    obtain ⟨p0, e1, e2, e3, e4, e5⟩ := newParty_setup pp t N F j
    by_cases hj : j < N
    swap
    · exact ⟨p0, fun h => absurd h hj⟩
    obtain ⟨pi, f1, f2⟩ := prepare_from_holders codec sha pp t b p0 (by omega) old ids (by omega) (fun i hi =>
      ⟨(hold i (hlt i hi)).2.2.2.2.1.coms, by rw [(hold i (hlt i hi)).2.1, e4]⟩)
    have f3 := sr_from_holders codec pp t b { p0 with proof := pi } ⟨e2.kzg, e2.table⟩ (by show 1 ≤ p0.F; omega) (by show p0.N < _; omega) (fun i => (sr i).getD j []) ids hnd
      (by show p0.F + 1 ≤ _; omega) (by show ∀ i ∈ ids, i < p0.N; rw [e3]; exact hlt) (by
        intro i hi
        show HonestSR codec pp t b p0.F (i + 1) (p0.pid + 1) _
        rw [e4, e5]
        exact (hsr i (hlt i hi)).2 j hj)
    obtain ⟨n, st, g1, -, g2, g3, g4, -⟩ := C29_honest_run codec pp tb t { p0 with proof := pi, reducedShare := sliceX b p0.F (2 * p0.F) ((p0.pid + 1 : ℕ) : Fr) }
      ⟨e2.kzg, e2.table⟩ (by show 1 ≤ p0.F; omega) (by show p0.F ≤ _; omega) (by show 3 * p0.F + 1 ≤ p0.N; omega) (by show p0.N < _; omega) (by show p0.pid < p0.N; omega)
      b f2 rfl (coins (j + 1)) coins q (by show ∀ j k, 1 ≤ k → k ≤ 2 * p0.F + 1 → sliceX (q j) p0.F (2 * p0.F) (k : Fr) = ownQ p0.F (coins j) k; rw [e4]; exact hq1)
      (fun j => commitOf codec F (honestContent pp t F 0 (coins j)))
      (by show ∀ j, commitMsg codec pp (newKZG pp t (p0.F + 1)) p0.F (coins j) = _; rw [e4]; exact fun j => commitMsg_ok codec pp t F (coins j)) sg hsg
      (by show ∀ k i, 1 ≤ i → i ≤ 2 * p0.F + 1 → _; rw [e4]; exact hver) hrec J hJ (by show J.length = p0.F + 1; omega) (by show ∀ k ∈ J, 1 ≤ k ∧ k ≤ p0.N; rw [e3]; exact hJ1)
      (js j) (hjs j).1 (by show _ = 2 * p0.F + 1; rw [(hjs j).2.1, e4]) (by show ∀ k ∈ js j, 1 ≤ k ∧ k ≤ p0.N; rw [e3]; exact (hjs j).2.2)
    have hpid : n.pid = j := by rw [g1.static]; exact e5
    simp only at g1 g3 g4
    rw [e4, e5] at g4
    rw [e4] at g3
    refine ⟨n, fun _ => ⟨hpid, g4, by rw [g3, hb], p0, _, _, st, e1, f1, f3, ?_, g2⟩⟩
    have key : ∀ F' N' i', F' = F → N' = N → i' = j →
        (refreshEvents codec pp t F' N' (i' + 1) q (fun j => marshal (commitOf codec F (honestContent pp t F 0 (coins j)))) sg J (marshal (mvbaInput tb F' N' sg J)) ++
            completeEvents codec pp t F' (i' + 1) (refreshed b q J) (js j)) =
        (refreshEvents codec pp t F N (j + 1) q (fun j => marshal (commitOf codec F (honestContent pp t F 0 (coins j)))) sg J (marshal (mvbaInput tb F N sg J)) ++
            completeEvents codec pp t F (j + 1) (refreshed b q J) (js j)) ∧ mvbaInput tb F' N' sg J = mvbaInput tb F N sg J := by
      rintro _ _ _ rfl rfl rfl
      exact ⟨rfl, rfl⟩
    obtain ⟨k1, k2⟩ := key _ _ _ e4 e3 e5
    rw [k1, k2] at g1
    exact g1
  choose new hnew using hnew
  refine ⟨b, q, msgs, sr, fun j => commitOf codec F (honestContent pp t F 0 (coins j)), old, new, hm, ?_, fun j => commitMsg_ok codec pp t F (coins j), ?_, ?_, ?_, ?_, ?_, ?_⟩
  · intro i hi
    obtain ⟨-, -, -, -, -, p, k1, k2⟩ := hold i hi
    exact ⟨p, k1, k2, (hsr i hi).1⟩
  · intro j hj
    exact (hnew j hj).2.2.2
  · exact hb
  · intro i hi
    obtain ⟨h1, h2, -, -, h5, -⟩ := hold i hi
    refine ⟨h1, ?_⟩
    have := h5.share
    rwa [h1, h2] at this
  · exact hq1
  · exact fun j hj => ⟨(hnew j hj).1, (hnew j hj).2.1⟩
  · intro R hR hRl hRlt
    have h0 : 0 < N := by omega
    rw [← (hnew 0 h0).2.2.1]
    apply reconstructs_of_shares F _ _ (by simpa using hRl)
    · rw [List.map_map]
      have : R.map ((fun p : Party G1 G2 => p.pid) ∘ new) = R := by
        conv_rhs => rw [← List.map_id R]
        apply List.map_congr_left
        intro i hi
        exact (hnew i (hRlt i hi)).1
      rw [this]; exact hR
    · intro p hp
      obtain ⟨i, hi, rfl⟩ := List.mem_map.1 hp
      have := hRlt i hi
      rw [(hnew i this).1]; omega
    · intro p hp
      obtain ⟨i, hi, rfl⟩ := List.mem_map.1 hp
      have := hRlt i hi
      rw [(hnew i this).1]
      exact (hnew i this).2.1

/-- **C57.** A client shares `s`; the holders `ids` (any `F+1` or more, in any order) hand over to a new committee of the same size; every new
member runs Proactivize and ShareDist, with an arbitrary set `J` of `F+1` resharers and hearing `2F+1` members `js j` first. Every call
returns without error, every new member completes, and any `F+1` new members reconstruct `s`. -/
theorem C57_epoch (codec : PointCodec G1) (sha : Bytes → Bytes) (pp : Pairing Fr G1 G2 GT) (tb : Tbls) (t : Fr) (N F : ℕ) (s : Fr) (c : DealerCoins)
    (hF : 1 ≤ F) (hF' : F ≤ 2 ^ 20) (hN : 3 * F + 1 ≤ N) (hN' : N < 2 ^ 32) (coins : ℕ → DealerCoins)
    (ids : List ℕ) (hnd : ids.Nodup) (hlen : F + 1 ≤ ids.length) (hlt : ∀ i ∈ ids, i < N)
    (sg : ℕ → ℕ → Bytes) (hsg : ∀ k i, (sg k i).length < 2 ^ 32) (hver : ∀ k i, 1 ≤ i → i ≤ 2 * F + 1 → tb.verifyPartial (decimalBytes k) (sg k i) = true)
    (hrec : ∀ m s a n r, tb.recover m s a n = some r → r.length < 2 ^ 32)
    (J : List ℕ) (hJ : J.Nodup) (hJl : J.length = F + 1) (hJ1 : ∀ k ∈ J, 1 ≤ k ∧ k ≤ N)
    (js : ℕ → List ℕ) (hjs : ∀ j, (js j).Nodup ∧ (js j).length = 2 * F + 1 ∧ ∀ k ∈ js j, 1 ≤ k ∧ k ≤ N) :
    ∃ (b : ℕ → ℕ → Fr) (q : ℕ → ℕ → ℕ → Fr) (msgs : List Bytes) (sr : ℕ → List Bytes) (D : ℕ → PCommit) (old new : ℕ → Party G1 G2),
      clientShare codec pp (newKZG pp t (F + 1)) N F s c = .ok msgs ∧
      (∀ i < N, ∃ p, newParty pp t N F i = .ok p ∧ vssShareReceive codec pp p (msgs.getD i []) = .ok (old i, true) ∧
        shareReduceSend codec (old i) = .ok (sr i)) ∧
      (∀ j, commitMsg codec pp (newKZG pp t (F + 1)) F (coins j) = .ok (D j)) ∧
      (∀ j < N, ∃ p0 p1 p2 st, newParty pp t N F j = .ok p0 ∧
        prepareReceive codec sha p0 (fun _ => 0) (ids.map fun i => prepareSend codec (old i)) = .ok (some p1) ∧
        shareReduceReceive codec pp p1 SRState.init (ids.map fun i => (UInt32.ofNat i, (sr i).getD j [])) = .ok (some p2) ∧
        PRun codec pp tb p2 (PState.init p2 (coins (j + 1)))
          (refreshEvents codec pp t F N (j + 1) q (fun j => marshal (D j)) sg J (marshal (mvbaInput tb F N sg J)) ++
            completeEvents codec pp t F (j + 1) (refreshed b q J) (js j)) [.mvba (mvbaInput tb F N sg J), .success] (new j) st ∧
        st.finished = true) ∧
      ∀ R : List ℕ, R.Nodup → R.length = F + 1 → (∀ i ∈ R, i < N) → Reconstructs F s (R.map new) := by
  obtain ⟨b, q, msgs, sr, D, old, new, h1, h2, h3, h4, -, -, -, -, h5⟩ := epoch_core codec sha pp tb t N F s c hF hF' hN hN' coins ids hnd hlen hlt sg hsg hver hrec J hJ hJl hJ1 js hjs
  exact ⟨b, q, msgs, sr, D, old, new, h1, h2, h3, h4, h5⟩

/-! ### The assumption on senders holds in honest runs, and its alternative does not -/

/-- The quotient `(f - f(x)) / (X - x)`. -/
noncomputable def quotPoly (f : List Fr) (x : Fr) : Fr[X] :=
  ∑ i ∈ Finset.range f.length, C (f.getD i 0) * ∑ j ∈ Finset.range i, X ^ j * C x ^ (i - 1 - j)

theorem quotPoly_eval (f : List Fr) (x t : Fr) : (quotPoly f x).eval t = quotVal f x t := by
  simp only [quotPoly, quotVal, eval_finsetSum, eval_mul, eval_C, eval_pow, eval_X]

theorem quotPoly_mul (f : List Fr) (x : Fr) : quotPoly f x * (X - C x) = polyOf f - C (polyVal f x) := by
  rw [quotPoly, Finset.sum_mul, polyOf, polyVal, map_sum, ← Finset.sum_sub_distrib]
  apply Finset.sum_congr rfl
  intro i _
  rw [mul_assoc, (Commute.all X (C x)).geom_sum₂_mul, C_mul, C_pow]; ring

theorem not_reveals_quot (t : Fr) (f : List Fr) (x : Fr) : ¬ OpeningReveals t f (quotPoly f x) x (polyVal f x) := by
  rintro ⟨h, -⟩
  apply h
  rw [quotPoly_mul, sub_self]

/-- The representation an honest resharer knows. -/
noncomputable def honestRep (F : ℕ) (c : DealerCoins) : CommitRep where
  cz := fun k => polyOf (dealerZ F c k)
  wz := fun k => quotPoly (dealerZ F c k) 0
  gf := fun k => C (dealerFVal F 0 c k)

theorem honestRep_describes (F : ℕ) (c : DealerCoins) (q : ℕ → ℕ → Fr) (hq : ∀ k, 1 ≤ k → k ≤ 2 * F + 1 → sliceX q F (2 * F) (k : Fr) = ownQ F c k) :
    (honestRep F c).Describes F q := by
  intro k k1 k2
  rw [hq k k1 k2]
  simp only [honestRep]
  ext i
  rw [coeff_polyOf, coeff_add, coeff_polyOf, coeff_C]
  unfold ownQ dealerB
  rcases i with _ | i
  · rw [if_pos rfl]
    have : (dealerZ F c k).getD 0 0 = 0 := by simp [dealerZ, List.range_succ_eq_map]
    rw [this, zero_add]
    simp [dealerZ, List.range_succ_eq_map]
  · rw [if_neg (by omega), add_zero]
    simp [List.getD_eq_getElem?_getD, List.getElem?_set]

theorem honestRep_not_reveals (F : ℕ) (hr : 2 * F + 1 < frModulus) (t : Fr) (c : DealerCoins) : ¬ (honestRep F c).Reveals F t := by
  rintro (⟨k, -, -, h, -⟩ | ⟨h, -⟩)
  · apply h
    simp only [honestRep]
    have := quotPoly_mul (dealerZ F c k) 0
    rw [dealerZ_zero] at this
    simp only [map_zero, sub_zero] at this
    rw [← this]; ring
  · apply h
    simp only [honestRep]
    have hsum := lagrangeCoeff_sum (firstIndices (2 * F + 1)) (0 : Fr) (2 * F) (polyOf (dealerF F 0 c))
      (by have := degree_polyOf_lt (dealerF F 0 c); rwa [dealerF_length] at this) (distinct_firstIndices _ hr)
    rw [eval_polyOf, dealerF_zero] at hsum
    simp only [← C_mul]
    rw [← map_sum, ← C_0]
    congr 1
    refine Eq.trans (Finset.sum_congr rfl fun i hi => ?_) hsum
    rw [Finset.mem_range] at hi
    rw [firstIndices_getD _ _ hi, eval_polyOf, ← dealerFVal_eq]

/-- What the senders of honest messages know. -/
noncomputable def honestW (F i : ℕ) (b : ℕ → ℕ → Fr) (q : ℕ → ℕ → ℕ → Fr) (J : List ℕ) : PEvent → Fr[X]
  | .takeRecover s d => quotPoly (sliceX (q (unmarshalD (⟨0, [], [], []⟩ : PRecover) d).index.toNat) F (2 * F) (i : Fr)) (((s + 1).toNat : ℕ) : Fr)
  | .shareDist s _ => quotPoly (sliceX (refreshed b q J) F (2 * F) (((s + 1).toNat : ℕ) : Fr)) (i : Fr)
  | _ => 0

/-- **C29 (the security alternative is not vacuous).** The events of an honest run satisfy the assumptions of `C29_new_share`, and nobody reveals a
polynomial vanishing at the setup secret in it. -/
theorem C29_honest_reveals_nothing (codec : PointCodec G1) (pp : Pairing Fr G1 G2 GT) (tb : Tbls) (t : Fr) (p : Party G1 G2)
    (hF' : p.F ≤ 2 ^ 20) (hN : 3 * p.F + 1 ≤ p.N) (hN' : p.N < 2 ^ 32) (b : ℕ → ℕ → Fr) (coins : ℕ → DealerCoins)
    (q : ℕ → ℕ → ℕ → Fr) (hq : ∀ j k, 1 ≤ k → k ≤ 2 * p.F + 1 → sliceX (q j) p.F (2 * p.F) (k : Fr) = ownQ p.F (coins j) k)
    (D : ℕ → PCommit) (hD : ∀ j, commitMsg codec pp (newKZG pp t (p.F + 1)) p.F (coins j) = .ok (D j))
    (sg : ℕ → ℕ → Bytes) (hsg : ∀ k i, (sg k i).length < 2 ^ 32)
    (hrec : ∀ m s a n r, tb.recover m s a n = some r → r.length < 2 ^ 32)
    (J : List ℕ) (hJl : J.length = p.F + 1) (hJ1 : ∀ k ∈ J, 1 ≤ k ∧ k ≤ p.N) (js : List ℕ) (hj1 : ∀ k ∈ js, 1 ≤ k ∧ k ≤ p.N)
    (evs : List PEvent) (hevs : evs = refreshEvents codec pp t p.F p.N (p.pid + 1) q (fun j => marshal (D j)) sg J (marshal (mvbaInput tb p.F p.N sg J)) ++
          completeEvents codec pp t p.F (p.pid + 1) (refreshed b q J) js) :
    RunAlg codec pp t p q (fun j => honestRep p.F (coins j)) (honestW p.F (p.pid + 1) b q J) evs ∧ NamesJ J evs ∧
    ¬ RunReveals t p b q J (fun j => honestRep p.F (coins j)) (honestW p.F (p.pid + 1) b q J) evs := by
  have hr : 2 * p.F + 1 < frModulus := lt_trans (by omega : 2 * p.F + 1 < 2 ^ 32) (by decide +kernel)
  have hcommit : ∀ j d, PEvent.commit j (some d) ∈ evs → d = marshal (D j) := by
    intro j d h
    rw [hevs] at h
    simp only [refreshEvents, completeEvents, distEvents, batchEvents, List.mem_append, List.mem_map, List.mem_flatMap, List.mem_cons, List.mem_replicate,
      List.not_mem_nil] at h
    simp only [reduceCtorEq, and_false, or_false, false_or, exists_false, PEvent.commit.injEq, Option.some.injEq] at h
    obtain ⟨a, -, rfl, h⟩ := h
    exact h.symm
  have hmvba : ∀ r, PEvent.mvba r ∈ evs → r = marshal (mvbaInput tb p.F p.N sg J) := by
    intro r h
    rw [hevs] at h
    simp only [refreshEvents, completeEvents, distEvents, batchEvents, List.mem_append, List.mem_map, List.mem_flatMap, List.mem_cons, List.mem_replicate,
      List.not_mem_nil] at h
    simpa only [reduceCtorEq, and_false, or_false, false_or, exists_false, PEvent.mvba.injEq] using h
  have htake : ∀ s d, PEvent.takeRecover s d ∈ evs → ∃ k ∈ J, ∃ i, 1 ≤ i ∧ i ≤ 2 * p.F + 1 ∧ s = UInt32.ofNat (i - 1) ∧
      d = recoverBytes codec k (polyVal (sliceX (q k) p.F (2 * p.F) ((p.pid + 1 : ℕ) : Fr)) (i : Fr))
        (quotVal (sliceX (q k) p.F (2 * p.F) ((p.pid + 1 : ℕ) : Fr)) (i : Fr) t • pp.g1) (sg k i) := by
    intro s d h
    rw [hevs] at h
    simp only [refreshEvents, completeEvents, distEvents, batchEvents, List.mem_append, List.mem_map, List.mem_flatMap, List.mem_cons, List.mem_replicate,
      List.not_mem_nil] at h
    simp only [reduceCtorEq, and_false, or_false, false_or, exists_false, PEvent.takeRecover.injEq] at h
    obtain ⟨k, hk, i, hi, h1, h2⟩ := h
    rw [mem_oneTo] at hi
    exact ⟨k, hk, i, hi.1, hi.2, h1, h2⟩
  have hdist : ∀ s d, PEvent.shareDist s d ∈ evs → ∃ j ∈ js, s = UInt32.ofNat (j - 1) ∧
      d = marshal (⟨frTo32 (polyVal (sliceX (refreshed b q J) p.F (2 * p.F) (j : Fr)) ((p.pid + 1 : ℕ) : Fr)),
        codec.enc (quotVal (sliceX (refreshed b q J) p.F (2 * p.F) (j : Fr)) ((p.pid + 1 : ℕ) : Fr) t • pp.g1)⟩ : PShareDist) := by
    intro s d h
    rw [hevs] at h
    simp only [refreshEvents, completeEvents, distEvents, batchEvents, List.mem_append, List.mem_map, List.mem_flatMap, List.mem_cons, List.mem_replicate,
      List.not_mem_nil] at h
    simpa only [reduceCtorEq, and_false, or_false, false_or, exists_false, PEvent.shareDist.injEq] using h
  have hurec : ∀ k ∈ J, ∀ v W s, s.length < 2 ^ 32 → unmarshalD (⟨0, [], [], []⟩ : PRecover) (recoverBytes codec k v W s) = ⟨UInt32.ofNat k, frTo32 v, codec.enc W, s⟩ := by
    intro k hk v W s hs
    have := hJ1 k hk
    rw [unmarshalD, recoverBytes, rt_PRecover _ (size_recover codec k (by omega) v W s hs)]
    rfl
  have hto : ∀ k ∈ J, (UInt32.ofNat k).toNat = k := by
    intro k hk
    have := hJ1 k hk
    rw [UInt32.toNat_ofNat']; exact Nat.mod_eq_of_lt (by omega)
  refine ⟨⟨?_, ?_, ?_⟩, ?_, ?_⟩
  · intro j d h
    rw [hcommit j d h]
    refine ⟨honestRep_describes _ _ _ (hq j), fun k hk c hc => ?_⟩
    have hDj : D j = commitOf codec p.F (honestContent pp t p.F 0 (coins j)) := by
      have := hD j
      rw [commitMsg_ok] at this
      exact (Except.ok.inj this).symm
    rw [hDj, unmarshalD, rt_PCommit _ (size_commit codec p.F hF' _), Option.getD_some, commitEntry_of codec p.F _ k hk] at hc
    have hc := Except.ok.inj hc
    subst hc
    refine ⟨?_, ?_, ?_⟩
    · simp only [honestRep, honestContent, eval_polyOf]
    · simp only [honestRep, honestContent, quotPoly_eval]
    · simp only [honestRep, honestContent, eval_C]
  · intro s d h W hW
    obtain ⟨k, hk, i, i1, i2, rfl, rfl⟩ := htake s d h
    simp only [honestW]
    rw [hurec k hk _ _ _ (hsg _ _)] at hW ⊢
    simp only [codec.dec_enc, Option.some.injEq] at hW
    rw [quotPoly_eval, hto k hk, sender_index i i1 (by omega), ← hW]
  · intro s d h W hW
    obtain ⟨j, hj, hs, hd⟩ := hdist s d h
    have := hj1 j hj
    rw [hd, unmarshalD, rt_PShareDist _ (size_shareDist codec _ _)] at hW
    simp only [Option.getD_some, codec.dec_enc, Option.some.injEq] at hW
    simp only [honestW]
    rw [hs, quotPoly_eval, sender_index j this.1 (by omega), ← hW]
  · intro r h
    rw [hmvba r h]
    exact mvbaInput_names tb p.F p.N hF' hN' sg hrec J hJl (fun k hk => (hJ1 k hk).2)
  · rintro (⟨j, d, -, h⟩ | ⟨s, d, hm, h⟩ | ⟨s, d, hm, h⟩)
    · exact honestRep_not_reveals _ hr _ _ h
    · obtain ⟨k, hk, i, i1, i2, rfl, rfl⟩ := htake s d hm
      simp only [honestW] at h
      rw [hurec k hk _ _ _ (hsg _ _)] at h
      simp only at h
      rw [hto k hk, sender_index i i1 (by omega), frFrom32_copy] at h
      exact not_reveals_quot _ _ _ h
    · obtain ⟨j, hj, hs, hd⟩ := hdist s d hm
      have hj' := hj1 j hj
      rw [hd, hs, unmarshalD, rt_PShareDist _ (size_shareDist codec _ _)] at h
      simp only [Option.getD_some, honestW] at h
      rw [sender_index j hj'.1 (by omega), frFrom32_copy] at h
      exact not_reveals_quot _ _ _ h

end

/-! ### Concrete cases -/

section Examples

/-- A signature service accepting everything. -/
def tb0 : Tbls := ⟨fun _ => [], fun _ _ => true, fun _ _ _ _ => some []⟩

/-- Contributions `Q_j(x,y) = x`. -/
def qX : ℕ → ℕ → ℕ → Fr := fun _ i k => if i = 1 ∧ k = 0 then 1 else 0

/-- The coins that give them, for `F = 1`. -/
def coinsX : ℕ → DealerCoins := fun _ => ⟨fun _ => 0, fun _ _ => 1⟩

theorem qX_slices (j k : ℕ) : sliceX (qX j) 1 (2 * 1) (k : Fr) = ownQ 1 (coinsX j) k := by
  have : dealerFVal 1 0 (coinsX j) k = 0 := by
    rw [dealerFVal_eq]; simp [polyVal, dealerF, coinsX, Finset.sum_range_succ]
  unfold ownQ dealerB
  rw [this]
  simp [sliceX, qX, dealerZ, coinsX, List.range_succ, Finset.sum_range_succ]

/-- `F = 1`, `N = 4`, secret 42: parties 3 and 0 send their share reductions, contributions 2 and 4 are agreed on, shares come from 4, 1 and 2. -/
example (c : DealerCoins) (coins : ℕ → DealerCoins) :=
  C57_epoch frCodec (fun _ => []) (Pairing.dlog Fr) tb0 7 4 1 42 c le_rfl (by norm_num) (by norm_num) (by norm_num) coins [3, 0] (by decide) (by decide)
    (by decide) (fun _ _ => []) (by intro k i; norm_num) (fun _ _ _ _ => rfl) (by intro m s a n r h; cases h; norm_num) [2, 4] (by decide) (by decide) (by decide)
    (fun _ => [4, 1, 2]) (fun _ => by decide)

/-- `C30_unrecovered_used` for party 1 of 4: its new reduced share is wrong. -/
example : ∃ (p p' : Party Fr Fr) (st : PState Fr) (evs : List PEvent) (outs : List POut) (b : ℕ → ℕ → Fr), p.Setup (Pairing.dlog Fr) 7 ∧
    PRun frCodec (Pairing.dlog Fr) tb0 p (PState.init p (coinsX 1)) evs outs p' st ∧ p.reducedShare = sliceX b 1 2 1 ∧
    p'.reducedShare ≠ sliceX (refreshed b qX [2, 3]) 1 2 1 := by
  obtain ⟨p0, -, h2, h3, h4, h5⟩ := newParty_setup (Pairing.dlog Fr) 7 4 1 0
  choose D hD using fun j => (⟨_, commitMsg_ok (codec := frCodec) (Pairing.dlog Fr) 7 1 (coinsX j)⟩ :
    ∃ m, commitMsg frCodec (Pairing.dlog Fr) (newKZG (Pairing.dlog Fr) 7 (1 + 1)) 1 (coinsX j) = .ok m)
  have key := C30_unrecovered_used frCodec (Pairing.dlog Fr) tb0 7 { p0 with reducedShare := sliceX (fun _ _ => 5) 1 2 1 } ⟨h2.kzg, h2.table⟩ (by show 1 ≤ p0.F; omega)
    (by show p0.F ≤ _; rw [h4]; norm_num) (by show 3 * p0.F + 1 ≤ p0.N; omega) (by show p0.N < _; rw [h3]; norm_num) (by show p0.pid < p0.N; omega) (by show p0.pid ≠ p0.F + 1; omega)
    (fun _ _ => 5) (by show _ = sliceX _ p0.F (2 * p0.F) ((p0.pid + 1 : ℕ) : Fr); rw [h4, h5]; norm_num) (coinsX 1) coinsX qX
    (by intro j k _ _; show sliceX _ p0.F (2 * p0.F) _ = ownQ p0.F _ _; rw [h4]; exact qX_slices j k) D (by intro j; show commitMsg _ _ (newKZG _ _ (p0.F + 1)) p0.F _ = _; rw [h4]; exact hD j)
    (fun _ _ => []) (by intro k i; norm_num) (fun _ _ _ _ => rfl) (by intro m s a n r h; cases h; norm_num)
  obtain ⟨-, p', st, Cs, r, -, -, k⟩ := key
  refine ⟨{ p0 with reducedShare := sliceX (fun _ _ => 5) 1 2 1 }, p', st, _, _, fun _ _ => 5, ⟨h2.kzg, h2.table⟩, r, rfl, ?_⟩
  have e : ∀ F' i', F' = 1 → i' = 0 → (sliceX (qX (F' + 2)) F' (2 * F') ((i' + 1 : ℕ) : Fr) ≠ List.replicate (F' + 1) 0 →
      p'.reducedShare ≠ sliceX (refreshed (fun _ _ => 5) qX (List.range' 2 (F' + 1))) F' (2 * F') ((i' + 1 : ℕ) : Fr)) →
      p'.reducedShare ≠ sliceX (refreshed (fun _ _ => 5) qX [2, 3]) 1 2 1 := by
    rintro _ _ rfl rfl h
    have := h (by rw [qX_slices]; simp [ownQ, dealerB, dealerZ, coinsX, List.range_succ])
    simpa [List.range'] using this
  exact e p0.F p0.pid h4 h5 k

/-- `B = 42 + x`. -/
def bX : ℕ → ℕ → Fr := fun i k => if k = 0 then if i = 0 then 42 else 1 else 0

/-- `C31_rehandoff_stalls`: the committee refreshes `42 + x` to `42 + 3x` with setup secret 7, and the next committee never gets its shares. -/
example : ∃ (P : ℕ → Party Fr Fr) (msgs : ℕ → List Bytes) (n : Party Fr Fr), (∀ i < 4, (P i).fullShare = sliceY (refreshed bX qX [2, 4]) 1 2 ((i + 1 : ℕ) : Fr)) ∧
    (∀ i < 4, shareReduceSend frCodec (P i) = .ok (msgs i)) ∧ newParty (Pairing.dlog Fr) 7 4 1 2 = .ok n ∧
    ∀ ids : List ℕ, (∀ i ∈ ids, i < 4) → shareReduceReceive frCodec (Pairing.dlog Fr) n SRState.init (ids.map fun i => (UInt32.ofNat i, (msgs i).getD 2 [])) = .ok none := by
  choose p0 e1 e2 e3 e4 e5 using fun i => newParty_setup (Pairing.dlog Fr) 7 4 1 i
  choose D hD using fun j => (⟨_, commitMsg_ok (codec := frCodec) (Pairing.dlog Fr) 7 1 (coinsX j)⟩ :
    ∃ m, commitMsg frCodec (Pairing.dlog Fr) (newKZG (Pairing.dlog Fr) 7 (1 + 1)) 1 (coinsX j) = .ok m)
  set P0 : ℕ → Party Fr Fr := fun i => { p0 i with
    proof := ⟨0, (List.range 4).map fun k : ℕ => ⟨k, polyVal (sliceX bX 1 2 (k : Fr)) 7 • (Pairing.dlog Fr).g1, 0, 0, 0⟩⟩
    reducedShare := sliceX bX 1 2 ((i + 1 : ℕ) : Fr) } with hP0
  have hk : ∀ i, KnowsComs (Pairing.dlog Fr) 7 bX (P0 i) := by
    intro i k k1 k2
    have eF : (P0 i).F = 1 := e4 i
    rw [eF] at k2 ⊢
    rw [commitToPoly_ok _ _ _ _ (by rw [sliceX_length])]
    congr 1
    interval_cases k <;> rfl
  have hrun := fun i (hi : i < 4) => C29_honest_run frCodec (Pairing.dlog Fr) tb0 7 (P0 i) ⟨(e2 i).kzg, (e2 i).table⟩ (by show 1 ≤ (p0 i).F; rw [e4])
    (by show (p0 i).F ≤ _; rw [e4]; norm_num) (by show 3 * (p0 i).F + 1 ≤ (p0 i).N; rw [e4, e3]) (by show (p0 i).N < _; rw [e3]; norm_num)
    (by show (p0 i).pid < (p0 i).N; rw [e5, e3]; exact hi) bX (hk i) (by show _ = sliceX _ (p0 i).F (2 * (p0 i).F) (((p0 i).pid + 1 : ℕ) : Fr); rw [e4, e5]) (coinsX 1) coinsX qX
    (by intro j k _ _; show sliceX _ (p0 i).F (2 * (p0 i).F) _ = ownQ (p0 i).F _ _; rw [e4]; exact qX_slices j k) D
    (by intro j; show commitMsg _ _ (newKZG _ _ ((p0 i).F + 1)) (p0 i).F _ = _; rw [e4]; exact hD j)
    (fun _ _ => []) (by intro k i; norm_num) (fun _ _ _ _ => rfl) (by intro m s a n r h; cases h; norm_num) [2, 4] (by decide)
    (by show _ = (p0 i).F + 1; rw [e4]; rfl) (by show ∀ k ∈ _, 1 ≤ k ∧ k ≤ (p0 i).N; rw [e3]; decide) [4, 1, 2] (by decide)
    (by show _ = 2 * (p0 i).F + 1; rw [e4]; rfl) (by show ∀ k ∈ _, 1 ≤ k ∧ k ≤ (p0 i).N; rw [e3]; decide)
  have : Nonempty (Party Fr Fr) := ⟨p0 0⟩
  have : Nonempty (PState Fr) := ⟨PState.init (p0 0) (coinsX 1)⟩
  choose! P st r h1 _ _ h2 _ using hrun
  have hfull : ∀ i < 4, (P i).fullShare = sliceY (refreshed bX qX [2, 4]) 1 (2 * 1) ((i + 1 : ℕ) : Fr) := by
    intro i hi
    have := h2 i hi
    have e : ∀ F' i', F' = 1 → i' = i → sliceY (refreshed bX qX [2, 4]) F' (2 * F') ((i' + 1 : ℕ) : Fr) = sliceY (refreshed bX qX [2, 4]) 1 (2 * 1) ((i + 1 : ℕ) : Fr) := by
      rintro _ _ rfl rfl; rfl
    rw [this]; exact e _ _ (e4 i) (e5 i)
  obtain ⟨n, n1, n2, n3, n4, n5⟩ := newParty_setup (Pairing.dlog Fr) 7 4 1 2
  obtain ⟨msgs, m1, m2⟩ := C31_rehandoff_stalls frCodec (Pairing.dlog Fr) (fun _ => tb0) 7 1 4 le_rfl (by norm_num) (by decide +kernel) bX (refreshed bX qX [2, 4]) P0 P
    (fun _ => coinsX 1) _ _ st (fun i _ => ⟨p0 i, _, _, e1 i, rfl, hk i⟩) r (fun i hi => ⟨h1 i hi, hfull i hi⟩) n n2 n4 (by omega) (by
      intro i hi
      rw [n5]
      have : ∀ x y, biVal (refreshed bX qX [2, 4]) 1 (2 * 1) x y = 42 + 3 * x := by
        intro x y; rw [biVal_refreshed]; simp [biVal, bX, qX, Finset.sum_range_succ]; ring
      rw [this]
      have : ∀ x y, biVal bX 1 (2 * 1) x y = 42 + x := by
        intro x y; simp [biVal, bX, Finset.sum_range_succ]
      rw [this]
      interval_cases i <;> decide +kernel)
  rw [n5] at m2
  exact ⟨P, msgs, n, hfull, fun i hi => (m1 i hi).1, n1, m2⟩

/-- `C55_index_zero_blocks`. -/
example (c : DealerCoins) : ∃ p : Party Fr Fr, newParty (Pairing.dlog Fr) 7 4 1 2 = .ok p ∧ ∃ st1,
    PRun frCodec (Pairing.dlog Fr) tb0 p (PState.init p c) [.takeRecover 3 (recoverBytes frCodec 0 1 1 [])] [] p st1 := by
  obtain ⟨p, h1, -, h3, -⟩ := newParty_setup (Pairing.dlog Fr) 7 4 1 2
  obtain ⟨st1, k, -⟩ := C55_index_zero_blocks frCodec (Pairing.dlog Fr) tb0 p c 3 1 1 [] (by norm_num) (by rw [h3]; norm_num)
  exact ⟨p, h1, st1, k⟩

/-- `C27_bad_pair_voted` and `C56_recover_replay_fatal`, for party 3 in a state where the commitments of party 2 to `Q(x,y) = x` have been accepted. -/
example (c : DealerCoins) : ∃ (p : Party Fr Fr) (st : PState Fr), newParty (Pairing.dlog Fr) 7 4 1 2 = .ok p ∧ st.flgCom 2 = true ∧
    (∃ m out, proactStep frCodec (Pairing.dlog Fr) tb0 p st (.reshare 1 (marshal m)) = some (.ok (p, { st with voters := st.voters - 1 }, out)) ∧ out ≠ [] ∧
      ¬ PairOpens frCodec (Pairing.dlog Fr) 7 (st.CQ 2 1) 3 m 1) ∧
    ∃ evs st', PRun frCodec (Pairing.dlog Fr) tb0 p st evs [] p st' ∧ proactStep frCodec (Pairing.dlog Fr) tb0 p st' (.handleRecover 2) = some (.error .fatal) := by
  obtain ⟨p, h1, h2, h3, h4, h5⟩ := newParty_setup (Pairing.dlog Fr) 7 4 1 2
  refine ⟨p, { PState.init p c with flgCom := fun _ => true, CQ := fun _ _ => 7 }, h1, rfl, ?_, ?_⟩
  · obtain ⟨m, out, k1, -, k3, k4⟩ := C27_bad_pair_voted frCodec (Pairing.dlog Fr) 7 tb0 p h2 (by omega) (by rw [h4]; norm_num) (by omega) (by rw [h3]; norm_num)
      { PState.init p c with flgCom := fun _ => true, CQ := fun _ _ => 7 } 2 (by norm_num) (by omega) rfl (by show p.N ≠ 0; omega)
    refine ⟨m, out, k1, fun h => ?_, ?_⟩
    · obtain ⟨r, hr, -⟩ := k4 1 le_rfl (by omega)
      rw [h] at hr; simp at hr
    · have := k3 1 le_rfl (by omega)
      rw [h5] at this
      exact_mod_cast this
  · obtain ⟨st', k1, k2⟩ := C56_recover_replay_fatal frCodec (Pairing.dlog Fr) tb0 7 p h2 (by omega) (by omega) (by rw [h3]; norm_num)
      { PState.init p c with flgCom := fun _ => true, CQ := fun _ _ => 7 } 2 (by norm_num) (by omega)
      (by constructor <;> rfl) [0, 1] (by rw [h4]; rfl)
      (by show (7 : Fr) = polyVal [0, 1] 7 • (1 : Fr); simp [polyVal, Finset.sum_range_succ]) (fun _ => []) (by intro i; norm_num) (fun _ _ _ => rfl)
    exact ⟨_, st', k1, k2⟩

end Examples

end DyCAPS
