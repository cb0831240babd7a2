import Verif.Spec.OneCommittee
import Verif.Props.EpochCorrupt

/-!
# C123: one committee renews its own shares

The role `onlyOneCommittee` of main.go:111-162: every member gets its share from the client, sends Prepare to its own committee, receives Prepare (which overwrites the commitments it holds), sends ShareReduce,
receives ShareReduce and refreshes.
-/

set_option linter.unusedSectionVars false

namespace DyCAPS

open Polynomial

section
variable {G1 G2 GT : Type} [AddCommGroup G1] [Module Fr G1] [AddCommGroup G2] [Module Fr G2] [AddCommGroup GT] [Module Fr GT]
variable [DecidableEq G1] [DecidableEq GT]

/-- Receiving Prepare from the own committee leaves everything a member needs for sending ShareReduce. -/
theorem exchange_keeps (codec : PointCodec G1) (sha : Bytes → Bytes) (pp : Pairing Fr G1 G2 GT) (t : Fr) {F N : ℕ} (hF' : F ≤ 2 ^ 20) {b : ℕ → ℕ → Fr} {old : ℕ → Party G1 G2}
    (hold : ∀ k < N, (old k).pid = k ∧ (old k).F = F ∧ (old k).N = N ∧ (old k).Setup pp t ∧ HoldsFull pp t b (old k)) {heard : ℕ → Heard} {corrupt : Finset UInt32} (hcor : corrupt.card ≤ F)
    (hx : Exchange codec sha N old heard corrupt) (hnc : ¬ PrepCollision sha (Following N corrupt) heard) {i : ℕ} (hi : i < N) (hic : UInt32.ofNat i ∉ corrupt) {p : Party G1 G2}
    (hp : prepareReceive codec sha (old i) (fun _ => 0) ((heard i).prep.map Prod.snd) = .ok (some p)) : ∃ pi, p = { old i with proof := pi } ∧ HoldsFull pp t b p := by
  obtain ⟨h1, h2, h3, h4, h5⟩ := hold i hi
  rcases C23_adopts_honest codec sha (old i) p corrupt (by rw [h2]; exact hcor) _ (hx.prepOnce i hi hic) hp with ⟨m, hm, hmc, hm'⟩ | hc
  swap
  · exact absurd ⟨i, List.mem_filter.2 ⟨List.mem_range.2 hi, by simpa using hic⟩, hc⟩ hnc
  obtain ⟨hlt, he⟩ := hx.prep i hi hic m hm hmc
  obtain ⟨pi, g1, g2⟩ := prepareAdopt_honest codec pp t b (old i) (old m.1.toNat) (hold _ hlt).2.2.2.2.coms (by rw [(hold _ hlt).2.1, h2]) (by rw [h2]; exact hF')
  rw [he, g1] at hm'
  cases hm'
  exact ⟨pi, rfl, ⟨h5.share, g2, h5.witLen, h5.wits, h5.witIdx⟩⟩

/-- What the members that follow the protocol send in ShareReduce. -/
theorem exchange_sends (codec : PointCodec G1) (sha : Bytes → Bytes) (pp : Pairing Fr G1 G2 GT) (t : Fr) {F N : ℕ} (hF' : F ≤ 2 ^ 20) (hN : 3 * F + 1 ≤ N) (hN' : N < 2 ^ 32) {b : ℕ → ℕ → Fr}
    {old : ℕ → Party G1 G2} (hold : ∀ k < N, (old k).pid = k ∧ (old k).F = F ∧ (old k).N = N ∧ (old k).Setup pp t ∧ HoldsFull pp t b (old k)) {heard : ℕ → Heard} {corrupt : Finset UInt32}
    (hcor : corrupt.card ≤ F) (hx : Exchange codec sha N old heard corrupt) (hnc : ¬ PrepCollision sha (Following N corrupt) heard) {i : ℕ} (hi : i < N) (hic : UInt32.ofNat i ∉ corrupt)
    (m : UInt32 × Bytes) (hm : m ∈ (heard i).red) (hmc : m.1 ∉ corrupt) : HonestSR codec pp t b F (m.1 + 1).toNat (i + 1) m.2 := by
  obtain ⟨hlt, kept, out, k1, k2, k3⟩ := hx.red i hi hic m hm hmc
  obtain ⟨h1, h2, h3, h4, h5⟩ := hold _ hlt
  obtain ⟨pi, e, hh⟩ := exchange_keeps codec sha pp t hF' hold hcor hx hnc hlt (by rw [UInt32.ofNat_toNat]; exact hmc) k1
  have e1 : (m.1 + 1).toNat = m.1.toNat + 1 := by
    rw [UInt32.toNat_add]
    simp
    omega
  rw [e1, k3]
  refine honestSR_of_send codec pp t hN' hi (b := b) (o := kept) ⟨?_, ?_, ?_, ?_, hh, k2⟩ hN
  · rw [e]; exact h1
  · rw [e]; exact h2
  · rw [e]; exact h3
  · rw [e]; exact ⟨h4.kzg, h4.table⟩

/-- **C123.** A client shares `s` in a committee, which then renews its shares by itself. Up to `F` members say anything in the hand-off, up to `F` do anything in the broadcasts and the messages of the refresh (no
Echo counted twice), every member is heard at most once per phase of the hand-off, and whatever happens in the agreement, `F+1` members following the protocol get the same value from it. If they complete, they
reconstruct `s` - or two different byte strings with the same hash are among what they heard, or the sender of a message knows a nonzero polynomial vanishing at the setup secret. -/
theorem C123_agreed (codec : PointCodec G1) (sha : Bytes → Bytes) (pp : Pairing Fr G1 G2 GT) (t : Fr) (N F : ℕ) (s : Fr) (c : DealerCoins) (hF : 1 ≤ F) (hF' : F ≤ 2 ^ 20) (hN : 3 * F + 1 ≤ N) (hN' : N < 2 ^ 32) :
    ∃ (b : ℕ → ℕ → Fr) (msgs : List Bytes) (old : ℕ → Party G1 G2), clientShare codec pp (newKZG pp t (F + 1)) N F s c = .ok msgs ∧
      (∀ k < N, ∃ p, newParty pp t N F k = .ok p ∧ vssShareReceive codec pp p (msgs.getD k []) = .ok (old k, true)) ∧ biVal b F (2 * F) 0 0 = s ∧
      (∀ k < N, (old k).pid = k ∧ (old k).F = F ∧ (old k).N = N ∧ (old k).Setup pp t ∧ HoldsFull pp t b (old k)) ∧
      ∀ (corrupt : Finset UInt32) (heard : ℕ → Heard) (mem : ℕ → Member G1 G2) (S : List ℕ), corrupt.card ≤ F → Exchange codec sha N old heard corrupt → S.Nodup → S.length = F + 1 →
        (∀ i ∈ S, i < N ∧ UInt32.ofNat i ∉ corrupt ∧ (mem i).Renews codec sha pp (old i) (heard i) ∧ (mem i).st.successSent = true) →
      ∀ (envR : REnv) (H : Finset ℕ) (evsC : ℕ → List NEvent) (netC : ℕ → RNet), envR.Ok → HonestSet envR H → (∀ j, NRun envR H RNet.init (evsC j) (netC j) ∧ EchoOnce (evsC j)) →
        (∀ i ∈ S, i ∈ H ∧ (mem i).Hears netC i) →
      SameValue mem S →
      ∀ (q : ℕ → Bytes → ℕ → ℕ → Fr) (rep : ℕ → Bytes → CommitRep) (w : ℕ → PEvent → Fr[X]), (∀ i ∈ S, (mem i).Alg codec pp t q rep (w i)) →
        Reconstructs F s (S.map fun i => (mem i).after) ∨ PrepCollision sha (Following N corrupt) heard ∨ CastCollision envR netC S ∨
          ∃ data J, Common mem S data J ∧ ∃ i ∈ S, RunReveals t (mem i).before b (fun j => q j (data j)) J (fun j => rep j (data j)) (w i) (mem i).evs := by
  have hr' : N < frModulus := lt_trans hN' (by decide +kernel)
  obtain ⟨msgs, hm, -, b, old, hb, hold, -⟩ := C18_honest_sharing codec pp t N F s c hF hF' hN hr'
  have hold' : ∀ k < N, (old k).pid = k ∧ (old k).F = F ∧ (old k).N = N ∧ (old k).Setup pp t ∧ HoldsFull pp t b (old k) := fun k hk =>
    ⟨(hold k hk).1, (hold k hk).2.1, (hold k hk).2.2.1, (hold k hk).2.2.2.1, (hold k hk).2.2.2.2.1⟩
  refine ⟨b, msgs, old, hm, fun k hk => (hold k hk).2.2.2.2.2, hb, hold', ?_⟩
  intro corrupt heard mem S hcor hx hnd hlen hS envR H evsC netC ok hH hC hears same q rep w alg
  by_cases hpc : PrepCollision sha (Following N corrupt) heard
  · exact Or.inr (Or.inl hpc)
  have runs : ∀ i ∈ S, (mem i).Runs codec pp t b F N i := by
    intro i hi
    obtain ⟨hiN, hic, hr, -⟩ := hS i hi
    obtain ⟨h1, h2, h3, h4, h5⟩ := hold' i hiN
    obtain ⟨p1, e1, e2⟩ := hr.start
    obtain ⟨pi, rfl, hh⟩ := exchange_keeps codec sha pp t hF' hold' hcor hx hpc hiN hic e1
    have hs : ∃ share, (mem i).before = { ({ old i with proof := pi } : Party G1 G2) with reducedShare := share } := by
      have hrun := sr_run codec pp t b { old i with proof := pi } ⟨h4.kzg, h4.table⟩ (by show 1 ≤ (old i).F; omega) (i + 1) corrupt (by show _ ≤ (old i).F; omega) _ rfl (heard i).red [] SRState.init
        (by simpa using hx.redOnce i hiN hic) (by
          intro x hx' hxc
          show HonestSR codec pp t b (old i).F _ _ _
          rw [h2]
          exact exchange_sends codec sha pp t hF' hN hN' hold' hcor hx hpc hiN hic x (by simpa using hx') hxc) (SRInv.init _ _ _ _ _ _)
      rcases hrun with ⟨h1, -⟩ | ⟨h1, -⟩ | ⟨share, pts, h1, -⟩
      · rw [h1] at e2; cases e2
      · rw [h1] at e2; cases e2
      · rw [h1] at e2
        exact ⟨share, (Option.some.inj (Except.ok.inj e2)).symm⟩
    obtain ⟨share, hbf⟩ := hs
    refine ⟨?_, ?_, ?_, ?_, ?_, hr.run⟩
    · rw [hbf]; exact ⟨h4.kzg, h4.table⟩
    · rw [hbf]; exact h2
    · rw [hbf]; exact h3
    · rw [hbf]; exact h1
    · rw [hbf]; exact hh.coms
  rcases C84_agreed_partial codec pp t hF hN hr' ok hH hC hnd hlen (fun i hi => ⟨(hears i hi).1, (hS i hi).1⟩) runs (fun i hi => (hears i hi).2) same alg (fun i hi => (hS i hi).2.2.2) with ⟨data, J, hc, h | h⟩ | h
  · rw [hb] at h
    exact Or.inl h
  · exact Or.inr (Or.inr (Or.inr ⟨data, J, hc, h⟩))
  · exact Or.inr (Or.inr (Or.inl h))

/-- **C123.** A client shares `s` in a committee, which then renews its shares by itself. Up to `F` members say anything in the hand-off, up to `F` do anything in the broadcasts and the messages of the refresh (no
Echo counted twice), every member is heard at most once per phase of the hand-off, and in the agreement members may only stop. Then any `F+1` members following the protocol that complete reconstruct `s` - or two
different byte strings with the same hash are among what they heard, or the sender of a message knows a nonzero polynomial vanishing at the setup secret. -/
theorem C123_renewal (codec : PointCodec G1) (sha : Bytes → Bytes) (pp : Pairing Fr G1 G2 GT) (t : Fr) (N F : ℕ) (s : Fr) (c : DealerCoins) (hF : 1 ≤ F) (hF' : F ≤ 2 ^ 20) (hN : 3 * F + 1 ≤ N) (hN' : N < 2 ^ 32) :
    ∃ (b : ℕ → ℕ → Fr) (msgs : List Bytes) (old : ℕ → Party G1 G2), clientShare codec pp (newKZG pp t (F + 1)) N F s c = .ok msgs ∧
      (∀ k < N, ∃ p, newParty pp t N F k = .ok p ∧ vssShareReceive codec pp p (msgs.getD k []) = .ok (old k, true)) ∧ biVal b F (2 * F) 0 0 = s ∧
      (∀ k < N, (old k).pid = k ∧ (old k).F = F ∧ (old k).N = N ∧ (old k).Setup pp t ∧ HoldsFull pp t b (old k)) ∧
      ∀ (corrupt : Finset UInt32) (heard : ℕ → Heard) (mem : ℕ → Member G1 G2) (S : List ℕ), corrupt.card ≤ F → Exchange codec sha N old heard corrupt → S.Nodup → S.length = F + 1 →
        (∀ i ∈ S, i < N ∧ UInt32.ofNat i ∉ corrupt ∧ (mem i).Renews codec sha pp (old i) (heard i) ∧ (mem i).st.successSent = true) →
      ∀ (envR : REnv) (H : Finset ℕ) (evsC : ℕ → List NEvent) (netC : ℕ → RNet), envR.Ok → HonestSet envR H → (∀ j, NRun envR H RNet.init (evsC j) (netC j) ∧ EchoOnce (evsC j)) →
        (∀ i ∈ S, i ∈ H ∧ (mem i).Hears netC i) →
      ∀ (envM : MEnv) (full : SMsg → Bytes) (input : ℕ → Bytes × Bytes) (evsM : List (ℕ × MEvent)) (netM : MNet), SchemeOk envM full → envM.N = 3 * envM.F + 1 →
        MRun envM (Finset.range envM.N) ⟨true, true⟩ (MNet.init (Finset.range envM.N) input envM.N) evsM netM → (∀ i s m, (i, MEvent.recv s m) ∈ evsM → s < envM.N) →
        (∀ i ∈ S, i < envM.N ∧ (mem i).Obeys netM i) →
      ∀ (q : ℕ → Bytes → ℕ → ℕ → Fr) (rep : ℕ → Bytes → CommitRep) (w : ℕ → PEvent → Fr[X]), (∀ i ∈ S, (mem i).Alg codec pp t q rep (w i)) →
        Reconstructs F s (S.map fun i => (mem i).after) ∨ PrepCollision sha (Following N corrupt) heard ∨ CastCollision envR netC S ∨ ValueCollision envM netM S ∨
          ∃ data J, Common mem S data J ∧ ∃ i ∈ S, RunReveals t (mem i).before b (fun j => q j (data j)) J (fun j => rep j (data j)) (w i) (mem i).evs := by
  obtain ⟨b, msgs, old, h1, h2, h3, h4, key⟩ := C123_agreed codec sha pp t N F s c hF hF' hN hN'
  refine ⟨b, msgs, old, h1, h2, h3, h4, ?_⟩
  intro corrupt heard mem S hcor hx hnd hlen hS envR H evsC netC ok hH hC hears envM full input evsM netM hok hNM hM hsrc obeys q rep w alg
  rcases same_of (envM := envM) (fun i hi => (obeys i hi).2) (fun i hi i' hi' r r' v v' h h' => C39_crash_partial hok hNM hM hsrc (obeys i hi).1 (obeys i' hi').1 h h') with same | h
  · rcases key corrupt heard mem S hcor hx hnd hlen hS envR H evsC netC ok hH hC hears same q rep w alg with h | h | h | h
    · exact Or.inl h
    · exact Or.inr (Or.inl h)
    · exact Or.inr (Or.inr (Or.inl h))
    · exact Or.inr (Or.inr (Or.inr (Or.inr h)))
  · exact Or.inr (Or.inr (Or.inr (Or.inl h)))

/-- **C123.** The same with up to `F` members doing anything in all parts of the refresh, if the members decide in one round of the agreement, having counted coin shares of different members. -/
theorem C123_one_round (codec : PointCodec G1) (sha : Bytes → Bytes) (pp : Pairing Fr G1 G2 GT) (t : Fr) (N F : ℕ) (s : Fr) (c : DealerCoins) (hF : 1 ≤ F) (hF' : F ≤ 2 ^ 20) (hN : 3 * F + 1 ≤ N) (hN' : N < 2 ^ 32) :
    ∃ (b : ℕ → ℕ → Fr) (msgs : List Bytes) (old : ℕ → Party G1 G2), clientShare codec pp (newKZG pp t (F + 1)) N F s c = .ok msgs ∧
      (∀ k < N, ∃ p, newParty pp t N F k = .ok p ∧ vssShareReceive codec pp p (msgs.getD k []) = .ok (old k, true)) ∧ biVal b F (2 * F) 0 0 = s ∧
      (∀ k < N, (old k).pid = k ∧ (old k).F = F ∧ (old k).N = N ∧ (old k).Setup pp t ∧ HoldsFull pp t b (old k)) ∧
      ∀ (corrupt : Finset UInt32) (heard : ℕ → Heard) (mem : ℕ → Member G1 G2) (S : List ℕ), corrupt.card ≤ F → Exchange codec sha N old heard corrupt → S.Nodup → S.length = F + 1 →
        (∀ i ∈ S, i < N ∧ UInt32.ofNat i ∉ corrupt ∧ (mem i).Renews codec sha pp (old i) (heard i) ∧ (mem i).st.successSent = true) →
      ∀ (envR : REnv) (H : Finset ℕ) (evsC : ℕ → List NEvent) (netC : ℕ → RNet), envR.Ok → HonestSet envR H → (∀ j, NRun envR H RNet.init (evsC j) (netC j) ∧ EchoOnce (evsC j)) →
        (∀ i ∈ S, i ∈ H ∧ (mem i).Hears netC i) →
      ∀ (envM : MEnv) (full : SMsg → Bytes) (cfg : MNetCfg) (input : ℕ → Bytes × Bytes) (evsM : List (ℕ × MEvent)) (netM : MNet) (r : ℕ), SchemeOk envM full → Committee envM H →
        MRun envM H cfg (MNet.init H input envM.N) evsM netM → (∀ i ∈ S, (mem i).Obeys netM i ∧ (∀ r' v, Decides netM i r' v → r' = r) ∧ (coinSigners envM netM i r).Nodup) →
      ∀ (q : ℕ → Bytes → ℕ → ℕ → Fr) (rep : ℕ → Bytes → CommitRep) (w : ℕ → PEvent → Fr[X]), (∀ i ∈ S, (mem i).Alg codec pp t q rep (w i)) →
        Reconstructs F s (S.map fun i => (mem i).after) ∨ PrepCollision sha (Following N corrupt) heard ∨ CastCollision envR netC S ∨ ValueCollision envM netM S ∨
          ∃ data J, Common mem S data J ∧ ∃ i ∈ S, RunReveals t (mem i).before b (fun j => q j (data j)) J (fun j => rep j (data j)) (w i) (mem i).evs := by
  obtain ⟨b, msgs, old, h1, h2, h3, h4, key⟩ := C123_agreed codec sha pp t N F s c hF hF' hN hN'
  refine ⟨b, msgs, old, h1, h2, h3, h4, ?_⟩
  intro corrupt heard mem S hcor hx hnd hlen hS envR H evsC netC ok hH hC hears envM full cfg input evsM netM r hok hcm hM obeys q rep w alg
  rcases same_of (envM := envM) (fun i hi => (obeys i hi).1) (fun i hi i' hi' r1 r2 v v' h h' => by
      cases (obeys i hi).2.1 r1 v h
      cases (obeys i' hi').2.1 r2 v' h'
      exact C38_distinct_coins_partial hok hcm hM (hears i hi).1 (hears i' hi').1 h h' (obeys i hi).2.2 (obeys i' hi').2.2) with same | h
  · rcases key corrupt heard mem S hcor hx hnd hlen hS envR H evsC netC ok hH hC hears same q rep w alg with h | h | h | h
    · exact Or.inl h
    · exact Or.inr (Or.inl h)
    · exact Or.inr (Or.inr (Or.inl h))
    · exact Or.inr (Or.inr (Or.inr (Or.inr h)))
  · exact Or.inr (Or.inr (Or.inr (Or.inl h)))

/-- **C123 (the hand-off completes).** Members of one committee hold full shares of `B` and hand over to themselves. A member following the protocol that hears `F+1` members following the protocol in each phase, with
ShareReduce messages that decode, still has its full share and the commitments when it sends ShareReduce, and gets its reduced share `B(·, i+1)` - or two different Prepare messages have the same hash, or a corrupt
sender knows a nonzero polynomial vanishing at the setup secret. -/
theorem C123_handoff (codec : PointCodec G1) (sha : Bytes → Bytes) (pp : Pairing Fr G1 G2 GT) (t : Fr) {F N i : ℕ} (hF : 1 ≤ F) (hF' : F ≤ 2 ^ 20) (hN : 3 * F + 1 ≤ N) (hN' : N < 2 ^ 32) (hi : i < N)
    {b : ℕ → ℕ → Fr} {old : ℕ → Party G1 G2} (hold : ∀ k < N, (old k).pid = k ∧ (old k).F = F ∧ (old k).N = N ∧ (old k).Setup pp t ∧ HoldsFull pp t b (old k))
    {heard : ℕ → Heard} {corrupt : Finset UInt32} (hcor : corrupt.card ≤ F) (hic : UInt32.ofNat i ∉ corrupt) (hx : Exchange codec sha N old heard corrupt) (hdec : ∀ m ∈ (heard i).red, SRDecodable codec m.2)
    (hprep : F + 1 ≤ ((heard i).prep.filter fun m => m.1 ∉ corrupt).length) (hred : F + 1 ≤ ((heard i).red.filter fun m => m.1 ∉ corrupt).length)
    (w : UInt32 × Bytes → Fr[X]) (halg : ∀ m ∈ (heard i).red, m.1 ∈ corrupt → ∀ W, codec.dec (srMsg m.2).W = some W → W = (w m).eval t • pp.g1) :
    (∃ p1 p2 out, prepareReceive codec sha (old i) (fun _ => 0) ((heard i).prep.map Prod.snd) = .ok (some p1) ∧ HoldsFull pp t b p1 ∧ shareReduceSend codec p1 = .ok out ∧
      shareReduceReceive codec pp p1 SRState.init (heard i).red = .ok (some p2) ∧ HoldsFull pp t b p2 ∧ p2.reducedShare = sliceX b F (2 * F) ((i + 1 : ℕ) : Fr)) ∨
    PrepCollision sha (Following N corrupt) heard ∨
    ∃ m ∈ (heard i).red, m.1 ∈ corrupt ∧ ∃ v, OpeningReveals t (sliceX b F (2 * F) ((i + 1 : ℕ) : Fr)) (w m) (((m.1 + 1).toNat : ℕ) : Fr) v := by
  by_cases hnc : PrepCollision sha (Following N corrupt) heard
  · exact Or.inr (Or.inl hnc)
  have hr' : N < frModulus := lt_trans hN' (by decide +kernel)
  obtain ⟨h1, h2, h3, h4, h5⟩ := hold i hi
  have hmem : i ∈ Following N corrupt := List.mem_filter.2 ⟨List.mem_range.2 hi, by simpa using hic⟩
  rcases C23_prepare codec sha pp t b (old i) (by omega) corrupt (by omega) (heard i).prep (hx.prepOnce i hi hic) (fun m hm hc => ⟨old m.1.toNat, by rw [(hold _ (hx.prep i hi hic m hm hc).1).2.1, h2],
    (hold _ (hx.prep i hi hic m hm hc).1).2.2.2.2.coms, (hx.prep i hi hic m hm hc).2⟩) (by rw [h2]; exact hprep) with ⟨pi, g1, -⟩ | hc
  swap
  · exact absurd ⟨i, hmem, hc⟩ hnc
  obtain ⟨pi', e, hh⟩ := exchange_keeps codec sha pp t hF' hold hcor hx hnc hi hic g1
  have hset : ({ old i with proof := pi } : Party G1 G2).Setup pp t := ⟨h4.kzg, h4.table⟩
  have hhon : ∀ m ∈ (heard i).red, m.1 ∉ corrupt → HonestSR codec pp t b ({ old i with proof := pi } : Party G1 G2).F (m.1 + 1).toNat (({ old i with proof := pi } : Party G1 G2).pid + 1) m.2 := by
    intro m hm hc
    show HonestSR codec pp t b (old i).F _ ((old i).pid + 1) _
    rw [h1, h2]
    exact exchange_sends codec sha pp t hF' hN hN' hold hcor hx hnc hi hic m hm hc
  obtain ⟨out, o1, -⟩ := C25_send codec pp t b { old i with proof := pi } hset hh (by show 3 * (old i).F + 1 ≤ (old i).N; omega) (by show (old i).N < _; omega)
  obtain ⟨p2, k1⟩ := C25_terminates codec pp t b { old i with proof := pi } hset (by show 1 ≤ (old i).F; omega) corrupt (by show _ ≤ (old i).F; omega) (heard i).red (hx.redOnce i hi hic) hhon hdec
    (by show (old i).F + 1 ≤ _; rw [h2]; exact hred)
  rcases C25_receive codec pp t b { old i with proof := pi } hset (by show 1 ≤ (old i).F; omega) corrupt (by show _ ≤ (old i).F; omega) (heard i).red (hx.redOnce i hi hic) hhon w halg p2 k1 with e | ⟨m, m1, m2, v, m3, m4⟩
  · left
    refine ⟨_, p2, out, g1, hh, o1, k1, ?_, ?_⟩
    · rw [e]; exact ⟨hh.share, hh.coms, hh.witLen, hh.wits, hh.witIdx⟩
    · rw [e]
      show sliceX b (old i).F (2 * (old i).F) (((old i).pid + 1 : ℕ) : Fr) = _
      rw [h1, h2]
  · right; right
    refine ⟨m, m1, m2, v, ?_⟩
    simp only [h1, h2] at m3 m4
    exact ⟨m3, m4⟩

/-- **C123 (everybody follows the protocol).** A client shares `s`; every member hears the Prepare messages of any `F+1` or more members `ids i` and the ShareReduce messages of any `F+1` or more members `ids' i`, and runs
Proactivize and ShareDist with an arbitrary set `J` of `F+1` resharers, hearing `2F+1` members `js i` first. Every call returns without error, every member completes, and any `F+1` members reconstruct `s`. -/
theorem C123_renews (codec : PointCodec G1) (sha : Bytes → Bytes) (pp : Pairing Fr G1 G2 GT) (tb : Tbls) (t : Fr) (N F : ℕ) (s : Fr) (c : DealerCoins)
    (hF : 1 ≤ F) (hF' : F ≤ 2 ^ 20) (hN : 3 * F + 1 ≤ N) (hN' : N < 2 ^ 32) (coins : ℕ → DealerCoins)
    (ids ids' : ℕ → List ℕ) (hids : ∀ i, F + 1 ≤ (ids i).length ∧ ∀ k ∈ ids i, k < N) (hids' : ∀ i, (ids' i).Nodup ∧ F + 1 ≤ (ids' i).length ∧ ∀ k ∈ ids' i, k < N)
    (sg : ℕ → ℕ → Bytes) (hsg : ∀ k i, (sg k i).length < 2 ^ 32) (hver : ∀ k i, 1 ≤ i → i ≤ 2 * F + 1 → tb.verifyPartial (decimalBytes k) (sg k i) = true)
    (hrec : ∀ m s a n r, tb.recover m s a n = some r → r.length < 2 ^ 32)
    (J : List ℕ) (hJ : J.Nodup) (hJl : J.length = F + 1) (hJ1 : ∀ k ∈ J, 1 ≤ k ∧ k ≤ N)
    (js : ℕ → List ℕ) (hjs : ∀ j, (js j).Nodup ∧ (js j).length = 2 * F + 1 ∧ ∀ k ∈ js j, 1 ≤ k ∧ k ≤ N) :
    ∃ (b : ℕ → ℕ → Fr) (q : ℕ → ℕ → ℕ → Fr) (msgs : List Bytes) (sr : ℕ → List Bytes) (D : ℕ → PCommit) (old kept new : ℕ → Party G1 G2),
      clientShare codec pp (newKZG pp t (F + 1)) N F s c = .ok msgs ∧
      (∀ i < N, ∃ p, newParty pp t N F i = .ok p ∧ vssShareReceive codec pp p (msgs.getD i []) = .ok (old i, true) ∧
        prepareReceive codec sha (old i) (fun _ => 0) ((ids i).map fun k => prepareSend codec (old k)) = .ok (some (kept i)) ∧ shareReduceSend codec (kept i) = .ok (sr i)) ∧
      (∀ j, commitMsg codec pp (newKZG pp t (F + 1)) F (coins j) = .ok (D j)) ∧
      (∀ i < N, ∃ p st, shareReduceReceive codec pp (kept i) SRState.init ((ids' i).map fun k => (UInt32.ofNat k, (sr k).getD i [])) = .ok (some p) ∧
        PRun codec pp tb p (PState.init p (coins (i + 1)))
          (refreshEvents codec pp t F N (i + 1) q (fun j => marshal (D j)) sg J (marshal (mvbaInput tb F N sg J)) ++
            completeEvents codec pp t F (i + 1) (refreshed b q J) (js i)) [.mvba (mvbaInput tb F N sg J), .success] (new i) st ∧
        st.finished = true ∧ (new i).fullShare = sliceY (refreshed b q J) F (2 * F) ((i + 1 : ℕ) : Fr)) ∧
      ∀ R : List ℕ, R.Nodup → R.length = F + 1 → (∀ i ∈ R, i < N) → Reconstructs F s (R.map new) := by
  have hr' : N < frModulus := lt_trans hN' (by decide +kernel)
  obtain ⟨msgs, hm, -, b, old, hb, hold, -⟩ := C18_honest_sharing codec pp t N F s c hF hF' hN hr'
  have hkept : ∀ i, ∃ n : Party G1 G2 × List Bytes, i < N → (prepareReceive codec sha (old i) (fun _ => 0) ((ids i).map fun k => prepareSend codec (old k)) = .ok (some n.1) ∧ n.1.pid = i ∧ n.1.F = F ∧ n.1.N = N ∧
      n.1.Setup pp t ∧ KnowsComs pp t b n.1 ∧ shareReduceSend codec n.1 = .ok n.2 ∧ ∀ j < N, HonestSR codec pp t b F (i + 1) (j + 1) (n.2.getD j [])) := by
    intro i
    by_cases hi : i < N
    swap
    · exact ⟨(old i, []), fun h => absurd h hi⟩
    obtain ⟨h1, h2, h3, h4, h5, -⟩ := hold i hi
    obtain ⟨pi, f1, f2⟩ := prepare_from_holders codec sha pp t b (old i) (by omega) old (ids i) (by rw [h2]; exact (hids i).1) (fun k hk =>
      ⟨(hold k ((hids i).2 k hk)).2.2.2.2.1.coms, by rw [(hold k ((hids i).2 k hk)).2.1, h2]⟩)
    have hs : ({ old i with proof := pi } : Party G1 G2).Setup pp t := ⟨h4.kzg, h4.table⟩
    obtain ⟨out, k1, -, k3⟩ := C25_send codec pp t b { old i with proof := pi } hs ⟨h5.share, f2, h5.witLen, h5.wits, h5.witIdx⟩ (by show 3 * (old i).F + 1 ≤ (old i).N; omega) (by show (old i).N < _; omega)
    refine ⟨({ old i with proof := pi }, out), fun _ => ⟨f1, h1, h2, h3, hs, f2, k1, fun j hj => ?_⟩⟩
    have := k3 j (by show j < (old i).N; omega)
    simp only [h1, h2] at this
    exact this
  choose kp hkp using hkept
  choose q hq1 hq2 using fun j => dealer_bivariate F 0 (coins j) (by omega)
  have hnew : ∀ i, ∃ n : Party G1 G2, i < N → (n.pid = i ∧ n.fullShare = sliceY (refreshed b q J) F (2 * F) ((i + 1 : ℕ) : Fr) ∧
      biVal (refreshed b q J) F (2 * F) 0 0 = s ∧ ∃ p st, shareReduceReceive codec pp (kp i).1 SRState.init ((ids' i).map fun k => (UInt32.ofNat k, (kp k).2.getD i [])) = .ok (some p) ∧
        PRun codec pp tb p (PState.init p (coins (i + 1)))
          (refreshEvents codec pp t F N (i + 1) q (fun j => marshal (commitOf codec F (honestContent pp t F 0 (coins j)))) sg J (marshal (mvbaInput tb F N sg J)) ++
            completeEvents codec pp t F (i + 1) (refreshed b q J) (js i)) [.mvba (mvbaInput tb F N sg J), .success] n st ∧
        st.finished = true) := by
    intro i
    by_cases hi : i < N
    swap
    · exact ⟨old i, fun h => absurd h hi⟩
    obtain ⟨-, k1, k2, k3, k4, k5, -⟩ := hkp i hi
    set p0 := (kp i).1 with hp0
    have f3 := sr_from_holders codec pp t b p0 k4 (by omega) (by omega) (fun k => (kp k).2.getD i []) (ids' i) (hids' i).1 (by rw [k2]; exact (hids' i).2.1) (by rw [k3]; exact (hids' i).2.2) (by
      intro k hk
      rw [k1, k2]
      exact (hkp k ((hids' i).2.2 k hk)).2.2.2.2.2.2.2 i hi)
    obtain ⟨n, st, g1, -, g2, g3, g4, -⟩ := C29_honest_run codec pp tb t { p0 with reducedShare := sliceX b p0.F (2 * p0.F) ((p0.pid + 1 : ℕ) : Fr) }
      ⟨k4.kzg, k4.table⟩ (by show 1 ≤ p0.F; omega) (by show p0.F ≤ _; omega) (by show 3 * p0.F + 1 ≤ p0.N; omega) (by show p0.N < _; omega) (by show p0.pid < p0.N; omega)
      b k5 rfl (coins (i + 1)) coins q (by show ∀ j k, 1 ≤ k → k ≤ 2 * p0.F + 1 → sliceX (q j) p0.F (2 * p0.F) (k : Fr) = ownQ p0.F (coins j) k; rw [k2]; exact hq1)
      (fun j => commitOf codec F (honestContent pp t F 0 (coins j)))
      (by show ∀ j, commitMsg codec pp (newKZG pp t (p0.F + 1)) p0.F (coins j) = _; rw [k2]; exact fun j => commitMsg_ok codec pp t F (coins j)) sg hsg
      (by show ∀ k i, 1 ≤ i → i ≤ 2 * p0.F + 1 → _; rw [k2]; exact hver) hrec J hJ (by show J.length = p0.F + 1; omega) (by show ∀ k ∈ J, 1 ≤ k ∧ k ≤ p0.N; rw [k3]; exact hJ1)
      (js i) (hjs i).1 (by show _ = 2 * p0.F + 1; rw [(hjs i).2.1, k2]) (by show ∀ k ∈ js i, 1 ≤ k ∧ k ≤ p0.N; rw [k3]; exact (hjs i).2.2)
    have hpid : n.pid = i := by rw [g1.static]; exact k1
    simp only at g1 g3 g4
    rw [k2, k1] at g4
    rw [k2] at g3
    refine ⟨n, fun _ => ⟨hpid, g4, by rw [g3, hb], _, st, f3, ?_, g2⟩⟩
    have key : ∀ F' N' i', F' = F → N' = N → i' = i →
        (refreshEvents codec pp t F' N' (i' + 1) q (fun j => marshal (commitOf codec F (honestContent pp t F 0 (coins j)))) sg J (marshal (mvbaInput tb F' N' sg J)) ++
            completeEvents codec pp t F' (i' + 1) (refreshed b q J) (js i)) =
        (refreshEvents codec pp t F N (i + 1) q (fun j => marshal (commitOf codec F (honestContent pp t F 0 (coins j)))) sg J (marshal (mvbaInput tb F N sg J)) ++
            completeEvents codec pp t F (i + 1) (refreshed b q J) (js i)) ∧ mvbaInput tb F' N' sg J = mvbaInput tb F N sg J := by
      rintro _ _ _ rfl rfl rfl
      exact ⟨rfl, rfl⟩
    obtain ⟨l1, l2⟩ := key _ _ _ k2 k3 k1
    rw [l1, l2] at g1
    exact g1
  choose new hnew using hnew
  refine ⟨b, q, msgs, fun i => (kp i).2, fun j => commitOf codec F (honestContent pp t F 0 (coins j)), old, fun i => (kp i).1, new, hm, ?_, fun j => commitMsg_ok codec pp t F (coins j), ?_, ?_⟩
  · intro i hi
    obtain ⟨-, -, -, -, -, p, k1, k2⟩ := hold i hi
    exact ⟨p, k1, k2, (hkp i hi).1, (hkp i hi).2.2.2.2.2.2.1⟩
  · intro i hi
    obtain ⟨-, h2, -, p, st, h3, h4, h5⟩ := hnew i hi
    exact ⟨p, st, h3, h4, h5, h2⟩
  · intro R hR hRl hRlt
    have h0 : 0 < N := by omega
    rw [← (hnew 0 h0).2.2.1]
    apply reconstructs_of_shares F _ _ (by simpa using hRl)
    · rw [List.map_map]
      have : R.map ((fun p : Party G1 G2 => p.pid) ∘ new) = R := by
        conv_rhs => rw [← List.map_id R]
        apply List.map_congr_left
        intro i hi
        exact (hnew i (hRlt i hi)).1
      rw [this]; exact hR
    · intro p hp
      obtain ⟨i, hi, rfl⟩ := List.mem_map.1 hp
      have := hRlt i hi
      rw [(hnew i this).1]; omega
    · intro p hp
      obtain ⟨i, hi, rfl⟩ := List.mem_map.1 hp
      have := hRlt i hi
      rw [(hnew i this).1]
      exact (hnew i this).2.1

/-! ### A second renewal -/

/-- What a member that holds witnesses for `B` and another full share sends. -/
theorem stale_msgs (codec : PointCodec G1) (pp : Pairing Fr G1 G2 GT) (t : Fr) (b : ℕ → ℕ → Fr) (p p0 : Party G1 G2) (hp : p.Setup pp t) (h0 : p = { p0 with reducedShare := p.reducedShare, fullShare := p.fullShare })
    (hh : HoldsFull pp t b p0) (hN : 3 * p.F + 1 ≤ p.N) (hr : p.N < frModulus) :
    ∃ msgs, shareReduceSend codec p = .ok msgs ∧ msgs.length = p.N ∧ ∀ j < p.N, msgs.getD j [] = marshal (⟨codec.enc (polyVal (sliceX b p.F (2 * p.F) ((j + 1 : ℕ) : Fr)) t • pp.g1),
      frTo32 (polyVal p.fullShare ((j + 1 : ℕ) : Fr)), codec.enc (quotVal (sliceX b p.F (2 * p.F) ((j + 1 : ℕ) : Fr)) ((p.pid + 1 : ℕ) : Fr) t • pp.g1)⟩ : PShareReduce) := by
  classical
  have hc : ∀ k, 1 ≤ k → k ≤ 2 * p.F + 1 → commitToPoly (newKZG pp t (p.F + 1)) (sliceX b p.F (2 * p.F) (k : Fr)) = .ok (p.proof.contents.getD k (PiContent.zero k)).CBj := by
    rw [h0]; exact hh.coms
  have hwl : p.witness.length = 2 * p.F + 1 := by rw [h0]; exact hh.witLen
  have hw : ∀ k, 1 ≤ k → k ≤ 2 * p.F + 1 → computeProofSingle (newKZG pp t (p.F + 1)) (sliceX b p.F (2 * p.F) (k : Fr)) ((p.pid + 1 : ℕ) : Fr) = .ok (p.witness.getD (k - 1) 0) := by
    rw [h0]; exact hh.wits
  have hwi : p.witnessIndexes = firstIndices (2 * p.F + 1) := by rw [h0]; exact hh.witIdx
  have hmsg : ∀ j : ℕ, shareReduceMsg codec p j = .ok ⟨codec.enc (polyVal (sliceX b p.F (2 * p.F) (j : Fr)) t • pp.g1), frTo32 (polyVal p.fullShare (j : Fr)),
      codec.enc (quotVal (sliceX b p.F (2 * p.F) (j : Fr)) ((p.pid + 1 : ℕ) : Fr) t • pp.g1)⟩ := by
    intro j
    have e1 := C12_commitments pp t p.F p.N hN (by omega) b p.table hp.table p.coms (coms_length p) (by
      intro k h1 h2
      rw [coms_getD p k h1 h2]; exact hc k h1 h2) j
    have e2 := C12_witnesses pp t p.F p.N hN (by omega) b ((p.pid + 1 : ℕ) : Fr) p.table hp.table p.witnessIndexes
      (by rw [hwi, firstIndices_length]) (by rw [hwi]; exact distinct_firstIndices _ (by omega)) p.witness hwl (by
      intro i hi
      rw [hwi, firstIndices_getD _ _ (by omega)]
      exact hw (i + 1) (by omega) (by omega)) j
    rw [commitToPoly_ok pp t _ _ (by rw [sliceX_length])] at e1
    rw [computeProofSingle_ok pp t _ _ _ (sliceX_ne_nil _ _ _) (by rw [sliceX_length]; omega)] at e2
    rw [shareReduceMsg, e1, Go.ok_bind, e2, Go.ok_bind, evalPolyAt_eq]
    rfl
  have e1 : (List.range (2 * p.F + 1)).mapM (idx p.witnessIndexes) = .ok ((List.range (2 * p.F + 1)).map fun i => ((i + 1 : ℕ) : Fr)) := by
    apply mapM_ok
    intro i hi
    rw [List.mem_range] at hi
    rw [hwi, idx_of_lt (by rw [firstIndices_length]; exact hi)]
    simp [firstIndices]
  have e2 : ((List.range (2 * p.F + 1)).map fun i => ((i + 1 : ℕ) : Fr)).all (fun x => decide (x.val < p.N + 1)) = true := by
    rw [List.all_eq_true]
    intro x hx
    obtain ⟨i, hi, rfl⟩ := List.mem_map.1 hx
    rw [List.mem_range] at hi
    rw [decide_eq_true_eq, ZMod.val_natCast, Nat.mod_eq_of_lt (by omega)]
    omega
  refine ⟨_, by unfold shareReduceSend; rw [e1, Go.ok_bind, if_pos e2, mapM_ok _ _ _ (fun j _ => hmsg j)]; rfl, by simp [oneTo], ?_⟩
  intro j hj
  rw [List.map_map, oneTo_map_getD _ _ _ _ hj]
  rfl

/-- **C31 fails also within one committee.** Members hold full shares of `B` from the client, with witnesses. After they have renewed their shares to `B'` they still have the old commitments and witnesses: a member `n`
rejects the ShareReduce messages of all members in the next hand-off and waits forever - for any number of messages in any order - unless the new value `B'(i,n)` happens to equal the old `B(i,n)`. -/
theorem C31_own_shares_stall (codec : PointCodec G1) (pp : Pairing Fr G1 G2 GT) (tb : ℕ → Tbls) (t : Fr) (F N : ℕ) (hF : 1 ≤ F) (hN : 3 * F + 1 ≤ N) (hN' : N < 2 ^ 32) (b b' : ℕ → ℕ → Fr) (P0 P : ℕ → Party G1 G2)
    (coins : ℕ → DealerCoins) (evs : ℕ → List PEvent) (outs : ℕ → List POut) (st : ℕ → PState G1)
    (hP : ∀ i < N, (P0 i).pid = i ∧ (P0 i).F = F ∧ (P0 i).N = N ∧ (P0 i).Setup pp t ∧ HoldsFull pp t b (P0 i))
    (hrun : ∀ i < N, PRun codec pp (tb i) (P0 i) (PState.init (P0 i) (coins i)) (evs i) (outs i) (P i) (st i))
    (hfull : ∀ i < N, (st i).successSent = true ∧ (P i).fullShare = sliceY b' F (2 * F) ((i + 1 : ℕ) : Fr)) (n : Party G1 G2) (hn : n.Setup pp t) (hnF : n.F = F) (hnpid : n.pid < N)
    (hne : ∀ i < N, biVal b' F (2 * F) ((i + 1 : ℕ) : Fr) ((n.pid + 1 : ℕ) : Fr) ≠ biVal b F (2 * F) ((i + 1 : ℕ) : Fr) ((n.pid + 1 : ℕ) : Fr)) :
    ∃ msgs : ℕ → List Bytes, (∀ i < N, shareReduceSend codec (P i) = .ok (msgs i) ∧ (msgs i).length = N) ∧
      ∀ ids : List ℕ, (∀ i ∈ ids, i < N) → shareReduceReceive codec pp n SRState.init (ids.map fun i => (UInt32.ofNat i, (msgs i).getD n.pid [])) = .ok none := by
  have hr' : N < frModulus := lt_trans hN' (by decide +kernel)
  have key : ∀ i, ∃ ms, i < N → shareReduceSend codec (P i) = .ok ms ∧ ms.length = N ∧ ms.getD n.pid [] =
      marshal (⟨codec.enc (polyVal (sliceX b F (2 * F) ((n.pid + 1 : ℕ) : Fr)) t • pp.g1), frTo32 (biVal b' F (2 * F) ((i + 1 : ℕ) : Fr) ((n.pid + 1 : ℕ) : Fr)),
        codec.enc (quotVal (sliceX b F (2 * F) ((n.pid + 1 : ℕ) : Fr)) ((i + 1 : ℕ) : Fr) t • pp.g1)⟩ : PShareReduce) := by
    intro i
    by_cases hi : i < N
    swap
    · exact ⟨[], fun h => absurd h hi⟩
    obtain ⟨h1, h2, h3, h4, h5⟩ := hP i hi
    have hs := (hrun i hi).static
    have eF : (P i).F = F := by rw [hs]; exact h2
    have eN : (P i).N = N := by rw [hs]; exact h3
    have ep : (P i).pid = i := by rw [hs]; exact h1
    have hset : (P i).Setup pp t := by rw [hs]; exact ⟨h4.kzg, h4.table⟩
    obtain ⟨ms, m1, m2, m3⟩ := stale_msgs codec pp t b (P i) (P0 i) hset hs h5 (by omega) (by omega)
    refine ⟨ms, fun _ => ⟨m1, m2.trans eN, ?_⟩⟩
    rw [m3 n.pid (by omega), eF, ep, (hfull i hi).2, polyVal_sliceY]
  choose msgs hm using key
  refine ⟨msgs, fun i hi => ⟨(hm i hi).1, (hm i hi).2.1⟩, fun ids hids => ?_⟩
  have hgen : ∀ s : SRState, shareReduceReceive codec pp n s (ids.map fun i => (UInt32.ofNat i, (msgs i).getD n.pid [])) = .ok none := by
    induction ids with
    | nil => intro s; rfl
    | cons i ids ih =>
      intro s
      have hi : i < N := hids i (by simp)
      rw [List.map_cons, shareReduceReceive, shareReduceStep]
      simp only
      have hne' := hne i hi
      have hd := (hm i hi).2.2
      generalize biVal b' F (2 * F) ((i + 1 : ℕ) : Fr) ((n.pid + 1 : ℕ) : Fr) = u at hne' hd
      rw [hd, unmarshal_sr]
      obtain ⟨v, hv, hstep⟩ := srStep_ok codec pp t n hn (by omega) s (UInt32.ofNat i)
        ⟨codec.enc (polyVal (sliceX b F (2 * F) ((n.pid + 1 : ℕ) : Fr)) t • pp.g1), frTo32 u, codec.enc (quotVal (sliceX b F (2 * F) ((n.pid + 1 : ℕ) : Fr)) ((i + 1 : ℕ) : Fr) t • pp.g1)⟩ _ _
        (codec.dec_enc _) (codec.dec_enc _)
      have hv' : v = u := by rw [hv, frFrom32_copy]
      have ex : (UInt32.ofNat i + 1).toNat = i + 1 := by
        have h2 : (UInt32.ofNat i).toNat = i := by rw [UInt32.toNat_ofNat', Nat.mod_eq_of_lt (by omega)]
        rw [UInt32.toNat_add, h2]
        simp
        omega
      rcases hstep with ⟨h, -⟩ | ⟨-, h⟩
      · exfalso
        rw [ex, smul_smul, ← sub_smul] at h
        have := smul_g1_inj pp h
        have e := quotVal_mul (sliceX b F (2 * F) ((n.pid + 1 : ℕ) : Fr)) ((i + 1 : ℕ) : Fr) t
        rw [hv'] at this
        apply hne'
        rw [← polyVal_sliceX]
        linear_combination -e - this
      · rw [h]
        exact ih (fun k hk => hids k (by simp [hk])) _
  exact hgen _

end

/-! ### Concrete cases

A client shares 42 among four members; member 3 is corrupt, it sends an empty Prepare message and no ShareReduce message. -/

section Examples

/-- What the members do in the example: their states after receiving Prepare and the messages they send. -/
theorem exchangeY {b : ℕ → ℕ → Fr} {old : ℕ → Party Fr Fr} (hold : ∀ k < 4, (old k).pid = k ∧ (old k).F = 1 ∧ (old k).N = 4 ∧ (old k).Setup (Pairing.dlog Fr) 7 ∧ HoldsFull (Pairing.dlog Fr) 7 b (old k)) :
    ∃ sr : ℕ → List Bytes, Exchange frCodec id 4 old (heardX old sr) {3} ∧ ∀ i < 3, ∃ p1 p2, prepareReceive frCodec id (old i) (fun _ => 0) ((heardX old sr i).prep.map Prod.snd) = .ok (some p1) ∧
      shareReduceSend frCodec p1 = .ok (sr i) ∧ shareReduceReceive frCodec (Pairing.dlog Fr) p1 SRState.init (heardX old sr i).red = .ok (some p2) ∧ HoldsFull (Pairing.dlog Fr) 7 b p2 ∧
      p2.reducedShare = sliceX b 1 (2 * 1) ((i + 1 : ℕ) : Fr) ∧ p2.Setup (Pairing.dlog Fr) 7 ∧ p2.F = 1 ∧ p2.N = 4 ∧ p2.pid = i := by
  have hprep : ∀ sr i, i < 4 → ∃ pi, prepareReceive frCodec id (old i) (fun _ => 0) ((heardX old sr i).prep.map Prod.snd) = .ok (some { old i with proof := pi }) ∧ KnowsComs (Pairing.dlog Fr) 7 b { old i with proof := pi } := by
    intro sr i hi
    obtain ⟨-, h2, -⟩ := hold i hi
    have hh := heardX_honest old sr i
    rcases C23_prepare frCodec id (Pairing.dlog Fr) 7 b (old i) (by rw [h2]; norm_num) {3} (by rw [h2]; decide) (heardX old sr i).prep hh.prepOnce (fun m hm hc => ⟨old m.1.toNat, by
      rw [(hold _ (hh.prep m hm hc).1).2.1, h2], (hold _ (hh.prep m hm hc).1).2.2.2.2.coms, (hh.prep m hm hc).2⟩) (by rw [h2]; simp [heardX]) with h | ⟨m, -, m', -, g1, g2⟩
    · exact h
    · exact absurd g2 g1
  have hsend : ∀ i, ∃ out, i < 4 → ∃ pi, prepareReceive frCodec id (old i) (fun _ => 0) ((heardX old (fun _ => []) i).prep.map Prod.snd) = .ok (some { old i with proof := pi }) ∧
      shareReduceSend frCodec { old i with proof := pi } = .ok out := by
    intro i
    by_cases hi : i < 4
    swap
    · exact ⟨[], fun h => absurd h hi⟩
    obtain ⟨h1, h2, h3, h4, h5⟩ := hold i hi
    obtain ⟨pi, f1, f2⟩ := hprep (fun _ => []) i hi
    obtain ⟨out, k1, -⟩ := C25_send frCodec (Pairing.dlog Fr) 7 b { old i with proof := pi } ⟨h4.kzg, h4.table⟩ ⟨h5.share, f2, h5.witLen, h5.wits, h5.witIdx⟩ (by show 3 * (old i).F + 1 ≤ (old i).N; omega)
      (by show (old i).N < _; rw [h3]; decide +kernel)
    exact ⟨out, fun _ => ⟨pi, f1, k1⟩⟩
  choose sr hsr using hsend
  have hx : Exchange frCodec id 4 old (heardX old sr) {3} := by
    refine ⟨fun i _ _ => (heardX_honest old sr i).prepOnce, fun i _ _ => (heardX_honest old sr i).redOnce, fun i _ _ m hm hc => (heardX_honest old sr i).prep m hm hc, fun i _ _ m hm hc => ?_⟩
    obtain ⟨h1, h2⟩ := (heardX_honest old sr i).red m hm hc
    obtain ⟨pi, h3, h4⟩ := hsr _ h1
    exact ⟨h1, _, _, h3, h4, h2⟩
  refine ⟨sr, hx, fun i hi => ?_⟩
  have hic : UInt32.ofNat i ∉ ({3} : Finset UInt32) := by interval_cases i <;> decide
  have hred : ∀ m ∈ (heardX old sr i).red, m.1 ∉ ({3} : Finset UInt32) := fun m hm => heardX_red hm
  have hnc : ¬ PrepCollision id (Following 4 ({3} : Finset UInt32)) (heardX old sr) := by
    rintro ⟨j, -, m, -, m', -, g1, g2⟩
    exact g1 g2
  rcases C123_handoff frCodec id (Pairing.dlog Fr) 7 (F := 1) (N := 4) le_rfl (by norm_num) le_rfl (by norm_num) (by omega : i < 4) hold (corrupt := {3}) (by decide) hic hx
    (fun m hm => honestSR_decodable (exchange_sends frCodec id (Pairing.dlog Fr) 7 (F := 1) (N := 4) (by norm_num) le_rfl (by norm_num) hold (by decide) hx hnc (by omega : i < 4) hic m hm (hred m hm)))
    (by simp [heardX]) (by rw [List.filter_eq_self.2 (fun m hm => decide_eq_true (hred m hm))]; exact le_rfl) (fun _ => 0) (fun m hm hc => absurd hc (hred m hm)) with ⟨p1, p2, out, h1, h2, h3, h4, h5, h6⟩ | h | ⟨m, hm, hc, -⟩
  · obtain ⟨pi, k1, k2⟩ := hsr i (by omega)
    have e : p1 = { old i with proof := pi } := Option.some.inj (Except.ok.inj (h1.symm.trans k1))
    obtain ⟨a1, a2, a3, a4, -⟩ := hold i (by omega)
    have hp2 : ∃ share, p2 = { p1 with reducedShare := share } := by
      have hrun := sr_run frCodec (Pairing.dlog Fr) 7 b p1 (by rw [e]; exact ⟨a4.kzg, a4.table⟩) (by rw [e]; exact a2.ge) (i + 1) {3} (by rw [e]; exact a2.ge) _ rfl (heardX old sr i).red [] SRState.init
        (by simpa using (heardX_honest old sr i).redOnce) (by
          intro x hx' hxc
          have e1 : p1.F = 1 := by rw [e]; exact a2
          rw [e1]
          exact exchange_sends frCodec id (Pairing.dlog Fr) 7 (F := 1) (N := 4) (by norm_num) le_rfl (by norm_num) hold (by decide) hx hnc (by omega : i < 4) hic x (by simpa using hx') hxc) (SRInv.init _ _ _ _ _ _)
      rcases hrun with ⟨g1, -⟩ | ⟨g1, -⟩ | ⟨share, pts, g1, -⟩
      · rw [g1] at h4; cases h4
      · rw [g1] at h4; cases h4
      · rw [g1] at h4
        exact ⟨share, (Option.some.inj (Except.ok.inj h4)).symm⟩
    obtain ⟨share, hp2⟩ := hp2
    refine ⟨p1, p2, h1, by rw [e]; exact k2, h4, h5, h6, ?_, ?_, ?_, ?_⟩
    · rw [hp2, e]; exact ⟨a4.kzg, a4.table⟩
    · rw [hp2, e]; exact a2
    · rw [hp2, e]; exact a3
    · rw [hp2, e]; exact a1
  · exact absurd h hnc
  · exact absurd hc (hred m hm)

open Toy in
/-- All hypotheses of `C123_renewal` hold together, those of `C123_one_round` as well with another execution of the agreement (`evsB`, `netB`), the alternatives to its claim do not, and members 1 and 2 reconstruct 42. -/
example (c : DealerCoins) : ∃ (msgs : List Bytes) (old : ℕ → Party Fr Fr) (heard : ℕ → Heard) (evsC : ℕ → List NEvent) (netC : ℕ → RNet) (evsM : List (ℕ × MEvent)) (netM : MNet) (evsB : List (ℕ × MEvent)) (netB : MNet) (mem : ℕ → Member Fr Fr),
    clientShare frCodec (Pairing.dlog Fr) (newKZG (Pairing.dlog Fr) 7 2) 4 1 42 c = .ok msgs ∧
    (∀ k < 4, ∃ p, newParty (Pairing.dlog Fr) 7 4 1 k = .ok p ∧ vssShareReceive frCodec (Pairing.dlog Fr) p (msgs.getD k []) = .ok (old k, true)) ∧ Exchange frCodec id 4 old heard {3} ∧
    (∀ j, NRun (toyEnv 4 1) (othersSet 4) RNet.init (evsC j) (netC j) ∧ EchoOnce (evsC j)) ∧
    MRun (env fun _ => 0) (Finset.range 4) ⟨true, true⟩ (MNet.init (Finset.range 4) (fun _ => (valueX, [])) 4) evsM netM ∧
    (∀ i ∈ [1, 2], (mem i).Renews frCodec id (Pairing.dlog Fr) (old i) (heard i) ∧ (mem i).Hears netC i ∧ (mem i).Obeys netM i ∧ (mem i).st.successSent = true) ∧
    Committee (env fun _ => 0) (othersSet 4) ∧ MRun (env fun _ => 0) (othersSet 4) ⟨true, true⟩ (MNet.init (othersSet 4) (fun _ => (valueX, [])) 4) evsB netB ∧
    (∀ i ∈ [1, 2], (mem i).Obeys netB i ∧ (∀ r v, Decides netB i r v → r = 0) ∧ (coinSigners (env fun _ => 0) netB i 0).Nodup) ∧
    Reconstructs 1 42 ([1, 2].map fun i => (mem i).after) := by
  have okR : (toyEnv 4 1).Ok := toyEnv_ok (by norm_num) (by norm_num)
  obtain ⟨b, msgs, old, hm, hvss, hb, hold, hkey⟩ := C123_renewal frCodec id (Pairing.dlog Fr) 7 4 1 42 c le_rfl (by norm_num) le_rfl (by norm_num)
  obtain ⟨sr, hx, hY⟩ := exchangeY hold
  have : Nonempty (Party Fr Fr) := ⟨old 0⟩
  choose! P1 P0 hP1 hP0 using hY
  choose D hD using fun j => (⟨_, commitMsg_ok (codec := frCodec) (Pairing.dlog Fr) 7 1 (coinsX j)⟩ :
    ∃ m, commitMsg frCodec (Pairing.dlog Fr) (newKZG (Pairing.dlog Fr) 7 (1 + 1)) 1 (coinsX j) = .ok m)
  have hDlen : ∀ j, (marshal (castX (marshal (D j)))).length < 2 ^ 30 := by
    intro j
    have h := hD j
    rw [commitMsg_ok] at h
    rw [← Except.ok.inj h]
    have h1 := castX_size (marshal (commitOf frCodec 1 (honestContent (Pairing.dlog Fr) 7 1 0 (coinsX j))))
    have h2 := size_commit_one (honestContent (Pairing.dlog Fr) 7 1 0 (coinsX j))
    omega
  have hPF : ∀ i < 3, (P0 i).F = 1 := fun i hi => (hP0 i hi).2.2.2.2.2.1
  have hPN : ∀ i < 3, (P0 i).N = 4 := fun i hi => (hP0 i hi).2.2.2.2.2.2.1
  have hPp : ∀ i < 3, (P0 i).pid = i := fun i hi => (hP0 i hi).2.2.2.2.2.2.2
  have hq : ∀ i < 3, ∀ j k, 1 ≤ k → k ≤ 2 * (P0 i).F + 1 → sliceX (qX j) (P0 i).F (2 * (P0 i).F) (k : Fr) = ownQ (P0 i).F (coinsX j) k := by
    intro i hi j k _ _; rw [hPF i hi]; exact qX_slices j k
  have hD' : ∀ i < 3, ∀ j, commitMsg frCodec (Pairing.dlog Fr) (newKZG (Pairing.dlog Fr) 7 ((P0 i).F + 1)) (P0 i).F (coinsX j) = .ok (D j) := by
    intro i hi j; rw [hPF i hi]; exact hD j
  have hrun := fun i (hi : i < 3) => C29_honest_run frCodec (Pairing.dlog Fr) tb0 7 (P0 i) (hP0 i hi).2.2.2.2.1 (by rw [hPF i hi]) (by rw [hPF i hi]; norm_num) (by rw [hPF i hi, hPN i hi])
    (by rw [hPN i hi]; norm_num) (by rw [hPp i hi, hPN i hi]; omega) b (hP0 i hi).2.2.1.coms (by rw [hPF i hi, hPp i hi]; exact (hP0 i hi).2.2.2.1) (coinsX 1) coinsX qX (hq i hi) D (hD' i hi)
    (fun _ _ => []) (by intro k i; norm_num) (fun _ _ _ _ => rfl) (by intro m s a n r h; cases h; norm_num) [2, 4] (by decide) (by rw [hPF i hi]; rfl) (by rw [hPN i hi]; decide) [4, 1, 2] (by decide)
    (by rw [hPF i hi]; rfl) (by rw [hPN i hi]; decide)
  have : Nonempty (PState Fr) := ⟨PState.init (P0 0) (coinsX 1)⟩
  choose! P st r h1 _ _ h2 _ using hrun
  have hnr := fun i (hi : i < 3) => C29_honest_reveals_nothing frCodec (Pairing.dlog Fr) tb0 7 (P0 i) (by rw [hPF i hi]; norm_num) (by rw [hPF i hi, hPN i hi]) (by rw [hPN i hi]; norm_num) b coinsX qX (hq i hi) D (hD' i hi)
    (fun _ _ => []) (by intro k i; norm_num) (by intro m s a n r h; cases h; norm_num) [2, 4] (by rw [hPF i hi]; rfl) (by rw [hPN i hi]; decide) [4, 1, 2] (by rw [hPN i hi]; decide) _ rfl
  have hcast : ∀ j, ∃ evs net, NRun (toyEnv 4 1) (othersSet 4) RNet.init evs net ∧ EchoOnce evs ∧
      ∀ i ∈ othersSet 4, (net.party i).mainPos = .returned (some (marshal (castX (marshal (D j))))) := by
    intro j
    obtain ⟨evs, net, a1, a2, -, a3⟩ := attack_spoof okR (by show 1 ≤ 1; norm_num) (b := 1) (by show 1 ∈ othersSet 4; decide) (castX []) (D := marshal (castX (marshal (D j)))) (hDlen j)
      (castX_ne (lt_trans (hDlen j) (by norm_num)))
    exact ⟨_, net, a1, a2, a3⟩
  choose evsC netC c1 c2 c3 using hcast
  obtain ⟨netM, m1, m2, m3⟩ := agree_toy
  obtain ⟨netB, n1, n2, -⟩ := agree_byz
  have hcm : Committee (env fun _ => 0) (othersSet 4) := ⟨rfl, by decide, by decide⟩
  have hS : ∀ i ∈ [1, 2], i ∈ othersSet 4 ∧ i < 3 := by decide
  set mem : ℕ → Member Fr Fr := fun i => ⟨P0 i, P i, coinsX 1, tb0, evB b D (P0 i).F (P0 i).N (P0 i).pid, [.mvba (mvbaInput tb0 (P0 i).F (P0 i).N (fun _ _ => []) [2, 4]), .success], st i⟩ with hmem
  have obeys : ∀ i ∈ [1, 2], (mem i).Obeys netM i := by
    intro i hi v hv
    have := evB_mvba hv
    rw [hPF i (hS i hi).2, hPN i (hS i hi).2] at this
    rw [this]
    exact ⟨0, m2 i (by have := (hS i hi).2; omega)⟩
  have hB : ∀ i ∈ [1, 2], (mem i).Obeys netB i ∧ (∀ r v, Decides netB i r v → r = 0) ∧ (coinSigners (env fun _ => 0) netB i 0).Nodup := by
    intro i hi
    obtain ⟨x, y⟩ := n2 i (by revert i; decide)
    refine ⟨fun v hv => ?_, fun r v h => ?_, y⟩
    · have := evB_mvba hv
      rw [hPF i (hS i hi).2, hPN i (hS i hi).2] at this
      rw [this]
      exact ⟨0, x⟩
    · unfold Decides at x h
      rw [x] at h
      cases h
      rfl
  have hears : ∀ i ∈ [1, 2], (mem i).Hears netC i := by
    intro i hi j d hd
    rw [evB_commit hd]
    exact ⟨castX (marshal (D j)), result_marshal (hDlen j) (c3 j i (hS i hi).1), rfl⟩
  have takes : ∀ i ∈ [1, 2], (mem i).Renews frCodec id (Pairing.dlog Fr) (old i) (heardX old sr i) := fun i hi =>
    ⟨⟨P1 i, hP1 i (hS i hi).2, (hP0 i (hS i hi).2).2.1⟩, r i (hS i hi).2⟩
  have alg : ∀ i ∈ [1, 2], (mem i).Alg frCodec (Pairing.dlog Fr) 7 (fun j _ => qX j) (fun j _ => honestRep 1 (coinsX j)) (honestW 1 (i + 1) b qX [2, 4]) := by
    intro i hi
    have h := (hnr i (hS i hi).2).1
    have ef : honestW (P0 i).F ((P0 i).pid + 1) b qX [2, 4] = honestW 1 (i + 1) b qX [2, 4] := by rw [hPF i (hS i hi).2, hPp i (hS i hi).2]
    have eg : (fun j => honestRep (P0 i).F (coinsX j)) = fun j => honestRep 1 (coinsX j) := by rw [hPF i (hS i hi).2]
    rw [ef, eg] at h
    exact ⟨h.commits, h.recover, h.dist⟩
  have hnc : ¬ CastCollision (toyEnv 4 1) netC [1, 2] := by
    rintro ⟨i, hi, i', hi', j, a, a', x, x', hne, -⟩
    rw [c3 j i (hS i hi).1] at x
    rw [c3 j i' (hS i' hi').1] at x'
    cases x
    cases x'
    exact hne rfl
  have hnv : ¬ ValueCollision (env fun _ => 0) netM [1, 2] := by
    rintro ⟨i, hi, i', hi', ra, rb, v, v', x, x', hne, -⟩
    have y := m2 i (by have := (hS i hi).2; omega)
    have y' := m2 i' (by have := (hS i' hi').2; omega)
    unfold Decides at y y'
    rw [y] at x
    rw [y'] at x'
    cases x
    cases x'
    exact hne rfl
  refine ⟨msgs, old, heardX old sr, evsC, netC, _, netM, _, netB, mem, hm, hvss, hx, fun j => ⟨c1 j, c2 j⟩, m1, fun i hi => ⟨takes i hi, hears i hi, obeys i hi, h1 i (hS i hi).2⟩, hcm, n1, hB, ?_⟩
  rcases hkey {3} (heardX old sr) mem [1, 2] (by decide) hx (by decide) rfl (fun i hi => ⟨by have := (hS i hi).2; omega, by revert i; decide, takes i hi, h1 i (hS i hi).2⟩) (toyEnv 4 1) (othersSet 4) evsC netC okR
    (othersSet_honest okR (by show 1 ≤ 1; norm_num)) (fun j => ⟨c1 j, c2 j⟩) (fun i hi => ⟨(hS i hi).1, hears i hi⟩) (env fun _ => 0) _ _ _ netM (schemeOk fun _ => 0) rfl m1 m3
    (fun i hi => ⟨by show i < 4; have := (hS i hi).2; omega, obeys i hi⟩) _ _ (fun i => honestW 1 (i + 1) b qX [2, 4]) alg with h | ⟨i, -, m, -, m', -, h, h'⟩ | h | h | ⟨data, J, hc, i, hi, h⟩
  · exact h
  · exact absurd h' h
  · exact absurd h hnc
  · exact absurd h hnv
  · exfalso
    have hi4 := (hS i hi).2
    have hJ : J = [2, 4] := by
      have a := (hc i hi).2
      have b' := (hnr i hi4).2.1
      have hm : PEvent.mvba (marshal (mvbaInput tb0 (P0 i).F (P0 i).N (fun _ _ => []) [2, 4])) ∈ evB b D (P0 i).F (P0 i).N (P0 i).pid := by simp [evB, refreshEvents]
      exact (a _ hm).symm.trans (b' _ hm)
    subst hJ
    have hn := (hnr i hi4).2.2
    have ef : honestW (P0 i).F ((P0 i).pid + 1) b qX [2, 4] = honestW 1 (i + 1) b qX [2, 4] := by rw [hPF i hi4, hPp i hi4]
    have eg : (fun j => honestRep (P0 i).F (coinsX j)) = fun j => honestRep 1 (coinsX j) := by rw [hPF i hi4]
    rw [ef, eg] at hn
    exact hn h


/-- `C123_renews`: in a committee of four, 42 stays the secret; the senders heard differ from member to member. -/
example (c : DealerCoins) (coins : ℕ → DealerCoins) : ∃ (msgs : List Bytes) (old kept new : ℕ → Party Fr Fr), clientShare frCodec (Pairing.dlog Fr) (newKZG (Pairing.dlog Fr) 7 2) 4 1 42 c = .ok msgs ∧
    (∀ i < 4, ∃ p, newParty (Pairing.dlog Fr) 7 4 1 i = .ok p ∧ vssShareReceive frCodec (Pairing.dlog Fr) p (msgs.getD i []) = .ok (old i, true) ∧
      prepareReceive frCodec id (old i) (fun _ => 0) (([i, (i + 1) % 4]).map fun k => prepareSend frCodec (old k)) = .ok (some (kept i))) ∧ Reconstructs 1 42 ([3, 0].map new) := by
  obtain ⟨b, q, msgs, sr, D, old, kept, new, h1, h2, -, -, h5⟩ := C123_renews frCodec id (Pairing.dlog Fr) tb0 7 4 1 42 c le_rfl (by norm_num) le_rfl (by norm_num) coins (fun i => [i % 4, (i + 1) % 4])
    (fun i => [(i + 1) % 4, (i + 2) % 4]) (fun i => ⟨le_rfl, by intro k hk; simp at hk; omega⟩) (fun i => ⟨by simp; omega, le_rfl, by intro k hk; simp at hk; omega⟩) (fun _ _ => []) (by intro k i; norm_num)
    (fun _ _ _ _ => rfl) (by intro m s a n r h; cases h; norm_num) [2, 4] (by decide) rfl (by decide) (fun _ => [4, 1, 2]) (fun _ => ⟨by decide, rfl, by decide⟩)
  refine ⟨msgs, old, kept, new, h1, fun i hi => ?_, h5 [3, 0] (by decide) rfl (by decide)⟩
  obtain ⟨p, k1, k2, k3, -⟩ := h2 i hi
  rw [Nat.mod_eq_of_lt hi] at k3
  exact ⟨p, k1, k2, k3⟩

/-- `C31_own_shares_stall`: a committee that holds `42 + x` with witnesses renews it to `42 + 3x`, and cannot do so again. -/
example : ∃ (P : ℕ → Party Fr Fr) (msgs : ℕ → List Bytes) (n : Party Fr Fr), (∀ i < 4, (P i).fullShare = sliceY (refreshed bX qX [2, 4]) 1 2 ((i + 1 : ℕ) : Fr)) ∧
    (∀ i < 4, shareReduceSend frCodec (P i) = .ok (msgs i)) ∧ n = P 2 ∧
    ∀ ids : List ℕ, (∀ i ∈ ids, i < 4) → shareReduceReceive frCodec (Pairing.dlog Fr) n SRState.init (ids.map fun i => (UInt32.ofNat i, (msgs i).getD 2 [])) = .ok none := by
  choose p0 e1 e2 e3 e4 e5 using fun i => newParty_setup (Pairing.dlog Fr) 7 4 1 i
  choose D hD using fun j => (⟨_, commitMsg_ok (codec := frCodec) (Pairing.dlog Fr) 7 1 (coinsX j)⟩ :
    ∃ m, commitMsg frCodec (Pairing.dlog Fr) (newKZG (Pairing.dlog Fr) 7 (1 + 1)) 1 (coinsX j) = .ok m)
  set P0 : ℕ → Party Fr Fr := fun i => { p0 i with
    proof := ⟨0, (List.range 4).map fun k : ℕ => ⟨k, polyVal (sliceX bX 1 2 (k : Fr)) 7 • (Pairing.dlog Fr).g1, 0, 0, 0⟩⟩
    fullShare := sliceY bX 1 2 ((i + 1 : ℕ) : Fr)
    witness := List.replicate 3 1
    witnessIndexes := firstIndices 3
    reducedShare := sliceX bX 1 2 ((i + 1 : ℕ) : Fr) } with hP0
  have hk : ∀ i, KnowsComs (Pairing.dlog Fr) 7 bX (P0 i) := by
    intro i k k1 k2
    have eF : (P0 i).F = 1 := e4 i
    rw [eF] at k2 ⊢
    rw [commitToPoly_ok _ _ _ _ (by rw [sliceX_length])]
    congr 1
    interval_cases k <;> rfl
  have hrun := fun i (hi : i < 4) => C29_honest_run frCodec (Pairing.dlog Fr) tb0 7 (P0 i) ⟨(e2 i).kzg, (e2 i).table⟩ (by show 1 ≤ (p0 i).F; rw [e4])
    (by show (p0 i).F ≤ _; rw [e4]; norm_num) (by show 3 * (p0 i).F + 1 ≤ (p0 i).N; rw [e4, e3]) (by show (p0 i).N < _; rw [e3]; norm_num)
    (by show (p0 i).pid < (p0 i).N; rw [e5, e3]; exact hi) bX (hk i) (by show _ = sliceX _ (p0 i).F (2 * (p0 i).F) (((p0 i).pid + 1 : ℕ) : Fr); rw [e4, e5]) (coinsX 1) coinsX qX
    (by intro j k _ _; show sliceX _ (p0 i).F (2 * (p0 i).F) _ = ownQ (p0 i).F _ _; rw [e4]; exact qX_slices j k) D
    (by intro j; show commitMsg _ _ (newKZG _ _ ((p0 i).F + 1)) (p0 i).F _ = _; rw [e4]; exact hD j)
    (fun _ _ => []) (by intro k i; norm_num) (fun _ _ _ _ => rfl) (by intro m s a n r h; cases h; norm_num) [2, 4] (by decide)
    (by show _ = (p0 i).F + 1; rw [e4]; rfl) (by show ∀ k ∈ _, 1 ≤ k ∧ k ≤ (p0 i).N; rw [e3]; decide) [4, 1, 2] (by decide)
    (by show _ = 2 * (p0 i).F + 1; rw [e4]; rfl) (by show ∀ k ∈ _, 1 ≤ k ∧ k ≤ (p0 i).N; rw [e3]; decide)
  have : Nonempty (Party Fr Fr) := ⟨p0 0⟩
  have : Nonempty (PState Fr) := ⟨PState.init (p0 0) (coinsX 1)⟩
  choose! P st r h1 _ _ h2 _ using hrun
  have hfull : ∀ i < 4, (P i).fullShare = sliceY (refreshed bX qX [2, 4]) 1 (2 * 1) ((i + 1 : ℕ) : Fr) := by
    intro i hi
    have := h2 i hi
    have e : ∀ F' i', F' = 1 → i' = i → sliceY (refreshed bX qX [2, 4]) F' (2 * F') ((i' + 1 : ℕ) : Fr) = sliceY (refreshed bX qX [2, 4]) 1 (2 * 1) ((i + 1 : ℕ) : Fr) := by
      rintro _ _ rfl rfl; rfl
    rw [this]; exact e _ _ (e4 i) (e5 i)
  have hH : ∀ i, HoldsFull (Pairing.dlog Fr) 7 bX (P0 i) := by
    intro i
    have eF : (P0 i).F = 1 := e4 i
    have ep : (P0 i).pid = i := e5 i
    refine ⟨by rw [eF, ep], hk i, by rw [eF]; rfl, ?_, by rw [eF]⟩
    intro k k1 k2
    rw [eF] at k2 ⊢
    rw [computeProofSingle_ok _ _ _ _ _ (sliceX_ne_nil _ _ _) (by rw [sliceX_length]; norm_num)]
    congr 1
    have hs : sliceX bX 1 (2 * 1) (k : Fr) = [42, 1] := by simp [sliceX, bX, List.range_succ]
    rw [hs]
    have hw : (P0 i).witness = [1, 1, 1] := rfl
    rw [hw, ep]
    interval_cases k <;> simp [quotVal, Finset.sum_range_succ, Pairing.dlog]
  have hst : ∀ i < 4, (P i).F = 1 ∧ (P i).pid = i ∧ (P i).Setup (Pairing.dlog Fr) 7 := by
    intro i hi
    have hs := (r i hi).static
    refine ⟨by rw [hs]; exact e4 i, by rw [hs]; exact e5 i, by rw [hs]; exact ⟨(e2 i).kzg, (e2 i).table⟩⟩
  obtain ⟨n4, n5, n2⟩ := hst 2 (by norm_num)
  obtain ⟨msgs, m1, m2⟩ := C31_own_shares_stall frCodec (Pairing.dlog Fr) (fun _ => tb0) 7 1 4 le_rfl (by norm_num) (by norm_num) bX (refreshed bX qX [2, 4]) P0 P
    (fun _ => coinsX 1) _ _ st (fun i _ => ⟨e5 i, e4 i, e3 i, ⟨(e2 i).kzg, (e2 i).table⟩, hH i⟩) r (fun i hi => ⟨h1 i hi, hfull i hi⟩) (P 2) n2 n4 (by omega) (by
      intro i hi
      rw [n5]
      have : ∀ x y, biVal (refreshed bX qX [2, 4]) 1 (2 * 1) x y = 42 + 3 * x := by
        intro x y; rw [biVal_refreshed]; simp [biVal, bX, qX, Finset.sum_range_succ]; ring
      rw [this]
      have : ∀ x y, biVal bX 1 (2 * 1) x y = 42 + x := by
        intro x y; simp [biVal, bX, Finset.sum_range_succ]
      rw [this]
      interval_cases i <;> decide +kernel)
  rw [n5] at m2
  exact ⟨P, msgs, P 2, hfull, fun i hi => (m1 i hi).1, rfl, m2⟩

end Examples

end DyCAPS
