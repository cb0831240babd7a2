import Verif.Spec.Takeover
import Verif.Props.Compose

/-!
# C114: a full epoch with corrupt members in both committees
-/

set_option linter.unusedSectionVars false

namespace DyCAPS

open Polynomial

section
variable {G1 G2 GT : Type} [AddCommGroup G1] [Module Fr G1] [AddCommGroup G2] [Module Fr G2] [AddCommGroup GT] [Module Fr GT]
variable [DecidableEq G1] [DecidableEq GT]

/-- What an old member sends to the new member `i` in ShareReduce. -/
theorem honestSR_of_send (codec : PointCodec G1) (pp : Pairing Fr G1 G2 GT) (t : Fr) {F N i k : ℕ} (hN' : N < 2 ^ 32) (hi : i < N) {b : ℕ → ℕ → Fr} {o : Party G1 G2} {out : List Bytes}
    (h : o.pid = k ∧ o.F = F ∧ o.N = N ∧ o.Setup pp t ∧ HoldsFull pp t b o ∧ shareReduceSend codec o = .ok out) (hF : 3 * F + 1 ≤ N) : HonestSR codec pp t b F (k + 1) (i + 1) (out.getD i []) := by
  have hr' : N < frModulus := lt_trans hN' (by decide +kernel)
  obtain ⟨a1, a2, a3, a4, a5, a6⟩ := h
  obtain ⟨out', k1, -, k3⟩ := C25_send codec pp t b o a4 a5 (by omega) (by omega)
  have e : out' = out := Except.ok.inj (k1.symm.trans a6)
  have := k3 i (by omega)
  rwa [a1, a2, e] at this

theorem honestSR_decodable {codec : PointCodec G1} {pp : Pairing Fr G1 G2 GT} {t : Fr} {b : ℕ → ℕ → Fr} {F i j : ℕ} {data : Bytes} (h : HonestSR codec pp t b F i j data) : SRDecodable codec data := by
  have := srMsg_honest _ _ _ _ _ _ _ _ h
  unfold SRDecodable
  rw [this]
  exact ⟨⟨_, codec.dec_enc _⟩, ⟨_, codec.dec_enc _⟩⟩

/-- After the hand-off a new member knows the commitments of the old committee, and whatever share it has got, it is ready for the refresh. -/
theorem takesOver_runs (codec : PointCodec G1) (sha : Bytes → Bytes) (pp : Pairing Fr G1 G2 GT) (t : Fr) {F N i : ℕ} (hF : 1 ≤ F) (hF' : F ≤ 2 ^ 20) (hN' : N < 2 ^ 32) {b : ℕ → ℕ → Fr}
    {old : ℕ → Party G1 G2} {sr : ℕ → List Bytes} (hold : ∀ k < N, KnowsComs pp t b (old k) ∧ (old k).F = F)
    (hsr : ∀ k < N, HonestSR codec pp t b F (k + 1) (i + 1) ((sr k).getD i []))
    {corrupt : Finset UInt32} (hcor : corrupt.card ≤ F) {h : Heard} (hh : h.Honest codec N old sr corrupt i) {m : Member G1 G2} (hm : m.TakesOver codec sha pp t F N i h) :
    m.Runs codec pp t b F N i ∨ ∃ x ∈ h.prep, ∃ x' ∈ h.prep, x.2 ≠ x'.2 ∧ sha x.2 = sha x'.2 := by
  obtain ⟨p0, p1, e0, e1, e2⟩ := hm.start
  obtain ⟨p0', f1, f2, f3, f4, f5⟩ := newParty_setup pp t N F i
  rw [e0] at f1
  cases f1
  rcases C23_adopts_honest codec sha p0 p1 corrupt (by rw [f4]; exact hcor) h.prep hh.prepOnce e1 with ⟨x, hx, hxc, hx'⟩ | hc
  swap
  · exact Or.inr hc
  left
  obtain ⟨hlt, hxe⟩ := hh.prep x hx hxc
  obtain ⟨pi, g1, g2⟩ := prepareAdopt_honest codec pp t b p0 (old x.1.toNat) (hold _ hlt).1 (by rw [(hold _ hlt).2, f4]) (by rw [f4]; exact hF')
  rw [hxe, g1] at hx'
  cases hx'
  have hs : ∃ share, m.before = { ({ p0 with proof := pi } : Party G1 G2) with reducedShare := share } := by
    have hrun := sr_run codec pp t b { p0 with proof := pi } ⟨f2.kzg, f2.table⟩ (by show 1 ≤ p0.F; omega) (i + 1) corrupt (by show _ ≤ p0.F; omega) _ rfl h.red [] SRState.init
      (by simpa using hh.redOnce) (by
        intro x hx hxc
        obtain ⟨l1, l2⟩ := hh.red x (by simpa using hx) hxc
        have : (x.1 + 1).toNat = x.1.toNat + 1 := by
          rw [UInt32.toNat_add]
          simp
          omega
        show HonestSR codec pp t b p0.F _ _ _
        rw [this, f4, l2]
        exact hsr _ l1) (SRInv.init _ _ _ _ _ _)
    rcases hrun with ⟨h1, -⟩ | ⟨h1, -⟩ | ⟨share, pts, h1, -⟩
    · rw [h1] at e2; cases e2
    · rw [h1] at e2; cases e2
    · rw [h1] at e2
      exact ⟨share, (Option.some.inj (Except.ok.inj e2)).symm⟩
  obtain ⟨share, hb⟩ := hs
  refine ⟨?_, ?_, ?_, ?_, ?_, hm.run⟩
  · rw [hb]; exact ⟨f2.kzg, f2.table⟩
  · rw [hb]; exact f4
  · rw [hb]; exact f3
  · rw [hb]; exact f5
  · rw [hb]; exact g2

/-- **C114.** A client shares `s` in the old committee. The new members take over from it, hearing every old member at most once per phase, and refresh; up to `F` old members say anything in the hand-off,
up to `F` new members do anything in the broadcasts and in the messages of the refresh (no Echo counted twice), and whatever happens in the agreement, `F+1` new members following the protocol get the same value
from it. If they complete, they reconstruct `s` - or two different byte strings with the same hash are among what they heard, or the sender of a message knows a nonzero polynomial vanishing at the setup secret. -/
theorem C114_agreed (codec : PointCodec G1) (sha : Bytes → Bytes) (pp : Pairing Fr G1 G2 GT) (t : Fr) (N F : ℕ) (s : Fr) (c : DealerCoins) (hF : 1 ≤ F) (hF' : F ≤ 2 ^ 20) (hN : 3 * F + 1 ≤ N) (hN' : N < 2 ^ 32) :
    ∃ (b : ℕ → ℕ → Fr) (msgs : List Bytes) (old : ℕ → Party G1 G2) (sr : ℕ → List Bytes), clientShare codec pp (newKZG pp t (F + 1)) N F s c = .ok msgs ∧
      (∀ k < N, ∃ p, newParty pp t N F k = .ok p ∧ vssShareReceive codec pp p (msgs.getD k []) = .ok (old k, true)) ∧ biVal b F (2 * F) 0 0 = s ∧
      (∀ k < N, (old k).pid = k ∧ (old k).F = F ∧ (old k).N = N ∧ (old k).Setup pp t ∧ HoldsFull pp t b (old k) ∧ shareReduceSend codec (old k) = .ok (sr k)) ∧
      ∀ (corrupt : Finset UInt32) (heard : ℕ → Heard) (mem : ℕ → Member G1 G2) (S : List ℕ), corrupt.card ≤ F → S.Nodup → S.length = F + 1 →
        (∀ i ∈ S, i < N ∧ (heard i).Honest codec N old sr corrupt i ∧ (mem i).TakesOver codec sha pp t F N i (heard i) ∧ (mem i).st.successSent = true) →
      ∀ (envR : REnv) (H : Finset ℕ) (evsC : ℕ → List NEvent) (netC : ℕ → RNet), envR.Ok → HonestSet envR H → (∀ j, NRun envR H RNet.init (evsC j) (netC j) ∧ EchoOnce (evsC j)) →
        (∀ i ∈ S, i ∈ H ∧ (mem i).Hears netC i) →
      SameValue mem S →
      ∀ (q : ℕ → Bytes → ℕ → ℕ → Fr) (rep : ℕ → Bytes → CommitRep) (w : ℕ → PEvent → Fr[X]), (∀ i ∈ S, (mem i).Alg codec pp t q rep (w i)) →
        Reconstructs F s (S.map fun i => (mem i).after) ∨ PrepCollision sha S heard ∨ CastCollision envR netC S ∨
          ∃ data J, Common mem S data J ∧ ∃ i ∈ S, RunReveals t (mem i).before b (fun j => q j (data j)) J (fun j => rep j (data j)) (w i) (mem i).evs := by
  have hr' : N < frModulus := lt_trans hN' (by decide +kernel)
  obtain ⟨msgs, hm, -, b, old, hb, hold, -⟩ := C18_honest_sharing codec pp t N F s c hF hF' hN hr'
  have hsr : ∀ k, ∃ out, k < N → shareReduceSend codec (old k) = .ok out ∧ ∀ j < N, HonestSR codec pp t b F (k + 1) (j + 1) (out.getD j []) := by
    intro k
    by_cases hk : k < N
    swap
    · exact ⟨[], fun h => absurd h hk⟩
    obtain ⟨h1, h2, h3, h4, h5, -⟩ := hold k hk
    obtain ⟨out, k1, -, k3⟩ := C25_send codec pp t b (old k) h4 h5 (by omega) (by omega)
    refine ⟨out, fun _ => ⟨k1, fun j hj => ?_⟩⟩
    have := k3 j (by omega)
    rwa [h1, h2] at this
  choose sr hsr using hsr
  refine ⟨b, msgs, old, sr, hm, fun k hk => (hold k hk).2.2.2.2.2, hb, ?_, ?_⟩
  · intro k hk
    obtain ⟨k1, k2, k3, k4, k5, -⟩ := hold k hk
    exact ⟨k1, k2, k3, k4, k5, (hsr k hk).1⟩
  intro corrupt heard mem S hcor hnd hlen hS envR H evsC netC ok hH hC hears same q rep w alg
  by_cases hpc : PrepCollision sha S heard
  · exact Or.inr (Or.inl hpc)
  have runs : ∀ i ∈ S, (mem i).Runs codec pp t b F N i := by
    intro i hi
    obtain ⟨h1, h2, h3, -⟩ := hS i hi
    rcases takesOver_runs codec sha pp t hF hF' hN' (fun k hk => ⟨(hold k hk).2.2.2.2.1.coms, (hold k hk).2.1⟩) (fun k hk => (hsr k hk).2 i h1) hcor h2 h3 with h | h
    · exact h
    · exact absurd ⟨i, hi, h⟩ hpc
  rcases C84_agreed_partial codec pp t hF hN hr' ok hH hC hnd hlen (fun i hi => ⟨(hears i hi).1, (hS i hi).1⟩) runs (fun i hi => (hears i hi).2) same alg (fun i hi => (hS i hi).2.2.2) with ⟨data, J, hc, h | h⟩ | h
  · rw [hb] at h
    exact Or.inl h
  · exact Or.inr (Or.inr (Or.inr ⟨data, J, hc, h⟩))
  · exact Or.inr (Or.inr (Or.inl h))

/-- **C114.** A client shares `s` in the old committee. The new members take over from it, hearing every old member at most once per phase, and refresh; up to `F` old members say anything in the hand-off,
up to `F` new members do anything in the broadcasts and in the messages of the refresh (no Echo counted twice), and in the agreement members may only stop. Then any `F+1` new members following the
protocol that complete reconstruct `s` - or two different byte strings with the same hash are among what they heard, or the sender of a message knows a nonzero polynomial vanishing at the setup secret. -/
theorem C114_epoch (codec : PointCodec G1) (sha : Bytes → Bytes) (pp : Pairing Fr G1 G2 GT) (t : Fr) (N F : ℕ) (s : Fr) (c : DealerCoins) (hF : 1 ≤ F) (hF' : F ≤ 2 ^ 20) (hN : 3 * F + 1 ≤ N) (hN' : N < 2 ^ 32) :
    ∃ (b : ℕ → ℕ → Fr) (msgs : List Bytes) (old : ℕ → Party G1 G2) (sr : ℕ → List Bytes), clientShare codec pp (newKZG pp t (F + 1)) N F s c = .ok msgs ∧
      (∀ k < N, ∃ p, newParty pp t N F k = .ok p ∧ vssShareReceive codec pp p (msgs.getD k []) = .ok (old k, true)) ∧ biVal b F (2 * F) 0 0 = s ∧
      (∀ k < N, (old k).pid = k ∧ (old k).F = F ∧ (old k).N = N ∧ (old k).Setup pp t ∧ HoldsFull pp t b (old k) ∧ shareReduceSend codec (old k) = .ok (sr k)) ∧
      ∀ (corrupt : Finset UInt32) (heard : ℕ → Heard) (mem : ℕ → Member G1 G2) (S : List ℕ), corrupt.card ≤ F → S.Nodup → S.length = F + 1 →
        (∀ i ∈ S, i < N ∧ (heard i).Honest codec N old sr corrupt i ∧ (mem i).TakesOver codec sha pp t F N i (heard i) ∧ (mem i).st.successSent = true) →
      ∀ (envR : REnv) (H : Finset ℕ) (evsC : ℕ → List NEvent) (netC : ℕ → RNet), envR.Ok → HonestSet envR H → (∀ j, NRun envR H RNet.init (evsC j) (netC j) ∧ EchoOnce (evsC j)) →
        (∀ i ∈ S, i ∈ H ∧ (mem i).Hears netC i) →
      ∀ (envM : MEnv) (full : SMsg → Bytes) (input : ℕ → Bytes × Bytes) (evsM : List (ℕ × MEvent)) (netM : MNet), SchemeOk envM full → envM.N = 3 * envM.F + 1 →
        MRun envM (Finset.range envM.N) ⟨true, true⟩ (MNet.init (Finset.range envM.N) input envM.N) evsM netM → (∀ i s m, (i, MEvent.recv s m) ∈ evsM → s < envM.N) →
        (∀ i ∈ S, i < envM.N ∧ (mem i).Obeys netM i) →
      ∀ (q : ℕ → Bytes → ℕ → ℕ → Fr) (rep : ℕ → Bytes → CommitRep) (w : ℕ → PEvent → Fr[X]), (∀ i ∈ S, (mem i).Alg codec pp t q rep (w i)) →
        Reconstructs F s (S.map fun i => (mem i).after) ∨ PrepCollision sha S heard ∨ CastCollision envR netC S ∨ ValueCollision envM netM S ∨
          ∃ data J, Common mem S data J ∧ ∃ i ∈ S, RunReveals t (mem i).before b (fun j => q j (data j)) J (fun j => rep j (data j)) (w i) (mem i).evs := by
  obtain ⟨b, msgs, old, sr, h1, h2, h3, h4, key⟩ := C114_agreed codec sha pp t N F s c hF hF' hN hN'
  refine ⟨b, msgs, old, sr, h1, h2, h3, h4, ?_⟩
  intro corrupt heard mem S hcor hnd hlen hS envR H evsC netC ok hH hC hears envM full input evsM netM hok hNM hM hsrc obeys q rep w alg
  rcases same_of (envM := envM) (fun i hi => (obeys i hi).2) (fun i hi i' hi' r r' v v' h h' => C39_crash_partial hok hNM hM hsrc (obeys i hi).1 (obeys i' hi').1 h h') with same | h
  · rcases key corrupt heard mem S hcor hnd hlen hS envR H evsC netC ok hH hC hears same q rep w alg with h | h | h | h
    · exact Or.inl h
    · exact Or.inr (Or.inl h)
    · exact Or.inr (Or.inr (Or.inl h))
    · exact Or.inr (Or.inr (Or.inr (Or.inr h)))
  · exact Or.inr (Or.inr (Or.inr (Or.inl h)))

/-- **C114.** The same with up to `F` members doing anything in all parts of the refresh, if the new members decide in one round of the agreement, having counted coin shares of different members. -/
theorem C114_one_round (codec : PointCodec G1) (sha : Bytes → Bytes) (pp : Pairing Fr G1 G2 GT) (t : Fr) (N F : ℕ) (s : Fr) (c : DealerCoins) (hF : 1 ≤ F) (hF' : F ≤ 2 ^ 20) (hN : 3 * F + 1 ≤ N) (hN' : N < 2 ^ 32) :
    ∃ (b : ℕ → ℕ → Fr) (msgs : List Bytes) (old : ℕ → Party G1 G2) (sr : ℕ → List Bytes), clientShare codec pp (newKZG pp t (F + 1)) N F s c = .ok msgs ∧
      (∀ k < N, ∃ p, newParty pp t N F k = .ok p ∧ vssShareReceive codec pp p (msgs.getD k []) = .ok (old k, true)) ∧ biVal b F (2 * F) 0 0 = s ∧
      (∀ k < N, (old k).pid = k ∧ (old k).F = F ∧ (old k).N = N ∧ (old k).Setup pp t ∧ HoldsFull pp t b (old k) ∧ shareReduceSend codec (old k) = .ok (sr k)) ∧
      ∀ (corrupt : Finset UInt32) (heard : ℕ → Heard) (mem : ℕ → Member G1 G2) (S : List ℕ), corrupt.card ≤ F → S.Nodup → S.length = F + 1 →
        (∀ i ∈ S, i < N ∧ (heard i).Honest codec N old sr corrupt i ∧ (mem i).TakesOver codec sha pp t F N i (heard i) ∧ (mem i).st.successSent = true) →
      ∀ (envR : REnv) (H : Finset ℕ) (evsC : ℕ → List NEvent) (netC : ℕ → RNet), envR.Ok → HonestSet envR H → (∀ j, NRun envR H RNet.init (evsC j) (netC j) ∧ EchoOnce (evsC j)) →
        (∀ i ∈ S, i ∈ H ∧ (mem i).Hears netC i) →
      ∀ (envM : MEnv) (full : SMsg → Bytes) (cfg : MNetCfg) (input : ℕ → Bytes × Bytes) (evsM : List (ℕ × MEvent)) (netM : MNet) (r : ℕ), SchemeOk envM full → Committee envM H →
        MRun envM H cfg (MNet.init H input envM.N) evsM netM → (∀ i ∈ S, (mem i).Obeys netM i ∧ (∀ r' v, Decides netM i r' v → r' = r) ∧ (coinSigners envM netM i r).Nodup) →
      ∀ (q : ℕ → Bytes → ℕ → ℕ → Fr) (rep : ℕ → Bytes → CommitRep) (w : ℕ → PEvent → Fr[X]), (∀ i ∈ S, (mem i).Alg codec pp t q rep (w i)) →
        Reconstructs F s (S.map fun i => (mem i).after) ∨ PrepCollision sha S heard ∨ CastCollision envR netC S ∨ ValueCollision envM netM S ∨
          ∃ data J, Common mem S data J ∧ ∃ i ∈ S, RunReveals t (mem i).before b (fun j => q j (data j)) J (fun j => rep j (data j)) (w i) (mem i).evs := by
  obtain ⟨b, msgs, old, sr, h1, h2, h3, h4, key⟩ := C114_agreed codec sha pp t N F s c hF hF' hN hN'
  refine ⟨b, msgs, old, sr, h1, h2, h3, h4, ?_⟩
  intro corrupt heard mem S hcor hnd hlen hS envR H evsC netC ok hH hC hears envM full cfg input evsM netM r hok hcm hM obeys q rep w alg
  rcases same_of (envM := envM) (fun i hi => (obeys i hi).1) (fun i hi i' hi' r1 r2 v v' h h' => by
      cases (obeys i hi).2.1 r1 v h
      cases (obeys i' hi').2.1 r2 v' h'
      exact C38_distinct_coins_partial hok hcm hM (hears i hi).1 (hears i' hi').1 h h' (obeys i hi).2.2 (obeys i' hi').2.2) with same | h
  · rcases key corrupt heard mem S hcor hnd hlen hS envR H evsC netC ok hH hC hears same q rep w alg with h | h | h | h
    · exact Or.inl h
    · exact Or.inr (Or.inl h)
    · exact Or.inr (Or.inr (Or.inl h))
    · exact Or.inr (Or.inr (Or.inr (Or.inr h)))
  · exact Or.inr (Or.inr (Or.inr (Or.inl h)))

/-- **C114 (the hand-off completes).** Old members that hold full shares of `B` hand over. If a new member hears `F+1` of those outside `corrupt` in each phase, every old member at most once, and the
ShareReduce messages decode, it gets the commitments and its reduced share `B(·, i+1)` - or two different Prepare messages have the same hash, or a corrupt sender knows a nonzero polynomial vanishing
at the setup secret. -/
theorem C114_handoff (codec : PointCodec G1) (sha : Bytes → Bytes) (pp : Pairing Fr G1 G2 GT) (t : Fr) {F N i : ℕ} (hF : 1 ≤ F) (hF' : F ≤ 2 ^ 20) (hN : 3 * F + 1 ≤ N) (hN' : N < 2 ^ 32) (hi : i < N)
    {b : ℕ → ℕ → Fr} {old : ℕ → Party G1 G2} {sr : ℕ → List Bytes}
    (hold : ∀ k < N, (old k).pid = k ∧ (old k).F = F ∧ (old k).N = N ∧ (old k).Setup pp t ∧ HoldsFull pp t b (old k) ∧ shareReduceSend codec (old k) = .ok (sr k))
    {corrupt : Finset UInt32} (hcor : corrupt.card ≤ F) {h : Heard} (hh : h.Honest codec N old sr corrupt i) (hdec : ∀ m ∈ h.red, SRDecodable codec m.2)
    (hprep : F + 1 ≤ (h.prep.filter fun m => m.1 ∉ corrupt).length) (hred : F + 1 ≤ (h.red.filter fun m => m.1 ∉ corrupt).length)
    (w : UInt32 × Bytes → Fr[X]) (halg : ∀ m ∈ h.red, m.1 ∈ corrupt → ∀ W, codec.dec (srMsg m.2).W = some W → W = (w m).eval t • pp.g1) :
    (∃ p0 p1 p2, newParty pp t N F i = .ok p0 ∧ prepareReceive codec sha p0 (fun _ => 0) (h.prep.map Prod.snd) = .ok (some p1) ∧
      shareReduceReceive codec pp p1 SRState.init h.red = .ok (some p2) ∧ KnowsComs pp t b p2 ∧ p2.reducedShare = sliceX b F (2 * F) ((i + 1 : ℕ) : Fr)) ∨
    (∃ m ∈ h.prep, ∃ m' ∈ h.prep, m.2 ≠ m'.2 ∧ sha m.2 = sha m'.2) ∨
    ∃ m ∈ h.red, m.1 ∈ corrupt ∧ ∃ v, OpeningReveals t (sliceX b F (2 * F) ((i + 1 : ℕ) : Fr)) (w m) (((m.1 + 1).toNat : ℕ) : Fr) v := by
  obtain ⟨p0, f1, f2, f3, f4, f5⟩ := newParty_setup pp t N F i
  rcases C23_prepare codec sha pp t b p0 (by omega) corrupt (by omega) h.prep hh.prepOnce (fun m hm hc => ⟨old m.1.toNat, by rw [(hold _ (hh.prep m hm hc).1).2.1, f4],
    (hold _ (hh.prep m hm hc).1).2.2.2.2.1.coms, (hh.prep m hm hc).2⟩) (by rw [f4]; exact hprep) with ⟨pi, g1, g2⟩ | hc
  swap
  · exact Or.inr (Or.inl hc)
  have hhon : ∀ m ∈ h.red, m.1 ∉ corrupt → HonestSR codec pp t b ({ p0 with proof := pi } : Party G1 G2).F (m.1 + 1).toNat (({ p0 with proof := pi } : Party G1 G2).pid + 1) m.2 := by
    intro m hm hc
    obtain ⟨l1, l2⟩ := hh.red m hm hc
    have e : (m.1 + 1).toNat = m.1.toNat + 1 := by
      rw [UInt32.toNat_add]
      simp
      omega
    show HonestSR codec pp t b p0.F _ (p0.pid + 1) _
    rw [e, f4, f5, l2]
    exact honestSR_of_send codec pp t hN' hi (hold _ l1) hN
  obtain ⟨p2, k1⟩ := C25_terminates codec pp t b { p0 with proof := pi } ⟨f2.kzg, f2.table⟩ (by show 1 ≤ p0.F; omega) corrupt (by show _ ≤ p0.F; omega) h.red hh.redOnce hhon hdec
    (by show p0.F + 1 ≤ _; rw [f4]; exact hred)
  rcases C25_receive codec pp t b { p0 with proof := pi } ⟨f2.kzg, f2.table⟩ (by show 1 ≤ p0.F; omega) corrupt (by show _ ≤ p0.F; omega) h.red hh.redOnce hhon w halg p2 k1 with e | ⟨m, m1, m2, v, m3, m4⟩
  · left
    refine ⟨p0, _, p2, f1, g1, k1, ?_, ?_⟩
    · rw [e]; exact g2
    · rw [e]
      show sliceX b p0.F (2 * p0.F) ((p0.pid + 1 : ℕ) : Fr) = _
      rw [f4, f5]
  · right; right
    refine ⟨m, m1, m2, v, ?_⟩
    simp only [f4, f5] at m3 m4
    exact ⟨m3, m4⟩

end

/-! ### A concrete execution

A client shares 42 among four old members. Old member 3 is corrupt: it sends an empty Prepare message and no ShareReduce message. Party 0 of the new committee is corrupt in the broadcasts; new members
1 and 2 are looked at. -/

section Examples

/-- What each new member hears. -/
def heardX (old : ℕ → Party Fr Fr) (sr : ℕ → List Bytes) (i : ℕ) : Heard :=
  ⟨[(0, prepareSend frCodec (old 0)), (3, []), (1, prepareSend frCodec (old 1)), (2, prepareSend frCodec (old 2))], [(2, (sr 2).getD i []), (0, (sr 0).getD i [])]⟩

theorem heardX_honest (old : ℕ → Party Fr Fr) (sr : ℕ → List Bytes) (i : ℕ) : (heardX old sr i).Honest frCodec 4 old sr {3} i := by
  refine ⟨?_, ?_, ?_, ?_⟩
  · show ([0, 3, 1, 2] : List UInt32).Nodup
    decide
  · show ([2, 0] : List UInt32).Nodup
    decide
  · intro m hm hc
    simp only [heardX, List.mem_cons, List.not_mem_nil, or_false] at hm
    rcases hm with rfl | rfl | rfl | rfl
    · exact ⟨by show (0 : UInt32).toNat < 4; decide, rfl⟩
    · exact absurd (Finset.mem_singleton_self _) hc
    · exact ⟨by show (1 : UInt32).toNat < 4; decide, rfl⟩
    · exact ⟨by show (2 : UInt32).toNat < 4; decide, rfl⟩
  · intro m hm _
    simp only [heardX, List.mem_cons, List.not_mem_nil, or_false] at hm
    rcases hm with rfl | rfl
    · exact ⟨by show (2 : UInt32).toNat < 4; decide, rfl⟩
    · exact ⟨by show (0 : UInt32).toNat < 4; decide, rfl⟩

theorem heardX_red {old : ℕ → Party Fr Fr} {sr : ℕ → List Bytes} {i : ℕ} {m : UInt32 × Bytes} (hm : m ∈ (heardX old sr i).red) : m.1 ∉ ({3} : Finset UInt32) := by
  have h : m.1 ∈ ([2, 0] : List UInt32) := List.mem_map_of_mem (f := Prod.fst) hm
  revert h
  generalize m.1 = x
  intro h
  simp only [List.mem_cons, List.not_mem_nil, or_false] at h
  rcases h with rfl | rfl <;> decide

/-- The hand-off of the example. -/
theorem handoffX {b : ℕ → ℕ → Fr} {old : ℕ → Party Fr Fr} {sr : ℕ → List Bytes}
    (hold : ∀ k < 4, (old k).pid = k ∧ (old k).F = 1 ∧ (old k).N = 4 ∧ (old k).Setup (Pairing.dlog Fr) 7 ∧ HoldsFull (Pairing.dlog Fr) 7 b (old k) ∧ shareReduceSend frCodec (old k) = .ok (sr k)) (i : ℕ) :
    ∃ P0 : Party Fr Fr, i < 4 → (P0.Setup (Pairing.dlog Fr) 7 ∧ P0.F = 1 ∧ P0.N = 4 ∧ P0.pid = i ∧ KnowsComs (Pairing.dlog Fr) 7 b P0 ∧
      P0.reducedShare = sliceX b 1 (2 * 1) ((i + 1 : ℕ) : Fr) ∧ ∃ p0 p1, newParty (Pairing.dlog Fr) 7 4 1 i = .ok p0 ∧
        prepareReceive frCodec id p0 (fun _ => 0) ((heardX old sr i).prep.map Prod.snd) = .ok (some p1) ∧
        shareReduceReceive frCodec (Pairing.dlog Fr) p1 SRState.init (heardX old sr i).red = .ok (some P0)) := by
  obtain ⟨p, -⟩ := newParty_setup (Pairing.dlog Fr) (7 : Fr) 4 1 i
  by_cases hi : i < 4
  swap
  · exact ⟨p, fun h => absurd h hi⟩
  have hsr : ∀ k < 4, HonestSR frCodec (Pairing.dlog Fr) 7 b 1 (k + 1) (i + 1) ((sr k).getD i []) := fun k hk =>
    honestSR_of_send frCodec (Pairing.dlog Fr) 7 (F := 1) (N := 4) (by norm_num) hi (hold k hk) le_rfl
  have hh := heardX_honest old sr i
  have hdec : ∀ m ∈ (heardX old sr i).red, SRDecodable frCodec m.2 := by
    intro m hm
    obtain ⟨l1, l2⟩ := hh.red m hm (heardX_red hm)
    rw [l2]
    exact honestSR_decodable (hsr _ l1)
  have hl1 : 1 + 1 ≤ ((heardX old sr i).prep.filter fun m => m.1 ∉ ({3} : Finset UInt32)).length := by simp [heardX]
  have hl2 : 1 + 1 ≤ ((heardX old sr i).red.filter fun m => m.1 ∉ ({3} : Finset UInt32)).length := by
    rw [List.filter_eq_self.2 (fun m hm => decide_eq_true (heardX_red hm))]
    exact le_rfl
  rcases C114_handoff frCodec id (Pairing.dlog Fr) 7 (F := 1) (N := 4) le_rfl (by norm_num) le_rfl (by norm_num) hi hold (corrupt := {3}) (by decide) hh hdec hl1 hl2 (fun _ => 0)
    (fun m hm hc => absurd hc (heardX_red hm)) with ⟨p0, p1, p2, h1, h2, h3, h4, h5⟩ | ⟨m, -, m', -, h1, h2⟩ | ⟨m, hm, hc, -⟩
  · have hR : (⟨p2, p2, coinsX 1, tb0, [], [], PState.init p2 (coinsX 1)⟩ : Member Fr Fr).Runs frCodec (Pairing.dlog Fr) 7 b 1 4 i := by
      rcases takesOver_runs frCodec id (Pairing.dlog Fr) 7 (F := 1) (N := 4) (i := i) (b := b) le_rfl (by norm_num) (by norm_num) (fun k hk => ⟨(hold k hk).2.2.2.2.1.coms, (hold k hk).2.1⟩) hsr
        (corrupt := {3}) (by decide) hh (m := ⟨p2, p2, coinsX 1, tb0, [], [], PState.init p2 (coinsX 1)⟩) ⟨⟨p0, p1, h1, h2, h3⟩, PRun.nil⟩ with h | ⟨m, -, m', -, g1, g2⟩
      · exact h
      · exact absurd g2 g1
    exact ⟨p2, fun _ => ⟨hR.setup, hR.F, hR.N, hR.pid, h4, h5, p0, p1, h1, h2, h3⟩⟩
  · exact absurd h2 h1
  · exact absurd hc (heardX_red hm)

/-- The events of an honest refresh of `b` at party `i`. -/
def evB (b : ℕ → ℕ → Fr) (D : ℕ → PCommit) (F N i : ℕ) : List PEvent :=
  refreshEvents frCodec (Pairing.dlog Fr) 7 F N (i + 1) qX (fun j => marshal (D j)) (fun _ _ => []) [2, 4] (marshal (mvbaInput tb0 F N (fun _ _ => []) [2, 4])) ++
    completeEvents frCodec (Pairing.dlog Fr) 7 F (i + 1) (refreshed b qX [2, 4]) [4, 1, 2]

theorem evB_commit {b : ℕ → ℕ → Fr} {D : ℕ → PCommit} {F N i j : ℕ} {d : Bytes} (h : PEvent.commit j (some d) ∈ evB b D F N i) : d = marshal (D j) := by
  unfold evB at h
  simp only [refreshEvents, completeEvents, distEvents, batchEvents, List.mem_append, List.mem_map, List.mem_flatMap, List.mem_cons, List.mem_replicate, List.not_mem_nil] at h
  simp only [reduceCtorEq, and_false, or_false, exists_false, PEvent.commit.injEq, Option.some.injEq] at h
  obtain ⟨a, -, rfl, h⟩ := h
  exact h.symm

theorem evB_mvba {b : ℕ → ℕ → Fr} {D : ℕ → PCommit} {F N i : ℕ} {v : Bytes} (h : PEvent.mvba v ∈ evB b D F N i) : v = marshal (mvbaInput tb0 F N (fun _ _ => []) [2, 4]) := by
  unfold evB at h
  simp only [refreshEvents, completeEvents, distEvents, batchEvents, List.mem_append, List.mem_map, List.mem_flatMap, List.mem_cons, List.mem_replicate, List.not_mem_nil] at h
  simpa only [reduceCtorEq, and_false, or_false, false_or, exists_false, PEvent.mvba.injEq] using h

open Toy in
/-- All hypotheses of `C114_epoch` hold together, those of `C114_one_round` as well with another execution of the agreement (`evsB`, `netB`), the alternatives to its claim do not, and the two new members reconstruct 42. -/
example (c : DealerCoins) : ∃ (msgs : List Bytes) (old : ℕ → Party Fr Fr) (sr : ℕ → List Bytes) (evsC : ℕ → List NEvent) (netC : ℕ → RNet) (evsM : List (ℕ × MEvent)) (netM : MNet) (evsB : List (ℕ × MEvent)) (netB : MNet) (mem : ℕ → Member Fr Fr),
    clientShare frCodec (Pairing.dlog Fr) (newKZG (Pairing.dlog Fr) 7 2) 4 1 42 c = .ok msgs ∧
    (∀ k < 4, ∃ p, newParty (Pairing.dlog Fr) 7 4 1 k = .ok p ∧ vssShareReceive frCodec (Pairing.dlog Fr) p (msgs.getD k []) = .ok (old k, true) ∧ shareReduceSend frCodec (old k) = .ok (sr k)) ∧
    (∀ j, NRun (toyEnv 4 1) (othersSet 4) RNet.init (evsC j) (netC j) ∧ EchoOnce (evsC j)) ∧
    MRun (env fun _ => 0) (Finset.range 4) ⟨true, true⟩ (MNet.init (Finset.range 4) (fun _ => (valueX, [])) 4) evsM netM ∧
    (∀ i ∈ [1, 2], (mem i).TakesOver frCodec id (Pairing.dlog Fr) 7 1 4 i (heardX old sr i) ∧ (mem i).Hears netC i ∧ (mem i).Obeys netM i ∧ (mem i).st.successSent = true) ∧
    Committee (env fun _ => 0) (othersSet 4) ∧ MRun (env fun _ => 0) (othersSet 4) ⟨true, true⟩ (MNet.init (othersSet 4) (fun _ => (valueX, [])) 4) evsB netB ∧
    (∀ i ∈ [1, 2], (mem i).Obeys netB i ∧ (∀ r v, Decides netB i r v → r = 0) ∧ (coinSigners (env fun _ => 0) netB i 0).Nodup) ∧
    Reconstructs 1 42 ([1, 2].map fun i => (mem i).after) := by
  have okR : (toyEnv 4 1).Ok := toyEnv_ok (by norm_num) (by norm_num)
  obtain ⟨b, msgs, old, sr, hm, hvss, hb, hold, hkey⟩ := C114_epoch frCodec id (Pairing.dlog Fr) 7 4 1 42 c le_rfl (by norm_num) le_rfl (by norm_num)
  choose P0 hP0 using handoffX hold
  choose D hD using fun j => (⟨_, commitMsg_ok (codec := frCodec) (Pairing.dlog Fr) 7 1 (coinsX j)⟩ :
    ∃ m, commitMsg frCodec (Pairing.dlog Fr) (newKZG (Pairing.dlog Fr) 7 (1 + 1)) 1 (coinsX j) = .ok m)
  have hDlen : ∀ j, (marshal (castX (marshal (D j)))).length < 2 ^ 30 := by
    intro j
    have h := hD j
    rw [commitMsg_ok] at h
    rw [← Except.ok.inj h]
    have h1 := castX_size (marshal (commitOf frCodec 1 (honestContent (Pairing.dlog Fr) 7 1 0 (coinsX j))))
    have h2 := size_commit_one (honestContent (Pairing.dlog Fr) 7 1 0 (coinsX j))
    omega
  have hPF : ∀ i < 4, (P0 i).F = 1 := fun i hi => (hP0 i hi).2.1
  have hPN : ∀ i < 4, (P0 i).N = 4 := fun i hi => (hP0 i hi).2.2.1
  have hPp : ∀ i < 4, (P0 i).pid = i := fun i hi => (hP0 i hi).2.2.2.1
  have hq : ∀ i < 4, ∀ j k, 1 ≤ k → k ≤ 2 * (P0 i).F + 1 → sliceX (qX j) (P0 i).F (2 * (P0 i).F) (k : Fr) = ownQ (P0 i).F (coinsX j) k := by
    intro i hi j k _ _; rw [hPF i hi]; exact qX_slices j k
  have hD' : ∀ i < 4, ∀ j, commitMsg frCodec (Pairing.dlog Fr) (newKZG (Pairing.dlog Fr) 7 ((P0 i).F + 1)) (P0 i).F (coinsX j) = .ok (D j) := by
    intro i hi j; rw [hPF i hi]; exact hD j
  have hrun := fun i (hi : i < 4) => C29_honest_run frCodec (Pairing.dlog Fr) tb0 7 (P0 i) (hP0 i hi).1 (by rw [hPF i hi]) (by rw [hPF i hi]; norm_num) (by rw [hPF i hi, hPN i hi])
    (by rw [hPN i hi]; norm_num) (by rw [hPp i hi, hPN i hi]; exact hi) b (hP0 i hi).2.2.2.2.1 (by rw [hPF i hi, hPp i hi]; exact (hP0 i hi).2.2.2.2.2.1) (coinsX 1) coinsX qX (hq i hi) D (hD' i hi)
    (fun _ _ => []) (by intro k i; norm_num) (fun _ _ _ _ => rfl) (by intro m s a n r h; cases h; norm_num) [2, 4] (by decide) (by rw [hPF i hi]; rfl) (by rw [hPN i hi]; decide) [4, 1, 2] (by decide)
    (by rw [hPF i hi]; rfl) (by rw [hPN i hi]; decide)
  have : Nonempty (Party Fr Fr) := ⟨P0 0⟩
  have : Nonempty (PState Fr) := ⟨PState.init (P0 0) (coinsX 1)⟩
  choose! P st r h1 _ _ h2 _ using hrun
  have hnr := fun i (hi : i < 4) => C29_honest_reveals_nothing frCodec (Pairing.dlog Fr) tb0 7 (P0 i) (by rw [hPF i hi]; norm_num) (by rw [hPF i hi, hPN i hi]) (by rw [hPN i hi]; norm_num) b coinsX qX (hq i hi) D (hD' i hi)
    (fun _ _ => []) (by intro k i; norm_num) (by intro m s a n r h; cases h; norm_num) [2, 4] (by rw [hPF i hi]; rfl) (by rw [hPN i hi]; decide) [4, 1, 2] (by rw [hPN i hi]; decide) _ rfl
  have hcast : ∀ j, ∃ evs net, NRun (toyEnv 4 1) (othersSet 4) RNet.init evs net ∧ EchoOnce evs ∧
      ∀ i ∈ othersSet 4, (net.party i).mainPos = .returned (some (marshal (castX (marshal (D j))))) := by
    intro j
    obtain ⟨evs, net, a1, a2, -, a3⟩ := attack_spoof okR (by show 1 ≤ 1; norm_num) (b := 1) (by show 1 ∈ othersSet 4; decide) (castX []) (D := marshal (castX (marshal (D j)))) (hDlen j)
      (castX_ne (lt_trans (hDlen j) (by norm_num)))
    exact ⟨_, net, a1, a2, a3⟩
  choose evsC netC c1 c2 c3 using hcast
  obtain ⟨netM, m1, m2, m3⟩ := agree_toy
  obtain ⟨netB, n1, n2, -⟩ := agree_byz
  have hcm : Committee (env fun _ => 0) (othersSet 4) := ⟨rfl, by decide, by decide⟩
  have hS : ∀ i ∈ [1, 2], i ∈ othersSet 4 ∧ i < 4 := by decide
  set mem : ℕ → Member Fr Fr := fun i => ⟨P0 i, P i, coinsX 1, tb0, evB b D (P0 i).F (P0 i).N (P0 i).pid, [.mvba (mvbaInput tb0 (P0 i).F (P0 i).N (fun _ _ => []) [2, 4]), .success], st i⟩ with hmem
  have obeys : ∀ i ∈ [1, 2], (mem i).Obeys netM i := by
    intro i hi v hv
    have := evB_mvba hv
    rw [hPF i (hS i hi).2, hPN i (hS i hi).2] at this
    rw [this]
    exact ⟨0, m2 i (hS i hi).2⟩
  have hB : ∀ i ∈ [1, 2], (mem i).Obeys netB i ∧ (∀ r v, Decides netB i r v → r = 0) ∧ (coinSigners (env fun _ => 0) netB i 0).Nodup := by
    intro i hi
    obtain ⟨x, y⟩ := n2 i (by revert i; decide)
    refine ⟨fun v hv => ?_, fun r v h => ?_, y⟩
    · have := evB_mvba hv
      rw [hPF i (hS i hi).2, hPN i (hS i hi).2] at this
      rw [this]
      exact ⟨0, x⟩
    · unfold Decides at x h
      rw [x] at h
      cases h
      rfl
  have hears : ∀ i ∈ [1, 2], (mem i).Hears netC i := by
    intro i hi j d hd
    rw [evB_commit hd]
    exact ⟨castX (marshal (D j)), result_marshal (hDlen j) (c3 j i (hS i hi).1), rfl⟩
  have takes : ∀ i ∈ [1, 2], (mem i).TakesOver frCodec id (Pairing.dlog Fr) 7 1 4 i (heardX old sr i) := fun i hi =>
    ⟨(hP0 i (hS i hi).2).2.2.2.2.2.2, r i (hS i hi).2⟩
  have alg : ∀ i ∈ [1, 2], (mem i).Alg frCodec (Pairing.dlog Fr) 7 (fun j _ => qX j) (fun j _ => honestRep 1 (coinsX j)) (honestW 1 (i + 1) b qX [2, 4]) := by
    intro i hi
    have h := (hnr i (hS i hi).2).1
    have ef : honestW (P0 i).F ((P0 i).pid + 1) b qX [2, 4] = honestW 1 (i + 1) b qX [2, 4] := by rw [hPF i (hS i hi).2, hPp i (hS i hi).2]
    have eg : (fun j => honestRep (P0 i).F (coinsX j)) = fun j => honestRep 1 (coinsX j) := by rw [hPF i (hS i hi).2]
    rw [ef, eg] at h
    exact ⟨h.commits, h.recover, h.dist⟩
  have hnc : ¬ CastCollision (toyEnv 4 1) netC [1, 2] := by
    rintro ⟨i, hi, i', hi', j, a, a', x, x', hne, -⟩
    rw [c3 j i (hS i hi).1] at x
    rw [c3 j i' (hS i' hi').1] at x'
    cases x
    cases x'
    exact hne rfl
  have hnv : ¬ ValueCollision (env fun _ => 0) netM [1, 2] := by
    rintro ⟨i, hi, i', hi', ra, rb, v, v', x, x', hne, -⟩
    have y := m2 i (hS i hi).2
    have y' := m2 i' (hS i' hi').2
    unfold Decides at y y'
    rw [y] at x
    rw [y'] at x'
    cases x
    cases x'
    exact hne rfl
  refine ⟨msgs, old, sr, evsC, netC, _, netM, _, netB, mem, hm, fun k hk => ?_, fun j => ⟨c1 j, c2 j⟩, m1, fun i hi => ⟨takes i hi, hears i hi, obeys i hi, h1 i (hS i hi).2⟩, hcm, n1, hB, ?_⟩
  · obtain ⟨p, k1, k2⟩ := hvss k hk
    exact ⟨p, k1, k2, (hold k hk).2.2.2.2.2⟩
  rcases hkey {3} (heardX old sr) mem [1, 2] (by decide) (by decide) rfl (fun i hi => ⟨(hS i hi).2, heardX_honest old sr i, takes i hi, h1 i (hS i hi).2⟩) (toyEnv 4 1) (othersSet 4) evsC netC okR
    (othersSet_honest okR (by show 1 ≤ 1; norm_num)) (fun j => ⟨c1 j, c2 j⟩) (fun i hi => ⟨(hS i hi).1, hears i hi⟩) (env fun _ => 0) _ _ _ netM (schemeOk fun _ => 0) rfl m1 m3
    (fun i hi => ⟨(hS i hi).2, obeys i hi⟩) _ _ (fun i => honestW 1 (i + 1) b qX [2, 4]) alg with h | ⟨i, -, m, -, m', -, h, h'⟩ | h | h | ⟨data, J, hc, i, hi, h⟩
  · exact h
  · exact absurd h' h
  · exact absurd h hnc
  · exact absurd h hnv
  · exfalso
    have hi4 := (hS i hi).2
    have hJ : J = [2, 4] := by
      have a := (hc i hi).2
      have b' := (hnr i hi4).2.1
      have hm : PEvent.mvba (marshal (mvbaInput tb0 (P0 i).F (P0 i).N (fun _ _ => []) [2, 4])) ∈ evB b D (P0 i).F (P0 i).N (P0 i).pid := by simp [evB, refreshEvents]
      exact (a _ hm).symm.trans (b' _ hm)
    subst hJ
    have hn := (hnr i hi4).2.2
    have ef : honestW (P0 i).F ((P0 i).pid + 1) b qX [2, 4] = honestW 1 (i + 1) b qX [2, 4] := by rw [hPF i hi4, hPp i hi4]
    have eg : (fun j => honestRep (P0 i).F (coinsX j)) = fun j => honestRep 1 (coinsX j) := by rw [hPF i hi4]
    rw [ef, eg] at hn
    exact hn h

end Examples

end DyCAPS
