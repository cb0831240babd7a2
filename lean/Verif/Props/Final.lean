import Verif.Lemmas.Final
import Verif.Props.OneVoice
import Verif.Props.Blocking

/-!
# Results are final, and the messages of a party are bounded: C101, C102
-/

namespace DyCAPS

section
variable {G1 G2 GT : Type} [AddCommGroup G1] [Module Fr G1] [AddCommGroup G2] [Module Fr G2] [AddCommGroup GT] [Module Fr GT]
variable [DecidableEq G1] [DecidableEq GT]

/-- **C101 (refresh).** Whatever is received, a refresh gives a party a new reduced share at most once, when its Refresh loop ends, and a new full share at most once, when it reports success; nothing else of
the party changes. -/
theorem C101_refresh (codec : PointCodec G1) (pp : Pairing Fr G1 G2 GT) (tb : Tbls) (p0 : Party G1 G2) (c : DealerCoins) (evs : List PEvent) (outs : List POut) (p : Party G1 G2) (st : PState G1)
    (h : PRun codec pp tb p0 (PState.init p0 c) evs outs p st) :
    p = { p0 with reducedShare := p.reducedShare, fullShare := p.fullShare } ∧
    (POut.success ∉ outs → p.fullShare = p0.fullShare) ∧
    ((∀ Cs, st.refresh ≠ .done Cs) → p.reducedShare = p0.reducedShare) ∧
    ∀ evs' outs' p' st', PRun codec pp tb p st evs' outs' p' st' →
      (POut.success ∈ outs → p'.fullShare = p.fullShare) ∧ ∀ Cs, st.refresh = .done Cs → st'.refresh = .done Cs ∧ p'.reducedShare = p.reducedShare := by
  obtain ⟨I, -⟩ := once_run (OnceInv.init p0 c) h
  refine ⟨I.static, fun hs => I.full ?_, I.reduced, fun evs' outs' p' st' h' => ?_⟩
  · rw [← Bool.not_eq_true, ← h.success_sent]
    exact hs
  · obtain ⟨-, s⟩ := once_run I h'
    exact ⟨fun hs => (s.full (h.success_sent.1 hs)).2, s.reduced⟩

end

/-- **C101 (broadcast).** What a broadcast has returned to a party stays. -/
theorem C101_broadcast {env : REnv} {H : Finset ℕ} {net net' : RNet} {evs : List NEvent} (hr : NRun env H net evs net') {i : ℕ} {x : Option Bytes}
    (h : (net.party i).mainPos = .returned x) : (net'.party i).mainPos = .returned x :=
  Returned.run hr h

/-- **C101 (agreement).** A party that has decided keeps its decision, whatever it still receives, and starts no further round. -/
theorem C101_agreement {env : MEnv} {i : ℕ} {v val : Bytes} {evs evs' : List MEvent} {st st' : MState} {sent sent' : List MMsg} (h : MLocal env i v val evs st sent)
    (h' : MLocal env i v val (evs ++ evs') st' sent') {r : ℕ} {w : Bytes} (hd : st.phase = .decided r w) :
    st'.phase = .decided r w ∧ ∃ more, sent' = sent ++ more ∧ ∀ m ∈ more, ∀ r', m.slot ≠ .prevote r' ∧ ∀ j, m.slot ≠ .value r' j 1 := by
  induction evs' using List.reverseRecOn generalizing st' sent' with
  | nil =>
    rw [List.append_nil] at h'
    obtain ⟨e1, e2⟩ := h.det h'
    exact ⟨e1 ▸ hd, [], by rw [e2, List.append_nil], by simp⟩
  | append_singleton es ev ih =>
    rw [← List.append_assoc] at h'
    obtain ⟨st1, sent1, o, h1, hs, rfl, rfl⟩ := h'.last
    obtain ⟨a, more, rfl, b⟩ := ih h1
    obtain ⟨a', b'⟩ := decided_step a hs
    refine ⟨a', more ++ o.msgs, by rw [List.append_assoc], fun m hm => ?_⟩
    rcases List.mem_append.1 hm with hm | hm
    · exact b m hm
    · exact b' m hm

section
variable {G1 G2 GT : Type} [AddCommGroup G1] [Module Fr G1] [AddCommGroup G2] [Module Fr G2] [AddCommGroup GT] [Module Fr GT]
variable [DecidableEq G1] [DecidableEq GT]

/-- **C102.** Whatever it receives in a refresh, a party sends everybody at most `N` Recover messages, calls the agreement at most once and reports success at most once. -/
theorem C102_bounded (codec : PointCodec G1) (pp : Pairing Fr G1 G2 GT) (tb : Tbls) (p0 : Party G1 G2) (c : DealerCoins) (evs : List PEvent) (outs : List POut) (p : Party G1 G2) (st : PState G1)
    (h : PRun codec pp tb p0 (PState.init p0 c) evs outs p st) :
    (∀ l, outs.countP (POut.recoverTo l) ≤ p0.N) ∧ outs.countP POut.calls ≤ 1 ∧ outs.countP POut.reports ≤ 1 := by
  have B := h.budget
  refine ⟨fun l => ?_, ?_, ?_⟩
  · have := B.recover l
    omega
  · rw [B.call]; split <;> omega
  · rw [B.report]; split <;> omega

end

/-! ## A case -/

open Toy in
/-- A finished refresh of three of four parties (C98): party 0 has reported success once and keeps its full share whatever comes. -/
example : ∃ (S : RefSetup Fr Fr) (n : ℕ) (net : RefNet Fr Fr), S.Holds (Pairing.dlog Fr) 7 bX 1 4 ∧ RefReach frCodec (Pairing.dlog Fr) S n net ∧ (net.st 0).finished = true ∧
    (net.outs 0).countP POut.reports = 1 ∧
    ∀ evs' outs' p' st', PRun frCodec (Pairing.dlog Fr) (S.tb 0) (net.party 0) (net.st 0) evs' outs' p' st' → p'.fullShare = (net.party 0).fullShare := by
  obtain ⟨S, hH, hM, -⟩ := exists_holds (Pairing.dlog Fr) 7 bX 1 4 le_rfl (by norm_num) le_rfl (by norm_num) (Finset.range 4) (fun i hi => Finset.mem_range.1 hi) (by decide) lineCoins
  obtain ⟨n, net, hR, h⟩ := C98_refuted frCodec (Pairing.dlog Fr) 7 bX 1 4 S hH hM
  obtain ⟨n', net', hR', hs, hset⟩ := C85_settles frCodec (Pairing.dlog Fr) 7 bX 1 4 S hH n net hR
  obtain ⟨-, -, -, h4⟩ := h net' hs
  have hf := ((h4 hset).2 0 (by norm_num)).2
  have hrun := hR'.inv.run 0 (by rw [hM]; decide)
  have hss := hrun.finished_sent hf
  refine ⟨S, n', net', hH, hR', hf, ?_, fun evs' outs' p' st' h' => ?_⟩
  · rw [hrun.budget.report, hss]; rfl
  · exact ((C101_refresh _ _ _ _ _ _ _ _ _ hrun).2.2.2 _ _ _ _ h').1 (hrun.success_sent.2 hss)

end DyCAPS
