import Verif.Props.Account
import Verif.Lemmas.Report

/-!
# When a member leaves the refresh: C113
-/

namespace DyCAPS

section
variable {G1 G2 GT : Type} [AddCommGroup G1] [Module Fr G1] [AddCommGroup G2] [Module Fr G2] [AddCommGroup GT] [Module Fr GT]
variable [DecidableEq G1] [DecidableEq GT]
variable (codec : PointCodec G1) (pp : Pairing Fr G1 G2 GT) (tb : Tbls)

/-- **C113, refuted.** As soon as a member has reported success itself, copies of one single Success message, from whichever sender, make it leave the refresh. -/
theorem C113_refuted (p0 p : Party G1 G2) (c : DealerCoins) (st : PState G1) (evs : List PEvent) (outs : List POut) (h : PRun codec pp tb p0 (PState.init p0 c) evs outs p st)
    (hs : POut.success ∈ outs) (id : Bytes) (sender : UInt32) (data : Bytes) :
    ∃ ev, PEvent.ofMessage ⟨"Success", id, sender, data⟩ = some ev ∧ ∃ k ≤ 2 * p0.F + 1, ∃ st', PRun codec pp tb p0 (PState.init p0 c) (evs ++ List.replicate k ev) outs p st' ∧ st'.finished = true := by
  refine ⟨.success, ofMessage_success rfl, ?_⟩
  have R := h.reports
  have hss : st.successSent = true := by
    have B := h.budget.report
    cases hss : st.successSent with
    | true => rfl
    | false =>
      rw [hss] at B
      exact absurd rfl (List.countP_eq_zero.1 B _ hs)
  cases hf : st.finished with
  | true => exact ⟨0, Nat.zero_le _, st, by rw [List.replicate_zero, List.append_nil]; exact h, hf⟩
  | false =>
    have hm := R.more hf
    obtain ⟨st', h1, h2⟩ := run_successes (2 * p0.F - st.successCount) h hss hf (by rw [R.F]; omega)
    exact ⟨_, by omega, st', h1, h2⟩

/-- **C113, what holds for every member.** A member that has left the refresh has its own new share reported and has taken at least `2F+1` Success messages. If these come from
different senders, of whom at most `F` are in `C`, then `F+1` or more come from senders outside `C`. -/
theorem C113_senders_partial (p0 p : Party G1 G2) (c : DealerCoins) (st : PState G1) (evs : List PEvent) (outs : List POut) (h : PRun codec pp tb p0 (PState.init p0 c) evs outs p st)
    (hf : st.finished = true) (ms : List PMessage) (hms : ∀ m ∈ ms, m.type = "Success") (htook : evs.filter PEvent.isSuccess = ms.filterMap PEvent.ofMessage) :
    POut.success ∈ outs ∧ 2 * p0.F + 1 ≤ ms.length ∧
      ∀ C : Finset UInt32, C.card ≤ p0.F → (ms.map PMessage.sender).Nodup → p0.F + 1 ≤ (ms.filter fun m => m.sender ∉ C).length := by
  have R := h.reports
  obtain ⟨h1, h2⟩ := R.finished hf
  have hlen : ms.length = st.successCount := by
    rw [R.count, List.countP_eq_length_filter, htook]
    have : ∀ m ∈ ms, PEvent.ofMessage m = some .success := fun m hm => ofMessage_success (hms m hm)
    rw [List.filterMap_congr this]
    simp
  refine ⟨?_, by omega, fun C hC hnd => ?_⟩
  · have B := h.budget.report
    rw [h2] at B
    obtain ⟨o, ho, ho'⟩ := List.countP_pos_iff.1 (show 0 < outs.countP POut.reports by rw [B]; exact Nat.one_pos)
    cases o with
    | success => exact ho
    | _ => cases ho'
  · have hsplit := List.length_eq_length_filter_add (l := ms) fun m => decide (m.sender ∈ C)
    have hin : (ms.filter fun m => decide (m.sender ∈ C)).length ≤ C.card := by
      have hnd' : ((ms.filter fun m => decide (m.sender ∈ C)).map PMessage.sender).Nodup := hnd.sublist (List.filter_sublist.map _)
      rw [← List.length_map (f := PMessage.sender), ← List.toFinset_card_of_nodup hnd']
      apply Finset.card_le_card
      intro s hs
      rw [List.mem_toFinset, List.mem_map] at hs
      obtain ⟨m, hm, rfl⟩ := hs
      exact of_decide_eq_true (List.mem_filter.1 hm).2
    have e : (ms.filter fun m => decide (m.sender ∉ C)) = ms.filter fun m => !decide (m.sender ∈ C) := by
      congr 1
      funext m
      rw [decide_not]
    rw [e]
    omega

/-- **C113, a committee without corrupt members.** When a member has left the refresh, `2F+1` or more members have reported, and each of these holds the polynomial through `2F+1` verified points. -/
theorem C113_committee_partial (t : Fr) (S : RefSetup G1 G2) (n : ℕ) (net : RefNet G1 G2) (hR : RefReach codec pp S n net) (hF : ∀ h ∈ S.members, 1 ≤ (S.start h).F) (hS : ∀ h ∈ S.members, (S.start h).Setup pp t)
    (i : ℕ) (hi : i ∈ S.members) (hf : (net.st i).finished = true) :
    ∃ A ⊆ S.members, 2 * (S.start i).F + 1 ≤ A.card ∧ ∀ h ∈ A, POut.success ∈ net.outs h ∧ ∃ (Cs : ℕ → G1) (pts : List (ℕ × Fr)), (net.st h).refresh = .done Cs ∧ pts.length = 2 * (S.start h).F + 1 ∧
      (pts.map Prod.fst).Nodup ∧ (∀ q ∈ pts, VerifiedPoint codec pp t (S.start h) Cs (net.evs h) q) ∧ (net.party h).fullShare.length = 2 * (S.start h).F + 1 ∧
      ∀ q ∈ pts, polyVal (net.party h).fullShare ((q.1 : ℕ) : Fr) = q.2 := by
  have R := (hR.inv.run i hi).reports
  have hle := hR.reported i hi
  rw [← R.count] at hle
  refine ⟨S.members.filter fun h => (net.outs h).any POut.isSuccess, Finset.filter_subset _ _, (R.finished hf).1.trans hle, fun h hh => ?_⟩
  obtain ⟨hm, ha⟩ := Finset.mem_filter.1 hh
  obtain ⟨o, ho, ho'⟩ := List.any_eq_true.1 ha
  have hout : POut.success ∈ net.outs h := by
    cases o with
    | success => exact ho
    | _ => cases ho'
  have hrun := hR.inv.run h hm
  have hss : (net.st h).successSent = true := by
    have B := hrun.budget.report
    cases hss : (net.st h).successSent with
    | true => rfl
    | false =>
      rw [hss] at B
      exact absurd rfl (List.countP_eq_zero.1 B _ hout)
  exact ⟨hout, C110_verified codec pp (S.tb h) t _ _ (hS h hm) (hF h hm) _ _ _ _ hrun hss⟩

end

/-! ## Cases -/

open Toy in
/-- Four parties: three copies of a Success message of party 4, which has nothing, and party 1 leaves the refresh. -/
example : ∃ (p0 p : Party Fr Fr) (st : PState Fr) (evs : List PEvent) (k : ℕ) (outs : List POut), k ≤ 3 ∧ PEvent.ofMessage ⟨"Success", [7], 3, []⟩ = some .success ∧
    PRun frCodec (Pairing.dlog Fr) tb0 p0 (PState.init p0 (coinsX 1)) (evs ++ List.replicate k .success) outs p st ∧ st.finished = true := by
  obtain ⟨P, hP⟩ := holders_toy
  choose D hD using fun j => (⟨_, commitMsg_ok (codec := frCodec) (Pairing.dlog Fr) 7 1 (coinsX j)⟩ :
    ∃ m, commitMsg frCodec (Pairing.dlog Fr) (newKZG (Pairing.dlog Fr) 7 (1 + 1)) 1 (coinsX j) = .ok m)
  have hrec : ∀ m s a n r, tb0.recover m s a n = some r → r.length < 2 ^ 32 := by intro m s a n r h; cases h; norm_num
  obtain ⟨c1, c2, c3, c4, c5, c6, c7⟩ := hP 0
  have key := C29_honest_run frCodec (Pairing.dlog Fr) tb0 7 (P 0) c1 (by rw [c2]) (by rw [c2]; norm_num) (by rw [c2, c3]) (by rw [c3]; norm_num) (by rw [c4, c3]; norm_num) bX c5
    (by rw [c2, c4]; exact c6) (coinsX 1) coinsX qX (by rw [c2]; exact fun j k _ _ => qX_slices j k) D (by rw [c2]; exact hD) (fun _ _ => []) (by intro k i; norm_num) (fun _ _ _ _ => rfl)
    hrec [2, 4] (by decide) (by rw [c2]; rfl) (by rw [c3]; decide) [4, 1, 2] (by decide) (by rw [c2]; rfl) (by rw [c3]; decide)
  rw [c2, c3] at key
  obtain ⟨p', st, r, -⟩ := key
  obtain ⟨ev, h1, k, hk, st', h2, h3⟩ := C113_refuted frCodec (Pairing.dlog Fr) tb0 _ _ _ _ _ _ r (List.mem_cons_of_mem _ (List.mem_cons_self ..)) [7] 3 []
  obtain rfl : PEvent.success = ev := Option.some.inj ((ofMessage_success rfl).symm.trans h1)
  rw [c2] at hk
  exact ⟨_, _, st', _, k, _, hk, h1, h2, h3⟩

open Toy in
/-- Four parties without faults: when party 1 has left the refresh, three members have reported. -/
example : ∃ (S : RefSetup Fr Fr) (n : ℕ) (net : RefNet Fr Fr), RefReach frCodec (Pairing.dlog Fr) S n net ∧ (net.st 0).finished = true ∧
    ∃ A ⊆ Finset.range 4, 3 ≤ A.card ∧ ∀ h ∈ A, POut.success ∈ net.outs h := by
  obtain ⟨S, hH, hM, -⟩ := exists_holds (Pairing.dlog Fr) 7 bX 1 4 le_rfl (by norm_num) le_rfl (by norm_num) (Finset.range 4) (fun i hi => Finset.mem_range.1 hi) (by decide) lineCoins
  obtain ⟨n, net, hR, h⟩ := C98_refuted frCodec (Pairing.dlog Fr) 7 bX 1 4 S hH hM
  obtain ⟨n', net', hR', hs, hset⟩ := C85_settles frCodec (Pairing.dlog Fr) 7 bX 1 4 S hH n net hR
  obtain ⟨-, -, -, h4⟩ := h net' hs
  have hf := ((h4 hset).2 0 (by norm_num)).2
  have h0 : 0 ∈ S.members := by rw [hM]; decide
  obtain ⟨A, k1, k2, k3⟩ := C113_committee_partial frCodec (Pairing.dlog Fr) 7 S n' net' hR' (fun h hh => by rw [(hH.size h hh).1]) (fun h hh => hH.setup h hh) 0 h0 hf
  rw [(hH.size 0 h0).1] at k2
  rw [hM] at k1
  exact ⟨S, n', net', hR', hf, A, k1, k2, fun h hh => (k3 h hh).1⟩

end DyCAPS
