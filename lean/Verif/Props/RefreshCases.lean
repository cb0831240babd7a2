import Verif.Props.Account

/-!
# Concrete cases for Refresh and ShareDist

The theorems of `Props/Refresh.lean` and `Props/ShareDist.lean` about all runs, applied to one run: four parties, one fault, setup secret 7, secret 42; MVBA chooses the contributions 2 and 4 and
the shares of parties 4, 1 and 2 arrive.
-/

namespace DyCAPS

open Polynomial Toy

/-- In this run contributions 2 and 4 are recovered as `Q_k(·,1)`, the party ends with its slices of the new polynomial, and the secret is still 42 (`C28_recovers`, `C29_new_share`). -/
example : ∃ (p0 p : Party Fr Fr) (st : PState Fr) (evs : List PEvent) (outs : List POut) (rep : ℕ → CommitRep) (w : PEvent → Fr[X]),
    p0.Setup (Pairing.dlog Fr) 7 ∧ PRun frCodec (Pairing.dlog Fr) tb0 p0 (PState.init p0 (coinsX 1)) evs outs p st ∧ RunAlg frCodec (Pairing.dlog Fr) 7 p0 qX rep w evs ∧ NamesJ [2, 4] evs ∧
    st.successSent = true ∧ (∀ k ∈ [2, 4], st.flgRec k = true ∧ st.Q k = sliceX (qX k) 1 2 1) ∧
    p.fullShare = sliceY (refreshed bX qX [2, 4]) 1 2 1 ∧ biVal (refreshed bX qX [2, 4]) 1 2 0 0 = 42 := by
  obtain ⟨P, hP⟩ := holders_toy
  choose D hD using fun j => (⟨_, commitMsg_ok (codec := frCodec) (Pairing.dlog Fr) 7 1 (coinsX j)⟩ :
    ∃ m, commitMsg frCodec (Pairing.dlog Fr) (newKZG (Pairing.dlog Fr) 7 (1 + 1)) 1 (coinsX j) = .ok m)
  have hrec : ∀ m s a n r, tb0.recover m s a n = some r → r.length < 2 ^ 32 := by intro m s a n r h; cases h; norm_num
  obtain ⟨c1, c2, c3, c4, c5, c6, c7⟩ := hP 0
  have hq : ∀ j k, 1 ≤ k → k ≤ 2 * (P 0).F + 1 → sliceX (qX j) (P 0).F (2 * (P 0).F) (k : Fr) = ownQ (P 0).F (coinsX j) k := by rw [c2]; exact fun j k _ _ => qX_slices j k
  have hD' : ∀ j, commitMsg frCodec (Pairing.dlog Fr) (newKZG (Pairing.dlog Fr) 7 ((P 0).F + 1)) (P 0).F (coinsX j) = .ok (D j) := by rw [c2]; exact hD
  obtain ⟨p', st, r, hs, -⟩ := C29_honest_run frCodec (Pairing.dlog Fr) tb0 7 (P 0) c1 (by rw [c2]) (by rw [c2]; norm_num) (by rw [c2, c3]) (by rw [c3]; norm_num) (by rw [c4, c3]; norm_num) bX c5
    (by rw [c2, c4]; exact c6) (coinsX 1) coinsX qX hq D hD' (fun _ _ => []) (by intro k i; norm_num) (fun _ _ _ _ => rfl)
    hrec [2, 4] (by decide) (by rw [c2]; rfl) (by rw [c3]; decide) [4, 1, 2] (by decide) (by rw [c2]; rfl) (by rw [c3]; decide)
  obtain ⟨halg, hJ, hnr⟩ := C29_honest_reveals_nothing frCodec (Pairing.dlog Fr) tb0 7 (P 0) (by rw [c2]; norm_num) (by rw [c2, c3]) (by rw [c3]; norm_num) bX coinsX qX hq D hD'
    (fun _ _ => []) (by intro k i; norm_num) hrec [2, 4] (by rw [c2]; rfl) (by rw [c3]; decide) [4, 1, 2] (by rw [c3]; decide) _ rfl
  have hr : 2 * (P 0).F + 1 < frModulus := by rw [c2]; decide +kernel
  obtain ⟨k1, k2⟩ := (C29_new_share frCodec (Pairing.dlog Fr) tb0 7 _ _ c1 (by rw [c2]) (by rw [c2, c3]) hr (by rw [c4, c3]; norm_num) bX c5 _ qX _ _ [2, 4] _ _ _ r halg hJ hs).resolve_right hnr
  have k3 := fun k h => ((C28_recovers frCodec (Pairing.dlog Fr) tb0 7 _ _ c1 (by rw [c2]) (by rw [c2, c3]) hr (by rw [c4, c3]; norm_num) bX c5 _ qX _ _ [2, 4] _ _ _ r halg hJ k).2 h).resolve_right hnr
  have hf : ∀ k ∈ [2, 4], st.flgRec k = true := by
    have hm : POut.mvba (mvbaInput tb0 (P 0).F (P 0).N (fun _ _ => []) [2, 4]) ∈ [.mvba (mvbaInput tb0 (P 0).F (P 0).N (fun _ _ => []) [2, 4]), POut.success] := List.mem_cons_self ..
    obtain ⟨-, -, h3⟩ := r.proposed.what _ hm
    have hc := r.count (by rw [c2, c3]; norm_num)
    have hu : ∀ j : UInt32, j ∈ (mvbaInput tb0 (P 0).F (P 0).N (fun _ _ => []) [2, 4]).j → st.flgRec j.toNat = true := by
      intro j hj
      have := h3 j hj
      rw [hc.comb, decide_eq_true_eq, hc.same] at this
      rw [hc.recd, decide_eq_true_eq]
      omega
    intro k hk
    rcases List.mem_cons.1 hk with rfl | hk
    · exact hu 2 (by show (2 : UInt32) ∈ [2, 4]; decide)
    · rw [List.mem_singleton.1 hk]
      exact hu 4 (by show (4 : UInt32) ∈ [2, 4]; decide)
  have e : biVal bX 1 (2 * 1) 0 0 = 42 := by simp [biVal, bX, Finset.sum_range_succ]
  simp only [c2, c4, e, Nat.zero_add, Nat.cast_one, Nat.mul_one] at k1 k2 k3
  exact ⟨P 0, p', st, _, _, _, _, c1, r, halg, hJ, hs, fun k hk => ⟨hf k hk, k3 k (hf k hk)⟩, k1, k2⟩

end DyCAPS
