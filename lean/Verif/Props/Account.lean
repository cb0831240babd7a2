import Verif.Lemmas.Account
import Verif.Props.Final
import Verif.Props.Contribution

/-!
# What a refreshed share and a recovered contribution rest on: C110, C111
-/

set_option linter.unusedSectionVars false

namespace DyCAPS

section
variable {G1 G2 GT : Type} [AddCommGroup G1] [Module Fr G1] [AddCommGroup G2] [Module Fr G2] [AddCommGroup GT] [Module Fr GT]
variable [DecidableEq G1] [DecidableEq GT]
variable (codec : PointCodec G1) (pp : Pairing Fr G1 G2 GT) (tb : Tbls)

/-- `(j, v)` is a point a member may use: a ShareDist of sender `j` carried `v` and a witness `w`, a NewCommit of index `j` carried `old + Cs j`, and `w` opens that commitment to `v` at `pid + 1`. -/
def VerifiedPoint (t : Fr) (p : Party G1 G2) (Cs : ℕ → G1) (evs : List PEvent) (q : ℕ × Fr) : Prop :=
  1 ≤ q.1 ∧ q.1 ≤ p.N ∧ ∃ s d w old d', PEvent.shareDist s d ∈ evs ∧ (s + 1).toNat = q.1 ∧ q.2 = distValue d ∧ codec.decode! (unmarshalD (⟨[], []⟩ : PShareDist) d).wB = .ok w ∧
    PEvent.newCommit q.1 (some d') ∈ evs ∧ oldCom p q.1 = .ok old ∧ codec.decode! d' = .ok (old + Cs q.1) ∧
    (old + Cs q.1) - q.2 • pp.g1 = (t - ((p.pid + 1 : ℕ) : Fr)) • w

/-- **C110.** Whatever messages arrive in whatever order, a member that has reported success holds the polynomial through `2F+1` verified points of different senders. -/
theorem C110_verified (t : Fr) (p0 p : Party G1 G2) (hS : p0.Setup pp t) (hF : 1 ≤ p0.F) (c : DealerCoins) (st : PState G1) (evs : List PEvent) (outs : List POut)
    (h : PRun codec pp tb p0 (PState.init p0 c) evs outs p st) (hs : st.successSent = true) :
    ∃ (Cs : ℕ → G1) (pts : List (ℕ × Fr)), st.refresh = .done Cs ∧ pts.length = 2 * p0.F + 1 ∧ (pts.map Prod.fst).Nodup ∧ (∀ q ∈ pts, VerifiedPoint codec pp t p0 Cs evs q) ∧
      p.fullShare.length = 2 * p0.F + 1 ∧ ∀ q ∈ pts, polyVal p.fullShare ((q.1 : ℕ) : Fr) = q.2 := by
  have A := h.account
  obtain ⟨hl, hi⟩ := A.full hs
  set pts := st.SB.take (2 * p0.F + 1) with hpts
  have hlen : pts.length = 2 * p0.F + 1 := by rw [hpts, List.length_take]; omega
  obtain ⟨h1, h2, h3⟩ := interpolated_nodup (2 * p0.F) pts _ hlen hi
  have hsb : ∀ q ∈ pts, q ∈ st.SB := fun q hq => List.mem_of_mem_take hq
  have hdone : ∃ Cs, st.refresh = .done Cs := by
    have : pts[0]'(by omega) ∈ pts := List.getElem_mem _
    obtain ⟨s, d, w, C, -, -, -, -, hC, -⟩ := A.sb _ (hsb _ this)
    obtain ⟨-, -, Cs, -, -, hC', -⟩ := A.com _ _ hC
    exact ⟨Cs, hC'⟩
  obtain ⟨Cs, hCs⟩ := hdone
  refine ⟨Cs, pts, hCs, hlen, h1, ?_, h2, h3⟩
  · intro q hq
    obtain ⟨s, d, w, C, a1, a2, a3, a4, a5, a6⟩ := A.sb q (hsb q hq)
    obtain ⟨b1, b2, Cs', old, d', b3, b4, b5, b6, b7⟩ := A.com _ _ a5
    rw [hCs] at b3
    cases b3
    subst b5
    rw [hS.kzg, checkProofSingle_ok pp t (p0.F + 1) (by omega)] at a6
    exact ⟨b1, b2, s, d, w, old, d', a1, a2, a4, a3, b6, b4, b7, of_decide_eq_true (Except.ok.inj a6)⟩

/-- `(j, v)` is a point of contribution `k` a member may use: a Recover message of sender `j` about `k` carried `v`, a witness `w` and a valid signature share on `k`, an accepted Commit of `k` gave the commitment `row (pid+1)`, and `w` opens it to `v` at `j`. -/
def VerifiedRecovery (t : Fr) (p : Party G1 G2) (evs : List PEvent) (k : ℕ) (q : ℕ × Fr) : Prop :=
  ∃ s d w row d', PEvent.takeRecover s d ∈ evs ∧ (s + 1).toNat = q.1 ∧ (unmarshalD (⟨0, [], [], []⟩ : PRecover) d).index.toNat = k ∧
    q.2 = (frFrom32 0 (copy32 (unmarshalD (⟨0, [], [], []⟩ : PRecover) d).v)).1 ∧ codec.decode! (unmarshalD (⟨0, [], [], []⟩ : PRecover) d).w = .ok w ∧
    tb.verifyPartial (decimalBytes k) (unmarshalD (⟨0, [], [], []⟩ : PRecover) d).sigShare = true ∧
    PEvent.commit k (some d') ∈ evs ∧ verifyCommit codec pp p (fun _ => 0) (unmarshalD (⟨[]⟩ : PCommit) d') = .ok (row, true) ∧
    row (p.pid + 1) - q.2 • pp.g1 = (t - ((q.1 : ℕ) : Fr)) • w

/-- **C111.** Whatever messages arrive in whatever order, a contribution a member has recovered is the polynomial through `F+1` verified points of different senders. -/
theorem C111_recovered (t : Fr) (p0 p : Party G1 G2) (hS : p0.Setup pp t) (hF : 1 ≤ p0.F) (c : DealerCoins) (st : PState G1) (evs : List PEvent) (outs : List POut)
    (h : PRun codec pp tb p0 (PState.init p0 c) evs outs p st) (k : ℕ) (hk : st.flgRec k = true) :
    ∃ pts : List (ℕ × Fr), pts.length = p0.F + 1 ∧ (pts.map Prod.fst).Nodup ∧ (∀ q ∈ pts, VerifiedRecovery codec pp tb t p0 evs k q) ∧
      (st.Q k).length = p0.F + 1 ∧ ∀ q ∈ pts, polyVal (st.Q k) ((q.1 : ℕ) : Fr) = q.2 := by
  obtain ⟨hl, hv, hi⟩ := h.recSource.full k hk
  set pts := (st.SRec k).take (p0.F + 1) with hpts
  have hlen : pts.length = p0.F + 1 := by rw [hpts, List.length_take]; omega
  obtain ⟨h1, h2, h3⟩ := interpolated_nodup p0.F pts _ hlen hi
  refine ⟨pts, hlen, h1, fun q hq => ?_, h2, h3⟩
  obtain ⟨m, row, ⟨s, d, a1, a2⟩, ⟨d', a3, a4⟩, rfl, rfl, a5, a6⟩ := hv q hq
  rw [hS.kzg, checkProofSingle_ok pp t (p0.F + 1) (by omega)] at a5
  obtain ⟨w, b1, b2⟩ := decodeRecover_message a2
  subst b2
  exact ⟨s, d, w, row, d', a1, rfl, rfl, rfl, b1, a6, a3, a4, of_decide_eq_true (Except.ok.inj a5)⟩

/-- **C111.** A contribution that was not recovered is the member's own polynomial or zero. -/
theorem C111_otherwise (p0 p : Party G1 G2) (c : DealerCoins) (st : PState G1) (evs : List PEvent) (outs : List POut)
    (h : PRun codec pp tb p0 (PState.init p0 c) evs outs p st) (k : ℕ) (hk : st.flgRec k = false) :
    st.Q k = if k = p0.pid + 1 ∧ p0.pid + 1 ≤ 2 * p0.F + 1 then ownQ p0.F c k else List.replicate (p0.F + 1) 0 :=
  (h.recSource.wait k hk).1

/-- **C111.** A member proposes `F+1` different contributions to the agreement, each recovered from `F+1` verified points of different senders. -/
theorem C111_proposed (t : Fr) (p0 p : Party G1 G2) (hS : p0.Setup pp t) (hF : 1 ≤ p0.F) (hN : 2 * p0.F ≤ p0.N) (c : DealerCoins) (st : PState G1) (evs : List PEvent) (outs : List POut)
    (h : PRun codec pp tb p0 (PState.init p0 c) evs outs p st) (m : PMVBAIN) (hm : POut.mvba m ∈ outs) :
    m.j.length = p0.F + 1 ∧ (m.j.map (·.toNat)).Nodup ∧ ∀ j ∈ m.j, ∃ pts : List (ℕ × Fr), pts.length = p0.F + 1 ∧ (pts.map Prod.fst).Nodup ∧
      (∀ q ∈ pts, VerifiedRecovery codec pp tb t p0 evs j.toNat q) ∧ (st.Q j.toNat).length = p0.F + 1 ∧ ∀ q ∈ pts, polyVal (st.Q j.toNat) ((q.1 : ℕ) : Fr) = q.2 := by
  obtain ⟨h1, h2, h3⟩ := h.proposed.what m hm
  refine ⟨h1, h2, fun j hj => C111_recovered codec pp tb t p0 p hS hF c st evs outs h _ ?_⟩
  have hc := h.count hN
  have := h3 j hj
  rw [hc.comb, decide_eq_true_eq, hc.same] at this
  rw [hc.recd, decide_eq_true_eq]
  omega

end

/-! ## Cases -/

open Toy in
/-- Party 0 of a committee of four that finishes holds the polynomial through three verified points of different senders. -/
example : ∃ (S : RefSetup Fr Fr) (n : ℕ) (net : RefNet Fr Fr), S.Holds (Pairing.dlog Fr) 7 bX 1 4 ∧ RefReach frCodec (Pairing.dlog Fr) S n net ∧ (net.st 0).successSent = true ∧
    ∃ (Cs : ℕ → Fr) (pts : List (ℕ × Fr)), pts.length = 3 ∧ (pts.map Prod.fst).Nodup ∧ (∀ q ∈ pts, VerifiedPoint frCodec (Pairing.dlog Fr) 7 (S.start 0) Cs (net.evs 0) q) ∧
      (net.party 0).fullShare.length = 3 ∧ ∀ q ∈ pts, polyVal (net.party 0).fullShare ((q.1 : ℕ) : Fr) = q.2 := by
  obtain ⟨S, hH, hM, -⟩ := exists_holds (Pairing.dlog Fr) 7 bX 1 4 le_rfl (by norm_num) le_rfl (by norm_num) (Finset.range 4) (fun i hi => Finset.mem_range.1 hi) (by decide) lineCoins
  obtain ⟨n, net, hR, h⟩ := C98_refuted frCodec (Pairing.dlog Fr) 7 bX 1 4 S hH hM
  obtain ⟨n', net', hR', hs, hset⟩ := C85_settles frCodec (Pairing.dlog Fr) 7 bX 1 4 S hH n net hR
  obtain ⟨-, -, -, h4⟩ := h net' hs
  have hf := ((h4 hset).2 0 (by norm_num)).2
  have h0 : 0 ∈ S.members := by rw [hM]; decide
  have hrun := hR'.inv.run 0 h0
  have hss := hrun.finished_sent hf
  obtain ⟨e1, -, -⟩ := hH.size 0 h0
  obtain ⟨Cs, pts, -, k1, k2, k3, k4, k5⟩ := C110_verified frCodec (Pairing.dlog Fr) (S.tb 0) 7 _ _ (hH.setup 0 h0) (by rw [e1]) _ _ _ _ hrun hss
  rw [e1] at k1 k4
  exact ⟨S, n', net', hH, hR', hss, Cs, pts, k1, k2, k3, k4, k5⟩

open Toy in
/-- Four parties propose contributions 2 and 4, each recovered from two verified points. -/
example : ∃ (p0 p : Party Fr Fr) (st : PState Fr) (evs : List PEvent) (outs : List POut) (m : PMVBAIN), PRun frCodec (Pairing.dlog Fr) tb0 p0 (PState.init p0 (coinsX 1)) evs outs p st ∧
    POut.mvba m ∈ outs ∧ m.j = [2, 4] ∧ ∀ j ∈ m.j, ∃ pts : List (ℕ × Fr), pts.length = 2 ∧ (pts.map Prod.fst).Nodup ∧
      (∀ q ∈ pts, VerifiedRecovery frCodec (Pairing.dlog Fr) tb0 7 p0 evs j.toNat q) ∧ ∀ q ∈ pts, polyVal (st.Q j.toNat) ((q.1 : ℕ) : Fr) = q.2 := by
  obtain ⟨P, hP⟩ := holders_toy
  choose D hD using fun j => (⟨_, commitMsg_ok (codec := frCodec) (Pairing.dlog Fr) 7 1 (coinsX j)⟩ :
    ∃ m, commitMsg frCodec (Pairing.dlog Fr) (newKZG (Pairing.dlog Fr) 7 (1 + 1)) 1 (coinsX j) = .ok m)
  have hrec : ∀ m s a n r, tb0.recover m s a n = some r → r.length < 2 ^ 32 := by intro m s a n r h; cases h; norm_num
  obtain ⟨c1, c2, c3, c4, c5, c6, c7⟩ := hP 0
  have key := C29_honest_run frCodec (Pairing.dlog Fr) tb0 7 (P 0) c1 (by rw [c2]) (by rw [c2]; norm_num) (by rw [c2, c3]) (by rw [c3]; norm_num) (by rw [c4, c3]; norm_num) bX c5
    (by rw [c2, c4]; exact c6) (coinsX 1) coinsX qX (by rw [c2]; exact fun j k _ _ => qX_slices j k) D (by rw [c2]; exact hD) (fun _ _ => []) (by intro k i; norm_num) (fun _ _ _ _ => rfl)
    hrec [2, 4] (by decide) (by rw [c2]; rfl) (by rw [c3]; decide) [4, 1, 2] (by decide) (by rw [c2]; rfl) (by rw [c3]; decide)
  rw [c2, c3] at key
  obtain ⟨p', st, r, -⟩ := key
  have hm : POut.mvba (mvbaInput tb0 1 4 (fun _ _ => []) [2, 4]) ∈ [.mvba (mvbaInput tb0 1 4 (fun _ _ => []) [2, 4]), POut.success] := List.mem_cons_self ..
  obtain ⟨-, -, k⟩ := C111_proposed frCodec (Pairing.dlog Fr) tb0 7 _ _ c1 (by rw [c2]) (by rw [c2, c3]; norm_num) _ _ _ _ r _ hm
  rw [c2] at k
  refine ⟨_, _, _, _, _, _, r, hm, rfl, fun j hj => ?_⟩
  obtain ⟨pts, k1, k2, k3, -, k5⟩ := k j hj
  exact ⟨pts, k1, k2, k3, k5⟩

end DyCAPS
