import Verif.Props.Refresh
import Verif.Lemmas.ProactFull

/-!
# C29-C31: the refreshed sharing

`b` is the polynomial shared before the refresh, `q j` the polynomial contributed by `j`, `J` the contributions MVBA agreed on;
the new polynomial is `refreshed b q J`.
-/

set_option linter.unusedSectionVars false

namespace DyCAPS

open Polynomial

section
variable {G1 G2 GT : Type} [AddCommGroup G1] [Module Fr G1] [AddCommGroup G2] [Module Fr G2] [AddCommGroup GT] [Module Fr GT]
variable [DecidableEq G1] [DecidableEq GT]

/-! ### C29 -/

/-- **C29 (new full share).** In every run, whatever the other parties send: a party that completes ShareDist holds `B'(i,·)` for `B' = B + Σ_J Q_j`,
and `B'(0,0) = B(0,0)` — or the sender of some message knows a nonzero polynomial vanishing at the setup secret. -/
theorem C29_new_share (codec : PointCodec G1) (pp : Pairing Fr G1 G2 GT) (tb : Tbls) (t : Fr) (p0 p : Party G1 G2) (hp : p0.Setup pp t)
    (hF : 1 ≤ p0.F) (hN : 3 * p0.F + 1 ≤ p0.N) (hr : 2 * p0.F + 1 < frModulus) (hpid : p0.pid < p0.N) (b : ℕ → ℕ → Fr) (hb : KnowsComs pp t b p0)
    (c : DealerCoins) (q : ℕ → ℕ → ℕ → Fr) (rep : ℕ → CommitRep) (w : PEvent → Fr[X]) (J : List ℕ) (evs : List PEvent) (outs : List POut) (st : PState G1)
    (hrun : PRun codec pp tb p0 (PState.init p0 c) evs outs p st) (halg : RunAlg codec pp t p0 q rep w evs) (hJ : NamesJ J evs)
    (hdone : st.successSent = true) :
    (p.fullShare = sliceY (refreshed b q J) p0.F (2 * p0.F) ((p0.pid + 1 : ℕ) : Fr) ∧
      biVal (refreshed b q J) p0.F (2 * p0.F) 0 0 = biVal b p0.F (2 * p0.F) 0 0) ∨
    RunReveals t p0 b q J rep w evs := by
  rcases phyp_or_reveals (b := b) hp hF hN hr halg hJ with ⟨h, hz⟩ | h
  · left
    have hinv := PInv.run hp hN hr hb hpid hrun h
    refine ⟨hinv.full hdone, ?_⟩
    obtain ⟨Cs, hd⟩ := hrun.order.dist hdone
    have hrefr := hinv.refr
    rw [hd] at hrefr
    rw [biVal_refreshed]
    have : (J.map fun j => biVal (q j) p0.F (2 * p0.F) 0 0).sum = 0 := by
      apply List.sum_eq_zero
      intro x hx
      obtain ⟨j, hj, rfl⟩ := List.mem_map.1 hx
      obtain ⟨d, row, row', h1, h2⟩ := hrun.accepted j (hrefr.1 j hj)
      exact hz j d h1 row row' h2
    rw [this, add_zero]
  · exact Or.inr h

/-- **C29 (secret).** Any `F+1` parties with different ids that complete the refresh, each in its own run with its own network, reconstruct the secret
that was shared before. -/
theorem C29_reconstruct (codec : PointCodec G1) (pp : Pairing Fr G1 G2 GT) (tb : ℕ → Tbls) (t : Fr) (F N : ℕ) (hF : 1 ≤ F) (hN : 3 * F + 1 ≤ N)
    (hr : N < frModulus) (b : ℕ → ℕ → Fr) (q : ℕ → ℕ → ℕ → Fr) (rep : ℕ → CommitRep) (w : ℕ → PEvent → Fr[X]) (J : List ℕ)
    (P0 P : ℕ → Party G1 G2) (coins : ℕ → DealerCoins) (evs : ℕ → List PEvent) (outs : ℕ → List POut) (st : ℕ → PState G1)
    (hP : ∀ i < F + 1, (P0 i).Setup pp t ∧ (P0 i).F = F ∧ (P0 i).N = N ∧ (P0 i).pid < N ∧ KnowsComs pp t b (P0 i))
    (hids : ((List.range (F + 1)).map fun i => (P0 i).pid).Nodup)
    (hrun : ∀ i < F + 1, PRun codec pp (tb i) (P0 i) (PState.init (P0 i) (coins i)) (evs i) (outs i) (P i) (st i) ∧
      RunAlg codec pp t (P0 i) q rep (w i) (evs i) ∧ NamesJ J (evs i) ∧ (st i).successSent = true) :
    Reconstructs F (biVal b F (2 * F) 0 0) ((List.range (F + 1)).map P) ∨ ∃ i < F + 1, RunReveals t (P0 i) b q J rep (w i) (evs i) := by
  by_cases hrev : ∃ i < F + 1, RunReveals t (P0 i) b q J rep (w i) (evs i)
  · exact Or.inr hrev
  left
  push Not at hrev
  have key : ∀ i < F + 1, (P i).pid = (P0 i).pid ∧ (P i).fullShare = sliceY (refreshed b q J) F (2 * F) (((P i).pid + 1 : ℕ) : Fr) ∧
      biVal (refreshed b q J) F (2 * F) 0 0 = biVal b F (2 * F) 0 0 := by
    intro i hi
    obtain ⟨h1, h2, h3, h4, h5⟩ := hP i hi
    obtain ⟨g1, g2, g3, g4⟩ := hrun i hi
    have hpid : (P i).pid = (P0 i).pid := by rw [g1.static]
    rcases C29_new_share codec pp (tb i) t (P0 i) (P i) h1 (by omega) (by omega) (by omega) (by omega) b h5 (coins i) q rep (w i) J (evs i) (outs i) (st i)
      g1 g2 g3 g4 with ⟨k1, k2⟩ | h
    · rw [h2] at k1 k2
      exact ⟨hpid, by rw [hpid]; exact k1, k2⟩
    · exact absurd h (hrev i hi)
  rw [← (key 0 (by omega)).2.2]
  apply reconstructs_of_shares F _ _ (by simp)
  · rw [List.map_map]
    have : (List.range (F + 1)).map ((fun p : Party G1 G2 => p.pid) ∘ P) = (List.range (F + 1)).map fun i => (P0 i).pid := by
      apply List.map_congr_left
      intro i hi
      exact (key i (List.mem_range.1 hi)).1
    rw [this]; exact hids
  · intro p hp
    obtain ⟨i, hi, rfl⟩ := List.mem_map.1 hp
    rw [List.mem_range] at hi
    have := (hP i hi).2.2.2.1
    rw [(key i hi).1]; omega
  · intro p hp
    obtain ⟨i, hi, rfl⟩ := List.mem_map.1 hp
    exact (key i (List.mem_range.1 hi)).2.1

/-- Whenever Refresh processes a contribution it has been recovered. -/
def RefreshesRecovered (codec : PointCodec G1) (pp : Pairing Fr G1 G2 GT) (tb : Tbls) (p0 : Party G1 G2) (c : DealerCoins) (evs : List PEvent) : Prop :=
  ∀ e1 e2 outs p st, evs = e1 ++ PEvent.refresh :: e2 → PRun codec pp tb p0 (PState.init p0 c) e1 outs p st →
    ∀ j rest Q C, st.refresh = .looping (j :: rest) Q C → st.flgRec j = true

theorem sliceX_refreshed (b : ℕ → ℕ → Fr) (q : ℕ → ℕ → ℕ → Fr) (J : List ℕ) (F dy : ℕ) (y : Fr) (i : ℕ) (hi : i < F + 1) :
    (sliceX (refreshed b q J) F dy y).getD i 0 = (sliceX b F dy y).getD i 0 + (J.map fun j => (sliceX (q j) F dy y).getD i 0).sum := by
  rw [sliceX_getD _ _ _ _ _ hi, sliceX_getD _ _ _ _ _ hi]
  induction J with
  | nil => simp [refreshed]
  | cons a J ih =>
    have e1 : ∀ k, refreshed b q (a :: J) i k = refreshed b q J i k + q a i k := by
      intro k; simp [refreshed]; ring
    simp only [e1, add_mul, Finset.sum_add_distrib]
    rw [ih, List.map_cons, List.sum_cons, sliceX_getD _ _ _ _ _ hi]
    ring

theorem reduced_inv {codec : PointCodec G1} {pp : Pairing Fr G1 G2 GT} {tb : Tbls} {t : Fr} {p0 : Party G1 G2} (hp : p0.Setup pp t)
    (hN : 3 * p0.F + 1 ≤ p0.N) (hr : 2 * p0.F + 1 < frModulus) (hpid : p0.pid < p0.N) {b : ℕ → ℕ → Fr} (hb : KnowsComs pp t b p0)
    {q : ℕ → ℕ → ℕ → Fr} {J : List ℕ} {c : DealerCoins} (hred : p0.reducedShare = sliceX b p0.F (2 * p0.F) ((p0.pid + 1 : ℕ) : Fr))
    {evs : List PEvent} {outs : List POut} {p : Party G1 G2} {st : PState G1} (hrun : PRun codec pp tb p0 (PState.init p0 c) evs outs p st)
    (hyp : PHyp codec pp t p0 b q J evs) (hrec : RefreshesRecovered codec pp tb p0 c evs) :
    match st.refresh with
    | .waiting => p.reducedShare = p0.reducedShare
    | .looping rest Qsum _ => p.reducedShare = p0.reducedShare ∧ ∃ done, J = done ++ rest ∧ ∀ i < p0.F + 1,
        Qsum.getD i 0 = (done.map fun j => (sliceX (q j) p0.F (2 * p0.F) ((p0.pid + 1 : ℕ) : Fr)).getD i 0).sum
    | .done _ => p.reducedShare = sliceX (refreshed b q J) p0.F (2 * p0.F) ((p0.pid + 1 : ℕ) : Fr) := by
  induction hrun with
  | nil => rfl
  | snoc h hs ih =>
    rename_i evs1 outs1 p1 st1 ev p' st' out
    have hyp1 : PHyp codec pp t p0 b q J evs1 := hyp.mono fun e he => List.mem_append_left _ he
    have ih := ih hyp1 (fun e1 e2 outs p st he => hrec e1 (e2 ++ [ev]) outs p st (by rw [he]; simp))
    have hinv := PInv.run hp hN hr hb hpid h hyp1
    have eF : p1.F = p0.F := by rw [h.static]
    obtain ⟨hc, -, -⟩ := step_frame hs
    cases hc with
    | none h1 h2 h3 h4 h5 => rw [h1, h5]; exact ih
    | call h1 h2 h3 h4 h5 h6 => rw [h1, h6]; exact ih
    | ret h0 h1 h2 h3 h5 h6 =>
      rename_i r
      rw [h0]
      have hw := h.order.wait h1
      rw [hw] at ih
      refine ⟨h6.trans ih, [], by rw [List.nil_append]; exact (hyp.result r (by simp)).symm, fun i hi => ?_⟩
      rw [eF, List.getD_eq_getElem _ _ (by simpa using hi)]; simp
    | refresh h1 h2 h3 h5 =>
      have hfr := hrec evs1 [] outs1 p1 st1 rfl h
      unfold refreshStep at h1
      split at h1
      · cases h1
      · cases h1
      · rename_i Qsum Cs hst
        split at h1
        · cases h1
        · cases h1
          rw [hst] at ih
          obtain ⟨i1, done, i2, i3⟩ := ih
          rw [List.append_nil] at i2
          subst i2
          show addPoly p1.F Qsum p1.reducedShare ++ p1.reducedShare.drop (p1.F + 1) = _
          rw [i1, hred, eF, List.drop_of_length_le (by rw [sliceX_length]), List.append_nil]
          apply List.ext_getElem
          · rw [addPoly_length, sliceX_length]
          · intro i hi1 hi2
            rw [addPoly_length] at hi1
            have e1 := addPoly_getD p0.F Qsum (sliceX b p0.F (2 * p0.F) ((p0.pid + 1 : ℕ) : Fr)) i hi1
            have e2 := sliceX_refreshed b q J p0.F (2 * p0.F) ((p0.pid + 1 : ℕ) : Fr) i hi1
            rw [i3 i hi1] at e1
            have e3 := e1.trans ((add_comm _ _).trans e2.symm)
            rw [List.getD_eq_getElem _ _ (by rw [addPoly_length]; exact hi1), List.getD_eq_getElem _ _ hi2] at e3
            exact e3
      · rename_i j rest Qsum Cs hst
        have hjr := hfr j rest Qsum Cs hst
        have hQ := (hinv.recd j hjr).2
        have hfc := (hinv.recd j hjr).1
        rw [hst] at ih
        obtain ⟨i1, done, i2, i3⟩ := ih
        split at h1
        · cases h1
        · have h1 : st'.refresh = .looping rest (addPoly p1.F Qsum (st1.Q j)) (fun i => Cs i + st'.CQ j i) ∧ p' = p1 := by
            split at h1
            · cases hcp : commitToPoly p1.kzg (st1.Q j) with
              | error e => rw [hcp] at h1; cases h1
              | ok c => rw [hcp] at h1; cases h1; exact ⟨rfl, rfl⟩
            · cases h1
              exact ⟨rfl, rfl⟩
          rw [h1.1, h1.2]
          refine ⟨i1, done ++ [j], by rw [i2]; simp, fun i hi => ?_⟩
          rw [eF, addPoly_getD _ _ _ _ hi, i3 i hi, hQ, List.map_append, List.sum_append]
          simp

/-- **C29 (reduced share), and the part of C30 that holds.** If every contribution had been recovered when Refresh processed it, the new reduced share is
`B'(·,i)` for `B' = B + Σ_J Q_j` — or the sender of some message knows a nonzero polynomial vanishing at the setup secret. Missing for C30: the
code does not wait for the recovery, see `C30_unrecovered_used`. -/
theorem C30_reduced_share_partial (codec : PointCodec G1) (pp : Pairing Fr G1 G2 GT) (tb : Tbls) (t : Fr) (p0 p : Party G1 G2) (hp : p0.Setup pp t)
    (hF : 1 ≤ p0.F) (hN : 3 * p0.F + 1 ≤ p0.N) (hr : 2 * p0.F + 1 < frModulus) (hpid : p0.pid < p0.N) (b : ℕ → ℕ → Fr) (hb : KnowsComs pp t b p0)
    (hred : p0.reducedShare = sliceX b p0.F (2 * p0.F) ((p0.pid + 1 : ℕ) : Fr))
    (c : DealerCoins) (q : ℕ → ℕ → ℕ → Fr) (rep : ℕ → CommitRep) (w : PEvent → Fr[X]) (J : List ℕ) (evs : List PEvent) (outs : List POut) (st : PState G1)
    (hrun : PRun codec pp tb p0 (PState.init p0 c) evs outs p st) (halg : RunAlg codec pp t p0 q rep w evs) (hJ : NamesJ J evs)
    (hrec : RefreshesRecovered codec pp tb p0 c evs) (Cs : ℕ → G1) (hdone : st.refresh = .done Cs) :
    p.reducedShare = sliceX (refreshed b q J) p0.F (2 * p0.F) ((p0.pid + 1 : ℕ) : Fr) ∨ RunReveals t p0 b q J rep w evs := by
  rcases phyp_or_reveals (b := b) hp hF hN hr halg hJ with ⟨h, -⟩ | h
  · left
    have := reduced_inv hp hN hr hpid hb hred hrun h hrec
    rw [hdone] at this
    exact this
  · exact Or.inr h

/-- **C29 (ShareDist).** A party that has finished Refresh, has not yet started to collect shares and has at least `2F+1` receivers free accepts the NewCommit and ShareDist messages of any
`2F+1` parties holding their refreshed reduced shares, in any order of the senders, and then holds its new full share. -/
theorem C29_dist_completes (codec : PointCodec G1) (pp : Pairing Fr G1 G2 GT) (tb : Tbls) (t : Fr) (p0 p : Party G1 G2) (hp : p0.Setup pp t)
    (hF : 1 ≤ p0.F) (hN : 3 * p0.F + 1 ≤ p0.N) (hN' : p0.N < 2 ^ 32) (hpid : p0.pid < p0.N) (b : ℕ → ℕ → Fr) (hb : KnowsComs pp t b p0)
    (c : DealerCoins) (q : ℕ → ℕ → ℕ → Fr) (rep : ℕ → CommitRep) (w : PEvent → Fr[X]) (J : List ℕ) (evs : List PEvent) (outs : List POut) (st : PState G1)
    (hrun : PRun codec pp tb p0 (PState.init p0 c) evs outs p st) (halg : RunAlg codec pp t p0 q rep w evs) (hJ : NamesJ J evs)
    (Cs : ℕ → G1) (hdone : st.refresh = .done Cs) (hsb : st.SB = []) (hsent : st.successSent = false) (hnew : ∀ j, st.newComDone j = false) (hfree : 2 * p0.F + 1 ≤ st.dists)
    (js : List ℕ) (hnd : js.Nodup) (hlen : js.length = 2 * p0.F + 1) (hjs : ∀ j ∈ js, 1 ≤ j ∧ j ≤ p0.N)
    (H : ℕ → Party G1 G2) (hH : ∀ j ∈ js, (H j).Setup pp t ∧ (H j).F = p0.F ∧ (H j).reducedShare = sliceX (refreshed b q J) p0.F (2 * p0.F) (j : Fr)) :
    (∃ (nc : ℕ → Bytes) (sd : ℕ → PShareDist), (∀ j ∈ js, newCommitMsg codec (H j) = .ok (nc j) ∧ shareDistMsg codec (H j) (p0.pid + 1) = .ok (sd j)) ∧
      ∃ p' st', PRun codec pp tb p st (js.flatMap fun j => [.newCommit j (some (nc j)), .shareDist (UInt32.ofNat (j - 1)) (marshal (sd j))]) [.success] p' st' ∧
        st'.successSent = true ∧ p'.fullShare = sliceY (refreshed b q J) p0.F (2 * p0.F) ((p0.pid + 1 : ℕ) : Fr)) ∨
    RunReveals t p0 b q J rep w evs := by
  have hr : 2 * p0.F + 1 < frModulus := lt_trans (by omega : 2 * p0.F + 1 < 2 ^ 32) (by decide +kernel)
  rcases phyp_or_reveals (b := b) hp hF hN hr halg hJ with ⟨h, -⟩ | h
  swap
  · exact Or.inr h
  left
  have hinv := PInv.run hp hN hr hb hpid hrun h
  have hst := hrun.static
  have eF : p.F = p0.F := by rw [hst]
  have eN : p.N = p0.N := by rw [hst]
  have eP : p.pid = p0.pid := by rw [hst]
  have hp' : p.Setup pp t := by rw [hst]; exact ⟨hp.kzg, hp.table⟩
  have hrefr := hinv.refr
  rw [hdone] at hrefr
  have hold : ∀ j, 1 ≤ j → j ≤ p.N → ∃ C, oldCom p j = .ok C ∧ C + Cs j = polyVal (sliceX (refreshed b q J) p.F (2 * p.F) (j : Fr)) t • pp.g1 := by
    intro j j1 j2
    refine ⟨polyVal (sliceX b p0.F (2 * p0.F) (j : Fr)) t • pp.g1, ?_, ?_⟩
    · have e : oldCom p j = oldCom p0 j := by rw [hst]; rfl
      rw [e]; exact oldCom_ok hp hN hr hb j j1
    · rw [hrefr.2 j j1 (by omega), ← add_smul, eF, polyVal_sliceX, polyVal_sliceX, biVal_refreshed]
      simp only [polyVal_sliceX]
  obtain ⟨p', st', r, -, -, -, -, -, a7, -, a8⟩ := dist_run (codec := codec) (tb := tb) hp' (by omega) (by omega) (refreshed b q J) Cs hold st hdone hsb hsent js hnd
    (by omega) (by omega) (fun j hj => ⟨(hjs j hj).1, by have := (hjs j hj).2; omega, hnew j⟩)
  rw [if_pos (by omega)] at r a8
  rw [eF, eP] at r a8
  refine ⟨fun j => codec.enc (polyVal (sliceX (refreshed b q J) p0.F (2 * p0.F) (j : Fr)) t • pp.g1), fun j =>
    ⟨frTo32 (polyVal (sliceX (refreshed b q J) p0.F (2 * p0.F) (j : Fr)) ((p0.pid + 1 : ℕ) : Fr)), codec.enc (quotVal (sliceX (refreshed b q J) p0.F (2 * p0.F) (j : Fr)) ((p0.pid + 1 : ℕ) : Fr) t • pp.g1)⟩,
    fun j hj => ?_, p', st', r, by rw [a7]; exact decide_eq_true (by omega), by rw [a8]⟩
  obtain ⟨k1, k2, k3⟩ := hH j hj
  have hl : (H j).reducedShare.length = (H j).F + 1 := by rw [k3, sliceX_length, k2]
  rw [newCommitMsg_ok codec k1 hl, shareDistMsg_ok codec k1 hl, k3]
  exact ⟨rfl, rfl⟩

/-- Events in which every party follows the protocol: all Commit messages `D`, the Recover messages of parties `1..2F+1` for the resharers `ks`, and
the MVBA result `res`; then Refresh runs. -/
def refreshEvents (codec : PointCodec G1) (pp : Pairing Fr G1 G2 GT) (t : Fr) (F N i : ℕ) (q : ℕ → ℕ → ℕ → Fr) (D : ℕ → Bytes) (sg : ℕ → ℕ → Bytes)
    (ks : List ℕ) (res : Bytes) : List PEvent :=
  ((oneTo N).map fun j => .commit j (some (D j))) ++
    (ks.flatMap fun k => batchEvents codec pp t k (sliceX (q k) F (2 * F) (i : Fr)) (sg k) (2 * F + 1)) ++
    PEvent.mvba res :: List.replicate (F + 2) .refresh

/-- The events of ShareDist when the parties `js` distribute the polynomial `b'`, followed by `2F+1` Success messages. -/
def completeEvents (codec : PointCodec G1) (pp : Pairing Fr G1 G2 GT) (t : Fr) (F i : ℕ) (b' : ℕ → ℕ → Fr) (js : List ℕ) : List PEvent :=
  distEvents codec pp t i (fun j => sliceX b' F (2 * F) (j : Fr)) js ++ List.replicate (2 * F + 1) .success

theorem success_run {codec : PointCodec G1} {pp : Pairing Fr G1 G2 GT} {tb : Tbls} {p : Party G1 G2} (n : ℕ) (st : PState G1) (hs : st.successSent = true)
    (hf : st.finished = false) (hc : st.successCount = 0) (hn : n ≤ 2 * p.F + 1) :
    PRun codec pp tb p st (List.replicate n .success) [] p { st with successCount := n, finished := decide (n = 2 * p.F + 1) } := by
  induction n with
  | zero =>
    have : { st with successCount := 0, finished := decide (0 = 2 * p.F + 1) } = st := by
      have h0 : decide (0 = 2 * p.F + 1) = false := decide_eq_false (by omega)
      rw [h0, ← hc, ← hf]
    rw [this]
    exact PRun.nil
  | succ n ih =>
    have h1 := ih (by omega)
    rw [List.replicate_succ']
    refine PRun.snoc (out := []) h1 ?_
    simp only [proactStep]
    rw [if_pos ⟨hs, decide_eq_false (by omega)⟩]
    simp only [Option.some.injEq, Except.ok.injEq, Prod.mk.injEq, and_true, true_and]
    congr 1
    rw [decide_eq_decide]
    omega

theorem sliceX_determined {q q' : ℕ → ℕ → Fr} {F : ℕ} (hr : 2 * F + 1 < frModulus)
    (h : ∀ k, 1 ≤ k → k ≤ 2 * F + 1 → sliceX q' F (2 * F) (k : Fr) = sliceX q F (2 * F) (k : Fr)) (y : Fr) :
    sliceX q' F (2 * F) y = sliceX q F (2 * F) y := by
  apply list_ext_getD (d := 0) (by rw [sliceX_length, sliceX_length])
  intro i hi
  rw [sliceX_length] at hi
  have key : ∀ (u : ℕ → ℕ → Fr) (y : Fr), (sliceX u F (2 * F) y).getD i 0 = ∑ k ∈ Finset.range (2 * F + 1),
      lagrangeCoeff (firstIndices (2 * F + 1)) y (2 * F) k * (sliceX u F (2 * F) ((k + 1 : ℕ) : Fr)).getD i 0 := by
    intro u y
    have e : ∀ y, (sliceX u F (2 * F) y).getD i 0 = (polyOf ((List.range (2 * F + 1)).map (u i))).eval y := by
      intro y
      rw [sliceX_getD _ _ _ _ _ hi, polyOf, eval_finsetSum]
      simp only [List.length_map, List.length_range]
      apply Finset.sum_congr rfl
      intro j hj
      rw [Finset.mem_range] at hj
      rw [List.getD_eq_getElem _ _ (by simpa using hj)]
      simp
    have hsum := lagrangeCoeff_sum (firstIndices (2 * F + 1)) y (2 * F) (polyOf ((List.range (2 * F + 1)).map (u i)))
      (by have := degree_polyOf_lt ((List.range (2 * F + 1)).map (u i)); simpa using this) (distinct_firstIndices _ hr)
    rw [e, ← hsum]
    apply Finset.sum_congr rfl
    intro k hk
    rw [Finset.mem_range] at hk
    rw [firstIndices_getD _ _ hk, e]
  rw [key q', key q]
  apply Finset.sum_congr rfl
  intro k hk
  rw [Finset.mem_range] at hk
  rw [h (k + 1) (by omega) (by omega)]

/-- `C26_honest_accepted` for a given polynomial with the sender's slices. -/
theorem honest_commit_for (codec : PointCodec G1) (pp : Pairing Fr G1 G2 GT) (t : Fr) (p : Party G1 G2) (hp : p.Setup pp t)
    (hF : 1 ≤ p.F) (hF' : p.F ≤ 2 ^ 20) (hN : 3 * p.F + 1 ≤ p.N) (hr : 2 * p.F + 1 < frModulus) (c : DealerCoins) (q : ℕ → ℕ → Fr)
    (hq : ∀ k, 1 ≤ k → k ≤ 2 * p.F + 1 → sliceX q p.F (2 * p.F) (k : Fr) = ownQ p.F c k) (m : PCommit)
    (hm : commitMsg codec pp (newKZG pp t (p.F + 1)) p.F c = .ok m) :
    biVal q p.F (2 * p.F) 0 0 = 0 ∧ ∀ row, ∃ row', verifyCommit codec pp p row (unmarshalD (⟨[]⟩ : PCommit) (marshal m)) = .ok (row', true) ∧
      CommitsTo pp t p.F p.N q row' := by
  obtain ⟨m', q', h1, h2, h3, h4⟩ := C26_honest_accepted codec pp t p hp hF hF' hN hr c
  rw [hm] at h1
  have h1 := Except.ok.inj h1
  subst h1
  have hd : ∀ y, sliceX q p.F (2 * p.F) y = sliceX q' p.F (2 * p.F) y := sliceX_determined hr (fun k k1 k2 => by rw [hq k k1 k2, h3 k k1 k2])
  refine ⟨by rw [← polyVal_sliceX, hd, polyVal_sliceX, h2], fun row => ?_⟩
  obtain ⟨row', k1, k2⟩ := h4 row
  refine ⟨row', k1, fun k a1 a2 => ?_⟩
  rw [hd]
  exact k2 k a1 a2

/-- **C29 (honest run).** Suppose all parties follow the protocol: everybody's contribution is the sharing of zero with coins `coins j`, and the
MVBA result is the proposal for a set `J` of `F+1` resharers this party has recovered. `q j` is the polynomial of `j`. Then a run that delivers the Commit and Recover messages and
afterwards the NewCommit and ShareDist messages of any `2F+1` parties ends with all steps completed; the party then holds its full share and its reduced share
of one polynomial `B'` with `B'(0,0) = B(0,0)`, where `B' = B + Σ_J Q_j`. -/
theorem C29_honest_run (codec : PointCodec G1) (pp : Pairing Fr G1 G2 GT) (tb : Tbls) (t : Fr) (p : Party G1 G2) (hp : p.Setup pp t)
    (hF : 1 ≤ p.F) (hF' : p.F ≤ 2 ^ 20) (hN : 3 * p.F + 1 ≤ p.N) (hN' : p.N < 2 ^ 32) (hpid : p.pid < p.N) (b : ℕ → ℕ → Fr) (hb : KnowsComs pp t b p)
    (hred : p.reducedShare = sliceX b p.F (2 * p.F) ((p.pid + 1 : ℕ) : Fr)) (c : DealerCoins) (coins : ℕ → DealerCoins)
    (q : ℕ → ℕ → ℕ → Fr) (hq : ∀ j k, 1 ≤ k → k ≤ 2 * p.F + 1 → sliceX (q j) p.F (2 * p.F) (k : Fr) = ownQ p.F (coins j) k)
    (D : ℕ → PCommit) (hD : ∀ j, commitMsg codec pp (newKZG pp t (p.F + 1)) p.F (coins j) = .ok (D j))
    (sg : ℕ → ℕ → Bytes) (hsg : ∀ k i, (sg k i).length < 2 ^ 32) (hver : ∀ k i, 1 ≤ i → i ≤ 2 * p.F + 1 → tb.verifyPartial (decimalBytes k) (sg k i) = true)
    (hrec : ∀ m s a n r, tb.recover m s a n = some r → r.length < 2 ^ 32)
    (J : List ℕ) (hJ : J.Nodup) (hJl : J.length = p.F + 1) (hJ1 : ∀ k ∈ J, 1 ≤ k ∧ k ≤ p.N)
    (js : List ℕ) (hjs : js.Nodup) (hjl : js.length = 2 * p.F + 1) (hj1 : ∀ k ∈ js, 1 ≤ k ∧ k ≤ p.N) :
    ∃ (p' : Party G1 G2) (st : PState G1),
      PRun codec pp tb p (PState.init p c)
        (refreshEvents codec pp t p.F p.N (p.pid + 1) q (fun j => marshal (D j)) sg J (marshal (mvbaInput tb p.F p.N sg J)) ++
          completeEvents codec pp t p.F (p.pid + 1) (refreshed b q J) js) [.mvba (mvbaInput tb p.F p.N sg J), .success] p' st ∧
      st.successSent = true ∧ st.finished = true ∧
      biVal (refreshed b q J) p.F (2 * p.F) 0 0 = biVal b p.F (2 * p.F) 0 0 ∧
      p'.fullShare = sliceY (refreshed b q J) p.F (2 * p.F) ((p.pid + 1 : ℕ) : Fr) ∧
      p'.reducedShare = sliceX (refreshed b q J) p.F (2 * p.F) ((p.pid + 1 : ℕ) : Fr) := by
  have hr : 2 * p.F + 1 < frModulus := lt_trans (by omega : 2 * p.F + 1 < 2 ^ 32) (by decide +kernel)
  choose h2 h4 using fun j => honest_commit_for codec pp t p hp hF hF' hN hr (coins j) (q j) (hq j) (D j) (hD j)
  obtain ⟨rs, Cs, st, r1, a1, a2, a3, a4, a5, a6, a7, a8, a9, a10, a11⟩ := refresh_phase_run (codec := codec) (tb := tb) hp hF hF' hN hN' hpid
    (by rw [hred, sliceX_length]) c q (fun j => marshal (D j)) (fun j _ _ => h4 j) sg hsg hver hrec J J hJ hJl hJ1 hJl hJ1 sg
  set p1 : Party G1 G2 := { p with reducedShare := rs } with hp1
  have hp1' : p1.Setup pp t := ⟨hp.kzg, hp.table⟩
  have hold : ∀ j, 1 ≤ j → j ≤ p1.N → ∃ C, oldCom p1 j = .ok C ∧ C + Cs j = polyVal (sliceX (refreshed b q J) p1.F (2 * p1.F) (j : Fr)) t • pp.g1 := by
    intro j j1 j2
    refine ⟨polyVal (sliceX b p.F (2 * p.F) (j : Fr)) t • pp.g1, oldCom_ok hp hN hr hb j j1, ?_⟩
    rw [a4 j j1 j2, ← add_smul, polyVal_sliceX, polyVal_sliceX, biVal_refreshed]
    simp only [polyVal_sliceX]
    rfl
  obtain ⟨p', st', r2, -, -, -, b5, b6, b7, -, b8⟩ := dist_run (codec := codec) (tb := tb) hp1' hF hN' (refreshed b q J) Cs hold st a1 a6 a7 js hjs
    (le_of_eq hjl) (by rw [a11]; omega) (fun j hj => ⟨(hj1 j hj).1, (hj1 j hj).2, by rw [a5]⟩)
  have hjl' : js.length = 2 * p1.F + 1 := hjl
  rw [if_pos hjl'] at r2 b8
  have ep : p'.F = p.F := by rw [b8]
  have r3 := success_run (codec := codec) (pp := pp) (tb := tb) (p := p') (2 * p.F + 1) st' (by rw [b7]; exact decide_eq_true hjl') (b6.trans a9) (b5.trans a10) (by omega)
  refine ⟨p', { st' with successCount := 2 * p.F + 1, finished := decide (2 * p.F + 1 = 2 * p'.F + 1) }, ?_, by show st'.successSent = true; rw [b7]; exact decide_eq_true hjl', decide_eq_true (by rw [ep]), ?_, by rw [b8], ?_⟩
  · have := (r1.trans r2).trans r3
    rw [List.append_nil, List.append_assoc] at this
    exact this
  · rw [biVal_refreshed]
    have : (J.map fun j => biVal (q j) p.F (2 * p.F) 0 0).sum = 0 := by
      apply List.sum_eq_zero
      intro x hx
      obtain ⟨j, -, rfl⟩ := List.mem_map.1 hx
      exact h2 j
    rw [this, add_zero]
  · have : p'.reducedShare = rs := by rw [b8]
    rw [this]
    apply list_ext_getD (d := 0) (by rw [a2, sliceX_length])
    intro i hi
    rw [a2] at hi
    rw [a3 i hi, sliceX_refreshed _ _ _ _ _ _ _ hi, hred]
    congr 2
    apply List.map_congr_left
    intro j hj
    rw [if_pos hj]

/-! ### C30 -/

/-- **C30 fails.** Refresh waits for the Commit message of a contribution, not for its recovery. Suppose all parties follow the protocol, one of them proposes
`J = {2..F+2}` to MVBA because it recovered these contributions first, and this becomes the result; this party recovered `{1..F+1}` first (and is not
number `F+2`). Then Refresh uses the zero polynomial in place of contribution `F+2`: the party ends with a reduced share that is not its share of
`B + Σ_J Q_j`, whenever the contribution `Q_{F+2}(·,i)` is not zero. -/
theorem C30_unrecovered_used (codec : PointCodec G1) (pp : Pairing Fr G1 G2 GT) (tb : Tbls) (t : Fr) (p : Party G1 G2) (hp : p.Setup pp t)
    (hF : 1 ≤ p.F) (hF' : p.F ≤ 2 ^ 20) (hN : 3 * p.F + 1 ≤ p.N) (hN' : p.N < 2 ^ 32) (hpid : p.pid < p.N) (hi : p.pid ≠ p.F + 1) (b : ℕ → ℕ → Fr)
    (hred : p.reducedShare = sliceX b p.F (2 * p.F) ((p.pid + 1 : ℕ) : Fr)) (c : DealerCoins) (coins : ℕ → DealerCoins)
    (q : ℕ → ℕ → ℕ → Fr) (hq : ∀ j k, 1 ≤ k → k ≤ 2 * p.F + 1 → sliceX (q j) p.F (2 * p.F) (k : Fr) = ownQ p.F (coins j) k)
    (D : ℕ → PCommit) (hD : ∀ j, commitMsg codec pp (newKZG pp t (p.F + 1)) p.F (coins j) = .ok (D j))
    (sg : ℕ → ℕ → Bytes) (hsg : ∀ k i, (sg k i).length < 2 ^ 32) (hver : ∀ k i, 1 ≤ i → i ≤ 2 * p.F + 1 → tb.verifyPartial (decimalBytes k) (sg k i) = true)
    (hrec : ∀ m s a n r, tb.recover m s a n = some r → r.length < 2 ^ 32) :
      (∀ (o : Party G1 G2), o.Setup pp t → o.F = p.F → o.N = p.N → o.pid < o.N → o.reducedShare.length = o.F + 1 → ∀ co, ∃ o' st,
        PRun codec pp tb o (PState.init o co) (refreshEvents codec pp t p.F p.N (o.pid + 1) q (fun j => marshal (D j)) sg (List.range' 2 (p.F + 1))
          (marshal (mvbaInput tb p.F p.N sg (List.range' 2 (p.F + 1))))) [.mvba (mvbaInput tb p.F p.N sg (List.range' 2 (p.F + 1)))] o' st) ∧
      ∃ p' st Cs, PRun codec pp tb p (PState.init p c) (refreshEvents codec pp t p.F p.N (p.pid + 1) q (fun j => marshal (D j)) sg (List.range' 1 (p.F + 1))
          (marshal (mvbaInput tb p.F p.N sg (List.range' 2 (p.F + 1))))) [.mvba (mvbaInput tb p.F p.N sg (List.range' 1 (p.F + 1)))] p' st ∧
        st.refresh = .done Cs ∧ st.flgRec (p.F + 2) = false ∧
        (sliceX (q (p.F + 2)) p.F (2 * p.F) ((p.pid + 1 : ℕ) : Fr) ≠ List.replicate (p.F + 1) 0 →
          p'.reducedShare ≠ sliceX (refreshed b q (List.range' 2 (p.F + 1))) p.F (2 * p.F) ((p.pid + 1 : ℕ) : Fr)) := by
  have hr : 2 * p.F + 1 < frModulus := lt_trans (by omega : 2 * p.F + 1 < 2 ^ 32) (by decide +kernel)
  choose h2 h4 using fun j => honest_commit_for codec pp t p hp hF hF' hN hr (coins j) (q j) (hq j) (D j) (hD j)
  have hr1 : ∀ s, s = 1 ∨ s = 2 → ∀ k ∈ List.range' s (p.F + 1), 1 ≤ k ∧ k ≤ p.N := by
    intro s hs k hk
    rw [List.mem_range'_1] at hk
    omega
  refine ⟨?_, ?_⟩
  · intro o ho oF oN opid ol co
    choose g2 g4 using fun j => honest_commit_for codec pp t o ho (by omega) (by omega) (by omega) (by omega) (coins j) (q j) (by rw [oF]; exact hq j) (D j)
      (by rw [oF]; exact hD j)
    obtain ⟨rs, Cs, st, r1, -⟩ := refresh_phase_run (codec := codec) (tb := tb) (p := o) ho (by omega) (by omega) (by omega) (by omega) opid
      ol co q (fun j => marshal (D j)) (fun j _ _ => g4 j) sg hsg
      (by rw [oF]; exact hver) hrec (List.range' 2 (p.F + 1)) (List.range' 2 (p.F + 1)) List.nodup_range' (by simp [oF]) (by rw [oN]; exact hr1 2 (Or.inr rfl)) (by simp [oF]) (by rw [oN]; exact hr1 2 (Or.inr rfl)) sg
    rw [oF, oN] at r1
    unfold refreshEvents
    exact ⟨_, st, r1⟩
  · obtain ⟨rs, Cs, st, r1, a1, a2, a3, -, -, -, -, a8, -⟩ := refresh_phase_run (codec := codec) (tb := tb) hp hF hF' hN hN' hpid
      (by rw [hred, sliceX_length]) c q (fun j => marshal (D j)) (fun j _ _ => h4 j) sg hsg hver hrec (List.range' 1 (p.F + 1)) (List.range' 2 (p.F + 1))
      List.nodup_range' (by simp) (hr1 1 (Or.inl rfl)) (by simp) (hr1 2 (Or.inr rfl)) sg
    have hnot : p.F + 2 ∉ List.range' 1 (p.F + 1) := by rw [List.mem_range'_1]; omega
    refine ⟨_, st, Cs, by simpa only [refreshEvents, List.append_assoc] using r1, a1, ?_, ?_⟩
    · have := (a8 (p.F + 2)).not.2 hnot
      simpa using this
    intro hne heq
    apply hne
    apply list_ext_getD (d := 0) (by rw [sliceX_length]; simp)
    intro i hi
    rw [sliceX_length] at hi
    have e1 := a3 i hi
    have e2 : rs.getD i 0 = _ := (congrArg (fun l => List.getD l i 0) heq).trans (sliceX_refreshed _ _ _ _ _ _ _ hi)
    rw [e2, hred, List.range'_1_concat, List.map_append, List.map_append, List.sum_append, List.sum_append] at e1
    have e3 : (List.range' 2 p.F).map (fun j => (sliceX (q j) p.F (2 * p.F) ((p.pid + 1 : ℕ) : Fr)).getD i 0) =
        (List.range' 2 p.F).map (fun j => (if j ∈ List.range' 1 (p.F + 1) then sliceX (q j) p.F (2 * p.F) ((p.pid + 1 : ℕ) : Fr)
          else (PState.init p c).Q j).getD i 0) := by
      apply List.map_congr_left
      intro j hj
      rw [if_pos (by rw [List.mem_range'_1] at hj ⊢; omega)]
    rw [e3] at e1
    have e4 := add_left_cancel (add_left_cancel e1)
    simp only [List.map_cons, List.map_nil, List.sum_cons, List.sum_nil, add_zero] at e4
    rw [Nat.add_comm 2 p.F, if_neg hnot] at e4
    rw [e4]
    have : (PState.init p c).Q (p.F + 2) = List.replicate (p.F + 1) 0 := by
      simp only [PState.init]
      rw [if_neg (by omega)]
    rw [this]

/-! ### C31 -/

/-- What a member sends in its next hand-off: commitments and witnesses are those from before the refresh. A member that joined by hand-off
never had witnesses. -/
theorem rehandoff_msgs (codec : PointCodec G1) (pp : Pairing Fr G1 G2 GT) (t : Fr) (b : ℕ → ℕ → Fr) (p : Party G1 G2) (hp : p.Setup pp t)
    (hb : KnowsComs pp t b p) (hN : 3 * p.F + 1 ≤ p.N) (hr : 2 * p.F + 1 < frModulus) (hw : p.witness = List.replicate (2 * p.F + 1) 0)
    (hwi : p.witnessIndexes = List.replicate (2 * p.F + 1) 0) :
    shareReduceSend codec p = .ok ((oneTo p.N).map fun j : ℕ => marshal (⟨codec.enc (polyVal (sliceX b p.F (2 * p.F) (j : Fr)) t • pp.g1),
      frTo32 (polyVal p.fullShare (j : Fr)), codec.enc 0⟩ : PShareReduce)) := by
  have e1 : (List.range (2 * p.F + 1)).mapM (idx p.witnessIndexes) = .ok ((List.range (2 * p.F + 1)).map fun _ => (0 : Fr)) := by
    apply mapM_ok
    intro i hi
    rw [List.mem_range] at hi
    rw [hwi, idx_of_lt (by simpa using hi)]
    simp
  have hmsg : ∀ j : ℕ, shareReduceMsg codec p j = .ok ⟨codec.enc (polyVal (sliceX b p.F (2 * p.F) (j : Fr)) t • pp.g1),
      frTo32 (polyVal p.fullShare (j : Fr)), codec.enc 0⟩ := by
    intro j
    have k1 := C12_commitments pp t p.F p.N hN hr b p.table hp.table p.coms (coms_length p) (by
      intro k h1 h2
      rw [coms_getD p k h1 h2]; exact hb k h1 h2) j
    rw [commitToPoly_ok pp t _ _ (by rw [sliceX_length])] at k1
    have k2 : interpolateByKnownIndexes p.F p.table (2 * p.F) j p.witnessIndexes p.witness = .ok 0 := by
      unfold interpolateByKnownIndexes
      rw [isSimpleLoop_ok _ _ _ (by rw [hwi]; simp), Go.ok_bind, decide_eq_false (by
        intro h
        have := h 0 le_rfl (by omega)
        rw [hwi] at this
        simp at this), if_neg (by simp), getLagrangeCoefficients, if_neg (by rw [hwi]; simp), Go.ok_bind,
        linCombG1_ok _ _ (by rw [hw]; simp)]
      congr 1
      apply Finset.sum_eq_zero
      intro i hi
      have : p.witness.getD i 0 = 0 := by
        rw [hw, List.getD_replicate]
        simp
        simpa using hi
      rw [this, smul_zero]
    rw [shareReduceMsg, k1, Go.ok_bind, k2, Go.ok_bind, evalPolyAt_eq]
    rfl
  unfold shareReduceSend
  rw [e1, Go.ok_bind, if_pos (by
    rw [List.all_eq_true]
    intro x hx
    obtain ⟨i, -, rfl⟩ := List.mem_map.1 hx
    simp), mapM_ok _ _ _ (fun j _ => hmsg j), Go.ok_bind, List.map_map]
  rfl

theorem unmarshal_sr (codec : PointCodec G1) (C W : G1) (v : Fr) :
    unmarshalD (⟨[], [], []⟩ : PShareReduce) (marshal (⟨codec.enc C, frTo32 v, codec.enc W⟩ : PShareReduce)) = ⟨codec.enc C, frTo32 v, codec.enc W⟩ := by
  rw [unmarshalD, rt_PShareReduce _ (size_shareReduce codec _ _ _)]
  rfl

/-- **C31 fails.** Members that joined by hand-off (`proof` from Prepare, `reducedShare` from ShareReduce, the rest as `NewHonestParty` leaves it)
complete the refresh; then they run the next hand-off. ShareDist never updates the stored commitments and witnesses, so a member `n` of the committee after that
rejects the messages of all of them and waits forever — for any number of messages in any order — unless the new share `B'(i,n)` happens to equal
the old `B(t,n)` with `t` the setup secret. -/
theorem C31_rehandoff_stalls (codec : PointCodec G1) (pp : Pairing Fr G1 G2 GT) (tb : ℕ → Tbls) (t : Fr) (F N : ℕ) (hF : 1 ≤ F) (hN : 3 * F + 1 ≤ N)
    (hr : N < frModulus) (b b' : ℕ → ℕ → Fr) (P0 P : ℕ → Party G1 G2) (coins : ℕ → DealerCoins) (evs : ℕ → List PEvent) (outs : ℕ → List POut)
    (st : ℕ → PState G1)
    (hP : ∀ i < N, ∃ p0 pi rs, newParty pp t N F i = .ok p0 ∧ P0 i = { p0 with proof := pi, reducedShare := rs } ∧ KnowsComs pp t b (P0 i))
    (hrun : ∀ i < N, PRun codec pp (tb i) (P0 i) (PState.init (P0 i) (coins i)) (evs i) (outs i) (P i) (st i))
    (hfull : ∀ i < N, (st i).successSent = true ∧ (P i).fullShare = sliceY b' F (2 * F) ((i + 1 : ℕ) : Fr)) (n : Party G1 G2) (hn : n.Setup pp t) (hnF : n.F = F) (hnpid : n.pid < N)
    (hne : ∀ i < N, biVal b' F (2 * F) ((i + 1 : ℕ) : Fr) ((n.pid + 1 : ℕ) : Fr) ≠ biVal b F (2 * F) t ((n.pid + 1 : ℕ) : Fr)) :
    ∃ msgs : ℕ → List Bytes, (∀ i < N, shareReduceSend codec (P i) = .ok (msgs i) ∧ (msgs i).length = N) ∧
      ∀ ids : List ℕ, (∀ i ∈ ids, i < N) → shareReduceReceive codec pp n SRState.init (ids.map fun i => (UInt32.ofNat i, (msgs i).getD n.pid [])) = .ok none := by
  have key : ∀ i, ∃ ms, i < N → shareReduceSend codec (P i) = .ok ms ∧ ms.length = N ∧ ms.getD n.pid [] =
      marshal (⟨codec.enc (polyVal (sliceX b F (2 * F) ((n.pid + 1 : ℕ) : Fr)) t • pp.g1),
        frTo32 (biVal b' F (2 * F) ((i + 1 : ℕ) : Fr) ((n.pid + 1 : ℕ) : Fr)), codec.enc 0⟩ : PShareReduce) := by
    intro i
    by_cases hi : i < N
    swap
    · exact ⟨[], fun h => absurd h hi⟩
    obtain ⟨p0, pi, rs, h1, h2, h3⟩ := hP i hi
    have hs := (hrun i hi).static
    unfold newParty at h1
    cases ht : (lagrangeTable F N : Go (List (List Fr))) with
    | error e => rw [ht] at h1; cases h1
    | ok table =>
      rw [ht] at h1
      have h1 := (Except.ok.inj h1).symm
      subst h1
      have eF : (P i).F = F := by rw [hs, h2]
      have eN : (P i).N = N := by rw [hs, h2]
      have hset : (P i).Setup pp t := by
        refine ⟨?_, ?_⟩
        · rw [eF, hs, h2]
        · rw [eF, eN, ht, hs, h2]
      have hk : KnowsComs pp t b (P i) := by
        rw [hs]; exact h3
      refine ⟨_, fun _ => ⟨rehandoff_msgs codec pp t b (P i) hset hk (by omega) (by omega) (by rw [eF, hs, h2]) (by rw [eF, hs, h2]), by rw [eN]; simp [oneTo], ?_⟩⟩
      rw [oneTo_map_getD _ _ _ _ (by omega), eF, (hfull i hi).2, polyVal_sliceY]
  choose msgs hm using key
  refine ⟨msgs, fun i hi => ⟨(hm i hi).1, (hm i hi).2.1⟩, fun ids hids => ?_⟩
  have hgen : ∀ s : SRState, shareReduceReceive codec pp n s (ids.map fun i => (UInt32.ofNat i, (msgs i).getD n.pid [])) = .ok none := by
    induction ids with
    | nil => intro s; rfl
    | cons i ids ih =>
      intro s
      have hi : i < N := hids i (by simp)
      rw [List.map_cons, shareReduceReceive, shareReduceStep]
      simp only
      have hne' := hne i hi
      have hd := (hm i hi).2.2
      generalize biVal b' F (2 * F) ((i + 1 : ℕ) : Fr) ((n.pid + 1 : ℕ) : Fr) = u at hne' hd
      rw [hd, unmarshal_sr]
      obtain ⟨v, hv, hstep⟩ := srStep_ok codec pp t n hn (by omega) s (UInt32.ofNat i)
        ⟨codec.enc (polyVal (sliceX b F (2 * F) ((n.pid + 1 : ℕ) : Fr)) t • pp.g1), frTo32 u, codec.enc 0⟩ _ _ (codec.dec_enc _) (codec.dec_enc _)
      have hv' : v = u := by rw [hv, frFrom32_copy]
      rcases hstep with ⟨h, -⟩ | ⟨-, h⟩
      · exfalso
        rw [smul_zero, sub_eq_zero] at h
        have := smul_g1_inj pp h
        rw [polyVal_sliceX, hv'] at this
        exact hne' this.symm
      · rw [h]
        exact ih (fun k hk => hids k (by simp [hk])) _
  exact hgen _

end

end DyCAPS
