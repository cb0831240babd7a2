import Verif.Lemmas.ProactAlg
import Verif.Lemmas.ProactEffect
import Verif.Lemmas.ProactHonest
import Verif.Lemmas.Vote

/-!
# C27-C31, C55, C56: Vote, Recover, Refresh and ShareDist

`b` is the polynomial shared before the refresh, `q j` the polynomial contributed by `j`, `J` the set of contributions MVBA agreed on.
-/

set_option linter.unusedSectionVars false

namespace DyCAPS

open Polynomial

section
variable {G1 G2 GT : Type} [AddCommGroup G1] [Module Fr G1] [AddCommGroup G2] [Module Fr G2] [AddCommGroup GT] [Module Fr GT]
variable [DecidableEq G1] [DecidableEq GT]

/-! ### C27 -/

/-- The pair number `k` of a Reshare message is an opening of `C` at `x`: the proof equation in the exponent. -/
def PairOpens (codec : PointCodec G1) (pp : Pairing Fr G1 G2 GT) (t : Fr) (C : G1) (x : Fr) (m : PReshare) (k : ℕ) : Prop :=
  ∃ vb wb w, m.Qk[k - 1]? = some vb ∧ m.wQk[k - 1]? = some wb ∧ codec.dec wb = some w ∧
    C - (frFrom32 0 (copy32 vb)).1 • pp.g1 = (t - x) • w

theorem idx_ok {α : Type} {l : List α} {i : ℕ} {a : α} (h : idx l i = .ok a) : l[i]? = some a := by
  unfold idx at h
  split at h
  · rename_i x hx; cases h; exact hx
  · cases h

theorem voteEntry_opens (codec : PointCodec G1) (pp : Pairing Fr G1 G2 GT) (t : Fr) (p : Party G1 G2) (hp : p.Setup pp t) (hF : 1 ≤ p.F)
    (CQ : ℕ → G1) (m : PReshare) (k : ℕ) (v : Fr) (w : G1) (h : voteEntry codec pp p CQ m k = .ok (v, w, true)) :
    PairOpens codec pp t (CQ k) ((p.pid + 1 : ℕ) : Fr) m k := by
  unfold voteEntry at h
  cases h1 : idx m.Qk (k - 1) with
  | error e => rw [h1] at h; cases h
  | ok vb =>
    cases h2 : idx m.wQk (k - 1) with
    | error e => rw [h1, h2] at h; cases h
    | ok wb =>
      rw [h1, h2, Go.ok_bind, Go.ok_bind] at h
      unfold PointCodec.decode! at h
      cases hd : codec.dec wb with
      | none => rw [hd] at h; cases h
      | some w' =>
        rw [hd] at h
        simp only [Go.ok_bind] at h
        rw [hp.kzg, checkProofSingle_ok pp t _ (by omega), Go.ok_bind] at h
        have h := Except.ok.inj h
        rw [Prod.mk.injEq, Prod.mk.injEq] at h
        exact ⟨vb, wb, w', idx_ok h1, idx_ok h2, hd, of_decide_eq_true h.2.2⟩

/-- **C27 (part).** Whatever a party does, it sends Recover messages in a step only when that step handles a Reshare message, of a resharer whose commitment was accepted
and with a valid opening as the last pair, number `2F+1`. Missing: the other `2F` pairs, see `C27_bad_pair_voted`. -/
theorem C27_last_pair_partial (codec : PointCodec G1) (pp : Pairing Fr G1 G2 GT) (t : Fr) (tb : Tbls) (p : Party G1 G2) (hp : p.Setup pp t)
    (hF : 1 ≤ p.F) (st st' : PState G1) (p' : Party G1 G2) (ev : PEvent) (out : List POut) (l : ℕ) (r : PRecover) (hout : POut.recover l r ∈ out)
    (h : proactStep codec pp tb p st ev = some (.ok (p', st', out))) :
    ∃ j data, ((∃ s, ev = .reshare s data ∧ j = (s + 1).toNat) ∨ (ev = .vote j data ∧ (j, data) ∈ st.voteWait)) ∧ st.flgCom j = true ∧
      PairOpens codec pp t (st.CQ j (2 * p.F + 1)) ((p.pid + 1 : ℕ) : Fr) (unmarshalD (⟨[], []⟩ : PReshare) data) (2 * p.F + 1) := by
  cases step_effect h with
  | reshare h1 h2 hv =>
    obtain ⟨v, w, e⟩ := vote_empty codec pp tb p _ _ _ _ hv (by rintro rfl; simp at hout)
    refine ⟨_, _, ?_, h2, voteEntry_opens codec pp t p hp hF _ _ _ v w e⟩
    cases h1 with
    | now => exact Or.inl ⟨_, rfl, rfl⟩
    | later a b => exact Or.inr ⟨rfl, a⟩
  | handleCall => simp at hout
  | distFull => simp at hout
  | _ => simp at hout

theorem reshareOf_get (codec : PointCodec G1) (F : ℕ) (v : ℕ → Fr) (w : ℕ → G1) (k : ℕ) (h1 : 1 ≤ k) (h2 : k ≤ 2 * F + 1) :
    (reshareOf codec F v w).Qk[k - 1]? = some (frTo32 (v k)) ∧ (reshareOf codec F v w).wQk[k - 1]? = some (codec.enc (w k)) := by
  have h3 : k - 1 < 2 * F + 1 := by omega
  constructor <;> simp [reshareOf, oneTo, h3, Nat.sub_add_cancel h1]

theorem pairOpens_of (codec : PointCodec G1) (pp : Pairing Fr G1 G2 GT) (t : Fr) (C : G1) (x : Fr) (F : ℕ) (v : ℕ → Fr) (w : ℕ → G1) (k : ℕ)
    (h1 : 1 ≤ k) (h2 : k ≤ 2 * F + 1) : PairOpens codec pp t C x (reshareOf codec F v w) k ↔ C - v k • pp.g1 = (t - x) • w k := by
  obtain ⟨e1, e2⟩ := reshareOf_get codec F v w k h1 h2
  constructor
  · rintro ⟨vb, wb, w', a1, a2, a3, a4⟩
    rw [e1] at a1
    rw [e2] at a2
    rw [← Option.some.inj a2, codec.dec_enc] at a3
    rw [← Option.some.inj a1, frFrom32_copy, ← Option.some.inj a3] at a4
    exact a4
  · intro h
    exact ⟨_, _, w k, e1, e2, codec.dec_enc _, by rwa [frFrom32_copy]⟩

theorem reshare_step (codec : PointCodec G1) (pp : Pairing Fr G1 G2 GT) (t : Fr) (tb : Tbls) (p : Party G1 G2) (hp : p.Setup pp t) (hF : 1 ≤ p.F)
    (hF' : p.F ≤ 2 ^ 20) (hN' : p.N < 2 ^ 32) (st : PState G1) (j : ℕ) (h1 : 1 ≤ j) (h2 : j ≤ p.N) (hfree : st.voters ≠ 0) (hcom : st.flgCom j = true) (v : ℕ → Fr) (w : ℕ → G1) :
    proactStep codec pp tb p st (.reshare (UInt32.ofNat (j - 1)) (marshal (reshareOf codec p.F v w))) =
      some (.ok (p, { st with voters := st.voters - 1 }, if st.CQ j (2 * p.F + 1) - v (2 * p.F + 1) • pp.g1 = (t - ((p.pid + 1 : ℕ) : Fr)) • w (2 * p.F + 1) then
        (oneTo p.N).map fun l => .recover l ⟨UInt32.ofNat j, frTo32 (voteVal p.F v l), codec.enc (voteWit p.F w l), tb.sign (decimalBytes j)⟩
      else [])) := by
  have hs := sender_index j h1 (by omega)
  simp only [proactStep]
  rw [hs, if_neg hfree, if_neg (by omega), if_pos hcom, unmarshalD, rt_PReshare _ (size_reshare codec p.F hF' v w)]
  simp only [Option.getD_some, vote_of codec pp t tb p hp hF]
  rfl

/-- The same when the message had to wait for the commitment. -/
theorem vote_step (codec : PointCodec G1) (pp : Pairing Fr G1 G2 GT) (t : Fr) (tb : Tbls) (p : Party G1 G2) (hp : p.Setup pp t) (hF : 1 ≤ p.F)
    (hF' : p.F ≤ 2 ^ 20) (st : PState G1) (j : ℕ) (v : ℕ → Fr) (w : ℕ → G1) (hw : (j, marshal (reshareOf codec p.F v w)) ∈ st.voteWait) (hcom : st.flgCom j = true)
    (htok : st.voteToken j = true) :
    proactStep codec pp tb p st (.vote j (marshal (reshareOf codec p.F v w))) =
      some (.ok (p, { st with voteWait := st.voteWait.erase (j, marshal (reshareOf codec p.F v w)), voteToken := upd st.voteToken j false },
        if st.CQ j (2 * p.F + 1) - v (2 * p.F + 1) • pp.g1 = (t - ((p.pid + 1 : ℕ) : Fr)) • w (2 * p.F + 1) then
        (oneTo p.N).map fun l => .recover l ⟨UInt32.ofNat j, frTo32 (voteVal p.F v l), codec.enc (voteWit p.F w l), tb.sign (decimalBytes j)⟩
      else [])) := by
  have hu : unmarshalD (⟨[], []⟩ : PReshare) (marshal (reshareOf codec p.F v w)) = reshareOf codec p.F v w := by
    rw [unmarshalD, rt_PReshare _ (size_reshare codec p.F hF' v w)]; rfl
  simp only [proactStep]
  rw [if_pos ⟨hw, hcom, htok⟩, hu, vote_of codec pp t tb p hp hF]
  rfl

/-- **C27 does not hold.** Whenever a resharer `j` has an accepted commitment and a receiver is free there is a Reshare message of `j` whose pairs `1..2F` are all
wrong — no pair but the last is an opening, whatever the commitments are — for which the party sends its signature share and a Recover message to
every party. -/
theorem C27_bad_pair_voted (codec : PointCodec G1) (pp : Pairing Fr G1 G2 GT) (t : Fr) (tb : Tbls) (p : Party G1 G2) (hp : p.Setup pp t)
    (hF : 1 ≤ p.F) (hF' : p.F ≤ 2 ^ 20) (hN : 3 * p.F + 1 ≤ p.N) (hN' : p.N < 2 ^ 32) (st : PState G1) (j : ℕ) (h1 : 1 ≤ j) (h2 : j ≤ p.N)
    (hcom : st.flgCom j = true) (hfree : st.voters ≠ 0) :
    ∃ (m : PReshare) (out : List POut), proactStep codec pp tb p st (.reshare (UInt32.ofNat (j - 1)) (marshal m)) = some (.ok (p, { st with voters := st.voters - 1 }, out)) ∧
      unmarshal PReshare (marshal m) = some m ∧
      (∀ k, 1 ≤ k → k ≤ 2 * p.F → ¬ PairOpens codec pp t (st.CQ j k) ((p.pid + 1 : ℕ) : Fr) m k) ∧
      ∀ l, 1 ≤ l → l ≤ p.N → ∃ r : PRecover, POut.recover l r ∈ out ∧ r.index = UInt32.ofNat j ∧ r.sigShare = tb.sign (decimalBytes j) := by
  choose d hd using fun k => pp.gen1 (st.CQ j k)
  have hm : unmarshal PReshare (marshal (reshareOf codec p.F (fun k => if k = 2 * p.F + 1 then d k else d k + 1) fun _ => 0)) = some _ :=
    rt_PReshare _ (size_reshare codec p.F hF' _ _)
  refine ⟨_, _, reshare_step codec pp t tb p hp hF hF' hN' st j h1 h2 hfree hcom (fun k => if k = 2 * p.F + 1 then d k else d k + 1) (fun _ => 0), hm, ?_, ?_⟩
  · intro k k1 k2
    rw [pairOpens_of _ _ _ _ _ _ _ _ _ k1 (by omega), if_neg (by omega), hd k, ← sub_smul, smul_zero]
    intro h
    have : d k - (d k + 1) = 0 := smul_g1_inj pp (by rw [h, zero_smul])
    simp at this
  · intro l l1 l2
    rw [if_pos]
    swap
    · rw [if_pos rfl, ← hd, sub_self, smul_zero]
    refine ⟨_, List.mem_map.2 ⟨l, mem_oneTo.2 ⟨l1, l2⟩, rfl⟩, rfl, rfl⟩

/-- **C27 (completeness).** A resharer that follows the protocol gets the vote of every party that accepted its commitment and has a receiver free, or whose receiver took the message
earlier and waited for the commitment; what is sent to each party `l` is the value `Q(i,l)` with a proof that opens the commitment to `Q(·,l)`. -/
theorem C27_honest_voted (codec : PointCodec G1) (pp : Pairing Fr G1 G2 GT) (t : Fr) (tb : Tbls) (p : Party G1 G2) (hp : p.Setup pp t)
    (hF : 1 ≤ p.F) (hF' : p.F ≤ 2 ^ 20) (hN : 3 * p.F + 1 ≤ p.N) (hN' : p.N < 2 ^ 32) (st : PState G1) (j : ℕ) (h1 : 1 ≤ j) (h2 : j ≤ p.N)
    (hcom : st.flgCom j = true) (c : DealerCoins) (q : ℕ → ℕ → Fr) (hq : ∀ k, 1 ≤ k → k ≤ 2 * p.F + 1 → sliceX q p.F (2 * p.F) (k : Fr) = ownQ p.F c k)
    (hrow : CommitsTo pp t p.F p.N q (st.CQ j)) :
    ∃ (m : PReshare) (out : List POut), reshareMsg codec (newKZG pp t (p.F + 1)) p.F c (p.pid + 1) = .ok m ∧
      (st.voters ≠ 0 → proactStep codec pp tb p st (.reshare (UInt32.ofNat (j - 1)) (marshal m)) = some (.ok (p, { st with voters := st.voters - 1 }, out))) ∧
      ((j, marshal m) ∈ st.voteWait → st.voteToken j = true → ∃ st', proactStep codec pp tb p st (.vote j (marshal m)) = some (.ok (p, st', out))) ∧
      ∀ l, 1 ≤ l → l ≤ p.N → ∃ W, POut.recover l ⟨UInt32.ofNat j, frTo32 (biVal q p.F (2 * p.F) ((p.pid + 1 : ℕ) : Fr) (l : Fr)), codec.enc W,
          tb.sign (decimalBytes j)⟩ ∈ out ∧
        computeProofSingle (newKZG pp t (p.F + 1)) (sliceX q p.F (2 * p.F) (l : Fr)) ((p.pid + 1 : ℕ) : Fr) = .ok W := by
  have hr : 2 * p.F + 1 < frModulus := lt_trans (by omega : 2 * p.F + 1 < 2 ^ 32) (by decide +kernel)
  have hm : reshareMsg codec (newKZG pp t (p.F + 1)) p.F c (p.pid + 1) = .ok (reshareOf codec p.F
      (fun k : ℕ => biVal q p.F (2 * p.F) ((p.pid + 1 : ℕ) : Fr) (k : Fr))
      (fun k : ℕ => quotVal (sliceX q p.F (2 * p.F) (k : Fr)) ((p.pid + 1 : ℕ) : Fr) t • pp.g1)) := by
    unfold reshareMsg
    rw [mapM_ok _ (fun k : ℕ => quotVal (sliceX q p.F (2 * p.F) (k : Fr)) ((p.pid + 1 : ℕ) : Fr) t • pp.g1)]
    · rw [Go.ok_bind]
      unfold reshareOf
      rw [List.map_map]
      refine congrArg Except.ok (congrArg₂ PReshare.mk (List.map_congr_left fun k hk => ?_) rfl)
      rw [mem_oneTo] at hk
      rw [evalPolyAt_eq, ← hq k hk.1 hk.2, polyVal_sliceX]
    · intro k hk
      rw [mem_oneTo] at hk
      rw [← hq k hk.1 hk.2, computeProofSingle_ok pp t _ _ _ (ne_nil_of_length (sliceX_length _ _ _ _)) (by rw [sliceX_length]; omega)]
  refine ⟨_, _, hm, fun hf => reshare_step codec pp t tb p hp hF hF' hN' st j h1 h2 hf hcom _ _,
    fun hw ht => ⟨_, vote_step codec pp t tb p hp hF hF' st j _ _ hw hcom ht⟩, ?_⟩
  intro l l1 l2
  rw [if_pos]
  swap
  · have := (commitsTo_iff _ _ _ _ _ _).1 hrow (2 * p.F + 1) (by omega) (by omega)
    rw [this, smul_smul, ← sub_smul, ← polyVal_sliceX, ← quotVal_mul, mul_comm]
  refine ⟨quotVal (sliceX q p.F (2 * p.F) (l : Fr)) ((p.pid + 1 : ℕ) : Fr) t • pp.g1, ?_, ?_⟩
  · refine List.mem_map.2 ⟨l, mem_oneTo.2 ⟨l1, l2⟩, ?_⟩
    rw [voteVal_poly p.F hr, voteWit_poly pp t p.F hr]
  · rw [computeProofSingle_ok pp t _ _ _ (ne_nil_of_length (sliceX_length _ _ _ _)) (by rw [sliceX_length]; omega)]

/-! ### C28 -/

theorem step_mvba {codec : PointCodec G1} {pp : Pairing Fr G1 G2 GT} {tb : Tbls} {p p' : Party G1 G2} {st st' : PState G1} {r : Bytes} {out : List POut}
    (hs : proactStep codec pp tb p st (.mvba r) = some (.ok (p', st', out))) : st.mvbaRunning = true ∧ st'.refresh ≠ .waiting := by
  simp only [proactStep] at hs
  split at hs
  · rename_i h
    cases hs
    exact ⟨h, by simp⟩
  · cases hs

theorem PhaseChange.not_waiting {p p' : Party G1 G2} {st st' : PState G1} {ev : PEvent} (hc : PhaseChange p st ev p' st') (h : st.refresh ≠ .waiting) :
    st'.refresh ≠ .waiting := by
  cases hc with
  | none h1 => rw [h1]; exact h
  | call h1 => rw [h1]; exact h
  | ret h0 => rw [h0]; simp
  | refresh h1 => exact (refreshStep_phase p p' st st' h1).2

/-- MVBA returns at most once in a run. -/
theorem PRun.names {codec : PointCodec G1} {pp : Pairing Fr G1 G2 GT} {tb : Tbls} {p0 p : Party G1 G2} {c : DealerCoins} {st : PState G1}
    {evs : List PEvent} {outs : List POut} (h : PRun codec pp tb p0 (PState.init p0 c) evs outs p st) :
    (∃ J, NamesJ J evs) ∧ ((∃ r, PEvent.mvba r ∈ evs) → st.refresh ≠ .waiting) := by
  induction h with
  | nil => exact ⟨⟨[], fun r hr => by simp at hr⟩, fun ⟨r, hr⟩ => by simp at hr⟩
  | snoc h hs ih =>
    obtain ⟨⟨J, hJ⟩, hw⟩ := ih
    have ho := h.order
    obtain ⟨hc, -, -⟩ := step_frame hs
    rename_i evs1 outs1 p1 st1 ev p' st' out
    by_cases hev : ∃ r, ev = .mvba r
    · obtain ⟨r, rfl⟩ := hev
      obtain ⟨h1, h2⟩ := step_mvba hs
      refine ⟨⟨(unmarshalD (⟨[], []⟩ : PMVBAIN) r).j.map (·.toNat), fun r' hr' => ?_⟩, fun _ => h2⟩
      rw [List.mem_append, List.mem_singleton] at hr'
      rcases hr' with hr' | hr'
      · exact absurd (ho.wait h1) (hw ⟨r', hr'⟩)
      · cases hr'; rfl
    · have hmem : ∀ r, PEvent.mvba r ∈ evs1 ++ [ev] → PEvent.mvba r ∈ evs1 := by
        intro r hr
        rw [List.mem_append, List.mem_singleton] at hr
        rcases hr with hr | hr
        · exact hr
        · exact absurd ⟨r, hr.symm⟩ hev
      exact ⟨⟨J, fun r hr => hJ r (hmem r hr)⟩, fun ⟨r, hr⟩ => hc.not_waiting (hw ⟨r, hmem r hr⟩)⟩

/-- **C28.** In every run: once a contribution `k` counts as recovered, the stored polynomial is `Q_k(·,i)` — or the sender of some message knows
a nonzero polynomial vanishing at the setup secret. It counts as recovered exactly when `F+1` Recover messages for it have been verified. -/
theorem C28_recovers (codec : PointCodec G1) (pp : Pairing Fr G1 G2 GT) (tb : Tbls) (t : Fr) (p0 p : Party G1 G2) (hp : p0.Setup pp t)
    (hF : 1 ≤ p0.F) (hN : 3 * p0.F + 1 ≤ p0.N) (hr : 2 * p0.F + 1 < frModulus) (hpid : p0.pid < p0.N) (b : ℕ → ℕ → Fr) (hb : KnowsComs pp t b p0)
    (c : DealerCoins) (q : ℕ → ℕ → ℕ → Fr) (rep : ℕ → CommitRep) (w : PEvent → Fr[X]) (J : List ℕ) (evs : List PEvent) (outs : List POut) (st : PState G1)
    (hrun : PRun codec pp tb p0 (PState.init p0 c) evs outs p st) (halg : RunAlg codec pp t p0 q rep w evs) (hJ : NamesJ J evs) (k : ℕ) :
    (st.flgRec k = true ↔ p0.F + 1 ≤ (st.SRec k).length) ∧
    (st.flgRec k = true → st.Q k = sliceX (q k) p0.F (2 * p0.F) ((p0.pid + 1 : ℕ) : Fr) ∨ RunReveals t p0 b q J rep w evs) := by
  refine ⟨by rw [(hrun.count (by omega)).recd k, decide_eq_true_eq], fun hk => ?_⟩
  rcases phyp_or_reveals (b := b) hp hF hN hr halg hJ with ⟨h, -⟩ | h
  · exact Or.inl ((PInv.run hp hN hr hb hpid hrun h).recd k hk).2
  · exact Or.inr h

/-- **C28 (progress).** A Recover handler that has taken a message from a sender it has not recorded yet always completes, and records the message
if its proof and signature share are valid. -/
theorem C28_handles (codec : PointCodec G1) (pp : Pairing Fr G1 G2 GT) (tb : Tbls) (t : Fr) (p0 p : Party G1 G2) (hp : p0.Setup pp t)
    (hF : 1 ≤ p0.F) (hN : 3 * p0.F + 1 ≤ p0.N) (c : DealerCoins) (evs : List PEvent) (outs : List POut) (st : PState G1)
    (hrun : PRun codec pp tb p0 (PState.init p0 c) evs outs p st) (k : ℕ) (m : RecoverMsg G1) (hheld : st.held k = some m) (hfree : st.mvbaRunning = false)
    (hnd : ((st.SRec k).map (·.1) ++ [m.x]).Nodup) (hx : ∀ z ∈ (st.SRec k).map (·.1) ++ [m.x], z < 2 ^ 32) :
    ∃ st' out, proactStep codec pp tb p st (.handleRecover k) = some (.ok (p, st', out)) ∧ st'.held k = none ∧
      (st.CQ k (p0.pid + 1) - m.v • pp.g1 = (t - ((m.x : ℕ) : Fr)) • m.w → tb.verifyPartial (decimalBytes k) m.sigShare = true →
        st'.SRec k = st.SRec k ++ [(m.x, m.v)] ∧ (p0.F ≤ (st.SRec k).length → st'.flgRec k = true)) := by
  have hst := hrun.static
  have eF : p.F = p0.F := by rw [hst]
  have eN : p.N = p0.N := by rw [hst]
  have eP : p.pid = p0.pid := by rw [hst]
  have hp' : p.Setup pp t := by rw [hst]; exact ⟨hp.kzg, hp.table⟩
  have hcnt := hrun.count (by omega)
  rw [← eF] at hcnt
  obtain ⟨st', out, hh⟩ := handleRecover_total (tb := tb) p hp' (by omega) st hcnt (by omega) k m (fun hl => by
    have hlen : (st.SRec k ++ [(m.x, m.v)]).length = p.F + 1 := by rw [List.length_append, List.length_singleton, hl]
    rw [List.take_of_length_le (by omega)]
    obtain ⟨res, e, -⟩ := lagrangeInterpolate_ok (K := Fr) p.F ((st.SRec k ++ [(m.x, m.v)]).map fun q => ((q.1 : ℕ) : Fr))
      ((st.SRec k ++ [(m.x, m.v)]).map (·.2)) (by rw [List.length_map, hlen]) (by rw [List.length_map, hlen]) (by
      have hmap : (st.SRec k).map (·.1) ++ [m.x] = (st.SRec k ++ [(m.x, m.v)]).map (·.1) := by simp
      rw [hmap] at hnd hx
      intro i hi j hj hne heq
      rw [List.getD_eq_getElem _ _ (by rw [List.length_map]; omega), List.getD_eq_getElem _ _ (by rw [List.length_map]; omega), List.getElem_map,
        List.getElem_map] at heq
      have hi' : i < ((st.SRec k ++ [(m.x, m.v)]).map (·.1)).length := by rw [List.length_map]; omega
      have hj' : j < ((st.SRec k ++ [(m.x, m.v)]).map (·.1)).length := by rw [List.length_map]; omega
      have b1 := hx _ (List.getElem_mem hi')
      have b2 := hx _ (List.getElem_mem hj')
      rw [List.getElem_map] at b1 b2
      have hM : (2:ℕ) ^ 32 < frModulus := by decide +kernel
      refine fr_natCast_ne (lt_trans b1 hM) (lt_trans b2 hM) (fun he => hne ?_) heq
      refine ((List.Nodup.getElem_inj_iff hnd (hi := hj') (hj := hi')).1 ?_)
      rw [List.getElem_map, List.getElem_map, he])
    exact ⟨res, e⟩)
  obtain ⟨-, -, -, -, -, -, -, -, -, e10, e11⟩ := handleRecover_effect p st st' out k m hh
  refine ⟨st', out, ?_, by rw [e10, upd_same], fun hopen hsig => ?_⟩
  · simp only [proactStep]
    rw [if_neg (by simp [hfree]), hheld]
    simp only [hh]
    rfl
  · have hck : checkProofSingle pp p.kzg (st.CQ k (p.pid + 1)) m.w ((m.x : ℕ) : Fr) m.v = .ok true := by
      rw [hp'.kzg, checkProofSingle_ok pp t _ (by omega), eP, decide_eq_true hopen]
    rcases e11 with ⟨-, -, a3, -⟩ | ⟨a1, -⟩
    · rw [a3, upd_same]
      refine ⟨rfl, fun hle => ?_⟩
      have := PCount.handle p st st' out k m hcnt (by omega) hh
      rw [this.recd k, a3, upd_same, decide_eq_true_eq, List.length_append, List.length_singleton]
      omega
    · exact absurd ⟨hck, hsig⟩ a1

/-! ### C56 -/

/-- **C56 does not hold.** When the honest messages of parties `1..F` for a resharer `k` have been handled, receiving the message of party 1
a second time makes the interpolation run on equal nodes, which ends the process. -/
theorem C56_recover_replay_fatal (codec : PointCodec G1) (pp : Pairing Fr G1 G2 GT) (tb : Tbls) (t : Fr) (p : Party G1 G2) (hp : p.Setup pp t)
    (hF : 1 ≤ p.F) (hN : 3 * p.F + 1 ≤ p.N) (hN' : p.N < 2 ^ 32) (st : PState G1) (k : ℕ) (h1 : 1 ≤ k) (h2 : k ≤ p.N) (hfresh : Fresh st k)
    (f : List Fr) (hf : f.length = p.F + 1) (hcq : st.CQ k (p.pid + 1) = polyVal f t • pp.g1) (sg : ℕ → Bytes) (hsg : ∀ i, (sg i).length < 2 ^ 32)
    (hver : ∀ i, 1 ≤ i → i ≤ 2 * p.F + 1 → tb.verifyPartial (decimalBytes k) (sg i) = true) :
    ∃ st', PRun codec pp tb p st (batchEvents codec pp t k f sg p.F ++ [PEvent.takeRecover 0 (recoverBytes codec k (polyVal f 1) (quotVal f 1 t • pp.g1) (sg 1)),
      .passRecover]) [] p st' ∧ proactStep codec pp tb p st' (.handleRecover k) = some (.error .fatal) := by
  have r1 := batch_run (codec := codec) hp hF hN hN' st k h1 h2 hfresh f hf hcq sg hsg hver p.F (by omega)
  have hdec := decodeRecover_of (codec := codec) p 0 k h2 hN' (polyVal f 1) (quotVal f 1 t • pp.g1) (sg 1) (hsg _)
  have hx1 : ((0 : UInt32) + 1).toNat = 1 := rfl
  rw [hx1] at hdec
  set st1 := batchState p.F st k f sg p.F with hst1
  have s1 : proactStep codec pp tb p st1 (.takeRecover 0 (recoverBytes codec k (polyVal f 1) (quotVal f 1 t • pp.g1) (sg 1))) =
      some (.ok (p, { st1 with slot := some ⟨1, k, polyVal f 1, quotVal f 1 t • pp.g1, sg 1⟩ }, [])) := by
    have : st1.slot = none := hfresh.slot
    simp only [proactStep, this, hdec]; rfl
  have s2 : proactStep codec pp tb p { st1 with slot := some ⟨1, k, polyVal f 1, quotVal f 1 t • pp.g1, sg 1⟩ } .passRecover =
      some (.ok (p, { st1 with slot := none, held := upd st1.held k (some ⟨1, k, polyVal f 1, quotVal f 1 t • pp.g1, sg 1⟩) }, [])) := by
    simp only [proactStep]
    rw [if_pos ⟨h1, h2, hfresh.com, hfresh.exited, by show (st.held k).isNone = true; rw [hfresh.held]; rfl⟩]
  refine ⟨_, (r1.trans (o2 := []) ((PRun.single s1).trans (o2 := []) (PRun.single s2))), ?_⟩
  have hrunning : st1.mvbaRunning = false := hfresh.running
  simp only [proactStep]
  rw [if_neg (by rw [hrunning]; simp)]
  simp only [upd_same, handleRecover]
  have hcq' : st1.CQ k (p.pid + 1) = polyVal f t • pp.g1 := hcq
  have hcheck := honest_check (pp := pp) (t := t) p hp hF f 1
  rw [hcq', Nat.cast_one, hcheck]
  simp only [Go.ok_bind, hver 1 le_rfl (by omega), Bool.true_and, if_true]
  have hrp : recordPoint p { st1 with slot := none, held := upd st1.held k (some ⟨1, k, polyVal f 1, quotVal f 1 t • pp.g1, sg 1⟩) } k
      ⟨1, k, polyVal f 1, quotVal f 1 t • pp.g1, sg 1⟩ = .error .fatal := by
    unfold recordPoint
    have hfr : st1.flgRec k = false := by
      rw [hst1]; simp only [batchState, if_neg (by omega : ¬ p.F + 1 ≤ p.F)]; exact hfresh.flgRec
    have hsr : st1.SRec k = honestPoints f p.F := by rw [hst1]; simp only [batchState, upd_same]
    simp only [hfr, hsr]
    have hlen : (honestPoints f p.F ++ [(1, polyVal f 1)]).length = p.F + 1 := by simp [honestPoints_length]
    rw [hlen, if_pos (by simp), if_neg (by omega), List.take_of_length_le (by omega), lagrangeInterpolate_fatal (K := Fr)]
    · rfl
    · rw [List.length_map, hlen]
    · rw [List.length_map, hlen]
    · refine ⟨0, by omega, p.F, le_rfl, by omega, ?_⟩
      rw [List.getD_eq_getElem _ _ (by rw [List.length_map, hlen]; omega), List.getD_eq_getElem _ _ (by rw [List.length_map, hlen]; omega), List.getElem_map,
        List.getElem_map, List.getElem_append_left (by rw [honestPoints_length]; omega), List.getElem_append_right (by rw [honestPoints_length])]
      simp [honestPoints, oneTo]
  rw [hrp]
  rfl

/-! ### C55 -/

/-- **C55 does not hold.** If the first Recover message a party receives carries index 0, its receiving goroutine blocks forever: in every continuation
no further Recover message is taken, MVBA is never called, Refresh never starts and the party never gets a full share. -/
theorem C55_index_zero_blocks (codec : PointCodec G1) (pp : Pairing Fr G1 G2 GT) (tb : Tbls) (p0 : Party G1 G2) (c : DealerCoins) (sender : UInt32)
    (v : Fr) (W : G1) (sg : Bytes) (hsg : sg.length < 2 ^ 32) (hN : p0.N < 2 ^ 32) :
    ∃ st1, PRun codec pp tb p0 (PState.init p0 c) [.takeRecover sender (recoverBytes codec 0 v W sg)] [] p0 st1 ∧
      ∀ evs outs p st, PRun codec pp tb p0 st1 evs outs p st →
        (∀ s d, proactStep codec pp tb p st (.takeRecover s d) = none) ∧ st.mvbaSent = false ∧ st.refresh = .waiting ∧ st.successSent = false ∧
        (∀ k, st.flgRec k = false) := by
  have hdec := decodeRecover_of (codec := codec) p0 sender 0 (by omega) hN v W sg hsg
  have s1 : proactStep codec pp tb p0 (PState.init p0 c) (.takeRecover sender (recoverBytes codec 0 v W sg)) =
      some (.ok (p0, { PState.init p0 c with slot := some ⟨(sender + 1).toNat, 0, v, W, sg⟩ }, [])) := by
    have : (PState.init p0 c).slot = none := rfl
    simp only [proactStep, this, hdec]; rfl
  refine ⟨_, PRun.single s1, fun evs outs p st hrun => ?_⟩
  have key : st.slot = some ⟨(sender + 1).toNat, 0, v, W, sg⟩ ∧ (∀ k, st.held k = none) ∧ st.mvbaSent = false ∧ st.mvbaRunning = false ∧
      st.refresh = .waiting ∧ st.successSent = false ∧ ∀ k, st.flgRec k = false := by
    induction hrun with
    | nil => exact ⟨rfl, fun _ => rfl, rfl, rfl, rfl, rfl, fun _ => rfl⟩
    | snoc h hs ih =>
      rename_i evs1 outs1 p1 st1 ev p' st' out
      obtain ⟨i1, i2, i3, i4, i5, i6, i7⟩ := ih
      have hne : ∀ k, ev ≠ .handleRecover k := by
        rintro k rfl
        simp only [proactStep, i4, i2 k] at hs
        cases hs
      obtain ⟨-, -, e3, -, -, e6⟩ := step_recover_frame hs hne
      have hsl : st'.slot = st1.slot ∧ st'.held = st1.held := by
        rcases e6 with h | ⟨s, d, rfl⟩ | rfl
        · exact h
        · simp only [proactStep, i1] at hs
          cases hs
        · simp only [proactStep, i1] at hs
          rw [if_neg (by simp)] at hs
          cases hs
      obtain ⟨hc, -, -⟩ := step_frame hs
      rw [e3, hsl.1, hsl.2]
      refine ⟨i1, i2, ?_⟩
      cases hc with
      | none h1 h2 h3 h4 h5 =>
        rw [h1, h2, h3]
        refine ⟨i3, i4, i5, ?_, i7⟩
        rcases h4 with h4 | ⟨Cs, h4⟩
        · rw [h4]; exact i6
        · rw [i5] at h4; cases h4
      | call h1 h2 h3 h4 h5 h6 =>
        exact absurd rfl (hne _)
      | ret h0 h1 => rw [i4] at h1; cases h1
      | refresh h1 =>
        obtain ⟨⟨_, _, _, h⟩, -⟩ := refreshStep_phase _ _ _ _ h1
        rw [i5] at h; cases h
  obtain ⟨i1, i2, i3, i4, i5, i6, i7⟩ := key
  exact ⟨fun s d => by simp only [proactStep, i1], i3, i5, i6, i7⟩

end

end DyCAPS
