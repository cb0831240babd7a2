import Verif.Lemmas.ProactFlood
import Verif.Props.RefreshLive

/-!
# C97, C98: goroutines of a refresh that wait for ever

`ProactivizeAndShareDist` starts one receiver per party for Reshare and one for ShareDist messages; each takes one message of any sender and may then have to wait. The Refresh loop decides once per
chosen resharer whether to wait for the recovery of its contribution.
-/

set_option linter.unusedSectionVars false

namespace DyCAPS

section
variable {G1 G2 GT : Type} [AddCommGroup G1] [Module Fr G1] [AddCommGroup G2] [Module Fr G2] [AddCommGroup GT] [Module Fr GT]
variable [DecidableEq G1] [DecidableEq GT]
variable {codec : PointCodec G1} {pp : Pairing Fr G1 G2 GT} {tb : Tbls} {p0 : Party G1 G2} {c : DealerCoins}

theorem reshare_flood (s : UInt32) (hs : (s + 1).toNat ≤ p0.N) (d : Bytes) (k : ℕ) (hk : k ≤ p0.N) :
    PRun codec pp tb p0 (PState.init p0 c) (List.replicate k (.reshare s d)) [] p0
      { PState.init p0 c with voters := p0.N - k, voteWait := List.replicate k ((s + 1).toNat, d) } := by
  induction k with
  | zero => exact PRun.nil
  | succ k ih =>
    rw [List.replicate_succ']
    refine (ih (by omega)).snoc (out := []) ?_
    simp only [proactStep]
    rw [if_neg (by omega), if_neg (by omega), if_neg (by simp [PState.init]), List.replicate_succ', Nat.sub_sub]

theorem dist_flood {p : Party G1 G2} {st : PState G1} {Cs : ℕ → G1} (hd : st.refresh = .done Cs) (s : UInt32) (hs : (s + 1).toNat ≤ p.N) (ht : st.token (s + 1).toNat = false) (d : Bytes)
    (k : ℕ) (hk : k ≤ st.dists) :
    PRun codec pp tb p st (List.replicate k (.shareDist s d)) [] p { st with dists := st.dists - k, distWait := st.distWait ++ List.replicate k ((s + 1).toNat, d) } := by
  induction k with
  | zero => rw [List.replicate_zero, List.replicate_zero, List.append_nil]; exact PRun.nil
  | succ k ih =>
    rw [List.replicate_succ']
    refine (ih (by omega)).snoc (out := []) ?_
    simp only [proactStep, hd]
    rw [if_neg (by omega), if_neg (by omega), if_neg (by rw [ht]; simp), List.replicate_succ', Nat.sub_sub, List.append_assoc]

theorem countP_replicate_append {α : Type} {P : α → Bool} {a : α} (ha : P a = true) (n : ℕ) (l : List α) : (List.replicate n a ++ l).countP P = n + l.countP P := by
  rw [List.countP_append, List.countP_replicate, if_pos ha]

/-- **C97, refuted for Reshare.** A party takes as many Reshare messages as there are parties, whoever sent them. If one sender is the first to send that many, the messages of all others are
never taken: the party never votes for another resharer. -/
theorem C97_reshare_refuted (codec : PointCodec G1) (pp : Pairing Fr G1 G2 GT) (tb : Tbls) (p0 : Party G1 G2) (c : DealerCoins) (s : UInt32) (hs : (s + 1).toNat ≤ p0.N) (d : Bytes) :
    (∃ st, PRun codec pp tb p0 (PState.init p0 c) (List.replicate p0.N (.reshare s d)) [] p0 st) ∧
    ∀ evs outs p st, PRun codec pp tb p0 (PState.init p0 c) (List.replicate p0.N (.reshare s d) ++ evs) outs p st →
      (∀ s' d', PEvent.reshare s' d' ∉ evs) ∧ ∀ l m, POut.recover l m ∈ outs → m.index = s + 1 := by
  refine ⟨⟨_, reshare_flood s hs d p0.N le_rfl⟩, fun evs outs p st hrun => ?_⟩
  have hq := hrun.queueInv.voters
  rw [countP_replicate_append rfl] at hq
  have hno : ∀ s' d', PEvent.reshare s' d' ∉ evs := by
    intro s' d' hm
    have : 0 < evs.countP PEvent.isReshare := List.countP_pos_iff.2 ⟨_, hm, rfl⟩
    omega
  refine ⟨hno, fun l m hm => ?_⟩
  obtain ⟨s', d', h1, h2⟩ := hrun.vote_src l m hm
  rw [List.mem_append] at h1
  rcases h1 with h1 | h1
  · have := List.eq_of_mem_replicate h1
    injection this with e
    rw [h2, e]
  · exact absurd h1 (hno s' d')

/-- **C97, refuted for ShareDist.** In the same way one sender can use up the receivers of ShareDist messages: if as many messages as there are parties come from a sender whose new commitment
has not arrived yet, the party never collects the shares of the others, never sends Success, never completes and never gets a new full share. -/
theorem C97_dist_refuted (codec : PointCodec G1) (pp : Pairing Fr G1 G2 GT) (tb : Tbls) (p0 : Party G1 G2) (c : DealerCoins) (hF : 1 ≤ p0.F) (evs : List PEvent) (outs : List POut)
    (p : Party G1 G2) (st : PState G1) (hrun : PRun codec pp tb p0 (PState.init p0 c) evs outs p st) (Cs : ℕ → G1) (hd : st.refresh = .done Cs)
    (hno : ∀ s' d', PEvent.shareDist s' d' ∉ evs) (s : UInt32) (hs : (s + 1).toNat ≤ p0.N) (hnew : st.newComDone (s + 1).toNat = false) (d : Bytes) :
    (∃ st', PRun codec pp tb p st (List.replicate p0.N (.shareDist s d)) [] p st') ∧
    ∀ evs' outs' p' st', PRun codec pp tb p st (List.replicate p0.N (.shareDist s d) ++ evs') outs' p' st' →
      (∀ s' d', PEvent.shareDist s' d' ∉ evs') ∧ POut.success ∉ outs ++ outs' ∧ st'.finished = false ∧ p'.fullShare = p0.fullShare := by
  have hpN : p.N = p0.N := by rw [hrun.static]
  have h0 : evs.countP PEvent.isDist = 0 := by
    rw [List.countP_eq_zero]
    intro e he hd
    cases e with
    | shareDist s' d' => exact hno s' d' he
    | _ => cases hd
  have hfree := hrun.queueInv.free
  rw [h0] at hfree
  constructor
  · refine ⟨_, dist_flood hd s (by rw [hpN]; exact hs) ?_ d p0.N (by omega)⟩
    cases ht : st.token (s + 1).toNat with
    | false => rfl
    | true => rw [(hrun.sbInv.tok _ ht).1] at hnew; cases hnew
  · intro evs' outs' p' st' hrun'
    have hall := hrun.trans hrun'
    have hq := hall.queueInv.free
    rw [List.countP_append, h0, countP_replicate_append rfl] at hq
    have hno' : ∀ s' d', PEvent.shareDist s' d' ∉ evs' := by
      intro s' d' hm
      have : 0 < evs'.countP PEvent.isDist := List.countP_pos_iff.2 ⟨_, hm, rfl⟩
      omega
    have hsb := hall.sbInv
    have hone : ∀ j ∈ st'.SB.map (·.1), j = (s + 1).toNat := by
      intro j hj
      obtain ⟨s', d', h1, h2⟩ := hsb.src j hj
      rw [List.mem_append, List.mem_append] at h1
      rcases h1 with h1 | h1 | h1
      · exact absurd h1 (hno s' d')
      · have := List.eq_of_mem_replicate h1
        injection this with e
        rw [h2, e]
      · exact absurd h1 (hno' s' d')
    have hlen : st'.SB.length ≤ 1 := by
      have hnd := hsb.nodup
      rw [← List.length_map (f := fun z : ℕ × Fr => z.1)]
      generalize st'.SB.map (fun z => z.1) = L at hone hnd ⊢
      match L with
      | [] => simp
      | [_] => simp
      | a :: e :: L =>
        exfalso
        rw [hone a (by simp), hone e (by simp)] at hnd
        simp at hnd
    have hns : st'.successSent = false := by
      cases h : st'.successSent with
      | false => rfl
      | true => have := hsb.len h; omega
    refine ⟨hno', fun hm => ?_, ?_, hsb.full hns⟩
    · rw [hsb.out hm] at hns; cases hns
    · cases h : st'.finished with
      | false => rfl
      | true => rw [hall.finished_sent h] at hns; cases hns

/-- **C97 (partial).** As long as the Reshare messages taken so far come from different parties, the message of a further party is taken. What is missing for the full claim is that a party takes
only one message of each sender; the code does not look at the sender. -/
theorem C97_reshare_partial (codec : PointCodec G1) (pp : Pairing Fr G1 G2 GT) (tb : Tbls) (p0 : Party G1 G2) (c : DealerCoins) (evs : List PEvent) (outs : List POut)
    (p : Party G1 G2) (st : PState G1) (hrun : PRun codec pp tb p0 (PState.init p0 c) evs outs p st)
    (hdiff : ∀ e1 e2 e3 s d d', evs ≠ e1 ++ PEvent.reshare s d :: e2 ++ PEvent.reshare s d' :: e3) (hlt : ∀ s d, PEvent.reshare s d ∈ evs → s.toNat < p0.N)
    (s : UInt32) (hs : s.toNat < p0.N) (hn : ∀ d, PEvent.reshare s d ∉ evs) (d : Bytes) : proactStep codec pp tb p st (.reshare s d) ≠ none := by
  have hkeys : (evs.filterMap PEvent.reshareKey).length < p0.N := by
    refine keys_lt (k := s.toNat) ?_ ?_ hs ?_
    · refine nodup_keys ?_
      intro e1 x e2 y e3 k he hx hy
      cases x <;> cases y <;> simp only [PEvent.reshareKey, reduceCtorEq, Option.some.injEq] at hx hy
      have := UInt32.toNat_inj.1 (hx.trans hy.symm)
      subst this
      exact hdiff e1 e2 e3 _ _ _ he
    · intro k hk
      obtain ⟨e, he, hke⟩ := List.mem_filterMap.1 hk
      cases e <;> simp only [PEvent.reshareKey, reduceCtorEq, Option.some.injEq] at hke
      rw [← hke]; exact hlt _ _ he
    · intro hk
      obtain ⟨e, he, hke⟩ := List.mem_filterMap.1 hk
      cases e <;> simp only [PEvent.reshareKey, reduceCtorEq, Option.some.injEq] at hke
      rw [UInt32.toNat_inj.1 hke] at he
      exact hn _ he
  rw [← countP_keys PEvent.reshareKey PEvent.isReshare (by intro e; cases e <;> rfl)] at hkeys
  have hq := hrun.queueInv.voters
  simp only [proactStep]
  rw [if_neg (by omega)]
  split
  · simp
  · split <;> simp

/-- **C97 (partial).** The same for ShareDist messages, once the party has computed its new share. -/
theorem C97_dist_partial (codec : PointCodec G1) (pp : Pairing Fr G1 G2 GT) (tb : Tbls) (p0 : Party G1 G2) (c : DealerCoins) (evs : List PEvent) (outs : List POut)
    (p : Party G1 G2) (st : PState G1) (hrun : PRun codec pp tb p0 (PState.init p0 c) evs outs p st) (Cs : ℕ → G1) (hd : st.refresh = .done Cs)
    (hdiff : ∀ e1 e2 e3 s d d', evs ≠ e1 ++ PEvent.shareDist s d :: e2 ++ PEvent.shareDist s d' :: e3) (hlt : ∀ s d, PEvent.shareDist s d ∈ evs → s.toNat < p0.N)
    (s : UInt32) (hs : s.toNat < p0.N) (hn : ∀ d, PEvent.shareDist s d ∉ evs) (d : Bytes) : proactStep codec pp tb p st (.shareDist s d) ≠ none := by
  have hkeys : (evs.filterMap PEvent.distKey).length < p0.N := by
    refine keys_lt (k := s.toNat) ?_ ?_ hs ?_
    · refine nodup_keys ?_
      intro e1 x e2 y e3 k he hx hy
      cases x <;> cases y <;> simp only [PEvent.distKey, reduceCtorEq, Option.some.injEq] at hx hy
      have := UInt32.toNat_inj.1 (hx.trans hy.symm)
      subst this
      exact hdiff e1 e2 e3 _ _ _ he
    · intro k hk
      obtain ⟨e, he, hke⟩ := List.mem_filterMap.1 hk
      cases e <;> simp only [PEvent.distKey, reduceCtorEq, Option.some.injEq] at hke
      rw [← hke]; exact hlt _ _ he
    · intro hk
      obtain ⟨e, he, hke⟩ := List.mem_filterMap.1 hk
      cases e <;> simp only [PEvent.distKey, reduceCtorEq, Option.some.injEq] at hke
      rw [UInt32.toNat_inj.1 hke] at he
      exact hn _ he
  rw [← countP_keys PEvent.distKey PEvent.isDist (by intro e; cases e <;> rfl)] at hkeys
  have hq := hrun.queueInv.free
  simp only [proactStep, hd]
  rw [if_neg (by omega)]
  split
  · simp
  · split <;> simp

/-- **C98, a wait without end.** Once the Refresh loop waits for the contribution of a resharer, it waits for ever: whatever arrives later, the party keeps its old shares, sends no Success message and
does not complete. -/
theorem C98_waits_forever (codec : PointCodec G1) (pp : Pairing Fr G1 G2 GT) (tb : Tbls) (p0 : Party G1 G2) (c : DealerCoins) (hF : 1 ≤ p0.F) (evs : List PEvent) (outs : List POut)
    (p : Party G1 G2) (st : PState G1) (hrun : PRun codec pp tb p0 (PState.init p0 c) evs outs p st) (hw : st.refreshWait = true)
    (evs' : List PEvent) (outs' : List POut) (p' : Party G1 G2) (st' : PState G1) (hrun' : PRun codec pp tb p st evs' outs' p' st') :
    p' = p ∧ POut.success ∉ outs' ∧ st'.finished = false ∧ ∀ Cs, st'.refresh ≠ .done Cs := by
  obtain ⟨h1, h2, h3, h4, h5⟩ := hrun.waiting hF hw hrun'
  refine ⟨h2, h3, h5, fun Cs hd => ?_⟩
  obtain ⟨j, rest, Qs, C', hb⟩ := (hrun.trans hrun').blockedAt hF h1
  rw [hb.at_] at hd; cases hd

/-- **C98, refuted.** All `N` parties take part and follow the protocol. There is an order of the messages in which the commitment of one chosen resharer reaches the last party only after MVBA has
returned. However the run goes on, this party keeps its old share and does not complete, although the commitment arrives in the end and all other parties complete. -/
theorem C98_refuted (codec : PointCodec G1) (pp : Pairing Fr G1 G2 GT) (t : Fr) (b : ℕ → ℕ → Fr) (F N : ℕ) (S : RefSetup G1 G2) (hH : S.Holds pp t b F N) (hall : S.members = Finset.range N) :
    ∃ n net, RefReach codec pp S n net ∧ ∀ net', Relation.ReflTransGen (RefNet.Step codec pp S) net net' →
      (net'.party (N - 1)).reducedShare = (S.start (N - 1)).reducedShare ∧ POut.success ∉ net'.outs (N - 1) ∧ (net'.st (N - 1)).finished = false ∧
      (net'.Settled codec pp S → (∀ j, 1 ≤ j → j ≤ N → (net'.st (N - 1)).flgCom j = true) ∧ ∀ i < N - 1, net'.Refreshed i ∧ (net'.st i).finished = true) := by
  obtain ⟨q, hq⟩ := hH.contributes
  have hF1 := hH.F1
  have hN1 := hH.N1
  have h00 : 0 ∈ S.members := by rw [hall]; exact Finset.mem_range.2 (by omega)
  have hlast : N - 1 ∈ S.members := by rw [hall]; exact Finset.mem_range.2 (by omega)
  have hmem : ∀ i, i < N → i ∈ S.members := fun i hi => by rw [hall]; exact Finset.mem_range.2 hi
  obtain ⟨n, net, v, hR, hv, hnet⟩ := RefReach.scripted_late codec hH hq hall (fun i => if i = N - 1 then oneTo (F + 1) else (N - 1) :: oneTo F) (fun i => if i = N - 1 then N - 2 else N) (by
    intro i
    by_cases hi : i = N - 1
    · simp only [if_pos hi]
      refine ⟨nodup_oneTo _, by simp [oneTo], fun k hk => ?_⟩
      rw [mem_oneTo] at hk
      omega
    · simp only [if_neg hi]
      refine ⟨List.nodup_cons.2 ⟨fun hm => ?_, nodup_oneTo _⟩, by simp [oneTo], fun k hk => ?_⟩
      · rw [mem_oneTo] at hm; omega
      · rw [List.mem_cons, mem_oneTo] at hk
        omega) 0 h00 (fun i => by split <;> omega) (by
    intro i hi
    by_cases hi' : i = N - 1
    · refine ⟨by omega, N - 1, oneTo F, if_neg (by omega), ?_⟩
      rw [if_pos hi']; omega
    · rw [if_neg hi'] at hi; exact absurd rfl hi)
  rw [if_neg (by omega)] at hv
  refine ⟨n, net, hR, fun net' hs => ?_⟩
  obtain ⟨⟨n', hR'⟩, h1, h2, h3⟩ := hR.later hs
  have hw := (hnet (N - 1) hlast).2.2.1 (by rw [if_pos rfl]; omega)
  obtain ⟨w1, w2⟩ := hR.waits hH hlast hw hs
  have hI := hR'.inv
  have hwait := (hI.run _ hlast).waiting (hH.seat hlast).F1 w1 PRun.nil
  have hno : POut.success ∉ net'.outs (N - 1) := fun hm => by
    have := (hI.run _ hlast).sbInv.out hm
    rw [hwait.2.2.2.1] at this; cases this
  have hold : (net'.party (N - 1)).reducedShare = (S.start (N - 1)).reducedShare := by
    rcases (hI.run _ hlast).redInv with h | ⟨Cs, hd⟩
    · exact h
    · exact absurd ⟨Cs, hd⟩ (wait_unrefreshed hH hI hlast w1)
  refine ⟨hold, hno, hwait.2.2.2.2, fun hset => ⟨fun j j1 j2 => ?_, ?_⟩⟩
  · have := settled_com hH hq hI hset hlast (hmem (j - 1) (by omega))
    rwa [Nat.sub_add_cancel j1] at this
  · have hA : Finset.range (N - 1) ⊆ S.members := fun i hi => hmem i (by have := Finset.mem_range.1 hi; omega)
    have := (C85_completes_partial codec pp t b F N S hH q hq n' net' hR' hset v ⟨0, h00, h2 0 _ (hnet 0 h00).1⟩ (Finset.range (N - 1)) hA (by rw [Finset.card_range]; omega) (by
      intro i hi m hm j hj
      rw [Finset.mem_range] at hi
      obtain ⟨-, ⟨m', hm', e⟩, -⟩ := hnet i (hmem i (by omega))
      rw [((hI.run i (hmem i (by omega))).one_call (hH.seat (hmem i (by omega))) (hH.gives hq (hmem i (by omega))) (hI.env1 hH (hmem i (by omega)))).2 m m' hm (h3 i _ hm'), e, if_neg (by omega)]
      rw [← hv]; exact hj)).1
    exact fun i hi => this i (hmem i (by omega)) (Or.inl (Finset.mem_range.2 hi))

/-- **C98 (partial).** A party that has accepted the commitments of all chosen resharers when MVBA returns never waits in the Refresh loop: the loop can go on until it is through. What is missing
for the full claim are the parties that get a commitment later. -/
theorem C98_in_time_partial (codec : PointCodec G1) (pp : Pairing Fr G1 G2 GT) (tb : Tbls) (p0 : Party G1 G2) (c : DealerCoins) (hF : 1 ≤ p0.F) (evs : List PEvent) (outs : List POut)
    (p : Party G1 G2) (st : PState G1) (hrun : PRun codec pp tb p0 (PState.init p0 c) evs outs p st) (v : Bytes) (hcom : ∀ j ∈ agreedIds v, st.flgCom j = true)
    (evs' : List PEvent) (outs' : List POut) (p' : Party G1 G2) (st' : PState G1) (hrun' : PRun codec pp tb p st (.mvba v :: evs') outs' p' st') :
    (∃ Cs, st'.refresh = .done Cs) ∨ proactStep codec pp tb p' st' .refresh ≠ none := by
  obtain ⟨p1, st1, o1, o2, h1, h2, -⟩ := hrun'.uncons
  have hc : HasComs st1 := by
    cases step_effect h1 with
    | mvba h =>
      have hwt := hrun.order.wait h
      refine ⟨?_, by simp, fun L Qs Cs e j hj => ?_⟩
      · show st.refreshWait = false
        cases hw : st.refreshWait with
        | false => rfl
        | true =>
          obtain ⟨j, rest, Qs, Cs, hb⟩ := hrun.blockedAt hF hw
          rw [hb.at_] at hwt; cases hwt
      · injection e with e1
        subst e1
        exact hcom j hj
    | reshare h => rcases h.ev with ⟨s, he, -⟩ | ⟨he, -⟩ <;> cases he
    | distBad h => rcases h.ev with ⟨s, he, -⟩ | ⟨he, -⟩ <;> cases he
    | distOk h => rcases h.ev with ⟨s, he, -⟩ | ⟨he, -⟩ <;> cases he
    | distFull h => rcases h.ev with ⟨s, he, -⟩ | ⟨he, -⟩ <;> cases he
  have := HasComs.run (hrun.snoc h1) hc h2
  cases hr : st'.refresh with
  | waiting => exact absurd hr this.started
  | done Cs => exact Or.inl ⟨Cs, rfl⟩
  | looping L Qs Cs =>
    right
    simp only [proactStep, refreshStep, hr]
    cases L with
    | nil =>
      simp only
      by_cases h : p'.reducedShare.length < p'.F + 1
      · rw [if_pos h]; simp
      · rw [if_neg h]; simp
    | cons j L =>
      simp only
      by_cases h : p'.N < j
      · rw [if_pos h]; simp
      · rw [if_neg h, if_neg (by rw [this.wait]; simp), if_pos (this.coms _ _ _ hr j List.mem_cons_self)]; simp

/-! ### Concrete cases -/

/-- Four parties, and the first four Reshare messages that party 0 takes come from party 2. Party 0 then votes for nobody but party 2 (index 3), and the message of party 1 stays unread. -/
example : ∃ p : Party Fr Fr, p.N = 4 ∧ p.F = 1 ∧ p.pid = 0 ∧ ∀ evs outs p' st, PRun frCodec (Pairing.dlog Fr) ⟨fun _ => [], fun _ _ => true, fun _ _ _ _ => some []⟩ p
    (PState.init p (lineCoins 0)) (List.replicate 4 (.reshare 2 [7]) ++ evs) outs p' st → (∀ d, PEvent.reshare 1 d ∉ evs) ∧ ∀ l m, POut.recover l m ∈ outs → m.index = 3 := by
  obtain ⟨p, -, -, e3, e4, e5⟩ := newParty_setup (Pairing.dlog Fr) 7 4 1 0
  refine ⟨p, e3, e4, e5, fun evs outs p' st hrun => ?_⟩
  have := (C97_reshare_refuted frCodec (Pairing.dlog Fr) ⟨fun _ => [], fun _ _ => true, fun _ _ _ _ => some []⟩ p (lineCoins 0) 2 (by rw [e3]; decide) [7]).2
  rw [e3] at this
  obtain ⟨h1, h2⟩ := this evs outs p' st hrun
  exact ⟨fun d => h1 1 d, h2⟩

/-- Party 0 of four has refreshed. If four ShareDist messages of party 2 come next, party 0 never completes. -/
example : ∃ (S : RefSetup Fr Fr) (n : ℕ) (net : RefNet Fr Fr), S.Holds (Pairing.dlog Fr) 7 bX 1 4 ∧ RefReach frCodec (Pairing.dlog Fr) S n net ∧
    (∃ st, PRun frCodec (Pairing.dlog Fr) (S.tb 0) (net.party 0) (net.st 0) (List.replicate 4 (.shareDist 2 [])) [] (net.party 0) st) ∧
    ∀ evs outs p st, PRun frCodec (Pairing.dlog Fr) (S.tb 0) (net.party 0) (net.st 0) (List.replicate 4 (.shareDist 2 []) ++ evs) outs p st → POut.success ∉ outs ∧ st.finished = false := by
  obtain ⟨S, hH, hM, hc⟩ := exists_holds (Pairing.dlog Fr) 7 bX 1 4 le_rfl (by norm_num) le_rfl (by norm_num) (Finset.range 4) (fun i hi => Finset.mem_range.1 hi) (by decide) lineCoins
  have hq : S.Contributes 1 lineQ := fun h k _ _ => by rw [hc]; exact lineQ_slices 1 (h + 1) k
  have h0 : 0 ∈ S.members := by rw [hM]; decide
  obtain ⟨n, net, v, hR, hv, hnet⟩ := RefReach.scripted_late frCodec hH hq hM (fun _ => [2, 4]) (fun _ => 4) (fun _ => ⟨by decide, rfl, by decide⟩) 0 h0 (fun _ => le_rfl) (fun i h => absurd rfl h)
  obtain ⟨e1, e2, e3⟩ := hH.size 0 h0
  obtain ⟨d1, d2, ⟨Cs, d3⟩, -⟩ := (hnet 0 h0).2.2.2 rfl
  have hrun := hR.inv.run 0 h0
  have hfree := hrun.queueInv.free
  rw [e2, d2] at hfree
  have := C97_dist_refuted frCodec (Pairing.dlog Fr) (S.tb 0) (S.start 0) (S.coins 0) (by rw [e1]) _ _ _ _ hrun Cs d3 (fun s d hm => by
    have : 0 < (net.evs 0).countP PEvent.isDist := List.countP_pos_iff.2 ⟨_, hm, rfl⟩
    omega) 2 (by rw [e2]; decide) (by rw [d1]) []
  rw [e2] at this
  refine ⟨S, n, net, hH, hR, this.1, fun evs outs p st hr => ?_⟩
  obtain ⟨-, h2, h3, -⟩ := this.2 evs outs p st hr
  exact ⟨fun hm => h2 (List.mem_append_right _ hm), h3⟩

/-- Three different parties have sent Reshare messages; the message of the fourth is taken. -/
example : ∃ p : Party Fr Fr, p.N = 4 ∧ ∃ st, PRun frCodec (Pairing.dlog Fr) ⟨fun _ => [], fun _ _ => true, fun _ _ _ _ => some []⟩ p (PState.init p (lineCoins 0))
    [.reshare 0 [1], .reshare 2 [2], .reshare 3 [3]] [] p st ∧ proactStep frCodec (Pairing.dlog Fr) ⟨fun _ => [], fun _ _ => true, fun _ _ _ _ => some []⟩ p st (.reshare 1 [4]) ≠ none := by
  obtain ⟨p, -, -, e3, e4, e5⟩ := newParty_setup (Pairing.dlog Fr) 7 4 1 0
  have step : ∀ (st : PState Fr) (s : UInt32) (d : Bytes), st.voters ≠ 0 → (s + 1).toNat ≤ 4 → st.flgCom = (fun _ => false) →
      proactStep frCodec (Pairing.dlog Fr) ⟨fun _ => [], fun _ _ => true, fun _ _ _ _ => some []⟩ p st (.reshare s d) =
        some (.ok (p, { st with voters := st.voters - 1, voteWait := st.voteWait ++ [((s + 1).toNat, d)] }, [])) := by
    intro st s d h1 h2 h3
    simp only [proactStep]
    rw [if_neg h1, if_neg (by omega), if_neg (by rw [h3]; simp)]
  have hv : (PState.init p (lineCoins 0)).voters = 4 := e3
  have r1 := PRun.single (step (PState.init p (lineCoins 0)) 0 [1] (by rw [hv]; decide) (by decide) rfl)
  have r2 := r1.trans (PRun.single (step _ 2 [2] (by show (PState.init p (lineCoins 0)).voters - 1 ≠ 0; rw [hv]; decide) (by decide) rfl))
  have r3 := r2.trans (PRun.single (step _ 3 [3] (by show (PState.init p (lineCoins 0)).voters - 1 - 1 ≠ 0; rw [hv]; decide) (by decide) rfl))
  refine ⟨p, e3, _, r3, C97_reshare_partial _ _ _ _ _ _ _ _ _ r3 ?_ ?_ 1 (by rw [e3]; decide) ?_ [4]⟩
  · intro a1 a2 a3 s d d' he
    have := congrArg (List.filterMap PEvent.reshareKey) he
    simp only [List.filterMap_append, List.filterMap_cons, PEvent.reshareKey, List.filterMap_nil, List.cons_append, List.nil_append] at this
    have hnd : ([0, 2, 3] : List ℕ).Nodup := by decide
    have e : ([0, 2, 3] : List ℕ) = a1.filterMap PEvent.reshareKey ++ s.toNat :: a2.filterMap PEvent.reshareKey ++ s.toNat :: a3.filterMap PEvent.reshareKey := by
      simpa using this
    rw [e, List.append_assoc, List.nodup_append] at hnd
    exact (List.nodup_cons.1 hnd.2.1).1 (by simp)
  · intro s d hm
    rw [e3]
    simp at hm
    rcases hm with ⟨rfl, -⟩ | ⟨rfl, -⟩ | ⟨rfl, -⟩ <;> decide
  · intro d hm
    simp at hm

/-- Four parties that follow the protocol: parties 0, 1 and 2 complete, party 3 keeps its old share for ever. -/
example : ∃ (S : RefSetup Fr Fr) (n : ℕ) (net : RefNet Fr Fr), S.Holds (Pairing.dlog Fr) 7 bX 1 4 ∧ S.members = Finset.range 4 ∧ RefReach frCodec (Pairing.dlog Fr) S n net ∧
    net.Settled frCodec (Pairing.dlog Fr) S ∧ (∀ i < 3, (net.st i).finished = true) ∧ (net.st 3).finished = false ∧ (net.party 3).reducedShare = (S.start 3).reducedShare := by
  obtain ⟨S, hH, hM, -⟩ := exists_holds (Pairing.dlog Fr) 7 bX 1 4 le_rfl (by norm_num) le_rfl (by norm_num) (Finset.range 4) (fun i hi => Finset.mem_range.1 hi) (by decide) lineCoins
  obtain ⟨n, net, hR, h⟩ := C98_refuted frCodec (Pairing.dlog Fr) 7 bX 1 4 S hH hM
  obtain ⟨n', net', hR', hs, hset⟩ := C85_settles frCodec (Pairing.dlog Fr) 7 bX 1 4 S hH n net hR
  obtain ⟨h1, -, h3, h4⟩ := h net' hs
  exact ⟨S, n', net', hH, hM, hR', hset, fun i hi => ((h4 hset).2 i hi).2, h3, h1⟩

/-- The same for every `F`: `3F+1` parties, and the last one is left behind. -/
example (F : ℕ) (hF : 1 ≤ F) (hF' : F ≤ 2 ^ 20) : ∃ (S : RefSetup Fr Fr) (n : ℕ) (net : RefNet Fr Fr), S.Holds (Pairing.dlog Fr) 7 bX F (3 * F + 1) ∧ RefReach frCodec (Pairing.dlog Fr) S n net ∧
    net.Settled frCodec (Pairing.dlog Fr) S ∧ (∀ i < 3 * F, (net.st i).finished = true) ∧ (net.st (3 * F)).finished = false := by
  obtain ⟨S, hH, hM, -⟩ := exists_holds (Pairing.dlog Fr) 7 bX F (3 * F + 1) hF hF' le_rfl (by omega) (Finset.range (3 * F + 1)) (fun i hi => Finset.mem_range.1 hi)
    (by rw [Finset.card_range]; omega) lineCoins
  obtain ⟨n, net, hR, h⟩ := C98_refuted frCodec (Pairing.dlog Fr) 7 bX F (3 * F + 1) S hH hM
  obtain ⟨n', net', hR', hs, hset⟩ := C85_settles frCodec (Pairing.dlog Fr) 7 bX F (3 * F + 1) S hH n net hR
  obtain ⟨-, -, h3, h4⟩ := h net' hs
  exact ⟨S, n', net', hH, hR', hset, fun i hi => ((h4 hset).2 i (by omega)).2, h3⟩

end

end DyCAPS
