import Verif.Lemmas.RefreshShare

/-! The states of a committee in which nothing can happen any more. -/

set_option linter.unusedSectionVars false

namespace DyCAPS

section
variable {G1 G2 GT : Type} [AddCommGroup G1] [Module Fr G1] [AddCommGroup G2] [Module Fr G2] [AddCommGroup GT] [Module Fr GT]
variable [DecidableEq G1] [DecidableEq GT]
variable {codec : PointCodec G1} {pp : Pairing Fr G1 G2 GT} {S : RefSetup G1 G2} {net : RefNet G1 G2}
variable {t : Fr} {b : ℕ → ℕ → Fr} {F N n : ℕ} {q : ℕ → ℕ → ℕ → Fr}

theorem reshareMsg_ok (F : ℕ) (c : DealerCoins) (k : ℕ) : ∃ m, reshareMsg codec (newKZG pp t (F + 1)) F c k = .ok m := by
  unfold reshareMsg
  have : (oneTo (2 * F + 1)).mapM (fun j => computeProofSingle (newKZG pp t (F + 1)) (ownQ F c j) ((k : ℕ) : Fr)) =
      .ok ((oneTo (2 * F + 1)).map fun j => quotVal (ownQ F c j) ((k : ℕ) : Fr) t • pp.g1) := by
    apply mapM_ok
    intro j _
    exact computeProofSingle_ok pp t _ _ _ (ne_nil_of_length (dealerB_length F 0 c j)) (by unfold ownQ; rw [dealerB_length]; omega)
  rw [this]
  exact ⟨_, rfl⟩

/-! ### The agreed set -/

theorem NetInv.chosen (hH : S.Holds pp t b F N) (hq : S.Contributes F q) (hI : NetInv codec pp S n net) {v : Bytes}
    (hv : ∃ h ∈ S.members, ∃ m, POut.mvba m ∈ net.outs h ∧ v = marshal m) : Chosen F S.members ((unmarshalD (⟨[], []⟩ : PMVBAIN) v).j.map (·.toNat)) := by
  obtain ⟨h, hh, m, hm, rfl⟩ := hv
  obtain ⟨a1, a2, -⟩ := hI.submitted hH hq hh hm
  rw [a1]; exact a2

theorem RefSetup.Holds.some_chosen (hH : S.Holds pp t b F N) : ∃ J, Chosen F S.members J := by
  have := hH.enough
  refine ⟨(S.members.toList.take (F + 1)).map (· + 1), ?_, fun j hj => ?_⟩
  · rw [List.length_map, List.length_take, Finset.length_toList]; omega
  · obtain ⟨h, hh, rfl⟩ := List.mem_map.1 hj
    exact ⟨h, Finset.mem_toList.1 (List.mem_of_mem_take hh), rfl⟩

/-- There is one agreed set. -/
theorem NetInv.decided (hH : S.Holds pp t b F N) (hq : S.Contributes F q) (hI : NetInv codec pp S n net) :
    ∃ J, Chosen F S.members J ∧ ∀ i ∈ S.members, NamesJ J (net.evs i) := by
  by_cases he : ∃ i ∈ S.members, ∃ v, PEvent.mvba v ∈ net.evs i
  · obtain ⟨i, hi, v, hv⟩ := he
    exact ⟨_, hI.chosen hH hq (hI.traced i hi _ hv), fun k hk r hr => by rw [hI.common k hk i hi r v hr hv]⟩
  · obtain ⟨J, hJ⟩ := hH.some_chosen
    exact ⟨J, hJ, fun k hk r hr => absurd ⟨k, hk, r, hr⟩ he⟩

/-- The same with one more event that may happen at `i`. -/
theorem NetInv.decided_next (hH : S.Holds pp t b F N) (hq : S.Contributes F q) (hI : NetInv codec pp S n net) {i : ℕ} (hi : i ∈ S.members) {ev : PEvent}
    (ho : net.Offers codec pp S i ev) : ∃ J, Chosen F S.members J ∧ NamesJ J (net.evs i ++ [ev]) := by
  by_cases hv : ∃ v, ev = .mvba v
  · obtain ⟨v, rfl⟩ := hv
    refine ⟨_, hI.chosen hH hq ho.2, fun r hr => ?_⟩
    rw [List.mem_append, List.mem_singleton] at hr
    rcases hr with hr | hr
    · rw [ho.1 i hi r hr]
    · rw [PEvent.mvba.inj hr]
  · obtain ⟨J, hJ, h⟩ := hI.decided hH hq
    refine ⟨J, hJ, fun r hr => ?_⟩
    rw [List.mem_append, List.mem_singleton] at hr
    rcases hr with hr | hr
    · exact h i hi r hr
    · exact absurd ⟨r, hr.symm⟩ hv

theorem NetInv.no_error (hH : S.Holds pp t b F N) (hq : S.Contributes F q) (hI : NetInv codec pp S n net) {i : ℕ} (hi : i ∈ S.members) {ev : PEvent}
    (ho : net.Offers codec pp S i ev) (e : Fault) : proactStep codec pp (S.tb i) (net.party i) (net.st i) ev ≠ some (.error e) := by
  obtain ⟨J, hC, hJ⟩ := hI.decided_next hH hq hi ho
  refine (hI.run i hi).no_error (hH.seat hi) (hH.gives hq hi) (hH.signs hi) (J := J) (by rw [(hH.size i hi).1]; exact hC)
    (hI.env3 hH hq hi (fun e he => ?_) (fun e1 x e2 he hon => ?_) hJ) e
  · rw [List.mem_append, List.mem_singleton] at he
    rcases he with he | rfl
    · exact hI.traced i hi e he
    · exact ho.traced
  · rcases once_snoc he with ⟨rfl, rfl, rfl⟩ | ⟨e3, rfl, h2⟩
    · exact ho.fresh hon
    · exact hI.once i hi e1 x e3 h2 hon

theorem NetInv.bounded (hH : S.Holds pp t b F N) (hq : S.Contributes F q) (hI : NetInv codec pp S n net) : n ≤ S.members.card * stepBound F N := by
  obtain ⟨J, hC, hJ⟩ := hI.decided hH hq
  rw [hI.steps, ← smul_eq_mul]
  apply Finset.sum_le_card_nsmul
  intro i hi
  obtain ⟨e1, e2, e3⟩ := hH.size i hi
  have := (hI.run i hi).bounded (hH.seat hi) (hH.gives hq hi) (hH.signs hi) (J := J) (by rw [e1]; exact hC)
    (hI.env3 hH hq hi (hI.traced i hi) (hI.once i hi) (hJ i hi)) (fun l1 s d l2 he => hI.once i hi l1 _ l2 he rfl)
  rwa [e1, e2] at this

theorem RefReach.continues (hH : S.Holds pp t b F N) (hR : RefReach codec pp S n net) (hns : ¬ net.Settled codec pp S) : ∃ net', net.Step codec pp S net' ∧ RefReach codec pp S (n + 1) net' := by
  obtain ⟨q, hq⟩ := hH.contributes
  unfold RefNet.Settled at hns
  push Not at hns
  obtain ⟨i, hi, ev, ho, hne⟩ := hns
  cases hs : proactStep codec pp (S.tb i) (net.party i) (net.st i) ev with
  | none => exact absurd hs hne
  | some r =>
    cases r with
    | error e => exact absurd hs (hR.inv.no_error hH hq hi ho e)
    | ok r =>
      obtain ⟨p', st', out⟩ := r
      exact ⟨_, ⟨i, hi, ev, p', st', out, ho, hs, rfl⟩, hR.step hi ho hs⟩

theorem RefReach.settles (hH : S.Holds pp t b F N) (hR : RefReach codec pp S n net) :
    ∃ n' net', RefReach codec pp S n' net' ∧ Relation.ReflTransGen (RefNet.Step codec pp S) net net' ∧ net'.Settled codec pp S := by
  obtain ⟨q, hq⟩ := hH.contributes
  generalize hk : S.members.card * stepBound F N - n = k
  induction k generalizing n net with
  | zero =>
    refine ⟨n, net, hR, .refl, ?_⟩
    by_contra hns
    obtain ⟨net', -, hR'⟩ := hR.continues hH hns
    have := hR'.inv.bounded hH hq
    omega
  | succ k ih =>
    by_cases hs : net.Settled codec pp S
    · exact ⟨n, net, hR, .refl, hs⟩
    · obtain ⟨net', h1, hR'⟩ := hR.continues hH hs
      obtain ⟨n'', net'', h2, h3, h4⟩ := ih hR' (by omega)
      exact ⟨n'', net'', h2, .head h1 h3, h4⟩

/-! ### Settled states -/

theorem card_le_of_maps {α : Type} (s : Finset ℕ) (L : List α) (f : α → ℕ) (h : ∀ x ∈ s, x + 1 ∈ L.map f) : s.card ≤ L.length := by
  have h1 : s.image (· + 1) ⊆ (L.map f).toFinset := by
    intro y hy
    obtain ⟨x, hx, rfl⟩ := Finset.mem_image.1 hy
    exact List.mem_toFinset.2 (h x hx)
  have h2 := Finset.card_le_card h1
  rw [Finset.card_image_of_injective _ (fun a b h => Nat.succ.inj h)] at h2
  have := List.toFinset_card_le (L.map f)
  rw [List.length_map] at this
  omega

theorem RefSetup.Holds.card_le (hH : S.Holds pp t b F N) : S.members.card ≤ N := by
  have : S.members ⊆ Finset.range N := fun h hh => Finset.mem_range.2 (hH.lt h hh)
  simpa using Finset.card_le_card this

theorem NetInv.reshareOnce (hH : S.Holds pp t b F N) (hI : NetInv codec pp S n net) {i : ℕ} (hi : i ∈ S.members) :
    ∀ l1 s d l2, net.evs i = l1 ++ PEvent.reshare s d :: l2 → ∀ d', PEvent.reshare s d' ∉ l1 := by
  intro l1 s d l2 he d' hm
  obtain ⟨h, hh, e1, m, hm1, e2⟩ := hI.traced i hi (.reshare s d) (by rw [he]; simp)
  obtain ⟨h', hh', e1', m', hm1', e2'⟩ := hI.traced i hi (.reshare s d') (by rw [he]; exact List.mem_append_left _ hm)
  have := hH.lt h hh
  have := hH.lt h' hh'
  have := hH.N2
  have hhh : h = h' := ofNat_inj32 (by omega) (by omega) (e1.symm.trans e1')
  rw [← hhh, hm1] at hm1'
  rw [← Except.ok.inj hm1', ← e2] at e2'
  rw [e2'] at hm
  exact hI.once i hi l1 _ l2 he rfl hm

/-- A member whose Reshare message is missing still has a receiver. -/
theorem NetInv.voters_left (hH : S.Holds pp t b F N) (hI : NetInv codec pp S n net) {i h : ℕ} (hi : i ∈ S.members) (hh : h ∈ S.members)
    (hn : ∀ d, PEvent.reshare (UInt32.ofNat h) d ∉ net.evs i) : (net.st i).voters ≠ 0 := by
  obtain ⟨e1, e2, e3⟩ := hH.size i hi
  choose g hg using fun h' => reshareMsg_ok (codec := codec) (pp := pp) (t := t) F (S.coins h') (i + 1)
  have hc : (net.evs i).countP PEvent.isReshare ≤ (S.members.erase h).card := by
    refine countP_once _ _ (filter_nodup_of_once _ _ fun l1 x l2 he hp => ?_) (S.members.erase h) (fun h' => .reshare (UInt32.ofNat h') (marshal (g h'))) fun x hx hp => ?_
    · exact hI.once i hi l1 x l2 he (by rw [PEvent.isOnce, hp]; rfl)
    · cases x with
      | reshare s d =>
        obtain ⟨h', hh', e1', m', hm1', e2'⟩ := hI.traced i hi _ hx
        rw [(hH.setup h' hh').kzg, (hH.size h' hh').1, hg] at hm1'
        refine ⟨h', Finset.mem_erase.2 ⟨fun hhh => ?_, hh'⟩, by rw [e1', e2', Except.ok.inj hm1']⟩
        rw [e1', hhh] at hx
        exact hn d hx
      | _ => cases hp
  have hv := (hI.run i hi).queueInv.voters
  rw [Finset.card_erase_of_mem hh] at hc
  have := hH.card_le
  have : 1 ≤ S.members.card := Finset.card_pos.2 ⟨h, hh⟩
  omega

/-- A member whose ShareDist message is missing still has a receiver. -/
theorem NetInv.dists_left (hH : S.Holds pp t b F N) (hq : S.Contributes F q) (hI : NetInv codec pp S n net) {i h : ℕ} (hi : i ∈ S.members) (hh : h ∈ S.members)
    (hn : distEv codec pp t (S.start i) (fun h => (net.party h).reducedShare) h ∉ net.evs i) : (net.st i).dists ≠ 0 := by
  obtain ⟨e1, e2, e3⟩ := hH.size i hi
  obtain ⟨J, hC, hJ⟩ := hI.decided hH hq
  have henv := hI.env3 hH hq hi (hI.traced i hi) (hI.once i hi) (hJ i hi)
  have hc : (net.evs i).countP PEvent.isDist ≤ (S.members.erase h).card := by
    refine countP_once _ _ (filter_nodup_of_once _ _ fun l1 x l2 he hp => ?_) (S.members.erase h) (fun h' => distEv codec pp t (S.start i) (fun h => (net.party h).reducedShare) h') fun x hx hp => ?_
    · exact hI.once i hi l1 x l2 he (by rw [PEvent.isOnce, hp, Bool.or_true])
    · cases x with
      | shareDist s d =>
        obtain ⟨h', hh', he⟩ := henv.dist s d hx
        refine ⟨h', Finset.mem_erase.2 ⟨fun hhh => ?_, hh'⟩, he⟩
        rw [he, hhh] at hx
        exact hn hx
      | _ => cases hp
  have hv := (hI.run i hi).queueInv.free
  rw [Finset.card_erase_of_mem hh] at hc
  have := hH.card_le
  have : 1 ≤ S.members.card := Finset.card_pos.2 ⟨h, hh⟩
  omega

section
variable (hH : S.Holds pp t b F N) (hq : S.Contributes F q) (hI : NetInv codec pp S n net) (hset : net.Settled codec pp S)
include hH hq hI hset

theorem settled_com {i h : ℕ} (hi : i ∈ S.members) (hh : h ∈ S.members) : (net.st i).flgCom (h + 1) = true := by
  have hc := (hI.run i hi).comInv (hH.seat hi) (hH.gives hq hi) (hI.env1 hH hi)
  apply hc.done
  by_contra hn
  obtain ⟨e1, e2, -⟩ := hH.size h hh
  obtain ⟨-, f1, f2, -⟩ := hI.mem_setup hH hi
  have hlt := hH.lt h hh
  have := hset i hi (.commit (h + 1) (some (marshal (commitOf codec F (honestContent pp t F 0 (S.coins h)))))) ⟨h, hh, rfl, _, by
    rw [(hH.setup h hh).kzg, e1]; exact commitMsg_ok codec pp t F (S.coins h), rfl⟩
  simp only [proactStep] at this
  rw [if_pos ⟨by omega, by rw [f2]; omega, by simpa using hn⟩] at this
  cases this

theorem settled_refVote {i h : ℕ} (hi : i ∈ S.members) (hh : h ∈ S.members) {l : ℕ} (l1 : 1 ≤ l) (l2 : l ≤ N) :
    POut.recover l (recMsg codec pp t F q (fun _ => (S.tb i).sign) i h l) ∈ net.outs i := by
  obtain ⟨e1, e2, e3⟩ := hH.size i hi
  have hf := settled_com hH hq hI hset hi hh
  have hrow := ((hI.run i hi).comInv (hH.seat hi) (hH.gives hq hi) (hI.env1 hH hi) |>.flg _ hf).2.2
  have hsame := (hI.run i hi).same
  have hlt := hH.lt h hh
  have hv := ((hI.run i hi).votes (hH.seat hi) (hH.gives hq hi) (hI.env1 hH hi)).1 h hh (by
    by_contra hn
    push Not at hn
    obtain ⟨m, hm⟩ := reshareMsg_ok (codec := codec) (pp := pp) (t := t) F (S.coins h) (i + 1)
    have hstep := reshare_answer (tb := S.tb i) (hH.seat hi) (hH.gives hq hi) hsame hh (hI.voters_left hH hi hh hn) hf hrow (m := m) (by rw [e1, e3]; exact hm)
    rw [hset i hi (.reshare (UInt32.ofNat h) (marshal m)) ⟨hn _, h, hh, rfl, m, by rw [(hH.setup h hh).kzg, (hH.size h hh).1]; exact hm, rfl⟩] at hstep
    cases hstep)
  rcases hv with ⟨d, hd⟩ | hv
  · exfalso
    have hT := ((hI.run i hi).tokInv (hI.reshareOnce hH hi)).tok _ hd hf
    have := hset i hi (.vote (h + 1) d) trivial
    simp only [proactStep] at this
    rw [if_pos ⟨hd, hf, hT⟩] at this
    cases this
  · have hv := hv l l1 (by rw [e2]; exact l2)
    rwa [e1, e3] at hv

theorem settled_sent {i : ℕ} (hi : i ∈ S.members) : (net.st i).mvbaSent = true := by
  by_contra hns
  obtain ⟨e1, e2, e3⟩ := hH.size i hi
  obtain ⟨J, hC, hJ⟩ := hI.decided hH hq
  have hS := hH.seat hi
  have hG := hH.gives hq hi
  have henv := hI.env3 hH hq hi (hI.traced i hi) (hI.once i hi) (hJ i hi)
  have hrun := hI.run i hi
  have hcall := hrun.callInv hS hG (hH.signs hi) henv.toEnv1
  have hrec := hrun.recInv hS hG (hH.signs hi) henv.toEnv2
  have hcom := hrun.comInv hS hG henv.toEnv1
  have hcnt := hrun.count (by have := hS.N1; omega)
  have hsame := hrun.same
  have hN2 := hH.N2
  have hnr : (net.st i).mvbaRunning = false := by
    by_contra h
    exact hns (hrun.order.running (by simpa using h))
  have hne : ∀ k, (net.st i).exited k = false := by
    intro k
    by_contra h
    exact hns (hcall.exited k (by simpa using h))
  have hheld : ∀ k, (net.st i).held k = none := by
    intro k
    cases hk : (net.st i).held k with
    | none => rfl
    | some m =>
      exfalso
      have := hset i hi (.handleRecover k) trivial
      simp only [proactStep, hnr, hk, Bool.false_eq_true, if_false] at this
      cases this
  have hslot : (net.st i).slot = none := by
    cases hk : (net.st i).slot with
    | none => rfl
    | some m =>
      exfalso
      obtain ⟨h, hh, k, hk', -, hm, -⟩ := hrec.slot m hk
      have hmk : m.k = k + 1 := by rw [hm]; rfl
      have := hset i hi .passRecover trivial
      have hlt := hH.lt k hk'
      simp only [proactStep, hk] at this
      rw [if_pos ⟨by omega, by rw [hsame.N, e2]; omega, by rw [hmk]; exact settled_com hH hq hI hset hi hk', hne _, by rw [hheld]; rfl⟩] at this
      cases this
  have hall : ∀ h ∈ S.members, ∀ k ∈ S.members, h + 1 ∈ ((net.st i).SRec (k + 1)).map (·.1) := by
    intro h hh k hk
    have hlti := hH.lt i hi
    have hmem : takeEv codec pp t (S.start i) q (fun h => (S.tb h).sign) h k ∈ net.evs i := by
      by_contra hn
      have := hset i hi (takeEv codec pp t (S.start i) q (fun h => (S.tb h).sign) h k) ⟨hn, h, hh, rfl, _, settled_refVote hH hq hI hset hh hk (l := i + 1) (by omega) (by omega), by
        rw [e1, e3]; rfl⟩
      unfold takeEv at this
      simp only [proactStep, hslot] at this
      cases this
    rcases hrec.kept h hh k hk hmem with h1 | h1 | h1
    · rw [hslot] at h1; cases h1
    · rw [hheld] at h1; cases h1
    · exact h1
  have hcomb : ∀ k ∈ S.members, k + 1 ∈ (net.st i).mvbaIn.map (·.1) := by
    intro k hk
    rw [← hcall.comb, hcnt.comb, decide_eq_true_eq, hcnt.same, e1]
    have := card_le_of_maps S.members _ _ (fun h hh => hall h hh k hk)
    have := hH.enough
    omega
  have := card_le_of_maps S.members _ _ hcomb
  have := hH.enough
  exact hns (hcall.sent.2 (by rw [e1]; omega))

theorem settled_started {i : ℕ} (hi : i ∈ S.members) : (net.st i).refresh ≠ .waiting := by
  obtain ⟨e1, e2, e3⟩ := hH.size i hi
  obtain ⟨J, hC, hJ⟩ := hI.decided hH hq
  have hS := hH.seat hi
  have hG := hH.gives hq hi
  have henv := hI.env3 hH hq hi (hI.traced i hi) (hI.once i hi) (hJ i hi)
  have hrun := hI.run i hi
  have hcall := hrun.callInv hS hG (hH.signs hi) henv.toEnv1
  have hsent := settled_sent hH hq hI hset hi
  have hnr : (net.st i).mvbaRunning = false := by
    by_contra hr
    have hr : (net.st i).mvbaRunning = true := by simpa using hr
    have : ∃ v, net.Offers codec pp S i (.mvba v) := by
      by_cases he : ∃ k ∈ S.members, ∃ v, PEvent.mvba v ∈ net.evs k
      · obtain ⟨k, hk, v, hv⟩ := he
        exact ⟨v, fun k' hk' v' hv' => hI.common k' hk' k hk v' v hv' hv, hI.traced k hk _ hv⟩
      · obtain ⟨m, hm⟩ := hcall.out hsent
        exact ⟨marshal m, fun k hk v' hv' => absurd ⟨k, hk, v', hv'⟩ he, i, hi, m, hm, rfl⟩
    obtain ⟨v, hv⟩ := this
    have := hset i hi _ hv
    simp only [proactStep, hr, if_true] at this
    cases this
  rcases hcall.wait hsent with h | h
  · rw [hnr] at h; cases h
  · exact h

/-- Every member has ended Refresh or waits for a resharer whose contribution it never gets. -/
theorem settled_refreshed {i : ℕ} (hi : i ∈ S.members) : net.Refreshed i ∨ (net.st i).refreshWait = true := by
  obtain ⟨e1, e2, e3⟩ := hH.size i hi
  obtain ⟨J, hC, hJ⟩ := hI.decided hH hq
  have hrun := hI.run i hi
  have hsum := hrun.sumInv (hH.seat hi) (hH.gives hq hi) (hI.env1 hH hi) (hJ i hi)
  have hsame := hrun.same
  cases hst : (net.st i).refresh with
  | waiting => exact absurd hst (settled_started hH hq hI hset hi)
  | done Cs => exact Or.inl ⟨Cs, hst⟩
  | looping rest Qs Cs =>
    right
    by_contra hw
    have hw : (net.st i).refreshWait = false := by simpa using hw
    have := hset i hi .refresh trivial
    obtain ⟨done, hd, -⟩ := hsum.loop _ _ _ hst
    cases rest with
    | nil =>
      simp only [proactStep, refreshStep, hst] at this
      rw [if_neg (by rw [hsum.len, hsame.F]; omega)] at this
      cases this
    | cons j rest =>
      obtain ⟨h, hh, rfl⟩ := hC.mem j (by rw [hd]; simp)
      have hlt := hH.lt h hh
      have hf := settled_com hH hq hI hset hi hh
      simp only [proactStep, refreshStep, hst, hw] at this
      rw [if_neg (by rw [hsame.N, e2]; omega)] at this
      simp only [hf, if_true, Bool.false_eq_true, if_false] at this
      cases this

omit hq hset in
/-- A member that waits never ends Refresh. -/
theorem wait_unrefreshed {i : ℕ} (hi : i ∈ S.members) (hw : (net.st i).refreshWait = true) : ¬ net.Refreshed i := by
  rintro ⟨Cs, hCs⟩
  obtain ⟨j, rest, Qs, Cs', hb⟩ := (hI.run i hi).blockedAt (hH.seat hi).F1 hw
  rw [hb.at_] at hCs; cases hCs

/-- Member `h` has ended Refresh with a share that fits the commitments. -/
def GoodAt (t : Fr) (b : ℕ → ℕ → Fr) (q : ℕ → ℕ → ℕ → Fr) (F : ℕ) (J : List ℕ) (net : RefNet G1 G2) (h : ℕ) : Prop :=
  polyVal (net.party h).reducedShare t = polyVal (sliceX (refreshed b q J) F (2 * F) ((h + 1 : ℕ) : Fr)) t

theorem settled_dist {J : List ℕ} (hJ : ∀ i ∈ S.members, NamesJ J (net.evs i)) {i : ℕ} (hi : i ∈ S.members) (hri : net.Refreshed i) :
    ∀ j, j ∈ (net.st i).SB.map (·.1) ↔ ∃ h ∈ S.members, j = h + 1 ∧ net.Refreshed h ∧ GoodAt t b q F J net h := by
  obtain ⟨e1, e2, e3⟩ := hH.size i hi
  have hS := hH.seat hi
  have hG := hH.gives hq hi
  have henv := hI.env3 hH hq hi (hI.traced i hi) (hI.once i hi) (hJ i hi)
  have hrun := hI.run i hi
  have hdist := hrun.distInv hS hG henv
  have hsame := hrun.same
  have hN2 := hH.N2
  obtain ⟨Cs, hCs⟩ := hri
  have hgood : ∀ h, Good (S.start i) t b q J (fun h => (net.party h).reducedShare) h ↔ GoodAt t b q F J net h := by
    intro h
    unfold Good GoodAt expected
    rw [e1]
  intro j
  constructor
  · intro hj
    obtain ⟨h0, h, hh, h1, h2⟩ := hdist.sb j hj
    obtain ⟨d, hd⟩ := hrun.newCom_ev j h0
    obtain ⟨h', hh', h3, h4, -⟩ := hI.traced i hi _ hd
    have : h' = h := by omega
    rw [this] at h4
    exact ⟨h, hh, h1, h4, (hgood h).1 h2⟩
  · rintro ⟨h, hh, rfl, hrh, hg⟩
    have hlt := hH.lt h hh
    obtain ⟨a1, a2, -⟩ := hI.mem_setup hH hh
    have hnew : (net.st i).newComDone (h + 1) = true := by
      by_contra hn
      have := hset i hi (.newCommit (h + 1) (some (codec.enc (polyVal (net.party h).reducedShare t • pp.g1)))) ⟨h, hh, rfl, hrh, _,
        newCommitMsg_ok codec a1 (by rw [a2]; exact hI.len hH hq hh), rfl⟩
      simp only [proactStep, hCs] at this
      rw [if_pos ⟨by omega, by rw [hsame.N, e2]; omega, by simpa using hn⟩] at this
      cases this
    obtain ⟨h', hh', he, ht⟩ := hdist.done _ hnew
    have he : h' = h := by omega
    subst he
    rcases ht ((hgood h').2 hg) with ht | ht
    · exfalso
      have hmem : distEv codec pp t (S.start i) (fun h => (net.party h).reducedShare) h' ∈ net.evs i := by
        by_contra hn
        have := hset i hi (distEv codec pp t (S.start i) (fun h => (net.party h).reducedShare) h') ⟨hn, h', hh', rfl, hrh, _,
          shareDistMsg_ok codec a1 (by rw [a2]; exact hI.len hH hq hh') (i + 1), by rw [e3]⟩
        unfold distEv at this
        simp only [proactStep, hCs] at this
        rw [ofNat_succ_toNat (by omega), if_neg (hI.dists_left hH hq hi hh' hn), if_neg (by rw [hsame.N, e2]; omega), if_pos ht] at this
        cases this
      rcases hdist.came h' hh' hmem with hc | ⟨d, hc⟩
      · exact (hdist.token _ ht).2.1 hc
      · have := hset i hi (.dist (h' + 1) d) trivial
        simp only [proactStep, hCs] at this
        rw [if_pos ⟨hc, ht⟩] at this
        cases this
    · exact ht

open Classical in
theorem settled_success {J : List ℕ} (hJ : ∀ i ∈ S.members, NamesJ J (net.evs i)) {i : ℕ} (hi : i ∈ S.members) (hri : net.Refreshed i) :
    (net.st i).successSent = true ↔ 2 * F + 1 ≤ (S.members.filter fun h => net.Refreshed h ∧ GoodAt t b q F J net h).card := by
  obtain ⟨e1, e2, e3⟩ := hH.size i hi
  have henv := hI.env3 hH hq hi (hI.traced i hi) (hI.once i hi) (hJ i hi)
  have hdist := (hI.run i hi).distInv (hH.seat hi) (hH.gives hq hi) henv
  have hsb := settled_dist hH hq hI hset hJ hi hri
  rw [hdist.sent, e1]
  have : ((net.st i).SB.map (·.1)).toFinset = (S.members.filter fun h => net.Refreshed h ∧ GoodAt t b q F J net h).image (· + 1) := by
    ext j
    rw [List.mem_toFinset, hsb, Finset.mem_image]
    constructor
    · rintro ⟨h, hh, rfl, hg⟩
      exact ⟨h, Finset.mem_filter.2 ⟨hh, hg⟩, rfl⟩
    · rintro ⟨h, hh, rfl⟩
      rw [Finset.mem_filter] at hh
      exact ⟨h, hh.1, rfl, hh.2⟩
  have h2 := List.toFinset_card_of_nodup hdist.nodup
  rw [this, Finset.card_image_of_injective _ (fun a b h => Nat.succ.inj h), List.length_map] at h2
  rw [h2]

/-- A member that has sent Success has ended Refresh. -/
theorem success_refreshed {i : ℕ} (hi : i ∈ S.members) (hs : (net.st i).successSent = true) : net.Refreshed i := (hI.run i hi).order.dist hs

open Classical in
theorem settled_finished {i : ℕ} (hi : i ∈ S.members) (hs : (net.st i).successSent = true) : (net.st i).finished = true := by
  obtain ⟨J, hC, hJ⟩ := hI.decided hH hq
  have hd : ∀ k ∈ S.members, _ := fun k hk => (hI.run k hk).distInv (hH.seat hk) (hH.gives hq hk) (hI.env3 hH hq hk (hI.traced k hk) (hI.once k hk) (hJ k hk))
  obtain ⟨e1, e2, e3⟩ := hH.size i hi
  by_contra hn
  have hn : (net.st i).finished = false := by simpa using hn
  have hmany := (settled_success hH hq hI hset hJ hi ((hI.run i hi).order.dist hs)).1 hs
  have hcard : 2 * F + 1 ≤ (S.members.filter fun h => (net.outs h).any POut.isSuccess).card := by
    refine le_trans hmany (Finset.card_le_card ?_)
    intro h hh
    rw [Finset.mem_filter] at hh ⊢
    refine ⟨hh.1, ?_⟩
    rw [List.any_eq_true]
    exact ⟨_, (hd h hh.1).out.1 ((settled_success hH hq hI hset hJ hh.1 hh.2.1).2 hmany), rfl⟩
  have hfin := (hd i hi).fin
  rw [hn] at hfin
  have hlt : (net.st i).successCount < 2 * F + 1 := by
    by_contra hge
    rw [e1, decide_eq_true (by omega)] at hfin
    cases hfin
  have hoff : net.Offers codec pp S i .success := by
    show (net.evs i).countP PEvent.isSuccess < _
    rw [← (hd i hi).count]
    omega
  have := hset i hi _ hoff
  simp only [proactStep] at this
  rw [if_pos ⟨hs, hn⟩] at this
  cases this

end

end

end DyCAPS
