import Verif.Lemmas.RefreshScript
import Verif.Props.Epoch

/-!
# C85: a refresh in which all members follow the protocol

At least `2F+1` of the `N` parties take part, all of them follow the protocol, and messages arrive in any order. The refresh never crashes and always comes to an end; at the end either
every member that does not wait in the Refresh loop has completed or none has. It completes when `2F+1` members had recovered all contributions that MVBA chose.
-/

set_option linter.unusedSectionVars false

namespace DyCAPS

section
variable {G1 G2 GT : Type} [AddCommGroup G1] [Module Fr G1] [AddCommGroup G2] [Module Fr G2] [AddCommGroup GT] [Module Fr GT]
variable [DecidableEq G1] [DecidableEq GT]

/-- **C85, no crash.** No step that a member can make fails. -/
theorem C85_no_crash (codec : PointCodec G1) (pp : Pairing Fr G1 G2 GT) (t : Fr) (b : ℕ → ℕ → Fr) (F N : ℕ) (S : RefSetup G1 G2) (hH : S.Holds pp t b F N)
    (n : ℕ) (net : RefNet G1 G2) (hR : RefReach codec pp S n net) (i : ℕ) (hi : i ∈ S.members) (ev : PEvent) (ho : net.Offers codec pp S i ev) (e : Fault) :
    proactStep codec pp (S.tb i) (net.party i) (net.st i) ev ≠ some (.error e) := by
  obtain ⟨q, hq⟩ := hH.contributes
  exact hR.inv.no_error hH hq hi ho e

/-- **C85, termination.** Whatever the order of the messages, the members together make at most this number of steps. -/
theorem C85_bounded (codec : PointCodec G1) (pp : Pairing Fr G1 G2 GT) (t : Fr) (b : ℕ → ℕ → Fr) (F N : ℕ) (S : RefSetup G1 G2) (hH : S.Holds pp t b F N)
    (n : ℕ) (net : RefNet G1 G2) (hR : RefReach codec pp S n net) : n ≤ S.members.card * (3 * N ^ 2 + 6 * N + 3 * F + 7) := by
  obtain ⟨q, hq⟩ := hH.contributes
  exact hR.inv.bounded hH hq

/-- **C85, termination.** From every state the committee gets into a state in which nothing can happen any more. -/
theorem C85_settles (codec : PointCodec G1) (pp : Pairing Fr G1 G2 GT) (t : Fr) (b : ℕ → ℕ → Fr) (F N : ℕ) (S : RefSetup G1 G2) (hH : S.Holds pp t b F N)
    (n : ℕ) (net : RefNet G1 G2) (hR : RefReach codec pp S n net) :
    ∃ n' net', RefReach codec pp S n' net' ∧ Relation.ReflTransGen (RefNet.Step codec pp S) net net' ∧ net'.Settled codec pp S := hR.settles hH

/-- What a settled committee has agreed on. -/
theorem settled_agreed {codec : PointCodec G1} {pp : Pairing Fr G1 G2 GT} {t : Fr} {b : ℕ → ℕ → Fr} {F N : ℕ} {S : RefSetup G1 G2} (hH : S.Holds pp t b F N)
    {q : ℕ → ℕ → ℕ → Fr} (hq : S.Contributes F q) {n : ℕ} {net : RefNet G1 G2} (hR : RefReach codec pp S n net) (hset : net.Settled codec pp S) :
    ∃ v, (∃ h ∈ S.members, ∃ m, POut.mvba m ∈ net.outs h ∧ v = marshal m) ∧ ∀ i ∈ S.members, PEvent.mvba v ∈ net.evs i := by
  have hI := hR.inv
  obtain ⟨J, hC, hJ⟩ := hI.decided hH hq
  have hev : ∀ i ∈ S.members, ∃ v, PEvent.mvba v ∈ net.evs i := by
    intro i hi
    exact ((hI.run i hi).sumInv (hH.seat hi) (hH.gives hq hi) (hI.env1 hH hi) (hJ i hi)).wait (settled_started hH hq hI hset hi)
  obtain ⟨i0, hi0⟩ : S.members.Nonempty := by
    rw [← Finset.card_pos]
    have := hH.enough
    omega
  obtain ⟨v, hv⟩ := hev i0 hi0
  refine ⟨v, hI.traced i0 hi0 _ hv, fun i hi => ?_⟩
  obtain ⟨v', hv'⟩ := hev i hi
  rw [hI.common i0 hi0 i hi v v' hv hv']
  exact hv'

theorem names_agreed {codec : PointCodec G1} {pp : Pairing Fr G1 G2 GT} {S : RefSetup G1 G2} {n : ℕ} {net : RefNet G1 G2} (hR : RefReach codec pp S n net) {i0 : ℕ} (hi0 : i0 ∈ S.members)
    {v : Bytes} (hv : PEvent.mvba v ∈ net.evs i0) : ∀ i ∈ S.members, NamesJ (agreedIds v) (net.evs i) := by
  intro i hi v' hv'
  rw [hR.inv.common i hi i0 hi0 v' v hv' hv]
  rfl

/-- **C85, all or none.** When nothing can happen any more, all members have got the same value from MVBA; it is the input of one of them and names `F+1` different members. Every member has
computed its new reduced share, or it waits in the Refresh loop for the contribution of a chosen resharer whose commitment came late. Either all members that have computed a new share have
completed and they are at least `2F+1`, or no member has even sent a Success message. A waiting member has not completed. -/
theorem C85_all_or_none (codec : PointCodec G1) (pp : Pairing Fr G1 G2 GT) (t : Fr) (b : ℕ → ℕ → Fr) (F N : ℕ) (S : RefSetup G1 G2) (hH : S.Holds pp t b F N)
    (n : ℕ) (net : RefNet G1 G2) (hR : RefReach codec pp S n net) (hset : net.Settled codec pp S) :
    ∃ v, (∃ h ∈ S.members, ∃ m, POut.mvba m ∈ net.outs h ∧ v = marshal m) ∧ (∀ i ∈ S.members, PEvent.mvba v ∈ net.evs i) ∧
      (agreedIds v).length = F + 1 ∧ (agreedIds v).Nodup ∧ (∀ j ∈ agreedIds v, ∃ h ∈ S.members, j = h + 1) ∧
      (∀ i ∈ S.members, net.Refreshed i ∨ (net.st i).refreshWait = true ∧ POut.success ∉ net.outs i ∧ (net.st i).finished = false) ∧
      ((∃ A ⊆ S.members, 2 * F + 1 ≤ A.card ∧ (∀ i ∈ A, net.Refreshed i) ∧ ∀ i ∈ S.members, net.Refreshed i → (net.st i).finished = true) ∨
        ∀ i ∈ S.members, POut.success ∉ net.outs i ∧ (net.st i).finished = false) := by
  classical
  obtain ⟨q, hq⟩ := hH.contributes
  have hI := hR.inv
  obtain ⟨v, ⟨h, hh, m, hm, rfl⟩, hv⟩ := settled_agreed hH hq hR hset
  obtain ⟨s1, s2, s3⟩ := hI.submitted hH hq hh hm
  have e : agreedIds (marshal m) = m.j.map (·.toNat) := by unfold agreedIds; rw [s1]
  have hJ := names_agreed hR hh (hv h hh)
  have hsent := fun i hi => settled_success hH hq hI hset hJ (i := i) hi
  have hnot : ∀ i ∈ S.members, ¬ (net.st i).successSent = true → POut.success ∉ net.outs i ∧ (net.st i).finished = false := by
    intro i hi hni
    have hdist := (hI.run i hi).distInv (hH.seat hi) (hH.gives hq hi) (hI.env3 hH hq hi (hI.traced i hi) (hI.once i hi) (hJ i hi))
    refine ⟨fun ho => hni (hdist.out.2 ho), ?_⟩
    cases hf : (net.st i).finished with
    | false => rfl
    | true => exact absurd ((hI.run i hi).finished_sent hf) hni
  refine ⟨_, ⟨h, hh, m, hm, rfl⟩, hv, by rw [e]; exact s2.len, by rw [e]; exact s3, by rw [e]; exact s2.mem, fun i hi => ?_, ?_⟩
  · rcases settled_refreshed hH hq hI hset hi with h1 | h1
    · exact Or.inl h1
    · exact Or.inr ⟨h1, hnot i hi fun hs => wait_unrefreshed hH hI hi h1 ((hI.run i hi).order.dist hs)⟩
  · by_cases hc : ∃ k ∈ S.members, (net.st k).successSent = true
    · left
      obtain ⟨k, hk, hs⟩ := hc
      have hmany := (hsent k hk ((hI.run k hk).order.dist hs)).1 hs
      exact ⟨_, Finset.filter_subset _ _, hmany, fun i hi => (Finset.mem_filter.1 hi).2.1, fun i hi hri => settled_finished hH hq hI hset hi ((hsent i hi hri).2 hmany)⟩
    · right
      exact fun i hi => hnot i hi fun hs => hc ⟨i, hi, hs⟩

/-- **C85, completion (partial).** When nothing can happen any more and `2F+1` members `A` had submitted sets to MVBA that contain everything MVBA chose, the members of `A` and all others that
do not wait in the Refresh loop have completed. The members of `A` hold their slices of the new polynomial. Any `F+1` members that do not wait reconstruct the old secret, unless the reduced
share of such a member outside `A` is wrong and fits the commitments by chance.
What is missing for the full claim is that the sets of `2F+1` members contain the chosen set; the code does not ensure it, see `C85_stuck`. A member outside `A` may wait for ever, see
`C98_refuted`. -/
theorem C85_completes_partial (codec : PointCodec G1) (pp : Pairing Fr G1 G2 GT) (t : Fr) (b : ℕ → ℕ → Fr) (F N : ℕ) (S : RefSetup G1 G2) (hH : S.Holds pp t b F N)
    (q : ℕ → ℕ → ℕ → Fr) (hq : S.Contributes F q) (n : ℕ) (net : RefNet G1 G2) (hR : RefReach codec pp S n net) (hset : net.Settled codec pp S)
    (v : Bytes) (hv : ∃ i ∈ S.members, PEvent.mvba v ∈ net.evs i) (A : Finset ℕ) (hA : A ⊆ S.members) (hcard : 2 * F + 1 ≤ A.card)
    (hhad : ∀ i ∈ A, ∀ m, POut.mvba m ∈ net.outs i → ∀ j ∈ agreedIds v, j ∈ m.j.map (·.toNat)) :
    (∀ i ∈ S.members, (i ∈ A ∨ (net.st i).refreshWait = false) → net.Refreshed i ∧ (net.st i).finished = true) ∧
    (∀ i ∈ A, (net.party i).reducedShare = sliceX (refreshed b q (agreedIds v)) F (2 * F) ((i + 1 : ℕ) : Fr)) ∧
    ((∀ L : List ℕ, L.Nodup → L.length = F + 1 → (∀ i ∈ L, i ∈ S.members ∧ (i ∈ A ∨ (net.st i).refreshWait = false)) → Reconstructs F (biVal b F (2 * F) 0 0) (L.map net.party)) ∨
      ∃ h ∈ S.members, h ∉ A ∧ net.Refreshed h ∧ net.FitsByChance t b q F (agreedIds v) h) := by
  have hI := hR.inv
  obtain ⟨i0, hi0, hv⟩ := hv
  have hJ := names_agreed hR hi0 hv
  have hC : Chosen F S.members (agreedIds v) := hI.chosen hH hq (hI.traced i0 hi0 _ hv)
  have hinv : ∀ i ∈ S.members, _ := fun i him => (hI.run i him).shareInv (hH.seat him) (hH.gives hq him) (hH.signs him)
    (hI.env3 hH hq him (hI.traced i him) (hI.once i him) (hJ i him)).toEnv2 (hJ i him)
  have hgot : ∀ i ∈ S.members, (i ∈ A ∨ (net.st i).refreshWait = false) → net.Refreshed i := by
    intro i him hor
    rcases settled_refreshed hH hq hI hset him with h | hw
    · exact h
    · exfalso
      rcases hor with hi | hor
      · obtain ⟨j, rest, Qs, Cs, hb⟩ := (hI.run i him).blockedAt (hH.seat him).F1 hw
        obtain ⟨done, hd, -⟩ := ((hI.run i him).sumInv (hH.seat him) (hH.gives hq him) (hI.env1 hH him) (hJ i him)).loop _ _ _ hb.at_
        have hcall := (hI.run i him).callInv (hH.seat him) (hH.gives hq him) (hH.signs him) (hI.env1 hH him)
        obtain ⟨m, hm⟩ := hcall.out (settled_sent hH hq hI hset him)
        obtain ⟨u, hu, he⟩ := List.mem_map.1 (hhad i hi m hm j (by rw [hd]; simp))
        have := (hinv i him).called m hm u hu
        rw [he, hb.rec_] at this
        cases this
      · rw [hw] at hor; cases hor
  have hshare : ∀ i ∈ A, (net.party i).reducedShare = sliceX (refreshed b q (agreedIds v)) F (2 * F) ((i + 1 : ℕ) : Fr) := by
    intro i hi
    have him := hA hi
    obtain ⟨e1, e2, e3⟩ := hH.size i him
    obtain ⟨Cs, hd⟩ := hgot i him (Or.inl hi)
    have := (hinv i him).done Cs hd
      (fun m hm j hj => by
        obtain ⟨u, hu, he⟩ := List.mem_map.1 (hhad i hi m hm j hj)
        exact ⟨u, hu, he⟩)
    rw [e1, e3] at this
    exact this
  have hsent : ∀ i ∈ S.members, net.Refreshed i → (net.st i).successSent = true := by
    intro i hi hri
    classical
    apply (settled_success hH hq hI hset hJ hi hri).2
    refine le_trans hcard (Finset.card_le_card fun h hh => ?_)
    rw [Finset.mem_filter]
    refine ⟨hA hh, hgot h (hA hh) (Or.inl hh), ?_⟩
    unfold GoodAt
    rw [hshare h hh]
  refine ⟨fun i hi hor => ⟨hgot i hi hor, settled_finished hH hq hI hset hi (hsent i hi (hgot i hi hor))⟩, hshare, ?_⟩
  by_cases hlucky : ∃ h ∈ S.members, h ∉ A ∧ net.Refreshed h ∧ net.FitsByChance t b q F (agreedIds v) h
  · exact Or.inr hlucky
  left
  intro L hL hLl hLm
  have hfull := fun i hi hor => hI.full hH hq hJ (fun h hh hr hg => by
    by_cases hhA : h ∈ A
    · exact hshare h hhA
    · by_contra hne
      exact hlucky ⟨h, hh, hhA, hr, hne, hg⟩) (i := i) hi (hsent i hi (hgot i hi hor))
  rw [← refreshed_zero hH codec hq hC]
  have hpid : ∀ i ∈ S.members, (net.party i).pid = i := fun i hi => (hI.mem_setup hH hi).2.2.2
  apply reconstructs_of_shares F _ _ (by rw [List.length_map, hLl])
  · rw [List.map_map]
    have : L.map ((fun p : Party G1 G2 => p.pid) ∘ net.party) = L := by
      conv_rhs => rw [← List.map_id L]
      exact List.map_congr_left fun i hi => hpid i (hLm i hi).1
    rw [this]; exact hL
  · intro p hp
    obtain ⟨i, hi, rfl⟩ := List.mem_map.1 hp
    rw [hpid i (hLm i hi).1]
    have h1 := hH.lt i (hLm i hi).1
    exact lt_of_le_of_lt (by omega : i + 1 ≤ N) (lt_trans hH.N2 (by decide +kernel))
  · intro p hp
    obtain ⟨i, hi, rfl⟩ := List.mem_map.1 hp
    rw [hpid i (hLm i hi).1]
    exact hfull i (hLm i hi).1 (hLm i hi).2

/-- **C85, one set (partial).** When nothing can happen any more and all members had submitted the same set to MVBA, all members have completed and any `F+1` of them reconstruct the old
secret. -/
theorem C85_same_set_partial (codec : PointCodec G1) (pp : Pairing Fr G1 G2 GT) (t : Fr) (b : ℕ → ℕ → Fr) (F N : ℕ) (S : RefSetup G1 G2) (hH : S.Holds pp t b F N)
    (n : ℕ) (net : RefNet G1 G2) (hR : RefReach codec pp S n net) (hset : net.Settled codec pp S)
    (hsame : ∀ i ∈ S.members, ∀ k ∈ S.members, ∀ m m', POut.mvba m ∈ net.outs i → POut.mvba m' ∈ net.outs k → ∀ u ∈ m.j, u ∈ m'.j) :
    (∀ i ∈ S.members, (net.st i).finished = true) ∧
    ∀ L : List ℕ, L.Nodup → L.length = F + 1 → (∀ i ∈ L, i ∈ S.members) → Reconstructs F (biVal b F (2 * F) 0 0) (L.map net.party) := by
  obtain ⟨q, hq⟩ := hH.contributes
  obtain ⟨v, ⟨h, hh, m, hm, rfl⟩, hv⟩ := settled_agreed hH hq hR hset
  obtain ⟨s1, -, -⟩ := hR.inv.submitted hH hq hh hm
  obtain ⟨a, -, c⟩ := C85_completes_partial codec pp t b F N S hH q hq n net hR hset (marshal m) ⟨h, hh, hv h hh⟩ S.members (Finset.Subset.refl _) hH.enough (by
    intro i hi m' hm' j hj
    unfold agreedIds at hj
    rw [s1] at hj
    obtain ⟨u, hu, rfl⟩ := List.mem_map.1 hj
    exact List.mem_map_of_mem (hsame h hh i hi m m' hm hm' u hu))
  refine ⟨fun i hi => (a i hi (Or.inl hi)).2, ?_⟩
  rcases c with c | ⟨h', hh', hn, -⟩
  · exact fun L h1 h2 h3 => c L h1 h2 fun i hi => ⟨h3 i hi, Or.inl (h3 i hi)⟩
  · exact absurd hh' hn

/-- **C85, refuted.** All `N` parties take part and follow the protocol. There is an order of the messages after which nobody ever completes: party 0 recovers the contributions `1..F+1` first, all
others recover `F+2..2F+2` first, and MVBA chooses the set of party 0. The others leave out the contributions they have not recovered, so that their new commitments fit nobody's. The condition
says that what a party leaves out is not 0 at the setup secret. -/
theorem C85_stuck (codec : PointCodec G1) (pp : Pairing Fr G1 G2 GT) (t : Fr) (b : ℕ → ℕ → Fr) (F N : ℕ) (S : RefSetup G1 G2) (hH : S.Holds pp t b F N)
    (q : ℕ → ℕ → ℕ → Fr) (hq : S.Contributes F q) (hall : S.members = Finset.range N)
    (hne : ∀ i, 1 ≤ i → i < N → (((oneTo (F + 1)).filter (· ≠ i + 1)).map fun j => biVal (q j) F (2 * F) t ((i + 1 : ℕ) : Fr)).sum ≠ 0) :
    ∃ n net, RefReach codec pp S n net ∧ ∀ net', Relation.ReflTransGen (RefNet.Step codec pp S) net net' →
      ∀ i ∈ S.members, POut.success ∉ net'.outs i ∧ (net'.st i).finished = false := by
  have hN1 := hH.N1
  have hF1 := hH.F1
  have h00 : 0 ∈ S.members := by rw [hall]; exact Finset.mem_range.2 (by omega)
  obtain ⟨n, net, v, hR, hv, hnet⟩ := RefReach.scripted codec hH hq hall (fun i => if i = 0 then oneTo (F + 1) else (oneTo (F + 1)).map (· + (F + 1))) (by
    intro i
    by_cases hi : i = 0
    · rw [if_pos hi]
      refine ⟨nodup_oneTo _, by simp [oneTo], fun k hk => ?_⟩
      rw [mem_oneTo] at hk
      omega
    · rw [if_neg hi]
      refine ⟨(nodup_oneTo _).map fun a c h => by simpa using h, by simp [oneTo], fun k hk => ?_⟩
      obtain ⟨l, hl, rfl⟩ := List.mem_map.1 hk
      rw [mem_oneTo] at hl
      omega) 0 h00
  rw [if_pos rfl] at hv
  have hbad : ∀ i ∈ S.members, i ≠ 0 → ¬ GoodAt t b q F (oneTo (F + 1)) net i := by
    intro i hi hi0 hg
    obtain ⟨-, -, -, hl, hd⟩ := hnet i hi
    have hiN := hH.lt i hi
    simp only [if_true, if_neg hi0] at hd
    unfold GoodAt at hg
    rw [polyVal_listSum _ _ (F + 1) _ _ hl (sliceX_length _ _ _ _) (by
      intro j
      split
      · rw [sliceX_length]
      · simp) t hd, polyVal_sliceX, polyVal_sliceX, biVal_refreshed, add_right_inj, list_sum_split (oneTo (F + 1)) (fun j => biVal (q j) F (2 * F) t ((i + 1 : ℕ) : Fr)) (i + 1)] at hg
    refine hne i (by omega) hiN (left_eq_add.1 (Eq.trans ?_ hg))
    congr 1
    apply List.map_congr_left
    intro j hj
    rw [mem_oneTo] at hj
    have hnk : j ∉ (oneTo (F + 1)).map (· + (F + 1)) := by
      intro hm
      obtain ⟨l, hl, rfl⟩ := List.mem_map.1 hm
      rw [mem_oneTo] at hl
      omega
    by_cases hji : j = i + 1
    · rw [if_pos (Or.inr ⟨hji, by omega⟩), if_pos hji, polyVal_sliceX]
    · have hor : ¬ (j ∈ (oneTo (F + 1)).map (· + (F + 1)) ∨ j = i + 1 ∧ i + 1 ≤ 2 * F + 1) := by
        rintro (h | h)
        exacts [hnk h, hji h.1]
      rw [if_neg hji, if_neg hor]
      simp [polyVal]
  refine ⟨n, net, hR, fun net' hs i hi => ?_⟩
  obtain ⟨⟨n', hR'⟩, h1, h2, -⟩ := hR.later hs
  have hI := hR'.inv
  have hJ := names_agreed hR' h00 (h2 0 _ (hnet 0 h00).2.1)
  rw [hv] at hJ
  have hns : ¬ (net'.st i).successSent = true := by
    intro hsent
    classical
    have hc := hI.sent_good hH hq hJ hi hsent
    have hsub : (S.members.filter fun h => GoodAt t b q F (oneTo (F + 1)) net' h) ⊆ {0} := by
      intro h hh
      rw [Finset.mem_filter] at hh
      rw [Finset.mem_singleton]
      by_contra h0
      refine hbad h hh.1 h0 ?_
      have := hh.2
      unfold GoodAt at this ⊢
      rw [← (h1 h (hnet h hh.1).1).2]
      exact this
    have := Finset.card_le_card hsub
    rw [Finset.card_singleton] at this
    have hc' : 2 * F + 1 ≤ (S.members.filter fun h => GoodAt t b q F (oneTo (F + 1)) net' h).card := by convert hc
    omega
  have hdist := (hI.run i hi).distInv (hH.seat hi) (hH.gives hq hi) (hI.env3 hH hq hi (hI.traced i hi) (hI.once i hi) (hJ i hi))
  refine ⟨fun ho => hns (hdist.out.2 ho), ?_⟩
  cases hf : (net'.st i).finished with
  | false => rfl
  | true => exact absurd ((hI.run i hi).finished_sent hf) hns

/-- **C85, refuted for every size.** For every number of parties and every setup secret except 0 there is a committee of parties that follow the protocol, with contributions `x`, that can get
stuck. -/
theorem C85_not_live (codec : PointCodec G1) (pp : Pairing Fr G1 G2 GT) (t : Fr) (ht : t ≠ 0) (b : ℕ → ℕ → Fr) (F N : ℕ) (hF : 1 ≤ F) (hF' : F ≤ 2 ^ 20) (hN : 3 * F + 1 ≤ N)
    (hN' : N < 2 ^ 32) : ∃ S : RefSetup G1 G2, S.Holds pp t b F N ∧ S.members = Finset.range N ∧ ∃ n net, RefReach codec pp S n net ∧
      ∀ net', Relation.ReflTransGen (RefNet.Step codec pp S) net net' → ∀ i ∈ S.members, POut.success ∉ net'.outs i ∧ (net'.st i).finished = false := by
  obtain ⟨S, hH, hM, hc⟩ := exists_holds pp t b F N hF hF' hN hN' (Finset.range N) (fun i hi => Finset.mem_range.1 hi) (by rw [Finset.card_range]; omega) lineCoins
  refine ⟨S, hH, hM, C85_stuck codec pp t b F N S hH lineQ (fun h k _ _ => by rw [hc]; exact lineQ_slices F (h + 1) k) hM fun i _ _ => ?_⟩
  have e : ((oneTo (F + 1)).filter (· ≠ i + 1)).map (fun j => biVal (lineQ j) F (2 * F) t ((i + 1 : ℕ) : Fr)) = ((oneTo (F + 1)).filter (· ≠ i + 1)).map fun _ => t :=
    List.map_congr_left fun j _ => lineQ_val F hF j t _
  rw [e, List.map_const', List.sum_replicate, nsmul_eq_mul]
  have hlen : F ≤ ((oneTo (F + 1)).filter (· ≠ i + 1)).length ∧ ((oneTo (F + 1)).filter (· ≠ i + 1)).length ≤ F + 1 := by
    have h1 := List.length_filter_le (· ≠ i + 1) (oneTo (F + 1))
    have h2 := List.length_eq_length_filter_add (l := oneTo (F + 1)) (· ≠ i + 1)
    have h3 : ((oneTo (F + 1)).filter fun x => !decide (x ≠ i + 1)).length ≤ 1 := by
      have : ((oneTo (F + 1)).filter fun x => !decide (x ≠ i + 1)).length = (oneTo (F + 1)).count (i + 1) := by
        rw [List.count_eq_length_filter]
        congr 1
        apply List.filter_congr
        intro x _
        by_cases hx : x = i + 1 <;> simp [hx]
      rw [this]
      exact List.nodup_iff_count_le_one.1 (nodup_oneTo _) _
    have h4 : (oneTo (F + 1)).length = F + 1 := by simp [oneTo]
    omega
  refine mul_ne_zero ?_ ht
  intro h0
  have hr : (2 : ℕ) ^ 20 + 1 < frModulus := by decide +kernel
  have := (ZMod.natCast_eq_zero_iff _ _).1 h0
  have := Nat.le_of_dvd (by omega) this
  omega

/-! ### Concrete committees -/

/-- The four parties of `C85_same_set_partial`: all submit the contributions of parties 2 and 4; all complete and 42 is reconstructed. -/
example : ∃ (S : RefSetup Fr Fr) (n : ℕ) (net : RefNet Fr Fr), S.Holds (Pairing.dlog Fr) 7 bX 1 4 ∧ S.members = Finset.range 4 ∧ RefReach frCodec (Pairing.dlog Fr) S n net ∧
    net.Settled frCodec (Pairing.dlog Fr) S ∧ (∀ i ∈ S.members, (net.st i).finished = true) ∧ Reconstructs 1 42 ([3, 1].map net.party) := by
  obtain ⟨S, hH, hM, hc⟩ := exists_holds (Pairing.dlog Fr) 7 bX 1 4 le_rfl (by norm_num) le_rfl (by norm_num) (Finset.range 4) (fun i hi => Finset.mem_range.1 hi) (by decide) lineCoins
  have hq : S.Contributes 1 lineQ := fun h k _ _ => by rw [hc]; exact lineQ_slices 1 (h + 1) k
  obtain ⟨n, net, v, hR, hv, hnet⟩ := RefReach.scripted frCodec hH hq hM (fun _ => [2, 4]) (fun _ => ⟨by decide, rfl, by decide⟩) 0 (by rw [hM]; decide)
  obtain ⟨n', net', hR', hs, hset⟩ := C85_settles frCodec (Pairing.dlog Fr) 7 bX 1 4 S hH n net hR
  obtain ⟨-, -, -, h3⟩ := hR.later hs
  have hsub : ∀ i ∈ S.members, ∀ m, POut.mvba m ∈ net'.outs i → m.j.map (·.toNat) = [2, 4] := by
    intro i hi m hm
    obtain ⟨-, -, ⟨m', hm', e⟩, -⟩ := hnet i hi
    rw [((hR'.inv.run i hi).one_call (hH.seat hi) (hH.gives hq hi) (hR'.inv.env1 hH hi)).2 m m' hm (h3 i _ hm')]
    exact e
  obtain ⟨a, c⟩ := C85_same_set_partial frCodec (Pairing.dlog Fr) 7 bX 1 4 S hH n' net' hR' hset (by
    intro i hi k hk m m' hm hm' u hu
    have h1 : u.toNat ∈ [2, 4] := by rw [← hsub i hi m hm]; exact List.mem_map_of_mem hu
    rw [← hsub k hk m' hm'] at h1
    obtain ⟨w, hw, he⟩ := List.mem_map.1 h1
    rwa [← UInt32.toNat_inj.1 he])
  refine ⟨S, n', net', hH, hM, hR', hset, a, ?_⟩
  have := c [3, 1] (by decide) rfl (by rw [hM]; decide)
  have e : biVal bX 1 (2 * 1) 0 0 = 42 := by simp [biVal, bX, Finset.sum_range_succ]
  rwa [e] at this

/-- `C85_stuck` with four parties and setup secret 7. -/
example : ∃ (S : RefSetup Fr Fr) (n : ℕ) (net : RefNet Fr Fr), S.Holds (Pairing.dlog Fr) 7 bX 1 4 ∧ S.members = Finset.range 4 ∧ RefReach frCodec (Pairing.dlog Fr) S n net ∧
    net.Settled frCodec (Pairing.dlog Fr) S ∧ ∀ i < 4, POut.success ∉ net.outs i ∧ (net.st i).finished = false := by
  obtain ⟨S, hH, hM, n, net, hR, hstuck⟩ := C85_not_live frCodec (Pairing.dlog Fr) 7 (by decide +kernel) bX 1 4 le_rfl (by norm_num) le_rfl (by norm_num)
  obtain ⟨n', net', hR', hs, hset⟩ := C85_settles frCodec (Pairing.dlog Fr) 7 bX 1 4 S hH n net hR
  exact ⟨S, n', net', hH, hM, hR', hset, fun i hi => hstuck net' hs i (by rw [hM]; exact Finset.mem_range.2 hi)⟩

end

end DyCAPS
