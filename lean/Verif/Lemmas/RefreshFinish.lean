import Verif.Lemmas.RefreshSettled

/-! What the members of a committee hold when their refresh has ended. -/

set_option linter.unusedSectionVars false

namespace DyCAPS

section
variable {G1 G2 GT : Type} [AddCommGroup G1] [Module Fr G1] [AddCommGroup G2] [Module Fr G2] [AddCommGroup GT] [Module Fr GT]
variable [DecidableEq G1] [DecidableEq GT]
variable {codec : PointCodec G1} {pp : Pairing Fr G1 G2 GT} {tb : Tbls} {p0 : Party G1 G2} {c : DealerCoins} {S : RefSetup G1 G2} {net : RefNet G1 G2}
variable {t : Fr} {b : ℕ → ℕ → Fr} {F N n : ℕ} {q : ℕ → ℕ → ℕ → Fr} {H : Finset ℕ} {coins : ℕ → DealerCoins} {sgn : ℕ → Bytes → Bytes} {J : List ℕ} {R : ℕ → List Fr}

/-- Success messages are counted after the own one was sent. -/
theorem PRun.counted_sent {evs : List PEvent} {outs : List POut} {p : Party G1 G2} {st : PState G1} (hrun : PRun codec pp tb p0 (PState.init p0 c) evs outs p st) :
    (1 ≤ st.successCount → st.successSent = true) ∧ (st.finished = true → 1 ≤ st.successCount) := by
  induction hrun with
  | nil => exact ⟨fun h => by simp [PState.init] at h, fun h => by simp [PState.init] at h⟩
  | snoc hr hs ih =>
    rename_i evs1 outs1 p1 st1 ev p' st' out
    cases step_effect hs with
    | success h1 h2 => exact ⟨fun _ => h1, fun _ => Nat.le_add_left _ _⟩
    | distFull => exact ⟨fun _ => rfl, ih.2⟩
    | _ => exact ih

theorem PRun.finished_sent {evs : List PEvent} {outs : List POut} {p : Party G1 G2} {st : PState G1} (hrun : PRun codec pp tb p0 (PState.init p0 c) evs outs p st)
    (hf : st.finished = true) : st.successSent = true := hrun.counted_sent.1 (hrun.counted_sent.2 hf)

/-- MVBA is called once. -/
theorem PRun.one_call (hS : Seat pp t b p0) (hG : Gives p0 H coins q) {evs : List PEvent} {outs : List POut} {p : Party G1 G2} {st : PState G1}
    (hrun : PRun codec pp tb p0 (PState.init p0 c) evs outs p st) (henv : Env1 codec pp t p0 H coins evs) :
    (∀ m, POut.mvba m ∈ outs → st.mvbaSent = true) ∧ ∀ m m', POut.mvba m ∈ outs → POut.mvba m' ∈ outs → m = m' := by
  induction hrun with
  | nil => exact ⟨fun m h => by simp at h, fun m m' h => by simp at h⟩
  | snoc hr hs ih =>
    rename_i evs1 outs1 p1 st1 ev p' st' out
    have henv1 := henv.mono (evs := evs1) fun e he => List.mem_append_left _ he
    have ih := ih henv1
    cases step_effect hs with
    | reshare h1 h2 hv =>
      have hno : ∀ m, POut.mvba m ∉ out := by
        intro m hm
        obtain ⟨l, r, e⟩ := vote_recover _ _ _ _ hv _ hm
        cases e
      have hin : ∀ m, POut.mvba m ∈ outs1 ++ out → POut.mvba m ∈ outs1 := fun m hm => (List.mem_append.1 hm).resolve_right (hno m)
      exact ⟨fun m hm => ih.1 m (hin m hm), fun m m' hm hm' => ih.2 m m' (hin m hm) (hin m' hm')⟩
    | handleCall h1 h2 h3 hQ h4 h5 h6 h7 =>
      have hno : ∀ m, POut.mvba m ∉ outs1 := fun m hm => by rw [ih.1 m hm] at h6; cases h6
      refine ⟨fun _ _ => rfl, fun m m' hm hm' => ?_⟩
      have a := List.mem_singleton.1 ((List.mem_append.1 hm).resolve_left (hno m))
      have b' := List.mem_singleton.1 ((List.mem_append.1 hm').resolve_left (hno m'))
      rw [← b'] at a
      exact POut.mvba.inj a
    | distFull =>
      have hin : ∀ m, POut.mvba m ∈ outs1 ++ [POut.success] → POut.mvba m ∈ outs1 := fun m hm => (List.mem_append.1 hm).resolve_right (by simp)
      exact ⟨fun m hm => ih.1 m (hin m hm), fun m m' hm hm' => ih.2 m m' (hin m hm) (hin m' hm')⟩
    | _ => rw [List.append_nil]; exact ih

/-- Members only send right values, unless a wrong reduced share fits the commitments by chance. -/
theorem Env3.phyp (hS : Seat pp t b p0) (hG : Gives p0 H coins q) (hT : Signs tb H sgn) {evs : List PEvent} (henv : Env3 codec pp t p0 H coins q sgn J R evs)
    (hex : ∀ h ∈ H, distEv codec pp t p0 R h ∈ evs → Good p0 t b q J R h → R h = sliceX (refreshed b q J) p0.F (2 * p0.F) ((h + 1 : ℕ) : Fr)) : PHyp codec pp t p0 b q J evs := by
  have hlt : ∀ h ∈ H, h + 1 < 2 ^ 32 := fun h hh => by have := hG.lt h hh; have := hS.N2; omega
  refine ⟨fun j d hm row row' hv => ?_, henv.names, fun s d hm m hd hc => ?_, fun s d hm w hw v hv hc => ?_⟩
  · obtain ⟨h, hh, rfl, m, hmsg, hd⟩ := henv.commit j _ hm
    rw [Option.some.inj hd] at hv
    obtain ⟨row2, h1, h2⟩ := Same.commit hS hG ⟨rfl, rfl, rfl, rfl, rfl, rfl, rfl⟩ hh hmsg row
    rw [hv] at h1
    have h1 := Except.ok.inj h1
    rw [Prod.mk.injEq] at h1
    rw [h1.1]; exact h2
  · obtain ⟨h, hh, k, hk, he⟩ := henv.recover s d hm
    unfold takeEv at he
    obtain ⟨h1, h2⟩ := PEvent.takeRecover.inj he
    rw [h1, h2, Same.recover hS hG hT ⟨rfl, rfl, rfl, rfl, rfl, rfl, rfl⟩ hh hk] at hd
    rw [← Except.ok.inj hd]
    rfl
  · obtain ⟨h, hh, he⟩ := henv.dist s d hm
    have hmem : distEv codec pp t p0 R h ∈ evs := by rw [← he]; exact hm
    unfold distEv at he
    obtain ⟨h1, h2⟩ := PEvent.shareDist.inj he
    rw [h2, shareDist_read] at hw hv
    simp only [frFrom32_copy] at hv
    have hw : w = quotVal (R h) ((p0.pid + 1 : ℕ) : Fr) t • pp.g1 := by
      have := codec.dec_enc (quotVal (R h) ((p0.pid + 1 : ℕ) : Fr) t • pp.g1)
      rw [this] at hw
      exact (Option.some.inj hw).symm
    have hF1 := hS.F1
    rw [h1, ofNat_succ_toNat (by have := hlt h hh; omega)] at hc ⊢
    rw [hS.setup.kzg, checkProofSingle_ok pp t _ (by omega), hw, hv, smul_smul, ← sub_smul] at hc
    have hc := smul_g1_inj pp (of_decide_eq_true (Except.ok.inj hc))
    have hm := quotVal_mul (R h) ((p0.pid + 1 : ℕ) : Fr) t
    have hgood : Good p0 t b q J R h := by
      unfold Good expected
      linear_combination -hm - hc
    rw [hv, hex h hh hmem hgood, polyVal_sliceX]

/-- The new full shares. -/
theorem NetInv.full (hH : S.Holds pp t b F N) (hq : S.Contributes F q) (hI : NetInv codec pp S n net) (hJ : ∀ i ∈ S.members, NamesJ J (net.evs i))
    (hex : ∀ h ∈ S.members, net.Refreshed h → GoodAt t b q F J net h → (net.party h).reducedShare = sliceX (refreshed b q J) F (2 * F) ((h + 1 : ℕ) : Fr)) {i : ℕ} (hi : i ∈ S.members)
    (hs : (net.st i).successSent = true) : (net.party i).fullShare = sliceY (refreshed b q J) F (2 * F) ((i + 1 : ℕ) : Fr) := by
  obtain ⟨e1, e2, e3⟩ := hH.size i hi
  have hS := hH.seat hi
  have henv := hI.env3 hH hq hi (hI.traced i hi) (hI.once i hi) (hJ i hi)
  have hyp := henv.phyp hS (hH.gives hq hi) (hH.signs hi) (fun h hh hm hg => by
    rw [e1]
    refine hex h hh ?_ ?_
    · obtain ⟨h', hh', e, hr, -⟩ := hI.traced i hi _ hm
      have := hH.lt h hh
      have := hH.lt h' hh'
      have := hH.N2
      rw [ofNat_inj32 (by omega) (by omega) e]
      exact hr
    unfold Good expected at hg
    rw [e1] at hg
    exact hg)
  have := (PInv.run hS.setup hS.N1 hS.r hS.coms hS.pid (hI.run i hi) hyp).full hs
  rw [e1, e3] at this
  exact this

/-- What stays in a later state of a committee. -/
theorem RefReach.later (hR : RefReach codec pp S n net) {net' : RefNet G1 G2} (hs : Relation.ReflTransGen (RefNet.Step codec pp S) net net') :
    (∃ n', RefReach codec pp S n' net') ∧ (∀ h, net.Refreshed h → net'.Refreshed h ∧ (net'.party h).reducedShare = (net.party h).reducedShare) ∧
      (∀ h, ∀ e ∈ net.evs h, e ∈ net'.evs h) ∧ ∀ h, ∀ o ∈ net.outs h, o ∈ net'.outs h := by
  induction hs with
  | refl => exact ⟨⟨n, hR⟩, fun h hh => ⟨hh, rfl⟩, fun _ _ h => h, fun _ _ h => h⟩
  | tail _ hstep ih =>
    obtain ⟨⟨n', hR'⟩, h1, h2, h3⟩ := ih
    obtain ⟨i, hi, ev, p', st', out, ho, hp, rfl⟩ := hstep
    refine ⟨⟨_, hR'.step hi ho hp⟩, fun h hh => ?_, fun h e he => ?_, fun h o hm => RefNet.put_outs (h3 h o hm)⟩
    · obtain ⟨a, c⟩ := h1 h hh
      obtain ⟨a', c', -⟩ := RefNet.put_refreshed hp (hR'.inv.run i hi).order.wait a
      exact ⟨a', by rw [c', c]⟩
    · have he := h2 h e he
      show e ∈ upd _ i _ h
      by_cases hhi : h = i
      · subst hhi; rw [upd_same]; exact List.mem_append_left _ he
      · rw [upd_ne _ _ hhi]; exact he

open Classical in
/-- Success is only sent when `2F+1` members have reduced shares that fit the commitments. -/
theorem NetInv.sent_good (hH : S.Holds pp t b F N) (hq : S.Contributes F q) (hI : NetInv codec pp S n net) (hJ : ∀ i ∈ S.members, NamesJ J (net.evs i)) {i : ℕ} (hi : i ∈ S.members)
    (hs : (net.st i).successSent = true) : 2 * F + 1 ≤ (S.members.filter fun h => GoodAt t b q F J net h).card := by
  obtain ⟨e1, e2, e3⟩ := hH.size i hi
  have hdist := (hI.run i hi).distInv (hH.seat hi) (hH.gives hq hi) (hI.env3 hH hq hi (hI.traced i hi) (hI.once i hi) (hJ i hi))
  have h1 := hdist.sent.1 hs
  rw [e1] at h1
  have hsub : ((net.st i).SB.map (·.1)).toFinset ⊆ (S.members.filter fun h => GoodAt t b q F J net h).image (· + 1) := by
    intro j hj
    rw [List.mem_toFinset] at hj
    obtain ⟨-, h, hh, rfl, hg⟩ := hdist.sb j hj
    refine Finset.mem_image.2 ⟨h, Finset.mem_filter.2 ⟨hh, ?_⟩, rfl⟩
    unfold Good expected at hg
    rw [e1] at hg
    exact hg
  have h2 := Finset.card_le_card hsub
  rw [List.toFinset_card_of_nodup hdist.nodup, Finset.card_image_of_injective _ (fun a b h => Nat.succ.inj h), List.length_map] at h2
  omega

theorem Contributes.zero (codec : PointCodec G1) (hH : S.Holds pp t b F N) (hq : S.Contributes F q) {h : ℕ} (hh : h ∈ S.members) : biVal (q (h + 1)) F (2 * F) 0 0 = 0 := by
  obtain ⟨e1, e2, e3⟩ := hH.size h hh
  have hS := hH.seat hh
  have := (honest_commit_for codec pp t (S.start h) hS.setup hS.F1 hS.F2 hS.N1 hS.r (S.coins h) (q (h + 1)) (by rw [e1]; exact hq h) _
    (commitMsg_ok codec pp t (S.start h).F (S.coins h))).1
  rwa [e1] at this

theorem refreshed_zero (hH : S.Holds pp t b F N) (codec : PointCodec G1) (hq : S.Contributes F q) (hC : Chosen F S.members J) :
    biVal (refreshed b q J) F (2 * F) 0 0 = biVal b F (2 * F) 0 0 := by
  rw [biVal_refreshed]
  have : (J.map fun j => biVal (q j) F (2 * F) 0 0) = J.map fun _ => 0 := by
    apply List.map_congr_left
    intro j hj
    obtain ⟨h, hh, rfl⟩ := hC.mem j hj
    exact Contributes.zero codec hH hq hh
  rw [this]
  simp

end

end DyCAPS
