import Verif.Lemmas.RefreshTotal
import Verif.Spec.RefreshNet

/-! Where the messages in a committee come from. -/

set_option linter.unusedSectionVars false

namespace DyCAPS

section
variable {G1 G2 GT : Type} [AddCommGroup G1] [Module Fr G1] [AddCommGroup G2] [Module Fr G2] [AddCommGroup GT] [Module Fr GT]
variable [DecidableEq G1] [DecidableEq GT]

/-- Events that happen at most once. -/
def PEvent.isOnce (ev : PEvent) : Bool := ev.isReshare || ev.isTake || ev.isDist

/-- `RefNet.Offers` without the conditions that nothing is delivered twice. -/
def RefNet.Traced (codec : PointCodec G1) (pp : Pairing Fr G1 G2 GT) (S : RefSetup G1 G2) (net : RefNet G1 G2) (i : ℕ) : PEvent → Prop
  | .commit j data => ∃ h ∈ S.members, j = h + 1 ∧ ∃ m, commitMsg codec pp (S.start h).kzg (S.start h).F (S.coins h) = .ok m ∧ data = some (marshal m)
  | .reshare s d => ∃ h ∈ S.members, s = UInt32.ofNat h ∧ ∃ m, reshareMsg codec (S.start h).kzg (S.start h).F (S.coins h) (i + 1) = .ok m ∧ d = marshal m
  | .takeRecover s d => ∃ h ∈ S.members, s = UInt32.ofNat h ∧ ∃ m, POut.recover (i + 1) m ∈ net.outs h ∧ d = marshal m
  | .mvba v => ∃ h ∈ S.members, ∃ m, POut.mvba m ∈ net.outs h ∧ v = marshal m
  | .newCommit j data => ∃ h ∈ S.members, j = h + 1 ∧ net.Refreshed h ∧ ∃ d, newCommitMsg codec (net.party h) = .ok d ∧ data = some d
  | .shareDist s d => ∃ h ∈ S.members, s = UInt32.ofNat h ∧ net.Refreshed h ∧ ∃ m, shareDistMsg codec (net.party h) (i + 1) = .ok m ∧ d = marshal m
  | _ => True

variable {codec : PointCodec G1} {pp : Pairing Fr G1 G2 GT} {tb : Tbls} {S : RefSetup G1 G2} {net : RefNet G1 G2}

theorem RefNet.Offers.traced {i : ℕ} {ev : PEvent} (h : net.Offers codec pp S i ev) : net.Traced codec pp S i ev := by
  cases ev with
  | commit j data => exact h
  | reshare s d => exact h.2
  | takeRecover s d => exact h.2
  | mvba v => exact h.2
  | newCommit j data => exact h
  | shareDist s d => exact h.2
  | _ => trivial

theorem RefNet.Offers.fresh {i : ℕ} {ev : PEvent} (h : net.Offers codec pp S i ev) (ho : ev.isOnce = true) : ev ∉ net.evs i := by
  cases ev with
  | reshare s d => exact h.1
  | takeRecover s d => exact h.1
  | shareDist s d => exact h.1
  | _ => cases ho

theorem step_refreshed {p p' : Party G1 G2} {st st' : PState G1} {ev : PEvent} {out : List POut} (hs : proactStep codec pp tb p st ev = some (.ok (p', st', out)))
    (hw : st.mvbaRunning = true → st.refresh = .waiting) {Cs : ℕ → G1} (hd : st.refresh = .done Cs) :
    st'.refresh = .done Cs ∧ p'.reducedShare = p.reducedShare ∧ p'.kzg = p.kzg := by
  cases step_effect hs with
  | mvba h1 => rw [hw h1] at hd; cases hd
  | refreshCom h1 => rw [h1] at hd; cases hd
  | refreshRec h1 => rw [h1] at hd; cases hd
  | refreshEnd h1 => rw [h1] at hd; cases hd
  | _ => exact ⟨hd, rfl, rfl⟩

theorem newCommitMsg_congr {p p' : Party G1 G2} (h1 : p'.reducedShare = p.reducedShare) (h2 : p'.kzg = p.kzg) : newCommitMsg codec p' = newCommitMsg codec p := by
  unfold newCommitMsg; rw [h1, h2]

theorem shareDistMsg_congr {p p' : Party G1 G2} (h1 : p'.reducedShare = p.reducedShare) (h2 : p'.kzg = p.kzg) (l : ℕ) :
    shareDistMsg codec p' l = shareDistMsg codec p l := by
  unfold shareDistMsg; rw [h1, h2]

/-- What stays as it was when somebody makes a step. -/
theorem RefNet.put_refreshed {j : ℕ} {ev : PEvent} {p' : Party G1 G2} {st' : PState G1} {out : List POut}
    (hs : proactStep codec pp tb (net.party j) (net.st j) ev = some (.ok (p', st', out)))
    (hw : (net.st j).mvbaRunning = true → (net.st j).refresh = .waiting) {h : ℕ} (hd : net.Refreshed h) :
    (net.put j ev p' st' out).Refreshed h ∧ ((net.put j ev p' st' out).party h).reducedShare = (net.party h).reducedShare ∧
      ((net.put j ev p' st' out).party h).kzg = (net.party h).kzg := by
  obtain ⟨Cs, hd⟩ := hd
  by_cases he : h = j
  · subst he
    obtain ⟨a, b, c⟩ := step_refreshed hs hw hd
    refine ⟨⟨Cs, ?_⟩, ?_, ?_⟩
    · show (upd net.st h st' h).refresh = _
      rw [upd_same, a]
    · show (upd net.party h p' h).reducedShare = _
      rw [upd_same, b]
    · show (upd net.party h p' h).kzg = _
      rw [upd_same, c]
  · refine ⟨⟨Cs, ?_⟩, ?_, ?_⟩
    · show (upd net.st j st' h).refresh = _
      rw [upd_ne _ _ he, hd]
    · show (upd net.party j p' h).reducedShare = _
      rw [upd_ne _ _ he]
    · show (upd net.party j p' h).kzg = _
      rw [upd_ne _ _ he]

theorem RefNet.put_outs {j : ℕ} {ev : PEvent} {p' : Party G1 G2} {st' : PState G1} {out : List POut} {h : ℕ} {o : POut} (ho : o ∈ net.outs h) :
    o ∈ (net.put j ev p' st' out).outs h := by
  show o ∈ upd net.outs j (net.outs j ++ out) h
  by_cases he : h = j
  · subst he; rw [upd_same]; exact List.mem_append_left _ ho
  · rw [upd_ne _ _ he]; exact ho

theorem RefNet.Traced.put {j : ℕ} {ev : PEvent} {p' : Party G1 G2} {st' : PState G1} {out : List POut}
    (hs : proactStep codec pp tb (net.party j) (net.st j) ev = some (.ok (p', st', out)))
    (hw : (net.st j).mvbaRunning = true → (net.st j).refresh = .waiting) {i : ℕ} {e : PEvent} (h : net.Traced codec pp S i e) :
    (net.put j ev p' st' out).Traced codec pp S i e := by
  cases e with
  | commit j data => exact h
  | reshare s d => exact h
  | takeRecover s d =>
    obtain ⟨k, hk, h1, m, hm, h2⟩ := h
    exact ⟨k, hk, h1, m, RefNet.put_outs hm, h2⟩
  | mvba v =>
    obtain ⟨k, hk, m, hm, h2⟩ := h
    exact ⟨k, hk, m, RefNet.put_outs hm, h2⟩
  | newCommit j data =>
    obtain ⟨k, hk, h1, h2, d, h3, h4⟩ := h
    obtain ⟨a, b, c⟩ := RefNet.put_refreshed hs hw h2
    exact ⟨k, hk, h1, a, d, by rw [newCommitMsg_congr b c]; exact h3, h4⟩
  | shareDist s d =>
    obtain ⟨k, hk, h1, h2, m, h3, h4⟩ := h
    obtain ⟨a, b, c⟩ := RefNet.put_refreshed hs hw h2
    exact ⟨k, hk, h1, a, m, by rw [shareDistMsg_congr b c]; exact h3, h4⟩
  | _ => trivial

/-- What holds in every state of the committee. -/
structure NetInv (codec : PointCodec G1) (pp : Pairing Fr G1 G2 GT) (S : RefSetup G1 G2) (n : ℕ) (net : RefNet G1 G2) : Prop where
  run : ∀ i ∈ S.members, PRun codec pp (S.tb i) (S.start i) (PState.init (S.start i) (S.coins i)) (net.evs i) (net.outs i) (net.party i) (net.st i)
  traced : ∀ i ∈ S.members, ∀ ev ∈ net.evs i, net.Traced codec pp S i ev
  once : ∀ i ∈ S.members, ∀ e1 ev e2, net.evs i = e1 ++ ev :: e2 → ev.isOnce = true → ev ∉ e1
  common : ∀ i ∈ S.members, ∀ i' ∈ S.members, ∀ v v', PEvent.mvba v ∈ net.evs i → PEvent.mvba v' ∈ net.evs i' → v = v'
  steps : n = ∑ i ∈ S.members, (net.evs i).length

theorem once_snoc {α : Type} {l e1 e2 : List α} {a x : α} (h : l ++ [a] = e1 ++ x :: e2) : (l = e1 ∧ a = x ∧ e2 = []) ∨ ∃ e3, e2 = e3 ++ [a] ∧ l = e1 ++ x :: e3 := by
  rcases List.eq_nil_or_concat e2 with rfl | ⟨e3, y, rfl⟩
  · left
    obtain ⟨h1, h2⟩ := List.append_inj' h rfl
    exact ⟨h1, List.head_eq_of_cons_eq h2, rfl⟩
  · right
    rw [List.concat_eq_append] at h ⊢
    rw [← List.cons_append, ← List.append_assoc] at h
    obtain ⟨h1, h2⟩ := List.append_inj' h rfl
    exact ⟨e3, by rw [List.head_eq_of_cons_eq h2], h1⟩

theorem RefReach.inv {n : ℕ} (h : RefReach codec pp S n net) : NetInv codec pp S n net := by
  induction h with
  | init =>
    exact ⟨fun i _ => PRun.nil, fun i _ ev h => by simp [RefNet.init] at h, fun i _ e1 ev e2 h => by simp [RefNet.init] at h,
      fun i _ i' _ v v' h => by simp [RefNet.init] at h, by simp [RefNet.init]⟩
  | step h hi ho hs ih =>
    rename_i n net i ev p' st' out
    have hw := (ih.run i hi).order.wait
    have hev : ∀ k e, e ∈ (net.put i ev p' st' out).evs k → (e ∈ net.evs k) ∨ (k = i ∧ e = ev) := by
      intro k e he
      have he : e ∈ upd net.evs i (net.evs i ++ [ev]) k := he
      by_cases hk : k = i
      · subst hk
        rw [upd_same, List.mem_append, List.mem_singleton] at he
        rcases he with he | he
        · exact Or.inl he
        · exact Or.inr ⟨rfl, he⟩
      · rw [upd_ne _ _ hk] at he; exact Or.inl he
    refine ⟨?_, ?_, ?_, ?_, ?_⟩
    · intro k hk
      show PRun codec pp (S.tb k) (S.start k) _ (upd net.evs i (net.evs i ++ [ev]) k) (upd net.outs i (net.outs i ++ out) k) (upd net.party i p' k) (upd net.st i st' k)
      by_cases hki : k = i
      · subst hki
        rw [upd_same, upd_same, upd_same, upd_same]
        exact (ih.run k hk).snoc hs
      · rw [upd_ne _ _ hki, upd_ne _ _ hki, upd_ne _ _ hki, upd_ne _ _ hki]
        exact ih.run k hk
    · intro k hk e he
      apply RefNet.Traced.put hs hw
      rcases hev k e he with he | ⟨rfl, rfl⟩
      · exact ih.traced k hk e he
      · exact ho.traced
    · intro k hk e1 e e2 he hon
      have he : upd net.evs i (net.evs i ++ [ev]) k = _ := he
      by_cases hki : k = i
      · subst hki
        rw [upd_same] at he
        rcases once_snoc he with ⟨rfl, rfl, rfl⟩ | ⟨e3, rfl, h2⟩
        · exact ho.fresh hon
        · exact ih.once k hk e1 e e3 h2 hon
      · rw [upd_ne _ _ hki] at he
        exact ih.once k hk e1 e e2 he hon
    · intro k hk k' hk' v v' hv hv'
      rcases hev k _ hv with hv1 | ⟨h1, h2⟩
      · rcases hev k' _ hv' with hv1' | ⟨h1, h2⟩
        · exact ih.common k hk k' hk' v v' hv1 hv1'
        · rw [← h2] at ho
          exact ho.1 k hk v hv1
      · rcases hev k' _ hv' with hv1' | ⟨h1', h2'⟩
        · rw [← h2] at ho
          exact (ho.1 k' hk' v' hv1').symm
        · exact PEvent.mvba.inj (h2.trans h2'.symm)
    · have e : ∀ k ∈ S.members, ((net.put i ev p' st' out).evs k).length = (net.evs k).length + if k = i then 1 else 0 := by
        intro k hk
        show (upd net.evs i (net.evs i ++ [ev]) k).length = _
        by_cases hki : k = i
        · subst hki; rw [upd_same, if_pos rfl, List.length_append, List.length_singleton]
        · rw [upd_ne _ _ hki, if_neg hki]; rfl
      rw [Finset.sum_congr rfl e, Finset.sum_add_distrib, ← ih.steps, Finset.sum_ite_eq', if_pos hi]

/-! ### The messages of members -/

variable {t : Fr} {b : ℕ → ℕ → Fr} {F N : ℕ} {q : ℕ → ℕ → ℕ → Fr}

theorem RefSetup.Holds.seat (hH : S.Holds pp t b F N) {i : ℕ} (hi : i ∈ S.members) : Seat pp t b (S.start i) := by
  obtain ⟨e1, e2, e3⟩ := hH.size i hi
  have := hH.lt i hi
  exact ⟨hH.setup i hi, by rw [e1]; exact hH.F1, by rw [e1]; exact hH.F2, by rw [e1, e2]; exact hH.N1, by rw [e2]; exact hH.N2, by rw [e2, e3]; exact this, hH.coms i hi,
    by rw [e1, e3]; exact hH.share i hi⟩

theorem RefSetup.Holds.r (hH : S.Holds pp t b F N) : 2 * F + 1 < frModulus :=
  lt_trans (by have := hH.N1; have := hH.N2; omega : 2 * F + 1 < 2 ^ 32) (by decide +kernel)

theorem RefSetup.Holds.contributes (hH : S.Holds pp t b F N) : ∃ q, S.Contributes F q := by
  choose q hq _ using fun h => dealer_bivariate F 0 (S.coins h) hH.r
  exact ⟨fun j => q (j - 1), fun h k k1 k2 => hq h k k1 k2⟩

theorem RefSetup.Holds.gives (hH : S.Holds pp t b F N) (hq : S.Contributes F q) {i : ℕ} (hi : i ∈ S.members) : Gives (S.start i) S.members S.coins q := by
  obtain ⟨e1, e2, e3⟩ := hH.size i hi
  exact ⟨fun h hh => by rw [e2]; exact hH.lt h hh, fun h _ k k1 k2 => by rw [e1] at k2 ⊢; exact hq h k k1 k2⟩

theorem RefSetup.Holds.signs (hH : S.Holds pp t b F N) {i : ℕ} (hi : i ∈ S.members) : Signs (S.tb i) S.members (fun h => (S.tb h).sign) :=
  ⟨fun h hh m => hH.verify i hi h hh m, fun h hh m => hH.signLen h hh m, fun m s a n r hr => hH.recoverLen i hi m s a n r hr⟩

theorem RefNet.env1 (hH : S.Holds pp t b F N) {i : ℕ} (hi : i ∈ S.members) {evs : List PEvent} (htr : ∀ ev ∈ evs, net.Traced codec pp S i ev) :
    Env1 codec pp t (S.start i) S.members S.coins evs := by
  obtain ⟨e1, e2, e3⟩ := hH.size i hi
  have hk : ∀ h ∈ S.members, (S.start h).kzg = newKZG pp t ((S.start i).F + 1) ∧ (S.start h).F = (S.start i).F := by
    intro h hh
    have := (hH.size h hh).1
    exact ⟨by rw [(hH.setup h hh).kzg, this, e1], by rw [this, e1]⟩
  refine ⟨fun j data hm => ?_, fun s d hm => ?_⟩
  · obtain ⟨h, hh, h1, m, h2, h3⟩ := htr _ hm
    rw [(hk h hh).1, (hk h hh).2] at h2
    exact ⟨h, hh, h1, m, h2, h3⟩
  · obtain ⟨h, hh, h1, m, h2, h3⟩ := htr _ hm
    rw [(hk h hh).1, (hk h hh).2] at h2
    exact ⟨h, hh, h1, m, by rw [e3]; exact h2, h3⟩

theorem NetInv.env1 {n : ℕ} (hH : S.Holds pp t b F N) (hI : NetInv codec pp S n net) {i : ℕ} (hi : i ∈ S.members) :
    Env1 codec pp t (S.start i) S.members S.coins (net.evs i) := RefNet.env1 hH hi (hI.traced i hi)

/-- The length of a reduced share. -/
theorem NetInv.len {n : ℕ} (hH : S.Holds pp t b F N) (hq : S.Contributes F q) (hI : NetInv codec pp S n net) {h : ℕ} (hh : h ∈ S.members) :
    (net.party h).reducedShare.length = F + 1 := by
  obtain ⟨⟨J, hJ⟩, -⟩ := (hI.run h hh).names
  have := ((hI.run h hh).sumInv (hH.seat hh) (hH.gives hq hh) (hI.env1 hH hh) hJ).len
  rwa [(hH.size h hh).1] at this

theorem NetInv.mem_setup {n : ℕ} (hH : S.Holds pp t b F N) (hI : NetInv codec pp S n net) {h : ℕ} (hh : h ∈ S.members) :
    (net.party h).Setup pp t ∧ (net.party h).F = F ∧ (net.party h).N = N ∧ (net.party h).pid = h := by
  have hs := (hI.run h hh).same
  obtain ⟨e1, e2, e3⟩ := hH.size h hh
  exact ⟨hs.setup (hH.setup h hh), by rw [hs.F, e1], by rw [hs.N, e2], by rw [hs.pid, e3]⟩

/-- What every value submitted to MVBA names. -/
theorem NetInv.submitted {n : ℕ} (hH : S.Holds pp t b F N) (hq : S.Contributes F q) (hI : NetInv codec pp S n net) {h : ℕ} (hh : h ∈ S.members) {m : PMVBAIN}
    (hm : POut.mvba m ∈ net.outs h) : (unmarshalD (⟨[], []⟩ : PMVBAIN) (marshal m)) = m ∧ Chosen F S.members (m.j.map (·.toNat)) ∧ (m.j.map (·.toNat)).Nodup := by
  have hS := hH.seat hh
  have hG := hH.gives hq hh
  have hc := (hI.run h hh).callInv hS hG (hH.signs hh) (hI.env1 hH hh)
  have hcom := (hI.run h hh).comInv hS hG (hI.env1 hH hh)
  obtain ⟨L, rfl, h1, h2, h3, h4⟩ := hc.what m hm
  rw [(hH.size h hh).1] at h1
  have hmem : ∀ k ∈ L.map (·.1), ∃ h' ∈ S.members, k = h' + 1 := fun k hk => (hcom.flg k (h4 k hk)).2.1
  have e : (L.map fun z => UInt32.ofNat z.1).map (·.toNat) = L.map (·.1) := by
    rw [List.map_map]
    apply List.map_congr_left
    intro z hz
    obtain ⟨h', hh', hz'⟩ := hmem z.1 (List.mem_map_of_mem hz)
    have := hH.lt h' hh'
    have := hH.N2
    show (UInt32.ofNat z.1).toNat = z.1
    rw [UInt32.toNat_ofNat']
    exact Nat.mod_eq_of_lt (by omega)
  refine ⟨?_, ?_, ?_⟩
  · rw [unmarshalD, rt_PMVBAIN _ (size_mvba _ F hH.F2 (by simp [h1]) (by simp [h1]) ?_)]
    · rfl
    · intro x hx
      obtain ⟨z, hz, rfl⟩ := List.mem_map.1 hx
      exact h3 z hz
  · rw [e]
    exact ⟨by rw [List.length_map, h1], hmem⟩
  · rw [e]; exact h2

/-- The messages a member has got, and one more that it may be given. -/
theorem NetInv.env3 {n : ℕ} (hH : S.Holds pp t b F N) (hq : S.Contributes F q) (hI : NetInv codec pp S n net) {J : List ℕ} {i : ℕ} (hi : i ∈ S.members) {evs : List PEvent}
    (htr : ∀ ev ∈ evs, net.Traced codec pp S i ev) (honce : ∀ e1 ev e2, evs = e1 ++ ev :: e2 → ev.isOnce = true → ev ∉ e1) (hJ : NamesJ J evs) :
    Env3 codec pp t (S.start i) S.members S.coins q (fun h => (S.tb h).sign) J (fun h => (net.party h).reducedShare) evs := by
  obtain ⟨e1, e2, e3⟩ := hH.size i hi
  refine { RefNet.env1 hH hi htr with
    recover := fun s d hm => ?_
    once := fun l1 s d l2 he => honce l1 _ l2 he rfl
    names := hJ
    newCommit := fun j data hm => ?_
    dist := fun s d hm => ?_
    distOnce := fun l1 s d l2 he => honce l1 _ l2 he rfl }
  · obtain ⟨h, hh, rfl, m, h1, rfl⟩ := htr _ hm
    obtain ⟨-, -, k, hk, rfl⟩ := ((hI.run h hh).votes (hH.seat hh) (hH.gives hq hh) (hI.env1 hH hh)).2 _ _ h1
    refine ⟨h, hh, k, hk, ?_⟩
    unfold takeEv
    rw [e1, e3, (hH.size h hh).1, (hH.size h hh).2.2]
    rfl
  · obtain ⟨h, hh, rfl, -, d, h1, rfl⟩ := htr _ hm
    obtain ⟨a1, a2, -⟩ := hI.mem_setup hH hh
    rw [newCommitMsg_ok codec a1 (by rw [a2]; exact hI.len hH hq hh)] at h1
    exact ⟨h, hh, rfl, by rw [← Except.ok.inj h1]⟩
  · obtain ⟨h, hh, rfl, -, m, h1, rfl⟩ := htr _ hm
    obtain ⟨a1, a2, -⟩ := hI.mem_setup hH hh
    rw [shareDistMsg_ok codec a1 (by rw [a2]; exact hI.len hH hq hh)] at h1
    refine ⟨h, hh, ?_⟩
    unfold distEv
    rw [← Except.ok.inj h1, e3]

end

end DyCAPS
