import Verif.Lemmas.RefreshDist

/-! A party of a refresh in which only messages of members that follow the protocol arrive does not crash, and makes a bounded number of steps. -/

set_option linter.unusedSectionVars false

namespace DyCAPS

theorem lagrange_points_ok (d : ℕ) (L : List (ℕ × Fr)) (hlen : d + 1 ≤ L.length) (hnd : (L.map (·.1)).Nodup) (hlt : ∀ z ∈ L, z.1 < frModulus) :
    ∃ res, lagrangeInterpolate d ((L.take (d + 1)).map fun q => ((q.1 : ℕ) : Fr)) ((L.take (d + 1)).map (·.2)) = .ok res := by
  have hl : (L.take (d + 1)).length = d + 1 := by rw [List.length_take]; omega
  obtain ⟨res, h, -, -⟩ := lagrangeInterpolate_ok d ((L.take (d + 1)).map fun q => ((q.1 : ℕ) : Fr)) ((L.take (d + 1)).map (·.2)) (by rw [List.length_map, hl]) (by rw [List.length_map, hl]) (by
    intro i hi j hj hji
    rw [List.getD_eq_getElem _ _ (by simp; omega), List.getD_eq_getElem _ _ (by simp; omega), List.getElem_map, List.getElem_map]
    have hm : ∀ n (hn : n < (L.take (d + 1)).length), (L.take (d + 1))[n].1 < frModulus := fun n hn => hlt _ (List.mem_of_mem_take (List.getElem_mem hn))
    apply fr_natCast_ne (hm _ _) (hm _ _)
    intro he
    apply hji
    have hnd' : ((L.take (d + 1)).map (·.1)).Nodup := by
      rw [List.map_take]; exact hnd.sublist (List.take_sublist _ _)
    have := (List.Nodup.getElem_inj_iff hnd' (i := j) (j := i) (hi := by simp; omega) (hj := by simp; omega)).1 (by
      rw [List.getElem_map, List.getElem_map]; exact he.symm)
    exact this)
  exact ⟨res, h⟩

section
variable {G1 G2 GT : Type} [AddCommGroup G1] [Module Fr G1] [AddCommGroup G2] [Module Fr G2] [AddCommGroup GT] [Module Fr GT]
variable [DecidableEq G1] [DecidableEq GT]
variable {codec : PointCodec G1} {pp : Pairing Fr G1 G2 GT} {t : Fr} {tb : Tbls} {p0 : Party G1 G2} {b : ℕ → ℕ → Fr} {q : ℕ → ℕ → ℕ → Fr}
  {H : Finset ℕ} {coins : ℕ → DealerCoins} {c : DealerCoins} {sgn : ℕ → Bytes → Bytes} {J : List ℕ} {R : ℕ → List Fr}

theorem Seat.N_lt (hS : Seat pp t b p0) : p0.N < frModulus := lt_trans hS.N2 (by decide +kernel)

/-- Handling a ShareDist message of a member does not fail. -/
theorem DistInv.handle {evs : List PEvent} {outs : List POut} {st : PState G1} {p : Party G1 G2} (hS : Seat pp t b p0) (hG : Gives p0 H coins q) (hsame : Same p0 p)
    (hdist : DistInv codec pp t p0 H b q J R evs outs st) {h : ℕ} (hh : h ∈ H) (st' : PState G1) (e1 : st'.SCom = st.SCom) (e2 : st'.SB = st.SB) (e3 : st'.token = st.token)
    (ht : st.token (h + 1) = true) (e : Fault) :
    shareDistStep codec pp p st' (h + 1) (unmarshalD (⟨[], []⟩ : PShareDist)
      (marshal (⟨frTo32 (polyVal (R h) ((p0.pid + 1 : ℕ) : Fr)), codec.enc (quotVal (R h) ((p0.pid + 1 : ℕ) : Fr) t • pp.g1)⟩ : PShareDist))) ≠ .error e := by
  intro hs
  have hNr := hS.N_lt
  have := hG.lt h hh
  rw [shareDist_read] at hs
  unfold shareDistStep at hs
  simp only [decode!_enc, frFrom32_copy, e1] at hs
  rw [Go.ok_bind, hdist.check hS hG hsame hh ht, Go.ok_bind, if_pos rfl] at hs
  split at hs
  · rename_i hc
    rw [Bool.and_eq_true, decide_eq_true_eq, e2] at hc
    obtain ⟨res, hres⟩ := lagrange_points_ok (2 * p.F) (st.SB ++ [(h + 1, polyVal (R h) ((p0.pid + 1 : ℕ) : Fr))]) hc.2 (by
      rw [List.map_append, List.nodup_append]
      refine ⟨hdist.nodup, by simp, ?_⟩
      intro a ha b' hb' hab
      simp only [List.map_cons, List.map_nil, List.mem_singleton] at hb'
      rw [hab, hb'] at ha
      exact (hdist.token _ ht).2.1 ha) (by
      intro z hz
      rw [List.mem_append, List.mem_singleton] at hz
      rcases hz with hz | hz
      · obtain ⟨-, h', hh', hz', -⟩ := hdist.sb z.1 (List.mem_map_of_mem hz)
        have := hG.lt h' hh'
        omega
      · rw [hz]; show h + 1 < _; omega)
    rw [e2, hres, Go.ok_bind] at hs
    cases hs
  · cases hs

theorem PRun.no_error (hS : Seat pp t b p0) (hG : Gives p0 H coins q) (hT : Signs tb H sgn) (hC : Chosen p0.F H J) {evs : List PEvent} {outs : List POut} {p : Party G1 G2}
    {st : PState G1} (hrun : PRun codec pp tb p0 (PState.init p0 c) evs outs p st) {ev : PEvent} (henv : Env3 codec pp t p0 H coins q sgn J R (evs ++ [ev])) (e : Fault) :
    proactStep codec pp tb p st ev ≠ some (.error e) := by
  have henv1 := henv.init
  have hlast : ev ∈ evs ++ [ev] := List.mem_append_right _ (List.mem_singleton.2 rfl)
  have hsame := hrun.same
  have hcom := hrun.comInv hS hG henv1.toEnv1
  have hrec := hrun.recInv hS hG hT henv1.toEnv2
  have hsum := hrun.sumInv hS hG henv1.toEnv1 henv1.names
  have hdist := hrun.distInv hS hG henv1
  have hN2 := hS.N2
  have hN1 := hS.N1
  have hF1 := hS.F1
  have hNr := hS.N_lt
  intro hs
  cases ev with
  | commit j data =>
    obtain ⟨h, hh, rfl, m, hm, rfl⟩ := henv.commit j data hlast
    obtain ⟨row', e1, -⟩ := hsame.commit hS hG hh hm (st.CQ (h + 1))
    simp only [proactStep] at hs
    split at hs
    · rw [e1] at hs; cases hs
    · cases hs
  | reshare s d =>
    obtain ⟨h, hh, rfl, m, hm, rfl⟩ := henv.reshare s d hlast
    have := hG.lt h hh
    by_cases hv0 : st.voters = 0
    · simp only [proactStep] at hs
      rw [if_pos hv0] at hs; cases hs
    cases hf : st.flgCom (h + 1) with
    | true =>
      rw [reshare_answer (tb := tb) hS hG hsame hh hv0 hf (hcom.flg _ hf).2.2 hm] at hs
      cases hs
    | false =>
      simp only [proactStep] at hs
      rw [ofNat_succ_toNat (by omega), if_neg hv0, if_neg (by rw [hsame.N]; omega), if_neg (by rw [hf]; simp)] at hs
      cases hs
  | vote j d =>
    simp only [proactStep] at hs
    split at hs
    · rename_i hc
      obtain ⟨s, e1, e2⟩ := hrun.queueInv.votes _ hc.1
      obtain ⟨h, hh, rfl, m, hm, hd⟩ := henv.reshare s d (List.mem_append_left _ e2)
      have := hG.lt h hh
      rw [ofNat_succ_toNat (by omega)] at e1
      have e1 : j = h + 1 := e1
      subst e1
      rw [hd, vote_answer (tb := tb) hS hG hsame hh (hcom.flg _ hc.2.1).2.2 hm] at hs
      cases hs
    · cases hs
  | takeRecover s d =>
    obtain ⟨h, hh, k, hk, he⟩ := henv.recover s d hlast
    rw [he] at hs
    unfold takeEv at hs
    simp only [proactStep] at hs
    rw [hsame.recover hS hG hT hh hk] at hs
    split at hs
    · cases hs
    · cases hs
  | passRecover =>
    simp only [proactStep] at hs
    split at hs
    · cases hs
    · split at hs
      · cases hs
      · cases hs
  | handleRecover k =>
    simp only [proactStep] at hs
    split at hs
    · cases hs
    · split at hs
      · cases hs
      · rename_i m hm
        obtain ⟨st', out, ho⟩ := handleRecover_total (tb := tb) p (hsame.setup hS.setup) (by rw [hsame.F]; exact hF1) st (by rw [hsame.F]; exact hrun.count (by omega))
          (by rw [hsame.F, hsame.N]; omega) k m (fun hlen => by
            obtain ⟨h, hh, k', hk', rfl, -, hmd, hx⟩ := hrec.held k m hm
            apply lagrange_points_ok
            · rw [List.length_append, List.length_singleton, hlen]
            · rw [List.map_append, List.nodup_append]
              refine ⟨hrec.nodup _, by simp, ?_⟩
              intro a ha b' hb' hab
              simp only [List.map_cons, List.map_nil, List.mem_singleton] at hb'
              rw [hab, hb'] at ha
              exact hx ha
            · intro z hz
              rw [List.mem_append, List.mem_singleton] at hz
              rcases hz with hz | hz
              · obtain ⟨h', hh', -, -, -, -, hz⟩ := hrec.srec _ z hz
                have := hG.lt h' hh'
                rw [hz]; show h' + 1 < _; omega
              · have := hG.lt h hh
                rw [hz, hmd]; show h + 1 < _; omega)
        rw [ho] at hs
        cases hs
  | mvba v =>
    simp only [proactStep] at hs
    split at hs
    · cases hs
    · cases hs
  | refresh =>
    simp only [proactStep] at hs
    cases hst : st.refresh with
    | waiting => simp only [refreshStep, hst] at hs; cases hs
    | done Cs => simp only [refreshStep, hst] at hs; cases hs
    | looping rest Qs Cs =>
      obtain ⟨done, hd, -⟩ := hsum.loop _ _ _ hst
      cases rest with
      | nil =>
        simp only [refreshStep, hst] at hs
        rw [if_neg (by rw [hsum.len, hsame.F]; omega)] at hs
        cases hs
      | cons j rest =>
        obtain ⟨h, hh, rfl⟩ := hC.mem j (by rw [hd]; simp)
        have := hG.lt h hh
        simp only [refreshStep, hst] at hs
        rw [if_neg (by rw [hsame.N]; omega)] at hs
        cases hw : st.refreshWait with
        | true =>
          cases hfr : st.flgRec (h + 1) with
          | true => exact absurd hfr (hrun.not_waited hF1 hst hw)
          | false => simp only [hw, hfr] at hs; cases hs
        | false => cases hf : st.flgCom (h + 1) <;> simp only [hw, hf] at hs <;> cases hs
  | newCommit j data =>
    obtain ⟨h, hh, rfl, rfl⟩ := henv.newCommit j data hlast
    have := hG.lt h hh
    simp only [proactStep] at hs
    split at hs
    · split at hs
      · rename_i Cs hd
        obtain ⟨old, o1, -⟩ := hS.expects (q := q) hsame hsum hd (j := h + 1) (by omega) (by omega)
        unfold newCommitStep at hs
        rw [o1, decode!_enc, Go.ok_bind, Go.ok_bind] at hs
        split at hs
        · cases hs
        · cases hs
      · cases hs
    · cases hs
  | shareDist s d =>
    obtain ⟨h, hh, he⟩ := henv.dist s d hlast
    have := hG.lt h hh
    rw [he] at hs
    unfold distEv at hs
    simp only [proactStep] at hs
    rw [ofNat_succ_toNat (by omega)] at hs
    split at hs
    · split at hs
      · cases hs
      rw [if_neg (by rw [hsame.N]; omega)] at hs
      split at hs
      · rename_i ht
        have hs := Option.some.inj hs
        refine hdist.handle hS hG hsame hh { st with dists := st.dists - 1 } rfl rfl rfl ht e hs
      · cases hs
    · cases hs
  | dist j d =>
    simp only [proactStep] at hs
    split at hs
    · split at hs
      · rename_i hc
        obtain ⟨s, e1, e2⟩ := hrun.queueInv.dists _ hc.1
        obtain ⟨h, hh, he⟩ := henv.dist s d (List.mem_append_left _ e2)
        have := hG.lt h hh
        unfold distEv at he
        injection he with he1 he2
        rw [he1, ofNat_succ_toNat (by omega)] at e1
        have e1 : j = h + 1 := e1
        subst e1
        rw [he2] at hs
        have hs := Option.some.inj hs
        refine hdist.handle hS hG hsame hh { st with distWait := st.distWait.erase (h + 1, marshal (⟨frTo32 (polyVal (R h) ((p0.pid + 1 : ℕ) : Fr)), codec.enc (quotVal (R h) ((p0.pid + 1 : ℕ) : Fr) t • pp.g1)⟩ : PShareDist)) } rfl rfl rfl hc.2 e hs
      · cases hs
    · cases hs
  | success =>
    simp only [proactStep] at hs
    split at hs
    · cases hs
    · cases hs

/-! ### The number of steps -/

/-- The number of indices `0..N` with a flag set. -/
def flags (N : ℕ) (f : ℕ → Bool) : ℕ := ((Finset.range (N + 1)).filter fun j => f j = true).card

theorem flags_le (N : ℕ) (f : ℕ → Bool) : flags N f ≤ N + 1 := by
  unfold flags
  exact le_trans (Finset.card_filter_le _ _) (by simp)

theorem flags_set {N j : ℕ} {f : ℕ → Bool} (hj : j ≤ N) (hf : f j = false) : flags N (upd f j true) = flags N f + 1 := by
  unfold flags
  have : ((Finset.range (N + 1)).filter fun k => upd f j true k = true) = insert j ((Finset.range (N + 1)).filter fun k => f k = true) := by
    ext k
    simp only [Finset.mem_filter, Finset.mem_insert, Finset.mem_range]
    by_cases hk : k = j
    · subst hk; simp; omega
    · rw [upd_ne _ _ hk]; simp [hk]
  rw [this, Finset.card_insert_of_notMem (by simp [hf])]

theorem flags_clear {N j : ℕ} {f : ℕ → Bool} (hj : j ≤ N) (hf : f j = true) : flags N (upd f j false) + 1 = flags N f := by
  have h := flags_set (N := N) (f := upd f j false) hj (by simp)
  have e : upd (upd f j false) j true = f := by
    funext k
    by_cases hk : k = j
    · subst hk; simp [hf]
    · rw [upd_ne _ _ hk, upd_ne _ _ hk]
  rw [e] at h
  omega

theorem held_flags_set {st : PState G1} {k : ℕ} {m : RecoverMsg G1} : (fun j => (upd st.held k (some m) j).isSome) = upd (fun j => (st.held j).isSome) k true := by
  funext j
  by_cases hk : j = k
  · subst hk; simp
  · rw [upd_ne _ _ hk, upd_ne _ _ hk]

theorem held_flags_clear {st : PState G1} {k : ℕ} : (fun j => (upd st.held k none j).isSome) = upd (fun j => (st.held j).isSome) k false := by
  funext j
  by_cases hk : j = k
  · subst hk; simp
  · rw [upd_ne _ _ hk, upd_ne _ _ hk]

/-- How far the Refresh loop has got. -/
def Refresh.progress (F : ℕ) : Refresh G1 → ℕ
  | .waiting => 0
  | .looping rest _ _ => 1 + (F + 1 - rest.length)
  | .done _ => F + 3

/-- Every step uses something up. -/
theorem PRun.work (hS : Seat pp t b p0) (hG : Gives p0 H coins q) (hT : Signs tb H sgn) (hC : Chosen p0.F H J) {evs : List PEvent} {outs : List POut} {p : Party G1 G2}
    {st : PState G1} (hrun : PRun codec pp tb p0 (PState.init p0 c) evs outs p st) (henv : Env3 codec pp t p0 H coins q sgn J R evs) :
    evs.length + 2 * st.slot.isSome.toNat + flags p0.N (fun k => (st.held k).isSome) + st.voteWait.length + st.distWait.length ≤
      flags p0.N st.comDone + 2 * evs.countP PEvent.isReshare + 3 * evs.countP PEvent.isTake + st.refresh.progress p0.F + st.refreshWait.toNat + flags p0.N st.newComDone +
        2 * evs.countP PEvent.isDist + st.successCount := by
  induction hrun with
  | nil => simp [PState.init, flags]
  | snoc hr hs ih =>
    rename_i evs1 outs1 p1 st1 ev p' st' out
    have henv1 := henv.init
    have ih := ih henv1
    have hsame := hr.same
    have hcom := hr.comInv hS hG henv1.toEnv1
    have hrec := hr.recInv hS hG hT henv1.toEnv2
    have hsum := hr.sumInv hS hG henv1.toEnv1 henv1.names
    have hw := hr.order.wait
    have hE := step_effect hs
    have hloop : ∀ rest Qs Cs, st1.refresh = .looping rest Qs Cs → rest.length ≤ p0.F + 1 := by
      intro rest Qs Cs h
      obtain ⟨done, hd, -⟩ := hsum.loop _ _ _ h
      have := hC.len
      rw [hd, List.length_append] at this
      omega
    have hkle : ∀ k m, st1.held k = some m → k ≤ p0.N := by
      intro k m hk
      obtain ⟨-, -, k', hk', rfl, -⟩ := hrec.held k m hk
      have := hG.lt k' hk'
      omega
    rw [List.length_append, List.length_singleton, List.countP_append, List.countP_append, List.countP_append]
    cases hE with
    | commit h1 h2 h3 hv =>
      simp only [List.countP_cons, List.countP_nil, PEvent.isReshare, PEvent.isTake, PEvent.isDist]
      rw [flags_set (by rw [← hsame.N]; exact h2) h3]
      simp only [Bool.false_eq_true, if_false]
      omega
    | reshare h1 h2 hv =>
      rcases h1.ev with ⟨s, rfl, -, -, -, rfl⟩ | ⟨rfl, hm, -, rfl⟩
      · simp only [List.countP_cons, List.countP_nil, PEvent.isReshare, PEvent.isTake, PEvent.isDist, if_true, Bool.false_eq_true, if_false]
        omega
      · simp only [List.countP_cons, List.countP_nil, PEvent.isReshare, PEvent.isTake, PEvent.isDist, if_true, Bool.false_eq_true, if_false]
        rw [List.length_erase_of_mem hm]
        have := List.length_pos_of_mem hm
        omega
    | resharePark =>
      simp only [List.countP_cons, List.countP_nil, PEvent.isReshare, PEvent.isTake, PEvent.isDist, if_true, Bool.false_eq_true, if_false, List.length_append, List.length_singleton]
      omega
    | refreshPark h1 h2 h3 h4 =>
      simp only [List.countP_cons, List.countP_nil, PEvent.isReshare, PEvent.isTake, PEvent.isDist, Bool.false_eq_true, if_false, Bool.toNat_true]
      rw [h4, Bool.toNat_false] at ih
      omega
    | distPark =>
      simp only [List.countP_cons, List.countP_nil, PEvent.isReshare, PEvent.isTake, PEvent.isDist, if_true, Bool.false_eq_true, if_false, List.length_append, List.length_singleton]
      omega
    | take h1 hv =>
      simp only [List.countP_cons, List.countP_nil, PEvent.isReshare, PEvent.isTake, PEvent.isDist, if_true, Bool.false_eq_true, if_false, Option.isSome_some, Bool.toNat_true]
      rw [h1] at ih
      simp only [Option.isSome_none, Bool.toNat_false] at ih
      omega
    | pass h h1 h2 h3 h4 h5 =>
      simp only [List.countP_cons, List.countP_nil, PEvent.isReshare, PEvent.isTake, PEvent.isDist, Bool.false_eq_true, if_false, Option.isSome_none, Bool.toNat_false]
      rw [h] at ih
      simp only [Option.isSome_some, Bool.toNat_true] at ih
      rw [held_flags_set, flags_set (by rw [← hsame.N]; exact h2) (by simp [h5])]
      omega
    | handleBad h1 h2 h3 =>
      simp only [List.countP_cons, List.countP_nil, PEvent.isReshare, PEvent.isTake, PEvent.isDist, Bool.false_eq_true, if_false, endIteration]
      rw [held_flags_clear]
      have := flags_clear (f := fun j => (st1.held j).isSome) (hkle _ _ h2) (by simp [h2])
      omega
    | handleOk h1 h2 h3 hQ h4 =>
      simp only [List.countP_cons, List.countP_nil, PEvent.isReshare, PEvent.isTake, PEvent.isDist, Bool.false_eq_true, if_false, afterAccept]
      rw [held_flags_clear]
      have := flags_clear (f := fun j => (st1.held j).isSome) (hkle _ _ h2) (by simp [h2])
      omega
    | handleComb h1 h2 h3 hQ h4 h5 h6 =>
      simp only [List.countP_cons, List.countP_nil, PEvent.isReshare, PEvent.isTake, PEvent.isDist, Bool.false_eq_true, if_false, afterAccept]
      rw [held_flags_clear]
      have := flags_clear (f := fun j => (st1.held j).isSome) (hkle _ _ h2) (by simp [h2])
      omega
    | handleCall h1 h2 h3 hQ h4 h5 h6 h7 =>
      simp only [List.countP_cons, List.countP_nil, PEvent.isReshare, PEvent.isTake, PEvent.isDist, Bool.false_eq_true, if_false, afterAccept]
      rw [held_flags_clear]
      have := flags_clear (f := fun j => (st1.held j).isSome) (hkle _ _ h2) (by simp [h2])
      omega
    | mvba h1 =>
      simp only [List.countP_cons, List.countP_nil, PEvent.isReshare, PEvent.isTake, PEvent.isDist, Bool.false_eq_true, if_false, Refresh.progress]
      rw [hw h1] at ih
      simp only [Refresh.progress] at ih
      omega
    | refreshCom h1 h2 h3 =>
      simp only [List.countP_cons, List.countP_nil, PEvent.isReshare, PEvent.isTake, PEvent.isDist, Bool.false_eq_true, if_false, Refresh.progress]
      have := hloop _ _ _ h1
      rw [h1] at ih
      simp only [Refresh.progress, List.length_cons] at ih this
      omega
    | refreshRec h1 h2 h3 h4 => exact absurd h4 (hr.not_waited hS.F1 h1 h3)
    | refreshEnd h1 h2 =>
      simp only [List.countP_cons, List.countP_nil, PEvent.isReshare, PEvent.isTake, PEvent.isDist, Bool.false_eq_true, if_false, Refresh.progress]
      rw [h1] at ih
      simp only [Refresh.progress, List.length_nil] at ih
      omega
    | newOk h1 h2 h3 h4 h5 h6 =>
      simp only [List.countP_cons, List.countP_nil, PEvent.isReshare, PEvent.isTake, PEvent.isDist, Bool.false_eq_true, if_false]
      rw [flags_set (by rw [← hsame.N]; exact h2) h3]
      omega
    | newBad h1 h2 h3 h4 h5 h6 h7 =>
      simp only [List.countP_cons, List.countP_nil, PEvent.isReshare, PEvent.isTake, PEvent.isDist, Bool.false_eq_true, if_false]
      rw [flags_set (by rw [← hsame.N]; exact h2) h3]
      omega
    | distBad h1 =>
      rcases h1.ev with ⟨s, rfl, -, -, -, rfl⟩ | ⟨rfl, hm, -, rfl⟩
      · simp only [List.countP_cons, List.countP_nil, PEvent.isReshare, PEvent.isTake, PEvent.isDist, if_true, Bool.false_eq_true, if_false]
        omega
      · simp only [List.countP_cons, List.countP_nil, PEvent.isReshare, PEvent.isTake, PEvent.isDist, if_true, Bool.false_eq_true, if_false]
        rw [List.length_erase_of_mem hm]
        have := List.length_pos_of_mem hm
        omega
    | distOk h1 =>
      rcases h1.ev with ⟨s, rfl, -, -, -, rfl⟩ | ⟨rfl, hm, -, rfl⟩
      · simp only [List.countP_cons, List.countP_nil, PEvent.isReshare, PEvent.isTake, PEvent.isDist, if_true, Bool.false_eq_true, if_false]
        omega
      · simp only [List.countP_cons, List.countP_nil, PEvent.isReshare, PEvent.isTake, PEvent.isDist, if_true, Bool.false_eq_true, if_false]
        rw [List.length_erase_of_mem hm]
        have := List.length_pos_of_mem hm
        omega
    | distFull h1 =>
      rcases h1.ev with ⟨s, rfl, -, -, -, rfl⟩ | ⟨rfl, hm, -, rfl⟩
      · simp only [List.countP_cons, List.countP_nil, PEvent.isReshare, PEvent.isTake, PEvent.isDist, if_true, Bool.false_eq_true, if_false]
        omega
      · simp only [List.countP_cons, List.countP_nil, PEvent.isReshare, PEvent.isTake, PEvent.isDist, if_true, Bool.false_eq_true, if_false]
        rw [List.length_erase_of_mem hm]
        have := List.length_pos_of_mem hm
        omega
    | success h1 h2 =>
      simp only [List.countP_cons, List.countP_nil, PEvent.isReshare, PEvent.isTake, PEvent.isDist, Bool.false_eq_true, if_false]
      omega

theorem filter_nodup_of_once {α : Type} (P : α → Bool) : ∀ (l : List α), (∀ e1 x e2, l = e1 ++ x :: e2 → P x = true → x ∉ e1) → (l.filter P).Nodup := by
  intro l
  induction l using List.reverseRecOn with
  | nil => intro _; simp
  | append_singleton l a ih =>
    intro h
    have h1 := ih (fun e1 x e2 he hp => h e1 x (e2 ++ [a]) (by rw [he]; simp) hp)
    rw [List.filter_append, List.nodup_append]
    refine ⟨h1, ?_, ?_⟩
    · cases hp : P a <;> simp [hp]
    · intro x hx y hy hxy
      rw [List.mem_filter, List.mem_singleton] at hy
      obtain ⟨rfl, hp⟩ := hy
      subst hxy
      exact h l x [] rfl hp (List.mem_filter.1 hx).1

theorem countP_once {α β : Type} (P : α → Bool) (l : List α) (hnd : (l.filter P).Nodup) (I : Finset β) (g : β → α) (h : ∀ x ∈ l, P x = true → ∃ y ∈ I, x = g y) :
    l.countP P ≤ I.card := by
  classical
  rw [List.countP_eq_length_filter, ← List.toFinset_card_of_nodup hnd]
  refine le_trans (Finset.card_le_card (t := I.image g) ?_) Finset.card_image_le
  intro x hx
  rw [List.mem_toFinset, List.mem_filter] at hx
  obtain ⟨y, hy, rfl⟩ := h x hx.1 hx.2
  exact Finset.mem_image_of_mem _ hy

/-- The largest number of steps of one member. -/
def stepBound (F N : ℕ) : ℕ := 3 * N ^ 2 + 6 * N + 3 * F + 7

theorem PRun.bounded (hS : Seat pp t b p0) (hG : Gives p0 H coins q) (hT : Signs tb H sgn) (hC : Chosen p0.F H J) {evs : List PEvent} {outs : List POut} {p : Party G1 G2}
    {st : PState G1} (hrun : PRun codec pp tb p0 (PState.init p0 c) evs outs p st) (henv : Env3 codec pp t p0 H coins q sgn J R evs)
    (honce : ∀ e1 s d e2, evs = e1 ++ PEvent.reshare s d :: e2 → PEvent.reshare s d ∉ e1) : evs.length ≤ stepBound p0.F p0.N := by
  have hw := hrun.work hS hG hT hC henv
  have hd := hrun.distInv hS hG henv
  have hsum := hrun.sumInv hS hG henv.toEnv1 henv.names
  have hH : H.card ≤ p0.N := by
    have := Finset.card_le_card (s := H) (t := Finset.range p0.N) (fun h hh => Finset.mem_range.2 (hG.lt h hh))
    simpa using this
  have h1 := flags_le p0.N st.comDone
  have h2 := flags_le p0.N st.newComDone
  have h3 : evs.countP PEvent.isReshare ≤ H.card := by
    refine countP_once _ _ (filter_nodup_of_once _ _ fun e1 x e2 he hp => ?_) H (fun h => match reshareMsg codec (newKZG pp t (p0.F + 1)) p0.F (coins h) (p0.pid + 1) with
      | .ok m => .reshare (UInt32.ofNat h) (marshal m)
      | .error _ => .refresh) (fun x hx hp => ?_)
    · cases x with
      | reshare s d => exact honce e1 s d e2 he
      | _ => cases hp
    · cases x with
      | reshare s d =>
        obtain ⟨h, hh, rfl, m, hm, rfl⟩ := henv.reshare s d hx
        exact ⟨h, hh, by rw [hm]⟩
      | _ => cases hp
  have h4 : evs.countP PEvent.isTake ≤ (H ×ˢ H).card := by
    refine countP_once _ _ (filter_nodup_of_once _ _ fun e1 x e2 he hp => ?_) (H ×ˢ H) (fun z => takeEv codec pp t p0 q sgn z.1 z.2) (fun x hx hp => ?_)
    · cases x with
      | takeRecover s d => exact henv.once e1 s d e2 he
      | _ => cases hp
    · cases x with
      | takeRecover s d =>
        obtain ⟨h, hh, k, hk, he⟩ := henv.recover s d hx
        exact ⟨(h, k), Finset.mem_product.2 ⟨hh, hk⟩, he⟩
      | _ => cases hp
  have h5 : evs.countP PEvent.isDist ≤ H.card := by
    refine countP_once _ _ (filter_nodup_of_once _ _ fun e1 x e2 he hp => ?_) H (fun h => distEv codec pp t p0 R h) (fun x hx hp => ?_)
    · cases x with
      | shareDist s d => exact henv.distOnce e1 s d e2 he
      | _ => cases hp
    · cases x with
      | shareDist s d => exact henv.dist s d hx
      | _ => cases hp
  have h6 : st.refresh.progress p0.F ≤ p0.F + 3 := by
    cases st.refresh <;> simp only [Refresh.progress] <;> omega
  have h7 := hd.le
  have h9 : st.refreshWait.toNat ≤ 1 := by cases st.refreshWait <;> simp
  rw [Finset.card_product] at h4
  have h8 : H.card * H.card ≤ p0.N ^ 2 := by rw [pow_two]; exact Nat.mul_le_mul hH hH
  unfold stepBound
  omega

end

end DyCAPS
