import Verif.Lemmas.ProactRun

/-! The order of the phases of Proactivize: facts about a run that do not depend on what the messages mean. -/

set_option linter.unusedSectionVars false

namespace DyCAPS

section
variable {G1 G2 GT : Type} [AddCommGroup G1] [Module Fr G1] [AddCommGroup G2] [Module Fr G2] [AddCommGroup GT] [Module Fr GT]
variable [DecidableEq G1] [DecidableEq GT]
variable {codec : PointCodec G1} {pp : Pairing Fr G1 G2 GT} {tb : Tbls}

/-- How a step changes the phase variables. -/
inductive PhaseChange (p : Party G1 G2) (st : PState G1) : PEvent → Party G1 G2 → PState G1 → Prop
  | none {ev p' st'} (h1 : st'.refresh = st.refresh) (h2 : st'.mvbaRunning = st.mvbaRunning) (h3 : st'.mvbaSent = st.mvbaSent)
      (h4 : st'.successSent = st.successSent ∨ ∃ Cs, st.refresh = .done Cs) (h5 : p'.reducedShare = p.reducedShare) : PhaseChange p st ev p' st'
  | call {k p' st'} (h1 : st'.refresh = st.refresh) (h2 : st.mvbaSent = false) (h3 : st'.mvbaSent = true) (h4 : st'.mvbaRunning = true)
      (h5 : st'.successSent = st.successSent) (h6 : p'.reducedShare = p.reducedShare) : PhaseChange p st (.handleRecover k) p' st'
  | ret {r p' st'} (h0 : st'.refresh = .looping ((unmarshalD (⟨[], []⟩ : PMVBAIN) r).j.map (·.toNat)) (List.replicate (p.F + 1) 0) (fun _ => 0))
      (h1 : st.mvbaRunning = true) (h2 : st'.mvbaRunning = false) (h3 : st'.mvbaSent = st.mvbaSent)
      (h5 : st'.successSent = st.successSent) (h6 : p'.reducedShare = p.reducedShare) : PhaseChange p st (.mvba r) p' st'
  | refresh {p' st'} (h : refreshStep p st = some (.ok (p', st'))) (h2 : st'.mvbaRunning = st.mvbaRunning) (h3 : st'.mvbaSent = st.mvbaSent)
      (h5 : st'.successSent = st.successSent) : PhaseChange p st .refresh p' st'

theorem handleRecover_phase (p : Party G1 G2) (st st' : PState G1) (out : List POut) (k : ℕ) (m : RecoverMsg G1)
    (h : handleRecover pp tb p st k m = .ok (st', out)) :
    st'.refresh = st.refresh ∧ st'.successSent = st.successSent ∧
    ((st'.mvbaRunning = st.mvbaRunning ∧ st'.mvbaSent = st.mvbaSent) ∨ (st.mvbaSent = false ∧ st'.mvbaSent = true ∧ st'.mvbaRunning = true)) := by
  refine ⟨(handleRecover_effect p st st' out k m h).2.2.2.2.1, (handleRecover_effect p st st' out k m h).2.2.2.2.2.2.2.2.1, ?_⟩
  unfold handleRecover at h
  cases hc : checkProofSingle pp p.kzg (st.CQ k (p.pid + 1)) m.w ((m.x : ℕ) : Fr) m.v with
  | error e => rw [hc] at h; cases h
  | ok ok =>
    rw [hc, Go.ok_bind] at h
    split at h
    · cases h1 : recordPoint p st k m with
      | error e => rw [h1] at h; cases h
      | ok st1 =>
        rw [h1, Go.ok_bind] at h
        cases h2 : recordSig tb p st1 k m with
        | error e => rw [h2] at h; cases h
        | ok r =>
          obtain ⟨st2, out2⟩ := r
          rw [h2, Go.ok_bind] at h
          cases h
          have a : st1.mvbaRunning = st.mvbaRunning ∧ st1.mvbaSent = st.mvbaSent := by
            unfold recordPoint at h1
            simp only at h1
            split at h1
            · split at h1
              · cases h1
              · cases hl : lagrangeInterpolate p.F (((st.SRec k ++ [(m.x, m.v)]).take (p.F + 1)).map fun q => ((q.1 : ℕ) : Fr))
                    (((st.SRec k ++ [(m.x, m.v)]).take (p.F + 1)).map (·.2)) with
                | error e => rw [hl] at h1; cases h1
                | ok poly => rw [hl, Go.ok_bind] at h1; cases h1; exact ⟨rfl, rfl⟩
            · cases h1; exact ⟨rfl, rfl⟩
          show (st2.mvbaRunning = _ ∧ st2.mvbaSent = _) ∨ (_ ∧ st2.mvbaSent = true ∧ st2.mvbaRunning = true)
          rw [← a.1, ← a.2]
          unfold recordSig at h2
          simp only at h2
          split at h2
          · split at h2
            · cases h2
            · split at h2
              · rename_i hc3
                rw [Bool.and_eq_true, Bool.not_eq_true'] at hc3
                cases h2
                exact Or.inr ⟨hc3.1, rfl, rfl⟩
              · cases h2; exact Or.inl ⟨rfl, rfl⟩
          · cases h2; exact Or.inl ⟨rfl, rfl⟩
    · cases h; exact Or.inl ⟨rfl, rfl⟩

theorem refreshStep_keeps (p p' : Party G1 G2) (st st' : PState G1) (h : refreshStep p st = some (.ok (p', st'))) :
    st'.mvbaRunning = st.mvbaRunning ∧ st'.mvbaSent = st.mvbaSent ∧ st'.successSent = st.successSent ∧ st'.flgCom = st.flgCom ∧
    st'.flgRec = st.flgRec ∧ st'.Q = st.Q ∧
    p' = { p with reducedShare := p'.reducedShare, fullShare := p'.fullShare } := by
  unfold refreshStep at h
  split at h
  · cases h
  · cases h
  · split at h
    · cases h
    · cases h; exact ⟨rfl, rfl, rfl, rfl, rfl, rfl, rfl⟩
  · split at h
    · cases h
    · split at h
      · split at h
        · rename_i j rest Qsum CQsum _ _ _ _
          cases hc : commitToPoly p.kzg (st.Q j) with
          | error e => rw [hc] at h; cases h
          | ok c => rw [hc] at h; cases h; exact ⟨rfl, rfl, rfl, rfl, rfl, rfl, rfl⟩
        · cases h
      · split at h
        · cases h; exact ⟨rfl, rfl, rfl, rfl, rfl, rfl, rfl⟩
        · cases h; exact ⟨rfl, rfl, rfl, rfl, rfl, rfl, rfl⟩

theorem shareDistStep_keeps (p p' : Party G1 G2) (st st' : PState G1) (j : ℕ) (m : PShareDist) (out : List POut)
    (h : shareDistStep codec pp p st j m = .ok (p', st', out)) :
    st'.refresh = st.refresh ∧ st'.mvbaRunning = st.mvbaRunning ∧ st'.mvbaSent = st.mvbaSent ∧ st'.flgCom = st.flgCom ∧
    st'.flgRec = st.flgRec ∧ st'.Q = st.Q ∧ p'.reducedShare = p.reducedShare ∧
    p' = { p with reducedShare := p'.reducedShare, fullShare := p'.fullShare } := by
  unfold shareDistStep at h
  simp only at h
  cases hw : codec.decode! m.wB with
  | error e => rw [hw] at h; cases h
  | ok w =>
    rw [hw, Go.ok_bind] at h
    generalize hg : checkProofSingle pp p.kzg ((st.SCom j).getD 0) w ((p.pid + 1 : ℕ) : Fr) (frFrom32 0 (copy32 m.B)).1 = r at h
    cases r with
    | error e => cases h
    | ok ok =>
      rw [Go.ok_bind] at h
      split at h
      · split at h
        · generalize lagrangeInterpolate (K := Fr) (2 * p.F) _ _ = r2 at h
          cases r2 with
          | error e => cases h
          | ok full => cases h; exact ⟨rfl, rfl, rfl, rfl, rfl, rfl, rfl, rfl⟩
        · cases h; exact ⟨rfl, rfl, rfl, rfl, rfl, rfl, rfl, rfl⟩
      · cases h; exact ⟨rfl, rfl, rfl, rfl, rfl, rfl, rfl, rfl⟩

/-- What every step does to the phase variables, the committee data and `flgCom`. -/
theorem step_frame {p p' : Party G1 G2} {st st' : PState G1} {ev : PEvent} {out : List POut}
    (hs : proactStep codec pp tb p st ev = some (.ok (p', st', out))) :
    PhaseChange p st ev p' st' ∧ p' = { p with reducedShare := p'.reducedShare, fullShare := p'.fullShare } ∧
    ∀ j, st'.flgCom j = true → st.flgCom j = true ∨
      ∃ d row row', ev = .commit j (some d) ∧ verifyCommit codec pp p row (unmarshalD (⟨[]⟩ : PCommit) d) = .ok (row', true) := by
  unfold proactStep at hs
  cases ev with
  | commit j data =>
    simp only at hs
    split at hs
    · cases data with
      | none => cases hs
      | some d =>
        simp only at hs
        cases hv : verifyCommit codec pp p (st.CQ j) (unmarshalD (⟨[]⟩ : PCommit) d) with
        | error e => rw [hv] at hs; cases hs
        | ok r =>
          obtain ⟨row, ok⟩ := r
          rw [hv] at hs
          cases hs
          refine ⟨.none rfl rfl rfl (Or.inl rfl) rfl, rfl, fun k hk => ?_⟩
          by_cases hkj : k = j
          · subst hkj
            simp only [upd_same] at hk
            subst hk
            exact Or.inr ⟨d, _, _, rfl, hv⟩
          · simp only [upd_ne _ _ hkj] at hk; exact Or.inl hk
    · cases hs
  | reshare sender data =>
    simp only at hs
    split at hs
    · cases hs
    · split at hs
      · cases hs
      · split at hs
        · cases hv : vote codec pp tb p (st.CQ (sender + 1).toNat) (sender + 1).toNat (unmarshalD (⟨[], []⟩ : PReshare) data) with
          | error e => rw [hv] at hs; cases hs
          | ok r => rw [hv] at hs; cases hs; exact ⟨.none rfl rfl rfl (Or.inl rfl) rfl, rfl, fun k hk => Or.inl hk⟩
        · cases hs; exact ⟨.none rfl rfl rfl (Or.inl rfl) rfl, rfl, fun k hk => Or.inl hk⟩
  | vote j data =>
    simp only at hs
    split at hs
    · cases hv : vote codec pp tb p (st.CQ j) j (unmarshalD (⟨[], []⟩ : PReshare) data) with
      | error e => rw [hv] at hs; cases hs
      | ok r => rw [hv] at hs; cases hs; exact ⟨.none rfl rfl rfl (Or.inl rfl) rfl, rfl, fun k hk => Or.inl hk⟩
    · cases hs
  | takeRecover sender data =>
    simp only at hs
    split at hs
    · cases hs
    · cases hv : decodeRecover codec p sender data with
      | error e => rw [hv] at hs; cases hs
      | ok m => rw [hv] at hs; cases hs; exact ⟨.none rfl rfl rfl (Or.inl rfl) rfl, rfl, fun k hk => Or.inl hk⟩
  | passRecover =>
    simp only at hs
    split at hs
    · cases hs
    · split at hs
      · cases hs; exact ⟨.none rfl rfl rfl (Or.inl rfl) rfl, rfl, fun k hk => Or.inl hk⟩
      · cases hs
  | handleRecover k =>
    simp only at hs
    split at hs
    · cases hs
    · split at hs
      · cases hs
      · rename_i m hheld
        cases hv : handleRecover pp tb p st k m with
        | error e => rw [hv] at hs; cases hs
        | ok r =>
          obtain ⟨st2, out2⟩ := r
          rw [hv] at hs
          cases hs
          have hf := (handleRecover_effect p st _ _ k m hv).2.1
          refine ⟨?_, rfl, fun j hj => Or.inl (by rw [← hf]; exact hj)⟩
          obtain ⟨a1, a2, a3⟩ := handleRecover_phase p st _ _ k m hv
          rcases a3 with ⟨b1, b2⟩ | ⟨b1, b2, b3⟩
          · exact .none a1 b1 b2 (Or.inl a2) rfl
          · exact .call a1 b1 b2 b3 a2 rfl
  | mvba result =>
    simp only at hs
    split at hs
    · rename_i hc
      cases hs
      exact ⟨.ret rfl hc rfl rfl rfl rfl, rfl, fun k hk => Or.inl hk⟩
    · cases hs
  | refresh =>
    simp only at hs
    split at hs
    · cases hs
    · rename_i r hr'
      cases r with
      | error e => cases hs
      | ok r =>
        obtain ⟨p2, st2⟩ := r
        cases hs
        obtain ⟨a1, a2, a3, a4, a5, a6, a7⟩ := refreshStep_keeps p _ st _ hr'
        exact ⟨.refresh hr' a1 a2 a3, a7, fun k hk => Or.inl (by rw [← a4]; exact hk)⟩
  | newCommit j data =>
    simp only at hs
    split at hs
    · split at hs
      · rename_i Cs hd
        cases data with
        | none => cases hs
        | some d =>
          simp only at hs
          unfold newCommitStep at hs
          cases h1 : oldCom p j with
          | error e => rw [h1] at hs; cases hs
          | ok old =>
            cases h2 : codec.decode! d with
            | error e => rw [h1, h2] at hs; cases hs
            | ok cb =>
              rw [h1, h2, Go.ok_bind, Go.ok_bind] at hs
              split at hs
              · cases hs; exact ⟨.none rfl rfl rfl (Or.inl rfl) rfl, rfl, fun k hk => Or.inl hk⟩
              · cases hs; exact ⟨.none rfl rfl rfl (Or.inl rfl) rfl, rfl, fun k hk => Or.inl hk⟩
      · cases hs
    · cases hs
  | shareDist sender data =>
    simp only at hs
    split at hs
    · rename_i Cs hd
      split at hs
      · cases hs
      · split at hs
        · cases hs
        · split at hs
          · obtain ⟨a1, a2, a3, a4, a5, a6, a7, a8⟩ := shareDistStep_keeps p p' _ st' _ _ out (Option.some.inj hs)
            exact ⟨.none a1 a2 a3 (Or.inr ⟨Cs, hd⟩) a7, a8, fun k hk => Or.inl (by rw [a4] at hk; exact hk)⟩
          · cases hs; exact ⟨.none rfl rfl rfl (Or.inl rfl) rfl, rfl, fun k hk => Or.inl hk⟩
    · cases hs
  | dist j data =>
    simp only at hs
    split at hs
    · rename_i Cs hd
      split at hs
      · obtain ⟨a1, a2, a3, a4, a5, a6, a7, a8⟩ := shareDistStep_keeps p p' _ st' _ _ out (Option.some.inj hs)
        exact ⟨.none a1 a2 a3 (Or.inr ⟨Cs, hd⟩) a7, a8, fun k hk => Or.inl (by rw [a4] at hk; exact hk)⟩
      · cases hs
    · cases hs
  | success =>
    simp only at hs
    split at hs
    · cases hs; exact ⟨.none rfl rfl rfl (Or.inl rfl) rfl, rfl, fun k hk => Or.inl hk⟩
    · cases hs

/-- MVBA is called at most once, Refresh starts after it returns, and the full share is assembled after Refresh. -/
structure POrder (st : PState G1) : Prop where
  running : st.mvbaRunning = true → st.mvbaSent = true
  started : st.refresh ≠ .waiting → st.mvbaSent = true ∧ st.mvbaRunning = false
  dist : st.successSent = true → ∃ Cs, st.refresh = .done Cs
  wait : st.mvbaRunning = true → st.refresh = .waiting

theorem refreshStep_phase (p p' : Party G1 G2) (st st' : PState G1) (h : refreshStep p st = some (.ok (p', st'))) :
    (∃ a b c, st.refresh = .looping a b c) ∧ st'.refresh ≠ .waiting := by
  unfold refreshStep at h
  split at h
  · cases h
  · cases h
  · rename_i hst
    split at h
    · cases h
    · cases h; exact ⟨⟨_, _, _, hst⟩, by simp⟩
  · rename_i hst
    split at h
    · cases h
    · split at h
      · split at h
        · rename_i j rest Qsum CQsum _ _ _
          cases hc : commitToPoly p.kzg (st.Q j) with
          | error e => rw [hc] at h; cases h
          | ok c => rw [hc] at h; cases h; exact ⟨⟨_, _, _, hst⟩, by simp⟩
        · cases h
      · split at h
        · cases h; exact ⟨⟨_, _, _, hst⟩, by simp⟩
        · cases h; exact ⟨⟨_, _, _, hst⟩, by rw [hst]; simp⟩

theorem POrder.step {p p' : Party G1 G2} {st st' : PState G1} {ev : PEvent} (h : POrder st) (hc : PhaseChange p st ev p' st') : POrder st' := by
  cases hc with
  | none h1 h2 h3 h4 h5 =>
    refine ⟨by rw [h2, h3]; exact h.running, by rw [h1, h2, h3]; exact h.started, fun hs => ?_, by rw [h1, h2]; exact h.wait⟩
    rw [h1]
    rcases h4 with h4 | h4
    · exact h.dist (h4 ▸ hs)
    · exact h4
  | call h1 h2 h3 h4 h5 h6 =>
    have hw : st.refresh = .waiting := by
      by_contra hne
      rw [(h.started hne).1] at h2; cases h2
    refine ⟨fun _ => h3, fun hne => absurd (h1.trans hw) hne, fun hs => ?_, fun _ => h1.trans hw⟩
    obtain ⟨Cs, hd⟩ := h.dist (h5 ▸ hs)
    rw [hw] at hd; cases hd
  | ret h0 h1 h2 h3 h5 h6 =>
    have hw := h.wait h1
    refine ⟨fun hr => (by rw [h2] at hr; cases hr), fun _ => ⟨h3.trans (h.running h1), h2⟩, fun hs => ?_, fun hr => (by rw [h2] at hr; cases hr)⟩
    obtain ⟨Cs, hd⟩ := h.dist (h5 ▸ hs)
    rw [hw] at hd; cases hd
  | refresh h1 h2 h3 h5 =>
    obtain ⟨⟨a, b, c, hl⟩, hne⟩ := refreshStep_phase p p' st st' h1
    have hnw : st.refresh ≠ .waiting := by rw [hl]; simp
    refine ⟨by rw [h2, h3]; exact h.running, fun _ => by rw [h2, h3]; exact h.started hnw, fun hs => ?_, fun hr => absurd (h.wait (h2 ▸ hr)) hnw⟩
    obtain ⟨Cs, hd⟩ := h.dist (h5 ▸ hs)
    rw [hl] at hd; cases hd

theorem PRun.order {p0 p : Party G1 G2} {c : DealerCoins} {st : PState G1} {evs : List PEvent} {outs : List POut}
    (h : PRun codec pp tb p0 (PState.init p0 c) evs outs p st) : POrder st := by
  induction h with
  | nil => exact ⟨by simp [PState.init], by simp [PState.init], by simp [PState.init], by simp [PState.init]⟩
  | snoc _ hs ih => exact ih.step (step_frame hs).1

theorem PRun.static {p0 p : Party G1 G2} {s0 st : PState G1} {evs : List PEvent} {outs : List POut}
    (h : PRun codec pp tb p0 s0 evs outs p st) : p = { p0 with reducedShare := p.reducedShare, fullShare := p.fullShare } := by
  induction h with
  | nil => rfl
  | snoc _ hs ih =>
    have := (step_frame hs).2.1
    rw [this]
    exact static_upd ih _ _

/-- Every accepted commitment was accepted at some point of the run. -/
theorem PRun.accepted {p0 p : Party G1 G2} {c : DealerCoins} {st : PState G1} {evs : List PEvent} {outs : List POut}
    (h : PRun codec pp tb p0 (PState.init p0 c) evs outs p st) (j : ℕ) (hj : st.flgCom j = true) :
    ∃ d row row', PEvent.commit j (some d) ∈ evs ∧ verifyCommit codec pp p0 row (unmarshalD (⟨[]⟩ : PCommit) d) = .ok (row', true) := by
  induction h with
  | nil => simp [PState.init] at hj
  | snoc h hs ih =>
    rcases (step_frame hs).2.2 j hj with h1 | ⟨d, row, row', rfl, hv⟩
    · obtain ⟨d, row, row', h2, h3⟩ := ih h1
      exact ⟨d, row, row', List.mem_append_left _ h2, h3⟩
    · refine ⟨d, row, row', by simp, ?_⟩
      rw [h.static, verifyCommit_static] at hv
      exact hv

end

end DyCAPS
