import Verif.Lemmas.ProactOrder

/-! Counting in the Recover phase: when a contribution is interpolated and a signature combined. -/

set_option linter.unusedSectionVars false

namespace DyCAPS

section
variable {G1 G2 GT : Type} [AddCommGroup G1] [Module Fr G1] [AddCommGroup G2] [Module Fr G2] [AddCommGroup GT] [Module Fr GT]
variable [DecidableEq G1] [DecidableEq GT]
variable {codec : PointCodec G1} {pp : Pairing Fr G1 G2 GT} {tb : Tbls} {t : Fr}

theorem shareDistStep_recover (p p' : Party G1 G2) (st st' : PState G1) (j : ℕ) (m : PShareDist) (out : List POut)
    (h : shareDistStep codec pp p st j m = .ok (p', st', out)) :
    st'.SRec = st.SRec ∧ st'.SSig = st.SSig ∧ st'.flgRec = st.flgRec ∧ st'.combined = st.combined ∧ st'.Q = st.Q ∧ st'.slot = st.slot ∧ st'.held = st.held := by
  unfold shareDistStep at h
  simp only at h
  generalize codec.decode! m.wB = r0 at h
  cases r0 with
  | error e => cases h
  | ok w =>
    rw [Go.ok_bind] at h
    generalize checkProofSingle pp p.kzg ((st.SCom j).getD 0) w ((p.pid + 1 : ℕ) : Fr) _ = r at h
    cases r with
    | error e => cases h
    | ok ok =>
      rw [Go.ok_bind] at h
      split at h
      · split at h
        · generalize lagrangeInterpolate (K := Fr) (2 * p.F) _ _ = r2 at h
          cases r2 with
          | error e => cases h
          | ok full => cases h; exact ⟨rfl, rfl, rfl, rfl, rfl, rfl, rfl⟩
        · cases h; exact ⟨rfl, rfl, rfl, rfl, rfl, rfl, rfl⟩
      · cases h; exact ⟨rfl, rfl, rfl, rfl, rfl, rfl, rfl⟩

/-- The fields changed only by the Recover handlers. -/
theorem step_recover_frame {p p' : Party G1 G2} {st st' : PState G1} {ev : PEvent} {out : List POut}
    (hs : proactStep codec pp tb p st ev = some (.ok (p', st', out))) (hne : ∀ k, ev ≠ .handleRecover k) :
    st'.SRec = st.SRec ∧ st'.SSig = st.SSig ∧ st'.flgRec = st.flgRec ∧ st'.combined = st.combined ∧ st'.Q = st.Q ∧
    ((st'.slot = st.slot ∧ st'.held = st.held) ∨ (∃ s d, ev = .takeRecover s d) ∨ ev = .passRecover) := by
  unfold proactStep at hs
  cases ev with
  | handleRecover k => exact absurd rfl (hne k)
  | commit j data =>
    simp only at hs
    split at hs
    · cases data with
      | none => cases hs
      | some d =>
        simp only at hs
        cases hv : verifyCommit codec pp p (st.CQ j) (unmarshalD (⟨[]⟩ : PCommit) d) with
        | error e => rw [hv] at hs; cases hs
        | ok r => rw [hv] at hs; cases hs; exact ⟨rfl, rfl, rfl, rfl, rfl, by first | exact Or.inl ⟨rfl, rfl⟩ | exact Or.inr (Or.inl ⟨_, _, rfl⟩) | exact Or.inr (Or.inr rfl)⟩
    · cases hs
  | reshare sender data =>
    simp only at hs
    split at hs
    · cases hs
    · split at hs
      · cases hs
      · split at hs
        · cases hv : vote codec pp tb p (st.CQ (sender + 1).toNat) (sender + 1).toNat (unmarshalD (⟨[], []⟩ : PReshare) data) with
          | error e => rw [hv] at hs; cases hs
          | ok r => rw [hv] at hs; cases hs; exact ⟨rfl, rfl, rfl, rfl, rfl, by first | exact Or.inl ⟨rfl, rfl⟩ | exact Or.inr (Or.inl ⟨_, _, rfl⟩) | exact Or.inr (Or.inr rfl)⟩
        · cases hs; exact ⟨rfl, rfl, rfl, rfl, rfl, by first | exact Or.inl ⟨rfl, rfl⟩ | exact Or.inr (Or.inl ⟨_, _, rfl⟩) | exact Or.inr (Or.inr rfl)⟩
  | vote j data =>
    simp only at hs
    split at hs
    · cases hv : vote codec pp tb p (st.CQ j) j (unmarshalD (⟨[], []⟩ : PReshare) data) with
      | error e => rw [hv] at hs; cases hs
      | ok r => rw [hv] at hs; cases hs; exact ⟨rfl, rfl, rfl, rfl, rfl, by first | exact Or.inl ⟨rfl, rfl⟩ | exact Or.inr (Or.inl ⟨_, _, rfl⟩) | exact Or.inr (Or.inr rfl)⟩
    · cases hs
  | takeRecover sender data =>
    simp only at hs
    split at hs
    · cases hs
    · cases hv : decodeRecover codec p sender data with
      | error e => rw [hv] at hs; cases hs
      | ok m => rw [hv] at hs; cases hs; exact ⟨rfl, rfl, rfl, rfl, rfl, by first | exact Or.inl ⟨rfl, rfl⟩ | exact Or.inr (Or.inl ⟨_, _, rfl⟩) | exact Or.inr (Or.inr rfl)⟩
  | passRecover =>
    simp only at hs
    split at hs
    · cases hs
    · split at hs
      · cases hs; exact ⟨rfl, rfl, rfl, rfl, rfl, by first | exact Or.inl ⟨rfl, rfl⟩ | exact Or.inr (Or.inl ⟨_, _, rfl⟩) | exact Or.inr (Or.inr rfl)⟩
      · cases hs
  | mvba result =>
    simp only at hs
    split at hs
    · cases hs; exact ⟨rfl, rfl, rfl, rfl, rfl, by first | exact Or.inl ⟨rfl, rfl⟩ | exact Or.inr (Or.inl ⟨_, _, rfl⟩) | exact Or.inr (Or.inr rfl)⟩
    · cases hs
  | refresh =>
    simp only at hs
    split at hs
    · cases hs
    · rename_i r hr'
      cases r with
      | error e => cases hs
      | ok r =>
        obtain ⟨p2, st2⟩ := r
        cases hs
        unfold refreshStep at hr'
        split at hr'
        · cases hr'
        · cases hr'
        · split at hr'
          · cases hr'
          · cases hr'; exact ⟨rfl, rfl, rfl, rfl, rfl, by first | exact Or.inl ⟨rfl, rfl⟩ | exact Or.inr (Or.inl ⟨_, _, rfl⟩) | exact Or.inr (Or.inr rfl)⟩
        · split at hr'
          · cases hr'
          · split at hr'
            · split at hr'
              · rename_i j rest Qsum CQsum _ _ _ _
                cases hc : commitToPoly p.kzg (st.Q j) with
                | error e => rw [hc] at hr'; cases hr'
                | ok c => rw [hc] at hr'; cases hr'; exact ⟨rfl, rfl, rfl, rfl, rfl, by first | exact Or.inl ⟨rfl, rfl⟩ | exact Or.inr (Or.inl ⟨_, _, rfl⟩) | exact Or.inr (Or.inr rfl)⟩
              · cases hr'
            · split at hr'
              · cases hr'; exact ⟨rfl, rfl, rfl, rfl, rfl, by first | exact Or.inl ⟨rfl, rfl⟩ | exact Or.inr (Or.inl ⟨_, _, rfl⟩) | exact Or.inr (Or.inr rfl)⟩
              · cases hr'; exact ⟨rfl, rfl, rfl, rfl, rfl, by first | exact Or.inl ⟨rfl, rfl⟩ | exact Or.inr (Or.inl ⟨_, _, rfl⟩) | exact Or.inr (Or.inr rfl)⟩
  | newCommit j data =>
    simp only at hs
    split at hs
    · split at hs
      · cases data with
        | none => cases hs
        | some d =>
          simp only at hs
          unfold newCommitStep at hs
          cases h1 : oldCom p j with
          | error e => rw [h1] at hs; cases hs
          | ok old =>
            cases h2 : codec.decode! d with
            | error e => rw [h1, h2] at hs; cases hs
            | ok cb =>
              rw [h1, h2, Go.ok_bind, Go.ok_bind] at hs
              split at hs
              · cases hs; exact ⟨rfl, rfl, rfl, rfl, rfl, by first | exact Or.inl ⟨rfl, rfl⟩ | exact Or.inr (Or.inl ⟨_, _, rfl⟩) | exact Or.inr (Or.inr rfl)⟩
              · cases hs; exact ⟨rfl, rfl, rfl, rfl, rfl, by first | exact Or.inl ⟨rfl, rfl⟩ | exact Or.inr (Or.inl ⟨_, _, rfl⟩) | exact Or.inr (Or.inr rfl)⟩
      · cases hs
    · cases hs
  | shareDist sender data =>
    simp only at hs
    split at hs
    · split at hs
      · cases hs
      · split at hs
        · cases hs
        · split at hs
          · obtain ⟨a1, a2, a3, a4, a5, a6, a7⟩ := shareDistStep_recover p p' _ st' _ _ out (Option.some.inj hs)
            exact ⟨a1, a2, a3, a4, a5, Or.inl ⟨a6, a7⟩⟩
          · cases hs; exact ⟨rfl, rfl, rfl, rfl, rfl, by first | exact Or.inl ⟨rfl, rfl⟩ | exact Or.inr (Or.inl ⟨_, _, rfl⟩) | exact Or.inr (Or.inr rfl)⟩
    · cases hs
  | dist j data =>
    simp only at hs
    split at hs
    · split at hs
      · obtain ⟨a1, a2, a3, a4, a5, a6, a7⟩ := shareDistStep_recover p p' _ st' _ _ out (Option.some.inj hs)
        exact ⟨a1, a2, a3, a4, a5, Or.inl ⟨a6, a7⟩⟩
      · cases hs
    · cases hs
  | success =>
    simp only at hs
    split at hs
    · cases hs; exact ⟨rfl, rfl, rfl, rfl, rfl, by first | exact Or.inl ⟨rfl, rfl⟩ | exact Or.inr (Or.inl ⟨_, _, rfl⟩) | exact Or.inr (Or.inr rfl)⟩
    · cases hs

/-- A contribution is interpolated when `F+1` points have been recorded, a signature combined when `2F+1` shares have been. -/
structure PCount (F : ℕ) (st : PState G1) : Prop where
  recd : ∀ k, st.flgRec k = decide (F + 1 ≤ (st.SRec k).length)
  comb : ∀ k, st.combined k = decide (2 * F + 1 ≤ (st.SSig k).length)
  same : ∀ k, (st.SSig k).length = (st.SRec k).length

theorem recordPoint_count (p : Party G1 G2) (st : PState G1) (h : PCount p.F st) (hN : p.F ≤ p.N) (k : ℕ) (m : RecoverMsg G1)
    (hok : (st.SRec k).length = p.F → ∃ poly, lagrangeInterpolate p.F (((st.SRec k ++ [(m.x, m.v)]).take (p.F + 1)).map fun q => ((q.1 : ℕ) : Fr))
      (((st.SRec k ++ [(m.x, m.v)]).take (p.F + 1)).map (·.2)) = .ok poly) : ∃ st1, recordPoint p st k m = .ok st1 := by
  unfold recordPoint
  simp only
  split
  · rename_i hc
    rw [Bool.and_eq_true, Bool.not_eq_true', decide_eq_true_eq, h.recd k, decide_eq_false_iff_not, List.length_append, List.length_singleton] at hc
    obtain ⟨poly, hl⟩ := hok (by omega)
    rw [if_neg (by rw [List.length_append, List.length_singleton]; omega), hl]
    exact ⟨_, rfl⟩
  · exact ⟨_, rfl⟩

theorem recordPoint_sig (p : Party G1 G2) (st st1 : PState G1) (k : ℕ) (m : RecoverMsg G1) (h1 : recordPoint p st k m = .ok st1) :
    st1.SSig = st.SSig ∧ st1.combined = st.combined := by
  unfold recordPoint at h1
  simp only at h1
  split at h1
  · split at h1
    · cases h1
    · cases hl : lagrangeInterpolate p.F (((st.SRec k ++ [(m.x, m.v)]).take (p.F + 1)).map fun q => ((q.1 : ℕ) : Fr))
          (((st.SRec k ++ [(m.x, m.v)]).take (p.F + 1)).map (·.2)) with
      | error e => rw [hl] at h1; cases h1
      | ok poly => rw [hl, Go.ok_bind] at h1; cases h1; exact ⟨rfl, rfl⟩
  · cases h1; exact ⟨rfl, rfl⟩

theorem recordSig_count (p : Party G1 G2) (st : PState G1) (hc : ∀ k, st.combined k = decide (2 * p.F + 1 ≤ (st.SSig k).length)) (hN : 2 * p.F ≤ p.N) (k : ℕ)
    (m : RecoverMsg G1) : ∃ st2 out, recordSig tb p st k m = .ok (st2, out) ∧ st2.SSig = upd st.SSig k (st.SSig k ++ [m.sigShare]) ∧
      ∀ k, st2.combined k = decide (2 * p.F + 1 ≤ (st2.SSig k).length) := by
  have key : ∀ j, (upd st.combined k (decide (2 * p.F + 1 ≤ (st.SSig k ++ [m.sigShare]).length))) j =
      decide (2 * p.F + 1 ≤ ((upd st.SSig k (st.SSig k ++ [m.sigShare])) j).length) := by
    intro j
    by_cases hj : j = k
    · subst hj; rw [upd_same, upd_same]
    · rw [upd_ne _ _ hj, upd_ne _ _ hj, hc j]
  unfold recordSig
  simp only
  split
  · rename_i hcond
    rw [Bool.and_eq_true, Bool.not_eq_true', decide_eq_true_eq] at hcond
    have hl := hcond.2
    rw [hc k, decide_eq_false_iff_not] at hcond
    rw [List.length_append, List.length_singleton] at hcond
    rw [if_neg (by rw [List.length_append, List.length_singleton]; omega)]
    rw [decide_eq_true hl] at key
    split
    · exact ⟨_, _, rfl, rfl, key⟩
    · exact ⟨_, _, rfl, rfl, key⟩
  · rename_i hcond
    rw [Bool.and_eq_true, Bool.not_eq_true', decide_eq_true_eq] at hcond
    refine ⟨_, _, rfl, rfl, fun j => ?_⟩
    rw [← key j]
    by_cases hj : j = k
    · subst hj
      rw [upd_same]
      show st.combined j = _
      cases hcj : st.combined j with
      | false => rw [eq_comm, decide_eq_false_iff_not]; exact fun h => hcond ⟨hcj, h⟩
      | true =>
        rw [hc j, decide_eq_true_eq] at hcj
        rw [eq_comm, decide_eq_true_eq, List.length_append]; omega
    · rw [upd_ne _ _ hj]

/-- The handler on a message: it cannot fail except in the interpolation. -/
theorem handleRecover_total (p : Party G1 G2) (hp : p.Setup pp t) (hF : 1 ≤ p.F) (st : PState G1) (h : PCount p.F st) (hN : 2 * p.F ≤ p.N) (k : ℕ) (m : RecoverMsg G1)
    (hok : (st.SRec k).length = p.F → ∃ poly, lagrangeInterpolate p.F (((st.SRec k ++ [(m.x, m.v)]).take (p.F + 1)).map fun q => ((q.1 : ℕ) : Fr))
      (((st.SRec k ++ [(m.x, m.v)]).take (p.F + 1)).map (·.2)) = .ok poly) : ∃ st' out, handleRecover pp tb p st k m = .ok (st', out) := by
  unfold handleRecover
  rw [hp.kzg, checkProofSingle_ok pp t _ (by omega), Go.ok_bind]
  split
  · obtain ⟨st1, e1⟩ := recordPoint_count p st h (by omega) k m hok
    obtain ⟨c1, c2⟩ := recordPoint_sig p st st1 k m e1
    obtain ⟨st2, out, e2, -⟩ := recordSig_count (tb := tb) p st1 (by rw [c1, c2]; exact h.comb) hN k m
    rw [e1, Go.ok_bind, e2]
    exact ⟨_, _, rfl⟩
  · exact ⟨_, _, rfl⟩

theorem PCount.handle (p : Party G1 G2) (st st' : PState G1) (out : List POut) (k : ℕ) (m : RecoverMsg G1) (h : PCount p.F st) (hN : 2 * p.F ≤ p.N)
    (hh : handleRecover pp tb p st k m = .ok (st', out)) : PCount p.F st' := by
  unfold handleRecover at hh
  cases hc : checkProofSingle pp p.kzg (st.CQ k (p.pid + 1)) m.w ((m.x : ℕ) : Fr) m.v with
  | error e => rw [hc] at hh; cases hh
  | ok ok =>
    rw [hc, Go.ok_bind] at hh
    split at hh
    · cases h1 : recordPoint p st k m with
      | error e => rw [h1] at hh; cases hh
      | ok st1 =>
        rw [h1, Go.ok_bind] at hh
        cases h2 : recordSig tb p st1 k m with
        | error e => rw [h2] at hh; cases hh
        | ok r =>
          obtain ⟨st2, out2⟩ := r
          rw [h2, Go.ok_bind] at hh
          cases hh
          obtain ⟨-, -, -, -, -, -, -, -, -, -, f11, f12⟩ := recordPoint_effect p st st1 k m h1
          obtain ⟨-, -, -, -, -, -, -, -, -, -, g11, g12, g13⟩ := recordSig_effect p st1 st2 k m _ h2
          obtain ⟨c1, c2⟩ := recordPoint_sig p st st1 k m h1
          obtain ⟨st3, out3, e2, e3, e4⟩ := recordSig_count (tb := tb) p st1 (by rw [c1, c2]; exact h.comb) hN k m
          rw [h2] at e2
          cases e2
          refine ⟨fun j => ?_, e4, fun j => ?_⟩
          · show st2.flgRec j = decide (p.F + 1 ≤ (st2.SRec j).length)
            rw [g12, g11, f11]
            rcases f12 with ⟨a1, a2, a3, -⟩ | ⟨a1, a2, -⟩
            · rw [a3]
              by_cases hj : j = k
              · subst hj; rw [upd_same, upd_same, eq_comm, decide_eq_true_eq]; exact a2
              · rw [upd_ne _ _ hj, upd_ne _ _ hj]; exact h.recd j
            · rw [a2]
              by_cases hj : j = k
              · subst hj
                rw [upd_same]
                cases hcj : st.flgRec j with
                | false => rw [eq_comm, decide_eq_false_iff_not]; exact fun h => a1 ⟨hcj, h⟩
                | true =>
                  rw [h.recd j, decide_eq_true_eq] at hcj
                  rw [eq_comm, decide_eq_true_eq, List.length_append]; omega
              · rw [upd_ne _ _ hj]; exact h.recd j
          · show (st2.SSig j).length = (st2.SRec j).length
            rw [e3, g11, f11, c1]
            by_cases hj : j = k
            · subst hj; rw [upd_same, upd_same, List.length_append, List.length_append, h.same j]; rfl
            · rw [upd_ne _ _ hj, upd_ne _ _ hj]; exact h.same j
    · cases hh; exact ⟨h.recd, h.comb, h.same⟩

theorem PRun.count {p0 p : Party G1 G2} {c : DealerCoins} {st : PState G1} {evs : List PEvent} {outs : List POut} (hN : 2 * p0.F ≤ p0.N)
    (h : PRun codec pp tb p0 (PState.init p0 c) evs outs p st) : PCount p0.F st := by
  induction h with
  | nil => exact ⟨fun k => by simp [PState.init], fun k => by simp [PState.init], fun k => by simp [PState.init]⟩
  | snoc h hs ih =>
    rename_i evs1 outs1 p1 st1 ev p' st' out
    by_cases hev : ∃ k, ev = .handleRecover k
    · obtain ⟨k, rfl⟩ := hev
      simp only [proactStep] at hs
      split at hs
      · cases hs
      · split at hs
        · cases hs
        · rename_i m _
          cases hh : handleRecover pp tb p1 st1 k m with
          | error e => rw [hh] at hs; cases hs
          | ok r =>
            rw [hh] at hs
            cases hs
            have e : p1.F = p0.F := by rw [h.static]
            have e' : p1.N = p0.N := by rw [h.static]
            rw [← e] at ih ⊢
            exact PCount.handle p1 st1 _ _ k m ih (by rw [e, e']; exact hN) hh
    · obtain ⟨e1, e2, e3, e4, -, -⟩ := step_recover_frame hs (fun k hk => hev ⟨k, hk⟩)
      exact ⟨by rw [e3, e1]; exact ih.recd, by rw [e4, e2]; exact ih.comb, by rw [e1, e2]; exact ih.same⟩

end

end DyCAPS
