import Verif.Lemmas.ProactFull
import Verif.Lemmas.Tbls

/-!
# Signatures collected by the Recover handlers
-/

set_option linter.unusedSectionVars false

namespace DyCAPS

section
variable {G1 G2 GT : Type} [AddCommGroup G1] [Module Fr G1] [AddCommGroup G2] [Module Fr G2] [AddCommGroup GT] [Module Fr GT]
variable [DecidableEq G1] [DecidableEq GT]
variable {codec : PointCodec G1} {pp : Pairing Fr G1 G2 GT} {tb : Tbls}

/-- `sig` is what `Recover` with threshold `2F` makes of at least `2F+1` verified shares for resharer `k`. -/
def CertFrom (tb : Tbls) (F N k : ℕ) (sig : Bytes) : Prop :=
  ∃ l pad : List Bytes, 2 * F + 1 ≤ l.length ∧ (∀ s ∈ l, tb.verifyPartial (decimalBytes k) s = true) ∧ sig = (tb.recover (decimalBytes k) (l ++ pad) (2 * F) N).getD []

/-- Shares are stored only after verification; certificates come from them; a proposal lists certificates. -/
structure CertInv (tb : Tbls) (F N : ℕ) (st : PState G1) (outs : List POut) : Prop where
  ssig : ∀ k, ∀ s ∈ st.SSig k, tb.verifyPartial (decimalBytes k) s = true
  certs : ∀ q ∈ st.mvbaIn, CertFrom tb F N q.1 q.2
  prop : ∀ m, POut.mvba m ∈ outs → ∃ L : List (ℕ × Bytes), m = ⟨L.map (·.2), L.map fun q => UInt32.ofNat q.1⟩ ∧ F + 1 ≤ L.length ∧ ∀ q ∈ L, CertFrom tb F N q.1 q.2

theorem recordPoint_certs (p : Party G1 G2) (st st2 : PState G1) (k : ℕ) (m : RecoverMsg G1) (h2 : recordPoint p st k m = .ok st2) :
    st2.SSig = st.SSig ∧ st2.mvbaIn = st.mvbaIn := by
  unfold recordPoint at h2
  simp only at h2
  split at h2
  · split at h2
    · cases h2
    · cases hl : lagrangeInterpolate p.F (((st.SRec k ++ [(m.x, m.v)]).take (p.F + 1)).map fun q => ((q.1 : ℕ) : Fr))
          (((st.SRec k ++ [(m.x, m.v)]).take (p.F + 1)).map (·.2)) with
      | error e => rw [hl] at h2; cases h2
      | ok poly => rw [hl, Go.ok_bind] at h2; cases h2; exact ⟨rfl, rfl⟩
  · cases h2; exact ⟨rfl, rfl⟩

theorem CertInv.recordSig {p : Party G1 G2} {st st2 : PState G1} {k : ℕ} {m : RecoverMsg G1} {outs out : List POut}
    (h : CertInv tb p.F p.N st outs) (hv : tb.verifyPartial (decimalBytes k) m.sigShare = true) (h2 : recordSig tb p st k m = .ok (st2, out)) :
    CertInv tb p.F p.N st2 (outs ++ out) := by
  have hs : ∀ j, ∀ s ∈ (upd st.SSig k (st.SSig k ++ [m.sigShare])) j, tb.verifyPartial (decimalBytes j) s = true := by
    intro j s hsm
    by_cases hj : j = k
    · subst hj
      rw [upd_same, List.mem_append, List.mem_singleton] at hsm
      rcases hsm with hsm | rfl
      · exact h.ssig _ s hsm
      · exact hv
    · rw [upd_ne _ _ hj] at hsm
      exact h.ssig _ s hsm
  unfold DyCAPS.recordSig at h2
  simp only at h2
  split at h2
  · rename_i hc
    rw [Bool.and_eq_true, decide_eq_true_eq] at hc
    split at h2
    · cases h2
    · have hcert : ∀ q ∈ st.mvbaIn ++ [(k, (tb.recover (decimalBytes k) (st.SSig k ++ [m.sigShare] ++ List.replicate (p.N + 1 - (st.SSig k ++ [m.sigShare]).length) []) (2 * p.F) p.N).getD [])], CertFrom tb p.F p.N q.1 q.2 := by
        intro q hq
        rw [List.mem_append, List.mem_singleton] at hq
        rcases hq with hq | rfl
        · exact h.certs q hq
        · refine ⟨st.SSig k ++ [m.sigShare], _, hc.2, fun s hsm => hs k s (by rw [upd_same]; exact hsm), rfl⟩
      split at h2
      · rename_i hc2
        rw [Bool.and_eq_true, decide_eq_true_eq] at hc2
        cases h2
        refine ⟨hs, hcert, fun m' hm' => ?_⟩
        rw [List.mem_append, List.mem_singleton] at hm'
        rcases hm' with hm' | hm'
        · exact h.prop m' hm'
        · exact ⟨_, POut.mvba.inj hm', hc2.2, hcert⟩
      · cases h2
        exact ⟨hs, hcert, fun m' hm' => h.prop m' (by simpa using hm')⟩
  · cases h2
    exact ⟨hs, h.certs, fun m' hm' => h.prop m' (by simpa using hm')⟩

theorem CertInv.keep {F N : ℕ} {st st' : PState G1} {outs out : List POut} (h : CertInv tb F N st outs) (h1 : st'.SSig = st.SSig) (h2 : st'.mvbaIn = st.mvbaIn)
    (h3 : ∀ m, POut.mvba m ∉ out) : CertInv tb F N st' (outs ++ out) := by
  refine ⟨by rw [h1]; exact h.ssig, by rw [h2]; exact h.certs, fun m hm => ?_⟩
  rcases List.mem_append.1 hm with hm | hm
  · exact h.prop m hm
  · exact absurd hm (h3 m)

theorem CertInv.handle {p : Party G1 G2} {st st' : PState G1} {k : ℕ} {m : RecoverMsg G1} {outs out : List POut}
    (h : CertInv tb p.F p.N st outs) (hh : handleRecover pp tb p st k m = .ok (st', out)) : CertInv tb p.F p.N st' (outs ++ out) := by
  unfold handleRecover at hh
  cases hc : checkProofSingle pp p.kzg (st.CQ k (p.pid + 1)) m.w ((m.x : ℕ) : Fr) m.v with
  | error e => rw [hc] at hh; cases hh
  | ok ok =>
    rw [hc, Go.ok_bind] at hh
    split at hh
    · rename_i hcond
      rw [Bool.and_eq_true] at hcond
      cases h1 : recordPoint p st k m with
      | error e => rw [h1] at hh; cases hh
      | ok st1 =>
        rw [h1, Go.ok_bind] at hh
        cases h2 : DyCAPS.recordSig tb p st1 k m with
        | error e => rw [h2] at hh; cases hh
        | ok r =>
          obtain ⟨st2, out2⟩ := r
          rw [h2, Go.ok_bind] at hh
          cases hh
          obtain ⟨a1, a2⟩ := recordPoint_certs p st st1 k m h1
          have i1 : CertInv tb p.F p.N st1 outs := ⟨by rw [a1]; exact h.ssig, by rw [a2]; exact h.certs, h.prop⟩
          have i2 := i1.recordSig hcond.2 h2
          exact ⟨i2.ssig, i2.certs, i2.prop⟩
    · cases hh
      exact h.keep rfl rfl (by simp)

theorem mapM_mem {α β : Type} {f : α → Go β} {P : β → Prop} (hf : ∀ a b, f a = .ok b → P b) : ∀ (l : List α) (r : List β), l.mapM f = .ok r → ∀ b ∈ r, P b := by
  intro l
  induction l with
  | nil =>
    intro r h
    rw [List.mapM_nil] at h
    cases h
    simp
  | cons a l ih =>
    intro r h
    rw [List.mapM_cons] at h
    cases ha : f a with
    | error e => rw [ha] at h; cases h
    | ok b =>
      rw [ha, Go.ok_bind] at h
      cases hl : l.mapM f with
      | error e => rw [hl] at h; cases h
      | ok bs =>
        rw [hl, Go.ok_bind] at h
        cases h
        intro x hx
        rcases List.mem_cons.1 hx with rfl | hx
        · exact hf _ _ ha
        · exact ih _ hl x hx

theorem vote_no_mvba (p : Party G1 G2) (CQ : ℕ → G1) (j : ℕ) (m : PReshare) (out : List POut) (h : vote codec pp tb p CQ j m = .ok out) : ∀ i, POut.mvba i ∉ out := by
  have key : ∀ o ∈ out, ∀ i, o ≠ POut.mvba i := by
    unfold vote at h
    cases he : (oneTo (2 * p.F + 1)).mapM (voteEntry codec pp p CQ m) with
    | error e => rw [he] at h; cases h
    | ok es =>
      rw [he, Go.ok_bind] at h
      simp only at h
      split at h
      all_goals
        split at h
        · refine mapM_mem (P := fun o => ∀ i, o ≠ POut.mvba i) ?_ _ _ h
          intro l o ho
          split at ho
          · cases ho; intro i hi; cases hi
          · cases h1 : idx p.table l with
            | error e => rw [h1] at ho; cases ho
            | ok lam =>
              rw [h1, Go.ok_bind] at ho
              cases h2 : linCombFr (es.map (·.1)) lam with
              | error e => rw [h2] at ho; cases ho
              | ok v =>
                rw [h2, Go.ok_bind] at ho
                cases h3 : linCombG1 (es.map (·.2.1)) lam with
                | error e => rw [h3] at ho; cases ho
                | ok w => rw [h3, Go.ok_bind] at ho; cases ho; intro i hi; cases hi
        · cases h; intro o ho; simp at ho
  intro i hi
  exact key _ hi i rfl

theorem refreshStep_sig (p p' : Party G1 G2) (st st' : PState G1) (h : refreshStep p st = some (.ok (p', st'))) : st'.SSig = st.SSig ∧ st'.mvbaIn = st.mvbaIn := by
  unfold refreshStep at h
  split at h
  · cases h
  · cases h
  · split at h
    · cases h
    · cases h; exact ⟨rfl, rfl⟩
  · split at h
    · cases h
    · split at h
      · split at h
        · rename_i j rest Qsum CQsum _ _ _ _
          cases hc : commitToPoly p.kzg (st.Q j) with
          | error e => rw [hc] at h; cases h
          | ok c => rw [hc] at h; cases h; exact ⟨rfl, rfl⟩
        · cases h
      · split at h
        · cases h; exact ⟨rfl, rfl⟩
        · cases h; exact ⟨rfl, rfl⟩

theorem shareDistStep_sig (p p' : Party G1 G2) (st st' : PState G1) (j : ℕ) (m : PShareDist) (out : List POut)
    (h : shareDistStep codec pp p st j m = .ok (p', st', out)) : st'.SSig = st.SSig ∧ st'.mvbaIn = st.mvbaIn ∧ ∀ i, POut.mvba i ∉ out := by
  unfold shareDistStep at h
  simp only at h
  cases hw : codec.decode! m.wB with
  | error e => rw [hw] at h; cases h
  | ok w =>
    rw [hw, Go.ok_bind] at h
    generalize hg : checkProofSingle pp p.kzg ((st.SCom j).getD 0) w ((p.pid + 1 : ℕ) : Fr) (frFrom32 0 (copy32 m.B)).1 = r at h
    cases r with
    | error e => cases h
    | ok ok =>
      rw [Go.ok_bind] at h
      split at h
      · split at h
        · generalize lagrangeInterpolate (K := Fr) (2 * p.F) _ _ = r2 at h
          cases r2 with
          | error e => cases h
          | ok full => cases h; exact ⟨rfl, rfl, by simp⟩
        · cases h; exact ⟨rfl, rfl, by simp⟩
      · cases h; exact ⟨rfl, rfl, by simp⟩

theorem CertInv.step {p p' : Party G1 G2} {st st' : PState G1} {ev : PEvent} {outs out : List POut} (h : CertInv tb p.F p.N st outs)
    (hs : proactStep codec pp tb p st ev = some (.ok (p', st', out))) : CertInv tb p.F p.N st' (outs ++ out) := by
  unfold proactStep at hs
  cases ev with
  | commit j data =>
    simp only at hs
    split at hs
    · cases data with
      | none => cases hs
      | some d =>
        simp only at hs
        cases hv : verifyCommit codec pp p (st.CQ j) (unmarshalD (⟨[]⟩ : PCommit) d) with
        | error e => rw [hv] at hs; cases hs
        | ok r => rw [hv] at hs; cases hs; exact h.keep rfl rfl (by simp)
    · cases hs
  | reshare sender data =>
    simp only at hs
    split at hs
    · cases hs
    · split at hs
      · cases hs
      · split at hs
        · cases hv : vote codec pp tb p (st.CQ (sender + 1).toNat) (sender + 1).toNat (unmarshalD (⟨[], []⟩ : PReshare) data) with
          | error e => rw [hv] at hs; cases hs
          | ok r => rw [hv] at hs; cases hs; exact h.keep rfl rfl (vote_no_mvba _ _ _ _ _ hv)
        · cases hs; exact h.keep rfl rfl (by simp)
  | vote j data =>
    simp only at hs
    split at hs
    · cases hv : vote codec pp tb p (st.CQ j) j (unmarshalD (⟨[], []⟩ : PReshare) data) with
      | error e => rw [hv] at hs; cases hs
      | ok r => rw [hv] at hs; cases hs; exact h.keep rfl rfl (vote_no_mvba _ _ _ _ _ hv)
    · cases hs
  | takeRecover sender data =>
    simp only at hs
    split at hs
    · cases hs
    · cases hv : decodeRecover codec p sender data with
      | error e => rw [hv] at hs; cases hs
      | ok m => rw [hv] at hs; cases hs; exact h.keep rfl rfl (by simp)
  | passRecover =>
    simp only at hs
    split at hs
    · cases hs
    · split at hs
      · cases hs; exact h.keep rfl rfl (by simp)
      · cases hs
  | handleRecover k =>
    simp only at hs
    split at hs
    · cases hs
    · split at hs
      · cases hs
      · rename_i m hheld
        cases hv : DyCAPS.handleRecover pp tb p st k m with
        | error e => rw [hv] at hs; cases hs
        | ok r =>
          obtain ⟨st2, out2⟩ := r
          rw [hv] at hs
          cases hs
          exact h.handle hv
  | mvba result =>
    simp only at hs
    split at hs
    · cases hs; exact h.keep rfl rfl (by simp)
    · cases hs
  | refresh =>
    simp only at hs
    split at hs
    · cases hs
    · rename_i r hr'
      cases r with
      | error e => cases hs
      | ok r =>
        obtain ⟨p2, st2⟩ := r
        cases hs
        obtain ⟨a1, a2⟩ := refreshStep_sig p _ st _ hr'
        exact h.keep a1 a2 (by simp)
  | newCommit j data =>
    simp only at hs
    split at hs
    · split at hs
      · rename_i Cs hd
        cases data with
        | none => cases hs
        | some d =>
          simp only at hs
          unfold newCommitStep at hs
          cases h1 : oldCom p j with
          | error e => rw [h1] at hs; cases hs
          | ok old =>
            cases h2 : codec.decode! d with
            | error e => rw [h1, h2] at hs; cases hs
            | ok cb =>
              rw [h1, h2, Go.ok_bind, Go.ok_bind] at hs
              split at hs
              · cases hs; exact h.keep rfl rfl (by simp)
              · cases hs; exact h.keep rfl rfl (by simp)
      · cases hs
    · cases hs
  | shareDist sender data =>
    simp only at hs
    split at hs
    · rename_i Cs hd
      split at hs
      · cases hs
      · split at hs
        · cases hs
        · split at hs
          · obtain ⟨a1, a2, a3⟩ := shareDistStep_sig p p' _ st' _ _ out (Option.some.inj hs)
            exact h.keep a1 a2 a3
          · cases hs; exact h.keep rfl rfl (by simp)
    · cases hs
  | dist j data =>
    simp only at hs
    split at hs
    · split at hs
      · obtain ⟨a1, a2, a3⟩ := shareDistStep_sig p p' _ st' _ _ out (Option.some.inj hs)
        exact h.keep a1 a2 a3
      · cases hs
    · cases hs
  | success =>
    simp only at hs
    split at hs
    · cases hs; exact h.keep rfl rfl (by simp)
    · cases hs

theorem PRun.certs {p0 p : Party G1 G2} {c : DealerCoins} {st : PState G1} {evs : List PEvent} {outs : List POut}
    (h : PRun codec pp tb p0 (PState.init p0 c) evs outs p st) : CertInv tb p0.F p0.N st outs := by
  induction h with
  | nil => exact ⟨by intro k s hs; simp [PState.init] at hs, by intro q hq; simp [PState.init] at hq, by simp⟩
  | snoc h hs ih =>
    have e := PRun.static h
    rw [show p0.F = _ from (congrArg Party.F e).symm, show p0.N = _ from (congrArg Party.N e).symm] at ih ⊢
    exact ih.step hs

end
end DyCAPS
