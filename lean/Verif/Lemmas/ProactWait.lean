import Verif.Lemmas.ProactEffect
import Verif.Lemmas.TblsRun

/-! Goroutines of Proactivize that wait: the receivers of Reshare and ShareDist messages, and the Refresh loop. -/

set_option linter.unusedSectionVars false

namespace DyCAPS

section
variable {G1 G2 GT : Type} [AddCommGroup G1] [Module Fr G1] [AddCommGroup G2] [Module Fr G2] [AddCommGroup GT] [Module Fr GT]
variable [DecidableEq G1] [DecidableEq GT]
variable {codec : PointCodec G1} {pp : Pairing Fr G1 G2 GT} {tb : Tbls} {p0 : Party G1 G2} {c : DealerCoins}

def PEvent.isReshare : PEvent → Bool
  | .reshare _ _ => true
  | _ => false

def PEvent.isTake : PEvent → Bool
  | .takeRecover _ _ => true
  | _ => false

def PEvent.isDist : PEvent → Bool
  | .shareDist _ _ => true
  | _ => false

/-- The queues of waiting receivers. -/
structure QueueInv (N : ℕ) (evs : List PEvent) (st : PState G1) : Prop where
  votes : ∀ z ∈ st.voteWait, ∃ s, z.1 = (s + 1).toNat ∧ PEvent.reshare s z.2 ∈ evs
  dists : ∀ z ∈ st.distWait, ∃ s, z.1 = (s + 1).toNat ∧ PEvent.shareDist s z.2 ∈ evs
  voters : st.voters + evs.countP PEvent.isReshare = N
  free : st.dists + evs.countP PEvent.isDist = N

theorem QueueInv.mono {N : ℕ} {evs : List PEvent} {st st' : PState G1} (ih : QueueInv N evs st) (ev : PEvent) (h1 : ev.isReshare = false) (h2 : ev.isDist = false)
    (e1 : ∀ z ∈ st'.voteWait, z ∈ st.voteWait) (e2 : ∀ z ∈ st'.distWait, z ∈ st.distWait) (e3 : st'.voters = st.voters) (e4 : st'.dists = st.dists) :
    QueueInv N (evs ++ [ev]) st' where
  votes := fun z hz => by
    obtain ⟨s, a, m⟩ := ih.votes z (e1 z hz)
    exact ⟨s, a, List.mem_append_left _ m⟩
  dists := fun z hz => by
    obtain ⟨s, a, m⟩ := ih.dists z (e2 z hz)
    exact ⟨s, a, List.mem_append_left _ m⟩
  voters := by rw [e3, List.countP_append, ← ih.voters]; simp [h1]
  free := by rw [e4, List.countP_append, ← ih.free]; simp [h2]

theorem QueueInv.distTake {N n : ℕ} {evs : List PEvent} {st st' : PState G1} {ev : PEvent} {j : ℕ} {d : Bytes} {W : List (ℕ × Bytes)} (ih : QueueInv p0.N evs st) (h : DistTake N st ev j d n W)
    (e1 : st'.voteWait = st.voteWait) (e2 : st'.distWait = W) (e3 : st'.voters = st.voters) (e4 : st'.dists = n) : QueueInv p0.N (evs ++ [ev]) st' := by
  cases h with
  | now h0 h1 =>
    refine ⟨fun z hz => ?_, fun z hz => ?_, ?_, ?_⟩
    · obtain ⟨s, a, m⟩ := ih.votes z (by rwa [e1] at hz)
      exact ⟨s, a, List.mem_append_left _ m⟩
    · obtain ⟨s, a, m⟩ := ih.dists z (by rwa [e2] at hz)
      exact ⟨s, a, List.mem_append_left _ m⟩
    · rw [e3, List.countP_append, ← ih.voters]; simp [PEvent.isReshare]
    · rw [e4, List.countP_append, ← ih.free]; simp only [List.countP_cons, List.countP_nil, PEvent.isDist, if_true]; omega
  | later h0 =>
    exact ih.mono _ rfl rfl (by rw [e1]; exact fun _ h => h) (fun z hz => List.mem_of_mem_erase (by rwa [e2] at hz)) e3 e4

theorem PRun.queueInv {evs : List PEvent} {outs : List POut} {p : Party G1 G2} {st : PState G1}
    (hrun : PRun codec pp tb p0 (PState.init p0 c) evs outs p st) : QueueInv p0.N evs st := by
  induction hrun with
  | nil => exact ⟨fun z h => by simp [PState.init] at h, fun z h => by simp [PState.init] at h, by simp [PState.init], by simp [PState.init]⟩
  | snoc hr hs ih =>
    rename_i evs1 outs1 p1 st1 ev p' st' out
    cases step_effect hs with
    | reshare h1 h2 hv =>
      cases h1 with
      | now h0 h1 =>
        refine ⟨fun z hz => ?_, fun z hz => ?_, ?_, ?_⟩
        · obtain ⟨s, a, m⟩ := ih.votes z hz
          exact ⟨s, a, List.mem_append_left _ m⟩
        · obtain ⟨s, a, m⟩ := ih.dists z hz
          exact ⟨s, a, List.mem_append_left _ m⟩
        · rw [List.countP_append, ← ih.voters]
          show st1.voters - 1 + _ = _
          simp only [List.countP_cons, List.countP_nil, PEvent.isReshare, if_true]; omega
        · rw [List.countP_append, ← ih.free]; simp [PEvent.isDist]
      | later h0 h1 => exact ih.mono _ rfl rfl (fun z hz => List.mem_of_mem_erase hz) (fun _ h => h) rfl rfl
    | resharePark h0 h1 h2 =>
      rename_i s d
      refine ⟨fun z hz => ?_, fun z hz => ?_, ?_, ?_⟩
      · have hz : z ∈ st1.voteWait ++ [((s + 1).toNat, d)] := hz
        rw [List.mem_append, List.mem_singleton] at hz
        rcases hz with hz | rfl
        · obtain ⟨s, a, m⟩ := ih.votes z hz
          exact ⟨s, a, List.mem_append_left _ m⟩
        · exact ⟨s, rfl, List.mem_append_right _ (List.mem_singleton.2 rfl)⟩
      · obtain ⟨s, a, m⟩ := ih.dists z hz
        exact ⟨s, a, List.mem_append_left _ m⟩
      · rw [List.countP_append, ← ih.voters]
        show st1.voters - 1 + _ = _
        simp only [List.countP_cons, List.countP_nil, PEvent.isReshare, if_true]; omega
      · rw [List.countP_append, ← ih.free]; simp [PEvent.isDist]
    | distPark h0 h1 h2 h3 =>
      rename_i s d Cs
      refine ⟨fun z hz => ?_, fun z hz => ?_, ?_, ?_⟩
      · obtain ⟨s, a, m⟩ := ih.votes z hz
        exact ⟨s, a, List.mem_append_left _ m⟩
      · have hz : z ∈ st1.distWait ++ [((s + 1).toNat, d)] := hz
        rw [List.mem_append, List.mem_singleton] at hz
        rcases hz with hz | rfl
        · obtain ⟨s, a, m⟩ := ih.dists z hz
          exact ⟨s, a, List.mem_append_left _ m⟩
        · exact ⟨s, rfl, List.mem_append_right _ (List.mem_singleton.2 rfl)⟩
      · rw [List.countP_append, ← ih.voters]; simp [PEvent.isReshare]
      · rw [List.countP_append, ← ih.free]
        show st1.dists - 1 + _ = _
        simp only [List.countP_cons, List.countP_nil, PEvent.isDist, if_true]; omega
    | distBad h1 => exact ih.distTake h1 rfl rfl rfl rfl
    | distOk h1 => exact ih.distTake h1 rfl rfl rfl rfl
    | distFull h1 => exact ih.distTake h1 rfl rfl rfl rfl
    | _ => exact ih.mono _ rfl rfl (fun _ h => h) (fun _ h => h) rfl rfl

/-- Voting sends Recover messages only. -/
theorem vote_recover (p : Party G1 G2) (CQ : ℕ → G1) (j : ℕ) (m : PReshare) {out : List POut} (h : vote codec pp tb p CQ j m = .ok out) :
    ∀ o ∈ out, ∃ l r, o = .recover l r := by
  unfold vote at h
  cases he : (oneTo (2 * p.F + 1)).mapM (voteEntry codec pp p CQ m) with
  | error e => rw [he] at h; cases h
  | ok es =>
    rw [he, Go.ok_bind] at h
    simp only at h
    split at h
    all_goals
      split at h
      · refine mapM_mem (P := fun o => ∃ l r, o = POut.recover l r) ?_ _ _ h
        intro l o ho
        split at ho
        · cases ho; exact ⟨_, _, rfl⟩
        · cases h1 : idx p.table l with
          | error e => rw [h1] at ho; cases ho
          | ok lam =>
            rw [h1, Go.ok_bind] at ho
            cases h2 : linCombFr (es.map (·.1)) lam with
            | error e => rw [h2] at ho; cases ho
            | ok v =>
              rw [h2, Go.ok_bind] at ho
              cases h3 : linCombG1 (es.map (·.2.1)) lam with
              | error e => rw [h3] at ho; cases ho
              | ok w => rw [h3, Go.ok_bind] at ho; cases ho; exact ⟨_, _, rfl⟩
      · cases h; intro o ho; simp at ho

theorem vote_no_success (p : Party G1 G2) (CQ : ℕ → G1) (j : ℕ) (m : PReshare) {out : List POut} (h : vote codec pp tb p CQ j m = .ok out) : POut.success ∉ out := by
  intro hm
  obtain ⟨l, r, e⟩ := vote_recover p CQ j m h _ hm
  cases e

/-- Handlers work on parties whose commitments have been accepted. -/
structure FlagInv (st : PState G1) : Prop where
  com : ∀ j, st.flgCom j = true → st.comDone j = true
  held : ∀ k m, st.held k = some m → st.flgCom k = true
  srec : ∀ k, st.SRec k ≠ [] → st.flgCom k = true
  rcd : ∀ k, st.flgRec k = true → st.flgCom k = true

theorem FlagInv.accept {st st' : PState G1} (ih : FlagInv st) {k : ℕ} {m : RecoverMsg G1} {F : ℕ} {fr : ℕ → Bool} {Q : ℕ → List Fr} (h2 : st.held k = some m)
    (hQ : PointEffect F st k m fr Q) (e0 : st'.flgRec = fr) (e1 : st'.flgCom = st.flgCom) (e2 : st'.comDone = st.comDone)
    (e3 : st'.held = upd st.held k none) (e4 : st'.SRec = upd st.SRec k (st.SRec k ++ [(m.x, m.v)])) : FlagInv st' := by
  refine ⟨by rw [e1, e2]; exact ih.com, fun k' m' hk => ?_, fun k' hk => ?_, fun k' hk => ?_⟩
  · rw [e3] at hk
    by_cases hkk : k' = k
    · subst hkk; simp at hk
    · rw [upd_ne _ _ hkk] at hk; rw [e1]; exact ih.held k' m' hk
  · rw [e4] at hk
    rw [e1]
    by_cases hkk : k' = k
    · subst hkk; exact ih.held _ _ h2
    · rw [upd_ne _ _ hkk] at hk; exact ih.srec k' hk
  · rw [e0] at hk
    rw [e1]
    rcases hQ with ⟨-, rfl, -⟩ | ⟨-, -, rfl, -⟩
    · exact ih.rcd k' hk
    · by_cases hkk : k' = k
      · subst hkk; exact ih.held _ _ h2
      · rw [upd_ne _ _ hkk] at hk; exact ih.rcd k' hk

theorem PRun.flagInv {evs : List PEvent} {outs : List POut} {p : Party G1 G2} {st : PState G1} (hrun : PRun codec pp tb p0 (PState.init p0 c) evs outs p st) : FlagInv st := by
  induction hrun with
  | nil => exact ⟨fun j h => by simp [PState.init] at h, fun k m h => by simp [PState.init] at h, fun k h => by simp [PState.init] at h, fun k h => by simp [PState.init] at h⟩
  | snoc hr hs ih =>
    rename_i evs1 outs1 p1 st1 ev p' st' out
    cases step_effect hs with
    | commit h1 h2 h3 hv =>
      rename_i j d row ok
      have hmono : ∀ k, st1.flgCom k = true → upd st1.flgCom j ok k = true := by
        intro k hk
        by_cases hkj : k = j
        · subst hkj; rw [ih.com k hk] at h3; cases h3
        · rw [upd_ne _ _ hkj]; exact hk
      refine ⟨fun k hk => ?_, fun k m hk => hmono k (ih.held k m hk), fun k hk => hmono k (ih.srec k hk), fun k hk => hmono k (ih.rcd k hk)⟩
      by_cases hkj : k = j
      · subst hkj; simp
      · simp only [upd_ne _ _ hkj] at hk ⊢; exact ih.com k hk
    | pass h h1 h2 h3 h4 h5 =>
      rename_i m
      refine ⟨ih.com, fun k m' hk => ?_, ih.srec, ih.rcd⟩
      by_cases hkm : k = m.k
      · subst hkm; exact h3
      · simp only [upd_ne _ _ hkm] at hk; exact ih.held k m' hk
    | handleBad h1 h2 h3 =>
      rename_i k m
      refine ⟨ih.com, fun k' m' hk => ?_, ih.srec, ih.rcd⟩
      by_cases hkm : k' = k
      · subst hkm; simp [endIteration] at hk
      · simp only [endIteration, upd_ne _ _ hkm] at hk; exact ih.held k' m' hk
    | handleOk h1 h2 h3 hQ => exact ih.accept h2 hQ rfl rfl rfl rfl rfl
    | handleComb h1 h2 h3 hQ => exact ih.accept h2 hQ rfl rfl rfl rfl rfl
    | handleCall h1 h2 h3 hQ => exact ih.accept h2 hQ rfl rfl rfl rfl rfl
    | _ => exact ⟨ih.com, ih.held, ih.srec, ih.rcd⟩

/-- The Refresh loop waits at `RecDone[j]` for a contribution that is not recovered any more. -/
structure BlockedAt (st : PState G1) (j : ℕ) (rest : List ℕ) (Qs : List Fr) (Cs : ℕ → G1) : Prop where
  wait : st.refreshWait = true
  sent : st.mvbaSent = true
  ret : st.mvbaRunning = false
  at_ : st.refresh = .looping (j :: rest) Qs Cs
  rec_ : st.flgRec j = false
  few : st.SRec j = [] ∨ ((st.SRec j).length = 1 ∧ st.exited j = true ∧ st.held j = none)

theorem BlockedAt.accept {st st' : PState G1} {j : ℕ} {rest : List ℕ} {Qs : List Fr} {Cs : ℕ → G1} (ih : BlockedAt st j rest Qs Cs) {F : ℕ} (hF : 1 ≤ F) {k : ℕ} {m : RecoverMsg G1}
    {fr : ℕ → Bool} {Q : ℕ → List Fr} (hm : st.held k = some m) (hQ : PointEffect F st k m fr Q) (e0 : st'.refreshWait = st.refreshWait) (e1 : st'.mvbaSent = st.mvbaSent)
    (e2 : st'.mvbaRunning = st.mvbaRunning) (e3 : st'.refresh = st.refresh) (e4 : st'.flgRec = fr) (e5 : st'.SRec = upd st.SRec k (st.SRec k ++ [(m.x, m.v)]))
    (e6 : st'.exited = upd st.exited k (st.exited k || st.mvbaSent)) (e7 : st'.held = upd st.held k none) : BlockedAt st' j rest Qs Cs := by
  refine ⟨e0.trans ih.wait, e1.trans ih.sent, e2.trans ih.ret, e3.trans ih.at_, ?_, ?_⟩
  · rw [e4]
    rcases hQ with ⟨-, rfl, -⟩ | ⟨-, hlen, rfl, -⟩
    · exact ih.rec_
    · have hne : j ≠ k := by
        rintro rfl
        rcases ih.few with h | ⟨-, -, h⟩
        · rw [h] at hlen; simp at hlen; omega
        · rw [h] at hm; cases hm
      rw [upd_ne _ _ hne]; exact ih.rec_
  · rw [e5, e6, e7]
    by_cases hjk : j = k
    · subst hjk
      right
      rcases ih.few with h | ⟨-, -, h⟩
      · rw [upd_same, upd_same, upd_same, h, ih.sent]
        exact ⟨by simp, by simp, rfl⟩
      · rw [h] at hm; cases hm
    · rw [upd_ne _ _ hjk, upd_ne _ _ hjk, upd_ne _ _ hjk]; exact ih.few

/-- Nothing that happens later ends the wait. -/
theorem BlockedAt.step {p p' : Party G1 G2} {st st' : PState G1} {ev : PEvent} {out : List POut} {j : ℕ} {rest : List ℕ} {Qs : List Fr} {Cs : ℕ → G1} (hF : 1 ≤ p.F)
    (ih : BlockedAt st j rest Qs Cs) (hs : proactStep codec pp tb p st ev = some (.ok (p', st', out))) :
    BlockedAt st' j rest Qs Cs ∧ p' = p ∧ POut.success ∉ out ∧ (st.successSent = false → st'.successSent = false ∧ st'.finished = st.finished) := by
  cases step_effect hs with
  | commit => exact ⟨⟨ih.wait, ih.sent, ih.ret, ih.at_, ih.rec_, ih.few⟩, rfl, by simp, fun h => ⟨h, rfl⟩⟩
  | reshare h1 h2 hv => exact ⟨⟨ih.wait, ih.sent, ih.ret, ih.at_, ih.rec_, ih.few⟩, rfl, vote_no_success _ _ _ _ hv, fun h => ⟨h, rfl⟩⟩
  | resharePark => exact ⟨⟨ih.wait, ih.sent, ih.ret, ih.at_, ih.rec_, ih.few⟩, rfl, by simp, fun h => ⟨h, rfl⟩⟩
  | take => exact ⟨⟨ih.wait, ih.sent, ih.ret, ih.at_, ih.rec_, ih.few⟩, rfl, by simp, fun h => ⟨h, rfl⟩⟩
  | pass h h1 h2 h3 h4 h5 =>
    rename_i m
    refine ⟨⟨ih.wait, ih.sent, ih.ret, ih.at_, ih.rec_, ?_⟩, rfl, by simp, fun h => ⟨h, rfl⟩⟩
    rcases ih.few with hf | ⟨f1, f2, f3⟩
    · exact Or.inl hf
    · right
      have hne : j ≠ m.k := by rintro rfl; rw [f2] at h4; cases h4
      exact ⟨f1, f2, by show upd st.held m.k (some m) j = none; rw [upd_ne _ _ hne]; exact f3⟩
  | handleBad h1 h2 h3 =>
    rename_i k m
    refine ⟨⟨ih.wait, ih.sent, ih.ret, ih.at_, ih.rec_, ?_⟩, rfl, by simp, fun h => ⟨h, rfl⟩⟩
    rcases ih.few with hf | ⟨f1, f2, f3⟩
    · exact Or.inl hf
    · right
      have hne : j ≠ k := by rintro rfl; rw [f3] at h2; cases h2
      exact ⟨f1, by show upd st.exited k _ j = true; rw [upd_ne _ _ hne]; exact f2, by show upd st.held k none j = none; rw [upd_ne _ _ hne]; exact f3⟩
  | handleOk h1 h2 h3 hQ => exact ⟨ih.accept hF h2 hQ rfl rfl rfl rfl rfl rfl rfl rfl, rfl, by simp, fun h => ⟨h, rfl⟩⟩
  | handleComb h1 h2 h3 hQ => exact ⟨ih.accept hF h2 hQ rfl rfl rfl rfl rfl rfl rfl rfl, rfl, by simp, fun h => ⟨h, rfl⟩⟩
  | handleCall h1 h2 h3 hQ h4 h5 h6 => rw [ih.sent] at h6; cases h6
  | mvba h1 => rw [ih.ret] at h1; cases h1
  | refreshPark h1 h2 h3 h4 => rw [ih.wait] at h4; cases h4
  | refreshCom h1 h2 h3 h4 => rw [ih.wait] at h4; cases h4
  | refreshRec h1 h2 h3 h4 =>
    rw [ih.at_] at h1
    injection h1 with e1
    rw [← List.head_eq_of_cons_eq e1, ih.rec_] at h4; cases h4
  | refreshEnd h1 => rw [ih.at_] at h1; cases h1
  | newOk h1 h2 h3 h4 => rw [ih.at_] at h4; cases h4
  | newBad h1 h2 h3 h4 => rw [ih.at_] at h4; cases h4
  | distBad h1 h2 => rw [ih.at_] at h2; cases h2
  | distOk h1 h2 => rw [ih.at_] at h2; cases h2
  | distFull h1 h2 => rw [ih.at_] at h2; cases h2
  | distPark h0 h1 h2 => rw [ih.at_] at h2; cases h2
  | success h1 h2 => exact ⟨⟨ih.wait, ih.sent, ih.ret, ih.at_, ih.rec_, ih.few⟩, rfl, by simp, fun h => by rw [h] at h1; cases h1⟩

theorem BlockedAt.run {p p' : Party G1 G2} {st st' : PState G1} {evs : List PEvent} {outs : List POut} {j : ℕ} {rest : List ℕ} {Qs : List Fr} {Cs : ℕ → G1} (hF : 1 ≤ p.F)
    (ih : BlockedAt st j rest Qs Cs) (hrun : PRun codec pp tb p st evs outs p' st') :
    BlockedAt st' j rest Qs Cs ∧ p' = p ∧ POut.success ∉ outs ∧ (st.successSent = false → st'.successSent = false ∧ st'.finished = st.finished) := by
  induction hrun with
  | nil => exact ⟨ih, rfl, by simp, fun h => ⟨h, rfl⟩⟩
  | snoc hr hs ih2 =>
    obtain ⟨a, rfl, c, d⟩ := ih2
    obtain ⟨a', e', c', d'⟩ := a.step hF hs
    exact ⟨a', e', by simp [c, c'], fun h => ⟨(d' (d h).1).1, (d' (d h).1).2.trans (d h).2⟩⟩

/-- Whenever the Refresh loop waits, it is blocked. -/
theorem PRun.blockedAt (hF : 1 ≤ p0.F) {evs : List PEvent} {outs : List POut} {p : Party G1 G2} {st : PState G1} (hrun : PRun codec pp tb p0 (PState.init p0 c) evs outs p st)
    (hw : st.refreshWait = true) : ∃ j rest Qs Cs, BlockedAt st j rest Qs Cs := by
  induction hrun with
  | nil => simp [PState.init] at hw
  | snoc hr hs ih =>
    rename_i evs1 outs1 p1 st1 ev p' st' out
    cases hw1 : st1.refreshWait with
    | true =>
      obtain ⟨j, rest, Qs, Cs, hb⟩ := ih hw1
      have hF1 : 1 ≤ p1.F := by rw [hr.static]; exact hF
      exact ⟨j, rest, Qs, Cs, (hb.step hF1 hs).1⟩
    | false =>
      have hord := hr.order
      have hfl := hr.flagInv
      cases step_effect hs with
      | refreshPark h1 h2 h3 h4 =>
        rename_i j rest Qs Cs
        have hnw : st1.refresh ≠ .waiting := by rw [h1]; simp
        refine ⟨j, rest, Qs, Cs, rfl, (hord.started hnw).1, (hord.started hnw).2, h1, ?_, Or.inl ?_⟩
        · by_contra h
          rw [hfl.rcd j (by simpa using h)] at h3; cases h3
        · by_contra h
          rw [hfl.srec j h] at h3; cases h3
      | refreshRec => simp at hw
      | handleBad => simp only [endIteration] at hw; rw [hw1] at hw; cases hw
      | handleOk => simp only [afterAccept] at hw; rw [hw1] at hw; cases hw
      | handleComb => simp only [afterAccept] at hw; rw [hw1] at hw; cases hw
      | handleCall => simp only [afterAccept] at hw; rw [hw1] at hw; cases hw
      | _ => simp only [hw1] at hw; cases hw

theorem PRun.not_waited (hF : 1 ≤ p0.F) {evs : List PEvent} {outs : List POut} {p : Party G1 G2} {st : PState G1} (hrun : PRun codec pp tb p0 (PState.init p0 c) evs outs p st)
    {j : ℕ} {rest : List ℕ} {Qs : List Fr} {Cs : ℕ → G1} (h1 : st.refresh = .looping (j :: rest) Qs Cs) (hw : st.refreshWait = true) : ¬ st.flgRec j = true := by
  obtain ⟨j', rest', Qs', Cs', hb⟩ := hrun.blockedAt hF hw
  have := hb.at_
  rw [h1] at this
  injection this with e1
  rw [List.head_eq_of_cons_eq e1, hb.rec_]
  simp

theorem VoteTake.ev {N : ℕ} {st : PState G1} {ev : PEvent} {j : ℕ} {d : Bytes} {n : ℕ} {W : List (ℕ × Bytes)} {T : ℕ → Bool} (h : VoteTake N st ev j d n W T) :
    (∃ s, ev = .reshare s d ∧ j = (s + 1).toNat ∧ st.voters ≠ 0 ∧ n = st.voters - 1 ∧ W = st.voteWait) ∨ (ev = .vote j d ∧ (j, d) ∈ st.voteWait ∧ n = st.voters ∧ W = st.voteWait.erase (j, d)) := by
  cases h with
  | now h0 h1 => exact Or.inl ⟨_, rfl, rfl, h0, rfl, rfl⟩
  | later h0 h1 => exact Or.inr ⟨rfl, h0, rfl, rfl⟩

theorem DistTake.ev {N : ℕ} {st : PState G1} {ev : PEvent} {j : ℕ} {d : Bytes} {n : ℕ} {W : List (ℕ × Bytes)} (h : DistTake N st ev j d n W) :
    (∃ s, ev = .shareDist s d ∧ j = (s + 1).toNat ∧ st.dists ≠ 0 ∧ n = st.dists - 1 ∧ W = st.distWait) ∨ (ev = .dist j d ∧ (j, d) ∈ st.distWait ∧ n = st.dists ∧ W = st.distWait.erase (j, d)) := by
  cases h with
  | now h0 h1 => exact Or.inl ⟨_, rfl, rfl, h0, rfl, rfl⟩
  | later h0 => exact Or.inr ⟨rfl, h0, rfl, rfl⟩

theorem DistTake.keep {N : ℕ} {st : PState G1} {ev : PEvent} {j : ℕ} {d : Bytes} {n : ℕ} {W : List (ℕ × Bytes)} (h : DistTake N st ev j d n W) {z : ℕ × Bytes} (hz : z ∈ st.distWait) (hne : z.1 ≠ j) : z ∈ W := by
  rcases h.ev with ⟨-, -, -, -, -, rfl⟩ | ⟨-, -, -, rfl⟩
  · exact hz
  · exact (List.mem_erase_of_ne (by rintro rfl; exact hne rfl)).2 hz

theorem DistTake.sub {N : ℕ} {st : PState G1} {ev : PEvent} {j : ℕ} {d : Bytes} {n : ℕ} {W : List (ℕ × Bytes)} (h : DistTake N st ev j d n W) {z : ℕ × Bytes} (hz : z ∈ W) : z ∈ st.distWait := by
  rcases h.ev with ⟨-, -, -, -, -, rfl⟩ | ⟨-, -, -, rfl⟩
  · exact hz
  · exact List.mem_of_mem_erase hz

/-- A receiver that waits for a commitment finds a token once it is there, if no sender's Reshare message comes twice. -/
structure TokInv (st : PState G1) : Prop where
  tok : ∀ z ∈ st.voteWait, st.flgCom z.1 = true → st.voteToken z.1 = true
  nodup : (st.voteWait.map (·.1)).Nodup

theorem PRun.tokInv {evs : List PEvent} {outs : List POut} {p : Party G1 G2} {st : PState G1}
    (hrun : PRun codec pp tb p0 (PState.init p0 c) evs outs p st) (honce : ∀ l1 s d l2, evs = l1 ++ PEvent.reshare s d :: l2 → ∀ d', PEvent.reshare s d' ∉ l1) : TokInv st := by
  induction hrun with
  | nil => exact ⟨fun z h => by simp [PState.init] at h, by simp [PState.init]⟩
  | snoc hr hs ih =>
    rename_i evs1 outs1 p1 st1 ev p' st' out
    have ih := ih fun l1 s d l2 he d' => honce l1 s d (l2 ++ [ev]) (by rw [he, List.append_assoc, List.cons_append]) d'
    cases step_effect hs with
    | commit h1 h2 h3 hv =>
      rename_i j d row ok
      refine ⟨fun z hz hf => ?_, ih.nodup⟩
      have hf : upd st1.flgCom j ok z.1 = true := hf
      show upd st1.voteToken j ok z.1 = true
      by_cases hj : z.1 = j
      · rw [hj, upd_same] at hf ⊢; exact hf
      · rw [upd_ne _ _ hj] at hf ⊢; exact ih.tok z hz hf
    | reshare h1 h2 hv =>
      cases h1 with
      | now h0 h1 => exact ⟨ih.tok, ih.nodup⟩
      | later h0 h1 =>
        rename_i j d
        have hnd : st1.voteWait.Nodup := List.Nodup.of_map _ ih.nodup
        refine ⟨fun z hz hf => ?_, List.Nodup.sublist (List.erase_sublist.map _) ih.nodup⟩
        have hz : z ∈ st1.voteWait.erase (j, d) := hz
        rw [hnd.mem_erase_iff] at hz
        have hne : z.1 ≠ j := by
          intro he
          exact hz.1 (List.inj_on_of_nodup_map ih.nodup hz.2 h0 he)
        show upd st1.voteToken j false z.1 = true
        rw [upd_ne _ _ hne]
        exact ih.tok z hz.2 hf
    | resharePark h0 h1 h2 =>
      rename_i s d
      refine ⟨fun z hz hf => ?_, ?_⟩
      · have hz : z ∈ st1.voteWait ++ [((s + 1).toNat, d)] := hz
        rw [List.mem_append, List.mem_singleton] at hz
        rcases hz with hz | hz
        · exact ih.tok z hz hf
        · rw [hz] at hf
          have hf : st1.flgCom (s + 1).toNat = true := hf
          rw [h2] at hf; cases hf
      · show ((st1.voteWait ++ [((s + 1).toNat, d)]).map (·.1)).Nodup
        rw [List.map_append, List.nodup_append]
        refine ⟨ih.nodup, by simp, ?_⟩
        intro x hx y hy he
        obtain ⟨z, hz, hzx⟩ := List.mem_map.1 hx
        obtain ⟨s', h3, h4⟩ := hr.queueInv.votes z hz
        have hy : y = (s + 1).toNat := by simpa using hy
        have : s' = s := by
          have : (s' + 1).toNat = (s + 1).toNat := by rw [← h3, hzx, he, hy]
          exact (UInt32.add_left_inj 1).1 (UInt32.toNat_inj.1 this)
        rw [this] at h4
        exact honce evs1 s d [] rfl _ h4
    | _ => exact ⟨ih.tok, ih.nodup⟩

/-- A result of a NewCommit broadcast that has been handled has come. -/
theorem PRun.newCom_ev {evs : List PEvent} {outs : List POut} {p : Party G1 G2} {st : PState G1}
    (hrun : PRun codec pp tb p0 (PState.init p0 c) evs outs p st) : ∀ j, st.newComDone j = true → ∃ d, PEvent.newCommit j d ∈ evs := by
  induction hrun with
  | nil => intro j h; simp [PState.init] at h
  | snoc hr hs ih =>
    rename_i evs1 outs1 p1 st1 ev p' st' out
    have key : ∀ k d, ev = .newCommit k d → ∀ j, upd st1.newComDone k true j = true → ∃ d, PEvent.newCommit j d ∈ evs1 ++ [ev] := by
      intro k d he j hj
      by_cases hk : j = k
      · exact ⟨d, List.mem_append_right _ (by rw [he, hk]; exact List.mem_singleton.2 rfl)⟩
      · rw [upd_ne _ _ hk] at hj
        obtain ⟨d, h⟩ := ih j hj
        exact ⟨d, List.mem_append_left _ h⟩
    have rest : ∀ j, st1.newComDone j = true → ∃ d, PEvent.newCommit j d ∈ evs1 ++ [ev] := by
      intro j hj
      obtain ⟨d, h⟩ := ih j hj
      exact ⟨d, List.mem_append_left _ h⟩
    cases step_effect hs with
    | newOk => exact key _ _ rfl
    | newBad => exact key _ _ rfl
    | _ => exact rest

end

end DyCAPS
