import Verif.Lemmas.MVBAOnce
import Verif.Lemmas.ProactWait
import Verif.Spec.Traffic

/-!
# What does not change any more
-/

set_option linter.unusedSectionVars false

namespace DyCAPS

theorem decided_step {env : MEnv} {i : ℕ} {st : MState} {ev : MEvent} {o : MOut} {r : ℕ} {v : Bytes} (hp : st.phase = .decided r v) (h : mvbaStep env i st ev = some o) :
    o.st.phase = .decided r v ∧ ∀ m ∈ o.msgs, ∀ r', m.slot ≠ .prevote r' ∧ ∀ j, m.slot ≠ .value r' j 1 := by
  unfold mvbaStep at h
  split at h
  · cases h
  · cases ev with
    | recv s m =>
      cases m with
      | value r j stage v val =>
        simp only [Option.map_eq_some_iff] at h
        obtain ⟨o', h1, rfl⟩ := h
        unfold onValue at h1
        simp only at h1
        repeat' split at h1
        all_goals first | (cases h1; exact ⟨hp, by simp [echoOf, MMsg.slot]⟩) | cases h1
      | echo r j stage sh =>
        have h : onEchoShare env i st r j stage sh = some o := h
        unfold onEchoShare at h
        simp only at h
        repeat' split at h
        all_goals first | (cases h; exact ⟨hp, by simp [MMsg.slot]⟩) | cases h
      | finish r v sig =>
        have h : onFinish env st r s v sig = some o := h
        unfold onFinish at h
        simp only at h
        repeat' split at h
        all_goals first | (cases h; exact ⟨hp, by simp⟩) | cases h
      | done r sh =>
        have h : onDone env st r sh = some o := h
        unfold onDone at h
        simp only at h
        repeat' split at h
        all_goals first | (cases h; exact ⟨hp, by simp⟩) | cases h
      | halt r v sig =>
        have h : onHalt env st r v sig = some o := h
        unfold onHalt at h
        simp only at h
        repeat' split at h
        all_goals first | (cases h; exact ⟨hp, by simp⟩) | cases h
      | prevote r yes v sig =>
        have h : onPreVote env st r yes v sig = some o := h
        unfold onPreVote at h
        simp only at h
        repeat' split at h
        all_goals first | (cases h; exact ⟨hp, by simp⟩) | cases h
      | vote r yes v sig sh =>
        have h : onVote env st r yes v sig sh = some o := h
        unfold onVote at h
        simp only at h
        repeat' split at h
        all_goals first | (cases h; exact ⟨hp, by simp⟩) | cases h
    | quitRecv j =>
      simp only at h
      repeat' split at h
      all_goals first | (cases h; exact ⟨hp, by simp⟩) | cases h
    | quitSend =>
      simp only at h
      repeat' split at h
      all_goals first | (cases h; exact ⟨hp, by simp⟩) | cases h
    | elect r =>
      simp only at h
      repeat' split at h
      all_goals first | (cases h; exact ⟨hp, by simp [MMsg.slot]⟩) | cases h
    | takeLeader =>
      simp only at h
      split at h
      · rename_i hw _
        rw [hw] at hp; cases hp
      · cases h
    | joined =>
      have h : onJoined env i st = some o := h
      unfold onJoined at h
      rw [hp] at h
      cases h
    | sendVote r =>
      have h : onSendVote env i st r = some o := h
      unfold onSendVote at h
      simp only at h
      repeat' split at h
      all_goals first | (cases h; exact ⟨hp, by simp [MMsg.slot]⟩) | cases h
    | takeHalt =>
      rw [hp] at h
      simp only at h
      cases h
    | takeVote =>
      have h : onTakeVote i st = some o := h
      unfold onTakeVote at h
      rw [hp] at h
      cases h

section
variable {G1 G2 GT : Type} [AddCommGroup G1] [Module Fr G1] [AddCommGroup G2] [Module Fr G2] [AddCommGroup GT] [Module Fr GT]
variable [DecidableEq G1] [DecidableEq GT]
variable {codec : PointCodec G1} {pp : Pairing Fr G1 G2 GT} {tb : Tbls}

/-- The agreement is called once, and the Refresh loop starts with its result. -/
structure OnceInv (p0 p : Party G1 G2) (st : PState G1) : Prop where
  static : p = { p0 with reducedShare := p.reducedShare, fullShare := p.fullShare }
  called : st.mvbaRunning = true → st.mvbaSent = true ∧ st.refresh = .waiting
  started : st.refresh ≠ .waiting → st.mvbaSent = true
  full : st.successSent = false → p.fullShare = p0.fullShare
  reduced : (∀ Cs, st.refresh ≠ .done Cs) → p.reducedShare = p0.reducedShare

/-- What a step cannot change. -/
structure Stays (p p' : Party G1 G2) (st st' : PState G1) : Prop where
  full : st.successSent = true → st'.successSent = true ∧ p'.fullShare = p.fullShare
  reduced : ∀ Cs, st.refresh = .done Cs → st'.refresh = .done Cs ∧ p'.reducedShare = p.reducedShare

theorem OnceInv.init (p0 : Party G1 G2) (c : DealerCoins) : OnceInv p0 p0 (PState.init p0 c) :=
  ⟨rfl, (fun h => by cases h), fun h => absurd rfl h, fun _ => rfl, fun _ => rfl⟩

theorem once_effect {p0 p p' : Party G1 G2} {st st' : PState G1} {ev : PEvent} {out : List POut} (I : OnceInv p0 p st) (h : PEffect codec pp tb p st ev p' st' out) :
    OnceInv p0 p' st' ∧ Stays p p' st st' := by
  have keep : ∀ st'' : PState G1, st''.mvbaRunning = st.mvbaRunning → st''.mvbaSent = st.mvbaSent → st''.refresh = st.refresh → st''.successSent = st.successSent →
      OnceInv p0 p st'' ∧ Stays p p st st'' := by
    intro st'' h1 h2 h3 h4
    refine ⟨⟨I.static, ?_, ?_, ?_, ?_⟩, ⟨?_, ?_⟩⟩
    · rw [h1, h2, h3]; exact I.called
    · rw [h3, h2]; exact I.started
    · rw [h4]; exact I.full
    · rw [h3]; exact I.reduced
    · rw [h4]; exact fun h => ⟨h, rfl⟩
    · rw [h3]; exact fun _ h => ⟨h, rfl⟩
  cases h with
  | handleCall h1 h2 h3 hQ h4 h5 h6 h7 =>
    have hw : st.refresh = .waiting := by
      by_contra hne
      have := I.started hne
      rw [h6] at this; cases this
    exact ⟨⟨I.static, fun _ => ⟨rfl, hw⟩, fun _ => rfl, I.full, I.reduced⟩, ⟨fun h => ⟨h, rfl⟩, fun _ h => ⟨h, rfl⟩⟩⟩
  | mvba h1 =>
    obtain ⟨a, b⟩ := I.called h1
    refine ⟨⟨I.static, (fun h => by cases h), fun _ => a, I.full, fun _ => I.reduced (by rw [b]; simp)⟩, ⟨fun h => ⟨h, rfl⟩, fun Cs h => by rw [b] at h; cases h⟩⟩
  | refreshCom h1 h2 h3 h4 =>
    refine ⟨⟨I.static, fun h => ?_, fun _ => I.started (by rw [h1]; simp), I.full, fun _ => I.reduced (by rw [h1]; simp)⟩, ⟨fun h => ⟨h, rfl⟩, fun Cs h => by rw [h1] at h; cases h⟩⟩
    have := (I.called h).2
    rw [h1] at this; cases this
  | refreshRec h1 h2 h3 h4 h5 =>
    refine ⟨⟨I.static, fun h => ?_, fun _ => I.started (by rw [h1]; simp), I.full, fun _ => I.reduced (by rw [h1]; simp)⟩, ⟨fun h => ⟨h, rfl⟩, fun Cs h => by rw [h1] at h; cases h⟩⟩
    have := (I.called h).2
    rw [h1] at this; cases this
  | refreshEnd h1 h2 =>
    refine ⟨⟨?_, fun h => ?_, fun _ => I.started (by rw [h1]; simp), I.full, fun h => absurd rfl (h _)⟩, ⟨fun h => ⟨h, rfl⟩, fun Cs h => by rw [h1] at h; cases h⟩⟩
    · exact static_upd I.static _ _
    · have := (I.called h).2
      rw [h1] at this; cases this
  | distFull h1 h2 h3 h4 h5 h6 h7 =>
    refine ⟨⟨?_, I.called, I.started, (fun h => by cases h), I.reduced⟩, ⟨(fun h => by rw [h6] at h; cases h), fun _ h => ⟨h, rfl⟩⟩⟩
    exact static_upd I.static _ _
  | _ => exact keep _ rfl rfl rfl rfl

theorem once_run {p0 p1 p : Party G1 G2} {st1 st : PState G1} {evs : List PEvent} {outs : List POut} (I : OnceInv p0 p1 st1) (h : PRun codec pp tb p1 st1 evs outs p st) :
    OnceInv p0 p st ∧ Stays p1 p st1 st := by
  induction h with
  | nil => exact ⟨I, ⟨fun h => ⟨h, rfl⟩, fun _ h => ⟨h, rfl⟩⟩⟩
  | snoc h hs ih =>
    obtain ⟨I', s⟩ := ih
    obtain ⟨I2, s2⟩ := once_effect I' (step_effect hs)
    refine ⟨I2, ⟨fun h => ?_, fun Cs h => ?_⟩⟩
    · obtain ⟨a, b⟩ := s.full h
      obtain ⟨a', b'⟩ := s2.full a
      exact ⟨a', b'.trans b⟩
    · obtain ⟨a, b⟩ := s.reduced Cs h
      obtain ⟨a', b'⟩ := s2.reduced Cs a
      exact ⟨a', b'.trans b⟩

/-- A vote sends at most one Recover message to everybody. -/
theorem vote_targets (p : Party G1 G2) (CQ : ℕ → G1) (j : ℕ) (m : PReshare) {out : List POut} (h : vote codec pp tb p CQ j m = .ok out) (l : ℕ) : out.countP (POut.recoverTo l) ≤ 1 := by
  have main : ∀ g : ℕ → POut, (∀ k ∈ oneTo p.N, ∃ r, g k = .recover k r) → ((oneTo p.N).map g).countP (POut.recoverTo l) ≤ 1 := by
    intro g hg
    have e : ((oneTo p.N).map g).countP (POut.recoverTo l) = (oneTo p.N).countP fun k => decide (k = l) := by
      rw [List.countP_map]
      refine List.countP_congr fun k hk => ?_
      obtain ⟨r, hr⟩ := hg k hk
      simp [hr, POut.recoverTo]
    have hn : (oneTo p.N).Nodup := List.nodup_range.map fun a b h => by simpa using h
    have hc : ((oneTo p.N).countP fun k => decide (k = l)) = (oneTo p.N).count l := by
      rw [List.count]
      exact List.countP_congr fun k _ => by simp
    rw [e, hc]
    exact List.nodup_iff_count_le_one.1 hn l
  unfold vote at h
  cases he : (oneTo (2 * p.F + 1)).mapM (voteEntry codec pp p CQ m) with
  | error e => rw [he] at h; cases h
  | ok es =>
    rw [he, Go.ok_bind] at h
    simp only at h
    split at h
    all_goals
      split at h
      · obtain ⟨g, hg, rfl⟩ := mapM_ok_inv .success _ _ _ h
        refine main g fun k hk => ?_
        have ho := hg k hk
        generalize g k = o at ho
        split at ho
        · cases ho; exact ⟨_, rfl⟩
        · cases h1 : idx p.table k with
          | error e => rw [h1] at ho; cases ho
          | ok lam =>
            rw [h1, Go.ok_bind] at ho
            cases h2 : linCombFr (es.map (·.1)) lam with
            | error e => rw [h2] at ho; cases ho
            | ok v =>
              rw [h2, Go.ok_bind] at ho
              cases h3 : linCombG1 (es.map (·.2.1)) lam with
              | error e => rw [h3] at ho; cases ho
              | ok w => rw [h3, Go.ok_bind] at ho; cases ho; exact ⟨_, rfl⟩
      · cases h; simp

/-- The messages sent so far, against what is left. -/
structure Budget (N : ℕ) (outs : List POut) (st : PState G1) : Prop where
  recover : ∀ l, outs.countP (POut.recoverTo l) + st.voters + st.voteWait.length ≤ N
  call : outs.countP POut.calls = if st.mvbaSent then 1 else 0
  report : outs.countP POut.reports = if st.successSent then 1 else 0

theorem budget_effect {p p' : Party G1 G2} {st st' : PState G1} {ev : PEvent} {outs out : List POut} {N : ℕ} (B : Budget N outs st) (h : PEffect codec pp tb p st ev p' st' out) :
    Budget N (outs ++ out) st' := by
  have keep : ∀ st'' : PState G1, st''.voters = st.voters → st''.voteWait = st.voteWait → st''.mvbaSent = st.mvbaSent → st''.successSent = st.successSent → Budget N (outs ++ []) st'' := by
    intro st'' h1 h2 h3 h4
    rw [List.append_nil]
    exact ⟨by rw [h1, h2]; exact B.recover, by rw [h3]; exact B.call, by rw [h4]; exact B.report⟩
  cases h with
  | reshare h1 h2 hv =>
    have hr : ∀ o ∈ out, o.calls = false ∧ o.reports = false := by
      intro o ho
      obtain ⟨l, r, rfl⟩ := vote_recover p _ _ _ hv o ho
      exact ⟨rfl, rfl⟩
    refine ⟨fun l => ?_, ?_, ?_⟩
    · rw [List.countP_append]
      have a := vote_targets p _ _ _ hv l
      have b := B.recover l
      cases h1 with
      | now h0 =>
        show _ + (st.voters - 1) + st.voteWait.length ≤ N
        omega
      | later h0 h1 =>
        show _ + st.voters + (st.voteWait.erase _).length ≤ N
        rw [List.length_erase_of_mem h0]
        have := List.length_pos_of_mem h0
        omega
    · rw [List.countP_append, List.countP_eq_zero (l := out).2 fun o ho => by rw [(hr o ho).1]; simp]
      exact B.call
    · rw [List.countP_append, List.countP_eq_zero (l := out).2 fun o ho => by rw [(hr o ho).2]; simp]
      exact B.report
  | resharePark h0 h1 h2 =>
    rw [List.append_nil]
    refine ⟨fun l => ?_, B.call, B.report⟩
    have b := B.recover l
    show _ + (st.voters - 1) + (st.voteWait ++ [_]).length ≤ N
    rw [List.length_append, List.length_singleton]
    omega
  | handleCall h1 h2 h3 hQ h4 h5 h6 h7 =>
    have c := B.call
    rw [h6] at c
    refine ⟨fun l => ?_, ?_, ?_⟩
    · rw [List.countP_append]
      exact B.recover l
    · rw [List.countP_append]
      show _ = 1
      simp only [Bool.false_eq_true, if_false] at c
      rw [c]
      simp [POut.calls]
    · rw [List.countP_append]
      exact B.report
  | distFull h1 h2 h3 h4 h5 h6 h7 =>
    have c := B.report
    rw [h6] at c
    refine ⟨fun l => ?_, ?_, ?_⟩
    · rw [List.countP_append]
      exact B.recover l
    · rw [List.countP_append]
      exact B.call
    · rw [List.countP_append]
      show _ = 1
      simp only [Bool.false_eq_true, if_false] at c
      rw [c]
      simp [POut.reports]
  | _ => exact keep _ rfl rfl rfl rfl

theorem PRun.budget {p0 p : Party G1 G2} {c : DealerCoins} {st : PState G1} {evs : List PEvent} {outs : List POut} (h : PRun codec pp tb p0 (PState.init p0 c) evs outs p st) :
    Budget p0.N outs st := by
  induction h with
  | nil => exact ⟨fun l => by simp [PState.init], by simp [PState.init], by simp [PState.init]⟩
  | snoc h hs ih => exact budget_effect ih (step_effect hs)

theorem PRun.success_sent {p0 p : Party G1 G2} {c : DealerCoins} {st : PState G1} {evs : List PEvent} {outs : List POut} (h : PRun codec pp tb p0 (PState.init p0 c) evs outs p st) :
    POut.success ∈ outs ↔ st.successSent = true := by
  have e := h.budget.report
  constructor
  · intro hm
    by_contra hf
    rw [Bool.not_eq_true] at hf
    rw [hf] at e
    have := List.countP_eq_zero.1 e _ hm
    exact this rfl
  · intro hf
    rw [hf] at e
    have : 0 < outs.countP POut.reports := by rw [e]; decide
    obtain ⟨o, ho, hr⟩ := List.countP_pos_iff.1 this
    cases o with
    | success => exact ho
    | mvba _ => cases hr
    | recover _ _ => cases hr

end

end DyCAPS
