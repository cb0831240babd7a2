import Verif.Spec.OneVoice
import Verif.Lemmas.MVBA

/-!
# Agreement: every message is sent once
-/

namespace DyCAPS

/-- The state of the party shows that it may have sent a message of this kind. -/
def Marked (st : MState) : MSlot → Prop
  | .value r _ stage => r ≤ st.round ∧ (stage ≠ 1 → ∀ l, (st.rounds r).send ≠ .first l)
  | .echo r j stage => r ≤ st.round ∧ (st.rounds r).recv j ≠ .first ∧ (stage ≠ 1 → (st.rounds r).recv j = .ended)
  | .finish r => r ≤ st.round ∧ (st.rounds r).send = .ended
  | .done r => r ≤ st.round ∧ (st.rounds r).elected = true
  | .halt => ∃ r v, st.phase = .decided r v
  | .prevote r => r ≤ st.round ∧ (st.rounds r).voteSpawned = true
  | .vote r => r ≤ st.round ∧ (st.rounds r).voted = true

/-- The variables of a round only move forward. -/
structure RFwd (R R' : MRound) : Prop where
  recv1 : ∀ j, R.recv j ≠ .first → R'.recv j ≠ .first
  recv2 : ∀ j, R.recv j = .ended → R'.recv j = .ended
  send1 : (∀ l, R.send ≠ .first l) → ∀ l, R'.send ≠ .first l
  send2 : R.send = .ended → R'.send = .ended
  elected : R.elected = true → R'.elected = true
  spawned : R.voteSpawned = true → R'.voteSpawned = true
  voted : R.voted = true → R'.voted = true

theorem RFwd.refl (R : MRound) : RFwd R R := ⟨fun _ => id, fun _ => id, id, id, id, id, id⟩

theorem RFwd.keep {R R' : MRound} (h1 : R'.recv = R.recv) (h2 : R'.send = R.send) (h3 : R'.elected = R.elected) (h4 : R'.voteSpawned = R.voteSpawned) (h5 : R'.voted = R.voted) : RFwd R R' :=
  ⟨fun _ => by rw [h1]; exact id, fun _ => by rw [h1]; exact id, by rw [h2]; exact id, by rw [h2]; exact id, by rw [h3]; exact id, by rw [h4]; exact id, by rw [h5]; exact id⟩

structure SFwd (st st' : MState) : Prop where
  round : st.round ≤ st'.round
  rounds : ∀ r ≤ st.round, RFwd (st.rounds r) (st'.rounds r)
  phase : (∃ r v, st.phase = .decided r v) → ∃ r v, st'.phase = .decided r v

theorem SFwd.marked {st st' : MState} (h : SFwd st st') {x : MSlot} (hm : Marked st x) : Marked st' x := by
  cases x with
  | value r j stage => exact ⟨hm.1.trans h.round, fun hs => (h.rounds r hm.1).send1 (hm.2 hs)⟩
  | echo r j stage => exact ⟨hm.1.trans h.round, (h.rounds r hm.1).recv1 j hm.2.1, fun hs => (h.rounds r hm.1).recv2 j (hm.2.2 hs)⟩
  | finish r => exact ⟨hm.1.trans h.round, (h.rounds r hm.1).send2 hm.2⟩
  | done r => exact ⟨hm.1.trans h.round, (h.rounds r hm.1).elected hm.2⟩
  | halt => exact h.phase hm
  | prevote r => exact ⟨hm.1.trans h.round, (h.rounds r hm.1).spawned hm.2⟩
  | vote r => exact ⟨hm.1.trans h.round, (h.rounds r hm.1).voted hm.2⟩

/-- A step that sends nothing or one message of a kind not sent before. -/
structure Speaks (st : MState) (o : MOut) : Prop where
  fwd : SFwd st o.st
  msgs : o.msgs = [] ∨ ∃ m, o.msgs = [m] ∧ ¬ Marked st m.slot ∧ Marked o.st m.slot

theorem SFwd.refl (st : MState) : SFwd st st := ⟨le_rfl, fun _ _ => RFwd.refl _, id⟩

theorem SFwd.dead (st : MState) : SFwd st { st with dead := true } := ⟨le_rfl, fun _ _ => RFwd.refl _, id⟩

theorem SFwd.set {st : MState} {r : ℕ} {R : MRound} (h : RFwd (st.rounds r) R) : SFwd st (st.setRound r R) := by
  refine ⟨le_rfl, fun r' _ => ?_, id⟩
  rw [setRound_rounds]
  split
  · rename_i he; rw [he]; exact h
  · exact RFwd.refl _

/-- What holds of the Prevote of the current round. -/
def Unspawned (st : MState) : Prop := (st.phase = .wait ∨ ∃ l, st.phase = .join l) → (st.rounds st.round).voteSpawned = false

theorem recv_fwd {R : MRound} {j : ℕ} {p : PbPos} {lk : ℕ → Option (Bytes × Bytes)} (h1 : p ≠ .first) (h2 : R.recv j = .ended → p = .ended) :
    RFwd R { R with recv := fun j' => if j' = j then p else R.recv j', lock := lk } := by
  refine ⟨fun j' h => ?_, fun j' h => ?_, id, id, id, id, id⟩
  · show (if j' = j then p else R.recv j') ≠ _
    split
    · exact h1
    · exact h
  · show (if j' = j then p else R.recv j') = _
    split
    · rename_i he; rw [he] at h; exact h2 h
    · exact h

theorem speaks_value {env : MEnv} {i : ℕ} {st : MState} {r j stage : ℕ} {v val : Bytes} {o : MOut} (h : onValue env st r j stage v val = some o) :
    Speaks st { o with msgs := o.msgs ++ o.signed.flatMap (echoOf env i) } := by
  unfold onValue at h
  simp only at h
  split at h
  · rename_i hc
    split at h
    · rename_i hf
      cases h
      refine ⟨SFwd.set (recv_fwd (by simp) (fun h => by rw [hf] at h; cases h)), Or.inr ⟨_, rfl, fun hm => hm.2.1 hf, ?_⟩⟩
      exact ⟨hc.1, by simp, fun h => absurd rfl h⟩
    · rename_i hf
      split at h
      · cases h
        refine ⟨SFwd.set (recv_fwd (by simp) (fun _ => rfl)), Or.inr ⟨_, rfl, fun hm => ?_, ?_⟩⟩
        · have := hm.2.2 (by norm_num)
          rw [hf] at this; cases this
        · exact ⟨hc.1, by simp, fun _ => by simp⟩
      · cases h
        exact ⟨SFwd.dead st, Or.inl rfl⟩
    · cases h
  · cases h

theorem send_fwd {R : MRound} {p : SendPos} (h1 : (∀ l, R.send ≠ .first l) → ∀ l, p ≠ .first l) (h2 : R.send = .ended → p = .ended) : RFwd R { R with send := p } :=
  ⟨fun _ => id, fun _ => id, h1, h2, id, id, id⟩

theorem speaks_echoShare {env : MEnv} {i : ℕ} {st : MState} {r j stage : ℕ} {sh : Bytes} {o : MOut} (h : onEchoShare env i st r j stage sh = some o) : Speaks st o := by
  unfold onEchoShare at h
  simp only at h
  split at h
  · rename_i hc
    split at h
    · rename_i sigs hf
      have e2 : (st.rounds r).send = .ended → ∀ p, p = SendPos.ended := fun h => by rw [hf] at h; cases h
      split at h
      · split at h
        · cases h
          refine ⟨SFwd.set (send_fwd (by simp) (fun h => e2 h _)), Or.inr ⟨_, rfl, fun hm => hm.2 (by norm_num) sigs hf, ⟨hc.1, fun _ l => by simp⟩⟩⟩
        · cases h
          exact ⟨SFwd.set (send_fwd (fun h => absurd hf (h sigs)) (fun h => e2 h _)), Or.inl rfl⟩
      · cases h
        exact ⟨SFwd.refl _, Or.inl rfl⟩
    · rename_i sigs hf
      have e2 : (st.rounds r).send = .ended → ∀ p, p = SendPos.ended := fun h => by rw [hf] at h; cases h
      split at h
      · split at h
        · cases h
          refine ⟨SFwd.set (send_fwd (by simp) (fun h => e2 h _)), Or.inr ⟨_, rfl, fun hm => ?_, ⟨hc.1, by simp⟩⟩⟩
          have := hm.2
          rw [hf] at this; cases this
        · cases h
          exact ⟨SFwd.set (send_fwd (by simp) (fun h => e2 h _)), Or.inl rfl⟩
      · cases h
        exact ⟨SFwd.refl _, Or.inl rfl⟩
    · cases h
  · cases h

theorem speaks_finish {env : MEnv} {st : MState} {r s : ℕ} {v sig : Bytes} {o : MOut} (h : onFinish env st r s v sig = some o) : Speaks st o := by
  unfold onFinish at h
  simp only at h
  split at h
  · split at h
    · split at h
      · cases h
        exact ⟨SFwd.set (RFwd.keep rfl rfl rfl rfl rfl), Or.inl rfl⟩
      · cases h; exact ⟨SFwd.refl _, Or.inl rfl⟩
    · cases h; exact ⟨SFwd.dead _, Or.inl rfl⟩
  · cases h

theorem speaks_done {env : MEnv} {st : MState} {r : ℕ} {sh : Bytes} {o : MOut} (h : onDone env st r sh = some o) : Speaks st o := by
  unfold onDone at h
  simp only at h
  split at h
  · split at h
    · cases h
      exact ⟨SFwd.set (RFwd.keep rfl rfl rfl rfl rfl), Or.inl rfl⟩
    · cases h; exact ⟨SFwd.refl _, Or.inl rfl⟩
  · cases h

theorem speaks_halt {env : MEnv} {st : MState} {r : ℕ} {v sig : Bytes} {o : MOut} (h : onHalt env st r v sig = some o) : Speaks st o := by
  unfold onHalt at h
  simp only at h
  split at h
  · cases h
  · split at h
    · split at h
      · split at h
        · cases h
        · cases h
          have := SFwd.set (st := st) (r := r) (R := { st.rounds r with haltDone := true }) (RFwd.keep rfl rfl rfl rfl rfl)
          exact ⟨⟨this.round, this.rounds, this.phase⟩, Or.inl rfl⟩
      · cases h; exact ⟨SFwd.refl _, Or.inl rfl⟩
    · cases h

theorem speaks_preVote {env : MEnv} {st : MState} {r : ℕ} {yes : Bool} {v sig : Bytes} {o : MOut} (h : onPreVote env st r yes v sig = some o) : Speaks st o := by
  unfold onPreVote at h
  simp only at h
  split at h
  · cases h
  · split at h
    · split at h
      · split at h
        · cases h
          exact ⟨SFwd.set (RFwd.keep rfl rfl rfl rfl rfl), Or.inl rfl⟩
        · cases h; exact ⟨SFwd.refl _, Or.inl rfl⟩
      · split at h
        · cases h
          exact ⟨SFwd.set (RFwd.keep rfl rfl rfl rfl rfl), Or.inl rfl⟩
        · cases h; exact ⟨SFwd.refl _, Or.inl rfl⟩
    · cases h

theorem speaks_vote {env : MEnv} {st : MState} {r : ℕ} {yes : Bool} {v sig sh : Bytes} {o : MOut} (h : onVote env st r yes v sig sh = some o) : Speaks st o := by
  unfold onVote at h
  simp only at h
  split at h
  · cases h
  · split at h
    · split at h
      · split at h
        · cases h
          exact ⟨SFwd.set (RFwd.keep rfl rfl rfl rfl rfl), Or.inl rfl⟩
        · cases h; exact ⟨SFwd.refl _, Or.inl rfl⟩
      · split at h
        · cases h
          exact ⟨SFwd.set (RFwd.keep rfl rfl rfl rfl rfl), Or.inl rfl⟩
        · cases h; exact ⟨SFwd.refl _, Or.inl rfl⟩
    · cases h

theorem speaks_joined {env : MEnv} {i : ℕ} {st : MState} {o : MOut} (hu : Unspawned st) (h : onJoined env i st = some o) : Speaks st o := by
  unfold onJoined at h
  split at h
  · rename_i l hp
    have hnd : ¬ ∃ r v, st.phase = .decided r v := by rintro ⟨r, v, e⟩; rw [hp] at e; cases e
    have hns := hu (Or.inr ⟨l, hp⟩)
    have hns' : ¬ Marked st (.prevote st.round) := fun hm => by have := hm.2; rw [hns] at this; cases this
    have hf : SFwd st { st.setRound st.round { st.rounds st.round with voteSpawned := true } with phase := .result l } := by
      have := SFwd.set (st := st) (r := st.round) (R := { st.rounds st.round with voteSpawned := true }) ⟨fun _ => id, fun _ => id, id, id, id, fun _ => rfl, id⟩
      exact ⟨this.round, this.rounds, fun h => absurd h hnd⟩
    have hmk : Marked { st.setRound st.round { st.rounds st.round with voteSpawned := true } with phase := .result l } (.prevote st.round) := by
      refine ⟨le_rfl, ?_⟩
      show ((st.setRound st.round { st.rounds st.round with voteSpawned := true }).rounds st.round).voteSpawned = true
      simp
    simp only at h
    split at h
    · split at h
      · cases h
        exact ⟨⟨le_rfl, fun _ _ => RFwd.refl _, fun _ => ⟨_, _, rfl⟩⟩, Or.inr ⟨_, rfl, hnd, ⟨_, _, rfl⟩⟩⟩
      · split at h
        · cases h
          exact ⟨hf, Or.inr ⟨_, rfl, hns', hmk⟩⟩
        · cases h
          exact ⟨hf, Or.inr ⟨_, rfl, hns', hmk⟩⟩
    · cases h
  · cases h

theorem speaks_sendVote {env : MEnv} {i : ℕ} {st : MState} {r : ℕ} {o : MOut} (h : onSendVote env i st r = some o) : Speaks st o := by
  unfold onSendVote at h
  simp only at h
  split at h
  · rename_i hc
    have hnm : ¬ Marked st (.vote r) := fun hm => by have := hm.2; rw [hc.2.2] at this; cases this
    have hf : SFwd st (st.setRound r { st.rounds r with voted := true }) := SFwd.set ⟨fun _ => id, fun _ => id, id, id, id, id, fun _ => rfl⟩
    have hmk : Marked (st.setRound r { st.rounds r with voted := true }) (.vote r) := ⟨hc.1, by simp⟩
    split at h
    · cases h; exact ⟨hf, Or.inr ⟨_, rfl, hnm, hmk⟩⟩
    · cases h; exact ⟨hf, Or.inr ⟨_, rfl, hnm, hmk⟩⟩
    · cases h
  · cases h

theorem speaks_start {st : MState} (i : ℕ) (v val : Bytes) (hnd : ¬ ∃ r v, st.phase = .decided r v) :
    Speaks st ⟨(startRound i (st.round + 1) v val st).1, (startRound i (st.round + 1) v val st).2, []⟩ := by
  refine ⟨⟨Nat.le_succ _, fun r hr => ?_, fun h => absurd h hnd⟩, Or.inr ⟨_, rfl, fun hm => ?_, ⟨le_rfl, fun h => absurd rfl h⟩⟩⟩
  · show RFwd _ (if r = st.round + 1 then _ else st.rounds r)
    rw [if_neg (by omega)]
    exact RFwd.refl _
  · exact absurd hm.1 (by omega)

theorem speaks_takeVote {i : ℕ} {st : MState} {o : MOut} (h : onTakeVote i st = some o) : Speaks st o := by
  unfold onTakeVote at h
  split at h
  · rename_i l hp
    have hnd : ¬ ∃ r v, st.phase = .decided r v := by rintro ⟨r, v, e⟩; rw [hp] at e; cases e
    simp only at h
    split at h
    · cases h
    · cases h
      exact ⟨⟨le_rfl, fun _ _ => RFwd.refl _, fun _ => ⟨_, _, rfl⟩⟩, Or.inr ⟨_, rfl, hnd, ⟨_, _, rfl⟩⟩⟩
    · cases h; exact speaks_start i _ _ hnd
    · cases h; exact speaks_start i _ _ hnd
  · cases h

theorem speaks_step {env : MEnv} {i : ℕ} {st : MState} {ev : MEvent} {o : MOut} (hu : Unspawned st) (h : mvbaStep env i st ev = some o) : Speaks st o := by
  unfold mvbaStep at h
  split at h
  · cases h
  · cases ev with
    | recv s m =>
      cases m with
      | value r j stage v val =>
        simp only [Option.map_eq_some_iff] at h
        obtain ⟨o', h1, rfl⟩ := h
        exact speaks_value h1
      | echo r j stage sh => exact speaks_echoShare h
      | finish r v sig => exact speaks_finish h
      | done r sh => exact speaks_done h
      | halt r v sig => exact speaks_halt h
      | prevote r yes v sig => exact speaks_preVote h
      | vote r yes v sig sh => exact speaks_vote h
    | quitRecv j =>
      simp only at h
      split at h
      · split at h
        · cases h; exact ⟨SFwd.set (recv_fwd (by simp) (fun e => by simp_all)), Or.inl rfl⟩
        · cases h; exact ⟨SFwd.set (recv_fwd (by simp) (fun _ => rfl)), Or.inl rfl⟩
        · cases h
      · cases h
    | quitSend =>
      simp only at h
      split at h
      · cases h; exact ⟨SFwd.set (send_fwd (by simp) (fun _ => rfl)), Or.inl rfl⟩
      · cases h
    | elect r =>
      simp only at h
      split at h
      · rename_i hc
        cases h
        refine ⟨SFwd.set ⟨fun _ => id, fun _ => id, id, id, fun _ => rfl, id, id⟩, Or.inr ⟨_, rfl, fun hm => ?_, ⟨hc.1, by simp⟩⟩⟩
        have := hm.2
        rw [hc.2.2] at this; cases this
      · cases h
    | takeLeader =>
      simp only at h
      split at h
      · rename_i l hp _
        cases h
        exact ⟨⟨le_rfl, fun _ _ => RFwd.refl _, fun ⟨r, v, e⟩ => by rw [hp] at e; cases e⟩, Or.inl rfl⟩
      · cases h
    | joined => exact speaks_joined hu h
    | sendVote r => exact speaks_sendVote h
    | takeHalt =>
      simp only at h
      split at h
      · cases h; exact ⟨⟨le_rfl, fun _ _ => RFwd.refl _, fun _ => ⟨_, _, rfl⟩⟩, Or.inl rfl⟩
      · cases h; exact ⟨⟨le_rfl, fun _ _ => RFwd.refl _, fun _ => ⟨_, _, rfl⟩⟩, Or.inl rfl⟩
      · cases h
    | takeVote => exact speaks_takeVote h

theorem unspawned_of {st st' : MState} (hu : Unspawned st) (h1 : st'.round = st.round) (h2 : (st'.rounds st.round).voteSpawned = (st.rounds st.round).voteSpawned) (h3 : st'.phase = st.phase) :
    Unspawned st' := by
  intro h
  rw [h1, h2]
  rw [h3] at h
  exact hu h

theorem unspawned_set {st : MState} (hu : Unspawned st) {r : ℕ} {R : MRound} (hR : R.voteSpawned = (st.rounds r).voteSpawned) : Unspawned (st.setRound r R) := by
  refine unspawned_of hu rfl ?_ rfl
  rw [setRound_rounds]
  split
  · rename_i he; rw [he]; exact hR
  · rfl

theorem unspawned_phase {st : MState} (h1 : st.phase ≠ .wait) (h2 : ∀ l, st.phase ≠ .join l) : Unspawned st := by
  rintro (h | ⟨l, h⟩)
  · exact absurd h h1
  · exact absurd h (h2 l)

theorem unspawned_start (i r : ℕ) (v val : Bytes) (st : MState) : Unspawned (startRound i r v val st).1 := by
  intro _
  show ((if r = r then MRound.init v val else st.rounds r) : MRound).voteSpawned = false
  rw [if_pos rfl]
  rfl

theorem unspawned_step {env : MEnv} {i : ℕ} {st : MState} {ev : MEvent} {o : MOut} (hu : Unspawned st) (h : mvbaStep env i st ev = some o) : Unspawned o.st := by
  have hd : Unspawned { st with dead := true } := unspawned_of hu rfl rfl rfl
  unfold mvbaStep at h
  split at h
  · cases h
  · cases ev with
    | recv s m =>
      cases m with
      | value r j stage v val =>
        simp only [Option.map_eq_some_iff] at h
        obtain ⟨o', h1, rfl⟩ := h
        show Unspawned o'.st
        unfold onValue at h1
        simp only at h1
        repeat' split at h1
        all_goals first | (cases h1; exact hd) | (cases h1; exact unspawned_set hu rfl) | cases h1
      | echo r j stage sh =>
        have h : onEchoShare env i st r j stage sh = some o := h
        unfold onEchoShare at h
        simp only at h
        repeat' split at h
        all_goals first | (cases h; exact hu) | (cases h; exact unspawned_set hu rfl) | cases h
      | finish r v sig =>
        have h : onFinish env st r s v sig = some o := h
        unfold onFinish at h
        simp only at h
        repeat' split at h
        all_goals first | (cases h; exact hu) | (cases h; exact hd) | (cases h; exact unspawned_set hu rfl) | cases h
      | done r sh =>
        have h : onDone env st r sh = some o := h
        unfold onDone at h
        simp only at h
        repeat' split at h
        all_goals first | (cases h; exact hu) | (cases h; exact unspawned_set hu rfl) | cases h
      | halt r v sig =>
        have h : onHalt env st r v sig = some o := h
        unfold onHalt at h
        simp only at h
        repeat' split at h
        all_goals first
          | (cases h; exact hu)
          | (cases h; exact unspawned_of (unspawned_set hu (r := r) (R := { st.rounds r with haltDone := true }) rfl) rfl rfl rfl)
          | cases h
      | prevote r yes v sig =>
        have h : onPreVote env st r yes v sig = some o := h
        unfold onPreVote at h
        simp only at h
        repeat' split at h
        all_goals first | (cases h; exact hu) | (cases h; exact unspawned_set hu rfl) | cases h
      | vote r yes v sig sh =>
        have h : onVote env st r yes v sig sh = some o := h
        unfold onVote at h
        simp only at h
        repeat' split at h
        all_goals first | (cases h; exact hu) | (cases h; exact unspawned_set hu rfl) | cases h
    | quitRecv j =>
      simp only at h
      repeat' split at h
      all_goals first | (cases h; exact unspawned_set hu rfl) | cases h
    | quitSend =>
      simp only at h
      repeat' split at h
      all_goals first | (cases h; exact unspawned_set hu rfl) | cases h
    | elect r =>
      simp only at h
      repeat' split at h
      all_goals first | (cases h; exact unspawned_set hu rfl) | cases h
    | takeLeader =>
      simp only at h
      split at h
      · rename_i l hp _
        cases h
        intro _
        exact hu (Or.inl hp)
      · cases h
    | joined =>
      have h : onJoined env i st = some o := h
      unfold onJoined at h
      simp only at h
      repeat' split at h
      all_goals first | (cases h; exact unspawned_phase (by simp) (by simp)) | cases h
    | sendVote r =>
      have h : onSendVote env i st r = some o := h
      unfold onSendVote at h
      simp only at h
      repeat' split at h
      all_goals first | (cases h; exact unspawned_set hu rfl) | cases h
    | takeHalt =>
      simp only at h
      repeat' split at h
      all_goals first | (cases h; exact unspawned_phase (by simp) (by simp)) | cases h
    | takeVote =>
      have h : onTakeVote i st = some o := h
      unfold onTakeVote at h
      split at h
      · simp only at h
        split at h
        · cases h
        · cases h; exact unspawned_phase (by simp) (by simp)
        · cases h; exact unspawned_start i (st.round + 1) _ _ st
        · cases h; exact unspawned_start i (st.round + 1) _ _ st
      · cases h

theorem once_inv {env : MEnv} {i : ℕ} {v val : Bytes} {evs : List MEvent} {st : MState} {sent : List MMsg} (h : MLocal env i v val evs st sent) :
    Unspawned st ∧ (∀ m ∈ sent, Marked st m.slot) ∧ (sent.map MMsg.slot).Nodup := by
  induction h with
  | init =>
    refine ⟨unspawned_start i 0 v val _, fun m hm => ?_, List.nodup_singleton _⟩
    rw [List.mem_singleton.1 hm]
    exact ⟨le_rfl, fun h => absurd rfl h⟩
  | step h hs ih =>
    obtain ⟨hu, hm, hn⟩ := ih
    have sp := speaks_step hu hs
    refine ⟨unspawned_step hu hs, fun m hmem => ?_, ?_⟩
    · rcases List.mem_append.1 hmem with h1 | h1
      · exact sp.fwd.marked (hm m h1)
      · rcases sp.msgs with e | ⟨m', e, -, k⟩
        · rw [e] at h1; cases h1
        · rw [e, List.mem_singleton] at h1
          rw [h1]; exact k
    · rcases sp.msgs with e | ⟨m', e, k, -⟩
      · rw [e, List.append_nil]; exact hn
      · rw [e, List.map_append]
        refine hn.append (List.nodup_singleton _) ?_
        intro x hx hx'
        rw [List.map_singleton, List.mem_singleton] at hx'
        obtain ⟨m, h1, rfl⟩ := List.mem_map.1 hx
        exact k (hx' ▸ hm m h1)

theorem MLocal.last {env : MEnv} {i : ℕ} {v val : Bytes} {evs : List MEvent} {ev : MEvent} {st : MState} {sent : List MMsg} (h : MLocal env i v val (evs ++ [ev]) st sent) :
    ∃ st1 sent1 o, MLocal env i v val evs st1 sent1 ∧ mvbaStep env i st1 ev = some o ∧ st = o.st ∧ sent = sent1 ++ o.msgs := by
  generalize he : evs ++ [ev] = l at h
  cases h with
  | init => simp at he
  | step h hs =>
    obtain ⟨e1, e2⟩ := List.append_inj' he rfl
    cases e2
    subst e1
    exact ⟨_, _, _, h, hs, rfl, rfl⟩

/-- The events determine the state. -/
theorem MLocal.det {env : MEnv} {i : ℕ} {v val : Bytes} {evs : List MEvent} {st st' : MState} {sent sent' : List MMsg} (h : MLocal env i v val evs st sent) (h' : MLocal env i v val evs st' sent') :
    st = st' ∧ sent = sent' := by
  induction h generalizing st' sent' with
  | init =>
    generalize he : ([] : List MEvent) = l at h'
    cases h' with
    | init => exact ⟨rfl, rfl⟩
    | step _ _ => simp at he
  | step h hs ih =>
    obtain ⟨st1, sent1, o, h1, hs1, rfl, rfl⟩ := h'.last
    obtain ⟨rfl, rfl⟩ := ih h1
    rw [hs] at hs1
    cases hs1
    exact ⟨rfl, rfl⟩

/-- What a party has sent. -/
theorem local_of_run {env : MEnv} {H : Finset ℕ} {cfg : MNetCfg} {input : ℕ → Bytes × Bytes} {evs : List (ℕ × MEvent)} {net : MNet} (h : MRun env H cfg (MNet.init H input env.N) evs net)
    {i : ℕ} (hi : i ∈ H) (hN : i < env.N) : ∃ es, MLocal env i (input i).1 (input i).2 es (net.party i) (sentBy net i) := by
  induction h with
  | nil =>
    refine ⟨[], ?_⟩
    have hn : ((List.range env.N).filter fun k => decide (k ∈ H)).Nodup := List.nodup_range.filter _
    have hm : i ∈ (List.range env.N).filter fun k => decide (k ∈ H) := List.mem_filter.2 ⟨List.mem_range.2 hN, by simpa using hi⟩
    have key : ∀ l : List ℕ, l.Nodup → i ∈ l → ∀ f : ℕ → MMsg, ((l.flatMap fun k => [(k, f k)]).filterMap fun e => if e.1 = i then some e.2 else none) = [f i] := by
      intro l
      induction l with
      | nil => intro _ h; cases h
      | cons a l ih =>
        intro hn hm f
        rw [List.nodup_cons] at hn
        have other : ∀ l : List ℕ, i ∉ l → ((l.flatMap fun k => [(k, f k)]).filterMap fun e => if e.1 = i then some e.2 else none) = [] := by
          intro l hl
          rw [List.filterMap_eq_nil_iff]
          intro e he
          obtain ⟨k, hk, hek⟩ := List.mem_flatMap.1 he
          rw [List.mem_singleton] at hek
          rw [hek, if_neg]
          rintro rfl
          exact hl hk
        rcases List.mem_cons.1 hm with rfl | hm
        · simp [other l hn.1]
        · have : a ≠ i := fun e => hn.1 (e ▸ hm)
          simp [this, ih hn.2 hm f]
    have e : sentBy (MNet.init H input env.N) i = (MState.init i (input i).1 (input i).2).2 := key _ hn hm fun k => .value 0 k 1 (input k).1 (input k).2
    rw [e]
    exact .init
  | snoc h hk ha hs ih =>
    rename_i evs net k ev net'
    obtain ⟨es, ih⟩ := ih
    unfold MNet.at_ at hs
    rw [Option.map_eq_some_iff] at hs
    obtain ⟨o, ho, rfl⟩ := hs
    by_cases e : k = i
    · subst e
      refine ⟨es ++ [ev], ?_⟩
      have := ih.step ho
      have e2 : sentBy ⟨fun j => if j = k then o.st else net.party j, net.signed ++ o.signed.map fun m => (k, m), net.sent ++ o.msgs.map fun m => (k, m), net.delivered ++ logDelivery k ev⟩ k
          = sentBy net k ++ o.msgs := by
        simp [sentBy, List.filterMap_append, List.filterMap_map]
      rw [e2]
      simpa using this
    · refine ⟨es, ?_⟩
      have e2 : sentBy ⟨fun j => if j = k then o.st else net.party j, net.signed ++ o.signed.map fun m => (k, m), net.sent ++ o.msgs.map fun m => (k, m), net.delivered ++ logDelivery k ev⟩ i
          = sentBy net i := by
        simp [sentBy, List.filterMap_append, List.filterMap_map, e]
      rw [e2]
      simpa [Ne.symm e] using ih

end DyCAPS
