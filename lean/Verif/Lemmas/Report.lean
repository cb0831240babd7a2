import Verif.Lemmas.RefreshNet
import Verif.Lemmas.Final

/-! Counting Success messages. -/

namespace DyCAPS

variable {G1 G2 GT : Type} [AddCommGroup G1] [Module Fr G1] [AddCommGroup G2] [Module Fr G2] [AddCommGroup GT] [Module Fr GT]
variable [DecidableEq G1] [DecidableEq GT]
variable {codec : PointCodec G1} {pp : Pairing Fr G1 G2 GT} {tb : Tbls}

theorem ofMessage_success {m : PMessage} (h : m.type = "Success") : PEvent.ofMessage m = some .success := by
  unfold PEvent.ofMessage
  rw [h, if_neg (by decide), if_neg (by decide), if_neg (by decide), if_pos rfl]

/-- The counter and the number of Success messages taken. -/
structure ReportInv (p0 p : Party G1 G2) (st : PState G1) (evs : List PEvent) : Prop where
  F : p.F = p0.F
  count : st.successCount = evs.countP PEvent.isSuccess
  finished : st.finished = true → 2 * p0.F + 1 ≤ st.successCount ∧ st.successSent = true
  more : st.finished = false → st.successCount ≤ 2 * p0.F

theorem ReportInv.step {p0 p p' : Party G1 G2} {st st' : PState G1} {evs : List PEvent} {ev : PEvent} {out : List POut} (I : ReportInv p0 p st evs)
    (h : PEffect codec pp tb p st ev p' st' out) : ReportInv p0 p' st' (evs ++ [ev]) := by
  have hev : ∀ {e : PEvent}, e.isSuccess = false → (evs ++ [e]).countP PEvent.isSuccess = evs.countP PEvent.isSuccess := by
    intro e he
    rw [List.countP_append, List.countP_cons, he]
    rfl
  cases h with
  | success h1 h2 =>
    have hc : st.successCount + 1 = (evs ++ [PEvent.success]).countP PEvent.isSuccess := by rw [List.countP_append, ← I.count]; rfl
    refine ⟨I.F, hc, fun hf => ?_, fun hf => ?_⟩
    · have := of_decide_eq_true hf
      rw [I.F] at this
      exact ⟨this, h1⟩
    · have := of_decide_eq_false hf
      rw [I.F] at this
      show st.successCount + 1 ≤ _
      omega
  | reshare h1 h2 hv => cases h1 <;> exact ⟨I.F, I.count.trans (hev rfl).symm, I.finished, I.more⟩
  | distBad h1 h2 h3 h4 h5 => cases h1 <;> exact ⟨I.F, I.count.trans (hev rfl).symm, I.finished, I.more⟩
  | distOk h1 h2 h3 h4 h5 h6 => cases h1 <;> exact ⟨I.F, I.count.trans (hev rfl).symm, I.finished, I.more⟩
  | distFull h1 h2 h3 h4 h5 h6 h7 h8 =>
    cases h1 <;> exact ⟨I.F, I.count.trans (hev rfl).symm, fun hf => ⟨(I.finished hf).1, rfl⟩, I.more⟩
  | _ => exact ⟨I.F, I.count.trans (hev rfl).symm, I.finished, I.more⟩

theorem PRun.reports {p0 p : Party G1 G2} {c : DealerCoins} {st : PState G1} {evs : List PEvent} {outs : List POut} (h : PRun codec pp tb p0 (PState.init p0 c) evs outs p st) :
    ReportInv p0 p st evs := by
  induction h with
  | nil => exact ⟨rfl, rfl, (fun h => by cases h), fun _ => Nat.zero_le _⟩
  | snoc h hs ih => exact ih.step (step_effect hs)

theorem run_success {p0 p : Party G1 G2} {st0 st : PState G1} {evs : List PEvent} {outs : List POut} (h : PRun codec pp tb p0 st0 evs outs p st) (hs : st.successSent = true) (hf : st.finished = false) :
    PRun codec pp tb p0 st0 (evs ++ [.success]) outs p { st with successCount := st.successCount + 1, finished := decide (2 * p.F + 1 ≤ st.successCount + 1) } := by
  have := h.snoc (ev := .success) (p' := p) (st' := { st with successCount := st.successCount + 1, finished := decide (2 * p.F + 1 ≤ st.successCount + 1) }) (out := [])
    (by simp only [proactStep]; rw [if_pos ⟨hs, hf⟩])
  rwa [List.append_nil] at this

theorem run_successes {p0 p : Party G1 G2} {st0 st : PState G1} {evs : List PEvent} {outs : List POut} (m : ℕ) (h : PRun codec pp tb p0 st0 evs outs p st) (hs : st.successSent = true)
    (hf : st.finished = false) (hc : st.successCount + m = 2 * p.F) :
    ∃ st', PRun codec pp tb p0 st0 (evs ++ List.replicate (m + 1) .success) outs p st' ∧ st'.finished = true := by
  induction m generalizing st evs with
  | zero => exact ⟨_, run_success h hs hf, decide_eq_true (by omega)⟩
  | succ m ih =>
    have hnot : decide (2 * p.F + 1 ≤ st.successCount + 1) = false := decide_eq_false (by omega)
    obtain ⟨st', h1, h2⟩ := ih (run_success h hs hf) hs hnot (by dsimp only; omega)
    rw [List.append_assoc] at h1
    exact ⟨st', h1, h2⟩

/-- In a committee nobody takes more Success messages than there are members that have reported. -/
theorem RefReach.reported {S : RefSetup G1 G2} {n : ℕ} {net : RefNet G1 G2} (h : RefReach codec pp S n net) :
    ∀ i ∈ S.members, (net.evs i).countP PEvent.isSuccess ≤ (S.members.filter fun h => (net.outs h).any POut.isSuccess).card := by
  induction h with
  | init => intro i _; exact Nat.zero_le _
  | step h hi ho hs ih =>
    rename_i n net i ev p' st' out
    have hmono : (S.members.filter fun h => (net.outs h).any POut.isSuccess).card ≤ (S.members.filter fun h => ((net.put i ev p' st' out).outs h).any POut.isSuccess).card := by
      apply Finset.card_le_card
      intro h hh
      rw [Finset.mem_filter] at hh ⊢
      refine ⟨hh.1, ?_⟩
      obtain ⟨o, ho, h2⟩ := List.any_eq_true.1 hh.2
      exact List.any_eq_true.2 ⟨o, RefNet.put_outs ho, h2⟩
    intro k hk
    refine le_trans ?_ hmono
    show (upd net.evs i (net.evs i ++ [ev]) k).countP PEvent.isSuccess ≤ _
    by_cases hki : k = i
    · subst hki
      rw [upd_same, List.countP_append]
      cases ev with
      | success => exact Nat.succ_le_of_lt ho
      | _ => exact ih k hk
    · rw [upd_ne _ _ hki]; exact ih k hk

end DyCAPS
