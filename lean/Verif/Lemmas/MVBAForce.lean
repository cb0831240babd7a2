import Verif.Lemmas.MVBAScript

/-!
# A corrupt leader has its value decided

All honest parties follow the script: both stages of the broadcast of `c`, its Finish message `2F+1` times, the coin shares of honest parties, and the decision.
-/

namespace DyCAPS

/-- A party in round 0. -/
def stR (x : Bytes × Bytes) (R : MRound) (ph : MPhase) : MState := ⟨0, x.1, x.2, fun r => if r = 0 then R else MRound.init [] [], none, ph, false⟩

theorem stR_init (i : ℕ) (x : Bytes × Bytes) : (MState.init i x.1 x.2).1 = stR x (MRound.init x.1 x.2) .wait := by
  simp [MState.init, startRound, stR]

theorem setRound_stR (x : Bytes × Bytes) (R R' : MRound) (ph : MPhase) : (stR x R ph).setRound 0 R' = stR x R' ph := by
  simp only [MState.setRound, stR, MState.mk.injEq, true_and, and_true]
  funext r
  split <;> rfl

theorem rounds_stR (x : Bytes × Bytes) (R : MRound) (ph : MPhase) : (stR x R ph).rounds 0 = R := rfl

/-- After the first stage of the broadcast of `c`. -/
def R1 (c : ℕ) (x : Bytes × Bytes) : MRound := { MRound.init x.1 x.2 with recv := fun j => if j = c then .second else .first }

/-- After its second stage. -/
def R2 (c : ℕ) (x y : Bytes × Bytes) : MRound :=
  { MRound.init x.1 x.2 with recv := fun j => if j = c then .ended else .first, lock := fun j => if j = c then some y else none }

/-- After `n` Finish messages. -/
def R3 (c F : ℕ) (x y z : Bytes × Bytes) (n : ℕ) : MRound :=
  { R2 c x y with fin := fun s => if s = c ∧ 0 < n then some z else none, finLen := n, doneFlag := decide (2 * F + 1 ≤ n) }

/-- After the own share of the coin was sent and the shares `L` have come in. -/
def R4 (c F : ℕ) (x y z : Bytes × Bytes) (L : List Bytes) : MRound :=
  { R3 c F x y z (2 * F + 1) with elected := true, coins := L, leader := if 2 * F < L.length then some c else none }

/-- Broadcasts below `n` have noticed that they are cancelled. -/
def R5 (c F : ℕ) (x y z : Bytes × Bytes) (L : List Bytes) (n : ℕ) (s : SendPos) : MRound :=
  { R4 c F x y z L with recv := fun j => if j = c ∨ j < n then .ended else .first, send := s }

section
variable {env : MEnv} {full : SMsg → Bytes} (ok : IdealScheme env full) {c i : ℕ} (hc : c < env.N) (x : Bytes × Bytes) (v : Bytes)
include ok hc

theorem step_first : LRun env i (stR x (MRound.init x.1 x.2) .wait) [.recv c (.value 0 c 1 v [])] [.echo 0 c 1 (env.sign i (.echo 0 c 1 (env.hash v)))] [.echo 0 c 1 (env.hash v)]
    (stR x (R1 c x) .wait) := by
  refine LRun.one (o := ⟨stR x (R1 c x) .wait, _, _⟩) ?_
  have e : onValue env (stR x (MRound.init x.1 x.2) .wait) 0 c 1 v [] = some ⟨stR x (R1 c x) .wait, [], [.echo 0 c 1 (env.hash v)]⟩ := by
    unfold onValue
    rw [rounds_stR]
    simp only
    rw [if_pos ⟨le_rfl, hc⟩]
    show some (MOut.mk (MState.setRound _ 0 _) _ _) = _
    rw [setRound_stR]
    rfl
  unfold mvbaStep
  rw [if_neg (by simp [stR])]
  simp only [e]
  rfl

theorem step_second : LRun env i (stR x (R1 c x) .wait) [.recv c (.value 0 c 2 v (full (.echo 0 c 1 (env.hash v))))] [.echo 0 c 2 (env.sign i (.echo 0 c 2 (env.hash v)))]
    [.echo 0 c 2 (env.hash v)] (stR x (R2 c x (v, full (.echo 0 c 1 (env.hash v)))) .wait) := by
  refine LRun.one (o := ⟨stR x (R2 c x (v, full (.echo 0 c 1 (env.hash v)))) .wait, _, _⟩) ?_
  have e : onValue env (stR x (R1 c x) .wait) 0 c 2 v (full (.echo 0 c 1 (env.hash v))) = some ⟨stR x (R2 c x (v, full (.echo 0 c 1 (env.hash v)))) .wait, [], [.echo 0 c 2 (env.hash v)]⟩ := by
    unfold onValue
    rw [rounds_stR]
    simp only
    rw [if_pos ⟨le_rfl, hc⟩]
    have : (R1 c x).recv c = .second := by simp [R1]
    simp only [this, ok.cert_full, if_true]
    rw [setRound_stR]
    congr 3
    simp only [R1, R2, MRound.mk.injEq, true_and, and_true]
    refine ⟨?_, ?_⟩
    · funext j; split <;> rfl
    · funext j; split <;> rfl
  unfold mvbaStep
  rw [if_neg (by simp [stR])]
  simp only [e]
  rfl

theorem step_finish (y : Bytes × Bytes) (n : ℕ) : LRun env i (stR x (R2 c x y) .wait) (List.replicate n (.recv c (.finish 0 v (full (.echo 0 c 2 (env.hash v)))))) [] []
    (stR x (R3 c env.F x y (v, full (.echo 0 c 2 (env.hash v))) n) .wait) := by
  induction n with
  | zero =>
    have : R3 c env.F x y (v, full (.echo 0 c 2 (env.hash v))) 0 = R2 c x y := by
      simp [R3, R2, MRound.init]
    rw [this]
    exact .nil _
  | succ n ih =>
    rw [List.replicate_succ']
    refine ih.trans (m2 := []) (s2 := []) (LRun.one (o := ⟨_, [], []⟩) ?_)
    unfold mvbaStep
    rw [if_neg (by simp [stR])]
    simp only [onFinish]
    rw [rounds_stR, if_pos (Nat.zero_le _), if_pos hc, if_pos (ok.cert_full _), setRound_stR]
    congr 3
    simp only [R3, MRound.mk.injEq, true_and, and_true]
    refine ⟨?_, ?_⟩
    · funext j
      by_cases hj : j = c <;> simp [hj]
    · show (decide (2 * env.F + 1 ≤ n) || decide (n + 1 = 2 * env.F + 1)) = decide (2 * env.F + 1 ≤ n + 1)
      rw [Bool.eq_iff_iff, Bool.or_eq_true, decide_eq_true_eq, decide_eq_true_eq, decide_eq_true_eq]
      omega

theorem step_elect (y z : Bytes × Bytes) : LRun env i (stR x (R3 c env.F x y z (2 * env.F + 1)) .wait) [.elect 0] [.done 0 (env.sign i (.done 0))] [.done 0]
    (stR x (R4 c env.F x y z []) .wait) := by
  refine LRun.one (o := ⟨_, [_], [_]⟩) ?_
  unfold mvbaStep
  rw [if_neg (by simp [stR])]
  simp only
  rw [rounds_stR, if_pos ⟨Nat.zero_le _, by simp [R3], rfl⟩, setRound_stR]
  have : { R3 c env.F x y z (2 * env.F + 1) with elected := true } = R4 c env.F x y z [] := by
    simp [R4, R3, R2, MRound.init]
  rw [this]
  rfl

theorem step_coins (y z : Bytes × Bytes) (hlead : leaderOf env (full (.done 0)) = c) (ks : List ℕ) (hnd : ks.Nodup) (hks : ∀ k ∈ ks, k < env.N) (hlen : ks.length ≤ 2 * env.F + 1) :
    LRun env i (stR x (R4 c env.F x y z []) .wait) (ks.map fun k => .recv k (.done 0 (env.sign k (.done 0)))) [] []
      (stR x (R4 c env.F x y z (ks.map fun k => env.sign k (.done 0))) .wait) := by
  induction ks using List.reverseRecOn with
  | nil => exact .nil _
  | append_singleton ks k ih =>
    rw [List.length_append, List.length_singleton] at hlen
    have hnd' := (List.nodup_append.1 hnd).1
    rw [List.map_append]
    refine (ih hnd' (fun k hk => hks k (List.mem_append_left _ hk)) (by omega)).trans (m2 := []) (s2 := []) (LRun.one (o := ⟨_, [], []⟩) ?_)
    unfold mvbaStep
    rw [if_neg (by simp [stR])]
    simp only [onDone]
    rw [rounds_stR]
    have hs : (env.share (.done 0) (env.sign k (.done 0))).isSome = true := by rw [ok.share_sign k (hks k (by simp))]; rfl
    have hl : (R4 c env.F x y z (ks.map fun k => env.sign k (.done 0))).leader = none := by
      show (if _ then _ else _) = _
      rw [if_neg (by rw [List.length_map]; omega)]
    rw [if_pos ⟨Nat.zero_le _, hl⟩, if_pos hs, setRound_stR]
    congr 3
    have hd : (R3 c env.F x y z (2 * env.F + 1)).doneFlag = true := by simp [R3]
    simp only [R4, MRound.mk.injEq, true_and, and_true]
    refine ⟨by simp [R3], by simp, ?_⟩
    have hl2 : ((ks ++ [k]).map fun k => env.sign k (.done 0)).length = ks.length + 1 := by simp
    have hl3 : (ks.map (fun k => env.sign k (.done 0)) ++ [env.sign k (.done 0)]).length = ks.length + 1 := by simp
    rw [List.map_append, List.map_singleton]
    show (if 2 * env.F < (ks.map (fun k => env.sign k (.done 0)) ++ [env.sign k (.done 0)]).length then
      some (leaderOf env ((env.recover (.done 0) (ks.map (fun k => env.sign k (.done 0)) ++ [env.sign k (.done 0)])).getD [])) else none) = _
    rw [hl3]
    by_cases hfull : 2 * env.F < ks.length + 1
    · rw [if_pos hfull, if_pos hfull]
      have := ok.recover_full (.done 0) ((ks ++ [k]).map fun k => env.sign k (.done 0)) (ks ++ [k])
        (by rw [List.map_map]; exact List.map_congr_left fun a ha => ok.share_sign a (hks a ha) _) hnd (by simp; omega)
      rw [List.map_append, List.map_singleton] at this
      rw [this, Option.getD_some, hlead]
    · rw [if_neg hfull, if_neg hfull]

theorem step_quits (y z : Bytes × Bytes) (L : List Bytes) (n : ℕ) (hn : n ≤ env.N) : ∃ evs : List MEvent, (∀ e ∈ evs, ∃ j, e = .quitRecv j) ∧
    LRun env i (stR x (R5 c env.F x y z L 0 (.first [])) (.join c)) evs [] [] (stR x (R5 c env.F x y z L n (.first [])) (.join c)) := by
  induction n with
  | zero => exact ⟨[], by simp, .nil _⟩
  | succ n ih =>
    obtain ⟨evs, h1, h2⟩ := ih (by omega)
    by_cases hnc : n = c
    · refine ⟨evs, h1, ?_⟩
      have : R5 c env.F x y z L (n + 1) (.first []) = R5 c env.F x y z L n (.first []) := by
        simp only [R5, MRound.mk.injEq, true_and, and_true]
        funext j
        have : (j = c ∨ j < n + 1) ↔ (j = c ∨ j < n) := by omega
        simp only [this]
      rw [this]
      exact h2
    · refine ⟨evs ++ [.quitRecv n, .quitRecv n], by simpa [or_imp, forall_and] using h1, ?_⟩
      refine h2.trans (m2 := []) (s2 := []) ?_
      have hq : ∀ R : MRound, mvbaStep env i (stR x R (.join c)) (.quitRecv n) = match R.recv n with
          | .first => some ⟨stR x { R with recv := fun j' => if j' = n then .second else R.recv j' } (.join c), [], []⟩
          | .second => some ⟨stR x { R with recv := fun j' => if j' = n then .ended else R.recv j' } (.join c), [], []⟩
          | .ended => none := by
        intro R
        have hg : ((stR x R (.join c)).cancelled && decide (n < env.N)) = true := by
          rw [decide_eq_true (by omega : n < env.N)]
          rfl
        have hr : (stR x R (.join c)).rounds (stR x R (.join c)).round = R := rfl
        unfold mvbaStep
        rw [if_neg (by simp [stR])]
        simp only [hg, if_true, hr]
        have e : ∀ R', (stR x R (.join c)).setRound (stR x R (.join c)).round R' = stR x R' (.join c) := fun R' => setRound_stR x R R' _
        simp only [e]
        cases R.recv n <;> rfl
      have hf : (R5 c env.F x y z L n (.first [])).recv n = .first := by
        show (if _ then _ else _) = _
        rw [if_neg (by omega)]
      have e1 := hq (R5 c env.F x y z L n (.first []))
      rw [hf] at e1
      simp only at e1
      have e2 := hq { R5 c env.F x y z L n (.first []) with recv := fun j' => if j' = n then .second else (R5 c env.F x y z L n (.first [])).recv j' }
      simp only [if_true] at e2
      refine LRun.cons (ms := []) (sg := []) e1 (LRun.one (o := ⟨_, [], []⟩) ?_)
      rw [e2]
      congr 3
      simp only [R5, MRound.mk.injEq, true_and, and_true]
      funext j
      by_cases hj : j = n
      · simp [hj]
      · have : j < n + 1 ↔ j < n := by omega
        simp [hj, this]

theorem step_decide (y : Bytes × Bytes) (sig : Bytes) (L : List Bytes) (hL : 2 * env.F < L.length) : ∃ (evs : List MEvent) (ms : List MMsg) (sg : List SMsg) (st : MState),
    (∀ e ∈ evs, ∀ s m, e ≠ .recv s m) ∧ LRun env i (stR x (R4 c env.F x y (v, sig) L) .wait) evs ms sg st ∧ st.phase = .decided 0 v := by
  obtain ⟨qs, h1, h2⟩ := step_quits (i := i) ok hc x y (v, sig) L env.N le_rfl
  have e1 : mvbaStep env i (stR x (R4 c env.F x y (v, sig) L) .wait) .takeLeader = some ⟨stR x (R4 c env.F x y (v, sig) L) (.join c), [], []⟩ := by
    have hl : ((stR x (R4 c env.F x y (v, sig) L) .wait).rounds (stR x (R4 c env.F x y (v, sig) L) .wait).round).leader = some c := by
      show (if 2 * env.F < L.length then some c else none) = some c
      rw [if_pos hL]
    unfold mvbaStep
    rw [if_neg (by simp [stR])]
    have hp : (stR x (R4 c env.F x y (v, sig) L) .wait).phase = .wait := rfl
    simp only [hl, hp]
    rfl
  have e2 : R4 c env.F x y (v, sig) L = R5 c env.F x y (v, sig) L 0 (.first []) := by
    simp [R4, R5, R3, R2, MRound.init]
  have e3 : mvbaStep env i (stR x (R5 c env.F x y (v, sig) L env.N (.first [])) (.join c)) .quitSend = some ⟨stR x (R5 c env.F x y (v, sig) L env.N .ended) (.join c), [], []⟩ := by
    unfold mvbaStep
    rw [if_neg (by simp [stR])]
    have hg : ((stR x (R5 c env.F x y (v, sig) L env.N (.first [])) (.join c)).cancelled &&
      decide (((stR x (R5 c env.F x y (v, sig) L env.N (.first [])) (.join c)).rounds (stR x (R5 c env.F x y (v, sig) L env.N (.first [])) (.join c)).round).send ≠ .ended)) = true := by
      simp [stR, MState.cancelled, R5]
    simp only [hg, if_true]
    have e : ∀ R R', (stR x R (.join c)).setRound (stR x R (.join c)).round R' = stR x R' (.join c) := fun R R' => setRound_stR x R R' _
    rw [e]
    rfl
  have e4 : mvbaStep env i (stR x (R5 c env.F x y (v, sig) L env.N .ended) (.join c)) .joined =
      some ⟨{ stR x (R5 c env.F x y (v, sig) L env.N .ended) (.join c) with phase := .decided 0 v }, [.halt 0 v sig], []⟩ := by
    unfold mvbaStep
    rw [if_neg (by simp [stR])]
    simp only [onJoined]
    have hp : (stR x (R5 c env.F x y (v, sig) L env.N .ended) (.join c)).phase = .join c := rfl
    have hr : (stR x (R5 c env.F x y (v, sig) L env.N .ended) (.join c)).rounds (stR x (R5 c env.F x y (v, sig) L env.N .ended) (.join c)).round = R5 c env.F x y (v, sig) L env.N .ended := rfl
    simp only [hp, hr]
    rw [if_pos ⟨fun j hj => by simp [R5, hj], rfl⟩]
    have hfin : (R5 c env.F x y (v, sig) L env.N .ended).fin c = some (v, sig) := by simp [R5, R4, R3]
    rw [hfin]
    rfl
  refine ⟨.takeLeader :: (qs ++ [.quitSend, .joined]), _, _, _, ?_, LRun.cons e1 (LRun.trans (by simp only [e2]; exact h2) (LRun.cons e3 (LRun.one e4))), rfl⟩
  intro e he s m h
  subst h
  simp only [List.mem_cons, List.mem_append, List.not_mem_nil, or_false, reduceCtorEq, false_or] at he
  obtain ⟨j, hj⟩ := h1 _ he
  cases hj

end

end DyCAPS
