import Verif.Lemmas.MVBASplit
import Verif.Spec.Agreement

/-!
# A first round in which all parties are honest

Steps of a party that gets one message of each of several parties, and phases in which all parties make such steps.
-/

namespace DyCAPS

/-- The first Values of the broadcasts in `js` have come. -/
def MRound.tookL (R : MRound) (js : List ℕ) : MRound := { R with recv := fun j => if j ∈ js then .second else R.recv j }

/-- The second Values of the broadcasts in `js` have come. -/
def MRound.lockedL (R : MRound) (js : List ℕ) (y : ℕ → Bytes × Bytes) : MRound :=
  { R with recv := fun j => if j ∈ js then .ended else R.recv j, lock := fun j => if j ∈ js then some (y j) else R.lock j }

/-- The Finish messages of `js` have come. -/
def MRound.finL (R : MRound) (F : ℕ) (js : List ℕ) (z : ℕ → Bytes × Bytes) : MRound :=
  { R with fin := fun s => if s ∈ js then some (z s) else R.fin s, finLen := js.length, doneFlag := decide (2 * F + 1 ≤ js.length) }

/-- The shares `L` in No PreVotes have come. -/
def MRound.preNos (R : MRound) (env : MEnv) (r : ℕ) (L : List Bytes) : MRound :=
  { R with PNr := L, pvOut := R.pvOut.or (if 2 * env.F < L.length then some (.no ((env.recover (.no r) (L.take (2 * env.F + 1))).getD [])) else none) }

section
variable {env : MEnv} {i : ℕ} (x : Bytes × Bytes) (r : ℕ) (old : ℕ → MRound)

theorem go_firsts (v : ℕ → Bytes) (js : List ℕ) : ∀ R : MRound, js.Nodup → (∀ j ∈ js, j < env.N ∧ R.recv j = .first) → LRun env i (stG x r old R .wait) (js.map fun j => .recv j (.value r j 1 (v j) []))
    (js.map fun j => .echo r j 1 (env.sign i (.echo r j 1 (env.hash (v j))))) (js.map fun j => .echo r j 1 (env.hash (v j))) (stG x r old (R.tookL js) .wait) := by
  induction js with
  | nil =>
    intro R _ _
    have : R.tookL [] = R := by simp [MRound.tookL]
    rw [this]
    exact .nil _
  | cons a js ih =>
    intro R hnd h
    obtain ⟨h1, h2⟩ := List.nodup_cons.1 hnd
    have e : R.tookL (a :: js) = (R.took a).tookL js := by
      simp only [MRound.tookL, MRound.took, MRound.mk.injEq, true_and, and_true]
      funext j
      by_cases ha : j = a <;> by_cases hj : j ∈ js <;> simp [ha, hj]
    rw [e]
    exact (go_first x r old R (h a (by simp)).1 (h a (by simp)).2 a (v a) []).trans (ih _ h2 fun j hj => ⟨(h j (by simp [hj])).1, by
      have : j ≠ a := fun e => h1 (e ▸ hj)
      simp [MRound.took, this, (h j (by simp [hj])).2]⟩)

theorem go_seconds {v sig : ℕ → Bytes} (js : List ℕ) : ∀ R : MRound, js.Nodup → (∀ j ∈ js, j < env.N ∧ R.recv j = .second ∧ env.cert (.echo r j 1 (env.hash (v j))) (sig j) = true) →
    LRun env i (stG x r old R .wait) (js.map fun j => .recv j (.value r j 2 (v j) (sig j)))
      (js.map fun j => .echo r j 2 (env.sign i (.echo r j 2 (env.hash (v j))))) (js.map fun j => .echo r j 2 (env.hash (v j))) (stG x r old (R.lockedL js fun j => (v j, sig j)) .wait) := by
  induction js with
  | nil =>
    intro R _ _
    have : (R.lockedL [] fun j => (v j, sig j)) = R := by simp [MRound.lockedL]
    rw [this]
    exact .nil _
  | cons a js ih =>
    intro R hnd h
    obtain ⟨h1, h2⟩ := List.nodup_cons.1 hnd
    have e : (R.lockedL (a :: js) fun j => (v j, sig j)) = (R.locked a (v a, sig a)).lockedL js fun j => (v j, sig j) := by
      simp only [MRound.lockedL, MRound.locked, MRound.mk.injEq, true_and, and_true]
      refine ⟨?_, ?_⟩
      · funext j
        by_cases ha : j = a <;> by_cases hj : j ∈ js <;> simp [ha, hj]
      · funext j
        by_cases ha : j = a
        · subst ha
          simp [h1]
        · by_cases hj : j ∈ js <;> simp [ha, hj]
    rw [e]
    obtain ⟨b1, b2, b3⟩ := h a (by simp)
    exact (go_second x r old R b1 b2 a b3).trans (ih _ h2 fun j hj => by
      have hja : j ≠ a := fun e => h1 (e ▸ hj)
      obtain ⟨c1, c2, c3⟩ := h j (by simp [hj])
      exact ⟨c1, by simp [MRound.locked, hja, c2], c3⟩)

variable (R : MRound)

/-- The shares of `2F+1` parties in the first stage. -/
theorem go_echo1 (hs : R.send = .first []) (es : List (ℕ × Bytes)) (hsh : ∀ p ∈ es, (env.share (.echo r i 1 (env.hash R.prop.1)) p.2).isSome = true) (hl : es.length = 2 * env.F + 1) :
    LRun env i (stG x r old R .wait) (es.map fun p => .recv p.1 (.echo r i 1 p.2)) [.value r i 2 R.prop.1 ((env.recover (.echo r i 1 (env.hash R.prop.1)) (es.map Prod.snd)).getD [])] []
      (stG x r old { R with send := .second [] } .wait) := by
  have few : ∀ es : List (ℕ × Bytes), (∀ p ∈ es, (env.share (.echo r i 1 (env.hash R.prop.1)) p.2).isSome = true) → es.length ≤ 2 * env.F →
      LRun env i (stG x r old R .wait) (es.map fun p => .recv p.1 (.echo r i 1 p.2)) [] [] (stG x r old { R with send := .first (es.map Prod.snd) } .wait) := by
    intro es
    induction es using List.reverseRecOn with
    | nil =>
      intro _ _
      have : { R with send := .first (List.map Prod.snd ([] : List (ℕ × Bytes))) } = R := by
        cases R
        simp only at hs
        simp [hs]
      rw [this]
      exact .nil _
    | append_singleton es p ih =>
      intro h1 h2
      rw [List.length_append, List.length_singleton] at h2
      rw [List.map_append]
      refine (ih (fun q hq => h1 q (List.mem_append_left _ hq)) (by omega)).trans (m2 := []) (s2 := []) (LRun.one (o := ⟨_, [], []⟩) ?_)
      unfold mvbaStep
      rw [if_neg (by simp [stG])]
      simp only [onEchoShare]
      rw [rounds_stG, if_pos ⟨le_rfl, trivial⟩]
      simp only
      rw [if_pos (h1 p (by simp)), if_neg (by simp; omega), setRound_stG]
      simp
      rfl
  obtain ⟨es', p, rfl⟩ : ∃ es' p, es = es' ++ [p] := ⟨es.dropLast, es.getLast (by intro e; simp [e] at hl), (List.dropLast_append_getLast _).symm⟩
  rw [List.length_append, List.length_singleton] at hl
  rw [List.map_append]
  refine (few es' (fun q hq => hsh q (List.mem_append_left _ hq)) (by omega)).trans (m1 := []) (s1 := []) (LRun.one (o := ⟨_, [_], []⟩) ?_)
  unfold mvbaStep
  rw [if_neg (by simp [stG])]
  simp only [onEchoShare]
  rw [rounds_stG, if_pos ⟨le_rfl, trivial⟩]
  simp only
  rw [if_pos (hsh p (by simp)), if_pos (by simp; omega), setRound_stG]
  simp
  rfl

/-- The shares of `2F+1` parties in the second stage. -/
theorem go_echo2 (hs : R.send = .second []) (es : List (ℕ × Bytes)) (hsh : ∀ p ∈ es, (env.share (.echo r i 2 (env.hash R.prop.1)) p.2).isSome = true) (hl : es.length = 2 * env.F + 1) :
    LRun env i (stG x r old R .wait) (es.map fun p => .recv p.1 (.echo r i 2 p.2)) [.finish r R.prop.1 ((env.recover (.echo r i 2 (env.hash R.prop.1)) (es.map Prod.snd)).getD [])] []
      (stG x r old { R with send := .ended } .wait) := by
  have few : ∀ es : List (ℕ × Bytes), (∀ p ∈ es, (env.share (.echo r i 2 (env.hash R.prop.1)) p.2).isSome = true) → es.length ≤ 2 * env.F →
      LRun env i (stG x r old R .wait) (es.map fun p => .recv p.1 (.echo r i 2 p.2)) [] [] (stG x r old { R with send := .second (es.map Prod.snd) } .wait) := by
    intro es
    induction es using List.reverseRecOn with
    | nil =>
      intro _ _
      have : { R with send := .second (List.map Prod.snd ([] : List (ℕ × Bytes))) } = R := by
        cases R
        simp only at hs
        simp [hs]
      rw [this]
      exact .nil _
    | append_singleton es p ih =>
      intro h1 h2
      rw [List.length_append, List.length_singleton] at h2
      rw [List.map_append]
      refine (ih (fun q hq => h1 q (List.mem_append_left _ hq)) (by omega)).trans (m2 := []) (s2 := []) (LRun.one (o := ⟨_, [], []⟩) ?_)
      unfold mvbaStep
      rw [if_neg (by simp [stG])]
      simp only [onEchoShare]
      rw [rounds_stG, if_pos ⟨le_rfl, trivial⟩]
      simp only
      rw [if_pos (h1 p (by simp)), if_neg (by simp; omega), setRound_stG]
      simp
      rfl
  obtain ⟨es', p, rfl⟩ : ∃ es' p, es = es' ++ [p] := ⟨es.dropLast, es.getLast (by intro e; simp [e] at hl), (List.dropLast_append_getLast _).symm⟩
  rw [List.length_append, List.length_singleton] at hl
  rw [List.map_append]
  refine (few es' (fun q hq => hsh q (List.mem_append_left _ hq)) (by omega)).trans (m1 := []) (s1 := []) (LRun.one (o := ⟨_, [_], []⟩) ?_)
  unfold mvbaStep
  rw [if_neg (by simp [stG])]
  simp only [onEchoShare]
  rw [rounds_stG, if_pos ⟨le_rfl, trivial⟩]
  simp only
  rw [if_pos (hsh p (by simp)), if_pos (by simp; omega), setRound_stG]
  simp
  rfl

/-- Finish messages of several parties. -/
theorem go_finishes {v sig : ℕ → Bytes} (h0 : R.finLen = 0) (h1 : R.doneFlag = false) (js : List ℕ) (hj : ∀ j ∈ js, j < env.N ∧ env.cert (.echo r j 2 (env.hash (v j))) (sig j) = true) :
    LRun env i (stG x r old R .wait) (js.map fun j => .recv j (.finish r (v j) (sig j))) [] [] (stG x r old (R.finL env.F js fun j => (v j, sig j)) .wait) := by
  induction js using List.reverseRecOn with
  | nil =>
    have : (R.finL env.F [] fun j => (v j, sig j)) = R := by
      cases R
      simp only at h0 h1
      simp [MRound.finL, h0, h1]
    rw [this]
    exact .nil _
  | append_singleton js a ih =>
    rw [List.map_append]
    refine (ih fun j h => hj j (List.mem_append_left _ h)).trans (m2 := []) (s2 := []) (LRun.one (o := ⟨_, [], []⟩) ?_)
    obtain ⟨b1, b2⟩ := hj a (by simp)
    unfold mvbaStep
    rw [if_neg (by simp [stG])]
    simp only [onFinish]
    rw [rounds_stG, if_pos (le_stG ..), if_pos b1, if_pos b2, setRound_stG]
    congr 3
    simp only [MRound.finL, MRound.mk.injEq, true_and, and_true, List.length_append, List.length_singleton]
    refine ⟨?_, ?_⟩
    · funext s
      by_cases hs : s = a
      · subst hs
        simp
      · simp [hs]
    · rw [Bool.eq_iff_iff, Bool.or_eq_true, decide_eq_true_eq, decide_eq_true_eq, decide_eq_true_eq]
      omega

/-- The own broadcast is over or cancelled. -/
theorem go_unsend {l : ℕ} : ∃ evs : List MEvent, (∀ e ∈ evs, ∀ s m, e ≠ .recv s m) ∧ LRun env i (stG x r old (R.closed env.N) (.join l)) evs [] [] (stG x r old { R.closed env.N with send := .ended } (.join l)) := by
  by_cases hs : R.send = .ended
  · refine ⟨[], by simp, ?_⟩
    have : { R.closed env.N with send := .ended } = R.closed env.N := by
      rw [← hs]
      rfl
    rw [this]
    exact .nil _
  · refine ⟨[.quitSend], by simp, LRun.one (o := ⟨_, [], []⟩) ?_⟩
    unfold mvbaStep
    rw [if_neg (by simp [stG])]
    have hr : (stG x r old (R.closed env.N) (.join l)).rounds (stG x r old (R.closed env.N) (.join l)).round = R.closed env.N := rounds_stG ..
    have hg : ((stG x r old (R.closed env.N) (.join l)).cancelled && decide ((R.closed env.N).send ≠ .ended)) = true := by
      rw [decide_eq_true (by exact hs)]
      rfl
    simp only [hr, hg, if_true]
    have e : ∀ R', (stG x r old (R.closed env.N) (.join l)).setRound (stG x r old (R.closed env.N) (.join l)).round R' = stG x r old R' (.join l) := fun R' => setRound_stG ..
    rw [e]
    rfl

/-- Leader known, all broadcasts over or cancelled, no Finish of the leader: the party sends its PreVote. -/
theorem go_joins {l : ℕ} (h : R.leader = some l) (hf : R.fin l = none) {pv : MMsg} {sg : List SMsg}
    (hk : (R.lock l = none ∧ pv = .prevote r false [] (env.sign i (.no r)) ∧ sg = [.no r]) ∨ ∃ y, R.lock l = some y ∧ pv = .prevote r true y.1 y.2 ∧ sg = []) :
    ∃ evs : List MEvent, (∀ e ∈ evs, ∀ s m, e ≠ .recv s m) ∧ LRun env i (stG x r old R .wait) evs [pv] sg (stG x r old (R.joined env.N) (.result l)) := by
  obtain ⟨qs, h1, h2⟩ := go_quits (env := env) (i := i) x r old R (l := l) env.N le_rfl
  obtain ⟨q2, h3, h4⟩ := go_unsend (env := env) (i := i) x r old R (l := l)
  have e4 : mvbaStep env i (stG x r old { R.closed env.N with send := .ended } (.join l)) .joined = some ⟨stG x r old (R.joined env.N) (.result l), [pv], sg⟩ := by
    unfold mvbaStep
    rw [if_neg (by simp [stG])]
    simp only [onJoined]
    have hp : (stG x r old { R.closed env.N with send := .ended } (.join l)).phase = .join l := rfl
    have hr : (stG x r old { R.closed env.N with send := .ended } (.join l)).rounds (stG x r old { R.closed env.N with send := .ended } (.join l)).round = { R.closed env.N with send := .ended } := rounds_stG ..
    have hf' : (R.closed env.N).fin l = none := hf
    have hk' : (R.closed env.N).lock l = R.lock l := rfl
    simp only [hp, hr]
    rw [if_pos ⟨fun j hj => by simp [MRound.closed, hj], trivial⟩]
    simp only [hf', hk']
    have e : ∀ R', (stG x r old { R.closed env.N with send := .ended } (.join l)).setRound (stG x r old { R.closed env.N with send := .ended } (.join l)).round R' = stG x r old R' (.join l) := fun R' => setRound_stG ..
    rw [e]
    rcases hk with ⟨k1, k2, k3⟩ | ⟨y, k1, k2, k3⟩
    · rw [k1, k2, k3]
      rfl
    · rw [k1, k2, k3]
      rfl
  refine ⟨.takeLeader :: (qs ++ (q2 ++ [.joined])), ?_, ?_⟩
  · intro e he s m h
    subst h
    simp only [List.mem_cons, List.mem_append, List.not_mem_nil, or_false, reduceCtorEq, false_or] at he
    rcases he with he | he
    · obtain ⟨j, hj⟩ := h1 _ he
      cases hj
    · exact h3 _ he s m rfl
  · exact (go_take x r old R h).trans (h2.trans (h4.trans (LRun.one e4)))

/-- A Yes PreVote. -/
theorem go_preYes {l : ℕ} (h : R.leader = some l) {v sig : Bytes} (hc : env.cert (.echo r l 1 (env.hash v)) sig = true) (s l' : ℕ) :
    LRun env i (stG x r old R (.result l')) [.recv s (.prevote r true v sig)] [] [] (stG x r old { R with pvOut := R.pvOut.or (some (.yes v sig)) } (.result l')) := by
  refine LRun.one (o := ⟨_, [], []⟩) ?_
  unfold mvbaStep
  rw [if_neg (by simp [stG])]
  simp only [onPreVote]
  rw [rounds_stG]
  simp only [h]
  rw [if_pos (le_stG ..), if_pos trivial, if_pos hc, setRound_stG]
  rfl

/-- No PreVotes. -/
theorem go_preNos {l : ℕ} (h : R.leader = some l) (h0 : R.PNr = []) (es : List (ℕ × Bytes)) (hs : ∀ p ∈ es, (env.share (.no r) p.2).isSome = true) (l' : ℕ) :
    LRun env i (stG x r old R (.result l')) (es.map fun p => .recv p.1 (.prevote r false [] p.2)) [] [] (stG x r old (R.preNos env r (es.map Prod.snd)) (.result l')) := by
  induction es using List.reverseRecOn with
  | nil =>
    have : R.preNos env r (List.map Prod.snd ([] : List (ℕ × Bytes))) = R := by
      cases R
      simp only at h0
      simp [MRound.preNos, h0]
    rw [this]
    exact .nil _
  | append_singleton es p ih =>
    rw [List.map_append]
    refine (ih fun q hq => hs q (List.mem_append_left _ hq)).trans (m2 := []) (s2 := []) (LRun.one (o := ⟨_, [], []⟩) ?_)
    unfold mvbaStep
    rw [if_neg (by simp [stG])]
    simp only [onPreVote]
    rw [rounds_stG]
    have hl : (R.preNos env r (es.map Prod.snd)).leader = some l := h
    simp only [hl]
    rw [if_pos (le_stG ..), if_neg (by simp), if_pos (hs p (by simp)), setRound_stG]
    congr 3
    simp only [MRound.preNos, List.map_append, List.map_cons, List.map_nil, MRound.mk.injEq, true_and, and_true]
    refine ⟨h.symm, ?_⟩
    generalize es.map Prod.snd = A
    show (if 2 * env.F < (A ++ [p.2]).length then (R.pvOut.or (if 2 * env.F < A.length then some (PVOut.no ((env.recover (.no r) (A.take (2 * env.F + 1))).getD [])) else none)).or
        (some (PVOut.no ((env.recover (.no r) (A ++ [p.2])).getD []))) else R.pvOut.or (if 2 * env.F < A.length then some (PVOut.no ((env.recover (.no r) (A.take (2 * env.F + 1))).getD [])) else none)) = _
    by_cases h1 : 2 * env.F < A.length
    · have h2 : 2 * env.F < (A ++ [p.2]).length := by simp; omega
      simp only [if_pos h1, if_pos h2]
      rw [List.take_append_of_le_length (by omega)]
      cases R.pvOut <;> rfl
    · by_cases h2 : 2 * env.F < (A ++ [p.2]).length
      · simp only [if_neg h1, if_pos h2]
        rw [List.take_of_length_le (by simp; omega)]
        cases R.pvOut <;> rfl
      · simp only [if_neg h1, if_neg h2]

theorem go_sendYes {l : ℕ} (h : R.leader = some l) (h1 : R.voteSpawned = true) (h2 : R.voted = false) {v sig : Bytes} (h3 : R.pvOut = some (.yes v sig)) (l' : ℕ) :
    LRun env i (stG x r old R (.result l')) [.sendVote r] [.vote r true v sig (env.sign i (.echo r l 2 (env.hash v)))] [.echo r l 2 (env.hash v)] (stG x r old { R with voted := true } (.result l')) := by
  refine LRun.one (o := ⟨_, [_], [_]⟩) ?_
  unfold mvbaStep
  rw [if_neg (by simp [stG])]
  simp only [onSendVote]
  rw [rounds_stG, if_pos ⟨le_rfl, h1, h2⟩]
  simp only [h, h3]
  rw [setRound_stG]
  rfl

theorem go_sendNo {l : ℕ} (h : R.leader = some l) (h1 : R.voteSpawned = true) (h2 : R.voted = false) {sig : Bytes} (h3 : R.pvOut = some (.no sig)) (l' : ℕ) :
    LRun env i (stG x r old R (.result l')) [.sendVote r] [.vote r false [] sig (env.sign i (.unlock r))] [.unlock r] (stG x r old { R with voted := true } (.result l')) := by
  refine LRun.one (o := ⟨_, [_], [_]⟩) ?_
  unfold mvbaStep
  rw [if_neg (by simp [stG])]
  simp only [onSendVote]
  rw [rounds_stG, if_pos ⟨le_rfl, h1, h2⟩]
  simp only [h, h3]
  rw [setRound_stG]
  rfl

/-- At most `2F` Yes votes before any No. -/
theorem go_yeses {l : ℕ} (h : R.leader = some l) (h1 : R.VYr = []) (h2 : R.VNr = []) (h3 : R.voteOut = none) {v sig : Bytes} (hc : env.cert (.echo r l 1 (env.hash v)) sig = true) (es : List (ℕ × Bytes))
    (hs : ∀ p ∈ es, (env.share (.echo r l 2 (env.hash v)) p.2).isSome = true) (hn : es.length ≤ 2 * env.F) (l' : ℕ) :
    LRun env i (stG x r old R (.result l')) (es.map fun p => .recv p.1 (.vote r true v sig p.2)) [] [] (stG x r old { R with VYr := es.map Prod.snd } (.result l')) := by
  induction es using List.reverseRecOn with
  | nil =>
    have : { R with VYr := List.map Prod.snd ([] : List (ℕ × Bytes)) } = R := by
      cases R
      simp only at h1
      simp [h1]
    rw [this]
    exact .nil _
  | append_singleton es p ih =>
    rw [List.length_append, List.length_singleton] at hn
    rw [List.map_append]
    refine (ih (fun q hq => hs q (List.mem_append_left _ hq)) (by omega)).trans (m2 := []) (s2 := []) (LRun.one (o := ⟨_, [], []⟩) ?_)
    unfold mvbaStep
    rw [if_neg (by simp [stG])]
    simp only [onVote]
    rw [rounds_stG]
    simp only [h, h2, h3]
    rw [if_pos (le_stG ..), if_pos trivial, hc, hs p (by simp), Bool.and_self, if_pos rfl, setRound_stG, if_neg (by simp; omega), if_neg (by simp; omega)]
    simp
    rfl

/-- At most `2F` No votes. -/
theorem go_noes {l : ℕ} (h : R.leader = some l) (h2 : R.VNr = []) (h3 : R.voteOut = none) {sig : Bytes} (hc : env.cert (.no r) sig = true) (es : List (ℕ × Bytes))
    (hs : ∀ p ∈ es, (env.share (.unlock r) p.2).isSome = true) (hn : es.length ≤ 2 * env.F) (l' : ℕ) :
    LRun env i (stG x r old R (.result l')) (es.map fun p => .recv p.1 (.vote r false [] sig p.2)) [] [] (stG x r old { R with VNr := es.map Prod.snd } (.result l')) := by
  induction es using List.reverseRecOn with
  | nil =>
    have : { R with VNr := List.map Prod.snd ([] : List (ℕ × Bytes)) } = R := by
      cases R
      simp only at h2
      simp [h2]
    rw [this]
    exact .nil _
  | append_singleton es p ih =>
    rw [List.length_append, List.length_singleton] at hn
    rw [List.map_append]
    refine (ih (fun q hq => hs q (List.mem_append_left _ hq)) (by omega)).trans (m2 := []) (s2 := []) (LRun.one (o := ⟨_, [], []⟩) ?_)
    unfold mvbaStep
    rw [if_neg (by simp [stG])]
    simp only [onVote]
    rw [rounds_stG]
    simp only [h, h3]
    rw [if_pos (le_stG ..), if_neg (by simp), hc, hs p (by simp), Bool.and_self, if_pos rfl, setRound_stG, if_neg (by simp; omega)]
    simp
    rfl

/-- Further Yes PreVotes change nothing. -/
theorem go_preYeses {l : ℕ} (h : R.leader = some l) {v sig : Bytes} (hc : env.cert (.echo r l 1 (env.hash v)) sig = true) (hv : R.pvOut = some (.yes v sig)) (js : List ℕ) (l' : ℕ) :
    LRun env i (stG x r old R (.result l')) (js.map fun j => .recv j (.prevote r true v sig)) [] [] (stG x r old R (.result l')) := by
  induction js with
  | nil => exact .nil _
  | cons a js ih =>
    have e : { R with pvOut := R.pvOut.or (some (.yes v sig)) } = R := by
      cases R
      simp only at hv
      simp [hv]
    have := go_preYes (i := i) x r old R h hc a l'
    rw [e] at this
    exact this.trans ih

/-- Leader known and its Finish message has come: the party sends a Halt and returns. -/
theorem go_wins {l : ℕ} (h : R.leader = some l) {y : Bytes × Bytes} (hf : R.fin l = some y) :
    ∃ evs : List MEvent, (∀ e ∈ evs, ∀ s m, e ≠ .recv s m) ∧ LRun env i (stG x r old R .wait) evs [.halt r y.1 y.2] [] (stG x r old { R.closed env.N with send := .ended } (.decided r y.1)) := by
  obtain ⟨qs, h1, h2⟩ := go_quits (env := env) (i := i) x r old R (l := l) env.N le_rfl
  obtain ⟨q2, h3, h4⟩ := go_unsend (env := env) (i := i) x r old R (l := l)
  have e4 : mvbaStep env i (stG x r old { R.closed env.N with send := .ended } (.join l)) .joined = some ⟨stG x r old { R.closed env.N with send := .ended } (.decided r y.1), [.halt r y.1 y.2], []⟩ := by
    unfold mvbaStep
    rw [if_neg (by simp [stG])]
    simp only [onJoined]
    have hp : (stG x r old { R.closed env.N with send := .ended } (.join l)).phase = .join l := rfl
    have hr : (stG x r old { R.closed env.N with send := .ended } (.join l)).rounds (stG x r old { R.closed env.N with send := .ended } (.join l)).round = { R.closed env.N with send := .ended } := rounds_stG ..
    have hf' : (R.closed env.N).fin l = some y := hf
    simp only [hp, hr]
    rw [if_pos ⟨fun j hj => by simp [MRound.closed, hj], trivial⟩]
    simp only [hf']
    rfl
  refine ⟨.takeLeader :: (qs ++ (q2 ++ [.joined])), ?_, ?_⟩
  · intro e he s m h
    subst h
    simp only [List.mem_cons, List.mem_append, List.not_mem_nil, or_false, reduceCtorEq, false_or] at he
    rcases he with he | he
    · obtain ⟨j, hj⟩ := h1 _ he
      cases hj
    · exact h3 _ he s m rfl
  · exact (go_take x r old R h).trans (h2.trans (h4.trans (LRun.one e4)))

end

/-- The order of the messages of a round. -/
def MMsg.order : MMsg → ℕ
  | .value _ _ s _ _ => 2 * s
  | .echo _ _ s _ => 2 * s + 1
  | .finish .. => 6
  | .done .. => 7
  | .prevote .. => 8
  | .vote .. => 9
  | .halt .. => 8

/-- An execution without corrupt parties in which all messages sent come at most at place `k` in the order and those handled before `k`; of the messages before `k`, those that a party can always handle have come
from all parties in `B` to all in `A`. -/
structure Stage (env : MEnv) (A B : Finset ℕ) (n₀ : MNet) (k : ℕ) (net : MNet) : Prop where
  sub : A ⊆ Finset.range env.N
  run : ∃ es, MRun env (Finset.range env.N) ⟨true, true⟩ n₀ es net ∧ ∀ i q m, (i, MEvent.recv q m) ∈ es → q < env.N
  sent : ∀ x ∈ net.sent, x.2.order ≤ k
  delivered : ∀ x ∈ net.delivered, x.2.2.order < k
  all : ∀ i ∈ A, ∀ s ∈ B, ∀ m, (s, m) ∈ net.sent → m.order < k → m.order = 6 ∨ m.order = 8 ∨ m.order = 9 → (i, s, m) ∈ net.delivered

theorem mem_logs {i : ℕ} {evs : List MEvent} {x : ℕ × ℕ × MMsg} : x ∈ evs.flatMap (logDelivery i) ↔ x.1 = i ∧ MEvent.recv x.2.1 x.2.2 ∈ evs := by
  obtain ⟨a, b, m⟩ := x
  rw [List.mem_flatMap]
  constructor
  · rintro ⟨e, he, hx⟩
    cases e with
    | recv s m' =>
      simp only [logDelivery, List.mem_singleton, Prod.mk.injEq] at hx
      obtain ⟨rfl, rfl, rfl⟩ := hx
      exact ⟨rfl, he⟩
    | _ => simp [logDelivery] at hx
  · rintro ⟨rfl, h⟩
    exact ⟨_, h, by simp [logDelivery]⟩

/-- All parties of `L` in turn, with exact logs. -/
theorem phase_exact {env : MEnv} {H : Finset ℕ} {st st' : ℕ → MState} {evs : ℕ → List MEvent} {ms : ℕ → List MMsg} {sg : ℕ → List SMsg} (L : List ℕ) :
    ∀ net : MNet, L.Nodup → (∀ i ∈ L, i ∈ H ∧ net.party i = st i ∧ LRun env i (st i) (evs i) (ms i) (sg i) (st' i) ∧ NoRepeat H (evs i) ∧
      ∀ s m, MEvent.recv s m ∈ evs i → (∀ b ∈ m.sigs, Genuine env H net.signed b) ∧ (s ∈ H → (s, m) ∈ net.sent ∧ (i, s, m) ∉ net.delivered)) →
    ∃ net', MRun env H ⟨true, true⟩ net (L.flatMap fun i => (evs i).map fun e => (i, e)) net' ∧ (∀ k, net'.party k = if k ∈ L then st' k else net.party k) ∧
      net'.signed = net.signed ++ L.flatMap (fun i => (sg i).map fun m => (i, m)) ∧ net'.sent = net.sent ++ L.flatMap (fun i => (ms i).map fun m => (i, m)) ∧
      net'.delivered = net.delivered ++ L.flatMap (fun i => (evs i).flatMap (logDelivery i)) := by
  induction L with
  | nil =>
    intro net _ _
    exact ⟨net, .nil, by simp, by simp, by simp, by simp⟩
  | cons a L ih =>
    intro net hnd hall
    obtain ⟨hn1, hn2⟩ := List.nodup_cons.1 hnd
    obtain ⟨ha, hst, hrun, hnr, hok⟩ := hall a (by simp)
    obtain ⟨net1, r1, b1, b2, b3, b4⟩ := hrun.net ha net hst hok hnr
    obtain ⟨net2, r2, c1, c2, c3, c4⟩ := ih net1 hn2 (fun i hi => by
      obtain ⟨k1, k2, k3, k4, k5⟩ := hall i (by simp [hi])
      have hne : i ≠ a := fun e => hn1 (e ▸ hi)
      refine ⟨k1, by rw [b1]; simp only [if_neg hne]; exact k2, k3, k4, fun s m hm => ?_⟩
      obtain ⟨g1, g2⟩ := k5 s m hm
      refine ⟨fun x hx => (g1 x hx).grow (by rw [b2]; exact fun x hx => List.mem_append_left _ hx), fun hs => ⟨by rw [b3]; exact List.mem_append_left _ (g2 hs).1, fun hd => ?_⟩⟩
      rw [b4] at hd
      rcases List.mem_append.1 hd with hd | hd
      · exact (g2 hs).2 hd
      · exact hne (mem_logs.1 hd).1)
    refine ⟨net2, r1.append r2, fun k => ?_, by rw [c2, b2]; simp, by rw [c3, b3]; simp, by rw [c4, b4]; simp⟩
    rw [c1, b1]
    by_cases hk : k = a
    · subst hk
      rw [if_neg hn1, if_pos (by simp)]
      simp
    · by_cases hkL : k ∈ L
      · rw [if_pos hkL, if_pos (by simp [hkL])]
      · rw [if_neg hkL, if_neg (by simp [hkL, hk])]
        simp [hk]

/-- Everybody handles messages at place `k` of the order and sends messages at the next place. -/
theorem Stage.next {env : MEnv} {A B : Finset ℕ} {n₀ net : MNet} {k : ℕ} (S : Stage env A B n₀ k net) {st st' : ℕ → MState} (ss : ℕ → List ℕ) (msg : ℕ → ℕ → MMsg) {ms : ℕ → List MMsg} {sg : ℕ → List SMsg}
    (hst : ∀ i < env.N, net.party i = st i)
    (hrun : ∀ i < env.N, ∃ ints : List MEvent, (∀ e ∈ ints, ∀ s m, e ≠ .recv s m) ∧ LRun env i (st i) ((ss i).map (fun s => .recv s (msg i s)) ++ ints) (ms i) (sg i) (st' i))
    (hss : ∀ i < env.N, (ss i).Nodup ∧ ∀ s ∈ ss i, s < env.N ∧ (msg i s).order = k ∧ (∀ b ∈ (msg i s).sigs, Genuine env (Finset.range env.N) net.signed b) ∧ (s, msg i s) ∈ net.sent)
    (hms : ∀ i < env.N, ∀ m ∈ ms i, m.order = k + 1)
    (hall : k = 6 ∨ k = 8 ∨ k = 9 → ∀ i ∈ A, ∀ s ∈ B, ∀ m, (s, m) ∈ net.sent → m.order = k → s ∈ ss i ∧ m = msg i s) :
    ∃ net', Stage env A B n₀ (k + 1) net' ∧ (∀ i < env.N, net'.party i = st' i) ∧ (∀ x ∈ net.signed, x ∈ net'.signed) ∧ (∀ i < env.N, ∀ m ∈ sg i, (i, m) ∈ net'.signed) ∧
      (∀ i m, m.order = k + 1 → ((i, m) ∈ net'.sent ↔ i < env.N ∧ m ∈ ms i)) ∧ ∀ i m, (i, m) ∈ net'.sent ↔ (i, m) ∈ net.sent ∨ i < env.N ∧ m ∈ ms i := by
  have hrun' : ∀ i, ∃ ints : List MEvent, i < env.N → (∀ e ∈ ints, ∀ s m, e ≠ .recv s m) ∧ LRun env i (st i) ((ss i).map (fun s => .recv s (msg i s)) ++ ints) (ms i) (sg i) (st' i) := by
    intro i
    by_cases hi : i < env.N
    · obtain ⟨a, b⟩ := hrun i hi
      exact ⟨a, fun _ => b⟩
    · exact ⟨[], fun h => absurd h hi⟩
  choose ints hints using hrun'
  have hmem : ∀ i < env.N, ∀ s m, MEvent.recv s m ∈ (ss i).map (fun s => MEvent.recv s (msg i s)) ++ ints i ↔ s ∈ ss i ∧ m = msg i s := by
    intro i hi s m
    rw [List.mem_append, List.mem_map]
    constructor
    · rintro (⟨a, ha, e⟩ | h)
      · cases e
        exact ⟨ha, rfl⟩
      · exact absurd rfl ((hints i hi).1 _ h s m)
    · rintro ⟨h, rfl⟩
      exact Or.inl ⟨s, h, rfl⟩
  obtain ⟨es, r0, hsrc⟩ := S.run
  obtain ⟨net', r1, b1, b2, b3, b4⟩ := phase_exact (H := Finset.range env.N) (st := st) (st' := st') (evs := fun i => (ss i).map (fun s => MEvent.recv s (msg i s)) ++ ints i) (ms := ms) (sg := sg)
    (List.range env.N) net List.nodup_range (fun i hi => by
      rw [List.mem_range] at hi
      refine ⟨Finset.mem_range.2 hi, hst i hi, (hints i hi).2, ?_, fun s m hm => ?_⟩
      · rw [NoRepeat, List.pairwise_append]
        refine ⟨List.pairwise_map.2 ((hss i hi).1.imp fun {a b} hab s m _ e e' => ?_), ?_, ?_⟩
        · cases e
          rw [MEvent.recv.injEq] at e'
          exact hab e'.1.symm
        · exact List.pairwise_of_forall_mem_list fun a ha b hb s m _ e => absurd e ((hints i hi).1 a ha s m)
        · rintro a - b hb s m _ rfl e
          exact (hints i hi).1 b hb _ _ e
      · obtain ⟨h1, rfl⟩ := (hmem i hi s m).1 hm
        obtain ⟨c1, c2, c3, c4⟩ := (hss i hi).2 s h1
        exact ⟨c3, fun _ => ⟨c4, fun hd => absurd (S.delivered _ hd) (by simp [c2])⟩⟩)
  have hsent : ∀ i m, (i, m) ∈ net'.sent ↔ (i, m) ∈ net.sent ∨ i < env.N ∧ m ∈ ms i := by
    intro i m
    rw [b3, List.mem_append, List.mem_flatMap]
    simp only [List.mem_map, List.mem_range, Prod.mk.injEq]
    constructor
    · rintro (h | ⟨a, ha, m', hm, rfl, rfl⟩)
      · exact Or.inl h
      · exact Or.inr ⟨ha, hm⟩
    · rintro (h | ⟨h1, h2⟩)
      · exact Or.inl h
      · exact Or.inr ⟨i, h1, m, h2, rfl, rfl⟩
  have hdel : ∀ i s m, (i, s, m) ∈ net'.delivered ↔ (i, s, m) ∈ net.delivered ∨ i < env.N ∧ s ∈ ss i ∧ m = msg i s := by
    intro i s m
    rw [b4, List.mem_append, List.mem_flatMap]
    constructor
    · rintro (h | ⟨a, ha, h⟩)
      · exact Or.inl h
      · rw [List.mem_range] at ha
        obtain ⟨rfl, h2⟩ := mem_logs.1 h
        exact Or.inr ⟨ha, (hmem _ ha _ _).1 h2⟩
    · rintro (h | ⟨h1, h2⟩)
      · exact Or.inl h
      · exact Or.inr ⟨i, List.mem_range.2 h1, mem_logs.2 ⟨rfl, (hmem i h1 s m).2 h2⟩⟩
  refine ⟨net', ⟨S.sub, ⟨_, r0.append r1, fun i q m hm => ?_⟩, ?_, ?_, ?_⟩, fun i hi => ?_, ?_, fun i hi m hm => ?_, fun i m hk => ?_, hsent⟩
  · rcases List.mem_append.1 hm with hm | hm
    · exact hsrc i q m hm
    · obtain ⟨a, ha, h⟩ := List.mem_flatMap.1 hm
      obtain ⟨e, he, h⟩ := List.mem_map.1 h
      rw [Prod.mk.injEq] at h
      obtain ⟨rfl, rfl⟩ := h
      rw [List.mem_range] at ha
      exact ((hss _ ha).2 q ((hmem _ ha q m).1 he).1).1
  · rintro ⟨i, m⟩ hx
    rcases (hsent i m).1 hx with h | ⟨h1, h2⟩
    · exact le_trans (S.sent _ h) (Nat.le_succ k)
    · exact (hms i h1 m h2).le
  · rintro ⟨i, s, m⟩ hx
    rcases (hdel i s m).1 hx with h | ⟨h1, h2, rfl⟩
    · exact lt_trans (S.delivered _ h) (Nat.lt_succ_self k)
    · exact ((hss i h1).2 s h2).2.1.trans_lt (Nat.lt_succ_self k)
  · intro i hi s hs m hm hk h6
    rw [hdel]
    rcases (hsent s m).1 hm with h | ⟨h1, h2⟩
    · rcases Nat.lt_succ_iff_lt_or_eq.1 hk with hk | hk
      · exact Or.inl (S.all i hi s hs m h hk h6)
      · rw [hk] at h6
        exact Or.inr ⟨Finset.mem_range.1 (S.sub hi), hall h6 i hi s hs m h hk⟩
    · rw [hms s h1 m h2] at hk
      exact absurd hk (lt_irrefl _)
  · rw [b1, if_pos (List.mem_range.2 hi)]
  · intro x hx
    rw [b2]
    exact List.mem_append_left _ hx
  · rw [b2]
    exact List.mem_append_right _ (List.mem_flatMap.2 ⟨i, List.mem_range.2 hi, List.mem_map_of_mem hm⟩)
  · rw [hsent]
    refine ⟨fun h => h.resolve_left fun h => ?_, Or.inr⟩
    have := S.sent _ h
    simp only [hk] at this
    omega

/-- Enough parties have signed. -/
theorem quorum_of {env : MEnv} {signed : List (ℕ × SMsg)} {m : SMsg} (T : Finset ℕ) (hT : 2 * env.F + 1 ≤ T.card) (h : ∀ i ∈ T, i < env.N ∧ (i, m) ∈ signed) :
    Quorum env (Finset.range env.N) signed m := by
  refine le_trans hT (Finset.card_le_card fun i hi => ?_)
  rw [signers, Finset.mem_filter, Finset.mem_range]
  exact ⟨(h i hi).1, Or.inr (h i hi).2⟩

/-- The shares of different parties combine. -/
theorem recover_signs {env : MEnv} {full : SMsg → Bytes} (ok : SchemeOk env full) (m : SMsg) {L : List ℕ} (hn : L.Nodup) (hl : 2 * env.F + 1 ≤ L.length) (h : ∀ i ∈ L, i < env.N) :
    env.recover m (L.map fun k => env.sign k m) = some (full m) := by
  refine ok.recover_full m _ L ?_ hn hl
  rw [List.map_map]
  exact List.map_congr_left fun k hk => ok.share_sign k (h k hk) m

section
variable {env : MEnv} {i : ℕ} (x : Bytes × Bytes) (old : ℕ → MRound) (R : MRound)

/-- A party in round 0 that has voted and has no result makes no step of its own. -/
theorem stuck_internal (hrv : ∀ j < env.N, R.recv j = .ended) (hs : R.send = .ended) (he : R.elected = true) (hv : R.voted = true) (ho : R.voteOut = none) (c : ℕ) (ev : MEvent) (hev : ev.internal = true) :
    mvbaStep env i (stG x 0 old R (.result c)) ev = none := by
  have hrd : (stG x 0 old R (.result c)).rounds 0 = R := rounds_stG ..
  have e : (stG x 0 old R (.result c)).rounds (stG x 0 old R (.result c)).round = R := rounds_stG ..
  have hold : ∀ r, r ≠ 0 → ¬ r ≤ (stG x 0 old R (.result c)).round := fun r hr h => hr (Nat.le_zero.1 h)
  unfold mvbaStep
  rw [if_neg (by simp [stG])]
  cases ev with
  | recv s m => cases hev
  | quitRecv j =>
    simp only [e]
    by_cases hj : j < env.N
    · simp only [hrv j hj, ite_self]
    · simp [hj]
  | quitSend =>
    simp only [e]
    rw [if_neg]
    rw [hs]
    simp
  | elect r =>
    by_cases hr : r = 0
    · subst hr
      simp only [hrd]
      rw [if_neg fun h => absurd h.2.2 (by rw [he]; simp)]
    · simp only
      rw [if_neg fun h => hold r hr h.1]
  | takeLeader => rfl
  | joined => rfl
  | sendVote r =>
    simp only [onSendVote]
    by_cases hr : r = 0
    · subst hr
      rw [if_neg fun h => absurd h.2.2 (by rw [hrd, hv]; simp)]
    · rw [if_neg fun h => hold r hr h.1]
  | takeHalt => rfl
  | takeVote =>
    have e' : (stG x 0 old R (.result c)).phase = .result c := rfl
    simp only [onTakeVote, e', e, ho]

/-- It handles Finish, PreVote, Vote and Halt messages only. -/
theorem stuck_recv (hrv : ∀ j < env.N, R.recv j = .ended) (hs : R.send = .ended) {l : ℕ} (hl : R.leader = some l) (c s : ℕ) (m : MMsg) (hm : ¬ (m.order = 6 ∨ m.order = 8 ∨ m.order = 9)) :
    mvbaStep env i (stG x 0 old R (.result c)) (.recv s m) = none := by
  have hrd : (stG x 0 old R (.result c)).rounds 0 = R := rounds_stG ..
  have hold : ∀ r, r ≠ 0 → ¬ r ≤ (stG x 0 old R (.result c)).round := fun r hr h => hr (Nat.le_zero.1 h)
  unfold mvbaStep
  rw [if_neg (by simp [stG])]
  cases m with
  | value r j st w val =>
    simp only [onValue]
    by_cases hr : r = 0
    · subst hr
      by_cases hj : j < env.N
      · rw [if_pos ⟨Nat.zero_le _, hj⟩, hrd]
        simp only [hrv j hj]
        rfl
      · rw [if_neg fun h => hj h.2]
        rfl
    · rw [if_neg fun h => hold r hr h.1]
      rfl
  | echo r j st sh =>
    simp only [onEchoShare]
    by_cases hr : r = 0
    · subst hr
      rw [hrd, hs]
      simp
    · rw [if_neg fun h => hold r hr h.1]
  | done r sh =>
    simp only [onDone]
    by_cases hr : r = 0
    · subst hr
      rw [if_neg fun h => absurd h.2 (by rw [hrd, hl]; simp)]
    · rw [if_neg fun h => hold r hr h.1]
  | halt => simp [MMsg.order] at hm
  | finish => simp [MMsg.order] at hm
  | prevote => simp [MMsg.order] at hm
  | vote => simp [MMsg.order] at hm

end

end DyCAPS
