import Verif.Lemmas.MVBAForce

/-!
# A corrupt party splits the decisions of one round

Steps of a party from an arbitrary state of its round `r`. The corrupt party `c` sends Values for its own broadcast and for that of another party, its Finish message `2F+1` times, and then a Halt.
-/

namespace DyCAPS

/-- A party in round `r` with the earlier rounds `old`. -/
def stG (x : Bytes × Bytes) (r : ℕ) (old : ℕ → MRound) (R : MRound) (ph : MPhase) : MState := ⟨r, x.1, x.2, fun r' => if r' = r then R else old r', none, ph, false⟩

theorem stG_init (i : ℕ) (x : Bytes × Bytes) : (MState.init i x.1 x.2).1 = stG x 0 (fun _ => MRound.init [] []) (MRound.init x.1 x.2) .wait := stR_init i x

theorem setRound_stG (x : Bytes × Bytes) (r : ℕ) (old : ℕ → MRound) (R R' : MRound) (ph : MPhase) : (stG x r old R ph).setRound r R' = stG x r old R' ph := by
  simp only [MState.setRound, stG, MState.mk.injEq, true_and, and_true]
  funext r'
  split <;> rfl

theorem le_stG (x : Bytes × Bytes) (r : ℕ) (old : ℕ → MRound) (R : MRound) (ph : MPhase) : r ≤ (stG x r old R ph).round := le_rfl

theorem rounds_stG (x : Bytes × Bytes) (r : ℕ) (old : ℕ → MRound) (R : MRound) (ph : MPhase) : (stG x r old R ph).rounds r = R := if_pos rfl

/-- The first Value of broadcast `j` has come. -/
def MRound.took (R : MRound) (j : ℕ) : MRound := { R with recv := fun j' => if j' = j then .second else R.recv j' }

/-- The second Value of broadcast `j` has come. -/
def MRound.locked (R : MRound) (j : ℕ) (y : Bytes × Bytes) : MRound :=
  { R with recv := fun j' => if j' = j then .ended else R.recv j', lock := fun j' => if j' = j then some y else R.lock j' }

/-- `n` Finish messages of `c` have come. -/
def MRound.finished (R : MRound) (c F : ℕ) (z : Bytes × Bytes) (n : ℕ) : MRound :=
  { R with fin := fun s => if s = c ∧ 0 < n then some z else R.fin s, finLen := n, doneFlag := decide (2 * F + 1 ≤ n) }

/-- The shares `L` of the coin have come. -/
def MRound.tossed (R : MRound) (env : MEnv) (r : ℕ) (L : List Bytes) : MRound :=
  { R with coins := L, doneFlag := R.doneFlag || decide (env.F + 1 ≤ L.length), leader := if 2 * env.F < L.length then some (leaderOf env ((env.recover (.done r) L).getD [])) else none }

section
variable {env : MEnv} {full : SMsg → Bytes} {i : ℕ} (x : Bytes × Bytes) (r : ℕ) (old : ℕ → MRound) (R : MRound)

theorem go_first {j : ℕ} (hj : j < env.N) (h : R.recv j = .first) (s : ℕ) (v val : Bytes) : LRun env i (stG x r old R .wait) [.recv s (.value r j 1 v val)]
    [.echo r j 1 (env.sign i (.echo r j 1 (env.hash v)))] [.echo r j 1 (env.hash v)] (stG x r old (R.took j) .wait) := by
  refine LRun.one (o := ⟨stG x r old (R.took j) .wait, _, _⟩) ?_
  have e : onValue env (stG x r old R .wait) r j 1 v val = some ⟨stG x r old (R.took j) .wait, [], [.echo r j 1 (env.hash v)]⟩ := by
    unfold onValue
    rw [rounds_stG]
    simp only
    rw [if_pos ⟨le_rfl, hj⟩]
    simp only [h]
    rw [setRound_stG]
    rfl
  unfold mvbaStep
  rw [if_neg (by simp [stG])]
  simp only [e]
  rfl

theorem go_second {j : ℕ} (hj : j < env.N) (h : R.recv j = .second) (s : ℕ) {v val : Bytes} (hv : env.cert (.echo r j 1 (env.hash v)) val = true) : LRun env i (stG x r old R .wait) [.recv s (.value r j 2 v val)]
    [.echo r j 2 (env.sign i (.echo r j 2 (env.hash v)))] [.echo r j 2 (env.hash v)] (stG x r old (R.locked j (v, val)) .wait) := by
  refine LRun.one (o := ⟨stG x r old (R.locked j (v, val)) .wait, _, _⟩) ?_
  have e : onValue env (stG x r old R .wait) r j 2 v val = some ⟨stG x r old (R.locked j (v, val)) .wait, [], [.echo r j 2 (env.hash v)]⟩ := by
    unfold onValue
    rw [rounds_stG]
    simp only
    rw [if_pos ⟨le_rfl, hj⟩]
    simp only [h, hv, if_true]
    rw [setRound_stG]
    rfl
  unfold mvbaStep
  rw [if_neg (by simp [stG])]
  simp only [e]
  rfl

theorem go_finish {c : ℕ} (hc : c < env.N) {v sig : Bytes} (hv : env.cert (.echo r c 2 (env.hash v)) sig = true) (h0 : R.finLen = 0) (h1 : R.doneFlag = false) (n : ℕ) :
    LRun env i (stG x r old R .wait) (List.replicate n (.recv c (.finish r v sig))) [] [] (stG x r old (R.finished c env.F (v, sig) n) .wait) := by
  induction n with
  | zero =>
    have : R.finished c env.F (v, sig) 0 = R := by
      cases R
      simp only at h0 h1
      simp [MRound.finished, h0, h1]
    rw [this]
    exact .nil _
  | succ n ih =>
    rw [List.replicate_succ']
    refine ih.trans (m2 := []) (s2 := []) (LRun.one (o := ⟨_, [], []⟩) ?_)
    unfold mvbaStep
    rw [if_neg (by simp [stG])]
    simp only [onFinish]
    rw [rounds_stG, if_pos (le_stG ..), if_pos hc, if_pos hv, setRound_stG]
    congr 3
    simp only [MRound.finished, MRound.mk.injEq, true_and, and_true]
    refine ⟨?_, ?_⟩
    · funext j
      by_cases hj : j = c <;> simp [hj]
    · show (decide (2 * env.F + 1 ≤ n) || decide (n + 1 = 2 * env.F + 1)) = decide (2 * env.F + 1 ≤ n + 1)
      rw [Bool.eq_iff_iff, Bool.or_eq_true, decide_eq_true_eq, decide_eq_true_eq, decide_eq_true_eq]
      omega

theorem go_elect (h : R.doneFlag = true) (h' : R.elected = false) : LRun env i (stG x r old R .wait) [.elect r] [.done r (env.sign i (.done r))] [.done r] (stG x r old { R with elected := true } .wait) := by
  refine LRun.one (o := ⟨_, [_], [_]⟩) ?_
  unfold mvbaStep
  rw [if_neg (by simp [stG])]
  simp only
  rw [rounds_stG, if_pos ⟨le_rfl, h, h'⟩, setRound_stG]
  rfl

theorem go_coins (hc : R.coins = []) (hl : R.leader = none) (es : List (ℕ × Bytes)) (hs : ∀ p ∈ es, (env.share (.done r) p.2).isSome = true) (hlen : es.length ≤ 2 * env.F + 1) :
    LRun env i (stG x r old R .wait) (es.map fun p => .recv p.1 (.done r p.2)) [] [] (stG x r old (R.tossed env r (es.map Prod.snd)) .wait) := by
  induction es using List.reverseRecOn with
  | nil =>
    have : R.tossed env r [] = R := by
      cases R
      simp only at hc hl
      simp [MRound.tossed, hc, hl]
    rw [List.map_nil, List.map_nil, this]
    exact .nil _
  | append_singleton es p ih =>
    rw [List.length_append, List.length_singleton] at hlen
    rw [List.map_append]
    refine (ih (fun q hq => hs q (List.mem_append_left _ hq)) (by omega)).trans (m2 := []) (s2 := []) (LRun.one (o := ⟨_, [], []⟩) ?_)
    unfold mvbaStep
    rw [if_neg (by simp [stG])]
    simp only [onDone]
    rw [rounds_stG]
    have hl : (R.tossed env r (es.map Prod.snd)).leader = none := by
      show (if _ then _ else _) = _
      rw [if_neg (by rw [List.length_map]; omega)]
    rw [if_pos ⟨le_rfl, hl⟩, if_pos (hs p (by simp)), setRound_stG]
    congr 3
    simp only [MRound.tossed, List.map_append, List.map_cons, List.map_nil, List.length_append, List.length_map, List.length_cons, List.length_nil, MRound.mk.injEq, true_and, and_true]
    rw [Bool.or_assoc]
    congr 1
    rw [Bool.eq_iff_iff, Bool.or_eq_true, decide_eq_true_eq, decide_eq_true_eq, decide_eq_true_eq]
    omega

theorem go_halt {l : ℕ} (hl : R.leader = some l) (hh : R.haltDone = false) {v sig : Bytes} (hv : env.cert (.echo r l 2 (env.hash v)) sig = true) (s : ℕ) :
    LRun env i (stG x r old R .wait) [.recv s (.halt r v sig), .takeHalt] [] [] (stG x r old { R with haltDone := true } (.decided r v)) := by
  refine LRun.cons (o := ⟨{ stG x r old { R with haltDone := true } .wait with halt := some (r, v) }, [], []⟩) (ms := []) (sg := []) ?_ (LRun.one (o := ⟨_, [], []⟩) ?_)
  · unfold mvbaStep
    rw [if_neg (by simp [stG])]
    simp only [onHalt]
    rw [rounds_stG]
    simp only [hl]
    rw [if_pos ⟨le_rfl, hh⟩, if_pos hv, setRound_stG]
    rfl
  · unfold mvbaStep
    rw [if_neg (by simp [stG])]
    rfl

theorem go_echoes (hs : R.send = .first []) {sh : Bytes} (hsh : (env.share (.echo r i 1 (env.hash R.prop.1)) sh).isSome = true) (c n : ℕ) (hn : n ≤ 2 * env.F) :
    LRun env i (stG x r old R .wait) (List.replicate n (.recv c (.echo r i 1 sh))) [] [] (stG x r old { R with send := .first (List.replicate n sh) } .wait) := by
  induction n with
  | zero =>
    have : { R with send := .first (List.replicate 0 sh) } = R := by
      cases R
      simp only at hs
      simp [hs]
    rw [this]
    exact .nil _
  | succ n ih =>
    rw [List.replicate_succ']
    refine (ih (by omega)).trans (m2 := []) (s2 := []) (LRun.one (o := ⟨_, [], []⟩) ?_)
    unfold mvbaStep
    rw [if_neg (by simp [stG])]
    simp only [onEchoShare]
    rw [rounds_stG, if_pos ⟨le_rfl, trivial⟩]
    simp only
    rw [if_pos hsh, if_neg (by simp; omega), setRound_stG, ← List.replicate_succ']
    rfl

/-- The same share `2F+1` times: the certificate is what `Recover` makes of it. -/
theorem go_echoes_all (hs : R.send = .first []) {sh : Bytes} (hsh : (env.share (.echo r i 1 (env.hash R.prop.1)) sh).isSome = true) (c : ℕ) :
    LRun env i (stG x r old R .wait) (List.replicate (2 * env.F + 1) (.recv c (.echo r i 1 sh)))
      [.value r i 2 R.prop.1 ((env.recover (.echo r i 1 (env.hash R.prop.1)) (List.replicate (2 * env.F + 1) sh)).getD [])] [] (stG x r old { R with send := .second [] } .wait) := by
  rw [List.replicate_succ']
  refine (go_echoes x r old R hs hsh c _ le_rfl).trans (m1 := []) (s1 := []) (LRun.one (o := ⟨_, [_], []⟩) ?_)
  unfold mvbaStep
  rw [if_neg (by simp [stG])]
  simp only [onEchoShare]
  rw [rounds_stG, if_pos ⟨le_rfl, trivial⟩]
  simp only
  rw [if_pos hsh, if_pos (by simp), setRound_stG, ← List.replicate_succ']
  rfl

/-- A second Value without a valid certificate ends the process. -/
theorem go_dead {j : ℕ} (hj : j < env.N) (h : R.recv j = .second) (s : ℕ) {v val : Bytes} (hv : env.cert (.echo r j 1 (env.hash v)) val = false) :
    LRun env i (stG x r old R .wait) [.recv s (.value r j 2 v val)] [] [] { stG x r old R .wait with dead := true } := by
  refine LRun.one (o := ⟨_, [], []⟩) ?_
  have e : onValue env (stG x r old R .wait) r j 2 v val = some ⟨{ stG x r old R .wait with dead := true }, [], []⟩ := by
    unfold onValue
    rw [rounds_stG]
    simp only
    rw [if_pos ⟨le_rfl, hj⟩]
    simp only [h, hv, Bool.false_eq_true, if_false]
  unfold mvbaStep
  rw [if_neg (by simp [stG])]
  simp only [e]
  rfl

theorem go_take {l : ℕ} (h : R.leader = some l) : LRun env i (stG x r old R .wait) [.takeLeader] [] [] (stG x r old R (.join l)) := by
  refine LRun.one (o := ⟨_, [], []⟩) ?_
  have hr : (stG x r old R .wait).rounds (stG x r old R .wait).round = R := rounds_stG ..
  unfold mvbaStep
  rw [if_neg (by simp [stG])]
  simp only [hr, h]
  rfl

/-- The broadcasts below `n` are over. -/
def MRound.closed (R : MRound) (n : ℕ) : MRound := { R with recv := fun j => if j < n then .ended else R.recv j }

theorem go_quits {l : ℕ} (n : ℕ) (hn : n ≤ env.N) : ∃ evs : List MEvent, (∀ e ∈ evs, ∃ j, e = .quitRecv j) ∧ LRun env i (stG x r old R (.join l)) evs [] [] (stG x r old (R.closed n) (.join l)) := by
  have hq : ∀ (R : MRound) (j : ℕ), j < env.N → mvbaStep env i (stG x r old R (.join l)) (.quitRecv j) = match R.recv j with
      | .first => some ⟨stG x r old { R with recv := fun j' => if j' = j then .second else R.recv j' } (.join l), [], []⟩
      | .second => some ⟨stG x r old { R with recv := fun j' => if j' = j then .ended else R.recv j' } (.join l), [], []⟩
      | .ended => none := by
    intro R j hj
    have hg : ((stG x r old R (.join l)).cancelled && decide (j < env.N)) = true := by
      rw [decide_eq_true hj]
      rfl
    have hr : (stG x r old R (.join l)).rounds (stG x r old R (.join l)).round = R := rounds_stG ..
    unfold mvbaStep
    rw [if_neg (by simp [stG])]
    simp only [hg, if_true, hr]
    have e : ∀ R', (stG x r old R (.join l)).setRound (stG x r old R (.join l)).round R' = stG x r old R' (.join l) := fun R' => setRound_stG ..
    simp only [e]
    cases R.recv j <;> rfl
  induction n with
  | zero => exact ⟨[], by simp, .nil _⟩
  | succ n ih =>
    obtain ⟨evs, h1, h2⟩ := ih (by omega)
    have hc : (R.closed n).recv n = R.recv n := if_neg (lt_irrefl n)
    have e0 : ∀ S : MRound, S = { R.closed n with recv := S.recv } → (∀ j, S.recv j = if j = n then .ended else (R.closed n).recv j) → S = R.closed (n + 1) := by
      intro S hS hj
      rw [hS]
      simp only [MRound.closed, MRound.mk.injEq, true_and, and_true]
      funext j
      rw [hj]
      by_cases hjn : j = n
      · simp [hjn]
      · have : j < n + 1 ↔ j < n := by omega
        simp [hjn, this, MRound.closed]
    cases hrn : R.recv n with
    | ended =>
      refine ⟨evs, h1, ?_⟩
      rw [← e0 (R.closed n) rfl (fun j => ?_)]
      · exact h2
      · by_cases hjn : j = n
        · rw [if_pos hjn, hjn, hc, hrn]
        · rw [if_neg hjn]
    | second =>
      refine ⟨evs ++ [.quitRecv n], by simpa [or_imp, forall_and] using h1, h2.trans (m2 := []) (s2 := []) (LRun.one (o := ⟨_, [], []⟩) ?_)⟩
      rw [hq _ n (by omega), hc, hrn]
      simp only
      rw [← e0 { R.closed n with recv := fun j' => if j' = n then .ended else (R.closed n).recv j' } rfl (fun j => rfl)]
      rfl
    | first =>
      refine ⟨evs ++ [.quitRecv n, .quitRecv n], by simpa [or_imp, forall_and] using h1, h2.trans (m2 := []) (s2 := []) ?_⟩
      have e1 := hq (R.closed n) n (by omega)
      rw [hc, hrn] at e1
      simp only at e1
      refine LRun.cons (ms := []) (sg := []) e1 (LRun.one (o := ⟨_, [], []⟩) ?_)
      rw [hq _ n (by omega)]
      simp only [if_true]
      rw [← e0 { R.closed n with recv := fun j' => if j' = n then .ended else (R.closed n).recv j' } rfl (fun j => rfl)]
      congr 4
      funext j
      split <;> rfl

/-- The round is over for the broadcasts and the party has voted in advance. -/
def MRound.joined (R : MRound) (N : ℕ) : MRound := { R.closed N with send := .ended, voteSpawned := true }

/-- Leader known, all broadcasts cancelled, no lock: the party sends a No. -/
theorem go_join {l : ℕ} (h : R.leader = some l) (hs : R.send ≠ .ended) (hf : R.fin l = none) (hk : R.lock l = none) : ∃ evs : List MEvent, (∀ e ∈ evs, ∀ s m, e ≠ .recv s m) ∧
    LRun env i (stG x r old R .wait) evs [.prevote r false [] (env.sign i (.no r))] [.no r] (stG x r old (R.joined env.N) (.result l)) := by
  obtain ⟨qs, h1, h2⟩ := go_quits (env := env) (i := i) x r old R (l := l) env.N le_rfl
  have e3 : mvbaStep env i (stG x r old (R.closed env.N) (.join l)) .quitSend = some ⟨stG x r old { R.closed env.N with send := .ended } (.join l), [], []⟩ := by
    unfold mvbaStep
    rw [if_neg (by simp [stG])]
    have hr : (stG x r old (R.closed env.N) (.join l)).rounds (stG x r old (R.closed env.N) (.join l)).round = R.closed env.N := rounds_stG ..
    have hg : ((stG x r old (R.closed env.N) (.join l)).cancelled && decide ((R.closed env.N).send ≠ .ended)) = true := by
      rw [decide_eq_true (by exact hs)]
      rfl
    simp only [hr, hg, if_true]
    have e : ∀ R', (stG x r old (R.closed env.N) (.join l)).setRound (stG x r old (R.closed env.N) (.join l)).round R' = stG x r old R' (.join l) := fun R' => setRound_stG ..
    rw [e]
  have e4 : mvbaStep env i (stG x r old { R.closed env.N with send := .ended } (.join l)) .joined =
      some ⟨stG x r old (R.joined env.N) (.result l), [.prevote r false [] (env.sign i (.no r))], [.no r]⟩ := by
    unfold mvbaStep
    rw [if_neg (by simp [stG])]
    simp only [onJoined]
    have hp : (stG x r old { R.closed env.N with send := .ended } (.join l)).phase = .join l := rfl
    have hr : (stG x r old { R.closed env.N with send := .ended } (.join l)).rounds (stG x r old { R.closed env.N with send := .ended } (.join l)).round = { R.closed env.N with send := .ended } := rounds_stG ..
    have hf' : (R.closed env.N).fin l = none := hf
    have hk' : (R.closed env.N).lock l = none := hk
    simp only [hp, hr]
    rw [if_pos ⟨fun j hj => by simp [MRound.closed, hj], trivial⟩]
    simp only [hf', hk']
    have e : ∀ R', (stG x r old { R.closed env.N with send := .ended } (.join l)).setRound (stG x r old { R.closed env.N with send := .ended } (.join l)).round R' = stG x r old R' (.join l) := fun R' => setRound_stG ..
    rw [e]
    rfl
  refine ⟨.takeLeader :: (qs ++ [.quitSend, .joined]), ?_, ?_⟩
  · intro e he s m h
    subst h
    simp only [List.mem_cons, List.mem_append, List.not_mem_nil, or_false, reduceCtorEq, false_or] at he
    obtain ⟨j, hj⟩ := h1 _ he
    cases hj
  · exact (go_take x r old R h).trans (h2.trans (LRun.cons e3 (LRun.one e4)))

/-- `n` equal Yes votes. -/
theorem go_yes {l : ℕ} (h : R.leader = some l) (h1 : R.VYr = []) (h2 : R.VNr = []) (h3 : R.voteOut = none) {v sig sh : Bytes} (hc : env.cert (.echo r l 1 (env.hash v)) sig = true)
    (hs : (env.share (.echo r l 2 (env.hash v)) sh).isSome = true) (c n : ℕ) (hn : n ≤ 2 * env.F + 1) (l' : ℕ) :
    LRun env i (stG x r old R (.result l')) (List.replicate n (.recv c (.vote r true v sig sh))) [] [] (stG x r old { R with VYr := List.replicate n sh, voteOut := if 2 * env.F < n then some (.yes v ((env.recover (.echo r l 2 (env.hash v)) (List.replicate n sh)).getD [])) else none } (.result l')) := by
  induction n with
  | zero =>
    have : { R with VYr := List.replicate 0 sh, voteOut := if 2 * env.F < 0 then some (.yes v ((env.recover (.echo r l 2 (env.hash v)) (List.replicate 0 sh)).getD [])) else none } = R := by
      cases R
      simp only at h1 h3
      simp [h1, h3]
    rw [this]
    exact .nil _
  | succ n ih =>
    rw [List.replicate_succ' (n := n) (a := MEvent.recv c _)]
    refine (ih (by omega)).trans (m2 := []) (s2 := []) (LRun.one (o := ⟨_, [], []⟩) ?_)
    unfold mvbaStep
    rw [if_neg (by simp [stG])]
    simp only [onVote]
    rw [rounds_stG]
    simp only [h, h2]
    rw [if_pos (le_stG ..), if_pos trivial, hc, hs, Bool.and_self, if_pos rfl, setRound_stG]
    have hn' : ¬ 2 * env.F < n := by omega
    simp only [if_neg hn', ← List.replicate_succ', List.length_replicate, List.length_nil, Nat.add_zero, Option.none_or]
    by_cases hl : 2 * env.F < n + 1
    · simp only [if_pos hl]
      rfl
    · simp only [if_neg hl]
      rfl

/-- `n` equal No votes. -/
theorem go_no {l : ℕ} (h : R.leader = some l) (h1 : R.VYr = []) (h2 : R.VNr = []) (h3 : R.voteOut = none) {v sig sh : Bytes} (hc : env.cert (.no r) sig = true)
    (hs : (env.share (.unlock r) sh).isSome = true) (c n : ℕ) (hn : n ≤ 2 * env.F + 1) (l' : ℕ) :
    LRun env i (stG x r old R (.result l')) (List.replicate n (.recv c (.vote r false v sig sh))) [] [] (stG x r old { R with VNr := List.replicate n sh, voteOut := if 2 * env.F < n then some (.no ((env.recover (.unlock r) []).getD [])) else none } (.result l')) := by
  induction n with
  | zero =>
    have : { R with VNr := List.replicate 0 sh, voteOut := if 2 * env.F < 0 then some (.no ((env.recover (.unlock r) []).getD [])) else none } = R := by
      cases R
      simp only at h2 h3
      simp [h2, h3]
    rw [this]
    exact .nil _
  | succ n ih =>
    rw [List.replicate_succ' (n := n) (a := MEvent.recv c _)]
    refine (ih (by omega)).trans (m2 := []) (s2 := []) (LRun.one (o := ⟨_, [], []⟩) ?_)
    unfold mvbaStep
    rw [if_neg (by simp [stG])]
    simp only [onVote]
    rw [rounds_stG]
    simp only [h, h1]
    rw [if_pos (le_stG ..), if_neg (by simp), hc, hs, Bool.and_self, if_pos rfl, setRound_stG]
    have hn' : ¬ 2 * env.F < n := by omega
    simp only [if_neg hn', ← List.replicate_succ', List.length_replicate, Option.none_or]
    rfl

theorem go_takeYes {v sig : Bytes} (h : R.voteOut = some (.yes v sig)) (l : ℕ) : LRun env i (stG x r old R (.result l)) [.takeVote] [.halt r v sig] [] (stG x r old R (.decided r v)) := by
  refine LRun.one (o := ⟨_, [_], []⟩) ?_
  unfold mvbaStep
  rw [if_neg (by simp [stG])]
  have hp : (stG x r old R (.result l)).phase = .result l := rfl
  have hr : (stG x r old R (.result l)).rounds (stG x r old R (.result l)).round = R := rounds_stG ..
  simp only [onTakeVote, hp, hr, h]
  rfl

theorem go_takeNo {sig : Bytes} (h : R.voteOut = some (.no sig)) (l : ℕ) : LRun env i (stG x r old R (.result l)) [.takeVote] [.value (r + 1) i 1 x.1 (x.2 ++ sig)] []
    (stG (x.1, x.2 ++ sig) (r + 1) (fun r' => if r' = r then R else old r') (MRound.init x.1 (x.2 ++ sig)) .wait) := by
  refine LRun.one (o := ⟨_, [_], []⟩) ?_
  unfold mvbaStep
  rw [if_neg (by simp [stG])]
  have hp : (stG x r old R (.result l)).phase = .result l := rfl
  have hr : (stG x r old R (.result l)).rounds (stG x r old R (.result l)).round = R := rounds_stG ..
  simp only [onTakeVote, hp, hr, h]
  rfl

end

/-- A corrupt party's own share. -/
theorem IdealScheme.genuine_corrupt {env : MEnv} {full : SMsg → Bytes} (h : IdealScheme env full) {H : Finset ℕ} {s : List (ℕ × SMsg)} {c : ℕ} (hc : c ∉ H) (m : SMsg) : Genuine env H s (env.sign c m) := by
  intro m'
  rw [h.cert_sign]
  refine ⟨fun k hk => ?_, by simp⟩
  obtain ⟨rfl, rfl, hN⟩ := h.share_only _ _ _ _ hk
  exact ⟨hN, fun hH => absurd hH hc⟩

/-- A phase in which all messages come from the corrupt party `c`. -/
theorem phase_corrupt {env : MEnv} {H : Finset ℕ} {st st' : ℕ → MState} {evs : ℕ → List MEvent} {ms : ℕ → List MMsg} {sg : ℕ → List SMsg} {c : ℕ} (hcH : c ∉ H) (L : List ℕ) (net : MNet) (hnd : L.Nodup)
    (h : ∀ i ∈ L, i ∈ H ∧ net.party i = st i ∧ LRun env i (st i) (evs i) (ms i) (sg i) (st' i) ∧ ∀ s m, MEvent.recv s m ∈ evs i → s = c ∧ ∀ b ∈ m.sigs, Genuine env H net.signed b) :
    ∃ es net', MRun env H ⟨true, true⟩ net es net' ∧ (∀ k, net'.party k = if k ∈ L then st' k else net.party k) ∧
      (∀ x ∈ net.signed, x ∈ net'.signed) ∧ (∀ i ∈ L, ∀ m ∈ sg i, (i, m) ∈ net'.signed) ∧ ∀ x ∈ net'.signed, x ∈ net.signed ∨ ∃ i ∈ L, ∃ m ∈ sg i, x = (i, m) := by
  obtain ⟨es, net', a1, a2, a3, a4, -, -, -, a8⟩ := phase_run_all L net hnd (fun i hi => by
    obtain ⟨b1, b2, b3, b4⟩ := h i hi
    exact ⟨b1, b2, b3, List.pairwise_of_forall_mem_list fun a ha _ _ s m hs e => absurd ((b4 s m (e ▸ ha)).1 ▸ hs) hcH, fun s m hm => ⟨(b4 s m hm).2, fun hs => absurd ((b4 s m hm).1 ▸ hs) hcH⟩⟩)
  exact ⟨es, net', a1, a2, a3, a4, a8⟩

end DyCAPS
