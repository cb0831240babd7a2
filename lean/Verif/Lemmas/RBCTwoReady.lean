import Verif.Lemmas.RBCAttack
import Verif.Lemmas.RBCOne

/-!
# Reliable broadcast: making a party send two Readys, for every committee size
-/

namespace DyCAPS

/-- Echoes with the same content, fewer than a quorum. -/
theorem run_echoes_gen {env : REnv} {s : RState} (hal : s.dead = false) (hpos : s.echoPos = .running) (hrs : s.readySent = false) {h m d : Bytes} (h0 : s.echo h m = 0)
    (hd : echoPayload d = ⟨h, m⟩) (k : ℕ) (hk : k < env.N - env.F) (hlen : s.readyChan.length + (k - env.F) ≤ env.N) :
    runParty env s (List.replicate k (.echo d)) = some ({ s with
      echo := fun h' m' => if h' = h ∧ m' = m then k else s.echo h' m'
      readyChan := s.readyChan ++ List.replicate (k - env.F) (h, m) }, []) := by
  induction k with
  | zero =>
    have e : (fun h' m' => if h' = h ∧ m' = m then 0 else s.echo h' m') = s.echo := by
      funext h' m'
      by_cases hc : h' = h ∧ m' = m
      · rw [if_pos hc, hc.1, hc.2, h0]
      · rw [if_neg hc]
    simp [runParty, e]
  | succ k ih =>
    rw [List.replicate_succ']
    refine (runParty_append (o2 := []) (ih (by omega) (by omega)) (?_ : _ = some (_, [])))
    have hq : decide (env.N - env.F ≤ k + 1) = false := decide_eq_false (by omega)
    have ee : (fun h' m' => if h' = h ∧ m' = m then k + 1 else if h' = h ∧ m' = m then k else s.echo h' m') = fun h' m' => if h' = h ∧ m' = m then k + 1 else s.echo h' m' := by
      funext h' m'
      split <;> rfl
    by_cases hF : env.F + 1 ≤ k + 1
    · have e2 : List.replicate (k + 1 - env.F) (h, m) = List.replicate (k - env.F) (h, m) ++ [(h, m)] := by
        rw [← List.replicate_succ']; congr 1; omega
      have hl : (s.readyChan ++ List.replicate (k - env.F) (h, m)).length < env.N := by
        rw [List.length_append, List.length_replicate]; omega
      simp only [runParty, rbcStep, hal, hpos, hd, onEcho, hrs, hq, hF, hl, and_self, Bool.false_eq_true, if_false, if_true, Bool.not_false, Bool.and_false,
          Bool.or_false, Option.map_some, List.append_nil, ee, e2, List.append_assoc]
    · have e2 : k + 1 - env.F = k - env.F := by omega
      simp only [runParty, rbcStep, hal, hpos, hd, onEcho, hrs, hq, hF, and_self, Bool.false_eq_true, if_false, if_true, Bool.not_false, Bool.and_false,
          Bool.or_false, Option.map_some, List.append_nil, ee, e2]

/-- The last Echo of a quorum. -/
theorem echo_last {env : REnv} {s : RState} (hal : s.dead = false) (hpos : s.echoPos = .running) (hrs : s.readySent = false) {h m d : Bytes} (h0 : env.N - env.F ≤ s.echo h m + 1)
    (hF : env.F + 1 ≤ s.echo h m + 1) (hd : echoPayload d = ⟨h, m⟩) (hl : s.readyChan.length < env.N) :
    ∃ s', runParty env s [.echo d] = some (s', rBroadcast env.N .ready (marshal (⟨h, m⟩ : PRBCReady))) ∧ s'.dead = false ∧ s'.echoPos = .done ∧ s'.readyPos = s.readyPos := by
  refine ⟨{ s with
    echo := fun h' m' => if h' = h ∧ m' = m then s.echo h m + 1 else s.echo h' m'
    readySent := true
    readyChan := s.readyChan ++ [(h, m)]
    echoPos := .done }, ?_, hal, rfl, rfl⟩
  simp only [runParty, rbcStep, hal, hpos, hd, onEcho, hrs, decide_eq_true h0, hF, hl, Bool.false_eq_true, if_false, if_true, Bool.not_false, Bool.and_self, Bool.or_true, Option.map_some,
    List.append_nil]

/-- A quorum of Echoes with the same content. -/
theorem run_quorum_gen {env : REnv} (ok : env.Ok) {s : RState} (hal : s.dead = false) (hpos : s.echoPos = .running) (hrs : s.readySent = false) {h m d : Bytes} (h0 : s.echo h m = 0)
    (hd : echoPayload d = ⟨h, m⟩) (hlen : s.readyChan.length + (env.N - env.F - env.F) ≤ env.N) :
    ∃ s', runParty env s (List.replicate (env.N - env.F) (.echo d)) = some (s', rBroadcast env.N .ready (marshal (⟨h, m⟩ : PRBCReady))) ∧ s'.dead = false ∧ s'.echoPos = .done ∧
      s'.readyPos = s.readyPos := by
  have hsz := ok.size
  have h1 := run_echoes_gen (env := env) hal hpos hrs h0 hd (env.N - env.F - 1) (by omega) (by omega)
  have e : List.replicate (env.N - env.F) (REvent.echo d) = List.replicate (env.N - env.F - 1) (.echo d) ++ [.echo d] := by
    rw [← List.replicate_succ']; congr 1; omega
  obtain ⟨s', g1, g2, g3, g4⟩ := echo_last (env := env) (s := { s with
      echo := fun h' m' => if h' = h ∧ m' = m then env.N - env.F - 1 else s.echo h' m'
      readyChan := s.readyChan ++ List.replicate (env.N - env.F - 1 - env.F) (h, m) }) hal hpos hrs (h := h) (m := m) (by simp only [and_self, if_true]; omega)
    (by simp only [and_self, if_true]; omega) hd (by simp only [List.length_append, List.length_replicate]; omega)
  rw [e]
  exact ⟨s', runParty_append (o1 := []) h1 g1, g2, g3, g4⟩

/-- Readys with the same hash, at most `F` of them, at a party that has not sent its own. -/
theorem run_readys_early {env : REnv} {s : RState} (hal : s.dead = false) (hpos : s.echoPos = .running) (hrs : s.readySent = false) (hidle : s.readyPos = .idle) (hT : ∀ h, s.T h = [])
    (hseen : ∀ i, s.seen i = false) (j : ℕ) {h : Bytes} (l : List (ℕ × Bytes)) (hl : l.length ≤ env.F) (hnd : (l.map Prod.fst).Nodup) (d : ℕ × Bytes → Bytes)
    (hd : ∀ x ∈ l, readyPayload (d x) = ⟨h, x.2⟩) :
    ∃ s', runParty env s ((l.flatMap fun x => readyEvents j x.1 (d x)).map evOf) = some (s', []) ∧ s'.dead = false ∧ s'.echo = s.echo ∧ s'.echoPos = .running ∧ s'.readySent = false ∧
      s'.readyChan = s.readyChan ∧ s'.T h = l ∧ (∀ i, s'.seen i = true ↔ i ∈ l.map Prod.fst) ∧ s'.readyPos = .idle := by
  induction l using List.reverseRecOn with
  | nil => exact ⟨s, rfl, hal, rfl, hpos, hrs, rfl, hT h, by simp [hseen], hidle⟩
  | append_singleton l x ih =>
    rw [List.map_append, List.nodup_append] at hnd
    rw [List.length_append, List.length_singleton] at hl
    obtain ⟨s', h1, h2, h3, h4, h5, h6, h7, h8, h9⟩ := ih (by omega) hnd.1 (fun y hy => hd y (by simp [hy]))
    have hns : s'.seen x.1 = false := by
      cases hc : s'.seen x.1 with
      | false => rfl
      | true => exact absurd rfl (hnd.2.2 x.1 ((h8 x.1).1 hc) x.1 (by simp))
    have hpx : readyPayload (d x) = ⟨h, x.2⟩ := hd x (by simp)
    have hA : ∃ s1, rbcStep env s' (.ready x.1 (d x)) = some (s1, []) ∧ s1.dead = false ∧ s1.echo = s.echo ∧ s1.echoPos = .running ∧ s1.readySent = false ∧ s1.readyChan = s.readyChan ∧
        s1.T h = l ++ [(x.1, x.2)] ∧ (∀ i, s1.seen i = true ↔ i ∈ (l ++ [x]).map Prod.fst) ∧ s1.readyPos = .check h := by
      have hsn : ∀ i, (if i = x.1 then true else s'.seen i) = true ↔ i ∈ (l ++ [x]).map Prod.fst := by
        intro i
        by_cases hi : i = x.1
        · simp [hi]
        · rw [if_neg hi, h8 i]; simp [hi]
      by_cases hm : s'.maxN < (s'.T h ++ [(x.1, x.2)]).length
      · refine ⟨{ s' with
          seen := fun j' => if j' = x.1 then true else s'.seen j'
          T := fun h' => if h' = h then s'.T h ++ [(x.1, x.2)] else s'.T h'
          readyPos := .check h
          maxN := (s'.T h ++ [(x.1, x.2)]).length
          maxH := h }, ?_, h2, h3, h4, h5, h6, by simp [h7], hsn, rfl⟩
        simp only [rbcStep, h2, h9, hpx, onReady, hns, Bool.false_eq_true, if_false, if_true]
        rw [if_pos hm]
      · refine ⟨{ s' with
          seen := fun j' => if j' = x.1 then true else s'.seen j'
          T := fun h' => if h' = h then s'.T h ++ [(x.1, x.2)] else s'.T h'
          readyPos := .check h }, ?_, h2, h3, h4, h5, h6, by simp [h7], hsn, rfl⟩
        simp only [rbcStep, h2, h9, hpx, onReady, hns, Bool.false_eq_true, if_false, if_true]
        rw [if_neg hm]
    obtain ⟨s1, g1, g2, g3, g4, g5, g6, g7, g8, g9⟩ := hA
    have hB : rbcStep env s1 .readyStep = some ({ s1 with readyPos := .fin h }, []) := by
      have : ¬ (env.F + 1 ≤ (s1.T h).length) := by rw [g7]; simp; omega
      simp [rbcStep, g2, onReadyStep, g9, g4, g5]; omega
    have hC : rbcStep env { s1 with readyPos := .fin h } .readyStep = some ({ s1 with decStart := s1.decStart || decide (env.N - env.F ≤ (s1.T h).length), readyPos := .idle }, []) := by
      simp [rbcStep, g2, onReadyStep]
    have hst : runParty env s' ((readyEvents j x.1 (d x)).map evOf) = some ({ s1 with decStart := s1.decStart || decide (env.N - env.F ≤ (s1.T h).length), readyPos := .idle }, []) := by
      simp only [readyEvents, List.map_cons, List.map_nil, evOf, deliverEvent, runParty, g1, hB, hC, Option.map_some, List.append_nil]
    have hall := runParty_append h1 hst
    rw [← List.map_append, show (l.flatMap fun x => readyEvents j x.1 (d x)) ++ readyEvents j x.1 (d x) = (l ++ [x]).flatMap fun x => readyEvents j x.1 (d x) by simp] at hall
    exact ⟨_, hall, g2, g3, g4, g5, g6, by rw [g7], g8, rfl⟩

/-- What party 1 is given: `F` Readys and one more with the hash `h`, `F + 1` Echoes of `(h, m)`, and a quorum of Echoes of `(h, m')`. -/
def twiceEvents (env : REnv) (l : List ℕ) (z : ℕ) (rd ed ed' : Bytes) : List NEvent :=
  ((l.map fun i => (i, ([] : Bytes))).flatMap fun x => readyEvents 1 x.1 rd) ++ [.deliver 1 .ready z rd, .run 1 .readyStep] ++ List.replicate (env.F + 1) (.deliver 1 .echo 0 ed) ++
    [.run 1 .readyStep, .run 1 .readyStep] ++ List.replicate (env.N - env.F) (.deliver 1 .echo 0 ed') ++ [.run 1 .readyStep]

theorem run_twice {env : REnv} (ok : env.Ok) (hF : 1 ≤ env.F) {h m m' rd ed ed' : Bytes} (hne : m ≠ m') (hrd : readyPayload rd = ⟨h, []⟩) (hed : echoPayload ed = ⟨h, m⟩) (hed' : echoPayload ed' = ⟨h, m'⟩)
    (l : List ℕ) (z : ℕ) (hl : l.length = env.F) (hnd : l.Nodup) (hz : z ∉ l) :
    ∃ s', runParty env RState.init ((twiceEvents env l z rd ed ed').map evOf) = some (s', rBroadcast env.N .ready (marshal (⟨h, m'⟩ : PRBCReady)) ++ rBroadcast env.N .ready (marshal (⟨h, m⟩ : PRBCReady))) := by
  have hsz := ok.size
  have hfst : (l.map fun i => (i, ([] : Bytes))).map Prod.fst = l := by
    rw [List.map_map]; exact (List.map_congr_left (fun a _ => rfl)).trans (List.map_id _)
  obtain ⟨s1, h1, h2, h3, h4, h5, h6, h7, h8, h9⟩ := run_readys_early (env := env) (s := RState.init) rfl rfl rfl rfl (fun _ => rfl) (fun _ => rfl) 1 (h := h) (l.map fun i => (i, ([] : Bytes)))
    (by simp [hl]) (by rw [hfst]; exact hnd) (fun _ => rd) (by
      intro x hx
      obtain ⟨i, _, rfl⟩ := List.mem_map.1 hx
      exact hrd)
  have hns : s1.seen z = false := by
    cases hc : s1.seen z with
    | false => rfl
    | true => exact absurd ((h8 z).1 hc) (by rw [hfst]; exact hz)
  -- the Ready number F + 1
  have hA : ∃ s2, runParty env s1 [.ready z rd, .readyStep] = some (s2, []) ∧ s2.dead = false ∧ s2.echo = s1.echo ∧ s2.echoPos = .running ∧ s2.readySent = false ∧ s2.readyChan = [] ∧ s2.readyPos = .wait h := by
    have hlT : env.F + 1 ≤ (s1.T h ++ [(z, ([] : Bytes))]).length := by rw [h7]; simp [hl]
    have h6' : s1.readyChan = [] := h6
    by_cases hm : s1.maxN < (s1.T h ++ [(z, ([] : Bytes))]).length
    · have g1 : rbcStep env s1 (.ready z rd) = some ({ s1 with
          seen := fun j' => if j' = z then true else s1.seen j'
          T := fun h' => if h' = h then s1.T h ++ [(z, [])] else s1.T h'
          readyPos := .check h
          maxN := (s1.T h ++ [(z, ([] : Bytes))]).length
          maxH := h }, []) := by
        simp only [rbcStep, h2, h9, hrd, onReady, hns, Bool.false_eq_true, if_false, if_true]; rw [if_pos hm]
      refine ⟨{ s1 with
          seen := fun j' => if j' = z then true else s1.seen j'
          T := fun h' => if h' = h then s1.T h ++ [(z, [])] else s1.T h'
          readyPos := .wait h
          maxN := (s1.T h ++ [(z, ([] : Bytes))]).length
          maxH := h }, ?_, h2, rfl, h4, h5, h6', rfl⟩
      simp only [runParty, g1]
      simp only [rbcStep, h2, onReadyStep, h4, h5, Bool.false_eq_true, if_false, if_true, hlT, and_self, Option.map_some, List.append_nil]
    · have g1 : rbcStep env s1 (.ready z rd) = some ({ s1 with
          seen := fun j' => if j' = z then true else s1.seen j'
          T := fun h' => if h' = h then s1.T h ++ [(z, [])] else s1.T h'
          readyPos := .check h }, []) := by
        simp only [rbcStep, h2, h9, hrd, onReady, hns, Bool.false_eq_true, if_false, if_true]; rw [if_neg hm]
      refine ⟨{ s1 with
          seen := fun j' => if j' = z then true else s1.seen j'
          T := fun h' => if h' = h then s1.T h ++ [(z, [])] else s1.T h'
          readyPos := .wait h }, ?_, h2, rfl, h4, h5, h6', rfl⟩
      simp only [runParty, g1]
      simp only [rbcStep, h2, onReadyStep, h4, h5, Bool.false_eq_true, if_false, if_true, hlT, and_self, Option.map_some, List.append_nil]
  obtain ⟨s2, g1, g2, g3, g4, g5, g6, g7⟩ := hA
  have z0 : ∀ a b, s2.echo a b = 0 := by intro a b; rw [g3, h3]; rfl
  -- F + 1 Echoes of (h, m)
  have hB := run_echoes_gen (env := env) g2 g4 g5 (z0 h m) hed (env.F + 1) (by omega) (by rw [g6]; simp; omega)
  rw [g6, show env.F + 1 - env.F = 1 by omega, List.nil_append, List.replicate_one] at hB
  -- the Ready goroutine takes it
  have hC : runParty env { s2 with
      echo := fun h' m'' => if h' = h ∧ m'' = m then env.F + 1 else s2.echo h' m''
      readyChan := [(h, m)] } [.readyStep, .readyStep] = some ({ s2 with
      echo := fun h' m'' => if h' = h ∧ m'' = m then env.F + 1 else s2.echo h' m''
      readyChan := []
      readyPos := .send h m }, []) := by
    simp only [runParty, rbcStep, g2, onReadyStep, g7, g4, Bool.false_eq_true, if_false, if_true, and_self, le_refl, Option.map_some, List.append_nil]
  -- a quorum of Echoes of (h, m')
  obtain ⟨s5, k1, k2, k3, k4⟩ := run_quorum_gen (env := env) ok (s := { s2 with
      echo := fun h' m'' => if h' = h ∧ m'' = m then env.F + 1 else s2.echo h' m''
      readyChan := []
      readyPos := .send h m }) g2 g4 g5 (h := h) (m := m') (d := ed') (by simp only [true_and, if_neg (Ne.symm hne)]; exact z0 _ _) hed' (by simp only [List.length_nil]; omega)
  have hE : runParty env s5 [.readyStep] = some ({ s5 with readySent := true, readyPos := .fin h }, rBroadcast env.N .ready (marshal (⟨h, m⟩ : PRBCReady))) := by
    simp only [runParty, rbcStep, k2, onReadyStep, k4, k3, Bool.false_eq_true, if_false, Option.map_some, List.append_nil]
  have all := runParty_append (runParty_append (runParty_append (runParty_append (runParty_append h1 g1) hB) hC) k1) hE
  refine ⟨{ s5 with readySent := true, readyPos := .fin h }, ?_⟩
  simp only [twiceEvents, List.map_append, List.map_replicate, List.map_cons, List.map_nil, evOf, deliverEvent] at all ⊢
  simpa only [List.nil_append] using all

theorem echo_size' {h m : Bytes} (hh : h.length < 2 ^ 29) (hm : m.length < 2 ^ 29) : (marshal (⟨h, m⟩ : PRBCEcho)).length < 2 ^ 32 := by
  show (encFields (putBytes 1 h ++ putBytes 2 m)).length < _
  rw [encFields_append, List.length_append]
  have h1 := size_putBytes 1 (by norm_num) h
  have h2 := size_putBytes 2 (by norm_num) m
  omega

theorem ready_size' {h m : Bytes} (hh : h.length < 2 ^ 29) (hm : m.length < 2 ^ 29) : (marshal (⟨h, m⟩ : PRBCReady)).length < 2 ^ 32 := by
  show (encFields (putBytes 1 h ++ putBytes 2 m)).length < _
  rw [encFields_append, List.length_append]
  have h1 := size_putBytes 1 (by norm_num) h
  have h2 := size_putBytes 2 (by norm_num) m
  omega

theorem sentTo_rBroadcast {N j : ℕ} (hj : j < N) (s : ℕ) (k : RKind) (d : Bytes) : sentTo ((rBroadcast N k d).map fun o => (s, o)) s j k = [d] := by
  have h1 : d ∈ sentTo ((rBroadcast N k d).map fun o => (s, o)) s j k := by
    simp only [sentTo, List.mem_filterMap]
    exact ⟨(s, ⟨j, k, d⟩), List.mem_map.2 ⟨_, List.mem_map.2 ⟨j, List.mem_range.2 hj, rfl⟩, rfl⟩, by simp⟩
  obtain ⟨h2, h3⟩ := sentTo_range N s j k k (fun _ => d)
  change (sentTo ((rBroadcast N k d).map fun o => (s, o)) s j k).length ≤ 1 at h2
  match hl : sentTo ((rBroadcast N k d).map fun o => (s, o)) s j k with
  | [] => rw [hl] at h1; cases h1
  | [x] => rw [hl] at h1; rw [List.mem_singleton.1 h1]
  | x :: y :: t => rw [hl] at h2; simp at h2

/-- The parties `2, …, F + 2`. -/
def helpers (F : ℕ) : List ℕ := (List.range (F + 1)).map (· + 2)

theorem helpers_nodup (F : ℕ) : (helpers F).Nodup := List.nodup_range.map (fun a b h => by simpa using h)

theorem mem_helpers {F i : ℕ} : i ∈ helpers F ↔ 2 ≤ i ∧ i ≤ F + 2 := by
  simp only [helpers, List.mem_map, List.mem_range]
  constructor
  · rintro ⟨a, h1, rfl⟩; omega
  · rintro ⟨h1, h2⟩; exact ⟨i - 2, by omega, by omega⟩

theorem helpers_eq (F : ℕ) : helpers F = (List.range F).map (· + 2) ++ [F + 2] := by
  simp [helpers, List.range_succ]

/-- The whole execution. -/
theorem run_two_readys {env : REnv} (ok : env.Ok) (hF : 1 ≤ env.F) {h m m' : Bytes} (hh : h.length < 2 ^ 29) (hm : m.length < 2 ^ 29) (hm' : m'.length < 2 ^ 29) (hne : m ≠ m') :
    ∃ net, NRun env (othersSet env.N) RNet.init
      ((helpers env.F).flatMap (fun j => List.replicate (env.N - env.F) (.deliver j .echo 0 (marshal (⟨h, []⟩ : PRBCEcho)))) ++
        twiceEvents env ((List.range env.F).map (· + 2)) (env.F + 2) (marshal (⟨h, []⟩ : PRBCReady)) (marshal (⟨h, m⟩ : PRBCEcho)) (marshal (⟨h, m'⟩ : PRBCEcho))) net ∧
      ∀ j < env.N, sentTo net.sent 1 j .ready = [marshal (⟨h, m'⟩ : PRBCReady), marshal (⟨h, m⟩ : PRBCReady)] := by
  have hsz := ok.size
  have h0 : (0 : ℕ) ∉ othersSet env.N := fun h => absurd (mem_others.1 (mem_othersSet.1 h)).1 (by omega)
  have hmem : ∀ j ∈ helpers env.F, j ∈ othersSet env.N := fun j hj => mem_othersSet.2 (mem_others.2 (by have := mem_helpers.1 hj; omega))
  have hparty : ∀ j ∈ helpers env.F, ∃ s', runParty env (RNet.init.party j) ((List.replicate (env.N - env.F) (NEvent.deliver j .echo 0 (marshal (⟨h, []⟩ : PRBCEcho)))).map evOf) =
      some (s', rBroadcast env.N .ready (marshal (⟨h, []⟩ : PRBCReady))) := by
    intro j _
    rw [List.map_replicate]
    obtain ⟨s', h1, _⟩ := run_echoes ok fresh_init (echoPayload_marshal h [] (by omega) (by simp))
    exact ⟨s', h1⟩
  choose! st hst using hparty
  obtain ⟨n1, g1, _, g3, g4⟩ := (NRun.nil (env := env) (H := othersSet env.N) (net₀ := RNet.init)).phase (helpers env.F) hmem (helpers_nodup _) _ st _ hst (by
    intro j hj e he
    obtain ⟨_, rfl⟩ := List.mem_replicate.1 he
    exact ⟨rfl, by omega, echo_size' hh (by simp), fun hc => absurd hc h0⟩)
  have hsent : ∀ i ∈ helpers env.F, (i, (⟨1, .ready, marshal (⟨h, []⟩ : PRBCReady)⟩ : ROut)) ∈ n1.sent := by
    intro i hi
    rw [g4]
    exact List.mem_append_right _ (List.mem_flatMap.2 ⟨i, hi, List.mem_map.2 ⟨_, List.mem_map.2 ⟨1, List.mem_range.2 (by omega), rfl⟩, rfl⟩⟩)
  obtain ⟨s', k1⟩ := run_twice ok hF hne (readyPayload_marshal h [] (by omega) (by simp)) (echoPayload_marshal h m (by omega) (by omega)) (echoPayload_marshal h m' (by omega) (by omega))
    ((List.range env.F).map (· + 2)) (env.F + 2) (by simp) (List.nodup_range.map (fun a b h => by simpa using h)) (by simp)
  have hp1 : n1.party 1 = RState.init := by rw [g3 1 (fun hc => by have := mem_helpers.1 hc; omega)]; rfl
  obtain ⟨n2, q1, _, _, q4⟩ := g1.lift (j := 1) (mem_othersSet.2 (mem_others.2 ⟨by omega, by omega⟩)) (by rw [hp1]; exact k1) (by
    intro e he
    simp only [twiceEvents, List.mem_append, List.mem_flatMap, List.mem_map, List.mem_cons, List.not_mem_nil, or_false, List.mem_replicate, readyEvents] at he
    rcases he with ((((⟨x, ⟨i, ⟨a, ha, rfl⟩, rfl⟩, h'⟩ | (h' | h')) | ⟨_, h'⟩) | (h' | h')) | ⟨_, h'⟩) | h'
    · have ha' := List.mem_range.1 ha
      rcases h' with rfl | rfl | rfl
      · exact ⟨rfl, by simp only; omega, ready_size' hh (by simp), fun _ => hsent _ (mem_helpers.2 ⟨by simp, by simp; omega⟩)⟩
      · exact ⟨rfl, rfl⟩
      · exact ⟨rfl, rfl⟩
    · subst h'
      exact ⟨rfl, by omega, ready_size' hh (by simp), fun _ => hsent _ (mem_helpers.2 ⟨by omega, by omega⟩)⟩
    · subst h'; exact ⟨rfl, rfl⟩
    · subst h'; exact ⟨rfl, by omega, echo_size' hh hm, fun hc => absurd hc h0⟩
    · subst h'; exact ⟨rfl, rfl⟩
    · subst h'; exact ⟨rfl, rfl⟩
    · subst h'; exact ⟨rfl, by omega, echo_size' hh hm', fun hc => absurd hc h0⟩
    · subst h'; exact ⟨rfl, rfl⟩)
  refine ⟨n2, by simpa using q1, fun j hj => ?_⟩
  have hn1 : sentTo n1.sent 1 j .ready = [] := by
    rw [g4]
    simp only [RNet.init, List.nil_append, sentTo, List.filterMap_eq_nil_iff, List.mem_flatMap, List.mem_map]
    rintro _ ⟨i, hi, o, _, rfl⟩
    rw [if_neg]
    rintro ⟨hc, _⟩
    have := mem_helpers.1 hi
    simp only at hc
    omega
  rw [q4, sentTo_append, hn1, List.map_append, sentTo_append, sentTo_rBroadcast hj, sentTo_rBroadcast hj]
  rfl

end DyCAPS
