import Verif.Lemmas.RBCTwoReady

/-!
# Reliable broadcast: a party sends the same Ready twice although everybody follows the protocol, for every committee size
-/

namespace DyCAPS

/-- What party `p` takes: Readys of the parties `0, …, F`, the Echoes of the parties `0, …, F`, and those of the parties `F + 1, …, N - F - 1`. -/
def againEvents (env : REnv) (p : ℕ) (rd : ℕ → Bytes) (ed : Bytes) : List NEvent :=
  ((List.range env.F).flatMap fun i => readyEvents p i (rd i)) ++ [.deliver p .ready env.F (rd env.F), .run p .readyStep] ++
    (List.range (env.F + 1)).map (fun s => .deliver p .echo s ed) ++ [.run p .readyStep, .run p .readyStep] ++
    (List.range (env.N - env.F - (env.F + 1))).map (fun s => .deliver p .echo (s + (env.F + 1)) ed) ++ [.run p .readyStep]

theorem echoes_more {env : REnv} {s : RState} (hal : s.dead = false) (hpos : s.echoPos = .running) (hrs : s.readySent = false) {h m d : Bytes} (hd : echoPayload d = ⟨h, m⟩) (hF : env.F ≤ s.echo h m)
    (k : ℕ) (hk : s.echo h m + k < env.N - env.F) (hlen : s.readyChan.length + k ≤ env.N) :
    runParty env s (List.replicate k (.echo d)) = some ({ s with
      echo := fun h' m' => if h' = h ∧ m' = m then s.echo h m + k else s.echo h' m'
      readyChan := s.readyChan ++ List.replicate k (h, m) }, []) := by
  induction k with
  | zero =>
    have e : (fun h' m' => if h' = h ∧ m' = m then s.echo h m + 0 else s.echo h' m') = s.echo := by
      funext h' m'
      by_cases hc : h' = h ∧ m' = m
      · rw [if_pos hc, hc.1, hc.2]; rfl
      · rw [if_neg hc]
    rw [e]
    simp [runParty]
  | succ k ih =>
    rw [List.replicate_succ']
    refine (runParty_append (o2 := []) (ih (by omega) (by omega)) (?_ : _ = some (_, [])))
    have hq : decide (env.N - env.F ≤ s.echo h m + k + 1) = false := decide_eq_false (by omega)
    have hF' : env.F + 1 ≤ s.echo h m + k + 1 := by omega
    have ee : (fun h' m' => if h' = h ∧ m' = m then s.echo h m + k + 1 else if h' = h ∧ m' = m then s.echo h m + k else s.echo h' m') =
        fun h' m' => if h' = h ∧ m' = m then s.echo h m + (k + 1) else s.echo h' m' := by
      funext h' m'
      split <;> simp_all [Nat.add_assoc]
    have e2 : List.replicate (k + 1) (h, m) = List.replicate k (h, m) ++ [(h, m)] := List.replicate_succ'
    have hl : (s.readyChan ++ List.replicate k (h, m)).length < env.N := by
      rw [List.length_append, List.length_replicate]; omega
    simp only [runParty, rbcStep, hal, hpos, hd, onEcho, hrs, hq, hF', hl, and_self, Bool.false_eq_true, if_false, if_true, Bool.not_false, Bool.and_false,
      Bool.or_false, Option.map_some, List.append_nil, ee, e2, List.append_assoc]

theorem run_again {env : REnv} (ok : env.Ok) (hF : 1 ≤ env.F) {s : RState} (hf : FreshR s) {h m ed : Bytes} {rd ms : ℕ → Bytes} (hrd : ∀ i ≤ env.F, readyPayload (rd i) = ⟨h, ms i⟩)
    (hed : echoPayload ed = ⟨h, m⟩) (p : ℕ) :
    ∃ s', runParty env s ((againEvents env p rd ed).map evOf) = some (s', rBroadcast env.N .ready (marshal (⟨h, m⟩ : PRBCReady)) ++ rBroadcast env.N .ready (marshal (⟨h, m⟩ : PRBCReady))) := by
  have hsz := ok.size
  obtain ⟨s1, h1, h2, h3, h4, h5, h6, h7, h8, h9⟩ := run_readys_early (env := env) hf.alive hf.pos hf.rs hf.rpos hf.T hf.seen p (h := h) ((List.range env.F).map fun i => (i, ms i))
    (by simp) (by simp [Function.comp_def, List.nodup_range]) (fun x => rd x.1) (by
      intro x hx
      obtain ⟨i, hi, rfl⟩ := List.mem_map.1 hx
      exact hrd i (by have := List.mem_range.1 hi; omega))
  have hns : s1.seen env.F = false := by
    cases hc : s1.seen env.F with
    | false => rfl
    | true =>
      have := (h8 env.F).1 hc
      simp [Function.comp_def] at this
  have hrdF := hrd env.F le_rfl
  have hA : ∃ s2, runParty env s1 [.ready env.F (rd env.F), .readyStep] = some (s2, []) ∧ s2.dead = false ∧ s2.echo = s1.echo ∧ s2.echoPos = .running ∧ s2.readySent = false ∧ s2.readyChan = [] ∧
      s2.readyPos = .wait h := by
    have hlT : env.F + 1 ≤ (s1.T h ++ [(env.F, ms env.F)]).length := by rw [h7]; simp
    have h6' : s1.readyChan = [] := h6.trans hf.chan
    by_cases hm : s1.maxN < (s1.T h ++ [(env.F, ms env.F)]).length
    · have g1 : rbcStep env s1 (.ready env.F (rd env.F)) = some ({ s1 with
          seen := fun j' => if j' = env.F then true else s1.seen j'
          T := fun h' => if h' = h then s1.T h ++ [(env.F, ms env.F)] else s1.T h'
          readyPos := .check h
          maxN := (s1.T h ++ [(env.F, ms env.F)]).length
          maxH := h }, []) := by
        simp only [rbcStep, h2, h9, hrdF, onReady, hns, Bool.false_eq_true, if_false, if_true]; rw [if_pos hm]
      refine ⟨{ s1 with
          seen := fun j' => if j' = env.F then true else s1.seen j'
          T := fun h' => if h' = h then s1.T h ++ [(env.F, ms env.F)] else s1.T h'
          readyPos := .wait h
          maxN := (s1.T h ++ [(env.F, ms env.F)]).length
          maxH := h }, ?_, h2, rfl, h4, h5, h6', rfl⟩
      simp only [runParty, g1]
      simp only [rbcStep, h2, onReadyStep, h4, h5, Bool.false_eq_true, if_false, if_true, hlT, and_self, Option.map_some, List.append_nil]
    · have g1 : rbcStep env s1 (.ready env.F (rd env.F)) = some ({ s1 with
          seen := fun j' => if j' = env.F then true else s1.seen j'
          T := fun h' => if h' = h then s1.T h ++ [(env.F, ms env.F)] else s1.T h'
          readyPos := .check h }, []) := by
        simp only [rbcStep, h2, h9, hrdF, onReady, hns, Bool.false_eq_true, if_false, if_true]; rw [if_neg hm]
      refine ⟨{ s1 with
          seen := fun j' => if j' = env.F then true else s1.seen j'
          T := fun h' => if h' = h then s1.T h ++ [(env.F, ms env.F)] else s1.T h'
          readyPos := .wait h }, ?_, h2, rfl, h4, h5, h6', rfl⟩
      simp only [runParty, g1]
      simp only [rbcStep, h2, onReadyStep, h4, h5, Bool.false_eq_true, if_false, if_true, hlT, and_self, Option.map_some, List.append_nil]
  obtain ⟨s2, g1, g2, g3, g4, g5, g6, g7⟩ := hA
  have z0 : ∀ a b, s2.echo a b = 0 := by intro a b; rw [g3, h3, hf.echo]
  -- F + 1 Echoes
  have hB := run_echoes_gen (env := env) g2 g4 g5 (z0 h m) hed (env.F + 1) (by omega) (by rw [g6]; simp; omega)
  rw [g6, show env.F + 1 - env.F = 1 by omega, List.nil_append, List.replicate_one] at hB
  -- the Ready goroutine takes it
  have hC : runParty env { s2 with
      echo := fun h' m'' => if h' = h ∧ m'' = m then env.F + 1 else s2.echo h' m''
      readyChan := [(h, m)] } [.readyStep, .readyStep] = some ({ s2 with
      echo := fun h' m'' => if h' = h ∧ m'' = m then env.F + 1 else s2.echo h' m''
      readyChan := []
      readyPos := .send h m }, []) := by
    simp only [runParty, rbcStep, g2, onReadyStep, g7, g4, Bool.false_eq_true, if_false, if_true, and_self, le_refl, Option.map_some, List.append_nil]
  -- the remaining Echoes but one
  have hD := echoes_more (env := env) (s := { s2 with
      echo := fun h' m'' => if h' = h ∧ m'' = m then env.F + 1 else s2.echo h' m''
      readyChan := []
      readyPos := .send h m }) g2 g4 g5 hed (by simp) (env.N - env.F - (env.F + 1) - 1) (by simp; omega) (by simp; omega)
  simp only [and_self, if_true, List.nil_append] at hD
  -- the last one
  obtain ⟨s5, k1, k2, k3, k4⟩ := echo_last (env := env) (s := { s2 with
      echo := fun h' m'' => if h' = h ∧ m'' = m then env.F + 1 + (env.N - env.F - (env.F + 1) - 1) else if h' = h ∧ m'' = m then env.F + 1 else s2.echo h' m''
      readyChan := List.replicate (env.N - env.F - (env.F + 1) - 1) (h, m)
      readyPos := .send h m }) g2 g4 g5 (h := h) (m := m) (d := ed) (by simp only [and_self, if_true]; omega) (by simp only [and_self, if_true]; omega) hed (by simp; omega)
  have hE : runParty env s5 [.readyStep] = some ({ s5 with readySent := true, readyPos := .fin h }, rBroadcast env.N .ready (marshal (⟨h, m⟩ : PRBCReady))) := by
    simp only [runParty, rbcStep, k2, onReadyStep, k4, k3, Bool.false_eq_true, if_false, Option.map_some, List.append_nil]
  have all := runParty_append (runParty_append (runParty_append (runParty_append (runParty_append (runParty_append h1 g1) hB) hC) hD) k1) hE
  refine ⟨{ s5 with readySent := true, readyPos := .fin h }, ?_⟩
  have e1 : ((List.range (env.F + 1)).map fun s => NEvent.deliver p .echo s ed).map evOf = List.replicate (env.F + 1) (.echo ed) := by
    rw [List.map_map]; exact List.eq_replicate_iff.2 ⟨by simp, by simp [evOf, deliverEvent]⟩
  have e2 : ((List.range (env.N - env.F - (env.F + 1))).map fun s => NEvent.deliver p .echo (s + (env.F + 1)) ed).map evOf =
      List.replicate (env.N - env.F - (env.F + 1) - 1) (.echo ed) ++ [.echo ed] := by
    rw [← List.replicate_succ', List.map_map]; exact List.eq_replicate_iff.2 ⟨by simp; omega, by simp [evOf, deliverEvent]⟩
  have e3 : ((List.range env.F).map fun i => (i, ms i)).flatMap (fun x => readyEvents p x.1 (rd x.1)) = (List.range env.F).flatMap fun i => readyEvents p i (rd i) := by
    rw [List.flatMap_map]
  rw [e3] at all
  rw [againEvents, List.map_append, List.map_append, List.map_append, List.map_append, List.map_append, e1, e2]
  simp only [List.map_cons, List.map_nil, evOf, deliverEvent, List.append_assoc, List.nil_append] at all ⊢
  exact all

/-- Everybody takes the proposal of party 0. -/
def takeAll (N : ℕ) (D : Bytes) : List NEvent := (List.range N).flatMap fun j => [.deliver j .propose 0 D]

/-- The parties `0, …, F` take the Echoes of the parties `0, …, N - F - 1`. -/
def helperEchoes (env : REnv) (ed : ℕ → Bytes) : List NEvent :=
  (List.range (env.F + 1)).flatMap fun j => (List.range (env.N - env.F)).map fun s => .deliver j .echo s (ed j)

/-- The whole execution: party 0 broadcasts, nobody is corrupt, and party `N - 1` sends its Ready twice. -/
theorem run_ready_again {env : REnv} (ok : env.Ok) (hF : 1 ≤ env.F) (M : PMessage) (hD : (marshal M).length < 2 ^ 29) (hne : marshal M ≠ []) :
    ∃ (rd ed : ℕ → Bytes) (net : RNet), NRun env (Finset.range env.N) RNet.init
      (([.send 0 M] ++ takeAll env.N (marshal M)) ++ helperEchoes env ed ++ againEvents env (env.N - 1) rd (ed (env.N - 1))) net ∧
      ∀ j < env.N, sentTo net.sent (env.N - 1) j .ready = [rd (env.N - 1), rd (env.N - 1)] := by
  have hsz := ok.size
  obtain ⟨sh, he⟩ : ∃ sh, env.rs.encode (marshal M) = some sh := by
    cases h : env.rs.encode (marshal M) with
    | none => exact absurd ((ok.encode_none _).1 h) hne
    | some sh => exact ⟨sh, rfl⟩
  generalize hDD : marshal M = D at *
  let ed : ℕ → Bytes := fun j => marshal (⟨echoHash env D, sh.getD j []⟩ : PRBCEcho)
  let rd : ℕ → Bytes := fun j => marshal (⟨echoHash env D, sh.getD j []⟩ : PRBCReady)
  have hedp : ∀ j, echoPayload (ed j) = ⟨echoHash env D, sh.getD j []⟩ := fun j => echo_decode ok (by omega) he j
  have hrdp : ∀ j, readyPayload (rd j) = ⟨echoHash env D, sh.getD j []⟩ := fun j => ready_decode ok (by omega) (shard_le ok he j)
  have hlt : ∀ j ∈ List.range env.N, j ∈ Finset.range env.N := fun j hj => Finset.mem_range.2 (List.mem_range.1 hj)
  obtain ⟨n1, h1, h2, h3⟩ := run_send (env := env) (H := Finset.range env.N) (b := 0) (Finset.mem_range.2 (by omega)) M
  rw [hDD] at h3
  obtain ⟨n2, g1, g2, _, g4⟩ := h1.phase (List.range env.N) hlt List.nodup_range (fun j => [NEvent.deliver j .propose 0 D])
    (fun _ => { RState.init with proposed := true })
    (fun _ => (List.range env.N).map fun j => (⟨j, .echo, ed j⟩ : ROut))
    (by
      intro j _
      rw [h2 j]
      simp only [List.map_cons, List.map_nil, evOf, deliverEvent, runParty, rbcStep, RState.init, he, Bool.false_eq_true, if_false, Option.map_some, List.append_nil, ed])
    (by
      intro j hj e he'
      rw [List.mem_singleton.1 he']
      refine ⟨rfl, by omega, by omega, fun _ => ?_⟩
      rw [h3]
      exact List.mem_map.2 ⟨_, List.mem_map.2 ⟨j, hj, rfl⟩, rfl⟩)
  have hfresh : FreshR { RState.init with proposed := true } := ⟨rfl, fun _ _ => rfl, rfl, fun _ => rfl, rfl, rfl, rfl, rfl, fun _ => rfl, rfl, rfl⟩
  have hecho : ∀ s < env.N, ∀ j < env.N, (s, (⟨j, .echo, ed j⟩ : ROut)) ∈ n2.sent := by
    intro s hs j hj
    rw [g4]
    exact List.mem_append_right _ (List.mem_flatMap.2 ⟨s, List.mem_range.2 hs, List.mem_map.2 ⟨_, List.mem_map.2 ⟨j, List.mem_range.2 hj, rfl⟩, rfl⟩⟩)
  have hesz : ∀ j, (ed j).length < 2 ^ 32 := fun j => echo_size ok (by omega) (shard_le ok he j)
  have hparty : ∀ j ∈ List.range (env.F + 1), ∃ s', runParty env (n2.party j) (((List.range (env.N - env.F)).map fun s => NEvent.deliver j .echo s (ed j)).map evOf) =
      some (s', rBroadcast env.N .ready (rd j)) := by
    intro j hj
    have hj' := List.mem_range.1 hj
    rw [g2 j (List.mem_range.2 (by omega)), show ((List.range (env.N - env.F)).map fun s => NEvent.deliver j .echo s (ed j)).map evOf = List.replicate (env.N - env.F) (.echo (ed j)) from by
      rw [List.map_map]; exact List.eq_replicate_iff.2 ⟨by simp, by simp [evOf, deliverEvent]⟩]
    obtain ⟨s', h1, _⟩ := run_echoes ok hfresh (hedp j)
    exact ⟨s', h1⟩
  choose! st hst using hparty
  obtain ⟨n3, k1, _, k3, k4⟩ := g1.phase (List.range (env.F + 1)) (fun j hj => hlt j (List.mem_range.2 (by have := List.mem_range.1 hj; omega))) List.nodup_range _ st _ hst (by
    intro j hj e he'
    have hj' := List.mem_range.1 hj
    obtain ⟨s, hs, rfl⟩ := List.mem_map.1 he'
    have hs' := List.mem_range.1 hs
    exact ⟨rfl, by omega, hesz j, fun _ => hecho s (by omega) j (by omega)⟩)
  have hready : ∀ i ≤ env.F, (i, (⟨env.N - 1, .ready, rd i⟩ : ROut)) ∈ n3.sent := by
    intro i hi
    rw [k4]
    exact List.mem_append_right _ (List.mem_flatMap.2 ⟨i, List.mem_range.2 (by omega), List.mem_map.2 ⟨_, List.mem_map.2 ⟨env.N - 1, List.mem_range.2 (by omega), rfl⟩, rfl⟩⟩)
  have hecho3 : ∀ s < env.N, (s, (⟨env.N - 1, .echo, ed (env.N - 1)⟩ : ROut)) ∈ n3.sent := by
    intro s hs
    rw [k4]
    exact List.mem_append_left _ (hecho s hs _ (by omega))
  have hrsz : ∀ j, (rd j).length < 2 ^ 32 := fun j => ready_size' (by rw [echoHash_length ok]; norm_num) (by have := shard_le ok he j; omega)
  obtain ⟨s', q⟩ := run_again ok hF hfresh (fun i _ => hrdp i) (hedp (env.N - 1)) (env.N - 1)
  have hp : n3.party (env.N - 1) = { RState.init with proposed := true } := by
    rw [k3 _ (by simp; omega), g2 _ (List.mem_range.2 (by omega))]
  obtain ⟨n4, q1, _, _, q4⟩ := k1.lift (j := env.N - 1) (Finset.mem_range.2 (by omega)) (by rw [hp]; exact q) (by
    intro e he'
    simp only [againEvents, List.mem_append, List.mem_flatMap, List.mem_map, List.mem_cons, List.not_mem_nil, or_false, List.mem_range, readyEvents] at he'
    rcases he' with ((((⟨i, hi, h'⟩ | (h' | h')) | ⟨i, hi, h'⟩) | (h' | h')) | ⟨i, hi, h'⟩) | h'
    · rcases h' with rfl | rfl | rfl
      · exact ⟨rfl, by omega, hrsz i, fun _ => hready i (by omega)⟩
      · exact ⟨rfl, rfl⟩
      · exact ⟨rfl, rfl⟩
    · subst h'; exact ⟨rfl, by omega, hrsz _, fun _ => hready _ le_rfl⟩
    · subst h'; exact ⟨rfl, rfl⟩
    · subst h'; exact ⟨rfl, by omega, hesz _, fun _ => hecho3 i (by omega)⟩
    · subst h'; exact ⟨rfl, rfl⟩
    · subst h'; exact ⟨rfl, rfl⟩
    · subst h'; exact ⟨rfl, by omega, hesz _, fun _ => hecho3 _ (by omega)⟩
    · subst h'; exact ⟨rfl, rfl⟩)
  refine ⟨rd, ed, n4, q1, fun j hj => ?_⟩
  have hn3 : sentTo n3.sent (env.N - 1) j .ready = [] := by
    rw [k4, g4, h3]
    simp only [sentTo, List.filterMap_eq_nil_iff, List.mem_append, List.mem_flatMap, List.mem_map, rBroadcast, List.mem_range]
    rintro x ((⟨o, ⟨i, _, rfl⟩, rfl⟩ | ⟨i, _, o, ⟨i', _, rfl⟩, rfl⟩) | ⟨i, hi, o, _, rfl⟩)
    · simp
    · simp
    · rw [if_neg]
      rintro ⟨hc, _⟩
      simp only at hc
      omega
  rw [q4, sentTo_append, hn3, List.map_append, sentTo_append, sentTo_rBroadcast hj]
  rfl

/-- Receiver, kind and sender of a delivered message. -/
def deliveryKey : NEvent → Option (ℕ × RKind × ℕ)
  | .deliver j k s _ => some (j, k, s)
  | .send _ _ => none
  | .sendExcl _ _ _ => none
  | .run _ _ => none

theorem again_keys (env : REnv) (hsz : 3 * env.F + 1 ≤ env.N) (hF : 1 ≤ env.F) (M : PMessage) (rd ed : ℕ → Bytes) :
    ((([NEvent.send 0 M] ++ takeAll env.N (marshal M)) ++ helperEchoes env ed ++ againEvents env (env.N - 1) rd (ed (env.N - 1))).filterMap deliveryKey).Nodup := by
  have e1 : (takeAll env.N (marshal M)).filterMap deliveryKey = (List.range env.N).map fun j => (j, RKind.propose, 0) := by
    rw [takeAll]
    induction List.range env.N with
    | nil => rfl
    | cons a l ih => rw [List.flatMap_cons, List.filterMap_append, ih]; rfl
  have e2 : (helperEchoes env ed).filterMap deliveryKey = (List.range (env.F + 1)).flatMap fun j => (List.range (env.N - env.F)).map fun s => (j, RKind.echo, s) := by
    rw [helperEchoes]
    induction List.range (env.F + 1) with
    | nil => rfl
    | cons a l ih =>
      rw [List.flatMap_cons, List.filterMap_append, ih, List.filterMap_map, List.flatMap_cons]
      congr 1
      rw [← List.filterMap_eq_map]; rfl
  have e3 : ∀ l : List ℕ, (l.flatMap fun i => readyEvents (env.N - 1) i (rd i)).filterMap deliveryKey = l.map fun i => (env.N - 1, RKind.ready, i) := by
    intro l
    induction l with
    | nil => rfl
    | cons a l ih => rw [List.flatMap_cons, List.filterMap_append, ih]; rfl
  have e4 : (againEvents env (env.N - 1) rd (ed (env.N - 1))).filterMap deliveryKey =
      (List.range (env.F + 1)).map (fun i => (env.N - 1, RKind.ready, i)) ++ ((List.range (env.F + 1)).map (fun s => (env.N - 1, RKind.echo, s)) ++
        (List.range (env.N - env.F - (env.F + 1))).map fun s => (env.N - 1, RKind.echo, s + (env.F + 1))) := by
    have m1 : ∀ (l : List ℕ) (f : ℕ → ℕ), (l.map fun s => NEvent.deliver (env.N - 1) .echo (f s) (ed (env.N - 1))).filterMap deliveryKey = l.map fun s => (env.N - 1, RKind.echo, f s) := by
      intro l f
      rw [List.filterMap_map, ← List.filterMap_eq_map]; rfl
    simp only [againEvents, List.filterMap_append, e3, m1 _ (fun s => s), m1 _ (fun s => s + (env.F + 1))]
    rw [List.range_succ, List.map_append]
    simp [List.filterMap_cons, deliveryKey]
  rw [List.filterMap_append, List.filterMap_append, List.filterMap_append, e1, e2, e4]
  rw [List.nodup_append, List.nodup_append, List.nodup_append]
  refine ⟨⟨⟨by simp [List.filterMap_cons, deliveryKey], List.nodup_range.map (fun a b h => by cases h; rfl), by simp [List.filterMap_cons, deliveryKey]⟩, ?_, ?_⟩, ?_, ?_⟩
  · rw [List.nodup_flatMap]
    refine ⟨fun j _ => List.nodup_range.map (fun a b h => by cases h; rfl), List.nodup_range.imp (fun {a b} hab => ?_)⟩
    intro x hx hy
    obtain ⟨_, _, rfl⟩ := List.mem_map.1 hx
    obtain ⟨_, _, h⟩ := List.mem_map.1 hy
    exact hab (Prod.mk.inj h).1.symm
  · intro a ha b hb hab
    obtain ⟨j, _, hb⟩ := List.mem_flatMap.1 hb
    obtain ⟨_, _, rfl⟩ := List.mem_map.1 hb
    subst hab
    simp [List.filterMap_cons, deliveryKey] at ha
  · rw [List.nodup_append, List.nodup_append]
    refine ⟨List.nodup_range.map (fun a b h => by cases h; rfl), ⟨List.nodup_range.map (fun a b h => by cases h; rfl), List.nodup_range.map (fun a b h => by simpa using h), ?_⟩, ?_⟩
    · intro a ha b hb hab
      obtain ⟨i, hi, rfl⟩ := List.mem_map.1 ha
      obtain ⟨i', _, rfl⟩ := List.mem_map.1 hb
      have := List.mem_range.1 hi
      simp at hab
      omega
    · intro a ha b hb hab
      obtain ⟨i, hi, rfl⟩ := List.mem_map.1 ha
      subst hab
      simp at hb
  · intro a ha b hb hab
    subst hab
    simp only [List.mem_append, List.mem_map, List.mem_range, List.mem_flatMap] at ha hb
    rcases ha with (ha | ⟨_, _, rfl⟩) | ⟨j, hj, _, _, rfl⟩
    · simp [List.filterMap_cons, deliveryKey] at ha
    · simp at hb
    · simp at hb
      omega

end DyCAPS
