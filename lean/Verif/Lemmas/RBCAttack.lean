import Verif.Lemmas.RBCLive

/-!
# Reliable broadcast: building executions
-/

namespace DyCAPS

instance : Inhabited RState := ⟨RState.init⟩

/-- Several steps of one party. -/
def runParty (env : REnv) (s : RState) : List REvent → Option (RState × List ROut)
  | [] => some (s, [])
  | ev :: evs =>
    match rbcStep env s ev with
    | none => none
    | some (s', out) => (runParty env s' evs).map fun (s'', out') => (s'', out ++ out')

theorem runParty_append {env : REnv} {s s1 s2 : RState} {l1 l2 : List REvent} {o1 o2 : List ROut} (h1 : runParty env s l1 = some (s1, o1)) (h2 : runParty env s1 l2 = some (s2, o2)) :
    runParty env s (l1 ++ l2) = some (s2, o1 ++ o2) := by
  induction l1 generalizing s o1 with
  | nil => cases h1; exact h2
  | cons ev l ih =>
    simp only [runParty, List.cons_append] at h1 ⊢
    cases hst : rbcStep env s ev with
    | none => rw [hst] at h1; cases h1
    | some p =>
      obtain ⟨s', out⟩ := p
      rw [hst] at h1
      simp only [Option.map_eq_some_iff, Prod.exists, Prod.mk.injEq] at h1
      obtain ⟨s'', o', h3, rfl, rfl⟩ := h1
      simp only [ih h3, Option.map_some, List.append_assoc]

/-- The step of party `j` behind an event of the network. -/
def evOf : NEvent → REvent
  | .send _ _ => .main
  | .sendExcl _ _ _ => .main
  | .deliver _ k s d => deliverEvent k s d
  | .run _ ev => ev

/-- May party `j` be given this event? -/
def EvGuard (env : REnv) (H : Finset ℕ) (sent : List (ℕ × ROut)) (j : ℕ) : NEvent → Prop
  | .send _ _ => False
  | .sendExcl _ _ _ => False
  | .deliver j' k s d => j' = j ∧ s < env.N ∧ d.length < 2 ^ 32 ∧ (s ∈ H → (s, (⟨j, k, d⟩ : ROut)) ∈ sent)
  | .run j' ev => j' = j ∧ ev.internal = true

theorem EvGuard.mono {env : REnv} {H : Finset ℕ} {s1 s2 : List (ℕ × ROut)} (hs : s1 ⊆ s2) {j : ℕ} {e : NEvent} (h : EvGuard env H s1 j e) : EvGuard env H s2 j e := by
  cases e with
  | send => exact h
  | sendExcl => exact h
  | deliver j' k s d => exact ⟨h.1, h.2.1, h.2.2.1, fun hH => hs (h.2.2.2 hH)⟩
  | run => exact h

theorem NRun.lift {env : REnv} {H : Finset ℕ} {n0 net : RNet} {evs : List NEvent} (hr : NRun env H n0 evs net) {j : ℕ} (hj : j ∈ H) {l : List NEvent} {s' : RState} {out : List ROut}
    (hrun : runParty env (net.party j) (l.map evOf) = some (s', out)) (hg : ∀ e ∈ l, EvGuard env H net.sent j e) :
    ∃ net', NRun env H n0 (evs ++ l) net' ∧ net'.party j = s' ∧ (∀ i, i ≠ j → net'.party i = net.party i) ∧ net'.sent = net.sent ++ out.map fun o => (j, o) := by
  induction l generalizing net evs out with
  | nil =>
    cases hrun
    exact ⟨net, by simpa using hr, rfl, fun _ _ => rfl, by simp⟩
  | cons e l ih =>
    simp only [List.map_cons, runParty] at hrun
    cases hst : rbcStep env (net.party j) (evOf e) with
    | none => rw [hst] at hrun; cases hrun
    | some p =>
      obtain ⟨s1, o1⟩ := p
      rw [hst] at hrun
      simp only [Option.map_eq_some_iff, Prod.exists, Prod.mk.injEq] at hrun
      obtain ⟨s2, o2, h3, rfl, rfl⟩ := hrun
      have hnet : netStep env H net e = some ⟨fun i => if i = j then s1 else net.party i, net.sent ++ o1.map fun o => (j, o)⟩ := by
        have hge := hg e (by simp)
        cases e with
        | send => cases hge
        | sendExcl => cases hge
        | deliver j' k s d =>
          obtain ⟨rfl, h1, h2, h4⟩ := hge
          simp only [netStep, if_pos (show j' ∈ H ∧ s < env.N ∧ d.length < 2 ^ 32 ∧ (s ∈ H → (s, (⟨j', k, d⟩ : ROut)) ∈ net.sent) from ⟨hj, h1, h2, h4⟩), RNet.at_]
          simp only [evOf] at hst
          rw [hst]; rfl
        | run j' ev =>
          obtain ⟨rfl, h1⟩ := hge
          simp only [netStep, if_pos (show j' ∈ H ∧ ev.internal = true from ⟨hj, h1⟩), RNet.at_]
          simp only [evOf] at hst
          rw [hst]; rfl
      obtain ⟨net', h4, h5, h6, h7⟩ := ih (hr.snoc hnet) (by simpa using h3) (fun e' he' => (hg e' (by simp [he'])).mono (List.subset_append_left _ _))
      refine ⟨net', by simpa using h4, h5, fun i hi => ?_, ?_⟩
      · rw [h6 i hi]; simp [hi]
      · rw [h7]; simp

/-- All parties of a list make their steps, one after the other. -/
theorem NRun.phase {env : REnv} {H : Finset ℕ} {n0 net : RNet} {evs : List NEvent} (hr : NRun env H n0 evs net) (L : List ℕ) (hL : ∀ j ∈ L, j ∈ H) (hnd : L.Nodup)
    (l : ℕ → List NEvent) (st : ℕ → RState) (out : ℕ → List ROut) (hrun : ∀ j ∈ L, runParty env (net.party j) ((l j).map evOf) = some (st j, out j))
    (hg : ∀ j ∈ L, ∀ e ∈ l j, EvGuard env H net.sent j e) :
    ∃ net', NRun env H n0 (evs ++ L.flatMap l) net' ∧ (∀ j ∈ L, net'.party j = st j) ∧ (∀ i, i ∉ L → net'.party i = net.party i) ∧
      net'.sent = net.sent ++ L.flatMap fun j => (out j).map fun o => (j, o) := by
  induction L generalizing net evs with
  | nil => exact ⟨net, by simpa using hr, by simp, fun _ _ => rfl, by simp⟩
  | cons j L ih =>
    obtain ⟨n1, h1, h2, h3, h4⟩ := hr.lift (hL j (by simp)) (hrun j (by simp)) (hg j (by simp))
    have hnd' := List.nodup_cons.1 hnd
    obtain ⟨n2, g1, g2, g3, g4⟩ := ih h1 (fun i hi => hL i (by simp [hi])) hnd'.2
      (fun i hi => by
        rw [h3 i (fun h => hnd'.1 (h ▸ hi))]
        exact hrun i (by simp [hi]))
      (fun i hi e he => (hg i (by simp [hi]) e he).mono (by rw [h4]; exact List.subset_append_left _ _))
    refine ⟨n2, by simpa using g1, ?_, ?_, ?_⟩
    · intro i hi
      rcases List.mem_cons.1 hi with rfl | hi
      · rw [g3 i hnd'.1, h2]
      · exact g2 i hi
    · intro i hi
      simp only [List.mem_cons, not_or] at hi
      rw [g3 i hi.2, h3 i hi.1]
    · rw [g4, h4]; simp

/-! ## One party -/

/-- Nothing has happened yet in the Echo and Ready goroutines. -/
structure FreshR (s : RState) : Prop where
  alive : s.dead = false
  echo : ∀ h m, s.echo h m = 0
  pos : s.echoPos = .running
  T : ∀ h, s.T h = []
  maxN : s.maxN = 0
  rs : s.readySent = false
  chan : s.readyChan = []
  dec : s.decStart = false
  seen : ∀ i, s.seen i = false
  rpos : s.readyPos = .idle
  main : s.mainPos = .start

/-- Ready has been sent after Echoes, nothing else happened. -/
structure Echoed' (s : RState) : Prop where
  alive : s.dead = false
  pos : s.echoPos = .done
  T : ∀ h, s.T h = []
  maxN : s.maxN = 0
  rs : s.readySent = true
  dec : s.decStart = false
  seen : ∀ i, s.seen i = false
  rpos : s.readyPos = .idle
  main : s.mainPos = .start

theorem run_echoes_aux {env : REnv} (ok : env.Ok) {s : RState} (hf : FreshR s) {h m d : Bytes} (hd : echoPayload d = ⟨h, m⟩) (k : ℕ) (hk : k < env.N - env.F) :
    ∃ s', runParty env s (List.replicate k (.echo d)) = some (s', []) ∧ s'.dead = false ∧ s'.echo h m = k ∧ s'.echoPos = .running ∧ s'.T = s.T ∧ s'.maxN = s.maxN ∧
      s'.readySent = false ∧ s'.readyChan.length ≤ k ∧ s'.decStart = s.decStart ∧ s'.seen = s.seen ∧ s'.readyPos = s.readyPos ∧ s'.mainPos = s.mainPos := by
  induction k with
  | zero => exact ⟨s, rfl, hf.alive, hf.echo h m, hf.pos, rfl, rfl, hf.rs, by simp [hf.chan], rfl, rfl, rfl, rfl⟩
  | succ k ih =>
    obtain ⟨s', h1, h2, h3, h4, h5, h6, h7, h8, h9, h10, h11, h12⟩ := ih (by omega)
    have hsz := ok.size
    rw [List.replicate_succ']
    have hq : decide (env.N - env.F ≤ k + 1) = false := decide_eq_false (by omega)
    by_cases hF : env.F + 1 ≤ k + 1
    · have hst : runParty env s' [.echo d] = some ({ s' with
          echo := fun h' m' => if h' = h ∧ m' = m then k + 1 else s'.echo h' m'
          readyChan := s'.readyChan ++ [(h, m)] }, []) := by
        simp only [runParty, rbcStep, h2, h4, hd, onEcho, h3, h7, hq, hF, show s'.readyChan.length < env.N by omega, Bool.false_eq_true, if_false, if_true, Bool.not_false, Bool.and_false,
          Bool.or_false, Option.map_some, List.append_nil]
      refine ⟨_, runParty_append h1 hst, h2, by simp, h4, h5, h6, h7, by simp; omega, h9, h10, h11, h12⟩
    · have hst : runParty env s' [.echo d] = some ({ s' with
          echo := fun h' m' => if h' = h ∧ m' = m then k + 1 else s'.echo h' m' }, []) := by
        simp only [runParty, rbcStep, h2, h4, hd, onEcho, h3, h7, hq, hF, Bool.false_eq_true, if_false, if_true, Bool.not_false, Bool.and_false,
          Bool.or_false, Option.map_some, List.append_nil]
      refine ⟨_, runParty_append h1 hst, h2, by simp, h4, h5, h6, h7, by simp only; omega, h9, h10, h11, h12⟩

/-- `N - F` Echoes with the same content, whoever sent them, make a party send Ready. -/
theorem run_echoes {env : REnv} (ok : env.Ok) {s : RState} (hf : FreshR s) {h m d : Bytes} (hd : echoPayload d = ⟨h, m⟩) :
    ∃ s', runParty env s (List.replicate (env.N - env.F) (.echo d)) = some (s', rBroadcast env.N .ready (marshal (⟨h, m⟩ : PRBCReady))) ∧ Echoed' s' := by
  have hsz := ok.size
  obtain ⟨s', h1, h2, h3, h4, h5, h6, h7, h8, h9, h10, h11, h12⟩ := run_echoes_aux ok hf hd (env.N - env.F - 1) (by omega)
  have e : List.replicate (env.N - env.F) (REvent.echo d) = List.replicate (env.N - env.F - 1) (.echo d) ++ [.echo d] := by
    rw [← List.replicate_succ']; congr 1; omega
  have hq : decide (env.N - env.F ≤ env.N - env.F - 1 + 1) = true := decide_eq_true (by omega)
  have hst : runParty env s' [.echo d] = some ({ s' with
      echo := fun h' m' => if h' = h ∧ m' = m then env.N - env.F - 1 + 1 else s'.echo h' m'
      readySent := true
      echoPos := .done
      readyChan := s'.readyChan ++ [(h, m)] }, rBroadcast env.N .ready (marshal (⟨h, m⟩ : PRBCReady))) := by
    simp only [runParty, rbcStep, h2, h4, hd, onEcho, h3, h7, hq, show env.F + 1 ≤ env.N - env.F - 1 + 1 by omega, show s'.readyChan.length < env.N by omega, Bool.false_eq_true, if_false,
      if_true, Bool.not_false, Bool.and_self, Bool.or_true, Option.map_some, List.append_nil]
  rw [e]
  exact ⟨_, runParty_append h1 hst,
    ⟨h2, rfl, fun h => by simp only; rw [h5, hf.T], by simp only; rw [h6, hf.maxN], rfl, by simp only; rw [h9, hf.dec], fun i => by simp only; rw [h10, hf.seen],
      by simp only; rw [h11, hf.rpos], by simp only; rw [h12, hf.main]⟩⟩

/-- The steps a party makes for one Ready once it has sent its own. -/
def readyEvents (j src : ℕ) (d : Bytes) : List NEvent := [.deliver j .ready src d, .run j .readyStep, .run j .readyStep]

/-- Readys with the same hash `h` from different parties, handled by a party that has sent its own. -/
theorem run_readys {env : REnv} (ok : env.Ok) {s : RState} (hf : Echoed' s) (j : ℕ) {h : Bytes} (l : List (ℕ × Bytes)) (hnd : (l.map Prod.fst).Nodup) (d : ℕ × Bytes → Bytes)
    (hd : ∀ x ∈ l, readyPayload (d x) = ⟨h, x.2⟩) :
    ∃ s', runParty env s ((l.flatMap fun x => readyEvents j x.1 (d x)).map evOf) = some (s', []) ∧ s'.dead = false ∧ s'.echoPos = .done ∧ s'.readySent = true ∧
      s'.T h = l ∧ (∀ h', h' ≠ h → s'.T h' = []) ∧ s'.maxN = l.length ∧ (l ≠ [] → s'.maxH = h) ∧ s'.decStart = decide (env.N - env.F ≤ l.length) ∧ (∀ i, s'.seen i = true ↔ i ∈ l.map Prod.fst) ∧
      s'.readyPos = .idle ∧ s'.mainPos = .start := by
  induction l using List.reverseRecOn with
  | nil =>
    have := ok.size
    refine ⟨s, rfl, hf.alive, hf.pos, hf.rs, hf.T h, fun h' _ => hf.T h', hf.maxN, by simp, ?_, by simp [hf.seen], hf.rpos, hf.main⟩
    rw [hf.dec]; symm; exact decide_eq_false (by simp; omega)
  | append_singleton l x ih =>
    rw [List.map_append, List.nodup_append] at hnd
    obtain ⟨s', h1, h2, h3, h4, h5, h6, h7, h8, h9, h10, h11, h12⟩ := ih hnd.1 (fun y hy => hd y (by simp [hy]))
    have hns : s'.seen x.1 = false := by
      cases hc : s'.seen x.1 with
      | false => rfl
      | true => exact absurd rfl (hnd.2.2 x.1 ((h10 x.1).1 hc) x.1 (by simp))
    have hpx : readyPayload (d x) = ⟨h, x.2⟩ := hd x (by simp)
    have hgt : s'.maxN < (s'.T h ++ [(x.1, x.2)]).length := by rw [h5, h7]; simp
    have hA : rbcStep env s' (.ready x.1 (d x)) = some ({ s' with
        seen := fun j' => if j' = x.1 then true else s'.seen j'
        T := fun h' => if h' = h then s'.T h ++ [(x.1, x.2)] else s'.T h'
        readyPos := .check h
        maxN := (s'.T h ++ [(x.1, x.2)]).length
        maxH := h }, []) := by
      simp only [rbcStep, h2, h11, hpx, onReady, hns, Bool.false_eq_true, if_false, if_true]
      rw [if_pos hgt]
    have hB : rbcStep env { s' with
        seen := fun j' => if j' = x.1 then true else s'.seen j'
        T := fun h' => if h' = h then s'.T h ++ [(x.1, x.2)] else s'.T h'
        readyPos := .check h
        maxN := (s'.T h ++ [(x.1, x.2)]).length
        maxH := h } .readyStep = some ({ s' with
        seen := fun j' => if j' = x.1 then true else s'.seen j'
        T := fun h' => if h' = h then s'.T h ++ [(x.1, x.2)] else s'.T h'
        readyPos := .fin h
        maxN := (s'.T h ++ [(x.1, x.2)]).length
        maxH := h }, []) := by
      simp [rbcStep, h2, onReadyStep, h3, h4]
    have hC : rbcStep env { s' with
        seen := fun j' => if j' = x.1 then true else s'.seen j'
        T := fun h' => if h' = h then s'.T h ++ [(x.1, x.2)] else s'.T h'
        readyPos := .fin h
        maxN := (s'.T h ++ [(x.1, x.2)]).length
        maxH := h } .readyStep = some ({ s' with
        seen := fun j' => if j' = x.1 then true else s'.seen j'
        T := fun h' => if h' = h then s'.T h ++ [(x.1, x.2)] else s'.T h'
        readyPos := .idle
        maxN := (s'.T h ++ [(x.1, x.2)]).length
        maxH := h
        decStart := s'.decStart || decide (env.N - env.F ≤ (s'.T h ++ [(x.1, x.2)]).length) }, []) := by
      simp [rbcStep, h2, onReadyStep]
    have hst : runParty env s' ((readyEvents j x.1 (d x)).map evOf) = some ({ s' with
        seen := fun j' => if j' = x.1 then true else s'.seen j'
        T := fun h' => if h' = h then s'.T h ++ [(x.1, x.2)] else s'.T h'
        readyPos := .idle
        maxN := (s'.T h ++ [(x.1, x.2)]).length
        maxH := h
        decStart := s'.decStart || decide (env.N - env.F ≤ (s'.T h ++ [(x.1, x.2)]).length) }, []) := by
      simp only [readyEvents, List.map_cons, List.map_nil, evOf, deliverEvent, runParty, hA, hB, hC, Option.map_some, List.append_nil]
    have hall := runParty_append h1 hst
    rw [← List.map_append, show (l.flatMap fun x => readyEvents j x.1 (d x)) ++ readyEvents j x.1 (d x) = (l ++ [x]).flatMap fun x => readyEvents j x.1 (d x) by simp] at hall
    refine ⟨_, hall, h2, h3, h4, by simp [h5], ?_, by simp [h5], fun _ => rfl, ?_, ?_, rfl, h12⟩
    · intro h' hne
      simp only [if_neg hne]
      exact h6 h' hne
    · simp only
      rw [h9, h5]
      by_cases hc : env.N - env.F ≤ l.length
      · rw [decide_eq_true hc, decide_eq_true (show env.N - env.F ≤ (l ++ [(x.1, x.2)]).length by simp; omega)]; rfl
      · rw [decide_eq_false hc]; rfl
    · intro i
      simp only
      by_cases hi : i = x.1
      · simp [hi]
      · rw [if_neg hi, h10 i]; simp [hi]

/-- The body of the function succeeds in round 0. -/
theorem run_main {env : REnv} (ok : env.Ok) {D : Bytes} (hD : D.length < 2 ^ 32) {sh : List Bytes} (he : env.rs.encode D = some sh) {s : RState} (hal : s.dead = false)
    (hmain : s.mainPos = .start) (hdec : s.decStart = true) (hmax : env.N - env.F ≤ s.maxN) (hH : s.maxH = echoHash env D) (hidle : s.readyPos = .idle)
    (hlen : env.N - env.F ≤ (s.T (echoHash env D)).length) (hlt : ∀ x ∈ s.T (echoHash env D), x.1 < env.N) (hnd : ((s.T (echoHash env D)).map Prod.fst).Nodup)
    (htrue : ∀ x ∈ s.T (echoHash env D), x.2 = sh.getD x.1 []) (j : ℕ) :
    ∃ s', runParty env s ((List.replicate 7 (NEvent.run j .main)).map evOf) = some (s', []) ∧ s'.mainPos = .returned (some D) := by
  have hsz := ok.size
  have hlenH := echoHash_length ok D
  have htake : (echoHash env D).take 32 = env.sha D := by
    rw [echoHash, List.take_append_of_le_length (by rw [ok.sha_len]), List.take_of_length_le (by rw [ok.sha_len])]
  have hdrop : (bytesToInt ((echoHash env D).drop 32)).toNat = D.length := by
    rw [echoHash, ← ok.sha_len D, List.drop_left, C01_int_range _ (by omega) (by omega)]
    simp
  obtain ⟨M, h2, h3⟩ := decode_ok ok he (l := snapshot (env.N - env.F + 0) (s.T (echoHash env D)))
    (by
      intro x hx
      rw [snapshot_take _ _ (by omega)] at hx
      exact hlt x (List.mem_of_mem_take hx))
    (by
      rw [snapshot_take _ _ (by omega), List.map_take]
      exact hnd.sublist (List.take_sublist _ _))
    (by
      intro x hx
      rw [snapshot_take _ _ (by omega)] at hx
      exact htrue x (List.mem_of_mem_take hx))
    (by simp only [snapshot, List.length_map, List.length_range]; omega)
  obtain ⟨t, ht⟩ := h3
  have s1 : rbcStep env s .main = some ({ s with mainPos := .poll 0 }, []) := by simp [rbcStep, hal, onMain, hmain, hdec]
  have s2 : rbcStep env { s with mainPos := .poll 0 } .main = some ({ s with mainPos := .locked 0 }, []) := by
    simp [rbcStep, hal, onMain, show env.N ≤ s.maxN + env.F by omega]
  have s3 : rbcStep env { s with mainPos := .locked 0 } .main = some ({ s with mainPos := .gotM 0 (D ++ t) }, []) := by
    simp only [rbcStep, hal, onMain, hidle, if_true, hH, h2, ht, Bool.false_eq_true, if_false, Option.map_some]
  have s4 : rbcStep env { s with mainPos := .gotM 0 (D ++ t) } .main = some ({ s with mainPos := .gotLen 0 (D ++ t) D.length }, []) := by
    simp only [rbcStep, hal, onMain, hH, hlenH, hdrop, Bool.false_eq_true, if_false, Option.map_some, show ¬ (36 < 32) by norm_num]
  have s5 : rbcStep env { s with mainPos := .gotLen 0 (D ++ t) D.length } .main = some ({ s with mainPos := .trunc 0 (D ++ t) D.length (env.sha D) }, []) := by
    simp only [rbcStep, hal, onMain, hH, hlenH, htake, Bool.false_eq_true, if_false, Option.map_some, show ¬ (36 < 32) by norm_num]
  have s6 : rbcStep env { s with mainPos := .trunc 0 (D ++ t) D.length (env.sha D) } .main = some ({ s with maxH := env.sha D, mainPos := .cmp 0 D }, []) := by
    simp only [rbcStep, hal, onMain, Bool.false_eq_true, if_false, Option.map_some]
    rw [if_pos (by simp), List.append_assoc, List.take_left]; rfl
  have s7 : rbcStep env { s with maxH := env.sha D, mainPos := .cmp 0 D } .main = some ({ s with maxH := env.sha D, mainPos := .returned (some D) }, []) := by
    simp [rbcStep, hal, onMain]
  refine ⟨{ s with maxH := env.sha D, mainPos := .returned (some D) }, ?_, rfl⟩
  simp only [List.replicate, List.map_cons, List.map_nil, evOf, runParty, s1, s2, s3, s4, s5, s6, s7, Option.map_some, List.append_nil]

/-! ## All parties but number 0 are honest -/

/-- Parties `1, …, N-1`. -/
def others (N : ℕ) : List ℕ := (List.range (N - 1)).map (· + 1)

theorem mem_others {N j : ℕ} : j ∈ others N ↔ 0 < j ∧ j < N := by
  simp only [others, List.mem_map, List.mem_range]
  constructor
  · rintro ⟨i, h1, rfl⟩; omega
  · rintro ⟨h1, h2⟩; exact ⟨j - 1, by omega, by omega⟩

theorem others_nodup (N : ℕ) : (others N).Nodup := List.nodup_range.map (fun a b h => by simpa using h)

theorem others_length (N : ℕ) : (others N).length = N - 1 := by simp [others]

def othersSet (N : ℕ) : Finset ℕ := (Finset.range N).erase 0

theorem mem_othersSet {N j : ℕ} : j ∈ othersSet N ↔ j ∈ others N := by
  rw [mem_others, othersSet, Finset.mem_erase, Finset.mem_range]; omega

theorem othersSet_card {N : ℕ} (h : 0 < N) : (othersSet N).card = N - 1 := by
  rw [othersSet, Finset.card_erase_of_mem (by simpa using h), Finset.card_range]

theorem othersSet_honest {env : REnv} (ok : env.Ok) (hF : 1 ≤ env.F) : HonestSet env (othersSet env.N) :=
  ⟨fun j hj => (mem_others.1 (mem_othersSet.1 hj)).2, by have := ok.size; rw [othersSet_card (by omega)]; omega⟩

/-- The Readys of the honest parties for `D`. -/
def readyList (N : ℕ) (sh : List Bytes) : List (ℕ × Bytes) := (others N).map fun s => (s, sh.getD s [])

/-- Data of a Ready. -/
def readyData (env : REnv) (D : Bytes) (x : ℕ × Bytes) : Bytes := marshal (⟨echoHash env D, x.2⟩ : PRBCReady)

/-- The last part: everybody handles the honest Readys and decodes. -/
def endEvents (env : REnv) (D : Bytes) (sh : List Bytes) (j : ℕ) : List NEvent :=
  (readyList env.N sh).flatMap (fun x => readyEvents j x.1 (readyData env D x)) ++ List.replicate 7 (.run j .main)

theorem ready_decode {env : REnv} (ok : env.Ok) {D m : Bytes} (hD : D.length < 2 ^ 30) (hm : m.length ≤ D.length) :
    readyPayload (marshal (⟨echoHash env D, m⟩ : PRBCReady)) = ⟨echoHash env D, m⟩ :=
  readyPayload_marshal _ _ (by rw [echoHash_length ok]; norm_num) (by omega)

theorem finish_attack {env : REnv} (ok : env.Ok) (hF : 1 ≤ env.F) {D : Bytes} (hD : D.length < 2 ^ 30) {sh : List Bytes} (he : env.rs.encode D = some sh)
    {n0 net : RNet} {evs : List NEvent} (hr : NRun env (othersSet env.N) n0 evs net) (hst : ∀ j ∈ others env.N, Echoed' (net.party j))
    (hsent : ∀ s ∈ others env.N, ∀ i, i < env.N → (s, (⟨i, .ready, marshal (⟨echoHash env D, sh.getD s []⟩ : PRBCReady)⟩ : ROut)) ∈ net.sent) :
    ∃ net', NRun env (othersSet env.N) n0 (evs ++ (others env.N).flatMap (endEvents env D sh)) net' ∧ ∀ j ∈ othersSet env.N, (net'.party j).mainPos = .returned (some D) := by
  have hsz := ok.size
  have hfst : (readyList env.N sh).map Prod.fst = others env.N := by
    simp only [readyList, List.map_map]
    exact (List.map_congr_left (fun a _ => rfl)).trans (List.map_id _)
  have hlen : (readyList env.N sh).length = env.N - 1 := by simp [readyList, others]
  have hparty : ∀ j ∈ others env.N, ∃ s', runParty env (net.party j) ((endEvents env D sh j).map evOf) = some (s', []) ∧ s'.mainPos = .returned (some D) := by
    intro j hj
    obtain ⟨s1, h1, h2, h3, h4, h5, h6, h7, h8, h9, h10, h11, h12⟩ := run_readys ok (hst j hj) j (h := echoHash env D) (readyList env.N sh)
      (by rw [hfst]; exact others_nodup _) (readyData env D) (by
        intro x hx
        obtain ⟨s, _, rfl⟩ := List.mem_map.1 hx
        exact ready_decode ok hD (shard_le ok he s))
    obtain ⟨s2, g1, g2⟩ := run_main ok (by omega) he h2 h12 (by rw [h9]; exact decide_eq_true (by omega)) (by rw [h7]; omega)
      (h8 (by intro h0; rw [h0] at hlen; simp at hlen; omega)) h11 (by rw [h5]; omega)
      (by
        rw [h5]; intro x hx
        obtain ⟨s, hs, rfl⟩ := List.mem_map.1 hx
        exact (mem_others.1 hs).2)
      (by rw [h5, hfst]; exact others_nodup _)
      (by
        rw [h5]; intro x hx
        obtain ⟨s, hs, rfl⟩ := List.mem_map.1 hx
        rfl) j
    refine ⟨s2, ?_, g2⟩
    rw [endEvents, List.map_append]
    exact runParty_append h1 g1
  choose! st hst1 hst2 using hparty
  obtain ⟨net', h1, h2, _, _⟩ := hr.phase (others env.N) (fun j hj => mem_othersSet.2 hj) (others_nodup _) (endEvents env D sh) st (fun _ => []) hst1 (by
    intro j hj e he'
    rcases List.mem_append.1 he' with h | h
    · obtain ⟨x, hx, he''⟩ := List.mem_flatMap.1 h
      obtain ⟨s, hs, rfl⟩ := List.mem_map.1 hx
      simp only [readyEvents, List.mem_cons, List.not_mem_nil, or_false] at he''
      rcases he'' with rfl | rfl | rfl
      · exact ⟨rfl, (mem_others.1 hs).2, ready_size ok hD (shard_le ok he s), fun _ => hsent s hs j (mem_others.1 hj).2⟩
      · exact ⟨rfl, rfl⟩
      · exact ⟨rfl, rfl⟩
    · obtain ⟨_, rfl⟩ := List.mem_replicate.1 h
      exact ⟨rfl, rfl⟩)
  exact ⟨net', h1, fun j hj => by rw [h2 j (mem_othersSet.1 hj)]; exact hst2 j (mem_othersSet.1 hj)⟩

theorem endEvents_form {env : REnv} {D : Bytes} {sh : List Bytes} {e : NEvent} (he : e ∈ (others env.N).flatMap (endEvents env D sh)) :
    (∃ j s d, e = .deliver j .ready s d) ∨ ∃ j ev, e = .run j ev := by
  obtain ⟨j, _, h⟩ := List.mem_flatMap.1 he
  rcases List.mem_append.1 h with h | h
  · obtain ⟨x, _, he''⟩ := List.mem_flatMap.1 h
    simp only [readyEvents, List.mem_cons, List.not_mem_nil, or_false] at he''
    rcases he'' with rfl | rfl | rfl
    · exact Or.inl ⟨_, _, _, rfl⟩
    · exact Or.inr ⟨_, _, rfl⟩
    · exact Or.inr ⟨_, _, rfl⟩
  · obtain ⟨_, rfl⟩ := List.mem_replicate.1 h
    exact Or.inr ⟨_, _, rfl⟩

/-- After the call of `RBCSend` nothing else has changed. -/
theorem run_send {env : REnv} {H : Finset ℕ} {b : ℕ} (hb : b ∈ H) (M : PMessage) :
    ∃ net, NRun env H RNet.init [.send b M] net ∧ (∀ j, net.party j = RState.init) ∧ net.sent = (rBroadcast env.N .propose (marshal M)).map fun o => (b, o) :=
  ⟨_, (NRun.nil).snoc (by simp only [netStep, if_pos hb]; rfl), fun _ => rfl, by simp [RNet.init]⟩

theorem fresh_init : FreshR RState.init := ⟨rfl, fun _ _ => rfl, rfl, fun _ => rfl, rfl, rfl, rfl, rfl, fun _ => rfl, rfl, rfl⟩

/-- One corrupt party repeats its Echo. -/
theorem attack_repeat {env : REnv} (ok : env.Ok) (hF : 1 ≤ env.F) {b : ℕ} (hb : b ∈ othersSet env.N) (M : PMessage) {D : Bytes} (hD : D.length < 2 ^ 30) (hne : D ≠ []) :
    ∃ evs net, NRun env (othersSet env.N) RNet.init (.send b M :: evs) net ∧ (∀ e ∈ evs, (∃ j d, e = .deliver j .echo 0 d) ∨ (∃ j s d, e = .deliver j .ready s d) ∨ ∃ j ev, e = .run j ev) ∧
      ∀ j ∈ othersSet env.N, (net.party j).mainPos = .returned (some D) := by
  have hsz := ok.size
  obtain ⟨sh, he⟩ : ∃ sh, env.rs.encode D = some sh := by
    cases h : env.rs.encode D with
    | none => exact absurd ((ok.encode_none _).1 h) hne
    | some sh => exact ⟨sh, rfl⟩
  obtain ⟨n1, h1, h2, h3⟩ := run_send (env := env) hb M
  have hparty : ∀ j ∈ others env.N, ∃ s', runParty env (n1.party j)
      ((List.replicate (env.N - env.F) (NEvent.deliver j .echo 0 (marshal (⟨echoHash env D, sh.getD j []⟩ : PRBCEcho)))).map evOf) =
        some (s', rBroadcast env.N .ready (marshal (⟨echoHash env D, sh.getD j []⟩ : PRBCReady))) ∧ Echoed' s' := by
    intro j _
    rw [h2 j, List.map_replicate]
    exact run_echoes ok fresh_init (echo_decode ok (by omega) he j)
  choose! st hst1 hst2 using hparty
  obtain ⟨n2, g1, g2, _, g4⟩ := h1.phase (others env.N) (fun j hj => mem_othersSet.2 hj) (others_nodup _)
    (fun j => List.replicate (env.N - env.F) (NEvent.deliver j .echo 0 (marshal (⟨echoHash env D, sh.getD j []⟩ : PRBCEcho)))) st _ hst1 (by
      intro j hj e he'
      obtain ⟨_, rfl⟩ := List.mem_replicate.1 he'
      exact ⟨rfl, by omega, echo_size ok hD (shard_le ok he j), fun h => absurd (mem_others.1 (mem_othersSet.1 h)).1 (by omega)⟩)
  obtain ⟨n3, k1, k2⟩ := finish_attack ok hF hD he g1 (fun j hj => by rw [g2 j hj]; exact hst2 j hj) (by
    intro s hs i hi
    rw [g4]
    refine List.mem_append_right _ (List.mem_flatMap.2 ⟨s, hs, List.mem_map.2 ⟨_, List.mem_map.2 ⟨i, List.mem_range.2 hi, rfl⟩, rfl⟩⟩))
  refine ⟨_, n3, by simpa using k1, ?_, k2⟩
  intro e he'
  rcases List.mem_append.1 he' with h | h
  · obtain ⟨j, _, h⟩ := List.mem_flatMap.1 h
    obtain ⟨_, rfl⟩ := List.mem_replicate.1 h
    exact Or.inl ⟨_, _, rfl⟩
  · exact Or.inr (endEvents_form h)

/-! ## Executions without repeated Echoes -/

/-- The Echoes of `N - F` honest parties to `j`. -/
def echoEvents (env : REnv) (D : Bytes) (sh : List Bytes) (j : ℕ) : List NEvent :=
  ((others env.N).take (env.N - env.F)).map fun s => .deliver j .echo s (marshal (⟨echoHash env D, sh.getD j []⟩ : PRBCEcho))

theorem echoSenders_append (a b : List NEvent) (j : ℕ) : echoSenders (a ++ b) j = echoSenders a j ++ echoSenders b j := by
  simp only [echoSenders, List.filterMap_append]

theorem echoSenders_none {l : List NEvent} (h : ∀ e ∈ l, ∀ j s d, e ≠ .deliver j .echo s d) (j : ℕ) : echoSenders l j = [] := by
  unfold echoSenders
  rw [List.filterMap_eq_nil_iff]
  intro e he
  split
  · exact absurd rfl (h _ he _ _ _)
  · rfl

theorem echoSenders_echoEvents (env : REnv) (D : Bytes) (sh : List Bytes) (i j : ℕ) :
    echoSenders (echoEvents env D sh i) j = if i = j then (others env.N).take (env.N - env.F) else [] := by
  unfold echoSenders echoEvents
  rw [List.filterMap_map]
  by_cases h : i = j
  · subst h
    rw [if_pos rfl]
    simp only [Function.comp_def, if_true]
    exact List.filterMap_some
  · rw [if_neg h, List.filterMap_eq_nil_iff]
    intro s _
    simp [h]

theorem echoSenders_phase (env : REnv) (D : Bytes) (sh : List Bytes) (L : List ℕ) (hnd : L.Nodup) (j : ℕ) : (echoSenders (L.flatMap (echoEvents env D sh)) j).Nodup ∧
    (j ∉ L → echoSenders (L.flatMap (echoEvents env D sh)) j = []) := by
  induction L with
  | nil => exact ⟨by simp [echoSenders], fun _ => by simp [echoSenders]⟩
  | cons i L ih =>
    have hnd' := List.nodup_cons.1 hnd
    obtain ⟨h1, h2⟩ := ih hnd'.2
    rw [List.flatMap_cons, echoSenders_append, echoSenders_echoEvents]
    by_cases hij : i = j
    · subst hij
      rw [if_pos rfl, h2 hnd'.1, List.append_nil]
      refine ⟨(others_nodup _).sublist (List.take_sublist _ _), fun h => absurd (by simp) h⟩
    · rw [if_neg hij, List.nil_append]
      exact ⟨h1, fun h => h2 (fun h' => h (by simp [h']))⟩

/-- Everybody takes a proposal of `D` and the Echoes of `N - F` honest parties. -/
theorem run_common_from {env : REnv} (ok : env.Ok) (hF : 1 ≤ env.F) {pre : List NEvent} {n1 : RNet} (h1 : NRun env (othersSet env.N) RNet.init pre n1) (h2 : ∀ j, n1.party j = RState.init)
    {D : Bytes} (hD : D.length < 2 ^ 30) {sh : List Bytes} (he : env.rs.encode D = some sh)
    (src : ℕ) (hsrc : src < env.N) (hau : src ∈ othersSet env.N → ∀ j < env.N, (src, (⟨j, .propose, D⟩ : ROut)) ∈ n1.sent) :
    ∃ net, NRun env (othersSet env.N) RNet.init
        ((pre ++ (others env.N).flatMap fun j => [NEvent.deliver j .propose src D]) ++ (others env.N).flatMap (echoEvents env D sh)) net ∧
      (∀ j ∈ others env.N, Echoed' (net.party j)) ∧
      ∀ s ∈ others env.N, ∀ i, i < env.N → (s, (⟨i, .ready, marshal (⟨echoHash env D, sh.getD s []⟩ : PRBCReady)⟩ : ROut)) ∈ net.sent := by
  have hsz := ok.size
  have hlt : ∀ j ∈ others env.N, j < env.N := fun j hj => (mem_others.1 hj).2
  obtain ⟨n2, g1, g2, _, g4⟩ := h1.phase (others env.N) (fun j hj => mem_othersSet.2 hj) (others_nodup _) (fun j => [NEvent.deliver j .propose src D])
    (fun _ => { RState.init with proposed := true })
    (fun _ => (List.range env.N).map fun j => (⟨j, .echo, marshal (⟨echoHash env D, sh.getD j []⟩ : PRBCEcho)⟩ : ROut))
    (by
      intro j _
      rw [h2 j]
      simp only [List.map_cons, List.map_nil, evOf, deliverEvent, runParty, rbcStep, RState.init, he, Bool.false_eq_true, if_false, Option.map_some, List.append_nil])
    (by
      intro j hj e he'
      rw [List.mem_singleton.1 he']
      exact ⟨rfl, hsrc, by omega, fun h => hau h j (hlt j hj)⟩)
  have hfresh : FreshR { RState.init with proposed := true } := ⟨rfl, fun _ _ => rfl, rfl, fun _ => rfl, rfl, rfl, rfl, rfl, fun _ => rfl, rfl, rfl⟩
  have hparty : ∀ j ∈ others env.N, ∃ s', runParty env (n2.party j) ((echoEvents env D sh j).map evOf) =
        some (s', rBroadcast env.N .ready (marshal (⟨echoHash env D, sh.getD j []⟩ : PRBCReady))) ∧ Echoed' s' := by
    intro j hj
    rw [g2 j hj]
    have e : (echoEvents env D sh j).map evOf = List.replicate (env.N - env.F) (.echo (marshal (⟨echoHash env D, sh.getD j []⟩ : PRBCEcho))) := by
      rw [echoEvents, List.map_map, List.eq_replicate_iff]
      refine ⟨by simp [others]; omega, ?_⟩
      intro x hx
      obtain ⟨s, _, rfl⟩ := List.mem_map.1 hx
      rfl
    rw [e]
    exact run_echoes ok hfresh (echo_decode ok (by omega) he j)
  choose! st hst1 hst2 using hparty
  obtain ⟨n3, k1, k2, _, k4⟩ := g1.phase (others env.N) (fun j hj => mem_othersSet.2 hj) (others_nodup _) (echoEvents env D sh) st _ hst1 (by
    intro j hj e he'
    obtain ⟨s, hs, rfl⟩ := List.mem_map.1 he'
    have hs := List.mem_of_mem_take hs
    refine ⟨rfl, hlt s hs, echo_size ok hD (shard_le ok he j), fun _ => ?_⟩
    rw [g4]
    exact List.mem_append_right _ (List.mem_flatMap.2 ⟨s, hs, List.mem_map.2 ⟨_, List.mem_map.2 ⟨j, List.mem_range.2 (hlt j hj), rfl⟩, rfl⟩⟩))
  refine ⟨n3, k1, fun j hj => by rw [k2 j hj]; exact hst2 j hj, ?_⟩
  intro s hs i hi
  rw [k4]
  exact List.mem_append_right _ (List.mem_flatMap.2 ⟨s, hs, List.mem_map.2 ⟨_, List.mem_map.2 ⟨i, List.mem_range.2 hi, rfl⟩, rfl⟩⟩)

/-- The same after an honest party has started the broadcast. -/
theorem run_common {env : REnv} (ok : env.Ok) (hF : 1 ≤ env.F) {b : ℕ} (hb : b ∈ othersSet env.N) (M : PMessage) {D : Bytes} (hD : D.length < 2 ^ 30) {sh : List Bytes} (he : env.rs.encode D = some sh)
    (src : ℕ) (hsrc : src < env.N) (hau : src ∈ othersSet env.N → src = b ∧ D = marshal M) :
    ∃ net, NRun env (othersSet env.N) RNet.init
        (([.send b M] ++ (others env.N).flatMap fun j => [NEvent.deliver j .propose src D]) ++ (others env.N).flatMap (echoEvents env D sh)) net ∧
      (∀ j ∈ others env.N, Echoed' (net.party j)) ∧
      ∀ s ∈ others env.N, ∀ i, i < env.N → (s, (⟨i, .ready, marshal (⟨echoHash env D, sh.getD s []⟩ : PRBCReady)⟩ : ROut)) ∈ net.sent := by
  obtain ⟨n1, h1, h2, h3⟩ := run_send (env := env) hb M
  refine run_common_from ok hF h1 h2 hD he src hsrc fun h j hj => ?_
  obtain ⟨rfl, rfl⟩ := hau h
  rw [h3]
  exact List.mem_map.2 ⟨_, List.mem_map.2 ⟨j, List.mem_range.2 hj, rfl⟩, rfl⟩

theorem common_once (env : REnv) {pre : List NEvent} (hpre : ∀ e ∈ pre, ∀ j s d, e ≠ .deliver j .echo s d) (D : Bytes) (sh : List Bytes) (src : ℕ) (rest : List NEvent)
    (hrest : ∀ e ∈ rest, ∀ j s d, e ≠ .deliver j .echo s d) :
    EchoOnce (((pre ++ (others env.N).flatMap fun j => [NEvent.deliver j .propose src D]) ++ (others env.N).flatMap (echoEvents env D sh)) ++ rest) := by
  intro j
  rw [echoSenders_append, echoSenders_append, echoSenders_none hrest, List.append_nil, echoSenders_none]
  · exact (echoSenders_phase env D sh (others env.N) (others_nodup _) j).1
  · intro e he' j s d hcon
    subst hcon
    rcases List.mem_append.1 he' with h | h
    · exact hpre _ h _ _ _ rfl
    · obtain ⟨i, _, h⟩ := List.mem_flatMap.1 h
      simp at h

theorem send_no_echo {b : ℕ} {M : PMessage} : ∀ e ∈ [NEvent.send b M], ∀ j s d, e ≠ .deliver j .echo s d := by
  intro e he j s d h
  subst h
  simp at he

/-- A corrupt party proposes in the name of the instance. -/
theorem attack_spoof {env : REnv} (ok : env.Ok) (hF : 1 ≤ env.F) {b : ℕ} (hb : b ∈ othersSet env.N) (M : PMessage) {D : Bytes} (hD : D.length < 2 ^ 30) (hne : D ≠ []) :
    ∃ evs net, NRun env (othersSet env.N) RNet.init (.send b M :: evs) net ∧ EchoOnce (.send b M :: evs) ∧ (∀ M', .send b M' ∉ evs) ∧
      ∀ j ∈ othersSet env.N, (net.party j).mainPos = .returned (some D) := by
  have hsz := ok.size
  obtain ⟨sh, he⟩ : ∃ sh, env.rs.encode D = some sh := by
    cases h : env.rs.encode D with
    | none => exact absurd ((ok.encode_none _).1 h) hne
    | some sh => exact ⟨sh, rfl⟩
  obtain ⟨n1, h1, h2, h3⟩ := run_common ok hF hb M hD he 0 (by omega) (fun h => absurd (mem_others.1 (mem_othersSet.1 h)).1 (by omega))
  obtain ⟨n2, g1, g2⟩ := finish_attack ok hF hD he h1 h2 h3
  refine ⟨_, n2, by simpa using g1, ?_, ?_, g2⟩
  · have := common_once env (send_no_echo (b := b) (M := M)) D sh 0 ((others env.N).flatMap (endEvents env D sh)) (by
      intro e he' j s d hcon
      subst hcon
      rcases endEvents_form he' with ⟨_, _, _, h⟩ | ⟨_, _, h⟩ <;> cases h)
    simpa using this
  · intro M' hm
    rcases List.mem_append.1 hm with h | h
    · obtain ⟨i, _, h⟩ := List.mem_flatMap.1 h
      simp at h
    · rcases List.mem_append.1 h with h | h
      · obtain ⟨i, _, h⟩ := List.mem_flatMap.1 h
        obtain ⟨s, _, h⟩ := List.mem_map.1 h
        cases h
      · rcases endEvents_form h with ⟨_, _, _, h⟩ | ⟨_, _, h⟩ <;> cases h

/-- A broadcast without faults in which everybody follows the protocol (party 0 is silent, or is the broadcaster). -/
theorem plain_cast {env : REnv} (ok : env.Ok) (hF : 1 ≤ env.F) {b : ℕ} (hb : b < env.N) (M : PMessage) (hD : (marshal M).length < 2 ^ 30) (hne : marshal M ≠ []) :
    ∃ evs net, NRun env (othersSet env.N) RNet.init evs net ∧ EchoOnce evs ∧ HonestCast b M evs ∧ ∀ j ∈ othersSet env.N, (net.party j).mainPos = .returned (some (marshal M)) := by
  have hsz := ok.size
  obtain ⟨sh, he⟩ : ∃ sh, env.rs.encode (marshal M) = some sh := by
    cases h : env.rs.encode (marshal M) with
    | none => exact absurd ((ok.encode_none _).1 h) hne
    | some sh => exact ⟨sh, rfl⟩
  obtain ⟨pre, n1, h1, h2, h3, h4⟩ : ∃ pre n1, NRun env (othersSet env.N) RNet.init pre n1 ∧ (∀ j, n1.party j = RState.init) ∧
      (b ∈ othersSet env.N → ∀ j < env.N, (b, (⟨j, .propose, marshal M⟩ : ROut)) ∈ n1.sent) ∧ ∀ e ∈ pre, e = NEvent.send b M := by
    by_cases hbo : b ∈ othersSet env.N
    · obtain ⟨n1, h1, h2, h3⟩ := run_send (env := env) hbo M
      refine ⟨_, n1, h1, h2, fun _ j hj => ?_, fun e he => List.mem_singleton.1 he⟩
      rw [h3]
      exact List.mem_map.2 ⟨_, List.mem_map.2 ⟨j, List.mem_range.2 hj, rfl⟩, rfl⟩
    · exact ⟨[], _, NRun.nil, fun _ => rfl, fun h => absurd h hbo, fun e he => by cases he⟩
  obtain ⟨n2, a1, a2, a3⟩ := run_common_from ok hF h1 h2 hD he b hb h3
  obtain ⟨n3, g1, g2⟩ := finish_attack ok hF hD he a1 a2 a3
  have hrest : ∀ e ∈ (others env.N).flatMap (endEvents env (marshal M) sh), ∀ k j s d, k ≠ RKind.ready → e ≠ .deliver j k s d := by
    intro e he' k j s d hk hcon
    subst hcon
    rcases endEvents_form he' with ⟨_, _, _, h⟩ | ⟨_, _, h⟩ <;> cases h
    exact hk rfl
  have hother : ∀ e ∈ ((pre ++ (others env.N).flatMap fun j => [NEvent.deliver j .propose b (marshal M)]) ++ (others env.N).flatMap (echoEvents env (marshal M) sh)) ++
      (others env.N).flatMap (endEvents env (marshal M) sh), e = .send b M ∨ (∃ j, e = .deliver j .propose b (marshal M)) ∨ (∃ j k s d, k ≠ RKind.propose ∧ e = .deliver j k s d) ∨ ∃ j ev, e = .run j ev := by
    intro e he'
    rcases List.mem_append.1 he' with h | h
    · rcases List.mem_append.1 h with h | h
      · rcases List.mem_append.1 h with h | h
        · exact Or.inl (h4 e h)
        · obtain ⟨j, _, h⟩ := List.mem_flatMap.1 h
          exact Or.inr (Or.inl ⟨j, List.mem_singleton.1 h⟩)
      · obtain ⟨j, _, h⟩ := List.mem_flatMap.1 h
        obtain ⟨s, _, rfl⟩ := List.mem_map.1 h
        exact Or.inr (Or.inr (Or.inl ⟨_, _, _, _, by simp, rfl⟩))
    · rcases endEvents_form h with ⟨_, _, _, rfl⟩ | ⟨_, _, rfl⟩
      · exact Or.inr (Or.inr (Or.inl ⟨_, _, _, _, by simp, rfl⟩))
      · exact Or.inr (Or.inr (Or.inr ⟨_, _, rfl⟩))
  refine ⟨_, n3, g1, ?_, ⟨?_, ?_, ?_⟩, g2⟩
  · exact common_once env (fun e h j s d hcon => by rw [h4 e h] at hcon; cases hcon) _ sh b _ fun e h j s d => hrest e h _ j s d (by simp)
  · intro j s d h
    rcases hother _ h with h | ⟨_, h⟩ | ⟨_, _, _, _, hk, h⟩ | ⟨_, _, h⟩ <;> cases h
    · rfl
    · exact absurd rfl hk
  · intro M' h
    rcases hother _ h with h | ⟨_, h⟩ | ⟨_, _, _, _, hk, h⟩ | ⟨_, _, h⟩ <;> cases h
    rfl
  · intro M' x h
    rcases hother _ h with h | ⟨_, h⟩ | ⟨_, _, _, _, hk, h⟩ | ⟨_, _, h⟩ <;> cases h

end DyCAPS
