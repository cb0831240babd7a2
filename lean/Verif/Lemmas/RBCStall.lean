import Verif.Lemmas.RBCMixed

/-!
# Reliable broadcast: a call that waits for ever because of one wrong shard
-/

namespace DyCAPS

/-- The body of the function has panicked, waits for `N - F + 2` Readys, or has returned other bytes with the same hash. -/
def Stalled (env : REnv) (D : Bytes) (s : RState) : Prop :=
  (s.dead = true ∧ ∀ res, s.mainPos ≠ .returned res) ∨ s.mainPos = .poll 2 ∨ ∃ m, s.mainPos = .returned (some m) ∧ Collision env m D

theorem onMain_loops {env : REnv} {s s' : RState} (h : onMain env s = some s') : s'.echoPos = s.echoPos ∧ s'.readyPos = s.readyPos ∧ s'.maxN = s.maxN := by
  unfold onMain at h
  simp only at h
  repeat' split at h
  all_goals first | (cases h; exact ⟨rfl, rfl, rfl⟩) | cases h

theorem mains_keep {env : REnv} (k : ℕ) {s s' : RState} {o : List ROut} (h : runParty env s (List.replicate k .main) = some (s', o)) :
    s'.echoPos = s.echoPos ∧ s'.readyPos = s.readyPos ∧ s'.maxN = s.maxN := by
  induction k generalizing s o with
  | zero => cases h; exact ⟨rfl, rfl, rfl⟩
  | succ k ih =>
    simp only [List.replicate_succ, runParty] at h
    cases hs : rbcStep env s .main with
    | none => rw [hs] at h; cases h
    | some p =>
      obtain ⟨s1, o1⟩ := p
      rw [hs] at h
      simp only [Option.map_eq_some_iff, Prod.exists] at h
      obtain ⟨s2, o2, h1, h2⟩ := h
      cases h2
      obtain ⟨a1, a2, a3⟩ := ih h1
      have hd : s.dead = false := by
        cases hc : s.dead with
        | false => rfl
        | true => simp [rbcStep, hc] at hs
      simp only [rbcStep, hd, Bool.false_eq_true, if_false, Option.map_eq_some_iff, Prod.mk.injEq] at hs
      obtain ⟨s3, h3, rfl, _⟩ := hs
      obtain ⟨b1, b2, b3⟩ := onMain_loops h3
      exact ⟨a1.trans b1, a2.trans b2, a3.trans b3⟩

/-- The second attempt looks under the truncated hash and fails as well. -/
theorem run_round_one {env : REnv} (ok : env.Ok) (hF : 1 ≤ env.F) {D : Bytes} (hne : D ≠ []) {s : RState} (hal : s.dead = false) (hp : s.mainPos = .poll 1) (hN : s.maxN = env.N - env.F + 1)
    (hmH : s.maxH = env.sha D) (hT : s.T (env.sha D) = []) (hid : s.readyPos = .idle) : ∃ k s', runParty env s (List.replicate k .main) = some (s', []) ∧ Stalled env D s' := by
  have hsz := ok.size
  have hl := ok.sha_len D
  refine runParty_main_cons (s' := { s with mainPos := .locked 1 }) ?_ ?_
  · simp only [rbcStep, hal, onMain, hp, Bool.false_eq_true, if_false]
    rw [if_neg (by omega), if_pos (by omega)]; rfl
  refine runParty_main_cons (s' := { s with mainPos := .gotM 1 [] }) ?_ ?_
  · simp only [rbcStep, hal, onMain, Bool.false_eq_true, if_false, hid, if_true, hmH, hT, snapshot_nil, placeShards_zero env.N _ (show 0 < env.N by omega), fill_empty ok hF,
      Option.map_some]
  refine runParty_main_cons (s' := { s with mainPos := .gotLen 1 [] 0 }) ?_ ?_
  · simp only [rbcStep, hal, onMain, Bool.false_eq_true, if_false, hmH, hl, show ¬ (32 < 32) by norm_num, Option.map_some,
      show (env.sha D).drop 32 = [] from List.drop_eq_nil_of_le (by omega), bytesToInt_nil, Int.toNat_zero]
  refine runParty_main_cons (s' := { s with mainPos := .trunc 1 [] 0 (env.sha D) }) ?_ ?_
  · simp only [rbcStep, hal, onMain, Bool.false_eq_true, if_false, hmH, hl, show ¬ (32 < 32) by norm_num, Option.map_some,
      show (env.sha D).take 32 = env.sha D from List.take_of_length_le (by omega)]
  refine runParty_main_cons (s' := { s with maxH := env.sha D, mainPos := .cmp 1 [] }) ?_ ?_
  · simp only [rbcStep, hal, onMain, Bool.false_eq_true, if_false, Nat.zero_le, if_true, List.take_zero, Option.map_some]
  by_cases hc : env.sha [] = env.sha D
  · refine runParty_main_cons (s' := { s with maxH := env.sha D, mainPos := .returned (some []) }) ?_ (runParty_main_nil (Or.inr (Or.inr ⟨[], rfl, fun h => hne h.symm, hc⟩)))
    simp only [rbcStep, hal, onMain, Bool.false_eq_true, if_false, if_pos hc, Option.map_some]
  · refine runParty_main_cons (s' := { s with maxH := env.sha D, mainPos := .poll 2 }) ?_ (runParty_main_nil (Or.inr (Or.inl rfl)))
    simp only [rbcStep, hal, onMain, Bool.false_eq_true, if_false, if_neg hc, Option.map_some]

/-- `N - F + 1` Readys, the first one with a wrong shard: the call does not get further than its second attempt. -/
theorem run_main_stall {env : REnv} (ok : env.Ok) (hF : 1 ≤ env.F) {D : Bytes} (hD : D.length < 2 ^ 32) (hne : D ≠ []) {sh : List Bytes} (he : env.rs.encode D = some sh) {s : RState}
    (hal : s.dead = false) (hmain : s.mainPos = .start) (hdec : s.decStart = true) (hmax : s.maxN = env.N - env.F + 1) (hH : s.maxH = echoHash env D) (hidle : s.readyPos = .idle)
    {l : List (ℕ × Bytes)} (hl : l.length = env.N - env.F) (hnd : ((s.T (echoHash env D)).map Prod.fst).Nodup) (hlt : ∀ x ∈ s.T (echoHash env D), x.1 < env.N)
    (hT : s.T (echoHash env D) = (0, spoil (sh.getD 0 [])) :: l) (hT' : ∀ h, h ≠ echoHash env D → s.T h = []) :
    ∃ k s', runParty env s (List.replicate k .main) = some (s', []) ∧ Stalled env D s' := by
  have hsz := ok.size
  have hlenH := echoHash_length ok D
  have htake : (echoHash env D).take 32 = env.sha D := by
    rw [echoHash, List.take_append_of_le_length (by rw [ok.sha_len]), List.take_of_length_le (by rw [ok.sha_len])]
  have hdrop : (bytesToInt ((echoHash env D).drop 32)).toNat = D.length := by
    rw [echoHash, ← ok.sha_len D, List.drop_left, C01_int_range _ (by omega) (by omega)]
    simp
  have hTl : (s.T (echoHash env D)).length = env.N - env.F + 1 := by rw [hT, List.length_cons, hl]
  obtain ⟨M, h1, h2, h3, h4⟩ := placeShards_spec env.N (snapshot (env.N - env.F + 0) (s.T (echoHash env D))) (List.replicate env.N [])
    (by
      intro x hx
      rw [snapshot_take _ _ (by omega)] at hx
      exact hlt x (List.mem_of_mem_take hx)) (by simp)
  have hM0 : M.getD 0 [] = spoil (sh.getD 0 []) := by
    refine h4 ?_ (0, spoil (sh.getD 0 [])) ?_
    · rw [snapshot_take _ _ (by omega), List.map_take]
      exact hnd.sublist (List.take_sublist _ _)
    · rw [snapshot_take _ _ (by omega), hT, show env.N - env.F + 0 = (env.N - env.F - 1) + 1 by omega, List.take_succ_cons]
      exact List.mem_cons_self
  have hs0 : sh.getD 0 [] ≠ [] := shard_ne ok he (by omega)
  have hf0 : (env.rs.fill M).getD 0 [] = spoil (sh.getD 0 []) := by
    rw [ok.fill_keep M h2 0 (by rw [hM0]; exact spoil_ne hs0), hM0]
  obtain ⟨t, ht⟩ : ∃ t, ((env.rs.fill M).take (env.N - (env.F + 1))).flatten = spoil (sh.getD 0 []) ++ t :=
    ⟨_, by rw [flatten_take_cons (by omega) (by rw [ok.fill_len M h2]; omega), hf0]⟩
  have hpre := ok.systematic D sh he
  rw [flatten_take_cons (by omega) (by rw [ok.encode_len D sh he]; omega)] at hpre
  refine runParty_main_cons (s' := { s with mainPos := .poll 0 }) (by simp [rbcStep, hal, onMain, hmain, hdec]) ?_
  refine runParty_main_cons (s' := { s with mainPos := .locked 0 }) (by simp [rbcStep, hal, onMain, hmax]) ?_
  refine runParty_main_cons (s' := { s with mainPos := .gotM 0 (spoil (sh.getD 0 []) ++ t) }) ?_ ?_
  · simp only [rbcStep, hal, onMain, hidle, if_true, hH, h1, ht, Bool.false_eq_true, if_false, Option.map_some]
  refine runParty_main_cons (s' := { s with mainPos := .gotLen 0 (spoil (sh.getD 0 []) ++ t) D.length }) ?_ ?_
  · simp only [rbcStep, hal, onMain, hH, hlenH, hdrop, Bool.false_eq_true, if_false, Option.map_some, show ¬ (36 < 32) by norm_num]
  refine runParty_main_cons (s' := { s with mainPos := .trunc 0 (spoil (sh.getD 0 []) ++ t) D.length (env.sha D) }) ?_ ?_
  · simp only [rbcStep, hal, onMain, hH, hlenH, htake, Bool.false_eq_true, if_false, Option.map_some, show ¬ (36 < 32) by norm_num]
  generalize hfull : (spoil (sh.getD 0 []) ++ t) ++ env.spare (spoil (sh.getD 0 []) ++ t) = full
  have hmne : full.take D.length ≠ D := by
    rw [← hfull, List.append_assoc]
    exact spoil_head hs0 hne hpre _ rfl
  by_cases hlen : D.length ≤ full.length
  · refine runParty_main_cons (s' := { s with maxH := env.sha D, mainPos := .cmp 0 (full.take D.length) }) ?_ ?_
    · simp only [rbcStep, hal, onMain, Bool.false_eq_true, if_false, Option.map_some, hfull, if_pos hlen]
    by_cases hc : env.sha (full.take D.length) = env.sha D
    · refine runParty_main_cons (s' := { s with maxH := env.sha D, mainPos := .returned (some (full.take D.length)) }) ?_ (runParty_main_nil (Or.inr (Or.inr ⟨_, rfl, hmne, hc⟩)))
      simp only [rbcStep, hal, onMain, Bool.false_eq_true, if_false, if_pos hc, Option.map_some]
    · refine runParty_main_cons (s' := { s with maxH := env.sha D, mainPos := .poll 1 }) ?_ ?_
      · simp only [rbcStep, hal, onMain, Bool.false_eq_true, if_false, if_neg hc, Option.map_some]
      · refine run_round_one ok hF hne hal rfl hmax rfl (hT' _ ?_) hidle
        intro h
        have := congrArg List.length h
        rw [ok.sha_len, hlenH] at this
        omega
  · refine runParty_main_cons (s' := { s with maxH := env.sha D, mainPos := .trunc 0 (spoil (sh.getD 0 []) ++ t) D.length (env.sha D), dead := true }) ?_ (runParty_main_nil (Or.inl ⟨rfl, fun _ h => by cases h⟩))
    simp only [rbcStep, hal, onMain, Bool.false_eq_true, if_false, Option.map_some, hfull, if_neg hlen]

/-! ## The execution -/

/-- The honest parties when the first `F` are corrupt. -/
def lastOnes (env : REnv) : List ℕ := (List.range (env.N - env.F)).map (· + env.F)

theorem mem_lastOnes {env : REnv} (h : env.F ≤ env.N) {j : ℕ} : j ∈ lastOnes env ↔ env.F ≤ j ∧ j < env.N := by
  simp only [lastOnes, List.mem_map, List.mem_range]
  constructor
  · rintro ⟨a, h1, rfl⟩; omega
  · intro h1; exact ⟨j - env.F, by omega, by omega⟩

theorem lastOnes_nodup (env : REnv) : (lastOnes env).Nodup := List.nodup_range.map (fun a b h => by simpa using h)

theorem lastOnes_length (env : REnv) : (lastOnes env).length = env.N - env.F := by simp [lastOnes]

/-- Their Readys for `D`. -/
def lastReadys (env : REnv) (sh : List Bytes) : List (ℕ × Bytes) := (lastOnes env).map fun s => (s, sh.getD s [])

theorem lastReadys_fst (env : REnv) (sh : List Bytes) : (lastReadys env sh).map Prod.fst = lastOnes env := by
  simp only [lastReadys, List.map_map]
  exact (List.map_congr_left (fun a _ => rfl)).trans (List.map_id _)

/-- Their Echoes to `j`. -/
def lastEchoes (env : REnv) (D : Bytes) (sh : List Bytes) (j : ℕ) : List NEvent :=
  (lastOnes env).map fun s => .deliver j .echo s (marshal (⟨echoHash env D, sh.getD j []⟩ : PRBCEcho))

/-- After its Ready a party takes the honest Readys; before them the wrong shard of party 0 if it belongs to `X`. Then the body of the function takes its steps. -/
def stallEvents (env : REnv) (D : Bytes) (sh : List Bytes) (X : Finset ℕ) (steps : ℕ → ℕ) (j : ℕ) : List NEvent :=
  (if j ∈ X then (0, spoil (sh.getD 0 [])) :: lastReadys env sh else lastReadys env sh).flatMap (fun x => readyEvents j x.1 (readyData env D x)) ++
    List.replicate (steps j) (.run j .main)

/-- All events after the call of `RBCSend`. -/
def stallScript (env : REnv) (b : ℕ) (D : Bytes) (sh : List Bytes) (X : Finset ℕ) (steps : ℕ → ℕ) : List NEvent :=
  (((lastOnes env).flatMap fun j => [NEvent.deliver j .propose b D]) ++ (lastOnes env).flatMap (lastEchoes env D sh)) ++ (lastOnes env).flatMap (stallEvents env D sh X steps)

theorem stallEvents_form {env : REnv} {D : Bytes} {sh : List Bytes} {X : Finset ℕ} {steps : ℕ → ℕ} {j : ℕ} {e : NEvent} (he : e ∈ stallEvents env D sh X steps j) :
    (∃ x ∈ (0, spoil (sh.getD 0 [])) :: lastReadys env sh, e = .deliver j .ready x.1 (readyData env D x)) ∨ e = .run j .readyStep ∨ e = .run j .main := by
  unfold stallEvents at he
  split at he
  · exact readyEvents_form he
  · rcases readyEvents_form he with ⟨x, hx, h⟩ | h
    · exact Or.inl ⟨x, List.mem_cons_of_mem _ hx, h⟩
    · exact Or.inr h

theorem stall_ready_mem {env : REnv} {D : Bytes} {sh : List Bytes} {X : Finset ℕ} {steps : ℕ → ℕ} {j s : ℕ} (hs : s ∈ lastOnes env) :
    NEvent.deliver j .ready s (readyData env D (s, sh.getD s [])) ∈ stallEvents env D sh X steps j := by
  refine List.mem_append_left _ (List.mem_flatMap.2 ⟨(s, sh.getD s []), ?_, by simp [readyEvents]⟩)
  have : (s, sh.getD s []) ∈ lastReadys env sh := List.mem_map.2 ⟨s, hs, rfl⟩
  split
  · exact List.mem_cons_of_mem _ this
  · exact this

/-- The execution in which the calls of the parties in `X` stall and the other honest parties return. -/
theorem stall_run {env : REnv} (ok : env.Ok) (hF : 1 ≤ env.F) {b : ℕ} (hb : b ∈ lastOnes env) (M : PMessage) (hD : (marshal M).length < 2 ^ 30) (hne : marshal M ≠ [])
    {sh : List Bytes} (he : env.rs.encode (marshal M) = some sh) (X : Finset ℕ) :
    ∃ steps net, NRun env (lastOnes env).toFinset RNet.init ([.send b M] ++ stallScript env b (marshal M) sh X steps) net ∧
      (∀ j ∈ lastOnes env, (net.party j).echoPos = .done ∧ (net.party j).readyPos = .idle ∧ (j ∈ X → Stalled env (marshal M) (net.party j) ∧ (net.party j).maxN = env.N - env.F + 1) ∧
        (j ∉ X → (net.party j).mainPos = .returned (some (marshal M)))) ∧
      ∀ s o, (s, o) ∈ net.sent → s ∈ lastOnes env ∧ ((s = b ∧ ∃ j, o = ⟨j, .propose, marshal M⟩) ∨ (∃ j, o = ⟨j, .echo, marshal (⟨echoHash env (marshal M), sh.getD j []⟩ : PRBCEcho)⟩) ∨
        ∃ j, o = ⟨j, .ready, marshal (⟨echoHash env (marshal M), sh.getD s []⟩ : PRBCReady)⟩) := by
  have hsz := ok.size
  have hFN : env.F ≤ env.N := by omega
  have hlt : ∀ j ∈ lastOnes env, j < env.N := fun j hj => ((mem_lastOnes hFN).1 hj).2
  have hH : ∀ j ∈ lastOnes env, j ∈ (lastOnes env).toFinset := fun j hj => List.mem_toFinset.2 hj
  obtain ⟨n1, h1, h2, h3⟩ := run_send (env := env) (hH b hb) M
  obtain ⟨n2, g1, g2, _, g4⟩ := h1.phase (lastOnes env) hH (lastOnes_nodup _) (fun j => [NEvent.deliver j .propose b (marshal M)])
    (fun _ => { RState.init with proposed := true })
    (fun _ => (List.range env.N).map fun j => (⟨j, .echo, marshal (⟨echoHash env (marshal M), sh.getD j []⟩ : PRBCEcho)⟩ : ROut))
    (by
      intro j _
      rw [h2 j]
      simp only [List.map_cons, List.map_nil, evOf, deliverEvent, runParty, rbcStep, RState.init, he, Bool.false_eq_true, if_false, Option.map_some, List.append_nil])
    (by
      intro j hj e he'
      rw [List.mem_singleton.1 he']
      refine ⟨rfl, hlt b hb, by omega, fun h => ?_⟩
      rw [h3]
      exact List.mem_map.2 ⟨_, List.mem_map.2 ⟨j, List.mem_range.2 (hlt j hj), rfl⟩, rfl⟩)
  have hfresh : FreshR { RState.init with proposed := true } := ⟨rfl, fun _ _ => rfl, rfl, fun _ => rfl, rfl, rfl, rfl, rfl, fun _ => rfl, rfl, rfl⟩
  have hparty : ∀ j ∈ lastOnes env, ∃ s', runParty env (n2.party j) ((lastEchoes env (marshal M) sh j).map evOf) =
        some (s', rBroadcast env.N .ready (marshal (⟨echoHash env (marshal M), sh.getD j []⟩ : PRBCReady))) ∧ Echoed' s' := by
    intro j hj
    rw [g2 j hj]
    have e : (lastEchoes env (marshal M) sh j).map evOf = List.replicate (env.N - env.F) (.echo (marshal (⟨echoHash env (marshal M), sh.getD j []⟩ : PRBCEcho))) := by
      rw [lastEchoes, List.map_map, List.eq_replicate_iff]
      refine ⟨by rw [List.length_map, lastOnes_length], ?_⟩
      intro x hx
      obtain ⟨s, _, rfl⟩ := List.mem_map.1 hx
      rfl
    rw [e]
    exact run_echoes ok hfresh (echo_decode ok (by omega) he j)
  choose! st hst1 hst2 using hparty
  obtain ⟨n3, k1, k2, _, k4⟩ := g1.phase (lastOnes env) hH (lastOnes_nodup _) (lastEchoes env (marshal M) sh) st _ hst1 (by
    intro j hj e he'
    obtain ⟨s, hs, rfl⟩ := List.mem_map.1 he'
    refine ⟨rfl, hlt s hs, echo_size ok hD (shard_le ok he j), fun _ => ?_⟩
    rw [g4]
    exact List.mem_append_right _ (List.mem_flatMap.2 ⟨s, hs, List.mem_map.2 ⟨_, List.mem_map.2 ⟨j, List.mem_range.2 (hlt j hj), rfl⟩, rfl⟩⟩))
  have hready : ∀ s ∈ lastOnes env, ∀ i, i < env.N → (s, (⟨i, .ready, marshal (⟨echoHash env (marshal M), sh.getD s []⟩ : PRBCReady)⟩ : ROut)) ∈ n3.sent := by
    intro s hs i hi
    rw [k4]
    exact List.mem_append_right _ (List.mem_flatMap.2 ⟨s, hs, List.mem_map.2 ⟨_, List.mem_map.2 ⟨i, List.mem_range.2 hi, rfl⟩, rfl⟩⟩)
  have h0 : (0 : ℕ) ∉ lastOnes env := fun h => by have := ((mem_lastOnes hFN).1 h).1; omega
  have hlen : (lastReadys env sh).length = env.N - env.F := by rw [lastReadys, List.length_map, lastOnes_length]
  have hend : ∀ j ∈ lastOnes env, ∃ (k : ℕ) (s' : RState), runParty env (n3.party j) ((stallEvents env (marshal M) sh X (fun _ => k) j).map evOf) = some (s', []) ∧
      s'.echoPos = .done ∧ s'.readyPos = .idle ∧ (j ∈ X → Stalled env (marshal M) s' ∧ s'.maxN = env.N - env.F + 1) ∧ (j ∉ X → s'.mainPos = .returned (some (marshal M))) := by
    intro j hj
    have hE : Echoed' (n3.party j) := by rw [k2 j hj]; exact hst2 j hj
    by_cases hX : j ∈ X
    · obtain ⟨s1, a1, a2, a3, a4, a5, a6, a7, a8, a9, a10, a11, a12⟩ := run_readys ok hE j (h := echoHash env (marshal M)) ((0, spoil (sh.getD 0 [])) :: lastReadys env sh)
        (by
          rw [List.map_cons, lastReadys_fst, List.nodup_cons]
          exact ⟨h0, lastOnes_nodup _⟩) (readyData env (marshal M)) (by
          intro x hx
          rcases List.mem_cons.1 hx with rfl | hx
          · exact ready_decode ok hD (by rw [spoil_length]; exact shard_le ok he 0)
          · obtain ⟨s, _, rfl⟩ := List.mem_map.1 hx
            exact ready_decode ok hD (shard_le ok he s))
      rw [List.length_cons, hlen] at a7 a9
      obtain ⟨k, s2, b1, b2⟩ := run_main_stall ok hF (by omega) hne he a2 a12 (by rw [a9]; exact decide_eq_true (by omega)) a7 (a8 (by simp)) a11 hlen
        (by
          rw [a5, List.map_cons, lastReadys_fst, List.nodup_cons]
          exact ⟨h0, lastOnes_nodup _⟩)
        (by
          rw [a5]
          intro x hx
          rcases List.mem_cons.1 hx with rfl | hx
          · show 0 < env.N
            omega
          · obtain ⟨s, hs, rfl⟩ := List.mem_map.1 hx
            exact hlt s hs) a5 a6
      obtain ⟨c1, c2, c3⟩ := mains_keep k b1
      refine ⟨k, s2, ?_, c1.trans a3, c2.trans a11, fun _ => ⟨b2, c3.trans a7⟩, fun h => absurd hX h⟩
      rw [stallEvents, if_pos hX, List.map_append, List.map_replicate]
      exact runParty_append a1 b1
    · obtain ⟨s1, a1, a2, a3, a4, a5, a6, a7, a8, a9, a10, a11, a12⟩ := run_readys ok hE j (h := echoHash env (marshal M)) (lastReadys env sh)
        (by rw [lastReadys_fst]; exact lastOnes_nodup _) (readyData env (marshal M)) (by
          intro x hx
          obtain ⟨s, _, rfl⟩ := List.mem_map.1 hx
          exact ready_decode ok hD (shard_le ok he s))
      rw [hlen] at a7 a9
      obtain ⟨s2, b1, b2⟩ := run_main ok (by omega) he a2 a12 (by rw [a9]; exact decide_eq_true le_rfl) (by rw [a7])
        (a8 (by intro hn; rw [hn] at hlen; simp at hlen; omega)) a11 (by rw [a5, hlen])
        (by
          rw [a5]; intro x hx
          obtain ⟨s, hs, rfl⟩ := List.mem_map.1 hx
          exact hlt s hs)
        (by rw [a5, lastReadys_fst]; exact lastOnes_nodup _)
        (by
          rw [a5]; intro x hx
          obtain ⟨s, hs, rfl⟩ := List.mem_map.1 hx
          rfl) j
      have b1' := b1
      rw [List.map_replicate] at b1'
      obtain ⟨c1, c2, c3⟩ := mains_keep 7 b1'
      refine ⟨7, s2, ?_, c1.trans a3, c2.trans a11, fun h => absurd h hX, fun _ => b2⟩
      rw [stallEvents, if_neg hX, List.map_append]
      exact runParty_append a1 b1
  choose! steps fin hfin1 hfin2 using hend
  have hsame : ∀ j, stallEvents env (marshal M) sh X steps j = stallEvents env (marshal M) sh X (fun _ => steps j) j := fun j => rfl
  obtain ⟨n4, m1, m2, _, m4⟩ := k1.phase (lastOnes env) hH (lastOnes_nodup _) (stallEvents env (marshal M) sh X steps) fin (fun _ => []) (fun j hj => by rw [hsame]; exact hfin1 j hj) (by
    intro j hj e he'
    rcases stallEvents_form he' with ⟨x, hx, rfl⟩ | rfl | rfl
    · rcases List.mem_cons.1 hx with rfl | hx
      · exact ⟨rfl, by show 0 < env.N; omega, ready_size ok hD (by rw [spoil_length]; exact shard_le ok he 0), fun h => absurd (List.mem_toFinset.1 h) h0⟩
      · obtain ⟨s, hs, rfl⟩ := List.mem_map.1 hx
        exact ⟨rfl, hlt s hs, ready_size ok hD (shard_le ok he s), fun _ => hready s hs j (hlt j hj)⟩
    · exact ⟨rfl, rfl⟩
    · exact ⟨rfl, rfl⟩)
  refine ⟨steps, n4, by simpa only [stallScript, List.append_assoc] using m1, fun j hj => by rw [m2 j hj]; exact hfin2 j hj, ?_⟩
  intro s o ho
  rw [m4, k4, g4, h3] at ho
  rcases List.mem_append.1 ho with ho | ho
  · rcases List.mem_append.1 ho with ho | ho
    · rcases List.mem_append.1 ho with ho | ho
      · obtain ⟨o', a1, a2⟩ := List.mem_map.1 ho
        cases a2
        obtain ⟨j, _, rfl⟩ := List.mem_map.1 a1
        exact ⟨hb, Or.inl ⟨rfl, j, rfl⟩⟩
      · obtain ⟨s', hs', a1⟩ := List.mem_flatMap.1 ho
        obtain ⟨o', a2, a3⟩ := List.mem_map.1 a1
        cases a3
        obtain ⟨j, _, rfl⟩ := List.mem_map.1 a2
        exact ⟨hs', Or.inr (Or.inl ⟨j, rfl⟩)⟩
    · obtain ⟨s', hs', a1⟩ := List.mem_flatMap.1 ho
      obtain ⟨o', a2, a3⟩ := List.mem_map.1 a1
      cases a3
      obtain ⟨j, _, rfl⟩ := List.mem_map.1 a2
      exact ⟨hs', Or.inr (Or.inr ⟨j, rfl⟩)⟩
  · obtain ⟨_, _, a1⟩ := List.mem_flatMap.1 ho
    cases a1

end DyCAPS
