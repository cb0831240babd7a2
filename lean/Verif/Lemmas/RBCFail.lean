import Verif.Lemmas.RBCAttack

/-!
# Reliable broadcast: one wrong shard
-/

namespace DyCAPS

/-- This party will not return `D`: it has panicked, has returned nil, or has returned other bytes. -/
def Failed (env : REnv) (D : Bytes) (s : RState) : Prop :=
  s.dead = true ∨ s.mainPos = .returned none ∨ ∃ m, s.mainPos = .returned (some m) ∧ Collision env m D

theorem bytesToInt_nil : bytesToInt [] = 0 := by decide

theorem runParty_main_cons {env : REnv} {s s' : RState} (h : rbcStep env s .main = some (s', [])) {P : RState → Prop}
    (hx : ∃ k s'', runParty env s' (List.replicate k .main) = some (s'', []) ∧ P s'') : ∃ k s'', runParty env s (List.replicate k .main) = some (s'', []) ∧ P s'' := by
  obtain ⟨k, s'', h1, h2⟩ := hx
  refine ⟨k + 1, s'', ?_, h2⟩
  simp only [List.replicate_succ, runParty, h, h1, Option.map_some, List.append_nil]

theorem runParty_main_nil {env : REnv} {s : RState} {P : RState → Prop} (h : P s) : ∃ k s'', runParty env s (List.replicate k .main) = some (s'', []) ∧ P s'' :=
  ⟨0, s, rfl, h⟩

theorem placeShards_zero (N n : ℕ) (hN : 0 < N) : placeShards N (List.replicate n (0, [])) (List.replicate N []) = some (List.replicate N []) := by
  induction n with
  | zero => rfl
  | succ n ih =>
    have e : (List.replicate N ([] : Bytes)).set 0 [] = List.replicate N [] := by
      cases N with
      | zero => omega
      | succ N => simp [List.replicate_succ]
    rw [List.replicate_succ, placeShards, if_pos hN, e, ih]

theorem snapshot_nil (n : ℕ) : snapshot n [] = List.replicate n (0, []) := by
  rw [snapshot, List.eq_replicate_iff]
  exact ⟨by simp, by simp⟩

theorem fill_empty {env : REnv} (ok : env.Ok) (hF : 1 ≤ env.F) : ((env.rs.fill (List.replicate env.N [])).take (env.N - (env.F + 1))).flatten = [] := by
  have hsz := ok.size
  rw [ok.fill_few _ (by simp)]
  · rw [List.flatten_eq_nil_iff]
    intro l hl
    exact List.eq_of_mem_replicate (List.mem_of_mem_take hl)
  · have : ((List.range env.N).filter fun i => decide ((List.replicate env.N ([] : Bytes)).getD i [] ≠ [])) = [] := by
      rw [List.filter_eq_nil_iff]
      intro i _
      simp only [decide_eq_true_eq, not_not]
      by_cases h : i < env.N
      · rw [List.getD_eq_getElem _ _ (by simpa using h)]; simp
      · rw [List.getD_eq_default _ _ (by simpa using h)]
    rw [this]
    simp only [List.length_nil]
    omega

/-- From the second round on the hash is truncated and finds no shards. -/
theorem run_rounds {env : REnv} (ok : env.Ok) (hF : 1 ≤ env.F) {D : Bytes} (hne : D ≠ []) (k : ℕ) :
    ∀ (s : RState) (r : ℕ), env.F + 1 - r = k → 1 ≤ r → s.dead = false → s.mainPos = .poll r → s.maxN = env.N → s.maxH = env.sha D → s.T (env.sha D) = [] → s.readyPos = .idle →
      ∃ k s', runParty env s (List.replicate k .main) = some (s', []) ∧ Failed env D s' := by
  have hsz := ok.size
  induction k with
  | zero =>
    intro s r hk hr hal hp hN hmH hT hid
    refine runParty_main_cons (s' := { s with mainPos := .returned none }) ?_ (runParty_main_nil (Or.inr (Or.inl rfl)))
    simp only [rbcStep, hal, onMain, hp, Bool.false_eq_true, if_false, Option.map_some]
    rw [if_pos (by omega)]; rfl
  | succ k ih =>
    intro s r hk hr hal hp hN hmH hT hid
    have hl := ok.sha_len D
    refine runParty_main_cons (s' := { s with mainPos := .locked r }) ?_ ?_
    · simp only [rbcStep, hal, onMain, hp, Bool.false_eq_true, if_false, hN]
      rw [if_neg (by omega), if_pos (by omega)]; rfl
    refine runParty_main_cons (s' := { s with mainPos := .gotM r [] }) ?_ ?_
    · simp only [rbcStep, hal, onMain, Bool.false_eq_true, if_false, hid, if_true, hmH, hT, snapshot_nil, placeShards_zero env.N _ (show 0 < env.N by omega), fill_empty ok hF,
        Option.map_some]
    refine runParty_main_cons (s' := { s with mainPos := .gotLen r [] 0 }) ?_ ?_
    · simp only [rbcStep, hal, onMain, Bool.false_eq_true, if_false, hmH, hl, show ¬ (32 < 32) by norm_num, Option.map_some,
        show (env.sha D).drop 32 = [] from List.drop_eq_nil_of_le (by omega), bytesToInt_nil, Int.toNat_zero]
    refine runParty_main_cons (s' := { s with mainPos := .trunc r [] 0 (env.sha D) }) ?_ ?_
    · simp only [rbcStep, hal, onMain, Bool.false_eq_true, if_false, hmH, hl, show ¬ (32 < 32) by norm_num, Option.map_some,
        show (env.sha D).take 32 = env.sha D from List.take_of_length_le (by omega)]
    refine runParty_main_cons (s' := { s with maxH := env.sha D, mainPos := .cmp r [] }) ?_ ?_
    · simp only [rbcStep, hal, onMain, Bool.false_eq_true, if_false, Nat.zero_le, if_true, List.take_zero, Option.map_some]
    by_cases hc : env.sha [] = env.sha D
    · refine runParty_main_cons (s' := { s with maxH := env.sha D, mainPos := .returned (some []) }) ?_ (runParty_main_nil (Or.inr (Or.inr ⟨[], rfl, fun h => hne h.symm, hc⟩)))
      simp only [rbcStep, hal, onMain, Bool.false_eq_true, if_false, if_pos hc, Option.map_some]
    · refine runParty_main_cons (s' := { s with maxH := env.sha D, mainPos := .poll (r + 1) }) ?_ ?_
      · simp only [rbcStep, hal, onMain, Bool.false_eq_true, if_false, if_neg hc, Option.map_some]
      · exact ih _ (r + 1) (by omega) (by omega) hal rfl hN rfl hT hid

/-- A shard of the same length with other bytes. -/
def spoil (x : Bytes) : Bytes := x.map (· + 1)

theorem spoil_ne {x : Bytes} (h : x ≠ []) : spoil x ≠ [] := by simpa [spoil] using h

theorem spoil_head {x a b D : Bytes} (hx : x ≠ []) (hD : D ≠ []) (hp : D <+: x ++ a) (n : ℕ) (hn : n = D.length) : (spoil x ++ b).take n ≠ D := by
  cases x with
  | nil => exact absurd rfl hx
  | cons c x =>
    cases D with
    | nil => exact absurd rfl hD
    | cons d D =>
      rw [List.cons_append, List.cons_prefix_cons] at hp
      subst hn
      simp only [spoil, List.map_cons, List.cons_append, List.length_cons, List.take_succ_cons]
      intro h
      have h1 := (List.cons.inj h).1
      rw [hp.1] at h1
      have h2 := congrArg UInt8.toNat h1
      rw [UInt8.toNat_add] at h2
      have h3 := c.toNat_lt
      have h4 : (1 : UInt8).toNat = 1 := rfl
      omega

theorem flatten_take_cons {l : List Bytes} {k : ℕ} (hk : 1 ≤ k) (hl : 1 ≤ l.length) : (l.take k).flatten = l.getD 0 [] ++ ((l.drop 1).take (k - 1)).flatten := by
  cases l with
  | nil => simp at hl
  | cons a l =>
    cases k with
    | zero => omega
    | succ k => simp

/-- One wrong shard among the first `N - F`: the call fails. -/
theorem run_main_fail {env : REnv} (ok : env.Ok) (hF : 1 ≤ env.F) {D : Bytes} (hD : D.length < 2 ^ 32) (hne : D ≠ []) {sh : List Bytes} (he : env.rs.encode D = some sh) {s : RState}
    (hal : s.dead = false) (hmain : s.mainPos = .start) (hdec : s.decStart = true) (hmax : s.maxN = env.N) (hH : s.maxH = echoHash env D) (hidle : s.readyPos = .idle)
    (hT : s.T (echoHash env D) = (0, spoil (sh.getD 0 [])) :: readyList env.N sh) (hT' : ∀ h, h ≠ echoHash env D → s.T h = []) :
    ∃ k s', runParty env s (List.replicate k .main) = some (s', []) ∧ Failed env D s' := by
  have hsz := ok.size
  have hlenH := echoHash_length ok D
  have htake : (echoHash env D).take 32 = env.sha D := by
    rw [echoHash, List.take_append_of_le_length (by rw [ok.sha_len]), List.take_of_length_le (by rw [ok.sha_len])]
  have hdrop : (bytesToInt ((echoHash env D).drop 32)).toNat = D.length := by
    rw [echoHash, ← ok.sha_len D, List.drop_left, C01_int_range _ (by omega) (by omega)]
    simp
  have hfst : (readyList env.N sh).map Prod.fst = others env.N := by
    simp only [readyList, List.map_map]
    exact (List.map_congr_left (fun a _ => rfl)).trans (List.map_id _)
  have hTl : (s.T (echoHash env D)).length = env.N := by rw [hT]; simp [readyList, others]; omega
  have hTnd : ((s.T (echoHash env D)).map Prod.fst).Nodup := by
    rw [hT, List.map_cons, hfst, List.nodup_cons]
    exact ⟨fun h => absurd (mem_others.1 h).1 (by norm_num), others_nodup _⟩
  have hTlt : ∀ x ∈ s.T (echoHash env D), x.1 < env.N := by
    rw [hT]
    intro x hx
    rcases List.mem_cons.1 hx with rfl | hx
    · show 0 < env.N
      omega
    · obtain ⟨i, hi, rfl⟩ := List.mem_map.1 hx
      exact (mem_others.1 hi).2
  obtain ⟨M, h1, h2, h3, h4⟩ := placeShards_spec env.N (snapshot (env.N - env.F + 0) (s.T (echoHash env D))) (List.replicate env.N [])
    (by
      intro x hx
      rw [snapshot_take _ _ (by omega)] at hx
      exact hTlt x (List.mem_of_mem_take hx)) (by simp)
  have hM0 : M.getD 0 [] = spoil (sh.getD 0 []) := by
    refine h4 ?_ (0, spoil (sh.getD 0 [])) ?_
    · rw [snapshot_take _ _ (by omega), List.map_take]
      exact hTnd.sublist (List.take_sublist _ _)
    · rw [snapshot_take _ _ (by omega), hT, show env.N - env.F + 0 = (env.N - env.F - 1) + 1 by omega, List.take_succ_cons]
      exact List.mem_cons_self
  have hs0 : sh.getD 0 [] ≠ [] := shard_ne ok he (by omega)
  have hf0 : (env.rs.fill M).getD 0 [] = spoil (sh.getD 0 []) := by
    rw [ok.fill_keep M h2 0 (by rw [hM0]; exact spoil_ne hs0), hM0]
  obtain ⟨t, ht⟩ : ∃ t, ((env.rs.fill M).take (env.N - (env.F + 1))).flatten = spoil (sh.getD 0 []) ++ t :=
    ⟨_, by rw [flatten_take_cons (by omega) (by rw [ok.fill_len M h2]; omega), hf0]⟩
  have hpre := ok.systematic D sh he
  rw [flatten_take_cons (by omega) (by rw [ok.encode_len D sh he]; omega)] at hpre
  refine runParty_main_cons (s' := { s with mainPos := .poll 0 }) (by simp [rbcStep, hal, onMain, hmain, hdec]) ?_
  refine runParty_main_cons (s' := { s with mainPos := .locked 0 }) (by simp [rbcStep, hal, onMain, hmax]) ?_
  refine runParty_main_cons (s' := { s with mainPos := .gotM 0 (spoil (sh.getD 0 []) ++ t) }) ?_ ?_
  · simp only [rbcStep, hal, onMain, hidle, if_true, hH, h1, ht, Bool.false_eq_true, if_false, Option.map_some]
  refine runParty_main_cons (s' := { s with mainPos := .gotLen 0 (spoil (sh.getD 0 []) ++ t) D.length }) ?_ ?_
  · simp only [rbcStep, hal, onMain, hH, hlenH, hdrop, Bool.false_eq_true, if_false, Option.map_some, show ¬ (36 < 32) by norm_num]
  refine runParty_main_cons (s' := { s with mainPos := .trunc 0 (spoil (sh.getD 0 []) ++ t) D.length (env.sha D) }) ?_ ?_
  · simp only [rbcStep, hal, onMain, hH, hlenH, htake, Bool.false_eq_true, if_false, Option.map_some, show ¬ (36 < 32) by norm_num]
  generalize hfull : (spoil (sh.getD 0 []) ++ t) ++ env.spare (spoil (sh.getD 0 []) ++ t) = full
  have hmne : full.take D.length ≠ D := by
    rw [← hfull, List.append_assoc]
    exact spoil_head hs0 hne hpre _ rfl
  by_cases hlen : D.length ≤ full.length
  · refine runParty_main_cons (s' := { s with maxH := env.sha D, mainPos := .cmp 0 (full.take D.length) }) ?_ ?_
    · simp only [rbcStep, hal, onMain, Bool.false_eq_true, if_false, Option.map_some, hfull, if_pos hlen]
    by_cases hc : env.sha (full.take D.length) = env.sha D
    · refine runParty_main_cons (s' := { s with maxH := env.sha D, mainPos := .returned (some (full.take D.length)) }) ?_ (runParty_main_nil (Or.inr (Or.inr ⟨_, rfl, hmne, hc⟩)))
      simp only [rbcStep, hal, onMain, Bool.false_eq_true, if_false, if_pos hc, Option.map_some]
    · refine runParty_main_cons (s' := { s with maxH := env.sha D, mainPos := .poll 1 }) ?_ ?_
      · simp only [rbcStep, hal, onMain, Bool.false_eq_true, if_false, if_neg hc, Option.map_some]
      · refine run_rounds ok hF hne _ _ 1 rfl (le_refl _) hal rfl hmax rfl (hT' _ ?_) hidle
        intro h
        have := congrArg List.length h
        rw [ok.sha_len, hlenH] at this
        omega
  · refine runParty_main_cons (s' := { s with maxH := env.sha D, mainPos := .trunc 0 (spoil (sh.getD 0 []) ++ t) D.length (env.sha D), dead := true }) ?_ (runParty_main_nil (Or.inl rfl))
    simp only [rbcStep, hal, onMain, Bool.false_eq_true, if_false, Option.map_some, hfull, if_neg hlen]

/-- What a party does after its Ready when party 0 reports a wrong shard first. -/
def failEvents (env : REnv) (D : Bytes) (sh : List Bytes) (k : ℕ) (j : ℕ) : List NEvent :=
  ((0, spoil (sh.getD 0 [])) :: readyList env.N sh).flatMap (fun x => readyEvents j x.1 (readyData env D x)) ++ List.replicate k (.run j .main)

theorem spoil_length (x : Bytes) : (spoil x).length = x.length := by simp [spoil]

theorem failEvents_form {env : REnv} {D : Bytes} {sh : List Bytes} {k : ℕ → ℕ} {e : NEvent} (he : e ∈ (others env.N).flatMap (fun j => failEvents env D sh (k j) j)) :
    (∃ j s d, e = .deliver j .ready s d) ∨ ∃ j ev, e = .run j ev := by
  obtain ⟨j, _, h⟩ := List.mem_flatMap.1 he
  rcases List.mem_append.1 h with h | h
  · obtain ⟨x, _, he''⟩ := List.mem_flatMap.1 h
    simp only [readyEvents, List.mem_cons, List.not_mem_nil, or_false] at he''
    rcases he'' with rfl | rfl | rfl
    · exact Or.inl ⟨_, _, _, rfl⟩
    · exact Or.inr ⟨_, _, rfl⟩
    · exact Or.inr ⟨_, _, rfl⟩
  · obtain ⟨_, rfl⟩ := List.mem_replicate.1 h
    exact Or.inr ⟨_, _, rfl⟩

/-- An honest broadcast fails everywhere because of one wrong shard. -/
theorem attack_shard {env : REnv} (ok : env.Ok) (hF : 1 ≤ env.F) {b : ℕ} (hb : b ∈ othersSet env.N) (M : PMessage) (hD : (marshal M).length < 2 ^ 30) (hne : marshal M ≠ []) :
    ∃ evs net, NRun env (othersSet env.N) RNet.init (.send b M :: evs) net ∧ EchoOnce (.send b M :: evs) ∧ HonestCast b M (.send b M :: evs) ∧
      ∀ j ∈ othersSet env.N, Failed env (marshal M) (net.party j) := by
  have hsz := ok.size
  have hbN := (mem_others.1 (mem_othersSet.1 hb)).2
  obtain ⟨sh, he⟩ : ∃ sh, env.rs.encode (marshal M) = some sh := by
    cases h : env.rs.encode (marshal M) with
    | none => exact absurd ((ok.encode_none _).1 h) hne
    | some sh => exact ⟨sh, rfl⟩
  obtain ⟨n1, h1, h2, h3⟩ := run_common ok hF hb M hD he b hbN (fun _ => ⟨rfl, rfl⟩)
  have hfst : (readyList env.N sh).map Prod.fst = others env.N := by
    simp only [readyList, List.map_map]
    exact (List.map_congr_left (fun a _ => rfl)).trans (List.map_id _)
  have hlen : ((0, spoil (sh.getD 0 [])) :: readyList env.N sh).length = env.N := by simp [readyList, others]; omega
  have hparty : ∀ j ∈ others env.N, ∃ k s', runParty env (n1.party j) ((failEvents env (marshal M) sh k j).map evOf) = some (s', []) ∧ Failed env (marshal M) s' := by
    intro j hj
    obtain ⟨s1, a1, a2, a3, a4, a5, a6, a7, a8, a9, a10, a11, a12⟩ := run_readys ok (h2 j hj) j (h := echoHash env (marshal M)) ((0, spoil (sh.getD 0 [])) :: readyList env.N sh)
      (by
        rw [List.map_cons, hfst, List.nodup_cons]
        exact ⟨fun h => absurd (mem_others.1 h).1 (by norm_num), others_nodup _⟩) (readyData env (marshal M)) (by
        intro x hx
        rcases List.mem_cons.1 hx with rfl | hx
        · exact ready_decode ok hD (by rw [spoil_length]; exact shard_le ok he 0)
        · obtain ⟨s, _, rfl⟩ := List.mem_map.1 hx
          exact ready_decode ok hD (shard_le ok he s))
    obtain ⟨k, s2, g1, g2⟩ := run_main_fail ok hF (by omega) hne he a2 a12 (by rw [a9, hlen]; exact decide_eq_true (by omega)) (by rw [a7, hlen]) (a8 (by simp)) a11 a5 a6
    refine ⟨k, s2, ?_, g2⟩
    rw [failEvents, List.map_append, List.map_replicate]
    exact runParty_append a1 g1
  choose! k st hst1 hst2 using hparty
  obtain ⟨net', g1, g2, _, _⟩ := h1.phase (others env.N) (fun j hj => mem_othersSet.2 hj) (others_nodup _) (fun j => failEvents env (marshal M) sh (k j) j) st (fun _ => []) hst1 (by
    intro j hj e he'
    rcases List.mem_append.1 he' with h | h
    · obtain ⟨x, hx, he''⟩ := List.mem_flatMap.1 h
      have hdel : EvGuard env (othersSet env.N) n1.sent j (.deliver j .ready x.1 (readyData env (marshal M) x)) := by
        rcases List.mem_cons.1 hx with rfl | hx
        · exact ⟨rfl, by show 0 < env.N; omega, ready_size ok hD (by rw [spoil_length]; exact shard_le ok he 0),
            fun h => absurd (mem_others.1 (mem_othersSet.1 h)).1 (by norm_num)⟩
        · obtain ⟨s, hs, rfl⟩ := List.mem_map.1 hx
          exact ⟨rfl, (mem_others.1 hs).2, ready_size ok hD (shard_le ok he s), fun _ => h3 s hs j (mem_others.1 hj).2⟩
      simp only [readyEvents, List.mem_cons, List.not_mem_nil, or_false] at he''
      rcases he'' with rfl | rfl | rfl
      · exact hdel
      · exact ⟨rfl, rfl⟩
      · exact ⟨rfl, rfl⟩
    · obtain ⟨_, rfl⟩ := List.mem_replicate.1 h
      exact ⟨rfl, rfl⟩)
  refine ⟨_, net', by simpa using g1, ?_, ⟨?_, ?_, ?_⟩, fun j hj => by rw [g2 j (mem_othersSet.1 hj)]; exact hst2 j (mem_othersSet.1 hj)⟩
  · have := common_once env (send_no_echo (b := b) (M := M)) (marshal M) sh b ((others env.N).flatMap fun j => failEvents env (marshal M) sh (k j) j) (by
      intro e he' j s d hcon
      subst hcon
      rcases failEvents_form he' with ⟨_, _, _, h⟩ | ⟨_, _, h⟩ <;> cases h)
    simpa using this
  · intro j s d hm
    rcases List.mem_cons.1 hm with h | hm
    · cases h
    rcases List.mem_append.1 hm with h | h
    · obtain ⟨i, _, h⟩ := List.mem_flatMap.1 h
      simp only [List.mem_singleton, NEvent.deliver.injEq] at h
      exact h.2.2.1
    · rcases List.mem_append.1 h with h | h
      · obtain ⟨i, _, h⟩ := List.mem_flatMap.1 h
        obtain ⟨s, _, h⟩ := List.mem_map.1 h
        cases h
      · rcases failEvents_form h with ⟨_, _, _, h⟩ | ⟨_, _, h⟩ <;> cases h
  · intro M' hm
    rcases List.mem_cons.1 hm with h | hm
    · cases h; rfl
    rcases List.mem_append.1 hm with h | h
    · obtain ⟨i, _, h⟩ := List.mem_flatMap.1 h
      simp at h
    · rcases List.mem_append.1 h with h | h
      · obtain ⟨i, _, h⟩ := List.mem_flatMap.1 h
        obtain ⟨s, _, h⟩ := List.mem_map.1 h
        cases h
      · rcases failEvents_form h with ⟨_, _, _, h⟩ | ⟨_, _, h⟩ <;> cases h
  · intro M' x hm
    rcases List.mem_cons.1 hm with h | hm
    · cases h
    rcases List.mem_append.1 hm with h | h
    · obtain ⟨i, _, h⟩ := List.mem_flatMap.1 h
      simp at h
    · rcases List.mem_append.1 h with h | h
      · obtain ⟨i, _, h⟩ := List.mem_flatMap.1 h
        obtain ⟨s, _, h⟩ := List.mem_map.1 h
        cases h
      · rcases failEvents_form h with ⟨_, _, _, h⟩ | ⟨_, _, h⟩ <;> cases h

/-! ## A finished call stays finished -/

theorem onReady_main (s : RState) (j : ℕ) (h m : Bytes) : (onReady s j h m).mainPos = s.mainPos ∧ (onReady s j h m).dead = s.dead := by
  unfold onReady
  split
  · exact ⟨rfl, rfl⟩
  · simp only
    split <;> exact ⟨rfl, rfl⟩

theorem onEcho_main (env : REnv) (s : RState) (h m : Bytes) : (onEcho env s h m).1.mainPos = s.mainPos := by
  unfold onEcho
  simp only
  split
  · split <;> rfl
  · rfl

theorem onReadyStep_main {env : REnv} {s : RState} {p : RState × List ROut} (h : onReadyStep env s = some p) : p.1.mainPos = s.mainPos := by
  unfold onReadyStep at h
  repeat' split at h
  all_goals first | cases h; rfl | cases h

theorem step_returned {env : REnv} {s : RState} {ev : REvent} {p : RState × List ROut} (h : rbcStep env s ev = some p) {x : Option Bytes} (hm : s.mainPos = .returned x) :
    p.1.mainPos = .returned x := by
  unfold rbcStep at h
  split at h
  · cases h
  · cases ev with
    | propose d =>
      simp only at h
      repeat' split at h
      all_goals first | (cases h; exact hm) | cases h
    | echo d =>
      simp only at h
      split at h
      · cases h; rw [onEcho_main]; exact hm
      · cases h
    | echoPush =>
      simp only at h
      repeat' split at h
      all_goals first | (cases h; exact hm) | cases h
    | echoQuit =>
      simp only at h
      repeat' split at h
      all_goals first | (cases h; exact hm) | cases h
    | ready j d =>
      simp only at h
      split at h
      · cases h; rw [(onReady_main _ _ _ _).1]; exact hm
      · cases h
    | readyStep => rw [onReadyStep_main h]; exact hm
    | main => simp [onMain, hm] at h

theorem Failed.step {env : REnv} {D : Bytes} {s : RState} {ev : REvent} {p : RState × List ROut} (h : rbcStep env s ev = some p) (hf : Failed env D s) : Failed env D p.1 := by
  rcases hf with h1 | h1 | ⟨m, h1, h2⟩
  · simp [rbcStep, h1] at h
  · exact Or.inr (Or.inl (step_returned h h1))
  · exact Or.inr (Or.inr ⟨m, step_returned h h1, h2⟩)

theorem at_party {env : REnv} {net net' : RNet} {j : ℕ} {ev : REvent} (h : net.at_ env j ev = some net') (i : ℕ) :
    net'.party i = net.party i ∨ ∃ o, rbcStep env (net.party i) ev = some (net'.party i, o) := by
  simp only [RNet.at_, Option.map_eq_some_iff, Prod.exists] at h
  obtain ⟨s', out, h1, rfl⟩ := h
  by_cases hij : i = j
  · subst hij; right; exact ⟨out, by simpa using h1⟩
  · left; simp [hij]

theorem netStep_party {env : REnv} {H : Finset ℕ} {net net' : RNet} {e : NEvent} (h : netStep env H net e = some net') (i : ℕ) :
    net'.party i = net.party i ∨ ∃ ev o, rbcStep env (net.party i) ev = some (net'.party i, o) := by
  cases e with
  | send b M =>
    simp only [netStep] at h
    split at h
    · cases h; left; rfl
    · cases h
  | sendExcl b M xx =>
    simp only [netStep] at h
    split at h
    · cases h; left; rfl
    · cases h
  | deliver j k s d =>
    simp only [netStep] at h
    split at h
    · rcases at_party h i with h | ⟨o, h⟩
      · exact Or.inl h
      · exact Or.inr ⟨_, o, h⟩
    · cases h
  | run j ev =>
    simp only [netStep] at h
    split at h
    · rcases at_party h i with h | ⟨o, h⟩
      · exact Or.inl h
      · exact Or.inr ⟨_, o, h⟩
    · cases h

theorem Failed.run {env : REnv} {H : Finset ℕ} {D : Bytes} {net net' : RNet} {evs : List NEvent} (hr : NRun env H net evs net') {i : ℕ} (hf : Failed env D (net.party i)) :
    Failed env D (net'.party i) := by
  induction hr with
  | nil => exact hf
  | snoc _ hs ih =>
    rcases netStep_party hs i with h | ⟨ev, o, h⟩
    · rw [h]; exact ih
    · exact ih.step h

theorem Returned.run {env : REnv} {H : Finset ℕ} {net net' : RNet} {evs : List NEvent} (hr : NRun env H net evs net') {i : ℕ} {x : Option Bytes} (hf : (net.party i).mainPos = .returned x) :
    (net'.party i).mainPos = .returned x := by
  induction hr with
  | nil => exact hf
  | snoc _ hs ih =>
    rcases netStep_party hs i with h | ⟨ev, o, h⟩
    · rw [h]; exact ih
    · exact step_returned h ih

end DyCAPS
