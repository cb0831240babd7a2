import Verif.Props.RBCTotal
import Verif.Lemmas.RBCStall

/-!
# Reliable broadcast: C95 in committees of every size
-/

namespace DyCAPS

theorem stallScript_form {env : REnv} {b : ℕ} {D : Bytes} {sh : List Bytes} {X : Finset ℕ} {steps : ℕ → ℕ} {e : NEvent} (he : e ∈ stallScript env b D sh X steps) :
    (∃ j, e = .deliver j .propose b D) ∨ (∃ j s d, e = .deliver j .echo s d) ∨ (∃ j s d, e = .deliver j .ready s d) ∨ ∃ j, e = .run j .readyStep ∨ e = .run j .main := by
  rcases List.mem_append.1 he with h | h
  · rcases List.mem_append.1 h with h | h
    · obtain ⟨j, _, h⟩ := List.mem_flatMap.1 h
      exact Or.inl ⟨j, List.mem_singleton.1 h⟩
    · obtain ⟨j, _, h⟩ := List.mem_flatMap.1 h
      obtain ⟨s, _, rfl⟩ := List.mem_map.1 h
      exact Or.inr (Or.inl ⟨j, s, _, rfl⟩)
  · obtain ⟨j, _, h⟩ := List.mem_flatMap.1 h
    rcases stallEvents_form h with ⟨x, hx, h⟩ | h | h
    · exact Or.inr (Or.inr (Or.inl ⟨j, _, _, h⟩))
    · exact Or.inr (Or.inr (Or.inr ⟨j, Or.inl h⟩))
    · exact Or.inr (Or.inr (Or.inr ⟨j, Or.inr h⟩))

/-- The senders of the Echoes in this execution. -/
theorem stall_once (env : REnv) (b : ℕ) (M : PMessage) (D : Bytes) (sh : List Bytes) (X : Finset ℕ) (steps : ℕ → ℕ) : EchoOnce ([.send b M] ++ stallScript env b D sh X steps) := by
  intro j
  rw [stallScript, echoSenders_append, echoSenders_append, echoSenders_append, echoSenders_none (l := [NEvent.send b M]), echoSenders_none (l := (lastOnes env).flatMap fun j => [NEvent.deliver j .propose b D]),
    echoSenders_none (l := (lastOnes env).flatMap (stallEvents env D sh X steps)), List.nil_append, List.nil_append, List.append_nil]
  · have key : ∀ L : List ℕ, L.Nodup → (echoSenders (L.flatMap (lastEchoes env D sh)) j).Nodup ∧ (j ∉ L → echoSenders (L.flatMap (lastEchoes env D sh)) j = []) := by
      intro L hL
      induction L with
      | nil => exact ⟨by simp [echoSenders], fun _ => by simp [echoSenders]⟩
      | cons i L ih =>
        obtain ⟨hi, hL'⟩ := List.nodup_cons.1 hL
        obtain ⟨a1, a2⟩ := ih hL'
        have e : echoSenders (lastEchoes env D sh i) j = if i = j then lastOnes env else [] := by
          unfold echoSenders lastEchoes
          rw [List.filterMap_map]
          by_cases h : i = j
          · subst h
            rw [if_pos rfl]
            simp only [Function.comp_def, if_true]
            exact List.filterMap_some
          · rw [if_neg h, List.filterMap_eq_nil_iff]
            intro s _
            simp [h]
        rw [List.flatMap_cons, echoSenders_append, e]
        by_cases h : i = j
        · subst h
          rw [if_pos rfl, a2 hi, List.append_nil]
          exact ⟨lastOnes_nodup env, fun h => absurd List.mem_cons_self h⟩
        · rw [if_neg h, List.nil_append]
          exact ⟨a1, fun h' => a2 (fun h'' => h' (List.mem_cons_of_mem _ h''))⟩
    exact (key _ (lastOnes_nodup env)).1
  · intro e he' j s d hcon
    subst hcon
    obtain ⟨i, _, h⟩ := List.mem_flatMap.1 he'
    rcases stallEvents_form h with ⟨x, _, h⟩ | h | h <;> cases h
  · intro e he' j s d hcon
    subst hcon
    obtain ⟨i, _, h⟩ := List.mem_flatMap.1 he'
    simp at h
  · intro e he' j s d hcon
    subst hcon
    simp at he'

/-- The honest parties of this execution. -/
def lastSet (env : REnv) : Finset ℕ := (lastOnes env).toFinset

theorem mem_lastSet {env : REnv} (ok : env.Ok) {j : ℕ} : j ∈ lastSet env ↔ env.F ≤ j ∧ j < env.N := by
  have := ok.size
  rw [lastSet, List.mem_toFinset, mem_lastOnes (by omega)]

theorem lastSet_honest {env : REnv} (ok : env.Ok) : HonestSet env (lastSet env) :=
  ⟨fun _ hj => ((mem_lastSet ok).1 hj).2, by rw [lastSet, List.toFinset_card_of_nodup (lastOnes_nodup env), lastOnes_length]⟩

/-- **C95 (refuted), committees of every size with `F ≥ 2`.** The first `F` parties are corrupt and all silent but one, which sends one Ready with a wrong shard to the parties of `X`. The broadcaster is
honest, no Echo is repeated, and the execution is fair: every message between honest parties is handled and no goroutine is held up. The honest parties outside `X` return the message. Those in `X` never
return, whatever set `X` is, unless the wrong shard makes other bytes with the hash of the message. -/
theorem C95_refuted_every_size {env : REnv} (ok : env.Ok) (hF : 2 ≤ env.F) {b : ℕ} (hb0 : env.F ≤ b) (hb : b < env.N) (M : PMessage) (hD : (marshal M).length < 2 ^ 30) (hne : marshal M ≠ [])
    (X : Finset ℕ) :
    HonestSet env (lastSet env) ∧ b ∈ lastSet env ∧ ∃ r : IRun env (lastSet env), r.Fair ∧ r.ev 0 = some (.send b M) ∧ (∀ n, EchoOnce (r.before n)) ∧ (∀ n, HonestCast b M (r.before n)) ∧
      (∀ n j k s d, .deliver j k s d ∈ r.before n → s ∉ lastSet env → s = 0 ∧ k = .ready) ∧
      ∀ j ∈ lastSet env, (j ∉ X → ∃ n, ∀ m, n ≤ m → ((r.net m).party j).result = some (some M)) ∧
        (j ∈ X → (∀ n, ((r.net n).party j).result = none) ∨ ∃ m, Collision env m (marshal M)) := by
  have hsz := ok.size
  obtain ⟨sh, he⟩ : ∃ sh, env.rs.encode (marshal M) = some sh := by
    cases h : env.rs.encode (marshal M) with
    | none => exact absurd ((ok.encode_none _).1 h) hne
    | some sh => exact ⟨sh, rfl⟩
  have hbL : b ∈ lastOnes env := (mem_lastOnes (by omega)).2 ⟨hb0, hb⟩
  obtain ⟨steps, net, h1, h2, h3⟩ := stall_run ok (by omega) hbL M hD hne he X
  change NRun env (lastSet env) _ _ _ at h1
  have hset : Settled env (lastSet env) ([.send b M] ++ stallScript env b (marshal M) sh X steps) net := by
    refine ⟨fun j hj ev hev => ?_, fun j hj s hs k d hm _ => Or.inl ?_⟩
    · obtain ⟨a1, a2, a3, a4⟩ := h2 j (List.mem_toFinset.1 hj)
      by_cases hd : (net.party j).dead = true
      · cases ev <;> simp [rbcStep, hd]
      · have hmain : onMain env (net.party j) = none := by
          by_cases hX : j ∈ X
          · obtain ⟨⟨b1, _⟩ | b1 | ⟨m, b1, _⟩, b2⟩ := a3 hX
            · exact absurd b1 hd
            · simp only [onMain, b1, b2]
              rw [if_neg (by omega), if_neg (by omega)]
            · simp [onMain, b1]
          · simp [onMain, a4 hX]
        cases ev with
        | propose => cases hev
        | echo => cases hev
        | ready => cases hev
        | echoPush => simp [rbcStep, hd, a1]
        | echoQuit => simp [rbcStep, hd, a1]
        | readyStep => simp [rbcStep, hd, onReadyStep, a2]
        | main => simp [rbcStep, hd, hmain]
    · refine List.mem_append_right _ ?_
      have hj' := List.mem_toFinset.1 hj
      obtain ⟨hs', ⟨rfl, i, ho⟩ | ⟨i, ho⟩ | ⟨i, ho⟩⟩ := h3 _ _ hm
      · cases ho
        exact List.mem_append_left _ (List.mem_append_left _ (List.mem_flatMap.2 ⟨_, hj', by simp⟩))
      · cases ho
        exact List.mem_append_left _ (List.mem_append_right _ (List.mem_flatMap.2 ⟨_, hj', List.mem_map.2 ⟨s, hs', rfl⟩⟩))
      · cases ho
        exact List.mem_append_right _ (List.mem_flatMap.2 ⟨_, hj', stall_ready_mem hs'⟩)
  obtain ⟨r, a1, a2⟩ := IRun.of_run h1
  have hsub : ∀ n, r.before n ⊆ [NEvent.send b M] ++ stallScript env b (marshal M) sh X steps := fun n => by rw [IRun.before_of_list a1]; exact List.take_subset _ _
  have hform : ∀ n, ∀ e ∈ r.before n, e = .send b M ∨ e ∈ stallScript env b (marshal M) sh X steps := fun n e h => by
    rcases List.mem_append.1 (hsub n h) with h | h
    · exact Or.inl (List.mem_singleton.1 h)
    · exact Or.inr h
  refine ⟨lastSet_honest ok, (mem_lastSet ok).2 ⟨hb0, hb⟩, r, IRun.fair_of_settled a1 a2 hset, by rw [a1]; rfl, fun n j => ?_, fun n => ⟨?_, ?_, ?_⟩, fun n j k s d hm hs => ?_, fun j hj => ⟨fun hX => ?_, fun hX => ?_⟩⟩
  · rw [IRun.before_of_list a1]
    exact (stall_once env b M (marshal M) sh X steps j).sublist ((List.take_sublist n _).filterMap _)
  · intro j s d hm
    rcases hform n _ hm with h | h
    · cases h
    · rcases stallScript_form h with ⟨_, h⟩ | ⟨_, _, _, h⟩ | ⟨_, _, _, h⟩ | ⟨_, h | h⟩ <;> cases h
      rfl
  · intro M' hm
    rcases hform n _ hm with h | h
    · cases h; rfl
    · rcases stallScript_form h with ⟨_, h⟩ | ⟨_, _, _, h⟩ | ⟨_, _, _, h⟩ | ⟨_, h | h⟩ <;> cases h
  · intro M' y hm
    rcases hform n _ hm with h | h
    · cases h
    · rcases stallScript_form h with ⟨_, h⟩ | ⟨_, _, _, h⟩ | ⟨_, _, _, h⟩ | ⟨_, h | h⟩ <;> cases h
  · rcases hform n _ hm with h | h
    · cases h
    · rcases List.mem_append.1 h with h | h
      · rcases List.mem_append.1 h with h | h
        · obtain ⟨i, _, h⟩ := List.mem_flatMap.1 h
          cases List.mem_singleton.1 h
          exact absurd ((mem_lastSet ok).2 ⟨hb0, hb⟩) hs
        · obtain ⟨i, _, h⟩ := List.mem_flatMap.1 h
          obtain ⟨s', hs', h⟩ := List.mem_map.1 h
          cases h
          exact absurd (List.mem_toFinset.2 hs') hs
      · obtain ⟨i, _, h⟩ := List.mem_flatMap.1 h
        rcases stallEvents_form h with ⟨x, hx, h⟩ | h | h
        · cases h
          rcases List.mem_cons.1 hx with rfl | hx
          · exact ⟨rfl, rfl⟩
          · obtain ⟨s', hs', rfl⟩ := List.mem_map.1 hx
            exact absurd (List.mem_toFinset.2 hs') hs
        · cases h
        · cases h
  · refine ⟨([NEvent.send b M] ++ stallScript env b (marshal M) sh X steps).length, fun m hm => ?_⟩
    rw [a2 m hm]
    exact result_marshal hD ((h2 j (List.mem_toFinset.1 hj)).2.2.2 hX)
  · have hnone : (∀ res, (net.party j).mainPos ≠ .returned res) → ∀ n, ((r.net n).party j).result = none := by
      intro hend n
      have hno : ∀ res, ((r.net n).party j).mainPos ≠ .returned res := fun res h => by
        have := r.keeps (le_max_left n ([NEvent.send b M] ++ stallScript env b (marshal M) sh X steps).length) h
        rw [a2 _ (le_max_right _ _)] at this
        exact hend res this
      unfold RState.result
      split
      · rename_i h; exact absurd h (hno _)
      · rename_i h; exact absurd h (hno _)
      · rfl
    rcases ((h2 j (List.mem_toFinset.1 hj)).2.2.1 hX).1 with ⟨_, h⟩ | h | ⟨m, _, hc⟩
    · exact Or.inl (hnone h)
    · exact Or.inl (hnone fun res h' => by rw [h] at h'; cases h')
    · exact Or.inr ⟨m, hc⟩

/-- Seven parties, the corrupt ones are 0 and 1, party 4 broadcasts: parties 3, 4 and 6 return the message, parties 2 and 5 never return (or the hash of this environment has a collision). -/
example : ∃ r : IRun (toyEnv 7 2) {2, 3, 4, 5, 6}, r.Fair ∧ r.ev 0 = some (.send 4 toyM) ∧
    (∀ j ∈ ({3, 4, 6} : Finset ℕ), ∃ n, ∀ m, n ≤ m → ((r.net m).party j).result = some (some toyM)) ∧
    ∀ j ∈ ({2, 5} : Finset ℕ), (∀ n, ((r.net n).party j).result = none) ∨ ∃ m, Collision (toyEnv 7 2) m (marshal toyM) := by
  have e : lastSet (toyEnv 7 2) = {2, 3, 4, 5, 6} := by decide
  obtain ⟨_, _, h⟩ := C95_refuted_every_size (toyEnv_ok (N := 7) (F := 2) (by norm_num) (by norm_num)) (le_refl 2) (b := 4) (by show 2 ≤ 4; norm_num) (by show 4 < 7; norm_num) toyM
    (by decide +kernel) (by decide +kernel) {2, 5}
  rw [e] at h
  obtain ⟨r, h1, h2, _, _, _, h3⟩ := h
  refine ⟨r, h1, h2, fun j hj => (h3 j ?_).1 ?_, fun j hj => (h3 j ?_).2 hj⟩
  all_goals (revert j; decide)

/-- The same execution computed: no collision here, parties 2 and 5 are alive and wait for seven Readys after five honest ones and the wrong one. -/
example : ((toyEnv 7 2).rs.encode (marshal toyM)).any (fun sh =>
    (runNet (toyEnv 7 2) {2, 3, 4, 5, 6} RNet.init ([.send 4 toyM] ++ stallScript (toyEnv 7 2) 4 (marshal toyM) sh {2, 5} (fun j => if j = 2 ∨ j = 5 then 13 else 7))).any fun net =>
      ([2, 5].all fun j => (match (net.party j).mainPos with | .poll k => k == 2 | _ => false) && !(net.party j).dead && (net.party j).maxN == 6) &&
        ([3, 4, 6].all fun j => decide ((net.party j).result = some (some toyM)))) = true := by
  decide +kernel

end DyCAPS
