import Verif.Lemmas.RBCFail

/-!
# Reliable broadcast: a wrong shard for some of the parties
-/

namespace DyCAPS

/-- After its Ready a party gets the honest Readys only (`none`), or the wrong shard of party 0 first and then takes `k` steps. -/
def mixedEvents (env : REnv) (D : Bytes) (sh : List Bytes) (how : ℕ → Option ℕ) (j : ℕ) : List NEvent :=
  match how j with
  | none => endEvents env D sh j
  | some k => failEvents env D sh k j

theorem readyEvents_form {env : REnv} {D : Bytes} {l : List (ℕ × Bytes)} {k j : ℕ} {e : NEvent}
    (he : e ∈ l.flatMap (fun x => readyEvents j x.1 (readyData env D x)) ++ List.replicate k (.run j .main)) :
    (∃ x ∈ l, e = .deliver j .ready x.1 (readyData env D x)) ∨ e = .run j .readyStep ∨ e = .run j .main := by
  rcases List.mem_append.1 he with h | h
  · obtain ⟨x, hx, he''⟩ := List.mem_flatMap.1 h
    simp only [readyEvents, List.mem_cons, List.not_mem_nil, or_false] at he''
    rcases he'' with rfl | rfl | rfl
    · exact Or.inl ⟨x, hx, rfl⟩
    · exact Or.inr (by simp)
    · exact Or.inr (by simp)
  · obtain ⟨_, rfl⟩ := List.mem_replicate.1 h
    exact Or.inr (by simp)

theorem mixedEvents_form {env : REnv} {D : Bytes} {sh : List Bytes} {how : ℕ → Option ℕ} {j : ℕ} {e : NEvent} (he : e ∈ mixedEvents env D sh how j) :
    (∃ x ∈ (0, spoil (sh.getD 0 [])) :: readyList env.N sh, e = .deliver j .ready x.1 (readyData env D x)) ∨ e = .run j .readyStep ∨ e = .run j .main := by
  unfold mixedEvents at he
  split at he
  · rcases readyEvents_form he with ⟨x, hx, h⟩ | h
    · exact Or.inl ⟨x, List.mem_cons_of_mem _ hx, h⟩
    · exact Or.inr h
  · exact readyEvents_form he

/-- Party 0 chooses the honest parties `X` at which an honest broadcast fails; the others return the message. -/
theorem attack_mixed {env : REnv} (ok : env.Ok) (hF : 1 ≤ env.F) {b : ℕ} (hb : b ∈ othersSet env.N) (M : PMessage) (hD : (marshal M).length < 2 ^ 30) (hne : marshal M ≠ []) (X : Finset ℕ) :
    ∃ evs net, NRun env (othersSet env.N) RNet.init (.send b M :: evs) net ∧ EchoOnce (.send b M :: evs) ∧ HonestCast b M (.send b M :: evs) ∧
      ∀ j ∈ othersSet env.N, (j ∈ X → Failed env (marshal M) (net.party j)) ∧ (j ∉ X → (net.party j).mainPos = .returned (some (marshal M))) := by
  have hsz := ok.size
  have hbN := (mem_others.1 (mem_othersSet.1 hb)).2
  obtain ⟨sh, he⟩ : ∃ sh, env.rs.encode (marshal M) = some sh := by
    cases h : env.rs.encode (marshal M) with
    | none => exact absurd ((ok.encode_none _).1 h) hne
    | some sh => exact ⟨sh, rfl⟩
  obtain ⟨n1, h1, h2, h3⟩ := run_common ok hF hb M hD he b hbN (fun _ => ⟨rfl, rfl⟩)
  have hfst : (readyList env.N sh).map Prod.fst = others env.N := by
    simp only [readyList, List.map_map]
    exact (List.map_congr_left (fun a _ => rfl)).trans (List.map_id _)
  have hlen' : (readyList env.N sh).length = env.N - 1 := by simp [readyList, others]
  have hlen : ((0, spoil (sh.getD 0 [])) :: readyList env.N sh).length = env.N := by rw [List.length_cons, hlen']; omega
  have hparty : ∀ j ∈ others env.N, ∃ (r : Option ℕ) (s' : RState), runParty env (n1.party j) ((mixedEvents env (marshal M) sh (fun _ => r) j).map evOf) = some (s', []) ∧
      (j ∈ X → Failed env (marshal M) s') ∧ (j ∉ X → s'.mainPos = .returned (some (marshal M))) := by
    intro j hj
    by_cases hX : j ∈ X
    · obtain ⟨s1, a1, a2, a3, a4, a5, a6, a7, a8, a9, a10, a11, a12⟩ := run_readys ok (h2 j hj) j (h := echoHash env (marshal M)) ((0, spoil (sh.getD 0 [])) :: readyList env.N sh)
        (by
          rw [List.map_cons, hfst, List.nodup_cons]
          exact ⟨fun h => absurd (mem_others.1 h).1 (by norm_num), others_nodup _⟩) (readyData env (marshal M)) (by
          intro x hx
          rcases List.mem_cons.1 hx with rfl | hx
          · exact ready_decode ok hD (by rw [spoil_length]; exact shard_le ok he 0)
          · obtain ⟨s, _, rfl⟩ := List.mem_map.1 hx
            exact ready_decode ok hD (shard_le ok he s))
      obtain ⟨k, s2, g1, g2⟩ := run_main_fail ok hF (by omega) hne he a2 a12 (by rw [a9, hlen]; exact decide_eq_true (by omega)) (by rw [a7, hlen]) (a8 (by simp)) a11 a5 a6
      refine ⟨some k, s2, ?_, fun _ => g2, fun h => absurd hX h⟩
      simp only [mixedEvents]
      rw [failEvents, List.map_append, List.map_replicate]
      exact runParty_append a1 g1
    · obtain ⟨s1, a1, a2, a3, a4, a5, a6, a7, a8, a9, a10, a11, a12⟩ := run_readys ok (h2 j hj) j (h := echoHash env (marshal M)) (readyList env.N sh)
        (by rw [hfst]; exact others_nodup _) (readyData env (marshal M)) (by
          intro x hx
          obtain ⟨s, _, rfl⟩ := List.mem_map.1 hx
          exact ready_decode ok hD (shard_le ok he s))
      obtain ⟨s2, g1, g2⟩ := run_main ok (by omega) he a2 a12 (by rw [a9]; exact decide_eq_true (by omega)) (by rw [a7]; omega)
        (a8 (by intro h0; rw [h0] at hlen'; simp at hlen'; omega)) a11 (by rw [a5]; omega)
        (by
          rw [a5]; intro x hx
          obtain ⟨s, hs, rfl⟩ := List.mem_map.1 hx
          exact (mem_others.1 hs).2)
        (by rw [a5, hfst]; exact others_nodup _)
        (by
          rw [a5]; intro x hx
          obtain ⟨s, hs, rfl⟩ := List.mem_map.1 hx
          rfl) j
      refine ⟨none, s2, ?_, fun h => absurd h hX, fun _ => g2⟩
      simp only [mixedEvents]
      rw [endEvents, List.map_append]
      exact runParty_append a1 g1
  choose! how st hst1 hst2 using hparty
  have hsame : ∀ j, mixedEvents env (marshal M) sh how j = mixedEvents env (marshal M) sh (fun _ => how j) j := fun j => rfl
  obtain ⟨net', g1, g2, _, _⟩ := h1.phase (others env.N) (fun j hj => mem_othersSet.2 hj) (others_nodup _) (fun j => mixedEvents env (marshal M) sh how j) st (fun _ => [])
    (fun j hj => by rw [hsame]; exact hst1 j hj) (by
    intro j hj e he'
    rcases mixedEvents_form he' with ⟨x, hx, rfl⟩ | rfl | rfl
    · rcases List.mem_cons.1 hx with rfl | hx
      · exact ⟨rfl, by show 0 < env.N; omega, ready_size ok hD (by rw [spoil_length]; exact shard_le ok he 0),
          fun h => absurd (mem_others.1 (mem_othersSet.1 h)).1 (by norm_num)⟩
      · obtain ⟨s, hs, rfl⟩ := List.mem_map.1 hx
        exact ⟨rfl, (mem_others.1 hs).2, ready_size ok hD (shard_le ok he s), fun _ => h3 s hs j (mem_others.1 hj).2⟩
    · exact ⟨rfl, rfl⟩
    · exact ⟨rfl, rfl⟩)
  have hrest : ∀ e ∈ (others env.N).flatMap fun j => mixedEvents env (marshal M) sh how j, (∃ j s d, e = .deliver j .ready s d) ∨ ∃ j ev, e = .run j ev := by
    intro e he'
    obtain ⟨j, _, h⟩ := List.mem_flatMap.1 he'
    rcases mixedEvents_form h with ⟨x, hx, rfl⟩ | rfl | rfl
    · exact Or.inl ⟨_, _, _, rfl⟩
    · exact Or.inr ⟨_, _, rfl⟩
    · exact Or.inr ⟨_, _, rfl⟩
  have hother : ∀ e ∈ (([NEvent.send b M] ++ (others env.N).flatMap fun j => [NEvent.deliver j .propose b (marshal M)]) ++ (others env.N).flatMap (echoEvents env (marshal M) sh)) ++
      (others env.N).flatMap (fun j => mixedEvents env (marshal M) sh how j),
      e = .send b M ∨ (∃ j, e = .deliver j .propose b (marshal M)) ∨ (∃ j k s d, k ≠ RKind.propose ∧ e = .deliver j k s d) ∨ ∃ j ev, e = .run j ev := by
    intro e he'
    rcases List.mem_append.1 he' with h | h
    · rcases List.mem_append.1 h with h | h
      · rcases List.mem_append.1 h with h | h
        · exact Or.inl (List.mem_singleton.1 h)
        · obtain ⟨j, _, h⟩ := List.mem_flatMap.1 h
          exact Or.inr (Or.inl ⟨j, List.mem_singleton.1 h⟩)
      · obtain ⟨j, _, h⟩ := List.mem_flatMap.1 h
        obtain ⟨s, _, rfl⟩ := List.mem_map.1 h
        exact Or.inr (Or.inr (Or.inl ⟨_, _, _, _, by simp, rfl⟩))
    · rcases hrest e h with ⟨_, _, _, rfl⟩ | ⟨_, _, rfl⟩
      · exact Or.inr (Or.inr (Or.inl ⟨_, _, _, _, by simp, rfl⟩))
      · exact Or.inr (Or.inr (Or.inr ⟨_, _, rfl⟩))
  have hsplit : (([NEvent.send b M] ++ (others env.N).flatMap fun j => [NEvent.deliver j .propose b (marshal M)]) ++ (others env.N).flatMap (echoEvents env (marshal M) sh)) ++
      (others env.N).flatMap (fun j => mixedEvents env (marshal M) sh how j) = .send b M ::
        (((others env.N).flatMap fun j => [NEvent.deliver j .propose b (marshal M)]) ++ (others env.N).flatMap (echoEvents env (marshal M) sh) ++
      (others env.N).flatMap (fun j => mixedEvents env (marshal M) sh how j)) := by simp
  have honce := common_once env (send_no_echo (b := b) (M := M)) (marshal M) sh b ((others env.N).flatMap fun j => mixedEvents env (marshal M) sh how j) (by
      intro e he' j s d hcon
      subst hcon
      rcases hrest _ he' with ⟨_, _, _, h⟩ | ⟨_, _, h⟩ <;> cases h)
  rw [hsplit] at g1 hother honce
  refine ⟨_, net', g1, honce, ⟨?_, ?_, ?_⟩, fun j hj => by rw [g2 j (mem_othersSet.1 hj)]; exact hst2 j (mem_othersSet.1 hj)⟩
  · intro j s d h
    rcases hother _ h with h | ⟨_, h⟩ | ⟨_, _, _, _, hk, h⟩ | ⟨_, _, h⟩ <;> cases h
    · rfl
    · exact absurd rfl hk
  · intro M' h
    rcases hother _ h with h | ⟨_, h⟩ | ⟨_, _, _, _, hk, h⟩ | ⟨_, _, h⟩ <;> cases h
    rfl
  · intro M' x h
    rcases hother _ h with h | ⟨_, h⟩ | ⟨_, _, _, _, hk, h⟩ | ⟨_, _, h⟩ <;> cases h

end DyCAPS
