import Verif.Lemmas.Clog
import Verif.Props.DistRace

/-!
# C125: the queues are large enough for members that follow the protocol
-/

namespace DyCAPS

/-- **C125 (who sends at most `N` messages for every queue).** However the messages come in and whatever is or is not read: if the messages that have arrived come from `N` members, and `n a k` messages of member `a`
for queue `k` are at most `N`, the dispatcher is never held up: it gets every message that has arrived into its queue, without any reader. -/
theorem C125_bounded_senders {N : ℕ} {evs : List DEvent} {s : DState} (h : DRun N .init evs s) (n : ℕ → String × Bytes → ℕ) (hn : ∀ a < N, ∀ k, n a k ≤ N)
    (harr : ∀ t id, (s.arrived.filter (hasKey t id)).length ≤ ∑ a ∈ Finset.range N, n a (t, id)) :
    (∀ m c, s.disp = some (m, .have_ c) → (dStep N s .push).isSome = true) ∧
    ∃ evs' s', (∀ e ∈ evs', e.isDispatcher = true) ∧ DRun N s evs' s' ∧ s'.log = s.log ∧ ∀ t id,
      (s'.log.filter (fun e => decide (e.1 = (t, id)))).map (·.2) ++ s'.queued t id = s.arrived.filter (hasKey t id) := by
  have hc : ∀ t id, (s.arrived.filter (hasKey t id)).length ≤ N * N := by
    intro t id
    refine (harr t id).trans ?_
    calc ∑ a ∈ Finset.range N, n a (t, id) ≤ ∑ _a ∈ Finset.range N, N := Finset.sum_le_sum fun a ha => hn a (Finset.mem_range.1 ha) _
      _ = N * N := by simp
  refine ⟨fun m c hd => ?_, C06_delivery_partial h fun t id => (hc t id).trans (by omega)⟩
  have hi := DInv.run h
  obtain ⟨mp, h1, h2⟩ := hi.disp_ok m _ hd
  have h3 := hi.count m.type m.id
  have h4 := hc m.type m.id
  rw [queued_of h1 h2] at h3
  simp only [DState.holding, hd] at h3
  have : ([m].filter (hasKey m.type m.id)).length = 1 := by simp [hasKey]
  simp only [dStep, hd]
  rw [if_pos (by omega)]
  rfl

/-- A key is the key of one queue. -/
theorem phaseKey_inj {idV idH idR : Bytes} {u u' : QueueUse} (hu : u.Fits) (hu' : u'.Fits) (h : phaseKey idV idH idR u = phaseKey idV idH idR u') : u = u' :=
  (C91_queues_apart _ _ u u' hu hu' h).2

theorem usesBy_fits {N : ℕ} {outs : List POut} {said : List MMsg} {casts casts' : ℕ → List (ℕ × ROut)} {a l : ℕ} (hf : ∀ m ∈ said, m.use.Fits) : ∀ u ∈ usesBy N outs said casts casts' a l, u.Fits ∧ u ≠ .vssSend := by
  intro u hu
  simp only [usesBy, List.mem_append] at hu
  rcases hu with (((hu | hu) | hu) | hu) | hu
  · simp only [List.mem_cons, List.not_mem_nil, or_false] at hu
    rcases hu with rfl | rfl | rfl | rfl <;> exact ⟨trivial, by simp⟩
  · obtain ⟨o, -, ho⟩ := List.mem_filterMap.1 hu
    cases o with
    | recover l' m => simp only [POut.useAt] at ho; split at ho <;> cases ho; exact ⟨trivial, by simp⟩
    | mvba i => cases ho
    | success => cases ho; exact ⟨trivial, by simp⟩
  · obtain ⟨m, hm, rfl⟩ := List.mem_map.1 hu
    exact ⟨hf m hm, by cases m <;> simp [MMsg.use]⟩
  · obtain ⟨x, -, hx⟩ := List.mem_flatMap.1 hu
    rw [List.eq_of_mem_replicate hx]
    exact ⟨trivial, by simp⟩
  · obtain ⟨x, -, hx⟩ := List.mem_flatMap.1 hu
    rw [List.eq_of_mem_replicate hx]
    exact ⟨trivial, by simp⟩

section
variable {G1 G2 GT : Type} [AddCommGroup G1] [Module Fr G1] [AddCommGroup G2] [Module Fr G2] [AddCommGroup GT] [Module Fr GT]
variable [DecidableEq G1] [DecidableEq GT]

/-- **C125 (one member).** Whatever it receives, a member that follows the protocol sends every member at most `N` messages for every queue, in the hand-off and the refresh together. -/
theorem C125_member (codec : PointCodec G1) (pp : Pairing Fr G1 G2 GT) {N a : ℕ} (hN : 2 ≤ N) {outs : List POut} {said : List MMsg} {casts casts' : ℕ → List (ℕ × ROut)}
    (hrun : ∃ tb p0 c evs p st, p0.N = N ∧ PRun codec pp tb p0 (PState.init p0 c) evs outs p st) (hsaid : ∃ env v val evs st, MLocal env a v val evs st said)
    (hcast : ∀ j, ∃ env H evs net, NRun env H .init evs net ∧ net.sent = casts j ∧ evs.countP (NEvent.castBy a) ≤ 1)
    (hcast' : ∀ j, ∃ env H evs net, NRun env H .init evs net ∧ net.sent = casts' j ∧ evs.countP (NEvent.castBy a) ≤ 1) (l : ℕ) (u : QueueUse) :
    (usesBy N outs said casts casts' a l).count u ≤ N := by
  obtain ⟨tb, p0, c, evs, p, st, rfl, hr⟩ := hrun
  obtain ⟨env, v, val, evsM, stM, hm⟩ := hsaid
  obtain ⟨b1, -, b3⟩ := C102_bounded codec pp tb p0 c evs outs p st hr
  refine uses_count hN (b1 _) (by omega) (C100_once hm) (fun j q => ?_) (fun j q => ?_) u
  · obtain ⟨env, H, evs, net, h1, h2, h3⟩ := hcast j
    rw [← h2]
    exact cast_bound h1 h3 l q
  · obtain ⟨env, H, evs, net, h1, h2, h3⟩ := hcast' j
    rw [← h2]
    exact cast_bound h1 h3 l q

/-- **C125.** A committee of `N ≥ 2` members, one sharing, one hand-off and one refresh; all members follow the protocol, with whatever they receive, in fewer than `2^32` rounds of the agreement. At member `l`, let
any of the messages sent to it have arrived, in any order, and any of them have been read. Then the dispatcher is not held up by a full queue, and can get everything that has arrived into the queues, even if
nobody reads any more. -/
theorem C125_never_full (codec : PointCodec G1) (pp : Pairing Fr G1 G2 GT) {N l : ℕ} (hN : 2 ≤ N) (idV idH idR : Bytes) (outs : ℕ → List POut) (said : ℕ → List MMsg) (casts casts' : ℕ → List (ℕ × ROut))
    (hrun : ∀ a < N, ∃ tb p0 c evs p st, p0.N = N ∧ PRun codec pp tb p0 (PState.init p0 c) evs (outs a) p st) (hsaid : ∀ a < N, ∃ env v val evs st, MLocal env a v val evs st (said a))
    (hrounds : ∀ a < N, ∀ m ∈ said a, m.use.Fits)
    (hcast : ∀ j, ∃ env H evs net, NRun env H .init evs net ∧ net.sent = casts j ∧ ∀ a < N, evs.countP (NEvent.castBy a) ≤ 1)
    (hcast' : ∀ j, ∃ env H evs net, NRun env H .init evs net ∧ net.sent = casts' j ∧ ∀ a < N, evs.countP (NEvent.castBy a) ≤ 1)
    {evs : List DEvent} {s : DState} (h : DRun N .init evs s)
    (harr : ∀ t id, (s.arrived.filter (hasKey t id)).length ≤
      (∑ a ∈ Finset.range N, (usesBy N (outs a) (said a) casts casts' a l).countP fun u => phaseKey idV idH idR u = (t, id)) + if phaseKey idV idH idR .vssSend = (t, id) then 1 else 0) :
    (∀ m c, s.disp = some (m, .have_ c) → (dStep N s .push).isSome = true) ∧
    ∃ evs' s', (∀ e ∈ evs', e.isDispatcher = true) ∧ DRun N s evs' s' ∧ s'.log = s.log ∧ ∀ t id,
      (s'.log.filter (fun e => decide (e.1 = (t, id)))).map (·.2) ++ s'.queued t id = s.arrived.filter (hasKey t id) := by
  refine C125_bounded_senders h (fun a k => (usesBy N (outs a) (said a) casts casts' a l).countP (fun u => phaseKey idV idH idR u = k) + if a = 0 ∧ phaseKey idV idH idR .vssSend = k then 1 else 0) ?_ ?_
  · intro a ha k
    have hfit := usesBy_fits (N := N) (outs := outs a) (casts := casts) (casts' := casts') (a := a) (l := l) (hrounds a ha)
    have hcnt := C125_member codec pp hN (hrun a ha) (hsaid a ha) (fun j => let ⟨e, H, ev, n, x, y, z⟩ := hcast j; ⟨e, H, ev, n, x, y, z a ha⟩)
      (fun j => let ⟨e, H, ev, n, x, y, z⟩ := hcast' j; ⟨e, H, ev, n, x, y, z a ha⟩) l
    show List.countP _ _ + _ ≤ N
    by_cases hex : ∃ u ∈ usesBy N (outs a) (said a) casts casts' a l, phaseKey idV idH idR u = k
    · obtain ⟨u, hu, rfl⟩ := hex
      rw [if_neg fun hc => (hfit u hu).2 (phaseKey_inj (u := .vssSend) trivial (hfit u hu).1 hc.2).symm]
      refine le_trans (le_of_eq ?_) (hcnt u)
      rw [Nat.add_zero, List.count_eq_countP]
      refine List.countP_congr fun u' hu' => ?_
      simp only [decide_eq_true_eq, beq_iff_eq]
      exact ⟨fun e => phaseKey_inj (hfit u' hu').1 (hfit u hu).1 e, fun e => by rw [e]⟩
    · rw [List.countP_eq_zero.2 fun u hu => by simpa using fun e => hex ⟨u, hu, e⟩]
      split <;> omega
  · intro t id
    refine (harr t id).trans (le_of_eq ?_)
    rw [Finset.sum_add_distrib]
    congr 1
    by_cases hk : phaseKey idV idH idR .vssSend = (t, id)
    · simp only [hk, and_true, if_true]
      rw [Finset.sum_ite_eq' (Finset.range N) 0 fun _ => 1, if_pos (Finset.mem_range.2 (by omega))]
    · simp [hk]

end

/-! ## Cases -/

theorem filter_copies (k : ℕ) (m : PMessage) (t : String) (id : Bytes) : (List.replicate k m).filter (hasKey t id) = if m.type = t ∧ m.id = id then List.replicate k m else [] := by
  simp [List.filter_replicate, hasKey]

/-- The 16 Recover messages that four members send to each of them, unread: they fill the queue and nothing is left over. -/
example : ∃ evs s, DRun 4 .init evs s ∧ s.arrived = List.replicate 16 (⟨"Recover", [1], 0, []⟩ : PMessage) ∧ s.log = [] ∧ ∃ evs' s', DRun 4 s evs' s' ∧ (s'.queued "Recover" [1]).length = 16 := by
  obtain ⟨evs, s, h1, h2, h3, h4, h5⟩ := flood_run 4 ⟨"Recover", [1], 0, []⟩ 16 (by norm_num)
  obtain ⟨-, evs', s', -, k2, k3, k4⟩ := C125_bounded_senders h1 (fun _ k => if k = ("Recover", [1]) then 4 else 0) (fun a _ k => by show ite _ _ _ ≤ _; split <;> omega) (by
    intro t id
    rw [h5, filter_copies]
    split
    · rename_i hk
      obtain ⟨rfl, rfl⟩ := hk
      rw [List.length_replicate]
      simp only [if_true, Finset.sum_const, Finset.card_range]
      norm_num
    · exact Nat.zero_le _)
  refine ⟨evs, s, h1, h5, h4, evs', s', k2, ?_⟩
  have := k4 "Recover" [1]
  rw [k3, h4, h5, filter_copies, if_pos ⟨rfl, rfl⟩] at this
  have := congrArg List.length this
  rw [List.length_replicate] at this
  exact this

open Toy in
/-- The finished refresh of C98 (three of four members have their new shares and have reported it): the three Success messages, unread, get into their queue. -/
example : ∃ (S : RefSetup Fr Fr) (n : ℕ) (net : RefNet Fr Fr) (evs : List DEvent) (s : DState), RefReach frCodec (Pairing.dlog Fr) S n net ∧ (∀ i < 3, (net.st i).finished = true) ∧ DRun 4 .init evs s ∧
    s.arrived = List.replicate 3 (⟨"Success", asciiBytes "refresh", 0, []⟩ : PMessage) ∧ s.log = [] ∧
    ∃ evs' s', DRun 4 s evs' s' ∧ s'.queued "Success" (asciiBytes "refresh") = s.arrived := by
  obtain ⟨S, hH, hM, -⟩ := exists_holds (Pairing.dlog Fr) 7 bX 1 4 le_rfl (by norm_num) le_rfl (by norm_num) (Finset.range 4) (fun i hi => Finset.mem_range.1 hi) (by decide) lineCoins
  obtain ⟨n, net, hR, h⟩ := C98_refuted frCodec (Pairing.dlog Fr) 7 bX 1 4 S hH hM
  obtain ⟨n', net', hR', hs, hset⟩ := C85_settles frCodec (Pairing.dlog Fr) 7 bX 1 4 S hH n net hR
  obtain ⟨-, -, -, h4⟩ := h net' hs
  have hfin : ∀ i < 3, (net'.st i).finished = true := fun i hi => ((h4 hset).2 i hi).2
  obtain ⟨evs, s, d1, d2, d3, d4, d5⟩ := flood_run 4 ⟨"Success", asciiBytes "refresh", 0, []⟩ 3 (by norm_num)
  have hrun := fun i (hi : i < 4) => hR'.inv.run i (by rw [hM]; exact Finset.mem_range.2 hi)
  refine ⟨S, n', net', evs, s, hR', hfin, d1, d5, d4, ?_⟩
  obtain ⟨-, evs', s', -, k2, k3, k4⟩ := C125_never_full frCodec (Pairing.dlog Fr) (N := 4) (l := 3) (by norm_num) (asciiBytes "share") (asciiBytes "hand-off") (asciiBytes "refresh") net'.outs
    (fun a => (MState.init a [1] [2]).2) (fun _ => []) (fun _ => []) (fun a ha => ⟨_, _, _, _, _, _, (hH.size a (by rw [hM]; exact Finset.mem_range.2 ha)).2.1, hrun a ha⟩)
    (fun a _ => ⟨Toy.env fun _ => 0, [1], [2], [], _, .init⟩) (fun a ha m hm => by
      rw [List.mem_singleton.1 hm]
      exact ⟨by norm_num, by omega, by norm_num⟩)
    (fun j => ⟨toyEnv 4 1, ∅, [], _, .nil, rfl, fun a _ => by simp⟩) (fun j => ⟨toyEnv 4 1, ∅, [], _, .nil, rfl, fun a _ => by simp⟩) d1 (by
      intro t id
      rw [d5, filter_copies]
      split
      · rename_i hk
        obtain ⟨rfl, rfl⟩ := hk
        have one : ∀ a < 3, 1 ≤ (usesBy 4 (net'.outs a) (MState.init a [1] [2]).2 (fun _ => []) (fun _ => []) a 3).countP fun u =>
            decide (phaseKey (asciiBytes "share") (asciiBytes "hand-off") (asciiBytes "refresh") u = ("Success", asciiBytes "refresh")) := by
          intro a ha
          refine List.countP_pos_iff.2 ⟨.success, ?_, by simp [phaseKey, phaseId, queueKey]⟩
          have hs := (hrun a (by omega)).success_sent.2 ((hrun a (by omega)).finished_sent (hfin a ha))
          simp only [usesBy, List.mem_append]
          exact Or.inl (Or.inl (Or.inl (Or.inr (List.mem_filterMap.2 ⟨_, hs, rfl⟩))))
        have a0 := one 0 (by norm_num)
        have a1 := one 1 (by norm_num)
        have a2 := one 2 (by norm_num)
        show (List.replicate 3 _).length ≤ (∑ a ∈ Finset.range 4, (usesBy 4 (net'.outs a) (MState.init a [1] [2]).2 (fun _ => []) (fun _ => []) a 3).countP fun u =>
            decide (phaseKey (asciiBytes "share") (asciiBytes "hand-off") (asciiBytes "refresh") u = ("Success", asciiBytes "refresh"))) + _
        rw [List.length_replicate, Finset.sum_range_succ, Finset.sum_range_succ, Finset.sum_range_succ, Finset.sum_range_succ, Finset.sum_range_zero]
        omega
      · exact Nat.zero_le _)
  refine ⟨evs', s', k2, ?_⟩
  have := k4 "Success" (asciiBytes "refresh")
  rw [k3, d4, d5, filter_copies, if_pos ⟨rfl, rfl⟩] at this
  rw [d5]
  exact this

end DyCAPS
