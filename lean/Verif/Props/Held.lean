import Verif.Lemmas.Held
import Verif.Lemmas.Size
import Verif.Props.MVBA
import Verif.Props.Path

/-! C136: how much a process keeps for others. -/

namespace DyCAPS

/-- **C136, the part that holds.** In every execution, whatever peers write: at most 1024 messages wait in a channel of `Send` and in the receive channel, a reader goroutine holds at most one and the dispatcher at most one, and at
most `N*N` messages of any type and id wait to be read; so the queues of any pairs hold at most `N*N` messages per pair. A `Send` goes on exactly when fewer than 1024 messages wait in its channel. -/
theorem C136_partial {N : ℕ} {evs : List PathEvent} {s : PathState} (h : PathRun N .init evs s) :
    (∀ a, (s.sendQ a).length ≤ 1024 ∧ (s.rd a).out.length ≤ 1) ∧ s.d.recvQ.length ≤ 1024 ∧ (∀ t id, (s.d.queued t id).length ≤ N * N) ∧
    (∀ keys, unread s keys ≤ N * N * keys.length) ∧ ∀ a m, (∃ s', PathRun N .init (evs ++ [.send a m]) s') ↔ (s.sendQ a).length < 1024 := by
  have hz := Sizes.run h
  have hq : ∀ t id, (s.d.queued t id).length ≤ N * N := fun t id => by
    simp only [DState.queued]
    split
    · exact Nat.zero_le _
    · split
      · exact Nat.zero_le _
      · exact hz.chan _
  refine ⟨fun a => ⟨hz.send a, hz.reader a⟩, hz.recv, hq, fun keys => ?_, fun a m => ⟨fun ⟨s', h'⟩ => ?_, fun hl => ⟨_, h.snoc (if_pos hl)⟩⟩⟩
  · induction keys with
    | nil => exact Nat.zero_le _
    | cons k ks ih =>
      have := hq k.1 k.2
      simp only [unread, List.map_cons, List.sum_cons, List.length_cons] at ih ⊢
      rw [Nat.mul_succ]
      omega
  · obtain ⟨s1, h1, h2⟩ := h'.last
    have : s1 = s := PathRun.det h1 h
    subst this
    by_contra hn
    simp only [pathStep] at h2
    rw [show maxMessage = 1024 from rfl, if_neg hn] at h2
    cases h2

/-- What one peer sends is kept, whether or not somebody asks for it: for any messages below 4 GB, at most `N*N` of each type and id, there is an execution in which the peer on connection 0 hands over exactly these
messages, nobody else sends anything, no goroutine of the process ever asks for a message, the process runs on, and all the messages wait in the queues of their types and ids. -/
theorem C136_kept {N : ℕ} (ms : List PMessage) (hl : ∀ m ∈ ms, (marshal m).length < 2 ^ 32) (hk : ∀ t id, (ofKey t id ms).length ≤ N * N) :
    ∃ evs s, PathRun N .init evs s ∧ s.ended = false ∧ asked evs = [] ∧ (∀ a, PlainPeer evs a) ∧ (∀ a, handed evs a = if a = 0 then ms else []) ∧
      ∀ t id, s.d.queued t id = ofKey t id ms := by
  obtain ⟨s, h1, hd⟩ := pour_run (N := N) ms .init rfl
  have hh := handed_pour ms
  have hp : ∀ a, PlainPeer (pour ms) a := fun a => ⟨fun bs h => by simp [pour] at h, fun m hm => by
    rw [hh] at hm
    split at hm
    · exact hl m hm
    · cases hm⟩
  have hlog : ∀ t id, readBy s t id = [] := fun t id => by simp only [readBy, hd]; rfl
  obtain ⟨evs', s', h2, h3, h4⟩ := C122_delivers (n := 1) h1 hp (fun a ha => by rw [hh, if_neg (by omega)]) fun t id => by
    rw [Finset.sum_range_one, hh, if_pos rfl]
    exact (hk t id).trans (Nat.le_add_left ..)
  obtain ⟨k1, k2, -⟩ := inner_keeps h3 h2
  have hh' : ∀ a, handed (pour ms ++ evs') a = if a = 0 then ms else [] := fun a => by
    have : handed (pour ms ++ evs') a = handed (pour ms) a ++ handed evs' a := by simp only [handed, List.filterMap_append]
    rw [this, k1, List.append_nil, hh]
  have hp' : ∀ a, PlainPeer (pour ms ++ evs') a := fun a =>
    ⟨fun bs hb => (List.mem_append.1 hb).elim ((hp a).1 bs) (k2 a bs), fun m hm => (hp a).2 m (by rwa [hh, ← hh' a])⟩
  refine ⟨_, s', h1.trans h3, plain_alive (h1.trans h3) hp', ?_, hp', hh', fun t id => ?_⟩
  · have : asked (pour ms) = [] := List.filterMap_eq_nil_iff.2 fun e he => by
      simp only [pour, List.mem_flatMap, List.mem_cons, List.not_mem_nil, or_false] at he
      obtain ⟨m, -, rfl | rfl⟩ := he <;> rfl
    rw [asked, List.filterMap_append]
    exact List.append_eq_nil_iff.2 ⟨this, inner_asked h2⟩
  · obtain ⟨-, tagged, e1, e2⟩ := h4 t id
    rw [hlog, List.nil_append] at e1
    rw [← e1]
    have h0 : ∀ e ∈ tagged, e.1 = 0 := fun e he => by
      by_contra hn
      have := e2 e.1
      dsimp only at this
      rw [hh, if_neg hn] at this
      have hm : e ∈ tagged.filter fun e' => decide (e'.1 = e.1) := List.mem_filter.2 ⟨he, by simp⟩
      rw [List.map_eq_nil_iff.1 this] at hm
      cases hm
    have := e2 0
    dsimp only at this
    rw [hh, if_pos rfl, List.filter_eq_self.2 fun e he => by simp [h0 e he]] at this
    exact this

/-- Nothing is given up: as long as nobody has asked for a type and id, what waits in its queue goes on waiting there, whatever happens. -/
theorem C136_stays {N : ℕ} {evs evs' : List PathEvent} {s s' : PathState} (h : PathRun N .init evs s) (h' : PathRun N s evs' s') {t : String} {id : Bytes}
    (hn : (t, id) ∉ asked (evs ++ evs')) : s.d.queued t id <+: s'.d.queued t id := queue_stays h h' hn

/-- `N*N` messages for each of the ids `0, …, K-1`. -/
def heap (N K : ℕ) : List PMessage := (List.range K).flatMap fun i => List.replicate (N * N) ⟨"Echo", uint32ToBytes (UInt32.ofNat i), 0, []⟩

theorem heap_ofKey (N K : ℕ) (t : String) (id : Bytes) :
    (ofKey t id (heap N K)).length = ∑ i ∈ Finset.range K, if "Echo" = t ∧ uint32ToBytes (UInt32.ofNat i) = id then N * N else 0 := by
  induction K with
  | zero => rfl
  | succ K ih =>
    rw [Finset.sum_range_succ, ← ih]
    have : heap N (K + 1) = heap N K ++ List.replicate (N * N) ⟨"Echo", uint32ToBytes (UInt32.ofNat K), 0, []⟩ := by simp [heap, List.range_succ]
    rw [this]
    simp only [ofKey, List.filter_append, List.length_append, List.filter_replicate, decide_eq_true_eq]
    congr 1
    split
    · exact List.length_replicate
    · rfl

theorem heap_mem {N K : ℕ} (hK : K ≤ 2 ^ 32) {j : ℕ} (hj : j < K) : (ofKey "Echo" (uint32ToBytes (UInt32.ofNat j)) (heap N K)).length = N * N := by
  rw [heap_ofKey, Finset.sum_eq_single j]
  · exact if_pos ⟨rfl, rfl⟩
  · intro i hi hn
    exact if_neg fun h => hn (ofNat_bytes_inj (by have := Finset.mem_range.1 hi; omega) (by omega) h.2)
  · exact fun h => absurd (Finset.mem_range.2 hj) h

theorem heap_le {N K : ℕ} (hK : K ≤ 2 ^ 32) (t : String) (id : Bytes) : (ofKey t id (heap N K)).length ≤ N * N := by
  by_cases h : ∃ j < K, "Echo" = t ∧ uint32ToBytes (UInt32.ofNat j) = id
  · obtain ⟨j, hj, rfl, rfl⟩ := h
    exact (heap_mem hK hj).le
  · rw [heap_ofKey, Finset.sum_eq_zero fun i hi => if_neg fun hc => h ⟨i, Finset.mem_range.1 hi, hc⟩]
    exact Nat.zero_le _

theorem heap_short {N K : ℕ} : ∀ m ∈ heap N K, (marshal m).length < 2 ^ 32 := by
  intro m hm
  obtain ⟨i, -, hm⟩ := List.mem_flatMap.1 hm
  rw [List.eq_of_mem_replicate hm]
  have h1 := size_putBytes 1 (by norm_num) (stringToBytes "Echo")
  have h2 := size_putBytes 2 (by norm_num) (uint32ToBytes (UInt32.ofNat i))
  have h3 : (stringToBytes "Echo").length = 4 := by decide +kernel
  have h4 : (uint32ToBytes (UInt32.ofNat i)).length = 4 := rfl
  simp only [marshal, Proto.fields, encFields, List.flatMap_append, List.length_append] at h1 h2 ⊢
  have h5 : ((putU32 3 0).flatMap encField).length = 0 := rfl
  have h6 : ((putBytes 4 []).flatMap encField).length = 0 := rfl
  omega

/-- **C136 is false.** For every `N` and every number `K` up to 2³² one peer brings the process to keep `K * N * N` unread messages of `K` pairs of type and id, without any goroutine having asked for a message. So there is no
limit in terms of `N` and the pairs asked for. -/
theorem C136_refuted {N K : ℕ} (hK : K ≤ 2 ^ 32) :
    ∃ evs s, PathRun N .init evs s ∧ s.ended = false ∧ asked evs = [] ∧ (∀ a, PlainPeer evs a) ∧ (∀ a, a ≠ 0 → handed evs a = []) ∧
      ∃ keys : List (String × Bytes), keys.Nodup ∧ keys.length = K ∧ unread s keys = K * (N * N) := by
  obtain ⟨evs, s, h1, h2, h3, h4, h5, h6⟩ := C136_kept (N := N) (heap N K) heap_short (heap_le hK)
  refine ⟨evs, s, h1, h2, h3, h4, fun a ha => by rw [h5, if_neg ha], (List.range K).map fun i => ("Echo", uint32ToBytes (UInt32.ofNat i)), ?_, by simp, ?_⟩
  · exact List.Nodup.map_on (fun i hi j hj he =>
      ofNat_bytes_inj (by have := List.mem_range.1 hi; omega) (by have := List.mem_range.1 hj; omega) (congrArg Prod.snd he)) List.nodup_range
  · have : ∀ n ∈ ((List.range K).map fun i => ("Echo", uint32ToBytes (UInt32.ofNat i))).map fun k => (s.d.queued k.1 k.2).length, n = N * N := by
      intro n hn
      simp only [List.mem_map, List.mem_range] at hn
      obtain ⟨k, ⟨i, hi, rfl⟩, rfl⟩ := hn
      rw [h6]
      exact heap_mem hK hi
    rw [unread, List.eq_replicate_of_mem this, List.sum_replicate]
    simp

/-- The negation, for every committee: no such limit is kept. -/
theorem C136_no_limit {N : ℕ} (hN : 1 ≤ N) :
    ¬ ∀ evs s, PathRun N .init evs s → ∀ keys : List (String × Bytes), keys.Nodup → unread s keys ≤ N * N * (asked evs).length := by
  intro h
  obtain ⟨evs, s, h1, -, h3, -, -, keys, k1, k2, k3⟩ := C136_refuted (N := N) (K := 1) (by norm_num)
  have := h evs s h1 keys k1
  rw [k3, h3, List.length_nil, Nat.mul_zero, Nat.one_mul] at this
  have := Nat.mul_le_mul hN hN
  omega

/-- 4 parties: 100000 ids, 1600000 unread messages. -/
example : ∃ evs s, PathRun 4 .init evs s ∧ s.ended = false ∧ asked evs = [] ∧ ∃ keys : List (String × Bytes), keys.Nodup ∧ unread s keys = 1600000 := by
  obtain ⟨evs, s, h1, h2, h3, -, -, keys, hk, -, h4⟩ := C136_refuted (N := 4) (K := 100000) (by norm_num)
  exact ⟨evs, s, h1, h2, h3, keys, hk, h4⟩

/-- A message for a run that never takes place is still there after any execution in which only "Vote" messages are asked for. -/
example : ∃ evs s, PathRun 4 .init evs s ∧ s.d.queued "Echo" [9] = [⟨"Echo", [9], 2, [1]⟩] ∧ ∀ evs' s', PathRun 4 s evs' s' → (∀ k ∈ asked evs', k.1 = "Vote") →
    [⟨"Echo", [9], 2, [1]⟩] <+: s'.d.queued "Echo" [9] := by
  obtain ⟨evs, s, h1, -, h3, -, -, h6⟩ := C136_kept (N := 4) [⟨"Echo", [9], 2, [1]⟩] (by decide +kernel) fun t id => (List.length_filter_le _ _).trans (by decide)
  refine ⟨evs, s, h1, h6 _ _, fun evs' s' h' ha => ?_⟩
  rw [← show s.d.queued "Echo" [9] = [⟨"Echo", [9], 2, [1]⟩] from h6 _ _]
  refine C136_stays h1 h' fun hm => ?_
  rw [asked_append, h3, List.nil_append] at hm
  exact absurd (ha _ hm) (by decide)

/-- The 1025th message waits when the writer goroutine is behind. -/
example : ∃ s, PathRun 4 .init (List.replicate 1024 (.send 7 ⟨"Vote", [], 0, []⟩)) s ∧ (s.sendQ 7).length = 1024 ∧
    ¬ ∃ s', PathRun 4 .init (List.replicate 1024 (.send 7 ⟨"Vote", [], 0, []⟩) ++ [.send 7 ⟨"Echo", [1], 0, []⟩]) s' := by
  have h : ∀ k ≤ 1024, ∃ s, PathRun 4 .init (List.replicate k (.send 7 ⟨"Vote", [], 0, []⟩)) s ∧ (s.sendQ 7).length = k := by
    intro k
    induction k with
    | zero => exact fun _ => ⟨_, .nil, rfl⟩
    | succ k ih =>
      intro hk
      obtain ⟨s, h1, h2⟩ := ih (by omega)
      have hs : (s.sendQ 7).length < 1024 := by omega
      refine ⟨_, List.replicate_succ' ▸ h1.snoc (show pathStep 4 s (.send 7 ⟨"Vote", [], 0, []⟩) = _ from if_pos hs), ?_⟩
      dsimp only
      rw [Function.update_self, List.length_append, h2]
      rfl
  obtain ⟨s, h1, h2⟩ := h 1024 le_rfl
  refine ⟨s, h1, h2, ?_⟩
  rw [(C136_partial h1).2.2.2.2]
  omega

end DyCAPS
