import Verif.Lemmas.Path

/-! C122: from `Send` of one member to `GetMessage` of another. -/

namespace DyCAPS

/-- **C122.** In every execution, whatever other peers write: what has been read for a type and an id is put together from lists, one per connection, and for a peer that runs the code this list is an initial part
of the messages of this type and id that the peer has sent, in the same order. So nothing of such a peer is lost in between, doubled, changed, reordered or delivered under another type or id. -/
theorem C122_in_order {N : ℕ} {evs : List PathEvent} {s : PathState} (h : PathRun N .init evs s) (t : String) (id : Bytes) :
    FromConns (readBy s t id) fun a got => PlainPeer evs a → got <+: ofKey t id (handed evs a) := by
  have hi := PathInv.run h
  obtain ⟨arr, hm, hc, -⟩ := hi.conns
  have hf := hi.d.fifo t id
  have hp : readBy s t id <+: (arr.filter fun e => hasKey t id e.2).map (·.2) := by
    rw [map_filter_snd, hm, ← hf, List.append_assoc, List.append_assoc]
    exact List.prefix_append _ _
  refine ⟨(arr.filter fun e => hasKey t id e.2).take (readBy s t id).length, ?_, fun a ha => ?_⟩
  · rw [List.map_take]
    exact (List.prefix_iff_eq_take.1 hp).symm
  · refine (ofConn_take _ _ a).trans ?_
    rw [ofConn_filter]
    exact ((hc a ha).prefix ha.2).1.filter _

/-- **C122.** The goroutines in between come to rest: after any execution, only boundedly many of their steps can follow before somebody sends, writes or reads again. -/
theorem C122_comes_to_rest {N : ℕ} {evs : List PathEvent} {s : PathState} (h : PathRun N .init evs s) :
    ∃ B, ∀ evs' s', (∀ e ∈ evs', e.inner = true) → PathRun N s evs' s' → evs'.length ≤ B := by
  obtain ⟨n, hn⟩ := conn_bound evs
  refine ⟨s.work n, fun evs' s' he h' => ?_⟩
  have := (inner_run h' he (n := n) fun a ha => by
    obtain ⟨h1, h2, h3⟩ := (PathInv.run h).unused a fun e he hc => absurd (hn e he a hc) (by omega)
    exact ⟨h1, h2, by rw [h3]; rfl⟩).1
  omega

/-- **C122.** When they are at rest, the process has not been ended by a peer and no type and id has more than `N*N` unread messages, then everything that a peer running the code has sent has been read or is in the
queue for its type and id. -/
theorem C122_all_there {N : ℕ} {evs : List PathEvent} {s : PathState} (h : PathRun N .init evs s) (hs : AtRest N s) (he : s.ended = false)
    (hc : ∀ t id, (ofKey t id s.d.arrived).length ≤ (readBy s t id).length + N * N) (t : String) (id : Bytes) :
    FromConns (readBy s t id ++ s.d.queued t id) fun a got => PlainPeer evs a → got = ofKey t id (handed evs a) := by
  have hi := PathInv.run h
  obtain ⟨h1, h2, h3⟩ := settled_empty hi.d hs he fun t id => by
    have := hc t id
    simp only [readBy, List.length_map] at this
    exact this
  obtain ⟨arr, hm, hcn, -⟩ := hi.conns
  have hf := hi.d.fifo t id
  simp only [DState.holding, h1, h2, List.filter_nil, List.append_nil] at hf
  refine ⟨arr.filter fun e => hasKey t id e.2, ?_, fun a ha => ?_⟩
  · rw [map_filter_snd, hm, ← hf]; rfl
  · show ofConn _ a = _
    rw [ofConn_filter, (hcn a ha).all ha.2 (h3 a).1 (h3 a).2.1 (h3 a).2.2]
    rfl

/-- **C122.** If all peers run the code, on `n` connections, the process does not end, and it is enough that of no type and id more than `N*N` messages have been sent beyond those read. -/
theorem C122_all_plain {N n : ℕ} {evs : List PathEvent} {s : PathState} (h : PathRun N .init evs s) (hp : ∀ a, PlainPeer evs a) (hn : ∀ a, n ≤ a → handed evs a = []) :
    s.ended = false ∧ ∀ (_ : AtRest N s) (_ : ∀ t id, ∑ a ∈ Finset.range n, (ofKey t id (handed evs a)).length ≤ (readBy s t id).length + N * N) (t : String) (id : Bytes),
      FromConns (readBy s t id ++ s.d.queued t id) fun a got => got = ofKey t id (handed evs a) := by
  have he := plain_alive h hp
  refine ⟨he, fun hs hc t id => ?_⟩
  have hi := PathInv.run h
  obtain ⟨arr, hm, hcn, -⟩ := hi.conns
  have hlt : ∀ e ∈ arr, e.1 < n := by
    intro e hea
    by_contra hge
    have h0 := ((hcn e.1 (hp e.1)).prefix (hp e.1).2).1
    rw [hn e.1 (by omega), List.prefix_nil] at h0
    have : e.2 ∈ ofConn arr e.1 := List.mem_map.2 ⟨e, List.mem_filter.2 ⟨hea, by simp⟩, rfl⟩
    rw [h0] at this
    cases this
  obtain ⟨tagged, h1, h2⟩ := C122_all_there h hs he (fun t id => by
    refine le_trans ?_ (hc t id)
    rw [ofKey_eq, ← hm, ← map_filter_snd, List.length_map, length_le_sum _ n fun e he => hlt e (List.mem_filter.1 he).1]
    refine Finset.sum_le_sum fun a _ => ?_
    rw [ofConn_filter]
    exact (((hcn a (hp a)).prefix (hp a).2).1.filter _).length_le) t id
  exact ⟨tagged, h1, fun a => h2 a (hp a)⟩

/-- **C122.** Every execution with such peers can be continued, by steps of the writer and reader goroutines and the dispatcher alone, until everything sent has been read or is in the queue of its type and id. -/
theorem C122_delivers {N n : ℕ} {evs : List PathEvent} {s : PathState} (h : PathRun N .init evs s) (hp : ∀ a, PlainPeer evs a) (hn : ∀ a, n ≤ a → handed evs a = [])
    (hc : ∀ t id, ∑ a ∈ Finset.range n, (ofKey t id (handed evs a)).length ≤ (readBy s t id).length + N * N) :
    ∃ evs' s', (∀ e ∈ evs', e.inner = true) ∧ PathRun N s evs' s' ∧ ∀ t id,
      readBy s' t id = readBy s t id ∧ FromConns (readBy s t id ++ s'.d.queued t id) fun a got => got = ofKey t id (handed evs a) := by
  obtain ⟨n', hn'⟩ := conn_bound evs
  obtain ⟨evs', s', h1, h2, h3⟩ := exists_settled (N := N) (n := n') _ (s := s) rfl fun a ha => by
    obtain ⟨h1, h2, h3⟩ := (PathInv.run h).unused a fun e he hc => absurd (hn' e he a hc) (by omega)
    exact ⟨h1, h2, by rw [h3]; rfl⟩
  obtain ⟨k1, k2, k3⟩ := inner_keeps h2 h1
  have hh : ∀ a, handed (evs ++ evs') a = handed evs a := fun a => by
    have : handed (evs ++ evs') a = handed evs a ++ handed evs' a := by simp only [handed, List.filterMap_append]
    rw [this, k1, List.append_nil]
  have hr : ∀ t id, readBy s' t id = readBy s t id := fun t id => by simp only [readBy, k3]
  have hp' : ∀ a, PlainPeer (evs ++ evs') a := fun a =>
    ⟨fun bs hb => (List.mem_append.1 hb).elim ((hp a).1 bs) (k2 a bs), fun m hm => (hp a).2 m (by rwa [hh] at hm)⟩
  refine ⟨evs', s', h1, h2, fun t id => ⟨hr t id, ?_⟩⟩
  have := (C122_all_plain (n := n) (h.trans h2) hp' fun a ha => by rw [hh]; exact hn a ha).2 h3 (fun t id => by
    simp only [hh, hr]
    exact hc t id) t id
  simp only [hh, hr] at this
  exact this

/-- Two peers send two messages each, three of them with the same type and id. -/
def crossing : List PathEvent :=
  [.send 0 ⟨"Echo", [1], 0, [7]⟩, .send 1 ⟨"Echo", [1], 1, [8]⟩, .send 0 ⟨"Vote", [], 0, []⟩, .send 0 ⟨"Echo", [1], 0, [9]⟩, .send 1 ⟨"Vote", [], 1, []⟩]

/-- The events are carried out. -/
def pathExec (N : ℕ) (s : PathState) (evs : List PathEvent) : Option PathState := evs.foldlM (pathStep N) s

theorem pathExec_run {N : ℕ} (evs : List PathEvent) : ∀ {s s' : PathState}, pathExec N s evs = some s' → PathRun N s evs s' := by
  induction evs with
  | nil => intro s s' h; cases h; exact .nil
  | cons e evs ih =>
    intro s s' h
    simp only [pathExec, List.foldlM_cons, Option.bind_eq_bind, Option.bind_eq_some_iff] at h
    obtain ⟨s1, h1, h2⟩ := h
    exact (PathRun.nil.snoc h1).trans (ih h2)

/-- The two messages of connection 0 overtake neither each other nor stay behind: an execution that reads all three "Echo" messages, the one of connection 1 in between. -/
example : ∃ s, PathRun 2 .init (crossing ++ [.write 0, .write 1, .write 0, .write 0] ++ List.replicate (frame ⟨"Echo", [1], 0, [7]⟩).length (.byte 0) ++ [.push 0] ++
      List.replicate (frame ⟨"Echo", [1], 1, [8]⟩).length (.byte 1) ++ [.push 1] ++ List.replicate (frame ⟨"Vote", [], 0, []⟩).length (.byte 0) ++ [.push 0] ++
      List.replicate (frame ⟨"Echo", [1], 0, [9]⟩).length (.byte 0) ++ [.push 0] ++
      [.d .take, .d .look, .d .look, .d .push, .d .take, .d .look, .d .look, .d .push, .d .take, .d .look, .d .look, .d .push, .d .take, .d .look, .d .look, .d .push] ++
      [.d (.call 5 "Echo" [1]), .d (.cont 5), .d (.cont 5), .d (.read 5), .d (.read 5), .d (.read 5)]) s ∧
    readBy s "Echo" [1] = [⟨"Echo", [1], 0, [7]⟩, ⟨"Echo", [1], 1, [8]⟩, ⟨"Echo", [1], 0, [9]⟩] ∧ readBy s "Vote" [] = [] ∧ s.d.queued "Vote" [] = [⟨"Vote", [], 0, []⟩] ∧ s.ended = false := by
  refine ⟨_, pathExec_run _ (Option.some_get (by decide +kernel)).symm, ?_⟩
  decide +kernel

/-- `C122_delivers` on the five messages. -/
example : ∃ s evs' s', PathRun 2 .init crossing s ∧ PathRun 2 s evs' s' ∧ FromConns (s'.d.queued "Echo" [1]) fun a got =>
    got = if a = 0 then [⟨"Echo", [1], 0, [7]⟩, ⟨"Echo", [1], 0, [9]⟩] else if a = 1 then [⟨"Echo", [1], 1, [8]⟩] else [] := by
  have hh : ∀ a, handed crossing a = if a = 0 then [⟨"Echo", [1], 0, [7]⟩, ⟨"Vote", [], 0, []⟩, ⟨"Echo", [1], 0, [9]⟩] else if a = 1 then [⟨"Echo", [1], 1, [8]⟩, ⟨"Vote", [], 1, []⟩] else [] := by
    intro a
    match a with
    | 0 => rfl
    | 1 => rfl
    | a + 2 => simp [handed, crossing]
  have hrun : PathRun 2 .init crossing _ := pathExec_run _ (Option.some_get (by decide +kernel)).symm
  obtain ⟨evs', s', _, h2, h3⟩ := C122_delivers (n := 2) hrun (fun a => ⟨fun bs h => by simp [crossing] at h, fun m hm => by
      rw [hh] at hm
      split at hm
      · simp only [List.mem_cons, List.not_mem_nil, or_false] at hm
        rcases hm with rfl | rfl | rfl <;> decide +kernel
      · split at hm
        · simp only [List.mem_cons, List.not_mem_nil, or_false] at hm
          rcases hm with rfl | rfl <;> decide +kernel
        · cases hm⟩)
    (fun a ha => by rw [hh, if_neg (by omega), if_neg (by omega)])
    (fun t id => by
      rw [Finset.sum_range_succ, Finset.sum_range_one, hh, hh, if_pos rfl, if_neg (by omega), if_pos rfl]
      have e1 : ∀ x y z : PMessage, (x.type, x.id) ≠ (y.type, y.id) → (ofKey t id [x, y, z]).length ≤ 2 := fun x y z hxy => by
        by_cases h1 : x.type = t ∧ x.id = id
        · have h2 : ¬(y.type = t ∧ y.id = id) := fun h2 => hxy (by rw [h1.1, h1.2, h2.1, h2.2])
          have := List.length_filter_le (fun m : PMessage => decide (m.type = t ∧ m.id = id)) [z]
          rw [ofKey, List.filter_cons_of_pos (by simpa using h1), List.filter_cons_of_neg (by simpa using h2), List.length_cons]
          exact Nat.succ_le_succ this
        · have := List.length_filter_le (fun m : PMessage => decide (m.type = t ∧ m.id = id)) [y, z]
          rw [ofKey, List.filter_cons_of_neg (by simpa using h1)]
          exact this
      have e2 : ∀ l : List PMessage, l.length = 2 → (ofKey t id l).length ≤ 2 := fun l hl => hl ▸ List.length_filter_le _ l
      have := e1 ⟨"Echo", [1], 0, [7]⟩ ⟨"Vote", [], 0, []⟩ ⟨"Echo", [1], 0, [9]⟩ (by decide)
      have := e2 [⟨"Echo", [1], 1, [8]⟩, ⟨"Vote", [], 1, []⟩] rfl
      omega)
  refine ⟨_, evs', s', hrun, h2, ?_⟩
  obtain ⟨tagged, t1, t2⟩ := (h3 "Echo" [1]).2
  refine ⟨tagged, t1, fun a => (t2 a).trans ?_⟩
  rw [hh]
  split
  · decide
  · split
    · decide
    · rfl

end DyCAPS
