import Verif.Lemmas.Outbound

/-! C124: a peer that stops reading. -/

namespace DyCAPS

/-- **C124 is refuted.** However much room TCP has: in every execution in which member `x` reads nothing, `n` goroutines together make at most `1025 + room/4 + n` calls that send something to `x`, a `Broadcast` being
such a call whomever else it addresses. All of them wait in the end. -/
theorem C124_refuted {N room n x : ℕ} {evs : List OutEvent} {s : OutState} (h : OutRun N room .init evs s) (hc : CallsBelow n evs) (hx : .read x ∉ evs) :
    ∑ g ∈ Finset.range n, (meant N evs g x).length ≤ 1025 + room / 4 + n := by
  have hi := OutInv.run h
  rw [meant_eq hi hc x]
  have h1 := put_bound h hx
  have h2 : ∑ g ∈ Finset.range n, (ofConn (s.tasks g) x).length ≤ ∑ g ∈ Finset.range n, 1 := Finset.sum_le_sum fun g _ => ofConn_once (hi.once g).1 x
  simp only [Finset.sum_const, Finset.card_range, smul_eq_mul, mul_one] at h2
  simp only [maxMessage] at h1
  omega

theorem stuck_or {N room x : ℕ} (hr : 1 ≤ room) (m : PMessage) : ∀ k, (∃ evs s, OutRun N room .init evs s ∧ .read x ∉ evs ∧ (∀ e ∈ evs, e.goesOn (· ≠ x) ∨ e = .broadcast 0 m) ∧ CallsBelow 1 evs ∧
      OutQuiet N room (· ≠ x) s ∧ s.tasks 0 = ((List.range N).drop x).map (fun d => (d, m)) ∧ s.tasks 0 ≠ []) ∨
    ∃ evs s, OutRun N room .init evs s ∧ .read x ∉ evs ∧ (∀ e ∈ evs, e.goesOn (· ≠ x) ∨ e = .broadcast 0 m) ∧ CallsBelow 1 evs ∧ s.tasks 0 = [] ∧ ∀ d < N, (meant N evs 0 d).length = k := by
  intro k
  induction k with
  | zero => exact Or.inr ⟨[], _, .nil, by simp, by simp, fun e he => absurd he List.not_mem_nil, rfl, fun _ _ => rfl⟩
  | succ k ih =>
    rcases ih with h | ⟨evs, s, h1, h2, h3, h4, h5, h6⟩
    · exact Or.inl h
    have hs : outStep N room s (.broadcast 0 m) = some { s with tasks := Function.update s.tasks 0 ((List.range N).map fun d => (d, m)) } := by simp [outStep, h5]
    have c1 : CallsBelow 1 (evs ++ [.broadcast 0 m]) := by
      intro e he
      rcases List.mem_append.1 he with he | he
      · exact h4 e he
      · rw [List.mem_singleton.1 he]
        exact Nat.one_pos
    have r1 := h1.snoc hs
    obtain ⟨evs', s', k1, k2, k3⟩ := exists_quiet (reads := (· ≠ x)) _ rfl (OutInv.run r1) c1
    have hx' : OutEvent.read x ∉ evs ++ [.broadcast 0 m] ++ evs' := by
      intro hm
      rcases List.mem_append.1 hm with hm | hm
      · rcases List.mem_append.1 hm with hm | hm
        · exact h2 hm
        · simp at hm
      · exact k1 _ hm rfl
    have hall : ∀ e ∈ evs ++ [.broadcast 0 m] ++ evs', e.goesOn (· ≠ x) ∨ e = .broadcast 0 m := by
      intro e he
      rcases List.mem_append.1 he with he | he
      · rcases List.mem_append.1 he with he | he
        · exact h3 e he
        · exact Or.inr (List.mem_singleton.1 he)
      · exact Or.inl (k1 e he)
    have r2 := r1.trans k2
    have c2 := (out_run_work (OutInv.run r1) c1 k1 k2).2.1
    have suf := tasks_suffix k2 k1 0
    replace suf : s'.tasks 0 <:+ (List.range N).map fun d => (d, m) := by simpa using suf
    rcases ht : s'.tasks 0 with _ | ⟨⟨d, m'⟩, rest⟩
    · refine Or.inr ⟨_, s', r2, hx', hall, c2, ht, fun d hd => ?_⟩
      have e1 : meant N evs' 0 d = [] := by
        rw [meant, List.filterMap_eq_nil_iff]
        intro e he
        have := k1 e he
        cases e with
        | broadcast g m => cases this
        | send g d m => cases this
        | _ => rfl
      have e2 : meant N (evs ++ [.broadcast 0 m] ++ evs') 0 d = meant N evs 0 d ++ [m] := by
        have : meant N (evs ++ [.broadcast 0 m] ++ evs') 0 d = meant N (evs ++ [.broadcast 0 m]) 0 d ++ meant N evs' 0 d := by simp only [meant, List.filterMap_append]
        rw [this, e1, meant_append, List.append_nil]
        simp [meant, hd]
      rw [e2, List.length_append, h6 d hd]
      rfl
    · refine Or.inl ⟨_, s', r2, hx', hall, c2, k3, ?_, by rw [ht]; exact List.cons_ne_nil _ _⟩
      have hd : d = x := by
        by_contra hne
        have := quiet_task k3 ht
        rw [(quiet_conn hr k3 hne).1] at this
        simp [maxMessage] at this
      subst hd
      rw [ht] at suf
      obtain ⟨pre, hpre⟩ := suf
      have hl : pre.length = d := by
        have h0 : ((List.range N).map fun d => (d, m))[pre.length]? = some (d, m') := by
          rw [← hpre, List.getElem?_append_right le_rfl, Nat.sub_self]
          rfl
        rw [List.getElem?_map] at h0
        obtain ⟨a, ha, hb⟩ := Option.map_eq_some_iff.1 h0
        rw [List.getElem?_eq_some_iff] at ha
        obtain ⟨_, ha⟩ := ha
        rw [List.getElem_range] at ha
        rw [ha]
        exact congrArg Prod.fst hb
      rw [List.map_drop, ← hpre, ht]
      conv_rhs => rw [← hl]
      rw [List.drop_left, hl]

/-- **C124 is refuted.** For every committee, every room TCP has and every message: a member calls `Broadcast` again and again, all members but `x` read everything that comes. After at most `1025 + room/4` calls that
return, a call waits for `x`. As long as `x` reads nothing it does not return, whatever else happens: the members after `x` never get its message, although they have read all they were sent, and the goroutine makes no
further call. -/
theorem C124_refuted_waits (N room x : ℕ) (hx : x < N) (hr : 1 ≤ room) (m : PMessage) : ∃ evs s, OutRun N room .init evs s ∧ (∀ e ∈ evs, e.goesOn (· ≠ x) ∨ e = .broadcast 0 m) ∧
    (∀ d ≠ x, s.got d = sendStream ((s.put d).map (·.2))) ∧ (meant N evs 0 x).length ≤ 1026 + room / 4 ∧
    ∀ evs' s', OutRun N room s evs' s' → .read x ∉ evs' → ∀ d, x ≤ d → d < N →
      meant N (evs ++ evs') 0 d = meant N evs 0 d ∧ ((s'.put d).filter fun e => decide (e.1 = 0)).map (·.2) ++ [m] = meant N evs 0 d := by
  rcases stuck_or (N := N) (x := x) hr m (1027 + room / 4) with ⟨evs, s, h1, h2, h3, h4, h5, h6, h7⟩ | ⟨evs, s, h1, h2, h3, h4, h5, h6⟩
  swap
  · exfalso
    have := C124_refuted h1 h4 h2
    rw [Finset.sum_range_one, h6 x hx] at this
    omega
  have ht : s.tasks 0 = (x, m) :: ((List.range N).drop (x + 1)).map fun d => (d, m) := by
    rw [h6, List.drop_eq_getElem_cons (by simpa using hx), List.map_cons, List.getElem_range]
  refine ⟨evs, s, h1, h3, fun d hd => ?_, ?_, fun evs' s' hr' hx' d hxd hdN => ?_⟩
  · obtain ⟨a1, a2, a3⟩ := quiet_conn hr h5 hd
    obtain ⟨⟨tk, b1, b2, -⟩, -, -⟩ := (OutInv.run h1).conn d
    rw [a1, List.append_nil] at b1
    rw [a2, a3, List.append_nil, List.append_nil] at b2
    rw [b1, b2]
  · have := C124_refuted h1 h4 h2
    rw [Finset.sum_range_one] at this
    omega
  · obtain ⟨c1, c2⟩ := (quiet_choked h5 (quiet_task h5 ht)).run hx' hr'
    obtain ⟨e1, e2⟩ := c2 0 m _ ht
    have hm : meant N (evs ++ evs') 0 d = meant N evs 0 d := by
      have : meant N (evs ++ evs') 0 d = meant N evs 0 d ++ meant N evs' 0 d := by simp only [meant, List.filterMap_append]
      rw [this, e2 d, List.append_nil]
    refine ⟨hm, ?_⟩
    have hi := (OutInv.run (h1.trans hr')).task 0 d
    rw [hm] at hi
    rw [← hi]
    congr 1
    rw [e1, h6]
    have : ofConn (((List.range N).map fun d => (d, m)).take x) d = [] := by
      rw [← List.map_take, ofConn, List.map_eq_nil_iff, List.filter_eq_nil_iff]
      intro a ha
      obtain ⟨b, hb, rfl⟩ := List.mem_map.1 ha
      have hb' : b < x := by
        rw [List.take_range] at hb
        have := List.mem_range.1 hb
        omega
      simp only [decide_eq_true_eq]
      omega
    have hsplit := ofConn_app (((List.range N).map fun d => (d, m)).take x) (((List.range N).map fun d => (d, m)).drop x) d
    rw [List.take_append_drop, ofConn_all, if_pos hdN, this, List.nil_append] at hsplit
    rw [List.map_drop, ← hsplit]

/-- **C124 (the part that holds).** When all members read and nothing is left to be done, every call has returned and every member has exactly the messages meant for it, those of each goroutine in order. -/
theorem C124_all_read_partial {N room : ℕ} (hr : 1 ≤ room) {evs : List OutEvent} {s : OutState} (h : OutRun N room .init evs s) (hq : OutQuiet N room (fun _ => True) s) :
    (∀ g, s.tasks g = []) ∧ ∀ d, HasAll N evs s d := by
  have ht : ∀ g, s.tasks g = [] := by
    intro g
    rcases ht : s.tasks g with _ | ⟨⟨d, m⟩, rest⟩
    · rfl
    · have := quiet_task hq ht
      rw [(quiet_conn hr hq trivial).1] at this
      simp [maxMessage] at this
  refine ⟨ht, fun d => ?_⟩
  have hi := OutInv.run h
  obtain ⟨a1, a2, a3⟩ := quiet_conn hr hq (d := d) trivial
  obtain ⟨⟨tk, b1, b2, -⟩, -, -⟩ := hi.conn d
  rw [a1, List.append_nil] at b1
  rw [a2, a3, List.append_nil, List.append_nil] at b2
  refine ⟨s.put d, by rw [b1, b2], fun g => ?_⟩
  have := hi.task g d
  rw [ht g] at this
  simpa [ofConn] using this

/-- **C124 (the part that holds).** While `x` reads nothing but at most 1024 messages have been meant for it, it does no harm: when nothing is left to be done, every call has returned and every other member has
exactly the messages meant for it. -/
theorem C124_few_partial {N room n x : ℕ} (hr : 1 ≤ room) {evs : List OutEvent} {s : OutState} (h : OutRun N room .init evs s) (hc : CallsBelow n evs)
    (hfew : ∑ g ∈ Finset.range n, (meant N evs g x).length ≤ 1024) (hq : OutQuiet N room (· ≠ x) s) : (∀ g, s.tasks g = []) ∧ ∀ d ≠ x, HasAll N evs s d := by
  have hi := OutInv.run h
  have ht : ∀ g, s.tasks g = [] := by
    intro g
    rcases ht : s.tasks g with _ | ⟨⟨d, m⟩, rest⟩
    · rfl
    · exfalso
      have h1 := quiet_task hq ht
      by_cases hd : d = x
      · subst hd
        have hg : g < n := by
          by_contra hg
          rw [hi.idle hc (not_lt.1 hg)] at ht
          cases ht
        have h2 := meant_eq hi hc d
        have h3 : (ofConn (s.tasks g) d).length ≤ ∑ g ∈ Finset.range n, (ofConn (s.tasks g) d).length :=
          Finset.single_le_sum (f := fun g => (ofConn (s.tasks g) d).length) (fun _ _ => Nat.zero_le _) (Finset.mem_range.2 hg)
        have h4 : 1 ≤ (ofConn (s.tasks g) d).length := by
          rw [ht, ofConn_cons, if_pos rfl]
          simp
        have h5 : (s.sendQ d).length ≤ (s.put d).length := by
          obtain ⟨⟨tk, b1, -, -⟩, -, -⟩ := hi.conn d
          have := congrArg List.length b1
          rw [List.length_map, List.length_append] at this
          omega
        simp only [maxMessage] at h1
        omega
      · rw [(quiet_conn hr hq hd).1] at h1
        simp [maxMessage] at h1
  refine ⟨ht, fun d hd => ?_⟩
  obtain ⟨a1, a2, a3⟩ := quiet_conn hr hq hd
  obtain ⟨⟨tk, b1, b2, -⟩, -, -⟩ := hi.conn d
  rw [a1, List.append_nil] at b1
  rw [a2, a3, List.append_nil, List.append_nil] at b2
  refine ⟨s.put d, by rw [b1, b2], fun g => ?_⟩
  have := hi.task g d
  rw [ht g] at this
  simpa [ofConn] using this

/-- **C124 (the part that holds).** After any execution only boundedly many steps follow before somebody calls again, and they lead to a state in which nothing is left to be done, whoever reads. -/
theorem C124_rest_partial {N room : ℕ} {evs : List OutEvent} {s : OutState} (h : OutRun N room .init evs s) (reads : ℕ → Prop) :
    (∃ B, ∀ evs' s', (∀ e ∈ evs', e.goesOn fun _ => True) → OutRun N room s evs' s' → evs'.length ≤ B) ∧
    ∃ evs' s', (∀ e ∈ evs', e.goesOn reads) ∧ OutRun N room s evs' s' ∧ OutQuiet N room reads s' := by
  obtain ⟨n, hn⟩ := calls_bound evs
  refine ⟨⟨s.work n N, fun evs' s' he h' => ?_⟩, exists_quiet _ rfl (OutInv.run h) hn⟩
  have := (out_run_work (OutInv.run h) hn he h').2.2
  omega

/-! ### Cases -/

/-- The events are carried out. -/
def outExec (N room : ℕ) (s : OutState) (evs : List OutEvent) : Option OutState := evs.foldlM (outStep N room) s

theorem outExec_run {N room : ℕ} (evs : List OutEvent) : ∀ {s s' : OutState}, outExec N room s evs = some s' → OutRun N room s evs s' := by
  induction evs with
  | nil => intro s s' h; cases h; exact .nil
  | cons e evs ih =>
    intro s s' h
    simp only [outExec, List.foldlM_cons, Option.bind_eq_bind, Option.bind_eq_some_iff] at h
    obtain ⟨s1, h1, h2⟩ := h
    exact (OutRun.nil.snoc h1).trans (ih h2)

/-- Two goroutines, one broadcasting and one sending to member 1; member 0 reads nothing, and TCP has room for 6 bytes. Everything meant for member 1 can arrive, and in the other order than it was called. -/
example : ∃ s, OutRun 2 6 .init ([.broadcast 0 ⟨"A", [], 0, []⟩, .send 1 1 ⟨"B", [], 0, []⟩, .put 1, .put 0, .put 0, .take 0, .copy 0, .take 1] ++
      (List.replicate 7 [OutEvent.copy 1, .read 1]).flatten ++ [.take 1] ++ (List.replicate 7 [OutEvent.copy 1, .read 1]).flatten) s ∧
    s.got 1 = frame ⟨"B", [], 0, []⟩ ++ frame ⟨"A", [], 0, []⟩ ∧ s.got 0 = [] ∧ (s.wire 0).length = 1 ∧ s.tasks 0 = [] := by
  refine ⟨_, outExec_run _ (Option.some_get (by decide +kernel)).symm, ?_⟩
  decide +kernel

/-- `C124_few_partial` with its hypotheses: two calls, member 0 silent. -/
example : ∃ evs s, OutRun 2 6 .init evs s ∧ OutQuiet 2 6 (· ≠ 0) s ∧ meant 2 evs 0 1 = [⟨"A", [], 0, []⟩] ∧ meant 2 evs 1 1 = [⟨"B", [], 0, []⟩] ∧ (∀ g, s.tasks g = []) ∧ HasAll 2 evs s 1 ∧ s.got 0 = [] := by
  have h : OutRun 2 6 .init [.broadcast 0 ⟨"A", [], 0, []⟩, .send 1 1 ⟨"B", [], 0, []⟩] _ := outExec_run _ (Option.some_get (by decide +kernel)).symm
  obtain ⟨evs', s', k1, k2, k3⟩ := (C124_rest_partial h (· ≠ 0)).2
  have hc : CallsBelow 2 ([.broadcast 0 ⟨"A", [], 0, []⟩, .send 1 1 ⟨"B", [], 0, []⟩] : List OutEvent) := by
    intro e he
    simp only [List.mem_cons, List.not_mem_nil, or_false] at he
    rcases he with rfl | rfl <;> simp
  have hc' := (out_run_work (OutInv.run h) hc k1 k2).2.1
  have hm : ∀ g d, meant 2 ([.broadcast 0 ⟨"A", [], 0, []⟩, .send 1 1 ⟨"B", [], 0, []⟩] ++ evs') g d = meant 2 [.broadcast 0 ⟨"A", [], 0, []⟩, .send 1 1 ⟨"B", [], 0, []⟩] g d := by
    intro g d
    have e1 : meant 2 evs' g d = [] := by
      rw [meant, List.filterMap_eq_nil_iff]
      intro e he
      have := k1 e he
      cases e with
      | broadcast g m => cases this
      | send g d m => cases this
      | _ => rfl
    simp only [meant, List.filterMap_append] at e1 ⊢
    rw [e1, List.append_nil]
  have key := C124_few_partial (x := 0) (by norm_num) (h.trans k2) hc' (by
    rw [Finset.sum_range_succ, Finset.sum_range_one, hm, hm]
    decide) k3
  refine ⟨_, s', h.trans k2, k3, by rw [hm]; decide, by rw [hm]; decide, key.1, key.2 1 (by norm_num), ?_⟩
  rw [got_nil (x := 0) k2 (fun hx => k1 _ hx rfl)]
  decide +kernel

/-- `C124_refuted_waits` for four members of which the second stops reading. -/
example : ∃ evs s, OutRun 4 65536 .init evs s ∧ (meant 4 evs 0 1).length ≤ 17410 ∧ ∀ evs' s', OutRun 4 65536 s evs' s' → .read 1 ∉ evs' → ∀ d, 1 ≤ d → d < 4 →
    ((s'.put d).filter fun e => decide (e.1 = 0)).length + 1 = (meant 4 (evs ++ evs') 0 d).length := by
  obtain ⟨evs, s, h1, -, -, h2, h3⟩ := C124_refuted_waits 4 65536 1 (by norm_num) (by norm_num) ⟨"Echo", [1], 0, [5]⟩
  refine ⟨evs, s, h1, h2, fun evs' s' hr hx d h4 h5 => ?_⟩
  obtain ⟨a, b⟩ := h3 evs' s' hr hx d h4 h5
  rw [a, ← b]
  simp

end DyCAPS
