import Verif.Lemmas.Dispatch

/-!
# Routing of messages (C05, C06, C07, C58)
-/

namespace DyCAPS

/-- **C05.** In every interleaving of connections, dispatcher and consumers: readers get only messages of the key they asked for; for every key the messages
read, followed by those in the key's queue, the one the dispatcher holds and those it has not taken yet, are exactly the messages of that key
that arrived, in arrival order. -/
theorem C05_fifo {N : ℕ} {evs : List DEvent} {s : DState} (h : DRun N DState.init evs s) :
    (∀ e ∈ s.log, e.2.type = e.1.1 ∧ e.2.id = e.1.2) ∧
    ∀ t id, (s.log.filter (fun e => decide (e.1 = (t, id)))).map (·.2) ++ s.queued t id ++ s.holding.filter (hasKey t id) ++
      s.recvQ.filter (hasKey t id) = s.arrived.filter (hasKey t id) :=
  ⟨(DInv.run h).log_keys, (DInv.run h).fifo⟩

/-- **C05.** The channel a `GetMessage(t, id)` call returned, at whatever moment it was made, is the queue the dispatcher fills for `(t, id)`. -/
theorem C05_same_channel {N : ℕ} {evs : List DEvent} {s : DState} (h : DRun N DState.init evs s) {c ch : ℕ} {t : String} {id : Bytes}
    (hc : s.cons c = some ((t, id), .have_ ch)) : s.chan ch = s.queued t id := by
  obtain ⟨m, h1, h2⟩ := (DInv.run h).cons_ok _ _ _ hc
  exact (queued_of h1 h2).symm

/-- **C05.** A queued message is there for the reader: the oldest one of the key is the next one read. -/
theorem C05_read {N : ℕ} {evs : List DEvent} {s : DState} (h : DRun N DState.init evs s) {c ch : ℕ} {t : String} {id : Bytes}
    (hc : s.cons c = some ((t, id), .have_ ch)) {m : PMessage} {rest : List PMessage} (hq : s.queued t id = m :: rest) :
    ∃ s', dStep N s (.read c) = some s' ∧ s'.log = s.log ++ [((t, id), m)] ∧ s'.queued t id = rest := by
  have hch := (C05_same_channel h hc).trans hq
  obtain ⟨mm, h1, h2⟩ := (DInv.run h).cons_ok _ _ _ hc
  refine ⟨{ s with chan := fun c' => if c' = ch then rest else s.chan c', log := s.log ++ [((t, id), m)] }, ?_, rfl, ?_⟩
  · simp only [dStep, hc, hch]
  · exact (queued_set (DInv.run h) h1 h2 rest { s with chan := fun c' => if c' = ch then rest else s.chan c', log := s.log ++ [((t, id), m)] } rfl rfl rfl t id).trans
      (if_pos ⟨rfl, rfl⟩)

/-- **C05.** What arrived is what the connections pushed. -/
theorem C05_arrived {N : ℕ} {evs : List DEvent} {s : DState} (h : DRun N DState.init evs s) :
    s.arrived = evs.filterMap fun | .arrive m => some m | _ => none := by
  induction h with
  | nil => rfl
  | @snoc evs s ev s' _ hs ih =>
    rw [List.filterMap_append, ← ih]
    cases ev with
    | arrive m => simp only [dStep] at hs; split at hs <;> cases hs; rfl
    | _ =>
      rcases dStep_recv hs with ⟨_, b⟩ | ⟨m, a, b⟩ | ⟨_, _, b⟩
      · simp [b]
      · exfalso
        have hlen := congrArg List.length b
        simp only [dStep, DState.lookup, DState.loadOuter, DState.loadInner] at hs
        repeat' split at hs
        all_goals first
          | (simp only [Option.map_eq_some_iff, Option.some.injEq, Prod.exists] at hs; grind)
          | (cases hs <;> simp_all)
      · simp [b]

/-- **C06 (refuted).** Once more than `N*N` messages of one key are unread, nothing that arrives later is ever delivered to anybody,
as long as nobody reads that key: what other readers get stays within what had arrived before. -/
theorem C06_blocked {N : ℕ} {evs evs' : List DEvent} {s s' : DState} (h : DRun N DState.init evs s) {t : String} {id : Bytes}
    (hf : s.readCount t id + N * N < (s.arrived.filter (hasKey t id)).length) (h' : DRun N s evs' s') (hr : s'.readCount t id = s.readCount t id)
    (t' : String) (id' : Bytes) : (s'.log.filter (fun e => decide (e.1 = (t', id')))).map (·.2) <+: s.arrived.filter (hasKey t' id') := by
  have hi := DInv.run h
  obtain ⟨pre, post, e1, e2⟩ := flooded hi (h.cap fun c => by simp [DState.init]) hf h' hr
  have := (h'.inv hi).fifo t' id'
  rw [e1, e2, List.filter_append, List.filter_append, ← List.append_assoc] at this
  refine ⟨s'.queued t' id' ++ (s'.holding.filter (hasKey t' id') ++ pre.filter (hasKey t' id')), ?_⟩
  rw [← List.append_cancel_right this]
  simp only [List.append_assoc]

/-- **C06 (refuted).** For every committee size a peer can bring about that situation with `N*N + 1` copies of any one message; afterwards no message of
another key reaches its reader. -/
theorem C06_refuted (N : ℕ) (flood : PMessage) : ∃ evs s, DRun N DState.init evs s ∧ s.arrived = List.replicate (N * N + 1) flood ∧
    ∀ evs' s', DRun N s evs' s' → (∀ e ∈ s'.log, e.1 ≠ (flood.type, flood.id)) → s'.log = [] := by
  obtain ⟨evs, s, h1, h2, h3, h4, h5⟩ := flood_run N flood (N * N) le_rfl
  have hs : dStep N s (.arrive flood) = some { s with recvQ := s.recvQ ++ [flood], arrived := s.arrived ++ [flood] } := by
    simp [dStep, h2, maxMessage]
  have harr : s.arrived ++ [flood] = List.replicate (N * N + 1) flood := by rw [h5, List.replicate_succ']
  refine ⟨evs ++ [.arrive flood], _, h1.snoc hs, harr, ?_⟩
  intro evs' s' h' hno
  have hrc : s'.readCount flood.type flood.id = 0 := by
    simp only [DState.readCount, List.length_eq_zero_iff, List.filter_eq_nil_iff, decide_eq_true_eq]
    exact fun e he => hno e he
  rw [List.eq_nil_iff_forall_not_mem]
  intro e he
  have hpre := C06_blocked (h1.snoc hs) (t := flood.type) (id := flood.id) (by
    show (s.log.filter _).length + _ < ((s.arrived ++ [flood]).filter _).length
    rw [harr, h4, List.filter_replicate, if_pos (by simp [hasKey])]
    simp) h' (by rw [hrc]; simp [DState.readCount, h4]) e.1.1 e.1.2
  have hm : e.2 ∈ (s.arrived ++ [flood]).filter (hasKey e.1.1 e.1.2) :=
    hpre.subset (List.mem_map.2 ⟨e, List.mem_filter.2 ⟨he, by simp⟩, rfl⟩)
  obtain ⟨ha, hb⟩ := List.mem_filter.1 hm
  rw [harr] at ha
  have hk := of_decide_eq_true hb
  rw [List.eq_of_mem_replicate ha] at hk
  exact hno e he (Prod.ext hk.1.symm hk.2.symm)

/-- **C06 (the part that holds).** If no key has more than `N*N` unread messages, the dispatcher alone, without any reader, gets every arrived message
into the queue of its key. -/
theorem C06_delivery_partial {N : ℕ} {evs : List DEvent} {s : DState} (h : DRun N DState.init evs s)
    (hc : ∀ t id, (s.arrived.filter (hasKey t id)).length ≤ s.readCount t id + N * N) :
    ∃ evs' s', (∀ e ∈ evs', e.isDispatcher = true) ∧ DRun N s evs' s' ∧ s'.log = s.log ∧ ∀ t id,
      (s'.log.filter (fun e => decide (e.1 = (t, id)))).map (·.2) ++ s'.queued t id = s.arrived.filter (hasKey t id) := by
  have hi := DInv.run h
  obtain ⟨evs1, s1, a1, a2, a3, a4, a5, a6, a7⟩ : ∃ evs1 s1, (∀ e ∈ evs1, e.isDispatcher = true) ∧ DRun N s evs1 s1 ∧ DInv s1 ∧ s1.disp = none ∧
      s1.recvQ = s.recvQ ∧ s1.log = s.log ∧ s1.arrived = s.arrived := by
    cases hd : s.disp with
    | none => exact ⟨[], s, by simp, .nil, hi, hd, rfl, rfl, rfl⟩
    | some r =>
      obtain ⟨m, pos⟩ := r
      refine finish_held hi hd ?_
      have h1 := hi.count m.type m.id
      have h2 := hc m.type m.id
      simp only [DState.holding, hd] at h1
      have : ([m].filter (hasKey m.type m.id)).length = 1 := by simp [hasKey]
      omega
  obtain ⟨evs2, s2, b1, b2, b3, b4, b5, b6, b7⟩ := drain (N := N) _ rfl a3 a4 (by
    intro t id
    rw [a7]
    simp only [DState.readCount, a6]
    exact hc t id)
  refine ⟨evs1 ++ evs2, s2, fun e he => (List.mem_append.1 he).elim (a1 e) (b1 e), a2.trans b2, b6.trans a6, fun t id => ?_⟩
  have := b3.fifo t id
  rw [b7, a7, b5, DState.holding, b4] at this
  simpa using this

/-- **C07.** `Broadcast(m)` appends `m` once to the outgoing queue of each of the `N` members and changes nothing else. -/
theorem C07_broadcast (p : Net) (m : PMessage) (qs : List (List PMessage)) (hqs : p.sendChannels = some (qs.map some)) (hn : p.sendToNextChannels.isSome = true)
    (hlen : qs.length = p.N) (hcap : ∀ q ∈ qs, q.length < maxMessage) :
    p.broadcast m = .ok { p with sendChannels := some (qs.map fun q => some (q ++ [m])) } := by
  have h := sendLoop_sel p m qs hqs hn hlen hcap (fun _ => True)
  have e : (appendTo qs (fun _ => True) m p.N).map some = qs.map fun q => some (q ++ [m]) := by
    rw [← hlen, appendTo_full]
    apply List.ext_getElem?
    intro i
    simp [Function.comp_def]
  rw [e] at h
  simp only [if_true] at h
  simp only [Net.broadcast, Net.checkSendChannelsInit, hn, Bool.not_true, Bool.false_eq_true, if_false, h]

/-- **C07.** `BroadcastExclude(m, x)` does so for all members but `x`. -/
theorem C07_broadcastExclude (p : Net) (m : PMessage) (x : ℕ) (qs : List (List PMessage)) (hqs : p.sendChannels = some (qs.map some))
    (hn : p.sendToNextChannels.isSome = true) (hlen : qs.length = p.N) (hcap : ∀ q ∈ qs, q.length < maxMessage) :
    p.broadcastExclude m x = .ok { p with sendChannels := some ((qs.mapIdx fun i q => if i = x then q else q ++ [m]).map some) } := by
  have h := sendLoop_sel p m qs hqs hn hlen hcap (fun i => i ≠ x)
  have e : appendTo qs (fun i => i ≠ x) m p.N = qs.mapIdx fun i q => if i = x then q else q ++ [m] := by
    rw [← hlen, appendTo_full]
    congr 1
    funext i q
    by_cases hi : i = x <;> simp [hi]
  rw [e] at h
  simp only [Net.broadcastExclude, Net.checkSendChannelsInit, hn, Bool.not_true, Bool.false_eq_true, if_false, h]

/-- **C07.** `Send(m, d)` appends `m` to the queue of `d` alone when `d < N`. -/
theorem C07_send (p : Net) (m : PMessage) (d : ℕ) (hd : d < p.N) (qs : List (List PMessage)) (hqs : p.sendChannels = some (qs.map some))
    (hn : p.sendToNextChannels.isSome = true) (hlen : qs.length = p.N) (hcap : (qs.getD d []).length < maxMessage) :
    p.send m d = .ok { p with sendChannels := some ((qs.set d (qs.getD d [] ++ [m])).map some) } := by
  have hq : qs[d]? = some (qs.getD d []) := by
    rw [List.getD_eq_getElem?_getD, List.getElem?_eq_getElem (by omega)]; rfl
  simp only [Net.send, Net.checkSendChannelsInit, hn, Bool.not_true, Bool.false_eq_true, if_false, if_pos hd, hqs, pushChan_ok qs d m _ hq hcap]

/-- **C07.** Otherwise it returns an error and changes nothing. -/
theorem C07_send_range (p : Net) (m : PMessage) (d : ℕ) (hd : p.N ≤ d) : p.send m d = .err p ∧ p.sendToNext m d = .err p := by
  constructor
  · simp only [Net.send, if_neg (not_lt.2 hd), ite_self]
  · simp only [Net.sendToNext, if_neg (not_lt.2 hd), ite_self]

/-- **C07.** The same for the next committee: its queues only, never those of the current one. -/
theorem C07_next (p : Net) (m : PMessage) (qs : List (List PMessage)) (hqs : p.sendToNextChannels = some (qs.map some))
    (hlen : qs.length = p.N) (hcap : ∀ q ∈ qs, q.length < maxMessage) :
    p.broadcastToNext m = .ok { p with sendToNextChannels := some (qs.map fun q => some (q ++ [m])) } ∧
    ∀ d, d < p.N → p.sendToNext m d = .ok { p with sendToNextChannels := some ((qs.set d (qs.getD d [] ++ [m])).map some) } := by
  constructor
  · simp only [Net.broadcastToNext, Net.checkInitSendChannelsToNext, hqs, Option.isSome_some, Bool.not_true, Bool.false_eq_true, if_false]
    have h := sendLoop_next p m qs hqs hlen hcap
    have e : (appendTo qs (fun _ => True) m p.N).map some = qs.map fun q => some (q ++ [m]) := by
      rw [← hlen, appendTo_full]
      apply List.ext_getElem?
      intro i
      simp [Function.comp_def]
    rw [h, e]
  · intro d hd
    have hq : qs[d]? = some (qs.getD d []) := by
      rw [List.getD_eq_getElem?_getD, List.getElem?_eq_getElem (by omega)]; rfl
    have hc : (qs.getD d []).length < maxMessage := hcap _ (List.mem_of_getElem? hq)
    simp only [Net.sendToNext, Net.checkInitSendChannelsToNext, hqs, Option.isSome_some, Bool.not_true, Bool.false_eq_true, if_false, if_pos hd, pushChan_ok qs d m _ hq hc]

/-- **C58 (refuted).** Between `NewHonestParty` and `InitSendChannel` sending is not reported as an error: the call waits forever. -/
theorem C58_refuted (N : ℕ) (m : PMessage) : (∀ d, d < N → (Net.new N).send m d = .blocked (Net.new N) ∧ (Net.new N).sendToNext m d = .blocked (Net.new N)) ∧
    (0 < N → (Net.new N).broadcast m = .blocked (Net.new N) ∧ (Net.new N).broadcastToNext m = .blocked (Net.new N)) ∧
    (∀ d, d < N → (Net.new N).initSendToNextChannel.send m d = .blocked (Net.new N).initSendToNextChannel) := by
  have hp : ∀ d, d < N → pushChan (some (List.replicate N none)) d m = .blocked (some (List.replicate N none)) := by
    intro d hd; simp [pushChan, List.getElem?_replicate, hd]
  have h1 : ∀ d, d < N → (Net.new N).send m d = .blocked (Net.new N) := by
    intro d hd; simp [Net.send, Net.new, Net.checkSendChannelsInit, hd, hp d hd]
  have h2 : ∀ d, d < N → (Net.new N).sendToNext m d = .blocked (Net.new N) := by
    intro d hd; simp [Net.sendToNext, Net.new, Net.checkInitSendChannelsToNext, hd, hp d hd]
  refine ⟨fun d hd => ⟨h1 d hd, h2 d hd⟩, fun hN => ?_, ?_⟩
  · obtain ⟨n, rfl⟩ : ∃ n, N = n + 1 := ⟨N - 1, by omega⟩
    constructor
    · have : (Net.new (n + 1)).broadcast m = sendLoop (fun p i => p.send m i) (List.range (n + 1)) (Net.new (n + 1)) := rfl
      rw [this, List.range_succ_eq_map]
      simp only [sendLoop, h1 0 hN]
    · have : (Net.new (n + 1)).broadcastToNext m = sendLoop (fun p i => p.sendToNext m i) (List.range (n + 1)) (Net.new (n + 1)) := rfl
      rw [this, List.range_succ_eq_map]
      simp only [sendLoop, h2 0 hN]
  · intro d hd; simp [Net.send, Net.new, Net.initSendToNextChannel, Net.checkSendChannelsInit, hd, hp d hd]

/-- **C58 (the part that holds).** Only a party without the slices at all (not one made by `NewHonestParty`) gets the error, and nothing changes. -/
theorem C58_nil_partial (p : Net) (m : PMessage) (h : p.sendToNextChannels = none) (d : ℕ) :
    p.send m d = .err p ∧ p.broadcast m = .err p ∧ p.broadcastExclude m d = .err p ∧ p.sendToNext m d = .err p ∧ p.broadcastToNext m = .err p := by
  simp [Net.send, Net.broadcast, Net.broadcastExclude, Net.sendToNext, Net.broadcastToNext, Net.checkSendChannelsInit, Net.checkInitSendChannelsToNext, h]

section Examples

def mA : PMessage := ⟨"RBCEcho", [1], 3, [7]⟩
def mB : PMessage := ⟨"RBCReady", [1], 0, [8]⟩

/-- A message arrives, a reader asks for its key while the dispatcher is between its two lookups, and gets it. -/
example : ∃ s, DRun 4 DState.init [.arrive mA, .take, .look, .call 0 "RBCEcho" [1], .cont 0, .cont 0, .look, .push, .read 0] s ∧
    s.log = [(("RBCEcho", [1]), mA)] := by
  exact ⟨_, ((((((((DRun.nil.snoc rfl).snoc rfl).snoc rfl).snoc rfl).snoc rfl).snoc rfl).snoc rfl).snoc rfl).snoc rfl, rfl⟩

/-- `N = 1`: two unread messages block the party; a later message of another key cannot be pushed. -/
example : ∃ evs s, DRun 1 DState.init evs s ∧ s.arrived = [mA, mA] ∧ ∀ evs' s', DRun 1 s evs' s' → (∀ e ∈ s'.log, e.1 ≠ ("RBCEcho", [1])) → s'.log = [] :=
  C06_refuted 1 mA

/-- Three members, one already has a message waiting. -/
example : (Net.mk 3 (some [some [], some [mB], some []]) (some [none, none, none])).broadcast mA =
    .ok ⟨3, some [some [mA], some [mB, mA], some [mA]], some [none, none, none]⟩ := rfl

example : (Net.mk 3 (some [some [], some [mB], some []]) (some [none, none, none])).broadcastExclude mA 1 =
    .ok ⟨3, some [some [mA], some [mB], some [mA]], some [none, none, none]⟩ := rfl

example : (Net.new 4).initSendChannel.send mA 2 = .ok ⟨4, some [some [], some [], some [mA], some []], some [none, none, none, none]⟩ := rfl

/-- Two messages of one key and one of another arrive, the dispatcher has queued the first, holds the second and has not seen the third: theorems `C05_fifo`, `C05_same_channel`, `C05_read`, `C05_arrived`. -/
example : ∃ s s', DRun 4 DState.init [.arrive mA, .arrive mA, .arrive mB, .take, .look, .look, .push, .call 0 "RBCEcho" [1], .cont 0, .cont 0, .take] s ∧ s.arrived = [mA, mA, mB] ∧
    s.queued "RBCEcho" [1] = [mA] ∧ s.holding = [mA] ∧ s.recvQ = [mB] ∧ dStep 4 s (.read 0) = some s' ∧ s'.log = [(("RBCEcho", [1]), mA)] ∧ s'.queued "RBCEcho" [1] = [] := by
  obtain ⟨s, h, h1, h2, h3, h4, ⟨ch, h5⟩⟩ : ∃ s, DRun 4 DState.init [.arrive mA, .arrive mA, .arrive mB, .take, .look, .look, .push, .call 0 "RBCEcho" [1], .cont 0, .cont 0, .take] s ∧
      s.queued "RBCEcho" [1] = [mA] ∧ s.holding = [mA] ∧ s.recvQ = [mB] ∧ s.log = [] ∧ ∃ ch, s.cons 0 = some (("RBCEcho", [1]), .have_ ch) :=
    by
    refine ⟨_, ((((((((((DRun.nil.snoc rfl).snoc rfl).snoc rfl).snoc rfl).snoc rfl).snoc rfl).snoc rfl).snoc rfl).snoc rfl).snoc rfl).snoc rfl, ?_, ?_, ?_, rfl, ?_⟩
    · rfl
    · rfl
    · rfl
    · exact ⟨_, rfl⟩
  obtain ⟨s', k1, k2, k3⟩ := C05_read h h5 h1
  have hch : s.chan ch = [mA] := (C05_same_channel h h5).trans h1
  have hf := (C05_fifo h).2 "RBCEcho" [1]
  have ha := C05_arrived h
  exact ⟨s, s', h, ha, h1, h2, h3, k1, by rw [k2, h4]; rfl, k3⟩

/-- `N = 1`, two unread messages: whatever happens later, a reader of another key gets nothing. -/
example : ∃ evs s, DRun 1 DState.init evs s ∧ s.arrived = [mA, mA] ∧ ∀ evs' s', DRun 1 s evs' s' → s'.readCount "RBCEcho" [1] = 0 →
    (s'.log.filter (fun e => decide (e.1 = ("RBCReady", [1])))).map (·.2) = [] := by
  obtain ⟨s, h, h1, h2⟩ : ∃ s, DRun 1 DState.init [.arrive mA, .arrive mA] s ∧ s.arrived = [mA, mA] ∧ s.readCount "RBCEcho" [1] = 0 := ⟨_, (DRun.nil.snoc rfl).snoc rfl, rfl, rfl⟩
  refine ⟨_, s, h, h1, fun evs' s' h' hr => ?_⟩
  have := C06_blocked h (t := "RBCEcho") (id := [1]) (by rw [h1, h2]; decide) h' (by rw [hr, h2]) "RBCReady" [1]
  rw [h1, show [mA, mA].filter (hasKey "RBCReady" [1]) = [] by decide] at this
  exact List.prefix_nil.1 this

/-- The calls of `C07` on three members: to all, to all but member 1, to member 2, to nobody, and to the next committee. -/
example : ∃ p : Net, p.N = 3 ∧ p.broadcast mA = .ok { p with sendChannels := some [some [mA], some [mB, mA], some [mA]] } ∧
    p.broadcastExclude mA 1 = .ok { p with sendChannels := some [some [mA], some [mB], some [mA]] } ∧ p.send mA 2 = .ok { p with sendChannels := some [some [], some [mB], some [mA]] } ∧
    p.send mA 3 = .err p ∧ p.broadcastToNext mA = .ok { p with sendToNextChannels := some [some [mA], some [mA], some [mB, mA]] } := by
  refine ⟨⟨3, some ([[], [mB], []].map some), some ([[], [], [mB]].map some)⟩, rfl, C07_broadcast _ _ [[], [mB], []] rfl rfl rfl (by decide), C07_broadcastExclude _ _ 1 [[], [mB], []] rfl rfl rfl (by decide),
    C07_send _ _ 2 (by decide) [[], [mB], []] rfl rfl rfl (by decide), (C07_send_range _ _ 3 (by decide)).1, (C07_next _ _ [[], [], [mB]] rfl rfl (by decide)).1⟩

end Examples

end DyCAPS
