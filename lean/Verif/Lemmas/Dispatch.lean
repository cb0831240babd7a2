import Verif.Model.Dispatch

/-!
# The dispatcher: invariants
-/

namespace DyCAPS

/-- Does the message carry this type and id? -/
def hasKey (t : String) (id : Bytes) (m : PMessage) : Bool := decide (m.type = t ∧ m.id = id)

/-- What is queued in the channel for `(t, id)`: the one a `GetMessage(t, id)` call finds. -/
def DState.queued (s : DState) (t : String) (id : Bytes) : List PMessage :=
  match s.outer t with
  | none => []
  | some m =>
    match s.inner m id with
    | none => []
    | some c => s.chan c

/-- The message the dispatcher has taken from the receive channel and not yet passed on. -/
def DState.holding (s : DState) : List PMessage :=
  match s.disp with
  | none => []
  | some (m, _) => [m]

/-- A goroutine's position refers to the map and channel of its key. -/
def LookupPos.Ok (s : DState) (t : String) (id : Bytes) : LookupPos → Prop
  | .first => True
  | .second m => s.outer t = some m
  | .have_ c => ∃ m, s.outer t = some m ∧ s.inner m id = some c

structure DInv (s : DState) : Prop where
  outer_lt : ∀ t m, s.outer t = some m → m < s.nextMap
  outer_inj : ∀ t t' m, s.outer t = some m → s.outer t' = some m → t = t'
  inner_lt : ∀ m id c, s.inner m id = some c → m < s.nextMap ∧ c < s.nextChan
  inner_inj : ∀ m id m' id' c, s.inner m id = some c → s.inner m' id' = some c → m = m' ∧ id = id'
  chan_new : ∀ c, s.nextChan ≤ c → s.chan c = []
  disp_ok : ∀ m pos, s.disp = some (m, pos) → pos.Ok s m.type m.id
  cons_ok : ∀ c k pos, s.cons c = some (k, pos) → pos.Ok s k.1 k.2
  fifo : ∀ t id, (s.log.filter (fun e => decide (e.1 = (t, id)))).map (·.2) ++ s.queued t id ++ s.holding.filter (hasKey t id) ++
    s.recvQ.filter (hasKey t id) = s.arrived.filter (hasKey t id)

theorem DInv.init : DInv DState.init := by
  constructor <;> intros <;> simp_all [DState.init, DState.queued, DState.holding]

/-- What a lookup step may change. -/
structure Lookup (s s' : DState) : Prop where
  recvQ : s'.recvQ = s.recvQ
  chan : s'.chan = s.chan
  disp : s'.disp = s.disp
  cons : s'.cons = s.cons
  arrived : s'.arrived = s.arrived
  log : s'.log = s.log
  outer : ∀ t m, s.outer t = some m → s'.outer t = some m
  inner : ∀ m id c, s.inner m id = some c → s'.inner m id = some c
  queued : ∀ t id, s'.queued t id = s.queued t id

theorem LookupPos.Ok.mono {s s' : DState} (h : Lookup s s') {t : String} {id : Bytes} {pos : LookupPos} (hp : pos.Ok s t id) : pos.Ok s' t id := by
  cases pos with
  | first => trivial
  | second m => exact h.outer _ _ hp
  | have_ c =>
    obtain ⟨m, h1, h2⟩ := hp
    exact ⟨m, h.outer _ _ h1, h.inner _ _ _ h2⟩

theorem lookup_step {s s' : DState} (hi : DInv s) {t : String} {id : Bytes} {pos pos' : LookupPos} (hp : pos.Ok s t id)
    (h : s.lookup t id pos = some (s', pos')) : DInv s' ∧ Lookup s s' ∧ pos'.Ok s' t id := by
  cases pos with
  | have_ c => simp [DState.lookup] at h
  | first =>
    simp only [DState.lookup, DState.loadOuter] at h
    cases ho : s.outer t with
    | some m =>
      rw [ho] at h
      simp only [Option.some.injEq, Prod.mk.injEq] at h
      obtain ⟨rfl, rfl⟩ := h
      exact ⟨hi, ⟨rfl, rfl, rfl, rfl, rfl, rfl, fun _ _ h => h, fun _ _ _ h => h, fun _ _ => rfl⟩, ho⟩
    | none =>
      rw [ho] at h
      simp only [Option.some.injEq, Prod.mk.injEq] at h
      obtain ⟨rfl, rfl⟩ := h
      have hl : Lookup s { s with nextMap := s.nextMap + 1, outer := fun t' => if t' = t then some s.nextMap else s.outer t' } := by
        refine ⟨rfl, rfl, rfl, rfl, rfl, rfl, ?_, fun _ _ _ h => h, ?_⟩
        · intro t' m h
          by_cases ht : t' = t
          · rw [ht, ho] at h; cases h
          · simp only [if_neg ht]; exact h
        · intro t' id'
          simp only [DState.queued]
          by_cases ht : t' = t
          · subst ht
            simp only [if_pos, ho]
            cases hin : s.inner s.nextMap id' with
            | none => rfl
            | some c => exact absurd (hi.inner_lt _ _ _ hin).1 (lt_irrefl _)
          · simp only [if_neg ht]
      refine ⟨⟨?_, ?_, ?_, hi.inner_inj, hi.chan_new, ?_, ?_, ?_⟩, hl, ?_⟩
      · intro t' m h
        show m < s.nextMap + 1
        simp only at h
        split at h
        · cases h; omega
        · have := hi.outer_lt _ _ h; omega
      · intro t1 t2 m h1 h2
        simp only at h1 h2
        split at h1 <;> split at h2
        · rename_i a b; rw [a, b]
        · cases h1; have := hi.outer_lt _ _ h2; omega
        · cases h2; have := hi.outer_lt _ _ h1; omega
        · exact hi.outer_inj _ _ _ h1 h2
      · intro m id' c h
        have := hi.inner_lt m id' c h
        exact ⟨Nat.lt_succ_of_lt this.1, this.2⟩
      · intro m pos h; exact (hi.disp_ok m pos h).mono hl
      · intro c k pos h; exact (hi.cons_ok c k pos h).mono hl
      · intro t' id'; rw [hl.queued]; exact hi.fifo t' id'
      · show (if t = t then some s.nextMap else s.outer t) = some s.nextMap
        rw [if_pos rfl]
  | second m =>
    have hp : s.outer t = some m := hp
    simp only [DState.lookup, DState.loadInner] at h
    cases ho : s.inner m id with
    | some c =>
      rw [ho] at h
      simp only [Option.some.injEq, Prod.mk.injEq] at h
      obtain ⟨rfl, rfl⟩ := h
      exact ⟨hi, ⟨rfl, rfl, rfl, rfl, rfl, rfl, fun _ _ h => h, fun _ _ _ h => h, fun _ _ => rfl⟩, m, hp, ho⟩
    | none =>
      rw [ho] at h
      simp only [Option.some.injEq, Prod.mk.injEq] at h
      obtain ⟨rfl, rfl⟩ := h
      have hl : Lookup s { s with nextChan := s.nextChan + 1, inner := fun m' id' => if m' = m ∧ id' = id then some s.nextChan else s.inner m' id' } := by
        refine ⟨rfl, rfl, rfl, rfl, rfl, rfl, fun _ _ h => h, ?_, ?_⟩
        · intro m' id' c h
          by_cases ht : m' = m ∧ id' = id
          · rw [ht.1, ht.2, ho] at h; cases h
          · simp only [if_neg ht]; exact h
        · intro t' id'
          simp only [DState.queued]
          cases hot : s.outer t' with
          | none => rfl
          | some m' =>
            simp only
            by_cases ht : m' = m ∧ id' = id
            · simp only [if_pos ht]
              rw [ht.1, ht.2, ho]
              exact hi.chan_new _ le_rfl
            · simp only [if_neg ht]
      refine ⟨⟨hi.outer_lt, hi.outer_inj, ?_, ?_, ?_, ?_, ?_, ?_⟩, hl, m, hp, ?_⟩
      · intro m' id' c h
        show m' < s.nextMap ∧ c < s.nextChan + 1
        simp only at h
        split at h
        · rename_i ht
          cases h
          exact ⟨by rw [ht.1]; exact hi.outer_lt _ _ hp, by omega⟩
        · have := hi.inner_lt _ _ _ h
          exact ⟨this.1, by omega⟩
      · intro m1 id1 m2 id2 c h1 h2
        simp only at h1 h2
        split at h1 <;> split at h2
        · rename_i a b; exact ⟨a.1.trans b.1.symm, a.2.trans b.2.symm⟩
        · cases h1; have := (hi.inner_lt _ _ _ h2).2; omega
        · cases h2; have := (hi.inner_lt _ _ _ h1).2; omega
        · exact hi.inner_inj _ _ _ _ _ h1 h2
      · intro c h; exact hi.chan_new c (by simp only at h; omega)
      · intro m pos h; exact (hi.disp_ok m pos h).mono hl
      · intro c k pos h; exact (hi.cons_ok c k pos h).mono hl
      · intro t' id'; rw [hl.queued]; exact hi.fifo t' id'
      · show (if m = m ∧ id = id then some s.nextChan else s.inner m id) = some s.nextChan
        rw [if_pos ⟨rfl, rfl⟩]

/-- The channel of one key changes exactly the queue of that key. -/
theorem queued_set {s : DState} (hi : DInv s) {t : String} {id : Bytes} {m c : ℕ} (h1 : s.outer t = some m) (h2 : s.inner m id = some c) (q : List PMessage)
    (s' : DState) (ho : s'.outer = s.outer) (hn : s'.inner = s.inner) (hc : s'.chan = fun c' => if c' = c then q else s.chan c') (t' : String) (id' : Bytes) :
    s'.queued t' id' = if t' = t ∧ id' = id then q else s.queued t' id' := by
  simp only [DState.queued, ho, hn, hc]
  by_cases hk : t' = t ∧ id' = id
  · rw [if_pos hk, hk.1, hk.2, h1]
    simp only [h2, if_pos]
  · rw [if_neg hk]
    cases hot : s.outer t' with
    | none => rfl
    | some m' =>
      simp only
      cases hin : s.inner m' id' with
      | none => rfl
      | some c' =>
        simp only
        rw [if_neg]
        rintro rfl
        obtain ⟨e1, e2⟩ := hi.inner_inj _ _ _ _ _ hin h2
        subst e1
        exact hk ⟨hi.outer_inj _ _ _ hot h1, e2⟩

theorem queued_of {s : DState} {t : String} {id : Bytes} {m c : ℕ} (h1 : s.outer t = some m) (h2 : s.inner m id = some c) : s.queued t id = s.chan c := by
  simp only [DState.queued, h1, h2]

theorem LookupPos.Ok.congr {s s' : DState} (ho : s'.outer = s.outer) (hn : s'.inner = s.inner) {t : String} {id : Bytes} {pos : LookupPos} :
    pos.Ok s' t id ↔ pos.Ok s t id := by
  cases pos <;> simp only [LookupPos.Ok, ho, hn]

theorem DInv.step {N : ℕ} {s s' : DState} {ev : DEvent} (hi : DInv s) (h : dStep N s ev = some s') : DInv s' := by
  cases ev with
  | arrive m =>
    simp only [dStep] at h
    split at h
    · cases h
      refine ⟨hi.outer_lt, hi.outer_inj, hi.inner_lt, hi.inner_inj, hi.chan_new, hi.disp_ok, hi.cons_ok, fun t id => ?_⟩
      have := hi.fifo t id
      simp only [List.filter_append]
      rw [← this]
      simp only [← List.append_assoc]
      rfl
    · cases h
  | take =>
    simp only [dStep] at h
    split at h
    · rename_i m rest hd hq
      cases h
      refine ⟨hi.outer_lt, hi.outer_inj, hi.inner_lt, hi.inner_inj, hi.chan_new, ?_, hi.cons_ok, fun t id => ?_⟩
      · intro m' pos h
        simp only [Option.some.injEq, Prod.mk.injEq] at h
        rw [← h.2]; trivial
      · have := hi.fifo t id
        rw [hq, DState.holding, hd] at this
        rw [← this]
        show _ ++ s.queued t id ++ [m].filter _ ++ rest.filter _ = _
        simp only [List.filter_cons, List.filter_nil, List.append_nil, List.append_assoc]
        split <;> simp
    · cases h
  | look =>
    simp only [dStep] at h
    split at h
    · rename_i m pos hd
      cases hl : s.lookup m.type m.id pos with
      | none => rw [hl] at h; cases h
      | some r =>
        obtain ⟨s1, pos'⟩ := r
        rw [hl] at h
        cases h
        obtain ⟨k1, k2, k3⟩ := lookup_step hi (hi.disp_ok m pos hd) hl
        refine ⟨k1.outer_lt, k1.outer_inj, k1.inner_lt, k1.inner_inj, k1.chan_new, ?_, k1.cons_ok, fun t id => ?_⟩
        · intro m' pos'' h
          simp only [Option.some.injEq, Prod.mk.injEq] at h
          rw [← h.1, ← h.2]; exact k3
        · have h1 := k1.fifo t id
          have h2 : s1.holding = [m] := by rw [DState.holding, k2.disp, hd]
          rw [h2] at h1
          exact h1
    · cases h
  | push =>
    simp only [dStep] at h
    split at h
    · rename_i m c hd
      split at h
      · cases h
        obtain ⟨mm, h1, h2⟩ := hi.disp_ok _ _ hd
        refine ⟨hi.outer_lt, hi.outer_inj, hi.inner_lt, hi.inner_inj, ?_, ?_, hi.cons_ok, fun t id => ?_⟩
        · intro c' hc
          simp only
          have := (hi.inner_lt _ _ _ h2).2
          rw [if_neg (by simp only at hc; omega)]
          exact hi.chan_new c' hc
        · intro m' pos h; cases h
        · have := hi.fifo t id
          rw [DState.holding, hd] at this
          rw [← this, queued_set hi h1 h2 (s.chan c ++ [m]) { s with chan := fun c' => if c' = c then s.chan c ++ [m] else s.chan c', disp := none } rfl rfl rfl]
          simp only [DState.holding, List.filter_nil, List.append_nil, List.filter_cons]
          by_cases hk : t = m.type ∧ id = m.id
          · rw [if_pos hk, hk.1, hk.2, queued_of h1 h2]
            simp [hasKey]
          · rw [if_neg hk]
            have : hasKey t id m = false := by simp only [hasKey, decide_eq_false_iff_not]; rintro ⟨rfl, rfl⟩; exact hk ⟨rfl, rfl⟩
            rw [this]; simp
      · cases h
    · cases h
  | call c t id =>
    simp only [dStep, Option.some.injEq] at h
    subst h
    refine ⟨hi.outer_lt, hi.outer_inj, hi.inner_lt, hi.inner_inj, hi.chan_new, hi.disp_ok, ?_, hi.fifo⟩
    intro c' k pos h
    simp only at h
    split at h
    · simp only [Option.some.injEq, Prod.mk.injEq] at h
      rw [← h.2]; trivial
    · exact hi.cons_ok _ _ _ h
  | cont c =>
    simp only [dStep] at h
    split at h
    · rename_i k pos hd
      cases hl : s.lookup k.1 k.2 pos with
      | none => rw [hl] at h; cases h
      | some r =>
        obtain ⟨s1, pos'⟩ := r
        rw [hl] at h
        cases h
        obtain ⟨k1, k2, k3⟩ := lookup_step hi (hi.cons_ok c k pos hd) hl
        refine ⟨k1.outer_lt, k1.outer_inj, k1.inner_lt, k1.inner_inj, k1.chan_new, k1.disp_ok, ?_, k1.fifo⟩
        intro c' k' pos'' h
        simp only at h
        split at h
        · simp only [Option.some.injEq, Prod.mk.injEq] at h
          rw [← h.1, ← h.2]; exact k3
        · exact k1.cons_ok _ _ _ h
    · cases h
  | read c =>
    simp only [dStep] at h
    split at h
    · rename_i k ch hd
      split at h
      · cases h
      · rename_i m rest hch
        cases h
        obtain ⟨mm, h1, h2⟩ := hi.cons_ok _ _ _ hd
        refine ⟨hi.outer_lt, hi.outer_inj, hi.inner_lt, hi.inner_inj, ?_, hi.disp_ok, hi.cons_ok, fun t id => ?_⟩
        · intro c' hc
          simp only
          have := (hi.inner_lt _ _ _ h2).2
          rw [if_neg (by simp only at hc; omega)]
          exact hi.chan_new c' hc
        · have := hi.fifo t id
          rw [← this, queued_set hi h1 h2 rest { s with chan := fun c' => if c' = ch then rest else s.chan c', log := s.log ++ [(k, m)] } rfl rfl rfl]
          show _ ++ _ ++ s.holding.filter _ ++ s.recvQ.filter _ = _
          congr 2
          by_cases hk : t = k.1 ∧ id = k.2
          · rw [if_pos hk, hk.1, hk.2, queued_of h1 h2, hch]
            simp
          · rw [if_neg hk]
            have : ¬ k = (t, id) := by rintro rfl; exact hk ⟨rfl, rfl⟩
            simp [this]
    · cases h

theorem DInv.run {N : ℕ} {evs : List DEvent} {s : DState} (h : DRun N DState.init evs s) : DInv s := by
  induction h with
  | nil => exact DInv.init
  | snoc _ hs ih => exact ih.step hs

/-- All messages read are messages of the key asked for. -/
theorem DInv.log_keys {s : DState} (hi : DInv s) : ∀ e ∈ s.log, e.2.type = e.1.1 ∧ e.2.id = e.1.2 := by
  intro e he
  have h := hi.fifo e.1.1 e.1.2
  have hm : e.2 ∈ s.arrived.filter (hasKey e.1.1 e.1.2) := by
    rw [← h]
    simp only [List.mem_append]
    refine Or.inl (Or.inl (Or.inl (List.mem_map.2 ⟨e, List.mem_filter.2 ⟨he, by simp⟩, rfl⟩)))
  have := (List.mem_filter.1 hm).2
  exact of_decide_eq_true this

theorem DRun.trans {N : ℕ} {s0 s1 s2 : DState} {e1 e2 : List DEvent} (h1 : DRun N s0 e1 s1) (h2 : DRun N s1 e2 s2) : DRun N s0 (e1 ++ e2) s2 := by
  induction h2 with
  | nil => rw [List.append_nil]; exact h1
  | snoc _ hs ih => rw [← List.append_assoc]; exact ih.snoc hs

theorem DRun.single {N : ℕ} {s s' : DState} {ev : DEvent} (h : dStep N s ev = some s') : DRun N s [ev] s' := DRun.nil.snoc h

end DyCAPS

namespace DyCAPS

/-- An action of the dispatcher goroutine. -/
def DEvent.isDispatcher : DEvent → Bool
  | .take | .look | .push => true
  | _ => false

/-- How many messages of a key consumers have read. -/
def DState.readCount (s : DState) (t : String) (id : Bytes) : ℕ := (s.log.filter (fun e => decide (e.1 = (t, id)))).length

theorem DInv.count {s : DState} (hi : DInv s) (t : String) (id : Bytes) :
    s.readCount t id + (s.queued t id).length + (s.holding.filter (hasKey t id)).length + (s.recvQ.filter (hasKey t id)).length =
      (s.arrived.filter (hasKey t id)).length := by
  have := congrArg List.length (hi.fifo t id)
  simpa [DState.readCount, Nat.add_assoc] using this

/-- With room in the right queue the dispatcher finishes with the message it holds. -/
theorem finish_held {N : ℕ} {s : DState} (hi : DInv s) {m : PMessage} {pos : LookupPos} (hd : s.disp = some (m, pos)) (hr : (s.queued m.type m.id).length < N * N) :
    ∃ evs s', (∀ e ∈ evs, e.isDispatcher = true) ∧ DRun N s evs s' ∧ DInv s' ∧ s'.disp = none ∧ s'.recvQ = s.recvQ ∧ s'.log = s.log ∧ s'.arrived = s.arrived := by
  cases pos with
  | have_ c =>
    obtain ⟨mm, h1, h2⟩ := hi.disp_ok _ _ hd
    rw [queued_of h1 h2] at hr
    have hs : dStep N s .push = some { s with chan := fun c' => if c' = c then s.chan c ++ [m] else s.chan c', disp := none } := by
      simp only [dStep, hd, if_pos hr]
    exact ⟨[.push], _, by simp [DEvent.isDispatcher], DRun.single hs, hi.step hs, rfl, rfl, rfl, rfl⟩
  | second mm =>
    have hl : s.lookup m.type m.id (.second mm) = some ((s.loadInner mm m.id).1, .have_ (s.loadInner mm m.id).2) := rfl
    obtain ⟨k1, k2, k3⟩ := lookup_step hi (hi.disp_ok _ _ hd) hl
    have hs : dStep N s .look = some { (s.loadInner mm m.id).1 with disp := some (m, .have_ (s.loadInner mm m.id).2) } := by
      simp only [dStep, hd, hl, Option.map_some]
    have hi1 := hi.step hs
    set s1 : DState := { (s.loadInner mm m.id).1 with disp := some (m, .have_ (s.loadInner mm m.id).2) } with hs1
    have hq : s1.queued m.type m.id = s.queued m.type m.id := k2.queued _ _
    obtain ⟨evs, s', e1, e2, e3, e4, e5, e6, e7⟩ : ∃ evs s', (∀ e ∈ evs, e.isDispatcher = true) ∧ DRun N s1 evs s' ∧ DInv s' ∧ s'.disp = none ∧
        s'.recvQ = s1.recvQ ∧ s'.log = s1.log ∧ s'.arrived = s1.arrived := by
      obtain ⟨mm', h1, h2⟩ := hi1.disp_ok _ _ (show s1.disp = some (m, .have_ _) from rfl)
      rw [← hq, queued_of h1 h2] at hr
      have hs' : dStep N s1 .push = some { s1 with
          chan := fun c' => if c' = (s.loadInner mm m.id).2 then s1.chan (s.loadInner mm m.id).2 ++ [m] else s1.chan c', disp := none } := by
        simp only [dStep]
        rw [show s1.disp = some (m, .have_ (s.loadInner mm m.id).2) from rfl]
        simp only [if_pos hr]
      exact ⟨[.push], _, by simp [DEvent.isDispatcher], DRun.single hs', hi1.step hs', rfl, rfl, rfl, rfl⟩
    refine ⟨[.look] ++ evs, s', ?_, (DRun.single hs).trans e2, e3, e4, e5.trans k2.recvQ, e6.trans k2.log, e7.trans k2.arrived⟩
    intro e he
    rcases List.mem_append.1 he with h | h
    · rw [List.mem_singleton.1 h]; rfl
    · exact e1 e h
  | first =>
    have hl : s.lookup m.type m.id .first = some ((s.loadOuter m.type).1, .second (s.loadOuter m.type).2) := rfl
    obtain ⟨k1, k2, k3⟩ := lookup_step hi (hi.disp_ok _ _ hd) hl
    have hs : dStep N s .look = some { (s.loadOuter m.type).1 with disp := some (m, .second (s.loadOuter m.type).2) } := by
      simp only [dStep, hd, hl, Option.map_some]
    have hi1 := hi.step hs
    set s1 : DState := { (s.loadOuter m.type).1 with disp := some (m, .second (s.loadOuter m.type).2) } with hs1
    have hq : s1.queued m.type m.id = s.queued m.type m.id := k2.queued _ _
    -- second look
    set mm := (s.loadOuter m.type).2 with hmm
    have hl1 : s1.lookup m.type m.id (.second mm) = some ((s1.loadInner mm m.id).1, .have_ (s1.loadInner mm m.id).2) := rfl
    obtain ⟨j1, j2, j3⟩ := lookup_step hi1 (hi1.disp_ok _ _ (show s1.disp = some (m, .second mm) from rfl)) hl1
    have hs2 : dStep N s1 .look = some { (s1.loadInner mm m.id).1 with disp := some (m, .have_ (s1.loadInner mm m.id).2) } := by
      simp only [dStep]
      rw [show s1.disp = some (m, .second mm) from rfl]
      simp only [hl1, Option.map_some]
    have hi2 := hi1.step hs2
    set s2 : DState := { (s1.loadInner mm m.id).1 with disp := some (m, .have_ (s1.loadInner mm m.id).2) } with hs2'
    have hq2 : s2.queued m.type m.id = s1.queued m.type m.id := j2.queued _ _
    obtain ⟨mm', h1, h2⟩ := hi2.disp_ok _ _ (show s2.disp = some (m, .have_ _) from rfl)
    rw [← hq, ← hq2, queued_of h1 h2] at hr
    have hs' : dStep N s2 .push = some { s2 with
        chan := fun c' => if c' = (s1.loadInner mm m.id).2 then s2.chan (s1.loadInner mm m.id).2 ++ [m] else s2.chan c', disp := none } := by
      simp only [dStep]
      rw [show s2.disp = some (m, .have_ (s1.loadInner mm m.id).2) from rfl]
      simp only [if_pos hr]
    exact ⟨([.look] ++ [.look]) ++ [.push], _, by simp [DEvent.isDispatcher], ((DRun.single hs).trans (DRun.single hs2)).trans (DRun.single hs'), hi2.step hs',
      rfl, j2.recvQ.trans k2.recvQ, j2.log.trans k2.log, j2.arrived.trans k2.arrived⟩

/-- If no key has more than `N*N` unread messages, the dispatcher empties the receive channel. -/
theorem drain {N : ℕ} : ∀ (n : ℕ) {s : DState}, s.recvQ.length = n → DInv s → s.disp = none →
    (∀ t id, (s.arrived.filter (hasKey t id)).length ≤ s.readCount t id + N * N) →
    ∃ evs s', (∀ e ∈ evs, e.isDispatcher = true) ∧ DRun N s evs s' ∧ DInv s' ∧ s'.disp = none ∧ s'.recvQ = [] ∧ s'.log = s.log ∧ s'.arrived = s.arrived := by
  intro n
  induction n with
  | zero =>
    intro s hn hi hd _
    exact ⟨[], s, by simp, .nil, hi, hd, List.eq_nil_of_length_eq_zero hn, rfl, rfl⟩
  | succ n ih =>
    intro s hn hi hd hc
    cases hq : s.recvQ with
    | nil => rw [hq] at hn; cases hn
    | cons m rest =>
      have hs : dStep N s .take = some { s with recvQ := rest, disp := some (m, .first) } := by
        simp only [dStep, hd, hq]
      have hi1 := hi.step hs
      have hr : (DState.queued { s with recvQ := rest, disp := some (m, .first) } m.type m.id).length < N * N := by
        have h1 := hi1.count m.type m.id
        have h2 := hc m.type m.id
        simp only [DState.holding, DState.readCount] at h1 h2
        have : ([m].filter (hasKey m.type m.id)).length = 1 := by simp [hasKey]
        omega
      obtain ⟨evs, s', e1, e2, e3, e4, e5, e6, e7⟩ := finish_held hi1 rfl hr
      obtain ⟨evs2, s2, f1, f2, f3, f4, f5, f6, f7⟩ := ih (s := s') (by rw [e5]; rw [hq] at hn; simpa using hn) e3 e4 (by
        intro t id
        have := hc t id
        rw [e7]
        simp only [DState.readCount, e6]
        exact this)
      refine ⟨([.take] ++ evs) ++ evs2, s2, ?_, ((DRun.single hs).trans e2).trans f2, f3, f4, f5, f6.trans e6, f7.trans e7⟩
      intro e he
      simp only [List.mem_append, List.mem_singleton] at he
      rcases he with (h | h) | h
      · rw [h]; rfl
      · exact e1 e h
      · exact f1 e h

/-- The log only grows, one entry at a time; the arrivals likewise. -/
theorem dStep_log {N : ℕ} {s s' : DState} {ev : DEvent} (h : dStep N s ev = some s') : ∃ l, s'.log = s.log ++ l := by
  cases ev with
  | arrive m => simp only [dStep] at h; split at h <;> cases h; exact ⟨[], by simp⟩
  | take => simp only [dStep] at h; split at h <;> cases h; exact ⟨[], by simp⟩
  | look =>
    simp only [dStep] at h
    split at h
    · rename_i m pos _
      cases pos with
      | first =>
        simp only [DState.lookup, Option.map_some, Option.some.injEq] at h; subst h
        exact ⟨[], by simp only [DState.loadOuter]; split <;> simp⟩
      | second mm =>
        simp only [DState.lookup, Option.map_some, Option.some.injEq] at h; subst h
        exact ⟨[], by simp only [DState.loadInner]; split <;> simp⟩
      | have_ c => cases h
    · cases h
  | push =>
    simp only [dStep] at h
    split at h
    · split at h <;> cases h
      exact ⟨[], by simp⟩
    · cases h
  | call c t id => simp only [dStep, Option.some.injEq] at h; subst h; exact ⟨[], by simp⟩
  | cont c =>
    simp only [dStep] at h
    split at h
    · rename_i k pos _
      cases pos with
      | first =>
        simp only [DState.lookup, Option.map_some, Option.some.injEq] at h; subst h
        exact ⟨[], by simp only [DState.loadOuter]; split <;> simp⟩
      | second mm =>
        simp only [DState.lookup, Option.map_some, Option.some.injEq] at h; subst h
        exact ⟨[], by simp only [DState.loadInner]; split <;> simp⟩
      | have_ c => cases h
    · cases h
  | read c =>
    simp only [dStep] at h
    split at h
    · split at h
      · cases h
      · cases h; exact ⟨_, rfl⟩
    · cases h

/-- How the receive channel and the arrivals change. -/
theorem dStep_recv {N : ℕ} {s s' : DState} {ev : DEvent} (h : dStep N s ev = some s') :
    (s'.recvQ = s.recvQ ∧ s'.arrived = s.arrived) ∨ (∃ m, s'.recvQ = s.recvQ ++ [m] ∧ s'.arrived = s.arrived ++ [m]) ∨
      (s.disp = none ∧ (∃ m, s.recvQ = m :: s'.recvQ) ∧ s'.arrived = s.arrived) := by
  cases ev with
  | arrive m => simp only [dStep] at h; split at h <;> cases h; exact Or.inr (Or.inl ⟨m, rfl, rfl⟩)
  | take =>
    simp only [dStep] at h
    split at h
    · rename_i m rest hd hq
      cases h
      exact Or.inr (Or.inr ⟨hd, ⟨m, hq⟩, rfl⟩)
    · cases h
  | look =>
    refine Or.inl ?_
    simp only [dStep] at h
    split at h
    · rename_i m pos _
      cases pos with
      | first =>
        simp only [DState.lookup, Option.map_some, Option.some.injEq] at h; subst h
        simp only [DState.loadOuter]; split <;> exact ⟨rfl, rfl⟩
      | second mm =>
        simp only [DState.lookup, Option.map_some, Option.some.injEq] at h; subst h
        simp only [DState.loadInner]; split <;> exact ⟨rfl, rfl⟩
      | have_ c => cases h
    · cases h
  | push =>
    simp only [dStep] at h
    split at h
    · split at h <;> cases h
      exact Or.inl ⟨rfl, rfl⟩
    · cases h
  | call c t id => simp only [dStep, Option.some.injEq] at h; subst h; exact Or.inl ⟨rfl, rfl⟩
  | cont c =>
    refine Or.inl ?_
    simp only [dStep] at h
    split at h
    · rename_i k pos _
      cases pos with
      | first =>
        simp only [DState.lookup, Option.map_some, Option.some.injEq] at h; subst h
        simp only [DState.loadOuter]; split <;> exact ⟨rfl, rfl⟩
      | second mm =>
        simp only [DState.lookup, Option.map_some, Option.some.injEq] at h; subst h
        simp only [DState.loadInner]; split <;> exact ⟨rfl, rfl⟩
      | have_ c => cases h
    · cases h
  | read c =>
    simp only [dStep] at h
    split at h
    · split at h
      · cases h
      · cases h; exact Or.inl ⟨rfl, rfl⟩
    · cases h

/-- No channel ever holds more than its capacity. -/
theorem dStep_cap {N : ℕ} {s s' : DState} {ev : DEvent} (h : dStep N s ev = some s') (hc : ∀ c, (s.chan c).length ≤ N * N) (c : ℕ) :
    (s'.chan c).length ≤ N * N := by
  cases ev with
  | arrive m => simp only [dStep] at h; split at h <;> cases h; exact hc c
  | take => simp only [dStep] at h; split at h <;> cases h; exact hc c
  | look =>
    simp only [dStep] at h
    split at h
    · rename_i m pos _
      cases pos with
      | first =>
        simp only [DState.lookup, Option.map_some, Option.some.injEq] at h; subst h
        simp only [DState.loadOuter]; split <;> exact hc c
      | second mm =>
        simp only [DState.lookup, Option.map_some, Option.some.injEq] at h; subst h
        simp only [DState.loadInner]; split <;> exact hc c
      | have_ c => cases h
    · cases h
  | push =>
    simp only [dStep] at h
    split at h
    · split at h
      · rename_i m c' _ hl
        cases h
        simp only
        split
        · simp only [List.length_append, List.length_singleton]; omega
        · exact hc c
      · cases h
    · cases h
  | call c t id => simp only [dStep, Option.some.injEq] at h; subst h; exact hc _
  | cont c =>
    simp only [dStep] at h
    split at h
    · rename_i k pos _
      cases pos with
      | first =>
        simp only [DState.lookup, Option.map_some, Option.some.injEq] at h; subst h
        simp only [DState.loadOuter]; split <;> exact hc _
      | second mm =>
        simp only [DState.lookup, Option.map_some, Option.some.injEq] at h; subst h
        simp only [DState.loadInner]; split <;> exact hc _
      | have_ c => cases h
    · cases h
  | read c' =>
    simp only [dStep] at h
    split at h
    · split at h
      · cases h
      · rename_i ch _ _ m rest hch
        cases h
        simp only
        split
        · have := hc ch; rw [hch] at this; simp only [List.length_cons] at this; omega
        · exact hc c
    · cases h

theorem DRun.cap {N : ℕ} {evs : List DEvent} {s s' : DState} (h : DRun N s evs s') (hc : ∀ c, (s.chan c).length ≤ N * N) : ∀ c, (s'.chan c).length ≤ N * N := by
  induction h with
  | nil => exact hc
  | snoc _ hs ih => exact dStep_cap hs ih

theorem queued_cap {N : ℕ} {s : DState} (hc : ∀ c, (s.chan c).length ≤ N * N) (t : String) (id : Bytes) : (s.queued t id).length ≤ N * N := by
  simp only [DState.queued]
  split
  · simp
  · split
    · simp
    · exact hc _

theorem DRun.inv {N : ℕ} {evs : List DEvent} {s s' : DState} (h : DRun N s evs s') (hi : DInv s) : DInv s' := by
  induction h with
  | nil => exact hi
  | snoc _ hs ih => exact ih.step hs

/-- While nobody reads a key with more than `N*N` unread messages, the dispatcher never gets past them. -/
theorem flooded {N : ℕ} {s s' : DState} {evs : List DEvent} {t : String} {id : Bytes} (hi : DInv s) (hc : ∀ c, (s.chan c).length ≤ N * N)
    (hf : s.readCount t id + N * N < (s.arrived.filter (hasKey t id)).length) (h : DRun N s evs s') (hr : s'.readCount t id = s.readCount t id) :
    ∃ pre post, s'.recvQ = pre ++ post ∧ s'.arrived = s.arrived ++ post := by
  have main : ∀ {evs s'}, DRun N s evs s' → s.readCount t id ≤ s'.readCount t id ∧ (s'.readCount t id = s.readCount t id →
      ∃ pre post, s'.recvQ = pre ++ post ∧ s'.arrived = s.arrived ++ post) := by
    intro evs s' h
    induction h with
    | nil => exact ⟨le_rfl, fun _ => ⟨s.recvQ, [], by simp, by simp⟩⟩
    | @snoc evs s1 ev s2 h1 hs ih =>
      obtain ⟨l, hl⟩ := dStep_log hs
      have hmono : s1.readCount t id ≤ s2.readCount t id := by
        simp only [DState.readCount, hl, List.filter_append, List.length_append]; omega
      refine ⟨ih.1.trans hmono, fun he => ?_⟩
      have he1 : s1.readCount t id = s.readCount t id := le_antisymm (hmono.trans he.le) ih.1
      obtain ⟨pre, post, e1, e2⟩ := ih.2 he1
      rcases dStep_recv hs with ⟨a, b⟩ | ⟨m, a, b⟩ | ⟨hd, ⟨m, a⟩, b⟩
      · exact ⟨pre, post, a.trans e1, b.trans e2⟩
      · exact ⟨pre, post ++ [m], by rw [a, e1, List.append_assoc], by rw [b, e2, List.append_assoc]⟩
      · cases pre with
        | nil =>
          exfalso
          have hcnt := (h1.inv hi).count t id
          have hcap := queued_cap (h1.cap hc) t id
          simp only [e1, e2, DState.holding, hd, List.filter_append, List.length_append, List.filter_nil, List.length_nil] at hcnt
          omega
        | cons x pre =>
          rw [e1, List.cons_append] at a
          injection a with _ a
          exact ⟨pre, post, a.symm, by rw [b, e2]⟩
  exact (main h).2 hr

/-- A peer can get `N*N + 1` messages of a key into an idle party, none of which is read. -/
theorem flood_run (N : ℕ) (m : PMessage) : ∀ k, k ≤ N * N →
    ∃ evs s, DRun N DState.init evs s ∧ s.recvQ = [] ∧ s.disp = none ∧ s.log = [] ∧ s.arrived = List.replicate k m := by
  intro k
  induction k with
  | zero => intro _; exact ⟨[], _, .nil, rfl, rfl, rfl, rfl⟩
  | succ k ih =>
    intro hk
    obtain ⟨evs, s, h1, h2, h3, h4, h5⟩ := ih (by omega)
    have hs : dStep N s (.arrive m) = some { s with recvQ := s.recvQ ++ [m], arrived := s.arrived ++ [m] } := by
      simp [dStep, h2, maxMessage]
    obtain ⟨evs2, s2, _, f2, f3, f4, f5, f6, f7⟩ := drain (N := N) _ rfl ((DInv.run h1).step hs) h3 (by
      intro t id
      refine (List.length_filter_le _ _).trans ?_
      simp only [h5, List.length_append, List.length_replicate, List.length_singleton]
      omega)
    refine ⟨(evs ++ [.arrive m]) ++ evs2, s2, (h1.snoc hs).trans f2, f5, f4, f6.trans h4, ?_⟩
    rw [f7]
    show s.arrived ++ [m] = _
    rw [h5, List.replicate_succ']

end DyCAPS

namespace DyCAPS

/-! ## Sending -/

theorem sendLoop_append (send : Net → ℕ → SendRes Net) (a b : List ℕ) (p p' : Net) (h : sendLoop send a p = .ok p') :
    sendLoop send (a ++ b) p = sendLoop send b p' := by
  induction a generalizing p with
  | nil => cases h; rfl
  | cons i a ih =>
    simp only [sendLoop, List.cons_append] at h ⊢
    cases hs : send p i with
    | ok q => rw [hs] at h; exact ih q h
    | err q => rw [hs] at h; cases h
    | blocked q => rw [hs] at h; cases h
    | panicked => rw [hs] at h; cases h

theorem sendLoop_range {send : Net → ℕ → SendRes Net} (st : ℕ → Net) (n : ℕ) (h : ∀ i, i < n → send (st i) i = .ok (st (i + 1))) :
    sendLoop send (List.range n) (st 0) = .ok (st n) := by
  induction n with
  | zero => rfl
  | succ n ih =>
    rw [List.range_succ, sendLoop_append _ _ _ _ _ (ih fun i hi => h i (by omega))]
    simp only [sendLoop, h n (by omega)]

theorem pushChan_ok (qs : List (List PMessage)) (d : ℕ) (m : PMessage) (q : List PMessage) (hq : qs[d]? = some q) (hc : q.length < maxMessage) :
    pushChan (some (qs.map some)) d m = .ok (some ((qs.set d (q ++ [m])).map some)) := by
  simp only [pushChan, List.getElem?_map, hq, Option.map_some, if_pos hc, List.map_set]

/-- `m` has been appended to the queues of the selected members below `k`. -/
def appendTo (qs : List (List PMessage)) (sel : ℕ → Prop) [DecidablePred sel] (m : PMessage) (k : ℕ) : List (List PMessage) :=
  qs.mapIdx fun i q => if i < k ∧ sel i then q ++ [m] else q

theorem appendTo_zero (qs : List (List PMessage)) (sel : ℕ → Prop) [DecidablePred sel] (m : PMessage) : appendTo qs sel m 0 = qs := by
  apply List.ext_getElem?
  intro i
  simp [appendTo, List.getElem?_mapIdx]

theorem appendTo_skip (qs : List (List PMessage)) (sel : ℕ → Prop) [DecidablePred sel] (m : PMessage) (k : ℕ) (h : ¬ sel k) :
    appendTo qs sel m (k + 1) = appendTo qs sel m k := by
  apply List.ext_getElem?
  intro i
  simp only [appendTo, List.getElem?_mapIdx]
  congr 1
  funext q
  by_cases hi : i = k
  · subst hi; simp [h]
  · have : i < k + 1 ↔ i < k := by omega
    simp only [this]

theorem appendTo_succ (qs : List (List PMessage)) (sel : ℕ → Prop) [DecidablePred sel] (m : PMessage) (k : ℕ) (h : sel k) (q : List PMessage) (hq : qs[k]? = some q) :
    appendTo qs sel m (k + 1) = (appendTo qs sel m k).set k (q ++ [m]) := by
  apply List.ext_getElem?
  intro i
  obtain ⟨hk, hq'⟩ := List.getElem?_eq_some_iff.1 hq
  rw [List.getElem?_set]
  by_cases hi : k = i
  · subst hi
    simp [appendTo, h, hk, hq']
  · have : i < k + 1 ↔ i < k := by omega
    simp only [appendTo, List.getElem?_mapIdx, this, if_neg hi]

theorem appendTo_get (qs : List (List PMessage)) (sel : ℕ → Prop) [DecidablePred sel] (m : PMessage) (k : ℕ) : (appendTo qs sel m k)[k]? = qs[k]? := by
  simp only [appendTo, List.getElem?_mapIdx, lt_irrefl, false_and, if_false]
  cases qs[k]? <;> rfl

/-- The loops send to exactly the selected members. -/
theorem sendLoop_sel (p : Net) (m : PMessage) (qs : List (List PMessage)) (hqs : p.sendChannels = some (qs.map some)) (hn : p.sendToNextChannels.isSome = true)
    (hlen : qs.length = p.N) (hcap : ∀ q ∈ qs, q.length < maxMessage) (sel : ℕ → Prop) [DecidablePred sel] :
    sendLoop (fun p i => if sel i then p.send m i else .ok p) (List.range p.N) p = .ok { p with sendChannels := some ((appendTo qs sel m p.N).map some) } := by
  have h := sendLoop_range (send := fun p i => if sel i then p.send m i else .ok p)
    (fun k => { p with sendChannels := some ((appendTo qs sel m k).map some) }) p.N (by
      intro i hi
      by_cases hs : sel i
      · have hq : qs[i]? = some qs[i] := List.getElem?_eq_getElem (by omega)
        rw [if_pos hs]
        have : pushChan (some ((appendTo qs sel m i).map some)) i m = _ := pushChan_ok _ i m qs[i] (by rw [appendTo_get]; exact hq)
          (hcap _ (List.getElem_mem _))
        simp only [Net.send, Net.checkSendChannelsInit, hn, Bool.not_true, Bool.false_eq_true, if_false, if_pos hi, this]
        rw [appendTo_succ qs sel m i hs _ hq]
      · rw [if_neg hs, appendTo_skip qs sel m i hs])
  simp only [appendTo_zero] at h
  rw [← hqs] at h
  exact h

theorem sendLoop_next (p : Net) (m : PMessage) (qs : List (List PMessage)) (hqs : p.sendToNextChannels = some (qs.map some))
    (hlen : qs.length = p.N) (hcap : ∀ q ∈ qs, q.length < maxMessage) :
    sendLoop (fun p i => p.sendToNext m i) (List.range p.N) p =
      .ok { p with sendToNextChannels := some ((appendTo qs (fun _ => True) m p.N).map some) } := by
  have h := sendLoop_range (send := fun p i => p.sendToNext m i)
    (fun k => { p with sendToNextChannels := some ((appendTo qs (fun _ => True) m k).map some) }) p.N (by
      intro i hi
      have hq : qs[i]? = some qs[i] := List.getElem?_eq_getElem (by omega)
      have : pushChan (some ((appendTo qs (fun _ => True) m i).map some)) i m = _ := pushChan_ok _ i m qs[i] (by rw [appendTo_get]; exact hq)
        (hcap _ (List.getElem_mem _))
      simp only [Net.sendToNext, Net.checkInitSendChannelsToNext, Option.isSome_some, Bool.not_true, Bool.false_eq_true, if_false, if_pos hi, this]
      rw [appendTo_succ qs _ m i trivial _ hq])
  simp only [appendTo_zero] at h
  rw [← hqs] at h
  exact h

theorem appendTo_full (qs : List (List PMessage)) (sel : ℕ → Prop) [DecidablePred sel] (m : PMessage) :
    appendTo qs sel m qs.length = qs.mapIdx fun i q => if sel i then q ++ [m] else q := by
  apply List.ext_getElem?
  intro i
  simp only [appendTo, List.getElem?_mapIdx]
  by_cases hi : i < qs.length
  · simp [hi]
  · simp [List.getElem?_eq_none (not_lt.1 hi)]

end DyCAPS
