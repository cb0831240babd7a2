import Mathlib.Algebra.BigOperators.Group.Finset.Basic
import Mathlib.Algebra.Order.BigOperators.Group.Finset
import Verif.Lemmas.Dispatch
import Verif.Lemmas.Framing
import Verif.Spec.Path

/-! Helper lemmas about the path of a message. -/

namespace DyCAPS

theorem ofKey_eq (t : String) (id : Bytes) (ms : List PMessage) : ofKey t id ms = ms.filter (hasKey t id) := rfl

/-- What the reader has output before does not matter. -/
theorem recvByte_out (pos : RecvPos) (o out : List PMessage) (b : UInt8) :
    recvByte ⟨pos, o ++ out⟩ b = ⟨(recvByte ⟨pos, out⟩ b).pos, o ++ (recvByte ⟨pos, out⟩ b).out⟩ := by
  have hc : ∀ buf, recvComplete (o ++ out) buf = ⟨(recvComplete out buf).pos, o ++ (recvComplete out buf).out⟩ := by
    intro buf
    unfold recvComplete
    split <;> simp
  unfold recvByte
  cases pos with
  | dead => rfl
  | header got =>
    dsimp only
    split
    · rfl
    · split
      · exact hc _
      · rfl
  | body length got =>
    dsimp only
    split
    · rfl
    · exact hc _

theorem recvByte_len (r : RecvState) (b : UInt8) : (recvByte r b).out.length ≤ r.out.length + 1 := by
  have hc : ∀ out buf, (recvComplete out buf).out.length ≤ out.length + 1 := by
    intro out buf
    unfold recvComplete
    split <;> simp
  unfold recvByte
  split
  · omega
  · dsimp only
    split
    · exact Nat.le_succ _
    · split
      · exact hc _ _
      · exact Nat.le_succ _
  · dsimp only
    split
    · exact Nat.le_succ _
    · exact hc _ _

/-- The messages attributed to connection `a`. -/
def ofConn (arr : List (ℕ × PMessage)) (a : ℕ) : List PMessage := (arr.filter fun e => decide (e.1 = a)).map (·.2)

theorem handed_append (evs : List PathEvent) (e : PathEvent) (a : ℕ) : handed (evs ++ [e]) a = handed evs a ++ handed [e] a := by
  simp only [handed, List.filterMap_append]

theorem PlainPeer.prev {evs : List PathEvent} {e : PathEvent} {a : ℕ} (h : PlainPeer (evs ++ [e]) a) : PlainPeer evs a :=
  ⟨fun bs hb => h.1 bs (List.mem_append_left _ hb), fun m hm => h.2 m (by rw [handed_append]; exact List.mem_append_left _ hm)⟩

/-- The state of a connection whose peer runs the code, when the messages of `got` have been pushed. -/
def ConnOk (s : PathState) (sent got : List PMessage) (a : ℕ) : Prop :=
  ∃ ws k, ws ++ s.sendQ a = sent ∧ k ≤ (sendStream ws).length ∧ s.wire a = (sendStream ws).drop k ∧
    recvBytes .init ((sendStream ws).take k) = ⟨(s.rd a).pos, got ++ (s.rd a).out⟩

/-- The connections an event is about. -/
def PathEvent.conn : PathEvent → Option ℕ
  | .send a _ | .write a | .raw a _ | .byte a | .push a => some a
  | .d _ => none

structure PathInv (evs : List PathEvent) (s : PathState) : Prop where
  d : DInv s.d
  conns : ∃ arr : List (ℕ × PMessage), arr.map (·.2) = s.d.arrived ∧ (∀ a, PlainPeer evs a → ConnOk s (handed evs a) (ofConn arr a) a) ∧
    ∀ e ∈ arr, ∃ ev ∈ evs, ev.conn = some e.1
  unused : ∀ a, (∀ e ∈ evs, e.conn ≠ some a) → s.sendQ a = [] ∧ s.wire a = [] ∧ s.rd a = .init

theorem PathInv.init : PathInv [] PathState.init where
  d := DInv.init
  conns := ⟨[], rfl, fun _ _ => ⟨[], 0, rfl, Nat.zero_le _, rfl, rfl⟩, by simp⟩
  unused := fun _ _ => ⟨rfl, rfl, rfl⟩

theorem sendStream_snoc (ws : List PMessage) (m : PMessage) : sendStream (ws ++ [m]) = sendStream ws ++ frame m := by
  simp [sendStream]

theorem dStep_arrived {N : ℕ} {s s' : DState} {e : DEvent} (hs : dStep N s e = some s') (he : ∀ m, e ≠ .arrive m) : s'.arrived = s.arrived := by
  rcases dStep_recv hs with ⟨_, h⟩ | ⟨m, h1, h2⟩ | ⟨_, _, h⟩
  · exact h
  · exfalso
    cases e with
    | arrive m => exact he m rfl
    | take =>
      simp only [dStep] at hs
      split at hs
      · cases hs; rename_i hq; simp at h2
      · cases hs
    | look =>
      have := congrArg List.length h2
      simp only [dStep, DState.lookup, DState.loadOuter, DState.loadInner] at hs
      repeat' split at hs
      all_goals first | (cases hs; done) | skip
      all_goals simp only [Option.map_some, Option.some.injEq] at hs
      all_goals subst hs
      all_goals simp at this
    | push =>
      simp only [dStep] at hs
      repeat' split at hs
      all_goals cases hs
      simp at h2
    | call c t id => simp only [dStep, Option.some.injEq] at hs; subst hs; simp at h2
    | cont c =>
      have := congrArg List.length h2
      simp only [dStep, DState.lookup, DState.loadOuter, DState.loadInner] at hs
      repeat' split at hs
      all_goals first | (cases hs; done) | skip
      all_goals simp only [Option.map_some, Option.some.injEq] at hs
      all_goals subst hs
      all_goals simp at this
    | read c =>
      simp only [dStep] at hs
      repeat' split at hs
      all_goals cases hs
      simp at h2
  · exact h

theorem ConnOk.congr {s s' : PathState} {sent got : List PMessage} {a : ℕ} (h : ConnOk s sent got a) (h1 : s'.sendQ a = s.sendQ a) (h2 : s'.wire a = s.wire a)
    (h3 : s'.rd a = s.rd a) : ConnOk s' sent got a := by
  obtain ⟨ws, k, a1, a2, a3, a4⟩ := h
  exact ⟨ws, k, by rw [h1]; exact a1, a2, by rw [h2]; exact a3, by rw [h3]; exact a4⟩

theorem handed_other {e : PathEvent} {a : ℕ} (h : ∀ m, e ≠ .send a m) : handed [e] a = [] := by
  cases e with
  | send b m =>
    simp only [handed, List.filterMap_cons, List.filterMap_nil]
    rw [if_neg (fun hb => h m (by rw [hb]))]
  | _ => rfl

theorem PathInv.step {N : ℕ} {evs : List PathEvent} {s s' : PathState} {ev : PathEvent} (hi : PathInv evs s) (hs : pathStep N s ev = some s') :
    PathInv (evs ++ [ev]) s' := by
  obtain ⟨arr, hm, hc, hu⟩ := hi.conns
  have keepTag : ∀ e ∈ arr, ∃ ev' ∈ evs ++ [ev], ev'.conn = some e.1 := fun e he => by
    obtain ⟨x, h1, h2⟩ := hu e he
    exact ⟨x, List.mem_append_left _ h1, h2⟩
  have prevUse : ∀ a, (∀ e ∈ evs ++ [ev], e.conn ≠ some a) → (s.sendQ a = [] ∧ s.wire a = [] ∧ s.rd a = .init) ∧ ev.conn ≠ some a :=
    fun a ha => ⟨hi.unused a fun e he => ha e (List.mem_append_left _ he), ha ev (by simp)⟩
  cases ev with
  | send a m =>
    simp only [pathStep] at hs
    split at hs
    · cases hs
      refine ⟨hi.d, ⟨arr, hm, fun b hb => ?_, keepTag⟩, fun b hb => ?_⟩
      · have h := hc b hb.prev
        rw [handed_append]
        by_cases hba : b = a
        · subst hba
          obtain ⟨ws, k, a1, a2, a3, a4⟩ := h
          refine ⟨ws, k, ?_, a2, a3, a4⟩
          simp only [Function.update_self, handed, List.filterMap_cons, List.filterMap_nil, if_true]
          rw [← List.append_assoc, a1]
          rfl
        · rw [handed_other (fun m' h' => hba (by cases h'; rfl)), List.append_nil]
          exact h.congr (Function.update_of_ne hba _ _) rfl rfl
      · obtain ⟨⟨h1, h2, h3⟩, h4⟩ := prevUse b hb
        have hba : b ≠ a := fun e => h4 (by rw [e]; rfl)
        exact ⟨by simp only [Function.update_of_ne hba]; exact h1, h2, h3⟩
    · cases hs
  | write a =>
    simp only [pathStep] at hs
    split at hs
    · cases hs
    · rename_i m rest hq
      cases hs
      refine ⟨hi.d, ⟨arr, hm, fun b hb => ?_, keepTag⟩, fun b hb => ?_⟩
      · have h := hc b hb.prev
        rw [handed_append, handed_other (fun m' h' => by cases h'), List.append_nil]
        by_cases hba : b = a
        · subst hba
          obtain ⟨ws, k, a1, a2, a3, a4⟩ := h
          refine ⟨ws ++ [m], k, ?_, ?_, ?_, ?_⟩
          · simp only [Function.update_self]
            rw [List.append_assoc]
            rw [hq] at a1
            exact a1
          · rw [sendStream_snoc, List.length_append]; omega
          · simp only [Function.update_self]
            rw [sendStream_snoc, List.drop_append_of_le_length a2, a3]
          · rw [sendStream_snoc, List.take_append_of_le_length a2]
            exact a4
        · exact h.congr (Function.update_of_ne hba _ _) (Function.update_of_ne hba _ _) rfl
      · obtain ⟨⟨h1, h2, h3⟩, h4⟩ := prevUse b hb
        have hba : b ≠ a := fun e => h4 (by rw [e]; rfl)
        exact ⟨by simp only [Function.update_of_ne hba]; exact h1, by simp only [Function.update_of_ne hba]; exact h2, h3⟩
  | raw a bs =>
    simp only [pathStep, Option.some.injEq] at hs
    subst hs
    refine ⟨hi.d, ⟨arr, hm, fun b hb => ?_, keepTag⟩, fun b hb => ?_⟩
    · have h := hc b hb.prev
      rw [handed_append, handed_other (fun m' h' => by cases h'), List.append_nil]
      have hba : b ≠ a := fun e => hb.1 bs (by rw [e]; simp)
      exact h.congr rfl (Function.update_of_ne hba _ _) rfl
    · obtain ⟨⟨h1, h2, h3⟩, h4⟩ := prevUse b hb
      have hba : b ≠ a := fun e => h4 (by rw [e]; rfl)
      exact ⟨h1, by simp only [Function.update_of_ne hba]; exact h2, h3⟩
  | byte a =>
    simp only [pathStep] at hs
    split at hs
    · cases hs
    · rename_i hne
      split at hs
      · cases hs
      · rename_i x rest hq
        cases hs
        refine ⟨hi.d, ⟨arr, hm, fun b hb => ?_, keepTag⟩, fun b hb => ?_⟩
        · have h := hc b hb.prev
          rw [handed_append, handed_other (fun m' h' => by cases h'), List.append_nil]
          by_cases hba : b = a
          · subst hba
            obtain ⟨ws, k, a1, a2, a3, a4⟩ := h
            have hk : k < (sendStream ws).length := by
              by_contra hk
              rw [List.drop_of_length_le (by omega), hq] at a3
              cases a3
            have hx : (sendStream ws).drop k = (sendStream ws)[k] :: (sendStream ws).drop (k + 1) := List.drop_eq_getElem_cons hk
            rw [hq, hx] at a3
            injection a3 with a31 a32
            refine ⟨ws, k + 1, a1, hk, ?_, ?_⟩
            · simp only [Function.update_self]; exact a32
            · rw [List.take_add_one, recvBytes_append, a4, List.getElem?_eq_getElem hk]
              simp only [Option.toList_some, recvBytes, List.foldl_cons, List.foldl_nil, Function.update_self]
              rw [← a31, recvByte_out]
          · exact h.congr rfl (Function.update_of_ne hba _ _) (Function.update_of_ne hba _ _)
        · obtain ⟨⟨h1, h2, h3⟩, h4⟩ := prevUse b hb
          have hba : b ≠ a := fun e => h4 (by rw [e]; rfl)
          exact ⟨h1, by simp only [Function.update_of_ne hba]; exact h2, by simp only [Function.update_of_ne hba]; exact h3⟩
  | push a =>
    simp only [pathStep] at hs
    split at hs
    · cases hs
    · split at hs
      · cases hs
      · rename_i m rest hq
        rw [Option.map_eq_some_iff] at hs
        obtain ⟨d, hd, hs⟩ := hs
        subst hs
        have harr : d.arrived = s.d.arrived ++ [m] := by
          simp only [dStep] at hd
          split at hd <;> cases hd
          rfl
        refine ⟨hi.d.step hd, ⟨arr ++ [(a, m)], by rw [harr, List.map_append, hm]; rfl, fun b hb => ?_, fun e he => ?_⟩, fun b hb => ?_⟩
        · have h := hc b hb.prev
          rw [handed_append, handed_other (fun m' h' => by cases h'), List.append_nil]
          by_cases hba : b = a
          · subst hba
            obtain ⟨ws, k, a1, a2, a3, a4⟩ := h
            refine ⟨ws, k, a1, a2, a3, ?_⟩
            simp only [Function.update_self]
            rw [a4, hq]
            simp [ofConn]
          · have : ofConn (arr ++ [(a, m)]) b = ofConn arr b := by
              simp [ofConn, List.filter_append, Ne.symm hba]
            rw [this]
            exact h.congr rfl rfl (Function.update_of_ne hba _ _)
        · rcases List.mem_append.1 he with h | h
          · exact keepTag e h
          · rw [List.mem_singleton.1 h]
            exact ⟨.push a, by simp, rfl⟩
        · obtain ⟨⟨h1, h2, h3⟩, h4⟩ := prevUse b hb
          have hba : b ≠ a := fun e => h4 (by rw [e]; rfl)
          exact ⟨h1, h2, by simp only [Function.update_of_ne hba]; exact h3⟩
  | d e =>
    have key : ∃ d, dStep N s.d e = some d ∧ s' = { s with d := d } ∧ ∀ m, e ≠ .arrive m := by
      cases e
      case arrive m => simp only [pathStep] at hs; cases hs
      all_goals
        simp only [pathStep] at hs
        split at hs
        · cases hs
        · rw [Option.map_eq_some_iff] at hs
          obtain ⟨d, hd, hs⟩ := hs
          exact ⟨d, hd, hs.symm, by intro m h; cases h⟩
    obtain ⟨d, hd, rfl, he⟩ := key
    refine ⟨hi.d.step hd, ⟨arr, by rw [dStep_arrived hd he]; exact hm, fun b hb => ?_, keepTag⟩, fun b hb => (prevUse b hb).1⟩
    have h := hc b hb.prev
    rw [handed_append, handed_other (fun m' h' => by cases h'), List.append_nil]
    exact h.congr rfl rfl rfl

theorem PathInv.run {N : ℕ} {evs : List PathEvent} {s : PathState} (h : PathRun N .init evs s) : PathInv evs s := by
  induction h with
  | nil => exact PathInv.init
  | snoc _ hs ih => exact ih.step hs

/-- What has been pushed from a connection is an initial part of what was sent. -/
theorem ConnOk.prefix {s : PathState} {sent got : List PMessage} {a : ℕ} (h : ConnOk s sent got a) (hl : ∀ m ∈ sent, (marshal m).length < 2 ^ 32) :
    got <+: sent ∧ (s.rd a).pos ≠ .dead := by
  obtain ⟨ws, k, a1, a2, a3, a4⟩ := h
  have hl' : ∀ m ∈ ws, (marshal m).length < 2 ^ 32 := fun m hm => hl m (by rw [← a1]; exact List.mem_append_left _ hm)
  obtain ⟨j, _, h1, h2, _⟩ := recv_prefix [] ws hl' k a2
  rw [show (⟨.header [], []⟩ : RecvState) = .init from rfl, a4] at h1 h2
  refine ⟨?_, h2⟩
  simp only [List.nil_append] at h1
  calc got <+: got ++ (s.rd a).out := List.prefix_append _ _
    _ = ws.take j := h1
    _ <+: ws := List.take_prefix _ _
    _ <+: ws ++ s.sendQ a := List.prefix_append _ _
    _ = sent := a1

/-- If nothing is under way on a connection, all that was sent has been pushed. -/
theorem ConnOk.all {s : PathState} {sent got : List PMessage} {a : ℕ} (h : ConnOk s sent got a) (hl : ∀ m ∈ sent, (marshal m).length < 2 ^ 32)
    (h1 : s.sendQ a = []) (h2 : s.wire a = []) (h3 : (s.rd a).out = []) : got = sent := by
  obtain ⟨ws, k, a1, a2, a3, a4⟩ := h
  rw [h1, List.append_nil] at a1
  subst a1
  rw [h2] at a3
  have hk : (sendStream ws).length ≤ k := List.drop_eq_nil_iff.1 a3.symm
  rw [List.take_of_length_le hk] at a4
  have := recv_stream [] ws hl
  rw [show (⟨.header [], []⟩ : RecvState) = .init from rfl, a4, h3] at this
  simpa using congrArg RecvState.out this

/-- In a settled state of a process that runs, with room for what is unread, nothing is under way. -/
theorem settled_empty {N : ℕ} {s : PathState} (hd : DInv s.d) (hs : AtRest N s) (he : s.ended = false)
    (hc : ∀ t id, (s.d.arrived.filter (hasKey t id)).length ≤ s.d.readCount t id + N * N) :
    s.d.disp = none ∧ s.d.recvQ = [] ∧ ∀ a, s.sendQ a = [] ∧ s.wire a = [] ∧ (s.rd a).out = [] := by
  have hdisp : s.d.disp = none := by
    cases hdp : s.d.disp with
    | none => rfl
    | some r =>
      obtain ⟨m, pos⟩ := r
      exfalso
      have h1 := hs (.d .look) rfl
      have h2 := hs (.d .push) rfl
      simp only [pathStep, he, Bool.false_eq_true, if_false, Option.map_eq_none_iff, dStep, hdp] at h1 h2
      cases pos with
      | first => simp [DState.lookup] at h1
      | second mm => simp [DState.lookup] at h1
      | have_ c =>
        obtain ⟨mm, e1, e2⟩ := hd.disp_ok _ _ hdp
        have hcnt := hd.count m.type m.id
        have hroom := hc m.type m.id
        have hh : (s.d.holding.filter (hasKey m.type m.id)).length = 1 := by simp [DState.holding, hdp, hasKey]
        rw [queued_of e1 e2] at hcnt
        have hlt : (s.d.chan c).length < N * N := by omega
        simp only [if_pos hlt] at h2
        cases h2
  have hq : s.d.recvQ = [] := by
    cases hr : s.d.recvQ with
    | nil => rfl
    | cons m rest =>
      have h1 := hs (.d .take) rfl
      simp only [pathStep, he, Bool.false_eq_true, if_false, Option.map_eq_none_iff, dStep, hdisp, hr] at h1
      cases h1
  refine ⟨hdisp, hq, fun a => ?_⟩
  have ho : (s.rd a).out = [] := by
    cases hr : (s.rd a).out with
    | nil => rfl
    | cons m rest =>
      have h1 := hs (.push a) rfl
      simp [pathStep, he, hr, dStep, hq, maxMessage] at h1
  refine ⟨?_, ?_, ho⟩
  · cases hr : s.sendQ a with
    | nil => rfl
    | cons m rest =>
      have h1 := hs (.write a) rfl
      simp [pathStep, hr] at h1
  · cases hr : s.wire a with
    | nil => rfl
    | cons m rest =>
      have h1 := hs (.byte a) rfl
      simp [pathStep, he, ho, hr] at h1

/-! ## The inner steps come to an end -/

/-- Steps the dispatcher side still has to do. -/
def DState.work (d : DState) : ℕ :=
  4 * d.recvQ.length + match d.disp with
    | none => 0
    | some (_, .first) => 3
    | some (_, .second _) => 2
    | some (_, .have_ _) => 1

/-- A bound on the steps for what is under way on connection `a`. -/
def PathState.connWork (s : PathState) (a : ℕ) : ℕ :=
  ((s.sendQ a).map fun m => 6 * (frame m).length + 1).sum + 6 * (s.wire a).length + 5 * (s.rd a).out.length

/-- A bound on the steps still to do on the connections below `n`. -/
def PathState.work (s : PathState) (n : ℕ) : ℕ := s.d.work + ∑ a ∈ Finset.range n, s.connWork a

theorem dStep_work {N : ℕ} {s s' : DState} {e : DEvent} (he : e.isDispatcher = true) (hs : dStep N s e = some s') : s'.work < s.work := by
  cases e with
  | take =>
    simp only [dStep] at hs
    split at hs
    · rename_i m rest hd hq
      cases hs
      simp only [DState.work, hd, hq, List.length_cons]
      omega
    · cases hs
  | look =>
    simp only [dStep] at hs
    split at hs
    · rename_i m pos hd
      cases pos with
      | first =>
        simp only [DState.lookup, DState.loadOuter, Option.map_some, Option.some.injEq] at hs
        subst hs
        split <;> simp [DState.work, hd]
      | second mm =>
        simp only [DState.lookup, DState.loadInner, Option.map_some, Option.some.injEq] at hs
        subst hs
        split <;> simp [DState.work, hd]
      | have_ c => cases hs
    · cases hs
  | push =>
    simp only [dStep] at hs
    split at hs
    · rename_i m c hd
      split at hs
      · cases hs
        simp [DState.work, hd]
      · cases hs
    · cases hs
  | _ => cases he

theorem work_conn {s s' : PathState} {n a : ℕ} (ha : a < n) (hd : s'.d.work + s'.connWork a < s.d.work + s.connWork a)
    (ho : ∀ b, b ≠ a → s'.connWork b = s.connWork b) : s'.work n < s.work n := by
  have hm : a ∈ Finset.range n := Finset.mem_range.2 ha
  have h1 : s.connWork a + ∑ x ∈ (Finset.range n).erase a, s.connWork x = ∑ x ∈ Finset.range n, s.connWork x := Finset.add_sum_erase _ _ hm
  have h2 : s'.connWork a + ∑ x ∈ (Finset.range n).erase a, s'.connWork x = ∑ x ∈ Finset.range n, s'.connWork x := Finset.add_sum_erase _ _ hm
  have h3 : ∑ x ∈ (Finset.range n).erase a, s'.connWork x = ∑ x ∈ (Finset.range n).erase a, s.connWork x :=
    Finset.sum_congr rfl fun b hb => ho b (Finset.ne_of_mem_erase hb)
  unfold PathState.work
  omega

/-- An inner step leaves less to do, and does not reach connections from `n` on where nothing is under way. -/
theorem inner_step {N : ℕ} {s s' : PathState} {e : PathEvent} {n : ℕ} (he : e.inner = true) (hn : ∀ a, n ≤ a → s.sendQ a = [] ∧ s.wire a = [] ∧ (s.rd a).out = [])
    (hs : pathStep N s e = some s') : s'.work n < s.work n ∧ ∀ a, n ≤ a → s'.sendQ a = [] ∧ s'.wire a = [] ∧ (s'.rd a).out = [] := by
  cases e with
  | send a m => cases he
  | raw a bs => cases he
  | write a =>
    simp only [pathStep] at hs
    split at hs
    · cases hs
    · rename_i m rest hq
      cases hs
      have ha : a < n := by
        by_contra h
        rw [(hn a (by omega)).1] at hq
        cases hq
      refine ⟨work_conn ha ?_ fun b hb => ?_, fun b hb => ?_⟩
      · simp only [PathState.connWork, Function.update_self, hq, List.map_cons, List.sum_cons, List.length_append]
        omega
      · simp only [PathState.connWork, Function.update_of_ne hb]
      · have hba : b ≠ a := by omega
        simp only [Function.update_of_ne hba]
        exact hn b hb
  | byte a =>
    simp only [pathStep] at hs
    split at hs
    · cases hs
    · rename_i hne
      split at hs
      · cases hs
      · rename_i x rest hq
        cases hs
        have ha : a < n := by
          by_contra h
          rw [(hn a (by omega)).2.1] at hq
          cases hq
        refine ⟨work_conn ha ?_ fun b hb => ?_, fun b hb => ?_⟩
        · have := recvByte_len (s.rd a) x
          simp only [PathState.connWork, Function.update_self, hq, List.length_cons]
          omega
        · simp only [PathState.connWork, Function.update_of_ne hb]
        · have hba : b ≠ a := by omega
          simp only [Function.update_of_ne hba]
          exact hn b hb
  | push a =>
    simp only [pathStep] at hs
    split at hs
    · cases hs
    · split at hs
      · cases hs
      · rename_i m rest hq
        rw [Option.map_eq_some_iff] at hs
        obtain ⟨d, hd, hs⟩ := hs
        subst hs
        have ha : a < n := by
          by_contra h
          rw [(hn a (by omega)).2.2] at hq
          cases hq
        have hw : d.work = s.d.work + 4 := by
          simp only [dStep] at hd
          split at hd <;> cases hd
          simp only [DState.work, List.length_append, List.length_singleton]
          omega
        refine ⟨work_conn ha ?_ fun b hb => ?_, fun b hb => ?_⟩
        · simp only [PathState.connWork, Function.update_self, hq, List.length_cons, hw]
          omega
        · simp only [PathState.connWork, Function.update_of_ne hb]
        · have hba : b ≠ a := by omega
          simp only [Function.update_of_ne hba]
          exact hn b hb
  | d e =>
    have key : ∃ d, dStep N s.d e = some d ∧ s' = { s with d := d } ∧ e.isDispatcher = true := by
      cases e
      case take | look | push =>
        simp only [pathStep] at hs
        split at hs
        · cases hs
        · rw [Option.map_eq_some_iff] at hs
          obtain ⟨d, hd, hs⟩ := hs
          exact ⟨d, hd, hs.symm, rfl⟩
      all_goals cases he
    obtain ⟨d, hd, rfl, hdis⟩ := key
    have := dStep_work hdis hd
    exact ⟨by simp only [PathState.work]; exact Nat.add_lt_add_right this _, hn⟩

theorem inner_run {N : ℕ} {s s' : PathState} {evs : List PathEvent} {n : ℕ} (h : PathRun N s evs s') (he : ∀ e ∈ evs, e.inner = true)
    (hn : ∀ a, n ≤ a → s.sendQ a = [] ∧ s.wire a = [] ∧ (s.rd a).out = []) :
    s'.work n + evs.length ≤ s.work n ∧ ∀ a, n ≤ a → s'.sendQ a = [] ∧ s'.wire a = [] ∧ (s'.rd a).out = [] := by
  induction h with
  | nil => exact ⟨by simp, hn⟩
  | snoc _ hs ih =>
    obtain ⟨h1, h2⟩ := ih fun e h => he e (List.mem_append_left _ h)
    obtain ⟨h3, h4⟩ := inner_step (he _ (by simp)) h2 hs
    refine ⟨?_, h4⟩
    rw [List.length_append, List.length_singleton]
    omega

/-- Some bound on the connections used. -/
theorem conn_bound (evs : List PathEvent) : ∃ n, ∀ e ∈ evs, ∀ a, e.conn = some a → a < n := by
  induction evs with
  | nil => exact ⟨0, by simp⟩
  | cons e evs ih =>
    obtain ⟨n, hn⟩ := ih
    cases hc : e.conn with
    | none =>
      refine ⟨n, fun x hx a ha => ?_⟩
      rcases List.mem_cons.1 hx with rfl | h
      · rw [hc] at ha; cases ha
      · exact hn x h a ha
    | some b =>
      refine ⟨max n (b + 1), fun x hx a ha => ?_⟩
      rcases List.mem_cons.1 hx with rfl | h
      · rw [hc] at ha; cases ha; omega
      · have := hn x h a ha; omega

theorem PathRun.trans {N : ℕ} {s0 s1 s2 : PathState} {e1 e2 : List PathEvent} (h1 : PathRun N s0 e1 s1) (h2 : PathRun N s1 e2 s2) : PathRun N s0 (e1 ++ e2) s2 := by
  induction h2 with
  | nil => rw [List.append_nil]; exact h1
  | snoc _ hs ih => rw [← List.append_assoc]; exact ih.snoc hs

/-- The process only ends by a connection whose peer does not run the code. -/
theorem plain_alive {N : ℕ} {evs : List PathEvent} {s : PathState} (h : PathRun N .init evs s) (hp : ∀ a, PlainPeer evs a) : s.ended = false := by
  induction h with
  | nil => rfl
  | @snoc evs s ev s' h hs ih =>
    have ih := ih fun a => (hp a).prev
    have hi := (PathInv.run h).step hs
    cases ev with
    | byte a =>
      obtain ⟨arr, _, hc, _⟩ := hi.conns
      have := ((hc a (hp a)).prefix (hp a).2).2
      simp only [pathStep] at hs
      split at hs
      · cases hs
      · split at hs
        · cases hs
        · cases hs
          simp only [Function.update_self] at this
          exact decide_eq_false this
    | send a m => simp only [pathStep] at hs; split at hs <;> cases hs; exact ih
    | write a => simp only [pathStep] at hs; split at hs <;> cases hs; exact ih
    | raw a bs => simp only [pathStep, Option.some.injEq] at hs; subst hs; exact ih
    | push a =>
      simp only [pathStep] at hs
      split at hs
      · cases hs
      split at hs
      · cases hs
      rw [Option.map_eq_some_iff] at hs
      obtain ⟨d, hd, hs⟩ := hs
      subst hs
      exact ih
    | d e =>
      cases e
      case arrive m => simp only [pathStep] at hs; cases hs
      all_goals
        simp only [pathStep] at hs
        split at hs
        · cases hs
        · rw [Option.map_eq_some_iff] at hs
          obtain ⟨d, hd, hs⟩ := hs
          subst hs
          exact ih

theorem ofConn_filter (arr : List (ℕ × PMessage)) (p : PMessage → Bool) (a : ℕ) :
    ofConn (arr.filter fun e => p e.2) a = (ofConn arr a).filter p := by
  simp only [ofConn, List.filter_map, List.filter_filter]
  congr 1
  apply List.filter_congr
  intro e _
  simp [Bool.and_comm]

theorem map_filter_snd (arr : List (ℕ × PMessage)) (p : PMessage → Bool) : (arr.filter fun e => p e.2).map (·.2) = (arr.map (·.2)).filter p := by
  simp only [List.filter_map]; rfl

theorem ofConn_take (arr : List (ℕ × PMessage)) (k a : ℕ) : ofConn (arr.take k) a <+: ofConn arr a :=
  ((List.take_prefix k arr).filter _).map _

/-- The number of messages is at most the sum over the connections. -/
theorem length_le_sum (arr : List (ℕ × PMessage)) (n : ℕ) (h : ∀ e ∈ arr, e.1 < n) : arr.length = ∑ a ∈ Finset.range n, (ofConn arr a).length := by
  induction arr with
  | nil => simp [ofConn]
  | cons e arr ih =>
    have h1 : ∀ a, (ofConn (e :: arr) a).length = (if a = e.1 then 1 else 0) + (ofConn arr a).length := by
      intro a
      by_cases ha : a = e.1
      · simp [ofConn, ha, Nat.add_comm]
      · simp [ofConn, ha, Ne.symm ha]
    rw [Finset.sum_congr rfl fun a _ => h1 a, Finset.sum_add_distrib, ← ih fun x hx => h x (List.mem_cons_of_mem _ hx), Finset.sum_ite_eq' (Finset.range n) e.1,
      if_pos (Finset.mem_range.2 (h e (by simp))), List.length_cons]
    omega

/-- Inner steps send nothing, write no raw bytes and read nothing. -/
theorem inner_keeps {N : ℕ} {s s' : PathState} {evs : List PathEvent} (h : PathRun N s evs s') (he : ∀ e ∈ evs, e.inner = true) :
    (∀ a, handed evs a = []) ∧ (∀ a bs, PathEvent.raw a bs ∉ evs) ∧ s'.d.log = s.d.log := by
  refine ⟨fun a => List.filterMap_eq_nil_iff.2 fun e hm => ?_, fun a bs hm => (by cases he _ hm), ?_⟩
  · have := he e hm
    cases e with
    | send b m => cases this
    | _ => rfl
  · induction h with
    | nil => rfl
    | @snoc evs s1 ev s2 h hs ih =>
      rw [← ih fun e hm => he e (List.mem_append_left _ hm)]
      have hin := he ev (by simp)
      cases ev with
      | send b m => cases hin
      | raw b bs => cases hin
      | write a => simp only [pathStep] at hs; split at hs <;> cases hs; rfl
      | byte a =>
        simp only [pathStep] at hs
        split at hs
        · cases hs
        · split at hs <;> cases hs
          rfl
      | push a =>
        simp only [pathStep] at hs
        split at hs
        · cases hs
        split at hs
        · cases hs
        rw [Option.map_eq_some_iff] at hs
        obtain ⟨d, hd, hs⟩ := hs
        subst hs
        simp only [dStep] at hd
        split at hd <;> cases hd
        rfl
      | d e =>
        cases e
        case take =>
          simp only [pathStep, dStep] at hs
          repeat' split at hs
          all_goals cases hs
          rfl
        case look =>
          simp only [pathStep, dStep, DState.lookup, DState.loadOuter, DState.loadInner] at hs
          repeat' split at hs
          all_goals cases hs
          all_goals rfl
        case push =>
          simp only [pathStep, dStep] at hs
          repeat' split at hs
          all_goals cases hs
          rfl
        all_goals cases hin

/-- Inner steps can be added until there are none. -/
theorem exists_settled {N : ℕ} {n : ℕ} : ∀ (w : ℕ) {s : PathState}, s.work n = w → (∀ a, n ≤ a → s.sendQ a = [] ∧ s.wire a = [] ∧ (s.rd a).out = []) →
    ∃ evs s', (∀ e ∈ evs, e.inner = true) ∧ PathRun N s evs s' ∧ AtRest N s' := by
  intro w
  induction w using Nat.strong_induction_on with
  | _ w ih =>
    intro s hw hn
    by_cases hs : AtRest N s
    · exact ⟨[], s, by simp, .nil, hs⟩
    · simp only [AtRest, not_forall] at hs
      obtain ⟨e, he, hne⟩ := hs
      obtain ⟨s1, hs1⟩ := Option.ne_none_iff_exists'.1 hne
      obtain ⟨h1, h2⟩ := inner_step he hn hs1
      obtain ⟨evs, s', a1, a2, a3⟩ := ih _ (hw ▸ h1) rfl h2
      refine ⟨[e] ++ evs, s', fun x hx => ?_, (PathRun.nil.snoc hs1).trans a2, a3⟩
      rcases List.mem_append.1 hx with h | h
      · rw [List.mem_singleton.1 h]; exact he
      · exact a1 x h

end DyCAPS
