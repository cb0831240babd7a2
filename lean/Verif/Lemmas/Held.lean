import Verif.Lemmas.Path
import Verif.Spec.Held

/-! The sizes of the channels between `Send` and `GetMessage`. -/

namespace DyCAPS

/-- The sizes of all channels of a state. -/
structure Sizes (N : ℕ) (s : PathState) : Prop where
  send : ∀ a, (s.sendQ a).length ≤ maxMessage
  reader : ∀ a, (s.rd a).out.length ≤ 1
  recv : s.d.recvQ.length ≤ maxMessage
  chan : ∀ c, (s.d.chan c).length ≤ N * N

theorem lookup_sizes {s s' : DState} {t : String} {id : Bytes} {pos pos' : LookupPos} (h : s.lookup t id pos = some (s', pos')) :
    s'.recvQ = s.recvQ ∧ s'.chan = s.chan ∧ s'.cons = s.cons := by
  cases pos with
  | have_ c => simp [DState.lookup] at h
  | first =>
    simp only [DState.lookup, DState.loadOuter] at h
    split at h <;> · cases h; exact ⟨rfl, rfl, rfl⟩
  | second m =>
    simp only [DState.lookup, DState.loadInner] at h
    split at h <;> · cases h; exact ⟨rfl, rfl, rfl⟩

theorem dStep_sizes {N : ℕ} {s s' : DState} {e : DEvent} (hs : dStep N s e = some s') (h1 : s.recvQ.length ≤ maxMessage) (h2 : ∀ c, (s.chan c).length ≤ N * N) :
    s'.recvQ.length ≤ maxMessage ∧ ∀ c, (s'.chan c).length ≤ N * N := by
  cases e with
  | arrive m =>
    simp only [dStep] at hs
    split at hs
    · cases hs; exact ⟨by simp only [List.length_append, List.length_singleton]; omega, h2⟩
    · cases hs
  | take =>
    simp only [dStep] at hs
    split at hs
    · next hq => cases hs; rw [hq] at h1; simp only [List.length_cons] at h1; exact ⟨by dsimp only; omega, h2⟩
    · cases hs
  | look =>
    simp only [dStep] at hs
    split at hs
    · obtain ⟨⟨d, pos⟩, hl, hd⟩ := Option.map_eq_some_iff.1 hs
      obtain ⟨k1, k2, -⟩ := lookup_sizes hl
      subst hd
      exact ⟨by dsimp only; rw [k1]; exact h1, fun c => by dsimp only; rw [k2]; exact h2 c⟩
    · cases hs
  | push =>
    simp only [dStep] at hs
    split at hs
    · split at hs
      · cases hs
        refine ⟨h1, fun c => ?_⟩
        dsimp only
        split
        · simp only [List.length_append, List.length_singleton]; omega
        · exact h2 c
      · cases hs
    · cases hs
  | call c t id => cases hs; exact ⟨h1, h2⟩
  | cont c =>
    simp only [dStep] at hs
    split at hs
    · obtain ⟨⟨d, pos⟩, hl, hd⟩ := Option.map_eq_some_iff.1 hs
      obtain ⟨k1, k2, -⟩ := lookup_sizes hl
      subst hd
      exact ⟨by dsimp only; rw [k1]; exact h1, fun c => by dsimp only; rw [k2]; exact h2 c⟩
    · cases hs
  | read c =>
    simp only [dStep] at hs
    split at hs
    · split at hs
      · cases hs
      · next ch _ _ m rest hq =>
        cases hs
        refine ⟨h1, fun c => ?_⟩
        dsimp only
        split
        · have := h2 ch; rw [hq] at this; simp only [List.length_cons] at this; omega
        · exact h2 c
    · cases hs

theorem Sizes.step {N : ℕ} {s s' : PathState} {e : PathEvent} (h : Sizes N s) (hs : pathStep N s e = some s') : Sizes N s' := by
  obtain ⟨h1, h2, h3, h4⟩ := h
  cases e with
  | send a m =>
    simp only [pathStep] at hs
    split at hs
    · next hl =>
      cases hs
      refine ⟨fun b => ?_, h2, h3, h4⟩
      dsimp only
      rcases eq_or_ne b a with rfl | hb
      · rw [Function.update_self]; simp only [List.length_append, List.length_singleton]; omega
      · rw [Function.update_of_ne hb]; exact h1 b
    · cases hs
  | write a =>
    simp only [pathStep] at hs
    split at hs
    · cases hs
    · next m rest hq =>
      cases hs
      refine ⟨fun b => ?_, h2, h3, h4⟩
      dsimp only
      rcases eq_or_ne b a with rfl | hb
      · rw [Function.update_self]; have := h1 b; rw [hq] at this; simp only [List.length_cons] at this; omega
      · rw [Function.update_of_ne hb]; exact h1 b
  | raw a bs => cases hs; exact ⟨h1, h2, h3, h4⟩
  | byte a =>
    simp only [pathStep] at hs
    split at hs
    · cases hs
    · next hc =>
      split at hs
      · cases hs
      · next b rest hq =>
        cases hs
        refine ⟨h1, fun c => ?_, h3, h4⟩
        dsimp only
        rcases eq_or_ne c a with rfl | hb
        · rw [Function.update_self]
          have ho : (s.rd c).out = [] := by by_contra ho; exact hc (Or.inr ho)
          have := recvByte_len (s.rd c) b
          rw [ho] at this
          exact this
        · rw [Function.update_of_ne hb]; exact h2 c
  | push a =>
    simp only [pathStep] at hs
    split at hs
    · cases hs
    · split at hs
      · cases hs
      · next m rest hq =>
        obtain ⟨d, hd, rfl⟩ := Option.map_eq_some_iff.1 hs
        obtain ⟨k1, k2⟩ := dStep_sizes hd h3 h4
        refine ⟨h1, fun c => ?_, k1, k2⟩
        dsimp only
        rcases eq_or_ne c a with rfl | hb
        · rw [Function.update_self]; have := h2 c; rw [hq] at this; simp only [List.length_cons] at this; dsimp only; omega
        · rw [Function.update_of_ne hb]; exact h2 c
  | d e =>
    have : (if s.ended = true then none else (dStep N s.d e).map fun d => { s with d := d }) = some s' := by
      cases e <;> first | exact hs | (cases hs)
    split at this
    · cases this
    · obtain ⟨d, hd, rfl⟩ := Option.map_eq_some_iff.1 this
      obtain ⟨k1, k2⟩ := dStep_sizes hd h3 h4
      exact ⟨h1, h2, k1, k2⟩

theorem Sizes.run {N : ℕ} {evs : List PathEvent} {s : PathState} (h : PathRun N .init evs s) : Sizes N s := by
  induction h with
  | nil => exact ⟨fun _ => Nat.zero_le _, fun _ => Nat.zero_le _, Nat.zero_le _, fun _ => Nat.zero_le _⟩
  | snoc _ hs ih => exact ih.step hs

theorem PathRun.last {N : ℕ} {s₀ s' : PathState} {evs : List PathEvent} {e : PathEvent} (h : PathRun N s₀ (evs ++ [e]) s') :
    ∃ s, PathRun N s₀ evs s ∧ pathStep N s e = some s' := by
  have key : ∀ es, PathRun N s₀ es s' → es = evs ++ [e] → ∃ s, PathRun N s₀ evs s ∧ pathStep N s e = some s' := by
    intro es h he
    cases h with
    | nil => exact absurd he (by simp)
    | snoc h1 h2 =>
      obtain ⟨rfl, hl⟩ := List.append_inj' he rfl
      cases hl
      exact ⟨_, h1, h2⟩
  exact key _ h rfl

theorem PathRun.det {N : ℕ} {s₀ s s' : PathState} {evs : List PathEvent} (h : PathRun N s₀ evs s) (h' : PathRun N s₀ evs s') : s = s' := by
  induction h generalizing s' with
  | nil =>
    have key : ∀ es, PathRun N s₀ es s' → es = [] → s₀ = s' := by
      intro es h he
      cases h with
      | nil => rfl
      | snoc => exact absurd he (by simp)
    exact key _ h' rfl
  | snoc h1 h2 ih =>
    obtain ⟨s1, k1, k2⟩ := h'.last
    rw [ih k1, k2] at h2
    exact (Option.some.inj h2).symm

/-- One peer hands over the messages, each as soon as its writer goroutine has written the one before. -/
def pour (ms : List PMessage) : List PathEvent := ms.flatMap fun m => [.send 0 m, .write 0]

theorem pour_run {N : ℕ} (ms : List PMessage) : ∀ s : PathState, s.sendQ 0 = [] → ∃ s', PathRun N s (pour ms) s' ∧ s'.d = s.d := by
  induction ms with
  | nil => exact fun s _ => ⟨s, .nil, rfl⟩
  | cons m ms ih =>
    intro s h1
    let s1 : PathState := { s with sendQ := Function.update s.sendQ 0 [m] }
    have e1 : pathStep N s (.send 0 m) = some s1 := by
      simp only [pathStep, h1, List.length_nil, List.nil_append]
      exact if_pos (by decide)
    let s2 : PathState := { s1 with sendQ := Function.update s1.sendQ 0 [], wire := Function.update s1.wire 0 (s1.wire 0 ++ frame m) }
    have e2 : pathStep N s1 (.write 0) = some s2 := by
      have : s1.sendQ 0 = [m] := by simp only [s1, Function.update_self]
      simp only [pathStep, this]
      rfl
    obtain ⟨s', h3, h4⟩ := ih s2 (by simp only [s2, Function.update_self])
    exact ⟨s', ((PathRun.nil.snoc e1).snoc e2).trans h3, h4⟩

theorem handed_pour (ms : List PMessage) (a : ℕ) : handed (pour ms) a = if a = 0 then ms else [] := by
  induction ms with
  | nil => simp [handed, pour]
  | cons m ms ih =>
    have : handed (pour (m :: ms)) a = (if 0 = a then [m] else []) ++ handed (pour ms) a := by
      simp only [handed, pour, List.flatMap_cons, List.filterMap_append]
      congr 1
      by_cases h : 0 = a <;> simp [h]
    rw [this, ih]
    by_cases h : a = 0
    · simp [h]
    · simp [h, Ne.symm h]

theorem inner_asked {evs : List PathEvent} (h : ∀ e ∈ evs, e.inner = true) : asked evs = [] := by
  refine List.filterMap_eq_nil_iff.2 fun e he => ?_
  have := h e he
  cases e with
  | d e => cases e <;> first | rfl | (cases this)
  | _ => rfl

/-- A step that is not a read for this key takes nothing out of its queue. -/
theorem dStep_keeps {N : ℕ} {s s' : DState} {e : DEvent} (hi : DInv s) (hs : dStep N s e = some s') {t : String} {id : Bytes} (hr : ∀ c pos, s.cons c ≠ some ((t, id), pos)) :
    s.queued t id <+: s'.queued t id := by
  cases e with
  | arrive m =>
    simp only [dStep] at hs
    split at hs
    · cases hs; exact List.prefix_rfl
    · cases hs
  | take =>
    simp only [dStep] at hs
    split at hs
    · cases hs; exact List.prefix_rfl
    · cases hs
  | look =>
    simp only [dStep] at hs
    split at hs
    · next m pos hd =>
      obtain ⟨⟨d, pos'⟩, hl, rfl⟩ := Option.map_eq_some_iff.1 hs
      obtain ⟨-, k, -⟩ := lookup_step hi (hi.disp_ok m pos hd) hl
      exact (k.queued t id).symm ▸ List.prefix_rfl
    · cases hs
  | push =>
    simp only [dStep] at hs
    split at hs
    · next m c hd =>
      split at hs
      · cases hs
        obtain ⟨mm, h1, h2⟩ := hi.disp_ok _ _ hd
        rw [queued_set hi h1 h2 (s.chan c ++ [m]) { s with chan := fun c' => if c' = c then s.chan c ++ [m] else s.chan c', disp := none } rfl rfl rfl]
        split
        · next hk => rw [hk.1, hk.2, queued_of h1 h2]; exact List.prefix_append _ _
        · exact List.prefix_rfl
      · cases hs
    · cases hs
  | call c t id => cases hs; exact List.prefix_rfl
  | cont c =>
    simp only [dStep] at hs
    split at hs
    · next k pos hd =>
      obtain ⟨⟨d, pos'⟩, hl, rfl⟩ := Option.map_eq_some_iff.1 hs
      obtain ⟨-, k, -⟩ := lookup_step hi (hi.cons_ok c _ pos hd) hl
      exact (k.queued t id).symm ▸ List.prefix_rfl
    · cases hs
  | read c =>
    simp only [dStep] at hs
    split at hs
    · next k ch hd =>
      split at hs
      · cases hs
      · next m rest hq =>
        cases hs
        obtain ⟨mm, h1, h2⟩ := hi.cons_ok _ _ _ hd
        rw [queued_set hi h1 h2 rest { s with chan := fun c' => if c' = ch then rest else s.chan c', log := s.log ++ [(k, m)] } rfl rfl rfl, if_neg]
        rintro ⟨rfl, rfl⟩
        exact hr c _ hd
    · cases hs

/-- Only those who have asked are in `GetMessage`. -/
theorem dStep_cons {N : ℕ} {s s' : DState} {e : DEvent} (hs : dStep N s e = some s') {c : ℕ} {k : String × Bytes} {pos : LookupPos} (hc : s'.cons c = some (k, pos)) :
    (∃ pos', s.cons c = some (k, pos')) ∨ ∃ c, e = .call c k.1 k.2 := by
  cases e with
  | arrive m =>
    simp only [dStep] at hs
    split at hs
    · cases hs; exact .inl ⟨pos, hc⟩
    · cases hs
  | take =>
    simp only [dStep] at hs
    split at hs
    · cases hs; exact .inl ⟨pos, hc⟩
    · cases hs
  | look =>
    simp only [dStep] at hs
    split at hs
    · obtain ⟨⟨d, pos'⟩, hl, rfl⟩ := Option.map_eq_some_iff.1 hs
      obtain ⟨-, -, k3⟩ := lookup_sizes hl
      dsimp only at hc
      rw [k3] at hc
      exact .inl ⟨pos, hc⟩
    · cases hs
  | push =>
    simp only [dStep] at hs
    split at hs
    · split at hs
      · cases hs; exact .inl ⟨pos, hc⟩
      · cases hs
    · cases hs
  | call c0 t id =>
    cases hs
    dsimp only at hc
    split at hc
    · cases hc; exact .inr ⟨c0, rfl⟩
    · exact .inl ⟨pos, hc⟩
  | cont c0 =>
    simp only [dStep] at hs
    split at hs
    · next k0 pos0 hd =>
      obtain ⟨⟨d, pos'⟩, hl, rfl⟩ := Option.map_eq_some_iff.1 hs
      obtain ⟨-, -, k3⟩ := lookup_sizes hl
      dsimp only at hc
      split at hc
      · next he => cases hc; exact .inl ⟨pos0, he ▸ hd⟩
      · rw [k3] at hc; exact .inl ⟨pos, hc⟩
    · cases hs
  | read c0 =>
    simp only [dStep] at hs
    split at hs
    · split at hs
      · cases hs
      · cases hs; exact .inl ⟨pos, hc⟩
    · cases hs

/-- The step of the dispatcher's state in a step of the whole. -/
theorem pathStep_d {N : ℕ} {s s' : PathState} {e : PathEvent} (hs : pathStep N s e = some s') : s'.d = s.d ∨ ∃ de, dStep N s.d de = some s'.d ∧ ∀ c t id, de = .call c t id → e = .d de := by
  cases e with
  | send a m =>
    simp only [pathStep] at hs
    split at hs
    · cases hs; exact .inl rfl
    · cases hs
  | write a =>
    simp only [pathStep] at hs
    split at hs
    · cases hs
    · cases hs; exact .inl rfl
  | raw a bs => cases hs; exact .inl rfl
  | byte a =>
    simp only [pathStep] at hs
    split at hs
    · cases hs
    · split at hs
      · cases hs
      · cases hs; exact .inl rfl
  | push a =>
    simp only [pathStep] at hs
    split at hs
    · cases hs
    · split at hs
      · cases hs
      · obtain ⟨d, hd, rfl⟩ := Option.map_eq_some_iff.1 hs
        exact .inr ⟨_, hd, fun c t id h => by cases h⟩
  | d e =>
    have : (if s.ended = true then none else (dStep N s.d e).map fun d => { s with d := d }) = some s' := by
      cases e <;> first | exact hs | (cases hs)
    split at this
    · cases this
    · obtain ⟨d, hd, rfl⟩ := Option.map_eq_some_iff.1 this
      exact .inr ⟨e, hd, fun _ _ _ _ => rfl⟩

theorem asked_append (e1 e2 : List PathEvent) : asked (e1 ++ e2) = asked e1 ++ asked e2 := by simp only [asked, List.filterMap_append]

theorem cons_asked {N : ℕ} {evs : List PathEvent} {s : PathState} (h : PathRun N .init evs s) : ∀ c k pos, s.d.cons c = some (k, pos) → k ∈ asked evs := by
  induction h with
  | nil => intro c k pos h; cases h
  | snoc h hs ih =>
    intro c k pos hc
    rw [asked_append]
    rcases pathStep_d hs with hd | ⟨de, hd, hcall⟩
    · rw [hd] at hc
      exact List.mem_append_left _ (ih c k pos hc)
    · rcases dStep_cons hd hc with ⟨pos', hc'⟩ | ⟨c', rfl⟩
      · exact List.mem_append_left _ (ih c k pos' hc')
      · rw [hcall _ _ _ rfl]
        exact List.mem_append_right _ (by simp [asked])

/-- What nobody asks for stays. -/
theorem queue_stays {N : ℕ} {evs evs' : List PathEvent} {s s' : PathState} (h : PathRun N .init evs s) (h' : PathRun N s evs' s') {t : String} {id : Bytes}
    (hn : (t, id) ∉ asked (evs ++ evs')) : s.d.queued t id <+: s'.d.queued t id := by
  induction h' with
  | nil => exact List.prefix_rfl
  | @snoc evs' s1 e s2 h' hs ih =>
    have hn' : (t, id) ∉ asked (evs ++ evs') := fun hm => hn (by rw [← List.append_assoc, asked_append]; exact List.mem_append_left _ hm)
    refine (ih hn').trans ?_
    rcases pathStep_d hs with hd | ⟨de, hd, -⟩
    · rw [hd]
    · exact dStep_keeps (PathInv.run (h.trans h')).d hd fun c pos hc => hn' (cons_asked (h.trans h') c _ pos hc)

end DyCAPS
