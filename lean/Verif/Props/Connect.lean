import Verif.Lemmas.Connect
import Mathlib.Order.Nat

/-!
# Starting processes and losing them (C116, C117)
-/

namespace DyCAPS

variable {N : ℕ}

/-! ## C116: the end of a process -/

/-- **C116 is refuted.** In every execution, once the readers have done what they can: whoever an ended process had connected to has ended as well, or has stopped reading from the network because its
receive queue is full. -/
theorem C116_refuted {es : List CEvent} {s : Conns} (h : CRun N Conns.init es s) (hq : s.Quiet N) {a b : Proc} (ha : s.life a = .ended) (hl : s.Linked N a b) :
    s.life b = .ended ∨ s.queue b = receiveCap := by
  obtain ⟨k, hk⟩ := hl
  have I := h.inv CInv.init
  by_contra hn
  push Not at hn
  have hb : s.life b = .up := by
    cases e : s.life b with
    | down => exact absurd e (I.linked a k b hk)
    | up => rfl
    | ended => exact absurd e hn.1
  have hcap : s.queue b < receiveCap := lt_of_le_of_ne (I.queue b) hn.2
  obtain ⟨h1, h2⟩ := hq a k
  simp only [cStep, hk] at h1 h2
  by_cases hf : s.flight a k = 0
  · rw [if_pos ⟨hb, ha, hf⟩] at h2
    cases h2
  · rw [if_pos ⟨hb, Nat.pos_of_ne_zero hf, hcap⟩] at h1
    cases h1

/-- **C116 is refuted.** As long as the members take messages from their queues, the end of one process ends all that can be reached from it by connections. -/
theorem C116_refuted_all {es : List CEvent} {s : Conns} (h : CRun N Conns.init es s) (hq : s.Quiet N) (hfree : ∀ b, s.life b = .up → s.queue b < receiveCap) {a b : Proc} (ha : s.life a = .ended)
    (hr : s.Reaches N a b) : s.life b = .ended := by
  induction hr with
  | refl => exact ha
  | step _ hl ih =>
    rename_i c d _
    rcases C116_refuted h hq ih hl with h1 | h1
    · exact h1
    · have I := h.inv CInv.init
      obtain ⟨k, hk⟩ := hl
      cases e : s.life d with
      | down => exact absurd e (I.linked c k d hk)
      | up => exact absurd h1 (ne_of_lt (hfree d e))
      | ended => rfl

/-- A process that has made all its connections is connected to everybody on its lists. -/
theorem Conns.Ready.linked {s : Conns} {a b : Proc} (hr : s.Ready N a) (hb : b ∈ a.dials N) : s.Linked N a b := by
  obtain ⟨k, hk, e⟩ := List.getElem_of_mem hb
  refine ⟨k, ?_⟩
  unfold Conns.peer
  rw [if_pos (by rw [hr]; exact hk), List.getElem?_eq_getElem hk, e]

/-- **C116 is refuted.** Of a new committee that is connected, one member ends: all end. -/
theorem C116_refuted_committee {es : List CEvent} {s : Conns} (h : CRun N Conns.init es s) (hq : s.Quiet N) (hfree : ∀ b, s.life b = .up → s.queue b < receiveCap) {i : ℕ} (hready : s.Ready N (.new i))
    (hi : s.life (.new i) = .ended) : ∀ j < N, s.life (.new j) = .ended := fun j hj =>
  C116_refuted_all h hq hfree hi (.step .refl (hready.linked (by simp only [Proc.dials]; exact List.mem_map.2 ⟨j, List.mem_range.2 hj, rfl⟩)))

/-- **C116 is refuted.** The client ends after it has dealt the shares, for instance because its `main` returns: both committees end. -/
theorem C116_refuted_client {es : List CEvent} {s : Conns} (h : CRun N Conns.init es s) (hq : s.Quiet N) (hfree : ∀ b, s.life b = .up → s.queue b < receiveCap) (hc : s.Ready N .client)
    (hold : ∀ i < N, s.Ready N (.old i)) (he : s.life .client = .ended) : (∀ j < N, s.life (.old j) = .ended) ∧ ∀ j < N, s.life (.new j) = .ended := by
  have h1 : ∀ j < N, s.Reaches N .client (.old j) := fun j hj => .step .refl (hc.linked (List.mem_map.2 ⟨j, List.mem_range.2 hj, rfl⟩))
  refine ⟨fun j hj => C116_refuted_all h hq hfree he (h1 j hj), fun j hj => C116_refuted_all h hq hfree he (.step (h1 j hj) ((hold j hj).linked ?_))⟩
  exact List.mem_append_right _ (List.mem_map.2 ⟨j, List.mem_range.2 hj, rfl⟩)

/-- **C116 is refuted.** From every state in which a process has ended, each process reachable from it can end, by steps of readers and dispatchers alone. -/
theorem C116_refuted_happens {es : List CEvent} {s : Conns} (h : CRun N Conns.init es s) {a b : Proc} (ha : s.life a = .ended) (hr : s.Reaches N a b) :
    ∃ es' s', CRun N s es' s' ∧ s'.life b = .ended ∧ ∀ e ∈ es', (∃ c, e = .take c) ∨ ∃ c k, e = .reset c k := by
  induction hr with
  | refl => exact ⟨[], s, .nil, ha, by simp⟩
  | step _ hl ih =>
    rename_i c d _
    obtain ⟨es1, s1, r1, e1, k1⟩ := ih
    obtain ⟨k, hk⟩ := r1.linked hl
    have I := (h.append r1).inv CInv.init
    cases e : s1.life d with
    | down => exact absurd e (I.linked c k d hk)
    | ended => exact ⟨es1, s1, r1, e, k1⟩
    | up =>
      by_cases hcap : s1.queue d < receiveCap
      · refine ⟨es1 ++ [.reset c k], s1.stop d, r1.append (.cons ?_ .nil), by simp [Conns.stop], ?_⟩
        · simp only [cStep, hk]
          rw [if_pos ⟨e, e1, hcap⟩]
        · intro x hx
          rcases List.mem_append.1 hx with hx | hx
          · exact k1 x hx
          · exact Or.inr ⟨c, k, List.mem_singleton.1 hx⟩
      · have hq : s1.queue d = receiveCap := le_antisymm (I.queue d) (not_lt.1 hcap)
        set s2 : Conns := { s1 with queue := Function.update s1.queue d (s1.queue d - 1) } with hs2
        have hk2 : s2.peer N c k = some d := hk
        refine ⟨es1 ++ [.take d, .reset c k], s2.stop d, r1.append (.cons (s' := s2) ?_ (.cons ?_ .nil)), by simp [Conns.stop], ?_⟩
        · simp only [cStep]
          rw [if_pos ⟨e, by rw [hq]; decide⟩]
        · simp only [cStep, hk2]
          rw [if_pos ⟨e, e1, by simp only [hs2, Function.update_self, hq]; decide⟩]
        · intro x hx
          rcases List.mem_append.1 hx with hx | hx
          · exact k1 x hx
          · rcases List.mem_cons.1 hx with rfl | hx
            · exact Or.inl ⟨d, rfl⟩
            · exact Or.inr ⟨c, k, List.mem_singleton.1 hx⟩

/-- **C116 (the part that holds).** As long as no process stops of its own accord, connections end a process only if some process tried to connect to one that was not started yet. -/
theorem C116_nobody_stops_partial {es : List CEvent} {s : Conns} (h : CRun N Conns.init es s) (hstop : ∀ a, .stop a ∉ es) {b : Proc} (hb : s.life b = .ended) :
    ∃ pre a post c, es = pre ++ .dial a :: post ∧ c ∈ a.dials N ∧ .start c ∉ pre := by
  obtain ⟨pre, a, post, s1, c, h1, h2, -, h3, -, h4⟩ := h.first_end (fun b => by simp [Conns.init]) hb hstop
  exact ⟨pre, a, post, c, h1, List.mem_of_getElem? h3, fun hs => h2.started hs h4⟩

/-! ## C117: the order of starting -/

/-- **C117 is refuted.** Whatever the waiting times are: member 1 is started later than member 0 by more than that, and member 0 has ended when member 1 starts; then, whatever happens later, no
member ever gets connected to the committee. -/
theorem C117_refuted (hN : 2 ≤ N) (w : Proc → ℕ) : ∃ es s, TRun N 0 Conns.init es s ∧ KeepsWaiting w es ∧ (∀ t a, (t, CEvent.stop a) ∉ es) ∧ s.life (.new 1) = .up ∧
    s.life (.new 0) = .ended ∧ ∀ es' s', CRun N s es' s' → ∀ i < N, ¬ s'.Ready N (.new i) := by
  have d0 : ∀ i, (Proc.dials N (.new i))[0]? = some (.new 0) := fun i => by
    simp only [Proc.dials, List.getElem?_map, List.getElem?_range (show 0 < N by omega), Option.map_some]
  have d1 : (Proc.dials N (.new 0))[1]? = some (.new 1) := by
    simp only [Proc.dials, List.getElem?_map, List.getElem?_range (show 1 < N by omega), Option.map_some]
  set W := w (.new 0)
  set s1 : Conns := { Conns.init with life := Function.update Conns.init.life (.new 0) .up } with hs1
  set s2 : Conns := { s1 with dialled := Function.update s1.dialled (.new 0) 1 } with hs2
  set s3 : Conns := s2.stop (.new 0) with hs3
  set s4 : Conns := { s3 with life := Function.update s3.life (.new 1) .up } with hs4
  have l4 : s4.life (.new 0) = .ended := by
    simp only [hs4, hs3, Conns.stop]
    rw [Function.update_of_ne (by simp), Function.update_self]
  refine ⟨[(0, .start (.new 0)), (W, .dial (.new 0)), (W, .dial (.new 0)), (W + 1, .start (.new 1))], s4,
    .cons (s' := s1) le_rfl ?_ (.cons (s' := s2) (Nat.zero_le _) ?_ (.cons (s' := s3) le_rfl ?_ (.cons (Nat.le_succ _) ?_ .nil))), ?_, ?_, ?_, l4, ?_⟩
  · simp [cStep, Conns.init, hs1]
  · simp only [cStep]
    rw [if_pos (by simp [hs1])]
    simp only [show s1.dialled (.new 0) = 0 from rfl, d0]
    rw [if_pos ⟨by simp [hs1], rfl⟩]
  · simp only [cStep]
    rw [if_pos (by simp [hs2, hs1])]
    simp only [show s2.dialled (.new 0) = 1 by simp [hs2], d1]
    rw [if_neg (by simp [hs2, hs1, Conns.init])]
  · simp only [cStep]
    rw [if_pos (by simp [hs3, hs2, hs1, Conns.stop, Conns.init])]
  · intro a t ht
    simp only [List.mem_cons, Prod.mk.injEq, CEvent.dial.injEq, reduceCtorEq, and_false, List.not_mem_nil, or_false, false_or] at ht
    have : a = .new 0 ∧ t = W := by tauto
    obtain ⟨rfl, rfl⟩ := this
    exact ⟨0, List.mem_cons_self, by omega⟩
  · intro t a ht
    simp at ht
  · simp [hs4]
  · intro es' s' hr i hi hready
    have hlen : ∀ i, (Proc.dials N (.new i)).length = N := fun i => by simp [Proc.dials]
    have hready : s'.dialled (.new i) = N := by rw [hready, hlen]
    by_cases h0 : i = 0
    · subst h0
      rw [hr.dialled_ended l4] at hready
      have : s4.dialled (.new 0) = 1 := by simp [hs4, hs3, hs2, Conns.stop]
      omega
    · have hkeep : ∀ {es' s s'}, CRun N s es' s' → s.life (.new 0) = .ended → s.dialled (.new i) = 0 → s'.dialled (.new i) = 0 := by
        intro es' s s' hr
        induction hr with
        | nil => exact fun _ h => h
        | cons hs hr ih =>
          intro h1 h2
          refine ih (CRun.ended (.cons hs .nil) h1) ?_
          rcases (cStep_effect hs).dialled (.new i) with h | ⟨-, -, -, b, hb, hu⟩
          · rw [h, h2]
          · rw [h2, d0] at hb
            cases hb
            rw [h1] at hu
            cases hu
      have : s4.dialled (.new i) = 0 := by
        simp only [hs4, hs3, hs2, hs1, Conns.stop]
        rw [Function.update_of_ne (by simpa using h0)]
        rfl
      have := hkeep hr l4 this
      omega

/-- **C117 (the part that holds).** If every process waits after its start, and everybody it connects to is started before this time is over, and no process stops, then none ends, and each has made all its connections
when it cannot make any more. -/
theorem C117_in_time_partial {w : Proc → ℕ} {es : List (ℕ × CEvent)} {s : Conns} (h : TRun N 0 Conns.init es s) (hw : KeepsWaiting w es) (hstop : ∀ t a, (t, CEvent.stop a) ∉ es)
    (hin : ∀ a ta, (ta, CEvent.start a) ∈ es → ∀ b ∈ a.dials N, ∃ tb, (tb, CEvent.start b) ∈ es ∧ tb < ta + w a) :
    (∀ a, s.life a ≠ .ended) ∧ ∀ a, s.life a = .up → cStep N s (.dial a) = none → s.Ready N a := by
  constructor
  · intro b hb
    obtain ⟨pre, a, post, c, h1, h2, h3⟩ := C116_nobody_stops_partial h.untimed (fun a ha => by
      obtain ⟨⟨t, e⟩, hx, rfl⟩ := List.mem_map.1 ha
      exact hstop t a hx) hb
    obtain ⟨p, q, e1, e2, e3⟩ := List.map_eq_append_iff.1 h1
    obtain ⟨⟨t, e⟩, q', rfl, e4, e5⟩ := List.map_eq_cons_iff.1 e3
    simp only at e4
    subst e4
    obtain ⟨t0, g1, g2⟩ := hw a t (by rw [e1]; simp)
    obtain ⟨tb, g3, g4⟩ := hin a t0 g1 c h2
    have hp := h.times.2
    rw [e1] at hp g3
    rcases List.mem_append.1 g3 with g3 | g3
    · exact h3 (by rw [← e2]; exact List.mem_map.2 ⟨_, g3, rfl⟩)
    · rcases List.mem_cons.1 g3 with g3 | g3
      · cases g3
      · have := (List.pairwise_cons.1 (List.pairwise_append.1 hp).2.1).1 _ g3
        simp only at this
        omega
  · intro a ha hn
    have I := h.untimed.inv CInv.init
    simp only [cStep] at hn
    rw [if_pos ha] at hn
    split at hn
    · rename_i hd
      exact le_antisymm (I.dialled a) (List.getElem?_eq_none_iff.1 hd)
    · split_ifs at hn

/-- **C117 (the part that holds), by roles.** With the waiting times `t1`, `t2`, `t3` of `main`: it is enough that the members of the new (or only) committee are started within `t1` of each other, every member of both committees
less than `t2` after any old member, and the old members less than `t3` after the client. -/
theorem C117_roles_partial {t1 t2 t3 : ℕ} {es : List (ℕ × CEvent)} {s : Conns} (h : TRun N 0 Conns.init es s) (hw : KeepsWaiting (Proc.wait t1 t2 t3) es) (hstop : ∀ t a, (t, CEvent.stop a) ∉ es)
    (hnew : ∀ i t, (t, CEvent.start (.new i)) ∈ es → ∀ j < N, ∃ u, (u, CEvent.start (.new j)) ∈ es ∧ u < t + t1)
    (hone : ∀ i t, (t, CEvent.start (.one i)) ∈ es → ∀ j < N, ∃ u, (u, CEvent.start (.one j)) ∈ es ∧ u < t + t1)
    (hold : ∀ i t, (t, CEvent.start (.old i)) ∈ es → ∀ j < N, (∃ u, (u, CEvent.start (.old j)) ∈ es ∧ u < t + t2) ∧ ∃ u, (u, CEvent.start (.new j)) ∈ es ∧ u < t + t2)
    (hclient : ∀ t, (t, CEvent.start .client) ∈ es → ∀ j < N, ∃ u, (u, CEvent.start (.old j)) ∈ es ∧ u < t + t3) :
    (∀ a, s.life a ≠ .ended) ∧ ∀ a, s.life a = .up → cStep N s (.dial a) = none → s.Ready N a := by
  refine C117_in_time_partial h hw hstop fun a ta hta b hb => ?_
  cases a with
  | old i =>
    rcases List.mem_append.1 hb with hb | hb <;> obtain ⟨j, hj, rfl⟩ := List.mem_map.1 hb
    · exact (hold i ta hta j (List.mem_range.1 hj)).1
    · exact (hold i ta hta j (List.mem_range.1 hj)).2
  | new i =>
    obtain ⟨j, hj, rfl⟩ := List.mem_map.1 hb
    exact hnew i ta hta j (List.mem_range.1 hj)
  | one i =>
    rcases List.mem_append.1 hb with hb | hb <;> obtain ⟨j, hj, rfl⟩ := List.mem_map.1 hb
    · exact hone i ta hta j (List.mem_range.1 hj)
    · exact hone i ta hta j (List.mem_range.1 hj)
  | client =>
    obtain ⟨j, hj, rfl⟩ := List.mem_map.1 hb
    exact hclient ta hta j (List.mem_range.1 hj)

/-! ## Concrete cases -/

/-- Two members connect, member 1 writes a message and ends; member 0 reads the message, then the end of the stream, and ends. -/
example : ∃ s, CRun 2 Conns.init [.start (.new 0), .start (.new 1), .dial (.new 0), .dial (.new 0), .dial (.new 1), .dial (.new 1), .write (.new 1) 0, .stop (.new 1), .read (.new 1) 0, .eof (.new 1) 0] s ∧
    s.life (.new 0) = .ended ∧ s.queue (.new 0) = 1 := by
  refine ⟨_, .cons rfl (.cons rfl (.cons rfl (.cons rfl (.cons rfl (.cons rfl (.cons rfl (.cons rfl (.cons rfl (.cons rfl .nil))))))))), rfl, rfl⟩

/-- Member 0 connects to itself, then tries member 1, which was not started yet, and ends: the only cause, as nobody stops. -/
example : ∃ es s, CRun 2 Conns.init es s ∧ s.life (.new 0) = .ended ∧ (∀ a, .stop a ∉ es) ∧ ∃ pre a post c, es = pre ++ .dial a :: post ∧ c ∈ a.dials 2 ∧ .start c ∉ pre := by
  obtain ⟨s, h1, h2⟩ : ∃ s, CRun 2 Conns.init [.start (.new 0), .dial (.new 0), .dial (.new 0), .start (.new 1)] s ∧ s.life (.new 0) = .ended := ⟨_, .cons rfl (.cons rfl (.cons rfl (.cons rfl .nil))), rfl⟩
  exact ⟨_, s, h1, h2, by simp, C116_nobody_stops_partial h1 (by simp) h2⟩

def inTimeEvents : List (ℕ × CEvent) := [(0, .start (.new 0)), (9, .start (.new 1)), (10, .dial (.new 0)), (10, .dial (.new 0)), (19, .dial (.new 1)), (20, .dial (.new 1))]

theorem inTime_waits : KeepsWaiting (Proc.wait 10 15 20) inTimeEvents := by
  intro a t ht
  simp only [inTimeEvents, List.mem_cons, Prod.mk.injEq, CEvent.dial.injEq, reduceCtorEq, and_false, List.not_mem_nil, or_false, false_or] at ht
  rcases ht with ⟨rfl, rfl⟩ | ⟨rfl, rfl⟩ | ⟨rfl, rfl⟩ | ⟨rfl, rfl⟩
  · exact ⟨0, by simp [inTimeEvents], by decide⟩
  · exact ⟨0, by simp [inTimeEvents], by decide⟩
  · exact ⟨9, by simp [inTimeEvents], by decide⟩
  · exact ⟨9, by simp [inTimeEvents], by decide⟩

/-- With the waiting times of the script: member 1 starts 9 seconds after member 0, and both get connected. -/
example : ∃ s, TRun 2 0 Conns.init inTimeEvents s ∧ (∀ a, s.life a ≠ .ended) ∧ s.Ready 2 (.new 0) ∧ s.Ready 2 (.new 1) := by
  obtain ⟨s, h, l0, l1, d0, d1⟩ : ∃ s, TRun 2 0 Conns.init inTimeEvents s ∧ s.life (.new 0) = .up ∧ s.life (.new 1) = .up ∧ cStep 2 s (.dial (.new 0)) = none ∧ cStep 2 s (.dial (.new 1)) = none :=
    ⟨_, .cons (by decide) rfl (.cons (by decide) rfl (.cons (by decide) rfl (.cons (by decide) rfl (.cons (by decide) rfl (.cons (by decide) rfl .nil))))), rfl, rfl, rfl, rfl⟩
  obtain ⟨k1, k2⟩ := C117_in_time_partial h inTime_waits (by simp [inTimeEvents]) (by
    intro a ta hta b hb
    simp only [inTimeEvents, List.mem_cons, Prod.mk.injEq, CEvent.start.injEq, reduceCtorEq, and_false, List.not_mem_nil, or_false] at hta
    have hb' : b = .new 0 ∨ b = .new 1 := by
      rcases hta with ⟨rfl, rfl⟩ | ⟨rfl, rfl⟩ <;> simpa [Proc.dials, List.range_succ] using hb
    have e : Proc.wait 10 15 20 a = 10 := by rcases hta with ⟨rfl, rfl⟩ | ⟨rfl, rfl⟩ <;> rfl
    rw [e]
    rcases hb' with rfl | rfl
    · exact ⟨0, by simp [inTimeEvents], by omega⟩
    · exact ⟨9, by simp [inTimeEvents], by rcases hta with ⟨rfl, rfl⟩ | ⟨rfl, rfl⟩ <;> decide⟩)
  exact ⟨s, h, k1, k2 _ l0 d0, k2 _ l1 d1⟩

end DyCAPS
