import Verif.Spec.Connect
import Mathlib.Tactic.SplitIfs
import Mathlib.Tactic.Common

/-!
# Lemmas about processes and connections
-/

namespace DyCAPS

variable {N : ℕ}

theorem dials_listen {a b : Proc} (h : b ∈ a.dials N) : b.listens = true := by
  cases a <;> simp only [Proc.dials, List.mem_append, List.mem_map, List.mem_range] at h
  · rcases h with ⟨i, -, rfl⟩ | ⟨i, -, rfl⟩ <;> rfl
  · obtain ⟨i, -, rfl⟩ := h; rfl
  · rcases h with ⟨i, -, rfl⟩ | ⟨i, -, rfl⟩ <;> rfl
  · obtain ⟨i, -, rfl⟩ := h; rfl

theorem peer_some {s : Conns} {a b : Proc} {k : ℕ} (h : s.peer N a k = some b) : k < s.dialled a ∧ (a.dials N)[k]? = some b := by
  unfold Conns.peer at h
  split_ifs at h with hk
  exact ⟨hk, h⟩

theorem CRun.append {s s' s'' : Conns} {es es' : List CEvent} (h : CRun N s es s') (h' : CRun N s' es' s'') : CRun N s (es ++ es') s'' := by
  induction h with
  | nil => exact h'
  | cons hs _ ih => exact .cons hs (ih h')

theorem CRun.split {s s'' : Conns} {es es' : List CEvent} (h : CRun N s (es ++ es') s'') : ∃ s', CRun N s es s' ∧ CRun N s' es' s'' := by
  induction es generalizing s with
  | nil => exact ⟨s, .nil, h⟩
  | cons e es ih =>
    cases h with
    | cons hs h =>
      obtain ⟨s', h1, h2⟩ := ih h
      exact ⟨s', .cons hs h1, h2⟩

/-- What one event changes. -/
structure CEffect (N : ℕ) (s : Conns) (e : CEvent) (s' : Conns) : Prop where
  dialled : ∀ a, s'.dialled a = s.dialled a ∨ (e = .dial a ∧ s'.dialled a = s.dialled a + 1 ∧ s.life a = .up ∧ ∃ b, (a.dials N)[s.dialled a]? = some b ∧ s.life b = .up)
  life : ∀ a, s'.life a = s.life a ∨ (e = .start a ∧ s.life a = .down ∧ s'.life a = .up) ∨ (s.life a = .up ∧ s'.life a = .ended ∧
    (e = .stop a ∨ (e = .dial a ∧ ∃ b, (a.dials N)[s.dialled a]? = some b ∧ s.life b ≠ .up) ∨ ∃ b, s.life b = .ended))
  queue : ∀ a, s.queue a ≤ receiveCap → s'.queue a ≤ receiveCap

theorem CEffect.of_stop {s : Conns} {a : Proc} {e : CEvent} (ha : s.life a = .up)
    (h : e = .stop a ∨ (e = .dial a ∧ ∃ b, (a.dials N)[s.dialled a]? = some b ∧ s.life b ≠ .up) ∨ ∃ b, s.life b = .ended) : CEffect N s e (s.stop a) := by
  refine ⟨fun b => Or.inl rfl, fun b => ?_, fun b hb => hb⟩
  by_cases hb : b = a
  · subst hb
    exact Or.inr (Or.inr ⟨ha, by simp [Conns.stop], h⟩)
  · exact Or.inl (by simp [Conns.stop, hb])

theorem cStep_effect {s s' : Conns} {e : CEvent} (h : cStep N s e = some s') : CEffect N s e s' := by
  cases e with
  | start a =>
    simp only [cStep] at h
    split_ifs at h with ha
    cases h
    refine ⟨fun b => Or.inl rfl, fun b => ?_, fun b hb => hb⟩
    by_cases hb : b = a
    · subst hb
      exact Or.inr (Or.inl ⟨rfl, ha, by simp⟩)
    · exact Or.inl (by simp [hb])
  | dial a =>
    simp only [cStep] at h
    split_ifs at h with ha
    split at h
    · cases h
    · rename_i b hb
      split_ifs at h with hl
      · cases h
        refine ⟨fun c => ?_, fun c => Or.inl rfl, fun c hc => hc⟩
        by_cases hc : c = a
        · subst hc
          exact Or.inr ⟨rfl, by simp, ha, b, hb, hl.1⟩
        · exact Or.inl (by simp [hc])
      · cases h
        exact CEffect.of_stop ha (Or.inr (Or.inl ⟨rfl, b, hb, fun h => hl ⟨h, dials_listen (List.mem_of_getElem? hb)⟩⟩))
  | write a k =>
    simp only [cStep] at h
    split at h
    · cases h
    · split_ifs at h
      cases h
      exact ⟨fun _ => Or.inl rfl, fun _ => Or.inl rfl, fun _ h => h⟩
  | writeLost a k =>
    simp only [cStep] at h
    split at h
    · cases h
    · split_ifs at h
      cases h
      exact ⟨fun _ => Or.inl rfl, fun _ => Or.inl rfl, fun _ h => h⟩
  | writeFail a k =>
    simp only [cStep] at h
    split at h
    · cases h
    · rename_i b hb
      split_ifs at h with hl
      cases h
      exact CEffect.of_stop hl.1 (Or.inr (Or.inr ⟨b, hl.2⟩))
  | read a k =>
    simp only [cStep] at h
    split at h
    · cases h
    · rename_i b hb
      split_ifs at h with hl
      cases h
      refine ⟨fun _ => Or.inl rfl, fun _ => Or.inl rfl, fun c hc => ?_⟩
      by_cases e : c = b
      · subst e; simp; omega
      · simpa [e] using hc
  | eof a k =>
    simp only [cStep] at h
    split at h
    · cases h
    · rename_i b hb
      split_ifs at h with hl
      cases h
      exact CEffect.of_stop hl.1 (Or.inr (Or.inr ⟨a, hl.2.1⟩))
  | reset a k =>
    simp only [cStep] at h
    split at h
    · cases h
    · rename_i b hb
      split_ifs at h with hl
      cases h
      exact CEffect.of_stop hl.1 (Or.inr (Or.inr ⟨a, hl.2.1⟩))
  | take b =>
    simp only [cStep] at h
    split_ifs at h with hl
    cases h
    refine ⟨fun _ => Or.inl rfl, fun _ => Or.inl rfl, fun c hc => ?_⟩
    by_cases e : c = b
    · subst e; simp; omega
    · simpa [e] using hc
  | stop a =>
    simp only [cStep] at h
    split_ifs at h with hl
    cases h
    exact CEffect.of_stop hl (Or.inl rfl)

/-- Invariant of all executions. -/
structure CInv (N : ℕ) (s : Conns) : Prop where
  linked : ∀ a k b, s.peer N a k = some b → s.life b ≠ .down
  queue : ∀ a, s.queue a ≤ receiveCap
  dialled : ∀ a, s.dialled a ≤ (a.dials N).length

theorem CInv.init : CInv N Conns.init := ⟨fun a k b h => by simp [Conns.peer, Conns.init] at h, fun a => by simp [Conns.init], fun a => by simp [Conns.init]⟩

theorem CInv.step {s s' : Conns} {e : CEvent} (i : CInv N s) (h : cStep N s e = some s') : CInv N s' := by
  have E := cStep_effect h
  have hlife : ∀ b, s.life b ≠ .down → s'.life b ≠ .down := by
    intro b hb
    rcases E.life b with h | ⟨-, -, h⟩ | ⟨-, h, -⟩ <;> rw [h]
    · exact hb
    · simp
    · simp
  refine ⟨fun a k b hp => ?_, fun a => E.queue a (i.queue a), fun a => ?_⟩
  · obtain ⟨h1, h2⟩ := peer_some hp
    rcases E.dialled a with h | ⟨-, h, -, c, hc, hu⟩
    · exact hlife b (i.linked a k b (by unfold Conns.peer; rw [if_pos (by omega)]; exact h2))
    · by_cases hk : k < s.dialled a
      · exact hlife b (i.linked a k b (by unfold Conns.peer; rw [if_pos hk]; exact h2))
      · have : k = s.dialled a := by omega
        subst this
        rw [hc] at h2
        cases h2
        exact hlife _ (by rw [hu]; simp)
  · rcases E.dialled a with h | ⟨-, h, -, c, hc, -⟩
    · rw [h]; exact i.dialled a
    · rw [h]; exact (List.getElem?_eq_some_iff.1 hc).1

theorem CRun.inv {s s' : Conns} {es : List CEvent} (h : CRun N s es s') (i : CInv N s) : CInv N s' := by
  induction h with
  | nil => exact i
  | cons hs _ ih => exact ih (i.step hs)

theorem CRun.dialled_le {s s' : Conns} {es : List CEvent} (h : CRun N s es s') (a : Proc) : s.dialled a ≤ s'.dialled a := by
  induction h with
  | nil => exact Nat.le_refl _
  | cons hs _ ih =>
    rcases (cStep_effect hs).dialled a with h | ⟨-, h, -⟩ <;> omega

theorem CRun.ended {s s' : Conns} {es : List CEvent} (h : CRun N s es s') {a : Proc} (ha : s.life a = .ended) : s'.life a = .ended := by
  induction h with
  | nil => exact ha
  | cons hs _ ih =>
    refine ih ?_
    rcases (cStep_effect hs).life a with h | ⟨-, h, -⟩ | ⟨h, -⟩
    · rw [h]; exact ha
    · rw [ha] at h; cases h
    · rw [ha] at h; cases h

theorem CRun.linked {s s' : Conns} {es : List CEvent} (h : CRun N s es s') {a b : Proc} (hl : s.Linked N a b) : s'.Linked N a b := by
  obtain ⟨k, hk⟩ := hl
  obtain ⟨h1, h2⟩ := peer_some hk
  exact ⟨k, by unfold Conns.peer; rw [if_pos (Nat.lt_of_lt_of_le h1 (h.dialled_le a))]; exact h2⟩

/-- A process that has ended makes no connections. -/
theorem CRun.dialled_ended {s s' : Conns} {es : List CEvent} (h : CRun N s es s') {a : Proc} (ha : s.life a = .ended) : s'.dialled a = s.dialled a := by
  induction h with
  | nil => rfl
  | cons hs hr ih =>
    rw [ih (CRun.ended (.cons hs .nil) ha)]
    rcases (cStep_effect hs).dialled a with h | ⟨-, -, h, -⟩
    · exact h
    · rw [ha] at h; cases h

/-- The first end of a process is a `stop` or a failed connection attempt. -/
theorem CRun.first_end {s s' : Conns} {es : List CEvent} (h : CRun N s es s') (h0 : ∀ b, s.life b ≠ .ended) {b : Proc} (hb : s'.life b = .ended) (hstop : ∀ a, .stop a ∉ es) :
    ∃ pre a post s1 c, es = pre ++ .dial a :: post ∧ CRun N s pre s1 ∧ (∀ b, s1.life b ≠ .ended) ∧ (a.dials N)[s1.dialled a]? = some c ∧ s1.life a = .up ∧ s1.life c = .down := by
  induction h with
  | nil => exact absurd hb (h0 b)
  | @cons s s' s'' e es hs hr ih =>
    by_cases h1 : ∀ b, s'.life b ≠ .ended
    · obtain ⟨pre, a, post, s1, c, e1, e2, e3⟩ := ih h1 hb (fun a h => hstop a (List.mem_cons_of_mem _ h))
      exact ⟨e :: pre, a, post, s1, c, by rw [e1]; rfl, .cons hs e2, e3⟩
    · push Not at h1
      obtain ⟨a, ha⟩ := h1
      rcases (cStep_effect hs).life a with h | ⟨-, -, h⟩ | ⟨hu, -, h | ⟨rfl, c, hc, hl⟩ | ⟨c, hc⟩⟩
      · exact absurd (h.symm.trans ha) (h0 a)
      · rw [ha] at h; cases h
      · exact absurd (by rw [h]; exact List.mem_cons_self) (hstop a)
      · refine ⟨[], a, es, s, c, rfl, .nil, h0, hc, hu, ?_⟩
        cases hc' : s.life c with
        | down => rfl
        | up => exact absurd hc' hl
        | ended => exact absurd hc' (h0 c)
      · exact absurd hc (h0 c)

/-- Without the clock. -/
theorem TRun.untimed {t : ℕ} {s s' : Conns} {es : List (ℕ × CEvent)} (h : TRun N t s es s') : CRun N s (es.map (·.2)) s' := by
  induction h with
  | nil => exact .nil
  | cons _ hs _ ih => exact .cons hs ih

/-- Times do not decrease. -/
theorem TRun.times {t : ℕ} {s s' : Conns} {es : List (ℕ × CEvent)} (h : TRun N t s es s') : (∀ x ∈ es, t ≤ x.1) ∧ es.Pairwise fun x y => x.1 ≤ y.1 := by
  induction h with
  | nil => exact ⟨by simp, List.Pairwise.nil⟩
  | cons ht _ _ ih =>
    refine ⟨?_, List.pairwise_cons.2 ⟨ih.1, ih.2⟩⟩
    intro x hx
    rcases List.mem_cons.1 hx with rfl | hx
    · exact ht
    · exact Nat.le_trans ht (ih.1 x hx)

/-- A process that was started is not down. -/
theorem CRun.started {s s' : Conns} {es : List CEvent} (h : CRun N s es s') {a : Proc} (ha : .start a ∈ es) : s'.life a ≠ .down := by
  have keep : ∀ {s s' : Conns} {es : List CEvent}, CRun N s es s' → s.life a ≠ .down → s'.life a ≠ .down := by
    intro s s' es h
    induction h with
    | nil => exact id
    | cons hs _ ih =>
      intro h0
      refine ih ?_
      rcases (cStep_effect hs).life a with h | ⟨-, -, h⟩ | ⟨-, h, -⟩ <;> rw [h]
      · exact h0
      · simp
      · simp
  induction h with
  | nil => cases ha
  | @cons s s' s'' e es hs hr ih =>
    rcases List.mem_cons.1 ha with rfl | ha
    · refine keep hr ?_
      simp only [cStep] at hs
      split_ifs at hs
      cases hs
      simp
    · exact ih ha

/-- A process that was not started is down. -/
theorem CRun.not_started {s s' : Conns} {es : List CEvent} (h : CRun N s es s') {a : Proc} (h0 : s.life a = .down) (ha : .start a ∉ es) : s'.life a = .down := by
  induction h with
  | nil => exact h0
  | cons hs _ ih =>
    refine ih ?_ (fun h => ha (List.mem_cons_of_mem _ h))
    rcases (cStep_effect hs).life a with h | ⟨rfl, -⟩ | ⟨h, -⟩
    · rw [h]; exact h0
    · exact absurd List.mem_cons_self ha
    · rw [h0] at h; cases h

/-- Only a running process connects. -/
theorem CRun.dial_started {pre post : List CEvent} {a : Proc} {s s' : Conns} (h : CRun N s (pre ++ .dial a :: post) s') (h0 : s.life a = .down) : .start a ∈ pre := by
  by_contra hn
  obtain ⟨s1, h1, h2⟩ := h.split
  have := h1.not_started h0 hn
  cases h2 with
  | cons hs _ =>
    simp only [cStep] at hs
    rw [if_neg (by rw [this]; simp)] at hs
    cases hs

end DyCAPS
