import Verif.Spec.Clog
import Verif.Props.Final
import Verif.Props.Runs
import Mathlib.Algebra.BigOperators.Group.Finset.Basic
import Mathlib.Algebra.Order.BigOperators.Group.Finset

/-!
# Lemmas for C125
-/

namespace DyCAPS

/-- Proposals of a member: one for each call. -/
theorem propose_count {env : REnv} {H : Finset ℕ} {evs : List NEvent} {net : RNet} (hr : NRun env H RNet.init evs net) (a l : ℕ) :
    (sentTo net.sent a l .propose).length ≤ evs.countP (NEvent.castBy a) := by
  induction hr with
  | nil => simp [RNet.init, sentTo]
  | @snoc evs net ev net' h hs ih =>
    rw [List.countP_append]
    have none : ∀ i ev' , net.at_ env i ev' = some net' → (sentTo net'.sent a l .propose).length = (sentTo net.sent a l .propose).length := by
      intro i ev' h
      simp only [RNet.at_, Option.map_eq_some_iff, Prod.exists] at h
      obtain ⟨s', out, h3, rfl⟩ := h
      show (sentTo (net.sent ++ _) a l .propose).length = _
      rw [sentTo_append, sentTo_kind (step_noPropose h3), List.append_nil]
    cases ev with
    | send b M =>
      simp only [netStep] at hs
      split at hs
      · cases hs
        show (sentTo (net.sent ++ _) a l .propose).length ≤ _
        rw [sentTo_append, List.length_append]
        by_cases hb : b = a
        · subst hb
          have := (sentTo_range env.N b l .propose .propose fun _ => marshal M).1
          simp only [List.countP_cons, List.countP_nil, NEvent.castBy, rBroadcast]
          simp only [decide_true, if_true]
          omega
        · rw [sentTo_other hb]
          simp only [List.length_nil]
          omega
      · cases hs
    | sendExcl b M x =>
      simp only [netStep] at hs
      split at hs
      · cases hs
        show (sentTo (net.sent ++ _) a l .propose).length ≤ _
        rw [sentTo_append, List.length_append]
        by_cases hb : b = a
        · subst hb
          have h1 := (sentTo_range env.N b l .propose .propose fun _ => marshal M).1
          have h2 : (sentTo ((rBroadcastExcl env.N x .propose (marshal M)).map fun o => (b, o)) b l .propose).length ≤
              (sentTo (((List.range env.N).map fun i => (⟨i, .propose, marshal M⟩ : ROut)).map fun o => (b, o)) b l .propose).length := by
            refine List.Sublist.length_le ?_
            unfold sentTo rBroadcastExcl
            exact ((List.filter_sublist (l := rBroadcast env.N .propose (marshal M))).map _).filterMap _
          simp only [List.countP_cons, List.countP_nil, NEvent.castBy]
          simp only [decide_true, if_true]
          omega
        · rw [sentTo_other hb]
          simp only [List.length_nil]
          omega
      · cases hs
    | deliver j kind s data =>
      simp only [netStep] at hs
      split at hs
      · rw [none _ _ hs]; omega
      · cases hs
    | run j ev =>
      simp only [netStep] at hs
      split at hs
      · rw [none _ _ hs]; omega
      · cases hs

/-- A broadcast: at most two messages of a kind from a member that calls RBCSend at most once. -/
theorem cast_bound {env : REnv} {H : Finset ℕ} {evs : List NEvent} {net : RNet} (hr : NRun env H RNet.init evs net) {a : ℕ} (h : evs.countP (NEvent.castBy a) ≤ 1) (l : ℕ) (q : RbcQueue) :
    (sentTo net.sent a l q.kind).length ≤ 2 := by
  obtain ⟨h1, h2⟩ := C99_count_partial hr a l
  cases q with
  | propose => exact (propose_count hr a l).trans (by omega)
  | echo => show (sentTo net.sent a l .echo).length ≤ 2; omega
  | ready => exact h2

/-- Every `f x` comes up `n x` times. -/
theorem count_replicates {α β : Type} [DecidableEq β] {f : α → β} (hf : Function.Injective f) (n : α → ℕ) (B : ℕ) (hn : ∀ x, n x ≤ B) : ∀ {L : List α}, L.Nodup → ∀ u,
    (L.flatMap fun x => List.replicate (n x) (f x)).count u ≤ B ∧ ((∀ x ∈ L, u ≠ f x) → (L.flatMap fun x => List.replicate (n x) (f x)).count u = 0)
  | [], _, u => by simp
  | y :: L, hL, u => by
    obtain ⟨h1, h2⟩ := List.nodup_cons.1 hL
    obtain ⟨i1, i2⟩ := count_replicates hf n B hn h2 u
    simp only [List.flatMap_cons, List.count_append, List.count_replicate]
    by_cases hu : f y = u
    · have := i2 fun x hx e => h1 (by rw [hf (hu.trans e)]; exact hx)
      have hb := hn y
      refine ⟨by rw [this]; split <;> omega, fun h => absurd hu.symm (h y (by simp))⟩
    · rw [if_neg (by simpa using hu)]
      exact ⟨by omega, fun h => by rw [i2 fun x hx => h x (by simp [hx])]⟩

theorem oneTo_nodup (N : ℕ) : (oneTo N).Nodup := (List.nodup_range).map fun a b h => by simpa using h

theorem casts_nodup (N : ℕ) : (List.product (oneTo N) [RbcQueue.propose, .echo, .ready]).Nodup := (oneTo_nodup N).product (by decide)

/-- The queue determines what a message of the agreement is about, except for the round of Halt. -/
theorem slot_of_use {m m' : MMsg} (h : m.use = m'.use) : m.slot = m'.slot := by
  cases m <;> cases m' <;> simp_all [MMsg.use, MMsg.slot]

theorem count_said {said : List MMsg} (h : (said.map MMsg.slot).Nodup) (u : QueueUse) : (said.map MMsg.use).count u ≤ 1 := by
  have : (said.map MMsg.use).Nodup := by
    refine List.Nodup.of_map (fun x : QueueUse => x) ?_
    rw [List.map_map, List.nodup_iff_pairwise_ne, List.pairwise_map] at *
    exact h.imp fun hne e => hne (slot_of_use e)
  exact List.nodup_iff_count_le_one.1 this u

theorem count_outs (outs : List POut) (l : ℕ) (u : QueueUse) : (outs.filterMap (POut.useAt l)).count u =
    if u = .recover then outs.countP (POut.recoverTo (l + 1)) else if u = .success then outs.countP POut.reports else 0 := by
  induction outs with
  | nil => simp
  | cons o outs ih =>
    cases o with
    | recover l' m =>
      by_cases hl : l' = l + 1
      · rw [List.filterMap_cons_some (b := .recover) (by simp [POut.useAt, hl]), List.count_cons, ih]
        by_cases hu : u = .recover
        · subst hu; simp [POut.recoverTo, hl]
        · simp [hu, Ne.symm hu, POut.reports]
      · rw [List.filterMap_cons_none (by simp [POut.useAt, hl]), ih]
        simp [POut.recoverTo, POut.reports, hl]
    | mvba i =>
      rw [List.filterMap_cons_none (by simp [POut.useAt]), ih]
      simp [POut.recoverTo, POut.reports]
    | success =>
      rw [List.filterMap_cons_some (b := .success) (by simp [POut.useAt]), List.count_cons, ih]
      by_cases hu : u = .success
      · subst hu; simp [List.countP_cons, POut.reports]
      · by_cases hr : u = .recover
        · subst hr; simp [POut.recoverTo]
        · simp [hu, hr, Ne.symm hu]

/-- At most `N` messages for every queue. -/
theorem uses_count {N : ℕ} (hN : 2 ≤ N) {outs : List POut} {said : List MMsg} {casts casts' : ℕ → List (ℕ × ROut)} {a l : ℕ} (h1 : outs.countP (POut.recoverTo (l + 1)) ≤ N)
    (h2 : outs.countP POut.reports ≤ N) (h3 : (said.map MMsg.slot).Nodup) (h4 : ∀ j q, (sentTo (casts j) a l (RbcQueue.kind q)).length ≤ 2)
    (h5 : ∀ j q, (sentTo (casts' j) a l (RbcQueue.kind q)).length ≤ 2) (u : QueueUse) : (usesBy N outs said casts casts' a l).count u ≤ N := by
  obtain ⟨c1, c2⟩ := count_replicates (f := fun x : ℕ × RbcQueue => QueueUse.commit x.2 x.1) (fun x y h => by cases x; cases y; simp_all) (fun x => (sentTo (casts x.1) a l x.2.kind).length) 2
    (fun x => h4 x.1 x.2) (casts_nodup N) u
  obtain ⟨d1, d2⟩ := count_replicates (f := fun x : ℕ × RbcQueue => QueueUse.newCommit x.2 x.1) (fun x y h => by cases x; cases y; simp_all) (fun x => (sentTo (casts' x.1) a l x.2.kind).length) 2
    (fun x => h5 x.1 x.2) (casts_nodup N) u
  have e1 := count_said h3 u
  have e2 : (∀ m ∈ said, m.use ≠ u) → (said.map MMsg.use).count u = 0 := fun h => List.count_eq_zero.2 fun hm => by
    obtain ⟨m, hm, e⟩ := List.mem_map.1 hm
    exact h m hm e
  have o := count_outs outs l u
  unfold usesBy
  rw [List.count_append, List.count_append, List.count_append, List.count_append, o]
  have noM : ∀ {v : QueueUse}, (∀ m : MMsg, m.use ≠ v) → u = v → (said.map MMsg.use).count u = 0 := fun h e => e2 fun m _ => e ▸ h m
  cases u with
  | commit q j =>
    rw [d2 (by simp), e2 fun m _ => by cases m <;> simp [MMsg.use]]
    simp
    omega
  | newCommit q j =>
    rw [c2 (by simp), e2 fun m _ => by cases m <;> simp [MMsg.use]]
    simp
    omega
  | vssSend | prepare | shareReduce | reshare | shareDist | recover | success =>
    rw [c2 (by simp), d2 (by simp), e2 fun m _ => by cases m <;> simp [MMsg.use]]
    simp
    try omega
  | _ =>
    rw [c2 (by simp), d2 (by simp)]
    simp
    omega

end DyCAPS
