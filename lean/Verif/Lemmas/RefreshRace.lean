import Verif.Spec.RefreshRace
import Verif.Lemmas.ProactEffect
import Verif.Lemmas.ProactOrder
import Verif.Lemmas.ProactFull

/-! Invariants of executions with the Refresh loop coefficient by coefficient. -/

set_option linter.unusedSectionVars false

namespace DyCAPS

section
variable {G1 G2 GT : Type} [AddCommGroup G1] [Module Fr G1] [AddCommGroup G2] [Module Fr G2] [AddCommGroup GT] [Module Fr GT]
variable [DecidableEq G1] [DecidableEq GT]
variable {codec : PointCodec G1} {pp : Pairing Fr G1 G2 GT} {t : Fr} {tb : Tbls}

/-- What an event does to the Refresh loop, the contributions and the reduced share. -/
inductive EvKind (p : Party G1 G2) (st : PState G1) (e : PEvent) (p' : Party G1 G2) (st' : PState G1) : Prop
  | same (h1 : st'.refresh = st.refresh) (h2 : p'.reducedShare = p.reducedShare) (h3 : st'.Q = st.Q) (h4 : st'.flgRec = st.flgRec) (h5 : st'.refreshWait = st.refreshWait ∨ e = .refresh)
  | recd {k poly} (he : e = .handleRecover k) (h1 : st'.refresh = st.refresh) (h2 : p' = p) (h3 : st.flgRec k = false) (h4 : st'.flgRec = upd st.flgRec k true) (h5 : st'.Q = upd st.Q k poly)
      (h6 : st'.refreshWait = st.refreshWait)
  | ret {v} (he : e = .mvba v) (h0 : st.mvbaRunning = true) (h1 : st'.refresh = .looping (agreedIds v) (List.replicate (p.F + 1) 0) (fun _ => 0)) (h2 : p' = p) (h3 : st'.Q = st.Q) (h4 : st'.flgRec = st.flgRec)
  | iter {j rest Qs Cs Cs'} (he : e = .refresh) (h0 : st.refresh = .looping (j :: rest) Qs Cs) (h1 : st'.refresh = .looping rest (addPoly p.F Qs (st.Q j)) Cs') (h2 : p' = p) (h3 : st'.Q = st.Q)
      (h4 : st'.flgRec = st.flgRec)
  | fin {Qs Cs} (he : e = .refresh) (h0 : st.refresh = .looping [] Qs Cs) (h1 : st'.refresh = .done Cs) (h2 : p'.reducedShare = addPoly p.F Qs p.reducedShare ++ p.reducedShare.drop (p.F + 1)) (h3 : st'.Q = st.Q)
      (h4 : st'.flgRec = st.flgRec)

theorem EvKind.accept {p : Party G1 G2} {st : PState G1} {k : ℕ} {m : RecoverMsg G1} {fr : ℕ → Bool} {Q : ℕ → List Fr} (hQ : PointEffect p.F st k m fr Q) (cb : ℕ → Bool) (mi : List (ℕ × Bytes)) (ms mr : Bool) :
    EvKind p st (.handleRecover k) p (afterAccept st k m fr Q cb mi ms mr) := by
  rcases hQ with ⟨-, rfl, rfl⟩ | ⟨h1, -, rfl, poly, rfl, -⟩
  · exact .same rfl rfl rfl rfl (Or.inl rfl)
  · exact .recd rfl rfl rfl h1 rfl rfl rfl

theorem PEffect.kind {p p' : Party G1 G2} {st st' : PState G1} {e : PEvent} {out : List POut} (h : PEffect codec pp tb p st e p' st' out) : EvKind p st e p' st' := by
  cases h with
  | handleOk h1 h2 h3 hQ => exact .accept hQ _ _ _ _
  | handleComb h1 h2 h3 hQ => exact .accept hQ _ _ _ _
  | handleCall h1 h2 h3 hQ => exact .accept hQ _ _ _ _
  | mvba h1 => exact .ret rfl h1 rfl rfl rfl rfl
  | refreshPark => exact .same rfl rfl rfl rfl (Or.inr rfl)
  | refreshCom h1 => exact .iter rfl h1 rfl rfl rfl rfl
  | refreshRec h1 => exact .iter rfl h1 rfl rfl rfl rfl
  | refreshEnd h1 => exact .fin rfl h1 rfl rfl rfl rfl
  | _ => exact .same rfl rfl rfl rfl (Or.inl rfl)

/-- Accepted commitments stay accepted. -/
theorem PEffect.com {p p' : Party G1 G2} {st st' : PState G1} {e : PEvent} {out : List POut} (h : PEffect codec pp tb p st e p' st' out) (hc : ∀ j, st.flgCom j = true → st.comDone j = true) :
    (∀ j, st'.flgCom j = true → st'.comDone j = true) ∧ ∀ j, st.flgCom j = true → st'.flgCom j = true := by
  cases h with
  | commit h1 h2 h3 hv =>
    rename_i j d row ok
    refine ⟨fun k hk => ?_, fun k hk => ?_⟩
    · by_cases hkj : k = j
      · subst hkj; simp
      · simp only [upd_ne _ _ hkj] at hk ⊢; exact hc k hk
    · have hkj : k ≠ j := by rintro rfl; rw [hc k hk] at h3; cases h3
      simp only [upd_ne _ _ hkj]; exact hk
  | _ => exact ⟨hc, fun _ h => h⟩

theorem fineStep_ev {s s' : FineState G1 G2} {e : PEvent} {out : List POut} (h : fineStep codec pp tb s (.ev e) = some (.ok (s', out))) :
    proactStep codec pp tb s.p s.st e = some (.ok (s'.p, s'.st, out)) ∧ s'.part = s.part ∧ (e = .refresh → s.adding = false) := by
  have key : ∀ e, fineEv codec pp tb s e = some (.ok (s', out)) → proactStep codec pp tb s.p s.st e = some (.ok (s'.p, s'.st, out)) ∧ s'.part = s.part := by
    intro e h
    unfold fineEv at h
    split at h
    · cases h
    · cases h
    · rename_i hp
      injection h with h
      injection h with h
      injection h with h1 h2
      subst h1; subst h2
      exact ⟨hp, rfl⟩
  by_cases he : e = .refresh
  · subst he
    simp only [fineStep] at h
    split at h
    · cases h
    · rename_i ha
      exact ⟨(key _ h).1, (key _ h).2, fun _ => by simpa using ha⟩
  · have h' : fineEv codec pp tb s e = some (.ok (s', out)) := by
      cases e <;> first | exact absurd rfl he | exact h
    exact ⟨(key _ h').1, (key _ h').2, fun h => absurd h he⟩

theorem fineStep_coef {s s' : FineState G1 G2} {out : List POut} (h : fineStep codec pp tb s .coef = some (.ok (s', out))) :
    ∃ j rest Qs Cs, s.st.refresh = .looping (j :: rest) Qs Cs ∧ s.adding = true ∧ s.part.length < s.p.F + 1 ∧ out = [] ∧
      s' = { s with part := s.part ++ [Qs.getD s.part.length 0 + (s.st.Q j).getD s.part.length 0] } := by
  simp only [fineStep] at h
  split at h
  · rename_i j rest Qs Cs hr
    split at h
    · rename_i ha
      injection h with h
      injection h with h
      injection h with h1 h2
      exact ⟨j, rest, Qs, Cs, hr, ha.1, ha.2, h2.symm, h1.symm⟩
    · cases h
  · cases h

theorem fineStep_next {s s' : FineState G1 G2} {out : List POut} (h : fineStep codec pp tb s .next = some (.ok (s', out))) :
    ∃ j rest Qs Cs, s.st.refresh = .looping (j :: rest) Qs Cs ∧ s.adding = true ∧ s.part.length = s.p.F + 1 ∧ out = [] ∧
      s' = ⟨s.p, { s.st with refresh := .looping rest s.part (fun i => Cs i + s.st.CQ j i) }, []⟩ := by
  simp only [fineStep] at h
  split at h
  · rename_i j rest Qs Cs hr
    split at h
    · rename_i ha
      injection h with h
      injection h with h
      injection h with h1 h2
      exact ⟨j, rest, Qs, Cs, hr, ha.1, ha.2, h2.symm, h1.symm⟩
    · cases h
  · cases h

theorem QuietRefresh.init {evs : List FineEvent} {e : FineEvent} (h : QuietRefresh (evs ++ [e])) : QuietRefresh evs := by
  intro a b c k he
  refine h a b (c ++ [e]) k ?_
  rw [he]; simp

/-- The first `a` coefficients of `P` and the others of `Q`. -/
def mixed (P Q : List Fr) (a i : ℕ) : Fr := if i < a then P.getD i 0 else Q.getD i 0

/-- The sum of contributions `u.1`, each from coefficient `u.2` on as recovered. -/
def mixedSum (Q0 Q : ℕ → List Fr) (us : List (ℕ × ℕ)) (i : ℕ) : Fr := (us.map fun u => mixed (Q0 u.1) (Q u.1) u.2 i).sum

theorem mixedSum_recd {F : ℕ} {Q0 Q : ℕ → List Fr} {k : ℕ} {poly : List Fr} (h : Q k = Q0 k) (us : List (ℕ × ℕ)) (i : ℕ) (hi : i < F + 1) :
    mixedSum Q0 (upd Q k poly) (us.map fun u => if u.1 = k then (u.1, F + 1) else u) i = mixedSum Q0 Q us i := by
  unfold mixedSum
  rw [List.map_map]
  congr 1
  apply List.map_congr_left
  intro u _
  simp only [Function.comp_apply]
  by_cases hu : u.1 = k
  · simp only [hu, if_true, mixed, hi, h]
    split <;> rfl
  · simp only [if_neg hu, mixed, upd_ne _ _ hu]

/-- `us` tells how the contributions entered the sum so far. -/
structure Entered (F : ℕ) (Q0 Q : ℕ → List Fr) (evs : List FineEvent) (J : List ℕ) (rest : List ℕ) (sum : ℕ → Fr) (us : List (ℕ × ℕ)) : Prop where
  ids : J = us.map (·.1) ++ rest
  sum : ∀ i < F + 1, sum i = mixedSum Q0 Q us i
  quiet : QuietRefresh evs → ∀ u ∈ us, u.2 = 0 ∨ u.2 = F + 1

theorem Entered.recd {F : ℕ} {Q0 Q : ℕ → List Fr} {evs : List FineEvent} {J rest : List ℕ} {sum : ℕ → Fr} {us : List (ℕ × ℕ)} (h : Entered F Q0 Q evs J rest sum us) {k : ℕ} {poly : List Fr}
    (hk : Q k = Q0 k) (e : FineEvent) : ∃ us, Entered F Q0 (upd Q k poly) (evs ++ [e]) J rest sum us := by
  refine ⟨us.map fun u => if u.1 = k then (u.1, F + 1) else u, ?_, fun i hi => ?_, fun hq u hu => ?_⟩
  · rw [h.ids, List.map_map]
    congr 1
    apply List.map_congr_left
    intro u _
    simp only [Function.comp_apply]
    split <;> rfl
  · rw [mixedSum_recd hk us i hi]; exact h.sum i hi
  · obtain ⟨u', hu', rfl⟩ := List.mem_map.1 hu
    split
    · exact Or.inr rfl
    · exact h.quiet hq.init u' hu'

theorem Entered.later {F : ℕ} {Q0 Q : ℕ → List Fr} {evs : List FineEvent} {J rest : List ℕ} {sum : ℕ → Fr} {us : List (ℕ × ℕ)} (h : Entered F Q0 Q evs J rest sum us) (e : FineEvent) :
    Entered F Q0 Q (evs ++ [e]) J rest sum us := ⟨h.ids, h.sum, fun hq => h.quiet hq.init⟩

/-- The entries written in the current iteration for `j`. -/
structure Partly (F : ℕ) (Q0 Q : ℕ → List Fr) (evs : List FineEvent) (j : ℕ) (Qs part : List Fr) (a : ℕ) : Prop where
  le : a ≤ part.length
  len : part.length ≤ F + 1
  val : ∀ i < part.length, part.getD i 0 = Qs.getD i 0 + mixed (Q0 j) (Q j) a i
  quiet : QuietRefresh evs → a = 0
  since : ∃ x y, evs = x ++ FineEvent.coef :: y ∧ FineEvent.next ∉ y

structure FineInv (p0 : Party G1 G2) (c : DealerCoins) (evs : List FineEvent) (s : FineState G1 G2) : Prop where
  order : POrder s.st
  com : ∀ j, s.st.flgCom j = true → s.st.comDone j = true
  size : s.p.F = p0.F ∧ s.p.N = p0.N
  q0 : ∀ j, s.st.flgRec j = false → s.st.Q j = (PState.init p0 c).Q j
  wait : s.st.refresh = .waiting → s.p.reducedShare = p0.reducedShare
  loop : ∀ rest Qs Cs, s.st.refresh = .looping rest Qs Cs → s.p.reducedShare = p0.reducedShare ∧
    ∃ v us, FineEvent.ev (.mvba v) ∈ evs ∧ Entered p0.F (PState.init p0 c).Q s.st.Q evs (agreedIds v) rest (fun i => Qs.getD i 0) us
  part : s.part ≠ [] → s.adding = true ∧ ∃ j rest Qs Cs a, s.st.refresh = .looping (j :: rest) Qs Cs ∧ Partly p0.F (PState.init p0 c).Q s.st.Q evs j Qs s.part a
  done : ∀ Cs, s.st.refresh = .done Cs → ∃ v us, FineEvent.ev (.mvba v) ∈ evs ∧
    Entered p0.F (PState.init p0 c).Q s.st.Q evs (agreedIds v) [] (fun i => s.p.reducedShare.getD i 0 - p0.reducedShare.getD i 0) us

theorem adding_keep {s s' : FineState G1 G2} (h : s.adding = true) (h1 : s'.st.refresh = s.st.refresh) (h2 : s'.p.N = s.p.N) (h3 : s'.st.refreshWait = s.st.refreshWait)
    (h4 : ∀ j, s.st.flgCom j = true → s'.st.flgCom j = true) : s'.adding = true := by
  unfold FineState.adding at h ⊢
  rw [h1, h2, h3]
  cases hr : s.st.refresh with
  | waiting => rw [hr] at h; cases h
  | done Cs => rw [hr] at h; cases h
  | looping rest Qs Cs =>
    rw [hr] at h
    cases rest with
    | nil => cases h
    | cons j rest =>
      simp only [Bool.and_eq_true] at h ⊢
      exact ⟨h.1, h4 j h.2⟩

theorem getD_snoc (l : List Fr) (x : Fr) (i : ℕ) : (l ++ [x]).getD i 0 = if i < l.length then l.getD i 0 else if i = l.length then x else 0 := by
  simp only [List.getD_eq_getElem?_getD, List.getElem?_append]
  split
  · rfl
  · rename_i h
    split
    · rename_i h'; subst h'; simp
    · rename_i h'
      rw [List.getElem?_eq_none (by simp; omega)]; rfl

theorem mixedSum_snoc (Q0 Q : ℕ → List Fr) (us : List (ℕ × ℕ)) (u : ℕ × ℕ) (i : ℕ) : mixedSum Q0 Q (us ++ [u]) i = mixedSum Q0 Q us i + mixed (Q0 u.1) (Q u.1) u.2 i := by
  simp [mixedSum]

theorem FineInv.nil (p0 : Party G1 G2) (c : DealerCoins) : FineInv p0 c [] ⟨p0, PState.init p0 c, []⟩ where
  order := ⟨by simp [PState.init], by simp [PState.init], by simp [PState.init], by simp [PState.init]⟩
  com := fun j h => by simp [PState.init] at h
  size := ⟨rfl, rfl⟩
  q0 := fun _ _ => rfl
  wait := fun _ => rfl
  loop := fun _ _ _ h => by simp [PState.init] at h
  part := fun h => absurd rfl h
  done := fun _ h => by simp [PState.init] at h

theorem FineInv.ev {p0 : Party G1 G2} {c : DealerCoins} {evs : List FineEvent} {s s' : FineState G1 G2} {e : PEvent} {out : List POut} (ih : FineInv p0 c evs s)
    (hs : fineStep codec pp tb s (.ev e) = some (.ok (s', out))) : FineInv p0 c (evs ++ [.ev e]) s' := by
  obtain ⟨h0, hp, hadd⟩ := fineStep_ev hs
  have hord := ih.order.step (step_frame h0).1
  have hst := (step_frame h0).2.1
  have hsz : s'.p.F = p0.F ∧ s'.p.N = p0.N := by
    rw [hst]; exact ih.size
  have heff := step_effect h0
  obtain ⟨hcom, hmono⟩ := heff.com ih.com
  cases heff.kind with
  | same h1 h2 h3 h4 h5 =>
    refine ⟨hord, hcom, hsz, by rw [h3, h4]; exact ih.q0, by rw [h1, h2]; exact ih.wait, ?_, ?_, ?_⟩
    · intro rest Qs Cs hr
      rw [h1] at hr
      obtain ⟨a1, v, us, a2, a3⟩ := ih.loop rest Qs Cs hr
      rw [h2, h3]
      exact ⟨a1, v, us, List.mem_append_left _ a2, a3.later _⟩
    · intro hne
      rw [hp] at hne
      obtain ⟨b0, j, rest, Qs, Cs, a, b1, b2⟩ := ih.part hne
      have hw : s'.st.refreshWait = s.st.refreshWait := by
        rcases h5 with h5 | h5
        · exact h5
        · rw [hadd h5] at b0; cases b0
      refine ⟨adding_keep b0 h1 (by rw [hsz.2, ih.size.2]) hw hmono, j, rest, Qs, Cs, a, h1.trans b1, ?_⟩
      rw [h3, hp]
      obtain ⟨x, y, e1, e2⟩ := b2.since
      exact ⟨b2.le, b2.len, b2.val, fun hq => b2.quiet hq.init, x, y ++ [.ev e], by rw [e1]; simp, by simp [e2]⟩
    · intro Cs hr
      rw [h1] at hr
      obtain ⟨v, us, a2, a3⟩ := ih.done Cs hr
      rw [h2, h3]
      exact ⟨v, us, List.mem_append_left _ a2, a3.later _⟩
  | recd he h1 h2 h3 h4 h5 h6 =>
    rename_i k poly
    have hk := ih.q0 k h3
    refine ⟨hord, hcom, hsz, ?_, by rw [h1, h2]; exact ih.wait, ?_, ?_, ?_⟩
    · intro j hj
      rw [h4] at hj
      have hjk : j ≠ k := by rintro rfl; rw [upd_same] at hj; cases hj
      rw [upd_ne _ _ hjk] at hj
      rw [h5, upd_ne _ _ hjk]
      exact ih.q0 j hj
    · intro rest Qs Cs hr
      rw [h1] at hr
      obtain ⟨a1, v, us, a2, a3⟩ := ih.loop rest Qs Cs hr
      obtain ⟨us', a4⟩ := a3.recd (poly := poly) hk (.ev e)
      rw [h2, h5]
      exact ⟨a1, v, us', List.mem_append_left _ a2, a4⟩
    · intro hne
      rw [hp] at hne
      obtain ⟨b0, j, rest, Qs, Cs, a, b1, b2⟩ := ih.part hne
      obtain ⟨x, y, e1, e2⟩ := b2.since
      refine ⟨adding_keep b0 h1 (by rw [hsz.2, ih.size.2]) h6 hmono, j, rest, Qs, Cs, if j = k then s.part.length else a, h1.trans b1, ?_⟩
      rw [hp]
      refine ⟨by split <;> [exact le_rfl; exact b2.le], b2.len, fun i hi => ?_, fun hq => ?_, x, y ++ [.ev e], by rw [e1]; simp, by simp [e2]⟩
      · rw [b2.val i hi, h5]
        by_cases hjk : j = k
        · subst hjk
          rw [if_pos rfl, upd_same]
          simp only [mixed, if_pos hi, hk, ite_self]
        · rw [if_neg hjk, upd_ne _ _ hjk]
      · exfalso
        refine e2 (hq x y [] k ?_)
        rw [e1, he]
    · intro Cs hr
      rw [h1] at hr
      obtain ⟨v, us, a2, a3⟩ := ih.done Cs hr
      obtain ⟨us', a4⟩ := a3.recd (poly := poly) hk (.ev e)
      rw [h2, h5]
      exact ⟨v, us', List.mem_append_left _ a2, a4⟩
  | ret he h0' h1 h2 h3 h4 =>
    rename_i v
    have hw := ih.order.wait h0'
    refine ⟨hord, hcom, hsz, by rw [h3, h4]; exact ih.q0, (by rw [h1]; intro h; cases h), ?_, ?_, (by rw [h1]; intro _ h; cases h)⟩
    · intro rest Qs Cs hr
      rw [h1] at hr
      injection hr with r1 r2 r3
      subst r1; subst r2
      refine ⟨by rw [h2]; exact ih.wait hw, v, [], by rw [he]; simp, by simp, fun i hi => ?_, fun _ u hu => by cases hu⟩
      rw [ih.size.1, List.getD_eq_getElem _ _ (by simpa using hi)]
      simp [mixedSum]
    · intro hne
      rw [hp] at hne
      obtain ⟨-, j, rest, Qs, Cs, a, b1, -⟩ := ih.part hne
      rw [hw] at b1; cases b1
  | iter he h0' h1 h2 h3 h4 =>
    rename_i j rest Qs Cs Cs'
    refine ⟨hord, hcom, hsz, by rw [h3, h4]; exact ih.q0, (by rw [h1]; intro h; cases h), ?_, ?_, (by rw [h1]; intro _ h; cases h)⟩
    · intro rest' Qs' Cs'' hr
      rw [h1] at hr
      injection hr with r1 r2 r3
      subst r1; subst r2
      obtain ⟨a1, v, us, a2, a3⟩ := ih.loop _ _ _ h0'
      rw [h2, h3]
      refine ⟨a1, v, us ++ [(j, 0)], List.mem_append_left _ a2, by rw [a3.ids]; simp, fun i hi => ?_, fun hq u hu => ?_⟩
      · show (addPoly s.p.F Qs (s.st.Q j)).getD i 0 = _
        rw [addPoly_getD _ _ _ _ (by rw [ih.size.1]; exact hi), mixedSum_snoc, ← a3.sum i hi]
        simp [mixed]
      · rcases List.mem_append.1 hu with hu | hu
        · exact a3.quiet hq.init u hu
        · rw [List.mem_singleton.1 hu]; exact Or.inl rfl
    · intro hne
      rw [hp] at hne
      have := (ih.part hne).1
      rw [hadd he] at this; cases this
  | fin he h0' h1 h2 h3 h4 =>
    rename_i Qs Cs
    refine ⟨hord, hcom, hsz, by rw [h3, h4]; exact ih.q0, (by rw [h1]; intro h; cases h), (by rw [h1]; intro _ _ _ h; cases h), ?_, ?_⟩
    · intro hne
      rw [hp] at hne
      have := (ih.part hne).1
      rw [hadd he] at this; cases this
    · intro Cs' hr
      obtain ⟨a1, v, us, a2, a3⟩ := ih.loop _ _ _ h0'
      rw [h3]
      refine ⟨v, us, List.mem_append_left _ a2, a3.ids, fun i hi => ?_, fun hq => a3.quiet hq.init⟩
      rw [← a3.sum i hi, h2, a1]
      show _ = Qs.getD i 0
      have : (addPoly s.p.F Qs p0.reducedShare ++ p0.reducedShare.drop (s.p.F + 1)).getD i 0 = (addPoly s.p.F Qs p0.reducedShare).getD i 0 := by
        simp only [List.getD_eq_getElem?_getD]
        rw [List.getElem?_append_left (by rw [addPoly_length, ih.size.1]; exact hi)]
      rw [this, addPoly_getD _ _ _ _ (by rw [ih.size.1]; exact hi)]
      ring

theorem FineInv.coef {p0 : Party G1 G2} {c : DealerCoins} {evs : List FineEvent} {s s' : FineState G1 G2} {out : List POut} (ih : FineInv p0 c evs s)
    (hs : fineStep codec pp tb s .coef = some (.ok (s', out))) : FineInv p0 c (evs ++ [.coef]) s' := by
  obtain ⟨j, rest, Qs, Cs, hr, ha, hlt, -, rfl⟩ := fineStep_coef hs
  refine ⟨ih.order, ih.com, ih.size, ih.q0, ih.wait, ?_, fun _ => ⟨ha, ?_⟩, ?_⟩
  · intro rest Qs Cs hr
    obtain ⟨a1, v, us, a2, a3⟩ := ih.loop rest Qs Cs hr
    exact ⟨a1, v, us, List.mem_append_left _ a2, a3.later _⟩
  · have hpart : ∃ a, a ≤ s.part.length ∧ (∀ i < s.part.length, s.part.getD i 0 = Qs.getD i 0 + mixed ((PState.init p0 c).Q j) (s.st.Q j) a i) ∧ (QuietRefresh evs → a = 0) := by
      by_cases hne : s.part = []
      · exact ⟨0, by simp, by rw [hne]; simp, fun _ => rfl⟩
      · obtain ⟨-, j', rest', Qs', Cs', a, b1, b2⟩ := ih.part hne
        rw [hr] at b1
        injection b1 with r1 r2 r3
        injection r1 with r1 r1'
        subst r1; subst r2
        exact ⟨a, b2.le, b2.val, b2.quiet⟩
    obtain ⟨a, b1, b2, b3⟩ := hpart
    refine ⟨j, rest, Qs, Cs, a, hr, by simp; omega, by simp only [List.length_append, List.length_singleton]; rw [← ih.size.1]; omega, fun i hi => ?_, fun hq => b3 hq.init, evs, [], rfl, by simp⟩
    simp only [List.length_append, List.length_singleton] at hi
    rw [getD_snoc]
    by_cases hi' : i < s.part.length
    · rw [if_pos hi']; exact b2 i hi'
    · have e : i = s.part.length := by omega
      subst e
      rw [if_neg hi', if_pos rfl]
      simp only [mixed, if_neg (by omega : ¬ s.part.length < a)]
  · intro Cs' hd
    rw [show s.st.refresh = _ from hd] at hr; cases hr

theorem FineInv.next {p0 : Party G1 G2} {c : DealerCoins} {evs : List FineEvent} {s s' : FineState G1 G2} {out : List POut} (ih : FineInv p0 c evs s)
    (hs : fineStep codec pp tb s .next = some (.ok (s', out))) : FineInv p0 c (evs ++ [.next]) s' := by
  obtain ⟨j, rest, Qs, Cs, hr, ha, hlen, -, rfl⟩ := fineStep_next hs
  have hsent := ih.order.started (by rw [hr]; intro h; cases h)
  refine ⟨⟨ih.order.running, fun _ => hsent, fun h => ?_, fun h => ?_⟩, ih.com, ih.size, ih.q0, fun h => (by cases h), ?_, fun h => absurd rfl h, fun _ h => by cases h⟩
  · obtain ⟨Cs', h'⟩ := ih.order.dist h
    rw [hr] at h'; cases h'
  · rw [show s.st.mvbaRunning = true from h] at hsent; cases hsent.2
  · intro rest' Qs' Cs' hr'
    injection hr' with r1 r2 r3
    subst r1; subst r2
    obtain ⟨a1, v, us, a2, a3⟩ := ih.loop _ _ _ hr
    obtain ⟨-, j', rest', Qs', Cs', a, b1, b2⟩ := ih.part (by intro h; rw [h] at hlen; simp at hlen)
    rw [hr] at b1
    injection b1 with r1 r2 r3
    injection r1 with r1 r1'
    subst r1; subst r2
    refine ⟨a1, v, us ++ [(j, a)], List.mem_append_left _ a2, by rw [a3.ids]; simp, fun i hi => ?_, fun hq u hu => ?_⟩
    · show s.part.getD i 0 = _
      rw [b2.val i (by rw [hlen, ih.size.1]; exact hi), mixedSum_snoc, ← a3.sum i hi]
    · rcases List.mem_append.1 hu with hu | hu
      · exact a3.quiet hq.init u hu
      · rw [List.mem_singleton.1 hu]; exact Or.inl (b2.quiet hq.init)

theorem FineRun.inv {p0 : Party G1 G2} {c : DealerCoins} {evs : List FineEvent} {outs : List POut} {s : FineState G1 G2}
    (h : FineRun codec pp tb ⟨p0, PState.init p0 c, []⟩ evs outs s) : FineInv p0 c evs s := by
  induction h with
  | nil => exact FineInv.nil p0 c
  | snoc _ hs ih =>
    rename_i ev s' out _
    cases ev with
    | ev e => exact ih.ev hs
    | coef => exact ih.coef hs
    | next => exact ih.next hs

/-! ### Executions with whole iterations -/

theorem FineRun.trans {s0 s1 s2 : FineState G1 G2} {e1 e2 : List FineEvent} {o1 o2 : List POut}
    (h1 : FineRun codec pp tb s0 e1 o1 s1) (h2 : FineRun codec pp tb s1 e2 o2 s2) : FineRun codec pp tb s0 (e1 ++ e2) (o1 ++ o2) s2 := by
  induction h2 with
  | nil => simpa using h1
  | snoc h hs ih => rw [← List.append_assoc, ← List.append_assoc]; exact ih.snoc hs

theorem FineRun.single {s0 s1 : FineState G1 G2} {ev : FineEvent} {out : List POut}
    (h : fineStep codec pp tb s0 ev = some (.ok (s1, out))) : FineRun codec pp tb s0 [ev] out s1 := by
  have := FineRun.snoc (FineRun.nil (codec := codec) (pp := pp) (tb := tb) (s₀ := s0)) h
  simpa using this

theorem coefs_run {s : FineState G1 G2} {j : ℕ} {rest : List ℕ} {Qs : List Fr} {Cs : ℕ → G1} (hr : s.st.refresh = .looping (j :: rest) Qs Cs) (ha : s.adding = true) (n : ℕ) (hn : s.part.length + n ≤ s.p.F + 1) :
    FineRun codec pp tb s (List.replicate n .coef) []
      { s with part := s.part ++ (List.range n).map fun i => Qs.getD (s.part.length + i) 0 + (s.st.Q j).getD (s.part.length + i) 0 } := by
  induction n with
  | zero => simpa using FineRun.nil
  | succ n ih =>
    rw [List.replicate_succ']
    refine (ih (by omega)).trans (o2 := []) (FineRun.single ?_)
    simp only [fineStep, hr]
    rw [if_pos ⟨by unfold FineState.adding at ha ⊢; rw [hr] at ha; simp only [hr]; exact ha, by simp; omega⟩]
    simp [List.range_succ]

/-- Every iteration that has begun is complete. -/
def ClosedEvs (evs : List FineEvent) : Prop := ∀ x y, evs = x ++ FineEvent.coef :: y → FineEvent.next ∈ y

theorem QuietRefresh.snoc {evs : List FineEvent} {e : FineEvent} (h : QuietRefresh evs) (he : (∀ k, e ≠ .ev (.handleRecover k)) ∨ ClosedEvs evs) : QuietRefresh (evs ++ [e]) := by
  intro a b c k heq
  rcases List.eq_nil_or_concat c with rfl | ⟨c', z, rfl⟩
  · obtain ⟨h1, h2⟩ := List.append_inj' heq rfl
    rcases he with he | he
    · injection h2 with h2 _; exact absurd h2 (he k)
    · exact he a b h1
  · rw [List.concat_eq_append, ← List.cons_append, ← List.append_assoc] at heq
    exact h a b c' k (List.append_inj' heq rfl).1

theorem ClosedEvs.ev {evs : List FineEvent} (h : ClosedEvs evs) (e : PEvent) : ClosedEvs (evs ++ [.ev e]) := by
  intro x y heq
  rcases List.eq_nil_or_concat y with rfl | ⟨y', z, rfl⟩
  · have := (List.append_inj' heq rfl).2
    cases this
  · rw [List.concat_eq_append] at heq ⊢
    rw [← List.cons_append, ← List.append_assoc] at heq
    exact List.mem_append_left _ (h x y' (List.append_inj' heq rfl).1)

theorem closedEvs_next (evs : List FineEvent) : ClosedEvs (evs ++ [.next]) := by
  intro x y heq
  rcases List.eq_nil_or_concat y with rfl | ⟨y', z, rfl⟩
  · have := (List.append_inj' heq rfl).2
    cases this
  · rw [List.concat_eq_append] at heq ⊢
    rw [← List.cons_append, ← List.append_assoc] at heq
    have := (List.append_inj' heq rfl).2
    injection this with this _
    rw [← this]; simp

theorem QuietRefresh.coefs {evs : List FineEvent} (h : QuietRefresh evs) (n : ℕ) : QuietRefresh (evs ++ List.replicate n .coef) := by
  induction n with
  | zero => simpa using h
  | succ n ih =>
    rw [List.replicate_succ', ← List.append_assoc]
    exact ih.snoc (Or.inl fun k => by simp)

/-- Every execution with whole iterations is possible. -/
theorem FineRun.of_run {p0 p : Party G1 G2} {s0 st : PState G1} {evs : List PEvent} {outs : List POut} (h : PRun codec pp tb p0 s0 evs outs p st) :
    ∃ fevs, FineRun codec pp tb ⟨p0, s0, []⟩ fevs outs ⟨p, st, []⟩ ∧ (∀ v, FineEvent.ev (.mvba v) ∈ fevs ↔ PEvent.mvba v ∈ evs) ∧ QuietRefresh fevs ∧ ClosedEvs fevs := by
  induction h with
  | nil => exact ⟨[], FineRun.nil, by simp, by intro a b c k h; simp at h, by intro x y h; simp at h⟩
  | snoc h hs ih =>
    rename_i evs1 outs1 p1 st1 ev p' st' out
    obtain ⟨fevs, ih, ih', iq, ic⟩ := ih
    by_cases he : ev = .refresh ∧ (⟨p1, st1, []⟩ : FineState G1 G2).adding = true
    · obtain ⟨rfl, ha⟩ := he
      have ha' := ha
      unfold FineState.adding at ha'
      simp only at ha'
      cases hr : st1.refresh with
      | waiting => rw [hr] at ha'; cases ha'
      | done Cs => rw [hr] at ha'; cases ha'
      | looping rest Qs Cs =>
        rw [hr] at ha'
        cases rest with
        | nil => cases ha'
        | cons j rest =>
          simp only [Bool.and_eq_true, decide_eq_true_eq, Bool.not_eq_true'] at ha'
          obtain ⟨⟨h1, h2⟩, h3⟩ := ha'
          have hstep : proactStep codec pp tb p1 st1 .refresh = some (.ok (p1, { st1 with refresh := .looping rest (addPoly p1.F Qs (st1.Q j)) (fun i => Cs i + st1.CQ j i) }, [])) := by
            simp only [proactStep, refreshStep, hr]
            rw [if_neg (by omega), h2, if_neg (by simp), if_pos h3]
            rfl
          rw [hstep] at hs
          injection hs with hs
          injection hs with hs
          injection hs with e1 e2
          injection e2 with e2 e3
          subst e1; subst e2; subst e3
          refine ⟨fevs ++ (List.replicate (p1.F + 1) .coef ++ [.next]), ih.trans ((coefs_run (s := ⟨p1, st1, []⟩) hr ha (p1.F + 1) (by simp)).trans (o2 := []) (FineRun.single ?_)), fun v => ?_, ?_, ?_⟩
          · simp only [fineStep, hr]
            rw [if_pos ⟨by unfold FineState.adding at ha ⊢; simp only [hr] at ha ⊢; exact ha, by simp⟩]
            simp [addPoly]
          · simp [ih']
          · rw [← List.append_assoc]; exact (iq.coefs _).snoc (Or.inl fun k => by simp)
          · rw [← List.append_assoc]; exact closedEvs_next _
    · refine ⟨fevs ++ [.ev ev], ih.trans (FineRun.single ?_), fun v => by simp [ih'], iq.snoc (Or.inr ic), ic.ev _⟩
      have hev : fineEv codec pp tb ⟨p1, st1, []⟩ ev = some (.ok (⟨p', st', []⟩, out)) := by
        simp only [fineEv, hs]
      cases ev with
      | refresh =>
        simp only [fineStep]
        rw [if_neg (fun h => he ⟨rfl, h⟩)]
        exact hev
      | _ => exact hev

end

end DyCAPS
