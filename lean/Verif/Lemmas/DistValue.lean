import Verif.Model.DistRace
import Verif.Lemmas.Account

/-! A simpler machine for the ShareDist goroutines, in which slices are lists. It is a device for finding schedules of the machine in `Model/DistRace`: a goroutine writes `SB` only when no other goroutine has
loaded a longer list, so that nobody's list changes behind its back. `Lemmas/DistSim` carries its schedules over. -/

namespace DyCAPS

/-- Where a goroutine stands. -/
inductive ValPC where
  | start
  | loaded (s : List (ℕ × Fr))
  | stored
  | reading (xs : List ℕ) (ys : List Fr)
  | interpolated
  | reported
  | marked
  | done

/-- The state of the machine with lists. -/
structure DistVal where
  SB : List (ℕ × Fr)
  sent : Bool
  full : List Fr
  successes : ℕ
  chan : ℕ
  counting : Bool
  pc : ℕ → ValPC

def DistVal.init (full : List Fr) : DistVal := ⟨[], false, full, 0, 0, false, fun _ => .start⟩

/-- No goroutine has loaded a list of more than `m` entries. -/
def Calm (pc : ℕ → ValPC) (m : ℕ) : Prop := ∀ j s, pc j = .loaded s → s.length ≤ m

open Classical in
/-- The next step of goroutine `i`. -/
noncomputable def DistVal.go (F : ℕ) (pt : ℕ → ℕ × Fr) (st : DistVal) (i : ℕ) : Option (Go DistVal) :=
  match st.pc i with
  | .start => some (.ok { st with pc := upd st.pc i (.loaded st.SB) })
  | .loaded s => if Calm st.pc s.length then some (.ok { st with SB := s ++ [pt i], pc := upd st.pc i .stored }) else none
  | .stored =>
    if !st.sent && decide (2 * F + 1 ≤ st.SB.length) then some (.ok { st with pc := upd st.pc i (.reading [] []) })
    else some (.ok { st with pc := upd st.pc i .done })
  | .reading xs ys =>
    if ys.length < xs.length then
      match st.SB[ys.length]? with
      | none => some (.error .panic)
      | some q => some (.ok { st with pc := upd st.pc i (.reading xs (ys ++ [q.2])) })
    else if xs.length < 2 * F + 1 then
      match st.SB[xs.length]? with
      | none => some (.error .panic)
      | some q => some (.ok { st with pc := upd st.pc i (.reading (xs ++ [q.1]) ys) })
    else some (do
      let full ← lagrangeInterpolate (2 * F) (xs.map fun x => ((x : ℕ) : Fr)) ys
      pure { st with full := full, pc := upd st.pc i .interpolated })
  | .interpolated => some (.ok { st with successes := st.successes + 1, pc := upd st.pc i .reported })
  | .reported => some (.ok { st with sent := true, pc := upd st.pc i .marked })
  | .marked => if st.chan = 0 then some (.ok { st with chan := 1, pc := upd st.pc i .done }) else none
  | .done => none

/-- One step. -/
noncomputable def valStep (F n : ℕ) (pt : ℕ → ℕ × Fr) (st : DistVal) : DistEvent → Option (Go DistVal)
  | .go i => if i < n then st.go F pt i else none
  | .count => if st.chan = 1 ∧ st.counting = false then some (.ok { st with chan := 0, counting := true }) else none

/-- A schedule. -/
noncomputable def valRun (F n : ℕ) (pt : ℕ → ℕ × Fr) : DistVal → List DistEvent → Option (Go DistVal)
  | st, [] => some (.ok st)
  | st, e :: es =>
    match valStep F n pt st e with
    | none => none
    | some (.error f) => some (.error f)
    | some (.ok st') => valRun F n pt st' es

/-- The goroutines in `L` are at `x`. -/
def updAll (pc : ℕ → ValPC) (L : List ℕ) (x : ValPC) : ℕ → ValPC := fun i => if i ∈ L then x else pc i

theorem updAll_nil (pc : ℕ → ValPC) (x : ValPC) : updAll pc [] x = pc := by
  funext i; simp [updAll]

theorem updAll_mem {pc : ℕ → ValPC} {L : List ℕ} {x : ValPC} {i : ℕ} (h : i ∈ L) : updAll pc L x i = x := if_pos h

theorem updAll_not {pc : ℕ → ValPC} {L : List ℕ} {x : ValPC} {i : ℕ} (h : i ∉ L) : updAll pc L x i = pc i := if_neg h

theorem updAll_cons (pc : ℕ → ValPC) (a : ℕ) (L : List ℕ) (x : ValPC) : updAll (upd pc a x) L x = updAll pc (a :: L) x := by
  funext i
  unfold updAll
  by_cases h : i = a
  · subst h; simp [upd_same]
  · simp [upd_ne _ _ h, h]

variable {F n : ℕ} {pt : ℕ → ℕ × Fr}

theorem valRun_cons {st st' : DistVal} {e : DistEvent} {es : List DistEvent} (h : valStep F n pt st e = some (.ok st')) : valRun F n pt st (e :: es) = valRun F n pt st' es := by
  rw [valRun, h]

theorem valRun_append {st st' : DistVal} {es es' : List DistEvent} (h : valRun F n pt st es = some (.ok st')) : valRun F n pt st (es ++ es') = valRun F n pt st' es' := by
  induction es generalizing st with
  | nil => cases h; rfl
  | cons e es ih =>
    rw [valRun] at h
    rw [List.cons_append, valRun]
    cases hs : valStep F n pt st e with
    | none => rw [hs] at h; cases h
    | some r =>
      cases r with
      | error f => rw [hs] at h; cases h
      | ok st1 => rw [hs] at h; exact ih h

theorem val_start {st : DistVal} {i : ℕ} (hi : i < n) (h : st.pc i = .start) : valStep F n pt st (.go i) = some (.ok { st with pc := upd st.pc i (.loaded st.SB) }) := by
  simp only [valStep, if_pos hi, DistVal.go, h]

theorem Calm.upd {pc : ℕ → ValPC} {m i : ℕ} {x : ValPC} (h : Calm pc m) (hx : ∀ s, x = .loaded s → s.length ≤ m) : Calm (upd pc i x) m := by
  intro j s hj
  by_cases hji : j = i
  · subst hji; rw [upd_same] at hj; exact hx s hj
  · rw [upd_ne _ _ hji] at hj; exact h j s hj

theorem Calm.mono {pc : ℕ → ValPC} {m m' : ℕ} (h : Calm pc m) (hm : m ≤ m') : Calm pc m' := fun j s hj => (h j s hj).trans hm

theorem Calm.updAll {pc : ℕ → ValPC} {m : ℕ} {L : List ℕ} {x : ValPC} (h : Calm pc m) (hx : ∀ s, x ≠ .loaded s) : Calm (updAll pc L x) m := by
  intro j s hj
  by_cases hjL : j ∈ L
  · rw [updAll_mem hjL] at hj; exact absurd hj (hx s)
  · rw [updAll_not hjL] at hj; exact h j s hj

theorem val_loaded {st : DistVal} {i : ℕ} {s : List (ℕ × Fr)} (hi : i < n) (h : st.pc i = .loaded s) (hcalm : Calm st.pc s.length) :
    valStep F n pt st (.go i) = some (.ok { st with SB := s ++ [pt i], pc := upd st.pc i .stored }) := by
  simp only [valStep, if_pos hi, DistVal.go, h, if_pos hcalm]

theorem val_stored_no {st : DistVal} {i : ℕ} (hi : i < n) (h : st.pc i = .stored) (hc : st.sent = true ∨ st.SB.length < 2 * F + 1) :
    valStep F n pt st (.go i) = some (.ok { st with pc := upd st.pc i .done }) := by
  have : (!st.sent && decide (2 * F + 1 ≤ st.SB.length)) = false := by
    rcases hc with hc | hc
    · rw [hc]; rfl
    · rw [decide_eq_false (by omega), Bool.and_false]
  simp only [valStep, if_pos hi, DistVal.go, h, this, Bool.false_eq_true, if_false]

theorem val_stored_yes {st : DistVal} {i : ℕ} (hi : i < n) (h : st.pc i = .stored) (hs : st.sent = false) (hl : 2 * F + 1 ≤ st.SB.length) :
    valStep F n pt st (.go i) = some (.ok { st with pc := upd st.pc i (.reading [] []) }) := by
  simp only [valStep, if_pos hi, DistVal.go, h, hs, decide_eq_true hl, Bool.not_false, Bool.and_self, if_true]

theorem val_readY {st : DistVal} {i : ℕ} {xs : List ℕ} {ys : List Fr} {q : ℕ × Fr} (hi : i < n) (h : st.pc i = .reading xs ys) (hl : ys.length < xs.length) (hq : st.SB[ys.length]? = some q) :
    valStep F n pt st (.go i) = some (.ok { st with pc := upd st.pc i (.reading xs (ys ++ [q.2])) }) := by
  simp only [valStep, if_pos hi, DistVal.go, h, if_pos hl, hq]

theorem val_readX {st : DistVal} {i : ℕ} {xs : List ℕ} {ys : List Fr} {q : ℕ × Fr} (hi : i < n) (h : st.pc i = .reading xs ys) (hl : ¬ ys.length < xs.length) (hF : xs.length < 2 * F + 1)
    (hq : st.SB[xs.length]? = some q) : valStep F n pt st (.go i) = some (.ok { st with pc := upd st.pc i (.reading (xs ++ [q.1]) ys) }) := by
  simp only [valStep, if_pos hi, DistVal.go, h, if_neg hl, if_pos hF, hq]

theorem val_readX_panic {st : DistVal} {i : ℕ} {xs : List ℕ} {ys : List Fr} (hi : i < n) (h : st.pc i = .reading xs ys) (hl : ¬ ys.length < xs.length) (hF : xs.length < 2 * F + 1)
    (hq : st.SB[xs.length]? = none) : valStep F n pt st (.go i) = some (.error .panic) := by
  simp only [valStep, if_pos hi, DistVal.go, h, if_neg hl, if_pos hF, hq]

theorem val_interpolate {st : DistVal} {i : ℕ} {xs : List ℕ} {ys f : List Fr} (hi : i < n) (h : st.pc i = .reading xs ys) (hl : ¬ ys.length < xs.length) (hF : ¬ xs.length < 2 * F + 1)
    (hf : lagrangeInterpolate (2 * F) (xs.map fun x => ((x : ℕ) : Fr)) ys = .ok f) : valStep F n pt st (.go i) = some (.ok { st with full := f, pc := upd st.pc i .interpolated }) := by
  simp only [valStep, if_pos hi, DistVal.go, h, if_neg hl, if_neg hF, hf, Go.ok_bind]
  rfl

/-- What a step of a reading goroutine is. -/
theorem val_reading {st st' : DistVal} {i : ℕ} {xs : List ℕ} {ys : List Fr} (hi : i < n) (h : st.pc i = .reading xs ys) (hs : valStep F n pt st (.go i) = some (.ok st')) :
    (∃ q, ys.length < xs.length ∧ st.SB[ys.length]? = some q ∧ st' = { st with pc := upd st.pc i (.reading xs (ys ++ [q.2])) }) ∨
    (∃ q, ¬ ys.length < xs.length ∧ xs.length < 2 * F + 1 ∧ st.SB[xs.length]? = some q ∧ st' = { st with pc := upd st.pc i (.reading (xs ++ [q.1]) ys) }) ∨
    ∃ f, ¬ ys.length < xs.length ∧ ¬ xs.length < 2 * F + 1 ∧ lagrangeInterpolate (2 * F) (xs.map fun x => ((x : ℕ) : Fr)) ys = .ok f ∧
      st' = { st with full := f, pc := upd st.pc i .interpolated } := by
  by_cases hl : ys.length < xs.length
  · left
    cases hq : st.SB[ys.length]? with
    | none => simp only [valStep, if_pos hi, DistVal.go, h, if_pos hl, hq] at hs; cases hs
    | some q =>
      rw [val_readY hi h hl hq] at hs
      cases hs
      exact ⟨q, hl, rfl, rfl⟩
  · right
    by_cases hF : xs.length < 2 * F + 1
    · left
      cases hq : st.SB[xs.length]? with
      | none => rw [val_readX_panic hi h hl hF hq] at hs; cases hs
      | some q =>
        rw [val_readX hi h hl hF hq] at hs
        cases hs
        exact ⟨q, hl, hF, rfl, rfl⟩
    · right
      cases hf : lagrangeInterpolate (2 * F) (xs.map fun x => ((x : ℕ) : Fr)) ys with
      | error er => simp only [valStep, if_pos hi, DistVal.go, h, if_neg hl, if_neg hF, hf] at hs; cases hs
      | ok f =>
        rw [val_interpolate hi h hl hF hf] at hs
        cases hs
        exact ⟨f, hl, hF, rfl, rfl⟩

theorem val_interpolated {st : DistVal} {i : ℕ} (hi : i < n) (h : st.pc i = .interpolated) :
    valStep F n pt st (.go i) = some (.ok { st with successes := st.successes + 1, pc := upd st.pc i .reported }) := by
  simp only [valStep, if_pos hi, DistVal.go, h]

theorem val_reported {st : DistVal} {i : ℕ} (hi : i < n) (h : st.pc i = .reported) :
    valStep F n pt st (.go i) = some (.ok { st with sent := true, pc := upd st.pc i .marked }) := by
  simp only [valStep, if_pos hi, DistVal.go, h]

theorem val_marked {st : DistVal} {i : ℕ} (hi : i < n) (h : st.pc i = .marked) (hc : st.chan = 0) :
    valStep F n pt st (.go i) = some (.ok { st with chan := 1, pc := upd st.pc i .done }) := by
  simp only [valStep, if_pos hi, DistVal.go, h, if_pos hc]

theorem val_marked_blocked {st : DistVal} {i : ℕ} (h : st.pc i = .marked) (hc : st.chan ≠ 0) : valStep F n pt st (.go i) = none := by
  simp only [valStep, DistVal.go, h, if_neg hc, ite_self]

theorem val_done {st : DistVal} {i : ℕ} (h : st.pc i = .done) : valStep F n pt st (.go i) = none := by
  simp only [valStep, DistVal.go, h, ite_self]

/-! ## Everybody loads, everybody stores, everybody tests -/

theorem run_load {L : List ℕ} {st : DistVal} (hnd : L.Nodup) (h : ∀ i ∈ L, i < n ∧ st.pc i = .start) :
    valRun F n pt st (L.map .go) = some (.ok { st with pc := updAll st.pc L (.loaded st.SB) }) := by
  induction L generalizing st with
  | nil => rw [updAll_nil]; rfl
  | cons a L ih =>
    rw [List.nodup_cons] at hnd
    rw [List.map_cons, valRun_cons (val_start (h a (List.mem_cons_self ..)).1 (h a (List.mem_cons_self ..)).2), ih hnd.2 ?_]
    · dsimp only; rw [updAll_cons]
    · intro i hi
      dsimp only
      rw [upd_ne _ _ (show i ≠ a from fun e => hnd.1 (e ▸ hi))]
      exact h i (List.mem_cons_of_mem _ hi)

theorem run_store {s : List (ℕ × Fr)} {L : List ℕ} {st : DistVal} (hnd : L.Nodup) (h : ∀ i ∈ L, i < n ∧ st.pc i = .loaded s) (hcalm : Calm st.pc s.length) :
    ∃ B, valRun F n pt st (L.map .go) = some (.ok { st with SB := B, pc := updAll st.pc L .stored }) ∧ B.length ≤ max st.SB.length (s.length + 1) := by
  induction L generalizing st with
  | nil => exact ⟨st.SB, by rw [updAll_nil]; rfl, le_max_left _ _⟩
  | cons a L ih =>
    rw [List.nodup_cons] at hnd
    rw [List.map_cons, valRun_cons (val_loaded (h a (List.mem_cons_self ..)).1 (h a (List.mem_cons_self ..)).2 hcalm)]
    obtain ⟨B, h1, h2⟩ := ih (st := { st with SB := s ++ [pt a], pc := upd st.pc a .stored }) hnd.2 (by
      intro i hi
      dsimp only
      rw [upd_ne _ _ (show i ≠ a from fun e => hnd.1 (e ▸ hi))]
      exact h i (List.mem_cons_of_mem _ hi)) (hcalm.upd (by simp))
    refine ⟨B, ?_, ?_⟩
    · rw [h1]; dsimp only; rw [updAll_cons]
    · dsimp only at h2
      rw [List.length_append, List.length_singleton, max_self] at h2
      exact h2.trans (le_max_right _ _)

theorem run_test {L : List ℕ} {st : DistVal} (hnd : L.Nodup) (h : ∀ i ∈ L, i < n ∧ st.pc i = .stored) (hl : st.SB.length < 2 * F + 1) :
    valRun F n pt st (L.map .go) = some (.ok { st with pc := updAll st.pc L .done }) := by
  induction L generalizing st with
  | nil => rw [updAll_nil]; rfl
  | cons a L ih =>
    rw [List.nodup_cons] at hnd
    rw [List.map_cons, valRun_cons (val_stored_no (h a (List.mem_cons_self ..)).1 (h a (List.mem_cons_self ..)).2 (Or.inr hl)), ih (st := { st with pc := upd st.pc a .done }) hnd.2 ?_ hl]
    · dsimp only; rw [updAll_cons]
    · intro i hi
      dsimp only
      rw [upd_ne _ _ (show i ≠ a from fun e => hnd.1 (e ▸ hi))]
      exact h i (List.mem_cons_of_mem _ hi)

/-! ## One after the other -/

/-- Three steps of each goroutine in turn. -/
def quick (L : List ℕ) : List DistEvent := L.flatMap fun i => [.go i, .go i, .go i]

theorem upd_twice {α : Type} (f : ℕ → α) (i : ℕ) (x y : α) : upd (upd f i x) i y = upd f i y := by
  funext j
  by_cases h : j = i
  · subst h; rw [upd_same, upd_same]
  · rw [upd_ne _ _ h, upd_ne _ _ h, upd_ne _ _ h]

theorem run_two {st : DistVal} {a : ℕ} (es : List DistEvent) (ha : a < n) (h : st.pc a = .start) (hcalm : Calm st.pc st.SB.length) :
    valRun F n pt st (.go a :: .go a :: es) = valRun F n pt { st with SB := st.SB ++ [pt a], pc := upd st.pc a .stored } es := by
  rw [valRun_cons (val_start ha h), valRun_cons (val_loaded (s := st.SB) ha (upd_same _ _ _) (hcalm.upd fun s hs => by cases hs; exact le_rfl))]
  dsimp only
  rw [upd_twice]

theorem run_three {st : DistVal} {a : ℕ} (es : List DistEvent) (ha : a < n) (h : st.pc a = .start) (hcalm : Calm st.pc st.SB.length) (hc : st.sent = true ∨ st.SB.length + 1 ≤ 2 * F) :
    valRun F n pt st (.go a :: .go a :: .go a :: es) = valRun F n pt { st with SB := st.SB ++ [pt a], pc := upd st.pc a .done } es := by
  rw [run_two _ ha h hcalm, valRun_cons (val_stored_no (st := { st with SB := st.SB ++ [pt a], pc := upd st.pc a .stored }) ha (upd_same _ _ _) (hc.imp id fun h => by dsimp only; rw [List.length_append, List.length_singleton]; omega))]
  dsimp only
  rw [upd_twice]

theorem run_choose {st : DistVal} {a : ℕ} (es : List DistEvent) (ha : a < n) (h : st.pc a = .start) (hcalm : Calm st.pc st.SB.length) (hs : st.sent = false) (hl : 2 * F ≤ st.SB.length) :
    valRun F n pt st (.go a :: .go a :: .go a :: es) = valRun F n pt { st with SB := st.SB ++ [pt a], pc := upd st.pc a (.reading [] []) } es := by
  rw [run_two _ ha h hcalm, valRun_cons (val_stored_yes (st := { st with SB := st.SB ++ [pt a], pc := upd st.pc a .stored }) ha (upd_same _ _ _) hs (by dsimp only; rw [List.length_append, List.length_singleton]; omega))]
  dsimp only
  rw [upd_twice]

theorem run_quick {L : List ℕ} {st : DistVal} (hnd : L.Nodup) (h : ∀ i ∈ L, i < n ∧ st.pc i = .start) (hcalm : Calm st.pc st.SB.length) (hc : st.sent = true ∨ st.SB.length + L.length ≤ 2 * F) :
    valRun F n pt st (quick L) = some (.ok { st with SB := st.SB ++ L.map pt, pc := updAll st.pc L .done }) := by
  induction L generalizing st with
  | nil => rw [updAll_nil, List.map_nil, List.append_nil]; rfl
  | cons a L ih =>
    rw [List.nodup_cons] at hnd
    rw [List.length_cons] at hc
    show valRun F n pt st (.go a :: .go a :: .go a :: quick L) = _
    rw [run_three _ (h a (List.mem_cons_self ..)).1 (h a (List.mem_cons_self ..)).2 hcalm (hc.imp id fun h => by omega), ih (st := { st with SB := st.SB ++ [pt a], pc := upd st.pc a .done }) hnd.2 ?_ ((hcalm.upd (by simp)).mono (by dsimp only; rw [List.length_append]; omega)) (hc.imp id fun h => by dsimp only; rw [List.length_append, List.length_singleton]; omega)]
    · dsimp only; rw [updAll_cons, List.map_cons, List.append_assoc]; rfl
    · intro i hi
      dsimp only
      rw [upd_ne _ _ (show i ≠ a from fun e => hnd.1 (e ▸ hi))]
      exact h i (List.mem_cons_of_mem _ hi)

/-! ## Interpolation -/

theorem interpolate_nodup_ok (d : ℕ) (pts : List (ℕ × Fr)) (hlen : pts.length = d + 1) (hnd : (pts.map Prod.fst).Nodup) (hb : ∀ q ∈ pts, q.1 < frModulus) :
    ∃ res, lagrangeInterpolate d (pts.map fun q => ((q.1 : ℕ) : Fr)) (pts.map (·.2)) = .ok res ∧ res.length = d + 1 ∧ ∀ q ∈ pts, polyVal res ((q.1 : ℕ) : Fr) = q.2 := by
  have hx : d + 1 ≤ (pts.map fun q => ((q.1 : ℕ) : Fr)).length := by rw [List.length_map]; omega
  have hy : d + 1 ≤ (pts.map (·.2)).length := by rw [List.length_map]; omega
  have hd : DistinctUpTo d (pts.map fun q => ((q.1 : ℕ) : Fr)) := by
    intro i hi j hj hji
    rw [List.getD_eq_getElem _ _ (by rw [List.length_map]; omega), List.getD_eq_getElem _ _ (by rw [List.length_map]; omega), List.getElem_map, List.getElem_map]
    refine fr_natCast_ne (hb _ (List.getElem_mem _)) (hb _ (List.getElem_mem _)) fun e => hji ?_
    have := (hnd.getElem_inj_iff (i := i) (j := j) (hi := by rw [List.length_map]; omega) (hj := by rw [List.length_map]; omega)).1 (by rw [List.getElem_map, List.getElem_map]; exact e)
    exact this.symm
  obtain ⟨res, h1, h2, h3, -⟩ := C10_interpolates d _ _ hx hy hd
  refine ⟨res, h1, h2, fun q hq => ?_⟩
  obtain ⟨k, hk, rfl⟩ := List.getElem_of_mem hq
  have := h3 k (by omega)
  rwa [List.getD_eq_getElem _ _ (by rw [List.length_map]; omega), List.getD_eq_getElem _ _ (by rw [List.length_map]; omega), List.getElem_map, List.getElem_map] at this

/-! ## Reading -/

theorem run_reads {st : DistVal} {a : ℕ} (ha : a < n) (es : List DistEvent) (m t : ℕ) (hF : t + m ≤ 2 * F + 1) (hl : t + m ≤ st.SB.length)
    (h : st.pc a = .reading ((st.SB.take t).map (·.1)) ((st.SB.take t).map (·.2))) :
    valRun F n pt st (List.replicate (2 * m) (.go a) ++ es) =
      valRun F n pt { st with pc := upd st.pc a (.reading ((st.SB.take (t + m)).map (·.1)) ((st.SB.take (t + m)).map (·.2))) } es := by
  induction m generalizing st t with
  | zero =>
    rw [Nat.mul_zero, List.replicate_zero, List.nil_append, Nat.add_zero, ← h]
    congr 1
    have : upd st.pc a (st.pc a) = st.pc := by
      funext j
      by_cases hj : j = a
      · subst hj; rw [upd_same]
      · rw [upd_ne _ _ hj]
    rw [this]
  | succ m ih =>
    have ht : t < st.SB.length := by omega
    have hlen : (st.SB.take t).length = t := by rw [List.length_take]; omega
    have hq : st.SB[t]? = some st.SB[t] := List.getElem?_eq_getElem ht
    have htake : st.SB.take (t + 1) = st.SB.take t ++ [st.SB[t]] := by rw [List.take_add_one, hq]; rfl
    rw [show 2 * (m + 1) = 2 * m + 1 + 1 from rfl, List.replicate_succ, List.replicate_succ, List.cons_append, List.cons_append,
      valRun_cons (val_readX (q := st.SB[t]) ha h (by rw [List.length_map, List.length_map]; omega) (by rw [List.length_map, hlen]; omega) (by rw [List.length_map, hlen]; exact hq)),
      valRun_cons (val_readY (st := { st with pc := upd st.pc a (.reading ((st.SB.take t).map (·.1) ++ [st.SB[t].1]) ((st.SB.take t).map (·.2))) }) (q := st.SB[t]) ha (upd_same _ _ _)
        (by rw [List.length_append, List.length_map, List.length_map, List.length_singleton]; omega) (by rw [List.length_map, hlen]; exact hq))]
    dsimp only
    rw [upd_twice, ih (t := t + 1) (by omega) (by dsimp only; omega) (by dsimp only; rw [upd_same, htake, List.map_append, List.map_append]; rfl)]
    dsimp only
    rw [upd_twice, show t + 1 + m = t + (m + 1) by omega]

/-- The steps of the loop at lines 657-660. -/
def readSteps (F a : ℕ) : List DistEvent := List.replicate (2 * (2 * F + 1)) (.go a)

theorem run_report {st : DistVal} {a : ℕ} {f : List Fr} (es : List DistEvent) (ha : a < n) (h : st.pc a = .reading [] []) (hl : 2 * F + 1 ≤ st.SB.length)
    (hf : lagrangeInterpolate (2 * F) ((st.SB.take (2 * F + 1)).map fun q => ((q.1 : ℕ) : Fr)) ((st.SB.take (2 * F + 1)).map (·.2)) = .ok f) :
    valRun F n pt st (readSteps F a ++ (.go a :: .go a :: es)) = valRun F n pt { st with full := f, successes := st.successes + 1, pc := upd st.pc a .reported } es := by
  have hlen : (st.SB.take (2 * F + 1)).length = 2 * F + 1 := by rw [List.length_take]; omega
  unfold readSteps
  rw [run_reads ha _ (2 * F + 1) 0 (by omega) (by omega) (by rw [h]; rfl), Nat.zero_add,
    valRun_cons (val_interpolate (f := f) (st := { st with pc := upd st.pc a (.reading ((st.SB.take (2 * F + 1)).map (·.1)) ((st.SB.take (2 * F + 1)).map (·.2))) }) ha (upd_same _ _ _)
      (by rw [List.length_map, List.length_map]; omega) (by rw [List.length_map]; omega) (by rw [List.map_map]; exact hf)),
    valRun_cons (val_interpolated (st := { st with full := f, pc := upd (upd st.pc a (.reading ((st.SB.take (2 * F + 1)).map (·.1)) ((st.SB.take (2 * F + 1)).map (·.2)))) a .interpolated })
      ha (upd_same _ _ _))]
  dsimp only
  rw [upd_twice, upd_twice]

theorem run_report_two {st : DistVal} {a b : ℕ} {f : List Fr} (hab : b ≠ a) (ha : a < n) (hb : b < n) (h : st.pc a = .reading [] []) (h' : st.pc b = .reading [] []) (hl : 2 * F + 1 ≤ st.SB.length)
    (hf : lagrangeInterpolate (2 * F) ((st.SB.take (2 * F + 1)).map fun q => ((q.1 : ℕ) : Fr)) ((st.SB.take (2 * F + 1)).map (·.2)) = .ok f) :
    ∃ st', valRun F n pt st (readSteps F a ++ (.go a :: .go a :: (readSteps F b ++ (.go b :: .go b :: [])))) = some (.ok st') ∧ st'.successes = st.successes + 2 := by
  rw [run_report _ ha h hl hf, run_report (st := { st with full := f, successes := st.successes + 1, pc := upd st.pc a .reported }) _ hb ((upd_ne _ _ hab).trans h') hl hf]
  exact ⟨_, rfl, rfl⟩

/-! ## A value of one share with the index of another -/

/-- The last steps of a goroutine that has interpolated. -/
theorem run_finish {st : DistVal} {a : ℕ} (es : List DistEvent) (ha : a < n) (h : st.pc a = .interpolated) (hc : st.chan = 0) :
    valRun F n pt st (.go a :: .go a :: .go a :: es) = valRun F n pt { st with successes := st.successes + 1, sent := true, chan := 1, pc := upd st.pc a .done } es := by
  rw [valRun_cons (val_interpolated ha h), valRun_cons (val_reported (st := { st with successes := st.successes + 1, pc := upd st.pc a .reported }) ha (upd_same _ _ _)),
    valRun_cons (val_marked (st := { st with successes := st.successes + 1, sent := true, pc := upd (upd st.pc a .reported) a .marked }) ha (upd_same _ _ _) hc)]
  dsimp only
  rw [upd_twice, upd_twice]

theorem run_mixed {st : DistVal} {a b : ℕ} {P : List (ℕ × Fr)} {f : List Fr} (es : List DistEvent) (hab : b ≠ a) (ha : a < n) (hb : b < n) (hP : P.length = 2 * F) (hSB : st.SB = P ++ [pt a])
    (hpa : st.pc a = .reading [] []) (hpb : st.pc b = .loaded P) (hcalm : Calm st.pc P.length) (hc : st.chan = 0)
    (hf : lagrangeInterpolate (2 * F) ((P.map (·.1) ++ [(pt a).1]).map fun x => ((x : ℕ) : Fr)) (P.map (·.2) ++ [(pt b).2]) = .ok f) :
    valRun F n pt st (List.replicate (2 * (2 * F)) (.go a) ++ (.go a :: .go b :: .go a :: .go a :: .go a :: .go a :: .go a :: .go b :: es)) =
      valRun F n pt { st with SB := P ++ [pt b], full := f, successes := st.successes + 1, sent := true, chan := 1, pc := upd (upd st.pc a .done) b .done } es := by
  have hlen : (P ++ [pt a]).length = 2 * F + 1 := by rw [List.length_append, hP, List.length_singleton]
  have htake : (P ++ [pt a]).take (2 * F) = P := by rw [List.take_append_of_le_length (by omega), List.take_of_length_le (by omega)]
  have hba : ∀ (g : ℕ → ValPC) (x y : ValPC), upd (upd g b x) a y = upd (upd g a y) b x := by
    intro g x y
    funext j
    by_cases h1 : j = a
    · subst h1; rw [upd_same, upd_ne _ _ (Ne.symm hab), upd_same]
    · by_cases h2 : j = b
      · subst h2; rw [upd_ne _ _ h1, upd_same, upd_same]
      · rw [upd_ne _ _ h1, upd_ne _ _ h2, upd_ne _ _ h2, upd_ne _ _ h1]
  rw [run_reads ha _ (2 * F) 0 (by omega) (by rw [hSB, hlen]; omega) (by rw [hpa]; rfl), Nat.zero_add, hSB, htake,
    valRun_cons (val_readX (q := pt a) (st := { st with SB := P ++ [pt a], pc := upd st.pc a (.reading (P.map (·.1)) (P.map (·.2))) }) ha (upd_same _ _ _)
      (by rw [List.length_map, List.length_map]; omega) (by rw [List.length_map]; omega) (by dsimp only; rw [List.length_map, List.getElem?_append_right le_rfl, Nat.sub_self]; rfl))]
  dsimp only
  rw [upd_twice, valRun_cons (val_loaded (s := P) (st := { st with SB := P ++ [pt a], pc := upd st.pc a (.reading (P.map (·.1) ++ [(pt a).1]) (P.map (·.2))) }) hb ((upd_ne _ _ hab).trans hpb) (hcalm.upd (by simp)))]
  dsimp only
  rw [valRun_cons (val_readY (q := pt b) (st := { st with SB := P ++ [pt b], pc := upd (upd st.pc a (.reading (P.map (·.1) ++ [(pt a).1]) (P.map (·.2)))) b .stored }) ha
    ((upd_ne _ _ (Ne.symm hab)).trans (upd_same _ _ _)) (by rw [List.length_append, List.length_map, List.length_map, List.length_singleton]; omega)
    (by dsimp only; rw [List.length_map, List.getElem?_append_right le_rfl, Nat.sub_self]; rfl))]
  dsimp only
  rw [hba, upd_twice, valRun_cons (val_interpolate (f := f)
    (st := { st with SB := P ++ [pt b], pc := upd (upd st.pc a (.reading (P.map (·.1) ++ [(pt a).1]) (P.map (·.2) ++ [(pt b).2]))) b .stored }) ha
    ((upd_ne _ _ (Ne.symm hab)).trans (upd_same _ _ _)) (by rw [List.length_append, List.length_append, List.length_map, List.length_map, List.length_singleton, List.length_singleton]; omega)
    (by rw [List.length_append, List.length_map, List.length_singleton]; omega) hf)]
  dsimp only
  rw [hba, upd_twice, run_finish (st := { st with SB := P ++ [pt b], full := f, pc := upd (upd st.pc a .interpolated) b .stored }) _ ha ((upd_ne _ _ (Ne.symm hab)).trans (upd_same _ _ _)) hc]
  dsimp only
  rw [hba, upd_twice, valRun_cons (val_stored_no
    (st := { st with SB := P ++ [pt b], full := f, successes := st.successes + 1, sent := true, chan := 1, pc := upd (upd st.pc a .done) b .stored }) hb (upd_same _ _ _) (Or.inl rfl))]
  dsimp only
  rw [upd_twice]

theorem run_appends {L : List ℕ} {st : DistVal} (hnd : L.Nodup) (h : ∀ i ∈ L, i < n ∧ st.pc i = .start) (hcalm : Calm st.pc st.SB.length) :
    valRun F n pt st (L.flatMap fun i => [.go i, .go i]) = some (.ok { st with SB := st.SB ++ L.map pt, pc := updAll st.pc L .stored }) := by
  induction L generalizing st with
  | nil => rw [updAll_nil, List.map_nil, List.append_nil]; rfl
  | cons a L ih =>
    rw [List.nodup_cons] at hnd
    rw [List.flatMap_cons]
    show valRun F n pt st (.go a :: .go a :: L.flatMap fun i => [.go i, .go i]) = _
    rw [run_two _ (h a (List.mem_cons_self ..)).1 (h a (List.mem_cons_self ..)).2 hcalm, ih hnd.2 ?_ ((hcalm.upd (by simp)).mono (by dsimp only; rw [List.length_append]; omega))]
    · dsimp only
      rw [updAll_cons, List.append_assoc]
      rfl
    · intro i hi
      dsimp only
      rw [upd_ne _ _ (show i ≠ a from fun e => hnd.1 (e ▸ hi))]
      exact h i (List.mem_cons_of_mem _ hi)

theorem run_tests {L : List ℕ} {st : DistVal} (hnd : L.Nodup) (h : ∀ i ∈ L, i < n ∧ st.pc i = .stored) (hs : st.sent = false) (hl : 2 * F + 1 ≤ st.SB.length) :
    valRun F n pt st (L.map .go) = some (.ok { st with pc := updAll st.pc L (.reading [] []) }) := by
  induction L generalizing st with
  | nil => rw [updAll_nil]; rfl
  | cons a L ih =>
    rw [List.nodup_cons] at hnd
    rw [List.map_cons, valRun_cons (val_stored_yes (h a (List.mem_cons_self ..)).1 (h a (List.mem_cons_self ..)).2 hs hl), ih (st := { st with pc := upd st.pc a (.reading [] []) }) hnd.2 ?_ hs hl]
    · dsimp only; rw [updAll_cons]
    · intro i hi
      dsimp only
      rw [upd_ne _ _ (show i ≠ a from fun e => hnd.1 (e ▸ hi))]
      exact h i (List.mem_cons_of_mem _ hi)

theorem run_reports {L : List ℕ} {st : DistVal} {f : List Fr} (hnd : L.Nodup) (h : ∀ i ∈ L, i < n ∧ st.pc i = .reading [] []) (hl : 2 * F + 1 ≤ st.SB.length)
    (hf : lagrangeInterpolate (2 * F) ((st.SB.take (2 * F + 1)).map fun q => ((q.1 : ℕ) : Fr)) ((st.SB.take (2 * F + 1)).map (·.2)) = .ok f) :
    valRun F n pt st (L.flatMap fun i => readSteps F i ++ [.go i, .go i]) =
      some (.ok { st with full := if L = [] then st.full else f, successes := st.successes + L.length, pc := updAll st.pc L .reported }) := by
  induction L generalizing st with
  | nil => rw [updAll_nil]; rfl
  | cons a L ih =>
    rw [List.nodup_cons] at hnd
    rw [List.flatMap_cons, List.append_assoc]
    show valRun F n pt st (readSteps F a ++ (.go a :: .go a :: L.flatMap fun i => readSteps F i ++ [.go i, .go i])) = _
    rw [run_report _ (h a (List.mem_cons_self ..)).1 (h a (List.mem_cons_self ..)).2 hl hf, ih (st := { st with full := f, successes := st.successes + 1, pc := upd st.pc a .reported }) hnd.2 ?_ hl hf]
    · dsimp only
      rw [updAll_cons, if_neg (List.cons_ne_nil a L), ite_self, List.length_cons, Nat.add_assoc, Nat.add_comm 1]
    · intro i hi
      dsimp only
      rw [upd_ne _ _ (show i ≠ a from fun e => hnd.1 (e ▸ hi))]
      exact h i (List.mem_cons_of_mem _ hi)

theorem run_marks {L : List ℕ} {st : DistVal} (hnd : L.Nodup) (h : ∀ i ∈ L, i < n ∧ st.pc i = .reported) :
    valRun F n pt st (L.map .go) = some (.ok { st with sent := st.sent || decide (L ≠ []), pc := updAll st.pc L .marked }) := by
  induction L generalizing st with
  | nil => rw [updAll_nil]; simp [valRun]
  | cons a L ih =>
    rw [List.nodup_cons] at hnd
    rw [List.map_cons, valRun_cons (val_reported (h a (List.mem_cons_self ..)).1 (h a (List.mem_cons_self ..)).2), ih hnd.2 ?_]
    · dsimp only; rw [updAll_cons]; simp
    · intro i hi
      dsimp only
      rw [upd_ne _ _ (show i ≠ a from fun e => hnd.1 (e ▸ hi))]
      exact h i (List.mem_cons_of_mem _ hi)

end DyCAPS
