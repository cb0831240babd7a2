import Verif.Lemmas.DistValue

/-! What holds in every schedule of the ShareDist goroutines, and for goroutines that are not interrupted. -/

namespace DyCAPS

/-- The entries of a slice. -/
def DistRace.view (st : DistRace) (h : SliceHdr) : List (ℕ × Fr) := (List.range h.len).map (st.mem h.arr)

/-- The entries of `SB`. -/
def DistRace.sb (st : DistRace) : List (ℕ × Fr) := st.view st.SB

theorem view_length (st : DistRace) (h : SliceHdr) : (st.view h).length = h.len := by rw [DistRace.view, List.length_map, List.length_range]

theorem sb_length (st : DistRace) : st.sb.length = st.SB.len := view_length _ _

theorem at_sb (st : DistRace) (t : ℕ) : st.at t = st.sb[t]? := by
  unfold DistRace.at DistRace.sb DistRace.view
  by_cases h : t < st.SB.len
  · rw [if_pos h, List.getElem?_map, List.getElem?_range h]; rfl
  · rw [if_neg h, List.getElem?_eq_none (by rw [List.length_map, List.length_range]; omega)]

/-- A slice that has been extended by `append` in its own array. -/
theorem view_write (st : DistRace) (h : SliceHdr) (q : ℕ × Fr) :
    ({ st with mem := upd st.mem h.arr (upd (st.mem h.arr) h.len q) } : DistRace).view ⟨h.arr, h.len + 1, h.cap⟩ = st.view h ++ [q] := by
  unfold DistRace.view
  dsimp only
  rw [upd_same, List.range_succ, List.map_append, List.map_singleton, upd_same]
  congr 1
  refine List.map_congr_left fun t ht => upd_ne _ _ ?_
  rw [List.mem_range] at ht
  omega

/-- A slice of another array, or one that is not longer, does not change. -/
theorem view_other (st : DistRace) (h h' : SliceHdr) (q : ℕ × Fr) (hne : h'.arr = h.arr → h'.len ≤ h.len) :
    ({ st with mem := upd st.mem h.arr (upd (st.mem h.arr) h.len q) } : DistRace).view h' = st.view h' := by
  unfold DistRace.view
  refine List.map_congr_left fun t ht => ?_
  rw [List.mem_range] at ht
  dsimp only
  by_cases ha : h'.arr = h.arr
  · have := hne ha
    rw [ha, upd_same, upd_ne _ _ (by omega)]
  · rw [upd_ne _ _ ha]

theorem view_new (st : DistRace) (h : SliceHdr) (c m : ℕ) (cs : List (ℕ × Fr)) (q : ℕ × Fr) (hl : cs.length = h.len) :
    ({ st with mem := upd st.mem st.next (fun t => (cs ++ [q]).getD t (0, 0)), next := m } : DistRace).view ⟨st.next, h.len + 1, c⟩ = cs ++ [q] := by
  unfold DistRace.view
  dsimp only
  rw [upd_same]
  apply List.ext_getElem
  · rw [List.length_map, List.length_range, List.length_append, List.length_singleton, hl]
  · intro t h1 h2
    rw [List.getElem_map, List.getElem_range, List.getD_eq_getElem _ _ h2]

theorem view_old (st : DistRace) (h' : SliceHdr) (a : ℕ → ℕ × Fr) (m : ℕ) (hlt : h'.arr < st.next) : ({ st with mem := upd st.mem st.next a, next := m } : DistRace).view h' = st.view h' := by
  unfold DistRace.view
  dsimp only
  rw [upd_ne _ _ (by omega)]

variable {grow : ℕ → ℕ} {F n : ℕ} {pt : ℕ → ℕ × Fr}

theorem distRun_cons {st st' : DistRace} {e : DistEvent} {es : List DistEvent} (h : distStep grow F n pt st e = some (.ok st')) : distRun grow F n pt st (e :: es) = distRun grow F n pt st' es := by
  rw [distRun, h]

theorem distRun_append {st st' : DistRace} {es es' : List DistEvent} (h : distRun grow F n pt st es = some (.ok st')) : distRun grow F n pt st (es ++ es') = distRun grow F n pt st' es' := by
  induction es generalizing st with
  | nil => cases h; rfl
  | cons e es ih =>
    rw [distRun] at h
    rw [List.cons_append, distRun]
    cases hs : distStep grow F n pt st e with
    | none => rw [hs] at h; cases h
    | some r =>
      cases r with
      | error f => rw [hs] at h; cases h
      | ok st1 => rw [hs] at h; exact ih h

theorem step_start {st : DistRace} {i : ℕ} (hi : i < n) (h : st.pc i = .start) : distStep grow F n pt st (.go i) = some (.ok { st with pc := upd st.pc i (.loaded st.SB) }) := by
  simp only [distStep, if_pos hi, DistRace.go, h]

theorem step_write {st : DistRace} {i : ℕ} {h : SliceHdr} (hi : i < n) (hpc : st.pc i = .loaded h) (hl : h.len < h.cap) :
    distStep grow F n pt st (.go i) = some (.ok { st with mem := upd st.mem h.arr (upd (st.mem h.arr) h.len (pt i)), pc := upd st.pc i (.written ⟨h.arr, h.len + 1, h.cap⟩) }) := by
  simp only [distStep, if_pos hi, DistRace.go, hpc, if_pos hl]

theorem step_full {st : DistRace} {i : ℕ} {h : SliceHdr} (hi : i < n) (hpc : st.pc i = .loaded h) (hl : ¬ h.len < h.cap) :
    distStep grow F n pt st (.go i) = some (.ok { st with pc := upd st.pc i (.growing h []) }) := by
  simp only [distStep, if_pos hi, DistRace.go, hpc, if_neg hl]

theorem step_copy {st : DistRace} {i : ℕ} {h : SliceHdr} {cs : List (ℕ × Fr)} (hi : i < n) (hpc : st.pc i = .growing h cs) (hl : cs.length < h.len) :
    distStep grow F n pt st (.go i) = some (.ok { st with pc := upd st.pc i (.growing h (cs ++ [st.mem h.arr cs.length])) }) := by
  simp only [distStep, if_pos hi, DistRace.go, hpc, if_pos hl]

theorem step_alloc {st : DistRace} {i : ℕ} {h : SliceHdr} {cs : List (ℕ × Fr)} (hi : i < n) (hpc : st.pc i = .growing h cs) (hl : ¬ cs.length < h.len) :
    distStep grow F n pt st (.go i) = some (.ok { st with mem := upd st.mem st.next (fun t => (cs ++ [pt i]).getD t (0, 0)), next := st.next + 1, pc := upd st.pc i (.written ⟨st.next, h.len + 1, grow h.cap⟩) }) := by
  simp only [distStep, if_pos hi, DistRace.go, hpc, if_neg hl]

theorem step_written {st : DistRace} {i : ℕ} {h : SliceHdr} (hi : i < n) (hpc : st.pc i = .written h) : distStep grow F n pt st (.go i) = some (.ok { st with SB := h, pc := upd st.pc i .stored }) := by
  simp only [distStep, if_pos hi, DistRace.go, hpc]

theorem step_stored_no {st : DistRace} {i : ℕ} (hi : i < n) (h : st.pc i = .stored) (hc : st.sent = true ∨ st.sb.length < 2 * F + 1) :
    distStep grow F n pt st (.go i) = some (.ok { st with pc := upd st.pc i .done }) := by
  rw [sb_length] at hc
  have : (!st.sent && decide (2 * F + 1 ≤ st.SB.len)) = false := by
    rcases hc with hc | hc
    · rw [hc]; rfl
    · rw [decide_eq_false (by omega), Bool.and_false]
  simp only [distStep, if_pos hi, DistRace.go, h, this, Bool.false_eq_true, if_false]

theorem step_stored_yes {st : DistRace} {i : ℕ} (hi : i < n) (h : st.pc i = .stored) (hs : st.sent = false) (hl : 2 * F + 1 ≤ st.sb.length) :
    distStep grow F n pt st (.go i) = some (.ok { st with pc := upd st.pc i (.reading [] []) }) := by
  rw [sb_length] at hl
  simp only [distStep, if_pos hi, DistRace.go, h, hs, decide_eq_true hl, Bool.not_false, Bool.and_self, if_true]

theorem step_readY {st : DistRace} {i : ℕ} {xs : List ℕ} {ys : List Fr} {q : ℕ × Fr} (hi : i < n) (h : st.pc i = .reading xs ys) (hl : ys.length < xs.length) (hq : st.sb[ys.length]? = some q) :
    distStep grow F n pt st (.go i) = some (.ok { st with pc := upd st.pc i (.reading xs (ys ++ [q.2])) }) := by
  simp only [distStep, if_pos hi, DistRace.go, h, if_pos hl, at_sb, hq]

theorem step_readX {st : DistRace} {i : ℕ} {xs : List ℕ} {ys : List Fr} {q : ℕ × Fr} (hi : i < n) (h : st.pc i = .reading xs ys) (hl : ¬ ys.length < xs.length) (hF : xs.length < 2 * F + 1)
    (hq : st.sb[xs.length]? = some q) : distStep grow F n pt st (.go i) = some (.ok { st with pc := upd st.pc i (.reading (xs ++ [q.1]) ys) }) := by
  simp only [distStep, if_pos hi, DistRace.go, h, if_neg hl, if_pos hF, at_sb, hq]

theorem step_readX_panic {st : DistRace} {i : ℕ} {xs : List ℕ} {ys : List Fr} (hi : i < n) (h : st.pc i = .reading xs ys) (hl : ¬ ys.length < xs.length) (hF : xs.length < 2 * F + 1)
    (hq : st.sb[xs.length]? = none) : distStep grow F n pt st (.go i) = some (.error .panic) := by
  simp only [distStep, if_pos hi, DistRace.go, h, if_neg hl, if_pos hF, at_sb, hq]

theorem step_interpolate {st : DistRace} {i : ℕ} {xs : List ℕ} {ys f : List Fr} (hi : i < n) (h : st.pc i = .reading xs ys) (hl : ¬ ys.length < xs.length) (hF : ¬ xs.length < 2 * F + 1)
    (hf : lagrangeInterpolate (2 * F) (xs.map fun x => ((x : ℕ) : Fr)) ys = .ok f) : distStep grow F n pt st (.go i) = some (.ok { st with full := f, pc := upd st.pc i .interpolated }) := by
  simp only [distStep, if_pos hi, DistRace.go, h, if_neg hl, if_neg hF, hf, Go.ok_bind]
  rfl

/-- What a step of a reading goroutine is. -/
theorem step_reading {st st' : DistRace} {i : ℕ} {xs : List ℕ} {ys : List Fr} (hi : i < n) (h : st.pc i = .reading xs ys) (hs : distStep grow F n pt st (.go i) = some (.ok st')) :
    (∃ q, ys.length < xs.length ∧ st.sb[ys.length]? = some q ∧ st' = { st with pc := upd st.pc i (.reading xs (ys ++ [q.2])) }) ∨
    (∃ q, ¬ ys.length < xs.length ∧ xs.length < 2 * F + 1 ∧ st.sb[xs.length]? = some q ∧ st' = { st with pc := upd st.pc i (.reading (xs ++ [q.1]) ys) }) ∨
    ∃ f, ¬ ys.length < xs.length ∧ ¬ xs.length < 2 * F + 1 ∧ lagrangeInterpolate (2 * F) (xs.map fun x => ((x : ℕ) : Fr)) ys = .ok f ∧
      st' = { st with full := f, pc := upd st.pc i .interpolated } := by
  by_cases hl : ys.length < xs.length
  · left
    cases hq : st.sb[ys.length]? with
    | none => simp only [distStep, if_pos hi, DistRace.go, h, if_pos hl, at_sb, hq] at hs; cases hs
    | some q =>
      rw [step_readY hi h hl hq] at hs
      cases hs
      exact ⟨q, hl, rfl, rfl⟩
  · right
    by_cases hF : xs.length < 2 * F + 1
    · left
      cases hq : st.sb[xs.length]? with
      | none => rw [step_readX_panic hi h hl hF hq] at hs; cases hs
      | some q =>
        rw [step_readX hi h hl hF hq] at hs
        cases hs
        exact ⟨q, hl, hF, rfl, rfl⟩
    · right
      cases hf : lagrangeInterpolate (2 * F) (xs.map fun x => ((x : ℕ) : Fr)) ys with
      | error er => simp only [distStep, if_pos hi, DistRace.go, h, if_neg hl, if_neg hF, hf] at hs; cases hs
      | ok f =>
        rw [step_interpolate hi h hl hF hf] at hs
        cases hs
        exact ⟨f, hl, hF, rfl, rfl⟩

theorem step_interpolated {st : DistRace} {i : ℕ} (hi : i < n) (h : st.pc i = .interpolated) :
    distStep grow F n pt st (.go i) = some (.ok { st with successes := st.successes + 1, pc := upd st.pc i .reported }) := by
  simp only [distStep, if_pos hi, DistRace.go, h]

theorem step_reported {st : DistRace} {i : ℕ} (hi : i < n) (h : st.pc i = .reported) :
    distStep grow F n pt st (.go i) = some (.ok { st with sent := true, pc := upd st.pc i .marked }) := by
  simp only [distStep, if_pos hi, DistRace.go, h]

theorem step_marked {st : DistRace} {i : ℕ} (hi : i < n) (h : st.pc i = .marked) (hc : st.chan = 0) :
    distStep grow F n pt st (.go i) = some (.ok { st with chan := 1, pc := upd st.pc i .done }) := by
  simp only [distStep, if_pos hi, DistRace.go, h, if_pos hc]

theorem step_marked_blocked {st : DistRace} {i : ℕ} (h : st.pc i = .marked) (hc : st.chan ≠ 0) : distStep grow F n pt st (.go i) = none := by
  simp only [distStep, DistRace.go, h, if_neg hc, ite_self]

theorem step_done {st : DistRace} {i : ℕ} (h : st.pc i = .done) : distStep grow F n pt st (.go i) = none := by
  simp only [distStep, DistRace.go, h, ite_self]

/-! ## What holds in every schedule -/

/-- The goroutine may have broadcast Success. -/
def DistPC.told : DistPC → Bool
  | .reported => true
  | .marked => true
  | .done => true
  | _ => false

/-- `f` goes through `2F+1` points; each has the index of one share and the value of one share. -/
def Mixed (F n : ℕ) (pt : ℕ → ℕ × Fr) (f : List Fr) : Prop :=
  ∃ L : List (ℕ × ℕ), L.length = 2 * F + 1 ∧ (L.map fun q => (pt q.1).1).Nodup ∧ (∀ q ∈ L, q.1 < n ∧ q.2 < n) ∧ f.length = 2 * F + 1 ∧ ∀ q ∈ L, polyVal f (((pt q.1).1 : ℕ) : Fr) = (pt q.2).2

/-- The entries of a slice are verified points. -/
def GoodSlice (n : ℕ) (pt : ℕ → ℕ × Fr) (mem : ℕ → ℕ → ℕ × Fr) (next : ℕ) (h : SliceHdr) : Prop := h.arr < next ∧ ∀ t < h.len, ∃ j < n, mem h.arr t = pt j

/-- What a goroutine holds consists of verified points, indices and values. -/
def DistPC.good (F n : ℕ) (pt : ℕ → ℕ × Fr) (mem : ℕ → ℕ → ℕ × Fr) (next : ℕ) : DistPC → Prop
  | .loaded h => GoodSlice n pt mem next h
  | .growing h cs => GoodSlice n pt mem next h ∧ cs.length ≤ h.len ∧ ∀ q ∈ cs, ∃ j < n, q = pt j
  | .written h => GoodSlice n pt mem next h
  | .reading xs ys => ys.length ≤ xs.length ∧ xs.length ≤ 2 * F + 1 ∧ (∀ x ∈ xs, ∃ j < n, x = (pt j).1) ∧ ∀ y ∈ ys, ∃ j < n, y = (pt j).2
  | _ => True

/-- The arrays there were have changed only by verified points. -/
def Grown (n : ℕ) (pt : ℕ → ℕ × Fr) (mem mem' : ℕ → ℕ → ℕ × Fr) (next next' : ℕ) : Prop := next ≤ next' ∧ ∀ a < next, ∀ t, mem' a t = mem a t ∨ ∃ j < n, mem' a t = pt j

theorem GoodSlice.mono {mem mem' : ℕ → ℕ → ℕ × Fr} {next next' : ℕ} {h : SliceHdr} (g : GoodSlice n pt mem next h) (hg : Grown n pt mem mem' next next') : GoodSlice n pt mem' next' h := by
  refine ⟨g.1.trans_le hg.1, fun t ht => ?_⟩
  rcases hg.2 h.arr g.1 t with e | e
  · rw [e]; exact g.2 t ht
  · exact e

theorem good_mono {mem mem' : ℕ → ℕ → ℕ × Fr} {next next' : ℕ} {x : DistPC} (g : x.good F n pt mem next) (hg : Grown n pt mem mem' next next') : x.good F n pt mem' next' := by
  cases x with
  | loaded h => exact GoodSlice.mono g hg
  | growing h cs => exact ⟨g.1.mono hg, g.2⟩
  | written h => exact GoodSlice.mono g hg
  | reading xs ys => exact g
  | _ => trivial

structure RaceInv (F n : ℕ) (pt : ℕ → ℕ × Fr) (st : DistRace) : Prop where
  sb : GoodSlice n pt st.mem st.next st.SB
  pcs : ∀ i, (st.pc i).good F n pt st.mem st.next
  full : (∃ i, st.pc i = .interpolated) ∨ 1 ≤ st.successes → Mixed F n pt st.full
  told : st.successes ≤ ((Finset.range n).filter fun i => (st.pc i).told = true).card

theorem told_upd {pc : ℕ → DistPC} {i : ℕ} {x : DistPC} (h : (pc i).told = true → x.told = true) :
    ((Finset.range n).filter fun j => (pc j).told = true).card ≤ ((Finset.range n).filter fun j => (upd pc i x j).told = true).card := by
  apply Finset.card_le_card
  intro j hj
  rw [Finset.mem_filter] at hj ⊢
  refine ⟨hj.1, ?_⟩
  by_cases hji : j = i
  · subst hji; rw [upd_same]; exact h hj.2
  · rw [upd_ne _ _ hji]; exact hj.2

theorem told_new {pc : ℕ → DistPC} {i : ℕ} {x : DistPC} (hi : i < n) (h : (pc i).told = false) (hx : x.told = true) :
    ((Finset.range n).filter fun j => (pc j).told = true).card + 1 ≤ ((Finset.range n).filter fun j => (upd pc i x j).told = true).card := by
  rw [Nat.succ_le_iff]
  apply Finset.card_lt_card
  rw [Finset.ssubset_iff_of_subset]
  · refine ⟨i, ?_, ?_⟩
    · rw [Finset.mem_filter, upd_same]; exact ⟨Finset.mem_range.2 hi, hx⟩
    · rw [Finset.mem_filter, h]; simp
  · intro j hj
    rw [Finset.mem_filter] at hj ⊢
    refine ⟨hj.1, ?_⟩
    by_cases hji : j = i
    · subst hji; rw [upd_same]; exact hx
    · rw [upd_ne _ _ hji]; exact hj.2

theorem exists_indices {α : Type} (g : ℕ → α) (xs : List α) (h : ∀ x ∈ xs, ∃ j < n, x = g j) : ∃ L : List ℕ, xs = L.map g ∧ ∀ j ∈ L, j < n := by
  induction xs with
  | nil => exact ⟨[], rfl, fun j hj => absurd hj List.not_mem_nil⟩
  | cons x xs ih =>
    obtain ⟨L, h1, h2⟩ := ih fun y hy => h y (List.mem_cons_of_mem _ hy)
    obtain ⟨j, hj, hx⟩ := h x (List.mem_cons_self ..)
    exact ⟨j :: L, by rw [List.map_cons, ← hx, ← h1], fun k hk => by
      rcases List.mem_cons.1 hk with rfl | hk
      · exact hj
      · exact h2 k hk⟩

theorem mixed_of_read {xs : List ℕ} {ys f : List Fr} (hx : xs.length = 2 * F + 1) (hy : ys.length = 2 * F + 1) (h1 : ∀ x ∈ xs, ∃ j < n, x = (pt j).1) (h2 : ∀ y ∈ ys, ∃ j < n, y = (pt j).2)
    (hf : lagrangeInterpolate (2 * F) (xs.map fun x => ((x : ℕ) : Fr)) ys = .ok f) : Mixed F n pt f := by
  obtain ⟨Lx, rfl, hLx⟩ := exists_indices (fun j => (pt j).1) xs h1
  obtain ⟨Ly, rfl, hLy⟩ := exists_indices (fun j => (pt j).2) ys h2
  rw [List.length_map] at hx hy
  have e1 : (Lx.map fun j => (pt j).1) = ((Lx.zip Ly).map fun q => ((pt q.1).1, (pt q.2).2)).map Prod.fst := by
    rw [List.map_map, ← List.map_fst_zip (l₁ := Lx) (l₂ := Ly) (by omega), List.map_map, List.map_fst_zip (by omega)]
    rfl
  have e2 : (Ly.map fun j => (pt j).2) = ((Lx.zip Ly).map fun q => ((pt q.1).1, (pt q.2).2)).map Prod.snd := by
    rw [List.map_map, ← List.map_snd_zip (l₁ := Lx) (l₂ := Ly) (by omega), List.map_map, List.map_snd_zip (by omega)]
    rfl
  rw [e1, e2, List.map_map] at hf
  obtain ⟨k1, k2, k3⟩ := interpolated_nodup (2 * F) _ _ (by rw [List.length_map, List.length_zip]; omega) hf
  rw [List.map_map] at k1
  refine ⟨Lx.zip Ly, by rw [List.length_zip]; omega, k1, fun q hq => ⟨hLx _ (List.of_mem_zip hq).1, hLy _ (List.of_mem_zip hq).2⟩, k2, fun q hq => ?_⟩
  exact k3 _ (List.mem_map_of_mem hq)

theorem RaceInv.step {st st' : DistRace} {e : DistEvent} (I : RaceInv F n pt st) (h : distStep grow F n pt st e = some (.ok st')) : RaceInv F n pt st' := by
  have same : Grown n pt st.mem st.mem st.next st.next := ⟨le_rfl, fun _ _ _ => Or.inl rfl⟩
  have pcs' : ∀ {i : ℕ} {x : DistPC} {mem' : ℕ → ℕ → ℕ × Fr} {next' : ℕ}, Grown n pt st.mem mem' st.next next' → x.good F n pt mem' next' → ∀ j, (upd st.pc i x j).good F n pt mem' next' := by
    intro i x mem' next' hg hx j
    by_cases hji : j = i
    · subst hji; rw [upd_same]; exact hx
    · rw [upd_ne _ _ hji]; exact good_mono (I.pcs j) hg
  have full' : ∀ {i : ℕ} {x : DistPC}, x ≠ .interpolated → (∃ j, upd st.pc i x j = .interpolated) ∨ 1 ≤ st.successes → Mixed F n pt st.full := by
    intro i x hx hj
    refine I.full (hj.imp ?_ id)
    rintro ⟨j, hj⟩
    by_cases hji : j = i
    · subst hji; rw [upd_same] at hj; exact absurd hj hx
    · rw [upd_ne _ _ hji] at hj; exact ⟨j, hj⟩
  have sbmem : ∀ {k : ℕ} {q : ℕ × Fr}, st.sb[k]? = some q → ∃ j < n, q = pt j := by
    intro k q hq
    rw [← at_sb, DistRace.at] at hq
    split at hq
    · rename_i hk
      cases hq
      exact I.sb.2 k hk
    · cases hq
  cases e with
  | count =>
    simp only [distStep] at h
    split at h
    · cases h; exact ⟨I.sb, I.pcs, I.full, I.told⟩
    · cases h
  | go i =>
    have hi : i < n := by
      by_contra hi
      simp only [distStep, if_neg hi] at h
      cases h
    have hg := I.pcs i
    cases hpc : st.pc i with
    | start =>
      rw [step_start hi hpc] at h
      cases h
      exact ⟨I.sb, pcs' same I.sb, full' (by simp), I.told.trans (told_upd (by rw [hpc]; exact fun h => by cases h))⟩
    | loaded hd =>
      rw [hpc] at hg
      by_cases hl : hd.len < hd.cap
      · rw [step_write hi hpc hl] at h
        cases h
        have gr : Grown n pt st.mem (upd st.mem hd.arr (upd (st.mem hd.arr) hd.len (pt i))) st.next st.next := by
          refine ⟨le_rfl, fun a _ t => ?_⟩
          by_cases ha : a = hd.arr
          · subst ha
            rw [upd_same]
            by_cases ht : t = hd.len
            · subst ht; rw [upd_same]; exact Or.inr ⟨i, hi, rfl⟩
            · rw [upd_ne _ _ ht]; exact Or.inl rfl
          · rw [upd_ne _ _ ha]; exact Or.inl rfl
        refine ⟨I.sb.mono gr, pcs' gr ⟨hg.1, fun t ht => ?_⟩, full' (by simp), I.told.trans (told_upd (by rw [hpc]; exact fun h => by cases h))⟩
        dsimp only at ht ⊢
        rw [upd_same]
        by_cases htl : t = hd.len
        · subst htl; rw [upd_same]; exact ⟨i, hi, rfl⟩
        · rw [upd_ne _ _ htl]; exact hg.2 t (by omega)
      · rw [step_full hi hpc hl] at h
        cases h
        exact ⟨I.sb, pcs' same ⟨hg, Nat.zero_le _, fun q hq => absurd hq List.not_mem_nil⟩, full' (by simp), I.told.trans (told_upd (by rw [hpc]; exact fun h => by cases h))⟩
    | growing hd cs =>
      rw [hpc] at hg
      obtain ⟨g1, g2, g3⟩ := hg
      by_cases hl : cs.length < hd.len
      · rw [step_copy hi hpc hl] at h
        cases h
        refine ⟨I.sb, pcs' same ⟨g1, by rw [List.length_append, List.length_singleton]; omega, fun q hq => ?_⟩, full' (by simp), I.told.trans (told_upd (by rw [hpc]; exact fun h => by cases h))⟩
        rcases List.mem_append.1 hq with hq | hq
        · exact g3 q hq
        · rw [List.mem_singleton.1 hq]; exact g1.2 _ hl
      · rw [step_alloc hi hpc hl] at h
        cases h
        have gr : Grown n pt st.mem (upd st.mem st.next fun t => (cs ++ [pt i]).getD t (0, 0)) st.next (st.next + 1) :=
          ⟨Nat.le_succ _, fun a ha t => Or.inl (by rw [upd_ne _ _ (by omega)])⟩
        refine ⟨I.sb.mono gr, pcs' gr ⟨Nat.lt_succ_self _, fun t ht => ?_⟩, full' (by simp), I.told.trans (told_upd (by rw [hpc]; exact fun h => by cases h))⟩
        dsimp only at ht ⊢
        have ht' : t < (cs ++ [pt i]).length := by rw [List.length_append, List.length_singleton]; omega
        rw [upd_same, List.getD_eq_getElem _ _ ht']
        rcases List.mem_append.1 (List.getElem_mem ht') with hq | hq
        · exact g3 _ hq
        · exact ⟨i, hi, List.mem_singleton.1 hq⟩
    | written hd =>
      rw [hpc] at hg
      rw [step_written hi hpc] at h
      cases h
      exact ⟨hg, pcs' same trivial, full' (by simp), I.told.trans (told_upd (by rw [hpc]; exact fun h => by cases h))⟩
    | stored =>
      by_cases hc : st.sent = false ∧ 2 * F + 1 ≤ st.sb.length
      · rw [step_stored_yes hi hpc hc.1 hc.2] at h
        cases h
        exact ⟨I.sb, pcs' same ⟨le_rfl, Nat.zero_le _, fun q hq => absurd hq List.not_mem_nil, fun q hq => absurd hq List.not_mem_nil⟩, full' (by simp), I.told.trans (told_upd (by rw [hpc]; exact fun h => by cases h))⟩
      · rw [step_stored_no hi hpc (by
          by_cases hs : st.sent = true
          · exact Or.inl hs
          · exact Or.inr (by rw [Bool.not_eq_true] at hs; by_contra hl; exact hc ⟨hs, by omega⟩))] at h
        cases h
        exact ⟨I.sb, pcs' same trivial, full' (by simp), I.told.trans (told_upd fun _ => rfl)⟩
    | reading xs ys =>
      rw [hpc] at hg
      obtain ⟨r1, r2, r3, r4⟩ := hg
      rcases step_reading hi hpc h with ⟨q, hl, hq, rfl⟩ | ⟨q, hl, hF, hq, rfl⟩ | ⟨f, hl, hF, hf, rfl⟩
      · obtain ⟨k, hk, rfl⟩ := sbmem hq
        refine ⟨I.sb, pcs' same ⟨by rw [List.length_append, List.length_singleton]; omega, r2, r3, fun y hy => ?_⟩, full' (by simp), I.told.trans (told_upd (by rw [hpc]; exact fun h => by cases h))⟩
        rcases List.mem_append.1 hy with hy | hy
        · exact r4 y hy
        · exact ⟨k, hk, List.mem_singleton.1 hy⟩
      · obtain ⟨k, hk, rfl⟩ := sbmem hq
        refine ⟨I.sb, pcs' same ⟨by rw [List.length_append, List.length_singleton]; omega, by rw [List.length_append, List.length_singleton]; omega, fun x hx => ?_, r4⟩, full' (by simp),
          I.told.trans (told_upd (by rw [hpc]; exact fun h => by cases h))⟩
        rcases List.mem_append.1 hx with hx | hx
        · exact r3 x hx
        · exact ⟨k, hk, List.mem_singleton.1 hx⟩
      · refine ⟨I.sb, pcs' same trivial, fun _ => ?_, I.told.trans (told_upd (by rw [hpc]; exact fun h => by cases h))⟩
        exact mixed_of_read (by omega) (by omega) r3 r4 hf
    | interpolated =>
      rw [step_interpolated hi hpc] at h
      cases h
      refine ⟨I.sb, pcs' same trivial, fun _ => I.full (Or.inl ⟨i, hpc⟩), ?_⟩
      exact (Nat.succ_le_succ I.told).trans (told_new hi (by rw [hpc]; rfl) rfl)
    | reported =>
      rw [step_reported hi hpc] at h
      cases h
      exact ⟨I.sb, pcs' same trivial, full' (by simp), I.told.trans (told_upd fun _ => rfl)⟩
    | marked =>
      by_cases hch : st.chan = 0
      · rw [step_marked hi hpc hch] at h
        cases h
        exact ⟨I.sb, pcs' same trivial, full' (by simp), I.told.trans (told_upd fun _ => rfl)⟩
      · rw [step_marked_blocked hpc hch] at h; cases h
    | done => rw [step_done hpc] at h; cases h

theorem RaceInv.init (full : List Fr) : RaceInv F n pt (DistRace.init full) :=
  ⟨⟨Nat.zero_lt_one, fun t ht => absurd ht (Nat.not_lt_zero t)⟩, fun _ => trivial, (fun h => by
    rcases h with ⟨i, h⟩ | h
    · cases h
    · exact absurd h (Nat.not_succ_le_zero 0)), Nat.zero_le _⟩

theorem RaceInv.run {es : List DistEvent} {st st' : DistRace} (I : RaceInv F n pt st) (h : distRun grow F n pt st es = some (.ok st')) : RaceInv F n pt st' := by
  induction es generalizing st with
  | nil => cases h; exact I
  | cons e es ih =>
    rw [distRun] at h
    cases hs : distStep grow F n pt st e with
    | none => rw [hs] at h; cases h
    | some r =>
      cases r with
      | error f => rw [hs] at h; cases h
      | ok st1 => rw [hs] at h; exact ih (I.step hs) h

/-! ## Uninterrupted goroutines -/

theorem distRun_split {es es' : List DistEvent} {st fin : DistRace} (h : distRun grow F n pt st (es ++ es') = some (.ok fin)) :
    ∃ st1, distRun grow F n pt st es = some (.ok st1) ∧ distRun grow F n pt st1 es' = some (.ok fin) := by
  induction es generalizing st with
  | nil => exact ⟨st, rfl, h⟩
  | cons e es ih =>
    rw [List.cons_append, distRun] at h
    rw [distRun]
    cases hs : distStep grow F n pt st e with
    | none => rw [hs] at h; cases h
    | some r =>
      cases r with
      | error f => rw [hs] at h; cases h
      | ok st2 => rw [hs] at h; exact ih h

theorem distStep_other {st st' : DistRace} {e : DistEvent} {i : ℕ} (he : e ≠ .go i) (h : distStep grow F n pt st e = some (.ok st')) : st'.pc i = st.pc i := by
  cases e with
  | count =>
    simp only [distStep] at h
    split at h <;> cases h
    rfl
  | go j =>
    have hij : i ≠ j := fun e' => he (by rw [e'])
    have key : ∀ {s : DistRace} {x : DistPC}, s.pc = upd st.pc j x → some (Except.ok s : Go DistRace) = some (.ok st') → st'.pc i = st.pc i := by
      intro s x hs h
      cases h
      rw [hs, upd_ne _ _ hij]
    have hstep := h
    simp only [distStep] at h
    split at h
    · unfold DistRace.go at h
      split at h
      · exact key rfl h
      · split at h <;> exact key rfl h
      · split at h <;> exact key rfl h
      · exact key rfl h
      · split at h <;> exact key rfl h
      · rename_i hj _ xs ys hpc
        rcases step_reading hj hpc hstep with ⟨q, -, -, rfl⟩ | ⟨q, -, -, -, rfl⟩ | ⟨f, -, -, -, rfl⟩
        all_goals exact upd_ne _ _ hij
      · exact key rfl h
      · exact key rfl h
      · split at h
        · exact key rfl h
        · cases h
      · cases h
    · cases h

theorem distRun_other {es : List DistEvent} {st st' : DistRace} {i : ℕ} (he : DistEvent.go i ∉ es) (h : distRun grow F n pt st es = some (.ok st')) : st'.pc i = st.pc i := by
  induction es generalizing st with
  | nil => cases h; rfl
  | cons e es ih =>
    rw [List.mem_cons, not_or] at he
    rw [distRun] at h
    cases hs : distStep grow F n pt st e with
    | none => rw [hs] at h; cases h
    | some r =>
      cases r with
      | error f => rw [hs] at h; cases h
      | ok st2 => rw [hs] at h; exact (ih he.2 h).trans (distStep_other (Ne.symm he.1) hs)

theorem block_done {k i : ℕ} {st st' : DistRace} (hpc : st.pc i = .done) (h : distRun grow F n pt st (List.replicate k (.go i)) = some (.ok st')) : st' = st := by
  cases k with
  | zero => cases h; rfl
  | succ k => rw [List.replicate_succ, distRun, step_done hpc] at h; cases h

/-- A goroutine that reads without interruption reads the first `2F+1` entries of one list. -/
theorem block_reads {k i : ℕ} {xs : List ℕ} {ys : List Fr} {st st1 : DistRace} (hi : i < n) (hxy : ys.length ≤ xs.length ∧ xs.length ≤ ys.length + 1 ∧ xs.length ≤ 2 * F + 1)
    (hx : xs = (st.sb.take xs.length).map (·.1)) (hy : ys = (st.sb.take ys.length).map (·.2))
    (h : distRun grow F n pt { st with pc := upd st.pc i (.reading xs ys) } (List.replicate k (.go i)) = some (.ok st1)) (hd : ∀ xs ys, st1.pc i ≠ .reading xs ys) :
    ∃ f k', lagrangeInterpolate (2 * F) ((st.sb.take (2 * F + 1)).map fun q => ((q.1 : ℕ) : Fr)) ((st.sb.take (2 * F + 1)).map (·.2)) = .ok f ∧
      distRun grow F n pt { st with full := f, pc := upd st.pc i .interpolated } (List.replicate k' (.go i)) = some (.ok st1) := by
  induction k generalizing xs ys with
  | zero => cases h; exact absurd (upd_same _ _ _) (hd xs ys)
  | succ k ih =>
    rw [List.replicate_succ, distRun] at h
    cases hs : distStep grow F n pt { st with pc := upd st.pc i (.reading xs ys) } (.go i) with
    | none => rw [hs] at h; cases h
    | some r =>
      cases r with
      | error f => rw [hs] at h; cases h
      | ok st2 =>
        rw [hs] at h
        dsimp only at h
        rcases step_reading (st := { st with pc := upd st.pc i (.reading xs ys) }) hi (upd_same _ _ _) hs with ⟨q, c1, hq, rfl⟩ | ⟨q, c1, c2, hq, rfl⟩ | ⟨f, c1, c2, hf, rfl⟩
        · replace hq : st.sb[ys.length]? = some q := hq
          dsimp only at h
          rw [upd_twice] at h
          refine ih ⟨by rw [List.length_append, List.length_singleton]; omega, by rw [List.length_append, List.length_singleton]; omega, hxy.2.2⟩ hx ?_ h
          rw [List.length_append, List.length_singleton, List.take_add_one, hq, List.map_append, ← hy]
          rfl
        · replace hq : st.sb[xs.length]? = some q := hq
          dsimp only at h
          rw [upd_twice] at h
          refine ih ⟨by rw [List.length_append, List.length_singleton]; omega, by rw [List.length_append, List.length_singleton]; omega, by rw [List.length_append, List.length_singleton]; omega⟩ ?_ hy h
          rw [List.length_append, List.length_singleton, List.take_add_one, hq, List.map_append, ← hx]
          rfl
        · dsimp only at h
          rw [upd_twice] at h
          have e1 : xs.length = 2 * F + 1 := by omega
          have e2 : ys.length = 2 * F + 1 := by omega
          rw [e1] at hx
          rw [e2] at hy
          rw [hx, hy, List.map_map] at hf
          exact ⟨f, k, hf, h⟩

/-- A goroutine that has interpolated and is not interrupted any more. -/
theorem block_finish {k i : ℕ} {st st1 : DistRace} (hi : i < n) (h : distRun grow F n pt { st with pc := upd st.pc i .interpolated } (List.replicate k (.go i)) = some (.ok st1)) (hd : st1.pc i = .done) :
    st1 = { st with successes := st.successes + 1, sent := true, chan := 1, pc := upd st.pc i .done } := by
  cases k with
  | zero =>
    cases h
    dsimp only at hd
    rw [upd_same] at hd; cases hd
  | succ k =>
    rw [List.replicate_succ, distRun_cons (step_interpolated hi (upd_same _ _ _))] at h
    dsimp only at h
    rw [upd_twice] at h
    cases k with
    | zero =>
      cases h
      dsimp only at hd
      rw [upd_same] at hd; cases hd
    | succ k =>
      rw [List.replicate_succ, distRun_cons (step_reported hi (upd_same _ _ _))] at h
      dsimp only at h
      rw [upd_twice] at h
      cases k with
      | zero =>
        cases h
        dsimp only at hd
        rw [upd_same] at hd; cases hd
      | succ k =>
        by_cases hch : st.chan = 0
        · rw [List.replicate_succ, distRun_cons (step_marked (st := { st with sent := true, successes := st.successes + 1, pc := upd st.pc i .marked }) hi (upd_same _ _ _) hch)] at h
          dsimp only at h
          rw [upd_twice] at h
          exact block_done (upd_same _ _ _) h
        · rw [List.replicate_succ, distRun, step_marked_blocked (st := { st with sent := true, successes := st.successes + 1, pc := upd st.pc i .marked }) (upd_same _ _ _) hch] at h
          cases h

/-- The copying of a slice. -/
theorem block_grow {k i : ℕ} {cs : List (ℕ × Fr)} {hd : SliceHdr} {st st1 : DistRace} (hi : i < n) (hpc : st.pc i = .growing hd cs) (hcs : cs = (st.view hd).take cs.length) (hle : cs.length ≤ hd.len)
    (h : distRun grow F n pt st (List.replicate k (.go i)) = some (.ok st1)) (hd1 : st1.pc i = .done) :
    ∃ k', distRun grow F n pt { st with mem := upd st.mem st.next (fun t => (st.view hd ++ [pt i]).getD t (0, 0)), next := st.next + 1, pc := upd st.pc i (.written ⟨st.next, hd.len + 1, grow hd.cap⟩) }
      (List.replicate k' (.go i)) = some (.ok st1) := by
  induction k generalizing cs st with
  | zero => cases h; rw [hpc] at hd1; cases hd1
  | succ k ih =>
    rw [List.replicate_succ] at h
    by_cases hl : cs.length < hd.len
    · rw [distRun_cons (step_copy hi hpc hl)] at h
      obtain ⟨k', h'⟩ := ih (cs := cs ++ [st.mem hd.arr cs.length]) (upd_same _ _ _) (by
        have : (st.view hd)[cs.length]? = some (st.mem hd.arr cs.length) := by
          unfold DistRace.view
          rw [List.getElem?_map, List.getElem?_range hl]
          rfl
        show _ = (st.view hd).take _
        rw [List.length_append, List.length_singleton, List.take_add_one, this, ← hcs]
        rfl) (by rw [List.length_append, List.length_singleton]; omega) h
      refine ⟨k', ?_⟩
      dsimp only at h'
      rw [upd_twice] at h'
      exact h'
    · rw [distRun_cons (step_alloc hi hpc hl)] at h
      have e : cs = st.view hd := by rw [hcs, List.take_of_length_le (by rw [view_length]; omega)]
      rw [e] at h
      exact ⟨k, h⟩

/-- An uninterrupted `append`. -/
theorem block_append {k i : ℕ} {st st1 : DistRace} (hi : i < n) (hpc : st.pc i = .start) (h : distRun grow F n pt st (List.replicate k (.go i)) = some (.ok st1)) (hd : st1.pc i = .done) :
    ∃ mem next SB k', ({ st with mem := mem, next := next, SB := SB, pc := upd st.pc i .stored } : DistRace).sb = st.sb ++ [pt i] ∧
      distRun grow F n pt { st with mem := mem, next := next, SB := SB, pc := upd st.pc i .stored } (List.replicate k' (.go i)) = some (.ok st1) := by
  have last : ∀ {k : ℕ} {mem : ℕ → ℕ → ℕ × Fr} {next : ℕ} {hdr : SliceHdr} {pc : ℕ → DistPC},
      distRun grow F n pt { st with mem := mem, next := next, pc := upd pc i (.written hdr) } (List.replicate k (.go i)) = some (.ok st1) →
      ∃ k', distRun grow F n pt { st with mem := mem, next := next, SB := hdr, pc := upd pc i .stored } (List.replicate k' (.go i)) = some (.ok st1) := by
    intro k mem next hdr pc h
    cases k with
    | zero =>
      cases h
      dsimp only at hd
      rw [upd_same] at hd; cases hd
    | succ k =>
      rw [List.replicate_succ, distRun_cons (step_written hi (upd_same _ _ _))] at h
      dsimp only at h
      rw [upd_twice] at h
      exact ⟨k, h⟩
  rcases k with _ | _ | k
  · cases h; rw [hpc] at hd; cases hd
  · rw [List.replicate_succ, List.replicate_zero, distRun_cons (step_start hi hpc)] at h
    cases h
    dsimp only at hd
    rw [upd_same] at hd; cases hd
  · rw [List.replicate_succ, List.replicate_succ, distRun_cons (step_start hi hpc)] at h
    by_cases hl : st.SB.len < st.SB.cap
    · rw [distRun_cons (step_write (st := { st with pc := upd st.pc i (.loaded st.SB) }) hi (upd_same _ _ _) hl)] at h
      dsimp only at h
      rw [upd_twice] at h
      obtain ⟨k', h'⟩ := last h
      exact ⟨_, _, _, k', view_write st st.SB (pt i), h'⟩
    · rw [distRun_cons (step_full (st := { st with pc := upd st.pc i (.loaded st.SB) }) hi (upd_same _ _ _) hl)] at h
      dsimp only at h
      rw [upd_twice] at h
      obtain ⟨k', h'⟩ := block_grow (st := { st with pc := upd st.pc i (.growing st.SB []) }) hi (upd_same _ _ _) rfl (Nat.zero_le _) h hd
      dsimp only at h'
      rw [upd_twice] at h'
      obtain ⟨k', h'⟩ := last h'
      exact ⟨_, _, _, k', view_new st st.SB (grow st.SB.cap) (st.next + 1) (st.view st.SB) (pt i) (view_length _ _), h'⟩

theorem block_turn {k i : ℕ} {st st1 : DistRace} (hi : i < n) (hpc : st.pc i = .start) (h : distRun grow F n pt st (List.replicate k (.go i)) = some (.ok st1)) (hd : st1.pc i = .done) :
    st1.sb = st.sb ++ [pt i] ∧
    (((st.sent = true ∨ st.sb.length < 2 * F) ∧ st1.sent = st.sent ∧ st1.full = st.full ∧ st1.successes = st.successes) ∨
    (st.sent = false ∧ 2 * F ≤ st.sb.length ∧ st1.sent = true ∧ st1.successes = st.successes + 1 ∧
      lagrangeInterpolate (2 * F) (((st.sb ++ [pt i]).take (2 * F + 1)).map fun q => ((q.1 : ℕ) : Fr)) (((st.sb ++ [pt i]).take (2 * F + 1)).map (·.2)) = .ok st1.full)) := by
  obtain ⟨mem, next, SB, k', hv, h'⟩ := block_append hi hpc h hd
  have hlen : ({ st with mem := mem, next := next, SB := SB, pc := upd st.pc i .stored } : DistRace).sb.length = st.sb.length + 1 := by rw [hv, List.length_append, List.length_singleton]
  cases k' with
  | zero =>
    cases h'
    dsimp only at hd
    rw [upd_same] at hd; cases hd
  | succ k =>
    rw [List.replicate_succ] at h'
    by_cases hc : st.sent = false ∧ 2 * F + 1 ≤ ({ st with mem := mem, next := next, SB := SB, pc := upd st.pc i .stored } : DistRace).sb.length
    · rw [distRun_cons (step_stored_yes (st := { st with mem := mem, next := next, SB := SB, pc := upd st.pc i .stored }) hi (upd_same _ _ _) hc.1 hc.2)] at h'
      have hnr : ∀ xs ys, st1.pc i ≠ .reading xs ys := fun xs ys he => by rw [hd] at he; cases he
      obtain ⟨f, k, hf, h'⟩ := block_reads (st := { st with mem := mem, next := next, SB := SB, pc := upd st.pc i .stored }) hi ⟨le_rfl, Nat.le_succ _, Nat.zero_le _⟩ rfl rfl h' hnr
      rw [hv] at hf
      obtain rfl := block_finish (st := { st with mem := mem, next := next, SB := SB, full := f, pc := upd st.pc i .stored }) hi h' hd
      exact ⟨hv, Or.inr ⟨hc.1, by omega, rfl, rfl, hf⟩⟩
    · have hc' : st.sent = true ∨ st.sb.length < 2 * F := by
        by_cases hs : st.sent = true
        · exact Or.inl hs
        · exact Or.inr (by rw [Bool.not_eq_true] at hs; by_contra hl; exact hc ⟨hs, by omega⟩)
      rw [distRun_cons (step_stored_no (st := { st with mem := mem, next := next, SB := SB, pc := upd st.pc i .stored }) hi (upd_same _ _ _) (hc'.imp id fun h => by omega))] at h'
      obtain rfl := block_done (upd_same _ _ _) h'
      exact ⟨hv, Or.inl ⟨hc', rfl, rfl, rfl⟩⟩

/-- A goroutine that is not interrupted from its test on. -/
theorem block_test {k i : ℕ} {st st1 : DistRace} (hi : i < n) (hpc : st.pc i = .stored) (h : distRun grow F n pt st (List.replicate k (.go i)) = some (.ok st1)) (hd : st1.pc i = .done) :
    (st1.full = st.full ∧ st1.successes = st.successes) ∨
    (st1.successes = st.successes + 1 ∧ 2 * F + 1 ≤ st.sb.length ∧
      lagrangeInterpolate (2 * F) ((st.sb.take (2 * F + 1)).map fun q => ((q.1 : ℕ) : Fr)) ((st.sb.take (2 * F + 1)).map (·.2)) = .ok st1.full) := by
  cases k with
  | zero => cases h; rw [hpc] at hd; cases hd
  | succ k =>
    rw [List.replicate_succ] at h
    by_cases hc : st.sent = false ∧ 2 * F + 1 ≤ st.sb.length
    · rw [distRun_cons (step_stored_yes hi hpc hc.1 hc.2)] at h
      have hnr : ∀ xs ys, st1.pc i ≠ .reading xs ys := fun xs ys he => by rw [hd] at he; cases he
      obtain ⟨f, k, hf, h⟩ := block_reads hi ⟨le_rfl, Nat.le_succ _, Nat.zero_le _⟩ rfl rfl h hnr
      obtain rfl := block_finish (st := { st with full := f }) hi h hd
      exact Or.inr ⟨rfl, hc.2, hf⟩
    · rw [distRun_cons (step_stored_no hi hpc (by
        by_cases hs : st.sent = true
        · exact Or.inl hs
        · exact Or.inr (by rw [Bool.not_eq_true] at hs; by_contra hl; exact hc ⟨hs, by omega⟩)))] at h
      obtain rfl := block_done (upd_same _ _ _) h
      exact Or.inl ⟨rfl, rfl⟩

/-- What uninterrupted goroutines leave behind. -/
structure Serial (F : ℕ) (pt : ℕ → ℕ × Fr) (full : List Fr) (L : List ℕ) (st : DistRace) : Prop where
  sb : st.sb = L.map pt
  sent : st.sent = decide (2 * F + 1 ≤ L.length)
  successes : st.successes = if 2 * F + 1 ≤ L.length then 1 else 0
  before : L.length < 2 * F + 1 → st.full = full
  after : 2 * F + 1 ≤ L.length → lagrangeInterpolate (2 * F) ((L.take (2 * F + 1)).map fun i => (((pt i).1 : ℕ) : Fr)) ((L.take (2 * F + 1)).map fun i => (pt i).2) = .ok st.full

theorem Serial.turn {full : List Fr} {L : List ℕ} {st st1 : DistRace} {k i : ℕ} (I : Serial F pt full L st) (hi : i < n) (hpc : st.pc i = .start)
    (h : distRun grow F n pt st (List.replicate k (.go i)) = some (.ok st1)) (hd : st1.pc i = .done) : Serial F pt full (L ++ [i]) st1 := by
  have hlen : st.sb.length = L.length := by rw [I.sb, List.length_map]
  have hsb : st.sb ++ [pt i] = (L ++ [i]).map pt := by rw [I.sb, List.map_append]; rfl
  obtain ⟨k1, ⟨hc, k2, k3, k4⟩ | ⟨hs, hl, k2, k4, hf⟩⟩ := block_turn hi hpc h hd
  · rw [I.sent, decide_eq_true_eq, hlen] at hc
    rcases hc with hc | hc
    · have hc' : 2 * F + 1 ≤ (L ++ [i]).length := by rw [List.length_append]; omega
      refine ⟨k1.trans hsb, by rw [k2, I.sent, decide_eq_true hc, decide_eq_true hc'], by rw [k4, I.successes, if_pos hc, if_pos hc'], fun h => absurd h (by omega), fun _ => ?_⟩
      rw [List.take_append_of_le_length hc, k3]
      exact I.after hc
    · have hc' : ¬ 2 * F + 1 ≤ (L ++ [i]).length := by rw [List.length_append, List.length_singleton]; omega
      refine ⟨k1.trans hsb, by rw [k2, I.sent, decide_eq_false (by omega), decide_eq_false hc'], by rw [k4, I.successes, if_neg (by omega), if_neg hc'], fun _ => k3.trans (I.before (by omega)), fun h => absurd h hc'⟩
  · rw [I.sent, decide_eq_false_iff_not] at hs
    rw [hlen] at hl
    have hc' : 2 * F + 1 ≤ (L ++ [i]).length := by rw [List.length_append, List.length_singleton]; omega
    refine ⟨k1.trans hsb, by rw [k2, decide_eq_true hc'], by rw [k4, I.successes, if_neg hs, if_pos hc'], fun h => absurd h (by omega), fun _ => ?_⟩
    rw [hsb, ← List.map_take, List.map_map, List.map_map] at hf
    exact hf

theorem Serial.blocks {full : List Fr} {k : ℕ → ℕ} {L L0 : List ℕ} {st st1 : DistRace} (I : Serial F pt full L0 st) (hnd : L.Nodup) (hi : ∀ i ∈ L, i < n ∧ st.pc i = .start)
    (h : distRun grow F n pt st (L.flatMap fun i => List.replicate (k i) (.go i)) = some (.ok st1)) (hd : ∀ i ∈ L, st1.pc i = .done) : Serial F pt full (L0 ++ L) st1 := by
  induction L generalizing st L0 with
  | nil => cases h; rw [List.append_nil]; exact I
  | cons a L ih =>
    rw [List.nodup_cons] at hnd
    rw [List.flatMap_cons] at h
    obtain ⟨s1, h1, h2⟩ := distRun_split h
    have hmem : ∀ {i : ℕ} {L' : List ℕ}, i ∉ L' → DistEvent.go i ∉ L'.flatMap fun i => List.replicate (k i) (.go i) := by
      intro i L' hi hm
      obtain ⟨j, hj, hm⟩ := List.mem_flatMap.1 hm
      have := List.eq_of_mem_replicate hm
      cases this
      exact hi hj
    have hs1 : s1.pc a = .done := by rw [← distRun_other (hmem hnd.1) h2]; exact hd a (List.mem_cons_self ..)
    have := I.turn (hi a (List.mem_cons_self ..)).1 (hi a (List.mem_cons_self ..)).2 h1 hs1
    have := ih this hnd.2 (fun j hj => by
      refine ⟨(hi j (List.mem_cons_of_mem _ hj)).1, ?_⟩
      rw [distRun_other (fun hm => by
        have := List.eq_of_mem_replicate hm
        cases this
        exact hnd.1 hj) h1]
      exact (hi j (List.mem_cons_of_mem _ hj)).2) h2 (fun j hj => hd j (List.mem_cons_of_mem _ hj))
    rwa [List.append_assoc] at this

end DyCAPS
