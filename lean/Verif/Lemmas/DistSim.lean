import Verif.Lemmas.DistRace

/-! Schedules of the machine with lists (`Lemmas/DistValue`) are schedules of the machine with arrays (`Model/DistRace`), with more steps for `append`. -/

namespace DyCAPS

variable {grow : ℕ → ℕ} {F n : ℕ} {pt : ℕ → ℕ × Fr}

/-- A goroutine stands at the same place in both machines. -/
def SamePC (st : DistRace) : ValPC → DistPC → Prop
  | .start, .start => True
  | .loaded s, .loaded h => h.arr < st.next ∧ st.view h = s
  | .stored, .stored => True
  | .reading xs ys, .reading xs' ys' => xs = xs' ∧ ys = ys'
  | .interpolated, .interpolated => True
  | .reported, .reported => True
  | .marked, .marked => True
  | .done, .done => True
  | _, _ => False

/-- The two machines are in the same state. -/
structure Sim (v : DistVal) (st : DistRace) : Prop where
  arr : st.SB.arr < st.next
  sb : st.sb = v.SB
  sent : st.sent = v.sent
  full : st.full = v.full
  successes : st.successes = v.successes
  chan : st.chan = v.chan
  counting : st.counting = v.counting
  pc : ∀ i, SamePC st (v.pc i) (st.pc i)

theorem Sim.init (full : List Fr) : Sim (DistVal.init full) (DistRace.init full) := ⟨Nat.zero_lt_one, rfl, rfl, rfl, rfl, rfl, rfl, fun _ => trivial⟩

theorem SamePC.mono {st st' : DistRace} {x : ValPC} {y : DistPC} (h : SamePC st x y) (hv : ∀ s hd, x = .loaded s → y = .loaded hd → hd.arr < st'.next ∧ st'.view hd = st.view hd) : SamePC st' x y := by
  cases x <;> cases y <;> first | exact h | skip
  rename_i s hd
  have := hv s hd rfl rfl
  exact ⟨this.1, this.2.trans h.2⟩

theorem Sim.pcs {v : DistVal} {st st' : DistRace} (S : Sim v st) {i : ℕ} {x : ValPC} {y : DistPC} (hpc : st'.pc = upd st.pc i y) (hx : SamePC st' x y)
    (hv : ∀ j s hd, j ≠ i → v.pc j = .loaded s → st.pc j = .loaded hd → hd.arr < st'.next ∧ st'.view hd = st.view hd) (j : ℕ) : SamePC st' (upd v.pc i x j) (st'.pc j) := by
  rw [hpc]
  by_cases hji : j = i
  · subst hji; rw [upd_same, upd_same]; exact hx
  · rw [upd_ne _ _ hji, upd_ne _ _ hji]; exact (S.pc j).mono fun s hd => hv j s hd hji

/-- Nothing happens to the arrays. -/
theorem Sim.quiet {v : DistVal} {st : DistRace} (S : Sim v st) {i : ℕ} {x : ValPC} {y : DistPC} (hx : SamePC st x y) (j : ℕ) : SamePC st (upd v.pc i x j) (upd st.pc i y j) := by
  by_cases hji : j = i
  · subst hji; rw [upd_same, upd_same]; exact hx
  · rw [upd_ne _ _ hji, upd_ne _ _ hji]; exact S.pc j

/-- Copying a full array. -/
theorem run_copy {st : DistRace} {i : ℕ} {hd : SliceHdr} (hi : i < n) (m : ℕ) {cs : List (ℕ × Fr)} (hm : cs.length + m = hd.len) (hpc : st.pc i = .growing hd cs) (hcs : cs = (st.view hd).take cs.length) :
    distRun grow F n pt st (List.replicate m (.go i)) = some (.ok { st with pc := upd st.pc i (.growing hd (st.view hd)) }) := by
  induction m generalizing cs st with
  | zero =>
    have e : cs = st.view hd := by rw [hcs, List.take_of_length_le (by rw [view_length]; omega)]
    have : upd st.pc i (.growing hd (st.view hd)) = st.pc := by
      funext j
      by_cases hj : j = i
      · subst hj; rw [upd_same, hpc, ← e]
      · rw [upd_ne _ _ hj]
    rw [this]
    rfl
  | succ m ih =>
    rw [List.replicate_succ, distRun_cons (step_copy hi hpc (by omega)), ih (cs := cs ++ [st.mem hd.arr cs.length]) (by rw [List.length_append, List.length_singleton]; omega) (upd_same _ _ _) (by
      have : (st.view hd)[cs.length]? = some (st.mem hd.arr cs.length) := by
        unfold DistRace.view
        rw [List.getElem?_map, List.getElem?_range (by omega)]
        rfl
      show _ = (st.view hd).take _
      rw [List.length_append, List.length_singleton, List.take_add_one, this, ← hcs]
      rfl)]
    dsimp only
    rw [upd_twice]
    rfl

/-- Writing the element and the header. -/
theorem sim_store {v : DistVal} {st : DistRace} (S : Sim v st) {i : ℕ} {s : List (ℕ × Fr)} (hi : i < n) (hpc : v.pc i = .loaded s) (hcalm : Calm v.pc s.length) :
    ∃ es st', distRun grow F n pt st es = some (.ok st') ∧ Sim { v with SB := s ++ [pt i], pc := upd v.pc i .stored } st' := by
  have hp := S.pc i
  rw [hpc] at hp
  cases hy : st.pc i with
  | loaded hd =>
    rw [hy] at hp
    obtain ⟨ha, hs⟩ := hp
    have hl : s.length = hd.len := by rw [← hs, view_length]
    by_cases hc : hd.len < hd.cap
    · refine ⟨[.go i, .go i], { st with mem := upd st.mem hd.arr (upd (st.mem hd.arr) hd.len (pt i)), SB := ⟨hd.arr, hd.len + 1, hd.cap⟩, pc := upd st.pc i .stored }, ?_, ?_⟩
      · rw [distRun_cons (step_write hi hy hc), distRun_cons (step_written hi (upd_same _ _ _))]
        dsimp only
        rw [upd_twice]
        rfl
      · refine ⟨ha, ?_, S.sent, S.full, S.successes, S.chan, S.counting, S.pcs rfl trivial ?_⟩
        · exact (view_write st hd (pt i)).trans (by rw [hs])
        · intro j s' hd' hj hv' hst
          have := S.pc j
          rw [hv', hst] at this
          refine ⟨this.1, view_other st hd hd' (pt i) fun _ => ?_⟩
          have h1 := hcalm j s' hv'
          have h2 : s'.length = hd'.len := by rw [← this.2, view_length]
          omega
    · refine ⟨.go i :: (List.replicate hd.len (.go i) ++ [.go i, .go i]),
        { st with mem := upd st.mem st.next (fun t => (st.view hd ++ [pt i]).getD t (0, 0)), next := st.next + 1, SB := ⟨st.next, hd.len + 1, grow hd.cap⟩, pc := upd st.pc i .stored }, ?_, ?_⟩
      · rw [distRun_cons (step_full hi hy hc), distRun_append (run_copy hi hd.len (cs := []) (Nat.zero_add _) (upd_same _ _ _) rfl)]
        dsimp only
        rw [upd_twice, distRun_cons (step_alloc hi (upd_same _ _ _) (by rw [view_length]; exact lt_irrefl _)), distRun_cons (step_written hi (upd_same _ _ _))]
        dsimp only
        rw [upd_twice, upd_twice]
        rfl
      · refine ⟨Nat.lt_succ_self _, ?_, S.sent, S.full, S.successes, S.chan, S.counting, S.pcs rfl trivial ?_⟩
        · exact (view_new st hd (grow hd.cap) (st.next + 1) (st.view hd) (pt i) (view_length _ _)).trans (by rw [hs])
        · intro j s' hd' hj hv' hst
          have := S.pc j
          rw [hv', hst] at this
          exact ⟨Nat.lt_succ_of_lt this.1, view_old st hd' _ (st.next + 1) this.1⟩
  | _ => rw [hy] at hp; exact hp.elim

/-- What one step of the machine with lists does, the machine with arrays can do. -/
theorem sim_step {v v' : DistVal} {st : DistRace} {e : DistEvent} (S : Sim v st) (h : valStep F n pt v e = some (.ok v')) : ∃ es st', distRun grow F n pt st es = some (.ok st') ∧ Sim v' st' := by
  have one : ∀ {st' : DistRace}, distStep grow F n pt st e = some (.ok st') → Sim v' st' → ∃ es st', distRun grow F n pt st es = some (.ok st') ∧ Sim v' st' :=
    fun {st'} h1 h2 => ⟨[e], st', by rw [distRun_cons h1]; rfl, h2⟩
  cases e with
  | count =>
    simp only [valStep] at h
    split at h
    · rename_i hc
      cases h
      refine one (st' := { st with chan := 0, counting := true }) ?_ ⟨S.arr, S.sb, S.sent, S.full, S.successes, rfl, rfl, fun j => S.pc j⟩
      simp only [distStep, S.chan, S.counting, hc, and_self, if_true]
    · cases h
  | go i =>
    have hi : i < n := by
      by_contra hi
      simp only [valStep, if_neg hi] at h
      cases h
    have hp := S.pc i
    cases hv : v.pc i with
    | start =>
      rw [hv] at hp
      cases hy : st.pc i with
      | start =>
        rw [val_start hi hv] at h
        cases h
        exact one (step_start hi hy) ⟨S.arr, S.sb, S.sent, S.full, S.successes, S.chan, S.counting, S.quiet (i := i) (x := .loaded v.SB) (y := .loaded st.SB) ⟨S.arr, S.sb⟩⟩
      | _ => rw [hy] at hp; exact hp.elim
    | loaded s =>
      by_cases hcalm : Calm v.pc s.length
      · rw [val_loaded hi hv hcalm] at h
        cases h
        exact sim_store S hi hv hcalm
      · simp only [valStep, if_pos hi, DistVal.go, hv, if_neg hcalm] at h
        cases h
    | stored =>
      rw [hv] at hp
      cases hy : st.pc i with
      | stored =>
        by_cases hc : v.sent = false ∧ 2 * F + 1 ≤ v.SB.length
        · rw [val_stored_yes hi hv hc.1 hc.2] at h
          cases h
          exact one (step_stored_yes hi hy (S.sent.trans hc.1) (by rw [S.sb]; exact hc.2))
            ⟨S.arr, S.sb, S.sent, S.full, S.successes, S.chan, S.counting, S.quiet (i := i) (x := .reading [] []) (y := .reading [] []) ⟨rfl, rfl⟩⟩
        · have hc' : v.sent = true ∨ v.SB.length < 2 * F + 1 := by
            by_cases hs : v.sent = true
            · exact Or.inl hs
            · exact Or.inr (by rw [Bool.not_eq_true] at hs; by_contra hl; exact hc ⟨hs, by omega⟩)
          rw [val_stored_no hi hv hc'] at h
          cases h
          exact one (step_stored_no hi hy (by rw [S.sent, S.sb]; exact hc'))
            ⟨S.arr, S.sb, S.sent, S.full, S.successes, S.chan, S.counting, S.quiet (i := i) (x := .done) (y := .done) trivial⟩
      | _ => rw [hy] at hp; exact hp.elim
    | reading xs ys =>
      rw [hv] at hp
      cases hy : st.pc i with
      | reading xs' ys' =>
        rw [hy] at hp
        obtain ⟨rfl, rfl⟩ := hp
        rcases val_reading hi hv h with ⟨q, hl, hq, rfl⟩ | ⟨q, hl, hF, hq, rfl⟩ | ⟨f, hl, hF, hf, rfl⟩
        · exact one (step_readY hi hy hl (by rw [S.sb]; exact hq)) ⟨S.arr, S.sb, S.sent, S.full, S.successes, S.chan, S.counting, S.quiet (i := i) (x := .reading xs _) (y := .reading xs _) ⟨rfl, rfl⟩⟩
        · exact one (step_readX hi hy hl hF (by rw [S.sb]; exact hq)) ⟨S.arr, S.sb, S.sent, S.full, S.successes, S.chan, S.counting, S.quiet (i := i) (x := .reading _ ys) (y := .reading _ ys) ⟨rfl, rfl⟩⟩
        · exact one (step_interpolate hi hy hl hF hf) ⟨S.arr, S.sb, S.sent, rfl, S.successes, S.chan, S.counting, S.quiet (i := i) (x := .interpolated) (y := .interpolated) trivial⟩
      | _ => rw [hy] at hp; exact hp.elim
    | interpolated =>
      rw [hv] at hp
      cases hy : st.pc i with
      | interpolated =>
        rw [val_interpolated hi hv] at h
        cases h
        exact one (step_interpolated hi hy) ⟨S.arr, S.sb, S.sent, S.full, congrArg (· + 1) S.successes, S.chan, S.counting, S.quiet (i := i) (x := .reported) (y := .reported) trivial⟩
      | _ => rw [hy] at hp; exact hp.elim
    | reported =>
      rw [hv] at hp
      cases hy : st.pc i with
      | reported =>
        rw [val_reported hi hv] at h
        cases h
        exact one (step_reported hi hy) ⟨S.arr, S.sb, rfl, S.full, S.successes, S.chan, S.counting, S.quiet (i := i) (x := .marked) (y := .marked) trivial⟩
      | _ => rw [hy] at hp; exact hp.elim
    | marked =>
      rw [hv] at hp
      cases hy : st.pc i with
      | marked =>
        by_cases hch : v.chan = 0
        · rw [val_marked hi hv hch] at h
          cases h
          exact one (step_marked hi hy (S.chan.trans hch)) ⟨S.arr, S.sb, S.sent, S.full, S.successes, rfl, S.counting, S.quiet (i := i) (x := .done) (y := .done) trivial⟩
        · rw [val_marked_blocked hv hch] at h; cases h
      | _ => rw [hy] at hp; exact hp.elim
    | done => rw [val_done hv] at h; cases h

/-- A fault of the machine with lists is a fault of the machine with arrays. -/
theorem sim_fault {v : DistVal} {st : DistRace} {e : DistEvent} {f : Fault} (S : Sim v st) (h : valStep F n pt v e = some (.error f)) : distStep grow F n pt st e = some (.error f) := by
  cases e with
  | count =>
    simp only [valStep] at h
    split at h <;> cases h
  | go i =>
    have hi : i < n := by
      by_contra hi
      simp only [valStep, if_neg hi] at h
      cases h
    have hp := S.pc i
    simp only [valStep, if_pos hi, DistVal.go] at h
    cases hv : v.pc i with
    | reading xs ys =>
      rw [hv] at hp h
      cases hy : st.pc i with
      | reading xs' ys' =>
        rw [hy] at hp
        obtain ⟨rfl, rfl⟩ := hp
        simp only [distStep, if_pos hi, DistRace.go, hy, at_sb, S.sb]
        dsimp only at h
        split at h
        · rename_i hl
          rw [if_pos hl]
          cases hq : v.SB[ys.length]? with
          | none => rw [hq] at h; dsimp only at h ⊢; cases h; rfl
          | some q => rw [hq] at h; cases h
        · rename_i hl
          rw [if_neg hl]
          split at h
          · rename_i hF
            rw [if_pos hF]
            cases hq : v.SB[xs.length]? with
            | none => rw [hq] at h; dsimp only at h ⊢; cases h; rfl
            | some q => rw [hq] at h; cases h
          · rename_i hF
            rw [if_neg hF]
            cases hf : lagrangeInterpolate (2 * F) (xs.map fun x => ((x : ℕ) : Fr)) ys with
            | error er => rw [hf] at h; cases h; rfl
            | ok g => rw [hf] at h; cases h
      | _ => rw [hy] at hp; exact hp.elim
    | stored =>
      rw [hv] at h
      dsimp only at h
      split at h <;> cases h
    | loaded s =>
      rw [hv] at h
      dsimp only at h
      split at h <;> cases h
    | marked =>
      rw [hv] at h
      dsimp only at h
      split at h <;> cases h
    | _ => rw [hv] at h; cases h

theorem sim_run {es : List DistEvent} {v v' : DistVal} {st : DistRace} (S : Sim v st) (h : valRun F n pt v es = some (.ok v')) : ∃ es' st', distRun grow F n pt st es' = some (.ok st') ∧ Sim v' st' := by
  induction es generalizing v st with
  | nil => cases h; exact ⟨[], st, rfl, S⟩
  | cons e es ih =>
    rw [valRun] at h
    cases hs : valStep F n pt v e with
    | none => rw [hs] at h; cases h
    | some r =>
      cases r with
      | error f => rw [hs] at h; cases h
      | ok v1 =>
        rw [hs] at h
        obtain ⟨es1, st1, h1, S1⟩ := sim_step (grow := grow) S hs
        obtain ⟨es2, st2, h2, S2⟩ := ih S1 h
        exact ⟨es1 ++ es2, st2, (distRun_append h1).trans h2, S2⟩

theorem sim_run_fault {es : List DistEvent} {v : DistVal} {st : DistRace} {f : Fault} (S : Sim v st) (h : valRun F n pt v es = some (.error f)) : ∃ es', distRun grow F n pt st es' = some (.error f) := by
  induction es generalizing v st with
  | nil => cases h
  | cons e es ih =>
    rw [valRun] at h
    cases hs : valStep F n pt v e with
    | none => rw [hs] at h; cases h
    | some r =>
      cases r with
      | error f' =>
        rw [hs] at h
        cases h
        exact ⟨[e], by rw [distRun, sim_fault S hs]⟩
      | ok v1 =>
        rw [hs] at h
        obtain ⟨es1, st1, h1, S1⟩ := sim_step (grow := grow) S hs
        obtain ⟨es2, h2⟩ := ih S1 h
        exact ⟨es1 ++ es2, (distRun_append h1).trans h2⟩

theorem Sim.done {v : DistVal} {st : DistRace} (S : Sim v st) {i : ℕ} (h : v.pc i = .done) : st.pc i = .done := by
  have := S.pc i
  rw [h] at this
  cases hy : st.pc i <;> rw [hy] at this <;> first | rfl | exact this.elim

theorem Sim.marked {v : DistVal} {st : DistRace} (S : Sim v st) {i : ℕ} (h : v.pc i = .marked) : st.pc i = .marked := by
  have := S.pc i
  rw [h] at this
  cases hy : st.pc i <;> rw [hy] at this <;> first | rfl | exact this.elim

/-- Nothing can happen when all goroutines have left or wait for a channel that stays full. -/
theorem dist_stuck {st : DistRace} (h : ∀ i < n, st.pc i = .done ∨ st.pc i = .marked ∧ st.chan ≠ 0) (hc : st.chan = 0 ∨ st.counting = true) (e : DistEvent) : distStep grow F n pt st e = none := by
  cases e with
  | count =>
    simp only [distStep]
    rw [if_neg]
    rintro ⟨h1, h2⟩
    rcases hc with hc | hc
    · omega
    · rw [h2] at hc; cases hc
  | go i =>
    by_cases hi : i < n
    · rcases h i hi with h | ⟨h, h'⟩
      · exact step_done h
      · exact step_marked_blocked h h'
    · simp only [distStep, if_neg hi]

/-- Once line 686 has been passed and the channel is full again, it stays so. -/
theorem full_step {st st' : DistRace} {e : DistEvent} (hc : st.chan = 1) (hk : st.counting = true) (h : distStep grow F n pt st e = some (.ok st')) : st'.chan = 1 ∧ st'.counting = true := by
  cases e with
  | count =>
    simp only [distStep, hk] at h
    rw [if_neg (by simp)] at h
    cases h
  | go i =>
    by_cases hi : i < n
    · cases hpc : st.pc i with
      | start => rw [step_start hi hpc] at h; cases h; exact ⟨hc, hk⟩
      | reading xs ys =>
        rcases step_reading hi hpc h with ⟨_, _, _, rfl⟩ | ⟨_, _, _, _, rfl⟩ | ⟨_, _, _, _, rfl⟩ <;> exact ⟨hc, hk⟩
      | interpolated => rw [step_interpolated hi hpc] at h; cases h; exact ⟨hc, hk⟩
      | reported => rw [step_reported hi hpc] at h; cases h; exact ⟨hc, hk⟩
      | marked => rw [step_marked_blocked hpc (by omega)] at h; cases h
      | done => rw [step_done hpc] at h; cases h
      | written hd => rw [step_written hi hpc] at h; cases h; exact ⟨hc, hk⟩
      | _ =>
        simp only [distStep, if_pos hi, DistRace.go, hpc] at h
        split at h <;> (cases h; exact ⟨hc, hk⟩)
    · simp only [distStep, if_neg hi] at h; cases h

/-- With everybody at line 671, two goroutines leave and the others wait. -/
theorem run_leave {st : DistRace} (hn : 2 ≤ n) (h : ∀ i < n, st.pc i = .marked) (hc : st.chan = 0) (hk : st.counting = false) :
    ∃ st', distRun grow F n pt st [.go 0, .count, .go 1] = some (.ok st') ∧ st'.successes = st.successes ∧ (∀ i < n, 2 ≤ i → st'.pc i = .marked) ∧ ∀ e, distStep grow F n pt st' e = none := by
  refine ⟨{ st with chan := 1, counting := true, pc := upd (upd st.pc 0 .done) 1 .done }, ?_, rfl, ?_, dist_stuck ?_ (Or.inr rfl)⟩
  · rw [distRun_cons (step_marked (by omega) (h 0 (by omega)) hc), distRun, distStep]
    dsimp only
    rw [if_pos ⟨rfl, hk⟩]
    dsimp only
    rw [distRun_cons (step_marked (st := { st with chan := 0, counting := true, pc := upd st.pc 0 .done }) (by omega) ((upd_ne _ _ (by omega)).trans (h 1 (by omega))) rfl)]
    rfl
  · intro i hi h2
    dsimp only
    rw [upd_ne _ _ (by omega), upd_ne _ _ (by omega), h i hi]
  · intro i hi
    dsimp only
    by_cases h1 : i = 1
    · subst h1; exact Or.inl (upd_same _ _ _)
    · by_cases h0 : i = 0
      · subst h0; exact Or.inl ((upd_ne (upd st.pc 0 .done) .done h1).trans (upd_same st.pc 0 .done))
      · exact Or.inr ⟨(upd_ne _ _ h1).trans ((upd_ne _ _ h0).trans (h i hi)), Nat.one_ne_zero⟩

end DyCAPS
