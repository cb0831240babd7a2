import Verif.Lemmas.DistSim

/-! Schedules of the ShareDist goroutines that go wrong, for the machine with lists. -/

namespace DyCAPS

theorem calm_init (full : List Fr) (m : ℕ) : Calm (DistVal.init full).pc m := fun j s h => by cases h

theorem val_lost (F n : ℕ) (hF : 1 ≤ F) (pt : ℕ → ℕ × Fr) (full : List Fr) :
    ∃ es st, valRun F n pt (DistVal.init full) es = some (.ok st) ∧ (∀ i < n, st.pc i = .done) ∧ st.successes = 0 ∧ st.full = full ∧ st.chan = 0 := by
  have hnd := List.nodup_range (n := n)
  have h1 := run_load (F := F) (n := n) (pt := pt) (st := DistVal.init full) hnd (fun i hi => ⟨List.mem_range.1 hi, rfl⟩)
  obtain ⟨B, h2, hB⟩ := run_store (F := F) (n := n) (pt := pt) (s := []) (st := { DistVal.init full with pc := updAll (DistVal.init full).pc (List.range n) (.loaded []) }) hnd
    (fun i hi => ⟨List.mem_range.1 hi, updAll_mem hi⟩) (fun j s hj => by
      dsimp only at hj
      by_cases hjL : j ∈ List.range n
      · rw [updAll_mem hjL] at hj; cases hj; exact le_rfl
      · rw [updAll_not hjL] at hj; cases hj)
  have h3 := run_test (F := F) (n := n) (pt := pt) (st := { DistVal.init full with SB := B, pc := updAll (updAll (DistVal.init full).pc (List.range n) (.loaded [])) (List.range n) .stored }) hnd
    (fun i hi => ⟨List.mem_range.1 hi, updAll_mem hi⟩) (by
      have : B.length ≤ max 0 (0 + 1) := hB
      show B.length < _
      omega)
  refine ⟨(List.range n).map .go ++ ((List.range n).map .go ++ (List.range n).map .go), _, (valRun_append h1).trans ((valRun_append h2).trans h3), fun i hi => updAll_mem (List.mem_range.2 hi), rfl, rfl, rfl⟩

theorem val_panic (F n : ℕ) (hF : 1 ≤ F) (hn : 2 * F + 2 ≤ n) (pt : ℕ → ℕ × Fr) (full : List Fr) :
    ∃ es, valRun F n pt (DistVal.init full) es = some (.error .panic) := by
  have h0 : 0 ∉ List.range' 1 (2 * F) := by rw [List.mem_range'_1]; omega
  have hl : 2 * F + 1 ∉ List.range' 1 (2 * F) := by rw [List.mem_range'_1]; omega
  refine ⟨.go 0 :: (quick (List.range' 1 (2 * F)) ++ (.go (2 * F + 1) :: .go (2 * F + 1) :: .go (2 * F + 1) :: .go 0 :: (List.replicate (2 * 1) (.go (2 * F + 1)) ++ (.go (2 * F + 1) :: [])))), ?_⟩
  rw [valRun_cons (val_start (by omega) rfl), valRun_append (run_quick List.nodup_range' (fun i hi => by
    rw [List.mem_range'_1] at hi
    exact ⟨by omega, upd_ne _ _ (by omega)⟩) ((calm_init full _).upd fun s h => by cases h; exact Nat.zero_le _) (Or.inr (by rw [List.length_range']; show 0 + _ ≤ _; omega)))]
  dsimp only
  rw [run_choose _ (by omega) (by dsimp only; rw [updAll_not hl, upd_ne _ _ (by omega)]; rfl) (Calm.updAll ((calm_init full _).upd fun s h => by cases h; exact Nat.zero_le _) (by simp)) rfl (by dsimp only [DistVal.init]; rw [List.length_append, List.length_map, List.length_range']; omega),
    valRun_cons (val_loaded (s := []) (by omega) (by dsimp only; rw [upd_ne _ _ (by omega), updAll_not h0, upd_same]; rfl) (Calm.upd (Calm.updAll ((calm_init full _).upd fun s h => by cases h; exact Nat.zero_le _) (by simp)) (by simp)))]
  dsimp only
  rw [List.nil_append, run_reads (by omega) _ 1 0 (by omega) le_rfl (by dsimp only; rw [upd_ne _ _ (by omega), upd_same]; rfl), valRun, val_readX_panic (by omega) (upd_same _ _ _) (lt_irrefl _)
    (show 1 < 2 * F + 1 by omega) rfl]

theorem val_twice (F n : ℕ) (hn : 2 * F + 2 ≤ n) (pt : ℕ → ℕ × Fr) (hd : ∀ i < n, ∀ j < n, (pt i).1 = (pt j).1 → i = j) (hb : ∀ i < n, (pt i).1 < frModulus) (full : List Fr) :
    ∃ es st, valRun F n pt (DistVal.init full) es = some (.ok st) ∧ st.successes = 2 := by
  have ha : 2 * F ∉ List.range (2 * F) := List.not_mem_range_self
  have hb' : 2 * F + 1 ∉ List.range (2 * F) := by rw [List.mem_range]; omega
  set SB := (List.range (2 * F)).map pt ++ [pt (2 * F)] ++ [pt (2 * F + 1)] with hSB
  have htake : SB.take (2 * F + 1) = (List.range (2 * F + 1)).map pt := by
    rw [hSB, List.take_append_of_le_length (by simp), List.take_of_length_le (by simp), List.range_succ, List.map_append]
    rfl
  obtain ⟨f, hf, -, -⟩ := interpolate_nodup_ok (2 * F) (SB.take (2 * F + 1)) (by rw [htake]; simp) (by
    rw [htake, List.map_map]
    refine List.Nodup.map_on ?_ List.nodup_range
    intro i hi j hj hij
    rw [List.mem_range] at hi hj
    exact hd i (by omega) j (by omega) hij) (by
    rw [htake]
    intro q hq
    obtain ⟨i, hi, rfl⟩ := List.mem_map.1 hq
    rw [List.mem_range] at hi
    exact hb i (by omega))
  have hlen : 2 * F + 1 ≤ SB.length := by simp [hSB]
  refine ⟨quick (List.range (2 * F)) ++ (.go (2 * F) :: .go (2 * F) :: .go (2 * F) :: .go (2 * F + 1) :: .go (2 * F + 1) :: .go (2 * F + 1) ::
    (readSteps F (2 * F) ++ (.go (2 * F) :: .go (2 * F) :: (readSteps F (2 * F + 1) ++ (.go (2 * F + 1) :: .go (2 * F + 1) :: []))))), ?_⟩
  · rw [valRun_append (run_quick List.nodup_range (fun i hi => ⟨by rw [List.mem_range] at hi; omega, rfl⟩) (calm_init full _) (Or.inr (by rw [List.length_range]; show 0 + _ ≤ _; omega)))]
    rw [run_choose _ (by omega) (by dsimp only; rw [updAll_not ha]; rfl) (Calm.updAll (calm_init full _) (by simp)) rfl (by dsimp only [DistVal.init]; rw [List.nil_append, List.length_map, List.length_range])]
    dsimp only
    rw [run_choose _ (by omega) (by dsimp only; rw [upd_ne _ _ (by omega), updAll_not hb']; rfl) (Calm.upd (Calm.updAll (calm_init full _) (by simp)) (by simp)) rfl (by dsimp only [DistVal.init]; rw [List.nil_append, List.length_append, List.length_map, List.length_range]; omega)]
    dsimp only
    obtain ⟨st', h1, h2⟩ := run_report_two (F := F) (n := n) (pt := pt) (a := 2 * F) (b := 2 * F + 1) (f := f)
      (st := { DistVal.init full with SB := SB, pc := upd (upd (updAll (DistVal.init full).pc (List.range (2 * F)) .done) (2 * F) (.reading [] [])) (2 * F + 1) (.reading [] []) }) (by omega) (by omega) (by omega)
      (by dsimp only; rw [upd_ne _ _ (by omega), upd_same]) (upd_same _ _ _) hlen hf
    exact ⟨st', h1, h2⟩

theorem val_each (F n : ℕ) (hn : 2 * F + 1 ≤ n) (pt : ℕ → ℕ × Fr) (hd : ∀ i < n, ∀ j < n, (pt i).1 = (pt j).1 → i = j) (hb : ∀ i < n, (pt i).1 < frModulus) (full : List Fr) :
    ∃ es st, valRun F n pt (DistVal.init full) es = some (.ok st) ∧ st.successes = n ∧ (∀ i < n, st.pc i = .marked) ∧ st.chan = 0 ∧ st.counting = false := by
  have hnd := List.nodup_range (n := n)
  have hlen : 2 * F + 1 ≤ ((List.range n).map pt).length := by rw [List.length_map, List.length_range]; exact hn
  have htake : ((List.range n).map pt).take (2 * F + 1) = (List.range (2 * F + 1)).map pt := by
    rw [← List.map_take, List.take_range, min_eq_left hn]
  obtain ⟨f, hf, -, -⟩ := interpolate_nodup_ok (2 * F) (((List.range n).map pt).take (2 * F + 1)) (by rw [htake]; simp) (by
    rw [htake, List.map_map]
    refine List.Nodup.map_on ?_ List.nodup_range
    intro i hi j hj hij
    rw [List.mem_range] at hi hj
    exact hd i (by omega) j (by omega) hij) (by
    rw [htake]
    intro q hq
    obtain ⟨i, hi, rfl⟩ := List.mem_map.1 hq
    rw [List.mem_range] at hi
    exact hb i (by omega))
  have h1 := run_appends (F := F) (n := n) (pt := pt) (st := DistVal.init full) hnd (fun i hi => ⟨List.mem_range.1 hi, rfl⟩) (calm_init full _)
  have h2 := run_tests (F := F) (n := n) (pt := pt) (st := { DistVal.init full with SB := (List.range n).map pt, pc := updAll (DistVal.init full).pc (List.range n) .stored }) hnd
    (fun i hi => ⟨List.mem_range.1 hi, updAll_mem hi⟩) rfl hlen
  dsimp only at h2
  have h3 := run_reports (F := F) (n := n) (pt := pt) (f := f) (st := { DistVal.init full with SB := (List.range n).map pt, pc := updAll (updAll (DistVal.init full).pc (List.range n) .stored) (List.range n) (.reading [] []) }) hnd
    (fun i hi => ⟨List.mem_range.1 hi, updAll_mem hi⟩) hlen hf
  dsimp only at h3
  have h4 := run_marks (F := F) (n := n) (pt := pt) (st := { DistVal.init full with SB := (List.range n).map pt, full := if List.range n = [] then full else f, successes := 0 + (List.range n).length, pc := updAll (updAll (updAll (DistVal.init full).pc (List.range n) .stored) (List.range n) (.reading [] [])) (List.range n) .reported }) hnd
    (fun i hi => ⟨List.mem_range.1 hi, updAll_mem hi⟩)
  dsimp only at h4
  exact ⟨_, _, (valRun_append h1).trans ((valRun_append h2).trans ((valRun_append h3).trans h4)), by dsimp only; rw [List.length_range, Nat.zero_add],
    fun i hi => updAll_mem (List.mem_range.2 hi), rfl, rfl⟩

theorem val_wrong (F n : ℕ) (hn : 2 * F + 2 ≤ n) (hb : n < frModulus) (B full : List Fr) (hB : polyVal B ((2 * F + 1 : ℕ) : Fr) ≠ polyVal B ((2 * F + 2 : ℕ) : Fr)) :
    ∃ es st, valRun F n (fun i => (i + 1, polyVal B ((i + 1 : ℕ) : Fr))) (DistVal.init full) es = some (.ok st) ∧ (∀ i < n, st.pc i = .done) ∧ st.successes = 1 ∧ st.full ≠ B ∧
      polyVal st.full ((2 * F + 1 : ℕ) : Fr) = polyVal B ((2 * F + 2 : ℕ) : Fr) := by
  set pt : ℕ → ℕ × Fr := fun i => (i + 1, polyVal B ((i + 1 : ℕ) : Fr)) with hpt
  set P := (List.range (2 * F)).map pt with hP
  have hPl : P.length = 2 * F := by rw [hP, List.length_map, List.length_range]
  have ha : 2 * F ∉ List.range (2 * F) := List.not_mem_range_self
  have hb' : 2 * F + 1 ∉ List.range (2 * F) := by rw [List.mem_range]; omega
  have hmem : ∀ q ∈ P ++ [((pt (2 * F)).1, (pt (2 * F + 1)).2)], q.1 < frModulus := by
    intro q hq
    rcases List.mem_append.1 hq with hq | hq
    · obtain ⟨i, hi, rfl⟩ := List.mem_map.1 hq
      rw [List.mem_range] at hi
      show i + 1 < _
      omega
    · rw [List.mem_singleton] at hq
      subst hq
      show 2 * F + 1 < _
      omega
  have hfst : (P ++ [((pt (2 * F)).1, (pt (2 * F + 1)).2)]).map Prod.fst = (List.range (2 * F + 1)).map fun i => i + 1 := by
    rw [List.map_append, hP, List.map_map, List.range_succ, List.map_append]
    rfl
  obtain ⟨f, hf, -, hv⟩ := interpolate_nodup_ok (2 * F) (P ++ [((pt (2 * F)).1, (pt (2 * F + 1)).2)]) (by rw [List.length_append, hPl, List.length_singleton])
    (by rw [hfst]; exact List.nodup_range.map (fun i j h => Nat.succ.inj h)) hmem
  have hval : polyVal f ((2 * F + 1 : ℕ) : Fr) = polyVal B ((2 * F + 2 : ℕ) : Fr) := hv ((pt (2 * F)).1, (pt (2 * F + 1)).2) (List.mem_append_right _ (List.mem_singleton_self _))
  have hf' : lagrangeInterpolate (2 * F) ((P.map (·.1) ++ [(pt (2 * F)).1]).map fun x => ((x : ℕ) : Fr)) (P.map (·.2) ++ [(pt (2 * F + 1)).2]) = .ok f := by
    rw [List.map_append, List.map_append] at hf
    rw [List.map_append, List.map_map]
    exact hf
  refine ⟨quick (List.range (2 * F)) ++ (.go (2 * F + 1) :: .go (2 * F) :: .go (2 * F) :: .go (2 * F) :: (List.replicate (2 * (2 * F)) (.go (2 * F)) ++
    (.go (2 * F) :: .go (2 * F + 1) :: .go (2 * F) :: .go (2 * F) :: .go (2 * F) :: .go (2 * F) :: .go (2 * F) :: .go (2 * F + 1) :: quick (List.range' (2 * F + 2) (n - (2 * F + 2)))))), ?_⟩
  rw [valRun_append (run_quick List.nodup_range (fun i hi => ⟨by rw [List.mem_range] at hi; omega, rfl⟩) (calm_init full _) (Or.inr (by rw [List.length_range]; show 0 + _ ≤ _; omega)))]
  rw [valRun_cons (val_start (by omega) (by dsimp only; rw [updAll_not hb']; rfl))]
  dsimp only
  rw [run_choose _ (by omega) (by dsimp only; rw [upd_ne _ _ (by omega), updAll_not ha]; rfl) (Calm.upd (Calm.updAll (calm_init full _) (by simp)) fun s h => by cases h; dsimp only [DistVal.init]; exact le_rfl) rfl (by dsimp only [DistVal.init]; rw [List.nil_append, List.length_map, List.length_range])]
  dsimp only
  rw [run_mixed (P := P) (f := f) _ (by omega) (by omega) (by omega) hPl rfl (upd_same _ _ _) (by dsimp only; rw [upd_ne _ _ (by omega), upd_same]; rfl) (Calm.upd (Calm.upd (Calm.updAll (calm_init full _) (by simp)) fun s h => by cases h; dsimp only [DistVal.init]; exact le_rfl) (by simp)) rfl hf']
  dsimp only
  have hrest : ∀ i ∈ List.range' (2 * F + 2) (n - (2 * F + 2)), i < n ∧ 2 * F + 2 ≤ i := by
    intro i hi
    rw [List.mem_range'_1] at hi
    omega
  refine ⟨_, run_quick List.nodup_range' (fun i hi => ⟨(hrest i hi).1, ?_⟩) (Calm.upd (Calm.upd (Calm.upd (Calm.upd (Calm.updAll (calm_init full _) (by simp)) fun s h => by cases h; show (_ ++ _ : List _).length ≤ (_ ++ _ : List _).length; rw [List.length_append, hPl]; simp; show 0 + _ ≤ _; omega) (by simp)) (by simp)) (by simp)) (Or.inl rfl), fun i hi => ?_, rfl, fun e => hB ?_, hval⟩
  · have := (hrest i hi).2
    dsimp only
    rw [upd_ne _ _ (by omega), upd_ne _ _ (by omega), upd_ne _ _ (by omega), upd_ne _ _ (by omega), updAll_not (by rw [List.mem_range]; omega)]
    rfl
  · dsimp only
    by_cases h1 : 2 * F + 2 ≤ i
    · exact updAll_mem (by rw [List.mem_range'_1]; omega)
    · rw [updAll_not (by rw [List.mem_range'_1]; omega)]
      by_cases h2 : i = 2 * F + 1
      · subst h2; rw [upd_same]
      · rw [upd_ne _ _ h2]
        by_cases h3 : i = 2 * F
        · subst h3; rw [upd_same]
        · rw [upd_ne _ _ h3, upd_ne _ _ h3, upd_ne _ _ h2]
          exact updAll_mem (by rw [List.mem_range]; omega)
  · rw [← hval]
    exact congrArg (fun g => polyVal g ((2 * F + 1 : ℕ) : Fr)) (show B = f from e.symm)

end DyCAPS
