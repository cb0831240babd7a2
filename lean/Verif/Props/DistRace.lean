import Verif.Lemmas.DistBad

/-!
# Shares that arrive at the same time: C112
-/

namespace DyCAPS

/-- **C112, refuted.** The verified shares of any number of senders are lost: the goroutines are through, nothing was reported, the share is the old one and nothing can happen any more. -/
theorem C112_refuted_lost (grow : ℕ → ℕ) (F n : ℕ) (hF : 1 ≤ F) (pt : ℕ → ℕ × Fr) (full : List Fr) :
    ∃ es st, distRun grow F n pt (DistRace.init full) es = some (.ok st) ∧ (∀ i < n, st.pc i = .done) ∧ st.successes = 0 ∧ st.full = full ∧ ∀ e, distStep grow F n pt st e = none := by
  obtain ⟨es, v, h, h1, h2, h3, h4⟩ := val_lost F n hF pt full
  obtain ⟨es', st, h', S⟩ := sim_run (grow := grow) (Sim.init full) h
  have hd : ∀ i < n, st.pc i = .done := fun i hi => S.done (h1 i hi)
  exact ⟨es', st, h', hd, S.successes.trans h2, S.full.trans h3, dist_stuck (fun i hi => Or.inl (hd i hi)) (Or.inl (S.chan.trans h4))⟩

/-- **C112, refuted.** With `2F+2` or more verified shares the process can panic. -/
theorem C112_refuted_panic (grow : ℕ → ℕ) (F n : ℕ) (hF : 1 ≤ F) (hn : 2 * F + 2 ≤ n) (pt : ℕ → ℕ × Fr) (full : List Fr) :
    ∃ es, distRun grow F n pt (DistRace.init full) es = some (.error .panic) := by
  obtain ⟨es, h⟩ := val_panic F n hF hn pt full
  exact sim_run_fault (Sim.init full) h

/-- **C112, refuted.** With `2F+2` or more verified shares of different senders success can be reported twice. -/
theorem C112_refuted_twice (grow : ℕ → ℕ) (F n : ℕ) (hn : 2 * F + 2 ≤ n) (pt : ℕ → ℕ × Fr) (hd : ∀ i < n, ∀ j < n, (pt i).1 = (pt j).1 → i = j) (hb : ∀ i < n, (pt i).1 < frModulus) (full : List Fr) :
    ∃ es st, distRun grow F n pt (DistRace.init full) es = some (.ok st) ∧ st.successes = 2 := by
  obtain ⟨es, v, h, h1⟩ := val_twice F n hn pt hd hb full
  obtain ⟨es', st, h', S⟩ := sim_run (grow := grow) (Sim.init full) h
  exact ⟨es', st, h', S.successes.trans h1⟩

/-- **C112, refuted.** With `2F+1` or more verified shares of different senders every one of the `n` goroutines can report success, so that one member sends as many Success messages as the counting at
lines 688-697 waits for. All but two of the goroutines then wait for ever: the channel has room for one value and is read once. -/
theorem C112_refuted_each (grow : ℕ → ℕ) (F n : ℕ) (hF : 1 ≤ F) (hn : 2 * F + 1 ≤ n) (pt : ℕ → ℕ × Fr) (hd : ∀ i < n, ∀ j < n, (pt i).1 = (pt j).1 → i = j) (hb : ∀ i < n, (pt i).1 < frModulus) (full : List Fr) :
    ∃ es st, distRun grow F n pt (DistRace.init full) es = some (.ok st) ∧ st.successes = n ∧ (∀ i < n, 2 ≤ i → st.pc i = .marked) ∧ ∀ e, distStep grow F n pt st e = none := by
  obtain ⟨es, v, h, h1, h2, h3, h4⟩ := val_each F n hn pt hd hb full
  obtain ⟨es', st, h', S⟩ := sim_run (grow := grow) (Sim.init full) h
  obtain ⟨st', k1, k2, k3, k4⟩ := run_leave (grow := grow) (F := F) (pt := pt) (by omega) (fun i hi => S.marked (h2 i hi)) (S.chan.trans h3) (S.counting.trans h4)
  exact ⟨es' ++ _, st', (distRun_append h').trans k1, k2.trans (S.successes.trans h1), k3, k4⟩

/-- **C112, a report that finds the channel full.** Once the waiting goroutine has gone on and the channel is full again, a goroutine that comes to line 671 never gets past it. -/
theorem C112_waits (grow : ℕ → ℕ) (F n : ℕ) (pt : ℕ → ℕ × Fr) (es : List DistEvent) (st st' : DistRace) (hc : st.chan = 1) (hk : st.counting = true) (i : ℕ) (hpc : st.pc i = .marked)
    (h : distRun grow F n pt st es = some (.ok st')) : st'.pc i = .marked := by
  induction es generalizing st with
  | nil => cases h; exact hpc
  | cons e es ih =>
    rw [distRun] at h
    cases hs : distStep grow F n pt st e with
    | none => rw [hs] at h; cases h
    | some r =>
      cases r with
      | error f => rw [hs] at h; cases h
      | ok st1 =>
        rw [hs] at h
        obtain ⟨hc1, hk1⟩ := full_step hc hk hs
        refine ih st1 hc1 hk1 ?_ h
        by_cases he : e = .go i
        · subst he
          rw [step_marked_blocked hpc (by omega)] at hs
          cases hs
        · rw [distStep_other he hs, hpc]

/-- **C112, refuted.** The shares are the values of a polynomial `B` of degree `2F` at the senders' indices. Unless `B` has the same value at the indices `2F+1` and `2F+2`, the member can end with another
polynomial as its share, with all goroutines finished and one success reported: it has used the index of one share with the value of another. -/
theorem C112_refuted_wrong (grow : ℕ → ℕ) (F n : ℕ) (hn : 2 * F + 2 ≤ n) (hb : n < frModulus) (B full : List Fr) (hB : polyVal B ((2 * F + 1 : ℕ) : Fr) ≠ polyVal B ((2 * F + 2 : ℕ) : Fr)) :
    ∃ es st, distRun grow F n (fun i => (i + 1, polyVal B ((i + 1 : ℕ) : Fr))) (DistRace.init full) es = some (.ok st) ∧ (∀ i < n, st.pc i = .done) ∧ st.successes = 1 ∧ st.full ≠ B ∧
      polyVal st.full ((2 * F + 1 : ℕ) : Fr) = polyVal B ((2 * F + 2 : ℕ) : Fr) := by
  obtain ⟨es, v, h, h1, h2, h3, h4⟩ := val_wrong F n hn hb B full hB
  obtain ⟨es', st, h', S⟩ := sim_run (grow := grow) (Sim.init full) h
  exact ⟨es', st, h', fun i hi => S.done (h1 i hi), S.successes.trans h2, by rw [S.full]; exact h3, by rw [S.full]; exact h4⟩

/-- **C112, what holds in every schedule.** Success is reported at most once for each verified share. When it is reported, the share is a polynomial through `2F+1` points with the indices of different
senders of verified shares; the value at each is a verified value, perhaps of another sender. -/
theorem C112_safe_partial (grow : ℕ → ℕ) (F n : ℕ) (pt : ℕ → ℕ × Fr) (full : List Fr) (es : List DistEvent) (st : DistRace) (h : distRun grow F n pt (DistRace.init full) es = some (.ok st)) :
    st.successes ≤ n ∧ (1 ≤ st.successes → ∃ L : List (ℕ × ℕ), L.length = 2 * F + 1 ∧ (L.map fun q => (pt q.1).1).Nodup ∧ (∀ q ∈ L, q.1 < n ∧ q.2 < n) ∧ st.full.length = 2 * F + 1 ∧
      ∀ q ∈ L, polyVal st.full (((pt q.1).1 : ℕ) : Fr) = (pt q.2).2) := by
  have I := (RaceInv.init (F := F) (n := n) (pt := pt) full).run h
  refine ⟨I.told.trans ?_, fun hs => I.full (Or.inr hs)⟩
  exact (Finset.card_filter_le _ _).trans_eq (Finset.card_range n)

/-- **C102, the Success reports.** However the goroutines interleave, there are at most as many reports as goroutines (`N`, ProactivizeAndShareDist.go:614). -/
theorem C102_reports (grow : ℕ → ℕ) (F n : ℕ) (pt : ℕ → ℕ × Fr) (full : List Fr) (es : List DistEvent) (st : DistRace) (h : distRun grow F n pt (DistRace.init full) es = some (.ok st)) : st.successes ≤ n :=
  (C112_safe_partial grow F n pt full es st h).1

/-- **C112, a goroutine that is not interrupted from its test on.** Whatever happened before, it reports nothing and leaves the share as it is, or its share goes through `2F+1` verified points of different
senders. -/
theorem C112_reader_partial (grow : ℕ → ℕ) (F n : ℕ) (pt : ℕ → ℕ × Fr) (full : List Fr) (es : List DistEvent) (st st' : DistRace) (h : distRun grow F n pt (DistRace.init full) es = some (.ok st)) (i k : ℕ) (hi : i < n)
    (hpc : st.pc i = .stored) (hrun : distRun grow F n pt st (List.replicate k (.go i)) = some (.ok st')) (hd : st'.pc i = .done) :
    (st'.full = st.full ∧ st'.successes = st.successes) ∨
    (st'.successes = st.successes + 1 ∧ ∃ L : List ℕ, L.length = 2 * F + 1 ∧ (L.map fun i => (pt i).1).Nodup ∧ (∀ i ∈ L, i < n) ∧ st'.full.length = 2 * F + 1 ∧
      ∀ i ∈ L, polyVal st'.full (((pt i).1 : ℕ) : Fr) = (pt i).2) := by
  have I := (RaceInv.init (F := F) (n := n) (pt := pt) full).run h
  rcases block_test hi hpc hrun hd with hc | ⟨h1, h2, h3⟩
  · exact Or.inl hc
  · obtain ⟨L, g1, g3⟩ := exists_indices (n := n) pt st.sb (fun q hq => by
      obtain ⟨t, ht, rfl⟩ := List.mem_map.1 hq
      exact I.sb.2 t (List.mem_range.1 ht))
    have hlen : (st.sb.take (2 * F + 1)).length = 2 * F + 1 := by rw [List.length_take]; omega
    obtain ⟨k1, k2, k3⟩ := interpolated_nodup (2 * F) _ _ hlen h3
    have e : st.sb.take (2 * F + 1) = (L.take (2 * F + 1)).map pt := by rw [g1, List.map_take]
    rw [e] at k1 k3 hlen
    rw [List.length_map] at hlen
    rw [List.map_map] at k1
    exact Or.inr ⟨h1, L.take (2 * F + 1), hlen, k1, fun j hj => g3 j (List.mem_of_mem_take hj), k2, fun j hj => k3 _ (List.mem_map_of_mem hj)⟩

/-- **C112, goroutines that do not overlap.** If every goroutine runs from its start to its end before the next one starts, all shares are kept, and success is reported exactly once as soon as there are `2F+1`. -/
theorem C112_uninterrupted_partial (grow : ℕ → ℕ) (F n : ℕ) (pt : ℕ → ℕ × Fr) (full : List Fr) (L : List ℕ) (hnd : L.Nodup) (hL : ∀ i ∈ L, i < n) (k : ℕ → ℕ) (st : DistRace)
    (h : distRun grow F n pt (DistRace.init full) (L.flatMap fun i => List.replicate (k i) (.go i)) = some (.ok st)) (hd : ∀ i ∈ L, st.pc i = .done) :
    (∀ t, st.at t = (L.map pt)[t]?) ∧ st.successes = (if 2 * F + 1 ≤ L.length then 1 else 0) ∧ (L.length < 2 * F + 1 → st.full = full) ∧
    (2 * F + 1 ≤ L.length → st.full.length = 2 * F + 1 ∧ ∀ i ∈ L.take (2 * F + 1), polyVal st.full (((pt i).1 : ℕ) : Fr) = (pt i).2) := by
  have I : Serial F pt full [] (DistRace.init full) := ⟨rfl, (decide_eq_false (by simp)).symm, by simp [DistRace.init], fun _ => rfl, fun h => absurd h (by simp)⟩
  have J := I.blocks hnd (fun i hi => ⟨hL i hi, rfl⟩) h hd
  rw [List.nil_append] at J
  refine ⟨fun t => by rw [at_sb, J.sb], J.successes, J.before, fun hl => ?_⟩
  have hlen : ((L.take (2 * F + 1)).map pt).length = 2 * F + 1 := by rw [List.length_map, List.length_take]; omega
  have := J.after hl
  obtain ⟨-, k2, k3⟩ := interpolated_nodup (2 * F) ((L.take (2 * F + 1)).map pt) st.full hlen (by rw [List.map_map, List.map_map]; exact this)
  exact ⟨k2, fun i hi => k3 _ (List.mem_map_of_mem hi)⟩

section
variable {G1 G2 GT : Type} [AddCommGroup G1] [Module Fr G1] [AddCommGroup G2] [Module Fr G2] [AddCommGroup GT] [Module Fr GT]
variable [DecidableEq GT]

/-- **C112.** The step the other theorems about ShareDist use for a verified share is what one uninterrupted goroutine does. -/
theorem C112_one_step (grow : ℕ → ℕ) (codec : PointCodec G1) (pp : Pairing Fr G1 G2 GT) (p p' : Party G1 G2) (st st' : PState G1) (j : ℕ) (m : PShareDist) (out : List POut) (w : G1)
    (h : shareDistStep codec pp p st j m = .ok (p', st', out)) (hw : codec.decode! m.wB = .ok w)
    (hok : checkProofSingle pp p.kzg ((st.SCom j).getD 0) w ((p.pid + 1 : ℕ) : Fr) (frFrom32 0 (copy32 m.B)).1 = .ok true) (R R' : DistRace) (n i k : ℕ) (pt : ℕ → ℕ × Fr)
    (hpt : pt i = (j, (frFrom32 0 (copy32 m.B)).1)) (hR : (∀ t, R.at t = st.SB[t]?) ∧ R.sent = st.successSent ∧ R.full = p.fullShare ∧ R.pc i = .start)
    (hi : i < n) (hrun : distRun grow p.F n pt R (List.replicate k (.go i)) = some (.ok R')) (hd : R'.pc i = .done) :
    (∀ t, R'.at t = st'.SB[t]?) ∧ R'.sent = st'.successSent ∧ R'.full = p'.fullShare ∧ R'.successes = R.successes + out.length := by
  obtain ⟨r1, r2, r3, r4⟩ := hR
  replace r1 : R.sb = st.SB := List.ext_getElem? fun t => by rw [← at_sb, r1]
  unfold shareDistStep at h
  simp only [hw, hok, Go.ok_bind, if_true] at h
  obtain ⟨k1, ⟨hc, k2, k3, k4⟩ | ⟨hs, hl, k2, k4, hf⟩⟩ := block_turn hi r4 hrun hd
  · rw [r1, r2] at hc
    rw [if_neg (by
      rw [Bool.and_eq_true, Bool.not_eq_true', decide_eq_true_eq, List.length_append, List.length_singleton]
      rintro ⟨a, b⟩
      rcases hc with hc | hc
      · rw [a] at hc; cases hc
      · omega)] at h
    cases h
    refine ⟨fun t => ?_, k2.trans r2, k3.trans r3, k4⟩
    dsimp only
    rw [at_sb, k1, r1, hpt]
  · rw [r1, hpt] at hf
    rw [r2] at hs
    rw [r1] at hl
    rw [if_pos (by
      rw [Bool.and_eq_true, Bool.not_eq_true', decide_eq_true_eq, List.length_append, List.length_singleton]
      exact ⟨hs, by omega⟩), hf] at h
    cases h
    refine ⟨fun t => ?_, k2, rfl, k4⟩
    dsimp only
    rw [at_sb, k1, r1, hpt]

end

/-! ## Cases -/

/-- A capacity is doubled. -/
def doubled (c : ℕ) : ℕ := max 1 (2 * c)

/-- Four parties, `F = 1`, all four shares verified: all of them can be lost. -/
example : ∃ es st, distRun doubled 1 4 (fun i => (i + 1, 5)) (DistRace.init [1, 2, 3]) es = some (.ok st) ∧ (∀ i < 4, st.pc i = .done) ∧ st.successes = 0 ∧ st.full = [1, 2, 3] ∧
    ∀ e, distStep doubled 1 4 (fun i => (i + 1, 5)) st e = none := C112_refuted_lost doubled 1 4 le_rfl _ _

/-- The same shares can make the process panic, or be reported twice. -/
example : (∃ es, distRun doubled 1 4 (fun i => (i + 1, 5)) (DistRace.init []) es = some (.error .panic)) ∧
    ∃ es st, distRun doubled 1 4 (fun i => (i + 1, 5)) (DistRace.init []) es = some (.ok st) ∧ st.successes = 2 :=
  ⟨C112_refuted_panic doubled 1 4 le_rfl (by norm_num) _ _, C112_refuted_twice doubled 1 4 (by norm_num) _ (fun i _ j _ h => Nat.succ.inj h) (fun i hi => by
    have : i + 1 < 2 ^ 32 := by omega
    exact this.trans (by unfold frModulus; norm_num)) _⟩

/-- Four goroutines of one member send four Success messages, one more than everybody waits for, and two of them never end. -/
example : ∃ es st, distRun doubled 1 4 (fun i => (i + 1, 5)) (DistRace.init []) es = some (.ok st) ∧ st.successes = 4 ∧ (∀ i < 4, 2 ≤ i → st.pc i = .marked) ∧
    ∀ e, distStep doubled 1 4 (fun i => (i + 1, 5)) st e = none :=
  C112_refuted_each doubled 1 4 le_rfl (by norm_num) _ (fun i _ j _ h => Nat.succ.inj h) (fun i hi => by
    have : i + 1 < 2 ^ 32 := by omega
    exact this.trans (by unfold frModulus; norm_num)) _

/-- Shares of `3 + x²`, with `F = 1` and four senders: the member can finish with a share that has the value `19 = 3 + 4²` at `3`. -/
example : ∃ es st, distRun doubled 1 4 (fun i => (i + 1, polyVal [3, 0, 1] ((i + 1 : ℕ) : Fr))) (DistRace.init []) es = some (.ok st) ∧ (∀ i < 4, st.pc i = .done) ∧ st.successes = 1 ∧ st.full ≠ [3, 0, 1] ∧
    polyVal st.full ((2 * 1 + 1 : ℕ) : Fr) = polyVal [3, 0, 1] ((2 * 1 + 2 : ℕ) : Fr) :=
  C112_refuted_wrong doubled 1 4 le_rfl (by unfold frModulus; norm_num) [3, 0, 1] [] (by decide +kernel)

/-- Four goroutines one after the other: the third one has `2F+1 = 3` shares, interpolates `7 + x` and reports. -/
example : ∃ st, distRun doubled 1 4 (fun i => (i + 1, (i : Fr) + 8)) (DistRace.init []) ([2, 0, 3, 1].flatMap fun i => List.replicate ([6, 4, 5, 17].getD i 0) (.go i)) = some (.ok st) ∧
    (∀ i ∈ [2, 0, 3, 1], st.pc i = .done) ∧ st.successes = 1 ∧ st.full.length = 3 ∧ polyVal st.full 4 = 11 := by
  have hr : (match distRun doubled 1 4 (fun i => (i + 1, (i : Fr) + 8)) (DistRace.init []) ([2, 0, 3, 1].flatMap fun i => List.replicate ([6, 4, 5, 17].getD i 0) (.go i)) with
    | some (.ok st) => [2, 0, 3, 1].all fun i => decide (st.pc i = .done)
    | _ => false) = true := by decide +kernel
  split at hr
  · rename_i st h
    replace hr : ∀ i ∈ [2, 0, 3, 1], st.pc i = .done := fun i hi => of_decide_eq_true (List.all_eq_true.1 hr i hi)
    obtain ⟨-, h2, -, h4⟩ := C112_uninterrupted_partial doubled 1 4 _ _ [2, 0, 3, 1] (by decide) (by decide) (fun i => [6, 4, 5, 17].getD i 0) st h hr
    obtain ⟨h5, h6⟩ := h4 (by decide)
    refine ⟨st, h, hr, h2, h5, ?_⟩
    have := h6 3 (by decide)
    norm_num at this
    exact this
  · cases hr

/-- Goroutines 2 and 0 have stored their shares, goroutine 3 has stored its share and goes on alone: it reports, and the share goes through the three verified points. -/
example : ∃ st st', distRun doubled 1 4 (fun i => (i + 1, (i : Fr) + 8)) (DistRace.init []) (List.replicate 5 (.go 2) ++ List.replicate 6 (.go 0) ++ List.replicate 6 (.go 3)) = some (.ok st) ∧
    distRun doubled 1 4 (fun i => (i + 1, (i : Fr) + 8)) st (List.replicate 11 (.go 3)) = some (.ok st') ∧ st'.successes = st.successes + 1 ∧
    ∃ L : List ℕ, L.length = 3 ∧ (∀ i ∈ L, i < 4) ∧ ∀ i ∈ L, polyVal st'.full (((i + 1 : ℕ) : ℕ) : Fr) = (i : Fr) + 8 := by
  have hr : (match distRun doubled 1 4 (fun i => (i + 1, (i : Fr) + 8)) (DistRace.init []) (List.replicate 5 (.go 2) ++ List.replicate 6 (.go 0) ++ List.replicate 6 (.go 3)) with
    | some (.ok st) => decide (st.pc 3 = .stored) && match distRun doubled 1 4 (fun i => (i + 1, (i : Fr) + 8)) st (List.replicate 11 (.go 3)) with
      | some (.ok st') => decide (st'.pc 3 = .done ∧ st'.successes = st.successes + 1)
      | _ => false
    | _ => false) = true := by decide +kernel
  split at hr
  · rename_i st h
    rw [Bool.and_eq_true, decide_eq_true_eq] at hr
    obtain ⟨h1, hr⟩ := hr
    split at hr
    · rename_i st' h'
      obtain ⟨h2, h3⟩ := of_decide_eq_true hr
      obtain ⟨-, L, k1, -, k3, -, k5⟩ := (C112_reader_partial doubled 1 4 _ _ _ st st' h 3 11 (by norm_num) h1 h' h2).resolve_left (by rw [h3]; rintro ⟨-, h⟩; omega)
      exact ⟨st, st', h, h', h3, L, k1, k3, k5⟩
    · cases hr
  · cases hr

/-- The four reports of one member: the goroutines 2 and 3 wait at line 671, whatever is scheduled, and the share has three of the verified values. -/
example : ∃ es st, distRun doubled 1 4 (fun i => (i + 1, 5)) (DistRace.init []) es = some (.ok st) ∧ st.successes = 4 ∧ st.full.length = 3 ∧
    ∃ L : List (ℕ × ℕ), L.length = 3 ∧ ∀ q ∈ L, polyVal st.full (((q.1 + 1 : ℕ) : ℕ) : Fr) = 5 := by
  obtain ⟨es, st, h1, h2, -⟩ := C112_refuted_each doubled 1 4 le_rfl (by norm_num) (fun i => (i + 1, 5)) (fun i _ j _ h => Nat.succ.inj h) (fun i hi => by
    have : i + 1 < 2 ^ 32 := by omega
    exact this.trans (by unfold frModulus; norm_num)) []
  obtain ⟨-, k⟩ := C112_safe_partial doubled 1 4 (fun i => (i + 1, 5)) [] es st h1
  obtain ⟨L, l1, -, -, l4, l5⟩ := k (by omega)
  exact ⟨es, st, h1, h2, l4, L, l1, l5⟩

/-- A goroutine at line 671 with the channel full and the waiting goroutine gone: it stays there in every schedule. -/
example (es : List DistEvent) (st st' : DistRace) (h0 : st.chan = 1) (h1 : st.counting = true) (h2 : st.pc 2 = .marked) (h3 : st.pc 3 = .marked)
    (h : distRun doubled 1 4 (fun i => (i + 1, 5)) st es = some (.ok st')) : st'.pc 2 = .marked ∧ st'.pc 3 = .marked :=
  ⟨C112_waits doubled 1 4 _ es st st' h0 h1 2 h2 h, C112_waits doubled 1 4 _ es st st' h0 h1 3 h3 h⟩

end DyCAPS
