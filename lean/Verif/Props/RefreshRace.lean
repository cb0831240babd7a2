import Verif.Lemmas.RefreshRace
import Verif.Props.Contribution

/-! # What a refresh adds to a reduced share, when the Refresh loop and the Recover handlers run side by side (C121) -/

set_option linter.unusedSectionVars false

namespace DyCAPS

section
variable {G1 G2 GT : Type} [AddCommGroup G1] [Module Fr G1] [AddCommGroup G2] [Module Fr G2] [AddCommGroup GT] [Module Fr GT]
variable [DecidableEq G1] [DecidableEq GT]

/-- **C121, what holds in every execution.** Whatever the messages are and however the goroutines alternate: when the refresh is complete, the new reduced share is the old one plus, for every resharer agreed on,
the contribution with its first coefficients as they were before recovery (zero, for the contributions of others) and the remaining ones as they were afterwards. -/
theorem C121_prefix_partial (codec : PointCodec G1) (pp : Pairing Fr G1 G2 GT) (tb : Tbls) (p0 : Party G1 G2) (c : DealerCoins) (evs : List FineEvent) (outs : List POut) (s : FineState G1 G2)
    (h : FineRun codec pp tb ⟨p0, PState.init p0 c, []⟩ evs outs s) (Cs : ℕ → G1) (hd : s.st.refresh = .done Cs) :
    ∃ v, FineEvent.ev (.mvba v) ∈ evs ∧ AddsFrom p0.F (agreedIds v) (PState.init p0 c).Q s.st.Q p0.reducedShare s.p.reducedShare := by
  obtain ⟨v, us, h1, h2⟩ := h.inv.done Cs hd
  have hJ : agreedIds v = us.map (·.1) := by simpa using h2.ids
  refine ⟨v, h1, us.map (·.2), by rw [hJ]; simp, fun i hi => ?_⟩
  have := h2.sum i hi
  simp only [sub_eq_iff_eq_add'] at this
  rw [this, hJ, List.zipWith_map, List.zipWith_self]
  rfl

/-- **C121, without interference.** If no Recover message is handled in the middle of an iteration of the Refresh loop, every contribution is added as a whole or not at all (it is then added as before recovery). -/
theorem C121_quiet_partial (codec : PointCodec G1) (pp : Pairing Fr G1 G2 GT) (tb : Tbls) (p0 : Party G1 G2) (c : DealerCoins) (evs : List FineEvent) (outs : List POut) (s : FineState G1 G2)
    (h : FineRun codec pp tb ⟨p0, PState.init p0 c, []⟩ evs outs s) (hq : QuietRefresh evs) (Cs : ℕ → G1) (hd : s.st.refresh = .done Cs) :
    ∃ v, FineEvent.ev (.mvba v) ∈ evs ∧ AddsWhole p0.F (agreedIds v) (PState.init p0 c).Q s.st.Q p0.reducedShare s.p.reducedShare := by
  obtain ⟨v, us, h1, h2⟩ := h.inv.done Cs hd
  have hJ : agreedIds v = us.map (·.1) := by simpa using h2.ids
  refine ⟨v, h1, us.map fun u => if u.2 = 0 then s.st.Q u.1 else (PState.init p0 c).Q u.1, ?_, fun i hi => ?_⟩
  · rw [hJ, List.forall₂_map_left_iff, List.forall₂_map_right_iff, List.forall₂_same]
    intro u _
    split
    · exact Or.inr rfl
    · exact Or.inl rfl
  · have := h2.sum i hi
    simp only [sub_eq_iff_eq_add'] at this
    rw [this, List.map_map]
    congr 1
    unfold mixedSum
    congr 1
    apply List.map_congr_left
    intro u hu
    simp only [Function.comp_apply, mixed]
    rcases h2.quiet hq u hu with h0 | h0
    · rw [h0]; simp
    · rw [h0, if_pos hi, if_neg (by omega)]

/-- **C121 does not hold.** All parties follow the protocol. A party has handled `F` Recover messages for resharer `k0` and its handler for `k0` has taken one more when MVBA is called for the contributions `ks`; MVBA
returns `k0` and some `J` of `ks`. For every `a`, the handler can recover the contribution of `k0` when the Refresh loop has added `a` of its coefficients: these are missing from the new reduced share, the others are there. -/
theorem C121_torn (codec : PointCodec G1) (pp : Pairing Fr G1 G2 GT) (tb : Tbls) (t : Fr) (p : Party G1 G2) (hp : p.Setup pp t) (hF : 1 ≤ p.F) (hF' : p.F ≤ 2 ^ 20) (hN : 3 * p.F + 1 ≤ p.N) (hN' : p.N < 2 ^ 32)
    (hpid : p.pid < p.N) (hl : p.reducedShare.length = p.F + 1) (c : DealerCoins) (coins : ℕ → DealerCoins)
    (q : ℕ → ℕ → ℕ → Fr) (hq : ∀ j k, 1 ≤ k → k ≤ 2 * p.F + 1 → sliceX (q j) p.F (2 * p.F) (k : Fr) = ownQ p.F (coins j) k)
    (sg : ℕ → ℕ → Bytes) (hsg : ∀ k i, (sg k i).length < 2 ^ 32) (hver : ∀ k i, 1 ≤ i → i ≤ 2 * p.F + 1 → tb.verifyPartial (decimalBytes k) (sg k i) = true)
    (ks : List ℕ) (hks : ks.Nodup) (hksl : ks.length = p.F + 1) (hks1 : ∀ k ∈ ks, 1 ≤ k ∧ k ≤ p.N)
    (k0 : ℕ) (hk1 : 1 ≤ k0) (hk2 : k0 ≤ p.N) (hk3 : k0 ∉ ks) (hk4 : k0 ≠ p.pid + 1) (J : List ℕ) (hJ : ∀ j ∈ J, j ∈ ks) (v : Bytes) (hv : agreedIds v = k0 :: J) (a : ℕ) (ha : a ≤ p.F + 1) :
    ∃ evs rs Cs st, FineRun codec pp tb ⟨p, PState.init p c, []⟩ evs [.mvba (mvbaInput tb p.F p.N sg ks)] ⟨{ p with reducedShare := rs }, st, []⟩ ∧ (∀ v', FineEvent.ev (.mvba v') ∈ evs ↔ v' = v) ∧ st.refresh = .done Cs ∧
      (∀ j ∈ k0 :: J, st.flgRec j = true ∧ st.Q j = sliceX (q j) p.F (2 * p.F) ((p.pid + 1 : ℕ) : Fr)) ∧ rs.length = p.F + 1 ∧
      ∀ i < p.F + 1, rs.getD i 0 = p.reducedShare.getD i 0 + (if i < a then 0 else (sliceX (q k0) p.F (2 * p.F) ((p.pid + 1 : ℕ) : Fr)).getD i 0) +
        (J.map fun j => (sliceX (q j) p.F (2 * p.F) ((p.pid + 1 : ℕ) : Fr)).getD i 0).sum := by
  have hr : p.F + 1 < frModulus := lt_trans (by omega : p.F + 1 < 2 ^ 32) (by decide +kernel)
  have hr' : 2 * p.F + 1 < frModulus := lt_trans (by omega : 2 * p.F + 1 < 2 ^ 32) (by decide +kernel)
  choose D hD using fun j => (⟨_, commitMsg_ok (codec := codec) pp t p.F (coins j)⟩ : ∃ m, commitMsg codec pp (newKZG pp t (p.F + 1)) p.F (coins j) = .ok m)
  obtain ⟨cd, CQ, fc, vt, r1, hfc, -⟩ := commits_run (tb := tb) (PState.init p c) (fun _ => rfl) q (fun j => marshal (D j))
    (fun j _ _ => (honest_commit_for codec pp t p hp hF hF' hN hr' (coins j) (q j) (hq j) (D j) (hD j)).2) p.N le_rfl
  set s1 : PState G1 := { PState.init p c with comDone := cd, CQ := CQ, flgCom := fc, voteToken := vt } with hs1
  set f : ℕ → List Fr := fun k => sliceX (q k) p.F (2 * p.F) ((p.pid + 1 : ℕ) : Fr) with hf
  have hfl : ∀ k, (f k).length = p.F + 1 := fun k => sliceX_length _ _ _ _
  have hcq : ∀ k, 1 ≤ k → k ≤ p.N → CQ k (p.pid + 1) = polyVal (f k) t • pp.g1 := fun k k1 k2 =>
    (commitsTo_iff _ _ _ _ _ _).1 (hfc k k1 k2).2 (p.pid + 1) (by omega) (by omega)
  have hfresh : ∀ k, 1 ≤ k → k ≤ p.N → Fresh s1 k := fun k k1 k2 => ⟨rfl, rfl, rfl, rfl, rfl, rfl, rfl, rfl, rfl, (hfc k k1 k2).1⟩
  -- `F` messages for `k0`
  have r2 := batch_run (codec := codec) hp hF hN hN' s1 k0 hk1 hk2 (hfresh k0 hk1 hk2) (f k0) (hfl k0) (hcq k0 hk1 hk2) (sg k0) (hsg k0) (hver k0) p.F (by omega)
  set s2 := batchState p.F s1 k0 (f k0) (sg k0) p.F with hs2
  -- one more is taken
  set m : RecoverMsg G1 := ⟨p.F + 1, k0, polyVal (f k0) ((p.F + 1 : ℕ) : Fr), quotVal (f k0) ((p.F + 1 : ℕ) : Fr) t • pp.g1, sg k0 (p.F + 1)⟩ with hm
  have hdec := decodeRecover_of (codec := codec) p (UInt32.ofNat p.F) k0 hk2 hN' (polyVal (f k0) ((p.F + 1 : ℕ) : Fr)) (quotVal (f k0) ((p.F + 1 : ℕ) : Fr) t • pp.g1) (sg k0 (p.F + 1)) (hsg _ _)
  have hsi := sender_index (p.F + 1) (by omega) (by omega)
  rw [Nat.add_sub_cancel] at hsi
  rw [hsi] at hdec
  have e3 : proactStep codec pp tb p s2 (.takeRecover (UInt32.ofNat p.F) (recoverBytes codec k0 (polyVal (f k0) ((p.F + 1 : ℕ) : Fr)) (quotVal (f k0) ((p.F + 1 : ℕ) : Fr) t • pp.g1) (sg k0 (p.F + 1)))) =
      some (.ok (p, { s2 with slot := some m }, [])) := by
    have : s2.slot = none := rfl
    simp only [proactStep, this, hdec]; rfl
  set s4 : PState G1 := { s2 with slot := none, held := upd s2.held k0 (some m) } with hs4
  have e4 : proactStep codec pp tb p { s2 with slot := some m } .passRecover = some (.ok (p, s4, [])) := by
    simp only [proactStep]
    rw [if_pos ⟨hk1, hk2, (hfc k0 hk1 hk2).1, rfl, rfl⟩]
  -- the contributions `ks`
  obtain ⟨s5, r5, a5⟩ := batches_run (codec := codec) (tb := tb) hp hF hN hN' s4 rfl f hfl sg hsg hver ks hks (by
      intro k hk
      obtain ⟨k1, k2⟩ := hks1 k hk
      have hne : k ≠ k0 := by rintro rfl; exact hk3 hk
      have h1 : s4.SRec k = [] := by show upd s1.SRec k0 _ k = []; rw [upd_ne _ _ hne]; rfl
      have h2 : s4.SSig k = [] := by show upd s1.SSig k0 _ k = []; rw [upd_ne _ _ hne]; rfl
      have h3 : s4.flgRec k = false := by show (if p.F + 1 ≤ p.F then _ else s1.flgRec) k = false; rw [if_neg (by omega)]; rfl
      have h4 : s4.held k = none := by show upd s2.held k0 _ k = none; rw [upd_ne _ _ hne]; rfl
      exact ⟨k1, k2, ⟨h1, h2, h3, rfl, rfl, h4, rfl, rfl, rfl, (hfc k k1 k2).1⟩, hcq k k1 k2⟩) (by omega) rfl rfl
  rw [if_pos hksl] at r5
  have hlen5 : s5.mvbaIn.length = p.F + 1 := by rw [a5.mvbaIn]; show ([] ++ _ : List (ℕ × Bytes)).length = _; simp [hksl]
  -- MVBA returns
  set s6 : PState G1 := { s5 with mvbaRunning := false, refresh := .looping (k0 :: J) (List.replicate (p.F + 1) 0) (fun _ => 0) } with hs6
  have e6 : proactStep codec pp tb p s5 (.mvba v) = some (.ok (p, s6, [])) := by
    simp only [proactStep]
    rw [if_pos (by rw [a5.running, hlen5]; simp), show ((unmarshalD (⟨[], []⟩ : PMVBAIN) v).j.map (·.toNat)) = k0 :: J from hv]
  obtain ⟨o1, o2, o3, o4, o5, o6⟩ := a5.other k0 hk3
  have hq6 : s6.Q k0 = List.replicate (p.F + 1) 0 := by
    show s5.Q k0 = _
    rw [o2]
    show (if p.F + 1 ≤ p.F then upd s1.Q k0 (f k0) else s1.Q) k0 = _
    rw [if_neg (by omega)]
    show (if k0 = p.pid + 1 ∧ p.pid + 1 ≤ 2 * p.F + 1 then ownQ p.F c k0 else List.replicate (p.F + 1) 0) = _
    rw [if_neg (fun h => hk4 h.1)]
  have hcom6 : ∀ j, 1 ≤ j → j ≤ p.N → s6.flgCom j = true := fun j j1 j2 => by
    show s5.flgCom j = true
    rw [a5.flgCom]; exact (hfc j j1 j2).1
  have hw6 : s6.refreshWait = false := by show s5.refreshWait = false; rw [a5.refreshWait]; rfl
  have hadd6 : ∀ (st : PState G1) (rest : List ℕ) (Qs : List Fr) (Cs : ℕ → G1) (part : List Fr), st.refresh = .looping (k0 :: rest) Qs Cs → st.refreshWait = s6.refreshWait → st.flgCom = s6.flgCom →
      (⟨p, st, part⟩ : FineState G1 G2).adding = true := by
    intro st rest Qs Cs part h1 h2 h3
    simp only [FineState.adding, h1, h2, h3, hw6, hcom6 k0 hk1 hk2]
    simp [hk2]
  -- the prefix of the execution
  obtain ⟨fe, rf, hfe, -⟩ := FineRun.of_run (((r1.trans r2).trans ((PRun.single e3).trans (PRun.single e4))).trans (r5.trans (PRun.single e6)))
  -- `a` coefficients
  have r7 := coefs_run (codec := codec) (pp := pp) (tb := tb) (s := ⟨p, s6, []⟩) (j := k0) rfl (hadd6 _ _ _ _ _ rfl rfl rfl) a (by simpa using ha)
  set part1 : List Fr := List.replicate a 0 with hpart1
  have hz : ∀ i, (List.replicate (p.F + 1) (0 : Fr)).getD i 0 = 0 := by
    intro i
    by_cases hi : i < p.F + 1
    · rw [List.getD_eq_getElem _ _ (by simpa using hi)]; simp
    · rw [List.getD_eq_default _ _ (by simp; omega)]
  have ep1 : ([] : List Fr) ++ (List.range a).map (fun i => (List.replicate (p.F + 1) (0 : Fr)).getD (([] : List Fr).length + i) 0 + (s6.Q k0).getD (([] : List Fr).length + i) 0) = part1 := by
    rw [hpart1, List.nil_append, List.eq_replicate_iff]
    refine ⟨by simp, fun x hx => ?_⟩
    obtain ⟨i, -, rfl⟩ := List.mem_map.1 hx
    rw [hq6, hz, add_zero]
  have r7' : FineRun codec pp tb ⟨p, s6, []⟩ (List.replicate a .coef) [] ⟨p, s6, part1⟩ := by
    have := r7
    simp only [] at this
    rw [ep1] at this
    exact this
  -- the handler for `k0`
  have hheld6 : s6.held k0 = some m := by
    show s5.held k0 = some m
    rw [a5.held]
    show upd s2.held k0 (some m) k0 = some m
    rw [upd_same]
  have hcq6 : s6.CQ k0 (p.pid + 1) = polyVal (f k0) t • pp.g1 := by
    show s5.CQ k0 (p.pid + 1) = _
    rw [a5.CQ]; exact hcq k0 hk1 hk2
  have hsr6 : s6.SRec k0 = honestPoints (f k0) p.F := by
    show s5.SRec k0 = _
    rw [o3]
    show upd s1.SRec k0 _ k0 = _
    rw [upd_same]
  have hfr6 : s6.flgRec k0 = false := by
    show s5.flgRec k0 = _
    rw [o1]
    show (if p.F + 1 ≤ p.F then upd s1.flgRec k0 true else s1.flgRec) k0 = false
    rw [if_neg (by omega)]; rfl
  have hss6 : s6.SSig k0 = (oneTo p.F).map (sg k0) := by
    show s5.SSig k0 = _
    rw [o4]
    show upd s1.SSig k0 _ k0 = _
    rw [upd_same]
  have e8 : ∃ s8, proactStep codec pp tb p s6 (.handleRecover k0) = some (.ok (p, s8, [])) ∧ s8.refresh = s6.refresh ∧ s8.refreshWait = s6.refreshWait ∧ s8.flgCom = s6.flgCom ∧ s8.Q = upd s6.Q k0 (f k0) ∧
      s8.flgRec = upd s6.flgRec k0 true := by
    have hrp : recordPoint p s6 k0 m = .ok { s6 with SRec := upd s6.SRec k0 (honestPoints (f k0) (p.F + 1)), Q := upd s6.Q k0 (f k0), flgRec := upd s6.flgRec k0 true } := by
      unfold recordPoint
      simp only [hfr6, hsr6, hm, ← honestPoints_succ, honestPoints_length]
      rw [if_pos (by simp), if_neg (by omega), interpolate_honest p.F (f k0) (hfl k0) hr _ le_rfl, Go.ok_bind]
      rfl
    have hcheck := honest_check (pp := pp) (t := t) p hp hF (f k0) ((p.F + 1 : ℕ) : Fr)
    simp only [proactStep]
    rw [if_neg (by show ¬ (false = true); simp), hheld6]
    simp only [handleRecover, hcq6]
    rw [show checkProofSingle pp p.kzg (polyVal (f k0) t • pp.g1) m.w ((m.x : ℕ) : Fr) m.v = .ok true from hcheck, Go.ok_bind]
    rw [if_pos (by rw [show tb.verifyPartial (decimalBytes k0) m.sigShare = true from hver k0 (p.F + 1) (by omega) (by omega)]; rfl), hrp, Go.ok_bind]
    unfold recordSig
    simp only [hss6]
    rw [if_neg (by simp [oneTo]; intro _; omega)]
    exact ⟨_, rfl, rfl, rfl, rfl, rfl, rfl⟩
  obtain ⟨s8, e8, b1, b2, b3, b4, b5⟩ := e8
  have r8 : FineRun codec pp tb ⟨p, s6, part1⟩ [.ev (.handleRecover k0)] [] ⟨p, s8, part1⟩ := FineRun.single (by simp only [fineStep, fineEv, e8])
  -- the other coefficients
  have hr8 : s8.refresh = .looping (k0 :: J) (List.replicate (p.F + 1) 0) (fun _ => 0) := b1
  have r9 := coefs_run (codec := codec) (pp := pp) (tb := tb) (s := ⟨p, s8, part1⟩) (j := k0) hr8 (hadd6 _ _ _ _ _ hr8 b2 b3) (p.F + 1 - a) (by simp [hpart1]; omega)
  set part2 : List Fr := part1 ++ (List.range (p.F + 1 - a)).map (fun i => (List.replicate (p.F + 1) (0 : Fr)).getD (part1.length + i) 0 + (s8.Q k0).getD (part1.length + i) 0) with hpart2
  have hl2 : part2.length = p.F + 1 := by simp [hpart2, hpart1]; omega
  have hv2 : ∀ i < p.F + 1, part2.getD i 0 = if i < a then 0 else (f k0).getD i 0 := by
    intro i hi
    have e : s8.Q k0 = f k0 := by rw [b4, upd_same]
    rw [hpart2, e]
    by_cases hia : i < a
    · rw [if_pos hia, List.getD_append _ _ _ _ (by simpa [hpart1] using hia), hpart1, List.getD_eq_getElem _ _ (by simpa using hia)]; simp
    · rw [if_neg hia, List.getD_append_right _ _ _ _ (by simp [hpart1]; omega), range_map_getD _ _ _ _ (by simp [hpart1]; omega), hz, zero_add]
      congr 1
      simp [hpart1]; omega
  set s10 : PState G1 := { s8 with refresh := .looping J part2 (fun i => (0 : G1) + s8.CQ k0 i) } with hs10
  have r10 : FineRun codec pp tb ⟨p, s8, part2⟩ [.next] [] ⟨p, s10, []⟩ := FineRun.single (by
    simp only [fineStep, hr8]
    rw [if_pos ⟨hadd6 _ _ _ _ _ hr8 b2 b3, hl2⟩])
  -- the remaining iterations
  obtain ⟨rs, Cs, r11, c1, c2, -⟩ := refresh_run (codec := codec) (pp := pp) (tb := tb) (p := p) J s10 part2 _ hl rfl (b2.trans hw6) (by
    intro j hj
    obtain ⟨j1, j2⟩ := hks1 j (hJ j hj)
    refine ⟨j2, ?_⟩
    show s8.flgCom j = true
    rw [b3]; exact hcom6 j j1 j2)
  obtain ⟨ge, rg, hge, -⟩ := FineRun.of_run r11
  have hother : ∀ j ∈ J, s8.Q j = f j ∧ s8.flgRec j = true := by
    intro j hj
    have hne : j ≠ k0 := by rintro rfl; exact hk3 (hJ _ hj)
    rw [b4, b5, upd_ne _ _ hne, upd_ne _ _ hne]
    exact ⟨(a5.recd j (hJ j hj)).2, (a5.recd j (hJ j hj)).1⟩
  refine ⟨_, rs, Cs, _, (((rf.trans r7').trans r8).trans ((r9.trans r10).trans rg)), ?_, rfl, ?_, c1, ?_⟩
  · intro v'
    simp only [List.mem_append, hfe, hge, List.mem_replicate, List.mem_map, List.mem_flatMap, batchEvents, List.mem_cons]
    simp
  · intro j hj
    rcases List.mem_cons.1 hj with rfl | hj
    · exact ⟨by show s8.flgRec j = true; rw [b5, upd_same], by show s8.Q j = _; rw [b4, upd_same]⟩
    · exact ⟨(hother j hj).2, (hother j hj).1⟩
  · intro i hi
    rw [c2 i hi, hv2 i hi]
    have : (J.map fun j => (s10.Q j).getD i 0) = J.map fun j => (f j).getD i 0 := List.map_congr_left fun j hj => by
      show (s8.Q j).getD i 0 = _
      rw [(hother j hj).1]
    rw [this]
    ring

end

/-! ### Concrete cases -/

section Examples

/-- Contributions `Q_j(x,y) = y + x·y`. -/
def qT : ℕ → ℕ → ℕ → Fr := fun _ _ k => if k = 1 then 1 else 0

/-- The coins that give them, for `F = 1`. -/
def coinsT : ℕ → DealerCoins := fun _ => ⟨fun i => if i = 1 then 1 else 0, fun k _ => (k : Fr)⟩

theorem qT_slices (j k : ℕ) : sliceX (qT j) 1 (2 * 1) (k : Fr) = ownQ 1 (coinsT j) k := by
  have : dealerFVal 1 0 (coinsT j) k = (k : Fr) := by
    rw [dealerFVal_eq]; simp [polyVal, dealerF, coinsT, Finset.sum_range_succ]
  unfold ownQ dealerB
  rw [this]
  simp [sliceX, qT, dealerZ, coinsT, List.range_succ]

/-- The value agreed on in the example. -/
def valueT : Bytes := marshal (mvbaInput tb0 1 4 (fun _ _ => []) [4, 2])

/-- **C121 does not hold.** Party 1 of four holds `42 + x`; everybody contributes `y + x·y`, which is `1 + x` for party 1, and the contributions of parties 4 and 2 are agreed on. The new reduced share can be `43 + 3x`:
the `x` of party 4's contribution without its `1`. -/
theorem C121_refuted : ∃ (p : Party Fr Fr) (c : DealerCoins) (evs : List FineEvent) (outs : List POut) (s : FineState Fr Fr) (Cs : ℕ → Fr), p.Setup (Pairing.dlog Fr) 7 ∧ p.F = 1 ∧ p.N = 4 ∧ p.pid = 0 ∧
    FineRun frCodec (Pairing.dlog Fr) tb0 ⟨p, PState.init p c, []⟩ evs outs s ∧ s.st.refresh = .done Cs ∧ s.p.reducedShare = [43, 3] ∧ p.reducedShare = [42, 1] ∧
    (∃ v, FineEvent.ev (.mvba v) ∈ evs) ∧ ∀ v, FineEvent.ev (.mvba v) ∈ evs → agreedIds v = [4, 2] ∧ (∀ j ∈ agreedIds v, s.st.Q j = [1, 1]) ∧
      ¬ AddsWhole p.F (agreedIds v) (PState.init p c).Q s.st.Q p.reducedShare s.p.reducedShare := by
  obtain ⟨P, hP⟩ := holders_toy
  obtain ⟨h1, h2, h3, h4, -, h6, -⟩ := hP 0
  set p := P 0 with hp
  have hv : agreedIds valueT = [4, 2] := mvbaInput_names tb0 1 4 (by norm_num) (by norm_num) _ (by intro m s a n r h; cases h; norm_num) [4, 2] rfl (by decide)
  have hold : p.reducedShare = [42, 1] := by rw [h6]; simp [sliceX, bX, List.range_succ]
  have hslice : ∀ j, sliceX (qT j) p.F (2 * p.F) ((p.pid + 1 : ℕ) : Fr) = [1, 1] := by
    intro j; rw [h2, h4]; simp [sliceX, qT, List.range_succ]
  obtain ⟨evs, rs, Cs, st, r1, r2, r3, r4, r5, r6⟩ := C121_torn frCodec (Pairing.dlog Fr) tb0 7 p h1 (by rw [h2]) (by rw [h2]; norm_num) (by rw [h2, h3]) (by rw [h3]; norm_num) (by rw [h3, h4]; norm_num)
    (by rw [hold, h2]; rfl) (coinsT 1) coinsT qT (by intro j k _ _; rw [h2]; exact qT_slices j k) (fun _ _ => []) (by intro k i; norm_num) (fun _ _ _ _ => rfl) [2, 3] (by decide) (by rw [h2]; rfl)
    (by rw [h3]; decide) 4 (by norm_num) (by rw [h3]) (by decide) (by rw [h4]; decide) [2] (by decide) valueT hv 1 (by rw [h2]; norm_num)
  rw [h2] at r5 r6
  have e0 := r6 0 (by norm_num)
  have e1 := r6 1 (by norm_num)
  simp only [List.map_cons, List.map_nil, List.sum_cons, List.sum_nil, hold] at e0 e1
  have hsl : ∀ j, sliceX (qT j) 1 (2 * 1) ((p.pid + 1 : ℕ) : Fr) = [1, 1] := by
    intro j; have := hslice j; rwa [h2] at this
  simp only [hsl] at e0 e1
  have hrs : rs = [43, 3] := by
    match rs, r5 with
    | [x, y], _ =>
      simp at e0 e1
      rw [e0, e1]
      norm_num
  have hq0 : (PState.init p (coinsT 1)).Q 4 = [0, 0] ∧ (PState.init p (coinsT 1)).Q 2 = [0, 0] := by
    constructor <;> simp [PState.init, h2, h4]
  refine ⟨p, coinsT 1, evs, _, _, Cs, h1, h2, h3, h4, r1, r3, hrs, hold, ⟨valueT, (r2 valueT).2 rfl⟩, ?_⟩
  intro v hm
  have := (r2 v).1 hm
  subst this
  have hq : ∀ j ∈ agreedIds valueT, st.Q j = [1, 1] := by
    intro j hj
    rw [hv] at hj
    rw [(r4 j hj).2, hslice]
  refine ⟨hv, hq, ?_⟩
  rintro ⟨gs, g1, g2⟩
  rw [h2] at g2
  rw [hv] at g1 hq
  have q4 := hq 4 (by decide)
  have q2 := hq 2 (by decide)
  have g20 := g2 0 (by norm_num)
  have g21 := g2 1 (by norm_num)
  simp only [hrs, hold] at g20 g21
  cases g1 with
  | cons ha g1 =>
    cases g1 with
    | cons hb g1 =>
      cases g1
      simp only [q4, q2, hq0.1, hq0.2] at ha hb
      rcases ha with rfl | rfl <;> rcases hb with rfl | rfl <;> simp at g20 g21 <;> revert g20 g21 <;> decide +kernel

/-- `C121_quiet_partial`: the hypotheses hold together; with whole iterations and both contributions recovered the new reduced share is `44 + 3x`. -/
example : ∃ (p : Party Fr Fr) (evs : List FineEvent) (outs : List POut) (s : FineState Fr Fr) (Cs : ℕ → Fr), FineRun frCodec (Pairing.dlog Fr) tb0 ⟨p, PState.init p (coinsT 1), []⟩ evs outs s ∧ QuietRefresh evs ∧
    s.st.refresh = .done Cs ∧ p.reducedShare = [42, 1] ∧ s.p.reducedShare = [44, 3] ∧
    ∃ v, FineEvent.ev (.mvba v) ∈ evs ∧ AddsWhole p.F (agreedIds v) (PState.init p (coinsT 1)).Q s.st.Q p.reducedShare s.p.reducedShare := by
  obtain ⟨P, hP⟩ := holders_toy
  obtain ⟨h1, h2, h3, h4, -, h6, -⟩ := hP 0
  set p := P 0 with hp
  have hold : p.reducedShare = [42, 1] := by rw [h6]; simp [sliceX, bX, List.range_succ]
  choose D hD using fun j => (⟨_, commitMsg_ok (codec := frCodec) (Pairing.dlog Fr) 7 p.F (coinsT j)⟩ : ∃ m, commitMsg frCodec (Pairing.dlog Fr) (newKZG (Pairing.dlog Fr) 7 (p.F + 1)) p.F (coinsT j) = .ok m)
  have hr' : 2 * p.F + 1 < frModulus := by rw [h2]; decide +kernel
  obtain ⟨rs, Cs, st, r1, r2, r3, r4, -⟩ := refresh_phase_run (codec := frCodec) (pp := Pairing.dlog Fr) (tb := tb0) (t := 7) (p := p) h1 (by rw [h2]) (by rw [h2]; norm_num) (by rw [h2, h3]) (by rw [h3]; norm_num)
    (by rw [h3, h4]; norm_num) (by rw [hold, h2]; rfl) (coinsT 1) qT (fun j => marshal (D j))
    (fun j _ _ => (honest_commit_for frCodec (Pairing.dlog Fr) 7 p h1 (by rw [h2]) (by rw [h2]; norm_num) (by rw [h2, h3]) hr' (coinsT j) (qT j) (by intro k _ _; rw [h2]; exact qT_slices j k) (D j) (hD j)).2)
    (fun _ _ => []) (by intro k i; norm_num) (fun _ _ _ _ => rfl) (by intro m s a n r h; cases h; norm_num) [2, 4] [4, 2] (by decide) (by rw [h2]; rfl) (by rw [h3]; decide) (by rw [h2]; rfl) (by rw [h3]; decide) (fun _ _ => [])
  obtain ⟨evs, f1, f2, f3, -⟩ := FineRun.of_run r1
  have hrs : rs = [44, 3] := by
    have hsl : ∀ j, sliceX (qT j) 1 (2 * 1) ((p.pid + 1 : ℕ) : Fr) = [1, 1] := by
      intro j; rw [h4]; simp [sliceX, qT, List.range_succ]
    rw [h2] at r3 r4
    have e0 := r4 0 (by norm_num)
    have e1 := r4 1 (by norm_num)
    simp only [hsl] at e0 e1
    simp [hold] at e0 e1
    match rs, r3 with
    | [x, y], _ =>
      simp at e0 e1
      rw [e0, e1]
      norm_num
  exact ⟨p, evs, _, _, Cs, f1, f3, r2, hold, hrs, C121_quiet_partial frCodec (Pairing.dlog Fr) tb0 p (coinsT 1) evs _ _ f1 f3 Cs r2⟩

/-- `C121_prefix_partial`: in the execution of `C121_refuted` the share is what the thresholds 1 and 0 give. -/
example : AddsFrom 1 [4, 2] (fun _ => [0, 0]) (fun _ => [1, 1]) ([42, 1] : List Fr) [43, 3] ∧ ¬ AddsFrom 1 [4, 2] (fun _ => [0, 0]) (fun _ => [1, 1]) ([42, 1] : List Fr) [44, 2] := by
  refine ⟨⟨[1, 0], rfl, fun i hi => ?_⟩, ?_⟩
  · have : i = 0 ∨ i = 1 := by omega
    rcases this with rfl | rfl <;> simp <;> norm_num
  · rintro ⟨as, h1, h2⟩
    match as, h1 with
    | [x, y], _ =>
      have a0 := h2 0 (by norm_num)
      have a1 := h2 1 (by norm_num)
      by_cases hx0 : 0 < x <;> by_cases hy0 : 0 < y <;> by_cases hx1 : 1 < x <;> by_cases hy1 : 1 < y <;> simp [hx0, hy0, hx1, hy1] at a0 a1 <;> first | omega | (revert a0 a1; decide +kernel)

/-- `QuietRefresh`: a handler between two iterations is allowed, one between two coefficients is not. -/
example : QuietRefresh [.coef, .coef, .next, .ev (.handleRecover 4), .coef] ∧ ¬ QuietRefresh [.coef, .ev (.handleRecover 4), .coef, .next] := by
  refine ⟨fun a b c k h => ?_, fun h => by simpa using h [] [] [.coef, .next] 4 rfl⟩
  match a, b with
  | [], [] => simp at h
  | [], [_] => simp at h
  | [], [_, _] => simp at h; simp [← h.2.1]
  | [], _ :: _ :: _ :: _ => simp at h; simp [← h.2.1]
  | [_], [] => simp at h
  | [_], [_] => simp at h; simp [← h.2.1]
  | [_], _ :: _ :: _ => simp at h; simp [← h.2.1]
  | [_, _], _ => simp at h
  | [_, _, _], _ => simp at h
  | [_, _, _, _], [] => simp at h
  | [_, _, _, _], _ :: _ => simp at h
  | _ :: _ :: _ :: _ :: _ :: _, _ => simp at h

end Examples

end DyCAPS
