import Verif.Lemmas.ShareReduce
import Verif.Model.Proactivize
import Verif.Spec.Refresh

/-! Helper lemmas about Proactivize and ShareDist. -/

set_option linter.unusedSectionVars false

namespace DyCAPS

open Polynomial

section
variable {G1 G2 GT : Type} [AddCommGroup G1] [Module Fr G1] [AddCommGroup G2] [Module Fr G2] [AddCommGroup GT] [Module Fr GT]

theorem commitsTo_iff (pp : Pairing Fr G1 G2 GT) (t : Fr) (F N : ℕ) (q : ℕ → ℕ → Fr) (row : ℕ → G1) :
    CommitsTo pp t F N q row ↔ ∀ k, 1 ≤ k → k ≤ N → row k = polyVal (sliceX q F (2 * F) (k : Fr)) t • pp.g1 := by
  unfold CommitsTo
  constructor
  · intro h k h1 h2
    have := h k h1 h2
    rw [commitToPoly_ok pp t _ _ (by rw [sliceX_length])] at this
    exact (Except.ok.inj this).symm
  · intro h k h1 h2
    rw [h k h1 h2, commitToPoly_ok pp t _ _ (by rw [sliceX_length])]

/-- `InterpolateComOrWit` at 0 is the Lagrange combination. -/
theorem interpolate_zero (pp : Pairing Fr G1 G2 GT) (t : Fr) (p : Party G1 G2) (hp : p.Setup pp t) (list : List G1)
    (hl : list.length = 2 * p.F + 1) :
    interpolateComOrWit p.F p.table (2 * p.F) 0 list =
      .ok (∑ i ∈ Finset.range (2 * p.F + 1), lagrangeCoeff (firstIndices (2 * p.F + 1)) (0 : Fr) (2 * p.F) i • list.getD i 0) := by
  have ht := hp.table
  rw [lagrangeTable_ok] at ht
  have ht' := Except.ok.inj ht
  unfold interpolateComOrWit
  simp only
  rw [if_neg (by omega), if_pos (by simp), ← ht', idx_of_lt (by simp), Go.ok_bind]
  simp only [List.getElem_map, List.getElem_range, Nat.cast_zero]
  rw [linCombG1_ok _ _ (by simp [hl])]
  congr 1
  rw [List.length_map, List.length_range]
  apply Finset.sum_congr rfl
  intro i hi
  rw [Finset.mem_range] at hi
  congr 1
  rw [List.getD_eq_getElem _ _ (by simpa using hi)]
  simp

variable [DecidableEq G1] [DecidableEq GT]

theorem range_map_getD {α : Type} (f : ℕ → α) (d : α) (n i : ℕ) (h : i < n) : ((List.range n).map f).getD i d = f i := by
  rw [List.getD_eq_getElem _ _ (by simpa using h)]; simp

/-- What acceptance of a Commit message means. -/
theorem verifyCommit_true (codec : PointCodec G1) (pp : Pairing Fr G1 G2 GT) (t : Fr) (p : Party G1 G2) (hp : p.Setup pp t)
    (hF : 1 ≤ p.F) (row row' : ℕ → G1) (m : PCommit) (h : verifyCommit codec pp p row m = .ok (row', true)) :
    ∃ c : ℕ → PiContent G1, (∀ k < 2 * p.F + 1, commitEntry codec m k = .ok (c (k + 1))) ∧
      (∀ k, 1 ≤ k → k ≤ 2 * p.F + 1 → (c k).CBj = (c k).CZj + (c k).gFj ∧ (c k).CZj = t • (c k).WZ0) ∧
      (∑ i ∈ Finset.range (2 * p.F + 1), lagrangeCoeff (firstIndices (2 * p.F + 1)) (0 : Fr) (2 * p.F) i • (c (i + 1)).gFj = 0) ∧
      (∀ k, 1 ≤ k → k ≤ 2 * p.F + 1 → row' k = (c k).CBj) ∧
      ∀ k, 2 * p.F + 1 < k → k ≤ p.N → interpolateComOrWit p.F p.table (2 * p.F) k
        ((List.range (2 * p.F + 1)).map fun i => (c (i + 1)).CBj) = .ok (row' k) := by
  unfold verifyCommit at h
  cases hgf : (List.range (2 * p.F + 1)).mapM (fun i => do
    let c ← idx m.pi i
    codec.decode! c.gFj) with
  | error e => rw [hgf] at h; cases h
  | ok gfl =>
    rw [hgf, Go.ok_bind] at h
    obtain ⟨gf, hgf1, rfl⟩ := mapM_ok_inv (0 : G1) _ _ _ hgf
    rw [interpolate_zero pp t p hp _ (by simp), Go.ok_bind] at h
    cases hcs : (List.range (2 * p.F + 1)).mapM (commitEntry codec m) with
    | error e => rw [hcs] at h; cases h
    | ok csl =>
      rw [hcs, Go.ok_bind] at h
      obtain ⟨c, hc1, rfl⟩ := mapM_ok_inv (PiContent.zero 0) _ _ _ hcs
      have hok : ((List.range (2 * p.F + 1)).map c).mapM (commitEntryOk pp p) = .ok (((List.range (2 * p.F + 1)).map c).map fun x =>
          decide (x.CBj = x.CZj + x.gFj) && decide (x.CZj = t • x.WZ0)) := by
        apply mapM_ok
        intro x _
        unfold commitEntryOk
        rw [hp.kzg, checkProofSingle_ok pp t _ (by omega)]
        simp
      rw [hok, Go.ok_bind] at h
      have hgfc : ∀ i < 2 * p.F + 1, gf i = (c i).gFj := by
        intro i hi
        have h1 := hgf1 i (by simpa using hi)
        have h2 := hc1 i (by simpa using hi)
        unfold commitEntry at h2
        cases hx : idx m.pi i with
        | error e => rw [hx] at h1; cases h1
        | ok x =>
          rw [hx, Go.ok_bind] at h1 h2
          cases ha : codec.decode! x.CBj with
          | error e => rw [ha] at h2; cases h2
          | ok a =>
            rw [ha, Go.ok_bind] at h2
            cases hb : codec.decode! x.CZj with
            | error e => rw [hb] at h2; cases h2
            | ok b =>
              rw [hb, Go.ok_bind] at h2
              cases hd : codec.decode! x.WZ0 with
              | error e => rw [hd] at h2; cases h2
              | ok d =>
                rw [hd, Go.ok_bind, h1, Go.ok_bind] at h2
                have := Except.ok.inj h2
                rw [← this]
      split at h
      swap
      · cases h
      rename_i hcond
      rw [Bool.and_eq_true, decide_eq_true_eq, List.all_eq_true] at hcond
      obtain ⟨hsum, hall⟩ := hcond
      have hconds : ∀ k < 2 * p.F + 1, (c k).CBj = (c k).CZj + (c k).gFj ∧ (c k).CZj = t • (c k).WZ0 := by
        intro k hk
        have := hall _ (List.mem_map.2 ⟨c k, List.mem_map.2 ⟨k, by simpa using hk, rfl⟩, rfl⟩)
        simp only [id] at this
        rwa [Bool.and_eq_true, decide_eq_true_eq, decide_eq_true_eq] at this
      simp only at h
      cases htl : (List.range' (2 * p.F + 2) (p.N - (2 * p.F + 1))).mapM fun k => interpolateComOrWit p.F p.table (2 * p.F) k
          (((List.range (2 * p.F + 1)).map c).map (·.CBj)) with
      | error e => rw [htl] at h; cases h
      | ok tl =>
        rw [htl, Go.ok_bind] at h
        obtain ⟨g, hg, rfl⟩ := mapM_ok_inv (0 : G1) _ _ _ htl
        have hrow := (Prod.mk.inj (Except.ok.inj h)).1
        refine ⟨fun k => c (k - 1), ?_, ?_, ?_, ?_, ?_⟩
        · intro k hk
          rw [hc1 k (by simpa using hk)]; rfl
        · intro k h1 h2
          exact hconds (k - 1) (by omega)
        · rw [← hsum]
          apply Finset.sum_congr rfl
          intro i hi
          rw [Finset.mem_range] at hi
          rw [range_map_getD _ _ _ _ hi, hgfc i hi]
          rfl
        · intro k h1 h2
          rw [← hrow]
          simp only
          rw [if_pos ⟨h1, h2⟩, List.map_map, range_map_getD _ _ _ _ (by omega)]
          rfl
        · intro k h1 h2
          rw [← hrow]
          simp only
          rw [if_neg (by omega), if_pos (by omega)]
          have := hg k (by rw [List.mem_range'_1]; omega)
          rw [List.map_map] at this
          rw [List.getD_eq_getElem _ _ (by simp; omega), List.getElem_map]
          have hk : (List.range' (2 * p.F + 2) (p.N - (2 * p.F + 1)))[k - (2 * p.F + 2)]'(by simp; omega) = k := by
            rw [List.getElem_range']; omega
          rw [hk]
          exact this

/-- If the published entries are commitments to `Q(·,1..2F+1)`, the whole row is. -/
theorem row_commits (pp : Pairing Fr G1 G2 GT) (t : Fr) (p : Party G1 G2) (hp : p.Setup pp t)
    (hN : 3 * p.F + 1 ≤ p.N) (hr : 2 * p.F + 1 < frModulus) (q : ℕ → ℕ → Fr) (row : ℕ → G1) (cq : ℕ → G1)
    (h1 : ∀ k, 1 ≤ k → k ≤ 2 * p.F + 1 → cq k = polyVal (sliceX q p.F (2 * p.F) (k : Fr)) t • pp.g1)
    (h2 : ∀ k, 1 ≤ k → k ≤ 2 * p.F + 1 → row k = cq k)
    (h3 : ∀ k, 2 * p.F + 1 < k → k ≤ p.N → interpolateComOrWit p.F p.table (2 * p.F) k
        ((List.range (2 * p.F + 1)).map fun i => cq (i + 1)) = .ok (row k)) :
    CommitsTo pp t p.F p.N q row := by
  rw [commitsTo_iff]
  intro k hk1 hk2
  by_cases hk : k ≤ 2 * p.F + 1
  · rw [h2 k hk1 hk, h1 k hk1 hk]
  · have := interpolateComOrWit_ok p.F p.N hN p.table hp.table (distinct_firstIndices _ hr)
      (fun y => polyVal (sliceX q p.F (2 * p.F) y) t • pp.g1) (polyFun_commit pp q p.F (2 * p.F) t)
      ((List.range (2 * p.F + 1)).map fun i => cq (i + 1)) (by simp) (by
        intro k h1' h2'
        rw [range_map_getD _ _ _ _ (by omega), Nat.sub_add_cancel h1', h1 k h1' h2']) k
    rw [h3 k (by omega) hk2] at this
    exact Except.ok.inj this

/-- A Commit message with the given contents. -/
def commitOf (codec : PointCodec G1) (F : ℕ) (c : ℕ → PiContent G1) : PCommit :=
  ⟨(oneTo (2 * F + 1)).map fun k => encodeContent codec (c k) k⟩

theorem commitOf_idx (codec : PointCodec G1) (F : ℕ) (c : ℕ → PiContent G1) (i : ℕ) (hi : i < 2 * F + 1) :
    idx (commitOf codec F c).pi i = .ok (encodeContent codec (c (i + 1)) (i + 1)) := by
  unfold commitOf
  simp only
  rw [idx_of_lt (by simp [oneTo]; omega)]
  simp [oneTo]

theorem commitEntry_of (codec : PointCodec G1) (F : ℕ) (c : ℕ → PiContent G1) (i : ℕ) (hi : i < 2 * F + 1) :
    commitEntry codec (commitOf codec F c) i = .ok ⟨i + 1, (c (i + 1)).CBj, (c (i + 1)).CZj, (c (i + 1)).WZ0, (c (i + 1)).gFj⟩ := by
  unfold commitEntry
  rw [commitOf_idx codec F c i hi, Go.ok_bind]
  simp only [encodeContent]
  rw [decode!_enc, decode!_enc, decode!_enc, decode!_enc]
  rfl

/-- Outcome of verifying a message with the given contents. -/
theorem verifyCommit_of (codec : PointCodec G1) (pp : Pairing Fr G1 G2 GT) (t : Fr) (p : Party G1 G2) (hp : p.Setup pp t)
    (hF : 1 ≤ p.F) (hN : 3 * p.F + 1 ≤ p.N) (row : ℕ → G1) (c : ℕ → PiContent G1) :
    ∃ row' ok, verifyCommit codec pp p row (commitOf codec p.F c) = .ok (row', ok) ∧
      (ok = true ↔ (∀ k, 1 ≤ k → k ≤ 2 * p.F + 1 → (c k).CBj = (c k).CZj + (c k).gFj ∧ (c k).CZj = t • (c k).WZ0) ∧
      (∑ i ∈ Finset.range (2 * p.F + 1), lagrangeCoeff (firstIndices (2 * p.F + 1)) (0 : Fr) (2 * p.F) i • (c (i + 1)).gFj = 0)) := by
  unfold verifyCommit
  rw [mapM_ok _ (fun i => (c (i + 1)).gFj), Go.ok_bind, interpolate_zero pp t p hp _ (by simp), Go.ok_bind]
  swap
  · intro i hi
    rw [commitOf_idx codec p.F c i (by simpa using hi), Go.ok_bind]
    exact decode!_enc _ _
  rw [mapM_ok _ (fun i => (⟨i + 1, (c (i + 1)).CBj, (c (i + 1)).CZj, (c (i + 1)).WZ0, (c (i + 1)).gFj⟩ : PiContent G1)), Go.ok_bind]
  swap
  · intro i hi
    exact commitEntry_of codec p.F c i (by simpa using hi)
  rw [mapM_ok (commitEntryOk pp p) (fun x : PiContent G1 => decide (x.CBj = x.CZj + x.gFj) && decide (x.CZj = t • x.WZ0)), Go.ok_bind]
  swap
  · intro x _
    unfold commitEntryOk
    rw [hp.kzg, checkProofSingle_ok pp t _ (by omega)]
    simp
  have hcond : (decide ((∑ i ∈ Finset.range (2 * p.F + 1), lagrangeCoeff (firstIndices (2 * p.F + 1)) (0 : Fr) (2 * p.F) i •
        ((List.range (2 * p.F + 1)).map fun i => (c (i + 1)).gFj).getD i 0) = 0) &&
      (((List.range (2 * p.F + 1)).map fun i => (⟨i + 1, (c (i + 1)).CBj, (c (i + 1)).CZj, (c (i + 1)).WZ0, (c (i + 1)).gFj⟩ : PiContent G1)).map
        fun x => decide (x.CBj = x.CZj + x.gFj) && decide (x.CZj = t • x.WZ0)).all id) = true ↔
      (∀ k, 1 ≤ k → k ≤ 2 * p.F + 1 → (c k).CBj = (c k).CZj + (c k).gFj ∧ (c k).CZj = t • (c k).WZ0) ∧
      (∑ i ∈ Finset.range (2 * p.F + 1), lagrangeCoeff (firstIndices (2 * p.F + 1)) (0 : Fr) (2 * p.F) i • (c (i + 1)).gFj = 0) := by
    rw [Bool.and_eq_true, decide_eq_true_eq, and_comm]
    apply and_congr
    · rw [List.all_eq_true]
      constructor
      · intro h k h1 h2
        have := h _ (List.mem_map.2 ⟨_, List.mem_map.2 ⟨k - 1, by simp; omega, rfl⟩, rfl⟩)
        simp only [id, Nat.sub_add_cancel h1] at this
        rwa [Bool.and_eq_true, decide_eq_true_eq, decide_eq_true_eq] at this
      · intro h x hx
        obtain ⟨y, hy, rfl⟩ := List.mem_map.1 hx
        obtain ⟨i, hi, rfl⟩ := List.mem_map.1 hy
        rw [List.mem_range] at hi
        simp only [id]
        rw [Bool.and_eq_true, decide_eq_true_eq, decide_eq_true_eq]
        exact h (i + 1) (by omega) (by omega)
    · rw [Finset.sum_congr rfl]
      intro i hi
      rw [Finset.mem_range] at hi
      rw [range_map_getD _ _ _ _ hi]
  split
  · rename_i h
    simp only
    have : ∃ g : ℕ → G1, ∀ k ∈ List.range' (2 * p.F + 2) (p.N - (2 * p.F + 1)), interpolateComOrWit p.F p.table (2 * p.F) k
        (((List.range (2 * p.F + 1)).map fun i => (⟨i + 1, (c (i + 1)).CBj, (c (i + 1)).CZj, (c (i + 1)).WZ0, (c (i + 1)).gFj⟩ : PiContent G1)).map (·.CBj)) = .ok (g k) := by
      have ht := hp.table
      rw [lagrangeTable_ok] at ht
      have ht' := Except.ok.inj ht
      have : ∀ k, ∃ g, k ∈ List.range' (2 * p.F + 2) (p.N - (2 * p.F + 1)) → interpolateComOrWit p.F p.table (2 * p.F) k
        (((List.range (2 * p.F + 1)).map fun i => (⟨i + 1, (c (i + 1)).CBj, (c (i + 1)).CZj, (c (i + 1)).WZ0, (c (i + 1)).gFj⟩ : PiContent G1)).map (·.CBj)) = .ok g := by
        intro k
        by_cases hk : k ∈ List.range' (2 * p.F + 2) (p.N - (2 * p.F + 1))
        swap
        · exact ⟨0, fun h => absurd h hk⟩
        rw [List.mem_range'_1] at hk
        unfold interpolateComOrWit
        simp only
        rw [if_neg (by omega)]
        split
        · rw [← ht', idx_of_lt (by simp; omega), Go.ok_bind, linCombG1_ok _ _ (by simp)]
          exact ⟨_, fun _ => rfl⟩
        · rw [getLagrangeCoefficients, if_neg (by simp [firstIndices_length]), Go.ok_bind, linCombG1_ok _ _ (by simp)]
          exact ⟨_, fun _ => rfl⟩
      choose g hg using this
      exact ⟨g, fun k hk => hg k hk⟩
    obtain ⟨g, hg⟩ := this
    rw [mapM_ok _ g _ hg, Go.ok_bind]
    exact ⟨_, true, rfl, by simpa using hcond.1 h⟩
  · rename_i h
    refine ⟨_, false, rfl, ?_⟩
    rw [hcond] at h
    simpa using h

end

end DyCAPS
