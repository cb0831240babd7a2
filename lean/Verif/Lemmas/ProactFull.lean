import Verif.Lemmas.ProactHonest
import Verif.Lemmas.ProactCount

/-! A run from the start of Proactivize to the end of Refresh with correct messages only. -/

set_option linter.unusedSectionVars false

namespace DyCAPS

theorem size_mvba (m : PMVBAIN) (n : ℕ) (hn : n ≤ 2 ^ 20) (h1 : m.sig.length ≤ n + 1) (h2 : m.j.length ≤ n + 1) (h3 : ∀ b ∈ m.sig, b.length < 2 ^ 32) :
    (marshal m).length < 2 ^ 64 := by
  show (encFields (putRep 1 _ ++ putPacked 2 _)).length < _
  rw [encFields_append, List.length_append]
  have a1 := size_putRep 1 (by norm_num) m.sig (2 ^ 32) (fun b hb => le_of_lt (h3 b hb))
  have a2 : (encFields (putPacked 2 m.j)).length ≤ 2 * ((n + 1) * 2 ^ 33) + 2 := by
    unfold putPacked
    split
    · simp [encFields]
    · have hl : (m.j.flatMap fun v => encVarint v.toNat).length ≤ m.j.length * 2 ^ 33 := by
        rw [List.length_flatMap]
        have : ∀ l : List UInt32, (l.map fun v => (encVarint v.toNat).length).sum ≤ l.length * 2 ^ 33 := by
          intro l
          induction l with
          | nil => simp
          | cons v l ih =>
            have e1 := encVarint_length_le v.toNat
            have e2 : v.toNat < 2 ^ 32 := UInt32.toNat_lt _
            rw [List.map_cons, List.sum_cons, List.length_cons, Nat.add_mul]
            omega
        exact this m.j
      have hb := size_bytes 2 (by norm_num) (m.j.flatMap fun v => encVarint v.toNat)
      have : (encFields [(2, WireVal.bytes (m.j.flatMap fun v => encVarint v.toNat))]).length = (encField (2, .bytes (m.j.flatMap fun v => encVarint v.toNat))).length := by
        simp [encFields]
      rw [this]
      have hm : m.j.length * 2 ^ 33 ≤ (n + 1) * 2 ^ 33 := Nat.mul_le_mul_right _ h2
      omega
  have e1 : m.sig.length * (2 * 2 ^ 32 + 2) ≤ (2 ^ 20 + 1) * (2 * 2 ^ 32 + 2) := Nat.mul_le_mul_right _ (by omega)
  have e2 : 2 * ((n + 1) * 2 ^ 33) + 2 ≤ 2 * ((2 ^ 20 + 1) * 2 ^ 33) + 2 := by
    have := Nat.mul_le_mul_right (2 ^ 33) (by omega : n + 1 ≤ 2 ^ 20 + 1)
    omega
  have e3 : (2 ^ 20 + 1) * (2 * 2 ^ 32 + 2) + (2 * ((2 ^ 20 + 1) * 2 ^ 33) + 2) < (2:ℕ) ^ 64 := by norm_num
  exact lt_of_le_of_lt (Nat.add_le_add (a1.trans e1) (a2.trans e2)) e3

/-- The agreed set is read back from a serialised proposal. -/
theorem mvbaInput_names (tb : Tbls) (F N : ℕ) (hF' : F ≤ 2 ^ 20) (hN' : N < 2 ^ 32) (sgJ : ℕ → ℕ → Bytes)
    (hrec : ∀ m s a n r, tb.recover m s a n = some r → r.length < 2 ^ 32) (J : List ℕ) (hJl : J.length = F + 1) (hJ1 : ∀ k ∈ J, k ≤ N) :
    (unmarshalD (⟨[], []⟩ : PMVBAIN) (marshal (mvbaInput tb F N sgJ J))).j.map (·.toNat) = J := by
  rw [unmarshalD, rt_PMVBAIN _ (size_mvba _ F hF' (by simp [mvbaInput, hJl]) (by simp [mvbaInput, hJl]) ?_)]
  · show (J.map UInt32.ofNat).map (·.toNat) = J
    rw [List.map_map]
    conv_rhs => rw [← List.map_id J]
    apply List.map_congr_left
    intro k hk
    have := hJ1 k hk
    rw [Function.comp_apply, UInt32.toNat_ofNat', Nat.mod_eq_of_lt (by omega)]
    rfl
  · intro b hb
    obtain ⟨k, -, rfl⟩ := List.mem_map.1 hb
    unfold honestSig
    cases hr : tb.recover (decimalBytes k) ((oneTo (2 * F + 1)).map (sgJ k) ++ List.replicate (N + 1 - (2 * F + 1)) []) (2 * F) N with
    | none => simp
    | some r => exact hrec _ _ _ _ _ hr

section
variable {G1 G2 GT : Type} [AddCommGroup G1] [Module Fr G1] [AddCommGroup G2] [Module Fr G2] [AddCommGroup GT] [Module Fr GT]
variable [DecidableEq G1] [DecidableEq GT]
variable {codec : PointCodec G1} {pp : Pairing Fr G1 G2 GT} {tb : Tbls} {t : Fr} {p : Party G1 G2}

/-- A party accepts all commitments `D`, handles the Recover messages of parties `1..2F+1` for the resharers `ks`, gets the MVBA result `J` and refreshes; the three parts of the run. -/
theorem refresh_phase_voters (V : ℕ) (hp : p.Setup pp t) (hF : 1 ≤ p.F) (hN : 3 * p.F + 1 ≤ p.N) (hN' : p.N < 2 ^ 32) (hpid : p.pid < p.N)
    (hl : p.reducedShare.length = p.F + 1) (c : DealerCoins) (q : ℕ → ℕ → ℕ → Fr) (D : ℕ → Bytes)
    (hD : ∀ j, 1 ≤ j → j ≤ p.N → ∀ row, ∃ row', verifyCommit codec pp p row (unmarshalD (⟨[]⟩ : PCommit) (D j)) = .ok (row', true) ∧
      CommitsTo pp t p.F p.N (q j) row')
    (sg : ℕ → ℕ → Bytes) (hsg : ∀ k i, (sg k i).length < 2 ^ 32) (hver : ∀ k i, 1 ≤ i → i ≤ 2 * p.F + 1 → tb.verifyPartial (decimalBytes k) (sg k i) = true)
    (ks J : List ℕ) (hks : ks.Nodup) (hksl : ks.length = p.F + 1) (hks1 : ∀ k ∈ ks, 1 ≤ k ∧ k ≤ p.N)
    (hJ1 : ∀ k ∈ J, 1 ≤ k ∧ k ≤ p.N) (v : Bytes) (hun : (unmarshalD (⟨[], []⟩ : PMVBAIN) v).j.map (·.toNat) = J) :
    ∃ rs Cs s1 s2 st, PRun codec pp tb p (PState.init p c) ((oneTo p.N).map fun j => .commit j (some (D j))) [] p s1 ∧
      PRun codec pp tb p { s1 with voters := V } (ks.flatMap fun k => batchEvents codec pp t k (sliceX (q k) p.F (2 * p.F) ((p.pid + 1 : ℕ) : Fr)) (sg k) (2 * p.F + 1))
        [.mvba (mvbaInput tb p.F p.N sg ks)] p s2 ∧
      PRun codec pp tb p s2 (PEvent.mvba v :: List.replicate (J.length + 1) .refresh) [] { p with reducedShare := rs } st ∧
      s1.voters = p.N ∧
      (∀ j, 1 ≤ j → j ≤ p.N → s1.flgCom j = true ∧ CommitsTo pp t p.F p.N (q j) (s1.CQ j)) ∧
      st.refresh = .done Cs ∧ rs.length = p.F + 1 ∧
      (∀ i < p.F + 1, rs.getD i 0 = p.reducedShare.getD i 0 + (J.map fun j => (if j ∈ ks then sliceX (q j) p.F (2 * p.F) ((p.pid + 1 : ℕ) : Fr)
        else (PState.init p c).Q j).getD i 0).sum) ∧
      (∀ j, 1 ≤ j → j ≤ p.N → Cs j = (J.map fun k => polyVal (sliceX (q k) p.F (2 * p.F) (j : Fr)) t).sum • pp.g1) ∧
      st.newComDone = (fun _ => false) ∧ st.SB = [] ∧ st.successSent = false ∧ (∀ j, st.flgRec j = true ↔ j ∈ ks) ∧
      st.finished = false ∧ st.successCount = 0 ∧ st.dists = p.N := by
  obtain ⟨cd, CQ, fc, vt, r1, hfc, -⟩ := commits_run (tb := tb) (PState.init p c) (fun _ => rfl) q D hD p.N le_rfl
  set s1 : PState G1 := { PState.init p c with comDone := cd, CQ := CQ, flgCom := fc, voteToken := vt } with hs1
  obtain ⟨s2, r2, a2⟩ := batches_run (codec := codec) (tb := tb) hp hF hN hN' { s1 with voters := V } rfl (fun k => sliceX (q k) p.F (2 * p.F) ((p.pid + 1 : ℕ) : Fr))
    (fun k => sliceX_length _ _ _ _) sg hsg hver ks hks (by
      intro k hk
      obtain ⟨k1, k2⟩ := hks1 k hk
      refine ⟨k1, k2, ⟨rfl, rfl, rfl, rfl, rfl, rfl, rfl, rfl, rfl, (hfc k k1 k2).1⟩, ?_⟩
      exact (commitsTo_iff _ _ _ _ _ _).1 (hfc k k1 k2).2 (p.pid + 1) (by omega) (by omega)) (by omega) rfl rfl
  rw [if_pos hksl] at r2
  have hlen2 : s2.mvbaIn.length = p.F + 1 := by rw [a2.mvbaIn]; simp [hs1, PState.init, hksl]
  set s3 : PState G1 := { s2 with mvbaRunning := false, refresh := .looping J (List.replicate (p.F + 1) 0) (fun _ => 0) } with hs3
  have e3 : proactStep codec pp tb p s2 (.mvba v) = some (.ok (p, s3, [])) := by
    simp only [proactStep]
    rw [if_pos (by rw [a2.running, hlen2]; simp), hun]
  obtain ⟨rs, Cs, r4, b1, b2, b3⟩ := refresh_run (codec := codec) (pp := pp) (tb := tb) (p := p) J s3 _ _ hl rfl (by show s2.refreshWait = _; rw [a2.refreshWait]; rfl) (by
    intro j hj
    obtain ⟨j1, j2⟩ := hJ1 j hj
    refine ⟨j2, ?_⟩
    show s2.flgCom j = true
    rw [a2.flgCom]
    exact (hfc j j1 j2).1)
  refine ⟨rs, Cs, s1, s2, { s3 with refresh := .done Cs }, r1, r2, ?_, rfl, hfc, rfl, b1, ?_, ?_, ?_, ?_, ?_, ?_, ?_, ?_, ?_⟩
  · exact (PRun.single e3).trans r4
  · intro i hi
    rw [b2 i hi]
    have hz : (List.replicate (p.F + 1) (0 : Fr)).getD i 0 = 0 := by
      rw [List.getD_eq_getElem _ _ (by simpa using hi)]; simp
    rw [hz, zero_add, add_comm]
    congr 2
    apply List.map_congr_left
    intro j _
    show (s2.Q j).getD i 0 = _
    by_cases hj : j ∈ ks
    · rw [if_pos hj, (a2.recd j hj).2]
    · rw [if_neg hj, (a2.other j hj).2.1]
  · intro j j1 j2
    rw [b3 j, zero_add]
    have hall : ∀ k ∈ J, s3.CQ k j = polyVal (sliceX (q k) p.F (2 * p.F) (j : Fr)) t • pp.g1 := by
      intro k hk
      obtain ⟨k1, k2⟩ := hJ1 k hk
      show s2.CQ k j = _
      rw [a2.CQ]
      exact (commitsTo_iff _ _ _ _ _ _).1 (hfc k k1 k2).2 j j1 j2
    rw [List.map_congr_left hall]
    have hsum : ∀ L : List ℕ, (L.map fun k => polyVal (sliceX (q k) p.F (2 * p.F) (j : Fr)) t • pp.g1).sum =
        (L.map fun k => polyVal (sliceX (q k) p.F (2 * p.F) (j : Fr)) t).sum • pp.g1 := by
      intro L
      induction L with
      | nil => simp
      | cons a L ih => simp only [List.map_cons, List.sum_cons, add_smul]; rw [ih]
    exact hsum J
  · show s2.newComDone = _
    rw [a2.newComDone]; rfl
  · show s2.SB = _
    rw [a2.SB]; rfl
  · show s2.successSent = _
    rw [a2.successSent]; rfl
  · intro j
    show s2.flgRec j = true ↔ _
    by_cases hj : j ∈ ks
    · simp [hj, (a2.recd j hj).1]
    · rw [(a2.other j hj).1]
      simp [hj, hs1, PState.init]
  · show s2.finished = _
    rw [a2.finished]; rfl
  · show s2.successCount = _
    rw [a2.successCount]; rfl
  · show s2.dists = _
    rw [a2.dists]; rfl

/-- A party accepts the first `n` commitments, handles Recover messages for resharers among them, and gets an MVBA result that begins with a later resharer: the Refresh loop waits. -/
theorem late_phase_parts (V n : ℕ) (hn : n ≤ p.N) (hp : p.Setup pp t) (hF : 1 ≤ p.F) (hN : 3 * p.F + 1 ≤ p.N) (hN' : p.N < 2 ^ 32) (hpid : p.pid < p.N)
    (c : DealerCoins) (q : ℕ → ℕ → ℕ → Fr) (D : ℕ → Bytes)
    (hD : ∀ j, 1 ≤ j → j ≤ p.N → ∀ row, ∃ row', verifyCommit codec pp p row (unmarshalD (⟨[]⟩ : PCommit) (D j)) = .ok (row', true) ∧
      CommitsTo pp t p.F p.N (q j) row')
    (sg : ℕ → ℕ → Bytes) (hsg : ∀ k i, (sg k i).length < 2 ^ 32) (hver : ∀ k i, 1 ≤ i → i ≤ 2 * p.F + 1 → tb.verifyPartial (decimalBytes k) (sg k i) = true)
    (ks : List ℕ) (hks : ks.Nodup) (hksl : ks.length = p.F + 1) (hks1 : ∀ k ∈ ks, 1 ≤ k ∧ k ≤ n)
    (j : ℕ) (rest : List ℕ) (hj : n < j) (hj' : j ≤ p.N) (v : Bytes) (hun : (unmarshalD (⟨[], []⟩ : PMVBAIN) v).j.map (·.toNat) = j :: rest) :
    ∃ s1 s2 st, PRun codec pp tb p (PState.init p c) ((oneTo n).map fun j => .commit j (some (D j))) [] p s1 ∧
      PRun codec pp tb p { s1 with voters := V } (ks.flatMap fun k => batchEvents codec pp t k (sliceX (q k) p.F (2 * p.F) ((p.pid + 1 : ℕ) : Fr)) (sg k) (2 * p.F + 1))
        [.mvba (mvbaInput tb p.F p.N sg ks)] p s2 ∧
      PRun codec pp tb p s2 [PEvent.mvba v, .refresh] [] p st ∧
      s1.voters = p.N ∧
      (∀ j, 1 ≤ j → j ≤ n → s1.flgCom j = true ∧ CommitsTo pp t p.F p.N (q j) (s1.CQ j)) ∧ st.refreshWait = true := by
  obtain ⟨cd, CQ, fc, vt, r1, hfc, hlate⟩ := commits_run (tb := tb) (PState.init p c) (fun _ => rfl) q D hD n hn
  set s1 : PState G1 := { PState.init p c with comDone := cd, CQ := CQ, flgCom := fc, voteToken := vt } with hs1
  obtain ⟨s2, r2, a2⟩ := batches_run (codec := codec) (tb := tb) hp hF hN hN' { s1 with voters := V } rfl (fun k => sliceX (q k) p.F (2 * p.F) ((p.pid + 1 : ℕ) : Fr))
    (fun k => sliceX_length _ _ _ _) sg hsg hver ks hks (by
      intro k hk
      obtain ⟨k1, k2⟩ := hks1 k hk
      refine ⟨k1, by omega, ⟨rfl, rfl, rfl, rfl, rfl, rfl, rfl, rfl, rfl, (hfc k k1 k2).1⟩, ?_⟩
      exact (commitsTo_iff _ _ _ _ _ _).1 (hfc k k1 k2).2 (p.pid + 1) (by omega) (by omega)) (by omega) rfl rfl
  rw [if_pos hksl] at r2
  have hlen2 : s2.mvbaIn.length = p.F + 1 := by rw [a2.mvbaIn]; simp [hs1, PState.init, hksl]
  set s3 : PState G1 := { s2 with mvbaRunning := false, refresh := .looping (j :: rest) (List.replicate (p.F + 1) 0) (fun _ => 0) } with hs3
  have e3 : proactStep codec pp tb p s2 (.mvba v) = some (.ok (p, s3, [])) := by
    simp only [proactStep]
    rw [if_pos (by rw [a2.running, hlen2]; simp), hun]
  have hw : s3.refreshWait = false := by show s2.refreshWait = _; rw [a2.refreshWait]; rfl
  have hf : s3.flgCom j = false := by
    show s2.flgCom j = false
    rw [a2.flgCom]
    exact (hlate j hj).2
  have e4 : proactStep codec pp tb p s3 .refresh = some (.ok (p, { s3 with refreshWait := true }, [])) := by
    simp only [proactStep, refreshStep]
    rw [show s3.refresh = .looping (j :: rest) (List.replicate (p.F + 1) 0) (fun _ => 0) from rfl]
    simp only
    rw [if_neg (by omega : ¬ p.N < j), if_neg (by rw [hw]; simp), if_neg (by rw [hf]; simp)]
    rfl
  exact ⟨s1, s2, _, r1, r2, (PRun.single e3).trans (PRun.single e4), rfl, hfc, rfl⟩

/-- The same with all receivers of Reshare messages unused. -/
theorem refresh_phase_parts (hp : p.Setup pp t) (hF : 1 ≤ p.F) (hN : 3 * p.F + 1 ≤ p.N) (hN' : p.N < 2 ^ 32) (hpid : p.pid < p.N)
    (hl : p.reducedShare.length = p.F + 1) (c : DealerCoins) (q : ℕ → ℕ → ℕ → Fr) (D : ℕ → Bytes)
    (hD : ∀ j, 1 ≤ j → j ≤ p.N → ∀ row, ∃ row', verifyCommit codec pp p row (unmarshalD (⟨[]⟩ : PCommit) (D j)) = .ok (row', true) ∧
      CommitsTo pp t p.F p.N (q j) row')
    (sg : ℕ → ℕ → Bytes) (hsg : ∀ k i, (sg k i).length < 2 ^ 32) (hver : ∀ k i, 1 ≤ i → i ≤ 2 * p.F + 1 → tb.verifyPartial (decimalBytes k) (sg k i) = true)
    (ks J : List ℕ) (hks : ks.Nodup) (hksl : ks.length = p.F + 1) (hks1 : ∀ k ∈ ks, 1 ≤ k ∧ k ≤ p.N)
    (hJ1 : ∀ k ∈ J, 1 ≤ k ∧ k ≤ p.N) (v : Bytes) (hun : (unmarshalD (⟨[], []⟩ : PMVBAIN) v).j.map (·.toNat) = J) :
    ∃ rs Cs s1 s2 st, PRun codec pp tb p (PState.init p c) ((oneTo p.N).map fun j => .commit j (some (D j))) [] p s1 ∧
      PRun codec pp tb p s1 (ks.flatMap fun k => batchEvents codec pp t k (sliceX (q k) p.F (2 * p.F) ((p.pid + 1 : ℕ) : Fr)) (sg k) (2 * p.F + 1))
        [.mvba (mvbaInput tb p.F p.N sg ks)] p s2 ∧
      PRun codec pp tb p s2 (PEvent.mvba v :: List.replicate (J.length + 1) .refresh) [] { p with reducedShare := rs } st ∧
      (∀ j, 1 ≤ j → j ≤ p.N → s1.flgCom j = true ∧ CommitsTo pp t p.F p.N (q j) (s1.CQ j)) ∧
      st.refresh = .done Cs ∧ rs.length = p.F + 1 ∧
      (∀ i < p.F + 1, rs.getD i 0 = p.reducedShare.getD i 0 + (J.map fun j => (if j ∈ ks then sliceX (q j) p.F (2 * p.F) ((p.pid + 1 : ℕ) : Fr)
        else (PState.init p c).Q j).getD i 0).sum) ∧
      (∀ j, 1 ≤ j → j ≤ p.N → Cs j = (J.map fun k => polyVal (sliceX (q k) p.F (2 * p.F) (j : Fr)) t).sum • pp.g1) ∧
      st.newComDone = (fun _ => false) ∧ st.SB = [] ∧ st.successSent = false ∧ (∀ j, st.flgRec j = true ↔ j ∈ ks) ∧
      st.finished = false ∧ st.successCount = 0 ∧ st.dists = p.N := by
  obtain ⟨rs, Cs, s1, s2, st, r1, r2, r3, hv, h⟩ := refresh_phase_voters (codec := codec) (tb := tb) p.N hp hF hN hN' hpid hl c q D hD sg hsg hver ks J hks hksl hks1 hJ1 v hun
  have e : { s1 with voters := p.N } = s1 := by rw [← hv]
  rw [e] at r2
  exact ⟨rs, Cs, s1, s2, st, r1, r2, r3, h⟩

/-- A party accepts all commitments `D`, handles the Recover messages of parties `1..2F+1` for the resharers `ks`, gets the MVBA result `J` and refreshes. -/
theorem refresh_phase_run (hp : p.Setup pp t) (hF : 1 ≤ p.F) (hF' : p.F ≤ 2 ^ 20) (hN : 3 * p.F + 1 ≤ p.N) (hN' : p.N < 2 ^ 32) (hpid : p.pid < p.N)
    (hl : p.reducedShare.length = p.F + 1) (c : DealerCoins) (q : ℕ → ℕ → ℕ → Fr) (D : ℕ → Bytes)
    (hD : ∀ j, 1 ≤ j → j ≤ p.N → ∀ row, ∃ row', verifyCommit codec pp p row (unmarshalD (⟨[]⟩ : PCommit) (D j)) = .ok (row', true) ∧
      CommitsTo pp t p.F p.N (q j) row')
    (sg : ℕ → ℕ → Bytes) (hsg : ∀ k i, (sg k i).length < 2 ^ 32) (hver : ∀ k i, 1 ≤ i → i ≤ 2 * p.F + 1 → tb.verifyPartial (decimalBytes k) (sg k i) = true)
    (hrec : ∀ m s a n r, tb.recover m s a n = some r → r.length < 2 ^ 32)
    (ks J : List ℕ) (hks : ks.Nodup) (hksl : ks.length = p.F + 1) (hks1 : ∀ k ∈ ks, 1 ≤ k ∧ k ≤ p.N)
    (hJl : J.length = p.F + 1) (hJ1 : ∀ k ∈ J, 1 ≤ k ∧ k ≤ p.N) (sgJ : ℕ → ℕ → Bytes) :
    ∃ rs Cs st, PRun codec pp tb p (PState.init p c)
      (((oneTo p.N).map fun j => .commit j (some (D j))) ++
        (ks.flatMap fun k => batchEvents codec pp t k (sliceX (q k) p.F (2 * p.F) ((p.pid + 1 : ℕ) : Fr)) (sg k) (2 * p.F + 1)) ++
        PEvent.mvba (marshal (mvbaInput tb p.F p.N sgJ J)) :: List.replicate (p.F + 2) .refresh)
      [.mvba (mvbaInput tb p.F p.N sg ks)] { p with reducedShare := rs } st ∧
      st.refresh = .done Cs ∧ rs.length = p.F + 1 ∧
      (∀ i < p.F + 1, rs.getD i 0 = p.reducedShare.getD i 0 + (J.map fun j => (if j ∈ ks then sliceX (q j) p.F (2 * p.F) ((p.pid + 1 : ℕ) : Fr)
        else (PState.init p c).Q j).getD i 0).sum) ∧
      (∀ j, 1 ≤ j → j ≤ p.N → Cs j = (J.map fun k => polyVal (sliceX (q k) p.F (2 * p.F) (j : Fr)) t).sum • pp.g1) ∧
      st.newComDone = (fun _ => false) ∧ st.SB = [] ∧ st.successSent = false ∧ (∀ j, st.flgRec j = true ↔ j ∈ ks) ∧
      st.finished = false ∧ st.successCount = 0 ∧ st.dists = p.N := by
  obtain ⟨rs, Cs, s1, s2, st, r1, r2, r3, -, h⟩ := refresh_phase_parts (codec := codec) (tb := tb) hp hF hN hN' hpid hl c q D hD sg hsg hver ks J hks hksl hks1 hJ1
    (marshal (mvbaInput tb p.F p.N sgJ J)) (mvbaInput_names tb p.F p.N hF' hN' sgJ hrec J hJl (fun k hk => (hJ1 k hk).2))
  refine ⟨rs, Cs, st, ?_, h⟩
  rw [hJl] at r3
  have := (r1.trans r2).trans r3
  simpa using this

end

end DyCAPS
