import Verif.Props.Compose

/-!
# C84: a corrupt party in an agreement of several rounds
-/

set_option linter.unusedSectionVars false

namespace DyCAPS

open Polynomial

/-- Contributions of four parties: `Q_1(x,y) = x + x(y-1)(y-4)`, the others are `Q_j(x,y) = x`. -/
def qA : ℕ → ℕ → ℕ → Fr := fun j i k => if j = 1 then (if i = 1 then (if k = 0 then 5 else if k = 1 then -5 else 1) else 0) else qX j i k

/-- The coins that give them, for `F = 1`. -/
def coinsA : ℕ → DealerCoins := fun j => if j = 1 then ⟨fun _ => 0, fun k _ => if k = 1 then 1 else -1⟩ else coinsX j

theorem qA_slices (j k : ℕ) (h1 : 1 ≤ k) (h2 : k ≤ 2 * 1 + 1) : sliceX (qA j) 1 (2 * 1) (k : Fr) = ownQ 1 (coinsA j) k := by
  by_cases hj : j = 1
  · subst hj
    have : dealerFVal 1 0 (coinsA 1) k = 0 := by
      rw [dealerFVal_eq]; simp [polyVal, dealerF, coinsA, Finset.sum_range_succ]
    unfold ownQ dealerB
    rw [this]
    have h2 : k ≤ 3 := h2
    interval_cases k <;> simp [sliceX, qA, dealerZ, coinsA, List.range_succ, Finset.sum_range_succ] <;> norm_num
  · have e1 : qA j = qX j := by funext i k; simp [qA, hj]
    have e2 : coinsA j = coinsX j := by simp [coinsA, hj]
    rw [e1, e2]; exact qX_slices j k

/-- The contributions party `i` is told to use: those of 1 and 2 at party 1, those of 2 and 4 at party 2. -/
def JA (i : ℕ) : List ℕ := if i = 1 then [1, 2] else [2, 4]

/-- Whose new shares party `i` takes. -/
def jsA (i : ℕ) : List ℕ := if i = 1 then [1, 4, 2] else [1, 4, 3]

/-- What the agreement gives to party `i`. -/
def valueA (i : ℕ) : Bytes := marshal (mvbaInput tb0 1 4 (fun _ _ => []) (JA i))

/-- The events of the refresh at party `i`. -/
def evA (D : ℕ → PCommit) (F N i a : ℕ) : List PEvent :=
  refreshEvents frCodec (Pairing.dlog Fr) 7 F N (i + 1) qA (fun j => marshal (D j)) (fun _ _ => []) (JA a) (marshal (mvbaInput tb0 F N (fun _ _ => []) (JA a))) ++
    completeEvents frCodec (Pairing.dlog Fr) 7 F (i + 1) (refreshed bX qA (JA a)) (jsA a)

theorem evA_commit {D : ℕ → PCommit} {F N i a j : ℕ} {d : Bytes} (h : PEvent.commit j (some d) ∈ evA D F N i a) : d = marshal (D j) := by
  unfold evA at h
  simp only [refreshEvents, completeEvents, distEvents, batchEvents, List.mem_append, List.mem_map, List.mem_flatMap, List.mem_cons, List.mem_replicate, List.not_mem_nil] at h
  simp only [reduceCtorEq, and_false, or_false, false_or, exists_false, PEvent.commit.injEq, Option.some.injEq] at h
  obtain ⟨a, -, rfl, h⟩ := h
  exact h.symm

theorem evA_mvba {D : ℕ → PCommit} {F N i a : ℕ} {v : Bytes} (h : PEvent.mvba v ∈ evA D F N i a) : v = marshal (mvbaInput tb0 F N (fun _ _ => []) (JA a)) := by
  unfold evA at h
  simp only [refreshEvents, completeEvents, distEvents, batchEvents, List.mem_append, List.mem_map, List.mem_flatMap, List.mem_cons, List.mem_replicate, List.not_mem_nil] at h
  simpa only [reduceCtorEq, and_false, or_false, false_or, exists_false, PEvent.mvba.injEq] using h

theorem evA_newCommit {D : ℕ → PCommit} {F N i a j : ℕ} {d : Option Bytes} (h : PEvent.newCommit j d ∈ evA D F N i a) :
    j ∈ jsA a ∧ d = some (frCodec.enc (polyVal (sliceX (refreshed bX qA (JA a)) F (2 * F) (j : Fr)) 7 • (Pairing.dlog Fr).g1)) := by
  unfold evA at h
  simp only [refreshEvents, completeEvents, distEvents, batchEvents, List.mem_append, List.mem_map, List.mem_flatMap, List.mem_cons, List.mem_replicate, List.not_mem_nil] at h
  simp only [reduceCtorEq, and_false, or_false, false_or, exists_false, PEvent.newCommit.injEq] at h
  obtain ⟨a, h1, rfl, h2⟩ := h
  exact ⟨h1, h2⟩

/-- The two polynomials agree where both parties look. -/
theorem refreshedA_eq {j : ℕ} (h1 : j ∈ jsA 1) (h2 : j ∈ jsA 2) : sliceX (refreshed bX qA (JA 1)) 1 2 (j : Fr) = sliceX (refreshed bX qA (JA 2)) 1 2 (j : Fr) := by
  have hj : j = 1 ∨ j = 4 := by
    simp only [jsA, if_true, List.mem_cons, List.not_mem_nil, or_false] at h1 h2
    norm_num at h2
    omega
  rcases hj with rfl | rfl <;> simp [sliceX, refreshed, JA, qA, qX, bX, List.range_succ, Finset.sum_range_succ] <;> norm_num

open Toy in
theorem agree_split : ∃ net, MRun (env fun _ => 0) {1, 2, 3} ⟨true, true⟩ (net₀ {1, 2, 3}) (lateRun (valueA 1) (valueA 2)) net ∧ Decides net 1 0 (valueA 1) ∧ Decides net 2 1 (valueA 2) := by
  obtain ⟨net, hr, hp⟩ := exists_run (coin := fun _ => 0) (H := {1, 2, 3}) (cfg := ⟨true, true⟩) (net₀ := net₀ {1, 2, 3}) (lateRun (valueA 1) (valueA 2))
    (fun n => decide (Decides n 1 0 (valueA 1) ∧ Decides n 2 1 (valueA 2))) (by decide +kernel)
  exact ⟨net, hr, of_decide_eq_true hp⟩

open Toy in
/-- **C84 (refuted).** Without the assumption on the agreement: four parties, party 0 corrupt. Its contribution is a valid sharing of zero that agrees with the others at `y = 1` and `y = 4`.
In the agreement it has one value decided by party 1 and another one by party 2 (C39). The broadcasts are without faults, no hash values collide, no message reveals the setup secret and both
parties see the same new commitments. Both parties complete the refresh, and their new shares give another secret than 42. -/
theorem C84_refuted : ∃ (envR : REnv) (H : Finset ℕ) (evsC : ℕ → List NEvent) (netC : ℕ → RNet) (envM : MEnv) (full : SMsg → Bytes) (input : ℕ → Bytes × Bytes) (evsM : List (ℕ × MEvent))
    (netM : MNet) (b : ℕ → ℕ → Fr) (mem : ℕ → Member Fr Fr) (q : ℕ → ℕ → ℕ → Fr) (rep : ℕ → CommitRep) (w : ℕ → PEvent → Fr[X]),
    envR.Ok ∧ HonestSet envR H ∧ (∀ j, NRun envR H RNet.init (evsC j) (netC j) ∧ EchoOnce (evsC j)) ∧
    SchemeOk envM full ∧ Committee envM H ∧ MRun envM H ⟨true, true⟩ (MNet.init H input envM.N) evsM netM ∧
    (∀ i ∈ [1, 2], i ∈ H ∧ (mem i).Runs frCodec (Pairing.dlog Fr) 7 b 1 4 i ∧ (mem i).Hears netC i ∧ (mem i).Obeys netM i ∧
      (mem i).Alg frCodec (Pairing.dlog Fr) 7 (fun j _ => q j) (fun j _ => rep j) (w i) ∧ (mem i).st.successSent = true ∧ (mem i).st.finished = true ∧
      ∃ J, NamesJ J (mem i).evs ∧ ¬ RunReveals 7 (mem i).before b q J rep (w i) (mem i).evs) ∧
    (∀ j d d', PEvent.newCommit j d ∈ (mem 1).evs → PEvent.newCommit j d' ∈ (mem 2).evs → d = d') ∧
    ¬ CastCollision envR netC [1, 2] ∧ ¬ ValueCollision envM netM [1, 2] ∧ ¬ Reconstructs 1 (biVal b 1 (2 * 1) 0 0) ([1, 2].map fun i => (mem i).after) := by
  have okR : (toyEnv 4 1).Ok := toyEnv_ok (by norm_num) (by norm_num)
  choose p0 e1 e2 e3 e4 e5 using fun i => newParty_setup (Pairing.dlog Fr) 7 4 1 i
  choose D hD using fun j => (⟨_, commitMsg_ok (codec := frCodec) (Pairing.dlog Fr) 7 1 (coinsA j)⟩ :
    ∃ m, commitMsg frCodec (Pairing.dlog Fr) (newKZG (Pairing.dlog Fr) 7 (1 + 1)) 1 (coinsA j) = .ok m)
  have hDlen : ∀ j, (marshal (castX (marshal (D j)))).length < 2 ^ 30 := by
    intro j
    have h := hD j
    rw [commitMsg_ok] at h
    rw [← Except.ok.inj h]
    have h1 := castX_size (marshal (commitOf frCodec 1 (honestContent (Pairing.dlog Fr) 7 1 0 (coinsA j))))
    have h2 := size_commit_one (honestContent (Pairing.dlog Fr) 7 1 0 (coinsA j))
    omega
  set P0 : ℕ → Party Fr Fr := fun i => { p0 i with
    proof := ⟨0, (List.range 4).map fun k : ℕ => ⟨k, polyVal (sliceX bX 1 2 (k : Fr)) 7 • (Pairing.dlog Fr).g1, 0, 0, 0⟩⟩
    reducedShare := sliceX bX 1 2 ((i + 1 : ℕ) : Fr) } with hP0
  have hPF : ∀ i, (P0 i).F = 1 := e4
  have hPN : ∀ i, (P0 i).N = 4 := e3
  have hPp : ∀ i, (P0 i).pid = i := e5
  have hk : ∀ i, KnowsComs (Pairing.dlog Fr) 7 bX (P0 i) := by
    intro i k k1 k2
    have eF : (P0 i).F = 1 := e4 i
    rw [eF] at k2 ⊢
    rw [commitToPoly_ok _ _ _ _ (by rw [sliceX_length])]
    congr 1
    interval_cases k <;> rfl
  have hq : ∀ i j k, 1 ≤ k → k ≤ 2 * (P0 i).F + 1 → sliceX (qA j) (P0 i).F (2 * (P0 i).F) (k : Fr) = ownQ (P0 i).F (coinsA j) k := by
    intro i j k; rw [hPF]; exact qA_slices j k
  have hD' : ∀ i j, commitMsg frCodec (Pairing.dlog Fr) (newKZG (Pairing.dlog Fr) 7 ((P0 i).F + 1)) (P0 i).F (coinsA j) = .ok (D j) := by
    intro i j; rw [hPF]; exact hD j
  have hJl : ∀ i, (JA i).Nodup ∧ (JA i).length = 2 ∧ (∀ k ∈ JA i, 1 ≤ k ∧ k ≤ 4) ∧ (jsA i).Nodup ∧ (jsA i).length = 3 ∧ ∀ k ∈ jsA i, 1 ≤ k ∧ k ≤ 4 := by
    intro i
    unfold JA jsA
    split <;> decide
  have hrun := fun i (hi : i < 4) => C29_honest_run frCodec (Pairing.dlog Fr) tb0 7 (P0 i) ⟨(e2 i).kzg, (e2 i).table⟩ (by rw [hPF]) (by rw [hPF]; norm_num) (by rw [hPF, hPN])
    (by rw [hPN]; norm_num) (by rw [hPp, hPN]; exact hi) bX (hk i) (by rw [hPF, hPp]) (coinsA (i + 1)) coinsA qA (hq i) D (hD' i)
    (fun _ _ => []) (by intro k i; norm_num) (fun _ _ _ _ => rfl) (by intro m s a n r h; cases h; norm_num) (JA i) (hJl i).1 (by rw [hPF]; exact (hJl i).2.1) (by rw [hPN]; exact (hJl i).2.2.1) (jsA i)
    (hJl i).2.2.2.1 (by rw [hPF]; exact (hJl i).2.2.2.2.1) (by rw [hPN]; exact (hJl i).2.2.2.2.2)
  have : Nonempty (Party Fr Fr) := ⟨p0 0⟩
  have : Nonempty (PState Fr) := ⟨PState.init (p0 0) (coinsX 1)⟩
  choose! P st r h1 hfin _ h2 _ using hrun
  have hnr := fun i => C29_honest_reveals_nothing frCodec (Pairing.dlog Fr) tb0 7 (P0 i) (by rw [hPF]; norm_num) (by rw [hPF, hPN]) (by rw [hPN]; norm_num) bX coinsA qA (hq i) D (hD' i)
    (fun _ _ => []) (by intro k i; norm_num) (by intro m s a n r h; cases h; norm_num) (JA i) (by rw [hPF]; exact (hJl i).2.1) (by rw [hPN]; exact (hJl i).2.2.1) (jsA i)
    (by rw [hPN]; exact (hJl i).2.2.2.2.2) _ rfl
  have hcast : ∀ j, ∃ evs net, NRun (toyEnv 4 1) (othersSet 4) RNet.init evs net ∧ EchoOnce evs ∧
      ∀ i ∈ othersSet 4, (net.party i).mainPos = .returned (some (marshal (castX (marshal (D j))))) := by
    intro j
    obtain ⟨evs, net, a1, a2, -, a3⟩ := plain_cast okR (by show 1 ≤ 1; norm_num) (b := (j - 1) % 4) (by show (j - 1) % 4 < 4; omega) (castX (marshal (D j))) (hDlen j)
      (castX_ne (lt_trans (hDlen j) (by norm_num)))
    exact ⟨_, net, a1, a2, a3⟩
  choose evsC netC c1 c2 c3 using hcast
  obtain ⟨netM, m1, m2, m3⟩ := agree_split
  have hS : ∀ i ∈ [1, 2], i ∈ othersSet 4 ∧ i < 4 := by decide
  have hH : othersSet 4 = {1, 2, 3} := by decide
  set mem : ℕ → Member Fr Fr := fun i => ⟨P0 i, P i, coinsA (i + 1), tb0, evA D (P0 i).F (P0 i).N (P0 i).pid i, [.mvba (mvbaInput tb0 (P0 i).F (P0 i).N (fun _ _ => []) (JA i)), .success], st i⟩ with hmem
  have hdec : ∀ i ∈ [1, 2], ∃ r, (netM.party i).phase = .decided r (valueA i) := by
    intro i hi
    simp only [List.mem_cons, List.not_mem_nil, or_false] at hi
    rcases hi with rfl | rfl
    · exact ⟨0, m2⟩
    · exact ⟨1, m3⟩
  have hears : ∀ i ∈ [1, 2], (mem i).Hears netC i := by
    intro i hi j d hd
    rw [evA_commit hd]
    exact ⟨castX (marshal (D j)), result_marshal (hDlen j) (c3 j i (hS i hi).1), rfl⟩
  have obeys : ∀ i ∈ [1, 2], (mem i).Obeys netM i := by
    intro i hi v hv
    have := evA_mvba hv
    rw [hPF, hPN] at this
    rw [this]
    exact hdec i hi
  have runs : ∀ i ∈ [1, 2], (mem i).Runs frCodec (Pairing.dlog Fr) 7 bX 1 4 i := fun i hi =>
    ⟨⟨(e2 i).kzg, (e2 i).table⟩, hPF i, hPN i, hPp i, hk i, r i (hS i hi).2⟩
  have ef : ∀ i, honestW (P0 i).F ((P0 i).pid + 1) bX qA (JA i) = honestW 1 (i + 1) bX qA (JA i) := fun i => by rw [hPF, hPp]
  have eg : ∀ i, (fun j => honestRep (P0 i).F (coinsA j)) = fun j => honestRep 1 (coinsA j) := fun i => by rw [hPF]
  refine ⟨toyEnv 4 1, {1, 2, 3}, evsC, netC, env fun _ => 0, Toy.full fun _ => 0, inp, _, netM, bX, mem, qA, fun j => honestRep 1 (coinsA j), fun i => honestW 1 (i + 1) bX qA (JA i), okR,
    hH ▸ othersSet_honest okR (by show 1 ≤ 1; norm_num), fun j => ⟨hH ▸ c1 j, c2 j⟩, schemeOk _, committee (Or.inr rfl), m1, ?_, ?_, ?_, ?_, ?_⟩
  · intro i hi
    have hn := hnr i
    rw [ef, eg] at hn
    exact ⟨hH ▸ (hS i hi).1, runs i hi, hears i hi, obeys i hi, ⟨hn.1.commits, hn.1.recover, hn.1.dist⟩, h1 i (hS i hi).2, hfin i (hS i hi).2, JA i, hn.2.1, hn.2.2⟩
  · intro j d d' hd hd'
    have x := evA_newCommit hd
    have x' := evA_newCommit hd'
    rw [hPF] at x x'
    rw [x.2, x'.2, refreshedA_eq x.1 x'.1]
  · rintro ⟨i, hi, i', hi', j, a, a', x, x', hne, -⟩
    rw [c3 j i (hS i hi).1] at x
    rw [c3 j i' (hS i' hi').1] at x'
    cases x
    cases x'
    exact hne rfl
  · rintro ⟨i, hi, i', hi', ra, rb, v, v', x, x', hne, hh⟩
    exact hne hh
  · rintro ⟨f, hf, hf0⟩
    have e1' : (P 1).fullShare = sliceY (refreshed bX qA (JA 1)) 1 2 2 := by
      have := h2 1 (by norm_num)
      rw [hPF, hPp] at this
      rw [this]; norm_num
    have e2' : (P 2).fullShare = sliceY (refreshed bX qA (JA 2)) 1 2 3 := by
      have := h2 2 (by norm_num)
      rw [hPF, hPp] at this
      rw [this]; norm_num
    have hpid : ∀ i < 4, (P i).pid = i := fun i hi => by rw [(r i hi).static]; exact hPp i
    have v1 : polyVal (P 1).fullShare 0 = 56 := by
      rw [e1']; simp [sliceY, refreshed, JA, qA, qX, bX, polyVal, List.range_succ, Finset.sum_range_succ]; norm_num
    have v2 : polyVal (P 2).fullShare 0 = 51 := by
      rw [e2']; simp [sliceY, refreshed, JA, qA, qX, bX, polyVal, List.range_succ, Finset.sum_range_succ]; norm_num
    have hL := lagrangeInterpolate_eq_of_eval 1 [((1 + 1 : ℕ) : Fr), ((2 + 1 : ℕ) : Fr)] [56, 51] [66, -5] (by simp) (by simp) (by decide +kernel) rfl (by decide +kernel)
    simp only [List.map_cons, List.map_nil, hmem, hpid 1 (by norm_num), hpid 2 (by norm_num), v1, v2] at hf
    rw [hL] at hf
    rw [← Except.ok.inj hf] at hf0
    exact absurd hf0 (by simp [polyVal, biVal, bX, Finset.sum_range_succ]; decide +kernel)

end DyCAPS
