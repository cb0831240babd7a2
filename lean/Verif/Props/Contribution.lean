import Verif.Spec.Epoch
import Verif.Spec.RefreshNet
import Verif.Lemmas.ProactCall
import Verif.Props.Compose
import Verif.Props.Validity

/-!
# C90: a completed refresh uses the contribution of an honest party
-/

set_option linter.unusedSectionVars false

namespace DyCAPS

section
variable {G1 G2 GT : Type} [AddCommGroup G1] [Module Fr G1] [AddCommGroup G2] [Module Fr G2] [AddCommGroup GT] [Module Fr GT]
variable [DecidableEq G1] [DecidableEq GT]

/-- The events at party `i` when all messages are correct, the agreement returns the empty value, and the parties `js` distribute `b`. -/
def emptyEvents (codec : PointCodec G1) (pp : Pairing Fr G1 G2 GT) (t : Fr) (F N i : ℕ) (b : ℕ → ℕ → Fr) (q : ℕ → ℕ → ℕ → Fr) (D : ℕ → Bytes) (sg : ℕ → ℕ → Bytes)
    (ks js : List ℕ) : List PEvent :=
  ((oneTo N).map fun j => .commit j (some (D j))) ++
    (ks.flatMap fun k => batchEvents codec pp t k (sliceX (q k) F (2 * F) (i : Fr)) (sg k) (2 * F + 1)) ++ [.mvba [], .refresh] ++ completeEvents codec pp t F i b js

theorem emptyEvents_mvba {codec : PointCodec G1} {pp : Pairing Fr G1 G2 GT} {t : Fr} {F N i : ℕ} {b : ℕ → ℕ → Fr} {q : ℕ → ℕ → ℕ → Fr} {D : ℕ → Bytes} {sg : ℕ → ℕ → Bytes}
    {ks js : List ℕ} {v : Bytes} (h : PEvent.mvba v ∈ emptyEvents codec pp t F N i b q D sg ks js) : v = [] := by
  unfold emptyEvents at h
  simp only [completeEvents, distEvents, batchEvents, List.mem_append, List.mem_map, List.mem_flatMap, List.mem_cons, List.mem_replicate, List.not_mem_nil] at h
  simpa only [reduceCtorEq, and_false, or_false, false_or, exists_false, PEvent.mvba.injEq] using h

/-- With the empty value a refresh completes and leaves the shares as they are. -/
theorem empty_refresh_run (codec : PointCodec G1) (pp : Pairing Fr G1 G2 GT) (tb : Tbls) (t : Fr) (p : Party G1 G2) (hp : p.Setup pp t)
    (hF : 1 ≤ p.F) (hF' : p.F ≤ 2 ^ 20) (hN : 3 * p.F + 1 ≤ p.N) (hN' : p.N < 2 ^ 32) (hpid : p.pid < p.N) (b : ℕ → ℕ → Fr) (hb : KnowsComs pp t b p)
    (hred : p.reducedShare = sliceX b p.F (2 * p.F) ((p.pid + 1 : ℕ) : Fr)) (c : DealerCoins) (coins : ℕ → DealerCoins)
    (q : ℕ → ℕ → ℕ → Fr) (hq : ∀ j k, 1 ≤ k → k ≤ 2 * p.F + 1 → sliceX (q j) p.F (2 * p.F) (k : Fr) = ownQ p.F (coins j) k)
    (D : ℕ → PCommit) (hD : ∀ j, commitMsg codec pp (newKZG pp t (p.F + 1)) p.F (coins j) = .ok (D j))
    (sg : ℕ → ℕ → Bytes) (hsg : ∀ k i, (sg k i).length < 2 ^ 32) (hver : ∀ k i, 1 ≤ i → i ≤ 2 * p.F + 1 → tb.verifyPartial (decimalBytes k) (sg k i) = true)
    (ks : List ℕ) (hks : ks.Nodup) (hksl : ks.length = p.F + 1) (hks1 : ∀ k ∈ ks, 1 ≤ k ∧ k ≤ p.N)
    (js : List ℕ) (hjs : js.Nodup) (hjl : js.length = 2 * p.F + 1) (hj1 : ∀ k ∈ js, 1 ≤ k ∧ k ≤ p.N) :
    ∃ (p' : Party G1 G2) (st : PState G1),
      PRun codec pp tb p (PState.init p c) (emptyEvents codec pp t p.F p.N (p.pid + 1) b q (fun j => marshal (D j)) sg ks js) [.mvba (mvbaInput tb p.F p.N sg ks), .success] p' st ∧
      st.successSent = true ∧ st.finished = true ∧ p'.fullShare = sliceY b p.F (2 * p.F) ((p.pid + 1 : ℕ) : Fr) ∧ p'.reducedShare = p.reducedShare := by
  have hr : 2 * p.F + 1 < frModulus := lt_trans (by omega : 2 * p.F + 1 < 2 ^ 32) (by decide +kernel)
  choose h2 h4 using fun j => honest_commit_for codec pp t p hp hF hF' hN hr (coins j) (q j) (hq j) (D j) (hD j)
  obtain ⟨rs, Cs, s1, s2, st, r1, r2, r3, -, a1, a2, a3, a4, a5, a6, a7, a8, a9, a10, a11⟩ := refresh_phase_parts (codec := codec) (tb := tb) hp hF hN hN' hpid
    (by rw [hred, sliceX_length]) c q (fun j => marshal (D j)) (fun j _ _ => h4 j) sg hsg hver ks [] hks hksl hks1 (by simp) [] (by decide)
  set p1 : Party G1 G2 := { p with reducedShare := rs } with hp1
  have hp1' : p1.Setup pp t := ⟨hp.kzg, hp.table⟩
  have hold : ∀ j, 1 ≤ j → j ≤ p1.N → ∃ C, oldCom p1 j = .ok C ∧ C + Cs j = polyVal (sliceX b p1.F (2 * p1.F) (j : Fr)) t • pp.g1 := by
    intro j j1 j2
    refine ⟨polyVal (sliceX b p.F (2 * p.F) (j : Fr)) t • pp.g1, oldCom_ok hp hN hr hb j j1, ?_⟩
    rw [a4 j j1 j2]
    simp only [List.map_nil, List.sum_nil, zero_smul, add_zero]
    rfl
  obtain ⟨p', st', e2, -, -, -, b5, b6, b7, -, b8⟩ := dist_run (codec := codec) (tb := tb) hp1' hF hN' b Cs hold st a1 a6 a7 js hjs
    (le_of_eq hjl) (by rw [a11]; omega) (fun j hj => ⟨(hj1 j hj).1, (hj1 j hj).2, by rw [a5]⟩)
  have hjl' : js.length = 2 * p1.F + 1 := hjl
  rw [if_pos hjl'] at e2 b8
  have ep : p'.F = p.F := by rw [b8]
  have e3 := success_run (codec := codec) (pp := pp) (tb := tb) (p := p') (2 * p.F + 1) st' (by rw [b7]; exact decide_eq_true hjl') (b6.trans a9) (b5.trans a10) (by omega)
  refine ⟨p', { st' with successCount := 2 * p.F + 1, finished := decide (2 * p.F + 1 = 2 * p'.F + 1) }, ?_, by show st'.successSent = true; rw [b7]; exact decide_eq_true hjl',
    decide_eq_true (by rw [ep]), by rw [b8], ?_⟩
  · have := (((r1.trans r2).trans r3).trans e2).trans e3
    simp only [List.append_nil, List.nil_append, List.append_assoc] at this
    unfold emptyEvents completeEvents
    simp only [List.append_assoc]
    exact this
  · have : p'.reducedShare = rs := by rw [b8]
    rw [this]
    apply list_ext_getD (d := 0) (by rw [a2, hred, sliceX_length])
    intro i hi
    rw [a2] at hi
    rw [a3 i hi]
    simp

/-- **C90 is refuted**, for every committee size `3F+1` and with one corrupt party (party 0): all other parties follow the protocol, recover the contributions of any `F+1` parties, submit them to
the agreement, get the empty value out of it and complete the refresh, with all commitments, recovery and distribution messages correct. No contribution of anybody is used, and every
party ends with the shares that it had before. -/
theorem C90_refuted (codec : PointCodec G1) (pp : Pairing Fr G1 G2 GT) (t : Fr) (F : ℕ) (hF : 1 ≤ F) (hF' : F ≤ 2 ^ 20) (b : ℕ → ℕ → Fr) (P : ℕ → Party G1 G2)
    (hP : ∀ i, 1 ≤ i → i ≤ 3 * F → (P i).Setup pp t ∧ (P i).F = F ∧ (P i).N = 3 * F + 1 ∧ (P i).pid = i ∧ KnowsComs pp t b (P i) ∧
      (P i).reducedShare = sliceX b F (2 * F) ((i + 1 : ℕ) : Fr) ∧ (P i).fullShare = sliceY b F (2 * F) ((i + 1 : ℕ) : Fr))
    (coins : ℕ → DealerCoins) (q : ℕ → ℕ → ℕ → Fr) (hq : ∀ j k, 1 ≤ k → k ≤ 2 * F + 1 → sliceX (q j) F (2 * F) (k : Fr) = ownQ F (coins j) k)
    (D : ℕ → PCommit) (hD : ∀ j, commitMsg codec pp (newKZG pp t (F + 1)) F (coins j) = .ok (D j)) (tb : ℕ → Tbls)
    (sg : ℕ → ℕ → Bytes) (hsg : ∀ k i, (sg k i).length < 2 ^ 32) (hver : ∀ j k i, 1 ≤ i → i ≤ 2 * F + 1 → (tb j).verifyPartial (decimalBytes k) (sg k i) = true)
    (ks js : ℕ → List ℕ) (hks : ∀ i, (ks i).Nodup ∧ (ks i).length = F + 1 ∧ ∀ k ∈ ks i, 1 ≤ k ∧ k ≤ 3 * F + 1)
    (hjs : ∀ i, (js i).Nodup ∧ (js i).length = 2 * F + 1 ∧ ∀ k ∈ js i, 1 ≤ k ∧ k ≤ 3 * F + 1) :
    ∃ (env : MEnv) (full : SMsg → Bytes) (H : Finset ℕ) (evsM : List (ℕ × MEvent)) (netM : MNet) (mem : ℕ → Member G1 G2),
      env.F = F ∧ env.N = 3 * F + 1 ∧ SchemeOk env full ∧ Committee env H ∧ (∀ i, i ∈ H ↔ 1 ≤ i ∧ i < env.N) ∧ (∀ x y, env.hash x = env.hash y → x = y) ∧
      MRun env H ⟨true, true⟩ (MNet.init H (fun i => (marshal (mvbaInput (tb i) F (3 * F + 1) sg (ks i)), [])) env.N) evsM netM ∧
      ∀ i ∈ H, (mem i).Runs codec pp t b F (3 * F + 1) i ∧ (mem i).before = P i ∧ (mem i).coins = coins (i + 1) ∧ (mem i).tb = tb i ∧ (mem i).Obeys netM i ∧
        POut.mvba (mvbaInput (tb i) F (3 * F + 1) sg (ks i)) ∈ (mem i).outs ∧
        (∃ v, PEvent.mvba v ∈ (mem i).evs ∧ agreedIds v = []) ∧ (mem i).st.successSent = true ∧ (mem i).st.finished = true ∧
        (mem i).after.fullShare = (P i).fullShare ∧ (mem i).after.reducedShare = (P i).reducedShare := by
  obtain ⟨env, full, H, g1, g2, g3, g4, g5, g6, g7⟩ := C87_refuted F hF
  obtain ⟨evsM, netM, m1, m2⟩ := g7 (fun i => (marshal (mvbaInput (tb i) F (3 * F + 1) sg (ks i)), [])) []
  have hrun : ∀ i, ∃ (p' : Party G1 G2) (st : PState G1), i ∈ H →
      PRun codec pp (tb i) (P i) (PState.init (P i) (coins (i + 1))) (emptyEvents codec pp t F (3 * F + 1) (i + 1) b q (fun j => marshal (D j)) sg (ks i) (js i))
        [.mvba (mvbaInput (tb i) F (3 * F + 1) sg (ks i)), .success] p' st ∧
      st.successSent = true ∧ st.finished = true ∧ p'.fullShare = (P i).fullShare ∧ p'.reducedShare = (P i).reducedShare := by
    intro i
    by_cases hi : i ∈ H
    swap
    · exact ⟨P i, PState.init (P i) (coins (i + 1)), fun h => absurd h hi⟩
    obtain ⟨i1, i2⟩ := (g5 i).1 hi
    rw [g2] at i2
    obtain ⟨c1, c2, c3, c4, c5, c6, c7⟩ := hP i i1 (by omega)
    have key := empty_refresh_run codec pp (tb i) t (P i) c1 (by rw [c2]; exact hF) (by rw [c2]; exact hF') (by rw [c2, c3]) (by rw [c3]; omega) (by rw [c3, c4]; omega) b c5
      (by rw [c2, c4]; exact c6) (coins (i + 1)) coins q (by rw [c2]; exact hq) D (by rw [c2]; exact hD) sg hsg (by rw [c2]; exact hver i) (ks i) (hks i).1 (by rw [c2]; exact (hks i).2.1)
      (by rw [c3]; exact (hks i).2.2) (js i) (hjs i).1 (by rw [c2]; exact (hjs i).2.1) (by rw [c3]; exact (hjs i).2.2)
    rw [c2, c3, c4] at key
    obtain ⟨p', st, k1, k2, k3, k4, k5⟩ := key
    exact ⟨p', st, fun _ => ⟨k1, k2, k3, by rw [k4, c7], k5⟩⟩
  choose p' st hrun using hrun
  refine ⟨env, full, H, evsM, netM, fun i => ⟨P i, p' i, coins (i + 1), tb i, emptyEvents codec pp t F (3 * F + 1) (i + 1) b q (fun j => marshal (D j)) sg (ks i) (js i),
    [.mvba (mvbaInput (tb i) F (3 * F + 1) sg (ks i)), .success], st i⟩, g1, g2, g3, g4, g5, g6, m1, fun i hi => ?_⟩
  obtain ⟨i1, i2⟩ := (g5 i).1 hi
  rw [g2] at i2
  obtain ⟨c1, c2, c3, c4, c5, -⟩ := hP i i1 (by omega)
  obtain ⟨k1, k2, k3, k4, k5⟩ := hrun i hi
  refine ⟨⟨c1, c2, c3, c4, c5, k1⟩, rfl, rfl, rfl, fun v hv => ?_, by simp, ⟨[], ?_, by decide⟩, k2, k3, k4, k5⟩
  · rw [emptyEvents_mvba hv]
    exact ⟨0, m2 i hi⟩
  · show PEvent.mvba [] ∈ emptyEvents _ _ _ _ _ _ _ _ _ _ _ _
    simp [emptyEvents]

/-- **C90 (the part that holds).** Whatever messages a party has got, the value that it submits to the agreement names `F+1` different parties; if that value is agreed on, at least one
contribution comes from outside any set of `F` parties. -/
theorem C90_submitted_partial (codec : PointCodec G1) (pp : Pairing Fr G1 G2 GT) (tb : Tbls) (hrec : ∀ m s a n r, tb.recover m s a n = some r → r.length < 2 ^ 32) {p0 p : Party G1 G2}
    (hF : p0.F ≤ 2 ^ 20) (hN : p0.N < 2 ^ 32) {c : DealerCoins} {evs : List PEvent} {outs : List POut} {st : PState G1}
    (h : PRun codec pp tb p0 (PState.init p0 c) evs outs p st) {m : PMVBAIN} (hm : POut.mvba m ∈ outs) (C : Finset ℕ) (hC : C.card ≤ p0.F) :
    ∃ j ∈ agreedIds (marshal m), 1 ≤ j ∧ j ≤ p0.N ∧ j ∉ C := by
  obtain ⟨h1, h2, h3⟩ := h.proposal hrec hF hN hm
  by_contra hc
  push Not at hc
  have hsub : (agreedIds (marshal m)).toFinset ⊆ C := fun j hj => by
    have hj := List.mem_toFinset.1 hj
    exact hc j hj (h3 j hj).1 (h3 j hj).2
  have := Finset.card_le_card hsub
  have h2 : (agreedIds (marshal m)).Nodup := h2
  rw [List.toFinset_card_of_nodup h2] at this
  have h1 : (agreedIds (marshal m)).length = p0.F + 1 := h1
  omega

/-- **C90 (the part that holds).** If in the agreement parties only stop, every party that gets a value out of it works with at least one contribution from outside any set of `F` parties -
or that value is not one of those submitted although it has the hash of one. -/
theorem C90_crash_partial (codec : PointCodec G1) (pp : Pairing Fr G1 G2 GT) {env : MEnv} {full : SMsg → Bytes} (hok : SchemeOk env full) (hN : env.N = 3 * env.F + 1) (hF : env.F ≤ 2 ^ 20)
    {input : ℕ → Bytes × Bytes} {evsM : List (ℕ × MEvent)} {netM : MNet} (hM : MRun env (Finset.range env.N) ⟨true, true⟩ (MNet.init (Finset.range env.N) input env.N) evsM netM)
    (hsrc : ∀ i s m, (i, MEvent.recv s m) ∈ evsM → s < env.N) {mem : ℕ → Member G1 G2}
    (hrun : ∀ i < env.N, (mem i).before.F = env.F ∧ (mem i).before.N = env.N ∧ PRun codec pp (mem i).tb (mem i).before (PState.init (mem i).before (mem i).coins) (mem i).evs (mem i).outs (mem i).after (mem i).st)
    (hrec : ∀ i < env.N, ∀ m s a n r, (mem i).tb.recover m s a n = some r → r.length < 2 ^ 32) (hsub : ∀ i < env.N, ∃ m, POut.mvba m ∈ (mem i).outs ∧ input i = (marshal m, []))
    {i : ℕ} (hi : i < env.N) (hob : (mem i).Obeys netM i) {v : Bytes} (hv : PEvent.mvba v ∈ (mem i).evs) (C : Finset ℕ) (hC : C.card ≤ env.F) :
    (∃ j ∈ agreedIds v, 1 ≤ j ∧ j ≤ env.N ∧ j ∉ C) ∨ ∃ k < env.N, v ≠ (input k).1 ∧ env.hash v = env.hash (input k).1 := by
  obtain ⟨r, hd⟩ := hob v hv
  obtain ⟨k, hk, he⟩ := C87_crash_partial hok hN hM hsrc hi hd
  by_cases hne : v = (input k).1
  · left
    obtain ⟨m, m1, m2⟩ := hsub k hk
    obtain ⟨f, n, hr⟩ := hrun k hk
    have := C90_submitted_partial codec pp (mem k).tb (hrec k hk) (by rw [f]; exact hF) (by rw [n]; omega) hr m1 C (by rw [f]; exact hC)
    rw [hne, m2]
    rwa [n] at this
  · exact Or.inr ⟨k, hk, hne, he⟩

end

section Examples

/-- Four parties share `42 + x` with setup secret 7; their shares before the refresh. -/
theorem holders_toy : ∃ P : ℕ → Party Fr Fr, ∀ i, (P i).Setup (Pairing.dlog Fr) 7 ∧ (P i).F = 1 ∧ (P i).N = 3 * 1 + 1 ∧ (P i).pid = i ∧ KnowsComs (Pairing.dlog Fr) 7 bX (P i) ∧
    (P i).reducedShare = sliceX bX 1 (2 * 1) ((i + 1 : ℕ) : Fr) ∧ (P i).fullShare = sliceY bX 1 (2 * 1) ((i + 1 : ℕ) : Fr) := by
  choose p0 e1 e2 e3 e4 e5 using fun i => newParty_setup (Pairing.dlog Fr) 7 4 1 i
  set P0 : ℕ → Party Fr Fr := fun i => { p0 i with
    proof := ⟨0, (List.range 4).map fun k : ℕ => ⟨k, polyVal (sliceX bX 1 2 (k : Fr)) 7 • (Pairing.dlog Fr).g1, 0, 0, 0⟩⟩
    reducedShare := sliceX bX 1 2 ((i + 1 : ℕ) : Fr)
    fullShare := sliceY bX 1 2 ((i + 1 : ℕ) : Fr) } with hP0
  refine ⟨P0, fun i => ⟨⟨(e2 i).kzg, (e2 i).table⟩, e4 i, e3 i, e5 i, ?_, rfl, rfl⟩⟩
  intro k k1 k2
  have eF : (P0 i).F = 1 := e4 i
  rw [eF] at k2 ⊢
  rw [commitToPoly_ok _ _ _ _ (by rw [sliceX_length])]
  congr 1
  interval_cases k <;> rfl

/-- `C90_refuted`: the hypotheses hold together; parties 2 and 3 of the four hold the same shares before and after. -/
example : ∃ (P : ℕ → Party Fr Fr) (netM : MNet) (mem : ℕ → Member Fr Fr), ∀ i ∈ [2, 3], (mem i).Runs frCodec (Pairing.dlog Fr) 7 bX 1 4 i ∧ (mem i).before = P i ∧
    (∃ r v, Decides netM i r v ∧ agreedIds v = []) ∧ (mem i).st.finished = true ∧ (mem i).after.fullShare = (P i).fullShare ∧ (mem i).after.reducedShare = (P i).reducedShare := by
  obtain ⟨P, hP⟩ := holders_toy
  choose D hD using fun j => (⟨_, commitMsg_ok (codec := frCodec) (Pairing.dlog Fr) 7 1 (coinsX j)⟩ :
    ∃ m, commitMsg frCodec (Pairing.dlog Fr) (newKZG (Pairing.dlog Fr) 7 (1 + 1)) 1 (coinsX j) = .ok m)
  obtain ⟨env, full, H, evsM, netM, mem, -, h2, -, -, h5, -, -, h⟩ := C90_refuted frCodec (Pairing.dlog Fr) 7 1 le_rfl (by norm_num) bX P (fun i _ _ => hP i) coinsX qX
    (fun j k _ _ => qX_slices j k) D hD (fun _ => tb0) (fun _ _ => []) (by intro k i; norm_num) (fun _ _ _ _ _ => rfl) (fun _ => [2, 4]) (fun _ => [4, 3, 2]) (fun _ => by decide)
    (fun _ => by decide)
  refine ⟨P, netM, mem, fun i hi => ?_⟩
  have hiH : i ∈ H := (h5 i).2 (by rw [h2]; revert i; decide)
  obtain ⟨a1, a2, -, -, a5, -, ⟨v, a7, a8⟩, -, a9, a10, a11⟩ := h i hiH
  obtain ⟨r, hr⟩ := a5 v a7
  exact ⟨a1, a2, ⟨r, v, hr, a8⟩, a9, a10, a11⟩

open Toy in
/-- `C90_submitted_partial` and `C90_crash_partial`: four parties submit contributions 2 and 4 and work with them. -/
example : ∃ (evsM : List (ℕ × MEvent)) (netM : MNet) (mem : ℕ → Member Fr Fr),
    MRun (env fun _ => 0) (Finset.range 4) ⟨true, true⟩ (MNet.init (Finset.range 4) (fun _ => (valueX, [])) 4) evsM netM ∧
    ∀ i < 4, ∃ v, PEvent.mvba v ∈ (mem i).evs ∧ (mem i).Obeys netM i ∧ (∃ m, POut.mvba m ∈ (mem i).outs ∧ ∃ j ∈ agreedIds (marshal m), 1 ≤ j ∧ j ≤ 4 ∧ j ∉ ({2} : Finset ℕ)) ∧
      ((∃ j ∈ agreedIds v, 1 ≤ j ∧ j ≤ 4 ∧ j ∉ ({2} : Finset ℕ)) ∨ ∃ k < 4, v ≠ valueX ∧ (env fun _ => 0).hash v = (env fun _ => 0).hash valueX) := by
  obtain ⟨P, hP⟩ := holders_toy
  choose D hD using fun j => (⟨_, commitMsg_ok (codec := frCodec) (Pairing.dlog Fr) 7 1 (coinsX j)⟩ :
    ∃ m, commitMsg frCodec (Pairing.dlog Fr) (newKZG (Pairing.dlog Fr) 7 (1 + 1)) 1 (coinsX j) = .ok m)
  have hrec : ∀ m s a n r, tb0.recover m s a n = some r → r.length < 2 ^ 32 := by intro m s a n r h; cases h; norm_num
  have hrun : ∀ i, ∃ (p' : Party Fr Fr) (st : PState Fr), i < 4 → PRun frCodec (Pairing.dlog Fr) tb0 (P i) (PState.init (P i) (coinsX 1)) (evX D 1 4 i)
      [.mvba (mvbaInput tb0 1 4 (fun _ _ => []) [2, 4]), .success] p' st := by
    intro i
    by_cases hi : i < 4
    swap
    · exact ⟨P i, PState.init (P i) (coinsX 1), fun h => absurd h hi⟩
    obtain ⟨c1, c2, c3, c4, c5, c6, c7⟩ := hP i
    have key := C29_honest_run frCodec (Pairing.dlog Fr) tb0 7 (P i) c1 (by rw [c2]) (by rw [c2]; norm_num) (by rw [c2, c3]) (by rw [c3]; norm_num) (by rw [c4, c3]; exact hi) bX c5
      (by rw [c2, c4]; exact c6) (coinsX 1) coinsX qX (by rw [c2]; exact fun j k _ _ => qX_slices j k) D (by rw [c2]; exact hD) (fun _ _ => []) (by intro k i; norm_num) (fun _ _ _ _ => rfl)
      hrec [2, 4] (by decide) (by rw [c2]; rfl) (by rw [c3]; decide) [4, 1, 2] (by decide) (by rw [c2]; rfl) (by rw [c3]; decide)
    rw [c2, c3, c4] at key
    obtain ⟨p', st, r, -⟩ := key
    exact ⟨p', st, fun _ => r⟩
  choose p' st hrun using hrun
  obtain ⟨netM, m1, m2, m3⟩ := agree_toy
  set mem : ℕ → Member Fr Fr := fun i => ⟨P i, p' i, coinsX 1, tb0, evX D 1 4 i, [.mvba (mvbaInput tb0 1 4 (fun _ _ => []) [2, 4]), .success], st i⟩ with hmem
  have hob : ∀ i < 4, (mem i).Obeys netM i := fun i hi v hv => by
    rw [evX_mvba hv]
    exact ⟨0, m2 i hi⟩
  have hin : ∀ i, PEvent.mvba valueX ∈ (mem i).evs := fun i => by
    show PEvent.mvba _ ∈ evX D 1 4 i
    unfold evX refreshEvents
    exact List.mem_append_left _ (List.mem_append_right _ (List.mem_cons_self ..))
  refine ⟨_, netM, mem, m1, fun i hi => ⟨valueX, hin i, hob i hi, ⟨_, List.mem_cons_self .., ?_⟩, ?_⟩⟩
  · have := C90_submitted_partial frCodec (Pairing.dlog Fr) tb0 hrec (by rw [(hP i).2.1]; norm_num) (by rw [(hP i).2.2.1]; norm_num) (hrun i hi) (List.mem_cons_self ..) {2}
      (by rw [(hP i).2.1]; rfl)
    rwa [(hP i).2.2.1] at this
  · have := C90_crash_partial frCodec (Pairing.dlog Fr) (schemeOk fun _ => 0) rfl (by show 1 ≤ _; norm_num) m1 m3 (mem := mem)
      (fun k hk => ⟨(hP k).2.1, (hP k).2.2.1, hrun k hk⟩) (fun _ _ => hrec) (fun k _ => ⟨_, List.mem_cons_self .., rfl⟩) hi (hob i hi) (hin i) {2} (by show _ ≤ 1; rfl)
    exact this

end Examples

end DyCAPS
