import Verif.Spec.Epoch
import Verif.Props.Epoch
import Verif.Props.RBC
import Verif.Props.MVBALive

/-!
# C84: a refresh over its own broadcasts and its own agreement
-/

set_option linter.unusedSectionVars false

namespace DyCAPS

open Polynomial

section
variable {G1 G2 GT : Type} [AddCommGroup G1] [Module Fr G1] [AddCommGroup G2] [Module Fr G2] [AddCommGroup GT] [Module Fr GT]
variable [DecidableEq G1] [DecidableEq GT]

/-- Parties with the same value from the agreement use the same contributions. -/
theorem common_same {envR : REnv} (ok : envR.Ok) {H : Finset ℕ} (hH : HonestSet envR H) {evsC : ℕ → List NEvent} {netC : ℕ → RNet}
    (hC : ∀ j, NRun envR H RNet.init (evsC j) (netC j) ∧ EchoOnce (evsC j)) {mem : ℕ → Member G1 G2} {S : List ℕ} (hS : ∀ i ∈ S, i ∈ H)
    (hears : ∀ i ∈ S, (mem i).Hears netC i) (same : SameValue mem S) : (∃ data J, Common mem S data J) ∨ CastCollision envR netC S := by
  classical
  by_cases h1 : CastCollision envR netC S
  · exact Or.inr h1
  left
  have hd : ∀ j, ∃ d0, ∀ i ∈ S, ∀ d, PEvent.commit j (some d) ∈ (mem i).evs → d = d0 := by
    intro j
    by_cases he : ∃ i ∈ S, ∃ d, PEvent.commit j (some d) ∈ (mem i).evs
    · obtain ⟨i, hi, d, hd⟩ := he
      refine ⟨d, fun i' hi' d' hd' => ?_⟩
      obtain ⟨M, m1, m2⟩ := hears i hi j d hd
      obtain ⟨M', m1', m2'⟩ := hears i' hi' j d' hd'
      rcases C32_same_message ok hH (hC j).1 (hC j).2 (hS i' hi') (hS i hi) m1' m1 with e | ⟨a, a', e1, e2, e3⟩
      · rw [← m2, ← m2', e]
      · exact absurd ⟨i', hi', i, hi, j, a, a', e1, e2, e3⟩ h1
    · exact ⟨[], fun i hi d hd => absurd ⟨i, hi, d, hd⟩ he⟩
  choose data hdata using hd
  have hv : ∃ v0, ∀ i ∈ S, ∀ v, PEvent.mvba v ∈ (mem i).evs → v = v0 := by
    by_cases he : ∃ i ∈ S, ∃ v, PEvent.mvba v ∈ (mem i).evs
    · obtain ⟨i, hi, v, hv⟩ := he
      exact ⟨v, fun i' hi' v' hv' => same i' hi' i hi v' v hv' hv⟩
    · exact ⟨[], fun i hi v hv => absurd ⟨i, hi, v, hv⟩ he⟩
  obtain ⟨v0, hv0⟩ := hv
  exact ⟨data, (unmarshalD (⟨[], []⟩ : PMVBAIN) v0).j.map (·.toNat), fun i hi => ⟨fun j d h => hdata j i hi d h, fun r hr => by rw [hv0 i hi r hr]⟩⟩

/-- Decisions with the same hash give the same value. -/
theorem same_of {envM : MEnv} {netM : MNet} {mem : ℕ → Member G1 G2} {S : List ℕ} (obeys : ∀ i ∈ S, (mem i).Obeys netM i)
    (hagree : ∀ i ∈ S, ∀ i' ∈ S, ∀ r r' v v', Decides netM i r v → Decides netM i' r' v' → envM.hash v = envM.hash v') : SameValue mem S ∨ ValueCollision envM netM S := by
  by_cases h2 : ValueCollision envM netM S
  · exact Or.inr h2
  refine Or.inl fun i hi i' hi' v v' hv hv' => ?_
  obtain ⟨r, e⟩ := obeys i hi v hv
  obtain ⟨r', e'⟩ := obeys i' hi' v' hv'
  by_contra hne
  exact h2 ⟨i, hi, i', hi', r, r', v, v', e, e', hne, hagree i hi i' hi' r r' v v' e e'⟩

/-- With common contributions any `F+1` parties reconstruct the secret. -/
theorem reconstruct_common (codec : PointCodec G1) (pp : Pairing Fr G1 G2 GT) (t : Fr) {F N : ℕ} (hF : 1 ≤ F) (hN : 3 * F + 1 ≤ N) (hr : N < frModulus) {b : ℕ → ℕ → Fr}
    {mem : ℕ → Member G1 G2} {S : List ℕ} (hnd : S.Nodup) (hlen : S.length = F + 1) (hlt : ∀ i ∈ S, i < N) (runs : ∀ i ∈ S, (mem i).Runs codec pp t b F N i)
    {q : ℕ → Bytes → ℕ → ℕ → Fr} {rep : ℕ → Bytes → CommitRep} {w : ℕ → PEvent → Fr[X]} (alg : ∀ i ∈ S, (mem i).Alg codec pp t q rep (w i)) (done : ∀ i ∈ S, (mem i).st.successSent = true)
    {data : ℕ → Bytes} {J : List ℕ} (hc : Common mem S data J) :
    Reconstructs F (biVal b F (2 * F) 0 0) (S.map fun i => (mem i).after) ∨
      ∃ i ∈ S, RunReveals t (mem i).before b (fun j => q j (data j)) J (fun j => rep j (data j)) (w i) (mem i).evs := by
  have hget : ∀ k < F + 1, S.getD k 0 ∈ S := fun k hk => by
    rw [List.getD_eq_getElem _ _ (by omega)]; exact List.getElem_mem _
  have hS : (List.range (F + 1)).map (fun k => S.getD k 0) = S := by
    apply List.ext_getElem
    · simp [hlen]
    · intro k h1 h2
      simp [List.getD_eq_getElem?_getD, List.getElem?_eq_getElem h2]
  have hmapid : ((List.range (F + 1)).map fun k => (mem (S.getD k 0)).before.pid) = S := by
    conv_rhs => rw [← hS]
    exact List.map_congr_left fun k hk => (runs _ (hget k (List.mem_range.1 hk))).pid
  have key := C29_reconstruct codec pp (fun k => (mem (S.getD k 0)).tb) t F N hF hN hr b (fun j => q j (data j)) (fun j => rep j (data j)) (fun k => w (S.getD k 0)) J
    (fun k => (mem (S.getD k 0)).before) (fun k => (mem (S.getD k 0)).after) (fun k => (mem (S.getD k 0)).coins) (fun k => (mem (S.getD k 0)).evs) (fun k => (mem (S.getD k 0)).outs)
    (fun k => (mem (S.getD k 0)).st)
    (fun k hk => by
      have h := runs _ (hget k hk)
      exact ⟨h.setup, h.F, h.N, by rw [h.pid]; exact hlt _ (hget k hk), h.coms⟩)
    (by rw [hmapid]; exact hnd)
    (fun k hk => by
      have hm := hget k hk
      have a := alg _ hm
      refine ⟨(runs _ hm).run, ⟨fun j d hd => ?_, a.recover, a.dist⟩, (hc _ hm).2, done _ hm⟩
      have e := (hc _ hm).1 j d hd
      have := a.commits j d hd
      rw [e] at this ⊢
      exact this)
  rcases key with h | ⟨k, hk, h⟩
  · left
    have e : (List.range (F + 1)).map (fun k => (mem (S.getD k 0)).after) = S.map fun i => (mem i).after := by
      conv_rhs => rw [← hS]
      rw [List.map_map]
      rfl
    rwa [e] at h
  · exact Or.inr ⟨_, hget k hk, h⟩

/-- **C84.** Up to `F` parties are corrupt, in the broadcasts and in the messages of the refresh, and whatever happens in the agreement, `F+1` honest parties get the same value from it. Then they use the
same contributions and, if they complete the refresh, reconstruct the secret shared before - or two of them were given colliding values, or the sender of some message knows a nonzero polynomial vanishing at
the setup secret. -/
theorem C84_agreed_partial (codec : PointCodec G1) (pp : Pairing Fr G1 G2 GT) (t : Fr) {F N : ℕ} (hF : 1 ≤ F) (hN : 3 * F + 1 ≤ N) (hr : N < frModulus) {b : ℕ → ℕ → Fr}
    {envR : REnv} (ok : envR.Ok) {H : Finset ℕ} (hH : HonestSet envR H) {evsC : ℕ → List NEvent} {netC : ℕ → RNet} (hC : ∀ j, NRun envR H RNet.init (evsC j) (netC j) ∧ EchoOnce (evsC j))
    {mem : ℕ → Member G1 G2} {S : List ℕ} (hnd : S.Nodup) (hlen : S.length = F + 1) (hS : ∀ i ∈ S, i ∈ H ∧ i < N) (runs : ∀ i ∈ S, (mem i).Runs codec pp t b F N i)
    (hears : ∀ i ∈ S, (mem i).Hears netC i) (same : SameValue mem S)
    {q : ℕ → Bytes → ℕ → ℕ → Fr} {rep : ℕ → Bytes → CommitRep} {w : ℕ → PEvent → Fr[X]} (alg : ∀ i ∈ S, (mem i).Alg codec pp t q rep (w i)) (done : ∀ i ∈ S, (mem i).st.successSent = true) :
    (∃ data J, Common mem S data J ∧ (Reconstructs F (biVal b F (2 * F) 0 0) (S.map fun i => (mem i).after) ∨
      ∃ i ∈ S, RunReveals t (mem i).before b (fun j => q j (data j)) J (fun j => rep j (data j)) (w i) (mem i).evs)) ∨ CastCollision envR netC S := by
  rcases common_same ok hH hC (fun i hi => (hS i hi).1) hears same with ⟨data, J, h⟩ | h
  · exact Or.inl ⟨data, J, h, reconstruct_common codec pp t hF hN hr hnd hlen (fun i hi => (hS i hi).2) runs alg done h⟩
  · exact Or.inr h

/-- **C84.** Up to `F` parties are corrupt in the broadcasts and in the messages of the refresh; in the agreement parties may only stop. Then all parties use the same contributions and any `F+1`
honest parties that complete the refresh reconstruct the secret shared before - or two of them were given colliding values, or the sender of some message knows a nonzero polynomial vanishing at
the setup secret. -/
theorem C84_refresh_partial (codec : PointCodec G1) (pp : Pairing Fr G1 G2 GT) (t : Fr) {F N : ℕ} (hF : 1 ≤ F) (hN : 3 * F + 1 ≤ N) (hr : N < frModulus) {b : ℕ → ℕ → Fr}
    {envR : REnv} (ok : envR.Ok) {H : Finset ℕ} (hH : HonestSet envR H) {evsC : ℕ → List NEvent} {netC : ℕ → RNet} (hC : ∀ j, NRun envR H RNet.init (evsC j) (netC j) ∧ EchoOnce (evsC j))
    {envM : MEnv} {full : SMsg → Bytes} (hok : SchemeOk envM full) (hNM : envM.N = 3 * envM.F + 1) {input : ℕ → Bytes × Bytes} {evsM : List (ℕ × MEvent)} {netM : MNet}
    (hM : MRun envM (Finset.range envM.N) ⟨true, true⟩ (MNet.init (Finset.range envM.N) input envM.N) evsM netM) (hsrc : ∀ i s m, (i, MEvent.recv s m) ∈ evsM → s < envM.N)
    {mem : ℕ → Member G1 G2} {S : List ℕ} (hnd : S.Nodup) (hlen : S.length = F + 1) (hS : ∀ i ∈ S, i ∈ H ∧ i < N ∧ i < envM.N) (runs : ∀ i ∈ S, (mem i).Runs codec pp t b F N i)
    (hears : ∀ i ∈ S, (mem i).Hears netC i) (obeys : ∀ i ∈ S, (mem i).Obeys netM i)
    {q : ℕ → Bytes → ℕ → ℕ → Fr} {rep : ℕ → Bytes → CommitRep} {w : ℕ → PEvent → Fr[X]} (alg : ∀ i ∈ S, (mem i).Alg codec pp t q rep (w i)) (done : ∀ i ∈ S, (mem i).st.successSent = true) :
    (∃ data J, Common mem S data J ∧ (Reconstructs F (biVal b F (2 * F) 0 0) (S.map fun i => (mem i).after) ∨
      ∃ i ∈ S, RunReveals t (mem i).before b (fun j => q j (data j)) J (fun j => rep j (data j)) (w i) (mem i).evs)) ∨
    CastCollision envR netC S ∨ ValueCollision envM netM S := by
  rcases same_of (envM := envM) obeys (fun i hi i' hi' r r' v v' h h' => C39_crash_partial hok hNM hM hsrc (hS i hi).2.2 (hS i' hi').2.2 h h') with same | h
  · rcases C84_agreed_partial codec pp t hF hN hr ok hH hC hnd hlen (fun i hi => ⟨(hS i hi).1, (hS i hi).2.1⟩) runs hears same alg done with h | h
    · exact Or.inl h
    · exact Or.inr (Or.inl h)
  · exact Or.inr (Or.inr h)

/-- **C84.** The same with up to `F` corrupt parties in the agreement as well, if the parties decide in one round, having counted coin shares of different parties. -/
theorem C84_one_round_partial (codec : PointCodec G1) (pp : Pairing Fr G1 G2 GT) (t : Fr) {F N : ℕ} (hF : 1 ≤ F) (hN : 3 * F + 1 ≤ N) (hr : N < frModulus) {b : ℕ → ℕ → Fr}
    {envR : REnv} (ok : envR.Ok) {H : Finset ℕ} (hH : HonestSet envR H) {evsC : ℕ → List NEvent} {netC : ℕ → RNet} (hC : ∀ j, NRun envR H RNet.init (evsC j) (netC j) ∧ EchoOnce (evsC j))
    {envM : MEnv} {full : SMsg → Bytes} (hok : SchemeOk envM full) (hcm : Committee envM H) {cfg : MNetCfg} {input : ℕ → Bytes × Bytes} {evsM : List (ℕ × MEvent)} {netM : MNet}
    (hM : MRun envM H cfg (MNet.init H input envM.N) evsM netM) {r : ℕ}
    {mem : ℕ → Member G1 G2} {S : List ℕ} (hnd : S.Nodup) (hlen : S.length = F + 1) (hS : ∀ i ∈ S, i ∈ H ∧ i < N) (runs : ∀ i ∈ S, (mem i).Runs codec pp t b F N i)
    (hears : ∀ i ∈ S, (mem i).Hears netC i) (obeys : ∀ i ∈ S, (mem i).Obeys netM i)
    (hround : ∀ i ∈ S, ∀ r' v, Decides netM i r' v → r' = r) (hcoin : ∀ i ∈ S, (coinSigners envM netM i r).Nodup)
    {q : ℕ → Bytes → ℕ → ℕ → Fr} {rep : ℕ → Bytes → CommitRep} {w : ℕ → PEvent → Fr[X]} (alg : ∀ i ∈ S, (mem i).Alg codec pp t q rep (w i)) (done : ∀ i ∈ S, (mem i).st.successSent = true) :
    (∃ data J, Common mem S data J ∧ (Reconstructs F (biVal b F (2 * F) 0 0) (S.map fun i => (mem i).after) ∨
      ∃ i ∈ S, RunReveals t (mem i).before b (fun j => q j (data j)) J (fun j => rep j (data j)) (w i) (mem i).evs)) ∨
    CastCollision envR netC S ∨ ValueCollision envM netM S := by
  rcases same_of (envM := envM) obeys
    (fun i hi i' hi' r1 r2 v v' h h' => by
      cases hround i hi r1 v h
      cases hround i' hi' r2 v' h'
      exact C38_distinct_coins_partial hok hcm hM (hS i hi).1 (hS i' hi').1 h h' (hcoin i hi) (hcoin i' hi')) with same | h
  · rcases C84_agreed_partial codec pp t hF hN hr ok hH hC hnd hlen hS runs hears same alg done with h | h
    · exact Or.inl h
    · exact Or.inr (Or.inl h)
  · exact Or.inr (Or.inr h)

end

/-! ### A concrete execution

Four parties refresh `B = 42 + x`; parties 1 and 2 are looked at. Party 0 is corrupt in the broadcasts. -/

section Examples

theorem size_commit_one (c : ℕ → PiContent Fr) : (marshal (commitOf frCodec 1 c)).length ≤ 3 * 808 := by
  show (encFields (putRep 1 _)).length ≤ _
  have h := size_putRep 1 (by norm_num) ((commitOf frCodec 1 c).pi.map marshal) 403 (by
    intro b hb
    obtain ⟨x, hx, rfl⟩ := List.mem_map.1 hb
    obtain ⟨k, hk, rfl⟩ := List.mem_map.1 hx
    rw [mem_oneTo] at hk
    have := size_content frCodec (c k) k
    omega)
  refine h.trans ?_
  simp [commitOf, oneTo_length]

/-- The Commit message of party `j` in a broadcast. -/
def castX (d : Bytes) : PMessage := ⟨"", [], 1, d⟩

theorem castX_size (d : Bytes) : (marshal (castX d)).length ≤ 2 * d.length + 5 := by
  have h := size_putBytes 4 (by norm_num) d
  have h' := size_putU32 3 (by norm_num) 1
  have e : marshal (castX d) = encFields (putU32 3 1 ++ putBytes 4 d) := rfl
  rw [e, encFields_append, List.length_append]
  have : (1 : UInt32).toNat = 1 := rfl
  omega

theorem castX_ne {d : Bytes} (h : (marshal (castX d)).length < 2 ^ 64) : marshal (castX d) ≠ [] := by
  intro h0
  have hrt : unmarshal PMessage (marshal (castX d)) = some (castX d) := rt_PMessage _ h
  rw [h0] at hrt
  have h3 : (unmarshal PMessage []).map (·.sender) = some 0 := by decide +kernel
  rw [hrt] at h3
  exact absurd (Option.some.inj h3) (by decide : (1 : UInt32) ≠ 0)

/-- What the parties give to the agreement: contributions 2 and 4. -/
def valueX : Bytes := marshal (mvbaInput tb0 1 4 (fun _ _ => []) [2, 4])

namespace Toy

/-- `allRun` when everybody proposes `v`. -/
def sameRun (v : Bytes) : List (ℕ × MEvent) :=
  ([0, 1, 2].flatMap fun j => broadcast (fun _ => 0) 0 j v [] [0, 1, 2] [])
  ++ ([0, 1, 2, 3].flatMap fun i => ([0, 1, 2].map fun j => rv i j (.finish 0 v (full (fun _ => 0) (.echo 0 j 2 v)))) ++ [(i, .elect 0)])
  ++ ([0, 1, 2, 3].flatMap fun i => ([0, 1, 2].map fun j => rv i j (.done 0 (sign j (.done 0)))) ++ [(i, .takeLeader)])
  ++ quits 0 [3, 3] ++ quits 1 [3, 3] ++ quits 2 [3, 3] ++ quits 3 [0, 0, 1, 1, 2, 2, 3, 3] ++ [(3, .quitSend)] ++ [0, 1, 2, 3].map (fun i => (i, .joined))

/-- `sameRun` with party 0 corrupt: it sends nonsense to party 1 and takes its part in the rest. -/
def byzRun (v : Bytes) : List (ℕ × MEvent) := (rv 1 0 (.finish 0 [9] [9]) :: sameRun v).filter fun e => e.1 ≠ 0

end Toy

open Toy in
/-- Party 0 is corrupt, and the others decide the same value in round 0. -/
theorem agree_byz : ∃ net, MRun (env fun _ => 0) (othersSet 4) ⟨true, true⟩ (MNet.init (othersSet 4) (fun _ => (valueX, [])) 4) (byzRun valueX) net ∧
    (∀ i ∈ [1, 2, 3], Decides net i 0 valueX ∧ (coinSigners (env fun _ => 0) net i 0).Nodup) ∧ rv 1 0 (.finish 0 [9] [9]) ∈ byzRun valueX := by
  obtain ⟨net, hr, hp⟩ := exists_run (coin := fun _ => 0) (H := othersSet 4) (cfg := ⟨true, true⟩) (net₀ := MNet.init (othersSet 4) (fun _ => (valueX, [])) 4) (byzRun valueX)
    (fun n => [1, 2, 3].all (fun i => decide (Decides n i 0 valueX ∧ (coinSigners (env fun _ => 0) n i 0).Nodup))) (by decide +kernel)
  exact ⟨net, hr, fun i hi => of_decide_eq_true (List.all_eq_true.1 hp i hi), by simp [byzRun, rv]⟩

open Toy in
theorem agree_toy : ∃ net, MRun (env fun _ => 0) (Finset.range 4) ⟨true, true⟩ (MNet.init (Finset.range 4) (fun _ => (valueX, [])) 4) (sameRun valueX) net ∧
    (∀ i < 4, Decides net i 0 valueX) ∧ ∀ i s m, (i, MEvent.recv s m) ∈ sameRun valueX → s < 4 := by
  obtain ⟨net, hr, hp⟩ := exists_run (coin := fun _ => 0) (H := Finset.range 4) (cfg := ⟨true, true⟩) (net₀ := MNet.init (Finset.range 4) (fun _ => (valueX, [])) 4) (sameRun valueX)
    (fun n => (List.range 4).all (fun i => decide (Decides n i 0 valueX))) (by decide +kernel)
  refine ⟨net, hr, fun i hi => of_decide_eq_true (List.all_eq_true.1 hp i (List.mem_range.2 hi)), ?_⟩
  have : ((sameRun valueX).all fun e => match e.2 with | .recv q _ => decide (q < 4) | _ => true) = true := by decide +kernel
  intro i q m hm
  have := List.all_eq_true.1 this _ hm
  exact of_decide_eq_true this

/-- The events of an honest refresh at party `i`. -/
def evX (D : ℕ → PCommit) (F N i : ℕ) : List PEvent :=
  refreshEvents frCodec (Pairing.dlog Fr) 7 F N (i + 1) qX (fun j => marshal (D j)) (fun _ _ => []) [2, 4] (marshal (mvbaInput tb0 F N (fun _ _ => []) [2, 4])) ++
    completeEvents frCodec (Pairing.dlog Fr) 7 F (i + 1) (refreshed bX qX [2, 4]) [4, 1, 2]

theorem evX_commit {D : ℕ → PCommit} {F N i j : ℕ} {d : Bytes} (h : PEvent.commit j (some d) ∈ evX D F N i) : d = marshal (D j) := by
  unfold evX at h
  simp only [refreshEvents, completeEvents, distEvents, batchEvents, List.mem_append, List.mem_map, List.mem_flatMap, List.mem_cons, List.mem_replicate, List.not_mem_nil] at h
  simp only [reduceCtorEq, and_false, or_false, exists_false, PEvent.commit.injEq, Option.some.injEq] at h
  obtain ⟨a, -, rfl, h⟩ := h
  exact h.symm

theorem evX_mvba {D : ℕ → PCommit} {F N i : ℕ} {v : Bytes} (h : PEvent.mvba v ∈ evX D F N i) : v = marshal (mvbaInput tb0 F N (fun _ _ => []) [2, 4]) := by
  unfold evX at h
  simp only [refreshEvents, completeEvents, distEvents, batchEvents, List.mem_append, List.mem_map, List.mem_flatMap, List.mem_cons, List.mem_replicate, List.not_mem_nil] at h
  simpa only [reduceCtorEq, and_false, or_false, false_or, exists_false, PEvent.mvba.injEq] using h

open Toy in
/-- All hypotheses of `C84_refresh_partial` hold together, those of `C84_one_round_partial` as well with another execution of the agreement (`evsB`, `netB`), the alternatives to its claim do not, and so the two parties reconstruct 42. -/
example : ∃ (evsC : ℕ → List NEvent) (netC : ℕ → RNet) (evsM : List (ℕ × MEvent)) (netM : MNet) (evsB : List (ℕ × MEvent)) (netB : MNet) (mem : ℕ → Member Fr Fr) (w : ℕ → PEvent → Fr[X]),
    (∀ j, NRun (toyEnv 4 1) (othersSet 4) RNet.init (evsC j) (netC j) ∧ EchoOnce (evsC j)) ∧
    MRun (env fun _ => 0) (Finset.range 4) ⟨true, true⟩ (MNet.init (Finset.range 4) (fun _ => (valueX, [])) 4) evsM netM ∧
    (∀ i ∈ [1, 2], (mem i).Runs frCodec (Pairing.dlog Fr) 7 bX 1 4 i ∧ (mem i).Hears netC i ∧ (mem i).Obeys netM i ∧
      (mem i).Alg frCodec (Pairing.dlog Fr) 7 (fun j _ => qX j) (fun j _ => honestRep 1 (coinsX j)) (w i) ∧ (mem i).st.successSent = true) ∧
    Committee (env fun _ => 0) (othersSet 4) ∧ MRun (env fun _ => 0) (othersSet 4) ⟨true, true⟩ (MNet.init (othersSet 4) (fun _ => (valueX, [])) 4) evsB netB ∧
    (∀ i ∈ [1, 2], (mem i).Obeys netB i ∧ (∀ r v, Decides netB i r v → r = 0) ∧ (coinSigners (env fun _ => 0) netB i 0).Nodup) ∧
    ¬ CastCollision (toyEnv 4 1) netC [1, 2] ∧ ¬ ValueCollision (env fun _ => 0) netM [1, 2] ∧
    Reconstructs 1 42 ([1, 2].map fun i => (mem i).after) := by
  have okR : (toyEnv 4 1).Ok := toyEnv_ok (by norm_num) (by norm_num)
  choose p0 e1 e2 e3 e4 e5 using fun i => newParty_setup (Pairing.dlog Fr) 7 4 1 i
  choose D hD using fun j => (⟨_, commitMsg_ok (codec := frCodec) (Pairing.dlog Fr) 7 1 (coinsX j)⟩ :
    ∃ m, commitMsg frCodec (Pairing.dlog Fr) (newKZG (Pairing.dlog Fr) 7 (1 + 1)) 1 (coinsX j) = .ok m)
  have hDlen : ∀ j, (marshal (castX (marshal (D j)))).length < 2 ^ 30 := by
    intro j
    have h := hD j
    rw [commitMsg_ok] at h
    rw [← Except.ok.inj h]
    have h1 := castX_size (marshal (commitOf frCodec 1 (honestContent (Pairing.dlog Fr) 7 1 0 (coinsX j))))
    have h2 := size_commit_one (honestContent (Pairing.dlog Fr) 7 1 0 (coinsX j))
    omega
  set P0 : ℕ → Party Fr Fr := fun i => { p0 i with
    proof := ⟨0, (List.range 4).map fun k : ℕ => ⟨k, polyVal (sliceX bX 1 2 (k : Fr)) 7 • (Pairing.dlog Fr).g1, 0, 0, 0⟩⟩
    reducedShare := sliceX bX 1 2 ((i + 1 : ℕ) : Fr) } with hP0
  have hPF : ∀ i, (P0 i).F = 1 := e4
  have hPN : ∀ i, (P0 i).N = 4 := e3
  have hPp : ∀ i, (P0 i).pid = i := e5
  have hk : ∀ i, KnowsComs (Pairing.dlog Fr) 7 bX (P0 i) := by
    intro i k k1 k2
    have eF : (P0 i).F = 1 := e4 i
    rw [eF] at k2 ⊢
    rw [commitToPoly_ok _ _ _ _ (by rw [sliceX_length])]
    congr 1
    interval_cases k <;> rfl
  have hq : ∀ i j k, 1 ≤ k → k ≤ 2 * (P0 i).F + 1 → sliceX (qX j) (P0 i).F (2 * (P0 i).F) (k : Fr) = ownQ (P0 i).F (coinsX j) k := by
    intro i j k _ _; rw [hPF]; exact qX_slices j k
  have hD' : ∀ i j, commitMsg frCodec (Pairing.dlog Fr) (newKZG (Pairing.dlog Fr) 7 ((P0 i).F + 1)) (P0 i).F (coinsX j) = .ok (D j) := by
    intro i j; rw [hPF]; exact hD j
  have hrun := fun i (hi : i < 4) => C29_honest_run frCodec (Pairing.dlog Fr) tb0 7 (P0 i) ⟨(e2 i).kzg, (e2 i).table⟩ (by rw [hPF]) (by rw [hPF]; norm_num) (by rw [hPF, hPN])
    (by rw [hPN]; norm_num) (by rw [hPp, hPN]; exact hi) bX (hk i) (by rw [hPF, hPp]) (coinsX 1) coinsX qX (hq i) D (hD' i)
    (fun _ _ => []) (by intro k i; norm_num) (fun _ _ _ _ => rfl) (by intro m s a n r h; cases h; norm_num) [2, 4] (by decide) (by rw [hPF]; rfl) (by rw [hPN]; decide) [4, 1, 2] (by decide)
    (by rw [hPF]; rfl) (by rw [hPN]; decide)
  have : Nonempty (Party Fr Fr) := ⟨p0 0⟩
  have : Nonempty (PState Fr) := ⟨PState.init (p0 0) (coinsX 1)⟩
  choose! P st r h1 _ _ h2 _ using hrun
  have hnr := fun i => C29_honest_reveals_nothing frCodec (Pairing.dlog Fr) tb0 7 (P0 i) (by rw [hPF]; norm_num) (by rw [hPF, hPN]) (by rw [hPN]; norm_num) bX coinsX qX (hq i) D (hD' i)
    (fun _ _ => []) (by intro k i; norm_num) (by intro m s a n r h; cases h; norm_num) [2, 4] (by rw [hPF]; rfl) (by rw [hPN]; decide) [4, 1, 2] (by rw [hPN]; decide) _ rfl
  have hcast : ∀ j, ∃ evs net, NRun (toyEnv 4 1) (othersSet 4) RNet.init evs net ∧ EchoOnce evs ∧
      ∀ i ∈ othersSet 4, (net.party i).mainPos = .returned (some (marshal (castX (marshal (D j))))) := by
    intro j
    obtain ⟨evs, net, a1, a2, -, a3⟩ := attack_spoof okR (by show 1 ≤ 1; norm_num) (b := 1) (by show 1 ∈ othersSet 4; decide) (castX []) (D := marshal (castX (marshal (D j)))) (hDlen j)
      (castX_ne (lt_trans (hDlen j) (by norm_num)))
    exact ⟨_, net, a1, a2, a3⟩
  choose evsC netC c1 c2 c3 using hcast
  obtain ⟨netM, m1, m2, m3⟩ := agree_toy
  obtain ⟨netB, n1, n2, -⟩ := agree_byz
  have hcm : Committee (env fun _ => 0) (othersSet 4) := ⟨rfl, by decide, by decide⟩
  have hS : ∀ i ∈ [1, 2], i ∈ othersSet 4 ∧ i < 4 ∧ i < 4 := by decide
  set mem : ℕ → Member Fr Fr := fun i => ⟨P0 i, P i, coinsX 1, tb0, evX D (P0 i).F (P0 i).N (P0 i).pid, [.mvba (mvbaInput tb0 (P0 i).F (P0 i).N (fun _ _ => []) [2, 4]), .success], st i⟩ with hmem
  have hmvba : ∀ i, (mem i).Obeys netM i ∨ ¬ i < 4 := by
    intro i
    by_cases hi : i < 4
    · left
      intro v hv
      have := evX_mvba hv
      rw [hPF, hPN] at this
      rw [this]
      exact ⟨0, m2 i hi⟩
    · exact Or.inr hi
  have hB : ∀ i ∈ [1, 2], (mem i).Obeys netB i ∧ (∀ r v, Decides netB i r v → r = 0) ∧ (coinSigners (env fun _ => 0) netB i 0).Nodup := by
    intro i hi
    obtain ⟨x, y⟩ := n2 i (by revert i; decide)
    refine ⟨fun v hv => ?_, fun r v h => ?_, y⟩
    · have := evX_mvba hv
      rw [hPF, hPN] at this
      rw [this]
      exact ⟨0, x⟩
    · unfold Decides at x h
      rw [x] at h
      cases h
      rfl
  have hears : ∀ i ∈ [1, 2], (mem i).Hears netC i := by
    intro i hi j d hd
    rw [evX_commit hd]
    exact ⟨castX (marshal (D j)), result_marshal (hDlen j) (c3 j i (hS i hi).1), rfl⟩
  have obeys : ∀ i ∈ [1, 2], (mem i).Obeys netM i := fun i hi => (hmvba i).resolve_right (fun h => h (hS i hi).2.1)
  have runs : ∀ i ∈ [1, 2], (mem i).Runs frCodec (Pairing.dlog Fr) 7 bX 1 4 i := fun i hi =>
    ⟨⟨(e2 i).kzg, (e2 i).table⟩, hPF i, hPN i, hPp i, hk i, r i (hS i hi).2.1⟩
  have alg : ∀ i ∈ [1, 2], (mem i).Alg frCodec (Pairing.dlog Fr) 7 (fun j _ => qX j) (fun j _ => honestRep 1 (coinsX j)) (honestW 1 (i + 1) bX qX [2, 4]) := by
    intro i hi
    have h := (hnr i).1
    have ef : honestW (P0 i).F ((P0 i).pid + 1) bX qX [2, 4] = honestW 1 (i + 1) bX qX [2, 4] := by rw [hPF, hPp]
    have eg : (fun j => honestRep (P0 i).F (coinsX j)) = fun j => honestRep 1 (coinsX j) := by rw [hPF]
    rw [ef, eg] at h
    exact ⟨h.commits, h.recover, h.dist⟩
  have hnc : ¬ CastCollision (toyEnv 4 1) netC [1, 2] := by
    rintro ⟨i, hi, i', hi', j, a, a', x, x', hne, -⟩
    rw [c3 j i (hS i hi).1] at x
    rw [c3 j i' (hS i' hi').1] at x'
    cases x
    cases x'
    exact hne rfl
  have hnv : ¬ ValueCollision (env fun _ => 0) netM [1, 2] := by
    rintro ⟨i, hi, i', hi', ra, rb, v, v', x, x', hne, -⟩
    have y := m2 i (hS i hi).2.1
    have y' := m2 i' (hS i' hi').2.1
    unfold Decides at y y'
    rw [y] at x
    rw [y'] at x'
    cases x
    cases x'
    exact hne rfl
  refine ⟨evsC, netC, _, netM, _, netB, mem, fun i => honestW 1 (i + 1) bX qX [2, 4], fun j => ⟨c1 j, c2 j⟩, m1, fun i hi => ⟨runs i hi, hears i hi, obeys i hi, alg i hi, h1 i (hS i hi).2.1⟩, hcm, n1, hB, hnc, hnv, ?_⟩
  have key := C84_refresh_partial frCodec (Pairing.dlog Fr) 7 (F := 1) (N := 4) le_rfl le_rfl (by decide +kernel) (b := bX) okR (othersSet_honest okR (by show 1 ≤ 1; norm_num))
    (fun j => ⟨c1 j, c2 j⟩) (schemeOk fun _ => 0) rfl m1 m3 (S := [1, 2]) (by decide) rfl hS runs hears obeys alg (fun i hi => h1 i (hS i hi).2.1)
  rcases key with ⟨data, J, hc, h | ⟨i, hi, h⟩⟩ | h | h
  · have e : biVal bX 1 (2 * 1) 0 0 = 42 := by simp [biVal, bX, Finset.sum_range_succ]
    rwa [e] at h
  · exfalso
    have hJ : J = [2, 4] := by
      have a := (hc i hi).2
      have b := (hnr i).2.1
      have hm : PEvent.mvba (marshal (mvbaInput tb0 (P0 i).F (P0 i).N (fun _ _ => []) [2, 4])) ∈ evX D (P0 i).F (P0 i).N (P0 i).pid := by simp [evX, refreshEvents]
      exact (a _ hm).symm.trans (b _ hm)
    subst hJ
    have hn := (hnr i).2.2
    have ef : honestW (P0 i).F ((P0 i).pid + 1) bX qX [2, 4] = honestW 1 (i + 1) bX qX [2, 4] := by rw [hPF, hPp]
    have eg : (fun j => honestRep (P0 i).F (coinsX j)) = fun j => honestRep 1 (coinsX j) := by rw [hPF]
    rw [ef, eg] at hn
    exact hn h
  · exact absurd h hnc
  · exact absurd h hnv

end Examples

end DyCAPS
