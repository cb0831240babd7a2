import Verif.Props.RBCTotal
import Verif.Lemmas.RBCMixed

/-!
# Reliable broadcast: C133
-/

namespace DyCAPS

/-- **C133 (refuted).** Committees of every size, every honest broadcaster and message, one corrupt party (party 0): for every set `X` of honest parties there is an execution, with proposals of the
broadcaster only and no repeated Echo, in which the honest parties outside `X` return the message and those in `X` have panicked, have returned nil or have returned other bytes with the hash of the
message. This is so in every continuation as well. -/
theorem C133_refuted {env : REnv} (ok : env.Ok) (hF : 1 ≤ env.F) {b : ℕ} (hb0 : 0 < b) (hb : b < env.N) (M : PMessage) (hD : (marshal M).length < 2 ^ 30) (hne : marshal M ≠ [])
    (X : Finset ℕ) :
    HonestSet env (othersSet env.N) ∧ b ∈ othersSet env.N ∧
    ∃ evs net, NRun env (othersSet env.N) RNet.init (.send b M :: evs) net ∧ EchoOnce (.send b M :: evs) ∧ HonestCast b M (.send b M :: evs) ∧
      ∀ evs' net', NRun env (othersSet env.N) net evs' net' → ∀ j ∈ othersSet env.N,
        (j ∉ X → (net'.party j).result = some (some M)) ∧
        (j ∈ X → (net'.party j).dead = true ∨ (net'.party j).mainPos = .returned none ∨ ∃ m, (net'.party j).mainPos = .returned (some m) ∧ Collision env m (marshal M)) := by
  have hbm : b ∈ othersSet env.N := mem_othersSet.2 (mem_others.2 ⟨hb0, hb⟩)
  obtain ⟨evs, net, h1, h2, h3, h4⟩ := attack_mixed ok hF hbm M hD hne X
  exact ⟨othersSet_honest ok hF, hbm, evs, net, h1, h2, h3, fun evs' net' hr j hj =>
    ⟨fun hX => result_marshal hD (Returned.run hr ((h4 j hj).2 hX)), fun hX => ((h4 j hj).1 hX).run hr⟩⟩

/-- **C133 (part).** Whoever broadcasts: if all proposals taken by honest parties carry the same bytes, no Echo is repeated and no wrong shard is reported under their hash, then at no time has an
honest party panicked, returned nil or returned anything else. -/
theorem C133_true_shards_partial {env : REnv} (ok : env.Ok) {H : Finset ℕ} (hH : HonestSet env H) {evs : List NEvent} {net : RNet} (hr : NRun env H RNet.init evs net) (hone : EchoOnce evs)
    {D : Bytes} (hc : OneProposal D evs) (htr : TrueShards env D evs) (hD : D.length < 2 ^ 32) (hne : D ≠ []) {j : ℕ} (hj : j ∈ H) :
    (net.party j).dead = false ∧ ∀ res, (net.party j).mainPos = .returned res → res = some D := by
  obtain ⟨sh, he⟩ : ∃ sh, env.rs.encode D = some sh := by
    cases h : env.rs.encode D with
    | none => exact absurd ((ok.encode_none _).1 h) hne
    | some sh => exact ⟨sh, rfl⟩
  have hl := (live_inv ok hH hr hone hc htr hD he).1 j hj
  refine ⟨hl.alive, fun res h => ?_⟩
  have := hl.main
  rwa [h] at this

/-- Seven parties, party 3 broadcasts: parties 1, 3 and 5 return the message, party 3's own call included, and the calls of 2, 4 and 6 fail. -/
example : ∃ evs net, NRun (toyEnv 7 2) (othersSet 7) RNet.init (.send 3 toyM :: evs) net ∧ (∀ j ∈ ({1, 3, 5} : Finset ℕ), (net.party j).result = some (some toyM)) ∧
    ∀ j ∈ ({2, 4, 6} : Finset ℕ), (net.party j).dead = true ∨ (net.party j).mainPos = .returned none ∨ ∃ m, (net.party j).mainPos = .returned (some m) ∧ Collision (toyEnv 7 2) m (marshal toyM) := by
  obtain ⟨_, _, evs, net, h1, _, _, h2⟩ := C133_refuted (toyEnv_ok (N := 7) (F := 2) (by norm_num) (by norm_num)) (by show 1 ≤ 2; norm_num) (b := 3) (by norm_num) (by show 3 < 7; norm_num) toyM
    (by decide +kernel) (by decide +kernel) {2, 4, 6}
  refine ⟨evs, net, h1, fun j hj => (h2 [] net .nil j ?_).1 ?_, fun j hj => (h2 [] net .nil j ?_).2 hj⟩
  all_goals (revert j; decide)

/-- Party 3 was left out by the corrupt party 0 and is still alive with its own result: case of `C133_true_shards_partial`. -/
example : ∃ net, NRun (toyEnv 4 1) {1, 2, 3} RNet.init leftOutEvents net ∧ (net.party 3).dead = false ∧ ∀ res, (net.party 3).mainPos = .returned res → res = some (marshal toyM) := by
  have hrun := leftOut_run
  cases hn : runNet (toyEnv 4 1) {1, 2, 3} RNet.init leftOutEvents with
  | none => rw [hn] at hrun; cases hrun
  | some net =>
    have hr := NRun.of_runNet (NRun.nil (env := toyEnv 4 1) (H := {1, 2, 3}) (net₀ := RNet.init)) hn
    rw [List.nil_append] at hr
    obtain ⟨a1, _, a3, a4⟩ := zero_hypotheses zero_events.1 zero_once.1
    exact ⟨net, hr, C133_true_shards_partial (toyEnv_ok (by norm_num) (by norm_num)) ⟨by decide, by decide⟩ hr a1 a3 a4 (by decide +kernel) (by decide +kernel) (by decide)⟩

end DyCAPS
