import Verif.Props.KZG
import Verif.Props.VSS
import Verif.Props.PiSet
import Verif.Props.RBCChosen
import Verif.Props.Final

/-!
# Further cases of theorems of other files
-/

namespace DyCAPS

/-- `C12_witnesses` for `F = 1`, `N = 4`, `B(x,y) = 1 + x·y²`: the witness of `B(·,y)` at any point is `g^{y²}`; those for 2, 5 and 7 give the one for 4. -/
example : ∃ table, (lagrangeTable 1 4 : Go (List (List Fr))) = .ok table ∧ interpolateByKnownIndexes 1 table 2 4 [2, 5, 7] ([4, 25, 49] : List Fr) = .ok 16 := by
  refine ⟨_, lagrangeTable_ok 1 4, ?_⟩
  have h := C12_witnesses (Pairing.dlog Fr) 5 1 4 (by norm_num) (by decide +kernel)
    (fun i j => if i = 0 ∧ j = 0 then 1 else if i = 1 ∧ j = 2 then 1 else 0) 3 _ (lagrangeTable_ok 1 4) [2, 5, 7] rfl (by unfold DistinctUpTo; decide +kernel)
    ([4, 25, 49] : List Fr) rfl (by decide +kernel) 4
  refine h.trans ?_
  decide +kernel

/-- `C32_same_message`: two receivers next to a corrupt party that makes the calls of others fail. -/
example : ∃ evs net, NRun (toyEnv 7 2) (othersSet 7) RNet.init evs net ∧ EchoOnce evs ∧ (net.party 1).result = some (some toyM) ∧ (net.party 5).result = some (some toyM) ∧
    ∀ M, (net.party 5).result = some (some M) → toyM = M ∨ ∃ m m', (net.party 1).mainPos = .returned (some m) ∧ (net.party 5).mainPos = .returned (some m') ∧ Collision (toyEnv 7 2) m m' := by
  have ok : (toyEnv 7 2).Ok := toyEnv_ok (by norm_num) (by norm_num)
  obtain ⟨hH, _, evs, net, h1, ho, _, h2⟩ := C133_refuted ok (by show 1 ≤ 2; norm_num) (b := 3) (by norm_num) (by show 3 < 7; norm_num) toyM (by decide +kernel) (by decide +kernel) {2, 4, 6}
  have r1 := (h2 [] net .nil 1 (by decide)).1 (by decide)
  have r5 := (h2 [] net .nil 5 (by decide)).1 (by decide)
  exact ⟨_, net, h1, ho, r1, r5, fun M hM => C32_same_message ok hH h1 ho (by decide) (by decide) r1 hM⟩

/-- `C101_broadcast`: the same two receivers keep their message in every continuation, the others their failure. -/
example : ∃ evs net, NRun (toyEnv 7 2) (othersSet 7) RNet.init evs net ∧ (net.party 1).mainPos = .returned (some (marshal toyM)) ∧
    ∀ evs' net', NRun (toyEnv 7 2) (othersSet 7) net evs' net' → (net'.party 1).mainPos = .returned (some (marshal toyM)) := by
  have ok : (toyEnv 7 2).Ok := toyEnv_ok (by norm_num) (by norm_num)
  obtain ⟨evs, net, h1, _, _, h2⟩ := attack_mixed ok (by show 1 ≤ 2; norm_num) (b := 3) (by decide) toyM (by decide +kernel) (by decide +kernel) {2, 4, 6}
  have r1 := (h2 1 (by decide)).2 (by decide)
  exact ⟨_, net, h1, r1, fun evs' net' hr => C101_broadcast hr r1⟩

/-- `C135_from_message`: a proof with four entries, read from a message and stored in a fresh receiver. -/
example : ∃ pi, setFromVSSMessage frCodec (some ⟨frCodec.enc 5, [⟨0, [], [], [], []⟩, encodeContent frCodec ⟨1, 2, 3, 4, 5⟩ 1, encodeContent frCodec ⟨2, 6, 7, 8, 9⟩ 2,
      encodeContent frCodec ⟨3, 10, 11, 12, 13⟩ 3]⟩) 1 = .ok pi ∧ pi.gs = 5 ∧ (pi.contents.map fun c => c.gFj) = [0, 5, 9, 13] ∧ (Pi.init 1).set pi 1 = .ok pi := by
  refine ⟨⟨5, [PiContent.zero 0, ⟨1, 2, 3, 4, 5⟩, ⟨2, 6, 7, 8, 9⟩, ⟨3, 10, 11, 12, 13⟩]⟩, ?_, rfl, rfl, ?_⟩
  · simp [setFromVSSMessage, decodeContent, encodeContent, oneTo, List.range_succ, idx, PointCodec.decode!, frCodec.dec_enc, bind, Except.bind, pure, Except.pure]
  · rfl

/-- `C61_domain_separation`: the coin of round 3, the unlock share of round 3 and an Echo of round 3, under identifiers of which one begins the other. -/
example : (SMsg.done 3).bytes [1] ≠ (SMsg.unlock 3).bytes [1] ∧ (SMsg.done 3).bytes [1] ≠ (SMsg.done 3).bytes [1, 0] ∧
    (SMsg.echo 3 0 1 (List.replicate 64 7)).bytes [] ≠ (SMsg.echo 3 0 2 (List.replicate 64 7)).bytes [] := by
  refine ⟨fun h => ?_, fun h => ?_, fun h => ?_⟩
  · have := (C61_domain_separation _ _ _ _ (by simp [SMsg.Fits]) (by simp [SMsg.Fits]) h).2
    cases this
  · have := (C61_domain_separation _ _ _ _ (by simp [SMsg.Fits]) (by simp [SMsg.Fits]) h).1
    cases this
  · have := (C61_domain_separation _ _ _ _ (by simp [SMsg.Fits]) (by simp [SMsg.Fits]) h).2
    cases this

end DyCAPS
