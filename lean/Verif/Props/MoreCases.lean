import Verif.Props.Backends
import Verif.Props.DistRace
import Verif.Props.Kilic
import Verif.Props.KZG
import Verif.Props.MVBALive
import Verif.Props.Refresh
import Verif.Props.Tbls
import Verif.Props.VSS

/-!
# More concrete cases
-/

namespace DyCAPS

open Toy

/-- C16: with the deployed setup, anybody opens the commitment `5` at the point 3 to the value 9. -/
example : checkProofSingle (Pairing.dlog Fr) (newKZG (Pairing.dlog Fr) deployedSecret 2) 5 (forgeProof (Pairing.dlog Fr) 5 3 9) 3 9 = .ok true :=
  C16_setup_forgeable (Pairing.dlog Fr) 1 le_rfl 5 3 9 (by exact_mod_cast C16_every_party_point 3 (by norm_num))

/-- C52: setup secret 7, four parties: party 2 accepts a dealing of 0 whose published `Gs` is not the neutral element. -/
example : ∃ (m : PVSSSend) (p q : Party Fr Fr), newParty (Pairing.dlog Fr) 7 4 1 2 = .ok p ∧ vssReceiveMsg frCodec (Pairing.dlog Fr) p m = .ok (q, true) ∧ q.proof.gs ≠ 0 := by
  obtain ⟨b, -, h⟩ := C52_published_not_secret frCodec (Pairing.dlog Fr) 7 (by decide +kernel) 4 1 le_rfl (by decide +kernel)
  obtain ⟨m, p, q, h1, h2, -, -, -, -, -, h3⟩ := h 2
  exact ⟨m, p, q, h1, h2, by simpa using h3⟩

/-- C71: `3 - 5`, `1/4` and `2^10` in both back ends. -/
example : pureSub 3 5 = ((3 - 5 : Fr).val : ℤ) ∧ holSub 3 5 = (3 - 5 : Fr).val ∧ pureInv 0 4 = ((4⁻¹ : Fr).val : ℤ) ∧ holInv 4 = (4⁻¹ : Fr).val ∧ pureExp 2 10 = 1024 ∧ holExp 2 10 = 1024 := by
  have v3 : ((3 : Fr).val : ℕ) = 3 := by decide +kernel
  have v5 : ((5 : Fr).val : ℕ) = 5 := by decide +kernel
  have v4 : ((4 : Fr).val : ℕ) = 4 := by decide +kernel
  have v2 : ((2 : Fr).val : ℕ) = 2 := by decide +kernel
  have vp : (((2 : Fr) ^ 10).val : ℕ) = 1024 := by decide +kernel
  have a := C71_pure 3 5 0
  have b := C71_hol256 3 5 0
  have c := (C71_pure_division 0 4 0 []).1 (by decide +kernel)
  have d := (C71_hol256_division 0 4 []).1
  have e := (C71_pure 2 0 10).2.2.2
  have f := (C71_hol256 2 0 10).2.2.2
  rw [v3, v5] at a b
  rw [v4] at c d
  rw [v2, vp] at e f
  exact ⟨a.2.1, b.2.1, c, d, e, f⟩

/-- C104: `(2 - 5) / 3` is written as the bytes of `-1`, although the stored word is `-R`. -/
example : kFrTo32 (ScalarExpr.div (.sub (.num 2) (.num 5)) (.num 3)).run = frTo32 (-1) := by
  rw [(C104 _).2.1]
  congr 1
  simp only [ScalarExpr.value]
  decide +kernel

/-- C102: in an execution of four goroutines in which every one reports, there are four reports and no more. -/
example : ∃ es st, distRun doubled 1 4 (fun i => (i + 1, 5)) (DistRace.init []) es = some (.ok st) ∧ st.successes = 4 ∧ st.successes ≤ 4 := by
  obtain ⟨es, st, h1, h2, -⟩ := C112_refuted_each doubled 1 4 le_rfl (by norm_num) (fun i => (i + 1, 5)) (fun i _ j _ h => Nat.succ.inj h) (fun i hi => by
    have : i + 1 < 2 ^ 32 := by omega
    exact this.trans (by unfold frModulus; norm_num)) []
  exact ⟨es, st, h1, h2, C102_reports doubled 1 4 _ _ es st h1⟩

/-- C39, C64: nobody is corrupt; parties 0 and 1 decide the same value, and party 0's broadcast is certified for its own proposal only. -/
example : ∃ net, MRun (env fun _ => 0) (Finset.range 4) ⟨true, true⟩ (net₀ (Finset.range 4)) honestRun net ∧ Decides net 0 0 [0] ∧ Decides net 1 0 [0] ∧
    Genuine (env fun _ => 0) (Finset.range 4) net.signed (full (fun _ => 0) (.echo 0 0 1 [0])) ∧
    ∀ a, (env fun _ => 0).cert (.echo 0 0 1 a) (full (fun _ => 0) (.echo 0 0 1 [0])) = true → a = ((net.party 0).rounds 0).prop.1 := by
  obtain ⟨net, hr, hp⟩ := exists_run (coin := fun _ => 0) (H := Finset.range 4) (cfg := ⟨true, true⟩) (net₀ := net₀ (Finset.range 4)) honestRun
    (fun n => decide (Decides n 0 0 [0] ∧ Decides n 1 0 [0]) && genuineB (Finset.range 4) n.signed (full (fun _ => 0) (.echo 0 0 1 [0]))) (by decide +kernel)
  rw [Bool.and_eq_true] at hp
  have hg := genuineB_sound (coin := fun _ => 0) hp.2
  have hd := of_decide_eq_true hp.1
  exact ⟨net, hr, hd.1, hd.2, hg, fun a ha => C64_own_value_partial (schemeOk fun _ => 0) rfl hr (by
    intro i q m h
    have : ∀ x ∈ honestRun, ∀ q m, x.2 = .recv q m → q < 4 := by
      intro x hx
      have : honestRun.all (fun x => match x.2 with | .recv q _ => decide (q < 4) | _ => true) = true := by decide +kernel
      have := List.all_eq_true.1 this x hx
      intro q m e
      rw [e] at this
      exact of_decide_eq_true this
    exact this _ h q m rfl) (by decide) hg ha⟩

/-- C36: with the key `5 + 3x + 2x²`, a certificate of two verified shares is made and is not valid; with `5 + 3x` it is. -/
example : (∃ sig, (kyberTbls toySuite (sigKeyGen 1 4 [5, 3, 2]).2 (0, 10)).recover (decimalBytes 2) ([0, 2].map fun i => tblsSign toySuite (i, priEval [5, 3, 2] i) (decimalBytes 2)) 2 4 = some sig ∧
      blsVerify toySuite (pubCommit (sigKeyGen 1 4 [5, 3, 2]).2) (decimalBytes 2) sig = false) ∧
    ∃ sig, (kyberTbls toySuite (sigKeyGen 1 4 [5, 3, 0]).2 (0, 8)).recover (decimalBytes 2) ([0, 2].map fun i => tblsSign toySuite (i, priEval [5, 3, 0] i) (decimalBytes 2)) 2 4 = some sig ∧
      blsVerify toySuite (pubCommit (sigKeyGen 1 4 [5, 3, 0]).2) (decimalBytes 2) sig = true := by
  constructor
  · obtain ⟨sig, h1, h2⟩ := C36_degenerate_key_partial toySuite 1 4 le_rfl [5, 3, 2] rfl (0, 10) 2 ([0, 2].map fun i => tblsSign toySuite (i, priEval [5, 3, 2] i) (decimalBytes 2)) [] le_rfl
      (by decide +kernel) (by decide +kernel)
    rw [List.append_nil] at h1
    refine ⟨sig, h1, ?_⟩
    rw [Bool.eq_false_iff]
    intro h
    rcases h2.1 h with h | h
    · exact absurd h (by decide +kernel)
    · exact absurd h (by decide +kernel)
  · obtain ⟨sig, h1, h2⟩ := C36_degenerate_key_partial toySuite 1 4 le_rfl [5, 3, 0] rfl (0, 8) 2 ([0, 2].map fun i => tblsSign toySuite (i, priEval [5, 3, 0] i) (decimalBytes 2)) [] le_rfl
      (by decide +kernel) (by decide +kernel)
    rw [List.append_nil] at h1
    exact ⟨sig, h1, h2.2 (Or.inl (by decide +kernel))⟩

end DyCAPS
