import Verif.Lemmas.ProactHonest
import Verif.Props.Setup

/-!
# C120: what key generation prints
-/

namespace DyCAPS

/-! ## A reader of the log -/

/-- The scalars in a log, in order. -/
def loggedScalars : List KeyLogLine → List Fr
  | [] => []
  | .heading _ :: l => loggedScalars l
  | .value v :: l => v :: loggedScalars l

/-- What somebody does who has the log and knows the threshold `t` only: take the first half of the scalars and the second half, and interpolate each through the points `1, …, t` with the function the
repository has for it. -/
def keysFromLog (t : ℕ) (log : List KeyLogLine) : Go (List Fr × List Fr) := do
  let vs := loggedScalars log
  let old ← lagrangeInterpolate (t - 1) (firstIndices t) (vs.take (vs.length / 2))
  let new ← lagrangeInterpolate (t - 1) (firstIndices t) (vs.drop (vs.length / 2))
  pure (old, new)

theorem loggedScalars_append (a b : List KeyLogLine) : loggedScalars (a ++ b) = loggedScalars a ++ loggedScalars b := by
  induction a with
  | nil => rfl
  | cons x l ih => cases x <;> simp [loggedScalars, ih]

theorem loggedScalars_map (l : List Fr) : loggedScalars (l.map .value) = l := by
  induction l with
  | nil => rfl
  | cons x l ih => simp [loggedScalars, ih]

theorem loggedScalars_log (N : ℕ) (coeffs coeffsNew : List Fr) :
    loggedScalars (genCoefficientsLog N coeffs coeffsNew) = (List.range N).map (priEval coeffs) ++ (List.range N).map (priEval coeffsNew) := by
  have h : ∀ c : List Fr, ((List.range N).map fun i => KeyLogLine.value (priEval c i)) = ((List.range N).map (priEval c)).map .value := by simp
  rw [genCoefficientsLog, h, h, loggedScalars_append]
  simp only [loggedScalars, loggedScalars_map]

theorem interpolate_shares (N t : ℕ) (ht : 1 ≤ t) (hN : t ≤ N) (hr : t < frModulus) (c : List Fr) (hc : c.length = t) :
    lagrangeInterpolate (t - 1) (firstIndices t) ((List.range N).map (priEval c)) = .ok c := by
  obtain ⟨d, rfl⟩ : ∃ d, t = d + 1 := ⟨t - 1, by omega⟩
  apply lagrangeInterpolate_eq_of_eval _ _ _ c (by rw [firstIndices_length]) (by simp; omega) (distinct_firstIndices _ hr) (by omega)
  intro k hk
  rw [firstIndices_getD _ _ (by omega), getD_map_range _ _ _ _ (by omega), priEval_eq, eval_polyOf]

/-! ## C120 -/

/-- **C120 fails.** Whoever has the log of the key generation has the keys of both committees: for every committee of at least `2f+1` parties and all keys, the coefficients computed from the log alone are
those in the two files. -/
theorem C120_refuted (N f : ℕ) (hN : 2 * f + 1 ≤ N) (hf : 2 * f + 1 < 2 ^ 63) (coeffs coeffsNew : List Fr) (h : coeffs.length = 2 * f + 1) (h' : coeffsNew.length = 2 * f + 1) :
    keysFromLog (2 * f + 1) (genCoefficientsLog N coeffs coeffsNew) = .ok (coeffs, coeffsNew) := by
  have hr : 2 * f + 1 < frModulus := lt_trans hf (by decide +kernel)
  rw [keysFromLog, loggedScalars_log]
  have hl : ((List.range N).map (priEval coeffs) ++ (List.range N).map (priEval coeffsNew)).length / 2 = ((List.range N).map (priEval coeffs)).length := by simp; omega
  simp only [hl, List.take_left, List.drop_left, interpolate_shares N _ (by omega) hN hr _ h, interpolate_shares N _ (by omega) hN hr _ h']
  rfl

/-- **C120.** What holds: for `N ≤ 2f` parties the log fits every pair of secret keys. Missing from the full statement: the committees the program is for have `N = 3f+1` parties. -/
theorem C120_few_partial (N f : ℕ) (hN : N ≤ 2 * f) (hN' : N ≤ 65536) (coeffs coeffsNew : List Fr) (h : coeffs.length = 2 * f + 1) (h' : coeffsNew.length = 2 * f + 1) (s s' : Fr) :
    ∃ other otherNew : List Fr, other.length = 2 * f + 1 ∧ otherNew.length = 2 * f + 1 ∧ other.getD 0 0 = s ∧ otherNew.getD 0 0 = s' ∧
      genCoefficientsLog N other otherNew = genCoefficientsLog N coeffs coeffsNew := by
  have key : ∀ (c : List Fr) (s : Fr), c.length = 2 * f + 1 → ∃ o : List Fr, o.length = 2 * f + 1 ∧ o.getD 0 0 = s ∧ ∀ i < N, priEval o i = priEval c i := by
    intro c s hc
    obtain ⟨o, ho, hs, hi⟩ := C74_shares_hide_partial (1 : Fr) N f hN' c hc (Finset.range N) (by simpa using hN) s
    refine ⟨o, ho, hs, fun i hi' => ?_⟩
    have := hi i (by simpa using hi') hi'
    simpa [sigKeyGen, hi'] using this
  obtain ⟨o, ho, hs, hi⟩ := key coeffs s h
  obtain ⟨o', ho', hs', hi'⟩ := key coeffsNew s' h'
  refine ⟨o, o', ho, ho', hs, hs', ?_⟩
  have e1 : ((List.range N).map fun i => KeyLogLine.value (priEval o i)) = (List.range N).map fun i => KeyLogLine.value (priEval coeffs i) :=
    List.map_congr_left fun i hi1 => by rw [hi i (by simpa using hi1)]
  have e2 : ((List.range N).map fun i => KeyLogLine.value (priEval o' i)) = (List.range N).map fun i => KeyLogLine.value (priEval coeffsNew i) :=
    List.map_congr_left fun i hi1 => by rw [hi' i (by simpa using hi1)]
  rw [genCoefficientsLog, genCoefficientsLog, e1, e2]

/-- Four parties, `f = 1`, keys `5 + 3x + 2x²` and `1 + x + x²`: the lines under the headings are the shares, not the coefficients, and the coefficients can be computed from them. With two parties other keys fit
the same log. -/
example : genCoefficientsLog 4 [5, 3, 2] [1, 1, 1] =
      [.heading false, .value 10, .value 19, .value 32, .value 49, .heading true, .value 3, .value 7, .value 13, .value 21] ∧
    keysFromLog 3 (genCoefficientsLog 4 [5, 3, 2] [1, 1, 1]) = .ok ([5, 3, 2], [1, 1, 1]) ∧
    genCoefficientsLog 2 [5, 3, 2] [1, 1, 1] = genCoefficientsLog 2 [7, 0, 3] [3, -2, 2] := by
  decide +kernel

end DyCAPS
