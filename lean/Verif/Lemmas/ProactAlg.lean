import Verif.Lemmas.ProactOrder
import Verif.Props.Proactivize
import Verif.Spec.RefreshRun

/-! A run in which nobody reveals a polynomial with root `t` satisfies the assumptions of the invariant. -/

set_option linter.unusedSectionVars false

namespace DyCAPS

open Polynomial

section
variable {G1 G2 GT : Type} [AddCommGroup G1] [Module Fr G1] [AddCommGroup G2] [Module Fr G2] [AddCommGroup GT] [Module Fr GT]
variable [DecidableEq G1] [DecidableEq GT]
variable {codec : PointCodec G1} {pp : Pairing Fr G1 G2 GT} {tb : Tbls} {t : Fr} {p0 : Party G1 G2} {b : ℕ → ℕ → Fr} {q : ℕ → ℕ → ℕ → Fr}
  {J : List ℕ} {rep : ℕ → CommitRep} {w : PEvent → Fr[X]} {evs : List PEvent}

theorem opening_or_reveals (hp : p0.Setup pp t) (hF : 1 ≤ p0.F) (f : List Fr) (wp : Fr[X]) (x v : Fr)
    (h : checkProofSingle pp p0.kzg (polyVal f t • pp.g1) (wp.eval t • pp.g1) x v = .ok true) :
    v = polyVal f x ∨ OpeningReveals t f wp x v := by
  by_cases hz : polyOf f - C v - wp * (X - C x) = 0
  · left
    have := congrArg (eval x) hz
    rw [eval_sub, eval_sub, eval_mul, eval_sub, eval_X, eval_C, eval_C, sub_self, mul_zero, sub_zero, eval_zero, eval_polyOf] at this
    exact (sub_eq_zero.1 this).symm
  · refine Or.inr ⟨hz, ?_⟩
    rw [hp.kzg, checkProofSingle_ok pp t _ (by omega)] at h
    have := of_decide_eq_true (Except.ok.inj h)
    rw [smul_smul, ← sub_smul] at this
    have := smul_g1_inj pp this
    rw [eval_sub, eval_sub, eval_mul, eval_sub, eval_X, eval_C, eval_C, eval_polyOf, this]
    ring

theorem decodeRecover_fields (p : Party G1 G2) (s : UInt32) (d : Bytes) (m : RecoverMsg G1) (h : decodeRecover codec p s d = .ok m) :
    m.x = (s + 1).toNat ∧ m.k = (unmarshalD (⟨0, [], [], []⟩ : PRecover) d).index.toNat ∧
    m.v = (frFrom32 0 (copy32 (unmarshalD (⟨0, [], [], []⟩ : PRecover) d).v)).1 ∧
    codec.dec (unmarshalD (⟨0, [], [], []⟩ : PRecover) d).w = some m.w := by
  unfold decodeRecover at h
  simp only at h
  unfold PointCodec.decode! at h
  cases hd : codec.dec (unmarshalD (⟨0, [], [], []⟩ : PRecover) d).w with
  | none => rw [hd] at h; cases h
  | some W =>
    rw [hd] at h
    simp only [Go.ok_bind] at h
    split at h
    · cases h; exact ⟨rfl, rfl, rfl, rfl⟩
    · cases h

theorem phyp_or_reveals (hp : p0.Setup pp t) (hF : 1 ≤ p0.F) (hN : 3 * p0.F + 1 ≤ p0.N) (hr : 2 * p0.F + 1 < frModulus)
    (halg : RunAlg codec pp t p0 q rep w evs) (hJ : NamesJ J evs) :
    (PHyp codec pp t p0 b q J evs ∧ ∀ j d, PEvent.commit j (some d) ∈ evs → ∀ row row',
      verifyCommit codec pp p0 row (unmarshalD (⟨[]⟩ : PCommit) d) = .ok (row', true) → biVal (q j) p0.F (2 * p0.F) 0 0 = 0) ∨
    RunReveals t p0 b q J rep w evs := by
  by_cases hrev : RunReveals t p0 b q J rep w evs
  · exact Or.inr hrev
  left
  unfold RunReveals at hrev
  push Not at hrev
  obtain ⟨r1, r2, r3⟩ := hrev
  have hc : ∀ j d, PEvent.commit j (some d) ∈ evs → ∀ row row', verifyCommit codec pp p0 row (unmarshalD (⟨[]⟩ : PCommit) d) = .ok (row', true) →
      CommitsTo pp t p0.F p0.N (q j) row' ∧ biVal (q j) p0.F (2 * p0.F) 0 0 = 0 := by
    intro j d hm row row' hv
    obtain ⟨a1, a2⟩ := halg.commits j d hm
    rcases C26_zero_sharing codec pp t p0 hp hF hN hr row row' _ hv (rep j) (q j) a1 a2 with h | h
    · exact h
    · exact absurd h (r1 j d hm)
  refine ⟨⟨fun j d hm row row' hv => (hc j d hm row row' hv).1, hJ, ?_, ?_⟩, fun j d hm row row' hv => (hc j d hm row row' hv).2⟩
  · intro s d hm m hd hchk
    obtain ⟨e1, e2, e3, e4⟩ := decodeRecover_fields p0 s d m hd
    have hW := halg.recover s d hm _ e4
    rw [hW] at hchk
    rcases opening_or_reveals hp hF _ _ _ _ hchk with h | h
    · exact h
    · rw [e1, e2, e3] at h
      exact absurd h (r2 s d hm)
  · intro s d hm W hd v hv hchk
    have hW := halg.dist s d hm _ hd
    rw [hW] at hchk
    rcases opening_or_reveals hp hF _ _ _ _ hchk with h | h
    · rw [h, polyVal_sliceX]
    · rw [hv] at h
      exact absurd h (r3 s d hm)

end

end DyCAPS
