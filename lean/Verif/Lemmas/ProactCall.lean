import Verif.Lemmas.ProactEffect
import Verif.Lemmas.TblsRun

/-! What a party gives to MVBA, whatever messages it has got. -/

set_option linter.unusedSectionVars false

namespace DyCAPS

section
variable {G1 G2 GT : Type} [AddCommGroup G1] [Module Fr G1] [AddCommGroup G2] [Module Fr G2] [AddCommGroup GT] [Module Fr GT]
variable [DecidableEq G1] [DecidableEq GT]
variable {codec : PointCodec G1} {pp : Pairing Fr G1 G2 GT} {tb : Tbls}

/-- The combined signatures belong to different resharers; a proposal has `F+1` of them. -/
structure NamesInv (F N : ℕ) (st : PState G1) (outs : List POut) : Prop where
  held : ∀ k m, st.held k = some m → 1 ≤ k ∧ k ≤ N
  inc : ∀ z ∈ st.mvbaIn, st.combined z.1 = true ∧ 1 ≤ z.1 ∧ z.1 ≤ N ∧ z.2.length < 2 ^ 32
  nodup : (st.mvbaIn.map (·.1)).Nodup
  few : st.mvbaSent = false → st.mvbaIn.length ≤ F
  what : ∀ m, POut.mvba m ∈ outs → ∃ L : List (ℕ × Bytes), m = ⟨L.map (·.2), L.map fun z => UInt32.ofNat z.1⟩ ∧ L.length = F + 1 ∧ (L.map (·.1)).Nodup ∧
    ∀ z ∈ L, 1 ≤ z.1 ∧ z.1 ≤ N ∧ z.2.length < 2 ^ 32

theorem PRun.namesInv (hrec : ∀ m s a n r, tb.recover m s a n = some r → r.length < 2 ^ 32) {p0 p : Party G1 G2} {c : DealerCoins} {evs : List PEvent} {outs : List POut} {st : PState G1}
    (h : PRun codec pp tb p0 (PState.init p0 c) evs outs p st) : p.F = p0.F ∧ p.N = p0.N ∧ NamesInv p0.F p0.N st outs := by
  have hsig : ∀ N F k l, (combinedSig tb N F k l).length < 2 ^ 32 := by
    intro N F k l
    unfold combinedSig
    cases hr : tb.recover (decimalBytes k) (l ++ List.replicate (N + 1 - l.length) []) (2 * F) N with
    | none => simp
    | some r => exact hrec _ _ _ _ _ hr
  induction h with
  | nil => exact ⟨rfl, rfl, (fun k m h => by simp [PState.init] at h), (fun z hz => by simp [PState.init] at hz), by simp [PState.init], by simp [PState.init], by simp⟩
  | snoc hr hs ih =>
    rename_i evs1 outs1 p1 st1 ev p' st' out
    obtain ⟨eF, eN, ih⟩ := ih
    have hheld : ∀ k (o : Option (RecoverMsg G1)), (o.isSome → 1 ≤ k ∧ k ≤ p0.N) → ∀ k' m, upd st1.held k o k' = some m → 1 ≤ k' ∧ k' ≤ p0.N := by
      intro k o ho k' m hm
      unfold upd at hm
      split at hm
      · rename_i e; rw [e]; exact ho (by rw [hm]; rfl)
      · exact ih.held k' m hm
    have hadd : ∀ {k sig}, st1.combined k = false → 1 ≤ k ∧ k ≤ p0.N → sig.length < 2 ^ 32 →
        (∀ z ∈ st1.mvbaIn ++ [(k, sig)], upd st1.combined k true z.1 = true ∧ 1 ≤ z.1 ∧ z.1 ≤ p0.N ∧ z.2.length < 2 ^ 32) ∧ ((st1.mvbaIn ++ [(k, sig)]).map (·.1)).Nodup := by
      intro k sig hk hk1 hs
      refine ⟨fun z hz => ?_, ?_⟩
      · rcases List.mem_append.1 hz with hz | hz
        · refine ⟨?_, (ih.inc z hz).2⟩
          unfold upd
          split
          · rfl
          · exact (ih.inc z hz).1
        · rw [List.mem_singleton.1 hz]
          exact ⟨by simp [upd], hk1.1, hk1.2, hs⟩
      · rw [List.map_append, List.nodup_append]
        refine ⟨ih.nodup, by simp, fun a ha b hb e => ?_⟩
        obtain ⟨z, hz, rfl⟩ := List.mem_map.1 ha
        have hb := List.mem_singleton.1 hb
        have := (ih.inc z hz).1
        rw [e, hb, hk] at this
        cases this
    cases step_effect hs with
    | reshare h1 h2 hv =>
      refine ⟨eF, eN, ih.held, ih.inc, ih.nodup, ih.few, fun m hm => ?_⟩
      exact ih.what m ((List.mem_append.1 hm).resolve_right (vote_no_mvba _ _ _ _ _ hv m))
    | pass h h1 h2 h3 h4 h5 =>
      exact ⟨eF, eN, hheld _ _ fun _ => ⟨h1, eN ▸ h2⟩, ih.inc, ih.nodup, ih.few, by rw [List.append_nil]; exact ih.what⟩
    | handleBad h1 h2 h3 => exact ⟨eF, eN, hheld _ _ (fun h => by simp at h), ih.inc, ih.nodup, ih.few, by rw [List.append_nil]; exact ih.what⟩
    | handleOk h1 h2 h3 hQ h4 => exact ⟨eF, eN, hheld _ _ (fun h => by simp at h), ih.inc, ih.nodup, ih.few, by rw [List.append_nil]; exact ih.what⟩
    | handleComb h1 h2 h3 hQ h4 h5 h6 =>
      rename_i k m fr Q
      have := hadd (sig := combinedSig tb p1.N p1.F k (st1.SSig k ++ [m.sigShare])) h4 (ih.held _ _ h2) (hsig _ _ _ _)
      refine ⟨eF, eN, hheld _ _ (fun h => by simp at h), this.1, this.2, fun hs' => ?_, by rw [List.append_nil]; exact ih.what⟩
      have hs' : st1.mvbaSent = false := hs'
      rw [eF] at h6
      show (st1.mvbaIn ++ [_]).length ≤ _
      rw [List.length_append, List.length_singleton]
      by_contra hc
      exact h6 ⟨hs', by omega⟩
    | handleCall h1 h2 h3 hQ h4 h5 h6 h7 =>
      rename_i k m fr Q
      have := hadd (sig := combinedSig tb p1.N p1.F k (st1.SSig k ++ [m.sigShare])) h4 (ih.held _ _ h2) (hsig _ _ _ _)
      refine ⟨eF, eN, hheld _ _ (fun h => by simp at h), this.1, this.2, (fun hs' => by cases hs'), fun m hm => ?_⟩
      rcases List.mem_append.1 hm with hm | hm
      · exact ih.what m hm
      · refine ⟨_, POut.mvba.inj (List.mem_singleton.1 hm), ?_, this.2, fun z hz => (this.1 z hz).2⟩
        have := ih.few h6
        rw [eF] at h7
        rw [List.length_append, List.length_singleton]
        omega
    | distFull =>
      exact ⟨eF, eN, ih.held, ih.inc, ih.nodup, ih.few, fun m hm => ih.what m ((List.mem_append.1 hm).resolve_right (by simp))⟩
    | _ => exact ⟨eF, eN, ih.held, ih.inc, ih.nodup, ih.few, by rw [List.append_nil]; exact ih.what⟩

/-- Every proposal names `F+1` different parties. -/
theorem PRun.proposal (hrec : ∀ m s a n r, tb.recover m s a n = some r → r.length < 2 ^ 32) {p0 p : Party G1 G2} (hF : p0.F ≤ 2 ^ 20) (hN : p0.N < 2 ^ 32) {c : DealerCoins} {evs : List PEvent}
    {outs : List POut} {st : PState G1} (h : PRun codec pp tb p0 (PState.init p0 c) evs outs p st) {m : PMVBAIN} (hm : POut.mvba m ∈ outs) :
    ((unmarshalD (⟨[], []⟩ : PMVBAIN) (marshal m)).j.map (·.toNat)).length = p0.F + 1 ∧ ((unmarshalD (⟨[], []⟩ : PMVBAIN) (marshal m)).j.map (·.toNat)).Nodup ∧
    ∀ k ∈ (unmarshalD (⟨[], []⟩ : PMVBAIN) (marshal m)).j.map (·.toNat), 1 ≤ k ∧ k ≤ p0.N := by
  obtain ⟨L, rfl, h1, h2, h3⟩ := (h.namesInv hrec).2.2.what m hm
  have e : (L.map fun z => UInt32.ofNat z.1).map (·.toNat) = L.map (·.1) := by
    rw [List.map_map]
    apply List.map_congr_left
    intro z hz
    have := h3 z hz
    show (UInt32.ofNat z.1).toNat = z.1
    rw [UInt32.toNat_ofNat']
    exact Nat.mod_eq_of_lt (by omega)
  rw [unmarshalD, rt_PMVBAIN _ (size_mvba _ p0.F hF (by simp [h1]) (by simp [h1]) ?_)]
  · show ((L.map fun z => UInt32.ofNat z.1).map (·.toNat)).length = _ ∧ ((L.map fun z => UInt32.ofNat z.1).map (·.toNat)).Nodup ∧ ∀ k ∈ (L.map fun z => UInt32.ofNat z.1).map (·.toNat), _
    rw [e]
    refine ⟨by rw [List.length_map, h1], h2, fun k hk => ?_⟩
    obtain ⟨z, hz, rfl⟩ := List.mem_map.1 hk
    exact ⟨(h3 z hz).1, (h3 z hz).2.1⟩
  · intro x hx
    obtain ⟨z, hz, rfl⟩ := List.mem_map.1 hx
    exact (h3 z hz).2.2

end

end DyCAPS
