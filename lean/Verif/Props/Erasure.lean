import Verif.Model.Process
import Verif.Lemmas.RefreshFinish
import Verif.Props.ShareReduce
import Verif.Props.OneCommittee

/-!
# C129: shares of the past

A proactive scheme is secure against an adversary that corrupts ever more members in the course of time only if members forget the shares of the past. `fullShare` is written when a share is received (VSS.go:68,
ProactivizeAndShareDist.go:662) and nowhere else.
-/

set_option linter.unusedSectionVars false

namespace DyCAPS

section
variable {G1 G2 GT : Type} [AddCommGroup G1] [Module Fr G1] [AddCommGroup G2] [Module Fr G2] [AddCommGroup GT] [Module Fr GT]
variable [DecidableEq G1] [DecidableEq GT]

/-- The calls of a member of the old committee, main.go:38-78. -/
theorem oldCommittee_calls : mainCalls "2" "oldCommittee" =
    [.vssShareReceive (asciiBytes "vssshare"), .prepareSend (asciiBytes "shareReduce"), .shareReduceSend (asciiBytes "shareReduce")] := by decide

/-- **C129 (negation).** A client shares `s` and every member of the old committee makes its calls up to the end of the hand-off, sending every member of the next committee its part. The process that has done so still
holds its full share: whoever gets into any `F+1` of these processes afterwards, one after the other, has `s` - whatever the new committee does in the meantime. -/
theorem C129_refuted (codec : PointCodec G1) (sha : Bytes → Bytes) (pp : Pairing Fr G1 G2 GT) (t : Fr) (N F : ℕ) (s : Fr) (c : DealerCoins)
    (hF : 1 ≤ F) (hF' : F ≤ 2 ^ 20) (hN : 3 * F + 1 ≤ N) (hr : N < frModulus) :
    ∃ msgs, clientShare codec pp (newKZG pp t (F + 1)) N F s c = .ok msgs ∧
      (∀ i < N, ∃ p q sent, newParty pp t N F i = .ok p ∧ ProcRun codec sha pp [clientMessage (asciiBytes "vssshare") msgs i] [] [] (mainCalls "2" "oldCommittee") p q sent) ∧
      ∀ q : ℕ → Party G1 G2,
        (∀ i < N, ∃ p sent red evs more, newParty pp t N F i = .ok p ∧
          ProcRun codec sha pp (clientMessage (asciiBytes "vssshare") msgs i :: more) red evs (mainCalls "2" "oldCommittee") p (q i) sent) →
        ∀ R : List ℕ, R.Nodup → R.length = F + 1 → (∀ i ∈ R, i < N) → Reconstructs F s (R.map q) := by
  obtain ⟨msgs, hm, -, b, old, hb, hold, hrec⟩ := C18_honest_sharing codec pp t N F s c hF hF' hN hr
  refine ⟨msgs, hm, ?_, ?_⟩
  · intro i hi
    obtain ⟨h1, h2, h3, h4, h5, p, h6, h7⟩ := hold i hi
    obtain ⟨out, ho, -⟩ := C25_send codec pp t b (old i) h4 h5 (by omega) (by omega)
    refine ⟨p, old i, [out], h6, ?_⟩
    rw [oldCommittee_calls]
    exact .vss (ok := true) (by show some _ = _; rw [← h7]; rfl) (.prepareSend (.shareReduceSend ho .nil))
  · intro q hq R hR hRl hRlt
    have : R.map q = R.map old := by
      apply List.map_congr_left
      intro i hi
      obtain ⟨p, sent, red, evs, more, h1, h2⟩ := hq i (hRlt i hi)
      obtain ⟨-, -, -, -, -, p', h6, h7⟩ := hold i (hRlt i hi)
      rw [h1] at h6
      cases h6
      rw [oldCommittee_calls] at h2
      cases h2 with
      | vss h hr =>
        have e : vssShareReceiveFrom codec pp p (clientMessage (asciiBytes "vssshare") msgs i :: more) = some (vssShareReceive codec pp p (msgs.getD i [])) := rfl
        rw [e, h7] at h
        cases h
        cases hr with
        | prepareSend hr =>
          cases hr with
          | shareReduceSend _ hr =>
            generalize old i = o at hr ⊢
            generalize q i = o' at hr ⊢
            cases hr
            rfl
    rw [this]
    exact hrec R hR hRl hRlt

/-! ### The refresh -/

/-- Taking a ShareDist message does not read the full share; it writes it exactly when it sends Success. -/
theorem shareDistStep_full (codec : PointCodec G1) (pp : Pairing Fr G1 G2 GT) {p p' : Party G1 G2} {st st' : PState G1} {out : List POut} {j : ℕ} {m : PShareDist}
    (h : shareDistStep codec pp p st j m = .ok (p', st', out)) (f : List Fr) :
    ∃ f', shareDistStep codec pp { p with fullShare := f } st j m = .ok ({ p' with fullShare := f' }, st', out) ∧
      ((f' = p'.fullShare ∧ st'.successSent = true) ∨ (f' = f ∧ p' = p ∧ st'.successSent = st.successSent)) := by
  unfold shareDistStep at h ⊢
  rcases hw : codec.decode! m.wB with e | w
  · rw [hw] at h; cases h
  rw [hw] at h
  rcases hk : checkProofSingle pp p.kzg ((st.SCom j).getD 0) w ((p.pid + 1 : ℕ) : Fr) (frFrom32 0 (copy32 m.B)).1 with e | ok
  · simp only [Bind.bind, Except.bind, hk] at h
    cases h
  simp only [Bind.bind, Except.bind, hk, Pure.pure, Except.pure] at h ⊢
  cases ok with
  | false =>
    simp only [Bool.false_eq_true, if_false] at h ⊢
    cases h
    exact ⟨f, rfl, Or.inr ⟨rfl, rfl, rfl⟩⟩
  | true =>
    simp only [if_true] at h ⊢
    split at h
    · rename_i hc
      rw [if_pos hc]
      split at h
      · cases h
      · rename_i full hl
        cases h
        exact ⟨full, rfl, Or.inl ⟨rfl, rfl⟩⟩
    · rename_i hc
      rw [if_neg hc]
      cases h
      exact ⟨f, rfl, Or.inr ⟨rfl, rfl, rfl⟩⟩

/-- A result of a step with another full share put in. -/
def withFull (f : List Fr) (r : Option (Go (Party G1 G2 × PState G1 × List POut))) : Option (Go (Party G1 G2 × PState G1 × List POut)) :=
  r.map fun g => g.map fun x => ({ x.1 with fullShare := f }, x.2)

/-- The Refresh loop neither reads nor writes the full share. -/
theorem refreshStep_withFull (p : Party G1 G2) (st : PState G1) (f : List Fr) :
    refreshStep { p with fullShare := f } st = (refreshStep p st).map fun g => g.map fun x => ({ x.1 with fullShare := f }, x.2) := by
  unfold refreshStep
  split
  · rfl
  · rfl
  · dsimp only
    split <;> rfl
  · rename_i j rest Qsum CQsum hr
    dsimp only
    split
    · rfl
    split
    · split
      · cases commitToPoly p.kzg (st.Q j) <;> rfl
      · rfl
    · split <;> rfl

/-- The events that do not take a ShareDist message neither read nor write the full share. -/
theorem proactStep_withFull (codec : PointCodec G1) (pp : Pairing Fr G1 G2 GT) (tb : Tbls) (p : Party G1 G2) (st : PState G1) (f : List Fr) (ev : PEvent)
    (h1 : ∀ s d, ev ≠ .shareDist s d) (h2 : ∀ j d, ev ≠ .dist j d) : proactStep codec pp tb { p with fullShare := f } st ev = withFull f (proactStep codec pp tb p st ev) := by
  cases ev with
  | shareDist s d => exact absurd rfl (h1 s d)
  | dist j d => exact absurd rfl (h2 j d)
  | commit j data =>
    simp only [proactStep]
    split
    · cases data with
      | none => rfl
      | some d =>
        show some (do let x ← verifyCommit codec pp p (st.CQ j) (unmarshalD (⟨[]⟩ : PCommit) d); _) = _
        dsimp only
        cases verifyCommit codec pp p (st.CQ j) (unmarshalD (⟨[]⟩ : PCommit) d) <;> rfl
    · rfl
  | reshare s d =>
    simp only [proactStep]
    split
    · rfl
    split
    · rfl
    split
    · show some (do let x ← vote codec pp tb p _ _ _; _) = _
      cases vote codec pp tb p (st.CQ (s + 1).toNat) (s + 1).toNat (unmarshalD (⟨[], []⟩ : PReshare) d) <;> rfl
    · rfl
  | vote j d =>
    simp only [proactStep]
    split
    · show some (do let x ← vote codec pp tb p _ _ _; _) = _
      cases vote codec pp tb p (st.CQ j) j (unmarshalD (⟨[], []⟩ : PReshare) d) <;> rfl
    · rfl
  | takeRecover s d =>
    simp only [proactStep]
    split
    · rfl
    · show some (do let x ← decodeRecover codec p s d; _) = _
      cases decodeRecover codec p s d <;> rfl
  | passRecover =>
    simp only [proactStep]
    split
    · rfl
    · split <;> rfl
  | handleRecover k =>
    simp only [proactStep]
    split
    · rfl
    split
    · rfl
    · rename_i m hm
      show some (do let x ← handleRecover pp tb p st k m; _) = _
      cases handleRecover pp tb p st k m <;> rfl
  | mvba v =>
    simp only [proactStep]
    split <;> rfl
  | refresh =>
    simp only [proactStep, refreshStep_withFull]
    cases refreshStep p st with
    | none => rfl
    | some g => cases g <;> rfl
  | newCommit j data =>
    simp only [proactStep]
    split
    · split
      · rename_i CQsum hd
        cases data with
        | none => rfl
        | some d =>
          show some (do let x ← newCommitStep codec p st CQsum j d; _) = _
          dsimp only
          cases newCommitStep codec p st CQsum j d <;> rfl
      · rfl
    · rfl
  | success =>
    simp only [proactStep]
    split <;> rfl

/-- One step does not read the full share; it writes it when it sends Success, and otherwise keeps it. -/
theorem proactStep_full (codec : PointCodec G1) (pp : Pairing Fr G1 G2 GT) (tb : Tbls) {p p' : Party G1 G2} {st st' : PState G1} {out : List POut} {ev : PEvent}
    (h : proactStep codec pp tb p st ev = some (.ok (p', st', out))) (f : List Fr) :
    ∃ f', proactStep codec pp tb { p with fullShare := f } st ev = some (.ok ({ p' with fullShare := f' }, st', out)) ∧
      ((f' = p'.fullShare ∧ st'.successSent = true) ∨ (f' = f ∧ p'.fullShare = p.fullShare ∧ st'.successSent = st.successSent)) := by
  by_cases h1 : ∃ s d, ev = .shareDist s d
  · obtain ⟨s, d, rfl⟩ := h1
    simp only [proactStep] at h ⊢
    split at h
    · split at h
      · cases h
      split at h
      · cases h
      rename_i g1 g2
      rw [if_neg g1, if_neg g2]
      split at h
      · rename_i g3
        rw [if_pos g3]
        obtain ⟨f', a, b⟩ := shareDistStep_full codec pp (Option.some.inj h) f
        refine ⟨f', by rw [a], ?_⟩
        rcases b with b | ⟨b1, b2, b3⟩
        · exact Or.inl b
        · exact Or.inr ⟨b1, by rw [b2], b3⟩
      · rename_i g3
        rw [if_neg g3]
        cases h
        exact ⟨f, rfl, Or.inr ⟨rfl, rfl, rfl⟩⟩
    · cases h
  by_cases h2 : ∃ j d, ev = .dist j d
  · obtain ⟨j, d, rfl⟩ := h2
    simp only [proactStep] at h ⊢
    split at h
    · split at h
      · rename_i g1
        rw [if_pos g1]
        obtain ⟨f', a, b⟩ := shareDistStep_full codec pp (Option.some.inj h) f
        refine ⟨f', by rw [a], ?_⟩
        rcases b with b | ⟨b1, b2, b3⟩
        · exact Or.inl b
        · exact Or.inr ⟨b1, by rw [b2], b3⟩
      · cases h
    · cases h
  refine ⟨f, ?_, Or.inr ⟨rfl, ?_⟩⟩
  · rw [proactStep_withFull codec pp tb p st f ev (fun s d e => h1 ⟨s, d, e⟩) (fun j d e => h2 ⟨j, d, e⟩), h]
    rfl
  · cases step_effect h with
    | distFull k => cases k with
      | now => exact absurd ⟨_, _, rfl⟩ h1
      | later => exact absurd ⟨_, _, rfl⟩ h2
    | _ => exact ⟨rfl, rfl⟩

/-- The same messages and random choices lead a refresh to the same end, whatever full share the member held before. -/
theorem refresh_forgets (codec : PointCodec G1) (pp : Pairing Fr G1 G2 GT) (tb : Tbls) (p : Party G1 G2) (c : DealerCoins) {evs : List PEvent} {outs : List POut} {p' : Party G1 G2} {st : PState G1}
    (h : PRun codec pp tb p (PState.init p c) evs outs p' st) (hf : st.finished = true) (f : List Fr) :
    PRun codec pp tb { p with fullShare := f } (PState.init { p with fullShare := f } c) evs outs p' st := by
  have key : ∀ {evs outs p' st}, PRun codec pp tb p (PState.init p c) evs outs p' st →
      ∃ f', PRun codec pp tb { p with fullShare := f } (PState.init { p with fullShare := f } c) evs outs { p' with fullShare := f' } st ∧ (st.successSent = true → f' = p'.fullShare) := by
    intro evs outs p' st h
    induction h with
    | nil => exact ⟨f, .nil, fun h => by cases h⟩
    | snoc h hs ih =>
      obtain ⟨f1, r1, r2⟩ := ih
      obtain ⟨f2, s1, s2⟩ := proactStep_full codec pp tb hs f1
      refine ⟨f2, .snoc r1 s1, fun hh => ?_⟩
      rcases s2 with ⟨a, -⟩ | ⟨a, b, d⟩
      · exact a
      · rw [a, b]
        exact r2 (by rw [← d]; exact hh)
  obtain ⟨f', r1, r2⟩ := key h
  rw [r2 (h.finished_sent hf)] at r1
  exact r1

/-- Receiving ShareReduce reads neither share and overwrites the reduced one. -/
theorem receive_forgets (codec : PointCodec G1) (pp : Pairing Fr G1 G2 GT) (p p' : Party G1 G2) (red : List (UInt32 × Bytes))
    (h : shareReduceReceive codec pp p SRState.init red = .ok (some p')) (f r : List Fr) :
    p'.fullShare = p.fullShare ∧ shareReduceReceive codec pp { p with fullShare := f, reducedShare := r } SRState.init red = .ok (some { p' with fullShare := f }) := by
  have key : ∀ red st, shareReduceReceive codec pp p st red = .ok (some p') → p'.fullShare = p.fullShare ∧
      shareReduceReceive codec pp { p with fullShare := f, reducedShare := r } st red = .ok (some { p' with fullShare := f }) := by
    intro red
    induction red with
    | nil => intro st h; cases h
    | cons m rest ih =>
      intro st h
      simp only [shareReduceReceive] at h ⊢
      have e : shareReduceStep codec pp { p with fullShare := f, reducedShare := r } st m = shareReduceStep codec pp p st m := rfl
      rw [e]
      rcases hk : shareReduceStep codec pp p st m with e | ⟨st', o⟩
      · rw [hk] at h; cases h
      rw [hk] at h
      cases o with
      | some share =>
        cases h
        exact ⟨rfl, rfl⟩
      | none => exact ih st' h
  exact key red _ h

/-- Receiving ShareReduce writes the reduced share only. -/
theorem receive_keeps (codec : PointCodec G1) (pp : Pairing Fr G1 G2 GT) (p p' : Party G1 G2) (red : List (UInt32 × Bytes))
    (h : shareReduceReceive codec pp p SRState.init red = .ok (some p')) : p' = { p with reducedShare := p'.reducedShare } := by
  have key : ∀ red st, shareReduceReceive codec pp p st red = .ok (some p') → p' = { p with reducedShare := p'.reducedShare } := by
    intro red
    induction red with
    | nil => intro st h; cases h
    | cons m rest ih =>
      intro st h
      simp only [shareReduceReceive] at h
      rcases hk : shareReduceStep codec pp p st m with e | ⟨st', o⟩
      · rw [hk] at h; cases h
      rw [hk] at h
      cases o with
      | some share =>
        cases h
        rfl
      | none => exact ih st' h
  exact key red _ h

/-- **C129 (negation, in place).** A member that holds a full share with its witnesses renews it in place. Its process keeps the commitments and the witnesses of the former share (they are written by
`VSSShareReceive` only), and these accept the former share and no other list of `2F+1` coefficients: what is in memory afterwards still determines the former share. -/
theorem C129_witnesses_stay (codec : PointCodec G1) (sha : Bytes → Bytes) (pp : Pairing Fr G1 G2 GT) (t : Fr) (b : ℕ → ℕ → Fr) (vss : List PMessage) (red : List (UInt32 × Bytes)) (evs : List PEvent) (ID ID' : Bytes)
    (p p' : Party G1 G2) (sent : List (List Bytes)) (hp : p.Setup pp t) (hF : 1 ≤ p.F) (hr : 2 * p.F + 1 < frModulus) (hb : HoldsFull pp t b p)
    (h : ProcRun codec sha pp vss red evs [.shareReduceReceive ID, .proactivize ID'] p p' sent) (f : List Fr) (hf : f.length = 2 * p.F + 1) :
    (∀ k, 1 ≤ k → k ≤ 2 * p.F + 1 → checkProofSingle pp p'.kzg (p'.proof.contents.getD k (PiContent.zero k)).CBj (p'.witness.getD (k - 1) 0) ((p'.pid + 1 : ℕ) : Fr) (polyVal f (k : Fr)) = .ok true) ↔
      f = p.fullShare := by
  have e : p'.kzg = p.kzg ∧ p'.proof = p.proof ∧ p'.witness = p.witness ∧ p'.pid = p.pid := by
    cases h with
    | shareReduceReceive h hr =>
      cases hr with
      | proactivize tb c h2 hf hr =>
        cases hr
        rw [h2.static, receive_keeps codec pp p _ red h]
        exact ⟨rfl, rfl, rfl, rfl⟩
  rw [e.1, e.2.1, e.2.2.1, e.2.2.2, hp.kzg]
  have key : ∀ k, 1 ≤ k → k ≤ 2 * p.F + 1 → ∀ v, checkProofSingle pp (newKZG pp t (p.F + 1)) (p.proof.contents.getD k (PiContent.zero k)).CBj (p.witness.getD (k - 1) 0) ((p.pid + 1 : ℕ) : Fr) v =
      .ok (decide (v = polyVal p.fullShare (k : Fr))) := by
    intro k h1 h2 v
    obtain ⟨C, W, c1, c2, c3⟩ := C14_completeness pp t (p.F + 1) (by omega) (sliceX b p.F (2 * p.F) (k : Fr)) (by intro h0; have := congrArg List.length h0; rw [sliceX_length] at this; simp at this)
      (by rw [sliceX_length]) ((p.pid + 1 : ℕ) : Fr) v
    rw [hb.coms k h1 h2] at c1
    rw [hb.wits k h1 h2] at c2
    cases c1
    cases c2
    rw [c3, hb.share, polyVal_sliceX, polyVal_sliceY]
  constructor
  · intro hc
    have hx : (firstIndices (2 * p.F + 1) : List Fr).length = 2 * p.F + 1 := firstIndices_length _
    have hne : DistinctUpTo (2 * p.F) (firstIndices (2 * p.F + 1) : List Fr) := by
      intro i hi j hj hij h0
      rw [firstIndices_getD _ _ (by omega), firstIndices_getD _ _ (by omega)] at h0
      have := congrArg ZMod.val h0
      rw [ZMod.val_natCast_of_lt (by omega), ZMod.val_natCast_of_lt (by omega)] at this
      omega
    obtain ⟨res, -, -, -, hu⟩ := C10_interpolates (2 * p.F) (firstIndices (2 * p.F + 1)) ((firstIndices (2 * p.F + 1)).map (polyVal p.fullShare)) hx.ge (by rw [List.length_map, hx]) hne
    have hy : ∀ k ≤ 2 * p.F, ((firstIndices (2 * p.F + 1)).map (polyVal p.fullShare)).getD k 0 = polyVal p.fullShare ((k + 1 : ℕ) : Fr) := by
      intro k hk
      rw [List.getD_eq_getElem _ _ (by rw [List.length_map, hx]; omega), List.getElem_map, ← List.getD_eq_getElem _ 0 (by rw [hx]; omega), firstIndices_getD _ _ (by omega)]
    rw [hu f hf, hu p.fullShare (by rw [hb.share, sliceY_length])]
    · intro k hk
      rw [hy k hk, firstIndices_getD _ _ (by omega)]
    · intro k hk
      have := hc (k + 1) (by omega) (by omega)
      rw [key _ (by omega) (by omega), Except.ok.injEq, decide_eq_true_eq] at this
      rw [hy k hk, firstIndices_getD _ _ (by omega), this]
  · rintro rfl k h1 h2
    rw [key k h1 h2]
    simp

/-- **C129 (part that holds).** A committee that renews its own shares: a member that has received its part and has completed the refresh has overwritten its former shares. Had it held any other full and reduced share
`f`, `r` before, with the same commitments and witnesses, the same messages and random choices would have led to the same state in every field. The commitments and witnesses stay (`C129_witnesses_stay`). -/
theorem C129_in_place_partial (codec : PointCodec G1) (sha : Bytes → Bytes) (pp : Pairing Fr G1 G2 GT) (vss : List PMessage) (red : List (UInt32 × Bytes)) (evs : List PEvent) (ID ID' : Bytes) (p p' : Party G1 G2)
    (sent : List (List Bytes)) (h : ProcRun codec sha pp vss red evs [.shareReduceReceive ID, .proactivize ID'] p p' sent) (f r : List Fr) :
    ProcRun codec sha pp vss red evs [.shareReduceReceive ID, .proactivize ID'] { p with fullShare := f, reducedShare := r } p' sent := by
  cases h with
  | shareReduceReceive h hr =>
    cases hr with
    | proactivize tb c h2 hf hr =>
      cases hr
      exact .shareReduceReceive (receive_forgets codec pp p _ red h f r).2 (.proactivize tb c (refresh_forgets codec pp tb _ c h2 hf f) hf .nil)

end

section Examples
open Toy

/-- Four members, secret 42: members 0 and 3 have handed off; their processes still give 42. -/
example (sha : Bytes → Bytes) : ∃ msgs : List Bytes, ∀ q : ℕ → Party Fr Fr,
    (∀ i < 4, ∃ p sent red evs more, newParty (Pairing.dlog Fr) 7 4 1 i = .ok p ∧
      ProcRun frCodec sha (Pairing.dlog Fr) (clientMessage (asciiBytes "vssshare") msgs i :: more) red evs (mainCalls "2" "oldCommittee") p (q i) sent) → Reconstructs 1 42 [q 0, q 3] := by
  obtain ⟨msgs, -, -, h⟩ := C129_refuted frCodec sha (Pairing.dlog Fr) 7 4 1 42 ⟨fun i => i, fun k j => k + j⟩ le_rfl (by norm_num) le_rfl (by decide +kernel)
  exact ⟨msgs, fun q hq => h q hq [0, 3] (by decide) rfl (by decide)⟩

/-- Member 1 of four renews the share that it got from a client with secret 42 (`C123_renews`): afterwards the commitments and witnesses in its memory accept one list of three coefficients. -/
example : ∃ (old new : Party Fr Fr), ∀ f : List Fr, f.length = 3 →
    ((∀ k, 1 ≤ k → k ≤ 3 → checkProofSingle (Pairing.dlog Fr) new.kzg (new.proof.contents.getD k (PiContent.zero k)).CBj (new.witness.getD (k - 1) 0) ((new.pid + 1 : ℕ) : Fr) (polyVal f (k : Fr)) = .ok true) ↔
      f = old.fullShare) := by
  obtain ⟨b', q, msgs', sr, D, old', kept, new, hm', hk, -, h, -⟩ := C123_renews frCodec (fun x => x) (Pairing.dlog Fr) tb0 7 4 1 42 ⟨fun i => i, fun k j => k + j⟩ le_rfl (by norm_num) le_rfl (by norm_num)
    coinsX (fun _ => [3, 1]) (fun _ => [0, 2, 3]) (fun _ => by decide) (fun _ => by decide) (fun _ _ => []) (by intro k i; norm_num) (fun _ _ _ _ => rfl)
    (by intro m s a n r h; cases h; norm_num) [2, 4] (by decide) rfl (by decide) (fun _ => [4, 1, 2]) (fun _ => by decide)
  obtain ⟨msgs, hm, -, b, old, -, hold, -⟩ := C18_honest_sharing frCodec (Pairing.dlog Fr) 7 4 1 42 ⟨fun i => i, fun k j => k + j⟩ le_rfl (by norm_num) le_rfl (by decide +kernel)
  rw [hm] at hm'
  cases hm'
  have e : ∀ i < 4, old' i = old i := by
    intro i hi
    obtain ⟨p, h1, h2, -⟩ := hk i hi
    obtain ⟨-, -, -, -, -, p', h6, h7⟩ := hold i hi
    rw [h1] at h6
    cases h6
    rw [h2] at h7
    exact (Prod.mk.inj (Except.ok.inj h7)).1
  obtain ⟨p, st, h1, h2, h3, -⟩ := h 1 (by norm_num)
  obtain ⟨-, -, -, h4, -⟩ := hk 1 (by norm_num)
  obtain ⟨g1, g2, g3, g4, g5, -⟩ := hold 1 (by norm_num)
  obtain ⟨pi, f1, f2⟩ := prepare_from_holders frCodec (fun x => x) (Pairing.dlog Fr) 7 b (old 1) (by omega) old [3, 1] (by rw [g2]; norm_num) (fun k hk =>
    ⟨(hold k (by fin_cases hk <;> norm_num)).2.2.2.2.1.coms, by rw [(hold k (by fin_cases hk <;> norm_num)).2.1, g2]⟩)
  have e' : [3, 1].map (fun k => prepareSend frCodec (old' k)) = [3, 1].map (fun k => prepareSend frCodec (old k)) := by
    simp only [List.map_cons, List.map_nil, e 3 (by norm_num), e 1 (by norm_num)]
  rw [e 1 (by norm_num), e', f1] at h4
  have h5 : kept 1 = { old 1 with proof := pi } := (Option.some.inj (Except.ok.inj h4)).symm
  rw [h5] at h1
  refine ⟨old 1, new 1, fun f hf => ?_⟩
  have := C129_witnesses_stay frCodec (fun x => x) (Pairing.dlog Fr) 7 b [] _ _ [] [] { old 1 with proof := pi } _ [] ⟨g4.kzg, g4.table⟩ (by show 1 ≤ (old 1).F; omega) (by show 2 * (old 1).F + 1 < _; rw [g2]; decide +kernel)
    ⟨g5.share, f2, g5.witLen, g5.wits, g5.witIdx⟩ (.shareReduceReceive h1 (.proactivize tb0 _ h2 h3 .nil)) f (by show f.length = 2 * (old 1).F + 1; rw [g2]; exact hf)
  simp only [g2] at this
  exact this

/-- A run of a member of four (`C123_renews`): it ends with the same full share, whatever its former shares were. -/
example (f r : List Fr) : ∃ (b : ℕ → ℕ → Fr) (p p' : Party Fr Fr) (red : List (UInt32 × Bytes)) (evs : List PEvent),
    ProcRun frCodec (fun x => x) (Pairing.dlog Fr) [] red evs [.shareReduceReceive [], .proactivize []] { p with fullShare := f, reducedShare := r } p' [] ∧
    p'.fullShare = sliceY b 1 2 (2 : Fr) := by
  obtain ⟨b, q, msgs, sr, D, old, kept, new, -, -, -, h, -⟩ := C123_renews frCodec (fun x => x) (Pairing.dlog Fr) tb0 7 4 1 42 ⟨fun i => i, fun k j => k + j⟩ le_rfl (by norm_num) le_rfl (by norm_num)
    coinsX (fun _ => [3, 1]) (fun _ => [0, 2, 3]) (fun _ => by decide) (fun _ => by decide) (fun _ _ => []) (by intro k i; norm_num) (fun _ _ _ _ => rfl)
    (by intro m s a n r h; cases h; norm_num) [2, 4] (by decide) rfl (by decide) (fun _ => [4, 1, 2]) (fun _ => by decide)
  obtain ⟨p, st, h1, h2, h3, h4⟩ := h 1 (by norm_num)
  refine ⟨refreshed b q [2, 4], kept 1, new 1, _, _, C129_in_place_partial frCodec _ (Pairing.dlog Fr) [] _ _ [] [] _ _ [] (.shareReduceReceive h1 (.proactivize tb0 _ h2 h3 .nil)) f r, ?_⟩
  rw [h4]
  norm_num

end Examples

end DyCAPS
