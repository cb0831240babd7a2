import Verif.Model.Process
import Verif.Spec.Shape
import Verif.Props.Erasure
import Verif.Props.VSS

/-!
# C130: a member keeps the shape of its state and can always hand over
-/

set_option linter.unusedSectionVars false

namespace DyCAPS

section
variable {G1 G2 GT : Type} [AddCommGroup G1] [Module Fr G1] [AddCommGroup G2] [Module Fr G2] [AddCommGroup GT] [Module Fr GT]
variable {pp : Pairing Fr G1 G2 GT} {t : Fr} {N F pid : ℕ}

theorem interpolate_length {d : ℕ} {x y res : List Fr} (hx : d + 1 ≤ x.length) (hy : d + 1 ≤ y.length) (h : lagrangeInterpolate d x y = .ok res) : res.length = d + 1 := by
  by_cases hne : ∀ i ≤ d, ∀ j ≤ d, j ≠ i → x.getD i 0 ≠ x.getD j 0
  · obtain ⟨r, h1, h2, _⟩ := lagrangeInterpolate_ok d x y hx hy hne
    rw [h1] at h
    cases h
    exact h2
  · push Not at hne
    obtain ⟨i, hi, j, hj, h1, h2⟩ := hne
    rw [lagrangeInterpolate_fatal d x y hx hy ⟨i, hi, j, hj, h1, h2⟩] at h
    cases h

theorem mapM_length {α β : Type} (f : α → Go β) : ∀ (l : List α) {r : List β}, l.mapM f = .ok r → r.length = l.length := by
  intro l
  induction l with
  | nil => intro r h; cases h; rfl
  | cons a l ih =>
    intro r h
    rw [List.mapM_cons] at h
    cases ha : f a with
    | error e => rw [ha] at h; cases h
    | ok b =>
      rw [ha] at h
      cases hl : l.mapM f with
      | error e => rw [hl] at h; cases h
      | ok bs =>
        rw [hl] at h
        cases h
        simp [ih hl]

theorem val_index_le (n : ℕ) : ∀ x ∈ (firstIndices n : List Fr), x.val ≤ n := by
  intro x hx
  simp only [firstIndices, List.mem_map, List.mem_range] at hx
  obtain ⟨i, hi, rfl⟩ := hx
  rw [ZMod.val_natCast]
  exact (Nat.mod_le _ _).trans hi

theorem newParty_shape {p : Party G1 G2} (h : newParty pp t N F pid = .ok p) : p.Shape pp t N F pid := by
  obtain ⟨q, h1, h2, h3, h4, h5⟩ := newParty_setup pp t N F pid
  have e := h1
  rw [h] at e
  cases e
  unfold newParty at h
  rw [lagrangeTable_ok, Go.ok_bind] at h
  cases h
  refine ⟨h2, h3, h4, h5, ?_, ?_, ?_, ?_, ?_, ?_⟩
  · simp [Pi.init]
  · simp
  · simp
  · simp
  · simp
  · intro x hx
    rw [(List.mem_replicate.1 hx).2]
    simp

theorem prepareAdopt_shape (codec : PointCodec G1) {p p' : Party G1 G2} (hs : p.Shape pp t N F pid) (data : Bytes) (h : prepareAdopt codec p data = .ok p') : p'.Shape pp t N F pid := by
  unfold prepareAdopt at h
  simp only [Bind.bind, Except.bind] at h
  split at h
  · cases h
  · rename_i cs hcs
    cases h
    refine ⟨⟨hs.setup.kzg, hs.setup.table⟩, hs.sizeN, hs.sizeF, hs.number, ?_, hs.full, hs.reduced, hs.witness, hs.indexes, hs.known⟩
    have := mapM_length _ _ hcs
    rw [oneTo_length, hs.sizeF] at this
    simp [this]

theorem prepareReceive_shape (codec : PointCodec G1) (sha : Bytes → Bytes) {p p' : Party G1 G2} (hs : p.Shape pp t N F pid) (prep : List Bytes) :
    ∀ count, prepareReceive codec sha p count prep = .ok (some p') → p'.Shape pp t N F pid := by
  induction prep with
  | nil => intro count h; cases h
  | cons d rest ih =>
    intro count h
    simp only [prepareReceive] at h
    split at h
    · cases ha : prepareAdopt codec p d with
      | error e => rw [ha] at h; cases h
      | ok q =>
        rw [ha] at h
        cases h
        exact prepareAdopt_shape codec hs d ha
    · exact ih _ h

variable [DecidableEq G1] [DecidableEq GT]

theorem setFromVSSMessage_length (codec : PointCodec G1) {m : Option PPi} {pi : Pi G1} (h : setFromVSSMessage codec m F = .ok pi) : pi.contents.length = 2 * F + 2 := by
  unfold setFromVSSMessage at h
  cases m with
  | none => cases h
  | some m =>
    simp only [Bind.bind, Except.bind] at h
    split at h
    · cases h
    split at h
    · cases h
    · rename_i cs hcs
      cases h
      have := mapM_length _ _ hcs
      rw [oneTo_length] at this
      simp [this]

theorem vss_shape (codec : PointCodec G1) {p p' : Party G1 G2} (hs : p.Shape pp t N F pid) (m : PVSSSend) {ok : Bool} (h : vssReceiveMsg codec pp p m = .ok (p', ok)) : p'.Shape pp t N F pid := by
  unfold vssReceiveMsg at h
  simp only [Bind.bind, Except.bind] at h
  split at h
  · cases h
  rename_i pi hpi
  split at h
  · cases h
  rename_i shares hsh
  have hlen := mapM_length _ _ hsh
  rw [oneTo_length, hs.sizeF] at hlen
  split at h
  · cases h
  rename_i v hv
  split at h
  · cases h
    exact hs
  · split at h
    · cases h
    · rename_i full hfull
      cases h
      rw [hs.sizeF] at hfull hpi
      refine ⟨⟨hs.setup.kzg, hs.setup.table⟩, hs.sizeN, hs.sizeF, hs.number, setFromVSSMessage_length codec hpi, ?_, hs.reduced, by simpa using hlen, ?_, ?_⟩
      · exact interpolate_length (by rw [firstIndices_length]) (by simp [hlen]) hfull
      · rw [firstIndices_length, hs.sizeF]
      · rw [hs.sizeF]; exact val_index_le _

theorem shareReduceReceive_shape (codec : PointCodec G1) {p p' : Party G1 G2} (hs : p.Shape pp t N F pid) (red : List (UInt32 × Bytes)) :
    ∀ st, shareReduceReceive codec pp p st red = .ok (some p') → p'.Shape pp t N F pid := by
  induction red with
  | nil => intro st h; cases h
  | cons m rest ih =>
    intro st h
    simp only [shareReduceReceive, Bind.bind, Except.bind] at h
    split at h
    · cases h
    rename_i r hr
    obtain ⟨st', o⟩ := r
    cases o with
    | none => exact ih st' h
    | some share =>
      cases h
      refine ⟨⟨hs.setup.kzg, hs.setup.table⟩, hs.sizeN, hs.sizeF, hs.number, hs.proof, hs.full, ?_, hs.witness, hs.indexes, hs.known⟩
      unfold shareReduceStep shareReduceStepMsg at hr
      simp only [Bind.bind, Except.bind] at hr
      split at hr
      · cases hr
      split at hr
      · cases hr
      split at hr
      · cases hr
      split at hr
      · split at hr
        · rename_i hle
          split at hr
          · cases hr
          · rename_i hint
            cases hr
            rw [hs.sizeF] at hint hle
            refine interpolate_length ?_ ?_ hint
            all_goals rw [List.length_map, List.length_take]; omega
        · cases hr
      · cases hr

theorem proactStep_shape (codec : PointCodec G1) (tb : Tbls) {p p' : Party G1 G2} (hs : p.Shape pp t N F pid) {st st' : PState G1} {ev : PEvent} {out : List POut}
    (h : proactStep codec pp tb p st ev = some (.ok (p', st', out))) : p'.Shape pp t N F pid := by
  cases step_effect h with
  | refreshEnd h1 h2 =>
    refine ⟨⟨hs.setup.kzg, hs.setup.table⟩, hs.sizeN, hs.sizeF, hs.number, hs.proof, hs.full, ?_, hs.witness, hs.indexes, hs.known⟩
    rw [List.length_append, addPoly_length, List.length_drop, hs.sizeF, hs.reduced]
    omega
  | distFull h1 h2 h3 h4 h5 h6 h7 h8 =>
    refine ⟨⟨hs.setup.kzg, hs.setup.table⟩, hs.sizeN, hs.sizeF, hs.number, hs.proof, ?_, hs.reduced, hs.witness, hs.indexes, hs.known⟩
    rw [hs.sizeF] at h7 h8
    refine interpolate_length ?_ ?_ h8
    all_goals rw [List.length_map, List.length_take, List.length_append, List.length_singleton]; omega
  | _ => exact hs

theorem PRun.shape {codec : PointCodec G1} {tb : Tbls} {p p' : Party G1 G2} (hs : p.Shape pp t N F pid) {st st' : PState G1} {evs : List PEvent} {outs : List POut}
    (h : PRun codec pp tb p st evs outs p' st') : p'.Shape pp t N F pid := by
  induction h with
  | nil => exact hs
  | snoc _ hs' ih => exact proactStep_shape codec tb ih hs'

/-- **C130.** Start with a new party and let it make any calls on any messages. However often it receives a share, takes over commitments, reduces its share or takes part in a refresh, and whatever is sent to it, after
each call every slice of its state has the size the code relies on, the parameters and the setup are those it started with, and every stored witness index is in range. -/
theorem C130 (codec : PointCodec G1) (sha : Bytes → Bytes) {vss : List PMessage} {red : List (UInt32 × Bytes)} {evs : List PEvent} {calls : List ProgCall} {p p' : Party G1 G2} {sent : List (List Bytes)}
    (h : newParty pp t N F pid = .ok p) (hr : ProcRun codec sha pp vss red evs calls p p' sent) : p'.Shape pp t N F pid := by
  have h0 := newParty_shape h
  clear h
  induction hr with
  | nil => exact h0
  | vss h hr ih =>
    apply ih
    rename_i ID rest p p1 p' sent ok
    cases vss with
    | nil => cases h
    | cons m l => exact vss_shape codec h0 _ (Option.some.inj h)
  | prepareSend _ ih => exact ih h0
  | prepareReceive prep h _ ih => exact ih (prepareReceive_shape codec sha h0 prep _ h)
  | shareReduceSend _ _ ih => exact ih h0
  | shareReduceReceive h _ ih => exact ih (shareReduceReceive_shape codec h0 red _ h)
  | proactivize tb c h _ _ ih => exact ih (PRun.shape h0 h)

theorem interpolateComOrWit_total (hN : 3 * F + 1 ≤ N) (table : List (List Fr)) (ht : lagrangeTable F N = .ok table) (target : ℕ) (list : List G1) (hl : list.length = 2 * F + 1) :
    ∃ r, interpolateComOrWit F table (2 * F) target list = .ok r := by
  unfold interpolateComOrWit
  dsimp only
  split
  · rename_i h
    exact ⟨_, idx_of_lt (by simp; omega)⟩
  · split
    · rename_i h
      rw [lagrangeTable_ok] at ht
      cases ht
      rw [idx_of_lt (by simp; omega), Go.ok_bind, linCombG1_ok _ _ (by simp [hl])]
      exact ⟨_, rfl⟩
    · rw [getLagrangeCoefficients, if_neg (by simp [firstIndices_length]), Go.ok_bind, linCombG1_ok _ _ (by simp [hl])]
      exact ⟨_, rfl⟩

theorem isSimple_total (known : List Fr) : ∀ n i, i + n ≤ known.length → ∃ b, isSimpleLoop known n i = .ok b := by
  intro n
  induction n with
  | zero => intro i _; exact ⟨true, rfl⟩
  | succ n ih =>
    intro i h
    rw [isSimpleLoop, idx_of_lt (by omega), Go.ok_bind]
    split
    · exact ⟨false, rfl⟩
    · exact ih (i + 1) (by omega)

/-- **C130 (consequence).** With at least `3F + 1` members, a member in such a state can always hand over: `ShareReduceSend` returns and sends `N` messages, one for each member of the next committee. -/
theorem C130_hand_over (codec : PointCodec G1) (hN : 3 * F + 1 ≤ N) {p : Party G1 G2} (hs : p.Shape pp t N F pid) : ∃ out, shareReduceSend codec p = .ok out ∧ out.length = N := by
  have hmsg : ∀ j, ∃ m, shareReduceMsg codec p j = .ok m := by
    intro j
    have ht : lagrangeTable F N = .ok p.table := by rw [← hs.sizeF, ← hs.sizeN]; exact hs.setup.table
    unfold shareReduceMsg
    rw [hs.sizeF]
    obtain ⟨cb, h1⟩ := interpolateComOrWit_total hN p.table ht j p.coms (by rw [coms_length, hs.sizeF])
    obtain ⟨b, h2⟩ := isSimple_total p.witnessIndexes (2 * F + 1) 0 (by rw [hs.indexes]; omega)
    have h3 : ∃ wb, interpolateByKnownIndexes F p.table (2 * F) j p.witnessIndexes p.witness = .ok wb := by
      unfold interpolateByKnownIndexes
      rw [h2, Go.ok_bind]
      split
      · exact interpolateComOrWit_total hN p.table ht j p.witness hs.witness
      · rw [getLagrangeCoefficients, if_neg (by simp [hs.indexes]), Go.ok_bind, linCombG1_ok _ _ (by simp [hs.witness])]
        exact ⟨_, rfl⟩
    obtain ⟨wb, h3⟩ := h3
    rw [h1, Go.ok_bind, h3, Go.ok_bind]
    exact ⟨_, rfl⟩
  choose f hf using hmsg
  unfold shareReduceSend
  rw [mapM_ok (idx p.witnessIndexes) (fun i => p.witnessIndexes.getD i 0) _ (by
    intro i hi
    rw [hs.sizeF] at hi
    have := List.mem_range.1 hi
    rw [idx_of_lt (by rw [hs.indexes]; omega), List.getD_eq_getElem _ _ (by rw [hs.indexes]; omega)]), Go.ok_bind, if_pos, mapM_ok _ f _ (fun a _ => hf a), Go.ok_bind]
  · exact ⟨_, rfl, by simp [oneTo_length, hs.sizeN]⟩
  · rw [List.all_eq_true]
    intro x hx
    obtain ⟨i, hi, rfl⟩ := List.mem_map.1 hx
    rw [hs.sizeF] at hi
    have := List.mem_range.1 hi
    have hk := hs.known (p.witnessIndexes.getD i 0) (by rw [List.getD_eq_getElem _ _ (by rw [hs.indexes]; omega)]; exact List.getElem_mem _)
    rw [decide_eq_true_eq, hs.sizeN]
    omega

/-- **C130 (consequence).** The stored proof has an entry for each index the code reads, so no read of `Proof.PiContents` is out of range; the default value of the model's reads is never used. -/
theorem C130_proof {p : Party G1 G2} (hs : p.Shape pp t N F pid) (j : ℕ) (hj : j ≤ 2 * F + 1) : ∃ c, p.proof.contents[j]? = some c :=
  ⟨_, List.getElem?_eq_getElem (by rw [hs.proof]; omega)⟩

/-- **C130 (consequence).** The end of the Refresh loop does not fail for want of coefficients of the reduced share. -/
theorem C130_refresh {p : Party G1 G2} (hs : p.Shape pp t N F pid) (st : PState G1) (Qs : List Fr) (Cs : ℕ → G1) (h : st.refresh = .looping [] Qs Cs) :
    ∃ p' st', refreshStep p st = some (.ok (p', st')) ∧ p'.Shape pp t N F pid := by
  unfold refreshStep
  rw [h]
  dsimp only
  rw [if_neg (by rw [hs.sizeF, hs.reduced]; omega)]
  refine ⟨_, _, rfl, ⟨⟨hs.setup.kzg, hs.setup.table⟩, hs.sizeN, hs.sizeF, hs.number, hs.proof, hs.full, ?_, hs.witness, hs.indexes, hs.known⟩⟩
  rw [List.length_append, addPoly_length, List.length_drop, hs.sizeF, hs.reduced]
  omega

end

/-- Four members, secret 42: after its calls (share, Prepare, hand-over) member 2 has the shape and can hand over again. -/
example : ∃ (p q : Party Fr Fr) (m : PMessage) (sent : List (List Bytes)), newParty (Pairing.dlog Fr) 7 4 1 2 = .ok p ∧
    ProcRun frCodec id (Pairing.dlog Fr) [m] [] [] (mainCalls "2" "oldCommittee") p q sent ∧ q.Shape (Pairing.dlog Fr) 7 4 1 2 ∧ ∃ out, shareReduceSend frCodec q = .ok out ∧ out.length = 4 := by
  obtain ⟨msgs, -, h, -⟩ := C129_refuted frCodec id (Pairing.dlog Fr) 7 4 1 42 ⟨fun i => i, fun k j => k + j⟩ le_rfl (by norm_num) le_rfl (by decide +kernel)
  obtain ⟨p, q, sent, h1, h2⟩ := h 2 (by norm_num)
  have hs := C130 frCodec id h1 h2
  exact ⟨p, q, _, sent, h1, h2, hs, C130_hand_over frCodec (by norm_num) hs⟩

end DyCAPS
