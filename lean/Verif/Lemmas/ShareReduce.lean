import Verif.Lemmas.Size
import Verif.Spec.Handoff

/-! Helper lemmas about ShareReduce and Prepare. -/

set_option linter.unusedSectionVars false

namespace DyCAPS

open Polynomial

section
variable {G1 G2 GT : Type} [AddCommGroup G1] [Module Fr G1] [AddCommGroup G2] [Module Fr G2] [AddCommGroup GT] [Module Fr GT]

theorem sliceX_ne_nil (b : ℕ → ℕ → Fr) (F : ℕ) (y : Fr) : sliceX b F (2 * F) y ≠ [] := ne_nil_of_length (sliceX_length _ _ _ _)

theorem honestSR_iff (codec : PointCodec G1) (pp : Pairing Fr G1 G2 GT) (t : Fr) (b : ℕ → ℕ → Fr) (F i j : ℕ) (data : Bytes) :
    HonestSR codec pp t b F i j data ↔ data = marshal (⟨codec.enc (polyVal (sliceX b F (2 * F) (j : Fr)) t • pp.g1),
      frTo32 (biVal b F (2 * F) (i : Fr) (j : Fr)), codec.enc (quotVal (sliceX b F (2 * F) (j : Fr)) (i : Fr) t • pp.g1)⟩ :
        PShareReduce) := by
  unfold HonestSR
  rw [commitToPoly_ok pp t _ _ (by rw [sliceX_length]), computeProofSingle_ok pp t _ _ _ (sliceX_ne_nil _ _ _)
    (by rw [sliceX_length]; omega)]
  constructor
  · rintro ⟨C, W, h1, h2, h3⟩
    cases h1; cases h2; exact h3
  · intro h; exact ⟨_, _, rfl, rfl, h⟩

theorem srMsg_honest (codec : PointCodec G1) (pp : Pairing Fr G1 G2 GT) (t : Fr) (b : ℕ → ℕ → Fr) (F i j : ℕ) (data : Bytes)
    (h : HonestSR codec pp t b F i j data) :
    srMsg data = ⟨codec.enc (polyVal (sliceX b F (2 * F) (j : Fr)) t • pp.g1),
      frTo32 (biVal b F (2 * F) (i : Fr) (j : Fr)), codec.enc (quotVal (sliceX b F (2 * F) (j : Fr)) (i : Fr) t • pp.g1)⟩ := by
  rw [honestSR_iff] at h
  rw [srMsg, unmarshalD, h, rt_PShareReduce _ (size_shareReduce codec _ _ _)]
  rfl

theorem coms_getD (p : Party G1 G2) (k : ℕ) (h1 : 1 ≤ k) (h2 : k ≤ 2 * p.F + 1) :
    p.coms.getD (k - 1) 0 = (p.proof.contents.getD k (PiContent.zero k)).CBj := by
  rw [Party.coms, oneTo_map_getD _ _ _ _ (by omega), Nat.sub_add_cancel h1]

theorem coms_length (p : Party G1 G2) : p.coms.length = 2 * p.F + 1 := by simp [Party.coms, oneTo]

/-- What a holder sends to `j`. -/
theorem shareReduceMsg_ok (codec : PointCodec G1) (pp : Pairing Fr G1 G2 GT) (t : Fr) (b : ℕ → ℕ → Fr) (p : Party G1 G2)
    (hp : p.Setup pp t) (hh : HoldsFull pp t b p) (hN : 3 * p.F + 1 ≤ p.N) (hr : 2 * p.F + 1 < frModulus) (j : ℕ) :
    ∃ m, shareReduceMsg codec p j = .ok m ∧ HonestSR codec pp t b p.F (p.pid + 1) j (marshal m) := by
  classical
  have e1 := C12_commitments pp t p.F p.N hN hr b p.table hp.table p.coms (coms_length p) (by
    intro k h1 h2
    rw [coms_getD p k h1 h2]; exact hh.coms k h1 h2) j
  have e2 := C12_witnesses pp t p.F p.N hN hr b ((p.pid + 1 : ℕ) : Fr) p.table hp.table p.witnessIndexes
    (by rw [hh.witIdx, firstIndices_length]) (by rw [hh.witIdx]; exact distinct_firstIndices _ hr) p.witness hh.witLen (by
    intro i hi
    rw [hh.witIdx, firstIndices_getD _ _ (by omega)]
    exact hh.wits (i + 1) (by omega) (by omega)) j
  rw [commitToPoly_ok pp t _ _ (by rw [sliceX_length])] at e1
  rw [computeProofSingle_ok pp t _ _ _ (sliceX_ne_nil _ _ _) (by rw [sliceX_length]; omega)] at e2
  refine ⟨_, by rw [shareReduceMsg, e1, Go.ok_bind, e2]; rfl, ?_⟩
  rw [honestSR_iff, evalPolyAt_eq, hh.share]
  rw [← polyVal_sliceY]

variable [DecidableEq GT]

/-- One iteration on a decodable message. -/
theorem srStep_ok (codec : PointCodec G1) (pp : Pairing Fr G1 G2 GT) (t : Fr) (p : Party G1 G2) (hp : p.Setup pp t) (hF : 1 ≤ p.F)
    (st : SRState) (sender : UInt32) (m : PShareReduce) (C W : G1) (hC : codec.dec m.C = some C) (hW : codec.dec m.W = some W) :
    ∃ v, v = (frFrom32 st.vJ (copy32 m.v)).1 ∧
    ((C - v • pp.g1 = (t - ((sender + 1).toNat : Fr)) • W ∧
      shareReduceStepMsg codec pp p st sender m =
        (if p.F + 1 ≤ (st.points m.C ++ [((sender + 1).toNat, v)]).length then do
          let share ← lagrangeInterpolate p.F (((st.points m.C ++ [((sender + 1).toNat, v)]).take (p.F + 1)).map fun q => ((q.1 : ℕ) : Fr))
            (((st.points m.C ++ [((sender + 1).toNat, v)]).take (p.F + 1)).map (·.2))
          pure (⟨fun c => if c = m.C then st.points m.C ++ [((sender + 1).toNat, v)] else st.points c, v⟩, some share)
        else pure (⟨fun c => if c = m.C then st.points m.C ++ [((sender + 1).toNat, v)] else st.points c, v⟩, none))) ∨
     (C - v • pp.g1 ≠ (t - ((sender + 1).toNat : Fr)) • W ∧
      shareReduceStepMsg codec pp p st sender m = .ok (⟨st.points, v⟩, none))) := by
  classical
  refine ⟨_, rfl, ?_⟩
  have d1 : codec.decode! m.C = .ok C := by rw [PointCodec.decode!, hC]
  have d2 : codec.decode! m.W = .ok W := by rw [PointCodec.decode!, hW]
  unfold shareReduceStepMsg
  rw [d1, d2, Go.ok_bind, Go.ok_bind, hp.kzg]
  simp only
  rw [checkProofSingle_ok pp t _ (by omega), Go.ok_bind]
  by_cases h : C - (frFrom32 st.vJ (copy32 m.v)).1 • pp.g1 = (t - ((sender + 1).toNat : Fr)) • W
  · left
    refine ⟨h, ?_⟩
    rw [decide_eq_true h]
    rfl
  · right
    refine ⟨h, ?_⟩
    rw [decide_eq_false h]
    rfl

theorem srStep_panic (codec : PointCodec G1) (pp : Pairing Fr G1 G2 GT) (p : Party G1 G2)
    (st : SRState) (sender : UInt32) (m : PShareReduce) (h : ¬ ((∃ C, codec.dec m.C = some C) ∧ ∃ W, codec.dec m.W = some W)) :
    shareReduceStepMsg codec pp p st sender m = .error .panic := by
  unfold shareReduceStepMsg
  cases hC : codec.dec m.C with
  | none => rw [PointCodec.decode!, hC]; rfl
  | some C =>
    cases hW : codec.dec m.W with
    | none => rw [PointCodec.decode!, hC, PointCodec.decode!, hW]; rfl
    | some W => exact absurd ⟨⟨C, hC⟩, ⟨W, hW⟩⟩ h

/-- The point `(x,v)` recorded for commitment bytes `c` comes from a message that verified. -/
def SRExplained (codec : PointCodec G1) (pp : Pairing Fr G1 G2 GT) (t : Fr) (msgs : List (UInt32 × Bytes)) (c : Bytes) (q : ℕ × Fr) : Prop :=
  ∃ m ∈ msgs, ∃ C W vJ, q.1 = (m.1 + 1).toNat ∧ q.2 = (frFrom32 vJ (copy32 (srMsg m.2).v)).1 ∧ (srMsg m.2).C = c ∧ codec.dec c = some C ∧
    codec.dec (srMsg m.2).W = some W ∧
    C - q.2 • pp.g1 = (t - ((q.1 : ℕ) : Fr)) • W

theorem SRExplained.mono {codec : PointCodec G1} {pp : Pairing Fr G1 G2 GT} {t : Fr} {l l' : List (UInt32 × Bytes)} (h : ∀ m ∈ l, m ∈ l')
    {c : Bytes} {q : ℕ × Fr} (he : SRExplained codec pp t l c q) : SRExplained codec pp t l' c q := by
  obtain ⟨m, hm, r⟩ := he
  exact ⟨m, h m hm, r⟩

structure SRInv (codec : PointCodec G1) (pp : Pairing Fr G1 G2 GT) (t : Fr) (F : ℕ) (corrupt : Finset UInt32) (c0 : Bytes)
    (pre : List (UInt32 × Bytes)) (st : SRState) : Prop where
  nodup : ∀ c, ((st.points c).map Prod.fst).Nodup
  short : ∀ c, (st.points c).length ≤ F
  expl : ∀ c, ∀ q ∈ st.points c, SRExplained codec pp t pre c q
  count : (pre.filter fun m => m.1 ∉ corrupt).length ≤ (st.points c0).length

theorem u32_succ_inj {a b : UInt32} (h : (a + 1).toNat = (b + 1).toNat) : a = b := by
  have := UInt32.toNat_inj.1 h
  simpa using this

/-- The whole loop. -/
theorem sr_run (codec : PointCodec G1) (pp : Pairing Fr G1 G2 GT) (t : Fr) (b : ℕ → ℕ → Fr) (p : Party G1 G2) (hp : p.Setup pp t)
    (hF : 1 ≤ p.F) (j : ℕ) (corrupt : Finset UInt32) (hcor : corrupt.card ≤ p.F) (c0 : Bytes)
    (hc0 : c0 = codec.enc (polyVal (sliceX b p.F (2 * p.F) (j : Fr)) t • pp.g1))
    (rest pre : List (UInt32 × Bytes)) (st : SRState)
    (hnd : ((pre ++ rest).map Prod.fst).Nodup)
    (hhon : ∀ m ∈ pre ++ rest, m.1 ∉ corrupt → HonestSR codec pp t b p.F (m.1 + 1).toNat j m.2)
    (inv : SRInv codec pp t p.F corrupt c0 pre st) :
    (shareReduceReceive codec pp p st rest = .error .panic ∧ ∃ m ∈ rest, ¬ SRDecodable codec m.2) ∨
    (shareReduceReceive codec pp p st rest = .ok none ∧ ((pre ++ rest).filter fun m => m.1 ∉ corrupt).length ≤ p.F) ∨
    (∃ (share : List Fr) (pts : List (ℕ × Fr)), shareReduceReceive codec pp p st rest = .ok (some { p with reducedShare := share }) ∧
      pts.length = p.F + 1 ∧ (pts.map Prod.fst).Nodup ∧ (∀ q ∈ pts, SRExplained codec pp t (pre ++ rest) c0 q) ∧
      lagrangeInterpolate p.F (pts.map fun q => ((q.1 : ℕ) : Fr)) (pts.map (·.2)) = .ok share) := by
  classical
  induction rest generalizing pre st with
  | nil =>
    right; left
    refine ⟨rfl, ?_⟩
    rw [List.append_nil]
    exact inv.count.trans (inv.short c0)
  | cons m rest ih =>
    have hsplit : pre ++ m :: rest = (pre ++ [m]) ++ rest := by simp
    by_cases hdec : SRDecodable codec m.2
    swap
    · left
      refine ⟨?_, m, by simp, hdec⟩
      have := srStep_panic codec pp p st m.1 (srMsg m.2) hdec
      change shareReduceStepMsg codec pp p st m.1 (unmarshalD _ m.2) = _ at this
      rw [shareReduceReceive, shareReduceStep, this]
      rfl
    obtain ⟨⟨C, hC⟩, ⟨W, hW⟩⟩ := hdec
    obtain ⟨v, hv, hstep⟩ := srStep_ok codec pp t p hp hF st m.1 (srMsg m.2) C W hC hW
    have hmono : ∀ m' ∈ pre, m' ∈ pre ++ [m] := fun m' h => by simp [h]
    rcases hstep with ⟨hver, hstep⟩ | ⟨hver, hstep⟩
    · -- verified: a point is added
      have hnew : SRExplained codec pp t (pre ++ [m]) (srMsg m.2).C ((m.1 + 1).toNat, v) :=
        ⟨m, by simp, C, W, st.vJ, rfl, hv, rfl, hC, hW, hver⟩
      set l := st.points (srMsg m.2).C ++ [((m.1 + 1).toNat, v)] with hl
      have hlexpl : ∀ q ∈ l, SRExplained codec pp t (pre ++ [m]) (srMsg m.2).C q := by
        intro q hq
        rcases List.mem_append.1 hq with h | h
        · exact (inv.expl _ q h).mono hmono
        · rw [List.mem_singleton] at h; rw [h]; exact hnew
      have hlnodup : (l.map Prod.fst).Nodup := by
        rw [hl, List.map_append, List.map_singleton]
        apply List.Nodup.append (inv.nodup _) (by simp)
        intro x hx hx'
        rw [List.mem_singleton] at hx'
        obtain ⟨q, hq, rfl⟩ := List.mem_map.1 hx
        obtain ⟨m', hm', _, _, _, h1, _⟩ := inv.expl _ q hq
        rw [h1] at hx'
        have := u32_succ_inj hx'
        rw [List.map_append, List.nodup_append] at hnd
        exact hnd.2.2 m'.1 (List.mem_map.2 ⟨m', hm', rfl⟩) m.1 (by simp) this
      have hlc : (srMsg m.2).C ≠ c0 → l.length ≤ p.F := by
        intro hne
        have hsub : (l.map Prod.fst).toFinset ⊆ corrupt.image fun u => (u + 1).toNat := by
          intro x hx
          rw [List.mem_toFinset] at hx
          obtain ⟨q, hq, rfl⟩ := List.mem_map.1 hx
          obtain ⟨m', hm', _, _, _, h1, _, h3, _⟩ := hlexpl q hq
          rw [Finset.mem_image]
          refine ⟨m'.1, ?_, h1.symm⟩
          by_contra hcon
          have := srMsg_honest _ _ _ _ _ _ _ _ (hhon m' (by rw [hsplit]; exact List.mem_append_left _ hm') hcon)
          rw [this] at h3
          exact hne (h3.symm.trans hc0.symm)
        have := Finset.card_le_card hsub
        rw [List.toFinset_card_of_nodup hlnodup, List.length_map] at this
        exact this.trans (Finset.card_image_le.trans hcor)
      have hllen : l.length ≤ p.F + 1 := by rw [hl, List.length_append]; have := inv.short (srMsg m.2).C; simp; omega
      by_cases hfull : p.F + 1 ≤ l.length
      · -- done
        right; right
        have hc : (srMsg m.2).C = c0 := by
          by_contra hne
          have := hlc hne
          omega
        have htake : l.take (p.F + 1) = l := List.take_of_length_le hllen
        have hdist : DistinctUpTo p.F (l.map fun q => ((q.1 : ℕ) : Fr)) := by
          intro i hi k hk hne
          rw [List.getD_eq_getElem _ _ (by simp; omega), List.getD_eq_getElem _ _ (by simp; omega), List.getElem_map, List.getElem_map]
          have hx : ∀ q ∈ l, q.1 < frModulus := by
            intro q hq
            obtain ⟨m', hm', _, _, _, h1, _⟩ := hlexpl q hq
            rw [h1]
            exact lt_trans (UInt32.toNat_lt _) (by decide +kernel)
          apply fr_natCast_ne (hx _ (List.getElem_mem _)) (hx _ (List.getElem_mem _))
          intro h
          apply hne
          have h1 : i < (l.map Prod.fst).length := by simp; omega
          have h2 : k < (l.map Prod.fst).length := by simp; omega
          exact ((hlnodup.getElem_inj_iff (hi := h1) (hj := h2)).1 (by simpa using h)).symm
        obtain ⟨share, hs, -⟩ := C10_interpolates p.F (l.map fun q => ((q.1 : ℕ) : Fr)) (l.map (·.2)) (by simpa using hfull)
          (by simpa using hfull) hdist
        refine ⟨share, l, ?_, by omega, hlnodup, ?_, hs⟩
        · rw [shareReduceReceive, shareReduceStep]
          have := hstep
          rw [if_pos hfull, htake, hs] at this
          change shareReduceStepMsg codec pp p st m.1 (unmarshalD _ m.2) = _ at this
          rw [this]
          rfl
        · intro q hq
          rw [← hc, hsplit]
          exact (hlexpl q hq).mono fun m' h => List.mem_append_left _ h
      · rw [if_neg hfull] at hstep
        have hrec : shareReduceReceive codec pp p st (m :: rest) =
            shareReduceReceive codec pp p ⟨fun c => if c = (srMsg m.2).C then l else st.points c, v⟩ rest := by
          rw [shareReduceReceive, shareReduceStep]
          change shareReduceStepMsg codec pp p st m.1 (unmarshalD _ m.2) = _ at hstep
          rw [hstep]
          rfl
        rw [hrec]
        have := ih (pre ++ [m]) ⟨fun c => if c = (srMsg m.2).C then l else st.points c, v⟩ (by rw [← hsplit]; exact hnd)
          (by rw [← hsplit]; exact hhon) (by
          constructor
          · intro c
            simp only
            split
            · exact hlnodup
            · exact inv.nodup c
          · intro c
            simp only
            split
            · omega
            · exact inv.short c
          · intro c q hq
            simp only at hq
            split at hq
            · rename_i h; rw [h]; exact hlexpl q hq
            · exact (inv.expl c q hq).mono hmono
          · simp only
            rw [List.filter_append, List.length_append]
            have h1 := inv.count
            split
            · rename_i h
              rw [hl, List.length_append, ← h]
              have : ([m].filter fun m => decide (m.1 ∉ corrupt)).length ≤ 1 := by
                exact (List.length_filter_le _ _)
              simp only [List.length_singleton]
              omega
            · rename_i h
              have : ([m].filter fun m => decide (m.1 ∉ corrupt)).length = 0 := by
                have hm : m.1 ∈ corrupt := by
                  by_contra hcon
                  apply h
                  rw [srMsg_honest _ _ _ _ _ _ _ _ (hhon m (by simp) hcon), hc0]
                simp [hm]
              omega)
        rw [← hsplit] at this
        rcases this with ⟨h1, m', hm', h2⟩ | h | h
        · exact Or.inl ⟨h1, m', by simp [hm'], h2⟩
        · exact Or.inr (Or.inl h)
        · exact Or.inr (Or.inr h)
    · -- not verified
      have hrec : shareReduceReceive codec pp p st (m :: rest) = shareReduceReceive codec pp p ⟨st.points, v⟩ rest := by
        rw [shareReduceReceive, shareReduceStep]
        change shareReduceStepMsg codec pp p st m.1 (unmarshalD _ m.2) = _ at hstep
        rw [hstep]
        rfl
      rw [hrec]
      have := ih (pre ++ [m]) ⟨st.points, v⟩ (by rw [← hsplit]; exact hnd)
        (by rw [← hsplit]; exact hhon) (by
        constructor
        · exact inv.nodup
        · exact inv.short
        · intro c q hq
          exact (inv.expl c q hq).mono hmono
        · rw [List.filter_append, List.length_append]
          have h1 := inv.count
          have : ([m].filter fun m => decide (m.1 ∉ corrupt)).length = 0 := by
            have hm : m.1 ∈ corrupt := by
              by_contra hcon
              apply hver
              have hh := srMsg_honest _ _ _ _ _ _ _ _ (hhon m (by simp) hcon)
              rw [hh] at hC hW hv
              rw [codec.dec_enc] at hC hW
              cases hC; cases hW
              rw [hv]
              simp only
              rw [frFrom32_copy, ← sub_smul, smul_smul, ← polyVal_sliceX, ← quotVal_mul, mul_comm]
            simp [hm]
          simp only
          omega)
      rw [← hsplit] at this
      rcases this with ⟨h1, m', hm', h2⟩ | h | h
      · exact Or.inl ⟨h1, m', by simp [hm'], h2⟩
      · exact Or.inr (Or.inl h)
      · exact Or.inr (Or.inr h)

/-- Messages after the loop has ended are not read. -/
theorem receive_append (codec : PointCodec G1) (pp : Pairing Fr G1 G2 GT) (p p' : Party G1 G2) (l rest : List (UInt32 × Bytes))
    (st : SRState) (h : shareReduceReceive codec pp p st l = .ok (some p')) :
    shareReduceReceive codec pp p st (l ++ rest) = .ok (some p') := by
  induction l generalizing st with
  | nil => cases h
  | cons m l ih =>
    rw [List.cons_append, shareReduceReceive]
    rw [shareReduceReceive] at h
    cases hs : shareReduceStep codec pp p st m with
    | error e => rw [hs] at h; cases h
    | ok r =>
      obtain ⟨st', r⟩ := r
      rw [hs, Go.ok_bind] at h
      rw [Go.ok_bind]
      cases r with
      | none => exact ih st' h
      | some share => exact h

/-- A value explained by the commitment to `B(·,j)` is `B(x,j)`, or an explicit polynomial reveals the setup secret. -/
theorem explained_value (codec : PointCodec G1) (pp : Pairing Fr G1 G2 GT) (t : Fr) (b : ℕ → ℕ → Fr) (F j : ℕ) (hF : 1 ≤ F)
    (corrupt : Finset UInt32) (msgs : List (UInt32 × Bytes))
    (hhon : ∀ m ∈ msgs, m.1 ∉ corrupt → HonestSR codec pp t b F (m.1 + 1).toNat j m.2)
    (w : UInt32 × Bytes → Fr[X])
    (halg : ∀ m ∈ msgs, m.1 ∈ corrupt → ∀ W, codec.dec (srMsg m.2).W = some W → W = (w m).eval t • pp.g1)
    (q : ℕ × Fr) (hq : SRExplained codec pp t msgs (codec.enc (polyVal (sliceX b F (2 * F) (j : Fr)) t • pp.g1)) q) :
    q.2 = polyVal (sliceX b F (2 * F) (j : Fr)) (q.1 : Fr) ∨
    ∃ m ∈ msgs, m.1 ∈ corrupt ∧ ∃ v : Fr,
      polyOf (sliceX b F (2 * F) (j : Fr)) - C v - w m * (X - C (((m.1 + 1).toNat : ℕ) : Fr)) ≠ 0 ∧
      (polyOf (sliceX b F (2 * F) (j : Fr)) - C v - w m * (X - C (((m.1 + 1).toNat : ℕ) : Fr))).eval t = 0 := by
  classical
  obtain ⟨m, hm, C', W, vJ, h1, h1', h2, h3, h4, h5⟩ := hq
  rw [codec.dec_enc] at h3
  cases h3
  by_cases hc : m.1 ∈ corrupt
  · have hW := halg m hm hc W h4
    rw [hW, h1] at h5
    rcases C15_binding_algebraic pp t (F + 1) (by omega) (polyOf (sliceX b F (2 * F) (j : Fr))) (w m) (((m.1 + 1).toNat : ℕ) : Fr) q.2 (by
      rw [checkProofSingle_ok pp t _ (by omega), eval_polyOf, decide_eq_true h5]) with h | h
    · left; rw [← h, eval_polyOf, h1]
    · right; exact ⟨m, hm, hc, q.2, h⟩
  · left
    have hh := srMsg_honest _ _ _ _ _ _ _ _ (hhon m hm hc)
    rw [h1', hh, h1, frFrom32_copy, polyVal_sliceX]

theorem SRInv.init (codec : PointCodec G1) (pp : Pairing Fr G1 G2 GT) (t : Fr) (F : ℕ) (corrupt : Finset UInt32) (c0 : Bytes) :
    SRInv codec pp t F corrupt c0 [] SRState.init :=
  ⟨fun _ => by simp [SRState.init], fun _ => by simp [SRState.init], fun _ q h => by simp [SRState.init] at h, by simp⟩

end

end DyCAPS
