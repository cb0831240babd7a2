import Verif.Lemmas.Final

/-! What a member has stored from ShareDist, and where it comes from. -/

set_option linter.unusedSectionVars false

namespace DyCAPS

section
variable {G1 G2 GT : Type} [AddCommGroup G1] [Module Fr G1] [AddCommGroup G2] [Module Fr G2] [AddCommGroup GT] [Module Fr GT]
variable [DecidableEq G1] [DecidableEq GT]
variable {codec : PointCodec G1} {pp : Pairing Fr G1 G2 GT} {tb : Tbls}

/-- The scalar in a ShareDist payload. -/
def distValue (d : Bytes) : Fr := (frFrom32 0 (copy32 (unmarshalD (⟨[], []⟩ : PShareDist) d).B)).1

/-- Every stored point was in a ShareDist message and opens a commitment that was received as NewCommit and is the old commitment plus the sum of the contributions. -/
structure AcctInv (codec : PointCodec G1) (pp : Pairing Fr G1 G2 GT) (p0 : Party G1 G2) (evs : List PEvent) (p : Party G1 G2) (st : PState G1) : Prop where
  once : OnceInv p0 p st
  wait : ∀ q ∈ st.distWait, ∃ s, PEvent.shareDist s q.2 ∈ evs ∧ (s + 1).toNat = q.1
  fresh : ∀ j, st.newComDone j = false → st.SCom j = none
  tok : ∀ j, st.token j = true → ∃ C, st.SCom j = some C
  com : ∀ j C, st.SCom j = some C → 1 ≤ j ∧ j ≤ p0.N ∧ ∃ Cs old d, st.refresh = .done Cs ∧ oldCom p0 j = .ok old ∧ C = old + Cs j ∧ PEvent.newCommit j (some d) ∈ evs ∧ codec.decode! d = .ok C
  sb : ∀ q ∈ st.SB, ∃ s d w C, PEvent.shareDist s d ∈ evs ∧ (s + 1).toNat = q.1 ∧ codec.decode! (unmarshalD (⟨[], []⟩ : PShareDist) d).wB = .ok w ∧ q.2 = distValue d ∧ st.SCom q.1 = some C ∧
    checkProofSingle pp p0.kzg C w ((p0.pid + 1 : ℕ) : Fr) q.2 = .ok true
  full : st.successSent = true → 2 * p0.F + 1 ≤ st.SB.length ∧
    lagrangeInterpolate (2 * p0.F) ((st.SB.take (2 * p0.F + 1)).map fun q => ((q.1 : ℕ) : Fr)) ((st.SB.take (2 * p0.F + 1)).map (·.2)) = .ok p.fullShare

theorem AcctInv.init (p0 : Party G1 G2) (c : DealerCoins) : AcctInv codec pp p0 [] p0 (PState.init p0 c) where
  once := .init p0 c
  wait := fun q hq => absurd hq List.not_mem_nil
  fresh := fun _ _ => rfl
  tok := fun j h => by cases h
  com := fun j C h => by cases h
  sb := fun q hq => absurd hq List.not_mem_nil
  full := fun h => by cases h

theorem DistTake.origin {N : ℕ} {st : PState G1} {ev : PEvent} {j n : ℕ} {d : Bytes} {W : List (ℕ × Bytes)} {evs : List PEvent} (h : DistTake N st ev j d n W)
    (hw : ∀ q ∈ st.distWait, ∃ s, PEvent.shareDist s q.2 ∈ evs ∧ (s + 1).toNat = q.1) :
    (∃ s, PEvent.shareDist s d ∈ evs ++ [ev] ∧ (s + 1).toNat = j) ∧ ∀ q ∈ W, ∃ s, PEvent.shareDist s q.2 ∈ evs ++ [ev] ∧ (s + 1).toNat = q.1 := by
  have hw' : ∀ q ∈ st.distWait, ∃ s, PEvent.shareDist s q.2 ∈ evs ++ [ev] ∧ (s + 1).toNat = q.1 := fun q hq => by
    obtain ⟨s, h1, h2⟩ := hw q hq
    exact ⟨s, List.mem_append_left _ h1, h2⟩
  cases h with
  | @now s d h0 h1 => exact ⟨⟨s, List.mem_append_right _ (List.mem_singleton.2 rfl), rfl⟩, hw'⟩
  | later h0 => exact ⟨hw' _ h0, fun q hq => hw' q (List.mem_of_mem_erase hq)⟩

theorem AcctInv.step {p0 p p' : Party G1 G2} {st st' : PState G1} {evs : List PEvent} {ev : PEvent} {out : List POut} (I : AcctInv codec pp p0 evs p st)
    (h : PEffect codec pp tb p st ev p' st' out) : AcctInv codec pp p0 (evs ++ [ev]) p' st' := by
  obtain ⟨O, S⟩ := once_effect I.once h
  have hst := I.once.static
  have hN : p.N = p0.N := by rw [hst]
  have hF : p.F = p0.F := by rw [hst]
  have hk : p.kzg = p0.kzg := by rw [hst]
  have hpid : p.pid = p0.pid := by rw [hst]
  have ho : ∀ j, oldCom p j = oldCom p0 j := fun j => by rw [hst]; rfl
  have hw' : ∀ q ∈ st.distWait, ∃ s, PEvent.shareDist s q.2 ∈ evs ++ [ev] ∧ (s + 1).toNat = q.1 := fun q hq => by
    obtain ⟨s, h1, h2⟩ := I.wait q hq
    exact ⟨s, List.mem_append_left _ h1, h2⟩
  have hsb : ∀ q ∈ st.SB, ∃ s d w C, PEvent.shareDist s d ∈ evs ++ [ev] ∧ (s + 1).toNat = q.1 ∧ codec.decode! (unmarshalD (⟨[], []⟩ : PShareDist) d).wB = .ok w ∧ q.2 = distValue d ∧
      st.SCom q.1 = some C ∧ checkProofSingle pp p0.kzg C w ((p0.pid + 1 : ℕ) : Fr) q.2 = .ok true := fun q hq => by
    obtain ⟨s, d, w, C, h1, h2⟩ := I.sb q hq
    exact ⟨s, d, w, C, List.mem_append_left _ h1, h2⟩
  have hcom : ∀ (r : Refresh G1), (∀ Cs, st.refresh = .done Cs → r = .done Cs) → ∀ j C, st.SCom j = some C → 1 ≤ j ∧ j ≤ p0.N ∧
      ∃ Cs old d, r = .done Cs ∧ oldCom p0 j = .ok old ∧ C = old + Cs j ∧ PEvent.newCommit j (some d) ∈ evs ++ [ev] ∧ codec.decode! d = .ok C := by
    intro r hr j C hC
    obtain ⟨h1, h2, Cs, old, d, h3, h4, h5, h6, h7⟩ := I.com j C hC
    exact ⟨h1, h2, Cs, old, d, hr Cs h3, h4, h5, List.mem_append_left _ h6, h7⟩
  have keep : ∀ (p'' : Party G1 G2) (st'' : PState G1), OnceInv p0 p'' st'' → (∀ Cs, st.refresh = .done Cs → st''.refresh = .done Cs) → p''.fullShare = p.fullShare → st''.successSent = st.successSent →
      st''.distWait = st.distWait → st''.SCom = st.SCom → st''.token = st.token → st''.SB = st.SB → st''.newComDone = st.newComDone → AcctInv codec pp p0 (evs ++ [ev]) p'' st'' := by
    intro p'' st'' hO hr hf hs h1 h2 h3 h4 h5
    refine ⟨hO, ?_, ?_, ?_, ?_, ?_, ?_⟩
    · rw [h1]; exact hw'
    · rw [h5, h2]; exact I.fresh
    · rw [h3, h2]; exact I.tok
    · rw [h2]; exact hcom _ hr
    · rw [h4, h2]; exact hsb
    · rw [hs, h4, hf]; exact I.full
  have hr' : ∀ Cs, st.refresh = .done Cs → st'.refresh = .done Cs := fun Cs hCs => (S.reduced Cs hCs).1
  cases h with
  | @newOk j d Cs old h1 h2 h3 h4 h5 h6 =>
    have hnone := I.fresh j h3
    refine ⟨O, hw', ?_, ?_, ?_, ?_, I.full⟩
    · intro i hi
      dsimp only at hi ⊢
      by_cases hij : i = j
      · subst hij; rw [upd_same] at hi; cases hi
      · rw [upd_ne _ _ hij] at hi ⊢; exact I.fresh i hi
    · intro i hi
      dsimp only at hi ⊢
      by_cases hij : i = j
      · subst hij; exact ⟨_, upd_same _ _ _⟩
      · rw [upd_ne _ _ hij] at hi ⊢; exact I.tok i hi
    · intro i C hC
      dsimp only at hC
      by_cases hij : i = j
      · subst hij
        rw [upd_same] at hC
        cases hC
        exact ⟨h1, hN ▸ h2, Cs, old, d, h4, by rw [← ho]; exact h5, rfl, List.mem_append_right _ (List.mem_singleton.2 rfl), h6⟩
      · rw [upd_ne _ _ hij] at hC; exact hcom _ hr' i C hC
    · intro q hq
      obtain ⟨s, d', w, C, a, b, e, f, g, k⟩ := hsb q hq
      refine ⟨s, d', w, C, a, b, e, f, ?_, k⟩
      by_cases hij : q.1 = j
      · rw [hij, hnone] at g; cases g
      · exact (upd_ne _ _ hij).trans g
  | newBad h1 h2 h3 h4 h5 h6 h7 =>
    refine ⟨O, hw', ?_, I.tok, hcom _ hr', hsb, I.full⟩
    rename_i j _ _ _ _
    intro i hi
    dsimp only at hi ⊢
    by_cases hij : i = j
    · subst hij; rw [upd_same] at hi; cases hi
    · rw [upd_ne _ _ hij] at hi; exact I.fresh i hi
  | @distBad _ j _ n W w Cs h1 h2 h3 h4 h5 =>
    refine ⟨O, (h1.origin I.wait).2, I.fresh, ?_, hcom _ hr', hsb, I.full⟩
    intro i hi
    dsimp only at hi ⊢
    by_cases hij : i = j
    · subst hij; rw [upd_same] at hi; cases hi
    · rw [upd_ne _ _ hij] at hi; exact I.tok i hi
  | @distOk _ j d n W w Cs h1 h2 h3 h4 h5 h6 =>
    obtain ⟨⟨s, hs1, hs2⟩, hW⟩ := h1.origin I.wait
    refine ⟨O, hW, I.fresh, ?_, hcom _ hr', ?_, ?_⟩
    · intro i hi
      dsimp only at hi ⊢
      by_cases hij : i = j
      · subst hij; rw [upd_same] at hi; cases hi
      · rw [upd_ne _ _ hij] at hi; exact I.tok i hi
    · intro q hq
      rcases List.mem_append.1 hq with hq | hq
      · exact hsb q hq
      · rw [List.mem_singleton] at hq
        subst hq
        obtain ⟨C, hC⟩ := I.tok j h3
        rw [hC, Option.getD_some, hk, hpid] at h5
        exact ⟨s, d, w, C, hs1, hs2, h4, rfl, hC, h5⟩
    · intro hsucc
      have := I.full hsucc
      refine ⟨by rw [List.length_append]; omega, ?_⟩
      rw [List.take_append_of_le_length this.1]
      exact this.2
  | @distFull _ j d n W w Cs full h1 h2 h3 h4 h5 h6 h7 h8 =>
    obtain ⟨⟨s, hs1, hs2⟩, hW⟩ := h1.origin I.wait
    refine ⟨O, hW, I.fresh, ?_, hcom _ hr', ?_, ?_⟩
    · intro i hi
      dsimp only at hi ⊢
      by_cases hij : i = j
      · subst hij; rw [upd_same] at hi; cases hi
      · rw [upd_ne _ _ hij] at hi; exact I.tok i hi
    · intro q hq
      rcases List.mem_append.1 hq with hq | hq
      · exact hsb q hq
      · rw [List.mem_singleton] at hq
        subst hq
        obtain ⟨C, hC⟩ := I.tok j h3
        rw [hC, Option.getD_some, hk, hpid] at h5
        exact ⟨s, d, w, C, hs1, hs2, h4, rfl, hC, h5⟩
    · intro _
      rw [hF] at h7 h8
      exact ⟨by rw [List.length_append]; exact h7, h8⟩
  | @distPark s d Cs h0 h1 h2 h3 =>
    refine ⟨O, ?_, I.fresh, I.tok, hcom _ hr', hsb, I.full⟩
    intro q hq
    rcases List.mem_append.1 hq with hq | hq
    · exact hw' q hq
    · rw [List.mem_singleton] at hq
      subst hq
      exact ⟨s, List.mem_append_right _ (List.mem_singleton.2 rfl), rfl⟩
  | _ => exact keep _ _ O hr' rfl rfl rfl rfl rfl rfl rfl

theorem PRun.account {p0 p : Party G1 G2} {c : DealerCoins} {st : PState G1} {evs : List PEvent} {outs : List POut} (h : PRun codec pp tb p0 (PState.init p0 c) evs outs p st) :
    AcctInv codec pp p0 evs p st := by
  induction h with
  | nil => exact .init p0 c
  | snoc h hs ih => exact ih.step (step_effect hs)

/-- The row of commitments that a Commit message of `k` leaves when it is accepted. -/
def CommitRow (codec : PointCodec G1) (pp : Pairing Fr G1 G2 GT) (p0 : Party G1 G2) (evs : List PEvent) (k : ℕ) (row : ℕ → G1) : Prop :=
  ∃ d, PEvent.commit k (some d) ∈ evs ∧ verifyCommit codec pp p0 (fun _ => 0) (unmarshalD (⟨[]⟩ : PCommit) d) = .ok (row, true)

/-- A Recover message the party has received for `k`. -/
def RecoverFrom (codec : PointCodec G1) (p0 : Party G1 G2) (evs : List PEvent) (m : RecoverMsg G1) : Prop :=
  ∃ s d, PEvent.takeRecover s d ∈ evs ∧ decodeRecover codec p0 s d = .ok m

/-- A stored point of contribution `k`. -/
def RecPoint (codec : PointCodec G1) (pp : Pairing Fr G1 G2 GT) (tb : Tbls) (p0 : Party G1 G2) (evs : List PEvent) (k : ℕ) (q : ℕ × Fr) : Prop :=
  ∃ m row, RecoverFrom codec p0 evs m ∧ CommitRow codec pp p0 evs k row ∧ m.k = k ∧ q = (m.x, m.v) ∧
    checkProofSingle pp p0.kzg (row (p0.pid + 1)) m.w ((m.x : ℕ) : Fr) m.v = .ok true ∧ tb.verifyPartial (decimalBytes k) m.sigShare = true

theorem RecPoint.mono {p0 : Party G1 G2} {evs : List PEvent} {k : ℕ} {q : ℕ × Fr} (ev : PEvent) (h : RecPoint codec pp tb p0 evs k q) : RecPoint codec pp tb p0 (evs ++ [ev]) k q := by
  obtain ⟨m, row, ⟨s, d, h1, h2⟩, ⟨d', h3, h4⟩, h⟩ := h
  exact ⟨m, row, ⟨s, d, List.mem_append_left _ h1, h2⟩, ⟨d', List.mem_append_left _ h3, h4⟩, h⟩

/-- Where the stored points of the contributions come from. -/
structure RecSource (codec : PointCodec G1) (pp : Pairing Fr G1 G2 GT) (tb : Tbls) (p0 : Party G1 G2) (c : DealerCoins) (evs : List PEvent) (p : Party G1 G2) (st : PState G1) : Prop where
  once : OnceInv p0 p st
  fresh : ∀ k, st.comDone k = false → st.flgCom k = false ∧ st.CQ k = fun _ => 0
  norec : ∀ k, st.flgCom k = false → st.flgRec k = false
  row : ∀ k, st.flgCom k = true → st.flgRec k = false → CommitRow codec pp p0 evs k (st.CQ k)
  slot : ∀ m, st.slot = some m → RecoverFrom codec p0 evs m
  held : ∀ k m, st.held k = some m → RecoverFrom codec p0 evs m ∧ m.k = k ∧ st.flgCom k = true
  wait : ∀ k, st.flgRec k = false → st.Q k = (PState.init p0 c : PState G1).Q k ∧ ∀ q ∈ st.SRec k, RecPoint codec pp tb p0 evs k q
  full : ∀ k, st.flgRec k = true → p0.F + 1 ≤ (st.SRec k).length ∧ (∀ q ∈ (st.SRec k).take (p0.F + 1), RecPoint codec pp tb p0 evs k q) ∧
    lagrangeInterpolate p0.F (((st.SRec k).take (p0.F + 1)).map fun q => ((q.1 : ℕ) : Fr)) (((st.SRec k).take (p0.F + 1)).map (·.2)) = .ok (st.Q k)

theorem RecSource.init (p0 : Party G1 G2) (c : DealerCoins) : RecSource codec pp tb p0 c [] p0 (PState.init p0 c) where
  once := .init p0 c
  fresh := fun _ _ => ⟨rfl, rfl⟩
  norec := fun _ _ => rfl
  row := fun k h => by cases h
  slot := fun m h => by cases h
  held := fun k m h => by cases h
  wait := fun k _ => ⟨rfl, fun q hq => absurd hq List.not_mem_nil⟩
  full := fun k h => by cases h

theorem RecSource.step {p0 p p' : Party G1 G2} {c : DealerCoins} {st st' : PState G1} {evs : List PEvent} {ev : PEvent} {out : List POut} (I : RecSource codec pp tb p0 c evs p st)
    (h : PEffect codec pp tb p st ev p' st' out) : RecSource codec pp tb p0 c (evs ++ [ev]) p' st' := by
  have O := (once_effect I.once h).1
  have hst := I.once.static
  have hF : p.F = p0.F := by rw [hst]
  have hk : p.kzg = p0.kzg := by rw [hst]
  have hpid : p.pid = p0.pid := by rw [hst]
  have hv : ∀ row m, verifyCommit codec pp p row m = verifyCommit codec pp p0 row m := fun _ _ => by rw [hst]; rfl
  have hdec : ∀ s d, decodeRecover codec p s d = decodeRecover codec p0 s d := fun _ _ => by rw [hst]; rfl
  have mrow : ∀ {k row}, CommitRow codec pp p0 evs k row → CommitRow codec pp p0 (evs ++ [ev]) k row := fun ⟨d, h1, h2⟩ => ⟨d, List.mem_append_left _ h1, h2⟩
  have mrec : ∀ {m}, RecoverFrom codec p0 evs m → RecoverFrom codec p0 (evs ++ [ev]) m := fun ⟨s, d, h1, h2⟩ => ⟨s, d, List.mem_append_left _ h1, h2⟩
  have hrow : ∀ k, st.flgCom k = true → st.flgRec k = false → CommitRow codec pp p0 (evs ++ [ev]) k (st.CQ k) := fun k h1 h2 => mrow (I.row k h1 h2)
  have hslot : ∀ m, st.slot = some m → RecoverFrom codec p0 (evs ++ [ev]) m := fun m h => mrec (I.slot m h)
  have hheld : ∀ k m, st.held k = some m → RecoverFrom codec p0 (evs ++ [ev]) m ∧ m.k = k ∧ st.flgCom k = true := fun k m h => ⟨mrec (I.held k m h).1, (I.held k m h).2⟩
  have hwait : ∀ k, st.flgRec k = false → st.Q k = (PState.init p0 c : PState G1).Q k ∧ ∀ q ∈ st.SRec k, RecPoint codec pp tb p0 (evs ++ [ev]) k q :=
    fun k h => ⟨(I.wait k h).1, fun q hq => ((I.wait k h).2 q hq).mono ev⟩
  have hfull : ∀ k, st.flgRec k = true → p0.F + 1 ≤ (st.SRec k).length ∧ (∀ q ∈ (st.SRec k).take (p0.F + 1), RecPoint codec pp tb p0 (evs ++ [ev]) k q) ∧
      lagrangeInterpolate p0.F (((st.SRec k).take (p0.F + 1)).map fun q => ((q.1 : ℕ) : Fr)) (((st.SRec k).take (p0.F + 1)).map (·.2)) = .ok (st.Q k) :=
    fun k h => ⟨(I.full k h).1, fun q hq => ((I.full k h).2.1 q hq).mono ev, (I.full k h).2.2⟩
  have keep : ∀ (p'' : Party G1 G2) (st'' : PState G1), OnceInv p0 p'' st'' → st''.comDone = st.comDone → st''.flgCom = st.flgCom → st''.CQ = st.CQ → st''.flgRec = st.flgRec →
      st''.Q = st.Q → st''.SRec = st.SRec → st''.slot = st.slot → st''.held = st.held → RecSource codec pp tb p0 c (evs ++ [ev]) p'' st'' := by
    intro p'' st'' hO h1 h2 h3 h4 h5 h6 h7 h8
    refine ⟨hO, ?_, ?_, ?_, ?_, ?_, ?_, ?_⟩
    · rw [h1, h2, h3]; exact I.fresh
    · rw [h2, h4]; exact I.norec
    · rw [h2, h4, h3]; exact hrow
    · rw [h7]; exact hslot
    · rw [h8, h2]; exact hheld
    · rw [h4, h5, h6]; exact hwait
    · rw [h4, h5, h6]; exact hfull
  have accept : ∀ {k : ℕ} {m : RecoverMsg G1} {fr : ℕ → Bool} {Q : ℕ → List Fr} (cb mi ms mr), st.held k = some m → Accepts pp tb p st k m → PointEffect p.F st k m fr Q →
      OnceInv p0 p (afterAccept st k m fr Q cb mi ms mr) → RecSource codec pp tb p0 c (evs ++ [ev]) p (afterAccept st k m fr Q cb mi ms mr) := by
    intro k m fr Q cb mi ms mr h2 h3 hQ hO
    obtain ⟨e1, e2, e3⟩ := hheld k m h2
    have hpt : st.flgRec k = false → RecPoint codec pp tb p0 (evs ++ [ev]) k (m.x, m.v) := fun hr => by
      refine ⟨m, st.CQ k, e1, hrow k e3 hr, e2, rfl, ?_, h3.2⟩
      rw [← hk, ← hpid]; exact h3.1
    have hall : st.flgRec k = false → ∀ q ∈ st.SRec k ++ [(m.x, m.v)], RecPoint codec pp tb p0 (evs ++ [ev]) k q := fun hr q hq => by
      rcases List.mem_append.1 hq with hq | hq
      · exact (hwait k hr).2 q hq
      · rw [List.mem_singleton] at hq; subst hq; exact hpt hr
    have hheld' : ∀ i m', (upd st.held k none) i = some m' → RecoverFrom codec p0 (evs ++ [ev]) m' ∧ m'.k = i ∧ st.flgCom i = true := by
      intro i m' h
      by_cases hik : i = k
      · subst hik; rw [upd_same] at h; cases h
      · rw [upd_ne _ _ hik] at h; exact hheld i m' h
    rw [hF] at hQ
    rcases hQ with ⟨hn, rfl, rfl⟩ | ⟨hr, hl, rfl, poly, rfl, hp⟩
    · refine ⟨hO, I.fresh, I.norec, hrow, hslot, hheld', ?_, ?_⟩
      · intro i hi
        refine ⟨(hwait i hi).1, ?_⟩
        show ∀ q ∈ (upd st.SRec k (st.SRec k ++ [(m.x, m.v)])) i, _
        by_cases hik : i = k
        · subst hik; rw [upd_same]; exact hall hi
        · rw [upd_ne _ _ hik]; exact (hwait i hi).2
      · intro i hi
        show p0.F + 1 ≤ ((upd st.SRec k (st.SRec k ++ [(m.x, m.v)])) i).length ∧ (∀ q ∈ ((upd st.SRec k (st.SRec k ++ [(m.x, m.v)])) i).take (p0.F + 1), _) ∧
          lagrangeInterpolate p0.F ((((upd st.SRec k (st.SRec k ++ [(m.x, m.v)])) i).take (p0.F + 1)).map fun q => ((q.1 : ℕ) : Fr))
            ((((upd st.SRec k (st.SRec k ++ [(m.x, m.v)])) i).take (p0.F + 1)).map (·.2)) = .ok (st.Q i)
        obtain ⟨f1, f2, f3⟩ := hfull i hi
        by_cases hik : i = k
        · subst hik
          rw [upd_same, List.take_append_of_le_length f1]
          exact ⟨by rw [List.length_append]; omega, f2, f3⟩
        · rw [upd_ne _ _ hik]; exact ⟨f1, f2, f3⟩
    · refine ⟨hO, I.fresh, ?_, ?_, hslot, hheld', ?_, ?_⟩
      · intro i hi
        show (upd st.flgRec k true) i = false
        by_cases hik : i = k
        · subst hik; replace hi : st.flgCom i = false := hi; rw [e3] at hi; cases hi
        · rw [upd_ne _ _ hik]; exact I.norec i hi
      · intro i h1 h2
        replace h2 : (upd st.flgRec k true) i = false := h2
        by_cases hik : i = k
        · subst hik; rw [upd_same] at h2; cases h2
        · rw [upd_ne _ _ hik] at h2; exact hrow i h1 h2
      · intro i hi
        replace hi : (upd st.flgRec k true) i = false := hi
        show (upd st.Q k poly) i = _ ∧ ∀ q ∈ (upd st.SRec k (st.SRec k ++ [(m.x, m.v)])) i, _
        by_cases hik : i = k
        · subst hik; rw [upd_same] at hi; cases hi
        · rw [upd_ne _ _ hik] at hi; rw [upd_ne _ _ hik, upd_ne _ _ hik]; exact hwait i hi
      · intro i hi
        replace hi : (upd st.flgRec k true) i = true := hi
        show p0.F + 1 ≤ ((upd st.SRec k (st.SRec k ++ [(m.x, m.v)])) i).length ∧ (∀ q ∈ ((upd st.SRec k (st.SRec k ++ [(m.x, m.v)])) i).take (p0.F + 1), _) ∧
          lagrangeInterpolate p0.F ((((upd st.SRec k (st.SRec k ++ [(m.x, m.v)])) i).take (p0.F + 1)).map fun q => ((q.1 : ℕ) : Fr))
            ((((upd st.SRec k (st.SRec k ++ [(m.x, m.v)])) i).take (p0.F + 1)).map (·.2)) = .ok ((upd st.Q k poly) i)
        by_cases hik : i = k
        · subst hik
          rw [upd_same, upd_same]
          exact ⟨by rw [List.length_append, List.length_singleton]; exact hl, fun q hq => hall hr q (List.mem_of_mem_take hq), hp⟩
        · rw [upd_ne _ _ hik] at hi
          rw [upd_ne _ _ hik, upd_ne _ _ hik]; exact hfull i hi
  cases h with
  | @commit j d row ok h1 h2 h3 hvc =>
    obtain ⟨g1, g2⟩ := I.fresh j h3
    rw [g2, hv] at hvc
    refine ⟨O, ?_, ?_, ?_, hslot, ?_, hwait, hfull⟩
    · intro i hi
      dsimp only at hi ⊢
      by_cases hij : i = j
      · subst hij; rw [upd_same] at hi; cases hi
      · rw [upd_ne _ _ hij] at hi; rw [upd_ne _ _ hij, upd_ne _ _ hij]; exact I.fresh i hi
    · intro i hi
      dsimp only at hi ⊢
      by_cases hij : i = j
      · subst hij; exact I.norec i g1
      · rw [upd_ne _ _ hij] at hi; exact I.norec i hi
    · intro i hi hr
      dsimp only at hi hr ⊢
      by_cases hij : i = j
      · subst hij
        rw [upd_same] at hi ⊢
        subst hi
        exact ⟨d, List.mem_append_right _ (List.mem_singleton.2 rfl), hvc⟩
      · rw [upd_ne _ _ hij] at hi ⊢; exact hrow i hi hr
    · intro i m hi
      dsimp only at hi ⊢
      obtain ⟨a, b, e⟩ := hheld i m hi
      refine ⟨a, b, ?_⟩
      by_cases hij : i = j
      · subst hij; rw [g1] at e; cases e
      · rw [upd_ne _ _ hij]; exact e
  | @take s d m h1 hvd =>
    refine ⟨O, I.fresh, I.norec, hrow, ?_, hheld, hwait, hfull⟩
    intro m' hm
    dsimp only at hm
    cases hm
    exact ⟨s, d, List.mem_append_right _ (List.mem_singleton.2 rfl), by rw [← hdec]; exact hvd⟩
  | @pass m h h1 h2 h3 h4 h5 =>
    refine ⟨O, I.fresh, I.norec, hrow, (fun m' hm => by cases hm), ?_, hwait, hfull⟩
    intro i m' hi
    dsimp only at hi ⊢
    by_cases hij : i = m.k
    · subst hij; rw [upd_same] at hi; cases hi; exact ⟨hslot m h, rfl, h3⟩
    · rw [upd_ne _ _ hij] at hi; exact hheld i m' hi
  | @handleBad k m h1 h2 h3 =>
    refine ⟨O, I.fresh, I.norec, hrow, hslot, ?_, hwait, hfull⟩
    intro i m' hi
    replace hi : (upd st.held k none) i = some m' := hi
    by_cases hij : i = k
    · subst hij; rw [upd_same] at hi; cases hi
    · rw [upd_ne _ _ hij] at hi; exact hheld i m' hi
  | handleOk h1 h2 h3 hQ h4 => exact accept _ _ _ _ h2 h3 hQ O
  | handleComb h1 h2 h3 hQ h4 h5 h6 => exact accept _ _ _ _ h2 h3 hQ O
  | handleCall h1 h2 h3 hQ h4 h5 h6 h7 => exact accept _ _ _ _ h2 h3 hQ O
  | @refreshRec j rest Qs Cs cc h1 h2 h3 h4 h5 =>
    refine ⟨O, ?_, I.norec, ?_, hslot, hheld, hwait, hfull⟩
    · intro i hi
      dsimp only at hi ⊢
      have hi' := I.fresh i hi
      by_cases hij : i = j
      · subst hij; rw [I.norec i hi'.1] at h4; cases h4
      · rw [upd_ne _ _ hij]; exact hi'
    · intro i hi hr
      dsimp only at hi hr ⊢
      by_cases hij : i = j
      · subst hij; rw [hr] at h4; cases h4
      · rw [upd_ne _ _ hij]; exact hrow i hi hr
  | _ => exact keep _ _ O rfl rfl rfl rfl rfl rfl rfl rfl

theorem PRun.recSource {p0 p : Party G1 G2} {c : DealerCoins} {st : PState G1} {evs : List PEvent} {outs : List POut} (h : PRun codec pp tb p0 (PState.init p0 c) evs outs p st) :
    RecSource codec pp tb p0 c evs p st := by
  induction h with
  | nil => exact .init p0 c
  | snoc h hs ih => exact ih.step (step_effect hs)

theorem interpolated_nodup (d : ℕ) (pts : List (ℕ × Fr)) (res : List Fr) (hlen : pts.length = d + 1)
    (hi : lagrangeInterpolate d (pts.map fun q => ((q.1 : ℕ) : Fr)) (pts.map (·.2)) = .ok res) :
    (pts.map Prod.fst).Nodup ∧ res.length = d + 1 ∧ ∀ q ∈ pts, polyVal res ((q.1 : ℕ) : Fr) = q.2 := by
  have hx : d + 1 ≤ (pts.map fun q => ((q.1 : ℕ) : Fr)).length := by rw [List.length_map]; omega
  have hy : d + 1 ≤ (pts.map (·.2)).length := by rw [List.length_map]; omega
  have hd := not_distinct_fatal _ _ _ hx hy _ hi
  obtain ⟨res', h1, h2, h3, -⟩ := C10_interpolates _ _ _ hx hy hd
  rw [h1] at hi
  obtain rfl := Except.ok.inj hi
  refine ⟨?_, h2, ?_⟩
  · rw [List.nodup_iff_getElem?_ne_getElem?]
    intro a b hab hb hne
    rw [List.length_map] at hb
    apply hd a (by omega) b (by omega) (by omega)
    rw [List.getElem?_map, List.getElem?_map, List.getElem?_eq_getElem (by omega), List.getElem?_eq_getElem (by omega), Option.map_some, Option.map_some, Option.some.injEq] at hne
    rw [List.getD_eq_getElem _ _ (by rw [List.length_map]; omega), List.getD_eq_getElem _ _ (by rw [List.length_map]; omega), List.getElem_map, List.getElem_map, hne]
  · intro q hq
    obtain ⟨k, hk, rfl⟩ := List.getElem_of_mem hq
    have := h3 k (by omega)
    rwa [List.getD_eq_getElem _ _ (by rw [List.length_map]; omega), List.getD_eq_getElem _ _ (by rw [List.length_map]; omega), List.getElem_map, List.getElem_map] at this

theorem decodeRecover_message {p : Party G1 G2} {s : UInt32} {d : Bytes} {m : RecoverMsg G1} (h : decodeRecover codec p s d = .ok m) :
    ∃ w, codec.decode! (unmarshalD (⟨0, [], [], []⟩ : PRecover) d).w = .ok w ∧
      m = ⟨(s + 1).toNat, (unmarshalD (⟨0, [], [], []⟩ : PRecover) d).index.toNat, (frFrom32 0 (copy32 (unmarshalD (⟨0, [], [], []⟩ : PRecover) d).v)).1, w,
        (unmarshalD (⟨0, [], [], []⟩ : PRecover) d).sigShare⟩ := by
  unfold decodeRecover at h
  simp only at h
  cases hw : codec.decode! (unmarshalD (⟨0, [], [], []⟩ : PRecover) d).w with
  | error e => rw [hw] at h; cases h
  | ok w =>
    rw [hw, Go.ok_bind] at h
    split at h
    · exact ⟨w, rfl, (Except.ok.inj h).symm⟩
    · cases h

/-- The proposal of a party names `F+1` different contributions, all with combined signatures. -/
structure ProposalInv (F : ℕ) (st : PState G1) (outs : List POut) : Prop where
  inc : ∀ z ∈ st.mvbaIn, st.combined z.1 = true ∧ z.1 < 2 ^ 32
  nodup : (st.mvbaIn.map (·.1)).Nodup
  few : st.mvbaSent = false → st.mvbaIn.length ≤ F
  what : ∀ m, POut.mvba m ∈ outs → m.j.length = F + 1 ∧ (m.j.map (·.toNat)).Nodup ∧ ∀ j ∈ m.j, st.combined j.toNat = true

theorem ProposalInv.step {p0 p p' : Party G1 G2} {c : DealerCoins} {st st' : PState G1} {evs : List PEvent} {ev : PEvent} {outs out : List POut} (R : RecSource codec pp tb p0 c evs p st)
    (I : ProposalInv p0.F st outs) (h : PEffect codec pp tb p st ev p' st' out) : ProposalInv p0.F st' (outs ++ out) := by
  have hF : p.F = p0.F := by rw [R.once.static]
  have keep : ∀ (st'' : PState G1) (out' : List POut), (∀ m, POut.mvba m ∉ out') → st''.mvbaIn = st.mvbaIn → st''.combined = st.combined → st''.mvbaSent = st.mvbaSent → ProposalInv p0.F st'' (outs ++ out') := by
    intro st'' out' ho h1 h2 h3
    refine ⟨?_, ?_, ?_, ?_⟩
    · rw [h1, h2]; exact I.inc
    · rw [h1]; exact I.nodup
    · rw [h1, h3]; exact I.few
    · intro m hm
      rw [h2]
      exact I.what m ((List.mem_append.1 hm).resolve_right (ho m))
  have hmk : ∀ {k m}, st.held k = some m → k < 2 ^ 32 := by
    intro k m hk
    obtain ⟨⟨s, d, -, hd⟩, hmk, -⟩ := R.held k m hk
    obtain ⟨w, -, rfl⟩ := decodeRecover_message hd
    rw [← hmk]
    exact UInt32.toNat_lt _
  have inc' : ∀ {k m sig}, st.held k = some m → ∀ z ∈ st.mvbaIn ++ [(k, sig)], (upd st.combined k true) z.1 = true ∧ z.1 < 2 ^ 32 := by
    intro k m sig hk z hz
    rcases List.mem_append.1 hz with hz | hz
    · refine ⟨?_, (I.inc z hz).2⟩
      by_cases hzk : z.1 = k
      · rw [hzk, upd_same]
      · rw [upd_ne _ _ hzk]; exact (I.inc z hz).1
    · rw [List.mem_singleton] at hz
      subst hz
      exact ⟨upd_same _ _ _, hmk hk⟩
  have nodup' : ∀ {k : ℕ} {sig : Bytes}, st.combined k = false → ((st.mvbaIn ++ [(k, sig)]).map (·.1)).Nodup := by
    intro k sig hk
    rw [List.map_append, List.nodup_append]
    refine ⟨I.nodup, List.nodup_singleton _, ?_⟩
    intro a ha b hb hab
    rw [List.map_singleton, List.mem_singleton] at hb
    obtain ⟨z, hz, rfl⟩ := List.mem_map.1 ha
    have := (I.inc z hz).1
    rw [hab, hb] at this
    rw [hk] at this; cases this
  have old : ∀ {k}, ∀ m, POut.mvba m ∈ outs → m.j.length = p0.F + 1 ∧ (m.j.map (·.toNat)).Nodup ∧ ∀ j ∈ m.j, (upd st.combined k true) j.toNat = true := by
    intro k m hm
    obtain ⟨a, b, e⟩ := I.what m hm
    refine ⟨a, b, fun j hj => ?_⟩
    by_cases hjk : j.toNat = k
    · rw [hjk, upd_same]
    · rw [upd_ne _ _ hjk]; exact e j hj
  cases h with
  | @handleComb k m fr Q h1 h2 h3 hQ h4 h5 h6 =>
    refine ⟨inc' h2, nodup' h4, ?_, ?_⟩
    · intro hs
      replace hs : st.mvbaSent = false := hs
      have := I.few hs
      rw [hF] at h6
      have : ¬ p0.F + 1 ≤ st.mvbaIn.length + 1 := fun hh => h6 ⟨hs, hh⟩
      show (st.mvbaIn ++ [_]).length ≤ _
      rw [List.length_append, List.length_singleton]; omega
    · intro m' hm
      rw [List.append_nil] at hm
      exact old m' hm
  | @handleCall k m fr Q h1 h2 h3 hQ h4 h5 h6 h7 =>
    refine ⟨inc' h2, nodup' h4, (fun hs => by cases hs), ?_⟩
    intro m' hm
    rcases List.mem_append.1 hm with hm | hm
    · exact old m' hm
    · rw [List.mem_singleton] at hm
      cases hm
      have hlen := I.few h6
      rw [hF] at h7
      have e : ∀ L : List (ℕ × Bytes), (∀ z ∈ L, z.1 < 2 ^ 32) → (L.map fun q => UInt32.ofNat q.1).map (·.toNat) = L.map (·.1) := by
        intro L hL
        rw [List.map_map]
        apply List.map_congr_left
        intro z hz
        exact UInt32.toNat_ofNat_of_lt' (hL z hz)
      refine ⟨?_, ?_, ?_⟩
      · show (List.map _ (st.mvbaIn ++ [_])).length = _
        rw [List.length_map, List.length_append, List.length_singleton]; omega
      · show ((List.map _ (st.mvbaIn ++ [_])).map _).Nodup
        rw [e _ fun z hz => (inc' h2 z hz).2]
        exact nodup' h4
      · intro j hj
        obtain ⟨z, hz, rfl⟩ := List.mem_map.1 hj
        have hz' := inc' h2 z hz
        rw [UInt32.toNat_ofNat_of_lt' hz'.2]
        exact hz'.1
  | reshare h1 h2 hv =>
    refine keep _ _ (fun m hm => ?_) rfl rfl rfl
    exact vote_no_mvba _ _ _ _ _ hv m hm
  | _ => exact keep _ _ (fun m hm => by simp at hm) rfl rfl rfl

theorem PRun.proposed {p0 p : Party G1 G2} {c : DealerCoins} {st : PState G1} {evs : List PEvent} {outs : List POut} (h : PRun codec pp tb p0 (PState.init p0 c) evs outs p st) :
    ProposalInv p0.F st outs := by
  induction h with
  | nil => exact ⟨fun z hz => absurd hz List.not_mem_nil, List.nodup_nil, fun _ => Nat.zero_le _, fun m hm => absurd hm List.not_mem_nil⟩
  | snoc h hs ih => exact ih.step h.recSource (step_effect hs)

end

end DyCAPS
