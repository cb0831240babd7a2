import Verif.Lemmas.Proactivize

/-! Invariant of one party during Proactivize and ShareDist. -/

set_option linter.unusedSectionVars false

namespace DyCAPS

open Polynomial

@[simp] theorem upd_same {α : Type} (f : ℕ → α) (k : ℕ) (a : α) : upd f k a k = a := by simp [upd]

theorem upd_ne {α : Type} (f : ℕ → α) {k j : ℕ} (a : α) (h : j ≠ k) : upd f k a j = f j := by simp [upd, h]

theorem biVal_refreshed (b : ℕ → ℕ → Fr) (q : ℕ → ℕ → ℕ → Fr) (J : List ℕ) (dx dy : ℕ) (x y : Fr) :
    biVal (refreshed b q J) dx dy x y = biVal b dx dy x y + (J.map fun j => biVal (q j) dx dy x y).sum := by
  induction J with
  | nil =>
    have : refreshed b q [] = b := by funext i k; simp [refreshed]
    rw [this]; simp
  | cons j J ih =>
    have : biVal (refreshed b q (j :: J)) dx dy x y = biVal (refreshed b q J) dx dy x y + biVal (q j) dx dy x y := by
      simp only [biVal, ← Finset.sum_add_distrib]
      apply Finset.sum_congr rfl
      intro i _
      apply Finset.sum_congr rfl
      intro k _
      simp only [refreshed, List.map_cons, List.sum_cons]
      ring
    rw [this, ih, List.map_cons, List.sum_cons]
    ring

section
variable {G1 G2 GT : Type} [AddCommGroup G1] [Module Fr G1] [AddCommGroup G2] [Module Fr G2] [AddCommGroup GT] [Module Fr GT]
variable [DecidableEq G1] [DecidableEq GT]

/-- The assumptions under which the invariant holds: what the messages in `evs` are. -/
structure PHyp (codec : PointCodec G1) (pp : Pairing Fr G1 G2 GT) (t : Fr) (p0 : Party G1 G2) (b : ℕ → ℕ → Fr) (q : ℕ → ℕ → ℕ → Fr)
    (J : List ℕ) (evs : List PEvent) : Prop where
  commits : ∀ j d, PEvent.commit j (some d) ∈ evs → ∀ row row',
    verifyCommit codec pp p0 row (unmarshalD (⟨[]⟩ : PCommit) d) = .ok (row', true) → CommitsTo pp t p0.F p0.N (q j) row'
  result : ∀ r, PEvent.mvba r ∈ evs → (unmarshalD (⟨[], []⟩ : PMVBAIN) r).j.map (·.toNat) = J
  recover : ∀ sender d, PEvent.takeRecover sender d ∈ evs → ∀ m, decodeRecover codec p0 sender d = .ok m →
    checkProofSingle pp p0.kzg (polyVal (sliceX (q m.k) p0.F (2 * p0.F) ((p0.pid + 1 : ℕ) : Fr)) t • pp.g1) m.w ((m.x : ℕ) : Fr) m.v = .ok true →
    m.v = polyVal (sliceX (q m.k) p0.F (2 * p0.F) ((p0.pid + 1 : ℕ) : Fr)) ((m.x : ℕ) : Fr)
  dist : ∀ sender d, PEvent.shareDist sender d ∈ evs → ∀ w,
    codec.dec (unmarshalD (⟨[], []⟩ : PShareDist) d).wB = some w → ∀ v, v = (frFrom32 0 (copy32 (unmarshalD (⟨[], []⟩ : PShareDist) d).B)).1 →
    checkProofSingle pp p0.kzg (polyVal (sliceX (refreshed b q J) p0.F (2 * p0.F) (((sender + 1).toNat : ℕ) : Fr)) t • pp.g1) w
      ((p0.pid + 1 : ℕ) : Fr) v = .ok true →
    v = biVal (refreshed b q J) p0.F (2 * p0.F) ((p0.pid + 1 : ℕ) : Fr) (((sender + 1).toNat : ℕ) : Fr)

theorem PHyp.mono {codec : PointCodec G1} {pp : Pairing Fr G1 G2 GT} {t : Fr} {p0 : Party G1 G2} {b : ℕ → ℕ → Fr} {q : ℕ → ℕ → ℕ → Fr}
    {J : List ℕ} {evs evs' : List PEvent} (h : PHyp codec pp t p0 b q J evs') (hs : ∀ e ∈ evs, e ∈ evs') :
    PHyp codec pp t p0 b q J evs :=
  ⟨fun j d hm => h.commits j d (hs _ hm), fun r hm => h.result r (hs _ hm), fun s d hm => h.recover s d (hs _ hm),
    fun s d hm => h.dist s d (hs _ hm)⟩

/-- The part of `J` that Refresh has processed, with the sum of its commitments. -/
def RefreshOk (pp : Pairing Fr G1 G2 GT) (t : Fr) (p0 : Party G1 G2) (q : ℕ → ℕ → ℕ → Fr) (flgCom : ℕ → Bool) (done : List ℕ) (Cs : ℕ → G1) : Prop :=
  (∀ j ∈ done, flgCom j = true) ∧
  ∀ i, 1 ≤ i → i ≤ p0.N → Cs i = (done.map fun j => polyVal (sliceX (q j) p0.F (2 * p0.F) (i : Fr)) t).sum • pp.g1

structure PInv (codec : PointCodec G1) (pp : Pairing Fr G1 G2 GT) (t : Fr) (p0 : Party G1 G2) (st0 : PState G1) (b : ℕ → ℕ → Fr)
    (q : ℕ → ℕ → ℕ → Fr) (J : List ℕ) (evs : List PEvent) (p : Party G1 G2) (st : PState G1) : Prop where
  static : p = { p0 with reducedShare := p.reducedShare, fullShare := p.fullShare }
  comDone : ∀ j, st.flgCom j = true → st.comDone j = true
  com : ∀ j, st.flgCom j = true → 1 ≤ j ∧ j ≤ p0.N ∧ CommitsTo pp t p0.F p0.N (q j) (st.CQ j)
  recd : ∀ j, st.flgRec j = true → st.flgCom j = true ∧ st.Q j = sliceX (q j) p0.F (2 * p0.F) ((p0.pid + 1 : ℕ) : Fr)
  notrec : ∀ j, st.flgRec j = false → st.Q j = st0.Q j
  srec : ∀ k, ∀ z ∈ st.SRec k, z.1 < 2 ^ 32 ∧ z.2 = polyVal (sliceX (q k) p0.F (2 * p0.F) ((p0.pid + 1 : ℕ) : Fr)) ((z.1 : ℕ) : Fr)
  slot : ∀ m, st.slot = some m → ∃ s d, PEvent.takeRecover s d ∈ evs ∧ decodeRecover codec p0 s d = .ok m
  held : ∀ k m, st.held k = some m → m.k = k ∧ st.flgCom k = true ∧ ∃ s d, PEvent.takeRecover s d ∈ evs ∧ decodeRecover codec p0 s d = .ok m
  refr : match st.refresh with
    | .waiting => True
    | .looping rest _ Cs => ∃ done, J = done ++ rest ∧ RefreshOk pp t p0 q st.flgCom done Cs
    | .done Cs => RefreshOk pp t p0 q st.flgCom J Cs
  scom : ∀ j C, st.SCom j = some C → 1 ≤ j ∧ j ≤ p0.N ∧ C = polyVal (sliceX (refreshed b q J) p0.F (2 * p0.F) (j : Fr)) t • pp.g1
  tok : ∀ j, st.token j = true → (st.SCom j).isSome
  sb : ∀ z ∈ st.SB, 1 ≤ z.1 ∧ z.1 ≤ p0.N ∧ z.2 = biVal (refreshed b q J) p0.F (2 * p0.F) ((p0.pid + 1 : ℕ) : Fr) (z.1 : Fr)
  full : st.successSent = true → p.fullShare = sliceY (refreshed b q J) p0.F (2 * p0.F) ((p0.pid + 1 : ℕ) : Fr)
  parked : ∀ z ∈ st.distWait, ∃ s : UInt32, z.1 = (s + 1).toNat ∧ PEvent.shareDist s z.2 ∈ evs

variable {codec : PointCodec G1} {pp : Pairing Fr G1 G2 GT} {t : Fr} {tb : Tbls} {p0 : Party G1 G2} {b : ℕ → ℕ → Fr} {q : ℕ → ℕ → ℕ → Fr}
  {J : List ℕ} {st0 : PState G1}

theorem PInv.init (c : DealerCoins) : PInv codec pp t p0 (PState.init p0 c) b q J [] p0 (PState.init p0 c) where
  static := rfl
  comDone := by intro j h; simp [PState.init] at h
  com := by intro j h; simp [PState.init] at h
  recd := by intro j h; simp [PState.init] at h
  notrec := fun _ _ => rfl
  srec := by intro k z hz; simp [PState.init] at hz
  slot := by intro m h; simp [PState.init] at h
  held := by intro k m h; simp [PState.init] at h
  refr := by simp [PState.init]
  scom := by intro j C h; simp [PState.init] at h
  tok := by intro j h; simp [PState.init] at h
  sb := by intro z hz; simp [PState.init] at hz
  full := by intro h; simp [PState.init] at h
  parked := by intro z hz; simp [PState.init] at hz

theorem PInv.mono {evs evs' : List PEvent} {p : Party G1 G2} {st : PState G1} (hs : ∀ e ∈ evs, e ∈ evs')
    (h : PInv codec pp t p0 st0 b q J evs p st) : PInv codec pp t p0 st0 b q J evs' p st :=
  { h with
    slot := fun m hm => by obtain ⟨s, d, h1, h2⟩ := h.slot m hm; exact ⟨s, d, hs _ h1, h2⟩
    held := fun k m hm => by obtain ⟨h0, h1, s, d, h2, h3⟩ := h.held k m hm; exact ⟨h0, h1, s, d, hs _ h2, h3⟩
    parked := fun z hz => by obtain ⟨s, h1, h2⟩ := h.parked z hz; exact ⟨s, h1, hs _ h2⟩ }

theorem PInv.statics {evs : List PEvent} {p : Party G1 G2} {st : PState G1} (h : PInv codec pp t p0 st0 b q J evs p st) :
    p.N = p0.N ∧ p.F = p0.F ∧ p.pid = p0.pid ∧ p.kzg = p0.kzg ∧ p.table = p0.table ∧ p.proof = p0.proof := by
  rw [h.static]; exact ⟨rfl, rfl, rfl, rfl, rfl, rfl⟩

theorem static_upd {p p0 : Party G1 G2} (h : p = { p0 with reducedShare := p.reducedShare, fullShare := p.fullShare }) (rs fs : List Fr) :
    { p with reducedShare := rs, fullShare := fs } = { p0 with reducedShare := rs, fullShare := fs } := by
  generalize p.reducedShare = a, p.fullShare = b at h
  subst h
  rfl

/-- `verifyCommit` does not depend on the shares. -/
theorem verifyCommit_static (p : Party G1 G2) (rs fs : List Fr) (row : ℕ → G1) (m : PCommit) :
    verifyCommit codec pp { p with reducedShare := rs, fullShare := fs } row m = verifyCommit codec pp p row m := rfl

theorem RefreshOk.mono {pp : Pairing Fr G1 G2 GT} {t : Fr} {f f' : ℕ → Bool} {done : List ℕ} {Cs : ℕ → G1}
    (h : RefreshOk pp t p0 q f done Cs) (hf : ∀ j, f j = true → f' j = true) : RefreshOk pp t p0 q f' done Cs :=
  ⟨fun j hj => hf j (h.1 j hj), h.2⟩

theorem PInv.commit {evs : List PEvent} {p : Party G1 G2} {st : PState G1} (h : PInv codec pp t p0 st0 b q J evs p st)
    (hyp : PHyp codec pp t p0 b q J evs) (j : ℕ) (d : Bytes) (hev : PEvent.commit j (some d) ∈ evs) (h1 : 1 ≤ j) (h2 : j ≤ p0.N)
    (h3 : st.comDone j = false) (row : ℕ → G1) (ok : Bool)
    (hv : verifyCommit codec pp p (st.CQ j) (unmarshalD (⟨[]⟩ : PCommit) d) = .ok (row, ok)) :
    PInv codec pp t p0 st0 b q J evs p
      { st with comDone := upd st.comDone j true, CQ := upd st.CQ j row, flgCom := upd st.flgCom j ok, voteToken := upd st.voteToken j ok } := by
  have hno : st.flgCom j = false := by
    cases hc : st.flgCom j with
    | false => rfl
    | true => rw [h.comDone j hc] at h3; cases h3
  have hmono : ∀ k, st.flgCom k = true → upd st.flgCom j ok k = true := by
    intro k hk
    rw [upd_ne]
    · exact hk
    · rintro rfl; rw [hno] at hk; cases hk
  rw [h.static, verifyCommit_static] at hv
  exact { h with
    comDone := by
      intro k hk
      by_cases hkj : k = j
      · subst hkj; simp
      · simp only [upd_ne _ _ hkj] at hk ⊢; exact h.comDone k hk
    com := by
      intro k hk
      by_cases hkj : k = j
      · subst hkj
        simp only [upd_same] at hk ⊢
        subst hk
        exact ⟨h1, h2, hyp.commits _ d hev _ _ hv⟩
      · simp only [upd_ne _ _ hkj] at hk ⊢; exact h.com k hk
    recd := fun k hk => ⟨hmono k (h.recd k hk).1, (h.recd k hk).2⟩
    held := fun k m hm => ⟨(h.held k m hm).1, hmono k (h.held k m hm).2.1, (h.held k m hm).2.2⟩
    refr := by
      have := h.refr
      revert this
      simp only
      cases st.refresh with
      | waiting => exact fun x => x
      | looping rest Qs Cs =>
        rintro ⟨done, h1, h2⟩
        exact ⟨done, h1, h2.mono hmono⟩
      | done Cs => exact fun x => x.mono hmono }

theorem decodeRecover_bound (p : Party G1 G2) (s : UInt32) (d : Bytes) (m : RecoverMsg G1) (h : decodeRecover codec p s d = .ok m) :
    m.x < 2 ^ 32 ∧ m.k ≤ p.N := by
  unfold decodeRecover at h
  simp only at h
  cases hw : codec.decode! (unmarshalD (⟨0, [], [], []⟩ : PRecover) d).w with
  | error e => rw [hw] at h; cases h
  | ok w =>
    rw [hw, Go.ok_bind] at h
    split at h
    · rename_i hle
      cases h
      exact ⟨UInt32.toNat_lt _, hle⟩
    · cases h

theorem not_distinct_fatal (d : ℕ) (x y : List Fr) (hx : d + 1 ≤ x.length) (hy : d + 1 ≤ y.length) (res : List Fr)
    (h : lagrangeInterpolate d x y = .ok res) : DistinctUpTo d x := by
  by_contra hn
  rw [(C10_fatal_iff_duplicate d x y hx hy).2 hn] at h
  cases h

/-- Interpolating values of `f` that did not fail gives `f`. -/
theorem interpolate_points (d : ℕ) (pts : List (ℕ × Fr)) (f res : List Fr) (hl : d + 1 ≤ pts.length) (hf : f.length = d + 1)
    (hv : ∀ z ∈ pts, z.2 = polyVal f ((z.1 : ℕ) : Fr))
    (h : lagrangeInterpolate d ((pts.take (d + 1)).map fun q => ((q.1 : ℕ) : Fr)) ((pts.take (d + 1)).map (·.2)) = .ok res) : res = f := by
  have hx : d + 1 ≤ ((pts.take (d + 1)).map fun q => ((q.1 : ℕ) : Fr)).length := by simp; omega
  have hy : d + 1 ≤ ((pts.take (d + 1)).map (·.2)).length := by simp; omega
  have hd := not_distinct_fatal _ _ _ hx hy _ h
  have := lagrangeInterpolate_eq_of_eval d _ _ f hx hy hd hf (by
    intro k hk
    rw [List.getD_eq_getElem _ _ (by simp; omega), List.getD_eq_getElem _ _ (by simp; omega), List.getElem_map, List.getElem_map]
    exact (hv _ (List.mem_of_mem_take (List.getElem_mem _))).symm)
  rw [this] at h
  exact (Except.ok.inj h).symm

theorem recordPoint_effect (p : Party G1 G2) (st st2 : PState G1) (k : ℕ) (m : RecoverMsg G1) (h2 : recordPoint p st k m = .ok st2) :
    st2.comDone = st.comDone ∧ st2.flgCom = st.flgCom ∧ st2.CQ = st.CQ ∧ st2.slot = st.slot ∧ st2.refresh = st.refresh ∧
    st2.SCom = st.SCom ∧ st2.token = st.token ∧ st2.SB = st.SB ∧ st2.successSent = st.successSent ∧ st2.held = st.held ∧
    st2.SRec = upd st.SRec k (st.SRec k ++ [(m.x, m.v)]) ∧
    ((st.flgRec k = false ∧ p.F + 1 ≤ (st.SRec k ++ [(m.x, m.v)]).length ∧ st2.flgRec = upd st.flgRec k true ∧ ∃ poly, st2.Q = upd st.Q k poly ∧
      lagrangeInterpolate p.F (((st.SRec k ++ [(m.x, m.v)]).take (p.F + 1)).map fun q => ((q.1 : ℕ) : Fr))
        (((st.SRec k ++ [(m.x, m.v)]).take (p.F + 1)).map (·.2)) = .ok poly) ∨
    (¬ (st.flgRec k = false ∧ p.F + 1 ≤ (st.SRec k ++ [(m.x, m.v)]).length) ∧ st2.flgRec = st.flgRec ∧ st2.Q = st.Q)) := by
  unfold recordPoint at h2
  simp only at h2
  split at h2
  · rename_i hc2
    rw [Bool.and_eq_true, Bool.not_eq_true', decide_eq_true_eq] at hc2
    split at h2
    · cases h2
    · cases hl : lagrangeInterpolate p.F (((st.SRec k ++ [(m.x, m.v)]).take (p.F + 1)).map fun q => ((q.1 : ℕ) : Fr))
          (((st.SRec k ++ [(m.x, m.v)]).take (p.F + 1)).map (·.2)) with
      | error e => rw [hl] at h2; cases h2
      | ok poly =>
        rw [hl, Go.ok_bind] at h2
        cases h2
        exact ⟨rfl, rfl, rfl, rfl, rfl, rfl, rfl, rfl, rfl, rfl, rfl, Or.inl ⟨hc2.1, hc2.2, rfl, poly, rfl, rfl⟩⟩
  · rename_i hc2
    rw [Bool.and_eq_true, Bool.not_eq_true', decide_eq_true_eq] at hc2
    cases h2
    exact ⟨rfl, rfl, rfl, rfl, rfl, rfl, rfl, rfl, rfl, rfl, rfl, Or.inr ⟨hc2, rfl, rfl⟩⟩

theorem recordSig_effect (p : Party G1 G2) (st st2 : PState G1) (k : ℕ) (m : RecoverMsg G1) (out : List POut)
    (h2 : recordSig tb p st k m = .ok (st2, out)) :
    st2.comDone = st.comDone ∧ st2.flgCom = st.flgCom ∧ st2.CQ = st.CQ ∧ st2.slot = st.slot ∧ st2.refresh = st.refresh ∧
    st2.SCom = st.SCom ∧ st2.token = st.token ∧ st2.SB = st.SB ∧ st2.successSent = st.successSent ∧ st2.held = st.held ∧
    st2.SRec = st.SRec ∧ st2.flgRec = st.flgRec ∧ st2.Q = st.Q := by
  unfold recordSig at h2
  simp only at h2
  split at h2
  · split at h2
    · cases h2
    · split at h2
      · cases h2; exact ⟨rfl, rfl, rfl, rfl, rfl, rfl, rfl, rfl, rfl, rfl, rfl, rfl, rfl⟩
      · cases h2; exact ⟨rfl, rfl, rfl, rfl, rfl, rfl, rfl, rfl, rfl, rfl, rfl, rfl, rfl⟩
  · cases h2; exact ⟨rfl, rfl, rfl, rfl, rfl, rfl, rfl, rfl, rfl, rfl, rfl, rfl, rfl⟩

/-- The effect of handler `k` on the fields that matter. -/
theorem handleRecover_effect (p : Party G1 G2) (st st' : PState G1) (out : List POut) (k : ℕ) (m : RecoverMsg G1)
    (h : handleRecover pp tb p st k m = .ok (st', out)) :
    st'.comDone = st.comDone ∧ st'.flgCom = st.flgCom ∧ st'.CQ = st.CQ ∧ st'.slot = st.slot ∧ st'.refresh = st.refresh ∧
    st'.SCom = st.SCom ∧ st'.token = st.token ∧ st'.SB = st.SB ∧ st'.successSent = st.successSent ∧ st'.held = upd st.held k none ∧
    ((checkProofSingle pp p.kzg (st.CQ k (p.pid + 1)) m.w ((m.x : ℕ) : Fr) m.v = .ok true ∧ tb.verifyPartial (decimalBytes k) m.sigShare = true ∧
      st'.SRec = upd st.SRec k (st.SRec k ++ [(m.x, m.v)]) ∧
      ((st.flgRec k = false ∧ p.F + 1 ≤ (st.SRec k ++ [(m.x, m.v)]).length ∧ st'.flgRec = upd st.flgRec k true ∧ ∃ poly, st'.Q = upd st.Q k poly ∧
        lagrangeInterpolate p.F (((st.SRec k ++ [(m.x, m.v)]).take (p.F + 1)).map fun q => ((q.1 : ℕ) : Fr))
          (((st.SRec k ++ [(m.x, m.v)]).take (p.F + 1)).map (·.2)) = .ok poly) ∨
      (¬ (st.flgRec k = false ∧ p.F + 1 ≤ (st.SRec k ++ [(m.x, m.v)]).length) ∧ st'.flgRec = st.flgRec ∧ st'.Q = st.Q))) ∨
    (¬ (checkProofSingle pp p.kzg (st.CQ k (p.pid + 1)) m.w ((m.x : ℕ) : Fr) m.v = .ok true ∧ tb.verifyPartial (decimalBytes k) m.sigShare = true) ∧
      st'.SRec = st.SRec ∧ st'.flgRec = st.flgRec ∧ st'.Q = st.Q)) := by
  unfold handleRecover at h
  cases hc : checkProofSingle pp p.kzg (st.CQ k (p.pid + 1)) m.w ((m.x : ℕ) : Fr) m.v with
  | error e => rw [hc] at h; cases h
  | ok ok =>
    rw [hc, Go.ok_bind] at h
    split at h
    · rename_i hcond
      rw [Bool.and_eq_true] at hcond
      obtain ⟨rfl, hsig⟩ := hcond
      cases h1 : recordPoint p st k m with
      | error e => rw [h1] at h; cases h
      | ok st1 =>
        rw [h1, Go.ok_bind] at h
        cases h2 : recordSig tb p st1 k m with
        | error e => rw [h2] at h; cases h
        | ok r =>
          obtain ⟨st2, out2⟩ := r
          rw [h2, Go.ok_bind] at h
          cases h
          obtain ⟨f1, f2, f3, f4, f5, f6, f7, f8, f9, f10, f11, f12⟩ := recordPoint_effect p st st1 k m h1
          obtain ⟨g1, g2, g3, g4, g5, g6, g7, g8, g9, g10, g11, g12, g13⟩ := recordSig_effect p st1 st2 k m _ h2
          refine ⟨g1.trans f1, g2.trans f2, g3.trans f3, g4.trans f4, g5.trans f5, g6.trans f6, g7.trans f7, g8.trans f8, g9.trans f9,
            ?_, Or.inl ⟨rfl, hsig, g11.trans f11, ?_⟩⟩
          · show upd st2.held k none = _
            rw [g10, f10]
          · show (_ ∧ _ ∧ st2.flgRec = _ ∧ ∃ poly, st2.Q = _ ∧ _) ∨ (_ ∧ st2.flgRec = _ ∧ st2.Q = _)
            rw [g12, g13]
            exact f12
    · rename_i hcond
      rw [Bool.and_eq_true] at hcond
      cases h
      refine ⟨rfl, rfl, rfl, rfl, rfl, rfl, rfl, rfl, rfl, rfl, Or.inr ⟨?_, rfl, rfl, rfl⟩⟩
      rintro ⟨h1, h2⟩
      exact hcond ⟨Except.ok.inj h1, h2⟩

/-- The handlers of Recover messages leave the receivers of Reshare and ShareDist messages alone. -/
theorem handleRecover_queues (p : Party G1 G2) (st st' : PState G1) (out : List POut) (k : ℕ) (m : RecoverMsg G1)
    (h : handleRecover pp tb p st k m = .ok (st', out)) :
    st'.voters = st.voters ∧ st'.voteWait = st.voteWait ∧ st'.voteToken = st.voteToken ∧ st'.dists = st.dists ∧ st'.distWait = st.distWait ∧
    st'.refreshWait = st.refreshWait := by
  unfold handleRecover at h
  cases hc : checkProofSingle pp p.kzg (st.CQ k (p.pid + 1)) m.w ((m.x : ℕ) : Fr) m.v with
  | error e => rw [hc] at h; cases h
  | ok ok =>
    rw [hc, Go.ok_bind] at h
    split at h
    · cases h1 : recordPoint p st k m with
      | error e => rw [h1] at h; cases h
      | ok st1 =>
        rw [h1, Go.ok_bind] at h
        have a : st1.voters = st.voters ∧ st1.voteWait = st.voteWait ∧ st1.voteToken = st.voteToken ∧ st1.dists = st.dists ∧ st1.distWait = st.distWait ∧
            st1.refreshWait = st.refreshWait := by
          unfold recordPoint at h1
          simp only at h1
          split at h1
          · split at h1
            · cases h1
            · cases hl : lagrangeInterpolate p.F (((st.SRec k ++ [(m.x, m.v)]).take (p.F + 1)).map fun q => ((q.1 : ℕ) : Fr))
                  (((st.SRec k ++ [(m.x, m.v)]).take (p.F + 1)).map (·.2)) with
              | error e => rw [hl] at h1; cases h1
              | ok poly => rw [hl, Go.ok_bind] at h1; cases h1; exact ⟨rfl, rfl, rfl, rfl, rfl, rfl⟩
          · cases h1; exact ⟨rfl, rfl, rfl, rfl, rfl, rfl⟩
        rw [← a.1, ← a.2.1, ← a.2.2.1, ← a.2.2.2.1, ← a.2.2.2.2.1, ← a.2.2.2.2.2]
        unfold recordSig at h
        simp only at h
        split at h
        · split at h
          · cases h
          · split at h
            · cases h; exact ⟨rfl, rfl, rfl, rfl, rfl, rfl⟩
            · cases h; exact ⟨rfl, rfl, rfl, rfl, rfl, rfl⟩
        · cases h; exact ⟨rfl, rfl, rfl, rfl, rfl, rfl⟩
    · cases h; exact ⟨rfl, rfl, rfl, rfl, rfl, rfl⟩

theorem PInv.handle {evs : List PEvent} {p : Party G1 G2} {st st' : PState G1} (h : PInv codec pp t p0 st0 b q J evs p st)
    (hyp : PHyp codec pp t p0 b q J evs) (hpid : p0.pid < p0.N) (k : ℕ) (m : RecoverMsg G1) (hheld : st.held k = some m) (out : List POut)
    (hh : handleRecover pp tb p st k m = .ok (st', out)) :
    PInv codec pp t p0 st0 b q J evs p st' := by
  obtain ⟨f1, f2, f3, f4, f5, f6, f7, f8, f9, f10, f11⟩ := handleRecover_effect p st st' out k m hh
  obtain ⟨sN, sF, sP, sK, sT, sR⟩ := h.statics
  obtain ⟨hmk, hcom, s, d, hev, hdec⟩ := h.held k m hheld
  have hx := (decodeRecover_bound p0 s d m hdec).1
  have hrow := (commitsTo_iff _ _ _ _ _ _).1 (h.com k hcom).2.2 (p0.pid + 1) (by omega) (by omega)
  have hsrec : ∀ k', ∀ z ∈ st'.SRec k', z.1 < 2 ^ 32 ∧ z.2 = polyVal (sliceX (q k') p0.F (2 * p0.F) ((p0.pid + 1 : ℕ) : Fr)) ((z.1 : ℕ) : Fr) := by
    rcases f11 with ⟨g1, g2, g3, g4⟩ | ⟨-, g3, -⟩
    · intro k' z hz
      rw [g3] at hz
      by_cases hk : k' = k
      · subst hk
        rw [upd_same, List.mem_append, List.mem_singleton] at hz
        rcases hz with hz | rfl
        · exact h.srec k' z hz
        · refine ⟨hx, ?_⟩
          rw [sK, sP, hrow] at g1
          rw [← hmk] at g1 ⊢
          exact hyp.recover s d hev m hdec g1
      · rw [upd_ne _ _ hk] at hz
        exact h.srec k' z hz
    · rw [g3]; exact h.srec
  have hqrec : (∀ j, st'.flgRec j = true → st'.flgCom j = true ∧ st'.Q j = sliceX (q j) p0.F (2 * p0.F) ((p0.pid + 1 : ℕ) : Fr)) ∧
      (∀ j, st'.flgRec j = false → st'.Q j = st0.Q j) := by
    rcases f11 with ⟨g1, g2, g3, ⟨g4, g5, g6, poly, g7, g8⟩ | ⟨-, g6, g7⟩⟩ | ⟨-, -, g6, g7⟩
    · have hpoly : poly = sliceX (q k) p0.F (2 * p0.F) ((p0.pid + 1 : ℕ) : Fr) := by
        rw [sF] at g5 g8
        apply interpolate_points p0.F _ _ poly g5 (sliceX_length _ _ _ _) _ g8
        intro z hz
        have := hsrec k z
        rw [g3, upd_same] at this
        exact (this hz).2
      refine ⟨fun j hj => ?_, fun j hj => ?_⟩
      · rw [f2, g7]
        by_cases hk : j = k
        · subst hk; rw [upd_same]; exact ⟨hcom, hpoly⟩
        · rw [g6, upd_ne _ _ hk] at hj
          rw [upd_ne _ _ hk]; exact h.recd j hj
      · rw [g7]
        have hk : j ≠ k := by rintro rfl; rw [g6, upd_same] at hj; cases hj
        rw [g6, upd_ne _ _ hk] at hj
        rw [upd_ne _ _ hk]; exact h.notrec j hj
    · rw [f2, g6, g7]; exact ⟨h.recd, h.notrec⟩
    · rw [f2, g6, g7]; exact ⟨h.recd, h.notrec⟩
  exact {
    static := h.static
    comDone := by rw [f1, f2]; exact h.comDone
    com := by rw [f2, f3]; exact h.com
    recd := hqrec.1
    notrec := hqrec.2
    srec := hsrec
    slot := by rw [f4]; exact h.slot
    held := by
      intro k' m' hm'
      rw [f10] at hm'
      by_cases hk : k' = k
      · subst hk; rw [upd_same] at hm'; cases hm'
      · rw [upd_ne _ _ hk] at hm'; rw [f2]; exact h.held k' m' hm'
    refr := by rw [f5, f2]; exact h.refr
    scom := by rw [f6]; exact h.scom
    tok := by rw [f6, f7]; exact h.tok
    sb := by rw [f8]; exact h.sb
    full := by rw [f9]; exact h.full
    parked := by rw [(handleRecover_queues p st st' out k m hh).2.2.2.2.1]; exact h.parked }

theorem PInv.refreshStep {evs : List PEvent} {p p' : Party G1 G2} {st st' : PState G1} (h : PInv codec pp t p0 st0 b q J evs p st)
    (hp : p0.Setup pp t) (hh : refreshStep p st = some (.ok (p', st'))) :
    PInv codec pp t p0 st0 b q J evs p' st' := by
  have hrefr := h.refr
  unfold DyCAPS.refreshStep at hh
  split at hh
  · cases hh
  · cases hh
  · rename_i Qs Cs heq
    rw [heq] at hrefr
    obtain ⟨done, hd, hok⟩ := hrefr
    rw [List.append_nil] at hd
    subst hd
    split at hh
    · cases hh
    · cases hh
      exact { h with
        static := static_upd h.static _ p.fullShare
        refr := hok }
  · rename_i j rest Qs Cs heq
    rw [heq] at hrefr
    obtain ⟨done, hd, hok⟩ := hrefr
    split at hh
    · cases hh
    · split at hh
      · split at hh
        · rename_i hrec
          obtain ⟨hcom, hQ⟩ := h.recd j hrec
          obtain ⟨-, sF, sP, sK, -, -⟩ := h.statics
          rw [hQ, sK, hp.kzg, commitToPoly_ok pp t _ _ (by rw [sliceX_length]), Go.ok_bind] at hh
          cases hh
          have hcq : ∀ i, 1 ≤ i → i ≤ p0.N → upd (st.CQ j) (p.pid + 1) (polyVal (sliceX (q j) p0.F (2 * p0.F) ((p0.pid + 1 : ℕ) : Fr)) t • pp.g1) i =
              polyVal (sliceX (q j) p0.F (2 * p0.F) (i : Fr)) t • pp.g1 := by
            intro i h1 h2
            by_cases hi : i = p.pid + 1
            · subst hi; rw [upd_same, sP]
            · rw [upd_ne _ _ hi, (commitsTo_iff _ _ _ _ _ _).1 (h.com j hcom).2.2 i h1 h2]
          exact { h with
            com := by
              intro k hk
              refine ⟨(h.com k hk).1, (h.com k hk).2.1, ?_⟩
              by_cases hkj : k = j
              · subst hkj
                simp only [upd_same]
                exact (commitsTo_iff _ _ _ _ _ _).2 hcq
              · simp only [upd_ne _ _ hkj]; exact (h.com k hk).2.2
            refr := by
              refine ⟨done ++ [j], by rw [hd]; simp, ?_, ?_⟩
              · intro k hk
                rw [List.mem_append, List.mem_singleton] at hk
                rcases hk with hk | rfl
                · exact hok.1 k hk
                · exact hcom
              · intro i h1 h2
                beta_reduce
                rw [hok.2 i h1 h2, upd_same, hcq i h1 h2, ← add_smul]
                simp }
        · cases hh
      · split at hh
        · rename_i hcom
          cases hh
          exact { h with
            refr := by
              refine ⟨done ++ [j], by rw [hd]; simp, ?_, ?_⟩
              · intro k hk
                rw [List.mem_append, List.mem_singleton] at hk
                rcases hk with hk | rfl
                · exact hok.1 k hk
                · exact hcom
              · intro i h1 h2
                beta_reduce
                rw [hok.2 i h1 h2, (commitsTo_iff _ _ _ _ _ _).1 (h.com j hcom).2.2 i h1 h2, ← add_smul]
                simp }
        · cases hh
          exact { h with refr := by rw [heq]; exact ⟨done, hd, hok⟩ }

theorem oldCom_ok (hp : p0.Setup pp t) (hN : 3 * p0.F + 1 ≤ p0.N) (hr : 2 * p0.F + 1 < frModulus) (hk : KnowsComs pp t b p0) (j : ℕ)
    (h1 : 1 ≤ j) : oldCom p0 j = .ok (polyVal (sliceX b p0.F (2 * p0.F) (j : Fr)) t • pp.g1) := by
  have hc : ∀ k, 1 ≤ k → k ≤ 2 * p0.F + 1 → (p0.proof.contents.getD k (PiContent.zero k)).CBj = polyVal (sliceX b p0.F (2 * p0.F) (k : Fr)) t • pp.g1 := by
    intro k a1 a2
    have := hk k a1 a2
    rw [commitToPoly_ok pp t _ _ (by rw [sliceX_length])] at this
    exact (Except.ok.inj this).symm
  unfold oldCom
  split
  · rename_i h
    rw [hc j h1 h]; rfl
  · apply interpolateComOrWit_ok p0.F p0.N hN p0.table hp.table (distinct_firstIndices _ hr)
      (fun y => polyVal (sliceX b p0.F (2 * p0.F) y) t • pp.g1) (polyFun_commit pp b p0.F (2 * p0.F) t)
    · simp [oneTo]
    · intro k a1 a2
      rw [oneTo_map_getD _ _ _ _ (by omega), Nat.sub_add_cancel a1]
      exact hc k a1 a2

theorem PInv.newCommit {evs : List PEvent} {p : Party G1 G2} {st st' : PState G1} (h : PInv codec pp t p0 st0 b q J evs p st)
    (hp : p0.Setup pp t) (hN : 3 * p0.F + 1 ≤ p0.N) (hr : 2 * p0.F + 1 < frModulus) (hk : KnowsComs pp t b p0) (j : ℕ) (h1 : 1 ≤ j) (h2 : j ≤ p0.N)
    (Cs : ℕ → G1) (hd : st.refresh = .done Cs) (d : Bytes) (hh : newCommitStep codec p st Cs j d = .ok st') :
    PInv codec pp t p0 st0 b q J evs p st' := by
  have hrefr := h.refr
  rw [hd] at hrefr
  unfold newCommitStep at hh
  have hold : oldCom p j = oldCom p0 j := by rw [h.static]; rfl
  rw [hold, oldCom_ok hp hN hr hk j h1, Go.ok_bind] at hh
  cases hdec : codec.decode! d with
  | error e => rw [hdec] at hh; cases hh
  | ok cb =>
    rw [hdec, Go.ok_bind] at hh
    split at hh
    · rename_i hcb
      cases hh
      exact { h with
        scom := by
          intro k C hC
          by_cases hkj : k = j
          · subst hkj
            simp only [upd_same] at hC
            cases hC
            refine ⟨h1, h2, ?_⟩
            rw [hcb, hrefr.2 k h1 h2, ← add_smul, polyVal_sliceX, polyVal_sliceX, biVal_refreshed]
            simp only [polyVal_sliceX]
          · simp only [upd_ne _ _ hkj] at hC; exact h.scom k C hC
        tok := by
          intro k hk
          by_cases hkj : k = j
          · subst hkj; simp
          · simp only [upd_ne _ _ hkj] at hk ⊢; exact h.tok k hk }
    · cases hh
      exact { h with }

theorem PInv.shareDist {evs : List PEvent} {p p' : Party G1 G2} {st st' : PState G1} (h : PInv codec pp t p0 st0 b q J evs p st)
    (hyp : PHyp codec pp t p0 b q J evs) (sender : UInt32) (d : Bytes) (hev : PEvent.shareDist sender d ∈ evs)
    (htok : st.token (sender + 1).toNat = true) (out : List POut)
    (hh : shareDistStep codec pp p st (sender + 1).toNat (unmarshalD (⟨[], []⟩ : PShareDist) d) = .ok (p', st', out)) :
    PInv codec pp t p0 st0 b q J evs p' st' := by
  obtain ⟨sN, sF, sP, sK, sT, sR⟩ := h.statics
  set j := (sender + 1).toNat with hj
  obtain ⟨C, hC⟩ := Option.isSome_iff_exists.1 (h.tok j htok)
  obtain ⟨hj1, hj2, hCv⟩ := h.scom j C hC
  unfold shareDistStep at hh
  simp only [hC, Option.getD_some] at hh
  cases hw : codec.decode! (unmarshalD (⟨[], []⟩ : PShareDist) d).wB with
  | error e => rw [hw] at hh; cases hh
  | ok w =>
    rw [hw, Go.ok_bind] at hh
    have hw' : codec.dec (unmarshalD (⟨[], []⟩ : PShareDist) d).wB = some w := by
      unfold PointCodec.decode! at hw
      cases hx : codec.dec (unmarshalD (⟨[], []⟩ : PShareDist) d).wB with
      | none => rw [hx] at hw; cases hw
      | some x => rw [hx] at hw; cases hw; rfl
    set v := (frFrom32 0 (copy32 (unmarshalD (⟨[], []⟩ : PShareDist) d).B)).1 with hv
    cases hc : checkProofSingle pp p.kzg C w ((p.pid + 1 : ℕ) : Fr) v with
    | error e => rw [hc] at hh; cases hh
    | ok ok =>
      rw [hc, Go.ok_bind] at hh
      have htok' : ∀ k, upd st.token j false k = true → (st.SCom k).isSome := by
        intro k hk
        by_cases hkj : k = j
        · subst hkj; rw [upd_same] at hk; cases hk
        · rw [upd_ne _ _ hkj] at hk; exact h.tok k hk
      cases ok with
      | false =>
        cases hh
        exact { h with tok := htok' }
      | true =>
        rw [if_pos rfl] at hh
        have hval : v = biVal (refreshed b q J) p0.F (2 * p0.F) ((p0.pid + 1 : ℕ) : Fr) (j : Fr) := by
          rw [sK, sP, hCv] at hc
          exact hyp.dist sender d hev w hw' v hv hc
        have hsb : ∀ z ∈ st.SB ++ [(j, v)], 1 ≤ z.1 ∧ z.1 ≤ p0.N ∧
            z.2 = biVal (refreshed b q J) p0.F (2 * p0.F) ((p0.pid + 1 : ℕ) : Fr) (z.1 : Fr) := by
          intro z hz
          rw [List.mem_append, List.mem_singleton] at hz
          rcases hz with hz | rfl
          · exact h.sb z hz
          · exact ⟨hj1, hj2, hval⟩
        split at hh
        · rename_i hcond
          rw [Bool.and_eq_true, decide_eq_true_eq, Bool.not_eq_true'] at hcond
          cases hl : lagrangeInterpolate (2 * p.F) (((st.SB ++ [(j, v)]).take (2 * p.F + 1)).map fun q => ((q.1 : ℕ) : Fr))
              (((st.SB ++ [(j, v)]).take (2 * p.F + 1)).map (·.2)) with
          | error e => rw [hl] at hh; cases hh
          | ok full =>
            rw [hl, Go.ok_bind] at hh
            cases hh
            rw [sF] at hl hcond
            have hfull : full = sliceY (refreshed b q J) p0.F (2 * p0.F) ((p0.pid + 1 : ℕ) : Fr) := by
              apply interpolate_points (2 * p0.F) _ _ full hcond.2 (sliceY_length _ _ _ _) _ hl
              intro z hz
              rw [polyVal_sliceY]
              exact (hsb z hz).2.2
            exact { h with
              static := static_upd h.static p.reducedShare full
              tok := htok'
              sb := hsb
              full := fun _ => hfull }
        · cases hh
          exact { h with tok := htok', sb := hsb }

/-- Every step keeps the invariant. -/
theorem PInv.step {evs : List PEvent} {p p' : Party G1 G2} {st st' : PState G1} (h : PInv codec pp t p0 st0 b q J evs p st)
    (hp : p0.Setup pp t) (hN : 3 * p0.F + 1 ≤ p0.N) (hr : 2 * p0.F + 1 < frModulus) (hk : KnowsComs pp t b p0) (hpid : p0.pid < p0.N)
    (ev : PEvent) (hyp : PHyp codec pp t p0 b q J (evs ++ [ev])) (out : List POut)
    (hs : proactStep codec pp tb p st ev = some (.ok (p', st', out))) :
    PInv codec pp t p0 st0 b q J (evs ++ [ev]) p' st' := by
  obtain ⟨sN, sF, sP, sK, sT, sR⟩ := h.statics
  replace h := h.mono (evs' := evs ++ [ev]) (fun e he => List.mem_append_left _ he)
  have hmem : ev ∈ evs ++ [ev] := by simp
  unfold proactStep at hs
  cases ev with
  | commit j data =>
    simp only at hs
    split at hs
    · rename_i hc
      cases data with
      | none => cases hs
      | some d =>
        simp only at hs
        cases hv : verifyCommit codec pp p (st.CQ j) (unmarshalD (⟨[]⟩ : PCommit) d) with
        | error e => rw [hv] at hs; cases hs
        | ok r =>
          obtain ⟨row, ok⟩ := r
          rw [hv] at hs
          cases hs
          exact h.commit hyp j d hmem hc.1 (by omega) hc.2.2 row ok hv
    · cases hs
  | reshare sender data =>
    simp only at hs
    split at hs
    · cases hs
    · split at hs
      · cases hs
      · split at hs
        · cases hv : vote codec pp tb p (st.CQ (sender + 1).toNat) (sender + 1).toNat (unmarshalD (⟨[], []⟩ : PReshare) data) with
          | error e => rw [hv] at hs; cases hs
          | ok r => rw [hv] at hs; cases hs; exact { h with }
        · cases hs; exact { h with }
  | vote j data =>
    simp only at hs
    split at hs
    · cases hv : vote codec pp tb p (st.CQ j) j (unmarshalD (⟨[], []⟩ : PReshare) data) with
      | error e => rw [hv] at hs; cases hs
      | ok r => rw [hv] at hs; cases hs; exact { h with }
    · cases hs
  | takeRecover sender data =>
    simp only at hs
    split at hs
    · cases hs
    · cases hv : decodeRecover codec p sender data with
      | error e => rw [hv] at hs; cases hs
      | ok m =>
        rw [hv] at hs
        cases hs
        exact { h with
          slot := by
            intro m' hm'
            cases hm'
            refine ⟨sender, data, hmem, ?_⟩
            rw [h.static] at hv
            exact hv }
  | passRecover =>
    simp only at hs
    split at hs
    · cases hs
    · rename_i m hslot
      split at hs
      · rename_i hc
        cases hs
        exact { h with
          slot := by intro m' hm'; cases hm'
          held := by
            intro k m' hm'
            by_cases hk : k = m.k
            · subst hk
              simp only [upd_same] at hm'
              cases hm'
              exact ⟨rfl, hc.2.2.1, h.slot m hslot⟩
            · simp only [upd_ne _ _ hk] at hm'; exact h.held k m' hm' }
      · cases hs
  | handleRecover k =>
    simp only at hs
    split at hs
    · cases hs
    · split at hs
      · cases hs
      · rename_i m hheld
        cases hv : handleRecover pp tb p st k m with
        | error e => rw [hv] at hs; cases hs
        | ok r =>
          obtain ⟨st2, out2⟩ := r
          rw [hv] at hs
          cases hs
          exact h.handle hyp hpid k m hheld _ hv
  | mvba result =>
    simp only at hs
    split at hs
    · cases hs
      exact { h with
        refr := by
          refine ⟨[], by rw [hyp.result result hmem]; rfl, by simp, ?_⟩
          intro i _ _
          simp }
    · cases hs
  | refresh =>
    simp only at hs
    split at hs
    · cases hs
    · rename_i r hr'
      cases r with
      | error e => cases hs
      | ok r =>
        obtain ⟨p2, st2⟩ := r
        cases hs
        exact h.refreshStep hp hr'
  | newCommit j data =>
    simp only at hs
    split at hs
    · rename_i hc
      split at hs
      · rename_i Cs hd
        cases data with
        | none => cases hs
        | some d =>
          simp only at hs
          cases hv : newCommitStep codec p st Cs j d with
          | error e => rw [hv] at hs; cases hs
          | ok st2 =>
            rw [hv] at hs
            cases hs
            exact h.newCommit hp hN hr hk j hc.1 (by omega) Cs hd d hv
      · cases hs
    · cases hs
  | shareDist sender data =>
    simp only at hs
    split at hs
    · split at hs
      · cases hs
      · split at hs
        · cases hs
        · split at hs
          · rename_i htok
            exact PInv.shareDist (st := { st with dists := st.dists - 1 }) { h with } hyp sender data hmem htok out (Option.some.inj hs)
          · cases hs
            exact { h with
              parked := by
                intro z hz
                rcases List.mem_append.1 hz with hz | hz
                · exact h.parked z hz
                · rw [List.mem_singleton.1 hz]; exact ⟨sender, rfl, hmem⟩ }
    · cases hs
  | dist j data =>
    simp only at hs
    split at hs
    · split at hs
      · rename_i hc
        obtain ⟨s, hs1, hs2⟩ := h.parked _ hc.1
        simp only at hs1 hs2
        subst hs1
        exact PInv.shareDist (st := { st with distWait := st.distWait.erase ((s + 1).toNat, data) }) { h with parked := fun z hz => h.parked z (List.mem_of_mem_erase hz) }
          hyp s data hs2 hc.2 out (Option.some.inj hs)
      · cases hs
    · cases hs
  | success =>
    simp only at hs
    split at hs
    · cases hs
      exact { h with }
    · cases hs

theorem PInv.run {c : DealerCoins} (hp : p0.Setup pp t) (hN : 3 * p0.F + 1 ≤ p0.N) (hr : 2 * p0.F + 1 < frModulus) (hk : KnowsComs pp t b p0) (hpid : p0.pid < p0.N)
    {evs : List PEvent} {outs : List POut} {p : Party G1 G2} {st : PState G1} (hrun : PRun codec pp tb p0 (PState.init p0 c) evs outs p st)
    (hyp : PHyp codec pp t p0 b q J evs) : PInv codec pp t p0 (PState.init p0 c) b q J evs p st := by
  induction hrun with
  | nil => exact PInv.init c
  | snoc h hs ih =>
    exact (ih (hyp.mono fun e he => List.mem_append_left _ he)).step hp hN hr hk hpid _ hyp _ hs

end

end DyCAPS
