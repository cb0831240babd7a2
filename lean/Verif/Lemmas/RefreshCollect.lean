import Verif.Lemmas.RefreshVote

/-! A party of a refresh in which only messages of members that follow the protocol arrive: Recover, and the call of MVBA. -/

set_option linter.unusedSectionVars false

namespace DyCAPS

section
variable {G1 G2 GT : Type} [AddCommGroup G1] [Module Fr G1] [AddCommGroup G2] [Module Fr G2] [AddCommGroup GT] [Module Fr GT]
variable [DecidableEq G1] [DecidableEq GT]

/-- The signature shares of the members verify. -/
structure Signs (tb : Tbls) (H : Finset ℕ) (sgn : ℕ → Bytes → Bytes) : Prop where
  verify : ∀ h ∈ H, ∀ m, tb.verifyPartial m (sgn h m) = true
  len : ∀ h ∈ H, ∀ m, (sgn h m).length < 2 ^ 32
  rec_ : ∀ m s a n r, tb.recover m s a n = some r → r.length < 2 ^ 32

/-- The event that party `p0` takes the Recover message of `h` about `k`. -/
def takeEv (codec : PointCodec G1) (pp : Pairing Fr G1 G2 GT) (t : Fr) (p0 : Party G1 G2) (q : ℕ → ℕ → ℕ → Fr) (sgn : ℕ → Bytes → Bytes) (h k : ℕ) : PEvent :=
  .takeRecover (UInt32.ofNat h) (marshal (recMsg codec pp t p0.F q sgn h k (p0.pid + 1)))

/-- The Recover messages that arrive are those of members, each at most once. -/
structure Env2 (codec : PointCodec G1) (pp : Pairing Fr G1 G2 GT) (t : Fr) (p0 : Party G1 G2) (H : Finset ℕ) (coins : ℕ → DealerCoins) (q : ℕ → ℕ → ℕ → Fr)
    (sgn : ℕ → Bytes → Bytes) (evs : List PEvent) : Prop extends Env1 codec pp t p0 H coins evs where
  recover : ∀ s d, PEvent.takeRecover s d ∈ evs → ∃ h ∈ H, ∃ k ∈ H, PEvent.takeRecover s d = takeEv codec pp t p0 q sgn h k
  once : ∀ e1 s d e2, evs = e1 ++ PEvent.takeRecover s d :: e2 → PEvent.takeRecover s d ∉ e1

variable {codec : PointCodec G1} {pp : Pairing Fr G1 G2 GT} {t : Fr} {tb : Tbls} {p0 : Party G1 G2} {b : ℕ → ℕ → Fr} {q : ℕ → ℕ → ℕ → Fr}
  {H : Finset ℕ} {coins : ℕ → DealerCoins} {c : DealerCoins} {sgn : ℕ → Bytes → Bytes}

theorem Env2.init {evs : List PEvent} {ev : PEvent} (h : Env2 codec pp t p0 H coins q sgn (evs ++ [ev])) : Env2 codec pp t p0 H coins q sgn evs :=
  { h.toEnv1.mono fun _ he => List.mem_append_left _ he with
    recover := fun s d hm => h.recover s d (List.mem_append_left _ hm)
    once := fun e1 s d e2 he => h.once e1 s d (e2 ++ [ev]) (by rw [he]; simp) }

theorem Same.recover {p : Party G1 G2} (hS : Seat pp t b p0) (hG : Gives p0 H coins q) (hT : Signs tb H sgn) (hsame : Same p0 p) {h k : ℕ} (hh : h ∈ H) (hk : k ∈ H) :
    decodeRecover codec p (UInt32.ofNat h) (marshal (recMsg codec pp t p0.F q sgn h k (p0.pid + 1))) = .ok (recDec pp t p0.F q sgn h k (p0.pid + 1)) := by
  have h1 := hG.lt h hh
  have h2 := hG.lt k hk
  have hN2 := hS.N2
  have := decodeRecover_of (codec := codec) p (UInt32.ofNat h) (k + 1) (by rw [hsame.N]; omega) (by rw [hsame.N]; omega)
    (polyVal (sliceX (q (k + 1)) p0.F (2 * p0.F) ((p0.pid + 1 : ℕ) : Fr)) ((h + 1 : ℕ) : Fr))
    (quotVal (sliceX (q (k + 1)) p0.F (2 * p0.F) ((p0.pid + 1 : ℕ) : Fr)) ((h + 1 : ℕ) : Fr) t • pp.g1) (sgn h (decimalBytes (k + 1))) (hT.len h hh _)
  rw [ofNat_succ_toNat (by omega)] at this
  exact this

theorem takeEv_inj (hN2 : p0.N < 2 ^ 32) {h h' k k' : ℕ} (h1 : h < p0.N) (h2 : h' < p0.N) (h3 : k < p0.N) (h4 : k' < p0.N)
    (hd : decodeRecover codec p0 (UInt32.ofNat h) (marshal (recMsg codec pp t p0.F q sgn h k (p0.pid + 1))) = .ok (recDec pp t p0.F q sgn h k (p0.pid + 1)))
    (hd' : decodeRecover codec p0 (UInt32.ofNat h') (marshal (recMsg codec pp t p0.F q sgn h' k' (p0.pid + 1))) = .ok (recDec pp t p0.F q sgn h' k' (p0.pid + 1)))
    (he : takeEv codec pp t p0 q sgn h k = takeEv codec pp t p0 q sgn h' k') : h = h' ∧ k = k' := by
  unfold takeEv at he
  injection he with e1 e2
  rw [e1, e2, hd'] at hd
  have := Except.ok.inj hd
  unfold recDec at this
  injection this with a1 a2
  omega

/-- The state of the Recover phase. -/
structure RecInv (codec : PointCodec G1) (pp : Pairing Fr G1 G2 GT) (t : Fr) (p0 : Party G1 G2) (H : Finset ℕ) (q : ℕ → ℕ → ℕ → Fr)
    (sgn : ℕ → Bytes → Bytes) (evs : List PEvent) (st : PState G1) : Prop where
  kept : ∀ h ∈ H, ∀ k ∈ H, takeEv codec pp t p0 q sgn h k ∈ evs → st.slot = some (recDec pp t p0.F q sgn h k (p0.pid + 1)) ∨
    st.held (k + 1) = some (recDec pp t p0.F q sgn h k (p0.pid + 1)) ∨ h + 1 ∈ (st.SRec (k + 1)).map (·.1)
  slot : ∀ m, st.slot = some m → ∃ h ∈ H, ∃ k ∈ H, takeEv codec pp t p0 q sgn h k ∈ evs ∧ m = recDec pp t p0.F q sgn h k (p0.pid + 1) ∧
    (∀ m', st.held (k + 1) = some m' → m'.x ≠ m.x) ∧ m.x ∉ (st.SRec (k + 1)).map (·.1)
  held : ∀ k' m, st.held k' = some m → ∃ h ∈ H, ∃ k ∈ H, k' = k + 1 ∧ takeEv codec pp t p0 q sgn h k ∈ evs ∧ m = recDec pp t p0.F q sgn h k (p0.pid + 1) ∧
    m.x ∉ (st.SRec (k + 1)).map (·.1)
  srec : ∀ k', ∀ z ∈ st.SRec k', ∃ h ∈ H, ∃ k ∈ H, k' = k + 1 ∧ takeEv codec pp t p0 q sgn h k ∈ evs ∧
    z = (h + 1, polyVal (sliceX (q k') p0.F (2 * p0.F) ((p0.pid + 1 : ℕ) : Fr)) ((h + 1 : ℕ) : Fr))
  nodup : ∀ k, ((st.SRec k).map (·.1)).Nodup

theorem RecInv.mono {evs : List PEvent} {st : PState G1} (ih : RecInv codec pp t p0 H q sgn evs st) (ev : PEvent)
    (hne : ∀ s d, ev ≠ .takeRecover s d) {st' : PState G1} (e1 : st'.slot = st.slot) (e2 : st'.held = st.held) (e3 : st'.SRec = st.SRec) :
    RecInv codec pp t p0 H q sgn (evs ++ [ev]) st' where
  kept := by
    intro h hh k hk hm
    rw [e1, e2, e3]
    rw [List.mem_append, List.mem_singleton] at hm
    rcases hm with hm | hm
    · exact ih.kept h hh k hk hm
    · exact absurd hm.symm (hne _ _)
  slot := by
    rw [e1, e2, e3]
    intro m hm
    obtain ⟨h, hh, k, hk, a, r⟩ := ih.slot m hm
    exact ⟨h, hh, k, hk, List.mem_append_left _ a, r⟩
  held := by
    rw [e2, e3]
    intro k' m hm
    obtain ⟨h, hh, k, hk, r0, a, r⟩ := ih.held k' m hm
    exact ⟨h, hh, k, hk, r0, List.mem_append_left _ a, r⟩
  srec := by
    rw [e3]
    intro k' z hz
    obtain ⟨h, hh, k, hk, r0, a, r⟩ := ih.srec k' z hz
    exact ⟨h, hh, k, hk, r0, List.mem_append_left _ a, r⟩
  nodup := by rw [e3]; exact ih.nodup

theorem RecInv.accept {evs : List PEvent} {st : PState G1} (ih : RecInv codec pp t p0 H q sgn evs st) (k' : ℕ) {m : RecoverMsg G1}
    (h2 : st.held k' = some m) {st' : PState G1} (e1 : st'.slot = st.slot) (e2 : st'.held = upd st.held k' none)
    (e3 : st'.SRec = upd st.SRec k' (st.SRec k' ++ [(m.x, m.v)])) :
    RecInv codec pp t p0 H q sgn (evs ++ [.handleRecover k']) st' := by
  obtain ⟨h, hh, k, hk, rfl, ha, hm, hx⟩ := ih.held k' m h2
  have hsub : ∀ j, ∀ z ∈ (st.SRec j).map (·.1), z ∈ (st'.SRec j).map (·.1) := by
    intro j z hz
    rw [e3]
    by_cases hj : j = k + 1
    · subst hj; rw [upd_same, List.map_append]; exact List.mem_append_left _ hz
    · rw [upd_ne _ _ hj]; exact hz
  refine ⟨fun h' hh' k' hk' hmem => ?_, fun m' hm' => ?_, fun k' m' hm' => ?_, fun k' z hz => ?_, fun j => ?_⟩
  · rw [List.mem_append, List.mem_singleton] at hmem
    rcases hmem with hmem | hmem
    swap
    · cases hmem
    rcases ih.kept h' hh' k' hk' hmem with a | a | a
    · left; rw [e1]; exact a
    · by_cases hkk : k' = k
      · subst hkk
        right; right
        rw [h2] at a
        have a := Option.some.inj a
        rw [e3, upd_same, List.map_append, a]
        exact List.mem_append_right _ (by simp [recDec])
      · right; left
        rw [e2, upd_ne _ _ (by omega)]; exact a
    · exact Or.inr (Or.inr (hsub _ _ a))
  · rw [e1] at hm'
    obtain ⟨h', hh', k', hk', a1, a2, a3, a4⟩ := ih.slot m' hm'
    refine ⟨h', hh', k', hk', List.mem_append_left _ a1, a2, fun m2 hm2 => ?_, ?_⟩
    · rw [e2] at hm2
      by_cases hkk : k' + 1 = k + 1
      · rw [hkk, upd_same] at hm2; cases hm2
      · rw [upd_ne _ _ hkk] at hm2; exact a3 m2 hm2
    · rw [e3]
      by_cases hkk : k' + 1 = k + 1
      · rw [hkk, upd_same, List.map_append, List.mem_append]
        rw [hkk] at a3 a4
        rintro (h | h)
        · exact a4 h
        · simp only [List.map_cons, List.map_nil, List.mem_singleton] at h
          exact a3 m h2 h.symm
      · rw [upd_ne _ _ hkk]; exact a4
  · rw [e2] at hm'
    by_cases hkk : k' = k + 1
    · rw [hkk, upd_same] at hm'; cases hm'
    · rw [upd_ne _ _ hkk] at hm'
      obtain ⟨h', hh', k2, hk', a0, a1, a2, a3⟩ := ih.held k' m' hm'
      refine ⟨h', hh', k2, hk', a0, List.mem_append_left _ a1, a2, ?_⟩
      rw [e3, upd_ne _ _ (by omega)]; exact a3
  · rw [e3] at hz
    by_cases hkk : k' = k + 1
    · subst hkk
      rw [upd_same, List.mem_append, List.mem_singleton] at hz
      rcases hz with hz | hz
      · obtain ⟨h', hh', k2, hk', a0, a1, a2⟩ := ih.srec _ z hz
        exact ⟨h', hh', k2, hk', a0, List.mem_append_left _ a1, a2⟩
      · exact ⟨h, hh, k, hk, rfl, List.mem_append_left _ ha, by rw [hz, hm]; rfl⟩
    · rw [upd_ne _ _ hkk] at hz
      obtain ⟨h', hh', k2, hk', a0, a1, a2⟩ := ih.srec _ z hz
      exact ⟨h', hh', k2, hk', a0, List.mem_append_left _ a1, a2⟩
  · rw [e3]
    by_cases hkk : j = k + 1
    · subst hkk
      rw [upd_same, List.map_append, List.nodup_append]
      refine ⟨ih.nodup _, by simp, ?_⟩
      intro a ha' b' hb' he
      simp only [List.map_cons, List.map_nil, List.mem_singleton] at hb'
      rw [he, hb'] at ha'
      exact hx ha'
    · rw [upd_ne _ _ hkk]; exact ih.nodup j

/-- In this environment every Recover message is accepted. -/
theorem RecInv.accepts {evs : List PEvent} {st : PState G1} {p : Party G1 G2} (hS : Seat pp t b p0) (hT : Signs tb H sgn) (hsame : Same p0 p)
    (hcom : ComInv pp t p0 H q st) (ih : RecInv codec pp t p0 H q sgn evs st) {k : ℕ} {m : RecoverMsg G1} (h2 : st.held k = some m) : Accepts pp tb p st k m := by
  have hflg := (hcom.held k m h2).2
  obtain ⟨h, hh, k, hk, rfl, ha, rfl, hx⟩ := ih.held k m h2
  have hrow := (commitsTo_iff _ _ _ _ _ _).1 (hcom.flg _ hflg).2.2 (p0.pid + 1) (by omega) (by have := hS.pid; omega)
  refine ⟨?_, hT.verify h hh _⟩
  rw [hsame.pid, hrow, hsame.kzg]
  exact honest_check p0 hS.setup hS.F1 _ _

theorem PRun.recInv (hS : Seat pp t b p0) (hG : Gives p0 H coins q) (hT : Signs tb H sgn) {evs : List PEvent} {outs : List POut} {p : Party G1 G2} {st : PState G1}
    (hrun : PRun codec pp tb p0 (PState.init p0 c) evs outs p st) (henv : Env2 codec pp t p0 H coins q sgn evs) : RecInv codec pp t p0 H q sgn evs st := by
  induction hrun with
  | nil =>
    exact ⟨fun h _ k _ hm => by simp at hm, fun m hm => by simp [PState.init] at hm, fun k m hm => by simp [PState.init] at hm, fun k z hz => by simp [PState.init] at hz,
      fun k => by simp [PState.init]⟩
  | snoc hr hs ih =>
    rename_i evs1 outs1 p1 st1 ev p' st' out
    have henv1 := henv.init
    have ih := ih henv1
    have hsame := hr.same
    have hcom := hr.comInv hS hG henv1.toEnv1
    have hE := step_effect hs
    cases hE with
    | take h1 hv =>
      rename_i s d m
      obtain ⟨h, hh, k, hk, he⟩ := henv.recover s d (List.mem_append_right _ (List.mem_singleton.2 rfl))
      have hnew := henv.once evs1 s d [] rfl
      rw [he] at hnew
      have hdec := fun {h k : ℕ} (hh : h ∈ H) (hk : k ∈ H) => Same.recover (p := p0) (codec := codec) hS hG hT ⟨rfl, rfl, rfl, rfl, rfl, rfl, rfl⟩ hh hk
      have hm : m = recDec pp t p0.F q sgn h k (p0.pid + 1) := by
        unfold takeEv at he
        injection he with e1 e2
        rw [e1, e2, hsame.recover hS hG hT hh hk] at hv
        exact (Except.ok.inj hv).symm
      have hinj : ∀ h' ∈ H, ∀ k' ∈ H, takeEv codec pp t p0 q sgn h' k' ∈ evs1 → h' + 1 = h + 1 → k' + 1 = k + 1 → False := by
        intro h' _ k' _ hmem e1 e2
        have e1 : h' = h := by omega
        have e2 : k' = k := by omega
        subst e1 e2
        exact hnew hmem
      refine ⟨fun h' hh' k' hk' hmem => ?_, fun m' hm' => ?_, fun k' m' hm' => ?_, fun k' z hz => ?_, ih.nodup⟩
      · rw [List.mem_append, List.mem_singleton] at hmem
        rcases hmem with hmem | hmem
        · rcases ih.kept h' hh' k' hk' hmem with a | a | a
          · rw [h1] at a; cases a
          · exact Or.inr (Or.inl a)
          · exact Or.inr (Or.inr a)
        · left
          rw [he] at hmem
          obtain ⟨rfl, rfl⟩ := takeEv_inj hS.N2 (hG.lt _ hh') (hG.lt _ hh) (hG.lt _ hk') (hG.lt _ hk) (hdec hh' hk') (hdec hh hk) hmem
          show some m = _
          rw [hm]
      · have hm' : some m = some m' := hm'
        have hm' := Option.some.inj hm'
        subst hm'
        refine ⟨h, hh, k, hk, ?_, hm, fun m2 hm2 hx => ?_, fun hx => ?_⟩
        · rw [he]; exact List.mem_append_right _ (List.mem_singleton.2 rfl)
        · obtain ⟨h', hh', k', hk', a0, a1, a2, -⟩ := ih.held _ m2 hm2
          rw [a2, hm] at hx
          exact hinj h' hh' k' hk' a1 hx a0.symm
        · obtain ⟨z, hz, hzx⟩ := List.mem_map.1 hx
          obtain ⟨h', hh', k', hk', a0, a1, a2⟩ := ih.srec _ z hz
          rw [a2, hm] at hzx
          exact hinj h' hh' k' hk' a1 hzx a0.symm
      · obtain ⟨h', hh', k2, hk', a0, a1, r⟩ := ih.held k' m' hm'
        exact ⟨h', hh', k2, hk', a0, List.mem_append_left _ a1, r⟩
      · obtain ⟨h', hh', k2, hk', a0, a1, r⟩ := ih.srec k' z hz
        exact ⟨h', hh', k2, hk', a0, List.mem_append_left _ a1, r⟩
    | pass h h1 h2 h3 h4 h5 =>
      rename_i m
      obtain ⟨h0, hh, k, hk, a1, hm, a3, a4⟩ := ih.slot m h
      have hmk : m.k = k + 1 := by rw [hm]; rfl
      refine ⟨fun h' hh' k' hk' hmem => ?_, fun m' hm' => ?_, fun k' m' hm' => ?_, fun k' z hz => ?_, ih.nodup⟩
      · rw [List.mem_append, List.mem_singleton] at hmem
        rcases hmem with hmem | hmem
        swap
        · cases hmem
        right
        rcases ih.kept h' hh' k' hk' hmem with a | a | a
        · left
          rw [h] at a
          have a := Option.some.inj a
          have : m.k = k' + 1 := by rw [a]; rfl
          show upd st1.held m.k (some m) (k' + 1) = _
          rw [this, upd_same, a]
        · left
          show upd st1.held m.k (some m) (k' + 1) = _
          rw [upd_ne]
          · exact a
          · intro e; rw [e, h5] at a; cases a
        · exact Or.inr a
      · cases hm'
      · by_cases hkk : k' = m.k
        · have hm' : upd st1.held m.k (some m) k' = some m' := hm'
          rw [hkk, upd_same] at hm'
          have hm' := Option.some.inj hm'
          subst hm'
          exact ⟨h0, hh, k, hk, hkk.trans hmk, List.mem_append_left _ a1, hm, a4⟩
        · have hm' : upd st1.held m.k (some m) k' = some m' := hm'
          rw [upd_ne _ _ hkk] at hm'
          obtain ⟨h', hh', k2, hk', a0, a1, r⟩ := ih.held k' m' hm'
          exact ⟨h', hh', k2, hk', a0, List.mem_append_left _ a1, r⟩
      · obtain ⟨h', hh', k2, hk', a0, a1, r⟩ := ih.srec k' z hz
        exact ⟨h', hh', k2, hk', a0, List.mem_append_left _ a1, r⟩
    | handleBad h1 h2 h3 => exact absurd (ih.accepts hS hT hsame hcom h2) h3
    | handleOk h1 h2 h3 hQ h4 => exact ih.accept _ h2 rfl rfl rfl
    | handleComb h1 h2 h3 hQ h4 h5 h6 => exact ih.accept _ h2 rfl rfl rfl
    | handleCall h1 h2 h3 hQ h4 h5 h6 h7 => exact ih.accept _ h2 rfl rfl rfl
    | reshare h1 => exact ih.mono _ (fun s d he => by subst he; cases h1) rfl rfl rfl
    | distBad h1 => exact ih.mono _ (fun s d he => by subst he; cases h1) rfl rfl rfl
    | distOk h1 => exact ih.mono _ (fun s d he => by subst he; cases h1) rfl rfl rfl
    | distFull h1 => exact ih.mono _ (fun s d he => by subst he; cases h1) rfl rfl rfl
    | _ => exact ih.mono _ (fun s d he => by cases he) rfl rfl rfl

/-- The call of MVBA. -/
structure CallInv (F : ℕ) (outs : List POut) (st : PState G1) : Prop where
  exited : ∀ k, st.exited k = true → st.mvbaSent = true
  comb : ∀ k, st.combined k = true ↔ k ∈ st.mvbaIn.map (·.1)
  nodup : (st.mvbaIn.map (·.1)).Nodup
  com : ∀ k ∈ st.mvbaIn.map (·.1), st.flgCom k = true
  siglen : ∀ z ∈ st.mvbaIn, z.2.length < 2 ^ 32
  sent : st.mvbaSent = true ↔ F + 1 ≤ st.mvbaIn.length
  wait : st.mvbaSent = true → st.mvbaRunning = true ∨ st.refresh ≠ .waiting
  out : st.mvbaSent = true → ∃ m, POut.mvba m ∈ outs
  what : ∀ m, POut.mvba m ∈ outs → ∃ L : List (ℕ × Bytes), m = ⟨L.map (·.2), L.map fun z => UInt32.ofNat z.1⟩ ∧ L.length = F + 1 ∧
    (L.map (·.1)).Nodup ∧ (∀ z ∈ L, z.2.length < 2 ^ 32) ∧ ∀ k ∈ L.map (·.1), st.flgCom k = true

theorem combinedSig_len (hT : Signs tb H sgn) (N F k : ℕ) (sigs : List Bytes) : (combinedSig tb N F k sigs).length < 2 ^ 32 := by
  unfold combinedSig
  cases hr : tb.recover (decimalBytes k) (sigs ++ List.replicate (N + 1 - sigs.length) []) (2 * F) N with
  | none => simp
  | some r => exact hT.rec_ _ _ _ _ _ hr

/-- A step that only touches other variables, or accepts commitments. -/
theorem CallInv.mono {F : ℕ} {outs out : List POut} {st st' : PState G1} (ih : CallInv F outs st) (ho : ∀ m, POut.mvba m ∉ out)
    (e1 : ∀ k, st'.exited k = true → st.exited k = true ∨ st.mvbaSent = true) (e2 : st'.combined = st.combined) (e3 : st'.mvbaIn = st.mvbaIn)
    (e4 : ∀ k, st.flgCom k = true → st'.flgCom k = true) (e5 : st'.mvbaSent = st.mvbaSent)
    (e6 : st.mvbaSent = true → st'.mvbaRunning = true ∨ st'.refresh ≠ .waiting) : CallInv F (outs ++ out) st' where
  exited := fun k hk => by
    rw [e5]
    rcases e1 k hk with h | h
    · exact ih.exited k h
    · exact h
  comb := by rw [e2, e3]; exact ih.comb
  nodup := by rw [e3]; exact ih.nodup
  com := by rw [e3]; exact fun k hk => e4 k (ih.com k hk)
  siglen := by rw [e3]; exact ih.siglen
  sent := by rw [e5, e3]; exact ih.sent
  wait := by rw [e5]; exact e6
  out := by
    rw [e5]
    intro hs
    obtain ⟨m, hm⟩ := ih.out hs
    exact ⟨m, List.mem_append_left _ hm⟩
  what := by
    intro m hm
    rw [List.mem_append] at hm
    rcases hm with hm | hm
    · obtain ⟨L, a1, a2, a3, a4, a5⟩ := ih.what m hm
      exact ⟨L, a1, a2, a3, a4, fun k hk => e4 k (a5 k hk)⟩
    · exact absurd hm (ho m)

theorem PRun.callInv (hS : Seat pp t b p0) (hG : Gives p0 H coins q) (hT : Signs tb H sgn) {evs : List PEvent} {outs : List POut} {p : Party G1 G2} {st : PState G1}
    (hrun : PRun codec pp tb p0 (PState.init p0 c) evs outs p st) (henv : Env1 codec pp t p0 H coins evs) : CallInv p0.F outs st := by
  induction hrun with
  | nil =>
    exact ⟨fun k h => by simp [PState.init] at h, fun k => by simp [PState.init], by simp [PState.init], fun k h => by simp [PState.init] at h,
      fun k h => by simp [PState.init] at h, by simp [PState.init], fun h => by simp [PState.init] at h, fun h => by simp [PState.init] at h,
      fun m h => by simp at h⟩
  | snoc hr hs ih =>
    rename_i evs1 outs1 p1 st1 ev p' st' out
    have henv1 := henv.mono (evs := evs1) fun e he => List.mem_append_left _ he
    have ih := ih henv1
    have hsame := hr.same
    have hcom := hr.comInv hS hG henv1
    have hcom' := (hr.snoc hs).comInv hS hG henv
    have hord := hr.order
    have hE := step_effect hs
    cases hE with
    | commit h1 h2 h3 hv =>
      rename_i j d row ok
      refine ih.mono (by simp) (fun k h => Or.inl h) rfl rfl (fun k hk => ?_) rfl ih.wait
      apply hcom'.done
      show upd st1.comDone j true k = true
      unfold upd
      split
      · rfl
      · exact (hcom.flg k hk).1
    | reshare h1 h2 hv =>
      refine ih.mono (fun m hm => ?_) (fun k h => Or.inl h) rfl rfl (fun k hk => hk) rfl ih.wait
      obtain ⟨l, r, e⟩ := vote_recover _ _ _ _ hv _ hm
      cases e
    | handleBad h1 h2 h3 =>
      rename_i k m
      refine ih.mono (by simp) (fun j hj => ?_) rfl rfl (fun k hk => hk) rfl ih.wait
      by_cases hjk : j = k
      · subst hjk
        simp only [endIteration, upd_same, Bool.or_eq_true] at hj
        exact hj
      · simp only [endIteration, upd_ne _ _ hjk] at hj; exact Or.inl hj
    | handleOk h1 h2 h3 hQ h4 =>
      rename_i k m fr Q
      refine ih.mono (by simp) (fun j hj => ?_) rfl rfl (fun k hk => hk) rfl ih.wait
      by_cases hjk : j = k
      · subst hjk
        simp only [afterAccept, upd_same, Bool.or_eq_true] at hj
        exact hj
      · simp only [afterAccept, upd_ne _ _ hjk] at hj; exact Or.inl hj
    | handleComb h1 h2 h3 hQ h4 h5 h6 =>
      rename_i k m fr Q
      have hknot : k ∉ st1.mvbaIn.map (·.1) := by
        intro hk
        rw [(ih.comb k).2 hk] at h4; cases h4
      rw [List.append_nil]
      refine ⟨fun j hj => ?_, fun j => ?_, ?_, fun j hj => ?_, fun z hz => ?_, ?_, ih.wait, ih.out, fun m hm => ?_⟩
      · by_cases hjk : j = k
        · subst hjk
          simp only [afterAccept, upd_same, Bool.or_eq_true] at hj
          rcases hj with hj | hj
          · exact ih.exited j hj
          · exact hj
        · simp only [afterAccept, upd_ne _ _ hjk] at hj; exact ih.exited j hj
      · simp only [afterAccept, List.map_append, List.map_cons, List.map_nil, List.mem_append, List.mem_singleton]
        by_cases hjk : j = k
        · subst hjk; simp
        · rw [upd_ne _ _ hjk, ih.comb]; simp [hjk]
      · simp only [afterAccept, List.map_append, List.map_cons, List.map_nil]
        rw [List.nodup_append]
        refine ⟨ih.nodup, by simp, ?_⟩
        intro a ha b' hb' he
        rw [List.mem_singleton] at hb'
        rw [he, hb'] at ha
        exact hknot ha
      · simp only [afterAccept, List.map_append, List.map_cons, List.map_nil, List.mem_append, List.mem_singleton] at hj
        rcases hj with hj | rfl
        · exact ih.com j hj
        · exact (hcom.held _ _ h2).2
      · simp only [afterAccept, List.mem_append, List.mem_singleton] at hz
        rcases hz with hz | rfl
        · exact ih.siglen z hz
        · exact combinedSig_len hT _ _ _ _
      · show st1.mvbaSent = true ↔ p0.F + 1 ≤ (st1.mvbaIn ++ [_]).length
        rw [List.length_append, List.length_singleton]
        rw [hsame.F] at h6
        constructor
        · intro h; have := ih.sent.1 h; omega
        · intro h
          cases hms : st1.mvbaSent with
          | true => rfl
          | false => exact absurd ⟨hms, h⟩ h6
      · obtain ⟨L, r⟩ := ih.what m hm
        exact ⟨L, r⟩
    | handleCall h1 h2 h3 hQ h4 h5 h6 h7 =>
      rename_i k m fr Q
      have hknot : k ∉ st1.mvbaIn.map (·.1) := by
        intro hk
        rw [(ih.comb k).2 hk] at h4; cases h4
      have hnd : ((st1.mvbaIn ++ [(k, combinedSig tb p1.N p1.F k (st1.SSig k ++ [m.sigShare]))]).map (·.1)).Nodup := by
        simp only [List.map_append, List.map_cons, List.map_nil]
        rw [List.nodup_append]
        refine ⟨ih.nodup, by simp, ?_⟩
        intro a ha b' hb' he
        rw [List.mem_singleton] at hb'
        rw [he, hb'] at ha
        exact hknot ha
      have hcm : ∀ j ∈ (st1.mvbaIn ++ [(k, combinedSig tb p1.N p1.F k (st1.SSig k ++ [m.sigShare]))]).map (·.1), st1.flgCom j = true := by
        intro j hj
        simp only [List.map_append, List.map_cons, List.map_nil, List.mem_append, List.mem_singleton] at hj
        rcases hj with hj | rfl
        · exact ih.com j hj
        · exact (hcom.held _ _ h2).2
      have hsl : ∀ z ∈ st1.mvbaIn ++ [(k, combinedSig tb p1.N p1.F k (st1.SSig k ++ [m.sigShare]))], z.2.length < 2 ^ 32 := by
        intro z hz
        simp only [List.mem_append, List.mem_singleton] at hz
        rcases hz with hz | rfl
        · exact ih.siglen z hz
        · exact combinedSig_len hT _ _ _ _
      refine ⟨fun j hj => rfl, fun j => ?_, hnd, hcm, hsl, ?_, fun _ => Or.inl rfl, fun _ => ⟨_, List.mem_append_right _ (List.mem_singleton.2 rfl)⟩, fun m' hm' => ?_⟩
      · simp only [afterAccept, List.map_append, List.map_cons, List.map_nil, List.mem_append, List.mem_singleton]
        by_cases hjk : j = k
        · subst hjk; simp
        · rw [upd_ne _ _ hjk, ih.comb]; simp [hjk]
      · show true = true ↔ p0.F + 1 ≤ (st1.mvbaIn ++ [_]).length
        rw [List.length_append, List.length_singleton, ← hsame.F]
        simp only [true_iff]
        exact h7
      · rw [List.mem_append, List.mem_singleton] at hm'
        rcases hm' with hm' | hm'
        · obtain ⟨L, r⟩ := ih.what m' hm'
          exact ⟨L, r⟩
        · injection hm' with hm'
          refine ⟨_, hm', ?_, hnd, hsl, hcm⟩
          have hns : ¬ p0.F + 1 ≤ st1.mvbaIn.length := by
            intro h; rw [ih.sent.2 h] at h6; cases h6
          rw [hsame.F] at h7
          rw [List.length_append, List.length_singleton]; omega
    | mvba h1 => exact ih.mono (by simp) (fun k h => Or.inl h) rfl rfl (fun k hk => hk) rfl (fun _ => Or.inr (by simp))
    | refreshCom h1 h2 h3 => exact ih.mono (by simp) (fun k h => Or.inl h) rfl rfl (fun k hk => hk) rfl (fun _ => Or.inr (by simp))
    | refreshRec h1 h2 h3 h4 => exact ih.mono (by simp) (fun k h => Or.inl h) rfl rfl (fun k hk => hk) rfl (fun _ => Or.inr (by simp))
    | refreshEnd h1 h2 => exact ih.mono (by simp) (fun k h => Or.inl h) rfl rfl (fun k hk => hk) rfl (fun _ => Or.inr (by simp))
    | _ => exact ih.mono (by simp) (fun k h => Or.inl h) rfl rfl (fun k hk => hk) rfl ih.wait

end

end DyCAPS
