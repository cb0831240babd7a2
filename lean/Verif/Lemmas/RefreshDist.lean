import Verif.Lemmas.RefreshCollect
import Verif.Model.RefreshNet

/-! A party of a refresh in which only messages of members that follow the protocol arrive: Refresh, ShareDist and Success. -/

set_option linter.unusedSectionVars false

namespace DyCAPS

section
variable {G1 G2 GT : Type} [AddCommGroup G1] [Module Fr G1] [AddCommGroup G2] [Module Fr G2] [AddCommGroup GT] [Module Fr GT]
variable [DecidableEq G1] [DecidableEq GT]

/-- The event that party `p0` gets the ShareDist message of a party with reduced share `f`. -/
def distEv (codec : PointCodec G1) (pp : Pairing Fr G1 G2 GT) (t : Fr) (p0 : Party G1 G2) (R : ℕ → List Fr) (h : ℕ) : PEvent :=
  .shareDist (UInt32.ofNat h) (marshal (⟨frTo32 (polyVal (R h) ((p0.pid + 1 : ℕ) : Fr)), codec.enc (quotVal (R h) ((p0.pid + 1 : ℕ) : Fr) t • pp.g1)⟩ : PShareDist))

/-- All messages that arrive are those of members; `R h` is the reduced share of `h` after Refresh and `J` the agreed set. -/
structure Env3 (codec : PointCodec G1) (pp : Pairing Fr G1 G2 GT) (t : Fr) (p0 : Party G1 G2) (H : Finset ℕ) (coins : ℕ → DealerCoins) (q : ℕ → ℕ → ℕ → Fr)
    (sgn : ℕ → Bytes → Bytes) (J : List ℕ) (R : ℕ → List Fr) (evs : List PEvent) : Prop extends Env2 codec pp t p0 H coins q sgn evs where
  names : NamesJ J evs
  newCommit : ∀ j data, PEvent.newCommit j data ∈ evs → ∃ h ∈ H, j = h + 1 ∧ data = some (codec.enc (polyVal (R h) t • pp.g1))
  dist : ∀ s d, PEvent.shareDist s d ∈ evs → ∃ h ∈ H, PEvent.shareDist s d = distEv codec pp t p0 R h
  distOnce : ∀ e1 s d e2, evs = e1 ++ PEvent.shareDist s d :: e2 → PEvent.shareDist s d ∉ e1

/-- The agreed set names members. -/
structure Chosen (F : ℕ) (H : Finset ℕ) (J : List ℕ) : Prop where
  len : J.length = F + 1
  mem : ∀ j ∈ J, ∃ h ∈ H, j = h + 1

variable {codec : PointCodec G1} {pp : Pairing Fr G1 G2 GT} {t : Fr} {tb : Tbls} {p0 : Party G1 G2} {b : ℕ → ℕ → Fr} {q : ℕ → ℕ → ℕ → Fr}
  {H : Finset ℕ} {coins : ℕ → DealerCoins} {c : DealerCoins} {sgn : ℕ → Bytes → Bytes} {J : List ℕ} {R : ℕ → List Fr}

theorem Env3.init {evs : List PEvent} {ev : PEvent} (h : Env3 codec pp t p0 H coins q sgn J R (evs ++ [ev])) : Env3 codec pp t p0 H coins q sgn J R evs :=
  { h.toEnv2.init with
    names := fun r hr => h.names r (List.mem_append_left _ hr)
    newCommit := fun j d hm => h.newCommit j d (List.mem_append_left _ hm)
    dist := fun s d hm => h.dist s d (List.mem_append_left _ hm)
    distOnce := fun e1 s d e2 he => h.distOnce e1 s d (e2 ++ [ev]) (by rw [he]; simp) }

/-- The Refresh loop. -/
structure SumInv (pp : Pairing Fr G1 G2 GT) (t : Fr) (p0 : Party G1 G2) (q : ℕ → ℕ → ℕ → Fr) (J : List ℕ) (evs : List PEvent) (p : Party G1 G2) (st : PState G1) : Prop where
  len : p.reducedShare.length = p0.F + 1
  wait : st.refresh ≠ .waiting → ∃ v, PEvent.mvba v ∈ evs
  loop : ∀ rest Qs Cs, st.refresh = .looping rest Qs Cs → ∃ done, J = done ++ rest ∧ ∀ j, 1 ≤ j → j ≤ p0.N →
    Cs j = (done.map fun k => polyVal (sliceX (q k) p0.F (2 * p0.F) (j : Fr)) t).sum • pp.g1
  done : ∀ Cs, st.refresh = .done Cs → ∀ j, 1 ≤ j → j ≤ p0.N → Cs j = (J.map fun k => polyVal (sliceX (q k) p0.F (2 * p0.F) (j : Fr)) t).sum • pp.g1

theorem SumInv.mono {evs : List PEvent} {p p' : Party G1 G2} {st st' : PState G1} (ih : SumInv pp t p0 q J evs p st) (ev : PEvent)
    (e1 : p'.reducedShare = p.reducedShare) (e2 : st'.refresh = st.refresh) : SumInv pp t p0 q J (evs ++ [ev]) p' st' where
  len := by rw [e1]; exact ih.len
  wait := by
    rw [e2]
    intro h
    obtain ⟨v, hv⟩ := ih.wait h
    exact ⟨v, List.mem_append_left _ hv⟩
  loop := by rw [e2]; exact ih.loop
  done := by rw [e2]; exact ih.done

theorem PRun.sumInv (hS : Seat pp t b p0) (hG : Gives p0 H coins q) {evs : List PEvent} {outs : List POut} {p : Party G1 G2} {st : PState G1}
    (hrun : PRun codec pp tb p0 (PState.init p0 c) evs outs p st) (henv : Env1 codec pp t p0 H coins evs) (hJ : NamesJ J evs) : SumInv pp t p0 q J evs p st := by
  induction hrun with
  | nil =>
    exact ⟨by rw [hS.red, sliceX_length], fun h => absurd rfl h, fun rest Qs Cs h => (by cases h), fun Cs h => (by cases h)⟩
  | snoc hr hs ih =>
    rename_i evs1 outs1 p1 st1 ev p' st' out
    have henv1 := henv.mono (evs := evs1) fun e he => List.mem_append_left _ he
    have ih := ih henv1 (fun r hr => hJ r (List.mem_append_left _ hr))
    have hsame := hr.same
    have hcom := hr.comInv hS hG henv1
    have hE := step_effect hs
    cases hE with
    | mvba h1 =>
      rename_i v
      have hv : PEvent.mvba v ∈ evs1 ++ [PEvent.mvba v] := List.mem_append_right _ (List.mem_singleton.2 rfl)
      refine ⟨ih.len, fun _ => ⟨v, hv⟩, fun rest Qs Cs h => ?_, fun Cs h => by cases h⟩
      injection h with e1 e2 e3
      refine ⟨[], by rw [← e1, List.nil_append]; exact (hJ v hv).symm, fun j _ _ => ?_⟩
      rw [← e3]; simp
    | refreshCom h1 h2 h3 h4 =>
      rename_i j0 rest0 Qs0 Cs0
      obtain ⟨done, d1, d2⟩ := ih.loop _ _ _ h1
      refine ⟨ih.len, fun _ => ?_, fun rest Qs Cs h => ?_, fun Cs h => by cases h⟩
      · obtain ⟨v, hv⟩ := ih.wait (by rw [h1]; simp)
        exact ⟨v, List.mem_append_left _ hv⟩
      · injection h with e1 e2 e3
        subst e1
        refine ⟨done ++ [j0], by rw [d1]; simp, fun j a1 a2 => ?_⟩
        rw [← e3]
        show Cs0 j + st1.CQ j0 j = _
        rw [d2 j a1 a2, (commitsTo_iff _ _ _ _ _ _).1 (hcom.flg j0 h3).2.2 j a1 a2, ← add_smul]
        simp
    | refreshRec h1 h2 h3 h4 => exact absurd h4 (hr.not_waited hS.F1 h1 h3)
    | refreshEnd h1 h2 =>
      rename_i Qs0 Cs0
      obtain ⟨done, d1, d2⟩ := ih.loop _ _ _ h1
      rw [List.append_nil] at d1
      subst d1
      refine ⟨?_, fun _ => ?_, fun rest Qs Cs h => (by cases h), fun Cs h => ?_⟩
      · show (addPoly p1.F Qs0 p1.reducedShare ++ p1.reducedShare.drop (p1.F + 1)).length = _
        rw [List.length_append, addPoly_length, List.length_drop, ih.len, hsame.F]; omega
      · obtain ⟨v, hv⟩ := ih.wait (by rw [h1]; simp)
        exact ⟨v, List.mem_append_left _ hv⟩
      · injection h with e1
        rw [← e1]; exact d2
    | _ => exact ih.mono _ rfl rfl

/-- The commitment expected from party `j`, as an exponent. -/
def expected (p0 : Party G1 G2) (t : Fr) (b : ℕ → ℕ → Fr) (q : ℕ → ℕ → ℕ → Fr) (J : List ℕ) (j : ℕ) : Fr :=
  polyVal (sliceX (refreshed b q J) p0.F (2 * p0.F) (j : Fr)) t

theorem Seat.expects (hS : Seat pp t b p0) {p : Party G1 G2} {st : PState G1} {evs : List PEvent} (hsame : Same p0 p) (hsum : SumInv pp t p0 q J evs p st) {Cs : ℕ → G1}
    (hd : st.refresh = .done Cs) {j : ℕ} (j1 : 1 ≤ j) (j2 : j ≤ p0.N) : ∃ old, oldCom p j = .ok old ∧ old + Cs j = expected p0 t b q J j • pp.g1 := by
  refine ⟨polyVal (sliceX b p0.F (2 * p0.F) (j : Fr)) t • pp.g1, ?_, ?_⟩
  · have e : oldCom p j = oldCom p0 j := by rw [hsame.eq]; rfl
    rw [e]; exact oldCom_ok hS.setup hS.N1 hS.r hS.coms j j1
  · rw [hsum.done Cs hd j j1 j2, ← add_smul, expected, polyVal_sliceX, polyVal_sliceX, biVal_refreshed]
    simp only [polyVal_sliceX]

/-- Member `h` has the reduced share that fits the commitments. -/
def Good (p0 : Party G1 G2) (t : Fr) (b : ℕ → ℕ → Fr) (q : ℕ → ℕ → ℕ → Fr) (J : List ℕ) (R : ℕ → List Fr) (h : ℕ) : Prop :=
  polyVal (R h) t = expected p0 t b q J (h + 1)

/-- ShareDist and Success. -/
structure DistInv (codec : PointCodec G1) (pp : Pairing Fr G1 G2 GT) (t : Fr) (p0 : Party G1 G2) (H : Finset ℕ) (b : ℕ → ℕ → Fr) (q : ℕ → ℕ → ℕ → Fr)
    (J : List ℕ) (R : ℕ → List Fr) (evs : List PEvent) (outs : List POut) (st : PState G1) : Prop where
  done : ∀ j, st.newComDone j = true → ∃ h ∈ H, j = h + 1 ∧ (Good p0 t b q J R h → st.token j = true ∨ j ∈ st.SB.map (·.1))
  token : ∀ j, st.token j = true → st.newComDone j = true ∧ j ∉ st.SB.map (·.1) ∧
    ∃ h ∈ H, j = h + 1 ∧ Good p0 t b q J R h ∧ st.SCom j = some (polyVal (R h) t • pp.g1)
  sb : ∀ j ∈ st.SB.map (·.1), st.newComDone j = true ∧ ∃ h ∈ H, j = h + 1 ∧ Good p0 t b q J R h
  nodup : (st.SB.map (·.1)).Nodup
  came : ∀ h ∈ H, distEv codec pp t p0 R h ∈ evs → h + 1 ∈ st.SB.map (·.1) ∨ ∃ d, (h + 1, d) ∈ st.distWait
  sent : st.successSent = true ↔ 2 * p0.F + 1 ≤ st.SB.length
  out : st.successSent = true ↔ POut.success ∈ outs
  count : st.successCount = evs.countP PEvent.isSuccess
  fin : st.finished = decide (2 * p0.F + 1 ≤ st.successCount)
  le : st.successCount ≤ 2 * p0.F + 1

theorem DistInv.mono {evs : List PEvent} {outs out : List POut} {st st' : PState G1} (ih : DistInv codec pp t p0 H b q J R evs outs st) (ev : PEvent)
    (h1 : ev.isSuccess = false) (h2 : ∀ s d, ev ≠ .shareDist s d) (h3 : POut.success ∉ out) (e1 : st'.newComDone = st.newComDone) (e2 : st'.token = st.token)
    (e3 : st'.SB = st.SB) (e4 : st'.SCom = st.SCom) (e5 : st'.successSent = st.successSent) (e6 : st'.successCount = st.successCount) (e7 : st'.finished = st.finished)
    (e8 : st'.distWait = st.distWait) :
    DistInv codec pp t p0 H b q J R (evs ++ [ev]) (outs ++ out) st' where
  done := by rw [e1, e2, e3]; exact ih.done
  token := by rw [e1, e2, e3, e4]; exact ih.token
  sb := by rw [e1, e3]; exact ih.sb
  nodup := by rw [e3]; exact ih.nodup
  came := by
    rw [e3, e8]
    intro h hh hm
    rw [List.mem_append, List.mem_singleton] at hm
    rcases hm with hm | hm
    · exact ih.came h hh hm
    · exact absurd hm.symm (h2 _ _)
  sent := by rw [e5, e3]; exact ih.sent
  out := by rw [e5, ih.out]; simp [h3]
  count := by rw [e6, ih.count]; simp [List.countP_append, h1]
  fin := by rw [e7, e6]; exact ih.fin
  le := by rw [e6]; exact ih.le

theorem shareDist_read (codec : PointCodec G1) (v : Fr) (w : G1) : unmarshalD (⟨[], []⟩ : PShareDist) (marshal (⟨frTo32 v, codec.enc w⟩ : PShareDist)) = ⟨frTo32 v, codec.enc w⟩ := by
  rw [unmarshalD, rt_PShareDist _ (size_shareDist codec _ _)]; rfl

/-- A ShareDist message that is handled is that of a member. -/
theorem DistTake.src {N : ℕ} (hS : Seat pp t b p0) (hG : Gives p0 H coins q) {evs : List PEvent} {st : PState G1} {ev : PEvent} {j : ℕ} {d : Bytes} {n : ℕ} {W : List (ℕ × Bytes)}
    (hv : DistTake N st ev j d n W) (hq : QueueInv p0.N evs st) (henv : Env3 codec pp t p0 H coins q sgn J R (evs ++ [ev])) :
    ∃ h ∈ H, j = h + 1 ∧ d = marshal (⟨frTo32 (polyVal (R h) ((p0.pid + 1 : ℕ) : Fr)), codec.enc (quotVal (R h) ((p0.pid + 1 : ℕ) : Fr) t • pp.g1)⟩ : PShareDist) := by
  have hN2 := hS.N2
  have hs : ∃ s, j = (s + 1).toNat ∧ PEvent.shareDist s d ∈ evs ++ [ev] := by
    rcases hv.ev with ⟨s, rfl, e, -⟩ | ⟨rfl, hm, -⟩
    · exact ⟨s, e, List.mem_append_right _ (List.mem_singleton.2 rfl)⟩
    · obtain ⟨s, e, hm⟩ := hq.dists _ hm
      exact ⟨s, e, List.mem_append_left _ hm⟩
  obtain ⟨s, e, hm⟩ := hs
  obtain ⟨h, hh, he⟩ := henv.dist s d hm
  unfold distEv at he
  injection he with he1 he2
  have := hG.lt h hh
  rw [he1, ofNat_succ_toNat (by omega)] at e
  exact ⟨h, hh, e, he2⟩

/-- An expected ShareDist message passes the check. -/
theorem DistInv.check {evs : List PEvent} {outs : List POut} {st : PState G1} {p : Party G1 G2} (hS : Seat pp t b p0) (hG : Gives p0 H coins q) (hsame : Same p0 p)
    (ih : DistInv codec pp t p0 H b q J R evs outs st) {h : ℕ} (hh : h ∈ H) (ht : st.token (h + 1) = true) :
    checkProofSingle pp p.kzg ((st.SCom (h + 1)).getD 0) (quotVal (R h) ((p0.pid + 1 : ℕ) : Fr) t • pp.g1) ((p.pid + 1 : ℕ) : Fr) (polyVal (R h) ((p0.pid + 1 : ℕ) : Fr)) = .ok true := by
  obtain ⟨-, -, h', -, e, -, hc⟩ := ih.token _ ht
  have e : h' = h := by omega
  subst e
  rw [hc, hsame.kzg, hsame.pid]
  exact honest_check p0 hS.setup hS.F1 _ _

theorem DistInv.accept {evs : List PEvent} {outs out : List POut} {st st' : PState G1} (hlt : ∀ h ∈ H, h + 1 < 2 ^ 32) (ih : DistInv codec pp t p0 H b q J R evs outs st) {h : ℕ} (hh : h ∈ H)
    {N n : ℕ} {ev : PEvent} {d : Bytes} {W : List (ℕ × Bytes)} (hv : DistTake N st ev (h + 1) d n W) (ht : st.token (h + 1) = true) (v : Fr) (e1 : st'.newComDone = st.newComDone) (e2 : st'.token = upd st.token (h + 1) false)
    (e3 : st'.SB = st.SB ++ [(h + 1, v)]) (e4 : st'.SCom = st.SCom) (e5 : st'.successSent = true ↔ 2 * p0.F + 1 ≤ st.SB.length + 1)
    (e8 : st'.successSent = true ↔ POut.success ∈ outs ++ out)
    (e6 : st'.successCount = st.successCount) (e7 : st'.finished = st.finished) (e9 : st'.distWait = W) :
    DistInv codec pp t p0 H b q J R (evs ++ [ev]) (outs ++ out) st' := by
  obtain ⟨t1, t2, h', hh', e, hgood, hsc⟩ := ih.token _ ht
  have e : h' = h := by omega
  subst e
  refine ⟨fun j hj => ?_, fun j hj => ?_, fun j hj => ?_, ?_, fun k hk hm => ?_, ?_, e8, ?_, by rw [e7, e6]; exact ih.fin, by rw [e6]; exact ih.le⟩
  · rw [e1] at hj
    obtain ⟨k, hk, rfl, hx⟩ := ih.done j hj
    refine ⟨k, hk, rfl, fun hg => ?_⟩
    rw [e2, e3]
    by_cases hkh : k + 1 = h' + 1
    · right; rw [hkh]; simp
    · rw [upd_ne _ _ hkh]
      rcases hx hg with hx | hx
      · exact Or.inl hx
      · right; simp only [List.map_append, List.mem_append]; exact Or.inl hx
  · rw [e2] at hj
    have hne : j ≠ h' + 1 := by rintro rfl; simp at hj
    rw [upd_ne _ _ hne] at hj
    obtain ⟨a1, a2, a3⟩ := ih.token j hj
    rw [e1, e3, e4]
    refine ⟨a1, ?_, a3⟩
    simp only [List.map_append, List.map_cons, List.map_nil, List.mem_append, List.mem_singleton]
    rintro (hx | hx)
    · exact a2 hx
    · exact hne hx
  · rw [e3] at hj
    simp only [List.map_append, List.map_cons, List.map_nil, List.mem_append, List.mem_singleton] at hj
    rw [e1]
    rcases hj with hj | rfl
    · exact ih.sb j hj
    · exact ⟨t1, h', hh', rfl, hgood⟩
  · rw [e3]
    simp only [List.map_append, List.map_cons, List.map_nil]
    rw [List.nodup_append]
    refine ⟨ih.nodup, by simp, ?_⟩
    intro a ha b' hb' he
    rw [List.mem_singleton] at hb'
    rw [he, hb'] at ha
    exact t2 ha
  · rw [e3, e9]
    simp only [List.map_append, List.map_cons, List.map_nil, List.mem_append, List.mem_singleton]
    by_cases hkh : k = h'
    · subst hkh; exact Or.inl (Or.inr rfl)
    · rw [List.mem_append, List.mem_singleton] at hm
      rcases hm with hm | hm
      · rcases ih.came k hk hm with a | ⟨d, a⟩
        · exact Or.inl (Or.inl a)
        · exact Or.inr ⟨d, hv.keep a (by simpa using hkh)⟩
      · exfalso
        rcases hv.ev with ⟨s, hev, e, -⟩ | ⟨hev, -⟩
        · rw [hev] at hm
          have h1 := (PEvent.shareDist.inj hm).1
          rw [← h1, ofNat_succ_toNat (hlt k hk)] at e
          omega
        · rw [hev] at hm; cases hm
  · rw [e5, e3, List.length_append, List.length_singleton]
  · rw [e6, ih.count]
    rcases hv.ev with ⟨s, rfl, -⟩ | ⟨rfl, -⟩
    all_goals simp [List.countP_append, PEvent.isSuccess]

theorem PRun.distInv (hS : Seat pp t b p0) (hG : Gives p0 H coins q) {evs : List PEvent} {outs : List POut} {p : Party G1 G2} {st : PState G1}
    (hrun : PRun codec pp tb p0 (PState.init p0 c) evs outs p st) (henv : Env3 codec pp t p0 H coins q sgn J R evs) :
    DistInv codec pp t p0 H b q J R evs outs st := by
  induction hrun with
  | nil =>
    exact ⟨fun j h => by simp [PState.init] at h, fun j h => by simp [PState.init] at h, fun j h => by simp [PState.init] at h, by simp [PState.init],
      fun h _ hm => by simp at hm, by simp [PState.init], by simp [PState.init], by simp [PState.init], by simp [PState.init], by simp [PState.init]⟩
  | snoc hr hs ih =>
    rename_i evs1 outs1 p1 st1 ev p' st' out
    have henv1 := henv.init
    have ih := ih henv1
    have hsame := hr.same
    have hsum := hr.sumInv hS hG henv1.toEnv1 henv1.names
    have hE := step_effect hs
    have hN2 := hS.N2
    have hlt : ∀ h ∈ H, h + 1 < 2 ^ 32 := fun h hh => by have := hG.lt h hh; omega
    cases hE with
    | reshare h1 h2 hv =>
      refine ih.mono _ ?_ (fun s d he => by subst he; cases h1) (vote_no_success _ _ _ _ hv) rfl rfl rfl rfl rfl rfl rfl rfl
      rcases h1.ev with ⟨s, rfl, -⟩ | ⟨rfl, -⟩ <;> rfl
    | newOk h1 h2 h3 h4 h5 h6 =>
      rename_i j d Cs old
      obtain ⟨h, hh, rfl, hd⟩ := henv.newCommit j _ (List.mem_append_right _ (List.mem_singleton.2 rfl))
      have hd := Option.some.inj hd
      subst hd
      rw [decode!_enc] at h6
      have h6 := Except.ok.inj h6
      obtain ⟨old', o1, o2⟩ := hS.expects (q := q) hsame hsum h4 h1 (by rw [← hsame.N]; exact h2)
      rw [h5] at o1
      have o1 := Except.ok.inj o1
      subst o1
      have hg : Good p0 t b q J R h := smul_g1_inj pp (h6.trans o2)
      have hnsb : h + 1 ∉ st1.SB.map (·.1) := fun hx => by rw [(ih.sb _ hx).1] at h3; cases h3
      rw [List.append_nil]
      refine ⟨fun j hj => ?_, fun j hj => ?_, fun j hj => ?_, ih.nodup, fun k hk hm => ?_, ih.sent, ih.out, ?_, ih.fin, ih.le⟩
      · by_cases hjh : j = h + 1
        · subst hjh; exact ⟨h, hh, rfl, fun _ => Or.inl (by simp)⟩
        · simp only [upd_ne _ _ hjh] at hj ⊢; exact ih.done j hj
      · by_cases hjh : j = h + 1
        · subst hjh
          refine ⟨by simp, hnsb, h, hh, rfl, hg, ?_⟩
          simp only [upd_same]
          rw [← h6]
        · simp only [upd_ne _ _ hjh] at hj ⊢; exact ih.token j hj
      · obtain ⟨a1, a2⟩ := ih.sb j hj
        refine ⟨?_, a2⟩
        show upd st1.newComDone (h + 1) true j = true
        unfold upd
        split
        · rfl
        · exact a1
      · rw [List.mem_append, List.mem_singleton] at hm
        rcases hm with hm | hm
        · exact ih.came k hk hm
        · cases hm
      · show st1.successCount = _
        rw [ih.count]; simp [List.countP_append, PEvent.isSuccess]
    | newBad h1 h2 h3 h4 h5 h6 h7 =>
      rename_i j d Cs old cb
      obtain ⟨h, hh, rfl, hd⟩ := henv.newCommit j _ (List.mem_append_right _ (List.mem_singleton.2 rfl))
      have hd := Option.some.inj hd
      subst hd
      rw [decode!_enc] at h6
      have h6 := Except.ok.inj h6
      obtain ⟨old', o1, o2⟩ := hS.expects (q := q) hsame hsum h4 h1 (by rw [← hsame.N]; exact h2)
      rw [h5] at o1
      have o1 := Except.ok.inj o1
      subst o1
      have hg : ¬ Good p0 t b q J R h := fun hg => h7 (by rw [← h6, o2, hg])
      rw [List.append_nil]
      refine ⟨fun j hj => ?_, fun j hj => ?_, fun j hj => ?_, ih.nodup, fun k hk hm => ?_, ih.sent, ih.out, ?_, ih.fin, ih.le⟩
      · by_cases hjh : j = h + 1
        · subst hjh; exact ⟨h, hh, rfl, fun hx => absurd hx hg⟩
        · simp only [upd_ne _ _ hjh] at hj ⊢; exact ih.done j hj
      · obtain ⟨a1, a2⟩ := ih.token j hj
        refine ⟨?_, a2⟩
        show upd st1.newComDone (h + 1) true j = true
        unfold upd
        split
        · rfl
        · exact a1
      · obtain ⟨a1, a2⟩ := ih.sb j hj
        refine ⟨?_, a2⟩
        show upd st1.newComDone (h + 1) true j = true
        unfold upd
        split
        · rfl
        · exact a1
      · rw [List.mem_append, List.mem_singleton] at hm
        rcases hm with hm | hm
        · exact ih.came k hk hm
        · cases hm
      · show st1.successCount = _
        rw [ih.count]; simp [List.countP_append, PEvent.isSuccess]
    | distBad h1 h2 h3 h4 h5 =>
      exfalso
      obtain ⟨h, hh, rfl, hd⟩ := h1.src hS hG hr.queueInv henv
      rw [hd, shareDist_read] at h4 h5
      simp only [decode!_enc, frFrom32_copy] at h4 h5
      rw [← Except.ok.inj h4, ih.check hS hG hsame hh h3] at h5
      cases h5
    | distOk h1 h2 h3 h4 h5 h6 =>
      obtain ⟨h, hh, rfl, -⟩ := h1.src hS hG hr.queueInv henv
      rw [hsame.F] at h6
      refine ih.accept hlt hh h1 h3 _ rfl rfl rfl rfl ?_ ?_ rfl rfl rfl
      · show st1.successSent = true ↔ _
        constructor
        · intro hx; have := ih.sent.1 hx; omega
        · intro hx
          cases hss : st1.successSent with
          | true => rfl
          | false => exact absurd ⟨hss, hx⟩ h6
      · rw [List.append_nil]; exact ih.out
    | distFull h1 h2 h3 h4 h5 h6 h7 =>
      obtain ⟨h, hh, rfl, -⟩ := h1.src hS hG hr.queueInv henv
      rw [hsame.F] at h7
      refine ih.accept hlt hh h1 h3 _ rfl rfl rfl rfl ?_ ?_ rfl rfl rfl
      · simp only [true_iff]; exact h7
      · simp
    | distPark h0 h1 h2 h3 =>
      rename_i s d Cs
      rw [List.append_nil]
      refine ⟨ih.done, ih.token, ih.sb, ih.nodup, fun k hk hm => ?_, ih.sent, ih.out, ?_, ih.fin, ih.le⟩
      · rw [List.mem_append, List.mem_singleton] at hm
        rcases hm with hm | hm
        · rcases ih.came k hk hm with a | ⟨d, a⟩
          · exact Or.inl a
          · exact Or.inr ⟨d, List.mem_append_left _ a⟩
        · have e1 := PEvent.shareDist.inj hm
          refine Or.inr ⟨d, List.mem_append_right _ (List.mem_singleton.2 ?_)⟩
          rw [← e1.1, ofNat_succ_toNat (hlt k hk)]
      · show st1.successCount = _
        rw [ih.count]; simp [List.countP_append, PEvent.isSuccess]
    | success h1 h2 =>
      have hfin := ih.fin
      rw [h2] at hfin
      have hfin := of_decide_eq_false hfin.symm
      rw [List.append_nil]
      refine ⟨ih.done, ih.token, ih.sb, ih.nodup, fun k hk hm => ?_, ih.sent, ih.out, ?_, ?_, ?_⟩
      · rw [List.mem_append, List.mem_singleton] at hm
        rcases hm with hm | hm
        · exact ih.came k hk hm
        · cases hm
      · show st1.successCount + 1 = _
        rw [ih.count]; simp [List.countP_append, PEvent.isSuccess]
      · show decide (2 * p1.F + 1 ≤ st1.successCount + 1) = decide (2 * p0.F + 1 ≤ st1.successCount + 1)
        rw [hsame.F]
      · show st1.successCount + 1 ≤ _
        omega
    | _ => exact ih.mono _ rfl (fun s d he => by cases he) (by simp) rfl rfl rfl rfl rfl rfl rfl rfl

end

end DyCAPS
