import Verif.Lemmas.RefreshNet

/-! The reduced share after Refresh of a party that has asked for exactly the contributions that were agreed on. -/

set_option linter.unusedSectionVars false

namespace DyCAPS

section
variable {G1 G2 GT : Type} [AddCommGroup G1] [Module Fr G1] [AddCommGroup G2] [Module Fr G2] [AddCommGroup GT] [Module Fr GT]
variable [DecidableEq G1] [DecidableEq GT]
variable {codec : PointCodec G1} {pp : Pairing Fr G1 G2 GT} {t : Fr} {tb : Tbls} {p0 : Party G1 G2} {b : ℕ → ℕ → Fr} {q : ℕ → ℕ → ℕ → Fr}
  {H : Finset ℕ} {coins : ℕ → DealerCoins} {c : DealerCoins} {sgn : ℕ → Bytes → Bytes} {J : List ℕ} {R : ℕ → List Fr}

theorem lagrange_points_eq (d : ℕ) (L : List (ℕ × Fr)) (f : List Fr) (hf : f.length = d + 1) (hlen : d + 1 ≤ L.length) (hnd : (L.map (·.1)).Nodup) (hlt : ∀ z ∈ L, z.1 < frModulus)
    (hv : ∀ z ∈ L, z.2 = polyVal f (z.1 : Fr)) :
    lagrangeInterpolate d ((L.take (d + 1)).map fun q => ((q.1 : ℕ) : Fr)) ((L.take (d + 1)).map (·.2)) = .ok f := by
  have hl : (L.take (d + 1)).length = d + 1 := by rw [List.length_take]; omega
  apply lagrangeInterpolate_eq_of_eval d _ _ _ (by rw [List.length_map, hl]) (by rw [List.length_map, hl]) _ hf
  · intro k hk
    rw [List.getD_eq_getElem _ _ (by rw [List.length_map, hl]; omega), List.getD_eq_getElem _ _ (by rw [List.length_map, hl]; omega), List.getElem_map, List.getElem_map]
    exact (hv _ (List.mem_of_mem_take (List.getElem_mem _))).symm
  · intro i hi j hj hji
    rw [List.getD_eq_getElem _ _ (by rw [List.length_map, hl]; omega), List.getD_eq_getElem _ _ (by rw [List.length_map, hl]; omega), List.getElem_map, List.getElem_map]
    have hm : ∀ n (hn : n < (L.take (d + 1)).length), (L.take (d + 1))[n].1 < frModulus := fun n hn => hlt _ (List.mem_of_mem_take (List.getElem_mem hn))
    apply fr_natCast_ne (hm _ _) (hm _ _)
    intro he
    apply hji
    have hnd' : ((L.take (d + 1)).map (·.1)).Nodup := by
      rw [List.map_take]; exact hnd.sublist (List.take_sublist _ _)
    exact (List.Nodup.getElem_inj_iff hnd' (i := j) (j := i) (hi := by rw [List.length_map, hl]; omega) (hj := by rw [List.length_map, hl]; omega)).1 (by
      rw [List.getElem_map, List.getElem_map]; exact he.symm)

/-- Every value this party has submitted to MVBA names all of `J`. -/
def Had (J : List ℕ) (outs : List POut) : Prop := ∀ m, POut.mvba m ∈ outs → ∀ j ∈ J, ∃ u ∈ m.j, u.toNat = j

structure ShareInv (p0 : Party G1 G2) (b : ℕ → ℕ → Fr) (q : ℕ → ℕ → ℕ → Fr) (J : List ℕ) (outs : List POut) (p : Party G1 G2) (st : PState G1) : Prop where
  recd : ∀ k, st.flgRec k = true → st.Q k = sliceX (q k) p0.F (2 * p0.F) ((p0.pid + 1 : ℕ) : Fr)
  called : ∀ m, POut.mvba m ∈ outs → ∀ u ∈ m.j, st.flgRec u.toNat = true
  wait : st.refresh = .waiting → p.reducedShare = p0.reducedShare
  loop : ∀ rest Qs Cs, st.refresh = .looping rest Qs Cs → p.reducedShare = p0.reducedShare ∧ (Had J outs → ∃ done, J = done ++ rest ∧ ∀ i < p0.F + 1,
    Qs.getD i 0 = (done.map fun j => (sliceX (q j) p0.F (2 * p0.F) ((p0.pid + 1 : ℕ) : Fr)).getD i 0).sum)
  done : ∀ Cs, st.refresh = .done Cs → Had J outs → p.reducedShare = sliceX (refreshed b q J) p0.F (2 * p0.F) ((p0.pid + 1 : ℕ) : Fr)

theorem Had.init {outs out : List POut} (h : Had J (outs ++ out)) : Had J outs := fun m hm => h m (List.mem_append_left _ hm)

theorem ShareInv.mono {outs out : List POut} {p p' : Party G1 G2} {st st' : PState G1} (ih : ShareInv p0 b q J outs p st) (ho : ∀ m, POut.mvba m ∉ out)
    (e1 : st'.flgRec = st.flgRec) (e2 : st'.Q = st.Q) (e3 : st'.refresh = st.refresh) (e4 : p'.reducedShare = p.reducedShare) : ShareInv p0 b q J (outs ++ out) p' st' where
  recd := by rw [e1, e2]; exact ih.recd
  called := by
    rw [e1]
    intro m hm
    rw [List.mem_append] at hm
    rcases hm with hm | hm
    · exact ih.called m hm
    · exact absurd hm (ho m)
  wait := by rw [e3, e4]; exact ih.wait
  loop := by
    rw [e3, e4]
    intro rest Qs Cs h
    exact ⟨(ih.loop rest Qs Cs h).1, fun hh => (ih.loop rest Qs Cs h).2 hh.init⟩
  done := by
    rw [e3, e4]
    intro Cs h hh
    exact ih.done Cs h hh.init

/-- Recording a point. -/
theorem ShareInv.point (hS : Seat pp t b p0) (hG : Gives p0 H coins q) {evs : List PEvent} {p : Party G1 G2} {st : PState G1} (hsame : Same p0 p)
    (hrec : RecInv codec pp t p0 H q sgn evs st) {k : ℕ} {m : RecoverMsg G1} (hm : st.held k = some m) {fr : ℕ → Bool} {Q : ℕ → List Fr}
    (hQ : PointEffect p.F st k m fr Q) (hr : ∀ k, st.flgRec k = true → st.Q k = sliceX (q k) p0.F (2 * p0.F) ((p0.pid + 1 : ℕ) : Fr)) :
    (∀ k, fr k = true → Q k = sliceX (q k) p0.F (2 * p0.F) ((p0.pid + 1 : ℕ) : Fr)) ∧ ∀ k, st.flgRec k = true → fr k = true := by
  have hN2 := hS.N2
  have hNr := hS.N_lt
  rcases hQ with ⟨-, rfl, rfl⟩ | ⟨h1, h2, rfl, poly, rfl, h3⟩
  · exact ⟨hr, fun _ h => h⟩
  · rw [hsame.F] at h2 h3
    refine ⟨fun k' hk' => ?_, fun k' hk' => ?_⟩
    · by_cases he : k' = k
      · subst he
        rw [upd_same]
        obtain ⟨h, hh, k, hk, rfl, -, hmd, hx⟩ := hrec.held k' m hm
        rw [lagrange_points_eq p0.F _ (sliceX (q (k + 1)) p0.F (2 * p0.F) ((p0.pid + 1 : ℕ) : Fr)) (sliceX_length _ _ _ _)] at h3
        · exact (Except.ok.inj h3).symm
        · rw [List.length_append, List.length_singleton]; exact h2
        · rw [List.map_append, List.nodup_append]
          refine ⟨hrec.nodup _, by simp, ?_⟩
          intro a ha b' hb' hab
          simp only [List.map_cons, List.map_nil, List.mem_singleton] at hb'
          rw [hab, hb'] at ha
          exact hx ha
        · intro z hz
          rw [List.mem_append, List.mem_singleton] at hz
          rcases hz with hz | hz
          · obtain ⟨h', hh', -, -, -, -, hz⟩ := hrec.srec _ z hz
            have := hG.lt h' hh'
            rw [hz]; show h' + 1 < _; omega
          · have := hG.lt h hh
            rw [hz, hmd]; show h + 1 < _; omega
        · intro z hz
          rw [List.mem_append, List.mem_singleton] at hz
          rcases hz with hz | hz
          · obtain ⟨h', hh', -, -, -, -, hz⟩ := hrec.srec _ z hz
            rw [hz]
          · rw [hz, hmd]; rfl
      · rw [upd_ne _ _ he]
        rw [upd_ne _ _ he] at hk'
        exact hr k' hk'
    · by_cases he : k' = k
      · subst he; rw [upd_same]
      · rw [upd_ne _ _ he]; exact hk'

theorem ShareInv.accept {outs out : List POut} {p : Party G1 G2} {st st' : PState G1} (ih : ShareInv p0 b q J outs p st)
    (e1 : ∀ k, st'.flgRec k = true → st'.Q k = sliceX (q k) p0.F (2 * p0.F) ((p0.pid + 1 : ℕ) : Fr)) (e2 : ∀ k, st.flgRec k = true → st'.flgRec k = true)
    (e3 : st'.refresh = st.refresh) (ho : ∀ m, POut.mvba m ∈ out → ∀ u ∈ m.j, st'.flgRec u.toNat = true) : ShareInv p0 b q J (outs ++ out) p st' where
  recd := e1
  called := by
    intro m hm u hu
    rw [List.mem_append] at hm
    rcases hm with hm | hm
    · exact e2 _ (ih.called m hm u hu)
    · exact ho m hm u hu
  wait := by rw [e3]; exact ih.wait
  loop := by
    rw [e3]
    intro rest Qs Cs h
    exact ⟨(ih.loop rest Qs Cs h).1, fun hh => (ih.loop rest Qs Cs h).2 hh.init⟩
  done := by
    rw [e3]
    intro Cs h hh
    exact ih.done Cs h hh.init

theorem PRun.shareInv (hS : Seat pp t b p0) (hG : Gives p0 H coins q) (hT : Signs tb H sgn) {evs : List PEvent} {outs : List POut} {p : Party G1 G2} {st : PState G1}
    (hrun : PRun codec pp tb p0 (PState.init p0 c) evs outs p st) (henv : Env2 codec pp t p0 H coins q sgn evs) (hJ : NamesJ J evs) : ShareInv p0 b q J outs p st := by
  induction hrun with
  | nil =>
    exact ⟨fun k h => by simp [PState.init] at h, fun m h => by simp at h, fun _ => rfl, fun rest Qs Cs h => (by cases h), fun Cs h => (by cases h)⟩
  | snoc hr hs ih =>
    rename_i evs1 outs1 p1 st1 ev p' st' out
    have henv1 := henv.init
    have ih := ih henv1 (fun r hr => hJ r (List.mem_append_left _ hr))
    have hsame := hr.same
    have hcom := hr.comInv hS hG henv1.toEnv1
    have hrec := hr.recInv hS hG hT henv1
    have hcall := hr.callInv hS hG hT henv1.toEnv1
    have hcall' := (hr.snoc hs).callInv hS hG hT henv.toEnv1
    have hcom' := (hr.snoc hs).comInv hS hG henv.toEnv1
    have hcnt' := (hr.snoc hs).count (by have := hS.N1; omega)
    have hord := hr.order
    have hN2 := hS.N2
    have hN1 := hS.N1
    have hE := step_effect hs
    cases hE with
    | commit | take | pass | resharePark | refreshPark | distPark => exact ih.mono (fun m h => by simp at h) rfl rfl rfl rfl
    | reshare h1 h2 hv =>
      refine ih.mono (fun m hm => ?_) rfl rfl rfl rfl
      obtain ⟨l, r, e⟩ := vote_recover _ _ _ _ hv _ hm
      cases e
    | handleBad => exact ih.mono (fun m h => by simp at h) rfl rfl rfl rfl
    | handleOk h1 h2 h3 hQ h4 =>
      obtain ⟨a1, a2⟩ := ShareInv.point hS hG hsame hrec h2 hQ ih.recd
      exact ih.accept a1 a2 rfl (fun m h => by simp at h)
    | handleComb h1 h2 h3 hQ h4 h5 h6 =>
      obtain ⟨a1, a2⟩ := ShareInv.point hS hG hsame hrec h2 hQ ih.recd
      exact ih.accept a1 a2 rfl (fun m h => by simp at h)
    | handleCall h1 h2 h3 hQ h4 h5 h6 h7 =>
      obtain ⟨a1, a2⟩ := ShareInv.point hS hG hsame hrec h2 hQ ih.recd
      refine ih.accept a1 a2 rfl (fun m hm u hu => ?_)
      rw [List.mem_singleton] at hm
      have hm := POut.mvba.inj hm
      rw [hm] at hu
      obtain ⟨z, hz, rfl⟩ := List.mem_map.1 hu
      have hz1 := List.mem_map_of_mem (f := Prod.fst) hz
      have hk := hcom'.flg _ (hcall'.com _ hz1)
      obtain ⟨-, ⟨h, hh, hzh⟩, -⟩ := hk
      have := hG.lt h hh
      have hto : (UInt32.ofNat z.1).toNat = z.1 := by
        rw [UInt32.toNat_ofNat']; exact Nat.mod_eq_of_lt (by omega)
      rw [hto, hcnt'.recd]
      have hcb := (hcall'.comb _).2 hz1
      rw [hcnt'.comb, decide_eq_true_eq, hcnt'.same] at hcb
      exact decide_eq_true (by omega)
    | mvba h1 =>
      rename_i v
      refine ⟨ih.recd, ?_, fun h => (by cases h), fun rest Qs Cs h => ?_, fun Cs h => (by cases h)⟩
      · rw [List.append_nil]; exact ih.called
      · injection h with e1 e2 e3
        refine ⟨ih.wait (hord.wait h1), fun _ => ⟨[], by rw [← e1, List.nil_append]; exact (hJ v (by simp)).symm, fun i hi => ?_⟩⟩
        rw [← e2, hsame.F, List.getD_eq_getElem _ _ (by simpa using hi)]; simp
    | refreshCom h1 h2 h3 h4 =>
      rename_i j0 rest0 Qs0 Cs0
      obtain ⟨i1, i2⟩ := ih.loop _ _ _ h1
      refine ⟨ih.recd, ?_, fun h => (by cases h), fun rest Qs Cs h => ?_, fun Cs h => (by cases h)⟩
      · rw [List.append_nil]; exact ih.called
      · injection h with e1 e2 e3
        subst e1
        refine ⟨i1, fun hh => ?_⟩
        rw [List.append_nil] at hh
        obtain ⟨done, d1, d2⟩ := i2 hh
        obtain ⟨m, hm⟩ := hcall.out (hord.started (by rw [h1]; simp)).1
        obtain ⟨u, hu, hu'⟩ := hh m hm j0 (by rw [d1]; simp)
        have hfr := ih.called m hm u hu
        rw [hu'] at hfr
        refine ⟨done ++ [j0], by rw [d1]; simp, fun i hi => ?_⟩
        rw [← e2, hsame.F, addPoly_getD _ _ _ _ hi, d2 i hi, ih.recd j0 hfr, List.map_append, List.sum_append]
        simp
    | refreshRec h1 h2 h3 h4 => exact absurd h4 (hr.not_waited hS.F1 h1 h3)
    | refreshEnd h1 h2 =>
      rename_i Qs0 Cs0
      obtain ⟨i1, i2⟩ := ih.loop _ _ _ h1
      refine ⟨ih.recd, ?_, fun h => (by cases h), fun rest Qs Cs h => (by cases h), fun Cs _ hh => ?_⟩
      · rw [List.append_nil]; exact ih.called
      · rw [List.append_nil] at hh
        obtain ⟨done, d1, d2⟩ := i2 hh
        rw [List.append_nil] at d1
        subst d1
        show addPoly p1.F Qs0 p1.reducedShare ++ p1.reducedShare.drop (p1.F + 1) = _
        rw [i1, hS.red, hsame.F, List.drop_of_length_le (by rw [sliceX_length]), List.append_nil]
        apply list_ext_getD (d := 0) (by rw [addPoly_length, sliceX_length])
        intro i hi
        rw [addPoly_length] at hi
        rw [addPoly_getD _ _ _ _ hi, d2 i hi, sliceX_refreshed _ _ _ _ _ _ _ hi, add_comm]
    | newOk | newBad | distBad | distOk | success => exact ih.mono (fun m h => by simp at h) rfl rfl rfl rfl
    | distFull => exact ih.mono (fun m h => by simp at h) rfl rfl rfl rfl

end

end DyCAPS
