import Verif.Lemmas.RefreshLift

/-! A run of a committee of all parties in which every member recovers the contributions prescribed for it. -/

set_option linter.unusedSectionVars false

namespace DyCAPS

section
variable {G1 G2 GT : Type} [AddCommGroup G1] [Module Fr G1] [AddCommGroup G2] [Module Fr G2] [AddCommGroup GT] [Module Fr GT]
variable [DecidableEq G1] [DecidableEq GT]
variable {codec : PointCodec G1} {pp : Pairing Fr G1 G2 GT} {S : RefSetup G1 G2} {t : Fr} {b : ℕ → ℕ → Fr} {F N : ℕ} {q : ℕ → ℕ → ℕ → Fr}

/-- Every member `i` gets the commitments `1..nc i` and submits `ks i` to MVBA. MVBA chooses the set of member `h0`. The members that have got all commitments refresh; the others lack the
commitment of the first chosen resharer and wait in the Refresh loop. -/
theorem RefReach.scripted_late (codec : PointCodec G1) (hH : S.Holds pp t b F N) (hq : S.Contributes F q) (hall : S.members = Finset.range N) (ks : ℕ → List ℕ) (nc : ℕ → ℕ)
    (hks : ∀ i, (ks i).Nodup ∧ (ks i).length = F + 1 ∧ ∀ k ∈ ks i, 1 ≤ k ∧ k ≤ nc i) (h0 : ℕ) (hh0 : h0 ∈ S.members)
    (hnc : ∀ i, nc i ≤ N) (hlate : ∀ i, nc i ≠ N → 2 * F + 1 ≤ i ∧ ∃ j rest, ks h0 = j :: rest ∧ nc i < j) :
    ∃ n net v, RefReach codec pp S n net ∧ agreedIds v = ks h0 ∧ ∀ i ∈ S.members, PEvent.mvba v ∈ net.evs i ∧
      (∃ m, POut.mvba m ∈ net.outs i ∧ m.j.map (·.toNat) = ks i) ∧ (nc i ≠ N → (net.st i).refreshWait = true) ∧ (nc i = N → (net.st i).newComDone = (fun _ => false) ∧ (net.st i).dists = N ∧ net.Refreshed i ∧
      (net.party i).reducedShare.length = F + 1 ∧
      ∀ d < F + 1, (net.party i).reducedShare.getD d 0 = (sliceX b F (2 * F) ((i + 1 : ℕ) : Fr)).getD d 0 +
        ((ks h0).map fun j => (if j ∈ ks i ∨ j = i + 1 ∧ i + 1 ≤ 2 * F + 1 then sliceX (q j) F (2 * F) ((i + 1 : ℕ) : Fr) else []).getD d 0).sum) := by
  have hks0 : ∀ i, ∀ k ∈ ks i, 1 ≤ k ∧ k ≤ N := fun i k hk => ⟨((hks i).2.2 k hk).1, le_trans ((hks i).2.2 k hk).2 (hnc i)⟩
  have hF1 := hH.F1
  have hN1 := hH.N1
  have hN2 := hH.N2
  have hmem : ∀ i, i < N → i ∈ S.members := fun i hi => by rw [hall]; exact Finset.mem_range.2 hi
  set D : ℕ → Bytes := fun j => marshal (commitOf codec F (honestContent pp t F 0 (S.coins (j - 1)))) with hD
  choose rm hrm using fun h l => reshareMsg_ok (codec := codec) (pp := pp) (t := t) F (S.coins h) l
  set sg : ℕ → ℕ → Bytes := fun k i => if i - 1 < N then (S.tb (i - 1)).sign (decimalBytes k) else [] with hsg
  have hsglen : ∀ k i, (sg k i).length < 2 ^ 32 := by
    intro k i
    by_cases h : i - 1 < N
    · simp only [hsg, if_pos h]; exact hH.signLen _ (hmem _ h) _
    · simp only [hsg, if_neg h]; norm_num
  set v : Bytes := marshal (mvbaInput (S.tb h0) F N sg (ks h0)) with hv
  have hvn : agreedIds v = ks h0 :=
    mvbaInput_names (S.tb h0) F N hH.F2 hN2 sg (hH.recoverLen h0 hh0) (ks h0) (hks h0).2.1 (fun k hk => (hks0 h0 k hk).2)
  have hparts : ∀ i, ∃ p' ev4 s1 s2 st, i ∈ S.members →
      (PRun codec pp (S.tb i) (S.start i) (PState.init (S.start i) (S.coins i)) ((oneTo (nc i)).map fun j => .commit j (some (D j))) [] (S.start i) s1 ∧
      PRun codec pp (S.tb i) (S.start i) { s1 with voters := N - nc i } ((ks i).flatMap fun k => batchEvents codec pp t k (sliceX (q k) F (2 * F) ((i + 1 : ℕ) : Fr)) (sg k) (2 * F + 1))
        [.mvba (mvbaInput (S.tb i) F N sg (ks i))] (S.start i) s2 ∧
      PRun codec pp (S.tb i) (S.start i) s2 (PEvent.mvba v :: ev4) [] p' st ∧ (∀ e ∈ ev4, e = PEvent.refresh) ∧
      s1.voters = N ∧ (∀ j, 1 ≤ j → j ≤ nc i → s1.flgCom j = true ∧ CommitsTo pp t F N (q j) (s1.CQ j)) ∧ (nc i ≠ N → st.refreshWait = true) ∧
      (nc i = N → st.newComDone = (fun _ => false) ∧ st.dists = N ∧ (∃ Cs, st.refresh = .done Cs) ∧ p'.reducedShare.length = F + 1 ∧
      (∀ d < F + 1, p'.reducedShare.getD d 0 = (S.start i).reducedShare.getD d 0 + ((ks h0).map fun j => (if j ∈ ks i then sliceX (q j) F (2 * F) ((i + 1 : ℕ) : Fr)
        else (PState.init (S.start i) (S.coins i)).Q j).getD d 0).sum))) := by
    intro i
    by_cases hi : i ∈ S.members
    swap
    · exact ⟨S.start i, [], PState.init (S.start i) (S.coins i), PState.init (S.start i) (S.coins i), PState.init (S.start i) (S.coins i), fun h => absurd h hi⟩
    obtain ⟨e1, e2, e3⟩ := hH.size i hi
    have hS := hH.seat hi
    have hcommit : ∀ j, 1 ≤ j → j ≤ (S.start i).N → ∀ row, ∃ row', verifyCommit codec pp (S.start i) row (unmarshalD (⟨[]⟩ : PCommit) (D j)) = .ok (row', true) ∧
        CommitsTo pp t (S.start i).F (S.start i).N (q j) row' := by
      intro j j1 j2 row
      rw [e2] at j2
      have hj : j - 1 ∈ S.members := hmem _ (by omega)
      obtain ⟨row', h1, h2⟩ := Same.commit (codec := codec) hS (hH.gives hq hi) ⟨rfl, rfl, rfl, rfl, rfl, rfl, rfl⟩ hj (commitMsg_ok codec pp t (S.start i).F (S.coins (j - 1))) row
      rw [Nat.sub_add_cancel j1] at h2
      rw [e1] at h1
      exact ⟨row', h1, h2⟩
    have hver : ∀ k l, 1 ≤ l → l ≤ 2 * (S.start i).F + 1 → (S.tb i).verifyPartial (decimalBytes k) (sg k l) = true := by
      intro k l l1 l2
      rw [e1] at l2
      have hl : l - 1 < N := by omega
      simp only [hsg, if_pos hl]
      exact hH.verify i hi _ (hmem _ hl) _
    by_cases hc : nc i = N
    · obtain ⟨rs, Cs, s1, s2, st, r1, r2, r3, w, c, d1, d2, d3, -, d4, -, -, -, -, -, d5⟩ := refresh_phase_voters (codec := codec) (tb := S.tb i) 0 hS.setup hS.F1 hS.N1 hS.N2 hS.pid
        (by rw [hS.red, sliceX_length]) (S.coins i) q D hcommit sg hsglen hver (ks i) (ks h0) (hks i).1 (by rw [e1]; exact (hks i).2.1) (by rw [e2]; exact hks0 i)
        (by rw [e2]; exact hks0 h0) v hvn
      simp only [e1, e2, e3] at r1 r2 w c d2 d3 d5
      refine ⟨_, _, s1, s2, st, fun _ => ⟨?_, ?_, r3, fun e he => List.eq_of_mem_replicate he, w, ?_, fun h => absurd hc h, fun _ => ⟨d4, d5, ⟨Cs, d1⟩, d2, d3⟩⟩⟩
      · rw [hc]; exact r1
      · rw [hc, Nat.sub_self]; exact r2
      · rw [hc]; exact c
    · obtain ⟨-, j, rest, hj, hlt⟩ := hlate i hc
      have hjN : j ≤ N := (hks0 h0 j (by rw [hj]; exact List.mem_cons_self)).2
      obtain ⟨s1, s2, st, r1, r2, r3, w, c, d⟩ := late_phase_parts (codec := codec) (tb := S.tb i) (N - nc i) (nc i) (by rw [e2]; exact hnc i) hS.setup hS.F1 hS.N1 hS.N2 hS.pid
        (S.coins i) q D hcommit sg hsglen hver (ks i) (hks i).1 (by rw [e1]; exact (hks i).2.1) (hks i).2.2 j rest hlt (by rw [e2]; exact hjN) v (hvn.trans hj)
      simp only [e1, e2, e3] at r1 r2 w c
      exact ⟨_, [.refresh], s1, s2, st, fun _ => ⟨r1, r2, r3, fun e he => List.mem_singleton.1 he, w, c, fun _ => d, fun h => absurd h hc⟩⟩
  choose p' ev4 s1 s2 st hparts using hparts
  have hkz : ∀ h ∈ S.members, (S.start h).kzg = newKZG pp t (F + 1) ∧ (S.start h).F = F := fun h hh =>
    ⟨by rw [(hH.setup h hh).kzg, (hH.size h hh).1], (hH.size h hh).1⟩
  -- commitments
  obtain ⟨n1, net1, R1, f1⟩ := (RefReach.init (codec := codec) (pp := pp) (S := S)).phase (fun i => (oneTo (nc i)).map fun j => .commit j (some (D j))) (fun _ => []) S.start s1
    (fun i hi => (hparts i hi).1) (by
      intro i hi e1 x e2 he net2 _ _ _
      have hx : x ∈ (oneTo (nc i)).map fun j => PEvent.commit j (some (D j)) := by rw [he]; simp
      obtain ⟨j, hj, rfl⟩ := List.mem_map.1 hx
      rw [mem_oneTo] at hj
      have hnci := hnc i
      have hjm : j - 1 ∈ S.members := hmem _ (by omega)
      refine ⟨j - 1, hjm, by omega, commitOf codec F (honestContent pp t F 0 (S.coins (j - 1))), ?_, rfl⟩
      rw [(hkz _ hjm).1, (hkz _ hjm).2]
      exact commitMsg_ok codec pp t F (S.coins (j - 1)))
  -- contributions
  obtain ⟨n2, net2, R2, f2⟩ := R1.phase (fun i => (List.range (nc i)).map fun h => .reshare (UInt32.ofNat h) (marshal (rm h (i + 1))))
    (fun i => (List.range (nc i)).flatMap fun h => (oneTo N).map fun l => .recover l (recMsg codec pp t F q (fun _ => (S.tb i).sign) i h l)) S.start (fun i => { s1 i with voters := N - nc i }) (by
      intro i hi
      obtain ⟨g1, g2, -, -⟩ := f1 i hi
      obtain ⟨e1, e2, e3⟩ := hH.size i hi
      rw [g1, g2]
      obtain ⟨-, -, -, -, hvn, hcm, -⟩ := hparts i hi
      have hnci := hnc i
      have hl : (List.range (nc i)).length = nc i := List.length_range
      have := PRun.countdown (codec := codec) (pp := pp) (tb := S.tb i) (p := S.start i) (st := s1 i) (List.range (nc i)) (fun h => .reshare (UInt32.ofNat h) (marshal (rm h (i + 1))))
        (fun h => (oneTo N).map fun l => .recover l (recMsg codec pp t F q (fun _ => (S.tb i).sign) i h l)) (by rw [hl, hvn]; exact hnci) fun h hh w hw => by
          have hlt := List.mem_range.1 hh
          obtain ⟨c1, c2⟩ := hcm (h + 1) (by omega) (by omega)
          have := reshare_answer (codec := codec) (pp := pp) (tb := S.tb i) (st := { s1 i with voters := w }) (hH.seat hi) (hH.gives hq hi) ⟨rfl, rfl, rfl, rfl, rfl, rfl, rfl⟩ (hmem h (by omega)) hw c1
            (by rw [e1, e2]; exact c2) (m := rm h (i + 1)) (by rw [e1, e3]; exact hrm h (i + 1))
          rw [e1, e2, e3] at this
          exact this
      rw [hl, hvn] at this
      exact this) (by
      intro i hi e1 x e2 he net' hev _ _
      have hx : x ∈ (List.range (nc i)).map fun h => PEvent.reshare (UInt32.ofNat h) (marshal (rm h (i + 1))) := by rw [he]; simp
      obtain ⟨h, hh, rfl⟩ := List.mem_map.1 hx
      have hlt := List.mem_range.1 hh
      have hnci := hnc i
      have hhm := hmem h (by omega)
      refine ⟨?_, h, hhm, rfl, rm h (i + 1), ?_, rfl⟩
      · rw [hev, (f1 i hi).2.2.1, List.mem_append, List.mem_append]
        rintro ((hm | hm) | hm)
        · simp [RefNet.init] at hm
        · obtain ⟨_, _, he'⟩ := List.mem_map.1 hm
          cases he'
        · refine map_split_fresh ?_ he hm
          refine List.Nodup.map_on ?_ List.nodup_range
          intro a ha c hc hac
          have := congrArg UInt32.toNat (PEvent.reshare.inj hac).1
          rw [List.mem_range] at ha hc
          rw [UInt32.toNat_ofNat', UInt32.toNat_ofNat', Nat.mod_eq_of_lt (by omega), Nat.mod_eq_of_lt (by omega)] at this
          exact this
      · rw [(hkz h hhm).1, (hkz h hhm).2]
        exact hrm h (i + 1))
  -- recovery
  obtain ⟨n3, net3, R3, f3⟩ := R2.phase (fun i => (ks i).flatMap fun k => batchEvents codec pp t k (sliceX (q k) F (2 * F) ((i + 1 : ℕ) : Fr)) (sg k) (2 * F + 1))
    (fun i => [.mvba (mvbaInput (S.tb i) F N sg (ks i))]) S.start s2 (by
      intro i hi
      obtain ⟨g1, g2, -, -⟩ := f2 i hi
      rw [g1, g2]
      exact (hparts i hi).2.1) (by
      intro i hi e1 x e2 he net' hev _ hout
      have hx : x ∈ (ks i).flatMap fun k => batchEvents codec pp t k (sliceX (q k) F (2 * F) ((i + 1 : ℕ) : Fr)) (sg k) (2 * F + 1) := by rw [he]; simp
      obtain ⟨k, hk, hx⟩ := List.mem_flatMap.1 hx
      obtain ⟨l, hl, hx⟩ := List.mem_flatMap.1 hx
      rw [mem_oneTo] at hl
      obtain ⟨k1, k2⟩ := hks0 i k hk
      simp only [List.mem_cons, List.not_mem_nil, or_false] at hx
      rcases hx with rfl | rfl | rfl
      · have hlm : l - 1 ∈ S.members := hmem _ (by omega)
        refine ⟨?_, l - 1, hlm, rfl, recMsg codec pp t F q (fun _ => (S.tb (l - 1)).sign) (l - 1) (k - 1) (i + 1), hout _ _ ?_, ?_⟩
        · rw [hev, (f2 i hi).2.2.1, (f1 i hi).2.2.1, List.mem_append, List.mem_append, List.mem_append]
          rintro (((hm | hm) | hm) | hm)
          · simp [RefNet.init] at hm
          · obtain ⟨_, _, he'⟩ := List.mem_map.1 hm
            cases he'
          · obtain ⟨_, _, he'⟩ := List.mem_map.1 hm
            cases he'
          · exact fresh_of_keys PEvent.takeKey (takeKey_batches codec pp t (fun k => sliceX (q k) F (2 * F) ((i + 1 : ℕ) : Fr)) sg hsglen (2 * F + 1) (by omega) (ks i) (hks i).1
              (fun k hk => by have := (hks0 i k hk).2; omega)) he rfl hm
        · rw [(f2 _ hlm).2.2.2, List.mem_append]
          right
          have hfull : nc (l - 1) = N := by
            by_contra hc
            have := (hlate _ hc).1
            omega
          refine List.mem_flatMap.2 ⟨k - 1, List.mem_range.2 (by omega), List.mem_map.2 ⟨i + 1, mem_oneTo.2 ⟨by omega, ?_⟩, rfl⟩⟩
          have := hH.lt i hi
          omega
        · unfold recMsg recoverBytes
          rw [Nat.sub_add_cancel k1, Nat.sub_add_cancel hl.1]
          simp only [hsg]
          rw [if_pos (by omega)]
      · trivial
      · trivial)
  -- agreement and refresh
  obtain ⟨n4, net4, R4, f4⟩ := R3.phase (fun i => PEvent.mvba v :: ev4 i) (fun _ => []) p' st (by
      intro i hi
      obtain ⟨g1, g2, -, -⟩ := f3 i hi
      rw [g1, g2]
      exact (hparts i hi).2.2.1) (by
      intro i hi e1 x e2 he net' _ hev hout
      have hx : x ∈ PEvent.mvba v :: ev4 i := by rw [he]; simp
      rw [List.mem_cons] at hx
      rcases hx with rfl | hx
      · refine ⟨fun k hk v' hv' => ?_, h0, hh0, _, hout _ _ (by rw [(f3 h0 hh0).2.2.2, List.mem_append]; right; exact List.mem_singleton.2 rfl), rfl⟩
        rcases hev k _ hv' with hm | hm
        · exfalso
          rw [(f3 k hk).2.2.1, (f2 k hk).2.2.1, (f1 k hk).2.2.1, List.mem_append, List.mem_append, List.mem_append] at hm
          rcases hm with ((hm | hm) | hm) | hm
          · simp [RefNet.init] at hm
          · obtain ⟨_, _, he'⟩ := List.mem_map.1 hm
            cases he'
          · obtain ⟨_, _, he'⟩ := List.mem_map.1 hm
            cases he'
          · obtain ⟨_, _, hm⟩ := List.mem_flatMap.1 hm
            obtain ⟨_, _, hm⟩ := List.mem_flatMap.1 hm
            simp only [List.mem_cons, List.not_mem_nil, or_false] at hm
            rcases hm with hm | hm | hm <;> cases hm
        · rw [List.mem_cons] at hm
          rcases hm with hm | hm
          · exact PEvent.mvba.inj hm
          · cases (hparts k hk).2.2.2.1 _ hm
      · rw [(hparts i hi).2.2.2.1 _ hx]
        trivial)
  refine ⟨n4, net4, v, R4, hvn, fun i hi => ?_⟩
  obtain ⟨g1, g2, g3, g4⟩ := f4 i hi
  obtain ⟨-, -, -, -, -, -, dw, dr⟩ := hparts i hi
  obtain ⟨e1, e2, e3⟩ := hH.size i hi
  refine ⟨?_, ⟨mvbaInput (S.tb i) F N sg (ks i), ?_, ?_⟩, fun hc => by rw [g2]; exact dw hc, fun hc => ?_⟩
  · rw [g3, List.mem_append]; right; exact List.mem_cons_self ..
  · rw [g4, (f3 i hi).2.2.2, List.mem_append, List.mem_append]; left; right; exact List.mem_singleton.2 rfl
  · show ((ks i).map UInt32.ofNat).map (·.toNat) = ks i
    rw [List.map_map]
    conv_rhs => rw [← List.map_id (ks i)]
    apply List.map_congr_left
    intro k hk
    have := (hks0 i k hk).2
    show (UInt32.ofNat k).toNat = k
    rw [UInt32.toNat_ofNat', Nat.mod_eq_of_lt (by omega)]
  · obtain ⟨d4, d5, ⟨Cs, d1⟩, d2, d3⟩ := dr hc
    refine ⟨by rw [g2, d4], by rw [g2, d5], ⟨Cs, by rw [g2, d1]⟩, by rw [g1]; exact d2, fun d hd => ?_⟩
    rw [g1]
    rw [d3 d hd, hH.share i hi]
    congr 2
    apply List.map_congr_left
    intro j hj
    by_cases hji : j ∈ ks i
    · rw [if_pos hji, if_pos (Or.inl hji)]
    · rw [if_neg hji]
      show (if j = (S.start i).pid + 1 ∧ (S.start i).pid + 1 ≤ 2 * (S.start i).F + 1 then ownQ (S.start i).F (S.coins i) j else List.replicate ((S.start i).F + 1) 0).getD d 0 = _
      rw [e1, e3]
      by_cases hown : j = i + 1 ∧ i + 1 ≤ 2 * F + 1
      · rw [if_pos hown, if_pos (Or.inr hown), hown.1, hq i (i + 1) (by omega) hown.2]
      · rw [if_neg hown, if_neg (by tauto), List.getD_nil]
        rw [List.getD_eq_getElem _ _ (by rw [List.length_replicate]; exact hd)]
        simp

/-- Every member `i` submits `ks i` to MVBA, MVBA chooses the set of member `h0`, and all members refresh. -/
theorem RefReach.scripted (codec : PointCodec G1) (hH : S.Holds pp t b F N) (hq : S.Contributes F q) (hall : S.members = Finset.range N) (ks : ℕ → List ℕ)
    (hks : ∀ i, (ks i).Nodup ∧ (ks i).length = F + 1 ∧ ∀ k ∈ ks i, 1 ≤ k ∧ k ≤ N) (h0 : ℕ) (hh0 : h0 ∈ S.members) :
    ∃ n net v, RefReach codec pp S n net ∧ agreedIds v = ks h0 ∧ ∀ i ∈ S.members, net.Refreshed i ∧ PEvent.mvba v ∈ net.evs i ∧
      (∃ m, POut.mvba m ∈ net.outs i ∧ m.j.map (·.toNat) = ks i) ∧ (net.party i).reducedShare.length = F + 1 ∧
      ∀ d < F + 1, (net.party i).reducedShare.getD d 0 = (sliceX b F (2 * F) ((i + 1 : ℕ) : Fr)).getD d 0 +
        ((ks h0).map fun j => (if j ∈ ks i ∨ j = i + 1 ∧ i + 1 ≤ 2 * F + 1 then sliceX (q j) F (2 * F) ((i + 1 : ℕ) : Fr) else []).getD d 0).sum := by
  obtain ⟨n, net, v, h1, h2, h3⟩ := RefReach.scripted_late codec hH hq hall ks (fun _ => N) hks h0 hh0 (fun _ => le_rfl) (fun i h => absurd rfl h)
  refine ⟨n, net, v, h1, h2, fun i hi => ?_⟩
  obtain ⟨a, b, -, c⟩ := h3 i hi
  obtain ⟨-, -, c1, c2, c3⟩ := c rfl
  exact ⟨c1, a, b, c2, c3⟩

theorem polyVal_le (c : List Fr) (x : Fr) (n : ℕ) (h : c.length ≤ n) : polyVal c x = ∑ i ∈ Finset.range n, c.getD i 0 * x ^ i := by
  unfold polyVal
  apply Finset.sum_subset
  · intro i hi
    rw [Finset.mem_range] at hi ⊢
    omega
  · intro i _ hi
    rw [Finset.mem_range, not_lt] at hi
    rw [List.getD_eq_default _ _ hi, zero_mul]

theorem polyVal_listSum (rs a : List Fr) (n : ℕ) (L : List ℕ) (f : ℕ → List Fr) (h1 : rs.length = n) (h2 : a.length = n) (h3 : ∀ j, (f j).length ≤ n) (x : Fr)
    (h : ∀ d < n, rs.getD d 0 = a.getD d 0 + (L.map fun j => (f j).getD d 0).sum) : polyVal rs x = polyVal a x + (L.map fun j => polyVal (f j) x).sum := by
  rw [polyVal_le rs x n h1.le, polyVal_le a x n h2.le]
  have : (L.map fun j => polyVal (f j) x).sum = ∑ d ∈ Finset.range n, (L.map fun j => (f j).getD d 0).sum * x ^ d := by
    clear h
    induction L with
    | nil => simp
    | cons j L ih =>
      simp only [List.map_cons, List.sum_cons, add_mul, Finset.sum_add_distrib]
      rw [ih, polyVal_le (f j) x n (h3 j)]
  rw [this, ← Finset.sum_add_distrib]
  apply Finset.sum_congr rfl
  intro d hd
  rw [h d (Finset.mem_range.1 hd), add_mul]

theorem list_sum_split (L : List ℕ) (B : ℕ → Fr) (k : ℕ) : (L.map B).sum = (L.map fun j => if j = k then B j else 0).sum + ((L.filter (· ≠ k)).map B).sum := by
  induction L with
  | nil => simp
  | cons j L ih =>
    by_cases hj : j = k
    · simp only [List.map_cons, List.sum_cons, if_pos hj, List.filter_cons]
      rw [if_neg (by simp [hj]), ih]
      ring
    · simp only [List.map_cons, List.sum_cons, if_neg hj, List.filter_cons]
      rw [if_pos (by simp [hj]), List.map_cons, List.sum_cons, ih]
      ring

/-- A committee with given members and contributions. -/
theorem exists_holds (pp : Pairing Fr G1 G2 GT) (t : Fr) (b : ℕ → ℕ → Fr) (F N : ℕ) (hF : 1 ≤ F) (hF' : F ≤ 2 ^ 20) (hN : 3 * F + 1 ≤ N) (hN' : N < 2 ^ 32) (M : Finset ℕ)
    (hM : ∀ i ∈ M, i < N) (hM' : 2 * F + 1 ≤ M.card) (coins : ℕ → DealerCoins) : ∃ S : RefSetup G1 G2, S.Holds pp t b F N ∧ S.members = M ∧ S.coins = coins := by
  choose p0 e1 e2 e3 e4 e5 using fun i => newParty_setup pp t N F i
  refine ⟨⟨M, fun i => { p0 i with
    proof := ⟨0, (List.range (2 * F + 2)).map fun k : ℕ => ⟨k, polyVal (sliceX b F (2 * F) (k : Fr)) t • pp.g1, 0, 0, 0⟩⟩
    reducedShare := sliceX b F (2 * F) ((i + 1 : ℕ) : Fr) }, coins, fun _ => ⟨fun _ => [], fun _ _ => true, fun _ _ _ _ => some []⟩⟩, ?_, rfl, rfl⟩
  refine ⟨hF, hF', hN, hN', hM, hM', fun i _ => ⟨(e2 i).kzg, (e2 i).table⟩, fun i _ => ⟨e4 i, e3 i, e5 i⟩, fun i _ k k1 k2 => ?_, fun i _ => rfl, fun i _ h _ m => rfl,
    fun h _ m => by norm_num, fun i _ m s a n r h => by cases h; norm_num⟩
  have k2 : k ≤ 2 * (p0 i).F + 1 := k2
  show commitToPoly (newKZG pp t ((p0 i).F + 1)) (sliceX b (p0 i).F (2 * (p0 i).F) (k : Fr)) = _
  rw [e4] at k2 ⊢
  rw [commitToPoly_ok _ _ _ _ (by rw [sliceX_length])]
  congr 1
  show _ = (((List.range (2 * F + 2)).map fun k : ℕ => (⟨k, polyVal (sliceX b F (2 * F) (k : Fr)) t • pp.g1, 0, 0, 0⟩ : PiContent G1)).getD k (PiContent.zero k)).CBj
  rw [List.getD_eq_getElem _ _ (by rw [List.length_map, List.length_range]; omega), List.getElem_map, List.getElem_range]

/-- Contributions `x`. -/
def lineCoins : ℕ → DealerCoins := fun _ => ⟨fun _ => 0, fun _ d => if d = 1 then 1 else 0⟩

def lineQ : ℕ → ℕ → ℕ → Fr := fun _ i k => if i = 1 ∧ k = 0 then 1 else 0

theorem lineQ_slices (F : ℕ) (j k : ℕ) : sliceX (lineQ j) F (2 * F) (k : Fr) = ownQ F (lineCoins j) k := by
  have h0 : dealerFVal F 0 (lineCoins j) k = 0 := by
    rw [dealerFVal_eq]
    unfold polyVal
    apply Finset.sum_eq_zero
    intro i hi
    rw [Finset.mem_range] at hi
    rw [List.getD_eq_getElem _ _ hi]
    simp [dealerF, lineCoins]
  unfold ownQ dealerB
  rw [h0]
  apply List.ext_getElem
  · rw [sliceX_length, List.length_set]; simp [dealerZ]
  · intro d d1 d2
    rw [sliceX_length] at d1
    have e : (sliceX (lineQ j) F (2 * F) (k : Fr))[d]'(by rw [sliceX_length]; exact d1) = if d = 1 then 1 else 0 := by
      simp only [sliceX, List.getElem_map, List.getElem_range, lineQ]
      rw [Finset.sum_eq_single 0]
      · by_cases hd : d = 1 <;> simp [hd]
      · intro l _ hl; simp [hl]
      · intro h; simp at h
    rw [e, List.getElem_set]
    by_cases hd0 : d = 0
    · subst hd0; simp
    · have hd0' : ¬ 0 = d := fun h => hd0 h.symm
      simp [dealerZ, lineCoins, hd0, hd0']

theorem lineQ_val (F : ℕ) (hF : 1 ≤ F) (j : ℕ) (x y : Fr) : biVal (lineQ j) F (2 * F) x y = x := by
  rw [← polyVal_sliceX]
  have e : sliceX (lineQ j) F (2 * F) y = (List.range (F + 1)).map fun d => if d = 1 then (1 : Fr) else 0 := by
    unfold sliceX
    apply List.map_congr_left
    intro d _
    rw [Finset.sum_eq_single 0]
    · by_cases hd : d = 1 <;> simp [lineQ, hd]
    · intro l _ hl; simp [lineQ, hl]
    · intro h; simp at h
  rw [e, polyVal_le _ _ (F + 1) (by simp), Finset.sum_eq_single 1]
  · rw [List.getD_eq_getElem _ _ (by simp; omega)]; simp
  · intro d hd hd1
    rw [Finset.mem_range] at hd
    rw [List.getD_eq_getElem _ _ (by simpa using hd)]; simp [hd1]
  · intro h; simp at h; omega

end

end DyCAPS
