import Verif.Props.Split

/-!
# C39, C65: committees of every size
-/

namespace DyCAPS

/-- **C39, C65 (refuted), every size.** The corrupt party `c` is the one that the empty string names as leader, and `Recover` fails on `2F+1` copies of one share of the first two coins. Whatever the honest
parties propose, for any honest party `p` and any two byte strings `v` and `w`: there is an execution in which `p` decides `v` in the first round and all other honest parties decide `w` in the second. All leaders
are `c`, and no honest party signs anything in the second stage of a broadcast of the first round. Messages of honest parties are authentic and not repeated, and no signature is forged. -/
theorem C39_any_party {env : MEnv} {full : SMsg → Bytes} (ok : IdealScheme env full) {H : Finset ℕ} (hcm : Committee env H) {c p : ℕ} (hc : c < env.N) (hcH : c ∉ H) (hp : p ∈ H)
    (h0 : leaderOf env [] = c) (hrec : ∀ r, env.recover (.done r) (List.replicate (2 * env.F + 1) (env.sign c (.done r))) = none) (input : ℕ → Bytes × Bytes) (v w : Bytes) :
    ∃ evs net, MRun env H ⟨true, true⟩ (MNet.init H input env.N) evs net ∧ Decides net p 0 v ∧ (∀ i ∈ H, i ≠ p → Decides net i 1 w) ∧
      (∀ i ∈ H, ∀ r ≤ (net.party i).round, ((net.party i).rounds r).leader = some c) ∧ ∀ i j h, (i, SMsg.echo 0 j 2 h) ∉ net.signed := by
  have hnd : H.toList.Nodup := H.nodup_toList
  have hmem : ∀ {i}, i ∈ H.toList ↔ i ∈ H := Finset.mem_toList
  set O := (H.erase p).toList with hO
  have hOnd : O.Nodup := (H.erase p).nodup_toList
  have hOmem : ∀ {i}, i ∈ O ↔ i ≠ p ∧ i ∈ H := by intro i; rw [hO, Finset.mem_toList, Finset.mem_erase]
  have hpO : p ∉ O := fun h => (hOmem.1 h).1 rfl
  have hF : 1 ≤ env.F := by
    have h1 := hcm.faults
    have h2 : H.card ≤ ((Finset.range env.N).erase c).card := Finset.card_le_card fun i hi =>
      Finset.mem_erase.2 ⟨fun e => hcH (e ▸ hi), Finset.mem_range.2 (hcm.sub i hi)⟩
    rw [Finset.card_erase_of_mem (Finset.mem_range.2 hc), Finset.card_range, hcm.size] at h2
    omega
  have qO : ∀ {s : List (ℕ × SMsg)} {m : SMsg}, (∀ i ∈ O, (i, m) ∈ s) → Quorum env H s m := by
    intro s m h
    have : ((Finset.range env.N).erase p).card ≤ (signers env.N H s m).card := Finset.card_le_card fun i hi => by
      obtain ⟨h1, h2⟩ := Finset.mem_erase.1 hi
      simp only [signers, Finset.mem_filter, Finset.mem_range]
      refine ⟨Finset.mem_range.1 h2, ?_⟩
      by_cases hiH : i ∈ H
      · exact Or.inr (h i (hOmem.2 ⟨h1, hiH⟩))
      · exact Or.inl hiH
    rw [Finset.card_erase_of_mem (Finset.mem_range.2 (hcm.sub p hp)), Finset.card_range] at this
    have := hcm.size
    unfold Quorum
    omega
  set a1 := SMsg.echo 0 c 1 (env.hash v) with ha1
  set a2 := SMsg.echo 0 c 2 (env.hash v) with ha2
  set b1 := SMsg.echo 1 c 1 (env.hash w) with hb1
  set b2 := SMsg.echo 1 c 2 (env.hash w) with hb2
  set old : ℕ → MRound := fun _ => MRound.init [] [] with hold
  set K : ℕ → List (ℕ × Bytes) := fun r => List.replicate (2 * env.F + 1) (c, env.sign c (.done r)) with hK
  have hKlen : ∀ r, ((K r).map Prod.snd).length = 2 * env.F + 1 := fun r => by rw [List.length_map, hK]; exact List.length_replicate
  have lead : ∀ (R : MRound) (r : ℕ), (R.tossed env r ((K r).map Prod.snd)).leader = some c := by
    intro R r
    show (if _ then _ else _) = _
    rw [if_pos (by rw [hKlen]; omega), show (K r).map Prod.snd = _ from List.map_replicate, hrec, Option.getD_none, h0]
  have hKs : ∀ r, ∀ q ∈ K r, (env.share (.done r) q.2).isSome = true := fun r q hq => by
    rw [(List.mem_replicate.1 hq).2, ok.share_sign c hc]; rfl
  have hKev : ∀ r s m, MEvent.recv s m ∈ ((K r).map fun q => MEvent.recv q.1 (.done r q.2)) → s = c ∧ m = .done r (env.sign c (.done r)) := by
    intro r s m hm
    obtain ⟨q, hq, e⟩ := List.mem_map.1 hm
    rw [(List.mem_replicate.1 hq).2] at e
    simp only [MEvent.recv.injEq] at e
    exact ⟨e.1.symm, e.2.symm⟩
  set S0 : ℕ → MRound := fun i => MRound.init (input i).1 (input i).2 with hS0
  set S1 : ℕ → MRound := fun i => (S0 i).took c with hS1
  set S2 : ℕ → MRound := fun i => (S1 i).tossed env 0 ((K 0).map Prod.snd) with hS2
  set S3 : ℕ → MRound := fun i => (S2 i).joined env.N with hS3
  -- Everybody takes the first Value of `c`.
  obtain ⟨es1, n1, r1, p1, -, g1, u1⟩ := phase_corrupt (env := env) (st := fun i => stG (input i) 0 old (S0 i) .wait) (st' := fun i => stG (input i) 0 old (S1 i) .wait)
    (evs := fun _ => [.recv c (.value 0 c 1 v [])]) (ms := fun i => [.echo 0 c 1 (env.sign i a1)]) (sg := fun _ => [a1]) hcH H.toList (MNet.init H input env.N) hnd (fun i hi => by
      refine ⟨hmem.1 hi, stG_init i (input i), go_first _ _ _ _ hc rfl c v [], fun s m hm => ?_⟩
      simp only [List.mem_singleton, MEvent.recv.injEq] at hm
      obtain ⟨rfl, rfl⟩ := hm
      refine ⟨rfl, fun b hb => ?_⟩
      simp only [MMsg.sigs, List.mem_singleton] at hb
      rw [hb]
      exact ok.genuine_empty H _)
  -- The coin shares of `c` end the broadcasts; nobody has a lock, so everybody signs a No.
  have hjoin : ∀ i, ∃ evs : List MEvent, (∀ e ∈ evs, ∀ s m, e ≠ .recv s m) ∧
      LRun env i (stG (input i) 0 old (S2 i) .wait) evs [.prevote 0 false [] (env.sign i (.no 0))] [.no 0] (stG (input i) 0 old (S3 i) (.result c)) := fun i =>
    go_join (input i) 0 old (S2 i) (lead (S1 i) 0) (by simp [hS2, hS1, hS0, MRound.tossed, MRound.took, MRound.init]) rfl rfl
  choose J hJ1 hJ2 using hjoin
  obtain ⟨es2, n2, r2, p2, k2, g2, u2⟩ := phase_corrupt (env := env) (st := fun i => stG (input i) 0 old (S1 i) .wait) (st' := fun i => stG (input i) 0 old (S3 i) (.result c))
    (evs := fun i => ((K 0).map fun q => .recv q.1 (.done 0 q.2)) ++ J i) (ms := fun i => [] ++ [.prevote 0 false [] (env.sign i (.no 0))]) (sg := fun _ => [] ++ [.no 0]) hcH H.toList n1 hnd (fun i hi => by
      refine ⟨hmem.1 hi, by rw [p1, if_pos hi], (go_coins _ _ _ _ rfl rfl (K 0) (hKs 0) (by rw [← List.length_map (f := Prod.snd), hKlen])).trans (hJ2 i), fun s m hm => ?_⟩
      rcases List.mem_append.1 hm with hm | hm
      · obtain ⟨rfl, rfl⟩ := hKev 0 s m hm
        refine ⟨rfl, fun b hb => ?_⟩
        simp only [MMsg.sigs, List.mem_singleton] at hb
        rw [hb]
        exact ok.genuine_corrupt hcH _
      · exact absurd rfl (hJ1 i _ hm s m))
  have qa1 : Quorum env H n2.signed a1 := quorum_all hcm fun i hi => k2 _ (g1 i (hmem.2 hi) a1 (by simp))
  have qno : Quorum env H n2.signed (.no 0) := quorum_all hcm fun i hi => g2 i (hmem.2 hi) (.no 0) (by simp)
  -- Party `p` counts the Yes of `c` as `2F+1` votes.
  set shY := env.sign c a2 with hshY
  set sgY := (env.recover a2 (List.replicate (2 * env.F + 1) shY)).getD [] with hsgY
  set T1 : MRound := { S3 p with VYr := List.replicate (2 * env.F + 1) shY, voteOut := some (.yes v sgY) } with hT1
  have runY : LRun env p (stG (input p) 0 old (S3 p) (.result c)) (List.replicate (2 * env.F + 1) (.recv c (.vote 0 true v (full a1) shY)) ++ [.takeVote]) ([] ++ [.halt 0 v sgY]) ([] ++ []) (stG (input p) 0 old T1 (.decided 0 v)) := by
    have h1 := go_yes (env := env) (i := p) (input p) 0 old (S3 p) (l := c) (lead (S1 p) 0) rfl rfl rfl (v := v) (sig := full a1) (sh := shY) (ok.cert_full _) (by rw [hshY, ← ha2, ok.share_sign c hc]; rfl) c (2 * env.F + 1) le_rfl c
    rw [if_pos (Nat.lt_succ_self _)] at h1
    exact h1.trans (go_takeYes _ _ _ T1 rfl c)
  obtain ⟨es3, n3, r3, p3, k3, -, u3⟩ := phase_corrupt (env := env) (st := fun i => stG (input i) 0 old (S3 i) (.result c)) (st' := fun _ => stG (input p) 0 old T1 (.decided 0 v))
    (evs := fun _ => List.replicate (2 * env.F + 1) (.recv c (.vote 0 true v (full a1) shY)) ++ [.takeVote]) (ms := fun _ => [] ++ [.halt 0 v sgY]) (sg := fun _ => [] ++ []) hcH [p] n2 (List.nodup_singleton _) (fun i hi => by
      obtain rfl := List.mem_singleton.1 hi
      refine ⟨hp, by rw [p2, if_pos (hmem.2 hp)], runY, fun s m hm => ?_⟩
      simp only [List.mem_append, List.mem_replicate, List.mem_singleton, reduceCtorEq, or_false, MEvent.recv.injEq] at hm
      obtain ⟨-, rfl, rfl⟩ := hm
      refine ⟨rfl, fun b hb => ?_⟩
      simp only [MMsg.sigs, List.mem_cons, List.not_mem_nil, or_false] at hb
      rcases hb with rfl | rfl
      · exact ok.genuine_full qa1
      · exact ok.genuine_corrupt hcH _)
  -- The others count its No as `2F+1` votes and enter the next round.
  set shN := env.sign c (.unlock 0) with hshN
  set sgN := (env.recover (.unlock 0) []).getD [] with hsgN
  set inp' : ℕ → Bytes × Bytes := fun i => ((input i).1, (input i).2 ++ sgN) with hinp'
  set T2 : ℕ → MRound := fun i => { S3 i with VNr := List.replicate (2 * env.F + 1) shN, voteOut := some (.no sgN) } with hT2
  set old' : ℕ → ℕ → MRound := fun i r' => if r' = 0 then T2 i else old r' with hold'
  set Z0 : ℕ → MRound := fun i => MRound.init (inp' i).1 (inp' i).2 with hZ0
  have runN : ∀ i, LRun env i (stG (input i) 0 old (S3 i) (.result c)) (List.replicate (2 * env.F + 1) (.recv c (.vote 0 false [] (full (.no 0)) shN)) ++ [.takeVote]) ([] ++ [.value 1 i 1 (input i).1 ((input i).2 ++ sgN)]) ([] ++ [])
      (stG (inp' i) 1 (old' i) (Z0 i) .wait) := by
    intro i
    have h1 := go_no (env := env) (i := i) (input i) 0 old (S3 i) (l := c) (lead (S1 i) 0) rfl rfl rfl (v := []) (sig := full (.no 0)) (sh := shN) (ok.cert_full _) (by rw [hshN, ok.share_sign c hc]; rfl) c (2 * env.F + 1) le_rfl c
    rw [if_pos (Nat.lt_succ_self _)] at h1
    exact h1.trans (go_takeNo (input i) 0 old (T2 i) (sig := sgN) rfl c)
  have p3' : ∀ i, i ≠ p → n3.party i = n2.party i := fun i hi => by rw [p3, if_neg (by simpa using hi)]
  obtain ⟨es4, n4, r4, p4, k4, -, u4⟩ := phase_corrupt (env := env) (st := fun i => stG (input i) 0 old (S3 i) (.result c)) (st' := fun i => stG (inp' i) 1 (old' i) (Z0 i) .wait)
    (evs := fun _ => List.replicate (2 * env.F + 1) (.recv c (.vote 0 false [] (full (.no 0)) shN)) ++ [.takeVote]) (ms := fun i => [] ++ [.value 1 i 1 (input i).1 ((input i).2 ++ sgN)]) (sg := fun _ => [] ++ []) hcH O n3 hOnd (fun i hi => by
      obtain ⟨hip, hiH⟩ := hOmem.1 hi
      refine ⟨hiH, by rw [p3' i hip, p2, if_pos (hmem.2 hiH)], runN i, fun s m hm => ?_⟩
      simp only [List.mem_append, List.mem_replicate, List.mem_singleton, reduceCtorEq, or_false, MEvent.recv.injEq] at hm
      obtain ⟨-, rfl, rfl⟩ := hm
      refine ⟨rfl, fun b hb => ?_⟩
      simp only [MMsg.sigs, List.mem_cons, List.not_mem_nil, or_false] at hb
      rcases hb with rfl | rfl
      · exact (ok.genuine_full qno).grow k3
      · exact ok.genuine_corrupt hcH _)
  -- In the next round `c` has `w` certified by the others.
  obtain ⟨es5, n5, r5, p5, -, g5, u5⟩ := phase_corrupt (env := env) (st := fun i => stG (inp' i) 1 (old' i) (Z0 i) .wait) (st' := fun i => stG (inp' i) 1 (old' i) ((Z0 i).took c) .wait)
    (evs := fun _ => [.recv c (.value 1 c 1 w [])]) (ms := fun i => [.echo 1 c 1 (env.sign i b1)]) (sg := fun _ => [b1]) hcH O n4 hOnd (fun i hi => by
      refine ⟨(hOmem.1 hi).2, by rw [p4, if_pos hi], go_first _ _ _ _ hc rfl c w [], fun s m hm => ?_⟩
      simp only [List.mem_singleton, MEvent.recv.injEq] at hm
      obtain ⟨rfl, rfl⟩ := hm
      refine ⟨rfl, fun b hb => ?_⟩
      simp only [MMsg.sigs, List.mem_singleton] at hb
      rw [hb]
      exact ok.genuine_empty H _)
  have qb1 : Quorum env H n5.signed b1 := qO fun i hi => g5 i hi b1 (by simp)
  obtain ⟨es6, n6, r6, p6, -, g6, u6⟩ := phase_corrupt (env := env) (st := fun i => stG (inp' i) 1 (old' i) ((Z0 i).took c) .wait) (st' := fun i => stG (inp' i) 1 (old' i) (((Z0 i).took c).locked c (w, full b1)) .wait)
    (evs := fun _ => [.recv c (.value 1 c 2 w (full b1))]) (ms := fun i => [.echo 1 c 2 (env.sign i b2)]) (sg := fun _ => [b2]) hcH O n5 hOnd (fun i hi => by
      refine ⟨(hOmem.1 hi).2, by rw [p5, if_pos hi], go_second _ _ _ _ hc (by simp [MRound.took]) c (ok.cert_full _), fun s m hm => ?_⟩
      simp only [List.mem_singleton, MEvent.recv.injEq] at hm
      obtain ⟨rfl, rfl⟩ := hm
      refine ⟨rfl, fun b hb => ?_⟩
      simp only [MMsg.sigs, List.mem_singleton] at hb
      rw [hb]
      exact ok.genuine_full qb1)
  have qb2 : Quorum env H n6.signed b2 := qO fun i hi => g6 i hi b2 (by simp)
  -- It names itself leader again and sends the others a Halt.
  set Z2 : ℕ → MRound := fun i => (((Z0 i).took c).locked c (w, full b1)).tossed env 1 ((K 1).map Prod.snd) with hZ2
  obtain ⟨es7, n7, r7, p7, -, -, u7⟩ := phase_corrupt (env := env) (st := fun i => stG (inp' i) 1 (old' i) (((Z0 i).took c).locked c (w, full b1)) .wait) (st' := fun i => stG (inp' i) 1 (old' i) { Z2 i with haltDone := true } (.decided 1 w))
    (evs := fun _ => ((K 1).map fun q => .recv q.1 (.done 1 q.2)) ++ [.recv c (.halt 1 w (full b2)), .takeHalt]) (ms := fun _ => [] ++ []) (sg := fun _ => [] ++ []) hcH O n6 hOnd (fun i hi => by
      refine ⟨(hOmem.1 hi).2, by rw [p6, if_pos hi], (go_coins _ _ _ _ rfl rfl (K 1) (hKs 1) (by rw [← List.length_map (f := Prod.snd), hKlen])).trans (go_halt _ _ _ _ (lead _ 1) rfl (ok.cert_full _) c), fun s m hm => ?_⟩
      rcases List.mem_append.1 hm with hm | hm
      · obtain ⟨rfl, rfl⟩ := hKev 1 s m hm
        refine ⟨rfl, fun b hb => ?_⟩
        simp only [MMsg.sigs, List.mem_singleton] at hb
        rw [hb]
        exact ok.genuine_corrupt hcH _
      · simp only [List.mem_cons, MEvent.recv.injEq, reduceCtorEq, List.not_mem_nil, or_false] at hm
        obtain ⟨rfl, rfl⟩ := hm
        refine ⟨rfl, fun b hb => ?_⟩
        simp only [MMsg.sigs, List.mem_singleton] at hb
        rw [hb]
        exact ok.genuine_full qb2)
  have ep : n7.party p = stG (input p) 0 old T1 (.decided 0 v) := by
    rw [p7, if_neg hpO, p6, if_neg hpO, p5, if_neg hpO, p4, if_neg hpO, p3, if_pos (by simp)]
  have eo : ∀ i ∈ H, i ≠ p → n7.party i = stG (inp' i) 1 (old' i) { Z2 i with haltDone := true } (.decided 1 w) := fun i hi hip => by
    rw [p7, if_pos (hOmem.2 ⟨hip, hi⟩)]
  refine ⟨_, n7, (((((r1.append r2).append r3).append r4).append r5).append r6).append r7, ?_, fun i hi hip => ?_, fun i hi r hr => ?_, fun i j h hs => ?_⟩
  · show (n7.party p).phase = _
    rw [ep]; rfl
  · show (n7.party i).phase = _
    rw [eo i hi hip]; rfl
  · by_cases hip : i = p
    · subst hip
      rw [ep] at hr ⊢
      obtain rfl : r = 0 := Nat.le_zero.1 hr
      exact lead (S1 i) 0
    · rw [eo i hi hip] at hr ⊢
      have hr' : r ≤ 1 := hr
      rcases Nat.le_one_iff_eq_zero_or_eq_one.1 hr' with rfl | rfl
      · exact lead (S1 i) 0
      · exact lead (((Z0 i).took c).locked c (w, full b1)) 1
  · rcases u7 _ hs with hs | ⟨_, -, m, hm, e⟩
    swap
    · simp at hm
    rcases u6 _ hs with hs | ⟨_, -, m, hm, e⟩
    swap
    · rw [List.mem_singleton] at hm; subst hm; simp [hb2] at e
    rcases u5 _ hs with hs | ⟨_, -, m, hm, e⟩
    swap
    · rw [List.mem_singleton] at hm; subst hm; simp [hb1] at e
    rcases u4 _ hs with hs | ⟨_, -, m, hm, e⟩
    swap
    · simp at hm
    rcases u3 _ hs with hs | ⟨_, -, m, hm, e⟩
    swap
    · simp at hm
    rcases u2 _ hs with hs | ⟨_, -, m, hm, e⟩
    swap
    · simp at hm; subst hm; simp at e
    rcases u1 _ hs with hs | ⟨_, -, m, hm, e⟩
    swap
    · rw [List.mem_singleton] at hm; subst hm; simp [ha1] at e
    simp [MNet.init] at hs

/-- Every coin names party 0. -/
theorem Toy.leaderN_zero (N F r : ℕ) : leaderOf (Toy.envN N F (0, 0, 0)) (Toy.fullN (0, 0, 0) (.done r)) = 0 := by
  have : bytesToUint32 (Toy.fullN (0, 0, 0) (.done r)) = 0 := rfl
  unfold leaderOf
  rw [this]
  exact Nat.zero_mod _

/-- **C39 is refuted**, for every committee size `3F+1`, with a single corrupt party (party 0), for all proposals of the others, any honest party and any two byte strings: there is an execution in which this party decides
the one in the first round and all other honest parties decide the other in the second. All leaders are as the coin says. -/
theorem C39_refuted_every_size (F : ℕ) (hF : 1 ≤ F) : ∃ (env : MEnv) (full : SMsg → Bytes) (H : Finset ℕ), env.F = F ∧ env.N = 3 * F + 1 ∧ SchemeOk env full ∧ Committee env H ∧
    (∀ i, i ∈ H ↔ 1 ≤ i ∧ i < env.N) ∧ (∀ a b, env.hash a = env.hash b → a = b) ∧ ∀ (input : ℕ → Bytes × Bytes) (v w : Bytes), ∀ p ∈ H,
      ∃ evs net, MRun env H ⟨true, true⟩ (MNet.init H input env.N) evs net ∧ Decides net p 0 v ∧ (∀ i ∈ H, i ≠ p → Decides net i 1 w) ∧
        ∀ i ∈ H, ∀ r ≤ (net.party i).round, ∀ l, ((net.party i).rounds r).leader = some l → l = leaderOf env (full (.done r)) := by
  refine ⟨Toy.envN (3 * F + 1) F (0, 0, 0), Toy.fullN (0, 0, 0), Finset.Ico 1 (3 * F + 1), rfl, rfl, (Toy.idealN _ _ _).toSchemeOk, Toy.committeeN hF _, fun i => Finset.mem_Ico, fun _ _ h => h, fun input v w p hp => ?_⟩
  obtain ⟨evs, net, h1, h2, h3, h4, -⟩ := C39_any_party (c := 0) (Toy.idealN _ _ _) (Toy.committeeN hF (0, 0, 0)) (Nat.succ_pos _) (by simp) hp (by
      show (bytesToUint32 []).toNat % (3 * F + 1) = 0
      have : bytesToUint32 [] = 0 := by decide
      rw [this]
      exact Nat.zero_mod _) (fun r => Toy.recoverN_repeated hF _ _ _) input v w
  refine ⟨evs, net, h1, h2, h3, fun i hi r hr l hl => ?_⟩
  rw [h4 i hi r hr] at hl
  rw [Toy.leaderN_zero]
  exact (Option.some.inj hl).symm

/-- Ten parties, party 0 is corrupt: whatever was proposed, party 3 decides `[7]` in the first round and party 9 decides `[8]` in the second. -/
example (input : ℕ → Bytes × Bytes) : ∃ (env : MEnv) (full : SMsg → Bytes) (H : Finset ℕ) (evs : List (ℕ × MEvent)) (net : MNet), env.N = 10 ∧ env.F = 3 ∧ SchemeOk env full ∧ Committee env H ∧
    MRun env H ⟨true, true⟩ (MNet.init H input env.N) evs net ∧ Decides net 3 0 [7] ∧ Decides net 9 1 [8] := by
  obtain ⟨env, full, H, hF, hN, h1, h2, h3, -, h4⟩ := C39_refuted_every_size 3 (by norm_num)
  obtain ⟨evs, net, h5, h6, h7, -⟩ := h4 input [7] [8] 3 ((h3 3).2 (by omega))
  exact ⟨env, full, H, evs, net, hN, hF, h1, h2, h5, h6, h7 9 ((h3 9).2 (by omega)) (by norm_num)⟩

/-- **C65 is refuted**, for every committee size, with a single corrupt party (party 0): it can have any honest party decide any byte string in the first round, and no honest party has signed anything in the second stage,
so that there is no second-stage quorum for anything. -/
theorem C65_refuted_every_size (F : ℕ) (hF : 1 ≤ F) : ∃ (env : MEnv) (full : SMsg → Bytes) (H : Finset ℕ), env.F = F ∧ env.N = 3 * F + 1 ∧ SchemeOk env full ∧ Committee env H ∧
    (∀ i, i ∈ H ↔ 1 ≤ i ∧ i < env.N) ∧ ∀ (input : ℕ → Bytes × Bytes) (v : Bytes), ∀ p ∈ H,
      ∃ evs net, MRun env H ⟨true, true⟩ (MNet.init H input env.N) evs net ∧ Decides net p 0 v ∧ ∀ j h, ¬ Quorum env H net.signed (.echo 0 j 2 h) := by
  refine ⟨Toy.envN (3 * F + 1) F (0, 0, 0), Toy.fullN (0, 0, 0), Finset.Ico 1 (3 * F + 1), rfl, rfl, (Toy.idealN _ _ _).toSchemeOk, Toy.committeeN hF _, fun i => Finset.mem_Ico, fun input v p hp => ?_⟩
  obtain ⟨evs, net, h1, h2, -, -, h5⟩ := C39_any_party (c := 0) (Toy.idealN _ _ _) (Toy.committeeN hF (0, 0, 0)) (Nat.succ_pos _) (by simp) hp (by
      show (bytesToUint32 []).toNat % (3 * F + 1) = 0
      have : bytesToUint32 [] = 0 := by decide
      rw [this]
      exact Nat.zero_mod _) (fun r => Toy.recoverN_repeated hF _ _ _) input v []
  refine ⟨evs, net, h1, h2, fun j h hq => ?_⟩
  obtain ⟨i, -, hi⟩ := hq.honest (Toy.committeeN hF (0, 0, 0))
  exact h5 _ _ _ hi

/-- Seven parties: party 5 decides `[9]`, which nobody has certified in the second stage. -/
example (input : ℕ → Bytes × Bytes) : ∃ (env : MEnv) (H : Finset ℕ) (evs : List (ℕ × MEvent)) (net : MNet), env.N = 7 ∧ env.F = 2 ∧ Committee env H ∧
    MRun env H ⟨true, true⟩ (MNet.init H input env.N) evs net ∧ Decides net 5 0 [9] ∧ ¬ Quorum env H net.signed (.echo 0 0 2 (env.hash [9])) := by
  obtain ⟨env, full, H, hF, hN, -, h2, h3, h4⟩ := C65_refuted_every_size 2 (by norm_num)
  obtain ⟨evs, net, h5, h6, h7⟩ := h4 input [9] 5 ((h3 5).2 (by omega))
  exact ⟨env, H, evs, net, hN, hF, h2, h5, h6, h7 _ _⟩

end DyCAPS
