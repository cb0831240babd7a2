import Verif.Lemmas.MVBASplit
import Verif.Props.Validity

/-!
# C38, C62, C63, C64: committees of every size
-/

namespace DyCAPS

/-- **C38, C63, C64 (refuted), every size.** The corrupt party `c` is the one that the empty string names as leader (party 0), the coin of the first round names another party `l`, and `Recover` fails on `2F+1` copies of
one share. Whatever the honest parties propose, and for any two byte strings `v` and `w` and any set `A` of parties: there is an execution in which the honest parties of `A` have the leader `l` and decide `v`, and
the others have the leader `c` and decide `w`, all in the first round. Messages of honest parties are authentic and not repeated, and no signature is forged. The broadcast of `l` is certified for `v` in both stages. -/
theorem C38_any_split {env : MEnv} {full : SMsg → Bytes} (ok : IdealScheme env full) {H : Finset ℕ} (hcm : Committee env H) {c l : ℕ} (hc : c < env.N) (hcH : c ∉ H)
    (h0 : leaderOf env [] = c) (h1 : leaderOf env (full (.done 0)) = l) (hne : l ≠ c) (hrec : env.recover (.done 0) (List.replicate (2 * env.F + 1) (env.sign c (.done 0))) = none)
    (input : ℕ → Bytes × Bytes) (v w : Bytes) (A : Finset ℕ) :
    ∃ evs net, MRun env H ⟨true, true⟩ (MNet.init H input env.N) evs net ∧ (∀ i ∈ H, i ∈ A → Decides net i 0 v ∧ ((net.party i).rounds 0).leader = some l) ∧
      (∀ i ∈ H, i ∉ A → Decides net i 0 w ∧ ((net.party i).rounds 0).leader = some c) ∧ ∀ i ∈ H, (i, SMsg.echo 0 l 1 (env.hash v)) ∈ net.signed ∧ (i, SMsg.echo 0 l 2 (env.hash v)) ∈ net.signed := by
  have hnd : H.toList.Nodup := H.nodup_toList
  have hmem : ∀ {i}, i ∈ H.toList ↔ i ∈ H := Finset.mem_toList
  have hl : l < env.N := h1 ▸ leaderOf_lt (by omega) _
  set a1 := SMsg.echo 0 c 1 (env.hash w) with ha1
  set a2 := SMsg.echo 0 c 2 (env.hash w) with ha2
  set b1 := SMsg.echo 0 l 1 (env.hash v) with hb1
  set b2 := SMsg.echo 0 l 2 (env.hash v) with hb2
  set S0 : ℕ → MRound := fun i => MRound.init (input i).1 (input i).2 with hS0
  set S1 : ℕ → MRound := fun i => ((S0 i).took c).took l with hS1
  set S2 : ℕ → MRound := fun i => ((S1 i).locked c (w, full a1)).locked l (v, full b1) with hS2
  set S3 : ℕ → MRound := fun i => { (S2 i).finished c env.F (w, full a2) (2 * env.F + 1) with elected := true } with hS3
  have hcl : ¬ c = l := fun e => hne e.symm
  obtain ⟨es1, n1, r1, p1, -, g1, -, -, d1⟩ := phase_run (env := env) (H := H) (st := fun i => stG (input i) 0 (fun _ => MRound.init [] []) (S0 i) .wait) (st' := fun i => stG (input i) 0 (fun _ => MRound.init [] []) (S1 i) .wait)
    (evs := fun _ => [.recv c (.value 0 c 1 w [])] ++ [.recv c (.value 0 l 1 v [])]) (ms := fun i => [.echo 0 c 1 (env.sign i a1)] ++ [.echo 0 l 1 (env.sign i b1)]) (sg := fun _ => [a1] ++ [b1])
    H.toList (MNet.init H input env.N) hnd (fun i hi => by
      refine ⟨hmem.1 hi, stG_init i (input i), (go_first _ _ _ _ hc rfl c w []).trans (go_first _ _ _ _ hl (by simp [MRound.took, hne, hS0, MRound.init]) c v []),
        noRepeat_corrupt (fun e he s m e' => by subst e'; simp at he; rcases he with ⟨rfl, -⟩ | ⟨rfl, -⟩ <;> exact hcH), fun s m hm => ?_⟩
      have hsm : s = c ∧ m.sigs = [[]] := by
        simp only [List.mem_append, List.mem_singleton, MEvent.recv.injEq] at hm
        rcases hm with ⟨rfl, rfl⟩ | ⟨rfl, rfl⟩ <;> exact ⟨rfl, rfl⟩
      refine ⟨fun b hb => ?_, fun hs => absurd (hsm.1 ▸ hs) hcH⟩
      rw [hsm.2, List.mem_singleton] at hb
      rw [hb]
      exact ok.genuine_empty H _)
  have qa1 : Quorum env H n1.signed a1 := quorum_all hcm fun i hi => g1 i (hmem.2 hi) a1 (by simp)
  have qb1 : Quorum env H n1.signed b1 := quorum_all hcm fun i hi => g1 i (hmem.2 hi) b1 (by simp)
  obtain ⟨es2, n2, r2, p2, k2, g2, -, -, d2⟩ := phase_run (env := env) (H := H) (st := fun i => stG (input i) 0 (fun _ => MRound.init [] []) (S1 i) .wait) (st' := fun i => stG (input i) 0 (fun _ => MRound.init [] []) (S2 i) .wait)
    (evs := fun _ => [.recv c (.value 0 c 2 w (full a1))] ++ [.recv c (.value 0 l 2 v (full b1))]) (ms := fun i => [.echo 0 c 2 (env.sign i a2)] ++ [.echo 0 l 2 (env.sign i b2)]) (sg := fun _ => [a2] ++ [b2])
    H.toList n1 hnd (fun i hi => by
      refine ⟨hmem.1 hi, by rw [p1, if_pos hi], (go_second _ _ _ _ hc (by simp [hS1, MRound.took]) c (ok.cert_full _)).trans (go_second _ _ _ _ hl (by simp [hS1, MRound.took, MRound.locked, hne]) c (ok.cert_full _)),
        noRepeat_corrupt (fun e he s m e' => by subst e'; simp at he; rcases he with ⟨rfl, -⟩ | ⟨rfl, -⟩ <;> exact hcH), fun s m hm => ?_⟩
      have hsm : s = c ∧ (m.sigs = [full a1] ∨ m.sigs = [full b1]) := by
        simp only [List.mem_append, List.mem_singleton, MEvent.recv.injEq] at hm
        rcases hm with ⟨rfl, rfl⟩ | ⟨rfl, rfl⟩
        · exact ⟨rfl, Or.inl rfl⟩
        · exact ⟨rfl, Or.inr rfl⟩
      refine ⟨fun b hb => ?_, fun hs => absurd (hsm.1 ▸ hs) hcH⟩
      rcases hsm.2 with e | e <;> rw [e, List.mem_singleton] at hb <;> rw [hb]
      · exact ok.genuine_full qa1
      · exact ok.genuine_full qb1)
  have qa2 : Quorum env H n2.signed a2 := quorum_all hcm fun i hi => g2 i (hmem.2 hi) a2 (by simp)
  obtain ⟨es3, n3, r3, p3, k3, g3, -, t3, d3⟩ := phase_run (env := env) (H := H) (st := fun i => stG (input i) 0 (fun _ => MRound.init [] []) (S2 i) .wait) (st' := fun i => stG (input i) 0 (fun _ => MRound.init [] []) (S3 i) .wait)
    (evs := fun _ => List.replicate (2 * env.F + 1) (.recv c (.finish 0 w (full a2))) ++ [.elect 0]) (ms := fun i => [] ++ [.done 0 (env.sign i (.done 0))]) (sg := fun _ => [] ++ [.done 0]) H.toList n2 hnd (fun i hi => by
      refine ⟨hmem.1 hi, by rw [p2, if_pos hi], (go_finish _ _ _ _ hc (ok.cert_full _) rfl rfl _).trans (go_elect _ _ _ _ (by simp [MRound.finished]) rfl), noRepeat_corrupt (fun e he s m e' => ?_), fun s m hm => ?_⟩
      · subst e'
        simp only [List.mem_append, List.mem_replicate, List.mem_singleton, reduceCtorEq, or_false, MEvent.recv.injEq] at he
        rw [he.2.1]
        exact hcH
      · simp only [List.mem_append, List.mem_replicate, List.mem_singleton, reduceCtorEq, or_false, MEvent.recv.injEq] at hm
        obtain ⟨-, rfl, rfl⟩ := hm
        refine ⟨fun b hb => ?_, fun hs => absurd hs hcH⟩
        simp only [MMsg.sigs, List.mem_singleton] at hb
        rw [hb]
        exact ok.genuine_full qa2)
  set ks := H.toList.take (2 * env.F + 1) with hks
  have hksH : ∀ k ∈ ks, k ∈ H := fun k hk => hmem.1 (List.mem_of_mem_take hk)
  have hkl : ks.length = 2 * env.F + 1 := by
    rw [hks, List.length_take, Finset.length_toList]
    have := hcm.faults
    omega
  have hknd : ks.Nodup := hnd.sublist (List.take_sublist _ _)
  have hlog : ∀ a s m, (a, s, m) ∈ n3.delivered → s ∉ H := by
    intro a s m hd
    rcases d3 _ hd with hd | ⟨i, -, hd⟩
    · rcases d2 _ hd with hd | ⟨i, -, hd⟩
      · rcases d1 _ hd with hd | ⟨i, -, hd⟩
        · simp [MNet.init] at hd
        · simp only [List.cons_append, List.nil_append, List.flatMap_cons, List.flatMap_nil, List.append_nil, logDelivery, List.mem_cons, List.not_mem_nil, or_false, Prod.mk.injEq] at hd
          rcases hd with ⟨-, rfl, -⟩ | ⟨-, rfl, -⟩ <;> exact hcH
      · simp only [List.cons_append, List.nil_append, List.flatMap_cons, List.flatMap_nil, List.append_nil, logDelivery, List.mem_cons, List.not_mem_nil, or_false, Prod.mk.injEq] at hd
        rcases hd with ⟨-, rfl, -⟩ | ⟨-, rfl, -⟩ <;> exact hcH
    · obtain ⟨e, he, hd⟩ := List.mem_flatMap.1 hd
      rcases List.mem_append.1 he with he | he
      · rw [List.eq_of_mem_replicate he] at hd
        simp only [logDelivery, List.mem_singleton, Prod.mk.injEq] at hd
        rw [hd.2.1]; exact hcH
      · rw [List.mem_singleton.1 he] at hd
        simp [logDelivery] at hd
  set eA : List (ℕ × Bytes) := ks.map fun k => (k, env.sign k (.done 0)) with heA
  set eB : List (ℕ × Bytes) := List.replicate (2 * env.F + 1) (c, env.sign c (.done 0)) with heB
  have lA : (eA.map Prod.snd) = ks.map fun k => env.sign k (.done 0) := by rw [heA, List.map_map]; rfl
  have lB : (eB.map Prod.snd) = List.replicate (2 * env.F + 1) (env.sign c (.done 0)) := by rw [heB, List.map_replicate]
  have recA : env.recover (.done 0) (eA.map Prod.snd) = some (full (.done 0)) := by
    rw [lA]
    exact ok.recover_full (.done 0) _ ks (by rw [List.map_map]; exact List.map_congr_left fun a ha => ok.share_sign a (hcm.sub a (hksH a ha)) _) hknd (by omega)
  have leadA : ∀ i, ((S3 i).tossed env 0 (eA.map Prod.snd)).leader = some l := by
    intro i
    show (if _ then _ else _) = _
    rw [if_pos (by rw [List.length_map, heA, List.length_map]; omega), recA, Option.getD_some, h1]
  have leadB : ∀ i, ((S3 i).tossed env 0 (eB.map Prod.snd)).leader = some c := by
    intro i
    show (if _ then _ else _) = _
    rw [if_pos (by rw [List.length_map, heB, List.length_replicate]; omega), lB, hrec, Option.getD_none, h0]
  have runA : ∀ i, LRun env i (stG (input i) 0 (fun _ => MRound.init [] []) (S3 i) .wait) ((eA.map fun p => .recv p.1 (.done 0 p.2)) ++ [.recv c (.halt 0 v (full b2)), .takeHalt]) ([] ++ []) ([] ++ [])
      (stG (input i) 0 (fun _ => MRound.init [] []) { (S3 i).tossed env 0 (eA.map Prod.snd) with haltDone := true } (.decided 0 v)) := fun i =>
    (go_coins _ _ _ _ rfl rfl eA (fun p hp => by
      obtain ⟨k, hk, rfl⟩ := List.mem_map.1 hp
      rw [ok.share_sign k (hcm.sub k (hksH k hk))]; rfl) (by rw [heA, List.length_map]; omega)).trans (go_halt _ _ _ _ (leadA i) rfl (ok.cert_full _) c)
  have runB : ∀ i, LRun env i (stG (input i) 0 (fun _ => MRound.init [] []) (S3 i) .wait) ((eB.map fun p => .recv p.1 (.done 0 p.2)) ++ [.recv c (.halt 0 w (full a2)), .takeHalt]) ([] ++ []) ([] ++ [])
      (stG (input i) 0 (fun _ => MRound.init [] []) { (S3 i).tossed env 0 (eB.map Prod.snd) with haltDone := true } (.decided 0 w)) := fun i =>
    (go_coins _ _ _ _ rfl rfl eB (fun p hp => by
      rw [(List.mem_replicate.1 hp).2, ok.share_sign c hc]; rfl) (by rw [heB, List.length_replicate])).trans (go_halt _ _ _ _ (leadB i) rfl (ok.cert_full _) c)
  have qb2 : Quorum env H n3.signed b2 := quorum_all hcm fun i hi => k3 _ (g2 i (hmem.2 hi) b2 (by simp))
  have qa2' : Quorum env H n3.signed a2 := quorum_all hcm fun i hi => k3 _ (g2 i (hmem.2 hi) a2 (by simp))
  obtain ⟨es4, n4, r4, p4, k4, -, -, -, -⟩ := phase_run (env := env) (H := H) (st := fun i => stG (input i) 0 (fun _ => MRound.init [] []) (S3 i) .wait)
    (st' := fun i => if i ∈ A then stG (input i) 0 (fun _ => MRound.init [] []) { (S3 i).tossed env 0 (eA.map Prod.snd) with haltDone := true } (.decided 0 v)
      else stG (input i) 0 (fun _ => MRound.init [] []) { (S3 i).tossed env 0 (eB.map Prod.snd) with haltDone := true } (.decided 0 w))
    (evs := fun i => if i ∈ A then (eA.map fun p => .recv p.1 (.done 0 p.2)) ++ [.recv c (.halt 0 v (full b2)), .takeHalt]
      else (eB.map fun p => .recv p.1 (.done 0 p.2)) ++ [.recv c (.halt 0 w (full a2)), .takeHalt]) (ms := fun _ => [] ++ []) (sg := fun _ => [] ++ []) H.toList n3 hnd (fun i hi => by
      refine ⟨hmem.1 hi, by rw [p3, if_pos hi], ?_⟩
      by_cases hiA : i ∈ A
      · simp only [if_pos hiA]
        refine ⟨runA i, ?_, fun s m hm => ?_⟩
        · refine List.pairwise_append.2 ⟨?_, ?_, ?_⟩
          · rw [List.pairwise_map, heA, List.pairwise_map]
            refine hknd.imp fun hne s m _ e e' => ?_
            simp only [MEvent.recv.injEq] at e'
            exact hne e'.1.symm
          · exact noRepeat_corrupt fun e he s m e' => by subst e'; simp at he; rw [he.1]; exact hcH
          · intro a ha b hb s m hs e e'
            rw [e] at e'
            subst e'
            simp at hb
            exact hcH (hb.1 ▸ hs)
        · rcases List.mem_append.1 hm with hm | hm
          · obtain ⟨p, hp, e⟩ := List.mem_map.1 hm
            obtain ⟨k, hk, rfl⟩ := List.mem_map.1 hp
            simp only [MEvent.recv.injEq] at e
            obtain ⟨rfl, rfl⟩ := e
            refine ⟨fun b hb => ?_, fun hs => ⟨t3 k (hmem.2 hs) _ (by simp), fun hd => hlog _ _ _ hd hs⟩⟩
            simp only [MMsg.sigs, List.mem_singleton] at hb
            rw [hb]
            exact ok.genuine_sign (g3 k (List.mem_of_mem_take hk) _ (by simp))
          · simp only [List.mem_cons, MEvent.recv.injEq, reduceCtorEq, List.not_mem_nil, or_false] at hm
            obtain ⟨rfl, rfl⟩ := hm
            refine ⟨fun b hb => ?_, fun hs => absurd hs hcH⟩
            simp only [MMsg.sigs, List.mem_singleton] at hb
            rw [hb]
            exact ok.genuine_full qb2
      · simp only [if_neg hiA]
        have hfrom : ∀ s m, MEvent.recv s m ∈ (eB.map fun p => MEvent.recv p.1 (.done 0 p.2)) ++ [.recv c (.halt 0 w (full a2)), .takeHalt] → s = c ∧ (m = .done 0 (env.sign c (.done 0)) ∨ m = .halt 0 w (full a2)) := by
          intro s m hm
          rcases List.mem_append.1 hm with hm | hm
          · obtain ⟨p, hp, e⟩ := List.mem_map.1 hm
            rw [(List.mem_replicate.1 hp).2] at e
            simp only [MEvent.recv.injEq] at e
            exact ⟨e.1.symm, Or.inl e.2.symm⟩
          · simp only [List.mem_cons, MEvent.recv.injEq, reduceCtorEq, List.not_mem_nil, or_false] at hm
            exact ⟨hm.1, Or.inr hm.2⟩
        refine ⟨runB i, noRepeat_corrupt fun e he s m e' => by rw [(hfrom s m (e' ▸ he)).1]; exact hcH, fun s m hm => ?_⟩
        obtain ⟨rfl, rfl | rfl⟩ := hfrom s m hm
        all_goals
          refine ⟨fun b hb => ?_, fun hs => absurd hs hcH⟩
          simp only [MMsg.sigs, List.mem_singleton] at hb
          rw [hb]
        · exact ok.genuine_corrupt hcH _
        · exact ok.genuine_full qa2')
  refine ⟨_, n4, ((r1.append r2).append r3).append r4, fun i hi hiA => ?_, fun i hi hiA => ?_, fun i hi => ⟨k4 _ (k3 _ (k2 _ (g1 i (hmem.2 hi) b1 (by simp)))), k4 _ (k3 _ (g2 i (hmem.2 hi) b2 (by simp)))⟩⟩
  · have e := p4 i
    rw [if_pos (hmem.2 hi), if_pos hiA] at e
    constructor
    · show (n4.party i).phase = _
      rw [e]; rfl
    · rw [e]; exact leadA i
  · have e := p4 i
    rw [if_pos (hmem.2 hi), if_neg hiA] at e
    constructor
    · show (n4.party i).phase = _
      rw [e]; rfl
    · rw [e]; exact leadB i

/-- A share repeated `2F+1` times. -/
theorem Toy.recoverN_repeated {N F : ℕ} (hF : 1 ≤ F) (full : SMsg → Bytes) (m : SMsg) (b : Bytes) : Toy.recoverN N F full m (List.replicate (2 * F + 1) b) = none := by
  unfold Toy.recoverN
  simp only
  rw [if_neg]
  rintro ⟨-, -, h⟩
  rw [List.take_replicate, Nat.min_self, List.map_replicate, List.nodup_replicate] at h
  omega

/-- All parties but party 0. -/
theorem Toy.committeeN {F : ℕ} (hF : 1 ≤ F) (c : UInt8 × UInt8 × UInt8) : Committee (Toy.envN (3 * F + 1) F c) (Finset.Ico 1 (3 * F + 1)) :=
  ⟨rfl, fun i hi => (Finset.mem_Ico.1 hi).2, by show 2 * F + 1 ≤ _; rw [Nat.card_Ico]; omega⟩

/-- **C38 is refuted**, for every committee size `3F+1`, with a single corrupt party (party 0), for all proposals of the others, any two byte strings and any set of parties: there is an execution in which
the honest parties of the set decide the one and all others the other, in the first round. -/
theorem C38_refuted_every_size (F : ℕ) (hF : 1 ≤ F) : ∃ (env : MEnv) (full : SMsg → Bytes) (H : Finset ℕ), env.F = F ∧ env.N = 3 * F + 1 ∧ SchemeOk env full ∧ Committee env H ∧
    (∀ i, i ∈ H ↔ 1 ≤ i ∧ i < env.N) ∧ (∀ a b, env.hash a = env.hash b → a = b) ∧ ∀ (input : ℕ → Bytes × Bytes) (v w : Bytes) (A : Finset ℕ),
      ∃ evs net, MRun env H ⟨true, true⟩ (MNet.init H input env.N) evs net ∧ ∀ i ∈ H, Decides net i 0 (if i ∈ A then v else w) := by
  refine ⟨Toy.envN (3 * F + 1) F (0, 0, 1), Toy.fullN (0, 0, 1), Finset.Ico 1 (3 * F + 1), rfl, rfl, (Toy.idealN _ _ _).toSchemeOk, Toy.committeeN hF _, fun i => Finset.mem_Ico, fun _ _ h => h, fun input v w A => ?_⟩
  obtain ⟨evs, net, h1, h2, h3, -⟩ := C38_any_split (c := 0) (Toy.idealN _ _ _) (Toy.committeeN hF (0, 0, 1)) (Nat.succ_pos _) (by simp) (by
      show (bytesToUint32 []).toNat % (3 * F + 1) = 0
      have : bytesToUint32 [] = 0 := by decide
      rw [this]
      exact Nat.zero_mod _) rfl (by
      show (bytesToUint32 (Toy.fullN (0, 0, 1) (.done 0))).toNat % (3 * F + 1) ≠ 0
      have : bytesToUint32 (Toy.fullN (0, 0, 1) (.done 0)) = 1 := by decide
      rw [this]
      show 1 % (3 * F + 1) ≠ 0
      rw [Nat.mod_eq_of_lt (by omega)]
      exact one_ne_zero) (Toy.recoverN_repeated hF _ _ _) input v w A
  refine ⟨evs, net, h1, fun i hi => ?_⟩
  split
  · rename_i hA; exact (h2 i hi hA).1
  · rename_i hA; exact (h3 i hi hA).1

/-- Ten parties, party 0 is corrupt: whatever was proposed, parties 1 to 5 decide `[7]` and parties 6 to 9 decide `[8]`. -/
example (input : ℕ → Bytes × Bytes) : ∃ (env : MEnv) (full : SMsg → Bytes) (H : Finset ℕ) (evs : List (ℕ × MEvent)) (net : MNet), env.N = 10 ∧ env.F = 3 ∧ SchemeOk env full ∧ Committee env H ∧
    MRun env H ⟨true, true⟩ (MNet.init H input env.N) evs net ∧ (∀ i ∈ Finset.Icc 1 5, Decides net i 0 [7]) ∧ ∀ i ∈ Finset.Icc 6 9, Decides net i 0 [8] := by
  obtain ⟨env, full, H, hF, hN, h1, h2, h3, -, h4⟩ := C38_refuted_every_size 3 (by norm_num)
  obtain ⟨evs, net, h5, h6⟩ := h4 input [7] [8] (Finset.Icc 1 5)
  refine ⟨env, full, H, evs, net, hN, hF, h1, h2, h5, fun i hi => ?_, fun i hi => ?_⟩
  · have hb := Finset.mem_Icc.1 hi
    have := h6 i ((h3 i).2 (by omega))
    rwa [if_pos hi] at this
  · have hb := Finset.mem_Icc.1 hi
    have := h6 i ((h3 i).2 (by omega))
    rwa [if_neg (by simp; omega)] at this

/-- **C63 is refuted**, for every committee size: one corrupt party gives the honest parties of any set the leader of the coin and all others itself. -/
theorem C63_refuted_every_size (F : ℕ) (hF : 1 ≤ F) : ∃ (env : MEnv) (full : SMsg → Bytes) (H : Finset ℕ), env.F = F ∧ env.N = 3 * F + 1 ∧ SchemeOk env full ∧ Committee env H ∧
    (∀ i, i ∈ H ↔ 1 ≤ i ∧ i < env.N) ∧ ∀ (input : ℕ → Bytes × Bytes) (A : Finset ℕ), ∃ evs net, MRun env H ⟨true, true⟩ (MNet.init H input env.N) evs net ∧
      ∀ i ∈ H, ((net.party i).rounds 0).leader = some (if i ∈ A then 1 else 0) := by
  refine ⟨Toy.envN (3 * F + 1) F (0, 0, 1), Toy.fullN (0, 0, 1), Finset.Ico 1 (3 * F + 1), rfl, rfl, (Toy.idealN _ _ _).toSchemeOk, Toy.committeeN hF _, fun i => Finset.mem_Ico, fun input A => ?_⟩
  obtain ⟨evs, net, h1, h2, h3, -⟩ := C38_any_split (c := 0) (l := 1) (Toy.idealN _ _ _) (Toy.committeeN hF (0, 0, 1)) (Nat.succ_pos _) (by simp) (by
      show (bytesToUint32 []).toNat % (3 * F + 1) = 0
      have : bytesToUint32 [] = 0 := by decide
      rw [this]
      exact Nat.zero_mod _) (by
      show (bytesToUint32 (Toy.fullN (0, 0, 1) (.done 0))).toNat % (3 * F + 1) = 1
      have : bytesToUint32 (Toy.fullN (0, 0, 1) (.done 0)) = 1 := by decide
      rw [this]
      show 1 % (3 * F + 1) = 1
      exact Nat.mod_eq_of_lt (by omega)) one_ne_zero (Toy.recoverN_repeated hF _ _ _) input [] [] A
  refine ⟨evs, net, h1, fun i hi => ?_⟩
  split
  · rename_i hA; exact (h2 i hi hA).2
  · rename_i hA; exact (h3 i hi hA).2

/-- Seven parties: parties 1 and 2 follow leader 1, parties 3 to 6 the corrupt party 0. -/
example (input : ℕ → Bytes × Bytes) : ∃ (env : MEnv) (H : Finset ℕ) (evs : List (ℕ × MEvent)) (net : MNet), env.N = 7 ∧ env.F = 2 ∧ MRun env H ⟨true, true⟩ (MNet.init H input env.N) evs net ∧
    ((net.party 2).rounds 0).leader = some 1 ∧ ((net.party 6).rounds 0).leader = some 0 := by
  obtain ⟨env, full, H, hF, hN, -, -, h3, h4⟩ := C63_refuted_every_size 2 (by norm_num)
  obtain ⟨evs, net, h5, h6⟩ := h4 input {1, 2}
  exact ⟨env, H, evs, net, hN, hF, h5, by simpa using h6 2 ((h3 2).2 (by omega)), by simpa using h6 6 ((h3 6).2 (by omega))⟩

/-- **C64 (refuted), every size.** A corrupt party can have any byte string certified in both stages of the broadcast of any party, whatever that party proposes. -/
theorem C64_any_value {env : MEnv} {full : SMsg → Bytes} (ok : IdealScheme env full) {H : Finset ℕ} (hcm : Committee env H) {c j : ℕ} (hcH : c ∉ H) (hj : j < env.N) (input : ℕ → Bytes × Bytes) (v : Bytes) :
    ∃ evs net, MRun env H ⟨true, true⟩ (MNet.init H input env.N) evs net ∧ ∀ stage, stage = 1 ∨ stage = 2 → Genuine env H net.signed (full (.echo 0 j stage (env.hash v))) ∧
      env.cert (.echo 0 j stage (env.hash v)) (full (.echo 0 j stage (env.hash v))) = true := by
  have hnd : H.toList.Nodup := H.nodup_toList
  have hmem : ∀ {i}, i ∈ H.toList ↔ i ∈ H := Finset.mem_toList
  set b1 := SMsg.echo 0 j 1 (env.hash v) with hb1
  set b2 := SMsg.echo 0 j 2 (env.hash v) with hb2
  set S0 : ℕ → MRound := fun i => MRound.init (input i).1 (input i).2 with hS0
  obtain ⟨es1, n1, r1, p1, -, g1, -, -, -⟩ := phase_run (env := env) (H := H) (st := fun i => stG (input i) 0 (fun _ => MRound.init [] []) (S0 i) .wait) (st' := fun i => stG (input i) 0 (fun _ => MRound.init [] []) ((S0 i).took j) .wait)
    (evs := fun _ => [.recv c (.value 0 j 1 v [])]) (ms := fun i => [.echo 0 j 1 (env.sign i b1)]) (sg := fun _ => [b1])
    H.toList (MNet.init H input env.N) hnd (fun i hi => by
      refine ⟨hmem.1 hi, stG_init i (input i), go_first _ _ _ _ hj rfl c v [], noRepeat_corrupt (by simp [hcH]), fun s m hm => ?_⟩
      simp only [List.mem_singleton, MEvent.recv.injEq] at hm
      obtain ⟨rfl, rfl⟩ := hm
      refine ⟨fun b hb => ?_, fun hs => absurd hs hcH⟩
      simp only [MMsg.sigs, List.mem_singleton] at hb
      rw [hb]
      exact ok.genuine_empty H _)
  have qb1 : Quorum env H n1.signed b1 := quorum_all hcm fun i hi => g1 i (hmem.2 hi) b1 (by simp)
  obtain ⟨es2, n2, r2, p2, k2, g2, -, -, -⟩ := phase_run (env := env) (H := H) (st := fun i => stG (input i) 0 (fun _ => MRound.init [] []) ((S0 i).took j) .wait) (st' := fun i => stG (input i) 0 (fun _ => MRound.init [] []) (((S0 i).took j).locked j (v, full b1)) .wait)
    (evs := fun _ => [.recv c (.value 0 j 2 v (full b1))]) (ms := fun i => [.echo 0 j 2 (env.sign i b2)]) (sg := fun _ => [b2])
    H.toList n1 hnd (fun i hi => by
      refine ⟨hmem.1 hi, by rw [p1, if_pos hi], go_second _ _ _ _ hj (by simp [MRound.took]) c (ok.cert_full _), noRepeat_corrupt (by simp [hcH]), fun s m hm => ?_⟩
      simp only [List.mem_singleton, MEvent.recv.injEq] at hm
      obtain ⟨rfl, rfl⟩ := hm
      refine ⟨fun b hb => ?_, fun hs => absurd hs hcH⟩
      simp only [MMsg.sigs, List.mem_singleton] at hb
      rw [hb]
      exact ok.genuine_full qb1)
  refine ⟨_, n2, r1.append r2, ?_⟩
  rintro stage (rfl | rfl)
  · exact ⟨ok.genuine_full (quorum_all hcm fun i hi => k2 _ (g1 i (hmem.2 hi) b1 (by simp))), ok.cert_full _⟩
  · exact ⟨ok.genuine_full (quorum_all hcm fun i hi => g2 i (hmem.2 hi) b2 (by simp)), ok.cert_full _⟩

/-- Ten parties: the corrupt party 0 has `[9]` certified in the broadcast of party 4, which proposes something else. -/
example (input : ℕ → Bytes × Bytes) (h : (input 4).1 ≠ [9]) : ∃ (env : MEnv) (full : SMsg → Bytes) (H : Finset ℕ) (evs : List (ℕ × MEvent)) (net : MNet), env.N = 10 ∧ 4 ∈ H ∧
    MRun env H ⟨true, true⟩ (MNet.init H input env.N) evs net ∧ [9] ≠ (input 4).1 ∧ Genuine env H net.signed (full (.echo 0 4 2 (env.hash [9]))) := by
  obtain ⟨evs, net, h1, h2⟩ := C64_any_value (c := 0) (j := 4) (Toy.idealN _ _ _) (Toy.committeeN (F := 3) (by norm_num) (0, 0, 0)) (by simp) (show 4 < 10 by norm_num) input [9]
  exact ⟨_, _, _, evs, net, rfl, by decide, h1, h.symm, (h2 2 (Or.inr rfl)).1⟩

/-- **C62 (refuted), every size.** `Recover` fails on `2F+1` copies of the share of the corrupt party `c`. By repeating its share `c` makes any honest party `j` send everybody its proposal in the second stage without a
certificate, and every honest party that takes this message ends. -/
theorem C62_any_sender {env : MEnv} {full : SMsg → Bytes} (ok : IdealScheme env full) {H : Finset ℕ} (hcm : Committee env H) {c j : ℕ} (hc : c < env.N) (hcH : c ∉ H) (hj : j ∈ H)
    (hrec : ∀ m, env.recover m (List.replicate (2 * env.F + 1) (env.sign c m)) = none) (input : ℕ → Bytes × Bytes) :
    ∃ evs net, MRun env H ⟨true, true⟩ (MNet.init H input env.N) evs net ∧ (j, MMsg.value 0 j 2 (input j).1 []) ∈ net.sent ∧ env.cert (.echo 0 j 1 (env.hash (input j).1)) [] = false ∧
      ∀ i ∈ H, (net.party i).dead = true := by
  have hnd : H.toList.Nodup := H.nodup_toList
  have hmem : ∀ {i}, i ∈ H.toList ↔ i ∈ H := Finset.mem_toList
  have hjN := hcm.sub j hj
  set v := (input j).1 with hv
  set b1 := SMsg.echo 0 j 1 (env.hash v) with hb1
  set S0 : ℕ → MRound := fun i => MRound.init (input i).1 (input i).2 with hS0
  set S1 : ℕ → MRound := fun i => if i = j then { S0 i with send := .second [] } else S0 i with hS1
  have hr1 : ∀ i j', (S1 i).recv j' = .first := fun i j' => by
    rw [hS1]; dsimp only; split <;> rfl
  obtain ⟨es1, n1, r1, p1, -, -, k1, t1, d1⟩ := phase_run (env := env) (H := H) (st := fun i => stG (input i) 0 (fun _ => MRound.init [] []) (S0 i) .wait) (st' := fun i => stG (input i) 0 (fun _ => MRound.init [] []) (S1 i) .wait)
    (evs := fun _ => List.replicate (2 * env.F + 1) (.recv c (.echo 0 j 1 (env.sign c b1)))) (ms := fun _ => [.value 0 j 2 v []]) (sg := fun _ => [])
    [j] (MNet.init H input env.N) (List.nodup_singleton _) (fun i hi => by
      obtain rfl := List.mem_singleton.1 hi
      have hrun := go_echoes_all (env := env) (i := i) (input i) 0 (fun _ => MRound.init [] []) (S0 i) rfl (sh := env.sign c b1) (by
        show (env.share b1 (env.sign c b1)).isSome = true
        rw [ok.share_sign c hc]; rfl) c
      have e : (env.recover (.echo 0 i 1 (env.hash (S0 i).prop.1)) (List.replicate (2 * env.F + 1) (env.sign c b1))).getD [] = [] := by
        show (env.recover b1 _).getD [] = []
        rw [hrec]; rfl
      rw [e] at hrun
      have e1 : S1 i = { S0 i with send := .second [] } := by rw [hS1]; exact if_pos rfl
      rw [e1]
      refine ⟨hj, stG_init i (input i), hrun, noRepeat_corrupt (fun e he s m e' => by subst e'; simp at he; rw [he.1]; exact hcH), fun s m hm => ?_⟩
      simp only [List.mem_replicate, MEvent.recv.injEq] at hm
      obtain ⟨-, rfl, rfl⟩ := hm
      refine ⟨fun b hb => ?_, fun hs => absurd hs hcH⟩
      simp only [MMsg.sigs, List.mem_singleton] at hb
      rw [hb]
      exact ok.genuine_corrupt hcH _)
  have hsent : (j, MMsg.value 0 j 2 v []) ∈ n1.sent := t1 j (by simp) _ (by simp)
  obtain ⟨es2, n2, r2, p2, -, -, k2, -, -⟩ := phase_run (env := env) (H := H) (st := fun i => stG (input i) 0 (fun _ => MRound.init [] []) (S1 i) .wait) (st' := fun i => { stG (input i) 0 (fun _ => MRound.init [] []) ((S1 i).took j) .wait with dead := true })
    (evs := fun _ => [.recv c (.value 0 j 1 v [])] ++ [.recv j (.value 0 j 2 v [])]) (ms := fun i => [.echo 0 j 1 (env.sign i b1)] ++ []) (sg := fun _ => [b1] ++ [])
    H.toList n1 hnd (fun i hi => by
      refine ⟨hmem.1 hi, ?_, (go_first _ _ _ _ hjN (hr1 i j) c v []).trans (go_dead _ _ _ _ hjN (by simp [MRound.took]) j (ok.empty _).2), ?_, fun s m hm => ?_⟩
      · rw [p1]
        by_cases hij : i = j
        · rw [if_pos (by simp [hij])]
        · rw [if_neg (by simp [hij]), hS1]
          dsimp only
          rw [if_neg hij]
          exact stG_init i (input i)
      · simp only [NoRepeat, List.cons_append, List.nil_append, List.pairwise_cons, List.mem_singleton, forall_eq, List.not_mem_nil, false_imp_iff, implies_true, List.Pairwise.nil, and_true]
        intro s m hs e
        simp only [MEvent.recv.injEq] at e
        exact absurd (e.1 ▸ hs) hcH
      · simp only [List.mem_append, List.mem_singleton, MEvent.recv.injEq] at hm
        rcases hm with ⟨rfl, rfl⟩ | ⟨rfl, rfl⟩
        all_goals
          refine ⟨fun b hb => ?_, fun hs => ?_⟩
          · simp only [MMsg.sigs, List.mem_singleton] at hb
            rw [hb]
            exact ok.genuine_empty H _
        · exact absurd hs hcH
        · refine ⟨hsent, fun hd => ?_⟩
          rcases d1 _ hd with hd | ⟨a, -, hd⟩
          · simp [MNet.init] at hd
          · obtain ⟨e, he, hd⟩ := List.mem_flatMap.1 hd
            rw [List.eq_of_mem_replicate he] at hd
            simp [logDelivery] at hd)
  refine ⟨_, n2, r1.append r2, k2 _ hsent, (ok.empty _).2, fun i hi => ?_⟩
  rw [p2, if_pos (hmem.2 hi)]

/-- Ten parties: the corrupt party 0 makes party 3 send a Value without a certificate, and all nine honest parties end. -/
example (input : ℕ → Bytes × Bytes) : ∃ (env : MEnv) (H : Finset ℕ) (evs : List (ℕ × MEvent)) (net : MNet), env.N = 10 ∧ H = Finset.Ico 1 10 ∧ MRun env H ⟨true, true⟩ (MNet.init H input env.N) evs net ∧
    (3, MMsg.value 0 3 2 (input 3).1 []) ∈ net.sent ∧ ∀ i ∈ H, (net.party i).dead = true := by
  obtain ⟨evs, net, h1, h2, -, h3⟩ := C62_any_sender (c := 0) (j := 3) (Toy.idealN _ _ _) (Toy.committeeN (F := 3) (by norm_num) (0, 0, 0)) (show 0 < 10 by norm_num) (by simp) (by decide)
    (fun m => Toy.recoverN_repeated (by norm_num) _ _ _) input
  exact ⟨_, _, evs, net, rfl, rfl, h1, h2, h3⟩

end DyCAPS
