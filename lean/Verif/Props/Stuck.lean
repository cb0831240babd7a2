import Verif.Lemmas.MVBAStuck
import Verif.Props.SplitLate

/-!
# C83 in committees of every size
-/

namespace DyCAPS

section
variable {env : MEnv} {full : SMsg → Bytes}

/-- **C83 is refuted, for every split of the votes.** No party is corrupt; the coin of round 0 is `c`. For every party `p` (the only one that has the leader's value) and every set `Y` of at least `F+1` and at most
`2F` parties there is a finished execution, with every message delivered, in which the parties in `Y` vote Yes, the others No, and nobody returns. -/
theorem C83_any_split (ok : IdealScheme env full) (hN : env.N = 3 * env.F + 1) (hF : 1 ≤ env.F) {c : ℕ} (hc : leaderOf env (full (.done 0)) = c) {p : ℕ} (hp : p < env.N) {Y : Finset ℕ}
    (hY : Y ⊆ Finset.range env.N) (hY1 : env.F + 1 ≤ Y.card) (hY2 : Y.card ≤ 2 * env.F) (v : ℕ → Bytes) :
    ∃ evs net, MRun env (Finset.range env.N) ⟨true, true⟩ (MNet.init (Finset.range env.N) (fun i => (v i, [])) env.N) evs net ∧ (∀ i q m, (i, MEvent.recv q m) ∈ evs → q < env.N) ∧
      MSettled env net ∧ (∀ i < env.N, ¬ ∃ r w, Decides net i r w) ∧ votersOf env.N net.sent 0 true = Y := by
  have hcN : c < env.N := by
    rw [← hc]
    exact Nat.mod_lt _ (by omega)
  let n₀ := MNet.init (Finset.range env.N) (fun i => (v i, [])) env.N
  let h := fun j => env.hash (v j)
  let e1 := fun j => full (.echo 0 j 1 (h j))
  let e2 := fun j => full (.echo 0 j 2 (h j))
  let all := List.range env.N
  let ks := List.range (2 * env.F + 1)
  let x := fun i => ((v i, []) : Bytes × Bytes)
  let old := fun _ : ℕ => MRound.init [] []
  have hks : ∀ k ∈ ks, k < env.N := fun k hk => by
    have := List.mem_range.1 hk
    omega
  have hks' : ks.Nodup := List.nodup_range
  have hksl : ks.length = 2 * env.F + 1 := List.length_range
  have hsh : ∀ m, ∀ q ∈ ks.map fun k => (k, env.sign k m), (env.share m q.2).isSome = true := by
    intro m q hq
    obtain ⟨k, hk, rfl⟩ := List.mem_map.1 hq
    rw [ok.share_sign k (hks k hk) m]
    rfl
  have hrec : ∀ m, (env.recover m ((ks.map fun k => (k, env.sign k m)).map Prod.snd)).getD [] = full m := by
    intro m
    rw [List.map_map, show (Prod.snd ∘ fun k => (k, env.sign k m)) = fun k => env.sign k m from rfl, recover_signs ok.toSchemeOk m hks' hksl.ge hks]
    rfl
  have hallc : 2 * env.F + 1 ≤ (Finset.range env.N).card := by
    rw [Finset.card_range]
    omega
  -- the start
  have S0 : Stage env (Finset.range env.N) (Finset.range env.N) n₀ 2 n₀ := ⟨subset_rfl, ⟨[], .nil, by simp⟩, by
    rintro ⟨i, m⟩ hm
    simp only [n₀, MNet.init, List.mem_flatMap, MState.init, startRound, List.map_cons, List.map_nil, List.mem_singleton, Prod.mk.injEq] at hm
    obtain ⟨_, _, _, rfl⟩ := hm
    exact le_rfl, by simp [n₀, MNet.init], by
    rintro i _ s _ m hm _ h6
    simp only [n₀, MNet.init, List.mem_flatMap, MState.init, startRound, List.map_cons, List.map_nil, List.mem_singleton, Prod.mk.injEq] at hm
    obtain ⟨_, _, _, rfl⟩ := hm
    simp [MMsg.order] at h6⟩
  -- first Values
  obtain ⟨n1, S1, p1, -, g1, s1, -⟩ := S0.next (st := fun i => stG (x i) 0 old (MRound.init (v i) []) .wait) (fun _ => all) (fun _ j => .value 0 j 1 (v j) [])
    (fun i _ => stG_init i (x i))
    (fun i _ => ⟨[], by simp, by
      rw [List.append_nil]
      exact go_firsts (x i) 0 old v all _ List.nodup_range fun j hj => ⟨List.mem_range.1 hj, rfl⟩⟩)
    (fun i _ => ⟨List.nodup_range, fun s hs => ⟨List.mem_range.1 hs, rfl, by
      simp only [MMsg.sigs, List.mem_singleton, forall_eq]
      exact ok.genuine_empty _ _, by
      simp only [n₀, MNet.init, List.mem_flatMap, List.mem_filter, decide_eq_true_eq, MState.init, startRound, List.map_cons, List.map_nil, List.mem_singleton, Finset.mem_range]
      exact ⟨s, ⟨hs, List.mem_range.1 hs⟩, rfl⟩⟩⟩)
    (fun i _ m hm => by
      obtain ⟨j, _, rfl⟩ := List.mem_map.1 hm
      rfl)
    (by simp)
  have hg1 : ∀ i < env.N, ∀ j < env.N, (i, SMsg.echo 0 j 1 (h j)) ∈ n1.signed := fun i hi j hj => g1 i hi _ (List.mem_map_of_mem (List.mem_range.2 hj))
  -- first Echoes
  obtain ⟨n2, S2, p2, u2, -, s2, -⟩ := S1.next (fun _ => ks) (fun i k => .echo 0 i 1 (env.sign k (.echo 0 i 1 (h i)))) p1
    (ms := fun i => [.value 0 i 2 (v i) (e1 i)]) (sg := fun _ => [])
    (st' := fun i => stG (x i) 0 old { (MRound.init (v i) []).tookL all with send := .second [] } .wait)
    (fun i _ => ⟨[], by simp, by
      rw [List.append_nil]
      have := go_echo1 (x i) 0 old ((MRound.init (v i) []).tookL all) (i := i) (env := env) rfl (ks.map fun k => (k, env.sign k (.echo 0 i 1 (h i)))) (hsh _) (by rw [List.length_map, hksl])
      rw [show ((MRound.init (v i) []).tookL all).prop.1 = v i from rfl, hrec, List.map_map] at this
      exact this⟩)
    (fun i hi => ⟨hks', fun s hs => ⟨hks s hs, rfl, by
      simp only [MMsg.sigs, List.mem_singleton, forall_eq]
      exact ok.genuine_sign (hg1 s (hks s hs) i hi), (s1 s _ rfl).2 ⟨hks s hs, List.mem_map_of_mem (f := fun j => MMsg.echo 0 j 1 (env.sign s (.echo 0 j 1 (h j)))) (List.mem_range.2 hi)⟩⟩⟩)
    (fun i _ m hm => by
      obtain rfl := List.mem_singleton.1 hm
      rfl)
    (by simp)
  -- second Values: only `p` gets the leader's
  let js := fun i => all.filter fun j => decide (j ≠ c ∨ i = p)
  have hjs : ∀ i j, j ∈ js i ↔ j < env.N ∧ (j ≠ c ∨ i = p) := fun i j => by simp [js, all]
  obtain ⟨n3, S3, p3, u3, g3, s3, -⟩ := S2.next js (fun _ j => .value 0 j 2 (v j) (e1 j)) p2
    (ms := fun i => (js i).map fun j => .echo 0 j 2 (env.sign i (.echo 0 j 2 (h j)))) (sg := fun i => (js i).map fun j => .echo 0 j 2 (h j))
    (st' := fun i => stG (x i) 0 old ({ (MRound.init (v i) []).tookL all with send := .second [] }.lockedL (js i) fun j => (v j, e1 j)) .wait)
    (fun i _ => ⟨[], by simp, by
      rw [List.append_nil]
      exact go_seconds (x i) 0 old (js i) _ (List.nodup_range.filter _) fun j hj => ⟨((hjs i j).1 hj).1, if_pos (List.mem_range.2 ((hjs i j).1 hj).1), ok.cert_full _⟩⟩)
    (fun i _ => ⟨List.nodup_range.filter _, fun s hs => ⟨((hjs i s).1 hs).1, rfl, by
      simp only [MMsg.sigs, List.mem_singleton, forall_eq]
      exact ok.genuine_full (quorum_of _ hallc fun k hk => ⟨Finset.mem_range.1 hk, u2 _ (hg1 k (Finset.mem_range.1 hk) s ((hjs i s).1 hs).1)⟩), (s2 s _ rfl).2 ⟨((hjs i s).1 hs).1, by simp⟩⟩⟩)
    (fun i _ m hm => by
      obtain ⟨j, _, rfl⟩ := List.mem_map.1 hm
      rfl)
    (by simp)
  have hg3 : ∀ i < env.N, ∀ j < env.N, j ≠ c → (i, SMsg.echo 0 j 2 (h j)) ∈ n3.signed := fun i hi j hj hjc =>
    g3 i hi _ (List.mem_map_of_mem (f := fun j => SMsg.echo 0 j 2 (h j)) ((hjs i j).2 ⟨hj, Or.inl hjc⟩))
  -- second Echoes: not for the leader
  let A3 := fun i => { (MRound.init (v i) []).tookL all with send := .second [] }.lockedL (js i) fun j => (v j, e1 j)
  obtain ⟨n4, S4, p4, u4, -, s4, -⟩ := S3.next (fun i => if i = c then [] else ks) (fun i k => .echo 0 i 2 (env.sign k (.echo 0 i 2 (h i)))) p3
    (ms := fun i => if i = c then [] else [.finish 0 (v i) (e2 i)]) (sg := fun _ => [])
    (st' := fun i => stG (x i) 0 old { A3 i with send := if i = c then .second [] else .ended } .wait)
    (fun i _ => ⟨[], by simp, by
      rw [List.append_nil]
      by_cases hi : i = c
      · simp only [if_pos hi]
        exact .nil _
      · simp only [if_neg hi]
        have := go_echo2 (x i) 0 old (A3 i) (i := i) (env := env) rfl (ks.map fun k => (k, env.sign k (.echo 0 i 2 (h i)))) (hsh _) (by rw [List.length_map, hksl])
        rw [show (A3 i).prop.1 = v i from rfl, hrec, List.map_map] at this
        exact this⟩)
    (fun i hi => by
      by_cases hic : i = c
      · simp [if_pos hic]
      · simp only [if_neg hic]
        exact ⟨hks', fun s hs => ⟨hks s hs, rfl, by
          simp only [MMsg.sigs, List.mem_singleton, forall_eq]
          exact ok.genuine_sign (hg3 s (hks s hs) i hi hic), (s3 s _ rfl).2 ⟨hks s hs, List.mem_map_of_mem (f := fun j => MMsg.echo 0 j 2 (env.sign s (.echo 0 j 2 (h j)))) ((hjs s i).2 ⟨hi, Or.inl hic⟩)⟩⟩⟩)
    (fun i _ m hm => by
      by_cases hic : i = c
      · simp [if_pos hic] at hm
      · simp only [if_neg hic, List.mem_singleton] at hm
        rw [hm]
        rfl)
    (by simp)
  -- Finish messages
  let fs := all.filter fun j => decide (j ≠ c)
  have hfs : ∀ j, j ∈ fs ↔ j < env.N ∧ j ≠ c := fun j => by simp [fs, all]
  have hfsl : 2 * env.F + 1 ≤ fs.length := by
    have : fs.length = env.N - 1 := by
      rw [← List.toFinset_card_of_nodup (List.nodup_range.filter _), show fs.toFinset = (Finset.range env.N).erase c from by ext j; simp [hfs, and_comm], Finset.card_erase_of_mem (Finset.mem_range.2 hcN), Finset.card_range]
    omega
  let A4 := fun i => { A3 i with send := if i = c then .second [] else .ended }
  obtain ⟨n5, S5, p5, u5, g5, s5, -⟩ := S4.next (fun _ => fs) (fun _ j => .finish 0 (v j) (e2 j)) p4
    (ms := fun i => [.done 0 (env.sign i (.done 0))]) (sg := fun _ => [.done 0])
    (st' := fun i => stG (x i) 0 old { (A4 i).finL env.F fs (fun j => (v j, e2 j)) with elected := true } .wait)
    (fun i _ => ⟨[.elect 0], by simp, (go_finishes (x i) 0 old (A4 i) rfl rfl fs fun j hj => ⟨((hfs j).1 hj).1, ok.cert_full _⟩).trans (go_elect (x i) 0 old _ (decide_eq_true hfsl) rfl)⟩)
    (fun i _ => ⟨List.nodup_range.filter _, fun s hs => ⟨((hfs s).1 hs).1, rfl, by
      simp only [MMsg.sigs, List.mem_singleton, forall_eq]
      exact ok.genuine_full (quorum_of _ hallc fun k hk => ⟨Finset.mem_range.1 hk, u4 _ (hg3 k (Finset.mem_range.1 hk) s ((hfs s).1 hs).1 ((hfs s).1 hs).2)⟩),
      (s4 s _ rfl).2 ⟨((hfs s).1 hs).1, by simp [((hfs s).1 hs).2]⟩⟩⟩)
    (fun i _ m hm => by
      obtain rfl := List.mem_singleton.1 hm
      rfl)
    (fun _ i _ s _ m hm hk => by
      obtain ⟨a, b⟩ := (s4 s m hk).1 hm
      by_cases hsc : s = c
      · simp [if_pos hsc] at b
      · simp only [if_neg hsc, List.mem_singleton] at b
        exact ⟨(hfs s).2 ⟨a, hsc⟩, b⟩)
  -- the coin
  let A5 := fun i => { (A4 i).finL env.F fs (fun j => (v j, e2 j)) with elected := true }
  let A6 := fun i => ((A5 i).tossed env 0 (ks.map fun k => env.sign k (.done 0))).joined env.N
  obtain ⟨n6, S6, p6, u6, g6, s6, -⟩ := S5.next (fun _ => ks) (fun _ k => .done 0 (env.sign k (.done 0))) p5
    (ms := fun i => [if i = p then .prevote 0 true (v c) (e1 c) else .prevote 0 false [] (env.sign i (.no 0))]) (sg := fun i => if i = p then [] else [.no 0])
    (st' := fun i => stG (x i) 0 old (A6 i) (.result c))
    (fun i _ => by
      have h1 := go_coins (x i) 0 old (A5 i) (i := i) (env := env) rfl rfl (ks.map fun k => (k, env.sign k (.done 0))) (hsh _) (by rw [List.length_map, hksl])
      have hl : ((A5 i).tossed env 0 ((ks.map fun k => (k, env.sign k (.done 0))).map Prod.snd)).leader = some c := by
        show (if _ then _ else _) = _
        rw [if_pos (by rw [List.length_map, List.length_map, hksl]; omega), hrec, hc]
      obtain ⟨ints, h2, h3⟩ := go_joins (x i) 0 old ((A5 i).tossed env 0 ((ks.map fun k => (k, env.sign k (.done 0))).map Prod.snd)) (i := i) (env := env) (l := c) hl
        (by
          show (if c ∈ fs then _ else _) = _
          rw [if_neg fun h => ((hfs c).1 h).2 rfl]
          rfl)
        (pv := if i = p then .prevote 0 true (v c) (e1 c) else .prevote 0 false [] (env.sign i (.no 0))) (sg := if i = p then [] else [.no 0])
        (by
          have hk : ((A5 i).tossed env 0 ((ks.map fun k => (k, env.sign k (.done 0))).map Prod.snd)).lock c = if i = p then some (v c, e1 c) else none := by
            show (if c ∈ js i then some (v c, e1 c) else none) = _
            by_cases hip : i = p
            · rw [if_pos ((hjs i c).2 ⟨hcN, Or.inr hip⟩), if_pos hip]
            · rw [if_neg fun h => ((hjs i c).1 h).2.elim (fun h => h rfl) hip, if_neg hip]
          rw [hk]
          by_cases hip : i = p
          · simp only [if_pos hip]
            exact Or.inr ⟨_, rfl, by simp, by simp⟩
          · simp only [if_neg hip]
            exact Or.inl (by simp))
      refine ⟨ints, h2, ?_⟩
      have := h1.trans h3
      simp only [List.map_map, List.nil_append] at this
      exact this)
    (fun i _ => ⟨hks', fun s hs => ⟨hks s hs, rfl, by
      simp only [MMsg.sigs, List.mem_singleton, forall_eq]
      exact ok.genuine_sign (g5 s (hks s hs) _ (by simp)), (s5 s _ rfl).2 ⟨hks s hs, by simp⟩⟩⟩)
    (fun i _ m hm => by
      obtain rfl := List.mem_singleton.1 hm
      split <;> rfl)
    (by simp)
  have hlead : ∀ i, (A6 i).leader = some c := fun i => by
    show (if _ then _ else _) = _
    have := hrec (.done 0)
    rw [List.map_map] at this
    rw [if_pos (by rw [List.length_map, hksl]; omega), show (fun k => env.sign k (.done 0)) = (Prod.snd ∘ fun k => (k, env.sign k (.done 0))) from rfl, this, hc]
  -- PreVotes
  let ns := all.filter fun j => decide (j ≠ p)
  have hns : ∀ j, j ∈ ns ↔ j < env.N ∧ j ≠ p := fun j => by simp [ns, all]
  have hnsd : ns.Nodup := List.nodup_range.filter _
  have hnsl : 2 * env.F + 1 ≤ ns.length := by
    have : ns.length = env.N - 1 := by
      rw [← List.toFinset_card_of_nodup hnsd, show ns.toFinset = (Finset.range env.N).erase p from by ext j; simp [hns, and_comm], Finset.card_erase_of_mem (Finset.mem_range.2 hp), Finset.card_range]
    omega
  let pm := fun s => if s = p then MMsg.prevote 0 true (v c) (e1 c) else .prevote 0 false [] (env.sign s (.no 0))
  have hpm : (ns.map fun s => MEvent.recv s (pm s)) = (ns.map fun s => (s, env.sign s (.no 0))).map fun q => MEvent.recv q.1 (.prevote 0 false [] q.2) := by
    rw [List.map_map]
    exact List.map_congr_left fun s hs => by simp [pm, ((hns s).1 hs).2]
  have hnsh : ∀ q ∈ ns.map fun s => (s, env.sign s (.no 0)), (env.share (.no 0) q.2).isSome = true := by
    intro q hq
    obtain ⟨k, hk, rfl⟩ := List.mem_map.1 hq
    rw [ok.share_sign k ((hns k).1 hk).1]
    rfl
  let vm := fun i => if i ∈ Y then MMsg.vote 0 true (v c) (e1 c) (env.sign i (.echo 0 c 2 (h c))) else .vote 0 false [] (full (.no 0)) (env.sign i (.unlock 0))
  have hrun7 : ∀ i, ∃ pn pv, LRun env i (stG (x i) 0 old (A6 i) (.result c)) ((if i ∈ Y then p :: ns else ns ++ [p]).map (fun s => .recv s (pm s)) ++ [.sendVote 0]) [vm i]
      (if i ∈ Y then [.echo 0 c 2 (h c)] else [.unlock 0]) (stG (x i) 0 old { A6 i with PNr := pn, pvOut := pv, voted := true } (.result c)) := by
    intro i
    by_cases hi : i ∈ Y
    · simp only [vm, if_pos hi]
      have a := go_preYes (x i) 0 old (A6 i) (i := i) (hlead i) (ok.cert_full (.echo 0 c 1 (env.hash (v c)))) p c
      have b := go_preNos (x i) 0 old { A6 i with pvOut := (A6 i).pvOut.or (some (.yes (v c) (e1 c))) } (i := i) (hlead i) rfl _ hnsh c
      have d := go_sendYes (x i) 0 old ({ A6 i with pvOut := (A6 i).pvOut.or (some (.yes (v c) (e1 c))) }.preNos env 0 ((ns.map fun s => (s, env.sign s (.no 0))).map Prod.snd)) (i := i) (env := env) (hlead i) rfl rfl
        (v := v c) (sig := e1 c) rfl c
      have := a.trans (b.trans d)
      rw [← hpm] at this
      refine ⟨(ns.map fun s => (s, env.sign s (.no 0))).map Prod.snd, ({ A6 i with pvOut := (A6 i).pvOut.or (some (.yes (v c) (e1 c))) }.preNos env 0 ((ns.map fun s => (s, env.sign s (.no 0))).map Prod.snd)).pvOut, ?_⟩
      rw [List.map_cons, show pm p = .prevote 0 true (v c) (e1 c) from if_pos rfl]
      exact this
    · simp only [vm, if_neg hi]
      have b := go_preNos (x i) 0 old (A6 i) (i := i) (hlead i) rfl _ hnsh c
      have a := go_preYes (x i) 0 old ((A6 i).preNos env 0 ((ns.map fun s => (s, env.sign s (.no 0))).map Prod.snd)) (i := i) (hlead i) (ok.cert_full (.echo 0 c 1 (env.hash (v c)))) p c
      have hr : (env.recover (.no 0) (((ns.map fun s => (s, env.sign s (.no 0))).map Prod.snd).take (2 * env.F + 1))).getD [] = full (.no 0) := by
        rw [List.map_map, ← List.map_take, show (Prod.snd ∘ fun s => (s, env.sign s (.no 0))) = fun s => env.sign s (.no 0) from rfl,
          recover_signs ok.toSchemeOk (.no 0) (hnsd.sublist (List.take_sublist _ _)) (by rw [List.length_take]; omega) fun k hk => ((hns k).1 (List.mem_of_mem_take hk)).1]
        rfl
      have hpv : ((A6 i).preNos env 0 ((ns.map fun s => (s, env.sign s (.no 0))).map Prod.snd)).pvOut = some (.no (full (.no 0))) := by
        show Option.or none (if _ then _ else _) = _
        rw [if_pos (by rw [List.length_map, List.length_map]; omega), hr]
        rfl
      have d := go_sendNo (x i) 0 old { (A6 i).preNos env 0 ((ns.map fun s => (s, env.sign s (.no 0))).map Prod.snd) with
          pvOut := ((A6 i).preNos env 0 ((ns.map fun s => (s, env.sign s (.no 0))).map Prod.snd)).pvOut.or (some (.yes (v c) (e1 c))) } (i := i) (env := env) (hlead i) rfl rfl (sig := full (.no 0)) (by
        show Option.or _ _ = _
        rw [hpv]
        rfl) c
      have := (b.trans a).trans d
      rw [← hpm] at this
      refine ⟨(ns.map fun s => (s, env.sign s (.no 0))).map Prod.snd, ((A6 i).preNos env 0 ((ns.map fun s => (s, env.sign s (.no 0))).map Prod.snd)).pvOut.or (some (.yes (v c) (e1 c))), ?_⟩
      rw [List.map_append, List.map_singleton, show pm p = .prevote 0 true (v c) (e1 c) from if_pos rfl]
      exact this
  choose pn pv hrun7 using hrun7
  have hmem7 : ∀ i s, s ∈ (if i ∈ Y then p :: ns else ns ++ [p]) ↔ s < env.N := by
    intro i s
    by_cases hs : s = p
    · subst hs
      split <;> simp [hp]
    · split <;> simp [hns, hs]
  have hqc : ∀ signed, (∀ x ∈ n1.signed, x ∈ signed) → Genuine env (Finset.range env.N) signed (e1 c) := fun signed hs =>
    ok.genuine_full (quorum_of _ hallc fun k hk => ⟨Finset.mem_range.1 hk, hs _ (hg1 k (Finset.mem_range.1 hk) c hcN)⟩)
  have up36 : ∀ x ∈ n1.signed, x ∈ n6.signed := fun x hx => u6 x (u5 x (u4 x (u3 x (u2 x hx))))
  have hno : ∀ s < env.N, s ≠ p → (s, SMsg.no 0) ∈ n6.signed := fun s hs hsp => g6 s hs _ (by simp [hsp])
  obtain ⟨n7, S7, p7, u7, g7, s7, -⟩ := S6.next (fun i => if i ∈ Y then p :: ns else ns ++ [p]) (fun _ s => pm s) p6
    (fun i _ => ⟨[.sendVote 0], by simp, hrun7 i⟩)
    (fun i _ => ⟨by
      split
      · exact List.nodup_cons.2 ⟨fun h => ((hns p).1 h).2 rfl, hnsd⟩
      · exact List.nodup_append.2 ⟨hnsd, by simp, fun a ha b hb => by
          rw [List.mem_singleton.1 hb]
          exact ((hns a).1 ha).2⟩, fun s hs => ⟨(hmem7 i s).1 hs, by
      simp only [pm]
      split <;> rfl, by
      by_cases hsp : s = p
      · simp only [pm, if_pos hsp, MMsg.sigs, List.mem_singleton, forall_eq]
        exact hqc _ up36
      · simp only [pm, if_neg hsp, MMsg.sigs, List.mem_singleton, forall_eq]
        exact ok.genuine_sign (hno s ((hmem7 i s).1 hs) hsp), (s6 s _ (by simp only [pm]; split <;> rfl)).2 ⟨(hmem7 i s).1 hs, by simp [pm]⟩⟩⟩)
    (fun i _ m hm => by
      obtain rfl := List.mem_singleton.1 hm
      simp only [vm]
      split <;> rfl)
    (fun _ i _ s _ m hm hk => by
      obtain ⟨a, b⟩ := (s6 s m hk).1 hm
      exact ⟨(hmem7 i s).2 a, List.mem_singleton.1 b⟩)
  -- votes
  let ys := all.filter fun j => decide (j ∈ Y)
  let zs := all.filter fun j => decide (j ∉ Y)
  have hys : ∀ j, j ∈ ys ↔ j < env.N ∧ j ∈ Y := fun j => by simp [ys, all]
  have hzs : ∀ j, j ∈ zs ↔ j < env.N ∧ j ∉ Y := fun j => by simp [zs, all]
  have hysl : ys.length = Y.card := by
    rw [← List.toFinset_card_of_nodup (List.nodup_range.filter _), show ys.toFinset = Y from by
      ext j
      simp only [List.mem_toFinset, hys, and_iff_right_iff_imp]
      exact fun hj => Finset.mem_range.1 (hY hj)]
  have hzsl : zs.length ≤ 2 * env.F := by
    rw [← List.toFinset_card_of_nodup (List.nodup_range.filter _), show zs.toFinset = Finset.range env.N \ Y from by ext j; simp [hzs], Finset.card_sdiff_of_subset hY, Finset.card_range]
    omega
  have hyv : (ys.map fun s => MEvent.recv s (vm s)) = (ys.map fun s => (s, env.sign s (.echo 0 c 2 (h c)))).map fun q => MEvent.recv q.1 (.vote 0 true (v c) (e1 c) q.2) := by
    rw [List.map_map]
    exact List.map_congr_left fun s hs => by simp [vm, ((hys s).1 hs).2]
  have hzv : (zs.map fun s => MEvent.recv s (vm s)) = (zs.map fun s => (s, env.sign s (.unlock 0))).map fun q => MEvent.recv q.1 (.vote 0 false [] (full (.no 0)) q.2) := by
    rw [List.map_map]
    exact List.map_congr_left fun s hs => by simp [vm, ((hzs s).1 hs).2]
  let A7 := fun i => { A6 i with PNr := pn i, pvOut := pv i, voted := true }
  let A8 := fun i => { A7 i with VYr := (ys.map fun s => (s, env.sign s (.echo 0 c 2 (h c)))).map Prod.snd, VNr := (zs.map fun s => (s, env.sign s (.unlock 0))).map Prod.snd }
  obtain ⟨n8, S8, p8, -, -, -, t8⟩ := S7.next (fun _ => ys ++ zs) (fun _ s => vm s) p7 (ms := fun _ => []) (sg := fun _ => []) (st' := fun i => stG (x i) 0 old (A8 i) (.result c))
    (fun i _ => ⟨[], by simp, by
      have a := go_yeses (x i) 0 old (A7 i) (i := i) (env := env) (hlead i) rfl rfl rfl (ok.cert_full (.echo 0 c 1 (env.hash (v c)))) (ys.map fun s => (s, env.sign s (.echo 0 c 2 (h c)))) (fun q hq => by
        obtain ⟨k, hk, rfl⟩ := List.mem_map.1 hq
        rw [ok.share_sign k ((hys k).1 hk).1]
        rfl) (by rw [List.length_map]; omega) c
      have b := go_noes (x i) 0 old { A7 i with VYr := (ys.map fun s => (s, env.sign s (.echo 0 c 2 (h c)))).map Prod.snd } (i := i) (env := env) (hlead i) rfl rfl (ok.cert_full (.no 0))
        (zs.map fun s => (s, env.sign s (.unlock 0))) (fun q hq => by
        obtain ⟨k, hk, rfl⟩ := List.mem_map.1 hq
        rw [ok.share_sign k ((hzs k).1 hk).1]
        rfl) (by rw [List.length_map]; omega) c
      have := a.trans b
      rw [List.append_nil, List.map_append, hyv, hzv]
      exact this⟩)
    (fun i _ => ⟨List.nodup_append.2 ⟨List.nodup_range.filter _, List.nodup_range.filter _, fun a ha b hb e => ((hzs b).1 hb).2 (e ▸ ((hys a).1 ha).2)⟩, fun s hs => by
      have hsN : s < env.N := by
        rcases List.mem_append.1 hs with h | h
        · exact ((hys s).1 h).1
        · exact ((hzs s).1 h).1
      refine ⟨hsN, by simp only [vm]; split <;> rfl, ?_, (s7 s _ (by simp only [vm]; split <;> rfl)).2 ⟨hsN, by simp⟩⟩
      by_cases hsY : s ∈ Y
      · simp only [vm, if_pos hsY, MMsg.sigs, List.mem_cons, List.not_mem_nil, or_false, forall_eq_or_imp, forall_eq]
        exact ⟨hqc _ fun x hx => u7 x (up36 x hx), ok.genuine_sign (g7 s hsN _ (by simp [hsY]))⟩
      · simp only [vm, if_neg hsY, MMsg.sigs, List.mem_cons, List.not_mem_nil, or_false, forall_eq_or_imp, forall_eq]
        refine ⟨ok.genuine_full (quorum_of ns.toFinset (by rw [List.toFinset_card_of_nodup hnsd]; exact hnsl) fun k hk => ?_), ok.genuine_sign (g7 s hsN _ (by simp [hsY]))⟩
        obtain ⟨k1, k2⟩ := (hns k).1 (List.mem_toFinset.1 hk)
        exact ⟨k1, u7 _ (hno k k1 k2)⟩⟩)
    (by simp)
    (fun _ i _ s _ m hm hk => by
      obtain ⟨a, b⟩ := (s7 s m hk).1 hm
      refine ⟨List.mem_append.2 ?_, List.mem_singleton.1 b⟩
      by_cases hsY : s ∈ Y
      · exact Or.inl ((hys s).2 ⟨a, hsY⟩)
      · exact Or.inr ((hzs s).2 ⟨a, hsY⟩))
  -- the end
  obtain ⟨es, hrun, hsrc⟩ := S8.run
  have hd : ∀ i < env.N, ¬ ∃ r w, Decides n8 i r w := by
    rintro i hi ⟨r, w, hw⟩
    rw [Decides, p8 i hi] at hw
    cases hw
  refine ⟨es, n8, hrun, hsrc, ⟨fun i hi _ => ?_, fun i hi _ s hs m hm => ?_⟩, hd, ?_⟩
  · rw [p8 i hi]
    exact stuck_internal (x i) old (A8 i) (fun j hj => if_pos hj) rfl rfl rfl rfl c
  · by_cases h6 : m.order = 6 ∨ m.order = 8 ∨ m.order = 9
    · exact Or.inl (S8.all i (Finset.mem_range.2 hi) s (Finset.mem_range.2 hs) m hm (by omega) h6)
    · rw [p8 i hi]
      exact Or.inr (stuck_recv (x i) old (A8 i) (fun j hj => if_pos hj) rfl (hlead i) c s m h6)
  · have hvm : ∀ k m, m.order = 9 → ((k, m) ∈ n8.sent ↔ k < env.N ∧ m = vm k) := by
      intro k m hk
      rw [t8]
      simp only [List.not_mem_nil, and_false, or_false]
      rw [s7 k m hk, List.mem_singleton]
    ext k
    rw [votersOf, Finset.mem_filter, Finset.mem_range]
    constructor
    · rintro ⟨hk, ⟨k', m⟩, hm, rfl, hv⟩
      cases m with
      | vote r y w sig sh =>
        by_contra hkY
        have := ((hvm _ _ rfl).1 hm).2
        simp only [vm, if_neg hkY] at this
        rw [this] at hv
        simp [MMsg.isVote] at hv
      | _ => simp [MMsg.isVote] at hv
    · intro hk
      refine ⟨Finset.mem_range.1 (hY hk), (k, vm k), (hvm _ _ (by simp only [vm, if_pos hk]; rfl)).2 ⟨Finset.mem_range.1 (hY hk), rfl⟩, rfl, ?_⟩
      simp [vm, if_pos hk, MMsg.isVote]

end

/-- **C83 is refuted in committees of every size.** `3F+1` parties, none faulty, every message delivered, whatever the proposals: the execution has come to its end and no party has returned. -/
theorem C83_refuted_every_size {F : ℕ} (hF : 1 ≤ F) : ∃ (env : MEnv) (full : SMsg → Bytes), env.F = F ∧ env.N = 3 * F + 1 ∧ SchemeOk env full ∧ Function.Injective env.hash ∧ ∀ v : ℕ → Bytes, ∃ evs net,
    MRun env (Finset.range env.N) ⟨true, true⟩ (MNet.init (Finset.range env.N) (fun i => (v i, [])) env.N) evs net ∧ (∀ i q m, (i, MEvent.recv q m) ∈ evs → q < env.N) ∧ MSettled env net ∧
      ∀ i < env.N, ¬ ∃ r w, Decides net i r w := by
  refine ⟨Toy.envN (3 * F + 1) F (0, 0, 0), Toy.fullN (0, 0, 0), rfl, rfl, (Toy.idealN _ _ _).toSchemeOk, fun _ _ h => h, fun v => ?_⟩
  obtain ⟨evs, net, h1, h2, h3, h4, -⟩ := C83_any_split (Toy.idealN (3 * F + 1) F (0, 0, 0)) rfl hF (Toy.leaderN_zero _ _ 0) (p := 0) (Nat.succ_pos _) (Y := Finset.range (F + 1))
    (Finset.range_subset_range.2 (by show F + 1 ≤ 3 * F + 1; omega)) (Finset.card_range _).ge (by rw [Finset.card_range]; show F + 1 ≤ 2 * F; omega) v
  exact ⟨evs, net, h1, h2, h3, h4⟩

/-- Seven parties with different proposals; parties 4, 5 and 6 vote Yes. -/
example : ∃ evs net, MRun (Toy.envN 7 2 (0, 0, 0)) (Finset.range 7) ⟨true, true⟩ (MNet.init (Finset.range 7) (fun i => ([UInt8.ofNat i], [])) 7) evs net ∧ MSettled (Toy.envN 7 2 (0, 0, 0)) net ∧
    (∀ i < 7, ¬ ∃ r w, Decides net i r w) ∧ votersOf 7 net.sent 0 true = {4, 5, 6} := by
  obtain ⟨evs, net, h1, -, h3, h4, h5⟩ := C83_any_split (Toy.idealN 7 2 (0, 0, 0)) rfl (by decide) (Toy.leaderN_zero _ _ 0) (p := 3) (by decide) (Y := {4, 5, 6}) (by decide) (by decide) (by decide)
    fun i => [UInt8.ofNat i]
  exact ⟨evs, net, h1, h3, h4, h5⟩

end DyCAPS
