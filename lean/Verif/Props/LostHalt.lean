import Verif.Props.Stuck

/-!
# C115 in committees of every size
-/

namespace DyCAPS

section
variable {env : MEnv} {full : SMsg → Bytes}

/-- **C115 is refuted, for every choice of the parties that stop.** No party is corrupt; the coin of round 0 is `c`. `A` are `2F+1` other parties, `d` is one of them. The leader stops while it sends its Halt, and only
`d` gets it; the other parties outside `A` stop after the coin. Every message between the parties in `A` is delivered, nobody votes No, `d` returns and the `2F` others in `A` wait for ever. -/
theorem C115_any_stop (ok : IdealScheme env full) (hN : env.N = 3 * env.F + 1) (hF : 1 ≤ env.F) {c : ℕ} (hc : leaderOf env (full (.done 0)) = c) {A : Finset ℕ} (hA : A ⊆ Finset.range env.N) (hcA : c ∉ A)
    (hAc : A.card = 2 * env.F + 1) {d : ℕ} (hd : d ∈ A) (v : ℕ → Bytes) :
    ∃ evs net, MRun env (Finset.range env.N) ⟨true, true⟩ (MNet.init (Finset.range env.N) (fun i => (v i, [])) env.N) evs net ∧ (∀ i q m, (i, MEvent.recv q m) ∈ evs → q < env.N) ∧
      MSettledOn env A A net ∧ (∀ r, ¬ SplitVote env.N env.F net.sent r) ∧ Decides net d 0 (v c) ∧ ∀ i ∈ A, i ≠ d → ¬ ∃ r w, Decides net i r w := by
  have hcN : c < env.N := by
    rw [← hc]
    exact Nat.mod_lt _ (by omega)
  have hAN : ∀ i ∈ A, i < env.N := fun i hi => Finset.mem_range.1 (hA hi)
  let n₀ := MNet.init (Finset.range env.N) (fun i => (v i, [])) env.N
  let h := fun j => env.hash (v j)
  let e1 := fun j => full (.echo 0 j 1 (h j))
  let e2 := fun j => full (.echo 0 j 2 (h j))
  let all := List.range env.N
  let ks := List.range (2 * env.F + 1)
  let x := fun i => ((v i, []) : Bytes × Bytes)
  let old := fun _ : ℕ => MRound.init [] []
  have hks : ∀ k ∈ ks, k < env.N := fun k hk => by
    have := List.mem_range.1 hk
    omega
  have hks' : ks.Nodup := List.nodup_range
  have hksl : ks.length = 2 * env.F + 1 := List.length_range
  have hsh : ∀ m, ∀ q ∈ ks.map fun k => (k, env.sign k m), (env.share m q.2).isSome = true := by
    intro m q hq
    obtain ⟨k, hk, rfl⟩ := List.mem_map.1 hq
    rw [ok.share_sign k (hks k hk) m]
    rfl
  have hrec : ∀ m, (env.recover m ((ks.map fun k => (k, env.sign k m)).map Prod.snd)).getD [] = full m := by
    intro m
    rw [List.map_map, show (Prod.snd ∘ fun k => (k, env.sign k m)) = fun k => env.sign k m from rfl, recover_signs ok.toSchemeOk m hks' hksl.ge hks]
    rfl
  have hallc : 2 * env.F + 1 ≤ (Finset.range env.N).card := by
    rw [Finset.card_range]
    omega
  let B := A.erase d
  have hB : ∀ i, i ∈ B ↔ i ≠ d ∧ i ∈ A := fun i => Finset.mem_erase
  have hdc : d ≠ c := fun e => hcA (e ▸ hd)
  -- the start
  have S0 : Stage env B A n₀ 2 n₀ := ⟨(Finset.erase_subset _ _).trans hA, ⟨[], .nil, by simp⟩, by
    rintro ⟨i, m⟩ hm
    simp only [n₀, MNet.init, List.mem_flatMap, MState.init, startRound, List.map_cons, List.map_nil, List.mem_singleton, Prod.mk.injEq] at hm
    obtain ⟨_, _, _, rfl⟩ := hm
    exact le_rfl, by simp [n₀, MNet.init], by
    rintro i _ s _ m hm _ h6
    simp only [n₀, MNet.init, List.mem_flatMap, MState.init, startRound, List.map_cons, List.map_nil, List.mem_singleton, Prod.mk.injEq] at hm
    obtain ⟨_, _, _, rfl⟩ := hm
    simp [MMsg.order] at h6⟩
  -- first Values
  obtain ⟨n1, S1, p1, -, g1, s1, -⟩ := S0.next (st := fun i => stG (x i) 0 old (MRound.init (v i) []) .wait) (fun _ => all) (fun _ j => .value 0 j 1 (v j) [])
    (fun i _ => stG_init i (x i))
    (fun i _ => ⟨[], by simp, by
      rw [List.append_nil]
      exact go_firsts (x i) 0 old v all _ List.nodup_range fun j hj => ⟨List.mem_range.1 hj, rfl⟩⟩)
    (fun i _ => ⟨List.nodup_range, fun s hs => ⟨List.mem_range.1 hs, rfl, by
      simp only [MMsg.sigs, List.mem_singleton, forall_eq]
      exact ok.genuine_empty _ _, by
      simp only [n₀, MNet.init, List.mem_flatMap, List.mem_filter, decide_eq_true_eq, MState.init, startRound, List.map_cons, List.map_nil, List.mem_singleton, Finset.mem_range]
      exact ⟨s, ⟨hs, List.mem_range.1 hs⟩, rfl⟩⟩⟩)
    (fun i _ m hm => by
      obtain ⟨j, _, rfl⟩ := List.mem_map.1 hm
      rfl)
    (by simp)
  have hg1 : ∀ i < env.N, ∀ j < env.N, (i, SMsg.echo 0 j 1 (h j)) ∈ n1.signed := fun i hi j hj => g1 i hi _ (List.mem_map_of_mem (List.mem_range.2 hj))
  -- first Echoes
  obtain ⟨n2, S2, p2, u2, -, s2, -⟩ := S1.next (fun _ => ks) (fun i k => .echo 0 i 1 (env.sign k (.echo 0 i 1 (h i)))) p1
    (ms := fun i => [.value 0 i 2 (v i) (e1 i)]) (sg := fun _ => [])
    (st' := fun i => stG (x i) 0 old { (MRound.init (v i) []).tookL all with send := .second [] } .wait)
    (fun i _ => ⟨[], by simp, by
      rw [List.append_nil]
      have := go_echo1 (x i) 0 old ((MRound.init (v i) []).tookL all) (i := i) (env := env) rfl (ks.map fun k => (k, env.sign k (.echo 0 i 1 (h i)))) (hsh _) (by rw [List.length_map, hksl])
      rw [show ((MRound.init (v i) []).tookL all).prop.1 = v i from rfl, hrec, List.map_map] at this
      exact this⟩)
    (fun i hi => ⟨hks', fun s hs => ⟨hks s hs, rfl, by
      simp only [MMsg.sigs, List.mem_singleton, forall_eq]
      exact ok.genuine_sign (hg1 s (hks s hs) i hi), (s1 s _ rfl).2 ⟨hks s hs, List.mem_map_of_mem (f := fun j => MMsg.echo 0 j 1 (env.sign s (.echo 0 j 1 (h j)))) (List.mem_range.2 hi)⟩⟩⟩)
    (fun i _ m hm => by
      obtain rfl := List.mem_singleton.1 hm
      rfl)
    (by simp)
  -- second Values
  obtain ⟨n3, S3, p3, u3, g3, s3, -⟩ := S2.next (fun _ => all) (fun _ j => .value 0 j 2 (v j) (e1 j)) p2
    (ms := fun i => all.map fun j => .echo 0 j 2 (env.sign i (.echo 0 j 2 (h j)))) (sg := fun i => all.map fun j => .echo 0 j 2 (h j))
    (st' := fun i => stG (x i) 0 old ({ (MRound.init (v i) []).tookL all with send := .second [] }.lockedL all fun j => (v j, e1 j)) .wait)
    (fun i _ => ⟨[], by simp, by
      rw [List.append_nil]
      exact go_seconds (x i) 0 old all _ List.nodup_range fun j hj => ⟨List.mem_range.1 hj, if_pos hj, ok.cert_full _⟩⟩)
    (fun i _ => ⟨List.nodup_range, fun s hs => ⟨List.mem_range.1 hs, rfl, by
      simp only [MMsg.sigs, List.mem_singleton, forall_eq]
      exact ok.genuine_full (quorum_of _ hallc fun k hk => ⟨Finset.mem_range.1 hk, u2 _ (hg1 k (Finset.mem_range.1 hk) s (List.mem_range.1 hs))⟩), (s2 s _ rfl).2 ⟨List.mem_range.1 hs, by simp⟩⟩⟩)
    (fun i _ m hm => by
      obtain ⟨j, _, rfl⟩ := List.mem_map.1 hm
      rfl)
    (by simp)
  have hg3 : ∀ i < env.N, ∀ j < env.N, (i, SMsg.echo 0 j 2 (h j)) ∈ n3.signed := fun i hi j hj => g3 i hi _ (List.mem_map_of_mem (f := fun j => SMsg.echo 0 j 2 (h j)) (List.mem_range.2 hj))
  -- second Echoes
  let A3 := fun i => { (MRound.init (v i) []).tookL all with send := .second [] }.lockedL all fun j => (v j, e1 j)
  obtain ⟨n4, S4, p4, u4, -, s4, -⟩ := S3.next (fun _ => ks) (fun i k => .echo 0 i 2 (env.sign k (.echo 0 i 2 (h i)))) p3
    (ms := fun i => [.finish 0 (v i) (e2 i)]) (sg := fun _ => [])
    (st' := fun i => stG (x i) 0 old { A3 i with send := .ended } .wait)
    (fun i _ => ⟨[], by simp, by
      rw [List.append_nil]
      have := go_echo2 (x i) 0 old (A3 i) (i := i) (env := env) rfl (ks.map fun k => (k, env.sign k (.echo 0 i 2 (h i)))) (hsh _) (by rw [List.length_map, hksl])
      rw [show (A3 i).prop.1 = v i from rfl, hrec, List.map_map] at this
      exact this⟩)
    (fun i hi => ⟨hks', fun s hs => ⟨hks s hs, rfl, by
      simp only [MMsg.sigs, List.mem_singleton, forall_eq]
      exact ok.genuine_sign (hg3 s (hks s hs) i hi), (s3 s _ rfl).2 ⟨hks s hs, List.mem_map_of_mem (f := fun j => MMsg.echo 0 j 2 (env.sign s (.echo 0 j 2 (h j)))) (List.mem_range.2 hi)⟩⟩⟩)
    (fun i _ m hm => by
      obtain rfl := List.mem_singleton.1 hm
      rfl)
    (by simp)
  -- Finish messages: only the leader gets its own
  let fs := fun i => all.filter fun j => decide (j ≠ c ∨ i = c)
  have hfs : ∀ i j, j ∈ fs i ↔ j < env.N ∧ (j ≠ c ∨ i = c) := fun i j => by simp [fs, all]
  have hfsl : ∀ i, 2 * env.F + 1 ≤ (fs i).length := by
    intro i
    have : env.N - 1 ≤ (fs i).length := by
      have e : ((Finset.range env.N).erase c).card = env.N - 1 := by rw [Finset.card_erase_of_mem (Finset.mem_range.2 hcN), Finset.card_range]
      rw [← e, ← List.toFinset_card_of_nodup (List.nodup_range.filter _)]
      refine Finset.card_le_card fun j hj => ?_
      rw [Finset.mem_erase, Finset.mem_range] at hj
      exact List.mem_toFinset.2 ((hfs i j).2 ⟨hj.2, Or.inl hj.1⟩)
    omega
  let A4 := fun i => { A3 i with send := .ended }
  obtain ⟨n5, S5, p5, u5, g5, s5, -⟩ := S4.next fs (fun _ j => .finish 0 (v j) (e2 j)) p4
    (ms := fun i => [.done 0 (env.sign i (.done 0))]) (sg := fun _ => [.done 0])
    (st' := fun i => stG (x i) 0 old { (A4 i).finL env.F (fs i) (fun j => (v j, e2 j)) with elected := true } .wait)
    (fun i _ => ⟨[.elect 0], by simp, (go_finishes (x i) 0 old (A4 i) rfl rfl (fs i) fun j hj => ⟨((hfs i j).1 hj).1, ok.cert_full _⟩).trans (go_elect (x i) 0 old _ (decide_eq_true (hfsl i)) rfl)⟩)
    (fun i _ => ⟨List.nodup_range.filter _, fun s hs => ⟨((hfs i s).1 hs).1, rfl, by
      simp only [MMsg.sigs, List.mem_singleton, forall_eq]
      exact ok.genuine_full (quorum_of _ hallc fun k hk => ⟨Finset.mem_range.1 hk, u4 _ (hg3 k (Finset.mem_range.1 hk) s ((hfs i s).1 hs).1)⟩),
      (s4 s _ rfl).2 ⟨((hfs i s).1 hs).1, by simp⟩⟩⟩)
    (fun i _ m hm => by
      obtain rfl := List.mem_singleton.1 hm
      rfl)
    (fun _ i _ s hs m hm hk => by
      obtain ⟨a, b⟩ := (s4 s m hk).1 hm
      exact ⟨(hfs i s).2 ⟨a, Or.inl fun e => hcA (e ▸ hs)⟩, List.mem_singleton.1 b⟩)
  -- the coin; the leader returns, `d` and the parties outside `A` go no further
  let A5 := fun i => { (A4 i).finL env.F (fs i) (fun j => (v j, e2 j)) with elected := true }
  let T := fun i => (A5 i).tossed env 0 (ks.map fun k => env.sign k (.done 0))
  have hlead : ∀ i, (T i).leader = some c := fun i => by
    show (if _ then _ else _) = _
    have := hrec (.done 0)
    rw [List.map_map] at this
    rw [if_pos (by rw [List.length_map, hksl]; omega), show (fun k => env.sign k (.done 0)) = (Prod.snd ∘ fun k => (k, env.sign k (.done 0))) from rfl, this, hc]
  obtain ⟨n6, S6, p6, u6, g6, s6, t6⟩ := S5.next (fun _ => ks) (fun _ k => .done 0 (env.sign k (.done 0))) p5
    (ms := fun i => if i = c then [.halt 0 (v c) (e2 c)] else if i ∈ B then [.prevote 0 true (v c) (e1 c)] else []) (sg := fun _ => [])
    (st' := fun i => if i = c then stG (x i) 0 old { (T i).closed env.N with send := .ended } (.decided 0 (v c)) else if i ∈ B then stG (x i) 0 old ((T i).joined env.N) (.result c)
      else stG (x i) 0 old (T i) .wait)
    (fun i _ => by
      have h1 := go_coins (x i) 0 old (A5 i) (i := i) (env := env) rfl rfl (ks.map fun k => (k, env.sign k (.done 0))) (hsh _) (by rw [List.length_map, hksl])
      rw [List.map_map, List.map_map] at h1
      by_cases hic : i = c
      · simp only [if_pos hic]
        obtain ⟨ints, h2, h3⟩ := go_wins (x i) 0 old (T i) (i := i) (env := env) (hlead i) (y := (v c, e2 c)) (by
          show (if c ∈ fs i then some (v c, e2 c) else _) = _
          rw [if_pos ((hfs i c).2 ⟨hcN, Or.inr hic⟩)])
        exact ⟨ints, h2, h1.trans h3⟩
      · have hf : (T i).fin c = none := by
          show (if c ∈ fs i then _ else _) = _
          rw [if_neg fun h => ((hfs i c).1 h).2.elim (fun h => h rfl) hic]
          rfl
        by_cases hiB : i ∈ B
        · simp only [if_neg hic, if_pos hiB]
          obtain ⟨ints, h2, h3⟩ := go_joins (x i) 0 old (T i) (i := i) (env := env) (hlead i) hf (pv := .prevote 0 true (v c) (e1 c)) (sg := [])
            (Or.inr ⟨(v c, e1 c), if_pos (List.mem_range.2 hcN), rfl, rfl⟩)
          exact ⟨ints, h2, h1.trans h3⟩
        · simp only [if_neg hic, if_neg hiB]
          exact ⟨[], by simp, by rw [List.append_nil]; exact h1⟩)
    (fun i _ => ⟨hks', fun s hs => ⟨hks s hs, rfl, by
      simp only [MMsg.sigs, List.mem_singleton, forall_eq]
      exact ok.genuine_sign (g5 s (hks s hs) _ (by simp)), (s5 s _ rfl).2 ⟨hks s hs, by simp⟩⟩⟩)
    (fun i _ m hm => by
      by_cases hic : i = c
      · simp only [if_pos hic, List.mem_singleton] at hm
        rw [hm]
        rfl
      · by_cases hiB : i ∈ B
        · simp only [if_neg hic, if_pos hiB, List.mem_singleton] at hm
          rw [hm]
          rfl
        · simp [if_neg hic, if_neg hiB] at hm)
    (by simp)
  have hBc : ∀ i ∈ B, i ≠ c := fun i hi e => hcA (e ▸ ((hB i).1 hi).2)
  have hBd : ∀ i ∈ B, i ≠ d := fun i hi => ((hB i).1 hi).1
  have hBN : ∀ i ∈ B, i < env.N := fun i hi => hAN i ((hB i).1 hi).2
  have hdB : d ∉ B := fun h => hBd d h rfl
  -- PreVotes, and the Halt at `d`
  let bs := all.filter fun j => decide (j ∈ B)
  have hbs : ∀ j, j ∈ bs ↔ j ∈ B := fun j => by
    simp only [bs, all, List.mem_filter, List.mem_range, decide_eq_true_eq, and_iff_right_iff_imp]
    exact hBN j
  have hbsd : bs.Nodup := List.nodup_range.filter _
  have hbsl : bs.length = 2 * env.F := by
    rw [← List.toFinset_card_of_nodup hbsd, show bs.toFinset = B from by ext j; simp [hbs], Finset.card_erase_of_mem hd, hAc]
    omega
  have hqc : ∀ signed, (∀ x ∈ n1.signed, x ∈ signed) → Genuine env (Finset.range env.N) signed (e1 c) := fun signed hs =>
    ok.genuine_full (quorum_of _ hallc fun k hk => ⟨Finset.mem_range.1 hk, hs _ (hg1 k (Finset.mem_range.1 hk) c hcN)⟩)
  have up6 : ∀ x ∈ n1.signed, x ∈ n6.signed := fun x hx => u6 x (u5 x (u4 x (u3 x (u2 x hx))))
  let R7 := fun i => { (T i).joined env.N with pvOut := some (.yes (v c) (e1 c)), voted := true }
  obtain ⟨n7, S7, p7, u7, g7, s7, t7⟩ := S6.next (fun i => if i ∈ B then bs else if i = d then [c] else []) (fun i _ => if i = d then .halt 0 (v c) (e2 c) else .prevote 0 true (v c) (e1 c)) p6
    (ms := fun i => if i ∈ B then [.vote 0 true (v c) (e1 c) (env.sign i (.echo 0 c 2 (h c)))] else []) (sg := fun i => if i ∈ B then [.echo 0 c 2 (h c)] else [])
    (st' := fun i => if i = c then stG (x i) 0 old { (T i).closed env.N with send := .ended } (.decided 0 (v c)) else if i ∈ B then stG (x i) 0 old (R7 i) (.result c)
      else if i = d then stG (x i) 0 old { T i with haltDone := true } (.decided 0 (v c)) else stG (x i) 0 old (T i) .wait)
    (fun i _ => by
      by_cases hiB : i ∈ B
      · simp only [if_pos hiB, if_neg (hBc i hiB), if_neg (hBd i hiB)]
        refine ⟨[.sendVote 0], by simp, ?_⟩
        cases hb : bs with
        | nil =>
          rw [hb] at hbsl
          simp only [List.length_nil] at hbsl
          omega
        | cons a bs' =>
          have ha := go_preYes (x i) 0 old ((T i).joined env.N) (i := i) (env := env) (hlead i) (ok.cert_full (.echo 0 c 1 (env.hash (v c)))) a c
          have hb := go_preYeses (x i) 0 old { (T i).joined env.N with pvOut := some (.yes (v c) (e1 c)) } (i := i) (env := env) (hlead i) (ok.cert_full (.echo 0 c 1 (env.hash (v c)))) rfl bs' c
          have hs := go_sendYes (x i) 0 old { (T i).joined env.N with pvOut := some (.yes (v c) (e1 c)) } (i := i) (env := env) (hlead i) rfl rfl rfl c
          exact ha.trans (hb.trans hs)
      · by_cases hid : i = d
        · simp only [if_neg hiB, if_pos hid, if_neg (hid ▸ hdc : i ≠ c)]
          refine ⟨[.takeHalt], by simp, ?_⟩
          exact go_halt (x i) 0 old (T i) (hlead i) rfl (ok.cert_full _) c
        · simp only [if_neg hiB, if_neg hid]
          exact ⟨[], by simp, .nil _⟩)
    (fun i _ => by
      by_cases hiB : i ∈ B
      · simp only [if_pos hiB, if_neg (hBd i hiB)]
        refine ⟨hbsd, fun s hs => ?_⟩
        rw [hbs] at hs
        refine ⟨hBN s hs, rfl, ?_, (s6 s _ rfl).2 ⟨hBN s hs, by simp [hBc s hs, hs]⟩⟩
        simp only [MMsg.sigs, List.mem_singleton, forall_eq]
        exact hqc _ up6
      · by_cases hid : i = d
        · simp only [if_neg hiB, if_pos hid]
          refine ⟨by simp, fun s hs => ?_⟩
          obtain rfl := List.mem_singleton.1 hs
          refine ⟨hcN, rfl, ?_, (s6 s _ rfl).2 ⟨hcN, by simp⟩⟩
          simp only [MMsg.sigs, List.mem_singleton, forall_eq]
          exact ok.genuine_full (quorum_of _ hallc fun k hk => ⟨Finset.mem_range.1 hk, u6 _ (u5 _ (u4 _ (hg3 k (Finset.mem_range.1 hk) s hcN)))⟩)
        · simp only [if_neg hiB, if_neg hid]
          exact ⟨by simp, by simp⟩)
    (fun i _ m hm => by
      by_cases hiB : i ∈ B
      · simp only [if_pos hiB, List.mem_singleton] at hm
        rw [hm]
        rfl
      · simp [if_neg hiB] at hm)
    (fun _ i hi s hs m hm hk => by
      obtain ⟨a, b⟩ := (s6 s m hk).1 hm
      have hsc : s ≠ c := fun e => hcA (e ▸ hs)
      by_cases hsB : s ∈ B
      · simp only [if_neg hsc, if_pos hsB, List.mem_singleton] at b
        simp only [if_pos hi, if_neg (hBd i hi)]
        exact ⟨(hbs s).2 hsB, b⟩
      · simp [if_neg hsc, if_neg hsB] at b)
  -- votes
  let vs := bs.map fun s => (s, env.sign s (.echo 0 c 2 (h c)))
  let R8 := fun i => { R7 i with VYr := vs.map Prod.snd }
  obtain ⟨n8, S8, p8, -, -, -, t8⟩ := S7.next (fun i => if i ∈ B then bs else []) (fun _ s => .vote 0 true (v c) (e1 c) (env.sign s (.echo 0 c 2 (h c)))) p7 (ms := fun _ => []) (sg := fun _ => [])
    (st' := fun i => if i = c then stG (x i) 0 old { (T i).closed env.N with send := .ended } (.decided 0 (v c)) else if i ∈ B then stG (x i) 0 old (R8 i) (.result c)
      else if i = d then stG (x i) 0 old { T i with haltDone := true } (.decided 0 (v c)) else stG (x i) 0 old (T i) .wait)
    (fun i _ => ⟨[], by simp, by
      by_cases hiB : i ∈ B
      · simp only [if_pos hiB, if_neg (hBc i hiB)]
        have a := go_yeses (x i) 0 old (R7 i) (i := i) (env := env) (hlead i) rfl rfl rfl (ok.cert_full (.echo 0 c 1 (env.hash (v c)))) vs (fun q hq => by
          obtain ⟨k, hk, rfl⟩ := List.mem_map.1 hq
          rw [ok.share_sign k (hBN k ((hbs k).1 hk))]
          rfl) (by rw [List.length_map]; omega) c
        rw [List.append_nil]
        rw [List.map_map] at a
        exact a
      · simp only [if_neg hiB]
        exact .nil _⟩)
    (fun i _ => by
      by_cases hiB : i ∈ B
      · simp only [if_pos hiB]
        refine ⟨hbsd, fun s hs => ?_⟩
        rw [hbs] at hs
        refine ⟨hBN s hs, rfl, ?_, (s7 s _ rfl).2 ⟨hBN s hs, by simp [hs]⟩⟩
        simp only [MMsg.sigs, List.mem_cons, List.not_mem_nil, or_false, forall_eq_or_imp, forall_eq]
        exact ⟨hqc _ fun x hx => u7 x (up6 x hx), ok.genuine_sign (g7 s (hBN s hs) _ (by simp [hs]))⟩
      · simp [if_neg hiB])
    (by simp)
    (fun _ i hi s hs m hm hk => by
      obtain ⟨a, b⟩ := (s7 s m hk).1 hm
      by_cases hsB : s ∈ B
      · simp only [if_pos hsB, List.mem_singleton] at b
        simp only [if_pos hi]
        exact ⟨(hbs s).2 hsB, b⟩
      · simp [if_neg hsB] at b)
  -- the end
  obtain ⟨es, hrun, hsrc⟩ := S8.run
  have q8 : ∀ i ∈ B, n8.party i = stG (x i) 0 old (R8 i) (.result c) := fun i hi => by
    rw [p8 i (hBN i hi)]
    simp only [if_neg (hBc i hi), if_pos hi]
  have hdec : Decides n8 d 0 (v c) := by
    rw [Decides, p8 d (hAN d hd)]
    simp only [if_neg hdc, if_neg hdB, if_true]
    rfl
  have hund : ∀ i ∈ A, ¬ (n8.party i).hasDecided → i ∈ B := fun i hi hu => (hB i).2 ⟨fun e => hu (e ▸ ⟨0, v c, hdec⟩), hi⟩
  refine ⟨es, n8, hrun, hsrc, ⟨fun i hi hu => ?_, fun i hi hu s hs m hm => ?_⟩, ?_, hdec, fun i hi hid => ?_⟩
  · rw [q8 i (hund i hi hu)]
    exact stuck_internal (x i) old (R8 i) (fun j hj => if_pos hj) rfl rfl rfl rfl c
  · by_cases h6 : m.order = 6 ∨ m.order = 8 ∨ m.order = 9
    · exact Or.inl (S8.all i (hund i hi hu) s hs m hm (by omega) h6)
    · refine Or.inr ?_
      rw [q8 i (hund i hi hu)]
      exact stuck_recv (x i) old (R8 i) (fun j hj => if_pos hj) rfl (hlead i) c s m h6
  · rintro r ⟨-, ⟨k, hk⟩, -⟩
    rw [votersOf, Finset.mem_filter] at hk
    obtain ⟨-, ⟨k', m⟩, hm, -, hv⟩ := hk
    cases m with
    | vote r y w sig sh =>
      rw [t8] at hm
      simp only [List.not_mem_nil, and_false, or_false] at hm
      have := ((s7 _ _ rfl).1 hm).2
      by_cases hkB : k' ∈ B
      · simp only [if_pos hkB, List.mem_singleton] at this
        rw [this] at hv
        simp [MMsg.isVote] at hv
      · simp [if_neg hkB] at this
    | _ => simp [MMsg.isVote] at hv
  · rintro ⟨r, w, hw⟩
    rw [Decides, q8 i ((hB i).2 ⟨hid, hi⟩)] at hw
    cases hw

end

/-- **C115 is refuted in committees of every size.** `3F+1` parties, none corrupt, whatever the proposals and whichever `2F+1` of the parties other than 0 go on: one of these returns, the others wait for ever. -/
theorem C115_refuted_every_size {F : ℕ} (hF : 1 ≤ F) : ∃ (env : MEnv) (full : SMsg → Bytes), env.F = F ∧ env.N = 3 * F + 1 ∧ SchemeOk env full ∧ Function.Injective env.hash ∧
    ∀ (v : ℕ → Bytes) (A : Finset ℕ), A ⊆ Finset.Ico 1 env.N → A.card = 2 * F + 1 → ∀ d ∈ A, ∃ evs net,
      MRun env (Finset.range env.N) ⟨true, true⟩ (MNet.init (Finset.range env.N) (fun i => (v i, [])) env.N) evs net ∧ (∀ i q m, (i, MEvent.recv q m) ∈ evs → q < env.N) ∧ MSettledOn env A A net ∧
      (∀ r, ¬ SplitVote env.N env.F net.sent r) ∧ Decides net d 0 (v 0) ∧ ∀ i ∈ A, i ≠ d → ¬ ∃ r w, Decides net i r w := by
  refine ⟨Toy.envN (3 * F + 1) F (0, 0, 0), Toy.fullN (0, 0, 0), rfl, rfl, (Toy.idealN _ _ _).toSchemeOk, fun _ _ h => h, fun v A hA hAc d hd => ?_⟩
  exact C115_any_stop (Toy.idealN (3 * F + 1) F (0, 0, 0)) rfl hF (Toy.leaderN_zero _ _ 0) (fun i hi => Finset.mem_range.2 (Finset.mem_Ico.1 (hA hi)).2) (fun h => absurd (Finset.mem_Ico.1 (hA h)).1 (by omega)) hAc hd v

/-- Seven parties; parties 0 and 6 stop, party 3 gets the Halt of party 0. -/
example : ∃ evs net, MRun (Toy.envN 7 2 (0, 0, 0)) (Finset.range 7) ⟨true, true⟩ (MNet.init (Finset.range 7) (fun i => ([UInt8.ofNat i], [])) 7) evs net ∧
    MSettledOn (Toy.envN 7 2 (0, 0, 0)) {1, 2, 3, 4, 5} {1, 2, 3, 4, 5} net ∧ Decides net 3 0 [0] ∧ ∀ i ∈ ({1, 2, 4, 5} : Finset ℕ), ¬ ∃ r w, Decides net i r w := by
  obtain ⟨evs, net, h1, -, h3, -, h5, h6⟩ := C115_any_stop (Toy.idealN 7 2 (0, 0, 0)) rfl (by decide) (Toy.leaderN_zero _ _ 0) (A := {1, 2, 3, 4, 5}) (by decide) (by decide) (by decide) (d := 3) (by decide)
    fun i => [UInt8.ofNat i]
  refine ⟨evs, net, h1, h3, h5, fun i hi => h6 i ?_ ?_⟩
  · revert i
    decide
  · rintro rfl
    revert hi
    decide

end DyCAPS
