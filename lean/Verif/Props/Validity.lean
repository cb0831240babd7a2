import Verif.Lemmas.MVBAForce
import Verif.Props.MVBA

/-!
# C87: which values can be decided

Neither `MainProcess` nor the broadcasts check values (`//TODO: CheckValue`, main_process.go:42; the validator passed at spb.go:45 is nil).
-/

namespace DyCAPS

theorem quorum_all {env : MEnv} {H : Finset ℕ} (hcm : Committee env H) {s : List (ℕ × SMsg)} {m : SMsg} (h : ∀ i ∈ H, (i, m) ∈ s) : Quorum env H s m := by
  refine le_trans hcm.faults (Finset.card_le_card fun i hi => ?_)
  simp only [signers, Finset.mem_filter, Finset.mem_range]
  exact ⟨hcm.sub i hi, Or.inr (h i hi)⟩

theorem noRepeat_corrupt {H : Finset ℕ} {evs : List MEvent} (h : ∀ e ∈ evs, ∀ s m, e = MEvent.recv s m → s ∉ H) : NoRepeat H evs :=
  List.pairwise_of_forall_mem_list fun a ha _ _ s m hs e => absurd hs (h a ha s m e)

/-- **C87.** Whatever the honest parties propose: if the coin of the first round names a corrupt party, that party can have any byte string decided by all honest parties. Messages of honest
parties are authentic and not repeated, and no signature is forged. -/
theorem C87_any_value {env : MEnv} {full : SMsg → Bytes} (ok : IdealScheme env full) {H : Finset ℕ} (hcm : Committee env H) {c : ℕ} (hc : c < env.N) (hcH : c ∉ H)
    (hlead : leaderOf env (full (.done 0)) = c) (input : ℕ → Bytes × Bytes) (v : Bytes) :
    ∃ evs net, MRun env H ⟨true, true⟩ (MNet.init H input env.N) evs net ∧ ∀ i ∈ H, Decides net i 0 v := by
  have hnd : H.toList.Nodup := H.nodup_toList
  have hmem : ∀ {i}, i ∈ H.toList ↔ i ∈ H := Finset.mem_toList
  set h := env.hash v with hh
  set e1 := SMsg.echo 0 c 1 h with he1
  set e2 := SMsg.echo 0 c 2 h with he2
  obtain ⟨es1, n1, r1, p1, -, g1, -, -, d1⟩ := phase_run (env := env) (H := H) (st := fun i => stR (input i) (MRound.init (input i).1 (input i).2) .wait) (st' := fun i => stR (input i) (R1 c (input i)) .wait)
    (evs := fun _ => [.recv c (.value 0 c 1 v [])]) (ms := fun i => [.echo 0 c 1 (env.sign i e1)]) (sg := fun _ => [e1]) H.toList (MNet.init H input env.N) hnd (fun i hi => by
      refine ⟨hmem.1 hi, stR_init i (input i), step_first ok hc (input i) v, noRepeat_corrupt (by simp [hcH]), fun s m hm => ?_⟩
      simp only [List.mem_singleton, MEvent.recv.injEq] at hm
      obtain ⟨rfl, rfl⟩ := hm
      refine ⟨fun b hb => ?_, fun hs => absurd hs hcH⟩
      simp only [MMsg.sigs, List.mem_singleton] at hb
      rw [hb]
      exact ok.genuine_empty H _)
  have q1 : Quorum env H n1.signed e1 := quorum_all hcm fun i hi => g1 i (hmem.2 hi) e1 (by simp)
  obtain ⟨es2, n2, r2, p2, m2, g2, -, -, d2⟩ := phase_run (env := env) (H := H) (st := fun i => stR (input i) (R1 c (input i)) .wait) (st' := fun i => stR (input i) (R2 c (input i) (v, full e1)) .wait)
    (evs := fun _ => [.recv c (.value 0 c 2 v (full e1))]) (ms := fun i => [.echo 0 c 2 (env.sign i e2)]) (sg := fun _ => [e2]) H.toList n1 hnd (fun i hi => by
      refine ⟨hmem.1 hi, by rw [p1, if_pos hi], step_second ok hc (input i) v, noRepeat_corrupt (by simp [hcH]), fun s m hm => ?_⟩
      simp only [List.mem_singleton, MEvent.recv.injEq] at hm
      obtain ⟨rfl, rfl⟩ := hm
      refine ⟨fun b hb => ?_, fun hs => absurd hs hcH⟩
      simp only [MMsg.sigs, List.mem_singleton] at hb
      rw [hb]
      exact ok.genuine_full q1)
  have q2 : Quorum env H n2.signed e2 := quorum_all hcm fun i hi => g2 i (hmem.2 hi) e2 (by simp)
  obtain ⟨es3, n3, r3, p3, m3, g3, -, t3, d3⟩ := phase_run (env := env) (H := H) (st := fun i => stR (input i) (R2 c (input i) (v, full e1)) .wait)
    (st' := fun i => stR (input i) (R4 c env.F (input i) (v, full e1) (v, full e2) []) .wait)
    (evs := fun _ => List.replicate (2 * env.F + 1) (.recv c (.finish 0 v (full e2))) ++ [.elect 0]) (ms := fun i => [] ++ [.done 0 (env.sign i (.done 0))]) (sg := fun _ => [] ++ [.done 0]) H.toList n2 hnd (fun i hi => by
      refine ⟨hmem.1 hi, by rw [p2, if_pos hi], (step_finish ok hc (input i) v _ _).trans (step_elect ok hc (input i) _ _), noRepeat_corrupt (fun e he s m e' => ?_), fun s m hm => ?_⟩
      · subst e'
        simp only [List.mem_append, List.mem_replicate, List.mem_singleton, reduceCtorEq, or_false, MEvent.recv.injEq] at he
        rw [he.2.1]
        exact hcH
      · simp only [List.mem_append, List.mem_replicate, List.mem_singleton, reduceCtorEq, or_false, MEvent.recv.injEq] at hm
        obtain ⟨-, rfl, rfl⟩ := hm
        refine ⟨fun b hb => ?_, fun hs => absurd hs hcH⟩
        simp only [MMsg.sigs, List.mem_singleton] at hb
        rw [hb]
        exact ok.genuine_full q2)
  set ks := H.toList.take (2 * env.F + 1) with hks
  have hksH : ∀ k ∈ ks, k ∈ H := fun k hk => hmem.1 (List.mem_of_mem_take hk)
  have hkl : ks.length = 2 * env.F + 1 := by
    rw [hks, List.length_take, Finset.length_toList]
    have := hcm.faults
    omega
  have hknd : ks.Nodup := hnd.sublist (List.take_sublist _ _)
  choose de dm ds dst hdn hdr hdd using fun i => step_decide (i := i) ok hc (input i) v (v, full e1) (full e2) (ks.map fun k => env.sign k (.done 0)) (by rw [List.length_map]; omega)
  have hlog : ∀ a s m, (a, s, m) ∈ n3.delivered → s ∉ H := by
    intro a s m hd
    rcases d3 _ hd with hd | ⟨i, -, hd⟩
    · rcases d2 _ hd with hd | ⟨i, -, hd⟩
      · rcases d1 _ hd with hd | ⟨i, -, hd⟩
        · simp [MNet.init] at hd
        · simp only [List.flatMap_cons, List.flatMap_nil, List.append_nil, logDelivery, List.mem_singleton, Prod.mk.injEq] at hd
          rw [hd.2.1]; exact hcH
      · simp only [List.flatMap_cons, List.flatMap_nil, List.append_nil, logDelivery, List.mem_singleton, Prod.mk.injEq] at hd
        rw [hd.2.1]; exact hcH
    · obtain ⟨e, he, hd⟩ := List.mem_flatMap.1 hd
      rcases List.mem_append.1 he with he | he
      · rw [List.eq_of_mem_replicate he] at hd
        simp only [logDelivery, List.mem_singleton, Prod.mk.injEq] at hd
        rw [hd.2.1]; exact hcH
      · rw [List.mem_singleton.1 he] at hd
        simp [logDelivery] at hd
  obtain ⟨es4, n4, r4, p4, -, -, -, -, -⟩ := phase_run (env := env) (H := H) (st := fun i => stR (input i) (R4 c env.F (input i) (v, full e1) (v, full e2) []) .wait) (st' := dst)
    (evs := fun i => (ks.map fun k => .recv k (.done 0 (env.sign k (.done 0)))) ++ de i) (ms := fun i => [] ++ dm i) (sg := fun i => [] ++ ds i) H.toList n3 hnd (fun i hi => by
      refine ⟨hmem.1 hi, by rw [p3, if_pos hi], (step_coins ok hc (input i) _ _ hlead ks hknd (fun k hk => hcm.sub k (hksH k hk)) hkl.le).trans (hdr i), ?_, fun s m hm => ?_⟩
      · refine List.pairwise_append.2 ⟨?_, ?_, ?_⟩
        · rw [List.pairwise_map]
          refine hknd.imp fun hne s m _ e e' => ?_
          simp only [MEvent.recv.injEq] at e'
          exact hne e'.1.symm
        · exact noRepeat_corrupt fun e he s m e' => absurd e' (hdn i e he s m)
        · intro a ha b hb s m _ e e'
          exact hdn i b hb s m (e'.trans e)
      · rcases List.mem_append.1 hm with hm | hm
        · obtain ⟨k, hk, e⟩ := List.mem_map.1 hm
          simp only [MEvent.recv.injEq] at e
          obtain ⟨rfl, rfl⟩ := e
          refine ⟨fun b hb => ?_, fun hs => ⟨t3 k (hmem.2 hs) _ (by simp), fun hd => hlog _ _ _ hd hs⟩⟩
          simp only [MMsg.sigs, List.mem_singleton] at hb
          rw [hb]
          exact ok.genuine_sign (g3 k (List.mem_of_mem_take hk) _ (by simp))
        · exact absurd rfl (hdn i _ hm s m))
  refine ⟨_, n4, ((r1.append r2).append r3).append r4, fun i hi => ?_⟩
  show (n4.party i).phase = _
  rw [p4, if_pos (hmem.2 hi)]
  exact hdd i

/-- **C87 is refuted**, for every committee size `3F+1`, with a single corrupt party (party 0), for all proposals of the others and every byte string `v`: there is an execution in which all
other parties decide `v`. -/
theorem C87_refuted (F : ℕ) (hF : 1 ≤ F) : ∃ (env : MEnv) (full : SMsg → Bytes) (H : Finset ℕ), env.F = F ∧ env.N = 3 * F + 1 ∧ SchemeOk env full ∧ Committee env H ∧
    (∀ i, i ∈ H ↔ 1 ≤ i ∧ i < env.N) ∧ (∀ a b, env.hash a = env.hash b → a = b) ∧ ∀ (input : ℕ → Bytes × Bytes) (v : Bytes),
      ∃ evs net, MRun env H ⟨true, true⟩ (MNet.init H input env.N) evs net ∧ ∀ i ∈ H, Decides net i 0 v := by
  have hcm : Committee (Toy.envN (3 * F + 1) F (0, 0, 0)) (Finset.Ico 1 (3 * F + 1)) :=
    ⟨rfl, fun i hi => (Finset.mem_Ico.1 hi).2, by show 2 * F + 1 ≤ _; rw [Nat.card_Ico]; omega⟩
  refine ⟨Toy.envN (3 * F + 1) F (0, 0, 0), Toy.fullN (0, 0, 0), Finset.Ico 1 (3 * F + 1), rfl, rfl, (Toy.idealN _ _ _).toSchemeOk, hcm, fun i => Finset.mem_Ico, fun _ _ h => h, fun input v => ?_⟩
  refine C87_any_value (c := 0) (Toy.idealN _ _ _) hcm (Nat.succ_pos _) (by simp) ?_ input v
  show (bytesToUint32 (Toy.fullN (0, 0, 0) (.done 0))).toNat % (3 * F + 1) = 0
  have : bytesToUint32 (Toy.fullN (0, 0, 0) (.done 0)) = 0 := by decide
  rw [this]
  exact Nat.zero_mod _

/-! ### Without corrupt parties -/

theorem mvbaStep_prop {env : MEnv} {i : ℕ} {st : MState} {ev : MEvent} {o : MOut} (h : mvbaStep env i st ev = some o) : (o.st.rounds 0).prop = (st.rounds 0).prop := by
  have hset : ∀ r (R : MRound), R.prop = (st.rounds r).prop → ((st.setRound r R).rounds 0).prop = (st.rounds 0).prop := by
    intro r R hR
    simp only [MState.setRound]
    split
    · rename_i e; rw [hR, ← e]
    · rfl
  unfold mvbaStep at h
  split at h
  · cases h
  · split at h
    · obtain ⟨o', ho, rfl⟩ := Option.map_eq_some_iff.1 h
      unfold onValue at ho
      simp only at ho
      split at ho
      · split at ho
        · cases ho; exact hset _ _ rfl
        · split at ho
          · cases ho; exact hset _ _ rfl
          · cases ho; rfl
        · cases ho
      · cases ho
    · unfold onEchoShare at h
      simp only at h
      split at h
      · split at h
        · split at h
          · split at h
            · cases h; exact hset _ _ rfl
            · cases h; exact hset _ _ rfl
          · cases h; rfl
        · split at h
          · split at h
            · cases h; exact hset _ _ rfl
            · cases h; exact hset _ _ rfl
          · cases h; rfl
        · cases h
      · cases h
    · unfold onFinish at h
      simp only at h
      split at h
      · split at h
        · split at h
          · cases h; exact hset _ _ rfl
          · cases h; rfl
        · cases h; rfl
      · cases h
    · unfold onDone at h
      simp only at h
      split at h
      · split at h
        · cases h; exact hset _ _ rfl
        · cases h; rfl
      · cases h
    · unfold onHalt at h
      simp only at h
      split at h
      · cases h
      · split at h
        · split at h
          · split at h
            · cases h
            · cases h; exact hset _ _ rfl
          · cases h; rfl
        · cases h
    · unfold onPreVote at h
      simp only at h
      split at h
      · cases h
      · split at h
        · split at h
          · split at h
            · cases h; exact hset _ _ rfl
            · cases h; rfl
          · split at h
            · cases h; exact hset _ _ rfl
            · cases h; rfl
        · cases h
    · unfold onVote at h
      simp only at h
      split at h
      · cases h
      · split at h
        · split at h
          · split at h
            · cases h; exact hset _ _ rfl
            · cases h; rfl
          · split at h
            · cases h; exact hset _ _ rfl
            · cases h; rfl
        · cases h
    · simp only at h
      split at h
      · split at h
        · cases h; exact hset _ _ rfl
        · cases h; exact hset _ _ rfl
        · cases h
      · cases h
    · simp only at h
      split at h
      · cases h; exact hset _ _ rfl
      · cases h
    · simp only at h
      split at h
      · cases h; exact hset _ _ rfl
      · cases h
    · split at h
      · cases h; rfl
      · cases h
    · unfold onJoined at h
      split at h
      · simp only at h
        split at h
        · split at h
          · cases h; rfl
          · split at h
            · cases h; exact hset _ _ rfl
            · cases h; exact hset _ _ rfl
        · cases h
      · cases h
    · unfold onSendVote at h
      simp only at h
      split at h
      · split at h
        · cases h; exact hset _ _ rfl
        · cases h; exact hset _ _ rfl
        · cases h
      · cases h
    · split at h
      · cases h; rfl
      · cases h; rfl
      · cases h
    · unfold onTakeVote at h
      split at h
      · simp only at h
        split at h
        · cases h
        · cases h; rfl
        · cases h
          simp [startRound]
        · cases h
          simp [startRound]
      · cases h

theorem MRun.prop {env : MEnv} {H : Finset ℕ} {cfg : MNetCfg} {input : ℕ → Bytes × Bytes} {evs : List (ℕ × MEvent)} {net : MNet} (h : MRun env H cfg (MNet.init H input env.N) evs net) (i : ℕ) :
    ((net.party i).rounds 0).prop = input i := by
  induction h with
  | nil => rfl
  | snoc h hi ha hs ih =>
    obtain ⟨o, ho, rfl⟩ := Option.map_eq_some_iff.1 hs
    show (MState.rounds (if _ then _ else _) 0).prop = _
    split
    · rename_i e
      rw [mvbaStep_prop ho, ← e]
      exact ih
    · exact ih

/-- **C87 (the part that holds).** If no party is corrupt (they may stop at any time, messages may be lost, delayed and reordered), a decided value is, up to a collision of the hash, the
proposal of one of them. -/
theorem C87_crash_partial {env : MEnv} {full : SMsg → Bytes} (hok : SchemeOk env full) (hN : env.N = 3 * env.F + 1) {input : ℕ → Bytes × Bytes} {evs : List (ℕ × MEvent)} {net : MNet}
    (h : MRun env (Finset.range env.N) ⟨true, true⟩ (MNet.init (Finset.range env.N) input env.N) evs net) (hsrc : ∀ i q m, (i, MEvent.recv q m) ∈ evs → q < env.N)
    {i r : ℕ} {v : Bytes} (hi : i < env.N) (hv : Decides net i r v) : ∃ k < env.N, env.hash v = env.hash (input k).1 := by
  have hcN := h.crash hok (by omega) hsrc
  have hinv := h.inv
  have hcm := committee_all hN
  have hlt : ∀ k < env.N, ∀ r l, ((net.party k).rounds r).leader = some l → l < env.N := fun k hk r l hl => by
    rw [((hinv k (Finset.mem_range.2 hk)).rounds r).lead l hl |>.2]
    exact leaderOf_lt (by omega) _
  -- what is certified in a round is the proposal of a party that has got there
  have own : ∀ r l a, l < env.N → Quorum env (Finset.range env.N) net.signed (.echo r l 1 a) → a = env.hash ((net.party l).rounds r).prop.1 ∧ r ≤ (net.party l).round := by
    intro r l a hl hq
    obtain ⟨k, hk, hks⟩ := hq.honest hcm
    obtain ⟨w, val, hw, hh⟩ := (((hcN.party k hk).sig r).sign _ hks rfl).1 rfl
    have hl' := hcN.party l (Finset.mem_range.2 hl)
    exact ⟨by rw [← hh, ((hl'.sig r).sent _ hw rfl).2], hl'.past _ hw⟩
  have key : ∀ r, ∀ l < env.N, r ≤ (net.party l).round → ∃ k < env.N, env.hash ((net.party l).rounds r).prop.1 = env.hash (input k).1 := by
    intro r
    induction r with
    | zero => exact fun l hl _ => ⟨l, hl, by rw [h.prop]⟩
    | succ r ih =>
      intro l hl hle
      have hl' := Finset.mem_range.2 hl
      rcases (hcN.party l hl').next r (by omega) with ⟨-, e⟩ | ⟨w, sig, e, e'⟩
      · rw [e]; exact ih l hl (by omega)
      · obtain ⟨l', a, b⟩ := ((hinv l hl').rounds r).vo w sig (Or.inr e)
        obtain ⟨c1, c2⟩ := own r l' _ (hlt l hl r l' a) b
        rw [e', c1]
        exact ih l' (hlt l hl r l' a) c2
  obtain ⟨-, l, a, q⟩ := decided_quorum hcm h (Finset.mem_range.2 hi) hv
  have hl := hlt i hi r l a
  obtain ⟨c1, c2⟩ := own r l _ hl q
  rw [c1]
  exact key r l hl c2

section Examples

/-- `C87_any_value`: parties 1, 2 and 3 of four propose `[5]` and decide the empty string. -/
example : ∃ evs net, MRun (Toy.envN 4 1 (0, 0, 0)) {1, 2, 3} ⟨true, true⟩ (MNet.init {1, 2, 3} (fun _ => ([5], [])) 4) evs net ∧ ∀ i ∈ ({1, 2, 3} : Finset ℕ), Decides net i 0 [] :=
  C87_any_value (c := 0) (Toy.idealN 4 1 (0, 0, 0)) ⟨rfl, by decide, by decide⟩ (by decide) (by decide) (by decide) _ _

/-- `C87_refuted` with `F = 2`. -/
example := C87_refuted 2 (by norm_num)

open Toy in
/-- `C87_crash_partial`: an execution in which parties 0 and 1 of four decide `[0]`, which party 0 has proposed. -/
example : ∃ net, MRun (env fun _ => 0) (Finset.range 4) ⟨true, true⟩ (net₀ (Finset.range 4)) honestRun net ∧ Decides net 1 0 [0] ∧ (inp 0).1 = [0] ∧
    ∃ k < 4, (env fun _ => 0).hash [0] = (env fun _ => 0).hash (inp k).1 := by
  obtain ⟨net, hr, hp⟩ := exists_run (coin := fun _ => 0) (H := Finset.range 4) (cfg := ⟨true, true⟩) (net₀ := net₀ (Finset.range 4)) honestRun
    (fun n => decide (Decides n 1 0 [0])) (by decide +kernel)
  have hsrc : (honestRun.all fun e => match e.2 with | .recv q _ => decide (q < 4) | _ => true) = true := by decide +kernel
  refine ⟨net, hr, of_decide_eq_true hp, rfl, ?_⟩
  exact C87_crash_partial (schemeOk fun _ => 0) rfl hr (fun i q m hm => of_decide_eq_true (List.all_eq_true.1 hsrc _ hm)) (by show 1 < 4; norm_num) (of_decide_eq_true hp)

end Examples

end DyCAPS
