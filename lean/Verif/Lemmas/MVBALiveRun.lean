import Verif.Lemmas.MVBALiveStep

/-!
# Agreement without corrupt parties: finished executions
-/

namespace DyCAPS

/-- The whole network. -/
structure LNet (env : MEnv) (full : SMsg → Bytes) (net : MNet) : Prop where
  party : ∀ i < env.N, LParty env full i net.sent net.delivered (net.party i)
  sent : ∀ k m, (k, m) ∈ net.sent → LSent env full k net.sent m
  src : ∀ k m, (k, m) ∈ net.sent → k < env.N

section
variable {env : MEnv} {full : SMsg → Bytes} (hok : SchemeOk env full) (hN : env.N = 3 * env.F + 1) {input : ℕ → Bytes × Bytes} {evs : List (ℕ × MEvent)} {net : MNet}
    (h : MRun env (Finset.range env.N) ⟨true, true⟩ (MNet.init (Finset.range env.N) input env.N) evs net) (hsrc : ∀ i q m, (i, MEvent.recv q m) ∈ evs → q < env.N)

include hok hN h hsrc

theorem val_prop {r j : ℕ} {v : Bytes} (hj : j < env.N) (hv : Val net.sent r j v) : v = ((net.party j).rounds r).prop.1 := by
  obtain ⟨s, val, hm⟩ := hv
  exact ((((h.crash hok (by omega) hsrc).party j (Finset.mem_range.2 hj)).sig r).sent _ hm rfl).2

theorem live_ctx (hs : ∀ k m, (k, m) ∈ net.sent → LSent env full k net.sent m) {i : ℕ} (hi : i < env.N) : LCtx env full i net.sent net.delivered (net.party i) where
  ok := hok
  lt := hi
  uniq r j v v' hj hv hv' := (val_prop hok hN h hsrc hj hv).trans (val_prop hok hN h hsrc hj hv').symm
  prop r v hv := val_prop hok hN h hsrc hi hv
  lead r l hl := crash_leader hok hN h hsrc hi hl
  sent := hs
  log k m hm := (h.crash hok (by omega) hsrc).log i k m hm
  join := (h.inv i (Finset.mem_range.2 hi)).join

end

theorem MRun.live {env : MEnv} {full : SMsg → Bytes} (hok : SchemeOk env full) (hN : env.N = 3 * env.F + 1) {input : ℕ → Bytes × Bytes} {evs : List (ℕ × MEvent)} {net : MNet}
    (h : MRun env (Finset.range env.N) ⟨true, true⟩ (MNet.init (Finset.range env.N) input env.N) evs net) (hsrc : ∀ i q m, (i, MEvent.recv q m) ∈ evs → q < env.N) : LNet env full net := by
  induction h with
  | nil =>
    have hsent : ∀ i m, (i, m) ∈ (MNet.init (Finset.range env.N) input env.N).sent ↔ i < env.N ∧ m = .value 0 i 1 (input i).1 (input i).2 := by
      intro i m
      simp only [MNet.init, MState.init, startRound, List.map_cons, List.map_nil, List.mem_flatMap, List.mem_singleton, Prod.mk.injEq, List.mem_filter, List.mem_range, Finset.mem_range,
        decide_eq_true_eq, and_self]
      constructor
      · rintro ⟨k, hk, rfl, e⟩; exact ⟨hk, e⟩
      · rintro ⟨hk, e⟩; exact ⟨i, hk, rfl, e⟩
    have hd : (MNet.init (Finset.range env.N) input env.N).delivered = [] := rfl
    refine ⟨fun i hi => ?_, fun k m hm => ?_, fun k m hm => ((hsent k m).1 hm).1⟩
    · have hr : ∀ r, ((MNet.init (Finset.range env.N) input env.N).party i).rounds r = if r = 0 then MRound.init (input i).1 (input i).2 else MRound.init [] [] := fun _ => rfl
      have h0 : ((MNet.init (Finset.range env.N) input env.N).party i).round = 0 := rfl
      refine ⟨fun r => ?_, by rw [hd]; simp, rfl, fun r hr' => ?_, fun _ j hj => absurd rfl hj, fun _ j hj => (by cases hj), fun _ hj => (by cases hj), fun r hr' => absurd hr' (Nat.not_lt_zero _),
        fun l hl => (by cases hl), fun r hx => ?_, fun r v hx => (by cases hx), fun r v hx => (by cases hx)⟩
      · rw [hr]
        split
        · exact LRound.init _ _ _ _ (by rw [hd]; simp) _ _
        · exact LRound.init _ _ _ _ (by rw [hd]; simp) _ _
      · rw [h0] at hr'
        obtain rfl : r = 0 := by omega
        exact ⟨_, _, (hsent _ _).2 ⟨hi, rfl⟩⟩
      · rw [hr] at hx
        split at hx
        · cases hx
        · cases hx
    · obtain ⟨-, rfl⟩ := (hsent k m).1 hm
      exact ⟨rfl, Or.inl rfl⟩
  | @snoc evs net i ev net' h hi ha hs ih =>
    have hsrc' : ∀ i q m, (i, MEvent.recv q m) ∈ evs → q < env.N := fun i q m hm => hsrc i q m (List.mem_append_left _ hm)
    have ih := ih hsrc'
    obtain ⟨o, ho, rfl⟩ := Option.map_eq_some_iff.1 hs
    have hiN := Finset.mem_range.1 hi
    have ht : ∀ x ∈ net.sent, x ∈ net.sent ++ o.msgs.map fun m => (i, m) := fun x hx => List.mem_append_left _ hx
    have key := (ih.party i hiN).step (live_ctx hok hN h hsrc' ih.sent hiN) (ev := ev) (fun q m e => by
      subst e
      have hqN : q < env.N := hsrc i q m (by simp)
      have hqH := Finset.mem_range.2 hqN
      exact ⟨hqN, ha.2.1 rfl hqH, ha.2.2 rfl hqH⟩) ho
    refine ⟨fun k hk => ?_, fun k m hm => ?_, fun k m hm => ?_⟩
    · show LParty env full k _ _ (if k = i then o.st else net.party k)
      split
      · rename_i e
        subst e
        exact key.1
      · rename_i e
        refine (ih.party k hk).others ht fun q m => ?_
        show _ ∈ net.delivered ++ logDelivery i ev ↔ _
        rw [List.mem_append]
        refine ⟨fun x => x.resolve_right ?_, Or.inl⟩
        cases ev with
        | recv q' m' =>
          simp only [logDelivery, List.mem_singleton, Prod.mk.injEq]
          rintro ⟨e', -⟩
          exact e e'
        | _ => simp [logDelivery]
    · rcases List.mem_append.1 hm with hm | hm
      · exact (ih.sent k m hm).mono ht
      · obtain ⟨m', a, b⟩ := List.mem_map.1 hm
        cases b
        exact key.2 m a
    · rcases List.mem_append.1 hm with hm | hm
      · exact ih.src k m hm
      · obtain ⟨m', a, b⟩ := List.mem_map.1 hm
        cases b
        exact hiN

/-! ## Finished executions -/

section settled
variable {env : MEnv} {full : SMsg → Bytes} {net : MNet} (L : LNet env full net) {A : Finset ℕ} (S : MSettledOn env A (Finset.range env.N) net) {i : ℕ} (hi : i < env.N) (ha : i ∈ A) (hu : ¬ (net.party i).hasDecided)

include L S hi ha hu

theorem settled_recv {s : ℕ} {m : MMsg} (hm : (s, m) ∈ net.sent) : (i, s, m) ∈ net.delivered ∨ mvbaStep env i (net.party i) (.recv s m) = none := S.messages i ha hu s (Finset.mem_range.2 (L.src s m hm)) m hm

theorem settled_done {k r : ℕ} {sh : Bytes} (hr : r ≤ (net.party i).round) (hl : ((net.party i).rounds r).leader = none) (hm : (k, MMsg.done r sh) ∈ net.sent) :
    (i, k, MMsg.done r sh) ∈ net.delivered := by
  rcases settled_recv L S hi ha hu hm with x | x
  · exact x
  · simp only [mvbaStep, (L.party i hi).alive, onDone, Bool.false_eq_true, if_false] at x
    rw [if_pos ⟨hr, hl⟩] at x
    split at x <;> cases x

theorem settled_finish {k r : ℕ} {v sig : Bytes} (hr : r ≤ (net.party i).round) (hm : (k, MMsg.finish r v sig) ∈ net.sent) : (i, k, MMsg.finish r v sig) ∈ net.delivered := by
  rcases settled_recv L S hi ha hu hm with x | x
  · exact x
  · simp only [mvbaStep, (L.party i hi).alive, onFinish, Bool.false_eq_true, if_false] at x
    rw [if_pos hr] at x
    split at x
    · split at x <;> cases x
    · cases x

theorem settled_prevote {k r : ℕ} {yes : Bool} {v sig : Bytes} (hr : r ≤ (net.party i).round) (hl : ((net.party i).rounds r).leader ≠ none) (hm : (k, MMsg.prevote r yes v sig) ∈ net.sent) :
    (i, k, MMsg.prevote r yes v sig) ∈ net.delivered := by
  rcases settled_recv L S hi ha hu hm with x | x
  · exact x
  · obtain ⟨l, hl⟩ := Option.ne_none_iff_exists'.1 hl
    simp only [mvbaStep, (L.party i hi).alive, onPreVote, Bool.false_eq_true, if_false, hl] at x
    rw [if_pos hr] at x
    split at x
    · split at x <;> cases x
    · split at x <;> cases x

theorem settled_vote {k r : ℕ} {yes : Bool} {v sig sh : Bytes} (hr : r ≤ (net.party i).round) (hl : ((net.party i).rounds r).leader ≠ none) (hm : (k, MMsg.vote r yes v sig sh) ∈ net.sent) :
    (i, k, MMsg.vote r yes v sig sh) ∈ net.delivered := by
  rcases settled_recv L S hi ha hu hm with x | x
  · exact x
  · obtain ⟨l, hl⟩ := Option.ne_none_iff_exists'.1 hl
    simp only [mvbaStep, (L.party i hi).alive, onVote, Bool.false_eq_true, if_false, hl] at x
    rw [if_pos hr] at x
    split at x
    · split at x <;> cases x
    · split at x <;> cases x

theorem settled_value1 {j r : ℕ} {v val : Bytes} (hr : r ≤ (net.party i).round) (hm : (j, MMsg.value r j 1 v val) ∈ net.sent) : ((net.party i).rounds r).recv j ≠ .first := by
  rcases settled_recv L S hi ha hu hm with x | x
  · exact (((L.party i hi).rounds r).val.recv j 1 v val x).1
  · intro e
    simp only [mvbaStep, (L.party i hi).alive, onValue, Bool.false_eq_true, if_false, e, Option.map_eq_none_iff] at x
    rw [if_pos ⟨hr, L.src _ _ hm⟩] at x
    cases x

theorem settled_value2 {j r : ℕ} {v val : Bytes} (hr : r ≤ (net.party i).round) (hm : (j, MMsg.value r j 2 v val) ∈ net.sent) (h1 : ((net.party i).rounds r).recv j ≠ .first) :
    ((net.party i).rounds r).recv j = .ended := by
  rcases settled_recv L S hi ha hu hm with x | x
  · exact (((L.party i hi).rounds r).val.recv j 2 v val x).2 rfl
  · cases e : ((net.party i).rounds r).recv j with
    | first => exact absurd e h1
    | ended => rfl
    | second =>
      simp only [mvbaStep, (L.party i hi).alive, onValue, Bool.false_eq_true, if_false, e, Option.map_eq_none_iff] at x
      rw [if_pos ⟨hr, L.src _ _ hm⟩] at x
      split at x <;> cases x

theorem settled_echo1 {k r : ℕ} {sh : Bytes} {sigs : List Bytes} (hr : r ≤ (net.party i).round) (hm : (k, MMsg.echo r i 1 sh) ∈ net.sent) (hs : ((net.party i).rounds r).send = .first sigs) :
    (i, k, MMsg.echo r i 1 sh) ∈ net.delivered := by
  rcases settled_recv L S hi ha hu hm with x | x
  · exact x
  · simp only [mvbaStep, (L.party i hi).alive, onEchoShare, Bool.false_eq_true, if_false, hs] at x
    rw [if_pos ⟨hr, trivial⟩] at x
    split at x
    · split at x <;> cases x
    · cases x

theorem settled_echo2 {k r : ℕ} {sh : Bytes} {sigs : List Bytes} (hr : r ≤ (net.party i).round) (hm : (k, MMsg.echo r i 2 sh) ∈ net.sent) (hs : ((net.party i).rounds r).send = .second sigs) :
    (i, k, MMsg.echo r i 2 sh) ∈ net.delivered := by
  rcases settled_recv L S hi ha hu hm with x | x
  · exact x
  · simp only [mvbaStep, (L.party i hi).alive, onEchoShare, Bool.false_eq_true, if_false, hs] at x
    rw [if_pos ⟨hr, trivial⟩] at x
    split at x
    · split at x <;> cases x
    · cases x

theorem settled_no_join (l : ℕ) : (net.party i).phase ≠ .join l := by
  intro hp
  have hA := (L.party i hi).alive
  have hcan : (net.party i).cancelled = true := by simp [MState.cancelled, hp]
  have hrecv : ∀ j < env.N, ((net.party i).rounds (net.party i).round).recv j = .ended := by
    intro j hj
    have x := S.internal i ha hu (.quitRecv j) rfl
    simp only [mvbaStep, hA, hcan, hj, Bool.false_eq_true, if_false, decide_true, Bool.and_self, if_true] at x
    split at x
    · cases x
    · cases x
    · assumption
  have hsend : ((net.party i).rounds (net.party i).round).send = .ended := by
    have x := S.internal i ha hu .quitSend rfl
    simp only [mvbaStep, hA, hcan, Bool.false_eq_true, if_false, Bool.true_and, decide_eq_true_eq] at x
    by_contra hne
    rw [if_pos hne] at x
    cases x
  have x := S.internal i ha hu .joined rfl
  simp only [mvbaStep, hA, onJoined, hp, Bool.false_eq_true, if_false] at x
  rw [if_pos ⟨hrecv, hsend⟩] at x
  split at x
  · cases x
  · split at x <;> cases x

theorem settled_halt : (net.party i).halt = none := by
  have hA := (L.party i hi).alive
  have x := S.internal i ha hu .takeHalt rfl
  cases hh : (net.party i).halt with
  | none => rfl
  | some rv =>
    obtain ⟨r, v⟩ := rv
    cases hp : (net.party i).phase with
    | wait => simp [mvbaStep, hA, hp, hh] at x
    | join l => exact absurd hp (settled_no_join L S hi ha hu l)
    | result l => simp [mvbaStep, hA, hp, hh] at x
    | decided r v => exact absurd ⟨r, v, hp⟩ hu

theorem settled_no_halt (hok : SchemeOk env full) (hlead : ∀ r l, ((net.party i).rounds r).leader = some l → l = coinLeader env full r) {k r : ℕ} {v sig : Bytes} (hr : r ≤ (net.party i).round)
    (hl : ((net.party i).rounds r).leader ≠ none) : (k, MMsg.halt r v sig) ∉ net.sent := by
  intro hm
  have hh := settled_halt L S hi ha hu
  have hno : ¬ ((net.party i).rounds r).haltDone = true := by
    intro e
    have := (L.party i hi).notDecided hu e
    rw [hh] at this
    cases this
  rcases settled_recv L S hi ha hu hm with x | x
  · exact hno (((L.party i hi).rounds r).halted k v sig x)
  · obtain ⟨l, hl⟩ := Option.ne_none_iff_exists'.1 hl
    obtain rfl := hlead r l hl
    obtain ⟨-, rfl⟩ := L.sent _ _ hm
    simp only [mvbaStep, (L.party i hi).alive, onHalt, Bool.false_eq_true, if_false, hl, hok.cert_full, if_true, hh] at x
    rw [if_pos ⟨hr, by simpa using hno⟩] at x
    cases x

theorem settled_wait (hp : (net.party i).phase = .wait) : ((net.party i).rounds (net.party i).round).leader = none := by
  have x := S.internal i ha hu .takeLeader rfl
  cases hl : ((net.party i).rounds (net.party i).round).leader with
  | none => rfl
  | some l => simp [mvbaStep, (L.party i hi).alive, hp, hl] at x

theorem settled_elect {r : ℕ} (hr : r ≤ (net.party i).round) (hf : ((net.party i).rounds r).doneFlag = true) : ∃ sh, (i, MMsg.done r sh) ∈ net.sent := by
  have x := S.internal i ha hu (.elect r) rfl
  apply ((L.party i hi).rounds r).don.elected
  by_contra hne
  simp only [mvbaStep, (L.party i hi).alive, Bool.false_eq_true, if_false] at x
  rw [if_pos ⟨hr, hf, by simpa using hne⟩] at x
  cases x

theorem settled_voted {r : ℕ} (hr : r ≤ (net.party i).round) (hs : ((net.party i).rounds r).voteSpawned = true) (hl : ((net.party i).rounds r).leader ≠ none)
    (hp : ((net.party i).rounds r).pvOut.isSome) : ∃ yes v sig sh, (i, MMsg.vote r yes v sig sh) ∈ net.sent := by
  have x := S.internal i ha hu (.sendVote r) rfl
  apply ((L.party i hi).rounds r).pv.voted
  by_contra hne
  obtain ⟨l, hl⟩ := Option.ne_none_iff_exists'.1 hl
  obtain ⟨p, hp⟩ := Option.isSome_iff_exists.1 hp
  simp only [mvbaStep, (L.party i hi).alive, onSendVote, Bool.false_eq_true, if_false] at x
  rw [if_pos ⟨hr, hs, by simpa using hne⟩, hl, hp] at x
  cases p <;> cases x

theorem settled_result {l : ℕ} (hp : (net.party i).phase = .result l) : ((net.party i).rounds (net.party i).round).voteOut = none := by
  have x := S.internal i ha hu .takeVote rfl
  cases hv : ((net.party i).rounds (net.party i).round).voteOut with
  | none => rfl
  | some o => cases o <;> simp [mvbaStep, (L.party i hi).alive, onTakeVote, hp, hv] at x

end settled

theorem mem_votersOf {N : ℕ} {sent : List (ℕ × MMsg)} {r : ℕ} {yes : Bool} {k : ℕ} : k ∈ votersOf N sent r yes ↔ k < N ∧ ∃ v sig sh, (k, MMsg.vote r yes v sig sh) ∈ sent := by
  unfold votersOf
  rw [Finset.mem_filter, Finset.mem_range]
  refine and_congr Iff.rfl ⟨?_, ?_⟩
  · rintro ⟨⟨k', m⟩, hx, rfl, hm⟩
    cases m with
    | vote r' y v sig sh =>
      simp only [MMsg.isVote, Bool.and_eq_true, beq_iff_eq] at hm
      obtain ⟨rfl, rfl⟩ := hm
      exact ⟨v, sig, sh, hx⟩
    | _ => simp [MMsg.isVote] at hm
  · rintro ⟨v, sig, sh, hx⟩
    exact ⟨_, hx, rfl, by simp [MMsg.isVote]⟩

section settled
variable {env : MEnv} {full : SMsg → Bytes} (hok : SchemeOk env full) (hN : env.N = 3 * env.F + 1) {input : ℕ → Bytes × Bytes} {evs : List (ℕ × MEvent)} {net : MNet}
    (h : MRun env (Finset.range env.N) ⟨true, true⟩ (MNet.init (Finset.range env.N) input env.N) evs net) (hsrc : ∀ i q m, (i, MEvent.recv q m) ∈ evs → q < env.N) {A : Finset ℕ} (hA : A ⊆ Finset.range env.N)
    (hcard : 2 * env.F + 1 ≤ A.card) (S : MSettledOn env A (Finset.range env.N) net)

include hok hN h hsrc S

/-- A leader known to one party is known to every party that has not returned. -/
theorem settled_leader {k r i : ℕ} (hk : k < env.N) (hl : ((net.party k).rounds r).leader ≠ none) (hi : i < env.N) (ha : i ∈ A) (hu : ¬ (net.party i).hasDecided) (hr : r ≤ (net.party i).round) :
    ((net.party i).rounds r).leader ≠ none := by
  have L := h.live hok hN hsrc
  have C := h.crash hok (by omega) hsrc
  intro hn
  obtain ⟨l, hl⟩ := Option.ne_none_iff_exists'.1 hl
  obtain ⟨K, a, b, c⟩ := ((C.party k (Finset.mem_range.2 hk)).lst r).coins
  have hlen := (((h.inv k (Finset.mem_range.2 hk)).rounds r).lead l hl).1
  have hle := ((h.inv i (Finset.mem_range.2 hi)).rounds r).coins hn
  have := (((L.party i hi).rounds r).don.coins hn).card (S := K.toFinset) fun x hx => by
    obtain ⟨hxN, sh, hd⟩ := c x (List.mem_toFinset.1 hx)
    exact ⟨hxN, sh, settled_done L S hi ha hu hr hn (C.log _ _ _ hd)⟩
  rw [List.toFinset_card_of_nodup a] at this
  rw [b, List.length_map] at hlen
  omega

/-- Whoever has not returned knows more rounds than any decision tells about. -/
theorem settled_late {k r i : ℕ} {v : Bytes} (hk : k < env.N) (hd : (net.party k).phase = .decided r v) (hi : i < env.N) (ha : i ∈ A) (hu : ¬ (net.party i).hasDecided) : (net.party i).round < r := by
  have L := h.live hok hN hsrc
  by_contra hr
  rw [not_lt] at hr
  obtain ⟨-, l, hl, -⟩ := (h.inv k (Finset.mem_range.2 hk)).decided r v hd
  have hli := settled_leader hok hN h hsrc S hk (by rw [hl]; simp) hi ha hu hr
  obtain ⟨k', -, sig, hs⟩ := (L.party k hk).decided r v hd
  exact settled_no_halt L S hi ha hu hok (fun r l hl => crash_leader hok hN h hsrc hi hl) hr hli hs

include hA hcard in
/-- No finished execution has all parties that go on waiting for a leader. -/
theorem settled_all_wait {r : ℕ} (ha : ∀ k ∈ A, ¬ (net.party k).hasDecided ∧ (net.party k).round = r ∧ (net.party k).phase = .wait) : False := by
  have L := h.live hok hN hsrc
  have hlt : ∀ k ∈ A, k < env.N := fun k hk => Finset.mem_range.1 (hA hk)
  -- every first-stage value is echoed
  have s1 : ∀ k ∈ A, ∀ j ∈ A, ((net.party k).rounds r).recv j ≠ .first := by
    intro k hk j hj
    obtain ⟨hu, hr, -⟩ := ha k hk
    obtain ⟨v, val, hm⟩ := (L.party j (hlt j hj)).started r (by rw [(ha j hj).2.1])
    exact settled_value1 L S (hlt k hk) hk hu (by rw [hr]) hm
  have e1 : ∀ k ∈ A, ∀ j ∈ A, ∃ sh, (k, MMsg.echo r j 1 sh) ∈ net.sent := by
    intro k hk j hj
    obtain ⟨hu, hr, hw⟩ := ha k hk
    have := (L.party k (hlt k hk)).echo1 hw j (by rw [hr]; exact s1 k hk j hj)
    rwa [hr] at this
  -- every second stage is over
  have s2 : ∀ j ∈ A, ((net.party j).rounds r).send = .ended := by
    intro j hj
    obtain ⟨hu, hr, hw⟩ := ha j hj
    cases hs : ((net.party j).rounds r).send with
    | ended => rfl
    | first sigs =>
      obtain ⟨a, b, -⟩ := ((L.party j (hlt j hj)).rounds r).ech.first sigs hs
      have := a.card (S := A) fun k hk => by
        obtain ⟨sh, hm⟩ := e1 k hk j hj
        exact ⟨hlt k hk, sh, settled_echo1 L S (hlt j hj) hj hu (by rw [hr]) hm hs⟩
      omega
    | second sigs =>
      obtain ⟨a, b, v, val, hm⟩ := ((L.party j (hlt j hj)).rounds r).ech.second sigs hs
      have := a.card (S := A) fun k hk => by
        obtain ⟨huk, hrk, hwk⟩ := ha k hk
        have hend := settled_value2 L S (hlt k hk) hk huk (by rw [hrk]) hm (s1 k hk j hj)
        obtain ⟨sh, hm2⟩ := (L.party k (hlt k hk)).echo2 hwk j (by rw [hrk]; exact hend)
        rw [hrk] at hm2
        exact ⟨hlt k hk, sh, settled_echo2 L S (hlt j hj) hj hu (by rw [hr]) hm2 hs⟩
      omega
  have f1 : ∀ j ∈ A, ∃ v sig, (j, MMsg.finish r v sig) ∈ net.sent := by
    intro j hj
    obtain ⟨hu, hr, hw⟩ := ha j hj
    have := (L.party j (hlt j hj)).finish hw (by rw [hr]; exact s2 j hj)
    rwa [hr] at this
  have d1 : ∀ j ∈ A, ∃ sh, (j, MMsg.done r sh) ∈ net.sent := by
    intro j hj
    obtain ⟨hu, hr, hw⟩ := ha j hj
    refine settled_elect L S (hlt j hj) hj hu (by rw [hr]) (((L.party j (hlt j hj)).rounds r).fin.flag ?_)
    obtain ⟨K, a, b, c⟩ := ((L.party j (hlt j hj)).rounds r).fin.finLen
    rw [b, ← List.toFinset_card_of_nodup a]
    exact hcard.trans (Finset.card_le_card fun k hk => by
      obtain ⟨v, sig, hm⟩ := f1 k hk
      exact List.mem_toFinset.2 ((c k).2 ⟨hlt k hk, v, sig, settled_finish L S (hlt j hj) hj hu (by rw [hr]) hm⟩))
  obtain ⟨j, hj⟩ : A.Nonempty := Finset.card_pos.1 (by omega)
  obtain ⟨hu, hr, hw⟩ := ha j hj
  have hn := settled_wait L S (hlt j hj) hj hu hw
  rw [hr] at hn
  have hle := ((h.inv j (hA hj)).rounds r).coins hn
  have := (((L.party j (hlt j hj)).rounds r).don.coins hn).card (S := A) fun x hx => by
    obtain ⟨sh, hd⟩ := d1 x hx
    exact ⟨hlt x hx, sh, settled_done L S (hlt j hj) hj hu (by rw [hr]) hn hd⟩
  omega

include hA hcard in
/-- A finished execution without corrupt parties: everybody who goes on has returned, or the votes of some round were split. -/
theorem settled_decided_or_split : (∀ i ∈ A, (net.party i).hasDecided) ∨ ∃ r, SplitVote env.N env.F net.sent r := by
  classical
  by_contra hcon
  rw [not_or] at hcon
  obtain ⟨hx, hsplit⟩ := hcon
  rw [not_forall] at hx
  obtain ⟨i0, hx⟩ := hx
  rw [Classical.not_imp] at hx
  obtain ⟨hi0, hu0⟩ := hx
  obtain ⟨i, hiS, hmin⟩ := Finset.exists_min_image (A.filter fun k => ¬ (net.party k).hasDecided) (fun k => (net.party k).round)
    ⟨i0, Finset.mem_filter.2 ⟨hi0, hu0⟩⟩
  rw [Finset.mem_filter] at hiS
  obtain ⟨ha, hu⟩ := hiS
  have L := h.live hok hN hsrc
  have C := h.crash hok (by omega) hsrc
  obtain ⟨r, hr⟩ : ∃ r, r = (net.party i).round := ⟨_, rfl⟩
  have hlt : ∀ k ∈ A, k < env.N := fun k hk => Finset.mem_range.1 (hA hk)
  have hi := hlt i ha
  have hround : ∀ k ∈ A, r ≤ (net.party k).round := by
    intro k hk
    by_cases hd : (net.party k).hasDecided
    · obtain ⟨r', v, hp⟩ := hd
      have := settled_late hok hN h hsrc S (hlt k hk) hp hi ha hu
      have := ((h.inv k (hA hk)).decided r' v hp).1
      omega
    · rw [hr]; exact hmin k (Finset.mem_filter.2 ⟨hk, hd⟩)
  have hund : ∀ k ∈ A, (net.party k).round = r → ¬ (net.party k).hasDecided := by
    rintro k hk e ⟨r', v, hp⟩
    have := settled_late hok hN h hsrc S (hlt k hk) hp hi ha hu
    have := ((h.inv k (hA hk)).decided r' v hp).1
    omega
  have hjoin : ∀ k ∈ A, ¬ (net.party k).hasDecided → (net.party k).phase = .wait ∨ ∃ l, (net.party k).phase = .result l := by
    intro k hk hd
    cases hp : (net.party k).phase with
    | wait => exact Or.inl rfl
    | join l => exact absurd hp (settled_no_join L S (hlt k hk) hk hd l)
    | result l => exact Or.inr ⟨l, rfl⟩
    | decided r' v => exact absurd ⟨r', v, hp⟩ hd
  rcases hjoin i ha hu with hw | ⟨l, hres⟩
  · have hn := settled_wait L S hi ha hu hw
    rw [← hr] at hn
    have hnone : ∀ k < env.N, ((net.party k).rounds r).leader = none := by
      intro k hk
      by_contra hne
      exact settled_leader hok hN h hsrc S hk hne hi ha hu (by rw [hr]) hn
    refine settled_all_wait hok hN h hsrc hA hcard S (r := r) fun k hk => ?_
    have hrk : (net.party k).round = r := by
      by_contra hne
      have := hround k hk
      exact ((L.party k (hlt k hk)).past r (by omega)).2 (hnone k (hlt k hk))
    have huk := hund k hk hrk
    refine ⟨huk, hrk, ?_⟩
    rcases hjoin k hk huk with x | ⟨l, x⟩
    · exact x
    · have := (h.inv k (hA hk)).join l (Or.inr x)
      rw [hrk, hnone k (hlt k hk)] at this
      cases this
  · have hvo := settled_result L S hi ha hu hres
    rw [← hr] at hvo
    have hli : ((net.party i).rounds r).leader ≠ none := by
      rw [hr, (h.inv i (Finset.mem_range.2 hi)).join l (Or.inr hres)]; simp
    -- everybody has passed `wg.Wait` of this round
    have hsp : ∀ k ∈ A, ((net.party k).rounds r).voteSpawned = true := by
      intro k hk
      by_cases hrk : (net.party k).round = r
      · have huk := hund k hk hrk
        rcases hjoin k hk huk with x | ⟨l, x⟩
        · have hn := settled_wait L S (hlt k hk) hk huk x
          rw [hrk] at hn
          exact absurd hn (settled_leader hok hN h hsrc S hi hli (hlt k hk) hk huk (by rw [hrk]))
        · have := (L.party k (hlt k hk)).result l x
          rwa [hrk] at this
      · have := hround k hk
        exact ((L.party k (hlt k hk)).past r (by omega)).1
    have hvotes : ∀ k ∈ A, ¬ (net.party k).hasDecided → ∃ yes v sig sh, (k, MMsg.vote r yes v sig sh) ∈ net.sent := by
      intro k hk huk
      have hlk := settled_leader hok hN h hsrc S hi hli (hlt k hk) hk huk (hround k hk)
      refine settled_voted L S (hlt k hk) hk huk (hround k hk) (hsp k hk) hlk ?_
      by_cases hy : ∃ q v sig, (q, MMsg.prevote r true v sig) ∈ net.sent
      · obtain ⟨q, v, sig, hm⟩ := hy
        exact ((L.party k (hlt k hk)).rounds r).pv.pvYes q v sig (settled_prevote L S (hlt k hk) hk huk (hround k hk) hlk hm)
      · refine ((L.party k (hlt k hk)).rounds r).pv.pvNo ?_
        have := ((L.party k (hlt k hk)).rounds r).pv.pn.card (S := A) fun q hq => by
          obtain ⟨yes, v, sig, hm⟩ := ((L.party q (hlt q hq)).rounds r).pv.spawned (hsp q hq)
          cases yes with
          | true => exact absurd ⟨q, v, sig, hm⟩ hy
          | false => exact ⟨hlt q hq, v, sig, settled_prevote L S (hlt k hk) hk huk (hround k hk) hlk hm⟩
        omega
    -- all votes have reached party i
    have hiY : (votersOf env.N net.sent r true).card ≤ ((net.party i).rounds r).VYr.length := by
      obtain ⟨v, a, -⟩ := ((L.party i hi).rounds r).vot.vy
      refine a.card fun k hk => ?_
      obtain ⟨hkN, v, sig, sh, hm⟩ := mem_votersOf.1 hk
      exact ⟨hkN, v, sig, sh, settled_vote L S hi ha hu (by rw [hr]) hli hm⟩
    have hiN : (votersOf env.N net.sent r false).card ≤ ((net.party i).rounds r).VNr.length := by
      refine ((L.party i hi).rounds r).vot.vn.card fun k hk => ?_
      obtain ⟨hkN, v, sig, sh, hm⟩ := mem_votersOf.1 hk
      exact ⟨hkN, v, sig, sh, settled_vote L S hi ha hu (by rw [hr]) hli hm⟩
    have hYle : (votersOf env.N net.sent r true).card ≤ 2 * env.F := by
      by_contra hc
      have := ((L.party i hi).rounds r).vot.voY (by omega)
      rw [hvo] at this
      cases this
    have hNle : (votersOf env.N net.sent r false).card ≤ 2 * env.F := by
      by_contra hc
      have := ((L.party i hi).rounds r).vot.voN (by omega)
      rw [hvo] at this
      cases this
    -- at least 2F+1 parties have voted
    have hmany : 2 * env.F + 1 ≤ (votersOf env.N net.sent r true).card + (votersOf env.N net.sent r false).card := by
      by_cases hall : ∀ k ∈ A, ¬ (net.party k).hasDecided
      · have : A.card ≤ (votersOf env.N net.sent r true ∪ votersOf env.N net.sent r false).card := Finset.card_le_card fun k hk => by
          obtain ⟨yes, v, sig, sh, hm⟩ := hvotes k hk (hall k hk)
          rw [Finset.mem_union]
          cases yes with
          | true => exact Or.inl (mem_votersOf.2 ⟨hlt k hk, v, sig, sh, hm⟩)
          | false => exact Or.inr (mem_votersOf.2 ⟨hlt k hk, v, sig, sh, hm⟩)
        have h2 := Finset.card_union_le (votersOf env.N net.sent r true) (votersOf env.N net.sent r false)
        omega
      · rw [not_forall] at hall
        obtain ⟨k, hall⟩ := hall
        rw [Classical.not_imp, not_not] at hall
        obtain ⟨hk, hd⟩ := hall
        have hrk : r < (net.party k).round := by
          rcases Nat.lt_or_eq_of_le (hround k hk) with x | x
          · exact x
          · exact absurd hd (hund k hk x.symm)
        have hsome : ((net.party k).rounds r).voteOut.isSome := by
          rcases (C.party k (hA hk)).next r hrk with ⟨⟨sig, a⟩, -⟩ | ⟨v, sig, a, -⟩
          · rw [a]; rfl
          · rw [a]; rfl
        have hcount := ((L.party k (hlt k hk)).rounds r).vot.voCount hsome
        obtain ⟨v, a, -⟩ := ((L.party k (hlt k hk)).rounds r).vot.vy
        obtain ⟨Y, y1, y2⟩ := a.set
        obtain ⟨M, m1, m2⟩ := ((L.party k (hlt k hk)).rounds r).vot.vn.set
        have hY : Y.card ≤ (votersOf env.N net.sent r true).card := Finset.card_le_card fun q hq => by
          obtain ⟨hqN, v, sig, sh, hm⟩ := y2 q hq
          exact mem_votersOf.2 ⟨hqN, v, sig, sh, C.log _ _ _ hm⟩
        have hM : M.card ≤ (votersOf env.N net.sent r false).card := Finset.card_le_card fun q hq => by
          obtain ⟨hqN, v, sig, sh, hm⟩ := m2 q hq
          exact mem_votersOf.2 ⟨hqN, v, sig, sh, C.log _ _ _ hm⟩
        omega
    exact hsplit ⟨r, Finset.card_pos.1 (by omega), Finset.card_pos.1 (by omega), hYle, hNle⟩

end settled

end DyCAPS
