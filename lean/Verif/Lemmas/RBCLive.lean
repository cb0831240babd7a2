import Verif.Lemmas.RBCSafe
import Verif.Props.Bytes

/-!
# Reliable broadcast: invariants for an honest broadcaster
-/

namespace DyCAPS

theorem step_noPropose {env : REnv} {st s' : RState} {rev : REvent} {out : List ROut} (hst : rbcStep env st rev = some (s', out)) : ∀ o ∈ out, o.kind ≠ .propose := by
  intro o ho hk
  simp only [rbcStep] at hst
  split at hst
  · cases hst
  cases rev with
  | propose d =>
    simp only at hst
    split at hst
    · cases hst
    · split at hst
      · cases hst; cases ho
      · cases hst
        obtain ⟨i, _, rfl⟩ := List.mem_map.1 ho
        cases hk
  | echo d =>
    simp only at hst
    split at hst
    · have e := congrArg Prod.snd (Option.some.inj hst)
      subst e
      have : o ∈ (if (!st.readySent && decide (env.N - env.F ≤ st.echo (echoPayload d).hash (echoPayload d).m + 1)) = true then
          rBroadcast env.N .ready (marshal (⟨(echoPayload d).hash, (echoPayload d).m⟩ : PRBCReady)) else []) := by
        revert ho
        unfold onEcho
        simp only
        split
        · split
          · exact fun h => h
          · exact fun h => h
        · exact fun h => h
      split at this
      · obtain ⟨i, _, rfl⟩ := List.mem_map.1 this
        cases hk
      · cases this
    · cases hst
  | ready s d =>
    simp only at hst
    split at hst
    · cases hst; cases ho
    · cases hst
  | echoPush =>
    simp only at hst
    split at hst
    · split at hst
      · cases hst; cases ho
      · cases hst
    · cases hst
  | echoQuit =>
    simp only at hst
    split at hst
    · cases hst; cases ho
    · cases hst
  | readyStep =>
    simp only [onReadyStep] at hst
    split at hst
    · cases hst
    all_goals try split at hst
    all_goals cases hst
    all_goals try (cases ho)
    obtain ⟨i, _, rfl⟩ := List.mem_map.1 ho
    cases hk
  | main =>
    simp only [Option.map_eq_some_iff, Prod.mk.injEq] at hst
    obtain ⟨_, _, _, rfl⟩ := hst
    cases ho

/-- Proposals sent by honest parties come from their calls of `RBCSend` and `RBCSendExclude`. -/
theorem propose_sent {env : REnv} {H : Finset ℕ} {evs : List NEvent} {net : RNet} (hr : NRun env H RNet.init evs net) :
    ∀ s o, (s, o) ∈ net.sent → o.kind = .propose → ∃ M, (.send s M ∈ evs ∨ ∃ x, .sendExcl s M x ∈ evs) ∧ o.data = marshal M := by
  induction hr with
  | nil => intro s o h; cases h
  | @snoc evs net ev net' hrun hs ih =>
    intro s o ho hk
    have old : (s, o) ∈ net.sent → ∃ M, (.send s M ∈ evs ++ [ev] ∨ ∃ x, .sendExcl s M x ∈ evs ++ [ev]) ∧ o.data = marshal M := fun h => by
      obtain ⟨M, h1, h2⟩ := ih s o h hk
      exact ⟨M, h1.imp (List.mem_append_left _) (fun ⟨x, h⟩ => ⟨x, List.mem_append_left _ h⟩), h2⟩
    have step : ∀ j rev, net.at_ env j rev = some net' → ∃ M, (.send s M ∈ evs ++ [ev] ∨ ∃ x, .sendExcl s M x ∈ evs ++ [ev]) ∧ o.data = marshal M := by
      intro j rev hat
      simp only [RNet.at_, Option.map_eq_some_iff, Prod.exists] at hat
      obtain ⟨s', out, hst, rfl⟩ := hat
      rcases List.mem_append.1 ho with h | h
      · exact old h
      · exfalso
        obtain ⟨o', h1, h2⟩ := List.mem_map.1 h
        cases h2
        have hnp : ∀ o ∈ out, o.kind ≠ .propose := step_noPropose hst
        exact hnp o h1 hk
    cases ev with
    | send b M =>
      simp only [netStep] at hs
      split at hs
      · cases hs
        rcases List.mem_append.1 ho with h | h
        · exact old h
        · simp only [rBroadcast, List.map_map, List.mem_map, Function.comp] at h
          obtain ⟨k, _, h2⟩ := h
          cases h2
          exact ⟨M, Or.inl (by simp), rfl⟩
      · cases hs
    | sendExcl b M x =>
      simp only [netStep] at hs
      split at hs
      · cases hs
        rcases List.mem_append.1 ho with h | h
        · exact old h
        · obtain ⟨o', h1, h2⟩ := List.mem_map.1 h
          cases h2
          obtain ⟨_, _, _, rfl⟩ := mem_excl h1
          exact ⟨M, Or.inr ⟨x, by simp⟩, rfl⟩
      · cases hs
    | deliver j k src d =>
      simp only [netStep] at hs
      split at hs
      · exact step _ _ hs
      · cases hs
    | run j ev =>
      simp only [netStep] at hs
      split at hs
      · exact step _ _ hs
      · cases hs

/-- With an honest broadcaster only its message is ever proposed. -/
theorem cast_propose {env : REnv} (ok : env.Ok) {H : Finset ℕ} (hH : HonestSet env H) {evs : List NEvent} {net : RNet} (hr : NRun env H RNet.init evs net) (hone : EchoOnce evs)
    {b : ℕ} (hb : b ∈ H) {M : PMessage} (hc : HonestCast b M evs) {j s : ℕ} {D : Bytes} (hd : .deliver j .propose s D ∈ evs) : D = marshal M := by
  obtain ⟨hi, _⟩ := safe_inv ok hH hr hone
  have e := hc.src j s D hd
  subst e
  obtain ⟨M', h1, h2⟩ := propose_sent hr _ _ ((hi.auth _ _ _ _ hd).2.2 hb) rfl
  have e : M' = M := by
    rcases h1 with h1 | ⟨x, h1⟩
    · exact hc.only M' h1
    · exact hc.only_excl M' x h1
  rw [e] at h2
  exact h2

theorem HonestCast.one {env : REnv} (ok : env.Ok) {H : Finset ℕ} (hH : HonestSet env H) {evs : List NEvent} {net : RNet} (hr : NRun env H RNet.init evs net) (hone : EchoOnce evs)
    {b : ℕ} (hb : b ∈ H) {M : PMessage} (hc : HonestCast b M evs) : OneProposal (marshal M) evs := fun _ _ _ hd => cast_propose ok hH hr hone hb hc hd

/-- With one proposal only its hash is justified; honest Echoes carry the true shards. -/
theorem cast_echo {env : REnv} (ok : env.Ok) {H : Finset ℕ} (hH : HonestSet env H) {evs : List NEvent} {net : RNet} (hr : NRun env H RNet.init evs net) (hone : EchoOnce evs)
    {D : Bytes} (hc : OneProposal D evs) {s : ℕ} (hs : s ∈ H) {o : ROut} (ho : (s, o) ∈ net.sent) (hk : o.kind = .echo) :
    D.length < 2 ^ 32 ∧ ∃ sh, env.rs.encode D = some sh ∧ o.data = marshal (⟨echoHash env D, sh.getD o.dst []⟩ : PRBCEcho) := by
  obtain ⟨hi, _⟩ := safe_inv ok hH hr hone
  rcases hi.echo s hs with ⟨_, h1⟩ | ⟨_, D', src, h1, h2⟩
  · exact absurd hk (h1 o ho)
  · have e := hc _ _ _ h1
    subst e
    exact ⟨(hi.auth _ _ _ _ h1).2.1, h2 o ho hk⟩

theorem cast_justified {env : REnv} (ok : env.Ok) {H : Finset ℕ} (hH : HonestSet env H) {evs : List NEvent} {net : RNet} (hr : NRun env H RNet.init evs net) (hone : EchoOnce evs)
    {D : Bytes} (hc : OneProposal D evs) {h : Bytes} (hj : Justified env H net.sent h) :
    h = echoHash env D := by
  obtain ⟨Q, h1, h2, h3⟩ := hj
  have hsz := ok.size
  obtain ⟨s, hs, hsH⟩ := exists_honest hH (by omega) h2 (by omega)
  obtain ⟨o, ho, hk, he⟩ := h3 s hs hsH
  obtain ⟨hl, sh, e1, e2⟩ := cast_echo ok hH hr hone hc hsH ho hk
  rw [e2, echo_decode ok hl e1] at he
  exact he.symm

/-! ## Reconstruction -/

theorem placeShards_spec (N : ℕ) (l : List (ℕ × Bytes)) (M0 : List Bytes) (hl : ∀ x ∈ l, x.1 < N) (h0 : M0.length = N) :
    ∃ M, placeShards N l M0 = some M ∧ M.length = N ∧ (∀ i, i ∉ l.map Prod.fst → M.getD i [] = M0.getD i []) ∧
      ((l.map Prod.fst).Nodup → ∀ x ∈ l, M.getD x.1 [] = x.2) := by
  induction l generalizing M0 with
  | nil => exact ⟨M0, rfl, h0, fun _ _ => rfl, fun _ x hx => by cases hx⟩
  | cons y ys ih =>
    obtain ⟨j, m⟩ := y
    have hj : j < N := hl (j, m) (by simp)
    obtain ⟨M, h1, h2, h3, h4⟩ := ih (M0.set j m) (fun x hx => hl x (by simp [hx])) (by simpa using h0)
    refine ⟨M, by simp only [placeShards, if_pos hj]; exact h1, h2, ?_, ?_⟩
    · intro i hi
      simp only [List.map_cons, List.mem_cons, not_or] at hi
      rw [h3 i hi.2, List.getD_eq_getElem?_getD, List.getElem?_set_ne (Ne.symm hi.1), ← List.getD_eq_getElem?_getD]
    · intro hnd x hx
      simp only [List.map_cons, List.nodup_cons] at hnd
      rcases List.mem_cons.1 hx with rfl | hx
      · rw [h3 j hnd.1, List.getD_eq_getElem?_getD, List.getElem?_set_self (by omega)]; rfl
      · exact h4 hnd.2 x hx

theorem snapshot_take (n : ℕ) (l : List (ℕ × Bytes)) (h : n ≤ l.length) : snapshot n l = l.take n := by
  apply List.ext_getElem
  · simp [snapshot, h]
  · intro i h1 h2
    simp only [snapshot, List.length_map, List.length_range] at h1
    simp only [snapshot, List.getElem_map, List.getElem_range, List.getElem_take]
    exact List.getD_eq_getElem _ _ (by omega)

theorem shard_ne {env : REnv} (ok : env.Ok) {D : Bytes} {sh : List Bytes} (he : env.rs.encode D = some sh) {i : ℕ} (hi : i < env.N) : sh.getD i [] ≠ [] := by
  have hl := ok.encode_len D sh he
  rw [List.getD_eq_getElem _ _ (by omega)]
  have := (ok.shard_len D sh he _ (List.getElem_mem (n := i) (by omega))).1
  intro h0
  rw [h0] at this
  simp at this

/-- Enough true shards give back the data. -/
theorem decode_ok {env : REnv} (ok : env.Ok) {D : Bytes} {sh : List Bytes} (he : env.rs.encode D = some sh) {l : List (ℕ × Bytes)} (hlt : ∀ x ∈ l, x.1 < env.N)
    (hnd : (l.map Prod.fst).Nodup) (htrue : ∀ x ∈ l, x.2 = sh.getD x.1 []) (hlen : env.N - (env.F + 1) ≤ l.length) :
    ∃ M, placeShards env.N l (List.replicate env.N []) = some M ∧ D <+: ((env.rs.fill M).take (env.N - (env.F + 1))).flatten := by
  obtain ⟨M, h1, h2, h3, h4⟩ := placeShards_spec env.N l (List.replicate env.N []) hlt (by simp)
  refine ⟨M, h1, ?_⟩
  have hfill : env.rs.fill M = sh := by
    apply ok.fill_ok D sh M he h2
    · intro i hi
      by_cases hm : i ∈ l.map Prod.fst
      · obtain ⟨x, hx, rfl⟩ := List.mem_map.1 hm
        left
        rw [h4 hnd x hx, htrue x hx]
      · right
        rw [h3 i hm]
        simp [List.getD_eq_getElem?_getD, hi]
    · have hsub : (l.map Prod.fst).toFinset ⊆ ((List.range env.N).filter fun i => decide (M.getD i [] ≠ [])).toFinset := by
        intro i hi
        obtain ⟨x, hx, rfl⟩ := List.mem_map.1 (List.mem_toFinset.1 hi)
        have := hlt x hx
        simp only [List.mem_toFinset, List.mem_filter, List.mem_range, decide_eq_true_eq]
        refine ⟨this, ?_⟩
        rw [h4 hnd x hx, htrue x hx]
        exact shard_ne ok he this
      have hc := Finset.card_le_card hsub
      rw [List.toFinset_card_of_nodup hnd, List.toFinset_card_of_nodup (List.nodup_range.filter _), List.length_map] at hc
      omega
  rw [hfill]
  exact ok.systematic D sh he

/-! ## The invariant for liveness -/

/-- The hash the Ready goroutine is working on. -/
def posHash : ReadyPos → Option Bytes
  | .idle => none
  | .check h => some h
  | .wait h => some h
  | .got h _ => some h
  | .send h _ => some h
  | .fin h => some h

/-- Progress of the body of the function. -/
def LiveMain (env : REnv) (D : Bytes) (maxN : ℕ) (maxH : Bytes) : MainPos → Prop
  | .start => env.F + 1 ≤ maxN → maxH = echoHash env D
  | .poll r => env.N - env.F + r ≤ maxN ∧ maxH = echoHash env D
  | .locked r => env.N - env.F + r ≤ maxN ∧ maxH = echoHash env D
  | .gotM r rec => env.N - env.F + r ≤ maxN ∧ maxH = echoHash env D ∧ D <+: rec
  | .gotLen r rec n => env.N - env.F + r ≤ maxN ∧ maxH = echoHash env D ∧ D <+: rec ∧ n = D.length
  | .trunc r rec n v => env.N - env.F + r ≤ maxN ∧ maxH = echoHash env D ∧ D <+: rec ∧ n = D.length ∧ v = env.sha D
  | .cmp r m => m = D ∧ (maxH = env.sha D ∨ (maxH = echoHash env D ∧ env.N - env.F + r + 1 ≤ maxN)) ∧ env.N - env.F + r ≤ maxN
  | .returned res => res = some D

structure LiveInv (env : REnv) (D : Bytes) (sh : List Bytes) (evs : List NEvent) (sent : List (ℕ × ROut)) (j : ℕ) (s : RState) : Prop where
  alive : s.dead = false
  nblk : ∀ h m, s.echoPos ≠ .blocked h m
  clen : s.readyChan.length ≤ (echoSenders evs j).length
  done : s.echoPos = .done → s.readySent = true
  quo : ∀ h m, env.N - env.F ≤ s.echo h m → s.readySent = true
  cch : ∀ x ∈ s.readyChan, env.F + 1 ≤ s.echo x.1 x.2
  got : ∀ h r, s.readyPos = .got h r → env.F + 1 ≤ s.echo r.1 r.2
  snd : ∀ h m, s.readyPos = .send h m → ∃ h', env.F + 1 ≤ s.echo h' m
  wch : (s.readySent = false ∨ ∃ h, s.readyPos = .wait h) → (∀ h r, s.readyPos ≠ .got h r) → (∀ h m, s.readyPos ≠ .send h m) →
    (∃ h m, env.F + 1 ≤ s.echo h m) → s.readyChan ≠ []
  rs : s.readySent = true → ∃ h m, env.F + 1 ≤ s.echo h m
  rdy : ∀ h, env.F + 1 ≤ (s.T h).length → s.readySent = true ∨ (posHash s.readyPos = some h ∧ s.readyPos ≠ .fin h)
  rout : s.readySent = true → ∀ i, i < env.N → (j, (⟨i, .ready, marshal (⟨echoHash env D, sh.getD j []⟩ : PRBCReady)⟩ : ROut)) ∈ sent
  pout : s.proposed = true → ∀ i, i < env.N → (j, (⟨i, .echo, marshal (⟨echoHash env D, sh.getD i []⟩ : PRBCEcho)⟩ : ROut)) ∈ sent
  dlv : ∀ src d, .deliver j .ready src d ∈ evs → s.seen src = true
  seenT : ∀ i, s.seen i = true → ∃ h m, (i, m) ∈ s.T h
  tsh : ∀ x ∈ s.T (echoHash env D), x.2 = sh.getD x.1 []
  dec : ∀ h, env.N - env.F ≤ (s.T h).length → s.decStart = true ∨ posHash s.readyPos = some h
  decN : s.decStart = true → env.N - env.F ≤ s.maxN
  mle : ∀ h, (s.T h).length ≤ s.maxN
  meq : env.F + 1 ≤ s.maxN → s.maxN = (s.T (echoHash env D)).length
  main : LiveMain env D s.maxN s.maxH s.mainPos

theorem liveInv_init (env : REnv) (ok : env.Ok) (D : Bytes) (sh : List Bytes) (j : ℕ) : LiveInv env D sh [] [] j RState.init := by
  have := ok.size
  constructor <;> simp [RState.init, echoSenders, LiveMain, posHash] <;> omega

theorem LiveInv.mono {env : REnv} {D : Bytes} {sh : List Bytes} {evs evs' : List NEvent} {s1 s2 : List (ℕ × ROut)} {j : ℕ} {s : RState} (h : LiveInv env D sh evs s1 j s)
    (hs : s1 ⊆ s2) (he : (echoSenders evs j).length ≤ (echoSenders evs' j).length) (hd : ∀ src d, .deliver j .ready src d ∈ evs' → .deliver j .ready src d ∈ evs) :
    LiveInv env D sh evs' s2 j s :=
  { h with
    clen := h.clen.trans he
    rout := fun hr i hi => hs (h.rout hr i hi)
    pout := fun hr i hi => hs (h.pout hr i hi)
    dlv := fun src d hm => h.dlv src d (hd src d hm) }

theorem live_echo {env : REnv} (ok : env.Ok) {D : Bytes} {sh : List Bytes} {evs evs' : List NEvent} {sent : List (ℕ × ROut)} {j : ℕ} {s : RState} {h m : Bytes}
    (hl : LiveInv env D sh evs sent j s) (hn : (echoSenders evs j).length + 1 ≤ env.N) (hn' : (echoSenders evs' j).length = (echoSenders evs j).length + 1)
    (hd : ∀ src d, .deliver j .ready src d ∈ evs' → .deliver j .ready src d ∈ evs)
    (hE : env.F + 1 ≤ s.echo h m + 1 → h = echoHash env D ∧ m = sh.getD j []) :
    LiveInv env D sh evs' (sent ++ (onEcho env s h m).2.map fun o => (j, o)) j (onEcho env s h m).1 ∧
    ∀ o ∈ (onEcho env s h m).2, o.data = marshal (⟨echoHash env D, sh.getD j []⟩ : PRBCReady) := by
  have hsz := ok.size
  have hch : s.readyChan.length < env.N := by have := hl.clen; omega
  have hge : ∀ h' m', s.echo h' m' ≤ if h' = h ∧ m' = m then s.echo h m + 1 else s.echo h' m' := by
    intro h' m'
    split
    · rename_i hc; obtain ⟨rfl, rfl⟩ := hc; omega
    · exact le_rfl
  have hsub : sent ⊆ sent ++ (onEcho env s h m).2.map fun o => (j, o) := List.subset_append_left _ _
  by_cases hF : env.F + 1 ≤ s.echo h m + 1
  · obtain ⟨rfl, rfl⟩ := hE hF
    generalize hout : (if (!s.readySent && decide (env.N - env.F ≤ s.echo (echoHash env D) (sh.getD j []) + 1)) = true then
      rBroadcast env.N .ready (marshal (⟨echoHash env D, sh.getD j []⟩ : PRBCReady)) else []) = out
    have e : onEcho env s (echoHash env D) (sh.getD j []) =
        ({ s with
            echo := fun h' m' => if h' = echoHash env D ∧ m' = sh.getD j [] then s.echo (echoHash env D) (sh.getD j []) + 1 else s.echo h' m'
            readySent := s.readySent || (!s.readySent && decide (env.N - env.F ≤ s.echo (echoHash env D) (sh.getD j []) + 1))
            readyChan := s.readyChan ++ [(echoHash env D, sh.getD j [])]
            echoPos := if (s.readySent || (!s.readySent && decide (env.N - env.F ≤ s.echo (echoHash env D) (sh.getD j []) + 1))) = true then .done else .running }, out) := by
      rw [← hout]
      unfold onEcho
      simp only [if_pos hF, if_pos hch]
    rw [e]
    have hdat : ∀ o ∈ out, o.data = marshal (⟨echoHash env D, sh.getD j []⟩ : PRBCReady) := by
      intro o ho
      rw [← hout] at ho
      split at ho
      · obtain ⟨i, _, rfl⟩ := List.mem_map.1 ho; rfl
      · cases ho
    refine ⟨?_, hdat⟩
    have hsub : sent ⊆ sent ++ out.map fun o => (j, o) := List.subset_append_left _ _
    exact
    { alive := hl.alive
      nblk := by intro h' m' hb; simp only at hb; split at hb <;> cases hb
      clen := by
        have := hl.clen
        simp only [List.length_append, List.length_cons, List.length_nil]; omega
      done := by
        intro hdn
        simp only at hdn ⊢
        split at hdn
        · assumption
        · cases hdn
      quo := by
        intro h' m' hq
        simp only at hq ⊢
        split at hq
        · rw [decide_eq_true hq]; cases s.readySent <;> rfl
        · simp [hl.quo h' m' hq]
      cch := by
        intro x hx
        rcases List.mem_append.1 hx with hx | hx
        · exact (hl.cch x hx).trans (hge _ _)
        · rw [List.mem_singleton.1 hx]
          simp only [and_self, if_true]; exact hF
      got := fun h' r hr => (hl.got h' r hr).trans (hge _ _)
      snd := fun h' m' hr => by
        obtain ⟨h'', h1⟩ := hl.snd h' m' hr
        exact ⟨h'', h1.trans (hge _ _)⟩
      wch := fun _ _ _ _ => by simp
      rs := fun _ => ⟨echoHash env D, sh.getD j [], by simp only [and_self, if_true]; exact hF⟩
      rdy := fun h' hh => (hl.rdy h' hh).imp (fun h => by simp [h]) id
      rout := by
        intro hr i hi
        simp only at hr
        cases hrs : s.readySent with
        | true => exact hsub (hl.rout hrs i hi)
        | false =>
          rw [hrs] at hr hout
          simp only [Bool.not_false, Bool.true_and, Bool.false_or, decide_eq_true_eq] at hr hout
          rw [if_pos hr] at hout
          refine List.mem_append_right _ (List.mem_map.2 ⟨_, ?_, rfl⟩)
          rw [← hout]
          exact List.mem_map.2 ⟨i, List.mem_range.2 hi, rfl⟩
      pout := fun hp i hi => hsub (hl.pout hp i hi)
      dlv := fun src d hm => hl.dlv src d (hd src d hm)
      seenT := hl.seenT
      tsh := hl.tsh
      dec := hl.dec
      decN := hl.decN
      mle := hl.mle
      meq := hl.meq
      main := hl.main }
  · have hq : ¬ env.N - env.F ≤ s.echo h m + 1 := by omega
    have e : onEcho env s h m =
        ({ s with
            echo := fun h' m' => if h' = h ∧ m' = m then s.echo h m + 1 else s.echo h' m'
            echoPos := if s.readySent = true then .done else .running }, []) := by
      unfold onEcho
      simp only [if_neg hF, decide_eq_false hq, Bool.and_false, Bool.or_false, Bool.false_eq_true, if_false]
    rw [e]
    have hex : (∃ h' m', env.F + 1 ≤ if h' = h ∧ m' = m then s.echo h m + 1 else s.echo h' m') → ∃ h' m', env.F + 1 ≤ s.echo h' m' := by
      rintro ⟨h', m', hc⟩
      split at hc
      · exact absurd hc hF
      · exact ⟨h', m', hc⟩
    refine ⟨?_, by simp⟩
    exact
    { alive := hl.alive
      nblk := by intro h' m' hb; simp only at hb; split at hb <;> cases hb
      clen := by have := hl.clen; simp only; omega
      done := by
        intro hdn
        simp only at hdn ⊢
        split at hdn
        · assumption
        · cases hdn
      quo := by
        intro h' m' hq'
        simp only at hq'
        split at hq'
        · exact absurd hq' hq
        · exact hl.quo h' m' hq'
      cch := fun x hx => (hl.cch x hx).trans (hge _ _)
      got := fun h' r hr => (hl.got h' r hr).trans (hge _ _)
      snd := fun h' m' hr => by
        obtain ⟨h'', h1⟩ := hl.snd h' m' hr
        exact ⟨h'', h1.trans (hge _ _)⟩
      wch := fun h1 h2 h3 h4 => hl.wch h1 h2 h3 (hex h4)
      rs := fun hr => by
        obtain ⟨h', m', h1⟩ := hl.rs hr
        exact ⟨h', m', h1.trans (hge _ _)⟩
      rdy := hl.rdy
      rout := by simpa using hl.rout
      pout := by simpa using hl.pout
      dlv := fun src d hm => hl.dlv src d (hd src d hm)
      seenT := hl.seenT
      tsh := hl.tsh
      dec := hl.dec
      decN := hl.decN
      mle := hl.mle
      meq := hl.meq
      main := hl.main }

theorem live_ready {env : REnv} (ok : env.Ok) {D : Bytes} {sh : List Bytes} {evs evs' : List NEvent} {sent : List (ℕ × ROut)} {j src : ℕ} {s : RState} {h m : Bytes}
    (hl : LiveInv env D sh evs sent j s) (hn : echoSenders evs' j = echoSenders evs j) (hidle : s.readyPos = .idle)
    (hd : ∀ src' d, .deliver j .ready src' d ∈ evs' → src' = src ∨ .deliver j .ready src' d ∈ evs)
    (hJ : env.F + 1 ≤ ((onReady s src h m).T h).length → h = echoHash env D)
    (htrue : s.seen src = false → h = echoHash env D → m = sh.getD src []) :
    LiveInv env D sh evs' sent j (onReady s src h m) := by
  have hsz := ok.size
  by_cases hseen : s.seen src = true
  · rw [onReady, if_pos hseen]
    exact { hl with
      clen := by rw [hn]; exact hl.clen
      dlv := fun src' d hm => by
        rcases hd src' d hm with rfl | h1
        · exact hseen
        · exact hl.dlv src' d h1 }
  · have hseenf : s.seen src = false := by simpa using hseen
    have hTe : (if h = h then s.T h ++ [(src, m)] else s.T h) = s.T h ++ [(src, m)] := if_pos rfl
    have hT : ∀ h', ((if h' = h then s.T h ++ [(src, m)] else s.T h') : List (ℕ × Bytes)) = if h' = h then s.T h ++ [(src, m)] else s.T h' := fun _ => rfl
    have hTlen : ((onReady s src h m).T h).length = (s.T h).length + 1 := by
      unfold onReady
      rw [if_neg hseen]
      simp only
      split <;> simp
    rw [hTlen] at hJ
    have hmem : ∀ h' x, x ∈ (if h' = h then s.T h ++ [(src, m)] else s.T h') → x ∈ s.T h' ∨ (h' = h ∧ x = (src, m)) := by
      intro h' x hx
      split at hx
      · rename_i he; subst he; simpa using hx
      · exact Or.inl hx
    have hseenT : ∀ i, (if i = src then true else s.seen i) = true → ∃ h' m', (i, m') ∈ (if h' = h then s.T h ++ [(src, m)] else s.T h') := by
      intro i hi
      by_cases hc : i = src
      · subst hc
        exact ⟨h, m, by simp⟩
      · rw [if_neg hc] at hi
        obtain ⟨h', m', h1⟩ := hl.seenT i hi
        refine ⟨h', m', ?_⟩
        split
        · rename_i he; subst he; simp [h1]
        · exact h1
    have htsh : ∀ x ∈ (if echoHash env D = h then s.T h ++ [(src, m)] else s.T (echoHash env D)), x.2 = sh.getD x.1 [] := by
      intro x hx
      rcases hmem _ x hx with h1 | ⟨h1, rfl⟩
      · exact hl.tsh x h1
      · exact htrue hseenf h1.symm
    have hdec : ∀ h', env.N - env.F ≤ (if h' = h then s.T h ++ [(src, m)] else s.T h').length → s.decStart = true ∨ posHash (.check h) = some h' := by
      intro h' hc
      by_cases he : h' = h
      · right; rw [he]; rfl
      · rw [if_neg he] at hc
        rcases hl.dec h' hc with h1 | h1
        · exact Or.inl h1
        · rw [hidle] at h1; cases h1
    have hrdy : ∀ h', env.F + 1 ≤ (if h' = h then s.T h ++ [(src, m)] else s.T h').length → s.readySent = true ∨ (posHash (.check h) = some h' ∧ ReadyPos.check h ≠ .fin h') := by
      intro h' hc
      by_cases he : h' = h
      · right; rw [he]; exact ⟨rfl, by simp⟩
      · rw [if_neg he] at hc
        rcases hl.rdy h' hc with h1 | h1
        · exact Or.inl h1
        · rw [hidle] at h1; cases h1.1
    have hdlv : ∀ src' d, .deliver j .ready src' d ∈ evs' → (if src' = src then true else s.seen src') = true := by
      intro src' d hm
      split
      · rfl
      · rename_i hne
        rcases hd src' d hm with h1 | h1
        · exact absurd h1 hne
        · exact hl.dlv src' d h1
    have hmle := hl.mle h
    unfold onReady
    rw [if_neg hseen]
    simp only [List.length_append, List.length_cons, List.length_nil]
    split
    · rename_i hgt
      have hmax : (s.T h).length + 1 = s.maxN + 1 := by omega
      exact
      { alive := hl.alive
        nblk := hl.nblk
        clen := by rw [hn]; exact hl.clen
        done := hl.done
        quo := hl.quo
        cch := hl.cch
        got := fun _ _ h => by cases h
        snd := fun _ _ h => by cases h
        wch := fun h1 _ _ h4 => by
          refine hl.wch ?_ (by rw [hidle]; simp) (by rw [hidle]; simp) h4
          rcases h1 with h1 | ⟨_, h1⟩
          · exact Or.inl h1
          · cases h1
        rs := hl.rs
        rdy := hrdy
        rout := hl.rout
        pout := hl.pout
        dlv := hdlv
        seenT := hseenT
        tsh := htsh
        dec := hdec
        decN := fun hds => by have := hl.decN hds; show _ ≤ (s.T h).length + 1; omega
        mle := fun h' => by
          show (if h' = h then s.T h ++ [(src, m)] else s.T h').length ≤ (s.T h).length + 1
          split
          · simp
          · have := hl.mle h'; omega
        meq := fun hF => by
          have := hJ hF
          show (s.T h).length + 1 = (if echoHash env D = h then s.T h ++ [(src, m)] else s.T (echoHash env D)).length
          rw [if_pos this.symm]
          simp
        main := by
          have hm := hl.main
          show LiveMain env D ((s.T h).length + 1) h s.mainPos
          rw [hmax]
          rw [hmax] at hJ
          cases hp : s.mainPos with
          | start => exact hJ
          | poll r => rw [hp] at hm; exact ⟨by have := hm.1; omega, hJ (by have := hm.1; omega)⟩
          | locked r => rw [hp] at hm; exact ⟨by have := hm.1; omega, hJ (by have := hm.1; omega)⟩
          | gotM r rec => rw [hp] at hm; exact ⟨by have := hm.1; omega, hJ (by have := hm.1; omega), hm.2.2⟩
          | gotLen r rec n => rw [hp] at hm; exact ⟨by have := hm.1; omega, hJ (by have := hm.1; omega), hm.2.2⟩
          | trunc r rec n v => rw [hp] at hm; exact ⟨by have := hm.1; omega, hJ (by have := hm.1; omega), hm.2.2⟩
          | cmp r m' =>
            rw [hp] at hm
            obtain ⟨h1, _, h3⟩ := hm
            exact ⟨h1, Or.inr ⟨hJ (by omega), by omega⟩, by omega⟩
          | returned res => rw [hp] at hm; exact hm }
    · rename_i hgt
      exact
      { alive := hl.alive
        nblk := hl.nblk
        clen := by rw [hn]; exact hl.clen
        done := hl.done
        quo := hl.quo
        cch := hl.cch
        got := fun _ _ h => by cases h
        snd := fun _ _ h => by cases h
        wch := fun h1 _ _ h4 => by
          refine hl.wch ?_ (by rw [hidle]; simp) (by rw [hidle]; simp) h4
          rcases h1 with h1 | ⟨_, h1⟩
          · exact Or.inl h1
          · cases h1
        rs := hl.rs
        rdy := hrdy
        rout := hl.rout
        pout := hl.pout
        dlv := hdlv
        seenT := hseenT
        tsh := htsh
        dec := hdec
        decN := hl.decN
        mle := fun h' => by
          show (if h' = h then s.T h ++ [(src, m)] else s.T h').length ≤ s.maxN
          split
          · simp; omega
          · exact hl.mle h'
        meq := fun hF => by
          have h1 := hl.meq hF
          show s.maxN = (if echoHash env D = h then s.T h ++ [(src, m)] else s.T (echoHash env D)).length
          rw [if_neg]
          · exact h1
          · rintro rfl; omega
        main := hl.main }

theorem live_readyStep {env : REnv} {D : Bytes} {sh : List Bytes} {evs : List NEvent} {sent : List (ℕ × ROut)} {j : ℕ} {s s' : RState} {out : List ROut}
    (hl : LiveInv env D sh evs sent j s) (hP : ∀ h m, s.readyPos = .send h m → h = echoHash env D ∧ m = sh.getD j []) (hst : onReadyStep env s = some (s', out)) :
    LiveInv env D sh evs (sent ++ out.map fun o => (j, o)) j s' ∧ ∀ o ∈ out, o.data = marshal (⟨echoHash env D, sh.getD j []⟩ : PRBCReady) := by
  have hsub : sent ⊆ sent ++ out.map fun o => (j, o) := List.subset_append_left _ _
  unfold onReadyStep at hst
  split at hst
  · cases hst
  · rename_i h hpe
    split at hst
    · cases hst
    · cases hst
      refine ⟨?_, by simp⟩
      simp only [List.map_nil, List.append_nil]
      split
      · rename_i hc
        exact { hl with
          got := fun _ _ h => by cases h
          snd := fun _ _ h => by cases h
          wch := fun _ _ _ h4 => hl.wch (Or.inl hc.1) (by rw [hpe]; simp) (by rw [hpe]; simp) h4
          dec := fun h' hh => by rcases hl.dec h' hh with h1 | h1; exact Or.inl h1; rw [hpe] at h1; exact Or.inr h1
          rdy := fun h' hh => by rcases hl.rdy h' hh with h1 | h1; exact Or.inl h1; rw [hpe] at h1; exact Or.inr ⟨h1.1, by simp⟩ }
      · rename_i hc
        exact { hl with
          got := fun _ _ h => by cases h
          snd := fun _ _ h => by cases h
          wch := fun h1 _ _ h4 => by
            refine hl.wch ?_ (by rw [hpe]; simp) (by rw [hpe]; simp) h4
            rcases h1 with h1 | ⟨_, h1⟩
            · exact Or.inl h1
            · cases h1
          dec := fun h' hh => by rcases hl.dec h' hh with h1 | h1; exact Or.inl h1; rw [hpe] at h1; exact Or.inr h1
          rdy := fun h' hh => by
            rcases hl.rdy h' hh with h1 | h1
            · exact Or.inl h1
            · rw [hpe] at h1
              cases h1.1
              exact Or.inl (by by_contra hcon; exact hc ⟨by simpa using hcon, hh⟩) }
  · rename_i h hpe
    split at hst
    · cases hst
    · rename_i res rest hch
      cases hst
      refine ⟨?_, by simp⟩
      simp only [List.map_nil, List.append_nil]
      have hc := hl.cch
      rw [hch] at hc
      exact { hl with
        clen := by have := hl.clen; rw [hch] at this; simp only [List.length_cons] at this; show rest.length ≤ _; omega
        cch := fun x hx => hc x (by simp [hx])
        got := fun h' r hr => by cases hr; exact hc _ (by simp)
        snd := fun _ _ h => by cases h
        wch := fun _ h2 _ _ => absurd rfl (h2 h res)
        dec := fun h' hh => by rcases hl.dec h' hh with h1 | h1; exact Or.inl h1; rw [hpe] at h1; exact Or.inr h1
        rdy := fun h' hh => by rcases hl.rdy h' hh with h1 | h1; exact Or.inl h1; rw [hpe] at h1; exact Or.inr ⟨h1.1, by simp⟩ }
  · rename_i h res hpe
    split at hst
    · cases hst
    · cases hst
      refine ⟨?_, by simp⟩
      simp only [List.map_nil, List.append_nil]
      have hg := hl.got h res hpe
      rw [if_pos hg]
      exact { hl with
        got := fun _ _ h => by cases h
        snd := fun h' m' hr => by cases hr; exact ⟨res.1, hg⟩
        wch := fun _ _ h3 _ => absurd rfl (h3 h res.2)
        dec := fun h' hh => by rcases hl.dec h' hh with h1 | h1; exact Or.inl h1; rw [hpe] at h1; exact Or.inr h1
        rdy := fun h' hh => by rcases hl.rdy h' hh with h1 | h1; exact Or.inl h1; rw [hpe] at h1; exact Or.inr ⟨h1.1, by simp⟩ }
  · rename_i h m hpe
    obtain ⟨rfl, rfl⟩ := hP h m hpe
    split at hst
    · cases hst
    · cases hst
      refine ⟨?_, ?_⟩
      · exact { hl with
          done := fun _ => rfl
          quo := fun _ _ _ => rfl
          got := fun _ _ h => by cases h
          snd := fun _ _ h => by cases h
          wch := fun h1 _ _ _ => by rcases h1 with h1 | ⟨_, h1⟩ <;> cases h1
          rs := fun _ => by
            obtain ⟨h', h1⟩ := hl.snd _ _ hpe
            exact ⟨h', _, h1⟩
          rout := fun _ i hi => by
            refine List.mem_append_right _ (List.mem_map.2 ⟨_, List.mem_map.2 ⟨i, List.mem_range.2 hi, rfl⟩, rfl⟩)
          pout := fun hp i hi => hsub (hl.pout hp i hi)
          dec := fun h' hh => by rcases hl.dec h' hh with h1 | h1; exact Or.inl h1; rw [hpe] at h1; exact Or.inr h1
          rdy := fun _ _ => Or.inl rfl }
      · intro o ho
        obtain ⟨i, _, rfl⟩ := List.mem_map.1 ho
        rfl
  · rename_i h hpe
    cases hst
    refine ⟨?_, by simp⟩
    simp only [List.map_nil, List.append_nil]
    exact { hl with
      got := fun _ _ h => by cases h
      snd := fun _ _ h => by cases h
      wch := fun h1 _ _ h4 => by
        refine hl.wch ?_ (by rw [hpe]; simp) (by rw [hpe]; simp) h4
        rcases h1 with h1 | ⟨_, h1⟩
        · exact Or.inl h1
        · cases h1
      dec := fun h' hh => by
        rcases hl.dec h' hh with h1 | h1
        · exact Or.inl (by simp [h1])
        · rw [hpe] at h1
          cases h1
          have hh : env.N - env.F ≤ (s.T h).length := hh
          exact Or.inl (by simp [hh])
      rdy := fun h' hh => by
        rcases hl.rdy h' hh with h1 | h1
        · exact Or.inl h1
        · rw [hpe] at h1
          cases h1.1
          exact absurd rfl h1.2
      decN := fun hd => by
        simp only [Bool.or_eq_true, decide_eq_true_eq] at hd
        rcases hd with hd | hd
        · exact hl.decN hd
        · exact hd.trans (hl.mle h) }

theorem live_main {env : REnv} (ok : env.Ok) {D : Bytes} (hD : D.length < 2 ^ 32) {sh : List Bytes} (he : env.rs.encode D = some sh) {evs : List NEvent} {sent : List (ℕ × ROut)} {j : ℕ} {s s' : RState}
    (hl : LiveInv env D sh evs sent j s) (hlt : ∀ h, ∀ x ∈ s.T h, x.1 < env.N) (hnd : ∀ h, ((s.T h).map Prod.fst).Nodup) (hst : onMain env s = some s') :
    LiveInv env D sh evs sent j s' := by
  have hsz := ok.size
  have hm := hl.main
  have hTN : (s.T (echoHash env D)).length ≤ env.N := by
    have hsub : ((s.T (echoHash env D)).map Prod.fst).toFinset ⊆ Finset.range env.N := by
      intro x hx
      obtain ⟨y, hy, rfl⟩ := List.mem_map.1 (List.mem_toFinset.1 hx)
      exact Finset.mem_range.2 (hlt _ y hy)
    have := Finset.card_le_card hsub
    rw [List.toFinset_card_of_nodup (hnd _), List.length_map, Finset.card_range] at this
    exact this
  have hlenH := echoHash_length ok D
  have htake : (echoHash env D).take 32 = env.sha D := by
    rw [echoHash, List.take_append_of_le_length (by rw [ok.sha_len]), List.take_of_length_le (by rw [ok.sha_len])]
  have hdrop : (bytesToInt ((echoHash env D).drop 32)).toNat = D.length := by
    rw [echoHash, ← ok.sha_len D, List.drop_left, C01_int_range _ (by omega) (by omega)]
    simp
  have base : ∀ p, LiveMain env D s.maxN s.maxH p → LiveInv env D sh evs sent j { s with mainPos := p } := fun p hp => { hl with main := hp }
  unfold onMain at hst
  split at hst
  · rename_i hp
    rw [hp] at hm
    split at hst
    · rename_i hds
      cases hst
      have := hl.decN hds
      exact base _ ⟨by omega, hm (by omega)⟩
    · cases hst
  · rename_i r hp
    rw [hp] at hm
    have h1 := hl.meq (by have := hm.1; omega)
    split at hst
    · exfalso
      have := hm.1
      omega
    · rw [if_pos hm.1] at hst
      cases hst
      exact base _ hm
  · rename_i r hp
    rw [hp] at hm
    split at hst
    · have h1 := hl.meq (by have := hm.1; omega)
      obtain ⟨M, h2, h3⟩ := decode_ok ok he (l := snapshot (env.N - env.F + r) (s.T s.maxH))
        (by
          intro x hx
          rw [snapshot_take _ _ (by rw [hm.2, ← h1]; exact hm.1)] at hx
          exact hlt _ x (List.mem_of_mem_take hx))
        (by
          rw [snapshot_take _ _ (by rw [hm.2, ← h1]; exact hm.1), List.map_take]
          exact (hnd _).sublist (List.take_sublist _ _))
        (by
          intro x hx
          rw [snapshot_take _ _ (by rw [hm.2, ← h1]; exact hm.1), hm.2] at hx
          exact hl.tsh x (List.mem_of_mem_take hx))
        (by simp only [snapshot, List.length_map, List.length_range]; omega)
      rw [h2] at hst
      cases hst
      exact base _ ⟨hm.1, hm.2, h3⟩
    · cases hst
  · rename_i r rec hp
    rw [hp] at hm
    rw [if_neg (by rw [hm.2.1, hlenH]; norm_num)] at hst
    cases hst
    exact base _ ⟨hm.1, hm.2.1, hm.2.2, by rw [hm.2.1]; exact hdrop⟩
  · rename_i r rec n hp
    rw [hp] at hm
    rw [if_neg (by rw [hm.2.1, hlenH]; norm_num)] at hst
    cases hst
    exact base _ ⟨hm.1, hm.2.1, hm.2.2.1, hm.2.2.2, by rw [hm.2.1]; exact htake⟩
  · rename_i r rec n v hp
    rw [hp] at hm
    obtain ⟨h1, h2, ⟨t, rfl⟩, rfl, rfl⟩ := hm
    simp only [List.length_append] at hst
    rw [if_pos (by omega)] at hst
    cases hst
    exact { hl with
      main := ⟨by rw [List.append_assoc, List.take_left], Or.inl rfl, h1⟩ }
  · rename_i r m hp
    rw [hp] at hm
    obtain ⟨rfl, h2, h3⟩ := hm
    cases hst
    rcases h2 with h2 | ⟨h2, h4⟩
    · rw [if_pos h2.symm]
      exact base _ rfl
    · rw [if_neg]
      · exact base _ ⟨by omega, h2⟩
      · intro hc
        have := congrArg List.length hc
        rw [h2, hlenH, ok.sha_len] at this
        norm_num at this
  · cases hst

/-! ## The network -/

/-- What `F + 1` Echoes say. -/
theorem cast_count {env : REnv} (ok : env.Ok) {H : Finset ℕ} (hH : HonestSet env H) {evs : List NEvent} {net : RNet} (hr : NRun env H RNet.init evs net) (hone : EchoOnce evs)
    {D : Bytes} (hc : OneProposal D evs) {sh : List Bytes} (he : env.rs.encode D = some sh) {j : ℕ} (hj : j ∈ H) {h m : Bytes}
    (hcnt : env.F + 1 ≤ (net.party j).echo h m) : h = echoHash env D ∧ m = sh.getD j [] := by
  obtain ⟨hi, hp⟩ := safe_inv ok hH hr hone
  have hsz := ok.size
  rw [(hp j hj).cnt] at hcnt
  have hnd : (echoesTo evs j h m).Nodup := (hone j).sublist (echoesTo_sublist evs j h m)
  obtain ⟨s, hs, hsH⟩ := exists_honest hH (by omega) (Q := (echoesTo evs j h m).toFinset)
    (by
      intro s hs
      obtain ⟨d, hd, _⟩ := mem_echoesTo.1 (List.mem_toFinset.1 hs)
      exact (hi.auth _ _ _ _ hd).1)
    (by rw [List.toFinset_card_of_nodup hnd]; exact hcnt)
  obtain ⟨d, hd, h1, h2⟩ := mem_echoesTo.1 (List.mem_toFinset.1 hs)
  obtain ⟨hl, sh', e1, e2⟩ := cast_echo ok hH hr hone hc hsH ((hi.auth _ _ _ _ hd).2.2 hsH) rfl
  rw [he] at e1
  cases e1
  simp only at e2
  rw [e2, echo_decode ok hl he] at h1 h2
  exact ⟨h1.symm, h2.symm⟩

theorem echoSenders_lt {env : REnv} {H : Finset ℕ} {evs : List NEvent} {net : RNet} (hi : SentInv env H evs net) (hone : EchoOnce evs) (j : ℕ) :
    (echoSenders evs j).length ≤ env.N := by
  have hsub : (echoSenders evs j).toFinset ⊆ Finset.range env.N := by
    intro x hx
    have hx := List.mem_toFinset.1 hx
    unfold echoSenders at hx
    obtain ⟨e, he, h1⟩ := List.mem_filterMap.1 hx
    split at h1
    · split at h1
      · cases h1
        exact Finset.mem_range.2 (hi.auth _ _ _ _ he).1
      · cases h1
    · cases h1
  have := Finset.card_le_card hsub
  rw [List.toFinset_card_of_nodup (hone j), Finset.card_range] at this
  exact this

theorem OneProposal.init {D : Bytes} {evs : List NEvent} {e : NEvent} (h : OneProposal D (evs ++ [e])) : OneProposal D evs :=
  fun j s d hd => h j s d (List.mem_append_left _ hd)

theorem TrueShards.init {env : REnv} {D : Bytes} {evs : List NEvent} {e : NEvent} (h : TrueShards env D (evs ++ [e])) : TrueShards env D evs :=
  fun j s d sh hd => h j s d sh (List.mem_append_left _ hd)

theorem at_live {env : REnv} {H : Finset ℕ} {D : Bytes} {sh : List Bytes} {evs : List NEvent} {e : NEvent} {net : RNet} {j : ℕ} {s' : RState} {out : List ROut}
    (hp : ∀ i ∈ H, LiveInv env D sh evs net.sent i (net.party i))
    (hg : ∀ s ∈ H, ∀ o, (s, o) ∈ net.sent → o.kind = .ready → o.data = marshal (⟨echoHash env D, sh.getD s []⟩ : PRBCReady))
    (hj : LiveInv env D sh (evs ++ [e]) (net.sent ++ out.map fun o => (j, o)) j s')
    (hgo : ∀ o ∈ out, o.kind = .ready → o.data = marshal (⟨echoHash env D, sh.getD j []⟩ : PRBCReady))
    (hne : ∀ i, i ≠ j → ∀ src d, e ≠ .deliver i .ready src d) :
    (∀ i ∈ H, LiveInv env D sh (evs ++ [e]) (net.sent ++ out.map fun o => (j, o)) i (if i = j then s' else net.party i)) ∧
    ∀ s ∈ H, ∀ o, (s, o) ∈ net.sent ++ out.map (fun o => (j, o)) → o.kind = .ready → o.data = marshal (⟨echoHash env D, sh.getD s []⟩ : PRBCReady) := by
  refine ⟨?_, ?_⟩
  · intro i hi
    by_cases hij : i = j
    · subst hij; rw [if_pos rfl]; exact hj
    · rw [if_neg hij]
      refine (hp i hi).mono (List.subset_append_left _ _) ?_ ?_
      · rw [echoSenders_snoc, List.length_append]; omega
      · intro src d hd
        rcases List.mem_append.1 hd with h | h
        · exact h
        · exact absurd (List.mem_singleton.1 h).symm (hne i hij src d)
  · intro s hs o ho hk
    rcases List.mem_append.1 ho with h | h
    · exact hg s hs o h hk
    · obtain ⟨o', h1, h2⟩ := List.mem_map.1 h
      cases h2
      exact hgo o h1 hk

theorem live_inv {env : REnv} (ok : env.Ok) {H : Finset ℕ} (hH : HonestSet env H) {evs : List NEvent} {net : RNet} (hr : NRun env H RNet.init evs net) (hone : EchoOnce evs)
    {D : Bytes} (hc : OneProposal D evs) (htr : TrueShards env D evs) (hD : D.length < 2 ^ 32)
    {sh : List Bytes} (he : env.rs.encode D = some sh) :
    (∀ i ∈ H, LiveInv env D sh evs net.sent i (net.party i)) ∧
    ∀ s ∈ H, ∀ o, (s, o) ∈ net.sent → o.kind = .ready → o.data = marshal (⟨echoHash env D, sh.getD s []⟩ : PRBCReady) := by
  induction hr with
  | nil => exact ⟨fun i _ => liveInv_init env ok _ sh i, fun _ _ _ h => by cases h⟩
  | @snoc evs net ev net' hrun hs ih =>
    obtain ⟨hp, hg⟩ := ih hone.init hc.init htr.init
    have hrun' := hrun.snoc hs
    obtain ⟨hi, hpi⟩ := safe_inv ok hH hrun hone.init
    obtain ⟨hi', hpi'⟩ := safe_inv ok hH hrun' hone
    have hE' := fun j (hj : j ∈ H) h m => cast_count ok hH hrun' hone hc he hj (h := h) (m := m)
    have hJ := fun h => cast_justified ok hH hrun hone.init hc.init (h := h)
    have hJ' := fun h => cast_justified ok hH hrun' hone hc (h := h)
    have hshl : ∀ i, (sh.getD i []).length ≤ 2 ^ 32 := by
      intro i
      by_cases hj : i < sh.length
      · rw [List.getD_eq_getElem _ _ hj]
        exact (ok.shard_len _ sh he _ (List.getElem_mem hj)).2.trans hD.le
      · rw [List.getD_eq_default _ _ (by omega)]; simp
    cases ev with
    | send c M' =>
      simp only [netStep] at hs
      split at hs
      · cases hs
        refine ⟨fun i hiH => (hp i hiH).mono (List.subset_append_left _ _) ?_ ?_, ?_⟩
        · rw [echoSenders_snoc, List.length_append]; omega
        · intro src d hd; simpa using hd
        · intro s hsH o ho hk
          rcases List.mem_append.1 ho with h | h
          · exact hg s hsH o h hk
          · simp only [rBroadcast, List.map_map, List.mem_map, Function.comp] at h
            obtain ⟨k, _, h2⟩ := h
            cases h2
            cases hk
      · cases hs
    | sendExcl c M' xx =>
      simp only [netStep] at hs
      split at hs
      · cases hs
        refine ⟨fun i hiH => (hp i hiH).mono (List.subset_append_left _ _) ?_ ?_, ?_⟩
        · rw [echoSenders_snoc, List.length_append]; omega
        · intro src d hd; simpa using hd
        · intro s hsH o ho hk
          rcases List.mem_append.1 ho with h | h
          · exact hg s hsH o h hk
          · obtain ⟨o', h1, h2⟩ := List.mem_map.1 h
            cases h2
            obtain ⟨_, _, _, rfl⟩ := mem_excl h1
            cases hk
      · cases hs
    | deliver j k src d =>
      simp only [netStep] at hs
      split at hs
      · rename_i hgd
        obtain ⟨hjH, hsrc, hdl, hau⟩ := hgd
        simp only [RNet.at_, Option.map_eq_some_iff, Prod.exists] at hs
        obtain ⟨s', out, hst, rfl⟩ := hs
        have hlj := hp j hjH
        have hne : ∀ i, i ≠ j → ∀ src' d', NEvent.deliver j k src d ≠ .deliver i .ready src' d' := by
          intro i hij src' d' hcon; cases hcon; exact hij rfl
        simp only [rbcStep, hlj.alive, Bool.false_eq_true, if_false] at hst
        have hE := hE' j hjH
        simp only [if_true] at hE
        cases k with
        | propose =>
          have hDd : d = D := hc j src d (by simp)
          simp only [deliverEvent] at hst
          split at hst
          · cases hst
          · rename_i hpr
            rw [hDd, he] at hst
            cases hst
            refine at_live hp hg ?_ ?_ hne
            · refine LiveInv.mono (evs := evs) (s1 := net.sent ++ _) ?_ (fun _ h => h) (by rw [echoSenders_snoc, List.length_append]; omega) (fun src' d' hd => by simpa using hd)
              exact { hlj with
                alive := rfl
                rout := fun hrs i hi => List.mem_append_left _ (hlj.rout hrs i hi)
                pout := fun _ i hi => List.mem_append_right _ (List.mem_map.2 ⟨_, List.mem_map.2 ⟨i, List.mem_range.2 hi, rfl⟩, rfl⟩) }
            · intro o ho hk
              obtain ⟨i, _, rfl⟩ := List.mem_map.1 ho
              cases hk
        | echo =>
          simp only [deliverEvent] at hst
          split at hst
          · have e := Option.some.inj hst
            have hlen' := echoSenders_lt hi' hone j
            have hlen1 : (echoSenders (evs ++ [NEvent.deliver j .echo src d]) j).length = (echoSenders evs j).length + 1 := by
              rw [echoSenders_snoc, List.length_append]; simp [echoSenders]
            have hcnt1 : s'.echo (echoPayload d).hash (echoPayload d).m = (net.party j).echo (echoPayload d).hash (echoPayload d).m + 1 := by
              have := congrArg (fun p => p.1.echo (echoPayload d).hash (echoPayload d).m) e
              simp only at this
              rw [← this]
              unfold onEcho
              simp only
              split
              · split <;> simp
              · simp
            have hl := live_echo ok hlj (evs' := evs ++ [NEvent.deliver j .echo src d]) (h := (echoPayload d).hash) (m := (echoPayload d).m) (by omega) hlen1 (fun src' d' hd => by simpa using hd)
              (fun hF => hE _ _ (by rw [hcnt1]; exact hF))
            rw [e] at hl
            exact at_live hp hg hl.1 (fun o ho _ => hl.2 o ho) hne
          · cases hst
        | ready =>
          simp only [deliverEvent] at hst
          split at hst
          · rename_i hidle
            cases hst
            have hl := live_ready ok hlj (evs' := evs ++ [NEvent.deliver j .ready src d]) (src := src) (h := (readyPayload d).hash) (m := (readyPayload d).m)
              (by rw [echoSenders_snoc]; simp [echoSenders]) hidle
              (fun src' d' hd => by
                rcases List.mem_append.1 hd with h | h
                · exact Or.inr h
                · cases List.mem_singleton.1 h; exact Or.inl rfl)
              (fun hF => hJ' _ ((by
                have := (hpi' j hjH).readyJ ok hH hi' (h := (readyPayload d).hash)
                simp only [if_true] at this
                exact this hF)))
              (fun _ heq => htr j src d sh (by simp) he heq)
            refine at_live hp hg ?_ (by simp) hne
            simpa using hl
          · cases hst
      · cases hs
    | run j ev =>
      simp only [netStep] at hs
      split at hs
      · rename_i hgd
        obtain ⟨hjH, hint⟩ := hgd
        simp only [RNet.at_, Option.map_eq_some_iff, Prod.exists] at hs
        obtain ⟨s', out, hst, rfl⟩ := hs
        have hlj := hp j hjH
        have hne : ∀ i, i ≠ j → ∀ src' d', NEvent.run j ev ≠ .deliver i .ready src' d' := by
          intro i hij src' d' hcon; cases hcon
        have hmono : ∀ st s', LiveInv env D sh evs st j s' → LiveInv env D sh (evs ++ [NEvent.run j ev]) st j s' := fun st s' h =>
          h.mono (fun _ h => h) (by rw [echoSenders_snoc, List.length_append]; omega) (fun src' d' hd => by simpa using hd)
        simp only [rbcStep, hlj.alive, Bool.false_eq_true, if_false] at hst
        cases ev with
        | propose => cases hint
        | echo => cases hint
        | ready => cases hint
        | echoPush =>
          simp only at hst
          split at hst
          · rename_i h m hb
            exact absurd hb (hlj.nblk h m)
          · cases hst
        | echoQuit =>
          simp only at hst
          split at hst
          · rename_i hcq
            cases hst
            refine at_live hp hg (hmono _ _ ?_) (by simp) hne
            simp only [List.map_nil, List.append_nil]
            exact { hlj with
              alive := rfl
              nblk := fun _ _ h => by cases h
              done := fun _ => hcq.2 }
          · cases hst
        | readyStep =>
          simp only at hst
          obtain ⟨h1, h2⟩ := live_readyStep hlj (fun h m hps => by
            refine ⟨hJ h ((hpi j hjH).pos h (Or.inr (Or.inr ⟨m, hps⟩))), ?_⟩
            obtain ⟨h', hc'⟩ := hlj.snd h m hps
            exact (cast_count ok hH hrun hone.init hc.init he hjH hc').2) hst
          exact at_live hp hg (hmono _ _ h1) (fun o ho _ => h2 o ho) hne
        | main =>
          simp only [Option.map_eq_some_iff, Prod.mk.injEq] at hst
          obtain ⟨s'', hst, rfl, rfl⟩ := hst
          have h1 := live_main ok hD he hlj (fun h x hx => ((hpi j hjH).tlt h x hx).1) (hpi j hjH).tnodup hst
          refine at_live hp hg (hmono _ _ ?_) (by simp) hne
          simpa using h1
      · cases hs

theorem netStep_sent {env : REnv} {H : Finset ℕ} {net net' : RNet} {ev : NEvent} (hs : netStep env H net ev = some net') : net.sent ⊆ net'.sent := by
  have at_ : ∀ j rev, net.at_ env j rev = some net' → net.sent ⊆ net'.sent := by
    intro j rev h
    simp only [RNet.at_, Option.map_eq_some_iff, Prod.exists] at h
    obtain ⟨s', out, _, rfl⟩ := h
    exact List.subset_append_left _ _
  cases ev with
  | send c M' =>
    simp only [netStep] at hs
    split at hs
    · cases hs; exact List.subset_append_left _ _
    · cases hs
  | sendExcl c M' xx =>
    simp only [netStep] at hs
    split at hs
    · cases hs; exact List.subset_append_left _ _
    · cases hs
  | deliver j k src d =>
    simp only [netStep] at hs
    split at hs
    · exact at_ _ _ hs
    · cases hs
  | run j ev =>
    simp only [netStep] at hs
    split at hs
    · exact at_ _ _ hs
    · cases hs

theorem send_sent {env : REnv} {H : Finset ℕ} {evs : List NEvent} {net : RNet} (hr : NRun env H RNet.init evs net) {b : ℕ} {M : PMessage} (hs : .send b M ∈ evs) :
    ∀ j, j < env.N → (b, (⟨j, .propose, marshal M⟩ : ROut)) ∈ net.sent := by
  induction hr with
  | nil => cases hs
  | @snoc evs net ev net' hrun hst ih =>
    intro j hj
    rcases List.mem_append.1 hs with h | h
    · exact netStep_sent hst (ih h j hj)
    · cases List.mem_singleton.1 h
      simp only [netStep] at hst
      split at hst
      · cases hst
        exact List.mem_append_right _ (List.mem_map.2 ⟨_, List.mem_map.2 ⟨j, List.mem_range.2 hj, rfl⟩, rfl⟩)
      · cases hst

theorem sendExcl_sent {env : REnv} {H : Finset ℕ} {evs : List NEvent} {net : RNet} (hr : NRun env H RNet.init evs net) {b x : ℕ} {M : PMessage} (hs : .sendExcl b M x ∈ evs) :
    ∀ j, j < env.N → j ≠ x → (b, (⟨j, .propose, marshal M⟩ : ROut)) ∈ net.sent := by
  induction hr with
  | nil => cases hs
  | @snoc evs net ev net' hrun hst ih =>
    intro j hj hx
    rcases List.mem_append.1 hs with h | h
    · exact netStep_sent hst (ih h j hj hx)
    · cases List.mem_singleton.1 h
      simp only [netStep] at hst
      split at hst
      · cases hst
        exact List.mem_append_right _ (List.mem_map.2 ⟨_, List.mem_filter.2 ⟨List.mem_map.2 ⟨j, List.mem_range.2 hj, rfl⟩, by simpa using hx⟩, rfl⟩)
      · cases hst

theorem step_proposed {env : REnv} {st s' : RState} {rev : REvent} {out : List ROut} (hst : rbcStep env st rev = some (s', out)) (h : st.proposed = true) : s'.proposed = true := by
  simp only [rbcStep] at hst
  split at hst
  · cases hst
  cases rev with
  | propose d =>
    simp only [h, if_true] at hst
    cases hst
  | echo d =>
    simp only at hst
    split at hst
    · have e := congrArg (fun p => p.1.proposed) (Option.some.inj hst)
      simp only at e
      rw [← e]
      unfold onEcho
      simp only
      split
      · split <;> exact h
      · exact h
    · cases hst
  | ready s d =>
    simp only at hst
    split at hst
    · cases hst
      unfold onReady
      split
      · exact h
      · simp only
        split <;> exact h
    · cases hst
  | echoPush =>
    simp only at hst
    split at hst
    · split at hst
      · cases hst; exact h
      · cases hst
    · cases hst
  | echoQuit =>
    simp only at hst
    split at hst
    · cases hst; exact h
    · cases hst
  | readyStep =>
    simp only [onReadyStep] at hst
    split at hst
    · cases hst
    all_goals try split at hst
    all_goals cases hst
    all_goals exact h
  | main =>
    simp only [Option.map_eq_some_iff, Prod.mk.injEq] at hst
    obtain ⟨s'', hst, rfl, rfl⟩ := hst
    unfold onMain at hst
    split at hst
    · split at hst <;> cases hst; exact h
    · split at hst
      · cases hst; exact h
      · split at hst <;> cases hst; exact h
    · split at hst
      · split at hst <;> (cases hst; exact h)
      · cases hst
    · split at hst <;> (cases hst; exact h)
    · split at hst <;> (cases hst; exact h)
    · simp only at hst
      split at hst <;> (cases hst; exact h)
    · cases hst; exact h
    · cases hst

theorem deliver_proposed {env : REnv} {H : Finset ℕ} {evs : List NEvent} {net : RNet} (hr : NRun env H RNet.init evs net) {j s : ℕ} {d : Bytes}
    (hd : .deliver j .propose s d ∈ evs) : (net.party j).proposed = true := by
  induction hr with
  | nil => cases hd
  | @snoc evs net ev net' hrun hst ih =>
    have at_ : ∀ i rev, net.at_ env i rev = some net' → (net.party j).proposed = true → (net'.party j).proposed = true := by
      intro i rev h hp
      simp only [RNet.at_, Option.map_eq_some_iff, Prod.exists] at h
      obtain ⟨s', out, h1, rfl⟩ := h
      simp only
      split
      · rename_i hij; subst hij; exact step_proposed h1 hp
      · exact hp
    rcases List.mem_append.1 hd with h | h
    · have hp := ih h
      cases ev with
      | send c M' =>
        simp only [netStep] at hst
        split at hst
        · cases hst; exact hp
        · cases hst
      | sendExcl c M' xx =>
        simp only [netStep] at hst
        split at hst
        · cases hst; exact hp
        · cases hst
      | deliver j k src d =>
        simp only [netStep] at hst
        split at hst
        · exact at_ _ _ hst hp
        · cases hst
      | run j ev =>
        simp only [netStep] at hst
        split at hst
        · exact at_ _ _ hst hp
        · cases hst
    · cases List.mem_singleton.1 h
      simp only [netStep] at hst
      split at hst
      · simp only [RNet.at_, Option.map_eq_some_iff, Prod.exists, deliverEvent, rbcStep] at hst
        obtain ⟨s', out, h1, rfl⟩ := hst
        simp only [if_true]
        split at h1
        · cases h1
        · split at h1
          · cases h1
          · split at h1 <;> (cases h1; rfl)
      · cases hst

theorem step_ready_sent {env : REnv} {st s' : RState} {rev : REvent} {out : List ROut} (hst : rbcStep env st rev = some (s', out)) :
    (st.readySent = true → s'.readySent = true) ∧ ∀ o ∈ out, o.kind = .ready → s'.readySent = true := by
  simp only [rbcStep] at hst
  split at hst
  · cases hst
  cases rev with
  | propose d =>
    simp only at hst
    split at hst
    · cases hst
    · split at hst
      · cases hst; exact ⟨id, fun _ h => by cases h⟩
      · cases hst
        refine ⟨id, fun o ho hk => ?_⟩
        obtain ⟨i, _, rfl⟩ := List.mem_map.1 ho
        cases hk
  | echo d =>
    simp only at hst
    split at hst
    · have e := Option.some.inj hst
      obtain ⟨e1, e2⟩ := Prod.ext_iff.1 e
      simp only at e1 e2
      have h1 : s'.readySent = (st.readySent || (!st.readySent && decide (env.N - env.F ≤ st.echo (echoPayload d).hash (echoPayload d).m + 1))) := by
        rw [← e1]
        unfold onEcho
        simp only
        split
        · split <;> rfl
        · rfl
      have h2 : out = if (!st.readySent && decide (env.N - env.F ≤ st.echo (echoPayload d).hash (echoPayload d).m + 1)) = true then
          rBroadcast env.N .ready (marshal (⟨(echoPayload d).hash, (echoPayload d).m⟩ : PRBCReady)) else [] := by
        rw [← e2]
        unfold onEcho
        simp only
        split
        · split <;> rfl
        · rfl
      refine ⟨fun h => by rw [h1, h]; rfl, fun o ho _ => ?_⟩
      rw [h2] at ho
      split at ho
      · rename_i hc; rw [h1, hc]; simp
      · cases ho
    · cases hst
  | ready s d =>
    simp only at hst
    split at hst
    · cases hst
      refine ⟨fun h => ?_, fun _ h => by cases h⟩
      unfold onReady
      split
      · exact h
      · simp only
        split <;> exact h
    · cases hst
  | echoPush =>
    simp only at hst
    split at hst
    · split at hst
      · cases hst; exact ⟨id, fun _ h => by cases h⟩
      · cases hst
    · cases hst
  | echoQuit =>
    simp only at hst
    split at hst
    · cases hst; exact ⟨id, fun _ h => by cases h⟩
    · cases hst
  | readyStep =>
    simp only [onReadyStep] at hst
    split at hst
    · cases hst
    all_goals try split at hst
    all_goals cases hst
    all_goals first | exact ⟨id, fun _ h => by cases h⟩ | exact ⟨fun _ => rfl, fun _ _ _ => rfl⟩
  | main =>
    simp only [Option.map_eq_some_iff, Prod.mk.injEq] at hst
    obtain ⟨s'', hst, rfl, rfl⟩ := hst
    refine ⟨fun h => ?_, fun _ h => by cases h⟩
    unfold onMain at hst
    split at hst
    · split at hst <;> cases hst; exact h
    · split at hst
      · cases hst; exact h
      · split at hst <;> cases hst; exact h
    · split at hst
      · split at hst <;> (cases hst; exact h)
      · cases hst
    · split at hst <;> (cases hst; exact h)
    · split at hst <;> (cases hst; exact h)
    · simp only at hst
      split at hst <;> (cases hst; exact h)
    · cases hst; exact h
    · cases hst

/-- A party whose Ready is on the way has set its flag. -/
theorem ready_sent {env : REnv} {H : Finset ℕ} {evs : List NEvent} {net : RNet} (hr : NRun env H RNet.init evs net) :
    ∀ s o, (s, o) ∈ net.sent → o.kind = .ready → (net.party s).readySent = true := by
  induction hr with
  | nil => intro s o h; cases h
  | @snoc evs net ev net' hrun hs ih =>
    intro s o ho hk
    have step : ∀ j rev, net.at_ env j rev = some net' → (net'.party s).readySent = true := by
      intro j rev hat
      simp only [RNet.at_, Option.map_eq_some_iff, Prod.exists] at hat
      obtain ⟨s', out, hst, rfl⟩ := hat
      obtain ⟨a1, a2⟩ := step_ready_sent hst
      rcases List.mem_append.1 ho with h | h
      · have := ih s o h hk
        simp only
        split
        · rename_i hij; subst hij; exact a1 this
        · exact this
      · obtain ⟨o', h1, h2⟩ := List.mem_map.1 h
        cases h2
        simp only [if_true]
        exact a2 o h1 hk
    cases ev with
    | send b M =>
      simp only [netStep] at hs
      split at hs
      · cases hs
        rcases List.mem_append.1 ho with h | h
        · exact ih s o h hk
        · simp only [rBroadcast, List.map_map, List.mem_map, Function.comp] at h
          obtain ⟨k, _, h2⟩ := h
          cases h2
          cases hk
      · cases hs
    | sendExcl b M xx =>
      simp only [netStep] at hs
      split at hs
      · cases hs
        rcases List.mem_append.1 ho with h | h
        · exact ih s o h hk
        · obtain ⟨o', h1, h2⟩ := List.mem_map.1 h
          cases h2
          obtain ⟨_, _, _, rfl⟩ := mem_excl h1
          cases hk
      · cases hs
    | deliver j k src d =>
      simp only [netStep] at hs
      split at hs
      · exact step _ _ hs
      · cases hs
    | run j ev =>
      simp only [netStep] at hs
      split at hs
      · exact step _ _ hs
      · cases hs

theorem step_dec {env : REnv} {st s' : RState} {rev : REvent} {out : List ROut} (hst : rbcStep env st rev = some (s', out)) (h : st.mainPos = .start ∨ st.decStart = true) :
    s'.mainPos = .start ∨ s'.decStart = true := by
  simp only [rbcStep] at hst
  split at hst
  · cases hst
  cases rev with
  | propose d =>
    simp only at hst
    split at hst
    · cases hst
    · split at hst <;> (cases hst; exact h)
  | echo d =>
    simp only at hst
    split at hst
    · have e := congrArg Prod.fst (Option.some.inj hst)
      simp only at e
      rw [← e]
      unfold onEcho
      simp only
      split
      · split <;> exact h
      · exact h
    · cases hst
  | ready s d =>
    simp only at hst
    split at hst
    · cases hst
      unfold onReady
      split
      · exact h
      · simp only
        split <;> exact h
    · cases hst
  | echoPush =>
    simp only at hst
    split at hst
    · split at hst
      · cases hst; exact h
      · cases hst
    · cases hst
  | echoQuit =>
    simp only at hst
    split at hst
    · cases hst; exact h
    · cases hst
  | readyStep =>
    simp only [onReadyStep] at hst
    split at hst
    · cases hst
    · split at hst <;> (cases hst; try exact h)
    · split at hst <;> (cases hst; try exact h)
    · split at hst <;> (cases hst; try exact h)
    · split at hst <;> (cases hst; try exact h)
    · cases hst
      exact h.imp id (fun h => by simp [h])
  | main =>
    simp only [Option.map_eq_some_iff, Prod.mk.injEq] at hst
    obtain ⟨s'', hst, rfl, rfl⟩ := hst
    have keep : st.mainPos ≠ .start → st.decStart = true := fun hn => h.resolve_left hn
    unfold onMain at hst
    split at hst
    · split at hst
      · rename_i hd; cases hst; exact Or.inr hd
      · cases hst
    all_goals rename_i hp; have hk := keep (by rw [hp]; simp)
    · split at hst
      · cases hst; exact Or.inr hk
      · split at hst <;> cases hst; exact Or.inr hk
    · split at hst
      · split at hst <;> (cases hst; exact Or.inr hk)
      · cases hst
    · split at hst <;> (cases hst; exact Or.inr hk)
    · split at hst <;> (cases hst; exact Or.inr hk)
    · simp only at hst
      split at hst <;> (cases hst; exact Or.inr hk)
    · cases hst; exact Or.inr hk
    · cases hst

/-- The body of the function runs only after the start signal. -/
theorem run_dec {env : REnv} {H : Finset ℕ} {evs : List NEvent} {net : RNet} (hr : NRun env H RNet.init evs net) (j : ℕ) :
    (net.party j).mainPos = .start ∨ (net.party j).decStart = true := by
  induction hr with
  | nil => exact Or.inl rfl
  | @snoc evs net ev net' hrun hst ih =>
    have at_ : ∀ i rev, net.at_ env i rev = some net' → (net'.party j).mainPos = .start ∨ (net'.party j).decStart = true := by
      intro i rev h
      simp only [RNet.at_, Option.map_eq_some_iff, Prod.exists] at h
      obtain ⟨s', out, h1, rfl⟩ := h
      simp only
      split
      · rename_i hij; subst hij; exact step_dec h1 ih
      · exact ih
    cases ev with
    | send c M' =>
      simp only [netStep] at hst
      split at hst
      · cases hst; exact ih
      · cases hst
    | sendExcl c M' xx =>
      simp only [netStep] at hst
      split at hst
      · cases hst; exact ih
      · cases hst
    | deliver j k src d =>
      simp only [netStep] at hst
      split at hst
      · exact at_ _ _ hst
      · cases hst
    | run j ev =>
      simp only [netStep] at hst
      split at hst
      · exact at_ _ _ hst
      · cases hst

/-! ## Settled executions with one proposal -/

theorem echo_size {env : REnv} (ok : env.Ok) {D m : Bytes} (hD : D.length < 2 ^ 30) (hm : m.length ≤ D.length) : (marshal (⟨echoHash env D, m⟩ : PRBCEcho)).length < 2 ^ 32 := by
  show (encFields (putBytes 1 _ ++ putBytes 2 _)).length < _
  rw [encFields_append, List.length_append]
  have h1 := size_putBytes 1 (by norm_num) (echoHash env D)
  have h2 := size_putBytes 2 (by norm_num) m
  have h3 := echoHash_length ok D
  dsimp only
  omega

theorem ready_size {env : REnv} (ok : env.Ok) {D m : Bytes} (hD : D.length < 2 ^ 30) (hm : m.length ≤ D.length) : (marshal (⟨echoHash env D, m⟩ : PRBCReady)).length < 2 ^ 32 := by
  show (encFields (putBytes 1 _ ++ putBytes 2 _)).length < _
  rw [encFields_append, List.length_append]
  have h1 := size_putBytes 1 (by norm_num) (echoHash env D)
  have h2 := size_putBytes 2 (by norm_num) m
  have h3 := echoHash_length ok D
  dsimp only
  omega

theorem shard_le {env : REnv} (ok : env.Ok) {D : Bytes} {sh : List Bytes} (he : env.rs.encode D = some sh) (i : ℕ) : (sh.getD i []).length ≤ D.length := by
  by_cases hj : i < sh.length
  · rw [List.getD_eq_getElem _ _ hj]
    exact (ok.shard_len _ sh he _ (List.getElem_mem hj)).2
  · rw [List.getD_eq_default _ _ (by omega)]; simp

/-- The Echoes of the honest parties that have taken the proposal have been counted, unless Ready was sent. -/
theorem settled_echoes {env : REnv} (ok : env.Ok) {H : Finset ℕ} (hH : HonestSet env H) {evs : List NEvent} {net : RNet} (hr : NRun env H RNet.init evs net) (hone : EchoOnce evs)
    {D : Bytes} (hc : OneProposal D evs) (htr : TrueShards env D evs) (hD : D.length < 2 ^ 30) {sh : List Bytes} (he : env.rs.encode D = some sh) (hset : Settled env H evs net)
    {Q : Finset ℕ} (hQ : ∀ s ∈ Q, s ∈ H ∧ (net.party s).proposed = true) {j : ℕ} (hj : j ∈ H) (hf : (net.party j).readySent = false) :
    Q.card ≤ (net.party j).echo (echoHash env D) (sh.getD j []) := by
  obtain ⟨hi, hpi⟩ := safe_inv ok hH hr hone
  obtain ⟨hl, hg⟩ := live_inv ok hH hr hone hc htr (by omega) he
  have hlj := hl j hj
  have hrun : (net.party j).echoPos = .running := by
    cases hp : (net.party j).echoPos with
    | running => rfl
    | blocked h m => exact absurd hp (hlj.nblk h m)
    | done => exact absurd (hlj.done hp) (by rw [hf]; simp)
  have hall : ∀ s ∈ Q, s ∈ echoesTo evs j (echoHash env D) (sh.getD j []) := by
    intro s hs
    obtain ⟨hsH, hsp⟩ := hQ s hs
    rcases hset.messages j hj s hsH _ _ ((hl s hsH).pout hsp j (hH.lt j hj)) (echo_size ok hD (shard_le ok he j)) with h | h
    · refine mem_echoesTo.2 ⟨_, h, ?_⟩
      rw [echo_decode ok (by omega) he]
      exact ⟨rfl, rfl⟩
    · simp [deliverEvent, rbcStep, hlj.alive, hrun] at h
  rw [(hpi j hj).cnt]
  refine (Finset.card_le_card (t := (echoesTo evs j (echoHash env D) (sh.getD j [])).toFinset) ?_).trans (List.toFinset_card_le _)
  intro s hs
  exact List.mem_toFinset.2 (hall s hs)

/-- With `F + 1` Echoes the Ready goroutine does not wait for ever. -/
theorem settled_idle {env : REnv} {H : Finset ℕ} {evs : List NEvent} {net : RNet} {D : Bytes} {sh : List Bytes} (hset : Settled env H evs net) {j : ℕ} (hj : j ∈ H)
    (hlj : LiveInv env D sh evs net.sent j (net.party j)) (hec : ∃ h m, env.F + 1 ≤ (net.party j).echo h m) : (net.party j).readyPos = .idle := by
  have hint := hset.internal j hj .readyStep rfl
  simp only [rbcStep, hlj.alive, Bool.false_eq_true, if_false] at hint
  unfold onReadyStep at hint
  have hnb := hlj.nblk
  split at hint
  · assumption
  · split at hint
    · rename_i hb; exact absurd hb (hnb _ _)
    · cases hint
  · rename_i h hpe
    split at hint
    · rename_i hch
      exact absurd hch (hlj.wch (Or.inr ⟨h, hpe⟩) (by rw [hpe]; simp) (by rw [hpe]; simp) hec)
    · cases hint
  · split at hint
    · rename_i hb; exact absurd hb (hnb _ _)
    · cases hint
  · split at hint
    · rename_i hb; exact absurd hb (hnb _ _)
    · cases hint
  · cases hint

/-- The Readys of the honest parties that have sent one have been recorded. -/
theorem settled_readys {env : REnv} (ok : env.Ok) {H : Finset ℕ} (hH : HonestSet env H) {evs : List NEvent} {net : RNet} (hr : NRun env H RNet.init evs net) (hone : EchoOnce evs)
    {D : Bytes} (hc : OneProposal D evs) (htr : TrueShards env D evs) (hD : D.length < 2 ^ 30) {sh : List Bytes} (he : env.rs.encode D = some sh) (hset : Settled env H evs net)
    {Q : Finset ℕ} (hQ : ∀ s ∈ Q, s ∈ H ∧ (net.party s).readySent = true) {j : ℕ} (hj : j ∈ H) (hidle : (net.party j).readyPos = .idle) :
    Q.card ≤ ((net.party j).T (echoHash env D)).length := by
  obtain ⟨hi, hpi⟩ := safe_inv ok hH hr hone
  obtain ⟨hl, hg⟩ := live_inv ok hH hr hone hc htr (by omega) he
  have hlj := hl j hj
  have hT : ∀ s ∈ Q, s ∈ ((net.party j).T (echoHash env D)).map Prod.fst := by
    intro s hs
    obtain ⟨hsH, hsr⟩ := hQ s hs
    have hseen : (net.party j).seen s = true := by
      rcases hset.messages j hj s hsH _ _ ((hl s hsH).rout hsr j (hH.lt j hj)) (ready_size ok hD (shard_le ok he s)) with h | h
      · exact hlj.dlv _ _ h
      · simp [deliverEvent, rbcStep, hlj.alive, hidle] at h
    obtain ⟨h, m, hm⟩ := hlj.seenT s hseen
    obtain ⟨d, hd, hpay⟩ := (hpi j hj).thon h _ hm hsH
    have hjust := hi.ready s hsH _ hd rfl
    simp only [hpay] at hjust
    rw [← cast_justified ok hH hr hone hc hjust]
    exact List.mem_map.2 ⟨_, hm, rfl⟩
  have : Q.card ≤ (((net.party j).T (echoHash env D)).map Prod.fst).length := by
    refine (Finset.card_le_card (t := (((net.party j).T (echoHash env D)).map Prod.fst).toFinset) ?_).trans (List.toFinset_card_le _)
    intro s hs
    exact List.mem_toFinset.2 (hT s hs)
  rwa [List.length_map] at this

/-- When everybody has sent Ready, everybody has returned. -/
theorem settled_of_ready {env : REnv} (ok : env.Ok) {H : Finset ℕ} (hH : HonestSet env H) {evs : List NEvent} {net : RNet} (hr : NRun env H RNet.init evs net) (hone : EchoOnce evs)
    {D : Bytes} (hc : OneProposal D evs) (htr : TrueShards env D evs) (hD : D.length < 2 ^ 30) {sh : List Bytes} (he : env.rs.encode D = some sh) (hset : Settled env H evs net)
    (hready : ∀ j ∈ H, (net.party j).readySent = true) : ∀ j ∈ H, (net.party j).mainPos = .returned (some D) := by
  obtain ⟨hl, hg⟩ := live_inv ok hH hr hone hc htr (by omega) he
  have hsz := ok.size
  have hcard := hH.card
  intro j hj
  have hlj := hl j hj
  have hidle := settled_idle hset hj hlj (hlj.rs (hready j hj))
  have hTlen : env.N - env.F ≤ ((net.party j).T (echoHash env D)).length :=
    hcard.trans (settled_readys ok hH hr hone hc htr hD he hset (Q := H) (fun s hs => ⟨hs, hready s hs⟩) hj hidle)
  have hds : (net.party j).decStart = true := by
    rcases hlj.dec _ hTlen with h | h
    · exact h
    · rw [hidle] at h; cases h
  -- the body has returned
  have hmain := hset.internal j hj .main rfl
  simp only [rbcStep, hlj.alive, Bool.false_eq_true, if_false, Option.map_eq_none_iff] at hmain
  have hm := hlj.main
  unfold onMain at hmain
  split at hmain
  · rw [if_pos hds] at hmain; cases hmain
  · rename_i r hp
    rw [hp] at hm
    split at hmain
    · cases hmain
    · rw [if_pos hm.1] at hmain; cases hmain
  · rw [if_pos hidle] at hmain
    split at hmain <;> cases hmain
  · split at hmain <;> cases hmain
  · split at hmain <;> cases hmain
  · simp only at hmain
    split at hmain <;> cases hmain
  · cases hmain
  · rename_i res hp
    rw [hp] at hm ⊢
    rw [show res = some D from hm]

/-- `N - F` honest parties have taken the proposal: everybody returns it. -/
theorem settled_of_quorum {env : REnv} (ok : env.Ok) {H : Finset ℕ} (hH : HonestSet env H) {evs : List NEvent} {net : RNet} (hr : NRun env H RNet.init evs net) (hone : EchoOnce evs)
    {D : Bytes} (hc : OneProposal D evs) (htr : TrueShards env D evs) (hD : D.length < 2 ^ 30) {sh : List Bytes} (he : env.rs.encode D = some sh) (hset : Settled env H evs net)
    {Q : Finset ℕ} (hQ : ∀ s ∈ Q, s ∈ H ∧ (net.party s).proposed = true) (hcard : env.N - env.F ≤ Q.card) : ∀ j ∈ H, (net.party j).mainPos = .returned (some D) := by
  obtain ⟨hl, hg⟩ := live_inv ok hH hr hone hc htr (by omega) he
  refine settled_of_ready ok hH hr hone hc htr hD he hset fun j hj => ?_
  by_contra hcon
  exact hcon ((hl j hj).quo _ _ (hcard.trans (settled_echoes ok hH hr hone hc htr hD he hset hQ hj (by simpa using hcon))))

/-- One honest party has started to decode: everybody returns. -/
theorem settled_of_dec {env : REnv} (ok : env.Ok) {H : Finset ℕ} (hH : HonestSet env H) {evs : List NEvent} {net : RNet} (hr : NRun env H RNet.init evs net) (hone : EchoOnce evs)
    {D : Bytes} (hc : OneProposal D evs) (htr : TrueShards env D evs) (hD : D.length < 2 ^ 30) {sh : List Bytes} (he : env.rs.encode D = some sh) (hset : Settled env H evs net)
    {i : ℕ} (hiH : i ∈ H) (hdec : (net.party i).decStart = true) : ∀ j ∈ H, (net.party j).mainPos = .returned (some D) := by
  classical
  obtain ⟨hi, hpi⟩ := safe_inv ok hH hr hone
  obtain ⟨hl, hg⟩ := live_inv ok hH hr hone hc htr (by omega) he
  have hsz := ok.size
  have hcardH := hH.card
  have hN := (hl i hiH).decN hdec
  have hT := (hl i hiH).meq (by omega)
  -- the honest parties outside a set of `N - F`
  have hhon : ∀ Q : Finset ℕ, (∀ s ∈ Q, s < env.N) → env.N - env.F ≤ Q.card → env.F + 1 ≤ (Q ∩ H).card := by
    intro Q hQ hcQ
    have hu : (Q ∪ H).card ≤ env.N := by
      have : Q ∪ H ⊆ Finset.range env.N := by
        intro x hx
        rcases Finset.mem_union.1 hx with h | h
        · exact Finset.mem_range.2 (hQ x h)
        · exact Finset.mem_range.2 (hH.lt x h)
      simpa using Finset.card_le_card this
    have := Finset.card_union_add_card_inter Q H
    omega
  -- `F + 1` honest parties have sent Ready
  have hnd := (hpi i hiH).tnodup (echoHash env D)
  have hR := hhon (((net.party i).T (echoHash env D)).map Prod.fst).toFinset
    (by
      intro s hs
      obtain ⟨x, hx, rfl⟩ := List.mem_map.1 (List.mem_toFinset.1 hs)
      exact ((hpi i hiH).tlt _ x hx).1)
    (by rw [List.toFinset_card_of_nodup hnd, List.length_map]; omega)
  have hRd : ∀ s ∈ (((net.party i).T (echoHash env D)).map Prod.fst).toFinset ∩ H, s ∈ H ∧ (net.party s).readySent = true := by
    intro s hs
    obtain ⟨h1, h2⟩ := Finset.mem_inter.1 hs
    obtain ⟨x, hx, rfl⟩ := List.mem_map.1 (List.mem_toFinset.1 h1)
    obtain ⟨d, hd, _⟩ := (hpi i hiH).thon _ x hx h2
    exact ⟨h2, ready_sent hr _ _ hd rfl⟩
  -- `F + 1` honest parties have sent Echo
  obtain ⟨Q, q1, q2, q3⟩ := (hpi i hiH).readyJ ok hH hi (h := echoHash env D) (by omega)
  have hE := hhon Q q2 q1
  have hEp : ∀ s ∈ Q ∩ H, s ∈ H ∧ (net.party s).proposed = true := by
    intro s hs
    obtain ⟨h1, h2⟩ := Finset.mem_inter.1 hs
    obtain ⟨o, ho, hk, _⟩ := q3 s h1 h2
    rcases hi.echo s h2 with ⟨_, h⟩ | ⟨h, _⟩
    · exact absurd hk (h o ho)
    · exact ⟨h2, h⟩
  refine settled_of_ready ok hH hr hone hc htr hD he hset fun j hj => ?_
  by_contra hcon
  have hec := hE.trans (settled_echoes ok hH hr hone hc htr hD he hset hEp hj (by simpa using hcon))
  have hidle := settled_idle hset hj (hl j hj) ⟨_, _, hec⟩
  rcases (hl j hj).rdy _ (hR.trans (settled_readys ok hH hr hone hc htr hD he hset hRd hj hidle)) with h | h
  · exact hcon h
  · rw [hidle] at h; cases h.1

/-- In a settled execution with an honest broadcaster everybody has returned its message. -/
theorem settled_returned {env : REnv} (ok : env.Ok) {H : Finset ℕ} (hH : HonestSet env H) {evs : List NEvent} {net : RNet} (hr : NRun env H RNet.init evs net) (hone : EchoOnce evs)
    {b : ℕ} (hb : b ∈ H) {M : PMessage} (hc : HonestCast b M evs) (htr : TrueShards env (marshal M) evs) (hD : (marshal M).length < 2 ^ 30) (hne : marshal M ≠ [])
    (hsend : .send b M ∈ evs) (hset : Settled env H evs net) : ∀ j ∈ H, (net.party j).mainPos = .returned (some (marshal M)) := by
  obtain ⟨sh, he⟩ : ∃ sh, env.rs.encode (marshal M) = some sh := by
    cases h : env.rs.encode (marshal M) with
    | none => exact absurd ((ok.encode_none _).1 h) hne
    | some sh => exact ⟨sh, rfl⟩
  have ho := hc.one ok hH hr hone hb
  obtain ⟨hl, hg⟩ := live_inv ok hH hr hone ho htr (by omega) he
  -- everybody has taken the proposal
  have hprop : ∀ j ∈ H, (net.party j).proposed = true := by
    intro j hj
    have hal := (hl j hj).alive
    rcases hset.messages j hj b hb _ _ (send_sent hr hsend j (hH.lt j hj)) (by omega) with h | h
    · by_contra hcon
      have hf : (net.party j).proposed = false := by simpa using hcon
      -- the delivery set the flag
      exact absurd (deliver_proposed hr h) (by rw [hf]; simp)
    · simp only [deliverEvent, rbcStep, hal, Bool.false_eq_true, if_false, he] at h
      split at h
      · assumption
      · cases h
  exact settled_of_quorum ok hH hr hone ho htr hD he hset (fun s hs => ⟨hs, hprop s hs⟩) hH.card

end DyCAPS
