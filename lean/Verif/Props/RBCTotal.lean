import Verif.Props.RBC

/-!
# Reliable broadcast: C95, C96
-/

namespace DyCAPS

/-- Enough to return for everybody: one honest party has returned something. -/
theorem total_of_returned {env : REnv} (ok : env.Ok) {H : Finset ℕ} (hH : HonestSet env H) {evs : List NEvent} {net : RNet} (hr : NRun env H RNet.init evs net) (hone : EchoOnce evs)
    {D : Bytes} (hc : OneProposal D evs) (htr : TrueShards env D evs) (hD : D.length < 2 ^ 30) (hne : D ≠ []) (hset : Settled env H evs net)
    {i : ℕ} (hi : i ∈ H) {res : Option Bytes} (hret : (net.party i).mainPos = .returned res) : ∀ j ∈ H, (net.party j).mainPos = .returned (some D) := by
  obtain ⟨sh, he⟩ : ∃ sh, env.rs.encode D = some sh := by
    cases h : env.rs.encode D with
    | none => exact absurd ((ok.encode_none _).1 h) hne
    | some sh => exact ⟨sh, rfl⟩
  refine settled_of_dec ok hH hr hone hc htr hD he hset hi ?_
  rcases run_dec hr i with h | h
  · rw [hret] at h; cases h
  · exact h

/-- **C95 (part).** Totality, whoever broadcasts: if all proposals taken by honest parties carry the same bytes `D` (a corrupt broadcaster may still leave parties out), no Echo is repeated and no wrong
shard is reported under the hash of `D`, then in every execution that has run to its end with one honest party returned, all honest parties have returned `D`. -/
theorem C95_totality_partial {env : REnv} (ok : env.Ok) {H : Finset ℕ} (hH : HonestSet env H) {evs : List NEvent} {net : RNet} (hr : NRun env H RNet.init evs net) (hone : EchoOnce evs)
    {D : Bytes} (hc : OneProposal D evs) (htr : TrueShards env D evs) (hD : D.length < 2 ^ 30) (hne : D ≠ []) (hset : Settled env H evs net)
    {i : ℕ} (hi : i ∈ H) {res : Option PMessage} (hret : (net.party i).result = some res) : ∀ j ∈ H, (net.party j).mainPos = .returned (some D) := by
  unfold RState.result at hret
  split at hret
  · rename_i h; exact total_of_returned ok hH hr hone hc htr hD hne hset hi h
  · rename_i h; exact total_of_returned ok hH hr hone hc htr hD hne hset hi h
  · cases hret

theorem IRun.keeps {env : REnv} {H : Finset ℕ} (x : IRun env H) {n m : ℕ} (hm : n ≤ m) {j : ℕ} {res : Option Bytes} (h : ((x.net n).party j).mainPos = .returned res) :
    ((x.net m).party j).mainPos = .returned res := by
  induction m, hm using Nat.le_induction with
  | base => exact h
  | succ m hm ih =>
    have hs := x.step m
    cases he : x.ev m with
    | none => rw [he] at hs; simp only at hs; rw [hs]; exact ih
    | some e =>
      rw [he] at hs
      rcases netStep_party hs j with h | ⟨ev, o, h⟩
      · rw [h]; exact ih
      · exact step_returned h ih

/-- **C95 (part).** The same for fair executions that go on for ever: once one honest party has returned, all honest parties return `D` at some time. Honest parties call `RBCSend` only before some time. -/
theorem C95_termination_partial {env : REnv} (ok : env.Ok) {H : Finset ℕ} (hH : HonestSet env H) (x : IRun env H) (hf : x.Fair) (hone : ∀ n, EchoOnce (x.before n))
    {D : Bytes} (hc : ∀ n, OneProposal D (x.before n)) (htr : ∀ n, TrueShards env D (x.before n)) (hD : D.length < 2 ^ 30) (hne : D ≠ []) {t : ℕ}
    (hq : ∀ n, t ≤ n → (∀ b M, x.ev n ≠ some (.send b M)) ∧ ∀ b M y, x.ev n ≠ some (.sendExcl b M y))
    {i : ℕ} (hi : i ∈ H) {res : Option Bytes} (hret : ((x.net t).party i).mainPos = .returned res) : ∃ n, ∀ m, n ≤ m → ∀ j ∈ H, ((x.net m).party j).mainPos = .returned (some D) := by
  obtain ⟨n, htn, hset⟩ := x.settles_of ok hH hf hone t (Or.inr hq)
  have hall := total_of_returned ok hH (x.run n) (hone n) (hc n) (htr n) hD hne hset hi (x.keeps htn.le hret)
  exact ⟨n, fun m hm j hj => x.keeps hm (hall j hj)⟩

/-! ## C96 -/

/-- **C96 (part).** `RBCSendExclude`: if `N - F` honest parties remain besides the one left out, everybody returns the message, including that one. -/
theorem C96_exclude_partial {env : REnv} (ok : env.Ok) {H : Finset ℕ} (hH : HonestSet env H) {evs : List NEvent} {net : RNet} (hr : NRun env H RNet.init evs net) (hone : EchoOnce evs)
    {b x : ℕ} (hb : b ∈ H) {M : PMessage} (hc : HonestCast b M evs) (htr : TrueShards env (marshal M) evs) (hD : (marshal M).length < 2 ^ 30) (hne : marshal M ≠ [])
    (hsend : .sendExcl b M x ∈ evs) (hcard : env.N - env.F ≤ (H.erase x).card) (hset : Settled env H evs net) : ∀ j ∈ H, (net.party j).result = some (some M) := by
  obtain ⟨sh, he⟩ : ∃ sh, env.rs.encode (marshal M) = some sh := by
    cases h : env.rs.encode (marshal M) with
    | none => exact absurd ((ok.encode_none _).1 h) hne
    | some sh => exact ⟨sh, rfl⟩
  have ho := hc.one ok hH hr hone hb
  obtain ⟨hl, hg⟩ := live_inv ok hH hr hone ho htr (by omega) he
  have hprop : ∀ j ∈ H.erase x, j ∈ H ∧ (net.party j).proposed = true := by
    intro j hj'
    obtain ⟨hjx, hj⟩ := Finset.mem_erase.1 hj'
    refine ⟨hj, ?_⟩
    have hal := (hl j hj).alive
    rcases hset.messages j hj b hb _ _ (sendExcl_sent hr hsend j (hH.lt j hj) hjx) (by omega) with h | h
    · exact deliver_proposed hr h
    · simp only [deliverEvent, rbcStep, hal, Bool.false_eq_true, if_false, he] at h
      split at h
      · assumption
      · cases h
  exact fun j hj => result_marshal hD (settled_of_quorum ok hH hr hone ho htr hD he hset hprop hcard j hj)

/-- **C96 (part).** The same for fair executions that go on for ever. -/
theorem C96_termination_partial {env : REnv} (ok : env.Ok) {H : Finset ℕ} (hH : HonestSet env H) (x : IRun env H) (hf : x.Fair) (hone : ∀ n, EchoOnce (x.before n))
    {b y : ℕ} (hb : b ∈ H) {M : PMessage} (hc : ∀ n, HonestCast b M (x.before n)) (htr : ∀ n, TrueShards env (marshal M) (x.before n)) (hD : (marshal M).length < 2 ^ 30) (hne : marshal M ≠ [])
    {t : ℕ} (hsend : x.ev t = some (.sendExcl b M y)) (hcard : env.N - env.F ≤ (H.erase y).card) {t' : ℕ}
    (hq : ∀ n, t' ≤ n → (∀ b M, x.ev n ≠ some (.send b M)) ∧ ∀ b M y, x.ev n ≠ some (.sendExcl b M y)) :
    ∃ n, ∀ m, n ≤ m → ∀ j ∈ H, ((x.net m).party j).result = some (some M) := by
  obtain ⟨n, htn, hset⟩ := x.settles_of ok hH hf hone (max t t') (Or.inr fun n hn => hq n ((le_max_right _ _).trans hn))
  have hall := C96_exclude_partial ok hH (x.run n) (hone n) hb (hc n) (htr n) hD hne (IRun.mem_before hsend (lt_of_le_of_lt (le_max_left _ _) htn)) hcard hset
  refine ⟨n, fun m hm j hj => ?_⟩
  have h := hall j hj
  unfold RState.result at h
  split at h
  · cases h
  · rename_i hp; unfold RState.result; rw [x.keeps hm hp]; exact h
  · cases h

/-- The honest parties other than `x`, when the first `N - F` are honest. -/
def restOf (env : REnv) (x : ℕ) : List ℕ := (List.range (env.N - env.F)).filter fun j => decide (j ≠ x)

theorem mem_restOf {env : REnv} {x j : ℕ} : j ∈ restOf env x ↔ j < env.N - env.F ∧ j ≠ x := by simp [restOf]

theorem restOf_nodup (env : REnv) (x : ℕ) : (restOf env x).Nodup := List.nodup_range.filter _

theorem restOf_length {env : REnv} {x : ℕ} (hx : x < env.N - env.F) : (restOf env x).length = env.N - env.F - 1 := by
  have h : (restOf env x).toFinset = (Finset.range (env.N - env.F)).erase x := by
    ext j; simp [mem_restOf, and_comm]
  rw [← List.toFinset_card_of_nodup (restOf_nodup env x), h, Finset.card_erase_of_mem (Finset.mem_range.2 hx), Finset.card_range]

/-- The events of the execution in which the broadcast of `b` that leaves out `x` gets stuck. -/
def stuckEvents (env : REnv) (b x : ℕ) (D : Bytes) (sh : List Bytes) : List NEvent :=
  ((restOf env x).flatMap fun j => [NEvent.deliver j .propose b D]) ++
  (List.range (env.N - env.F)).flatMap fun j => (restOf env x).map fun s => NEvent.deliver j .echo s (marshal (⟨echoHash env D, sh.getD j []⟩ : PRBCEcho))

theorem stuck_run {env : REnv} (ok : env.Ok) {b x : ℕ} (hb : b < env.N - env.F) (hx : x < env.N - env.F) (M : PMessage) (hD : (marshal M).length < 2 ^ 30)
    {sh : List Bytes} (he : env.rs.encode (marshal M) = some sh) :
    ∃ net, NRun env (Finset.range (env.N - env.F)) RNet.init ([.sendExcl b M x] ++ stuckEvents env b x (marshal M) sh) net ∧
      (∀ j, j < env.N - env.F → (net.party j).dead = false ∧ (net.party j).echoPos = .running ∧ (net.party j).readySent = false ∧ (net.party j).decStart = false ∧
        (net.party j).readyPos = .idle ∧ (net.party j).mainPos = .start) ∧
      ∀ s o, (s, o) ∈ net.sent → (s = b ∧ ∃ j, j ≠ x ∧ o = ⟨j, .propose, marshal M⟩) ∨ (s ∈ restOf env x ∧ ∃ j, o = ⟨j, .echo, marshal (⟨echoHash env (marshal M), sh.getD j []⟩ : PRBCEcho)⟩) := by
  have hsz := ok.size
  have hbH : b ∈ Finset.range (env.N - env.F) := Finset.mem_range.2 hb
  obtain ⟨n1, h1, h2, h3⟩ : ∃ net, NRun env (Finset.range (env.N - env.F)) RNet.init [.sendExcl b M x] net ∧ (∀ j, net.party j = RState.init) ∧
      net.sent = (rBroadcastExcl env.N x .propose (marshal M)).map fun o => (b, o) :=
    ⟨_, (NRun.nil).snoc (by simp only [netStep, if_pos hbH]; rfl), fun _ => rfl, by simp [RNet.init]⟩
  obtain ⟨n2, g1, g2, g3, g4⟩ := h1.phase (restOf env x) (fun j hj => Finset.mem_range.2 (mem_restOf.1 hj).1) (restOf_nodup _ _) (fun j => [NEvent.deliver j .propose b (marshal M)])
    (fun _ => { RState.init with proposed := true })
    (fun _ => (List.range env.N).map fun j => (⟨j, .echo, marshal (⟨echoHash env (marshal M), sh.getD j []⟩ : PRBCEcho)⟩ : ROut))
    (by
      intro j _
      rw [h2 j]
      simp only [List.map_cons, List.map_nil, evOf, deliverEvent, runParty, rbcStep, RState.init, he, Bool.false_eq_true, if_false, Option.map_some, List.append_nil])
    (by
      intro j hj e he'
      rw [List.mem_singleton.1 he']
      refine ⟨rfl, by omega, by omega, fun _ => ?_⟩
      rw [h3]
      have hj' := mem_restOf.1 hj
      exact List.mem_map.2 ⟨_, List.mem_filter.2 ⟨List.mem_map.2 ⟨j, List.mem_range.2 (by omega), rfl⟩, by simpa using hj'.2⟩, rfl⟩)
  have hfresh : ∀ j, FreshR (n2.party j) := by
    intro j
    by_cases hj : j ∈ restOf env x
    · rw [g2 j hj]; exact ⟨rfl, fun _ _ => rfl, rfl, fun _ => rfl, rfl, rfl, rfl, rfl, fun _ => rfl, rfl, rfl⟩
    · rw [g3 j hj, h2 j]; exact fresh_init
  have hparty : ∀ j, j ∈ List.range (env.N - env.F) → ∃ s', runParty env (n2.party j)
      (((restOf env x).map fun s => NEvent.deliver j .echo s (marshal (⟨echoHash env (marshal M), sh.getD j []⟩ : PRBCEcho))).map evOf) = some (s', []) ∧
      s'.dead = false ∧ s'.echoPos = .running ∧ s'.readySent = false ∧ s'.decStart = false ∧ s'.readyPos = .idle ∧ s'.mainPos = .start := by
    intro j _
    have e : ((restOf env x).map fun s => NEvent.deliver j .echo s (marshal (⟨echoHash env (marshal M), sh.getD j []⟩ : PRBCEcho))).map evOf =
        List.replicate (env.N - env.F - 1) (.echo (marshal (⟨echoHash env (marshal M), sh.getD j []⟩ : PRBCEcho))) := by
      rw [List.map_map, List.eq_replicate_iff]
      refine ⟨by rw [List.length_map, restOf_length hx], ?_⟩
      intro y hy
      obtain ⟨s, _, rfl⟩ := List.mem_map.1 hy
      rfl
    obtain ⟨s', a1, a2, a3, a4, a5, a6, a7, a8, a9, a10, a11, a12⟩ := run_echoes_aux ok (hfresh j) (echo_decode ok (by omega) he j) (env.N - env.F - 1) (by omega)
    rw [e]
    exact ⟨s', a1, a2, a4, a7, by rw [a9, (hfresh j).dec], by rw [a11, (hfresh j).rpos], by rw [a12, (hfresh j).main]⟩
  choose! st hst1 hst2 using hparty
  obtain ⟨n3, k1, k2, _, k4⟩ := g1.phase (List.range (env.N - env.F)) (fun j hj => Finset.mem_range.2 (List.mem_range.1 hj)) List.nodup_range
    (fun j => (restOf env x).map fun s => NEvent.deliver j .echo s (marshal (⟨echoHash env (marshal M), sh.getD j []⟩ : PRBCEcho))) st (fun _ => []) hst1 (by
      intro j hj e he'
      obtain ⟨s, hs, rfl⟩ := List.mem_map.1 he'
      have hj := List.mem_range.1 hj
      have hs' := mem_restOf.1 hs
      refine ⟨rfl, by omega, echo_size ok hD (shard_le ok he j), fun _ => ?_⟩
      rw [g4]
      exact List.mem_append_right _ (List.mem_flatMap.2 ⟨s, hs, List.mem_map.2 ⟨_, List.mem_map.2 ⟨j, List.mem_range.2 (by omega), rfl⟩, rfl⟩⟩))
  refine ⟨n3, by rw [stuckEvents, ← List.append_assoc]; exact k1, fun j hj => ?_, ?_⟩
  · rw [k2 j (List.mem_range.2 hj)]; exact hst2 j (List.mem_range.2 hj)
  · intro s o ho
    rw [k4] at ho
    rcases List.mem_append.1 ho with ho | ho
    · rw [g4, h3] at ho
      rcases List.mem_append.1 ho with ho | ho
      · obtain ⟨o', a1, a2⟩ := List.mem_map.1 ho
        cases a2
        obtain ⟨j, _, hjx, rfl⟩ := mem_excl a1
        exact Or.inl ⟨rfl, j, hjx, rfl⟩
      · obtain ⟨s', hs', a1⟩ := List.mem_flatMap.1 ho
        obtain ⟨o', a2, a3⟩ := List.mem_map.1 a1
        cases a3
        obtain ⟨j, _, rfl⟩ := List.mem_map.1 a2
        exact Or.inr ⟨hs', j, rfl⟩
    · obtain ⟨_, _, a1⟩ := List.mem_flatMap.1 ho
      cases a1

/-- The senders of the Echoes in the stuck execution. -/
theorem stuck_once (env : REnv) (b x : ℕ) (M : PMessage) (D : Bytes) (sh : List Bytes) : EchoOnce ([.sendExcl b M x] ++ stuckEvents env b x D sh) := by
  intro j
  rw [stuckEvents, echoSenders_append, echoSenders_append, echoSenders_none (l := [NEvent.sendExcl b M x]), echoSenders_none (l := (restOf env x).flatMap _), List.nil_append, List.nil_append]
  · have key : ∀ L : List ℕ, L.Nodup → (echoSenders (L.flatMap fun j => (restOf env x).map fun s => NEvent.deliver j .echo s (marshal (⟨echoHash env D, sh.getD j []⟩ : PRBCEcho))) j).Nodup ∧
        (j ∉ L → echoSenders (L.flatMap fun j => (restOf env x).map fun s => NEvent.deliver j .echo s (marshal (⟨echoHash env D, sh.getD j []⟩ : PRBCEcho))) j = []) := by
      intro L hL
      induction L with
      | nil => exact ⟨by simp [echoSenders], fun _ => by simp [echoSenders]⟩
      | cons i L ih =>
        obtain ⟨hi, hL'⟩ := List.nodup_cons.1 hL
        obtain ⟨a1, a2⟩ := ih hL'
        have e : echoSenders ((restOf env x).map fun s => NEvent.deliver i .echo s (marshal (⟨echoHash env D, sh.getD i []⟩ : PRBCEcho))) j = if i = j then restOf env x else [] := by
          unfold echoSenders
          rw [List.filterMap_map]
          by_cases h : i = j
          · subst h
            rw [if_pos rfl]
            simp only [Function.comp_def, if_true]
            exact List.filterMap_some
          · rw [if_neg h, List.filterMap_eq_nil_iff]
            intro s _
            simp [h]
        rw [List.flatMap_cons, echoSenders_append, e]
        by_cases h : i = j
        · subst h
          rw [if_pos rfl, a2 hi, List.append_nil]
          exact ⟨restOf_nodup env x, fun h => absurd List.mem_cons_self h⟩
        · rw [if_neg h, List.nil_append]
          exact ⟨a1, fun h' => a2 (fun h'' => h' (List.mem_cons_of_mem _ h''))⟩
    exact (key _ List.nodup_range).1
  · intro e he' j s d hcon
    subst hcon
    obtain ⟨i, _, h⟩ := List.mem_flatMap.1 he'
    simp at h
  · intro e he' j s d hcon
    subst hcon
    simp at he'

/-- **C96 (refuted).** With `F` silent corrupt parties a broadcast that leaves out one honest party stops for good: only `N - F - 1` Echoes arrive, no Ready is ever sent and no honest party returns,
although every message between honest parties has been handled. -/
theorem C96_refuted {env : REnv} (ok : env.Ok) {b x : ℕ} (hb : b < env.N - env.F) (hx : x < env.N - env.F) (M : PMessage) (hD : (marshal M).length < 2 ^ 30) (hne : marshal M ≠ []) :
    HonestSet env (Finset.range (env.N - env.F)) ∧ ∃ r : IRun env (Finset.range (env.N - env.F)), r.Fair ∧ r.ev 0 = some (.sendExcl b M x) ∧ (∀ n, EchoOnce (r.before n)) ∧
      (∀ n, HonestCast b M (r.before n)) ∧ (∀ n, TrueShards env (marshal M) (r.before n)) ∧ ∀ n, ∀ j ∈ Finset.range (env.N - env.F), ((r.net n).party j).result = none := by
  obtain ⟨sh, he⟩ : ∃ sh, env.rs.encode (marshal M) = some sh := by
    cases h : env.rs.encode (marshal M) with
    | none => exact absurd ((ok.encode_none _).1 h) hne
    | some sh => exact ⟨sh, rfl⟩
  obtain ⟨net, h1, h2, h3⟩ := stuck_run ok hb hx M hD he
  have hform : ∀ e ∈ [NEvent.sendExcl b M x] ++ stuckEvents env b x (marshal M) sh, e = .sendExcl b M x ∨ (∃ j, e = .deliver j .propose b (marshal M)) ∨ ∃ j s d, e = .deliver j .echo s d := by
    intro e he'
    rcases List.mem_append.1 he' with h | h
    · exact Or.inl (List.mem_singleton.1 h)
    · rcases List.mem_append.1 h with h | h
      · obtain ⟨j, _, h⟩ := List.mem_flatMap.1 h
        exact Or.inr (Or.inl ⟨j, List.mem_singleton.1 h⟩)
      · obtain ⟨j, _, h⟩ := List.mem_flatMap.1 h
        obtain ⟨s, _, rfl⟩ := List.mem_map.1 h
        exact Or.inr (Or.inr ⟨j, s, _, rfl⟩)
  have hset : Settled env (Finset.range (env.N - env.F)) ([.sendExcl b M x] ++ stuckEvents env b x (marshal M) sh) net := by
    refine ⟨fun j hj ev hev => ?_, fun j hj s hs k d hm _ => Or.inl ?_⟩
    · obtain ⟨a1, a2, a3, a4, a5, a6⟩ := h2 j (Finset.mem_range.1 hj)
      cases ev with
      | propose => cases hev
      | echo => cases hev
      | ready => cases hev
      | echoPush => simp [rbcStep, a1, a2]
      | echoQuit => simp [rbcStep, a1, a3]
      | readyStep => simp [rbcStep, a1, onReadyStep, a5]
      | main => simp [rbcStep, a1, onMain, a6, a4]
    · refine List.mem_append_right _ ?_
      have hj' := Finset.mem_range.1 hj
      rcases h3 _ _ hm with ⟨rfl, i, hi, ho⟩ | ⟨hs', i, ho⟩
      · cases ho
        exact List.mem_append_left _ (List.mem_flatMap.2 ⟨_, mem_restOf.2 ⟨hj', hi⟩, by simp⟩)
      · cases ho
        exact List.mem_append_right _ (List.mem_flatMap.2 ⟨_, List.mem_range.2 hj', List.mem_map.2 ⟨s, hs', rfl⟩⟩)
  obtain ⟨r, a1, a2⟩ := IRun.of_run h1
  have hsub : ∀ n, r.before n ⊆ [NEvent.sendExcl b M x] ++ stuckEvents env b x (marshal M) sh := fun n => by rw [IRun.before_of_list a1]; exact List.take_subset _ _
  refine ⟨⟨fun j hj => by have := Finset.mem_range.1 hj; omega, by simp⟩, r, IRun.fair_of_settled a1 a2 hset, by rw [a1]; rfl, fun n j => ?_, fun n => ⟨?_, ?_, ?_⟩, fun n => ?_, fun n j hj => ?_⟩
  · rw [IRun.before_of_list a1]
    exact (stuck_once env b x M (marshal M) sh j).sublist ((List.take_sublist n _).filterMap _)
  · intro j s d hm
    rcases hform _ (hsub n hm) with h | ⟨_, h⟩ | ⟨_, _, _, h⟩ <;> cases h
    rfl
  · intro M' hm
    rcases hform _ (hsub n hm) with h | ⟨_, h⟩ | ⟨_, _, _, h⟩ <;> cases h
  · intro M' y hm
    rcases hform _ (hsub n hm) with h | ⟨_, h⟩ | ⟨_, _, _, h⟩ <;> cases h
    rfl
  · intro j s d sh' hm
    rcases hform _ (hsub n hm) with h | ⟨_, h⟩ | ⟨_, _, _, h⟩ <;> cases h
  · have hend : ((r.net (max n ([NEvent.sendExcl b M x] ++ stuckEvents env b x (marshal M) sh).length)).party j).mainPos = .start := by
      rw [a2 _ (le_max_right _ _)]; exact (h2 j (Finset.mem_range.1 hj)).2.2.2.2.2
    have hno : ∀ res, ((r.net n).party j).mainPos ≠ .returned res := fun res h => by
      rw [r.keeps (le_max_left _ _) h] at hend; cases hend
    unfold RState.result
    split
    · rename_i h; exact absurd h (hno _)
    · rename_i h; exact absurd h (hno _)
    · rfl

/-! ## C95: a corrupt broadcaster with two messages -/

section Split

def splitM : PMessage := ⟨"VSSEcho", [1], 1, [9, 8]⟩

def splitH : Finset ℕ := {0, 1, 2}

/-- `N = 4`, `F = 1`, party 3 corrupt. It proposes `splitM` to party 0 and `toyM` to parties 1 and 2, echoes accordingly, and sends one Ready, with the right shard, to party 1 only. Party 0 takes the two
Echoes for `splitM` as the confirmation it needs before it joins the Readys for `toyM`, and reports its shard of `splitM` under the hash of `toyM`. -/
def splitEvents : List NEvent :=
  let env := toyEnv 4 1
  let D := marshal toyM
  let D' := marshal splitM
  let E := fun (d : Bytes) (j : ℕ) => marshal (⟨echoHash env d, toyShard 4 1 d j⟩ : PRBCEcho)
  let R := fun (d : Bytes) (s : ℕ) => marshal (⟨echoHash env D, toyShard 4 1 d s⟩ : PRBCReady)
  let step := fun j : ℕ => [NEvent.run j .readyStep, .run j .readyStep]
  [.deliver 0 .propose 3 D', .deliver 1 .propose 3 D, .deliver 2 .propose 3 D] ++
  [.deliver 0 .echo 0 (E D' 0), .deliver 0 .echo 3 (E D' 0), .deliver 0 .echo 1 (E D 0), .deliver 0 .echo 2 (E D 0)] ++
  [.deliver 1 .echo 1 (E D 1), .deliver 1 .echo 2 (E D 1), .deliver 1 .echo 3 (E D 1)] ++
  [.deliver 2 .echo 1 (E D 2), .deliver 2 .echo 2 (E D 2), .deliver 2 .echo 3 (E D 2)] ++
  [.deliver 0 .ready 1 (R D 1)] ++ step 0 ++ [.deliver 0 .ready 2 (R D 2)] ++ List.replicate 5 (.run 0 .readyStep) ++ [.run 0 .echoQuit, .deliver 0 .ready 0 (R D' 0)] ++ step 0 ++
  List.replicate 7 (.run 0 .main) ++
  [.deliver 1 .ready 1 (R D 1)] ++ step 1 ++ [.deliver 1 .ready 2 (R D 2)] ++ step 1 ++ [.deliver 1 .ready 3 (R D 3)] ++ step 1 ++ List.replicate 7 (.run 1 .main) ++
  [.deliver 1 .ready 0 (R D' 0)] ++ step 1 ++
  [.deliver 2 .ready 0 (R D' 0)] ++ step 2 ++ [.deliver 2 .ready 1 (R D 1)] ++ step 2 ++ [.deliver 2 .ready 2 (R D 2)] ++ step 2 ++ List.replicate 7 (.run 2 .main)

/-- Check of an execution that has run to its end. -/
def settledB (env : REnv) (P : List ℕ) (evs : List NEvent) (net : RNet) : Bool :=
  P.all (fun j => [REvent.echoPush, .echoQuit, .readyStep, .main].all fun ev => (rbcStep env (net.party j) ev).isNone) &&
  net.sent.all fun (s, o) => decide (NEvent.deliver o.dst o.kind s o.data ∈ evs) || !P.contains o.dst || (rbcStep env (net.party o.dst) (deliverEvent o.kind s o.data)).isNone

theorem settled_of_settledB {env : REnv} {H : Finset ℕ} {P : List ℕ} (hP : ∀ j ∈ H, j ∈ P) {evs : List NEvent} {net : RNet} (h : settledB env P evs net = true) : Settled env H evs net := by
  simp only [settledB, Bool.and_eq_true, List.all_eq_true] at h
  obtain ⟨hint, hmsg⟩ := h
  refine ⟨fun j hj ev hev => ?_, fun j hj s _ k d hm _ => ?_⟩
  · have h := hint j (hP j hj)
    rw [← Option.isNone_iff_eq_none]
    cases ev with
    | echoPush => exact h _ (by simp)
    | echoQuit => exact h _ (by simp)
    | readyStep => exact h _ (by simp)
    | main => exact h _ (by simp)
    | _ => cases hev
  · have h := hmsg _ hm
    simp only [Bool.or_eq_true, decide_eq_true_eq, Bool.not_eq_true', Option.isNone_iff_eq_none] at h
    rcases h with (h | h) | h
    · exact Or.inl h
    · exact absurd (hP j hj) (by simpa using h)
    · exact Or.inr h

set_option maxRecDepth 10000 in
theorem split_run : ((runNet (toyEnv 4 1) splitH RNet.init splitEvents).elim false fun net => settledB (toyEnv 4 1) [0, 1, 2] splitEvents net &&
    decide ((net.party 1).mainPos = .returned (some (marshal toyM)) ∧ (net.party 0).mainPos = .poll 1 ∧ (net.party 2).mainPos = .poll 1 ∧
      (net.party 0).dead = false ∧ (net.party 2).dead = false)) = true := by decide +kernel

/-- What the corrupt party does, and who takes messages. -/
def splitEventB (env : REnv) (D : Bytes) : NEvent → Bool
  | .send _ _ => false
  | .sendExcl _ _ _ => false
  | .deliver j .ready s d => decide (j < 3 ∧ (s = 3 → readyPayload d = ⟨echoHash env D, toyShard 4 1 D 3⟩))
  | .deliver j _ _ _ => decide (j < 3)
  | .run j _ => decide (j < 3)

set_option maxRecDepth 10000 in
theorem split_events : ∀ e ∈ splitEvents, splitEventB (toyEnv 4 1) (marshal toyM) e = true := by decide +kernel

set_option maxRecDepth 10000 in
theorem split_once : ∀ j ∈ List.range 3, (echoSenders splitEvents j).Nodup := by decide +kernel

end Split

/-- **C95 (refuted).** A corrupt broadcaster proposes two messages. No Echo is repeated, the corrupt party reports a single shard and that one is right, no goroutine panics, and the execution is fair.
One honest party returns the message, the other two wait for ever. -/
theorem C95_refuted : (toyEnv 4 1).Ok ∧ HonestSet (toyEnv 4 1) splitH ∧ ∃ r : IRun (toyEnv 4 1) splitH, r.Fair ∧ (∀ n, EchoOnce (r.before n)) ∧
    (∀ n j d, .deliver j .ready 3 d ∈ r.before n → readyPayload d = ⟨echoHash (toyEnv 4 1) (marshal toyM), toyShard 4 1 (marshal toyM) 3⟩) ∧
    (∃ n, ∀ m, n ≤ m → ((r.net m).party 1).result = some (some toyM)) ∧
    ∀ n, ((r.net n).party 0).result = none ∧ ((r.net n).party 2).result = none := by
  refine ⟨toyEnv_ok (by norm_num) (by norm_num), ⟨by decide, by decide⟩, ?_⟩
  have hrun := split_run
  cases hn : runNet (toyEnv 4 1) splitH RNet.init splitEvents with
  | none => rw [hn] at hrun; cases hrun
  | some net =>
    rw [hn] at hrun
    simp only [Option.elim_some, Bool.and_eq_true, decide_eq_true_eq] at hrun
    obtain ⟨hsb, e1, e0, e2, _, _⟩ := hrun
    have hr : NRun (toyEnv 4 1) splitH RNet.init splitEvents net := by
      have := NRun.of_runNet (NRun.nil (env := toyEnv 4 1) (H := splitH) (net₀ := RNet.init)) hn
      rwa [List.nil_append] at this
    have hset := settled_of_settledB (H := splitH) (by decide) hsb
    obtain ⟨r, a1, a2⟩ := IRun.of_run hr
    have hsub : ∀ n, r.before n ⊆ splitEvents := fun n => by rw [IRun.before_of_list a1]; exact List.take_subset _ _
    have hno : ∀ i, (net.party i).mainPos = .poll 1 → ∀ n, ((r.net n).party i).result = none := by
      intro i hi n
      have hend : ((r.net (max n splitEvents.length)).party i).mainPos = .poll 1 := by rw [a2 _ (le_max_right _ _)]; exact hi
      have hno : ∀ res, ((r.net n).party i).mainPos ≠ .returned res := fun res h => by
        rw [r.keeps (le_max_left _ _) h] at hend; cases hend
      unfold RState.result
      split
      · rename_i h; exact absurd h (hno _)
      · rename_i h; exact absurd h (hno _)
      · rfl
    refine ⟨r, IRun.fair_of_settled a1 a2 hset, fun n j => ?_, fun n j d hd => ?_, ⟨splitEvents.length, fun m hm => ?_⟩, fun n => ⟨hno 0 e0 n, hno 2 e2 n⟩⟩
    · rw [IRun.before_of_list a1]
      refine List.Nodup.sublist ((List.take_sublist n splitEvents).filterMap _) ?_
      by_cases hj : j < 3
      · exact split_once j (List.mem_range.2 hj)
      · have : echoSenders splitEvents j = [] := by
          unfold echoSenders
          rw [List.filterMap_eq_nil_iff]
          intro e he
          have h := split_events e he
          split
          · simp only [splitEventB, decide_eq_true_eq] at h
            rw [if_neg (by omega)]
          · rfl
        show (echoSenders splitEvents j).Nodup
        rw [this]; exact List.nodup_nil
    · have h := split_events _ (hsub n hd)
      simp only [splitEventB, decide_eq_true_eq] at h
      exact h.2 trivial
    · rw [a2 m hm]
      exact result_marshal (by decide +kernel) e1

section Examples

/-- Properties of the events of the two executions below, checked one by one; all proposals come from party 0. -/
def zeroEventB (D : Bytes) (h : Bytes) : NEvent → Bool
  | .send _ _ => false
  | .sendExcl b M x => decide (b = 0 ∧ M = toyM ∧ x = 2)
  | .deliver j .propose s d => decide (j < 4 ∧ s = 0 ∧ d = D)
  | .deliver j .echo _ _ => decide (j < 4)
  | .deliver j .ready s d => decide (j < 4 ∧ s < 4 ∧ readyPayload d = ⟨h, toyShard 4 1 D s⟩)
  | .run j _ => decide (j < 4)

theorem zero_hypotheses {evs : List NEvent} (he : ∀ e ∈ evs, zeroEventB (marshal toyM) (echoHash (toyEnv 4 1) (marshal toyM)) e = true)
    (ho : ∀ j ∈ List.range 4, (echoSenders evs j).Nodup) : EchoOnce evs ∧ HonestCast 0 toyM evs ∧ OneProposal (marshal toyM) evs ∧ TrueShards (toyEnv 4 1) (marshal toyM) evs := by
  refine ⟨fun j => ?_, ⟨fun j s d h => ?_, fun M h => ?_, fun M x h => ?_⟩, fun j s d h => ?_, fun j s d sh h hs _ => ?_⟩
  · by_cases hj : j < 4
    · exact ho j (List.mem_range.2 hj)
    · have : echoSenders evs j = [] := by
        unfold echoSenders
        rw [List.filterMap_eq_nil_iff]
        intro e hm
        have h := he e hm
        split
        · simp only [zeroEventB, decide_eq_true_eq] at h
          rw [if_neg (by omega)]
        · rfl
      rw [this]; exact List.nodup_nil
  · have := he _ h
    simp only [zeroEventB, decide_eq_true_eq] at this
    exact this.2.1
  · have := he _ h
    simp only [zeroEventB, Bool.false_eq_true] at this
  · have := he _ h
    simp only [zeroEventB, decide_eq_true_eq] at this
    exact this.2.1
  · have := he _ h
    simp only [zeroEventB, decide_eq_true_eq] at this
    exact this.2.2
  · have := he _ h
    simp only [zeroEventB, decide_eq_true_eq] at this
    obtain ⟨_, _, hp⟩ := this
    rw [hp]
    exact toyShard_eq (by norm_num) (by norm_num) hs s

/-- The Readys handled by the parties `P`, and what follows. -/
def zeroReadys (P S : List ℕ) : List NEvent :=
  P.flatMap fun j => (S.flatMap fun s => [.deliver j .ready s (marshal (⟨echoHash (toyEnv 4 1) (marshal toyM), toyShard 4 1 (marshal toyM) s⟩ : PRBCReady)), .run j .readyStep, .run j .readyStep]) ++
    List.replicate 7 (.run j .main)

def zeroEchoes (P S : List ℕ) : List NEvent :=
  P.flatMap fun j => S.map fun s => .deliver j .echo s (marshal (⟨echoHash (toyEnv 4 1) (marshal toyM), toyShard 4 1 (marshal toyM) j⟩ : PRBCEcho))

/-- Party 0 is corrupt, proposes to parties 1 and 2 only, and echoes to everybody. -/
def leftOutEvents : List NEvent :=
  [.deliver 1 .propose 0 (marshal toyM), .deliver 2 .propose 0 (marshal toyM)] ++ zeroEchoes [1, 2, 3] [0, 1, 2] ++ zeroReadys [1, 2, 3] [1, 2, 3]

/-- All four parties are honest, party 0 leaves out party 2. -/
def exclEvents : List NEvent :=
  [.sendExcl 0 toyM 2, .deliver 0 .propose 0 (marshal toyM), .deliver 1 .propose 0 (marshal toyM), .deliver 3 .propose 0 (marshal toyM)] ++ zeroEchoes [0, 1, 2, 3] [0, 1, 3] ++
    zeroReadys [0, 1, 2, 3] [0, 1, 2, 3]

set_option maxRecDepth 10000 in
theorem leftOut_run : ((runNet (toyEnv 4 1) {1, 2, 3} RNet.init leftOutEvents).elim false fun net => settledB (toyEnv 4 1) [1, 2, 3] leftOutEvents net &&
    decide ((net.party 1).mainPos = .returned (some (marshal toyM)))) = true := by decide +kernel

set_option maxRecDepth 10000 in
theorem excl_run : ((runNet (toyEnv 4 1) {0, 1, 2, 3} RNet.init exclEvents).elim false fun net => settledB (toyEnv 4 1) [0, 1, 2, 3] exclEvents net) = true := by decide +kernel

set_option maxRecDepth 10000 in
theorem zero_events : (∀ e ∈ leftOutEvents, zeroEventB (marshal toyM) (echoHash (toyEnv 4 1) (marshal toyM)) e = true) ∧
    ∀ e ∈ exclEvents, zeroEventB (marshal toyM) (echoHash (toyEnv 4 1) (marshal toyM)) e = true := by constructor <;> decide +kernel

set_option maxRecDepth 10000 in
theorem zero_once : (∀ j ∈ List.range 4, (echoSenders leftOutEvents j).Nodup) ∧ ∀ j ∈ List.range 4, (echoSenders exclEvents j).Nodup := by constructor <;> decide +kernel

/-- Party 3, left out by the corrupt party 0, returns the message as well: case of `C95_totality_partial`. -/
example : ∃ net, NRun (toyEnv 4 1) {1, 2, 3} RNet.init leftOutEvents net ∧ (net.party 3).proposed = false ∧ ∀ j ∈ ({1, 2, 3} : Finset ℕ), (net.party j).mainPos = .returned (some (marshal toyM)) := by
  have hrun := leftOut_run
  cases hn : runNet (toyEnv 4 1) {1, 2, 3} RNet.init leftOutEvents with
  | none => rw [hn] at hrun; cases hrun
  | some net =>
    rw [hn] at hrun
    simp only [Option.elim_some, Bool.and_eq_true, decide_eq_true_eq] at hrun
    have hr := NRun.of_runNet (NRun.nil (env := toyEnv 4 1) (H := {1, 2, 3}) (net₀ := RNet.init)) hn
    rw [List.nil_append] at hr
    obtain ⟨a1, _, a3, a4⟩ := zero_hypotheses zero_events.1 zero_once.1
    have hp : ((runNet (toyEnv 4 1) {1, 2, 3} RNet.init leftOutEvents).elim true fun net => (net.party 3).proposed) = false := by decide +kernel
    rw [hn] at hp
    exact ⟨net, hr, hp, C95_totality_partial (toyEnv_ok (by norm_num) (by norm_num)) ⟨by decide, by decide⟩ hr a1 a3 a4 (by decide +kernel) (by decide +kernel)
      (settled_of_settledB (by decide) hrun.1) (i := 1) (by decide) (result_marshal (by decide +kernel) hrun.2)⟩

/-- With all four parties honest, the party left out by `RBCSendExclude` returns the message: case of `C96_exclude_partial`. -/
example : ∃ net, NRun (toyEnv 4 1) {0, 1, 2, 3} RNet.init exclEvents net ∧ (net.party 2).result = some (some toyM) := by
  have hrun := excl_run
  cases hn : runNet (toyEnv 4 1) {0, 1, 2, 3} RNet.init exclEvents with
  | none => rw [hn] at hrun; cases hrun
  | some net =>
    rw [hn] at hrun
    have hr := NRun.of_runNet (NRun.nil (env := toyEnv 4 1) (H := {0, 1, 2, 3}) (net₀ := RNet.init)) hn
    rw [List.nil_append] at hr
    obtain ⟨a1, a2, _, a4⟩ := zero_hypotheses zero_events.2 zero_once.2
    exact ⟨net, hr, C96_exclude_partial (toyEnv_ok (by norm_num) (by norm_num)) ⟨by decide, by decide⟩ hr a1 (b := 0) (x := 2) (by decide) a2 a4 (by decide +kernel) (by decide +kernel)
      (by simp [exclEvents]) (by decide) (settled_of_settledB (by decide) hrun) 2 (by decide)⟩

/-- Seven parties, two silent: party 0 broadcasts without party 2, and nobody ever returns. -/
example : ∃ r : IRun (toyEnv 7 2) (Finset.range 5), r.Fair ∧ r.ev 0 = some (.sendExcl 0 toyM 2) ∧ ∀ n, ∀ j ∈ Finset.range 5, ((r.net n).party j).result = none := by
  obtain ⟨_, r, h1, h2, _, _, _, h3⟩ := C96_refuted (toyEnv_ok (N := 7) (F := 2) (by norm_num) (by norm_num)) (b := 0) (x := 2) (by show 0 < 7 - 2; norm_num) (by show 2 < 7 - 2; norm_num) toyM
    (by decide +kernel) (by decide +kernel)
  exact ⟨r, h1, h2, h3⟩

/-- The first of these executions, continued by nothing for ever, is a case of `C95_termination_partial`, the second of `C96_termination_partial`. -/
example : (∃ x : IRun (toyEnv 4 1) {1, 2, 3}, x.Fair ∧ ∃ n, ∀ m, n ≤ m → ∀ j ∈ ({1, 2, 3} : Finset ℕ), ((x.net m).party j).mainPos = .returned (some (marshal toyM))) ∧
    ∃ x : IRun (toyEnv 4 1) {0, 1, 2, 3}, x.Fair ∧ x.ev 0 = some (.sendExcl 0 toyM 2) ∧ ∃ n, ∀ m, n ≤ m → ∀ j ∈ ({0, 1, 2, 3} : Finset ℕ), ((x.net m).party j).result = some (some toyM) := by
  constructor
  · have hrun := leftOut_run
    cases hn : runNet (toyEnv 4 1) {1, 2, 3} RNet.init leftOutEvents with
    | none => rw [hn] at hrun; cases hrun
    | some net =>
      rw [hn] at hrun
      simp only [Option.elim_some, Bool.and_eq_true, decide_eq_true_eq] at hrun
      have hr := NRun.of_runNet (NRun.nil (env := toyEnv 4 1) (H := {1, 2, 3}) (net₀ := RNet.init)) hn
      rw [List.nil_append] at hr
      obtain ⟨a1, a2, a3, a4⟩ := zero_hypotheses zero_events.1 zero_once.1
      obtain ⟨x, b1, b2⟩ := IRun.of_run hr
      have hf := IRun.fair_of_settled b1 b2 (settled_of_settledB (by decide) hrun.1)
      have hsub : ∀ n, x.before n ⊆ leftOutEvents := fun n => by rw [IRun.before_of_list b1]; exact List.take_subset _ _
      refine ⟨x, hf, C95_termination_partial (toyEnv_ok (by norm_num) (by norm_num)) ⟨by decide, by decide⟩ x hf (fun n j => ?_) (fun n j s d h => a3 j s d (hsub n h))
        (fun n j s d sh h => a4 j s d sh (hsub n h)) (by decide +kernel) (by decide +kernel) (t := leftOutEvents.length) (fun n hn => ?_) (i := 1) (by decide) (by rw [b2 _ le_rfl]; exact hrun.2)⟩
      · rw [IRun.before_of_list b1]
        exact (a1 j).sublist ((List.take_sublist n _).filterMap _)
      · have : x.ev n = none := by rw [b1]; exact List.getElem?_eq_none hn
        rw [this]
        exact ⟨(fun _ _ h => by cases h), (fun _ _ _ h => by cases h)⟩
  · have hrun := excl_run
    cases hn : runNet (toyEnv 4 1) {0, 1, 2, 3} RNet.init exclEvents with
    | none => rw [hn] at hrun; cases hrun
    | some net =>
      rw [hn] at hrun
      have hr := NRun.of_runNet (NRun.nil (env := toyEnv 4 1) (H := {0, 1, 2, 3}) (net₀ := RNet.init)) hn
      rw [List.nil_append] at hr
      obtain ⟨a1, a2, _, a4⟩ := zero_hypotheses zero_events.2 zero_once.2
      obtain ⟨x, b1, b2⟩ := IRun.of_run hr
      have hf := IRun.fair_of_settled b1 b2 (settled_of_settledB (by decide) hrun)
      have hsub : ∀ n, x.before n ⊆ exclEvents := fun n => by rw [IRun.before_of_list b1]; exact List.take_subset _ _
      have h0 : x.ev 0 = some (.sendExcl 0 toyM 2) := by rw [b1]; rfl
      refine ⟨x, hf, h0, C96_termination_partial (toyEnv_ok (by norm_num) (by norm_num)) ⟨by decide, by decide⟩ x hf (fun n j => ?_) (b := 0) (y := 2) (by decide)
        (fun n => ⟨fun j s d h => a2.src j s d (hsub n h), fun M' h => a2.only M' (hsub n h), fun M' y h => a2.only_excl M' y (hsub n h)⟩)
        (fun n j s d sh h => a4 j s d sh (hsub n h)) (by decide +kernel) (by decide +kernel) h0 (by decide) (t' := exclEvents.length) (fun n hn => ?_)⟩
      · rw [IRun.before_of_list b1]
        exact (a1 j).sublist ((List.take_sublist n _).filterMap _)
      · have : x.ev n = none := by rw [b1]; exact List.getElem?_eq_none hn
        rw [this]
        exact ⟨(fun _ _ h => by cases h), (fun _ _ _ h => by cases h)⟩

end Examples

end DyCAPS
