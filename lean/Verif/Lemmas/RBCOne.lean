import Verif.Lemmas.RBCSafe

/-!
# Reliable broadcast: how often a party speaks
-/

namespace DyCAPS

def Waiting : ReadyPos → Prop
  | .wait _ => True
  | .got _ _ => True
  | .send _ _ => True
  | _ => False

/-- What a step does to the Echo and Ready messages of a party. -/
inductive REff (env : REnv) (s : RState) (ev : REvent) (s' : RState) (out : List ROut) : Prop
  | propose (d : Bytes) (sh : List Bytes) (hp : s.proposed = false) (hp' : s'.proposed = true)
      (ho : out = (List.range env.N).map fun j => ⟨j, .echo, marshal (⟨echoHash env d, sh.getD j []⟩ : PRBCEcho)⟩) (hr : s'.readySent = s.readySent) (hpos : s'.readyPos = s.readyPos)
  | quiet (hp : s.proposed = true → s'.proposed = true) (ho : out = []) (hr : s'.readySent = s.readySent)
      (hw : Waiting s'.readyPos → Waiting s.readyPos ∨ s.readySent = false)
      (hs : ∀ h m, s'.readyPos = .send h m → s.readyPos = .send h m ∨ ∃ h', env.F + 1 ≤ s.echo h' m)
  | echo (d : Bytes) (hev : ev = .echo d) (hp : s'.proposed = s.proposed)
      (ho : out = rBroadcast env.N .ready (marshal (⟨(echoPayload d).hash, (echoPayload d).m⟩ : PRBCReady)))
      (hr : s.readySent = false) (hr' : s'.readySent = true) (hpos : s'.readyPos = s.readyPos) (hc : env.N - env.F ≤ s.echo (echoPayload d).hash (echoPayload d).m + 1)
  | ready (h m : Bytes) (hp : s'.proposed = s.proposed) (ho : out = rBroadcast env.N .ready (marshal (⟨h, m⟩ : PRBCReady)))
      (hpos : s.readyPos = .send h m) (hpos' : s'.readyPos = .fin h) (hr' : s'.readySent = true)

theorem REff.same {env : REnv} {s s' : RState} {ev : REvent} (hp : s.proposed = true → s'.proposed = true) (hr : s'.readySent = s.readySent) (hpos : s'.readyPos = s.readyPos) : REff env s ev s' [] :=
  .quiet hp rfl hr (fun h => Or.inl (hpos ▸ h)) fun h m e => Or.inl (hpos ▸ e)

theorem onEcho_eff (env : REnv) (s : RState) (d : Bytes) :
    REff env s (.echo d) (onEcho env s (echoPayload d).hash (echoPayload d).m).1 (onEcho env s (echoPayload d).hash (echoPayload d).m).2 := by
  by_cases hq : (!s.readySent && decide (env.N - env.F ≤ s.echo (echoPayload d).hash (echoPayload d).m + 1)) = true
  · have hq' := hq
    simp only [Bool.and_eq_true, Bool.not_eq_true', decide_eq_true_eq] at hq'
    refine .echo d rfl ?_ ?_ hq'.1 ?_ ?_ hq'.2
    all_goals
      unfold onEcho
      simp only [hq, if_true, Bool.or_true]
      split
      · split <;> rfl
      · rfl
  · have e2 : (onEcho env s (echoPayload d).hash (echoPayload d).m).2 = [] := by
      unfold onEcho
      simp only [hq, if_false]
      split
      · split <;> rfl
      · rfl
    rw [e2]
    have hq2 : (!s.readySent && decide (env.N - env.F ≤ s.echo (echoPayload d).hash (echoPayload d).m + 1)) = false := by simpa using hq
    refine .same ?_ ?_ ?_
    · unfold onEcho
      simp only
      split
      · split <;> exact id
      · exact id
    · unfold onEcho
      simp only [hq2, Bool.or_false]
      split
      · split <;> rfl
      · rfl
    · unfold onEcho
      simp only
      split
      · split <;> rfl
      · rfl

theorem onReady_eff {env : REnv} (s : RState) (j : ℕ) (h m : Bytes) (ev : REvent) : REff env s ev (onReady s j h m) [] := by
  unfold onReady
  split
  · exact .same id rfl rfl
  · simp only
    split
    all_goals exact .quiet id rfl rfl (fun h => h.elim) fun h m e => by simp at e

theorem onReadyStep_eff {env : REnv} {s s' : RState} {out : List ROut} {ev : REvent} (h : onReadyStep env s = some (s', out)) : REff env s ev s' out := by
  unfold onReadyStep at h
  split at h
  · cases h
  · rename_i h0 hpe
    split at h
    · cases h
    · cases h
      refine .quiet id rfl rfl (fun hw => Or.inr ?_) fun h m e => ?_
      · dsimp only at hw
        split at hw
        · rename_i hc; exact hc.1
        · exact hw.elim
      · dsimp only at e
        split at e <;> cases e
  · rename_i h0 hpe
    split at h
    · cases h
    · cases h
      exact .quiet id rfl rfl (fun _ => Or.inl (by rw [hpe]; trivial)) fun h m e => by cases e
  · rename_i h0 res hpe
    split at h
    · cases h
    · cases h
      refine .quiet id rfl rfl (fun _ => Or.inl (by rw [hpe]; trivial)) fun h m e => ?_
      dsimp only at e
      split at e
      · rename_i hc; cases e; exact Or.inr ⟨_, hc⟩
      · cases e
  · rename_i h0 m0 hpe
    split at h
    · cases h
    · cases h
      exact .ready h0 m0 rfl rfl hpe rfl rfl
  · cases h
    exact .quiet id rfl rfl (fun hw => hw.elim) fun h m e => by cases e

theorem onMain_keeps {env : REnv} {s s' : RState} (h : onMain env s = some s') :
    s'.proposed = s.proposed ∧ s'.readySent = s.readySent ∧ s'.readyPos = s.readyPos ∧ s'.echo = s.echo := by
  unfold onMain at h
  simp only at h
  repeat' split at h
  all_goals first | (cases h; exact ⟨rfl, rfl, rfl, rfl⟩) | cases h

theorem step_eff {env : REnv} {s s' : RState} {out : List ROut} {ev : REvent} (h : rbcStep env s ev = some (s', out)) : REff env s ev s' out := by
  unfold rbcStep at h
  split at h
  · cases h
  · cases ev with
    | propose data =>
      simp only at h
      split at h
      · cases h
      · rename_i hp
        split at h
        · cases h; exact .same (fun _ => rfl) rfl rfl
        · rename_i sh he
          cases h
          exact .propose data sh (by simpa using hp) rfl rfl rfl rfl
    | echo data =>
      simp only at h
      split at h
      · have h := Option.some.inj h
        have := onEcho_eff env s data
        rw [h] at this
        exact this
      · cases h
    | ready j data =>
      simp only at h
      split at h
      · cases h; exact onReady_eff s j _ _ _
      · cases h
    | echoPush =>
      simp only at h
      split at h
      · split at h
        · cases h; exact .same id rfl rfl
        · cases h
      · cases h
    | echoQuit =>
      simp only at h
      split at h
      · cases h; exact .same id rfl rfl
      · cases h
    | readyStep => exact onReadyStep_eff h
    | main =>
      simp only [Option.map_eq_some_iff, Prod.mk.injEq] at h
      obtain ⟨s1, h1, rfl, rfl⟩ := h
      obtain ⟨a, b, c, _⟩ := onMain_keeps h1
      exact .same (fun e => a.trans e) b c

/-- Does the step count an Echo with this content? -/
def echoHit (ev : REvent) (h m : Bytes) : ℕ :=
  match ev with
  | .echo d => if (echoPayload d).hash = h ∧ (echoPayload d).m = m then 1 else 0
  | _ => 0

theorem onEcho_echo (env : REnv) (s : RState) (h m : Bytes) : (onEcho env s h m).1.echo = fun h' m' => if h' = h ∧ m' = m then s.echo h m + 1 else s.echo h' m' := by
  unfold onEcho
  simp only
  split
  · split <;> rfl
  · rfl

theorem step_count {env : REnv} {s s' : RState} {out : List ROut} {ev : REvent} (h : rbcStep env s ev = some (s', out)) (a m : Bytes) : s'.echo a m = s.echo a m + echoHit ev a m := by
  unfold rbcStep at h
  split at h
  · cases h
  · cases ev with
    | propose data =>
      simp only at h
      split at h
      · cases h
      · split at h <;> (cases h; rfl)
    | echo data =>
      simp only at h
      split at h
      · have h := Option.some.inj h
        have e : s'.echo = fun h' m' => if h' = (echoPayload data).hash ∧ m' = (echoPayload data).m then s.echo (echoPayload data).hash (echoPayload data).m + 1 else s.echo h' m' := by
          have := onEcho_echo env s (echoPayload data).hash (echoPayload data).m
          rwa [h] at this
        rw [e]
        simp only [echoHit]
        by_cases hc : a = (echoPayload data).hash ∧ m = (echoPayload data).m
        · obtain ⟨rfl, rfl⟩ := hc; simp
        · rw [if_neg hc, if_neg (fun ⟨x, y⟩ => hc ⟨x.symm, y.symm⟩)]; rfl
      · cases h
    | ready j data =>
      simp only at h
      split at h
      · cases h
        unfold onReady
        split
        · rfl
        · simp only
          split <;> rfl
      · cases h
    | echoPush =>
      simp only at h
      split at h
      · split at h
        · cases h; rfl
        · cases h
      · cases h
    | echoQuit =>
      simp only at h
      split at h
      · cases h; rfl
      · cases h
    | readyStep =>
      simp only at h
      unfold onReadyStep at h
      repeat' split at h
      all_goals first | (cases h; rfl) | cases h
    | main =>
      simp only [Option.map_eq_some_iff, Prod.mk.injEq] at h
      obtain ⟨s1, h1, rfl, rfl⟩ := h
      obtain ⟨_, _, _, c⟩ := onMain_keeps h1
      rw [c]; rfl

/-! ## What has been sent -/

theorem sentTo_append (a b : List (ℕ × ROut)) (s j : ℕ) (k : RKind) : sentTo (a ++ b) s j k = sentTo a s j k ++ sentTo b s j k := by
  simp only [sentTo, List.filterMap_append]

theorem sentTo_other {out : List ROut} {s i : ℕ} (h : i ≠ s) (j : ℕ) (k : RKind) : sentTo (out.map fun o => (i, o)) s j k = [] := by
  simp [sentTo, h]

theorem sentTo_kind {out : List ROut} {s i j : ℕ} {k : RKind} (h : ∀ o ∈ out, o.kind ≠ k) : sentTo (out.map fun o => (i, o)) s j k = [] := by
  simp only [sentTo, List.filterMap_map, List.filterMap_eq_nil_iff, Function.comp]
  intro o ho
  rw [if_neg fun hc => h o ho hc.2.2]

/-- A message to each party of a committee reaches each at most once. -/
theorem sentTo_range (N s j : ℕ) (k k' : RKind) (d : ℕ → Bytes) :
    (sentTo (((List.range N).map fun i => (⟨i, k, d i⟩ : ROut)).map fun o => (s, o)) s j k').length ≤ 1 ∧
    ∀ x ∈ sentTo (((List.range N).map fun i => (⟨i, k, d i⟩ : ROut)).map fun o => (s, o)) s j k', x = d j := by
  have e : sentTo (((List.range N).map fun i => (⟨i, k, d i⟩ : ROut)).map fun o => (s, o)) s j k' = (List.range N).filterMap fun i => if i = j ∧ k = k' then some (d i) else none := by
    simp only [sentTo, List.map_map, List.filterMap_map]
    congr 1
    funext i
    simp
  rw [e]
  refine ⟨?_, fun x hx => ?_⟩
  · induction N with
    | zero => simp
    | succ n ih =>
      rw [List.range_succ, List.filterMap_append, List.length_append]
      by_cases hn : n = j ∧ k = k'
      · have : (List.range n).filterMap (fun i => if i = j ∧ k = k' then some (d i) else none) = [] := by
          rw [List.filterMap_eq_nil_iff]
          intro i hi
          rw [if_neg fun hc => by have := List.mem_range.1 hi; omega]
        rw [this]
        simp [hn]
      · simp only [List.filterMap_cons, if_neg hn, List.filterMap_nil, List.length_nil, Nat.add_zero]
        exact ih (by simp only [sentTo, List.map_map, List.filterMap_map]; congr 1; funext i; simp)
  · obtain ⟨i, _, hi⟩ := List.mem_filterMap.1 hx
    split at hi
    · rename_i hc; cases hi; rw [hc.1]
    · cases hi

/-- How often party `s` has spoken; `E` and `G` are what its Echo and its Ready goroutine have broadcast as Ready. -/
structure OneInv (env : REnv) (H : Finset ℕ) (evs : List NEvent) (sent : List (ℕ × ROut)) (s : ℕ) (st : RState) (E G : List Bytes) : Prop where
  fresh : st.proposed = false → ∀ j, sentTo sent s j .echo = []
  once : ∀ j, (sentTo sent s j .echo).length ≤ 1
  cnt : ∀ h m, st.echo h m = (echoesTo evs s h m).length
  lenE : E.length ≤ 1
  lenG : G.length ≤ 1
  none : st.readySent = false → E = [] ∧ G = []
  wait : Waiting st.readyPos → G = []
  num : ∀ j, (sentTo sent s j .ready).length ≤ E.length + G.length
  mem : ∀ j, ∀ d ∈ sentTo sent s j .ready, d ∈ E ∨ d ∈ G
  hE : ∀ d ∈ E, ∃ h m, d = marshal (⟨h, m⟩ : PRBCReady) ∧ env.N - env.F ≤ (echoesTo evs s h m).length
  hG : ∀ d ∈ G, ∃ h h' m, d = marshal (⟨h, m⟩ : PRBCReady) ∧ env.F + 1 ≤ (echoesTo evs s h' m).length ∧ (env.Ok → HonestSet env H → EchoOnce evs → Justified env H sent h)
  snd : ∀ h m, st.readyPos = .send h m → ∃ h', env.F + 1 ≤ (echoesTo evs s h' m).length

theorem echoesTo_mono (evs : List NEvent) (e : NEvent) (j : ℕ) (h m : Bytes) : (echoesTo evs j h m).length ≤ (echoesTo (evs ++ [e]) j h m).length := by
  rw [echoesTo_snoc, List.length_append]; omega

/-- A step of the network as seen by party `s`. -/
theorem net_view {env : REnv} {H : Finset ℕ} {net net' : RNet} {e : NEvent} (h : netStep env H net e = some net') (s : ℕ) :
    net.sent ⊆ net'.sent ∧
    ((net'.party s = net.party s ∧ (∀ h m, echoesTo [e] s h m = []) ∧ ∀ j k, k ≠ .propose → sentTo net'.sent s j k = sentTo net.sent s j k) ∨
    (s ∈ H ∧ ∃ ev out, rbcStep env (net.party s) ev = some (net'.party s, out) ∧ (∀ h m, (echoesTo [e] s h m).length = echoHit ev h m) ∧
      net'.sent = net.sent ++ out.map fun o => (s, o))) := by
  have hat : ∀ i ev, i ∈ H → (∀ h m, i ≠ s → echoesTo [e] s h m = []) → (∀ h m, i = s → (echoesTo [e] s h m).length = echoHit ev h m) → net.at_ env i ev = some net' →
      net.sent ⊆ net'.sent ∧
      ((net'.party s = net.party s ∧ (∀ h m, echoesTo [e] s h m = []) ∧ ∀ j k, k ≠ .propose → sentTo net'.sent s j k = sentTo net.sent s j k) ∨
      (s ∈ H ∧ ∃ ev out, rbcStep env (net.party s) ev = some (net'.party s, out) ∧ (∀ h m, (echoesTo [e] s h m).length = echoHit ev h m) ∧
      net'.sent = net.sent ++ out.map fun o => (s, o))) := by
    intro i ev hi h1 h2 h
    simp only [RNet.at_, Option.map_eq_some_iff, Prod.exists] at h
    obtain ⟨s', out, h3, rfl⟩ := h
    refine ⟨List.subset_append_left _ _, ?_⟩
    by_cases his : i = s
    · subst his
      exact Or.inr ⟨hi, ev, out, by simpa using h3, fun h m => h2 h m rfl, rfl⟩
    · refine Or.inl ⟨by simp [Ne.symm his], fun h m => h1 h m his, fun j k _ => ?_⟩
      rw [sentTo_append, sentTo_other his, List.append_nil]
  cases e with
  | send b M =>
    simp only [netStep] at h
    split at h
    · cases h
      refine ⟨List.subset_append_left _ _, Or.inl ⟨rfl, fun _ _ => rfl, fun j k hk => ?_⟩⟩
      rw [sentTo_append, sentTo_kind, List.append_nil]
      intro o ho
      simp only [rBroadcast, List.mem_map] at ho
      obtain ⟨_, _, rfl⟩ := ho
      exact hk.symm
    · cases h
  | sendExcl b M x =>
    simp only [netStep] at h
    split at h
    · cases h
      refine ⟨List.subset_append_left _ _, Or.inl ⟨rfl, fun _ _ => rfl, fun j k hk => ?_⟩⟩
      rw [sentTo_append, sentTo_kind, List.append_nil]
      intro o ho
      obtain ⟨_, _, _, rfl⟩ := mem_excl ho
      exact hk.symm
    · cases h
  | deliver i k src d =>
    simp only [netStep] at h
    split at h
    · rename_i hc
      refine hat i _ hc.1 (fun h m hne => ?_) (fun h m he => ?_) h
      · cases k <;> simp [echoesTo, hne]
      · subst he
        cases k
        · simp [echoesTo, deliverEvent, echoHit]
        · simp only [echoesTo, deliverEvent, echoHit, List.filterMap_cons, List.filterMap_nil, true_and]
          split <;> rename_i hx <;> split at hx <;> simp_all
        · simp [echoesTo, deliverEvent, echoHit]
    · cases h
  | run i ev =>
    simp only [netStep] at h
    split at h
    · rename_i hc
      refine hat i ev hc.1 (fun _ _ _ => rfl) (fun h m _ => ?_) h
      cases ev <;> simp_all [echoesTo, echoHit, REvent.internal]
    · cases h

theorem one_inv {env : REnv} {H : Finset ℕ} {evs : List NEvent} {net : RNet} (hr : NRun env H RNet.init evs net) (s : ℕ) :
    ∃ E G, OneInv env H evs net.sent s (net.party s) E G := by
  induction hr with
  | nil =>
    exact ⟨[], [], ⟨fun _ _ => rfl, fun _ => by simp [sentTo, RNet.init], fun _ _ => rfl, by simp, by simp, fun _ => ⟨rfl, rfl⟩, fun _ => rfl, fun _ => by simp [sentTo, RNet.init],
      fun _ _ h => (by simp [sentTo, RNet.init] at h), fun _ h => (by simp at h), fun _ h => (by simp at h), fun _ _ h => by simp [RNet.init, RState.init] at h⟩⟩
  | @snoc evs net e net' hrun hs ih =>
    obtain ⟨E, G, I⟩ := ih
    obtain ⟨hsub, hv⟩ := net_view hs s
    have hE : ∀ d ∈ E, ∃ h m, d = marshal (⟨h, m⟩ : PRBCReady) ∧ env.N - env.F ≤ (echoesTo (evs ++ [e]) s h m).length := fun d hd => by
      obtain ⟨h, m, h1, h2⟩ := I.hE d hd
      exact ⟨h, m, h1, h2.trans (echoesTo_mono _ _ _ _ _)⟩
    have hG : ∀ d ∈ G, ∃ h h' m, d = marshal (⟨h, m⟩ : PRBCReady) ∧ env.F + 1 ≤ (echoesTo (evs ++ [e]) s h' m).length ∧ (env.Ok → HonestSet env H → EchoOnce (evs ++ [e]) → Justified env H net'.sent h) := fun d hd => by
      obtain ⟨h, h', m, h1, h2, h3⟩ := I.hG d hd
      exact ⟨h, h', m, h1, h2.trans (echoesTo_mono _ _ _ _ _), fun ok hH ho => (h3 ok hH ho.init).mono hsub⟩
    rcases hv with ⟨h1, h2, h3⟩ | ⟨hsH, ev, out, h1, h2, h3⟩
    · refine ⟨E, G, ?_⟩
      rw [h1]
      refine ⟨fun hp j => ?_, fun j => ?_, fun h m => ?_, I.lenE, I.lenG, I.none, I.wait, fun j => ?_, fun j => ?_, hE, hG, fun h m hp => ?_⟩
      · rw [h3 j _ (by simp)]; exact I.fresh hp j
      · rw [h3 j _ (by simp)]; exact I.once j
      · rw [echoesTo_snoc, h2, List.append_nil]; exact I.cnt h m
      · rw [h3 j _ (by simp)]; exact I.num j
      · rw [h3 j _ (by simp)]; exact I.mem j
      · obtain ⟨h', hh⟩ := I.snd h m hp
        exact ⟨h', hh.trans (echoesTo_mono _ _ _ _ _)⟩
    · have hcnt : ∀ h m, (net'.party s).echo h m = (echoesTo (evs ++ [e]) s h m).length := fun h m => by
        rw [step_count h1, I.cnt, echoesTo_snoc, List.length_append, h2]
      have hmono : ∀ h m, (net.party s).echo h m ≤ (echoesTo (evs ++ [e]) s h m).length := fun h m => by
        rw [← hcnt, step_count h1]; omega
      have hsent : ∀ j k, sentTo net'.sent s j k = sentTo net.sent s j k ++ sentTo (out.map fun o => (s, o)) s j k := fun j k => by rw [h3, sentTo_append]
      have hno : ∀ {d : Bytes} j, sentTo ((rBroadcast env.N .ready d).map fun o => (s, o)) s j .echo = [] := fun {d} j => by
        apply sentTo_kind
        intro o ho
        simp only [rBroadcast, List.mem_map] at ho
        obtain ⟨_, _, rfl⟩ := ho
        simp
      cases step_eff h1 with
      | propose d sh hp hp' ho hrs hpos =>
        refine ⟨E, G, ⟨fun h => (by rw [hp'] at h; cases h), fun j => ?_, hcnt, I.lenE, I.lenG, fun h => I.none (hrs ▸ h), fun h => I.wait (hpos ▸ h), fun j => ?_, fun j => ?_, hE, hG, fun h m hp => ?_⟩⟩
        · rw [hsent, I.fresh hp, List.nil_append, ho]
          exact (sentTo_range env.N s j .echo .echo fun j => marshal (⟨echoHash env d, sh.getD j []⟩ : PRBCEcho)).1
        · rw [hsent, sentTo_kind, List.append_nil]
          · exact I.num j
          · rw [ho]; intro o ho; obtain ⟨_, _, rfl⟩ := List.mem_map.1 ho; simp
        · rw [hsent, sentTo_kind, List.append_nil]
          · exact I.mem j
          · rw [ho]; intro o ho; obtain ⟨_, _, rfl⟩ := List.mem_map.1 ho; simp
        · obtain ⟨h', hh⟩ := I.snd h m (hpos ▸ hp)
          exact ⟨h', hh.trans (echoesTo_mono _ _ _ _ _)⟩
      | quiet hp ho hrs hw hsd =>
        have hs0 : ∀ j k, sentTo net'.sent s j k = sentTo net.sent s j k := fun j k => by rw [hsent, ho]; simp [sentTo]
        refine ⟨E, G, ⟨fun h j => ?_, fun j => by rw [hs0]; exact I.once j, hcnt, I.lenE, I.lenG, fun h => I.none (hrs ▸ h), fun h => ?_, fun j => by rw [hs0]; exact I.num j,
          fun j => by rw [hs0]; exact I.mem j, hE, hG, fun h m hp => ?_⟩⟩
        · rw [hs0]
          refine I.fresh ?_ j
          cases hpp : (net.party s).proposed with
          | false => rfl
          | true => rw [hp hpp] at h; cases h
        · rcases hw h with h | h
          · exact I.wait h
          · exact (I.none h).2
        · rcases hsd h m hp with h' | ⟨h', hh⟩
          · obtain ⟨h', hh⟩ := I.snd h m h'
            exact ⟨h', hh.trans (echoesTo_mono _ _ _ _ _)⟩
          · exact ⟨h', hh.trans (hmono _ _)⟩
      | echo d hev hp ho hrs hrs' hpos hc =>
        obtain ⟨rfl, rfl⟩ := I.none hrs
        have hrng := fun j => sentTo_range env.N s j .ready .ready fun _ => marshal (⟨(echoPayload d).hash, (echoPayload d).m⟩ : PRBCReady)
        have hold : ∀ j, sentTo net.sent s j .ready = [] := fun j => List.eq_nil_of_length_eq_zero (by have := I.num j; simpa using this)
        refine ⟨[marshal (⟨(echoPayload d).hash, (echoPayload d).m⟩ : PRBCReady)], [], ⟨fun h j => ?_, fun j => ?_, hcnt, by simp, by simp, fun h => (by rw [hrs'] at h; cases h),
          fun _ => rfl, fun j => ?_, fun j x hx => ?_, fun x hx => ?_, fun _ h => (by simp at h), fun h m hp => ?_⟩⟩
        · rw [hsent, ho, hno, List.append_nil]; exact I.fresh (hp ▸ h) j
        · rw [hsent, ho, hno, List.append_nil]; exact I.once j
        · rw [hsent, hold, List.nil_append, ho]; exact (hrng j).1
        · rw [hsent, hold, List.nil_append, ho] at hx
          exact Or.inl (by rw [(hrng j).2 x hx]; simp)
        · rw [List.mem_singleton.1 hx]
          refine ⟨_, _, rfl, ?_⟩
          rw [← hcnt, step_count h1, hev]
          simpa [echoHit] using hc
        · obtain ⟨h', hh⟩ := I.snd h m (hpos ▸ hp)
          exact ⟨h', hh.trans (echoesTo_mono _ _ _ _ _)⟩
      | ready h m hp ho hpos hpos' hrs' =>
        have hg : G = [] := I.wait (by rw [hpos]; trivial)
        subst hg
        have hrng := fun j => sentTo_range env.N s j .ready .ready fun _ => marshal (⟨h, m⟩ : PRBCReady)
        refine ⟨E, [marshal (⟨h, m⟩ : PRBCReady)], ⟨fun h j => ?_, fun j => ?_, hcnt, I.lenE, by simp, fun h => (by rw [hrs'] at h; cases h),
          fun hw => (by rw [hpos'] at hw; exact hw.elim), fun j => ?_, fun j x hx => ?_, hE, fun x hx => ?_, fun a b hp => (by rw [hpos'] at hp; cases hp)⟩⟩
        · rw [hsent, ho, hno, List.append_nil]; exact I.fresh (hp ▸ h) j
        · rw [hsent, ho, hno, List.append_nil]; exact I.once j
        · rw [hsent, List.length_append, ho]
          have := I.num j
          have := (hrng j).1
          simp only [List.length_singleton, List.length_nil] at *
          unfold rBroadcast
          omega
        · rw [hsent, ho] at hx
          rcases List.mem_append.1 hx with hx | hx
          · rcases I.mem j x hx with h | h
            · exact Or.inl h
            · simp at h
          · exact Or.inr (by rw [(hrng j).2 x hx]; simp)
        · rw [List.mem_singleton.1 hx]
          obtain ⟨h', hh⟩ := I.snd h m hpos
          refine ⟨h, h', m, rfl, hh.trans (echoesTo_mono _ _ _ _ _), fun ok hH hone => ?_⟩
          obtain ⟨_, hpi⟩ := safe_inv ok hH hrun hone.init
          exact ((hpi s hsH).pos h (Or.inr (Or.inr ⟨m, hpos⟩))).mono hsub

/-! ## Different contents -/

theorem filterMap_inj {α β : Type} {f : α → Option β} {l : List α} (hn : (l.filterMap f).Nodup) {a b : α} (ha : a ∈ l) (hb : b ∈ l) {x : β} (ea : f a = some x) (eb : f b = some x) : a = b := by
  induction l with
  | nil => cases ha
  | cons c cs ih =>
    rw [List.filterMap_cons] at hn
    rcases List.mem_cons.1 ha with rfl | ha' <;> rcases List.mem_cons.1 hb with rfl | hb'
    · rfl
    · rw [ea] at hn
      exact absurd (List.mem_filterMap.2 ⟨b, hb', eb⟩) (List.nodup_cons.1 hn).1
    · rw [eb] at hn
      exact absurd (List.mem_filterMap.2 ⟨a, ha', ea⟩) (List.nodup_cons.1 hn).1
    · refine ih ?_ ha' hb'
      split at hn
      · exact hn
      · exact (List.nodup_cons.1 hn).2

/-- Without repetition, Echoes with different contents come from different parties. -/
theorem echoes_disjoint {evs : List NEvent} (hone : EchoOnce evs) {j : ℕ} {h m h' m' : Bytes} (hne : m ≠ m') : (echoesTo evs j h m).Disjoint (echoesTo evs j h' m') := by
  intro s h1 h2
  obtain ⟨d, hd, _, e⟩ := mem_echoesTo.1 h1
  obtain ⟨d', hd', _, e'⟩ := mem_echoesTo.1 h2
  have := filterMap_inj (hone j) hd hd' (x := s) (by simp) (by simp)
  cases this
  exact hne (e.symm.trans e')

end DyCAPS
