import Verif.Lemmas.RBCLive

/-!
# Reliable broadcast: every fair execution comes to its end
-/

namespace DyCAPS

def EchoPos.weight : EchoPos → ℕ
  | .running => 1
  | .blocked _ _ => 4
  | .done => 0

def ReadyPos.weight : ReadyPos → ℕ
  | .idle => 0
  | .check _ => 4
  | .wait _ => 3
  | .got _ _ => 4
  | .send _ _ => 2
  | .fin _ => 1

def MainPos.weight (F : ℕ) : MainPos → ℕ
  | .start => 6 * (F + 1) + 2
  | .poll r => 6 * (F + 1 - r) + 1
  | .locked r => 6 * (F - r) + 6
  | .gotM r _ => 6 * (F - r) + 5
  | .gotLen r _ _ => 6 * (F - r) + 4
  | .trunc r _ _ _ => 6 * (F - r) + 3
  | .cmp r _ => 6 * (F - r) + 2
  | .returned _ => 0

/-- The parties whose Ready has not been handled. -/
def unseen (N : ℕ) (seen : ℕ → Bool) : Finset ℕ := (Finset.range N).filter fun i => seen i = false

/-- How much a party can still do if it gets `e` more Echoes. -/
def potential (env : REnv) (s : RState) (e : ℕ) : ℕ :=
  (if s.proposed then 0 else 1) + 4 * e + s.echoPos.weight + 2 * s.readyChan.length + 5 * (unseen env.N s.seen).card + s.readyPos.weight + s.mainPos.weight env.F +
    (if s.dead then 0 else 1)

theorem unseen_card {N : ℕ} {seen : ℕ → Bool} {j : ℕ} (hj : j < N) (h : seen j = false) :
    (unseen N fun j' => if j' = j then true else seen j').card + 1 = (unseen N seen).card := by
  have e : (unseen N fun j' => if j' = j then true else seen j') = (unseen N seen).erase j := by
    ext i
    simp only [unseen, Finset.mem_filter, Finset.mem_range, Finset.mem_erase]
    by_cases hij : i = j
    · simp [hij]
    · simp [hij]
  rw [e]
  exact Finset.card_erase_add_one (by simp [unseen, hj, h])

theorem weight_ite_echo (c : Bool) : (if c = true then EchoPos.done else .running).weight ≤ 1 := by cases c <;> simp [EchoPos.weight]

theorem weight_ite_check (c : Prop) [Decidable c] (h : Bytes) : (if c then ReadyPos.wait h else .fin h).weight ≤ 3 := by split <;> simp [ReadyPos.weight]

theorem weight_ite_got (c : Prop) [Decidable c] (h m : Bytes) : (if c then ReadyPos.send h m else .wait h).weight ≤ 3 := by split <;> simp [ReadyPos.weight]

theorem weight_ite_cmp (F r : ℕ) (c : Prop) [Decidable c] (m : Bytes) : (if c then MainPos.returned (some m) else .poll (r + 1)).weight F ≤ 6 * (F - r) + 1 := by
  split
  · simp [MainPos.weight]
  · simp only [MainPos.weight]; omega

/-- The Echoes an event consumes. -/
def REvent.echoes : REvent → ℕ
  | .echo _ => 1
  | _ => 0

/-- Every step uses up potential, except that a second Ready of the same sender is dropped. -/
theorem potential_step {env : REnv} {s s' : RState} {ev : REvent} {out : List ROut} (h : rbcStep env s ev = some (s', out)) (hlt : ∀ j d, ev = .ready j d → j < env.N) (e : ℕ) :
    potential env s' e < potential env s (e + ev.echoes) ∨ (s' = s ∧ out = [] ∧ ev.internal = false ∧ ev.echoes = 0 ∧ ∀ d, ev ≠ .propose d) := by
  unfold rbcStep at h
  cases hd : s.dead with
  | true => simp [hd] at h
  | false =>
  simp only [hd, Bool.false_eq_true, if_false] at h
  cases ev with
  | propose d =>
    left
    simp only at h
    split at h
    · cases h
    · rename_i hp
      split at h <;> (cases h; simp only [potential, hp, hd, REvent.echoes]; simp)
  | echo d =>
    left
    simp only at h
    split at h
    · rename_i hp
      simp only [Option.some.injEq, onEcho] at h
      split at h
      · split at h
        · cases h
          have hw := weight_ite_echo (s.readySent || !s.readySent && decide (env.N - env.F ≤ s.echo (echoPayload d).hash (echoPayload d).m + 1))
          simp only [potential, hp, hd, REvent.echoes, List.length_append, List.length_singleton, show EchoPos.running.weight = 1 from rfl]
          omega
        · cases h
          simp only [potential, hp, hd, REvent.echoes, EchoPos.weight]
          omega
      · cases h
        have hw := weight_ite_echo (s.readySent || !s.readySent && decide (env.N - env.F ≤ s.echo (echoPayload d).hash (echoPayload d).m + 1))
        simp only [potential, hp, hd, REvent.echoes, show EchoPos.running.weight = 1 from rfl]
        omega
    · cases h
  | ready j d =>
    simp only at h
    split at h
    · rename_i hp
      simp only [Option.some.injEq, Prod.mk.injEq] at h
      obtain ⟨h, rfl⟩ := h
      unfold onReady at h
      split at h
      · right
        exact ⟨h.symm, rfl, rfl, rfl, fun _ hc => by cases hc⟩
      · rename_i hs
        left
        have hs : s.seen j = false := by simpa using hs
        have hu := unseen_card (hlt j d rfl) hs
        simp only at h
        split at h
        · subst h
          simp only [potential, hp, hd, REvent.echoes, ReadyPos.weight]
          omega
        · subst h
          simp only [potential, hp, hd, REvent.echoes, ReadyPos.weight]
          omega
    · cases h
  | echoPush =>
    left
    simp only at h
    split at h
    · rename_i hp
      split at h
      · cases h
        rename_i h' m' _
        have hw := weight_ite_echo s.readySent
        simp only [potential, hp, hd, REvent.echoes, List.length_append, List.length_singleton, show (EchoPos.blocked h' m').weight = 4 from rfl]
        omega
      · cases h
    · cases h
  | echoQuit =>
    left
    simp only at h
    split at h
    · rename_i hp
      cases h
      simp only [potential, hp.1, hd, REvent.echoes, EchoPos.weight]
      omega
    · cases h
  | readyStep =>
    left
    simp only [onReadyStep] at h
    split at h
    · cases h
    · rename_i x hp
      split at h
      · cases h
      · cases h
        have hw := weight_ite_check (s.readySent = false ∧ env.F + 1 ≤ (s.T x).length) x
        simp only [potential, hp, hd, REvent.echoes, show (ReadyPos.check x).weight = 4 from rfl]
        omega
    · rename_i hp
      split at h
      · cases h
      · rename_i hc
        cases h
        simp only [potential, hp, hd, REvent.echoes, hc, List.length_cons, ReadyPos.weight]
        omega
    · rename_i x y hp
      split at h
      · cases h
      · cases h
        have hw := weight_ite_got (env.F + 1 ≤ s.echo y.1 y.2) x y.2
        simp only [potential, hp, hd, REvent.echoes, show (ReadyPos.got x y).weight = 4 from rfl]
        omega
    · rename_i hp
      split at h
      · cases h
      · cases h
        simp only [potential, hp, hd, REvent.echoes, ReadyPos.weight]
        omega
    · rename_i hp
      cases h
      simp only [potential, hp, hd, REvent.echoes, ReadyPos.weight]
      omega
  | main =>
    left
    simp only [Option.map_eq_some_iff, Prod.mk.injEq] at h
    obtain ⟨s'', h, rfl, rfl⟩ := h
    unfold onMain at h
    split at h
    · rename_i hp
      split at h
      · cases h
        simp only [potential, hp, hd, REvent.echoes, MainPos.weight]
        omega
      · cases h
    · rename_i hp
      split at h
      · cases h
        simp only [potential, hp, hd, REvent.echoes, MainPos.weight]
        omega
      · split at h
        · cases h
          simp only [potential, hp, hd, REvent.echoes, MainPos.weight]
          omega
        · cases h
    · rename_i hp
      split at h
      · split at h
        · cases h
          simp only [potential, hp, hd, REvent.echoes, MainPos.weight, Bool.false_eq_true, if_false, if_true]
          omega
        · cases h
          simp only [potential, hp, hd, REvent.echoes, MainPos.weight]
          omega
      · cases h
    · rename_i hp
      split at h
      · cases h
        simp only [potential, hp, hd, REvent.echoes, MainPos.weight, Bool.false_eq_true, if_false, if_true]
        omega
      · cases h
        simp only [potential, hp, hd, REvent.echoes, MainPos.weight]
        omega
    · rename_i hp
      split at h
      · cases h
        simp only [potential, hp, hd, REvent.echoes, MainPos.weight, Bool.false_eq_true, if_false, if_true]
        omega
      · cases h
        simp only [potential, hp, hd, REvent.echoes, MainPos.weight]
        omega
    · rename_i hp
      simp only at h
      split at h
      · cases h
        simp only [potential, hp, hd, REvent.echoes, MainPos.weight]
        omega
      · cases h
        simp only [potential, hp, hd, REvent.echoes, MainPos.weight, Bool.false_eq_true, if_false, if_true]
        omega
    · rename_i hp
      cases h
      rename_i r m
      have hw := weight_ite_cmp env.F r (env.sha m = s.maxH) m
      simp only [potential, hp, hd, REvent.echoes, show (MainPos.cmp r m).weight env.F = 6 * (env.F - r) + 2 from rfl]
      omega
    · cases h

/-- How much the honest parties can still do after the events `evs`. -/
def netPotential (env : REnv) (H : Finset ℕ) (evs : List NEvent) (net : RNet) : ℕ :=
  ∑ j ∈ H, potential env (net.party j) (env.N - (echoSenders evs j).length)

/-- What an event that does not use up potential looks like. -/
structure Idle (net net' : RNet) (e : NEvent) : Prop where
  party : net'.party = net.party
  sent : ∀ p ∈ net'.sent, p ∈ net.sent ∨ p.2.kind = .propose
  run : ∀ j ev, e ≠ .run j ev
  propose : ∀ j s d, e ≠ .deliver j .propose s d
  same : (∀ b M, e ≠ .send b M) → (∀ b M y, e ≠ .sendExcl b M y) → net' = net

theorem potential_mono {env : REnv} {s : RState} {a b : ℕ} (h : a ≤ b) : potential env s a ≤ potential env s b := by
  unfold potential; omega

theorem netPotential_step {env : REnv} {H : Finset ℕ} {evs : List NEvent} {net net' : RNet} {e : NEvent} (hs : netStep env H net e = some net')
    (hl : ∀ j, (echoSenders (evs ++ [e]) j).length ≤ env.N) : netPotential env H (evs ++ [e]) net' < netPotential env H evs net ∨
    (Idle net net' e ∧ netPotential env H (evs ++ [e]) net' ≤ netPotential env H evs net) := by
  have mono : ∀ j, env.N - (echoSenders (evs ++ [e]) j).length ≤ env.N - (echoSenders evs j).length := by
    intro j
    rw [echoSenders_snoc, List.length_append]
    omega
  have at_ : ∀ j ∈ H, ∀ rev, net.at_ env j rev = some net' → (∀ i d, rev = .ready i d → i < env.N) → rev.echoes = (echoSenders [e] j).length →
      netPotential env H (evs ++ [e]) net' < netPotential env H evs net ∨
      (net' = net ∧ rev.internal = false ∧ (∀ d, rev ≠ .propose d) ∧ netPotential env H (evs ++ [e]) net' ≤ netPotential env H evs net) := by
    intro j hj rev h hlt hec
    simp only [RNet.at_, Option.map_eq_some_iff, Prod.exists] at h
    obtain ⟨s', out, h1, rfl⟩ := h
    rcases potential_step h1 hlt (env.N - (echoSenders (evs ++ [e]) j).length) with hp | ⟨h2, h3, h4, h5, h6⟩
    · left
      refine Finset.sum_lt_sum (fun i hi => ?_) ⟨j, hj, ?_⟩
      · by_cases hij : i = j
        · subst hij
          simp only [if_true]
          refine le_trans (le_of_lt hp) (potential_mono ?_)
          have := hl i
          rw [echoSenders_snoc, List.length_append] at this ⊢
          omega
        · simp only [if_neg hij]
          exact potential_mono (mono i)
      · simp only [if_true]
        refine lt_of_lt_of_le hp (potential_mono ?_)
        have := hl j
        rw [echoSenders_snoc, List.length_append] at this ⊢
        omega
    · right
      have hnet : (⟨fun i => if i = j then s' else net.party i, net.sent ++ out.map fun o => (j, o)⟩ : RNet) = net := by
        subst h2; subst h3
        cases net with
        | mk party sent =>
          simp only [List.map_nil, List.append_nil, RNet.mk.injEq, and_true]
          funext i
          split
          · rename_i hij; rw [hij]
          · rfl
      refine ⟨hnet, h4, h6, ?_⟩
      rw [hnet]
      exact Finset.sum_le_sum fun i _ => potential_mono (mono i)
  cases e with
  | send c M' =>
    right
    simp only [netStep] at hs
    split at hs
    · cases hs
      refine ⟨⟨rfl, ?_, fun _ _ h => (by cases h), fun _ _ _ h => (by cases h), fun h1 h2 => by first | exact absurd rfl (h1 _ _) | exact absurd rfl (h2 _ _ _)⟩, Finset.sum_le_sum fun i _ => potential_mono (mono i)⟩
      intro p hp
      rcases List.mem_append.1 hp with h | h
      · exact Or.inl h
      · right
        obtain ⟨o, ho, rfl⟩ := List.mem_map.1 h
        obtain ⟨i, _, rfl⟩ := List.mem_map.1 ho
        rfl
    · cases hs
  | sendExcl c M' xx =>
    right
    simp only [netStep] at hs
    split at hs
    · cases hs
      refine ⟨⟨rfl, ?_, fun _ _ h => (by cases h), fun _ _ _ h => (by cases h), fun h1 h2 => by first | exact absurd rfl (h1 _ _) | exact absurd rfl (h2 _ _ _)⟩, Finset.sum_le_sum fun i _ => potential_mono (mono i)⟩
      intro p hp
      rcases List.mem_append.1 hp with h | h
      · exact Or.inl h
      · right
        obtain ⟨o, ho, rfl⟩ := List.mem_map.1 h
        obtain ⟨_, _, _, rfl⟩ := mem_excl ho
        rfl
    · cases hs
  | deliver j k src d =>
    simp only [netStep] at hs
    split at hs
    · rename_i hg
      rcases at_ j hg.1 _ hs (by intro i d' h; cases k <;> simp only [deliverEvent] at h <;> cases h; exact hg.2.1) (by cases k <;> simp [deliverEvent, REvent.echoes, echoSenders]) with h | ⟨h1, h2, h3, h4⟩
      · exact Or.inl h
      · right
        refine ⟨⟨by rw [h1], fun p hp => Or.inl (h1 ▸ hp), fun _ _ h => (by cases h), ?_, fun _ _ => h1⟩, h4⟩
        intro j' s' d' h
        cases h
        exact h3 d rfl
    · cases hs
  | run j ev =>
    simp only [netStep] at hs
    split at hs
    · rename_i hg
      rcases at_ j hg.1 _ hs (by intro i d' h; rw [h] at hg; exact absurd hg.2 (by simp [REvent.internal])) (by cases ev <;> first | rfl | exact absurd hg.2 (by simp [REvent.internal])) with h | ⟨h1, h2, h3, h4⟩
      · exact Or.inl h
      · rw [h2] at hg; exact absurd hg.2 (by simp)
    · cases hs

namespace IRun

variable {env : REnv} {H : Finset ℕ}

theorem before_succ (x : IRun env H) (n : ℕ) : x.before (n + 1) = x.before n ++ (x.ev n).toList := by
  unfold before
  rw [List.range_succ, List.filterMap_append]
  cases h : x.ev n <;> simp [h]

theorem run (x : IRun env H) (n : ℕ) : NRun env H RNet.init (x.before n) (x.net n) := by
  induction n with
  | zero => rw [x.start]; exact .nil
  | succ n ih =>
    have hs := x.step n
    rw [before_succ]
    cases h : x.ev n with
    | none => rw [h] at hs; rw [hs]; simpa using ih
    | some e => rw [h] at hs; exact ih.snoc hs

theorem mem_before {x : IRun env H} {n m : ℕ} {e : NEvent} (h : x.ev m = some e) (hm : m < n) : e ∈ x.before n :=
  List.mem_filterMap.2 ⟨m, List.mem_range.2 hm, h⟩

theorem potential_le (ok : env.Ok) (hH : HonestSet env H) (x : IRun env H) (hone : ∀ n, EchoOnce (x.before n)) (n : ℕ) :
    netPotential env H (x.before (n + 1)) (x.net (n + 1)) < netPotential env H (x.before n) (x.net n) ∨
    (x.net (n + 1) = x.net n ∧ x.ev n = none ∨ ∃ e, x.ev n = some e ∧ Idle (x.net n) (x.net (n + 1)) e) := by
  have hs := x.step n
  have hl := fun j => echoSenders_lt (safe_inv ok hH (x.run (n + 1)) (hone (n + 1))).1 (hone (n + 1)) j
  cases h : x.ev n with
  | none => rw [h] at hs; exact Or.inr (Or.inl ⟨hs, rfl⟩)
  | some e =>
    rw [h] at hs
    simp only at hs
    rw [before_succ, h] at hl ⊢
    rcases netPotential_step (evs := x.before n) hs hl with h | h
    · exact Or.inl h
    · exact Or.inr (Or.inr ⟨e, rfl, h.1⟩)

/-- A fair execution settles when an honest party broadcasts to all at time `t`, or no honest party broadcasts any more from then on. -/
theorem settles_of (ok : env.Ok) (hH : HonestSet env H) (x : IRun env H) (hf : x.Fair) (hone : ∀ n, EchoOnce (x.before n)) (t : ℕ)
    (hcase : (∃ b ∈ H, ∃ M : PMessage, (marshal M).length < 2 ^ 30 ∧ x.ev t = some (.send b M)) ∨
      ∀ n, t ≤ n → (∀ b M, x.ev n ≠ some (.send b M)) ∧ ∀ b M y, x.ev n ≠ some (.sendExcl b M y)) :
    ∃ n, t < n ∧ Settled env H (x.before n) (x.net n) := by
  obtain ⟨a, ha⟩ : ∃ a, ∀ c, netPotential env H (x.before (t + 1 + a)) (x.net (t + 1 + a)) ≤ netPotential env H (x.before (t + 1 + c)) (x.net (t + 1 + c)) := by
    have := Function.argmin_le (fun c => netPotential env H (x.before (t + 1 + c)) (x.net (t + 1 + c)))
    exact ⟨_, fun c => this c⟩
  obtain ⟨n0, hn0, hmin⟩ : ∃ n0, t < n0 ∧ ∀ m, n0 ≤ m → netPotential env H (x.before n0) (x.net n0) ≤ netPotential env H (x.before m) (x.net m) := by
    refine ⟨t + 1 + a, by omega, fun m hm => ?_⟩
    have := ha (m - (t + 1))
    rwa [show t + 1 + (m - (t + 1)) = m by omega] at this
  -- from `n0` on every event is idle
  have hle : ∀ n, netPotential env H (x.before (n + 1)) (x.net (n + 1)) ≤ netPotential env H (x.before n) (x.net n) := by
    intro n
    have hs := x.step n
    have hl := fun j => echoSenders_lt (safe_inv ok hH (x.run (n + 1)) (hone (n + 1))).1 (hone (n + 1)) j
    cases h : x.ev n with
    | none => rw [h] at hs; rw [before_succ, h, hs]; simp
    | some e =>
      rw [h] at hs
      simp only at hs
      rw [before_succ, h] at hl ⊢
      rcases netPotential_step (evs := x.before n) hs hl with h | h
      · exact le_of_lt h
      · exact h.2
  have hup : ∀ k, netPotential env H (x.before (n0 + k)) (x.net (n0 + k)) ≤ netPotential env H (x.before n0) (x.net n0) := by
    intro k
    induction k with
    | zero => exact le_refl _
    | succ k ih => exact le_trans (hle (n0 + k)) ih
  have hidle : ∀ n, n0 ≤ n → x.net (n + 1) = x.net n ∧ x.ev n = none ∨ ∃ e, x.ev n = some e ∧ Idle (x.net n) (x.net (n + 1)) e := by
    intro n hn
    rcases x.potential_le ok hH hone n with h | h
    · have h1 := hmin (n + 1) (by omega)
      have h2 := hup (n - n0)
      rw [show n0 + (n - n0) = n by omega] at h2
      omega
    · exact h
  have hparty : ∀ k, (x.net (n0 + k)).party = (x.net n0).party := by
    intro k
    induction k with
    | zero => rfl
    | succ k ih =>
      rcases hidle (n0 + k) (by omega) with ⟨h, _⟩ | ⟨e, _, h⟩
      · rw [← add_assoc, h, ih]
      · rw [← add_assoc, h.party, ih]
  have hparty' : ∀ m, n0 ≤ m → (x.net m).party = (x.net n0).party := by
    intro m hm
    have := hparty (m - n0)
    rwa [show n0 + (m - n0) = m by omega] at this
  have hsent : ∀ k, ∀ p ∈ (x.net (n0 + k)).sent, p ∈ (x.net n0).sent ∨ p.2.kind = .propose := by
    intro k
    induction k with
    | zero => exact fun p hp => Or.inl hp
    | succ k ih =>
      intro p hp
      rcases hidle (n0 + k) (by omega) with ⟨h, _⟩ | ⟨e, _, h⟩
      · rw [← add_assoc, h] at hp; exact ih p hp
      · rcases h.sent p (by rw [← add_assoc] at hp; exact hp) with h | h
        · exact ih p h
        · exact Or.inr h
  have hsame : (∀ n, t ≤ n → (∀ b M, x.ev n ≠ some (.send b M)) ∧ ∀ b M y, x.ev n ≠ some (.sendExcl b M y)) → ∀ k, ∀ p ∈ (x.net (n0 + k)).sent, p ∈ (x.net n0).sent := by
    intro hc k
    induction k with
    | zero => exact fun p hp => hp
    | succ k ih =>
      intro p hp
      obtain ⟨c1, c2⟩ := hc (n0 + k) (by omega)
      rcases hidle (n0 + k) (by omega) with ⟨h, _⟩ | ⟨e, h1, h⟩
      · rw [← add_assoc, h] at hp; exact ih p hp
      · rw [← add_assoc, h.same (fun b M h2 => c1 b M (by rw [h1, h2])) (fun b M y h2 => c2 b M y (by rw [h1, h2]))] at hp; exact ih p hp
  have hint : ∀ j ∈ H, ∀ ev, ev.internal = true → rbcStep env ((x.net n0).party j) ev = none := by
    intro j hj ev hev
    by_contra hne
    obtain ⟨m, hm, he⟩ := hf.internal j hj ev hev (fun n => ⟨max n n0, le_max_left _ _, by rw [hparty' _ (le_max_right _ _)]; exact hne⟩) n0
    rcases hidle m hm with ⟨_, h⟩ | ⟨e, h1, h2⟩
    · rw [h] at he; cases he
    · rw [h1] at he; cases he; exact h2.run _ _ rfl
  have hprop : (∃ b ∈ H, ∃ M : PMessage, (marshal M).length < 2 ^ 30 ∧ x.ev t = some (.send b M)) → ∀ j ∈ H, ∀ d, rbcStep env ((x.net n0).party j) (.propose d) = none := by
    rintro ⟨b, hb, M, hD, hsend⟩ j hj d
    by_contra hne
    have hal : ((x.net n0).party j).dead = false ∧ ((x.net n0).party j).proposed = false := by
      unfold rbcStep at hne
      constructor
      · by_contra h; simp [h] at hne
      · by_contra h; simp [h] at hne
    have hne' : rbcStep env ((x.net n0).party j) (deliverEvent .propose b (marshal M)) ≠ none := by
      unfold rbcStep deliverEvent
      simp only [hal.1, hal.2, Bool.false_eq_true, if_false]
      split <;> simp
    obtain ⟨m, hm⟩ := hf.messages j hj b hb .propose (marshal M) n0 (send_sent (x.run n0) (mem_before hsend hn0) j (hH.lt j hj)) (by omega)
      (fun n => ⟨max n n0, le_max_left _ _, by rw [hparty' _ (le_max_right _ _)]; exact hne'⟩)
    by_cases hmn : m < n0
    · have := deliver_proposed (x.run n0) (mem_before hm hmn)
      rw [hal.2] at this; cases this
    · rcases hidle m (by omega) with ⟨_, h⟩ | ⟨e, h1, h2⟩
      · rw [h] at hm; cases hm
      · rw [h1] at hm; cases hm; exact h2.propose _ _ _ rfl
  -- a time by which all readable messages have been read
  have htime : ∀ l : List (ℕ × ROut), l ⊆ (x.net n0).sent → ∃ T, ∀ j ∈ H, ∀ s ∈ H, ∀ k d, (s, (⟨j, k, d⟩ : ROut)) ∈ l → d.length < 2 ^ 32 →
      .deliver j k s d ∈ x.before T ∨ rbcStep env ((x.net n0).party j) (deliverEvent k s d) = none := by
    intro l
    induction l with
    | nil => exact fun _ => ⟨0, fun _ _ _ _ _ _ h => by cases h⟩
    | cons p l ih =>
      intro hl
      obtain ⟨T, hT⟩ := ih (fun q hq => hl (List.mem_cons_of_mem _ hq))
      obtain ⟨s', ⟨j', k', d'⟩⟩ := p
      by_cases hc : j' ∈ H ∧ s' ∈ H ∧ d'.length < 2 ^ 32 ∧ rbcStep env ((x.net n0).party j') (deliverEvent k' s' d') ≠ none
      · obtain ⟨h1, h2, h3, h4⟩ := hc
        obtain ⟨m, hm⟩ := hf.messages j' h1 s' h2 k' d' n0 (hl List.mem_cons_self) h3 (fun n => ⟨max n n0, le_max_left _ _, by rw [hparty' _ (le_max_right _ _)]; exact h4⟩)
        refine ⟨max T (m + 1), fun j hj s hs k d hmem hd => ?_⟩
        rcases List.mem_cons.1 hmem with h | h
        · cases h
          exact Or.inl (mem_before hm (by omega))
        · rcases hT j hj s hs k d h hd with h | h
          · left
            obtain ⟨i, hi, hie⟩ := List.mem_filterMap.1 h
            exact mem_before hie (by have := List.mem_range.1 hi; omega)
          · exact Or.inr h
      · refine ⟨T, fun j hj s hs k d hmem hd => ?_⟩
        rcases List.mem_cons.1 hmem with h | h
        · cases h
          right
          by_contra hne
          exact hc ⟨hj, hs, hd, hne⟩
        · exact hT j hj s hs k d h hd
  obtain ⟨T, hT⟩ := htime _ (fun _ h => h)
  refine ⟨n0 + T, by omega, ⟨?_, ?_⟩⟩
  · intro j hj ev hev
    rw [hparty]; exact hint j hj ev hev
  · intro j hj s hs k d hmem hd
    rw [hparty]
    rcases hsent T _ hmem with h | h
    · rcases hT j hj s hs k d h hd with h | h
      · left
        obtain ⟨i, hi, hie⟩ := List.mem_filterMap.1 h
        exact mem_before hie (by have := List.mem_range.1 hi; omega)
      · exact Or.inr h
    · right
      simp only at h
      subst h
      rcases hcase with hc | hc
      · exact hprop hc j hj d
      · rcases hT j hj s hs _ d (hsame hc T _ hmem) hd with h | h
        · obtain ⟨i, hi, hie⟩ := List.mem_filterMap.1 h
          have := deliver_proposed (x.run (n0 + T)) (mem_before hie (n := n0 + T) (by have := List.mem_range.1 hi; omega))
          rw [hparty] at this
          simp [deliverEvent, rbcStep, this]
        · exact h

/-- A fair execution settles. -/
theorem settles (ok : env.Ok) (hH : HonestSet env H) (x : IRun env H) (hf : x.Fair) (hone : ∀ n, EchoOnce (x.before n)) {b : ℕ} (hb : b ∈ H) {M : PMessage} (hD : (marshal M).length < 2 ^ 30)
    {t : ℕ} (hsend : x.ev t = some (.send b M)) : ∃ n, t < n ∧ Settled env H (x.before n) (x.net n) :=
  x.settles_of ok hH hf hone t (Or.inl ⟨b, hb, M, hD, hsend⟩)

theorem before_of_list {x : IRun env H} {evs : List NEvent} (h : ∀ n, x.ev n = evs[n]?) (n : ℕ) : x.before n = evs.take n := by
  induction n with
  | zero => rfl
  | succ n ih => rw [before_succ, ih, h, List.take_add_one]

/-- A finite execution, then nothing. -/
theorem of_run {evs : List NEvent} {net : RNet} (hr : NRun env H RNet.init evs net) :
    ∃ x : IRun env H, (∀ n, x.ev n = evs[n]?) ∧ ∀ n, evs.length ≤ n → x.net n = net := by
  induction hr with
  | nil => exact ⟨⟨fun _ => RNet.init, fun _ => none, rfl, fun _ => rfl⟩, fun _ => by simp, fun _ _ => rfl⟩
  | @snoc evs net ev net' hrun hst ih =>
    obtain ⟨x, h1, h2⟩ := ih
    refine ⟨⟨fun n => if n ≤ evs.length then x.net n else net', fun n => (evs ++ [ev])[n]?, ?_, ?_⟩, fun _ => rfl, ?_⟩
    · simp [x.start]
    · intro n
      rcases lt_trichotomy n evs.length with h | h | h
      · have e : (evs ++ [ev])[n]? = evs[n]? := List.getElem?_append_left h
        have hs := x.step n
        rw [h1] at hs
        rw [e]
        simp only [if_pos (le_of_lt h), if_pos (Nat.succ_le_of_lt h)]
        exact hs
      · subst h
        have e : (evs ++ [ev])[evs.length]? = some ev := by simp
        rw [e]
        simp only [le_refl, if_true, show ¬ evs.length + 1 ≤ evs.length by omega, if_false]
        rw [h2 _ (le_refl _)]
        exact hst
      · have e : (evs ++ [ev])[n]? = none := by simp; omega
        rw [e]
        simp only [show ¬ n + 1 ≤ evs.length by omega, show ¬ n ≤ evs.length by omega, if_false]
    · intro n hn
      simp only [List.length_append, List.length_singleton] at hn
      simp only [show ¬ n ≤ evs.length by omega, if_false]

/-- Waiting for ever in a settled state is fair. -/
theorem fair_of_settled {x : IRun env H} {evs : List NEvent} {net : RNet} (h1 : ∀ n, x.ev n = evs[n]?) (h2 : ∀ n, evs.length ≤ n → x.net n = net) (hset : Settled env H evs net) : x.Fair where
  internal := by
    intro j hj e he hen
    obtain ⟨m, hm, h⟩ := hen evs.length
    rw [h2 m hm] at h
    exact absurd (hset.internal j hj e he) h
  messages := by
    intro j hj s hs k d n hmem hd hen
    obtain ⟨m, hm, h⟩ := hen evs.length
    rw [h2 m hm] at h
    have hmem' : (s, (⟨j, k, d⟩ : ROut)) ∈ net.sent := by
      rw [← h2 (n + evs.length) (by omega)]
      have mono : ∀ k, (x.net n).sent ⊆ (x.net (n + k)).sent := by
        intro k
        induction k with
        | zero => exact fun _ h => h
        | succ k ih =>
          have hst := x.step (n + k)
          cases he : x.ev (n + k) with
          | none => rw [he] at hst; simp only at hst; rw [← add_assoc, hst]; exact ih
          | some e => rw [he] at hst; exact fun p hp => netStep_sent hst (ih hp)
      exact mono _ hmem
    rcases hset.messages j hj s hs k d hmem' hd with h' | h'
    · obtain ⟨i, hi, he⟩ := List.getElem_of_mem h'
      exact ⟨i, by rw [h1, List.getElem?_eq_getElem hi, he]⟩
    · exact absurd h' h

end IRun

end DyCAPS
