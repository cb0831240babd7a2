import Verif.Model.Program
import Verif.Lemmas.MVBAForce
import Verif.Props.MVBA

/-!
# Identifiers, and messages of an earlier run
-/

namespace DyCAPS

/-! ## Identifiers -/

theorem decimalBytes_inj {a b : ℕ} (h : decimalBytes a = decimalBytes b) : a = b := by
  have back : ∀ n, (decimalBytes n).map (fun x => Char.ofNat x.toNat) = Nat.toDigits 10 n := by
    intro n
    rw [decimalBytes, List.map_map]
    conv_rhs => rw [← List.map_id (Nat.toDigits 10 n)]
    refine List.map_congr_left fun c hc => ?_
    have hd := Nat.isDigit_of_mem_toDigits (b := 10) (by decide) (by decide) hc
    simp only [Char.isDigit, Bool.and_eq_true, decide_eq_true_eq] at hd
    have h9 : c.toNat ≤ 57 := by
      have := hd.2
      exact this
    simp only [Function.comp_apply, UInt8.toNat_ofNat', id]
    rw [Nat.mod_eq_of_lt (by omega)]
    exact Char.ofNat_toNat c
  have h' := (back a).symm.trans ((congrArg _ h).trans (back b))
  rw [← Nat.ofDigitChars_ten_toDigits (n := a), h', Nat.ofDigitChars_ten_toDigits]

theorem decimalBytes_no_comma (n : ℕ) : (44 : UInt8) ∉ decimalBytes n := by
  intro hm
  obtain ⟨c, hc, e⟩ := List.mem_map.1 hm
  obtain ⟨d, hd, e'⟩ := toDigitsCore_byte _ _ [] (by simp) c hc
  rw [e'] at e
  revert e
  interval_cases d <;> decide

/-- A list is cut at its last occurrence of `x` in one way. -/
theorem split_last {x : UInt8} {a a' s s' : List UInt8} (hs : x ∉ s) (hs' : x ∉ s') (h : a ++ x :: s = a' ++ x :: s') : a = a' ∧ s = s' := by
  rcases List.append_eq_append_iff.1 h with ⟨c, h1, h2⟩ | ⟨c, h1, h2⟩
  · cases c with
    | nil => simp only [List.nil_append, List.append_nil] at h1 h2; exact ⟨h1.symm, (List.cons.inj h2).2⟩
    | cons y c =>
      rw [List.cons_append] at h2
      have h3 := (List.cons.inj h2).2
      exact absurd (by rw [h3]; simp) hs
  · cases c with
    | nil => simp only [List.nil_append, List.append_nil] at h1 h2; exact ⟨h1, (List.cons.inj h2).2.symm⟩
    | cons y c =>
      rw [List.cons_append] at h2
      have h3 := (List.cons.inj h2).2
      exact absurd (by rw [h3]; simp) hs'

theorem rbcId_inj {ID ID' : Bytes} {k k' : UInt8} {j j' : ℕ} (h : ID ++ [95, k, 44] ++ decimalBytes j = ID' ++ [95, k', 44] ++ decimalBytes j') : ID = ID' ∧ k = k' ∧ j = j' := by
  have e : ∀ (I : Bytes) (q : UInt8) (n : ℕ), I ++ [95, q, 44] ++ decimalBytes n = (I ++ [95, q]) ++ 44 :: decimalBytes n := fun I q n => by simp
  rw [e, e] at h
  obtain ⟨h1, h2⟩ := split_last (decimalBytes_no_comma _) (decimalBytes_no_comma _) h
  obtain ⟨h3, h4⟩ := List.append_inj' h1 rfl
  exact ⟨h3, (List.cons.inj (List.cons.inj h4).2).1, decimalBytes_inj h2⟩

/-! ## Coin shares are received -/

/-- A message among the traffic of an execution: sent by an honest party or delivered to one. -/
def MNet.traffic (net : MNet) (m : MMsg) : Prop := (∃ s, (s, m) ∈ net.sent) ∨ ∃ a s, (a, s, m) ∈ net.delivered

theorem mvbaStep_coins {env : MEnv} {i : ℕ} {st : MState} {ev : MEvent} {o : MOut} (h : mvbaStep env i st ev = some o) (r : ℕ) :
    ∀ sh ∈ (o.st.rounds r).coins, sh ∈ (st.rounds r).coins ∨ ∃ s, ev = .recv s (.done r sh) := by
  have hset : ∀ q (R : MRound), R.coins = (st.rounds q).coins → ∀ sh ∈ ((st.setRound q R).rounds r).coins, sh ∈ (st.rounds r).coins ∨ ∃ s, ev = .recv s (.done r sh) := by
    intro q R hR sh hm
    simp only [MState.setRound] at hm
    split at hm
    · rename_i e
      rw [hR, ← e] at hm
      exact Or.inl hm
    · exact Or.inl hm
  have hsame : ∀ sh ∈ (st.rounds r).coins, sh ∈ (st.rounds r).coins ∨ ∃ s, ev = .recv s (.done r sh) := fun _ => Or.inl
  have hstart : ∀ q v val, ∀ sh ∈ ((startRound i q v val st).1.rounds r).coins, sh ∈ (st.rounds r).coins ∨ ∃ s, ev = .recv s (.done r sh) := by
    intro q v val sh hm
    simp only [startRound] at hm
    split at hm
    · simp [MRound.init] at hm
    · exact Or.inl hm
  unfold mvbaStep at h
  split at h
  · cases h
  · split at h
    · obtain ⟨o', ho, rfl⟩ := Option.map_eq_some_iff.1 h
      unfold onValue at ho
      simp only at ho
      split at ho
      · split at ho
        · cases ho; exact hset _ _ rfl
        · split at ho
          · cases ho; exact hset _ _ rfl
          · cases ho; exact hsame
        · cases ho
      · cases ho
    · unfold onEchoShare at h
      simp only at h
      split at h
      · split at h
        · split at h
          · split at h
            · cases h; exact hset _ _ rfl
            · cases h; exact hset _ _ rfl
          · cases h; exact hsame
        · split at h
          · split at h
            · cases h; exact hset _ _ rfl
            · cases h; exact hset _ _ rfl
          · cases h; exact hsame
        · cases h
      · cases h
    · unfold onFinish at h
      simp only at h
      split at h
      · split at h
        · split at h
          · cases h; exact hset _ _ rfl
          · cases h; exact hsame
        · cases h; exact hsame
      · cases h
    · rename_i s q sh'
      unfold onDone at h
      simp only at h
      split at h
      · split at h
        · cases h
          intro sh hm
          simp only [MState.setRound] at hm
          split at hm
          · rename_i e
            subst e
            rcases List.mem_append.1 hm with hm | hm
            · exact Or.inl hm
            · rw [List.mem_singleton.1 hm]
              exact Or.inr ⟨s, rfl⟩
          · exact Or.inl hm
        · cases h; exact hsame
      · cases h
    · unfold onHalt at h
      simp only at h
      split at h
      · cases h
      · split at h
        · split at h
          · split at h
            · cases h
            · cases h; exact hset _ _ rfl
          · cases h; exact hsame
        · cases h
    · unfold onPreVote at h
      simp only at h
      split at h
      · cases h
      · split at h
        · split at h
          · split at h
            · cases h; exact hset _ _ rfl
            · cases h; exact hsame
          · split at h
            · cases h; exact hset _ _ rfl
            · cases h; exact hsame
        · cases h
    · unfold onVote at h
      simp only at h
      split at h
      · cases h
      · split at h
        · split at h
          · split at h
            · cases h; exact hset _ _ rfl
            · cases h; exact hsame
          · split at h
            · cases h; exact hset _ _ rfl
            · cases h; exact hsame
        · cases h
    · simp only at h
      split at h
      · split at h
        · cases h; exact hset _ _ rfl
        · cases h; exact hset _ _ rfl
        · cases h
      · cases h
    · simp only at h
      split at h
      · cases h; exact hset _ _ rfl
      · cases h
    · simp only at h
      split at h
      · cases h; exact hset _ _ rfl
      · cases h
    · split at h
      · cases h; exact hsame
      · cases h
    · unfold onJoined at h
      split at h
      · simp only at h
        split at h
        · split at h
          · cases h; exact hsame
          · split at h
            · cases h; exact hset _ _ rfl
            · cases h; exact hset _ _ rfl
        · cases h
      · cases h
    · unfold onSendVote at h
      simp only at h
      split at h
      · split at h
        · cases h; exact hset _ _ rfl
        · cases h; exact hset _ _ rfl
        · cases h
      · cases h
    · split at h
      · cases h; exact hsame
      · cases h; exact hsame
      · cases h
    · unfold onTakeVote at h
      split at h
      · simp only at h
        split at h
        · cases h
        · cases h; exact hsame
        · cases h; exact hstart _ _ _
        · cases h; exact hstart _ _ _
      · cases h

/-- Every coin share a party has counted was delivered to it. -/
theorem coins_delivered {env : MEnv} {H : Finset ℕ} {cfg : MNetCfg} {input : ℕ → Bytes × Bytes} {evs : List (ℕ × MEvent)} {net : MNet}
    (h : MRun env H cfg (MNet.init H input env.N) evs net) (i r : ℕ) : ∀ sh ∈ ((net.party i).rounds r).coins, ∃ s, (i, s, MMsg.done r sh) ∈ net.delivered := by
  induction h with
  | nil =>
    intro sh hm
    simp only [MNet.init, MState.init, startRound] at hm
    split at hm <;> simp [MRound.init] at hm
  | @snoc evs net j ev net' _ _ _ hs ih =>
    obtain ⟨o, ho, rfl⟩ := Option.map_eq_some_iff.1 hs
    intro sh hm
    simp only at hm ⊢
    split at hm
    · rename_i e
      subst e
      rcases mvbaStep_coins ho r sh hm with hm | ⟨s, rfl⟩
      · obtain ⟨s, hs⟩ := ih sh hm
        exact ⟨s, List.mem_append_left _ hs⟩
      · exact ⟨s, List.mem_append_right _ (by simp [logDelivery])⟩
    · obtain ⟨s, hs⟩ := ih sh hm
      exact ⟨s, List.mem_append_left _ hs⟩

/-! ## Replaying the coin and a Halt message -/

/-- A party in its first round that has counted the coin shares `L`. -/
def RCoin (env : MEnv) (x : Bytes × Bytes) (L : List Bytes) : MRound :=
  { MRound.init x.1 x.2 with
    coins := L
    doneFlag := decide (env.F + 1 ≤ L.length)
    leader := if 2 * env.F < L.length then some (leaderOf env ((env.recover (.done 0) L).getD [])) else none }

theorem replay_coins (env : MEnv) (i : ℕ) (x : Bytes × Bytes) (L : List (ℕ × Bytes)) (hv : ∀ e ∈ L, (env.share (.done 0) e.2).isSome) (hl : L.length ≤ 2 * env.F + 1) :
    LRun env i (stR x (MRound.init x.1 x.2) .wait) (L.map fun e => .recv e.1 (.done 0 e.2)) [] [] (stR x (RCoin env x (L.map (·.2))) .wait) := by
  induction L using List.reverseRecOn with
  | nil =>
    have : RCoin env x [] = MRound.init x.1 x.2 := by simp [RCoin, MRound.init]
    rw [List.map_nil, List.map_nil, this]
    exact .nil _
  | append_singleton L e ih =>
    rw [List.length_append, List.length_singleton] at hl
    rw [List.map_append]
    refine (ih (fun e he => hv e (List.mem_append_left _ he)) (by omega)).trans (m2 := []) (s2 := []) (LRun.one (o := ⟨_, [], []⟩) ?_)
    unfold mvbaStep
    rw [if_neg (by simp [stR])]
    simp only [onDone]
    rw [rounds_stR]
    have hn : (RCoin env x (L.map (·.2))).leader = none := by
      show (if _ then _ else _) = _
      rw [if_neg (by rw [List.length_map]; omega)]
    rw [if_pos ⟨Nat.zero_le _, hn⟩, if_pos (hv e (by simp)), setRound_stR]
    congr 3
    rw [List.map_append, List.map_singleton]
    have hd : ((RCoin env x (L.map (·.2))).doneFlag || decide (((RCoin env x (L.map (·.2))).coins ++ [e.2]).length = env.F + 1)) = decide (env.F + 1 ≤ (L.map (·.2) ++ [e.2]).length) := by
      show (decide (env.F + 1 ≤ (L.map (·.2)).length) || decide ((L.map (·.2) ++ [e.2]).length = env.F + 1)) = _
      rw [Bool.eq_iff_iff, Bool.or_eq_true, decide_eq_true_eq, decide_eq_true_eq, decide_eq_true_eq, List.length_append, List.length_map, List.length_singleton]
      omega
    rw [hd]
    rfl

theorem replay_decides (env : MEnv) (i : ℕ) (x : Bytes × Bytes) (L : List (ℕ × Bytes)) (hv : ∀ e ∈ L, (env.share (.done 0) e.2).isSome) (hl : L.length = 2 * env.F + 1) (s : ℕ) (v sig : Bytes)
    (hc : env.cert (.echo 0 (leaderOf env ((env.recover (.done 0) (L.map (·.2))).getD [])) 2 (env.hash v)) sig = true) :
    ∃ st', LRun env i (MState.init i x.1 x.2).1 ((L.map fun e => .recv e.1 (.done 0 e.2)) ++ [.recv s (.halt 0 v sig), .takeHalt]) [] [] st' ∧ st'.phase = .decided 0 v := by
  rw [stR_init]
  set R := RCoin env x (L.map (·.2)) with hR
  have hlead : R.leader = some (leaderOf env ((env.recover (.done 0) (L.map (·.2))).getD [])) := by
    show (if _ then _ else _) = _
    rw [if_pos (by rw [List.length_map]; omega)]
  set st1 : MState := { stR x { R with haltDone := true } .wait with halt := some (0, v) } with hst1
  have h1 : mvbaStep env i (stR x R .wait) (.recv s (.halt 0 v sig)) = some ⟨st1, [], []⟩ := by
    unfold mvbaStep
    rw [if_neg (by simp [stR])]
    simp only [onHalt]
    rw [rounds_stR]
    split
    · rename_i e; rw [hlead] at e; cases e
    · rename_i l e
      rw [hlead] at e
      cases e
      rw [if_pos ⟨Nat.zero_le _, rfl⟩, if_pos hc, setRound_stR]
      rfl
  have h2 : mvbaStep env i st1 .takeHalt = some ⟨{ st1 with phase := .decided 0 v, halt := none }, [], []⟩ := by
    unfold mvbaStep
    rw [if_neg (by simp [hst1, stR])]
    rfl
  refine ⟨{ st1 with phase := .decided 0 v, halt := none }, (replay_coins env i x L hv hl.le).trans (m2 := []) (s2 := []) ?_, rfl⟩
  exact LRun.cons (o := ⟨st1, [], []⟩) h1 (LRun.cons (o := ⟨_, [], []⟩) h2 (LRun.nil _))

end DyCAPS
