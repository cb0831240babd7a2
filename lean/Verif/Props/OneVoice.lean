import Verif.Lemmas.RBCOne
import Verif.Lemmas.RBCTwoReady
import Verif.Lemmas.RBCTwiceSame
import Verif.Props.RBC
import Verif.Lemmas.MVBAOnce
import Verif.Props.MVBA

/-!
# A party that follows the protocol does not contradict itself: C99, C100
-/

namespace DyCAPS

/-- **C99 (the part that holds).** Whatever it receives, a party sends everybody at most one Echo and at most two Readys. -/
theorem C99_count_partial {env : REnv} {H : Finset ℕ} {evs : List NEvent} {net : RNet} (hr : NRun env H RNet.init evs net) (s j : ℕ) :
    (sentTo net.sent s j .echo).length ≤ 1 ∧ (sentTo net.sent s j .ready).length ≤ 2 := by
  obtain ⟨E, G, I⟩ := one_inv hr s
  have := I.num j
  have := I.lenE
  have := I.lenG
  exact ⟨I.once j, by omega⟩

/-- **C99 (the part that holds).** If at most `F` parties are corrupt and nobody's Echo is counted twice, all Readys of an honest party are the same. -/
theorem C99_same_ready_partial {env : REnv} (ok : env.Ok) {H : Finset ℕ} (hH : HonestSet env H) {evs : List NEvent} {net : RNet} (hr : NRun env H RNet.init evs net) (hone : EchoOnce evs)
    (s : ℕ) {j j' : ℕ} {d d' : Bytes} (h : d ∈ sentTo net.sent s j .ready) (h' : d' ∈ sentTo net.sent s j' .ready) : d = d' := by
  obtain ⟨E, G, I⟩ := one_inv hr s
  obtain ⟨hi, -⟩ := safe_inv ok hH hr hone
  have one : ∀ {l : List Bytes}, l.length ≤ 1 → ∀ {a b}, a ∈ l → b ∈ l → a = b := by
    intro l hl a b ha hb
    match l, hl with
    | [x], _ => rw [List.mem_singleton.1 ha, List.mem_singleton.1 hb]
    | [], _ => cases ha
  have mixed : ∀ {a b}, a ∈ E → b ∈ G → a = b := by
    intro a b ha hb
    obtain ⟨h1, m1, rfl, c1⟩ := I.hE a ha
    obtain ⟨h2, h2', m2, rfl, c2, j2⟩ := I.hG b hb
    have e1 : h1 = h2 := Justified.unique ok hH hi (echo_quorum hi.auth hone c1) (j2 ok hH hone)
    have e2 : m1 = m2 := by
      by_contra hne
      have hnd : ((echoesTo evs s h1 m1) ++ (echoesTo evs s h2' m2)).Nodup :=
        List.Nodup.append ((hone s).sublist (echoesTo_sublist ..)) ((hone s).sublist (echoesTo_sublist ..)) (echoes_disjoint hone hne)
      have hlt : ∀ x ∈ (echoesTo evs s h1 m1) ++ (echoesTo evs s h2' m2), x ∈ List.range env.N := by
        intro x hx
        rcases List.mem_append.1 hx with hx | hx
        all_goals
          obtain ⟨d, hd, _⟩ := mem_echoesTo.1 hx
          exact List.mem_range.2 (hi.auth _ _ _ _ hd).1
      have := (hnd.subperm hlt).length_le
      rw [List.length_append, List.length_range] at this
      have := ok.size
      omega
    rw [e1, e2]
  rcases I.mem j d h with a | a <;> rcases I.mem j' d' h' with b | b
  · exact one I.lenE a b
  · exact mixed a b
  · exact (mixed b a).symm
  · exact one I.lenG a b

/-! ## Two different Readys -/

section Witness

def twoM : PMessage := ⟨"VSSEcho", [1], 1, [9, 8]⟩

/-- `N = 4`, `F = 1`, party 3 corrupt. It proposes `twoM` to party 0 and `toyM` to the others, and echoes both messages to party 0. -/
def twoEvents : List NEvent :=
  let env := toyEnv 4 1
  let D := marshal toyM
  let D' := marshal twoM
  let E := fun (d : Bytes) (j : ℕ) => marshal (⟨echoHash env d, toyShard 4 1 d j⟩ : PRBCEcho)
  let R := fun s : ℕ => marshal (⟨echoHash env D, toyShard 4 1 D s⟩ : PRBCReady)
  [.deliver 0 .propose 3 D', .deliver 1 .propose 3 D, .deliver 2 .propose 3 D] ++
  [.deliver 1 .echo 1 (E D 1), .deliver 1 .echo 2 (E D 1), .deliver 1 .echo 3 (E D 1)] ++
  [.deliver 2 .echo 1 (E D 2), .deliver 2 .echo 2 (E D 2), .deliver 2 .echo 3 (E D 2)] ++
  [.deliver 0 .echo 0 (E D' 0), .deliver 0 .echo 3 (E D' 0)] ++
  [.deliver 0 .ready 1 (R 1), .run 0 .readyStep, .run 0 .readyStep, .deliver 0 .ready 2 (R 2), .run 0 .readyStep, .run 0 .readyStep, .run 0 .readyStep] ++
  [.deliver 0 .echo 1 (E D 0), .deliver 0 .echo 2 (E D 0), .deliver 0 .echo 3 (E D 0), .run 0 .readyStep]

/-- All four parties are honest and party 0 broadcasts `toyM`; party 3 is slow. -/
def slowEvents : List NEvent :=
  let env := toyEnv 4 1
  let D := marshal toyM
  let E := fun j : ℕ => marshal (⟨echoHash env D, toyShard 4 1 D j⟩ : PRBCEcho)
  let R := fun s : ℕ => marshal (⟨echoHash env D, toyShard 4 1 D s⟩ : PRBCReady)
  [.send 0 toyM, .deliver 0 .propose 0 D, .deliver 1 .propose 0 D, .deliver 2 .propose 0 D] ++
  [.deliver 0 .echo 0 (E 0), .deliver 0 .echo 1 (E 0), .deliver 0 .echo 2 (E 0), .deliver 1 .echo 0 (E 1), .deliver 1 .echo 1 (E 1), .deliver 1 .echo 2 (E 1)] ++
  [.deliver 3 .ready 0 (R 0), .run 3 .readyStep, .run 3 .readyStep, .deliver 3 .ready 1 (R 1), .run 3 .readyStep] ++
  [.deliver 3 .echo 0 (E 3), .deliver 3 .echo 1 (E 3), .run 3 .readyStep, .run 3 .readyStep, .deliver 3 .echo 2 (E 3), .run 3 .readyStep]

set_option maxRecDepth 10000 in
theorem two_run : ((runNet (toyEnv 4 1) {0, 1, 2} RNet.init twoEvents).elim false fun net => decide (sentTo net.sent 0 1 .ready =
    [marshal (⟨echoHash (toyEnv 4 1) (marshal toyM), toyShard 4 1 (marshal toyM) 0⟩ : PRBCReady), marshal (⟨echoHash (toyEnv 4 1) (marshal toyM), toyShard 4 1 (marshal twoM) 0⟩ : PRBCReady)])) = true := by decide +kernel

set_option maxRecDepth 10000 in
theorem slow_run : ((runNet (toyEnv 4 1) {0, 1, 2, 3} RNet.init slowEvents).elim false fun net => decide ((sentTo net.sent 3 0 .ready).length = 2)) = true := by decide +kernel

/-- Is it the receipt of a message? -/
def NEvent.isDeliver : NEvent → Bool
  | .deliver _ _ _ _ => true
  | _ => false

set_option maxRecDepth 10000 in
theorem two_once : (twoEvents.filter NEvent.isDeliver).Nodup := by decide +kernel

set_option maxRecDepth 10000 in
theorem slow_once : (∀ j ∈ List.range 4, (echoSenders slowEvents j).Nodup) ∧ (slowEvents.filter NEvent.isDeliver).Nodup ∧
    slowEvents.all (fun e => match e with | .deliver j _ _ _ => decide (j < 4) | _ => true) = true := by
  refine ⟨?_, ?_, ?_⟩ <;> decide +kernel

end Witness

/-- **C99 (refuted).** One of four parties is corrupt and no message is delivered twice; an honest party sends party 1 two Readys with different contents (two shards for the same hash). -/
theorem C99_refuted : (toyEnv 4 1).Ok ∧ HonestSet (toyEnv 4 1) {0, 1, 2} ∧ ∃ evs net, NRun (toyEnv 4 1) {0, 1, 2} RNet.init evs net ∧ (evs.filter NEvent.isDeliver).Nodup ∧
    ∃ d d', d ≠ d' ∧ d ∈ sentTo net.sent 0 1 .ready ∧ d' ∈ sentTo net.sent 0 1 .ready := by
  refine ⟨toyEnv_ok (by norm_num) (by norm_num), ⟨by decide, by decide⟩, ?_⟩
  have hrun := two_run
  cases hn : runNet (toyEnv 4 1) {0, 1, 2} RNet.init twoEvents with
  | none => rw [hn] at hrun; cases hrun
  | some net =>
    rw [hn] at hrun
    simp only [Option.elim_some, decide_eq_true_eq] at hrun
    have hr : NRun (toyEnv 4 1) {0, 1, 2} RNet.init twoEvents net := by
      have := NRun.of_runNet (NRun.nil (env := toyEnv 4 1) (H := {0, 1, 2}) (net₀ := RNet.init)) hn
      rwa [List.nil_append] at this
    refine ⟨_, net, hr, two_once, _, _, ?_, by rw [hrun]; exact List.mem_cons_self, by rw [hrun]; exact List.mem_cons_of_mem _ List.mem_cons_self⟩
    decide +kernel

/-- Is it the receipt of a message from a party other than 0? -/
def NEvent.fromOthers : NEvent → Bool
  | .deliver _ _ s _ => decide (s ≠ 0)
  | _ => false

/-- **C99 (refuted), every size.** Take a committee of any size with `F ≥ 1`, a hash and two different shards. One corrupt party, number 0, repeats Echoes to some of the others and so makes the honest party 1 send
everybody a Ready with the one shard and a Ready with the other. No message of an honest party is delivered twice. Nobody has broadcast anything. -/
theorem C99_refuted_every_size {env : REnv} (ok : env.Ok) (hF : 1 ≤ env.F) (h m m' : Bytes) (hh : h.length < 2 ^ 29) (hm : m.length < 2 ^ 29) (hm' : m'.length < 2 ^ 29) (hne : m ≠ m') :
    HonestSet env (othersSet env.N) ∧ 1 ∈ othersSet env.N ∧ ∃ evs net, NRun env (othersSet env.N) RNet.init evs net ∧ (evs.filter NEvent.fromOthers).Nodup ∧
      (∀ e ∈ evs, (∃ j s d, e = .deliver j .echo s d) ∨ (∃ j s d, e = .deliver j .ready s d) ∨ ∃ j ev, e = .run j ev) ∧
      ∀ j < env.N, sentTo net.sent 1 j .ready = [marshal (⟨h, m'⟩ : PRBCReady), marshal (⟨h, m⟩ : PRBCReady)] := by
  have hsz := ok.size
  obtain ⟨net, h1, h2⟩ := run_two_readys ok hF hh hm hm' hne
  refine ⟨othersSet_honest ok hF, mem_othersSet.2 (mem_others.2 ⟨by omega, by omega⟩), _, net, h1, ?_, ?_, h2⟩
  · have e1 : ((helpers env.F).flatMap (fun j => List.replicate (env.N - env.F) (NEvent.deliver j .echo 0 (marshal (⟨h, []⟩ : PRBCEcho))))).filter NEvent.fromOthers = [] := by
      rw [List.filter_eq_nil_iff]
      intro e he
      obtain ⟨j, _, he⟩ := List.mem_flatMap.1 he
      obtain ⟨_, rfl⟩ := List.mem_replicate.1 he
      simp [NEvent.fromOthers]
    have e2 : ∀ (rd : Bytes) (l : List ℕ), (∀ i ∈ l, i ≠ 0) → ((l.map fun i => (i, ([] : Bytes))).flatMap fun x => readyEvents 1 x.1 rd).filter NEvent.fromOthers = l.map fun i => .deliver 1 .ready i rd := by
      intro rd l hl
      induction l with
      | nil => rfl
      | cons a l ih =>
        rw [List.map_cons, List.flatMap_cons, List.filter_append, ih (fun i hi => hl i (by simp [hi]))]
        simp [readyEvents, NEvent.fromOthers, hl a (by simp)]
    have e3 : ∀ (n : ℕ) (d : Bytes), (List.replicate n (NEvent.deliver 1 .echo 0 d)).filter NEvent.fromOthers = [] := by
      intro n d
      rw [List.filter_eq_nil_iff]
      intro e he
      obtain ⟨_, rfl⟩ := List.mem_replicate.1 he
      simp [NEvent.fromOthers]
    rw [List.filter_append, e1, List.nil_append, twiceEvents]
    simp only [List.filter_append, e3, e2 _ ((List.range env.F).map (· + 2)) (by simp), List.append_nil]
    have e4 : (((List.range env.F).map (· + 2)).map fun i => NEvent.deliver 1 .ready i (marshal (⟨h, []⟩ : PRBCReady))) ++
        [NEvent.deliver 1 .ready (env.F + 2) (marshal (⟨h, []⟩ : PRBCReady))] = (helpers env.F).map fun i => NEvent.deliver 1 .ready i (marshal (⟨h, []⟩ : PRBCReady)) := by
      rw [helpers_eq, List.map_append]; rfl
    have e5 : ([NEvent.deliver 1 .ready (env.F + 2) (marshal (⟨h, []⟩ : PRBCReady)), NEvent.run 1 .readyStep]).filter NEvent.fromOthers = [NEvent.deliver 1 .ready (env.F + 2) (marshal (⟨h, []⟩ : PRBCReady))] := by
      simp [NEvent.fromOthers]
    have e6 : ([NEvent.run 1 .readyStep, NEvent.run 1 .readyStep]).filter NEvent.fromOthers = [] := rfl
    have e7 : ([NEvent.run 1 .readyStep]).filter NEvent.fromOthers = [] := rfl
    rw [e5, e6, e7, List.append_nil, List.append_nil, e4]
    refine (helpers_nodup _).map ?_
    intro a b hab
    cases hab
    rfl
  · intro e he
    rcases List.mem_append.1 he with he | he
    · obtain ⟨j, _, he⟩ := List.mem_flatMap.1 he
      obtain ⟨_, rfl⟩ := List.mem_replicate.1 he
      exact Or.inl ⟨_, _, _, rfl⟩
    · simp only [twiceEvents, List.mem_append, List.mem_flatMap, List.mem_cons, List.not_mem_nil, or_false, List.mem_replicate, readyEvents] at he
      rcases he with ((((⟨x, _, h' | h' | h'⟩ | (h' | h')) | ⟨_, h'⟩) | (h' | h')) | ⟨_, h'⟩) | h' <;> subst h'
      all_goals first | exact Or.inl ⟨_, _, _, rfl⟩ | exact Or.inr (Or.inl ⟨_, _, _, rfl⟩) | exact Or.inr (Or.inr ⟨_, _, rfl⟩)

/-- Ten parties, three faults, with the erasure code of the library. -/
example : ∃ evs net, NRun (toyEnv 10 3) (othersSet 10) RNet.init evs net ∧ sentTo net.sent 1 9 .ready = [marshal (⟨[7], [2, 3]⟩ : PRBCReady), marshal (⟨[7], [1]⟩ : PRBCReady)] := by
  obtain ⟨_, _, evs, net, h1, _, _, h2⟩ := C99_refuted_every_size (env := toyEnv 10 3) (toyEnv_ok (by norm_num) (by norm_num)) (by decide) [7] [1] [2, 3] (by simp) (by simp) (by simp) (by decide)
  exact ⟨evs, net, h1, h2 9 (by decide)⟩

/-- **C99 (refuted).** Even if all four parties are honest and no Echo is repeated, a party that learns of the quorum in both ways at once sends its Ready twice. -/
theorem C99_refuted_twice : HonestSet (toyEnv 4 1) {0, 1, 2, 3} ∧ ∃ evs net, NRun (toyEnv 4 1) {0, 1, 2, 3} RNet.init evs net ∧ EchoOnce evs ∧ (evs.filter NEvent.isDeliver).Nodup ∧
    (sentTo net.sent 3 0 .ready).length = 2 := by
  refine ⟨⟨by decide, by decide⟩, ?_⟩
  have hrun := slow_run
  cases hn : runNet (toyEnv 4 1) {0, 1, 2, 3} RNet.init slowEvents with
  | none => rw [hn] at hrun; cases hrun
  | some net =>
    rw [hn] at hrun
    simp only [Option.elim_some, decide_eq_true_eq] at hrun
    have hr : NRun (toyEnv 4 1) {0, 1, 2, 3} RNet.init slowEvents net := by
      have := NRun.of_runNet (NRun.nil (env := toyEnv 4 1) (H := {0, 1, 2, 3}) (net₀ := RNet.init)) hn
      rwa [List.nil_append] at this
    obtain ⟨h1, h2, h3⟩ := slow_once
    refine ⟨_, net, hr, fun j => ?_, h2, hrun⟩
    by_cases hj : j < 4
    · exact h1 j (List.mem_range.2 hj)
    · have : echoSenders slowEvents j = [] := by
        unfold echoSenders
        rw [List.filterMap_eq_nil_iff]
        intro e he
        have h := List.all_eq_true.1 h3 e he
        split
        · simp only [decide_eq_true_eq] at h
          rw [if_neg (by omega)]
        · rfl
      rw [this]; exact List.nodup_nil

/-- The executions of `C99_refuted_twice` satisfy the hypotheses of `C99_same_ready_partial`: there are two Readys and they are equal. -/
example : ∃ evs net, NRun (toyEnv 4 1) {0, 1, 2, 3} RNet.init evs net ∧ ∃ d, sentTo net.sent 3 0 .ready = [d, d] := by
  obtain ⟨hH, evs, net, hr, ho, _, hl⟩ := C99_refuted_twice
  refine ⟨evs, net, hr, ?_⟩
  match hs : sentTo net.sent 3 0 .ready, hl with
  | [a, b], _ =>
    have : a = b := C99_same_ready_partial (toyEnv_ok (by norm_num) (by norm_num)) hH hr ho 3 (j := 0) (j' := 0) (by rw [hs]; simp) (by rw [hs]; simp)
    exact ⟨b, by rw [this]⟩

/-- Deliveries with different keys: none is repeated, and no Echo is counted twice. -/
theorem once_of_keys {evs : List NEvent} (h : (evs.filterMap deliveryKey).Nodup) : EchoOnce evs ∧ (evs.filter NEvent.isDeliver).Nodup := by
  constructor
  · intro j
    have e : echoSenders evs j = (evs.filterMap deliveryKey).filterMap fun x => if x.1 = j ∧ x.2.1 = .echo then some x.2.2 else none := by
      rw [List.filterMap_filterMap, echoSenders]
      congr 1
      funext e
      match e with
      | .deliver j' .echo s _ => simp [deliveryKey]
      | .deliver j' .propose s _ => simp [deliveryKey]
      | .deliver j' .ready s _ => simp [deliveryKey]
      | .send .. => rfl
      | .sendExcl .. => rfl
      | .run .. => rfl
    rw [e]
    refine h.filterMap ?_
    rintro ⟨a, k, s⟩ ⟨a', k', s'⟩ b hb hb'
    simp only [Option.mem_def, Option.ite_none_right_eq_some, Option.some.injEq] at hb hb'
    obtain ⟨⟨rfl, rfl⟩, rfl⟩ := hb
    obtain ⟨⟨rfl, rfl⟩, rfl⟩ := hb'
    rfl
  · induction evs with
    | nil => exact List.nodup_nil
    | cons a l ih =>
      match a with
      | .deliver j k s d =>
        have h' : ((j, k, s) :: l.filterMap deliveryKey).Nodup := h
        rw [List.nodup_cons] at h'
        show (NEvent.deliver j k s d :: l.filter NEvent.isDeliver).Nodup
        rw [List.nodup_cons]
        exact ⟨fun hm => h'.1 (List.mem_filterMap.2 ⟨_, (List.mem_filter.1 hm).1, rfl⟩), ih h'.2⟩
      | .send .. => exact ih h
      | .sendExcl .. => exact ih h
      | .run .. => exact ih h

/-- **C99 (refuted), every size.** In a committee of any size with `F ≥ 1` in which all parties are honest and no message is delivered twice, after a broadcast by party 0 the last party sends everybody its Ready twice. -/
theorem C99_refuted_twice_every_size {env : REnv} (ok : env.Ok) (hF : 1 ≤ env.F) (M : PMessage) (hne : marshal M ≠ []) (hsz : (marshal M).length < 2 ^ 29) :
    HonestSet env (Finset.range env.N) ∧ ∃ evs net, NRun env (Finset.range env.N) RNet.init evs net ∧ NEvent.send 0 M ∈ evs ∧ EchoOnce evs ∧ (evs.filter NEvent.isDeliver).Nodup ∧
      ∃ d, ∀ j < env.N, sentTo net.sent (env.N - 1) j .ready = [d, d] := by
  obtain ⟨rd, ed, net, h1, h2⟩ := run_ready_again ok hF M hsz hne
  obtain ⟨h3, h4⟩ := once_of_keys (again_keys env ok.size hF M rd ed)
  exact ⟨⟨fun i hi => Finset.mem_range.1 hi, by simp⟩, _, net, h1, by simp, h3, h4, _, h2⟩

/-- Ten parties, three faults: party 9 sends party 4 the same Ready twice. -/
example : ∃ evs net d, NRun (toyEnv 10 3) (Finset.range 10) RNet.init evs net ∧ (evs.filter NEvent.isDeliver).Nodup ∧ sentTo net.sent 9 4 .ready = [d, d] := by
  obtain ⟨_, evs, net, h1, _, _, h4, d, h5⟩ := C99_refuted_twice_every_size (env := toyEnv 10 3) (toyEnv_ok (by norm_num) (by norm_num)) (by decide) toyM (by decide +kernel) (by decide +kernel)
  exact ⟨evs, net, d, h1, h4, h5 4 (by decide)⟩

/-! ## Agreement -/

/-- **C100.** Whatever it is given, and however long it runs, a party sends at most one message of every kind per round (Value and Echo: per instance and stage), and one Halt in all. -/
theorem C100_once {env : MEnv} {i : ℕ} {v val : Bytes} {evs : List MEvent} {st : MState} {sent : List MMsg} (h : MLocal env i v val evs st sent) : (sent.map MMsg.slot).Nodup :=
  (once_inv h).2.2

/-- **C100.** So in an execution of a committee an honest party never says two different things about one matter. -/
theorem C100_committee {env : MEnv} {H : Finset ℕ} {cfg : MNetCfg} {input : ℕ → Bytes × Bytes} {evs : List (ℕ × MEvent)} {net : MNet} (h : MRun env H cfg (MNet.init H input env.N) evs net)
    {i : ℕ} (hi : i ∈ H) (hN : i < env.N) {m m' : MMsg} (hm : (i, m) ∈ net.sent) (hm' : (i, m') ∈ net.sent) (hs : m.slot = m'.slot) : m = m' := by
  obtain ⟨es, hl⟩ := local_of_run h hi hN
  have mem : ∀ {x}, (i, x) ∈ net.sent → x ∈ sentBy net i := fun {x} hx => List.mem_filterMap.2 ⟨(i, x), hx, by simp⟩
  exact List.inj_on_of_nodup_map (C100_once hl) (mem hm) (mem hm') hs

/-- Party 2 of `lateRun` goes through two rounds; its eight messages are of eight kinds. -/
example : ∃ net, MRun (Toy.env fun _ => 0) {1, 2, 3} ⟨true, true⟩ (Toy.net₀ {1, 2, 3}) (Toy.lateRun [5] [6]) net ∧
    (sentBy net 2).map MMsg.slot = [.value 0 2 1, .echo 0 0 1, .prevote 0, .vote 0, .value 1 2 1, .echo 1 0 1, .echo 1 0 2, .halt] := by
  obtain ⟨net, hr, hp⟩ := Toy.exists_run (coin := fun _ => 0) (H := {1, 2, 3}) (cfg := ⟨true, true⟩) (net₀ := Toy.net₀ {1, 2, 3}) (Toy.lateRun [5] [6])
    (fun n => decide ((sentBy n 2).map MMsg.slot = [.value 0 2 1, .echo 0 0 1, .prevote 0, .vote 0, .value 1 2 1, .echo 1 0 1, .echo 1 0 2, .halt])) (by decide +kernel)
  exact ⟨net, hr, of_decide_eq_true hp⟩

end DyCAPS
