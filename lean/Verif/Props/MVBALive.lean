import Verif.Lemmas.MVBALiveRun
import Verif.Props.MVBA

/-!
# C83, C115: does the agreement end when nobody is faulty, or when some parties stop?

`MSettled` (Spec/Agreement.lean): the execution is over - no party that has not returned can make a step, and it has handled every message it can handle.
-/

namespace DyCAPS

/-- **C115 (the part that holds).** Parties outside `A` stop at any point, at least `2F+1` go on. In a finished execution in which everything that was sent by anybody arrives at the parties in `A`, all of
these have returned from `MainProcess`, unless in some round both Yes and No votes were cast and neither by `2F+1` parties. -/
theorem C115_others_return_partial {env : MEnv} {full : SMsg → Bytes} (hok : SchemeOk env full) (hN : env.N = 3 * env.F + 1) {input : ℕ → Bytes × Bytes} {evs : List (ℕ × MEvent)} {net : MNet}
    (h : MRun env (Finset.range env.N) ⟨true, true⟩ (MNet.init (Finset.range env.N) input env.N) evs net) (hsrc : ∀ i q m, (i, MEvent.recv q m) ∈ evs → q < env.N) {A : Finset ℕ}
    (hA : A ⊆ Finset.range env.N) (hcard : 2 * env.F + 1 ≤ A.card) (S : MSettledOn env A (Finset.range env.N) net) (hns : ∀ r, ¬ SplitVote env.N env.F net.sent r) {i : ℕ} (hi : i ∈ A) :
    ∃ r v, Decides net i r v :=
  (settled_decided_or_split hok hN h hsrc hA hcard S).elim (fun x => x i hi) fun ⟨r, x⟩ => absurd x (hns r)

/-- **C83 (the part that holds).** In a finished execution without corrupt parties everybody has returned from `MainProcess`, unless in some round both Yes and No votes were cast and neither by `2F+1`
parties. -/
theorem C83_ends_or_split_partial {env : MEnv} {full : SMsg → Bytes} (hok : SchemeOk env full) (hN : env.N = 3 * env.F + 1) {input : ℕ → Bytes × Bytes} {evs : List (ℕ × MEvent)} {net : MNet}
    (h : MRun env (Finset.range env.N) ⟨true, true⟩ (MNet.init (Finset.range env.N) input env.N) evs net) (hsrc : ∀ i q m, (i, MEvent.recv q m) ∈ evs → q < env.N) (S : MSettled env net)
    (hns : ∀ r, ¬ SplitVote env.N env.F net.sent r) {i : ℕ} (hi : i < env.N) : ∃ r v, Decides net i r v :=
  C115_others_return_partial hok hN h hsrc le_rfl (by rw [Finset.card_range]; omega) ⟨fun i hi => S.internal i (Finset.mem_range.1 hi), fun i hi hu s hs => S.messages i (Finset.mem_range.1 hi) hu s (Finset.mem_range.1 hs)⟩ hns
    (Finset.mem_range.2 hi)

/-- **C83 (the part that holds).** In particular if the coin always names a leader whose value all parties have locked (then nobody votes No), or one whose value nobody has locked. -/
theorem C83_one_kind_partial {env : MEnv} {full : SMsg → Bytes} (hok : SchemeOk env full) (hN : env.N = 3 * env.F + 1) {input : ℕ → Bytes × Bytes} {evs : List (ℕ × MEvent)} {net : MNet}
    (h : MRun env (Finset.range env.N) ⟨true, true⟩ (MNet.init (Finset.range env.N) input env.N) evs net) (hsrc : ∀ i q m, (i, MEvent.recv q m) ∈ evs → q < env.N) (S : MSettled env net)
    (hone : ∀ r, ∃ y : Bool, ∀ k v sig sh, (k, MMsg.vote r y v sig sh) ∉ net.sent) {i : ℕ} (hi : i < env.N) : ∃ r v, Decides net i r v := by
  refine C83_ends_or_split_partial hok hN h hsrc S (fun r ⟨a, b, _, _⟩ => ?_) hi
  obtain ⟨y, hy⟩ := hone r
  cases y with
  | true =>
    obtain ⟨k, hk⟩ := a
    obtain ⟨-, v, sig, sh, hm⟩ := mem_votersOf.1 hk
    exact hy k v sig sh hm
  | false =>
    obtain ⟨k, hk⟩ := b
    obtain ⟨-, v, sig, sh, hm⟩ := mem_votersOf.1 hk
    exact hy k v sig sh hm

namespace Toy

/-- Nobody is corrupt and nothing is lost. Only party 1 has the lock of the leader 0 when the coin is known, nobody has its Finish. Parties 0 and 1 see the Yes first and vote Yes, parties 2 and 3
see three No first and vote No. Everybody handles the two Yes votes before the two No votes. -/
def stuckRun : List (ℕ × MEvent) :=
  let c := fun _ : ℕ => (0 : UInt8)
  let c1 := full c (.echo 0 0 1 [0])
  let cn := full c (.no 0)
  let pv := fun s => if s = 1 then MMsg.prevote 0 true [0] c1 else .prevote 0 false [] (sign s (.no 0))
  let vt := fun s => if s ≤ 1 then MMsg.vote 0 true [0] c1 (sign s (.echo 0 0 2 [0])) else .vote 0 false [] cn (sign s (.unlock 0))
  broadcast c 0 1 [1] [] [0, 1, 2] [] ++ broadcast c 0 2 [2] [] [0, 1, 2] [] ++ broadcast c 0 3 [3] [] [0, 1, 3] []
  ++ ([0, 1, 2].flatMap fun i => [rv i 0 (.value 0 0 1 [0] []), rv 0 i (.echo 0 0 1 (sign i (.echo 0 0 1 [0])))])
  ++ [rv 1 0 (.value 0 0 2 [0] c1)]
  ++ ([0, 1, 2, 3].flatMap fun i => ([1, 2, 3].map fun j => rv i j (.finish 0 [UInt8.ofNat j] (full c (.echo 0 j 2 [UInt8.ofNat j])))) ++ [(i, .elect 0)])
  ++ ([0, 1, 2, 3].flatMap fun i => ([0, 1, 2].map fun j => rv i j (.done 0 (sign j (.done 0)))) ++ [(i, .takeLeader)])
  ++ quits 0 [0] ++ [(0, .quitSend)] ++ quits 2 [0, 3, 3] ++ quits 3 [0, 0, 1, 1, 2, 2] ++ [0, 1, 2, 3].map (fun i => (i, .joined))
  ++ ([0, 1].flatMap fun i => ([1, 0, 2, 3].map fun s => rv i s (pv s)) ++ [(i, .sendVote 0)])
  ++ ([2, 3].flatMap fun i => ([0, 2, 3, 1].map fun s => rv i s (pv s)) ++ [(i, .sendVote 0)])
  ++ ([0, 1, 2, 3].flatMap fun i => [0, 1, 2, 3].map fun s => rv i s (vt s))

/-- Everything that a party in round `n` could still do by itself. -/
def internals (N n : ℕ) : List MEvent :=
  (List.range N).map .quitRecv ++ [.quitSend, .takeLeader, .joined, .takeHalt, .takeVote] ++ (List.range (n + 1)).map .elect ++ (List.range (n + 1)).map .sendVote

theorem mem_internals {env : MEnv} {i : ℕ} {st : MState} {ev : MEvent} (h : ev.internal = true) : ev ∈ internals env.N st.round ∨ mvbaStep env i st ev = none := by
  by_cases hd : st.dead = true
  · right
    unfold mvbaStep
    rw [if_pos hd]
  · cases ev with
    | recv s m => cases h
    | quitRecv j =>
      by_cases hj : j < env.N
      · exact Or.inl (by simp [internals, hj])
      · right; simp [mvbaStep, hd, hj]
    | elect r =>
      by_cases hr : r < st.round + 1
      · exact Or.inl (by simp [internals]; omega)
      · right
        have : ¬ r ≤ st.round := by omega
        simp [mvbaStep, hd, this]
    | sendVote r =>
      by_cases hr : r < st.round + 1
      · exact Or.inl (by simp [internals]; omega)
      · right
        have : ¬ r ≤ st.round := by omega
        simp [mvbaStep, onSendVote, hd, this]
    | _ => exact Or.inl (by simp [internals])

/-- A check of `MSettled` that asks it even of the parties that have returned. -/
def settledB (env : MEnv) (net : MNet) : Bool :=
  (List.range env.N).all fun i => ((internals env.N (net.party i).round).all fun ev => (mvbaStep env i (net.party i) ev).isNone) &&
    net.sent.all fun sm => decide ((i, sm.1, sm.2) ∈ net.delivered) || (mvbaStep env i (net.party i) (.recv sm.1 sm.2)).isNone

theorem settledB_sound {env : MEnv} {net : MNet} (h : settledB env net = true) : MSettled env net := by
  simp only [settledB, List.all_eq_true, Bool.and_eq_true, Bool.or_eq_true, decide_eq_true_eq, List.mem_range, Option.isNone_iff_eq_none] at h
  exact ⟨fun i hi _ ev hev => (mem_internals hev).elim ((h i hi).1 ev) id, fun i hi _ s _ m hm => (h i hi).2 (s, m) hm⟩

/-- The same for `MSettledOn`. -/
def settledOnB (env : MEnv) (A B : List ℕ) (net : MNet) : Bool :=
  A.all fun i => (match (net.party i).phase with | .decided .. => true | _ => false) || (((internals env.N (net.party i).round).all fun ev => (mvbaStep env i (net.party i) ev).isNone) &&
    net.sent.all fun sm => decide (sm.1 ∉ B) || decide ((i, sm.1, sm.2) ∈ net.delivered) || (mvbaStep env i (net.party i) (.recv sm.1 sm.2)).isNone)

theorem settledOnB_sound {env : MEnv} {A B : List ℕ} {net : MNet} (h : settledOnB env A B net = true) : MSettledOn env A.toFinset B.toFinset net := by
  rw [settledOnB, List.all_eq_true] at h
  have h' : ∀ i ∈ A, ¬ (net.party i).hasDecided → ((internals env.N (net.party i).round).all fun ev => (mvbaStep env i (net.party i) ev).isNone) = true ∧
      (net.sent.all fun sm => decide (sm.1 ∉ B) || decide ((i, sm.1, sm.2) ∈ net.delivered) || (mvbaStep env i (net.party i) (.recv sm.1 sm.2)).isNone) = true := by
    intro i hi hu
    have := h i hi
    rw [Bool.or_eq_true, Bool.and_eq_true] at this
    refine this.resolve_left fun e => ?_
    cases hp : (net.party i).phase with
    | decided r v => exact hu ⟨r, v, hp⟩
    | _ => rw [hp] at e; cases e
  refine ⟨fun i hi hu ev hev => ?_, fun i hi hu s hs m hm => ?_⟩
  · obtain ⟨a, -⟩ := h' i (List.mem_toFinset.1 hi) hu
    exact (mem_internals hev).elim (fun x => Option.isNone_iff_eq_none.1 (List.all_eq_true.1 a ev x)) id
  · obtain ⟨-, b⟩ := h' i (List.mem_toFinset.1 hi) hu
    have := List.all_eq_true.1 b _ hm
    rw [Bool.or_eq_true, Bool.or_eq_true, decide_eq_true_eq, decide_eq_true_eq] at this
    rcases this with (x | x) | x
    · exact absurd (List.mem_toFinset.1 hs) x
    · exact Or.inl x
    · exact Or.inr (Option.isNone_iff_eq_none.1 x)

/-- Party 0 is the leader, decides and stops after its Halt has reached party 1, which returns. Parties 2 and 3 hear everything that the parties 1, 2 and 3 send. -/
def lostHaltRun : List (ℕ × MEvent) :=
  let c := fun _ : ℕ => (0 : UInt8)
  let c1 := full c (.echo 0 0 1 [0])
  let c2 := full c (.echo 0 0 2 [0])
  broadcast c 0 0 [0] [] [0, 1, 2] [] ++ broadcast c 0 1 [1] [] [1, 2, 3] [] ++ broadcast c 0 2 [2] [] [1, 2, 3] [] ++ broadcast c 0 3 [3] [] [1, 2, 3] []
  ++ [rv 0 0 (.finish 0 [0] c2)]
  ++ ([0, 1, 2, 3].flatMap fun i => ([1, 2, 3].map fun j => rv i j (.finish 0 [UInt8.ofNat j] (full c (.echo 0 j 2 [UInt8.ofNat j])))) ++ [(i, .elect 0)])
  ++ ([0, 1, 2, 3].flatMap fun i => [1, 2, 3].map fun j => rv i j (.done 0 (sign j (.done 0))))
  ++ [(0, .takeLeader)] ++ quits 0 [1, 1, 2, 2, 3, 3] ++ [(0, .joined), rv 1 0 (.halt 0 [0] c2), (1, .takeHalt)]
  ++ [(2, .takeLeader), (2, .joined), (3, .takeLeader)] ++ quits 3 [0, 0] ++ [(3, .joined)]
  ++ ([2, 3].flatMap fun i => [rv i 2 (.prevote 0 true [0] c1), rv i 3 (.prevote 0 false [] (sign 3 (.no 0))), (i, .sendVote 0)])
  ++ ([2, 3].flatMap fun i => [2, 3].map fun s => rv i s (.vote 0 true [0] c1 (sign s (.echo 0 0 2 [0]))))

/-- Nobody is corrupt; the broadcasts of 0, 1 and 2 end with the help of parties 0, 1 and 2, and all four parties decide party 0's value. -/
def allRun : List (ℕ × MEvent) :=
  ([0, 1, 2].flatMap fun j => broadcast (fun _ => 0) 0 j [UInt8.ofNat j] [] [0, 1, 2] [])
  ++ ([0, 1, 2, 3].flatMap fun i => ([0, 1, 2].map fun j => rv i j (.finish 0 [UInt8.ofNat j] (full (fun _ => 0) (.echo 0 j 2 [UInt8.ofNat j])))) ++ [(i, .elect 0)])
  ++ ([0, 1, 2, 3].flatMap fun i => ([0, 1, 2].map fun j => rv i j (.done 0 (sign j (.done 0)))) ++ [(i, .takeLeader)])
  ++ quits 0 [3, 3] ++ quits 1 [3, 3] ++ quits 2 [3, 3] ++ quits 3 [0, 0, 1, 1, 2, 2, 3, 3] ++ [(3, .quitSend)] ++ [0, 1, 2, 3].map (fun i => (i, .joined))

end Toy

open Toy

/-- **C83 is refuted.** Four parties, none faulty, every message delivered: the execution has come to its end and no party has returned. -/
theorem C83_refuted : ∃ (env : MEnv) (full : SMsg → Bytes) (input : ℕ → Bytes × Bytes) (evs : List (ℕ × MEvent)) (net : MNet),
    SchemeOk env full ∧ env.N = 3 * env.F + 1 ∧ MRun env (Finset.range env.N) ⟨true, true⟩ (MNet.init (Finset.range env.N) input env.N) evs net ∧
    (∀ i q m, (i, MEvent.recv q m) ∈ evs → q < env.N) ∧ MSettled env net ∧ ∀ i < env.N, ¬ ∃ r v, Decides net i r v := by
  obtain ⟨net, hr, hp⟩ := exists_run (coin := fun _ => 0) (H := Finset.range 4) (cfg := ⟨true, true⟩) (net₀ := net₀ (Finset.range 4)) stuckRun
    (fun n => settledB (env fun _ => 0) n && (List.range 4).all fun i => decide ((n.party i).phase = .result 0)) (by decide +kernel)
  rw [Bool.and_eq_true] at hp
  refine ⟨env fun _ => 0, full fun _ => 0, inp, stuckRun, net, schemeOk _, rfl, hr, ?_, settledB_sound hp.1, fun i hi ⟨r, v, hd⟩ => ?_⟩
  · have : (stuckRun.all fun e => match e.2 with | .recv q _ => decide (q < 4) | _ => true) = true := by decide +kernel
    intro i q m hm
    have := List.all_eq_true.1 this _ hm
    exact of_decide_eq_true this
  · have := of_decide_eq_true (List.all_eq_true.1 hp.2 i (List.mem_range.2 hi))
    rw [hd] at this
    cases this

/-- **C115 is refuted.** Four parties; one stops while it sends its Halt message, and only one other party gets it. That one returns without passing the message on. All messages between the three parties that
go on are delivered, nobody votes No, and two of the three wait for ever. -/
theorem C115_refuted : ∃ (env : MEnv) (full : SMsg → Bytes) (input : ℕ → Bytes × Bytes) (evs : List (ℕ × MEvent)) (net : MNet) (A : Finset ℕ),
    SchemeOk env full ∧ env.N = 3 * env.F + 1 ∧ MRun env (Finset.range env.N) ⟨true, true⟩ (MNet.init (Finset.range env.N) input env.N) evs net ∧
    (∀ i q m, (i, MEvent.recv q m) ∈ evs → q < env.N) ∧ A ⊆ Finset.range env.N ∧ A.card = 2 * env.F + 1 ∧ MSettledOn env A A net ∧ (∀ r, ¬ SplitVote env.N env.F net.sent r) ∧
    (∃ i ∈ A, Decides net i 0 (input 0).1) ∧ ∃ i ∈ A, ∃ j ∈ A, i ≠ j ∧ (¬ ∃ r v, Decides net i r v) ∧ ¬ ∃ r v, Decides net j r v := by
  obtain ⟨net, hr, hp⟩ := exists_run (coin := fun _ => 0) (H := Finset.range 4) (cfg := ⟨true, true⟩) (net₀ := net₀ (Finset.range 4)) lostHaltRun
    (fun n => (settledOnB (env fun _ => 0) [1, 2, 3] [1, 2, 3] n && decide (Decides n 1 0 [0])) && (decide ((n.party 2).phase = .result 0) && (decide ((n.party 3).phase = .result 0) &&
      n.sent.all fun sm => match sm.2 with | .vote _ false _ _ _ => false | _ => true))) (by decide +kernel)
  rw [Bool.and_eq_true, Bool.and_eq_true, Bool.and_eq_true, Bool.and_eq_true] at hp
  obtain ⟨⟨h1, h2⟩, h3, h4, h5⟩ := hp
  refine ⟨env fun _ => 0, full fun _ => 0, inp, lostHaltRun, net, [1, 2, 3].toFinset, schemeOk _, rfl, hr, ?_, by decide, rfl, settledOnB_sound h1, ?_, ⟨1, by decide, of_decide_eq_true h2⟩, 2, by decide, 3,
    by decide, by decide, ?_, ?_⟩
  · have : (lostHaltRun.all fun e => match e.2 with | .recv q _ => decide (q < 4) | _ => true) = true := by decide +kernel
    intro i q m hm
    have := List.all_eq_true.1 this _ hm
    exact of_decide_eq_true this
  · rintro r ⟨-, ⟨k, hk⟩, -⟩
    obtain ⟨-, v, sig, sh, hm⟩ := mem_votersOf.1 hk
    have := List.all_eq_true.1 h5 _ hm
    cases this
  · rintro ⟨r, v, hd⟩
    have := of_decide_eq_true h3
    rw [hd] at this
    cases this
  · rintro ⟨r, v, hd⟩
    have := of_decide_eq_true h4
    rw [hd] at this
    cases this

/-- The positive part is about something: in this finished execution all four parties return. -/
example : ∃ net, MRun (env fun _ => 0) (Finset.range 4) ⟨true, true⟩ (net₀ (Finset.range 4)) allRun net ∧ MSettled (env fun _ => 0) net ∧
    (∀ r, ¬ SplitVote 4 1 net.sent r) ∧ ∀ i < 4, Decides net i 0 [0] := by
  obtain ⟨net, hr, hp⟩ := exists_run (coin := fun _ => 0) (H := Finset.range 4) (cfg := ⟨true, true⟩) (net₀ := net₀ (Finset.range 4)) allRun
    (fun n => (List.range 4).all (fun i => decide (Decides n i 0 [0])) && n.sent.all fun sm => match sm.2 with | .vote .. => false | _ => true) (by decide +kernel)
  rw [Bool.and_eq_true] at hp
  have hd : ∀ i < 4, Decides net i 0 [0] := fun i hi => of_decide_eq_true (List.all_eq_true.1 hp.1 i (List.mem_range.2 hi))
  refine ⟨net, hr, ⟨fun i hi hu => absurd ⟨0, [0], hd i hi⟩ hu, fun i hi hu => absurd ⟨0, [0], hd i hi⟩ hu⟩, fun r ⟨⟨k, hk⟩, _⟩ => ?_, hd⟩
  obtain ⟨-, v, sig, sh, hm⟩ := mem_votersOf.1 hk
  have := List.all_eq_true.1 hp.2 _ hm
  cases this

/-- Party 3 never does anything after its start, and the other three return. -/
def Toy.silentRun : List (ℕ × MEvent) :=
  ([0, 1, 2].flatMap fun j => broadcast (fun _ => 0) 0 j [UInt8.ofNat j] [] [0, 1, 2] [])
  ++ ([0, 1, 2].flatMap fun i => ([0, 1, 2].map fun j => rv i j (.finish 0 [UInt8.ofNat j] (full (fun _ => 0) (.echo 0 j 2 [UInt8.ofNat j])))) ++ [(i, .elect 0)])
  ++ ([0, 1, 2].flatMap fun i => ([0, 1, 2].map fun j => rv i j (.done 0 (sign j (.done 0)))) ++ [(i, .takeLeader)])
  ++ quits 0 [3, 3] ++ quits 1 [3, 3] ++ quits 2 [3, 3] ++ [0, 1, 2].map (fun i => (i, .joined))

example : ∃ net, MRun (env fun _ => 0) (Finset.range 4) ⟨true, true⟩ (net₀ (Finset.range 4)) silentRun net ∧ (∀ x ∈ silentRun, x.1 ≠ 3) ∧
    MSettledOn (env fun _ => 0) {0, 1, 2} (Finset.range 4) net ∧ (∀ r, ¬ SplitVote 4 1 net.sent r) ∧ ∀ i ∈ ({0, 1, 2} : Finset ℕ), Decides net i 0 [0] := by
  obtain ⟨net, hr, hp⟩ := exists_run (coin := fun _ => 0) (H := Finset.range 4) (cfg := ⟨true, true⟩) (net₀ := net₀ (Finset.range 4)) silentRun
    (fun n => [0, 1, 2].all (fun i => decide (Decides n i 0 [0])) && n.sent.all fun sm => match sm.2 with | .vote .. => false | _ => true) (by decide +kernel)
  rw [Bool.and_eq_true] at hp
  have hd : ∀ i ∈ ({0, 1, 2} : Finset ℕ), Decides net i 0 [0] := fun i hi => of_decide_eq_true (List.all_eq_true.1 hp.1 i (by simpa using hi))
  refine ⟨net, hr, by decide +kernel, ⟨fun i hi hu => absurd ⟨0, [0], hd i hi⟩ hu, fun i hi hu => absurd ⟨0, [0], hd i hi⟩ hu⟩, fun r ⟨⟨k, hk⟩, _⟩ => ?_, hd⟩
  obtain ⟨-, v, sig, sh, hm⟩ := mem_votersOf.1 hk
  have := List.all_eq_true.1 hp.2 _ hm
  cases this

end DyCAPS
