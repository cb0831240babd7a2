import Verif.Lemmas.RBCFail
import Verif.Lemmas.RBCFair
import Verif.Lemmas.RS

/-!
# Reliable broadcast: C32, C33, C34, C60
-/

namespace DyCAPS

/-- **C32.** Whatever the corrupt parties and the scheduler do, two honest parties that return bytes return the same bytes, or their two values are a SHA-256 collision. -/
theorem C32_agreement {env : REnv} (ok : env.Ok) {H : Finset ℕ} (hH : HonestSet env H) {evs : List NEvent} {net : RNet} (hr : NRun env H RNet.init evs net) (hone : EchoOnce evs)
    {i j : ℕ} (hi : i ∈ H) (hj : j ∈ H) {m m' : Bytes} (h1 : (net.party i).mainPos = .returned (some m)) (h2 : (net.party j).mainPos = .returned (some m')) :
    m = m' ∨ Collision env m m' := by
  obtain ⟨hs, hp⟩ := safe_inv ok hH hr hone
  have a := (hp i hi).mpos
  have b := (hp j hj).mpos
  rw [h1] at a
  rw [h2] at b
  obtain ⟨h, a1, a2⟩ := a
  obtain ⟨h', b1, b2⟩ := b
  have e := Justified.unique ok hH hs a1 b1
  by_cases hm : m = m'
  · exact Or.inl hm
  · exact Or.inr ⟨hm, by rw [a2, b2, e]⟩

/-- **C32.** The same for the messages the callers of `RBCReceive` get. -/
theorem C32_same_message {env : REnv} (ok : env.Ok) {H : Finset ℕ} (hH : HonestSet env H) {evs : List NEvent} {net : RNet} (hr : NRun env H RNet.init evs net) (hone : EchoOnce evs)
    {i j : ℕ} (hi : i ∈ H) (hj : j ∈ H) {M M' : PMessage} (h1 : (net.party i).result = some (some M)) (h2 : (net.party j).result = some (some M')) :
    M = M' ∨ ∃ m m', (net.party i).mainPos = .returned (some m) ∧ (net.party j).mainPos = .returned (some m') ∧ Collision env m m' := by
  unfold RState.result at h1 h2
  cases ha : (net.party i).mainPos with
  | returned x =>
    cases x with
    | none => simp [ha] at h1
    | some m =>
      cases hb : (net.party j).mainPos with
      | returned y =>
        cases y with
        | none => simp [hb] at h2
        | some m' =>
          rw [ha] at h1; rw [hb] at h2
          simp only [Option.some.injEq] at h1 h2
          rcases C32_agreement ok hH hr hone hi hj ha hb with h | h
          · left; rw [← h1, ← h2, h]
          · exact Or.inr ⟨m, m', rfl, rfl, h⟩
      | _ => simp [hb] at h2
  | _ => simp [ha] at h1

theorem result_marshal {s : RState} {M : PMessage} (hl : (marshal M).length < 2 ^ 30) (h : s.mainPos = .returned (some (marshal M))) : s.result = some (some M) := by
  unfold RState.result
  rw [h]
  have hrt : unmarshal PMessage (marshal M) = some M := rt_PMessage M (by omega)
  simp only [unmarshalD, hrt, Option.getD_some]

/-- **C33 (refuted).** One corrupt party that repeats its Echo makes all honest parties return bytes `D` of its choice, although the honest party `b` broadcast `M`
and no forged proposal was delivered. Apart from the repetition the only messages used are the Readys of the honest parties. -/
theorem C33_refuted {env : REnv} (ok : env.Ok) (hF : 1 ≤ env.F) {b : ℕ} (hb0 : 0 < b) (hb : b < env.N) (M : PMessage) {D : Bytes} (hD : D.length < 2 ^ 30) (hne : D ≠ []) :
    HonestSet env (othersSet env.N) ∧ b ∈ othersSet env.N ∧
    ∃ evs net, NRun env (othersSet env.N) RNet.init (.send b M :: evs) net ∧ HonestCast b M (.send b M :: evs) ∧
      ∀ j ∈ othersSet env.N, (net.party j).mainPos = .returned (some D) := by
  have hbm : b ∈ othersSet env.N := mem_othersSet.2 (mem_others.2 ⟨hb0, hb⟩)
  obtain ⟨evs, net, h1, h2, h3⟩ := attack_repeat ok hF hbm M hD hne
  refine ⟨othersSet_honest ok hF, hbm, evs, net, h1, ⟨?_, ?_, ?_⟩, h3⟩
  · intro j s d hm
    rcases List.mem_cons.1 hm with h | h
    · cases h
    · rcases h2 _ h with ⟨_, _, h⟩ | ⟨_, _, _, h⟩ | ⟨_, _, h⟩ <;> cases h
  · intro M' hm
    rcases List.mem_cons.1 hm with h | h
    · cases h; rfl
    · rcases h2 _ h with ⟨_, _, h⟩ | ⟨_, _, _, h⟩ | ⟨_, _, h⟩ <;> cases h
  · intro M' x hm
    rcases List.mem_cons.1 hm with h | h
    · cases h
    · rcases h2 _ h with ⟨_, _, h⟩ | ⟨_, _, _, h⟩ | ⟨_, _, h⟩ <;> cases h

/-- **C34 (refuted, first reason).** Any party may propose: one corrupt party makes all honest parties return bytes `D` of its choice in the instance of the honest
broadcaster `b`. No Echo is repeated. -/
theorem C34_refuted_forged_proposal {env : REnv} (ok : env.Ok) (hF : 1 ≤ env.F) {b : ℕ} (hb0 : 0 < b) (hb : b < env.N) (M : PMessage) {D : Bytes} (hD : D.length < 2 ^ 30) (hne : D ≠ []) :
    HonestSet env (othersSet env.N) ∧ b ∈ othersSet env.N ∧
    ∃ evs net, NRun env (othersSet env.N) RNet.init (.send b M :: evs) net ∧ EchoOnce (.send b M :: evs) ∧
      ∀ j ∈ othersSet env.N, (net.party j).mainPos = .returned (some D) := by
  have hbm : b ∈ othersSet env.N := mem_othersSet.2 (mem_others.2 ⟨hb0, hb⟩)
  obtain ⟨evs, net, h1, h2, _, h3⟩ := attack_spoof ok hF hbm M hD hne
  exact ⟨othersSet_honest ok hF, hbm, evs, net, h1, h2, h3⟩

/-- **C34 (refuted, second reason).** Even when all proposals come from the honest broadcaster and no Echo is repeated, one corrupt party that reports a wrong shard in
its Ready makes the call of every honest party fail for good: in every continuation it has panicked, has returned nil, or has returned other bytes (with the same hash). -/
theorem C34_refuted_wrong_shard {env : REnv} (ok : env.Ok) (hF : 1 ≤ env.F) {b : ℕ} (hb0 : 0 < b) (hb : b < env.N) (M : PMessage) (hD : (marshal M).length < 2 ^ 30) (hne : marshal M ≠ []) :
    HonestSet env (othersSet env.N) ∧ b ∈ othersSet env.N ∧
    ∃ evs net, NRun env (othersSet env.N) RNet.init (.send b M :: evs) net ∧ EchoOnce (.send b M :: evs) ∧ HonestCast b M (.send b M :: evs) ∧
      ∀ evs' net', NRun env (othersSet env.N) net evs' net' → ∀ j ∈ othersSet env.N,
        (net'.party j).dead = true ∨ (net'.party j).mainPos = .returned none ∨ ∃ m, (net'.party j).mainPos = .returned (some m) ∧ Collision env m (marshal M) := by
  have hbm : b ∈ othersSet env.N := mem_othersSet.2 (mem_others.2 ⟨hb0, hb⟩)
  obtain ⟨evs, net, h1, h2, h3, h4⟩ := attack_shard ok hF hbm M hD hne
  exact ⟨othersSet_honest ok hF, hbm, evs, net, h1, h2, h3, fun evs' net' hr j hj => (h4 j hj).run hr⟩

/-- **C34 (part).** Validity as a safety property: with proposals from the honest broadcaster only and no repeated Echo, whatever bytes an honest party returns are the encoding
of the broadcast message or collide with it. -/
theorem C34_validity_partial {env : REnv} (ok : env.Ok) {H : Finset ℕ} (hH : HonestSet env H) {evs : List NEvent} {net : RNet} (hr : NRun env H RNet.init evs net) (hone : EchoOnce evs)
    {b : ℕ} (hb : b ∈ H) {M : PMessage} (hc : HonestCast b M evs) {j : ℕ} (hj : j ∈ H) {m : Bytes} (h : (net.party j).mainPos = .returned (some m)) :
    m = marshal M ∨ Collision env m (marshal M) := by
  obtain ⟨_, hp⟩ := safe_inv ok hH hr hone
  have a := (hp j hj).mpos
  rw [h] at a
  obtain ⟨h', a1, a2⟩ := a
  have e := cast_justified ok hH hr hone (hc.one ok hH hr hone hb) a1
  have htake : (echoHash env (marshal M)).take 32 = env.sha (marshal M) := by
    rw [echoHash, List.take_append_of_le_length (by rw [ok.sha_len]), List.take_of_length_le (by rw [ok.sha_len])]
  by_cases hm : m = marshal M
  · exact Or.inl hm
  · exact Or.inr ⟨hm, by rw [a2, e, htake]⟩

/-- **C34 (part).** Totality: with proposals from the honest broadcaster only, no repeated Echo and no wrong shard reported under the hash of the message, every execution that has run to its end
(no honest party can make a step, all messages between honest parties have been handled or will not be read) has all honest parties returned with the broadcast message. -/
theorem C34_totality_partial {env : REnv} (ok : env.Ok) {H : Finset ℕ} (hH : HonestSet env H) {evs : List NEvent} {net : RNet} (hr : NRun env H RNet.init evs net) (hone : EchoOnce evs)
    {b : ℕ} (hb : b ∈ H) {M : PMessage} (hc : HonestCast b M evs) (htr : TrueShards env (marshal M) evs) (hD : (marshal M).length < 2 ^ 30) (hne : marshal M ≠ [])
    (hsend : .send b M ∈ evs) (hset : Settled env H evs net) : ∀ j ∈ H, (net.party j).result = some (some M) :=
  fun j hj => result_marshal hD (settled_returned ok hH hr hone hb hc htr hD hne hsend hset j hj)

/-- **C34 (part).** Termination: in every infinite fair execution (a goroutine that can step again and again does, a message between honest parties that can be read again and again is) in which the
honest party `b` broadcasts `M`, all proposals taken come from `b`, no Echo is repeated and no wrong shard is reported under the hash of `M`, every honest party returns `M` at some time and stays so. -/
theorem C34_termination_partial {env : REnv} (ok : env.Ok) {H : Finset ℕ} (hH : HonestSet env H) (x : IRun env H) (hf : x.Fair) (hone : ∀ n, EchoOnce (x.before n))
    {b : ℕ} (hb : b ∈ H) {M : PMessage} (hc : ∀ n, HonestCast b M (x.before n)) (htr : ∀ n, TrueShards env (marshal M) (x.before n)) (hD : (marshal M).length < 2 ^ 30) (hne : marshal M ≠ [])
    {t : ℕ} (hsend : x.ev t = some (.send b M)) : ∃ n, ∀ m, n ≤ m → ∀ j ∈ H, ((x.net m).party j).result = some (some M) := by
  obtain ⟨n, htn, hset⟩ := x.settles ok hH hf hone hb hD hsend
  have hret := settled_returned ok hH (x.run n) (hone n) hb (hc n) (htr n) hD hne (IRun.mem_before hsend htn) hset
  refine ⟨n, fun m hm j hj => result_marshal hD ?_⟩
  induction m, hm using Nat.le_induction with
  | base => exact hret j hj
  | succ m hm ih =>
    have hs := x.step m
    cases he : x.ev m with
    | none => rw [he] at hs; simp only at hs; rw [hs]; exact ih
    | some e =>
      rw [he] at hs
      rcases netStep_party hs j with h | ⟨ev, o, h⟩
      · rw [h]; exact ih
      · exact step_returned h ih

/-- **C60 (refuted).** One message of a corrupt party, an empty proposal, makes an honest party panic (`Split` fails and the code indexes the missing shards). -/
theorem C60_refuted {env : REnv} (ok : env.Ok) {H : Finset ℕ} {j s : ℕ} (hj : j ∈ H) (hs : s < env.N) (hsH : s ∉ H) :
    ∃ net, NRun env H RNet.init [.deliver j .propose s []] net ∧ (net.party j).dead = true := by
  have he : env.rs.encode [] = none := (ok.encode_none []).2 rfl
  refine ⟨_, (NRun.nil).snoc (ev := .deliver j .propose s []) (net' := ⟨fun i => if i = j then { RState.init with proposed := true, dead := true } else RState.init, []⟩) ?_, by simp⟩
  simp only [netStep]
  rw [if_pos ⟨hj, hs, by simp, fun h => absurd h hsH⟩]
  simp [RNet.at_, deliverEvent, rbcStep, he, RNet.init, RState.init]

/-- **C60 (part).** A non-empty proposal, an Echo or a Ready of any content does not by itself make the receiving goroutine panic. -/
theorem C60_receipt_partial {env : REnv} (ok : env.Ok) {s s' : RState} {o : List ROut} {k : RKind} {src : ℕ} {d : Bytes} (hk : k = .propose → d ≠ [])
    (h : rbcStep env s (deliverEvent k src d) = some (s', o)) : s'.dead = false := by
  unfold rbcStep at h
  cases hd : s.dead with
  | true => simp [hd] at h
  | false =>
    simp only [hd, Bool.false_eq_true, if_false] at h
    cases k with
    | propose =>
      simp only [deliverEvent] at h
      cases he : env.rs.encode d with
      | none => exact absurd ((ok.encode_none d).1 he) (hk rfl)
      | some sh =>
        rw [he] at h
        split at h
        · cases h
        · cases h; rfl
    | echo =>
      simp only [deliverEvent] at h
      split at h
      · simp only [onEcho, Option.some.injEq] at h
        split at h
        · split at h <;> (cases h; exact hd)
        · cases h; exact hd
      · cases h
    | ready =>
      simp only [deliverEvent] at h
      split at h
      · cases h; rw [(onReady_main _ _ _ _).2]; exact hd
      · cases h

/-! ## Concrete cases -/

section Examples

/-- The code of the library and a 32-byte checksum satisfy the assumptions. -/
def toyEnv (N F : ℕ) : REnv where
  N := N
  F := F
  sha := fun x => (x ++ List.replicate 32 0).take 32
  rs := rsCode N F
  spare := fun _ => []

theorem toyEnv_ok {N F : ℕ} (h : 3 * F + 1 ≤ N) (hN : F + 2 ≤ N) (h256 : N ≤ 256 := by norm_num) : (toyEnv N F).Ok :=
  rsCode_ok h (by omega) h256 (fun x => by simp) _

/-- Shard `j` of `D`. -/
def toyShard (N F : ℕ) (D : Bytes) (j : ℕ) : Bytes := ((rsEncode (N - (F + 1)) N D).getD []).getD j []

theorem toyShard_eq {N F : ℕ} (hN : F + 2 ≤ N) (h256 : N ≤ 256) {D : Bytes} {sh : List Bytes} (h : (toyEnv N F).rs.encode D = some sh) (j : ℕ) : toyShard N F D j = sh.getD j [] := by
  have h' : (rsCode N F).encode D = some sh := h
  rw [rsCode, if_neg (by omega)] at h'
  unfold toyShard
  rw [show rsEncode (N - (F + 1)) N D = some sh from h']
  rfl

/-- The network step by step, as a function. -/
def runNet (env : REnv) (H : Finset ℕ) (net : RNet) : List NEvent → Option RNet
  | [] => some net
  | e :: es => (netStep env H net e).bind fun n => runNet env H n es

theorem NRun.of_runNet {env : REnv} {H : Finset ℕ} {n0 : RNet} {es : List NEvent} : ∀ {pre : List NEvent} {net net' : RNet}, NRun env H n0 pre net → runNet env H net es = some net' →
    NRun env H n0 (pre ++ es) net' := by
  induction es with
  | nil => intro pre net net' h1 h2; cases h2; simpa using h1
  | cons e es ih =>
    intro pre net net' h1 h2
    simp only [runNet, Option.bind_eq_some_iff] at h2
    obtain ⟨n, h3, h4⟩ := h2
    have := ih (h1.snoc h3) h4
    simpa using this

def toyM : PMessage := ⟨"VSSSend", [1], 1, [9, 7]⟩

def toyH : Finset ℕ := {1, 2, 3}

/-- `N = 4`, `F = 1`, party 0 silent: party 1 broadcasts, everybody handles everything. -/
def toyEvents : List NEvent :=
  let D := marshal toyM
  let env := toyEnv 4 1
  let P := [1, 2, 3]
  [.send 1 toyM] ++ P.map (fun j => .deliver j .propose 1 D) ++
    P.flatMap (fun j => P.map fun s => .deliver j .echo s (marshal (⟨echoHash env D, toyShard 4 1 D j⟩ : PRBCEcho))) ++
    P.flatMap (fun j => (P.flatMap fun s => [.deliver j .ready s (marshal (⟨echoHash env D, toyShard 4 1 D s⟩ : PRBCReady)), .run j .readyStep, .run j .readyStep]) ++ List.replicate 7 (.run j .main))

/-- Check of a finished execution. -/
def finishedB (env : REnv) (P : List ℕ) (evs : List NEvent) (net : RNet) : Bool :=
  P.all (fun j => [REvent.echoPush, .echoQuit, .readyStep, .main].all fun ev => (rbcStep env (net.party j) ev).isNone) &&
  net.sent.all fun (s, o) => decide (NEvent.deliver o.dst o.kind s o.data ∈ evs) || !P.contains o.dst

set_option maxRecDepth 10000 in
theorem toy_run : ((runNet (toyEnv 4 1) toyH RNet.init toyEvents).elim false fun net => finishedB (toyEnv 4 1) [1, 2, 3] toyEvents net) = true := by decide +kernel

set_option maxRecDepth 10000 in
theorem toy_once : ∀ j ∈ List.range 4, (echoSenders toyEvents j).Nodup := by decide +kernel

/-- Properties of the events of `toyEvents`, checked one by one. -/
def toyEventB (D : Bytes) (h : Bytes) : NEvent → Bool
  | .send b M => decide (b = 1 ∧ M = toyM)
  | .sendExcl _ _ _ => false
  | .deliver j .propose s d => decide (j < 4 ∧ s = 1 ∧ d = D)
  | .deliver j .echo _ _ => decide (j < 4)
  | .deliver j .ready s d => decide (j < 4 ∧ s < 4 ∧ readyPayload d = ⟨h, toyShard 4 1 D s⟩)
  | .run j _ => decide (j < 4)

set_option maxRecDepth 10000 in
theorem toy_events : ∀ e ∈ toyEvents, toyEventB (marshal toyM) (echoHash (toyEnv 4 1) (marshal toyM)) e = true := by decide +kernel

/-- All hypotheses of `C34_totality_partial` hold together, and so everybody returns the message. -/
theorem toy_hypotheses : ∃ net, NRun (toyEnv 4 1) toyH RNet.init toyEvents net ∧ (toyEnv 4 1).Ok ∧ HonestSet (toyEnv 4 1) toyH ∧ EchoOnce toyEvents ∧ HonestCast 1 toyM toyEvents ∧
    TrueShards (toyEnv 4 1) (marshal toyM) toyEvents ∧ Settled (toyEnv 4 1) toyH toyEvents net := by
  have hrun := toy_run
  cases hn : runNet (toyEnv 4 1) toyH RNet.init toyEvents with
  | none => rw [hn] at hrun; cases hrun
  | some net =>
    rw [hn] at hrun
    simp only [Option.elim_some, finishedB, Bool.and_eq_true, List.all_eq_true] at hrun
    obtain ⟨hint, hmsg⟩ := hrun
    have hP : ∀ j ∈ toyH, j ∈ [1, 2, 3] := by decide
    have hr : NRun (toyEnv 4 1) toyH RNet.init toyEvents net := by
      have := NRun.of_runNet (NRun.nil (env := toyEnv 4 1) (H := toyH) (net₀ := RNet.init)) hn
      rwa [List.nil_append] at this
    refine ⟨net, hr, toyEnv_ok (by norm_num) (by norm_num), ⟨by decide, by decide⟩, ?_, ⟨?_, ?_, ?_⟩, ?_, ⟨?_, ?_⟩⟩
    · intro j
      by_cases hj : j < 4
      · exact toy_once j (List.mem_range.2 hj)
      · have : echoSenders toyEvents j = [] := by
          unfold echoSenders
          rw [List.filterMap_eq_nil_iff]
          intro e he
          have h := toy_events e he
          split
          · simp only [toyEventB, decide_eq_true_eq] at h
            rw [if_neg (by omega)]
          · rfl
        rw [this]; exact List.nodup_nil
    · intro j s d h
      have := toy_events _ h
      simp only [toyEventB, decide_eq_true_eq] at this
      exact this.2.1
    · intro M h
      have := toy_events _ h
      simp only [toyEventB, decide_eq_true_eq] at this
      exact this.2
    · intro M x h
      have := toy_events _ h
      simp only [toyEventB, Bool.false_eq_true] at this
    · intro j s d sh h he _
      have := toy_events _ h
      simp only [toyEventB, decide_eq_true_eq] at this
      obtain ⟨_, _, hp⟩ := this
      rw [hp]
      exact toyShard_eq (by norm_num) (by norm_num) he s
    · intro j hj ev hev
      have h := hint j (hP j hj)
      rw [← Option.isNone_iff_eq_none]
      cases ev with
      | echoPush => exact h _ (by simp)
      | echoQuit => exact h _ (by simp)
      | readyStep => exact h _ (by simp)
      | main => exact h _ (by simp)
      | _ => cases hev
    · intro j hj s _ k d hm _
      left
      have h := hmsg _ hm
      simp only [Bool.or_eq_true, decide_eq_true_eq, Bool.not_eq_true'] at h
      rcases h with h | h
      · exact h
      · exact absurd (hP j hj) (by simpa using h)

example : ∃ net, NRun (toyEnv 4 1) toyH RNet.init toyEvents net ∧ ∀ j ∈ toyH, (net.party j).result = some (some toyM) := by
  obtain ⟨net, h1, h2, h3, h4, h5, h6, h7⟩ := toy_hypotheses
  exact ⟨net, h1, C34_totality_partial h2 h3 h1 h4 (b := 1) (by decide) h5 h6 (by decide +kernel) (by decide +kernel) (by simp [toyEvents]) h7⟩

/-- The execution above, followed by nothing for ever, is fair and meets the hypotheses of `C34_termination_partial`. -/
example : ∃ x : IRun (toyEnv 4 1) toyH, x.Fair ∧ ∃ n, ∀ m, n ≤ m → ∀ j ∈ toyH, ((x.net m).party j).result = some (some toyM) := by
  obtain ⟨net, h1, h2, h3, h4, h5, h6, h7⟩ := toy_hypotheses
  obtain ⟨x, a1, a2⟩ := IRun.of_run h1
  have hf := IRun.fair_of_settled a1 a2 h7
  have hb := fun n => IRun.before_of_list a1 n
  have hsub : ∀ n, x.before n ⊆ toyEvents := fun n => by rw [hb]; exact List.take_subset _ _
  refine ⟨x, hf, C34_termination_partial h2 h3 x hf (fun n j => ?_) (b := 1) (by decide) (fun n => ⟨fun j s d h => h5.src j s d (hsub n h), fun M' h => h5.only M' (hsub n h), fun M' x h => h5.only_excl M' x (hsub n h)⟩)
    (fun n j s d sh h => h6 j s d sh (hsub n h)) (by decide +kernel) (by decide +kernel) (t := 0) (by rw [a1]; rfl)⟩
  rw [hb]
  exact (h4 j).sublist ((List.take_sublist n toyEvents).filterMap _)

/-- Seven parties, two corrupt: with a repeated Echo everybody returns the two bytes 6, 6 in the instance of party 3. -/
example : ∃ evs net, NRun (toyEnv 7 2) (othersSet 7) RNet.init (.send 3 toyM :: evs) net ∧ ∀ j ∈ othersSet 7, (net.party j).mainPos = .returned (some [6, 6]) := by
  obtain ⟨_, _, evs, net, h1, _, h2⟩ := C33_refuted (toyEnv_ok (N := 7) (F := 2) (by norm_num) (by norm_num)) (by show 1 ≤ 2; norm_num) (b := 3) (by norm_num) (by show 3 < 7; norm_num) toyM
    (D := [6, 6]) (by simp) (by simp)
  exact ⟨evs, net, h1, h2⟩

/-- In the execution above, what the parties return is what was broadcast, or the checksum collides; parties 2 and 3 return the same. -/
example : ∃ net, NRun (toyEnv 4 1) toyH RNet.init toyEvents net ∧ (net.party 2).result = some (some toyM) ∧
    (∀ m, (net.party 2).mainPos = .returned (some m) → m = marshal toyM ∨ Collision (toyEnv 4 1) m (marshal toyM)) ∧
    ∀ m m', (net.party 2).mainPos = .returned (some m) → (net.party 3).mainPos = .returned (some m') → m = m' ∨ Collision (toyEnv 4 1) m m' := by
  obtain ⟨net, h1, h2, h3, h4, h5, h6, h7⟩ := toy_hypotheses
  exact ⟨net, h1, C34_totality_partial h2 h3 h1 h4 (b := 1) (by decide) h5 h6 (by decide +kernel) (by decide +kernel) (by simp [toyEvents]) h7 2 (by decide),
    fun m hm => C34_validity_partial h2 h3 h1 h4 (b := 1) (by decide) h5 (j := 2) (by decide) hm,
    fun m m' hm hm' => C32_agreement h2 h3 h1 h4 (i := 2) (j := 3) (by decide) (by decide) hm hm'⟩

/-- A Ready message that is no protobuf message does not stop a party that has just started. -/
example (s' : RState) (o : List ROut) (h : rbcStep (toyEnv 4 1) RState.init (deliverEvent .ready 2 [255, 255]) = some (s', o)) : s'.dead = false :=
  C60_receipt_partial (toyEnv_ok (by norm_num) (by norm_num)) (k := .ready) (by simp) h

end Examples

end DyCAPS
