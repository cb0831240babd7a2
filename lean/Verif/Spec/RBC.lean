import Verif.Model.RBC

/-!
# Vocabulary for statements about reliable broadcast
-/

namespace DyCAPS

/-- The senders of the Echo messages party `j` has handled, in order. -/
def echoSenders (evs : List NEvent) (j : ℕ) : List ℕ :=
  evs.filterMap fun
    | .deliver j' .echo s _ => if j' = j then some s else none
    | _ => none

/-- No party's Echo is handled twice by the same receiver. -/
def EchoOnce (evs : List NEvent) : Prop := ∀ j, (echoSenders evs j).Nodup

/-- The assumptions on the Reed-Solomon library for `k` data shards out of `N`, and on SHA-256. -/
structure REnv.Ok (env : REnv) : Prop where
  size : 3 * env.F + 1 ≤ env.N
  sha_len : ∀ x, (env.sha x).length = 32
  encode_none : ∀ D, env.rs.encode D = none ↔ D = []
  encode_len : ∀ D sh, env.rs.encode D = some sh → sh.length = env.N
  shard_len : ∀ D sh, env.rs.encode D = some sh → ∀ x ∈ sh, 1 ≤ x.length ∧ x.length ≤ D.length
  /-- the first `k` shards are the data, padded -/
  systematic : ∀ D sh, env.rs.encode D = some sh → D <+: (sh.take (env.N - (env.F + 1))).flatten
  /-- any `k` correct shards and no wrong one give back all -/
  fill_ok : ∀ D sh M, env.rs.encode D = some sh → M.length = env.N → (∀ i, i < env.N → M.getD i [] = sh.getD i [] ∨ M.getD i [] = []) →
    env.N - (env.F + 1) ≤ ((List.range env.N).filter fun i => decide (M.getD i [] ≠ [])).length → env.rs.fill M = sh
  /-- present shards are never changed -/
  fill_keep : ∀ M, M.length = env.N → ∀ i, M.getD i [] ≠ [] → (env.rs.fill M).getD i [] = M.getD i []
  fill_len : ∀ M, M.length = env.N → (env.rs.fill M).length = env.N
  /-- too few shards: nothing happens -/
  fill_few : ∀ M, M.length = env.N → ((List.range env.N).filter fun i => decide (M.getD i [] ≠ [])).length < env.N - (env.F + 1) → env.rs.fill M = M

/-- `H` are the honest parties: at most `F` of the `N` are not. -/
structure HonestSet (env : REnv) (H : Finset ℕ) : Prop where
  lt : ∀ j ∈ H, j < env.N
  card : env.N - env.F ≤ H.card

/-- Two different byte strings with the same SHA-256 value. -/
def Collision (env : REnv) (a b : Bytes) : Prop := a ≠ b ∧ env.sha a = env.sha b

/-- The broadcaster `b` is honest and calls `RBCSend` (or `RBCSendExclude`) with the one message `M` only, and the proposals the honest parties take are from `b`. -/
structure HonestCast (b : ℕ) (M : PMessage) (evs : List NEvent) : Prop where
  src : ∀ j s d, .deliver j .propose s d ∈ evs → s = b
  only : ∀ M', .send b M' ∈ evs → M' = M
  only_excl : ∀ M' x, .sendExcl b M' x ∈ evs → M' = M

/-- All proposals taken by honest parties carry the bytes `D`. -/
def OneProposal (D : Bytes) (evs : List NEvent) : Prop := ∀ j s d, .deliver j .propose s d ∈ evs → d = D

/-- Nobody reports a wrong shard under the hash of `D`. -/
def TrueShards (env : REnv) (D : Bytes) (evs : List NEvent) : Prop :=
  ∀ j s d sh, .deliver j .ready s d ∈ evs → env.rs.encode D = some sh → (readyPayload d).hash = echoHash env D → (readyPayload d).m = sh.getD s []

/-- No honest party can make a step of its own, and every message between honest parties has been taken or its reader will never take it. -/
structure Settled (env : REnv) (H : Finset ℕ) (evs : List NEvent) (net : RNet) : Prop where
  internal : ∀ j ∈ H, ∀ ev, ev.internal = true → rbcStep env (net.party j) ev = none
  messages : ∀ j ∈ H, ∀ s ∈ H, ∀ k d, (s, (⟨j, k, d⟩ : ROut)) ∈ net.sent → d.length < 2 ^ 32 → .deliver j k s d ∈ evs ∨ rbcStep env (net.party j) (deliverEvent k s d) = none

/-- An infinite execution: `ev n` is the event at time `n`; `none`: nothing happens at that time. -/
structure IRun (env : REnv) (H : Finset ℕ) where
  net : ℕ → RNet
  ev : ℕ → Option NEvent
  start : net 0 = RNet.init
  step : ∀ n, match ev n with
    | none => net (n + 1) = net n
    | some e => netStep env H (net n) e = some (net (n + 1))

/-- The events before time `n`. -/
def IRun.before {env : REnv} {H : Finset ℕ} (x : IRun env H) (n : ℕ) : List NEvent := (List.range n).filterMap x.ev

/-- Nobody is neglected for ever: a goroutine of an honest party that can make a step again and again makes one again, and a message between honest parties that its reader could take again
and again is taken. (Go's scheduler and mutexes are starvation-free, the queues are first-in first-out.) -/
structure IRun.Fair {env : REnv} {H : Finset ℕ} (x : IRun env H) : Prop where
  internal : ∀ j ∈ H, ∀ e, e.internal = true → (∀ n, ∃ m ≥ n, rbcStep env ((x.net m).party j) e ≠ none) → ∀ n, ∃ m ≥ n, x.ev m = some (.run j e)
  messages : ∀ j ∈ H, ∀ s ∈ H, ∀ k d n, (s, (⟨j, k, d⟩ : ROut)) ∈ (x.net n).sent → d.length < 2 ^ 32 →
    (∀ n, ∃ m ≥ n, rbcStep env ((x.net m).party j) (deliverEvent k s d) ≠ none) → ∃ m, x.ev m = some (.deliver j k s d)

/-- What `s` has sent to `j` in messages of one kind, in order. -/
def sentTo (sent : List (ℕ × ROut)) (s j : ℕ) (k : RKind) : List Bytes :=
  sent.filterMap fun x => if x.1 = s ∧ x.2.dst = j ∧ x.2.kind = k then some x.2.data else none

end DyCAPS
