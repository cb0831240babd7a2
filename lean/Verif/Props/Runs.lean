import Verif.Lemmas.Program
import Verif.Props.Dispatch
import Verif.Props.Setup
import Verif.Props.MVBALive

/-!
# C91-C94: separation of instances and of runs, and how the program is started
-/

namespace DyCAPS

/-! ## C91: every queue serves one purpose -/

/-- Rounds and party numbers of the agreement fit into four bytes, stages into one. Numbers written in decimal are not restricted. -/
def QueueUse.Fits : QueueUse → Prop
  | .value r j stage | .echo r j stage => r < 2 ^ 32 ∧ j < 2 ^ 32 ∧ stage < 256
  | .finish r | .done r | .halt r | .preVote r | .vote r => r < 2 ^ 32
  | _ => True

theorem stageKey_inj {ID ID' : Bytes} {r r' j j' k k' : ℕ} (hr : r < 2 ^ 32) (hj : j < 2 ^ 32) (hk : k < 256) (hr' : r' < 2 ^ 32) (hj' : j' < 2 ^ 32) (hk' : k' < 256)
    (h : idInstance ID r j ++ [UInt8.ofNat k] = idInstance ID' r' j' ++ [UInt8.ofNat k']) : ID = ID' ∧ r = r' ∧ j = j' ∧ k = k' := by
  obtain ⟨a, b⟩ := List.append_inj' h rfl
  obtain ⟨c, d⟩ := List.append_inj' a rfl
  obtain ⟨e, f⟩ := idRound_inj hr hr' c
  refine ⟨e, f, ofNat_bytes_inj hj hj' d, ?_⟩
  have := congrArg UInt8.toNat (List.cons.inj b).1
  simpa [Nat.mod_eq_of_lt hk, Nat.mod_eq_of_lt hk'] using this

theorem RbcQueue.type_inj {q q' : RbcQueue} (h : q.type = q'.type) : q = q' := by
  cases q <;> cases q' <;> first | rfl | exact absurd h (by decide)

/-- **C91.** Two reads with the same `(type, id)` key have the same purpose - phase, round, broadcaster, stage - and the same identifier of the run, whatever the identifiers are. -/
theorem C91_queues_apart (ID ID' : Bytes) (u u' : QueueUse) (hu : u.Fits) (hu' : u'.Fits) (h : queueKey ID u = queueKey ID' u') : ID = ID' ∧ u = u' := by
  have ht := congrArg Prod.fst h
  have hi := congrArg Prod.snd h
  have h1 : asciiBytes "_1," = [95, 49, 44] := by decide
  have h2 : asciiBytes "_2," = [95, 50, 44] := by decide
  cases u <;> cases u' <;> simp only [queueKey] at ht hi
  case commit.commit q j q' j' =>
    rw [h1] at hi
    obtain ⟨a, -, c⟩ := rbcId_inj hi
    rw [RbcQueue.type_inj ht]
    exact ⟨a, by rw [c]⟩
  case newCommit.newCommit q j q' j' =>
    rw [h2] at hi
    obtain ⟨a, -, c⟩ := rbcId_inj hi
    rw [RbcQueue.type_inj ht]
    exact ⟨a, by rw [c]⟩
  case commit.newCommit q j q' j' =>
    rw [h1, h2] at hi
    exact absurd (rbcId_inj hi).2.1 (by decide)
  case newCommit.commit q j q' j' =>
    rw [h1, h2] at hi
    exact absurd (rbcId_inj hi).2.1 (by decide)
  case value.value =>
    obtain ⟨a, rfl, rfl, rfl⟩ := stageKey_inj hu.1 hu.2.1 hu.2.2 hu'.1 hu'.2.1 hu'.2.2 hi
    exact ⟨a, rfl⟩
  case echo.echo =>
    obtain ⟨a, rfl, rfl, rfl⟩ := stageKey_inj hu.1 hu.2.1 hu.2.2 hu'.1 hu'.2.1 hu'.2.2 hi
    exact ⟨a, rfl⟩
  case finish.finish => obtain ⟨a, rfl⟩ := idRound_inj hu hu' hi; exact ⟨a, rfl⟩
  case done.done => obtain ⟨a, rfl⟩ := idRound_inj hu hu' hi; exact ⟨a, rfl⟩
  case halt.halt => obtain ⟨a, rfl⟩ := idRound_inj hu hu' hi; exact ⟨a, rfl⟩
  case preVote.preVote => obtain ⟨a, rfl⟩ := idRound_inj hu hu' hi; exact ⟨a, rfl⟩
  case vote.vote => obtain ⟨a, rfl⟩ := idRound_inj hu hu' hi; exact ⟨a, rfl⟩
  all_goals first
    | exact ⟨hi, rfl⟩
    | exact absurd ht (by decide)
    | (rename_i q _; cases q <;> exact absurd ht (by decide))
    | (rename_i q _ _; cases q <;> exact absurd ht (by decide))
    | (rename_i q _ _ _ _; cases q <;> exact absurd ht (by decide))
    | (rename_i _ q _; cases q <;> exact absurd ht (by decide))
    | (rename_i _ _ _ q _; cases q <;> exact absurd ht (by decide))

/-- **C91.** In every interleaving of connections, dispatcher and readers: what is read for a purpose was sent under the key of that purpose and of no other, in this run or in another one. -/
theorem C91_reads_apart {N : ℕ} {evs : List DEvent} {s : DState} (h : DRun N DState.init evs s) {ID : Bytes} {u : QueueUse} (hu : u.Fits) {m : PMessage}
    (hm : (queueKey ID u, m) ∈ s.log) {ID' : Bytes} {u' : QueueUse} (hu' : u'.Fits) (hs : (m.type, m.id) = queueKey ID' u') : ID' = ID ∧ u' = u := by
  obtain ⟨a, b⟩ := (C05_fifo h).1 _ hm
  exact C91_queues_apart _ _ _ _ hu' hu (hs.symm.trans (Prod.ext a b))

/-- Broadcasts 1 and 11 of the same run, broadcast 1 of both kinds, and an identifier that itself looks like a broadcast identifier. -/
example : queueKey (asciiBytes "x") (.commit .echo 1) ≠ queueKey (asciiBytes "x") (.commit .echo 11) ∧
    queueKey (asciiBytes "x") (.commit .echo 1) ≠ queueKey (asciiBytes "x") (.newCommit .echo 1) ∧
    queueKey (asciiBytes "x_1,1") (.commit .echo 1) ≠ queueKey (asciiBytes "x") (.commit .echo 11) ∧
    queueKey (asciiBytes "x") (.commit .ready 12) = ("RBCReady", [120, 95, 49, 44, 49, 50]) := by
  decide

/-! ## C92: an earlier run under the same keys and identifier -/

/-- Every agreement that the program runs, in whichever role, has the same identifier. -/
theorem agreementId_const (op1 op2 : String) {ID : Bytes} (h : ID ∈ (mainCalls op1 op2).filterMap ProgCall.agreementId) : ID = asciiBytes "ProactivizeAndShareDist" := by
  unfold mainCalls at h
  split at h
  · simp [ProgCall.agreementId] at h
  · split at h
    · split at h <;> simp [ProgCall.agreementId] at h <;> exact h.symm
    · simp at h

/-- **C92 is refuted.** Take any execution of the agreement in which some honest party knows the leader `l` of the first round and a Halt message with a certificate for `l` has been seen. In any later
execution with the same keys and the same identifier, `2F+1` coin shares and that Halt message, all taken from the traffic of the first execution, make any party decide the old value in its first round,
whatever its own proposal. -/
theorem C92_replay_decides {env : MEnv} {H : Finset ℕ} {cfg : MNetCfg} {input : ℕ → Bytes × Bytes} {evs : List (ℕ × MEvent)} {net : MNet}
    (h : MRun env H cfg (MNet.init H input env.N) evs net) {i l : ℕ} (hi : i ∈ H) (hl : ((net.party i).rounds 0).leader = some l) {v sig : Bytes} (hh : net.traffic (.halt 0 v sig))
    (hc : env.cert (.echo 0 l 2 (env.hash v)) sig = true) (k : ℕ) (proposal : Bytes × Bytes) :
    ∃ (msgs : List (ℕ × MMsg)) (st : MState), (∀ m ∈ msgs, net.traffic m.2) ∧ msgs.length = 2 * env.F + 2 ∧
      LRun env k (MState.init k proposal.1 proposal.2).1 ((msgs.map fun m => .recv m.1 m.2) ++ [.takeHalt]) [] [] st ∧ st.phase = .decided 0 v := by
  obtain ⟨hlen, e⟩ := ((h.inv i hi).rounds 0).lead l hl
  have hval := ((h.inv i hi).rounds 0).valid
  set L := ((net.party i).rounds 0).coins.map fun sh => ((0 : ℕ), sh) with hL
  have hL2 : L.map (·.2) = ((net.party i).rounds 0).coins := by rw [hL, List.map_map]; simp [Function.comp_def]
  obtain ⟨st, h1, h2⟩ := replay_decides env k proposal L (by
      intro x hx
      obtain ⟨sh, hsh, rfl⟩ := List.mem_map.1 hx
      exact hval sh hsh) (by rw [hL, List.length_map, hlen]) 0 v sig (by rw [hL2, ← e]; exact hc)
  refine ⟨(L.map fun x => (x.1, MMsg.done 0 x.2)) ++ [(0, .halt 0 v sig)], st, ?_, ?_, ?_, h2⟩
  · intro m hm
    rcases List.mem_append.1 hm with hm | hm
    · obtain ⟨x, hx, rfl⟩ := List.mem_map.1 hm
      obtain ⟨sh, hsh, rfl⟩ := List.mem_map.1 hx
      obtain ⟨s, hs⟩ := coins_delivered h i 0 sh hsh
      exact Or.inr ⟨i, s, hs⟩
    · rw [List.mem_singleton.1 hm]
      exact hh
  · rw [List.length_append, List.length_map, hL, List.length_map, hlen]
    rfl
  · simpa [List.map_map, Function.comp_def] using h1

section
variable {G1 G2 GT : Type} [AddCommGroup G1] [Module Fr G1] [AddCommGroup G2] [Module Fr G2] [AddCommGroup GT] [Module Fr GT] [DecidableEq GT]

/-- **C92 is refuted** for the program: the identifiers of the agreements of two runs, in whichever roles, are the same constant, so with the same key file the environments are the same and
`C92_replay_decides` applies. -/
theorem C92_refuted (S : KyberSuite G1 G2 GT) (N F : ℕ) (coeffs : List Fr) (hash : Bytes → Bytes) {op1 op2 op1' op2' : String} {ID ID' : Bytes}
    (hID : ID ∈ (mainCalls op1 op2).filterMap ProgCall.agreementId) (hID' : ID' ∈ (mainCalls op1' op2').filterMap ProgCall.agreementId)
    {H : Finset ℕ} {cfg : MNetCfg} {input : ℕ → Bytes × Bytes} {evs : List (ℕ × MEvent)} {net : MNet} (h : MRun (kyberEnv S N F coeffs hash ID) H cfg (MNet.init H input N) evs net)
    {i l : ℕ} (hi : i ∈ H) (hl : ((net.party i).rounds 0).leader = some l) {v sig : Bytes} (hh : net.traffic (.halt 0 v sig))
    (hc : blsVerify S (pubCommit (sigKeyGen S.pp.g2 N coeffs).2) ((SMsg.echo 0 l 2 (hash v)).bytes ID) sig = true) (k : ℕ) (proposal : Bytes × Bytes) :
    ∃ (msgs : List (ℕ × MMsg)) (st : MState), (∀ m ∈ msgs, net.traffic m.2) ∧ msgs.length = 2 * F + 2 ∧
      LRun (kyberEnv S N F coeffs hash ID') k (MState.init k proposal.1 proposal.2).1 ((msgs.map fun m => .recv m.1 m.2) ++ [.takeHalt]) [] [] st ∧ st.phase = .decided 0 v := by
  have e : ID' = ID := (agreementId_const _ _ hID').trans (agreementId_const _ _ hID).symm
  subst e
  exact C92_replay_decides h hi hl hh hc k proposal

/-- **C92 (the part that holds).** If the identifiers of the two runs differ, then no combined signature of the one is valid in the other, for no string of the agreement: neither a coin nor a
certificate. The key is not zero, and hashing to the curve does not collide on the two strings. -/
theorem C92_other_identifier_partial (S : KyberSuite G1 G2 GT) (N F : ℕ) (coeffs : List Fr) (hash : Bytes → Bytes) {ID ID' : Bytes} (hne : ID ≠ ID') (h0 : coeffs.getD 0 0 ≠ 0)
    {m m' : SMsg} (hm : m.Fits) (hm' : m'.Fits) (hcol : S.hm (m.bytes ID) = S.hm (m'.bytes ID') → m.bytes ID = m'.bytes ID') {sig : Bytes} (h : (kyberEnv S N F coeffs hash ID).cert m sig = true) :
    (kyberEnv S N F coeffs hash ID').cert m' sig = false := by
  by_contra hc
  rw [Bool.not_eq_false] at hc
  have a := (C35_unique S N coeffs _ _).1 h
  have b := (C35_unique S N coeffs _ _).1 hc
  rw [a, Option.some.injEq] at b
  have := hcol (smul_right_injective G1 h0 b)
  exact hne (C61_domain_separation ID ID' m m' hm hm' this).1

/-! ## C93: the leader is known in advance -/

/-- What a single process computes from the keys it has read at start: the coin signature of round `r`, made with the first `2f+1` shares, reduced modulo the committee size. -/
def predictLeader (S : KyberSuite G1 G2 GT) (n f : ℕ) (keys : List (ℕ × Fr) × List G2) (ID : Bytes) (r : ℕ) : Option ℕ :=
  (soloSign S (2 * f + 1) keys ((SMsg.done r).bytes ID)).map fun coin => (bytesToUint32 coin).toNat % n

theorem predictLeader_ok (S : KyberSuite G1 G2 GT) (n f : ℕ) (hn : 2 * f + 1 ≤ n) (hn' : n ≤ 65536) (coeffs : List Fr) (hc : coeffs.length = 2 * f + 1) (hash : Bytes → Bytes) (ID : Bytes) (r : ℕ) :
    ∃ l, predictLeader S n f (sigKeyGen S.pp.g2 n coeffs) ID r = some l ∧ ∀ {H : Finset ℕ} {cfg : MNetCfg} {input : ℕ → Bytes × Bytes} {evs : List (ℕ × MEvent)} {net : MNet},
      MRun (kyberEnv S n f coeffs hash ID) H cfg (MNet.init H input n) evs net → ∀ i ∈ H, (coinSigners (kyberEnv S n f coeffs hash ID) net i r).Nodup →
      ∀ l', ((net.party i).rounds r).leader = some l' → l' = l := by
  refine ⟨_, by rw [predictLeader, soloSign_enc S n (2 * f + 1) (by omega) hn hn' coeffs hc, Option.map_some], fun h i hi hd l' hl' => ?_⟩
  exact C63_leader_partial (kyber_schemeOk S n f hn' coeffs hc hash ID) h hi hl' hd

/-- **C93 is refuted.** Every process, before any message is sent, computes from the key files the leader of every round of every agreement of both committees: it is the leader of all honest parties that
count coin shares of different parties, in every execution. -/
theorem C93_refuted (S : KyberSuite G1 G2 GT) (n f : ℕ) (hn : 2 * f + 1 ≤ n) (hn' : n ≤ 65536) (coeffs coeffsNew : List Fr) (h : coeffs.length = 2 * f + 1) (h' : coeffsNew.length = 2 * f + 1)
    (hash : Bytes → Bytes) :
    ∃ old new, nodeKeys S.pp.g2 n f (genCoefficientsFile coeffs coeffsNew) = .ok (old, new) ∧ ∀ ID r,
      (∃ l, predictLeader S n f old ID r = some l ∧ ∀ {H : Finset ℕ} {cfg : MNetCfg} {input : ℕ → Bytes × Bytes} {evs : List (ℕ × MEvent)} {net : MNet},
        MRun (kyberEnv S n f coeffs hash ID) H cfg (MNet.init H input n) evs net → ∀ i ∈ H, (coinSigners (kyberEnv S n f coeffs hash ID) net i r).Nodup →
        ∀ l', ((net.party i).rounds r).leader = some l' → l' = l) ∧
      ∃ l, predictLeader S n f new ID r = some l ∧ ∀ {H : Finset ℕ} {cfg : MNetCfg} {input : ℕ → Bytes × Bytes} {evs : List (ℕ × MEvent)} {net : MNet},
        MRun (kyberEnv S n f coeffsNew hash ID) H cfg (MNet.init H input n) evs net → ∀ i ∈ H, (coinSigners (kyberEnv S n f coeffsNew hash ID) net i r).Nodup →
        ∀ l', ((net.party i).rounds r).leader = some l' → l' = l := by
  have hkeys : nodeKeys S.pp.g2 n f (genCoefficientsFile coeffs coeffsNew) = .ok (sigKeyGen S.pp.g2 n coeffs, sigKeyGen S.pp.g2 n coeffsNew) := by
    rw [nodeKeys, genCoefficientsFile, sigKeyGenFix_ok _ _ _ _ h.ge, sigKeyGenFix_ok _ _ _ _ h'.ge, List.take_of_length_le h.le, List.take_of_length_le h'.le]
    rfl
  exact ⟨_, _, hkeys, fun ID r => ⟨predictLeader_ok S n f hn hn' coeffs h hash ID r, predictLeader_ok S n f hn hn' coeffsNew h' hash ID r⟩⟩

/-- **C93 (the part that holds).** Were each process given its own share only: the key shares of at most `2f` parties are consistent with every coin, that is, for every multiple `P` of the hashed coin
name there is a key with the same shares for these parties whose coin signature is `P`. Missing: the code gives each process all shares; and the public key, which determines the coin, is not part
of this view. -/
theorem C93_shares_hide_partial (S : KyberSuite G1 G2 GT) (n f : ℕ) (hn' : n ≤ 65536) (coeffs : List Fr) (h : coeffs.length = 2 * f + 1) (hash : Bytes → Bytes) (ID : Bytes) (r : ℕ)
    (A : Finset ℕ) (hA : A.card ≤ 2 * f) (s : Fr) :
    ∃ coeffs' : List Fr, coeffs'.length = 2 * f + 1 ∧ (∀ i ∈ A, i < n → (sigKeyGen S.pp.g2 n coeffs').1[i]? = (sigKeyGen S.pp.g2 n coeffs).1[i]?) ∧
      ∀ sig, (kyberEnv S n f coeffs' hash ID).cert (.done r) sig = true ↔ S.codec.dec sig = some (s • S.hm ((SMsg.done r).bytes ID)) := by
  obtain ⟨c, h1, h2, h3⟩ := C74_shares_hide_partial S.pp.g2 n f hn' coeffs h A hA s
  refine ⟨c, h1, h3, fun sig => ?_⟩
  have := C35_unique S n c ((SMsg.done r).bytes ID) sig
  rw [h2] at this
  exact this

end

/-! ## C94: the script that starts the committees -/

/-- **C94 is refuted.** For every committee size, none of the `2n` processes that the script starts for the members of the two committees calls any function of the protocol: the role names it passes are
not those the program knows. Only the client does. -/
theorem C94_refuted (n : ℕ) : (scriptProcesses n).map (fun p => mainCalls p.1 p.2) =
    [[.genCoefficients], [.share (asciiBytes "vssshare")]] ++ List.replicate (2 * n) [] := by
  have h1 : mainCalls "2" "currentCommitee" = [] := by decide
  have h2 : mainCalls "2" "newCommitee" = [] := by decide
  have h3 : mainCalls "1" "committee" = [.genCoefficients] := by decide
  have h4 : mainCalls "2" "client" = [.share (asciiBytes "vssshare")] := by decide
  rw [scriptProcesses, List.map_append, List.map_append, List.map_replicate, List.map_replicate, h1, h2, List.map_cons, List.map_cons, List.map_nil, h3, h4, List.append_assoc,
    List.replicate_append_replicate, two_mul]

/-- A role is known to the program. -/
def KnownRole (op2 : String) : Prop := op2 = "oldCommittee" ∨ op2 = "newCommittee" ∨ op2 = "onlyOneCommittee" ∨ op2 = "client"

/-- **C94 (the part that holds).** Started with a role it knows, a process calls the functions of this role; the two sides of every exchange - dealing, preparation, reduction - use the same
identifier. With any other role it does nothing, without reporting an error. -/
theorem C94_roles_partial (op2 : String) :
    (mainCalls "2" op2 ≠ [] ↔ KnownRole op2) ∧
    (∀ ID, .share ID ∈ mainCalls "2" "client" ↔ .vssShareReceive ID ∈ mainCalls "2" "oldCommittee") ∧
    (∀ ID, .prepareSend ID ∈ mainCalls "2" "oldCommittee" ↔ .prepareReceive ID ∈ mainCalls "2" "newCommittee") ∧
    (∀ ID, .shareReduceSend ID ∈ mainCalls "2" "oldCommittee" ↔ .shareReduceReceive ID ∈ mainCalls "2" "newCommittee") ∧
    (∀ ID ID', .prepareSend ID ∈ mainCalls "2" op2 → .proactivize ID' ∈ mainCalls "2" op2 → op2 = "onlyOneCommittee") := by
  have k1 : mainCalls "2" "client" = [.share (asciiBytes "vssshare")] := by decide
  have k2 : mainCalls "2" "oldCommittee" = [.vssShareReceive (asciiBytes "vssshare"), .prepareSend (asciiBytes "shareReduce"), .shareReduceSend (asciiBytes "shareReduce")] := by decide
  have k3 : mainCalls "2" "newCommittee" =
    [.prepareReceive (asciiBytes "shareReduce"), .shareReduceReceive (asciiBytes "shareReduce"), .proactivize (asciiBytes "ProactivizeAndShareDist")] := by decide
  refine ⟨?_, fun ID => by rw [k1, k2]; simp, fun ID => by rw [k2, k3]; simp, fun ID => by rw [k2, k3]; simp, ?_⟩
  · unfold mainCalls
    rw [if_neg (by decide), if_pos rfl]
    unfold KnownRole
    split <;> simp_all
  · intro ID ID'
    unfold mainCalls
    rw [if_neg (by decide), if_pos rfl]
    split <;> simp

/-- The script for four members starts ten processes; eight of them do nothing. -/
example : (scriptProcesses 4).length = 10 ∧ ((scriptProcesses 4).filter fun p => (mainCalls p.1 p.2).isEmpty).length = 8 := by decide

/-! ## Cases for C92 and C93 -/

/-- C93: with key `5`, in a toy group, one process computes the leaders of rounds 0 to 2 of the refresh before the run. -/
example : [0, 1, 2].map (predictLeader { toySuite with hm := fun m => ((m.getLastD 0).toNat + 1 : ℕ) * 2 ^ 24 } 4 1 (sigKeyGen 1 4 [5, 3, 2]) (asciiBytes "ProactivizeAndShareDist")) =
    [some 1, some 2, some 3] := by
  decide +kernel

/-- C92: in the fault-free execution of `C83` all four parties decide `[0]`; replaying its traffic to a party that starts again with proposal `[9]` makes that one decide `[0]` as well. -/
example : ∃ (net : MNet) (msgs : List (ℕ × MMsg)) (st : MState), MRun (Toy.env fun _ => 0) (Finset.range 4) ⟨true, true⟩ (Toy.net₀ (Finset.range 4)) Toy.allRun net ∧
    (∀ m ∈ msgs, net.traffic m.2) ∧ LRun (Toy.env fun _ => 0) 3 (MState.init 3 [9] []).1 ((msgs.map fun m => .recv m.1 m.2) ++ [.takeHalt]) [] [] st ∧ st.phase = .decided 0 [0] := by
  obtain ⟨net, hr, hp⟩ := Toy.exists_run (coin := fun _ => 0) (H := Finset.range 4) (cfg := ⟨true, true⟩) (net₀ := Toy.net₀ (Finset.range 4)) Toy.allRun
    (fun n => decide (((n.party 1).rounds 0).leader = some 0) && n.sent.any fun sm => match sm.2 with
      | .halt r v sig => decide (r = 0 ∧ v = [0]) && Toy.cert (.echo 0 0 2 [0]) sig
      | _ => false) (by decide +kernel)
  rw [Bool.and_eq_true, decide_eq_true_eq, List.any_eq_true] at hp
  obtain ⟨hl, ⟨s, m⟩, hm, hq⟩ := hp
  cases m with
  | halt r v sig =>
    simp only [Bool.and_eq_true, decide_eq_true_eq] at hq
    obtain ⟨⟨rfl, rfl⟩, hc⟩ := hq
    obtain ⟨msgs, st, h1, -, h2, h3⟩ := C92_replay_decides hr (i := 1) (by decide) hl (Or.inl ⟨s, hm⟩) hc 3 ([9], [])
    exact ⟨net, msgs, st, hr, h1, h2, h3⟩
  | _ => cases hq

end DyCAPS
