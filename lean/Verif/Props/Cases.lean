import Verif.Props.BitRev
import Verif.Props.Compose
import Verif.Props.Contribution
import Verif.Props.Dispatch
import Verif.Props.Framing
import Verif.Props.Legacy
import Verif.Props.MVBALive

/-!
# Further concrete cases

Instances of theorems whose hypotheses need data that is only defined in a later file than the theorem.
-/

namespace DyCAPS

/-! ### Routing, framing, bit reversal -/

/-- C51: a header announcing 2 bytes followed by the reserved tag 0 ends the reader. -/
example : (recvBytes RecvState.init [0, 0, 0, 2, 0, 0]).pos = .dead := by decide +kernel

/-- C58: `Send` before `InitSendChannel` waits, and gives no error. -/
example (m : PMessage) : (Net.new 4).send m 2 = .blocked (Net.new 4) := by rfl

/-- C66: six elements are accepted; the first four are reordered. -/
example : reverseBitOrderList [10, 11, 12, 13, 14, 15] = .ok [10, 12, 11, 13, 14, 15] := by decide +kernel

/-! ### Dealing -/

/-- C20: with `gF_k = g^{5 + k}` the logged test compares with `g^5`. -/
example (table : List (List Fr)) (lam0 : List Fr) (gs : Fr) (h : lagrangeTable 1 4 = .ok table) (h0 : idx table 0 = .ok lam0) (hg : linCombG1 [(6 : Fr), 7, 8] lam0 = .ok gs) : gs = 5 := by
  have := C20_gs_bound_partial (Pairing.dlog Fr) 1 4 (by decide +kernel) table h [5, 1, 0] rfl [6, 7, 8] rfl (by
    intro k h1 h2
    interval_cases k <;> simp [polyVal, Finset.sum_range_succ, Pairing.dlog] <;> norm_num) gs lam0 h0 hg
  rw [this]
  simp [polyVal, Finset.sum_range_succ, Pairing.dlog]

/-- C53: secrets 42 and 43 from the same dealer, four parties. -/
example (c c' : DealerCoins) : ∃ q : ℕ → Party Fr Fr, Reconstructs 1 42 ((List.range 2).map q) ∧ Reconstructs 1 43 ((List.range' 2 2).map q) := by
  obtain ⟨m, h1, -⟩ := C18_honest_sharing frCodec (Pairing.dlog Fr) 7 4 1 42 c le_rfl (by norm_num) (by norm_num) (by decide +kernel)
  obtain ⟨m', h1', -⟩ := C18_honest_sharing frCodec (Pairing.dlog Fr) 7 4 1 43 c' le_rfl (by norm_num) (by norm_num) (by decide +kernel)
  obtain ⟨q, -, h2, h3⟩ := C53_equivocation frCodec (Pairing.dlog Fr) 7 4 1 42 43 c c' le_rfl (by norm_num) (by norm_num) (by decide +kernel) m m' h1 h1'
  exact ⟨q, h2, h3⟩

/-! ### Prepare -/

/-- C23: members 0, 1 and 3 of the old committee report the commitments of `42 + x`, the corrupt member 2 something else; the new member 2 adopts the honest commitments. -/
example (junk : Bytes) (sha : Bytes → Bytes) (hsha : Function.Injective sha) : ∃ (o p : Party Fr Fr) (pi : Pi Fr), newParty (Pairing.dlog Fr) 7 4 1 2 = .ok p ∧ KnowsComs (Pairing.dlog Fr) 7 bX o ∧
    prepareReceive frCodec sha p (fun _ => 0) [prepareSend frCodec o, junk, prepareSend frCodec o, prepareSend frCodec o] = .ok (some { p with proof := pi }) ∧
    KnowsComs (Pairing.dlog Fr) 7 bX { p with proof := pi } := by
  obtain ⟨p, h1, h2, h3, h4, h5⟩ := newParty_setup (Pairing.dlog Fr) 7 4 1 2
  let o : Party Fr Fr := { p with proof := ⟨0, (List.range 4).map fun k : ℕ => ⟨k, polyVal (sliceX bX 1 2 (k : Fr)) 7 • (Pairing.dlog Fr).g1, 0, 0, 0⟩⟩ }
  have hk : KnowsComs (Pairing.dlog Fr) 7 bX o := by
    intro k k1 k2
    have eF : o.F = 1 := h4
    rw [eF] at k2 ⊢
    rw [commitToPoly_ok _ _ _ _ (by rw [sliceX_length])]
    congr 1
    interval_cases k <;> rfl
  have := C23_prepare frCodec sha (Pairing.dlog Fr) 7 bX p (by rw [h4]; norm_num) {2} (by rw [h4]; decide)
    [(0, prepareSend frCodec o), (2, junk), (1, prepareSend frCodec o), (3, prepareSend frCodec o)] (by simp)
    (by
      intro m hm hc
      refine ⟨o, rfl, hk, ?_⟩
      simp only [List.mem_cons, List.not_mem_nil, or_false] at hm
      rcases hm with rfl | rfl | rfl | rfl
      · rfl
      · simp at hc
      · rfl
      · rfl) (by rw [h4]; simp)
  rcases this with ⟨pi, e1, e2⟩ | ⟨m, -, m', -, e1, e2⟩
  · exact ⟨o, p, pi, h1, hk, e1, e2⟩
  · exact absurd (hsha e2) e1

/-! ### Proactivize -/

/-- C26: party 3 of 4 accepts every contribution of an honest party and rejects a sharing of 5. -/
example (c : DealerCoins) (row : ℕ → Fr) : ∃ (p : Party Fr Fr) (m : PCommit), newParty (Pairing.dlog Fr) 7 4 1 2 = .ok p ∧
    (∃ row', verifyCommit frCodec (Pairing.dlog Fr) p row (unmarshalD (⟨[]⟩ : PCommit) (marshal m)) = .ok (row', true)) ∧
    ∃ row', verifyCommit frCodec (Pairing.dlog Fr) p row (commitOf frCodec 1 (honestContent (Pairing.dlog Fr) 7 1 5 c)) = .ok (row', false) := by
  obtain ⟨p, h1, h2, h3, h4, h5⟩ := newParty_setup (Pairing.dlog Fr) 7 4 1 2
  obtain ⟨m, q, -, -, -, k⟩ := C26_honest_accepted frCodec (Pairing.dlog Fr) 7 p h2 (by omega) (by rw [h4]; norm_num) (by omega) (by rw [h4]; decide +kernel) c
  obtain ⟨row', k1, -⟩ := k row
  have := C26_nonzero_rejected frCodec (Pairing.dlog Fr) 7 p h2 (by omega) (by omega) (by rw [h4]; decide +kernel) c 5 (by decide +kernel) row
  rw [h4] at this
  exact ⟨p, m, h1, ⟨row', k1⟩, this⟩

/-- C27: party 3 votes for the contribution of party 2, whose commitments it has, and the vote for party 1 carries `Q(3,1)`. -/
example (c : DealerCoins) : ∃ (p : Party Fr Fr) (st : PState Fr) (m : PReshare) (out : List POut) (q : ℕ → ℕ → Fr), newParty (Pairing.dlog Fr) 7 4 1 2 = .ok p ∧
    proactStep frCodec (Pairing.dlog Fr) tb0 p st (.reshare 1 (marshal m)) = some (.ok (p, { st with voters := 3 }, out)) ∧
    ∃ W, POut.recover 1 ⟨2, frTo32 (biVal q 1 2 3 1), frCodec.enc W, []⟩ ∈ out := by
  obtain ⟨p, h1, h2, h3, h4, h5⟩ := newParty_setup (Pairing.dlog Fr) 7 4 1 2
  obtain ⟨m, q, -, -, hq, k⟩ := C26_honest_accepted frCodec (Pairing.dlog Fr) 7 p h2 (by omega) (by rw [h4]; norm_num) (by omega) (by rw [h4]; decide +kernel) c
  obtain ⟨row', -, k2⟩ := k fun _ => 0
  obtain ⟨r, out, -, k3, -, k4⟩ := C27_honest_voted frCodec (Pairing.dlog Fr) 7 tb0 p h2 (by omega) (by rw [h4]; norm_num) (by omega) (by rw [h3]; norm_num)
    { PState.init p c with flgCom := fun _ => true, CQ := fun _ => row' } 2 (by norm_num) (by omega) rfl c q hq k2
  obtain ⟨W, k5, -⟩ := k4 1 le_rfl (by omega)
  rw [h4, h5] at k5
  have k3 := k3 (by show p.N ≠ 0; omega)
  have e3 : (PState.init p c).voters - 1 = 3 := by show p.N - 1 = 3; omega
  simp only [e3] at k3
  exact ⟨p, _, r, out, q, h1, k3, W, by exact_mod_cast k5⟩

/-! ### Agreement -/

open Toy

/-- C37: in an execution with the corrupt party 3, first- and second-stage certificates for the broadcast of party 0 exist. -/
example : ∃ (evs : List (ℕ × MEvent)) (net : MNet), MRun (env fun _ => 1) {0, 1, 2} ⟨true, true⟩ (net₀ {0, 1, 2}) evs net ∧
    ∀ stage, stage = 1 ∨ stage = 2 → Genuine (env fun _ => 1) {0, 1, 2} net.signed (full (fun _ => 1) (.echo 0 0 stage [0])) ∧
      (env fun _ => 1).cert (.echo 0 0 stage [0]) (full (fun _ => 1) (.echo 0 0 stage [0])) = true := by
  obtain ⟨net, hr, hp⟩ := exists_run (coin := fun _ => 1) (H := {0, 1, 2}) (cfg := ⟨true, true⟩) (net₀ := net₀ {0, 1, 2}) splitRun
    (fun n => genuineB {0, 1, 2} n.signed (full (fun _ => 1) (.echo 0 0 1 [0])) && genuineB {0, 1, 2} n.signed (full (fun _ => 1) (.echo 0 0 2 [0]))) (by decide +kernel)
  rw [Bool.and_eq_true] at hp
  refine ⟨_, net, hr, ?_⟩
  rintro stage (rfl | rfl)
  · exact ⟨genuineB_sound hp.1, (schemeOk fun _ => 1).cert_full _⟩
  · exact ⟨genuineB_sound hp.2, (schemeOk fun _ => 1).cert_full _⟩

/-- C38, C63, C65: in the execution without corrupt parties the deciding parties counted coin shares of different parties and have the leader the coin names. -/
example : ∃ net, MRun (env fun _ => 0) (Finset.range 4) ⟨true, true⟩ (net₀ (Finset.range 4)) honestRun net ∧ (coinSigners (env fun _ => 0) net 0 0).Nodup ∧
    (coinSigners (env fun _ => 0) net 1 0).Nodup ∧ ((net.party 0).rounds 0).leader = some 0 ∧ Decides net 0 0 [0] ∧ Decides net 1 0 [0] := by
  obtain ⟨net, hr, hp⟩ := exists_run (coin := fun _ => 0) (H := Finset.range 4) (cfg := ⟨true, true⟩) (net₀ := net₀ (Finset.range 4)) honestRun
    (fun n => decide ((coinSigners (env fun _ => 0) n 0 0).Nodup ∧ (coinSigners (env fun _ => 0) n 1 0).Nodup ∧ ((n.party 0).rounds 0).leader = some 0 ∧ Decides n 0 0 [0] ∧ Decides n 1 0 [0]))
    (by decide +kernel)
  exact ⟨net, hr, of_decide_eq_true hp⟩

/-- C40: a No vote, a Yes vote and a No vote leave the process waiting; with the Yes vote last it goes on. -/
example (st : MState) (h0 : 0 ≤ st.round) (hl : (st.rounds 0).leader = some 0) (h1 : (st.rounds 0).VYr = []) (h2 : (st.rounds 0).VNr = []) (h3 : (st.rounds 0).voteOut = none) :
    let yes : VoteMsg := (true, [5], full (fun _ => 0) (.echo 0 0 1 [5]), sign 1 (.echo 0 0 2 [5]))
    let no : ℕ → VoteMsg := fun i => (false, [], full (fun _ => 0) (.no 0), sign i (.unlock 0))
    (∃ st', voteAll (env fun _ => 0) 0 st [no 2, yes, no 3] = some st' ∧ (st'.rounds 0).voteOut.isSome = false) ∧
    ∃ st', voteAll (env fun _ => 0) 0 st [no 2, no 3, yes] = some st' ∧ (st'.rounds 0).voteOut.isSome = true := by
  intro yes no
  have hv : ∀ m ∈ [no 2, no 3, yes], VoteValid (env fun _ => 0) 0 0 m := by
    intro m hm
    simp only [List.mem_cons, List.not_mem_nil, or_false] at hm
    rcases hm with rfl | rfl | rfl
    · exact Or.inr ⟨rfl, by decide, by decide⟩
    · exact Or.inr ⟨rfl, by decide, by decide⟩
    · exact Or.inl ⟨rfl, by decide, by decide⟩
  obtain ⟨s1, a1, b1⟩ := C40_released_iff_partial (env := env fun _ => 0) h0 hl h1 h2 h3 [no 2, yes, no 3] (by
    intro m hm; apply hv; simp only [List.mem_cons, List.not_mem_nil, or_false] at hm ⊢; tauto)
  obtain ⟨s2, a2, b2⟩ := C40_released_iff_partial (env := env fun _ => 0) h0 hl h1 h2 h3 [no 2, no 3, yes] hv
  refine ⟨⟨s1, a1, ?_⟩, s2, a2, b2.2 (Or.inr ⟨[no 2, no 3], yes, [], rfl, rfl, le_rfl⟩)⟩
  rw [Bool.eq_false_iff]
  intro h
  rcases b1.1 h with h | ⟨pre, m, post, e, hm, hl⟩
  · exact absurd h (by decide)
  · have hl : 3 ≤ pre.length + 1 := hl
    match pre, e, hl with
    | [_, _], e, _ => cases e; cases hm
    | _ :: _ :: _ :: tl, e, _ =>
      have := congrArg List.length e
      simp at this

/-- C41: a second-stage Value without certificate ends party 1 after it has taken the first-stage Value. -/
example : ∃ net, MRun (env fun _ => 0) {0, 1, 2} ⟨true, true⟩ (net₀ {0, 1, 2}) [rv 1 3 (.value 0 3 1 [9] []), rv 1 3 (.value 0 3 2 [9] [])] net ∧
    (net.party 1).dead = true ∧ (net.party 0).dead = false := by
  obtain ⟨net, hr, hp⟩ := exists_run (coin := fun _ => 0) (H := {0, 1, 2}) (cfg := ⟨true, true⟩) (net₀ := net₀ {0, 1, 2}) [rv 1 3 (.value 0 3 1 [9] []), rv 1 3 (.value 0 3 2 [9] [])]
    (fun n => decide ((n.party 1).dead = true ∧ (n.party 0).dead = false)) (by decide +kernel)
  exact ⟨net, hr, of_decide_eq_true hp⟩

end DyCAPS
