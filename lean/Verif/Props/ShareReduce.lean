import Verif.Lemmas.ShareReduce
import Verif.Props.VSS

/-!
# C23-C25, C54: Prepare and ShareReduce

`B` is the old committee's bivariate polynomial with coefficients `b`. Messages are pairs of a sender id and a payload, in order of
arrival. `corrupt` is the set of corrupted senders; the payloads of all others are what the protocol prescribes.
-/

set_option linter.unusedSectionVars false

namespace DyCAPS

open Polynomial

section
variable {G1 G2 GT : Type} [AddCommGroup G1] [Module Fr G1] [AddCommGroup G2] [Module Fr G2] [AddCommGroup GT] [Module Fr GT]

/-! ### C25 -/

/-- **C25 (sender).** A holder of `B(i,·)` sends to every member `j` of the next committee the commitment to `B(·,j)`, the value
`B(i,j)` and the proof for it. -/
theorem C25_send (codec : PointCodec G1) (pp : Pairing Fr G1 G2 GT) (t : Fr) (b : ℕ → ℕ → Fr) (p : Party G1 G2)
    (hp : p.Setup pp t) (hh : HoldsFull pp t b p) (hN : 3 * p.F + 1 ≤ p.N) (hr : p.N < frModulus) :
    ∃ msgs, shareReduceSend codec p = .ok msgs ∧ msgs.length = p.N ∧
      ∀ j < p.N, HonestSR codec pp t b p.F (p.pid + 1) (j + 1) (msgs.getD j []) := by
  have key := fun j => shareReduceMsg_ok codec pp t b p hp hh hN (by omega) j
  choose m hm1 hm2 using key
  have e1 : (List.range (2 * p.F + 1)).mapM (idx p.witnessIndexes) =
      .ok ((List.range (2 * p.F + 1)).map fun i => ((i + 1 : ℕ) : Fr)) := by
    apply mapM_ok
    intro i hi
    rw [List.mem_range] at hi
    rw [hh.witIdx, idx_of_lt (by rw [firstIndices_length]; exact hi)]
    simp [firstIndices]
  have e2 : ((List.range (2 * p.F + 1)).map fun i => ((i + 1 : ℕ) : Fr)).all (fun x => decide (x.val < p.N + 1)) = true := by
    rw [List.all_eq_true]
    intro x hx
    obtain ⟨i, hi, rfl⟩ := List.mem_map.1 hx
    rw [List.mem_range] at hi
    rw [decide_eq_true_eq, ZMod.val_natCast, Nat.mod_eq_of_lt (by omega)]
    omega
  refine ⟨((oneTo p.N).map m).map marshal, ?_, by simp [oneTo], ?_⟩
  · unfold shareReduceSend
    rw [e1, Go.ok_bind, if_pos e2, mapM_ok _ m _ (fun j _ => hm1 j)]
    rfl
  · intro j hj
    rw [List.map_map, oneTo_map_getD _ _ _ _ hj]
    exact hm2 (j + 1)

variable [DecidableEq G1] [DecidableEq GT]

/-- **C25 (verification).** The message verifies at the receiver: the opening it contains is accepted. -/
theorem C25_verifies (codec : PointCodec G1) (pp : Pairing Fr G1 G2 GT) (t : Fr) (b : ℕ → ℕ → Fr) (F i j : ℕ) (hF : 1 ≤ F) (data : Bytes)
    (h : HonestSR codec pp t b F i j data) :
    ∃ C W, codec.dec (srMsg data).C = some C ∧ codec.dec (srMsg data).W = some W ∧
      (frFrom32 0 (srMsg data).v) = (biVal b F (2 * F) (i : Fr) (j : Fr), true) ∧
      checkProofSingle pp (newKZG pp t (F + 1)) C W (i : Fr) (biVal b F (2 * F) (i : Fr) (j : Fr)) = .ok true := by
  have hh := srMsg_honest _ _ _ _ _ _ _ _ h
  refine ⟨_, _, by rw [hh, codec.dec_enc], by rw [hh, codec.dec_enc], ?_, ?_⟩
  · rw [hh]
    simp only
    rw [(C02_round_trip 0 _).2]
  rw [checkProofSingle_ok pp t _ (by omega)]
  congr 1
  rw [decide_eq_true_eq, ← sub_smul, smul_smul, ← polyVal_sliceX, ← quotVal_mul, mul_comm]

/-- **C25 (receiver, safety).** With at most `F` corrupted senders, one message per sender and in any order, the reduced share a new
member obtains is `B(·,j)` — or one of the corrupted senders, whose proofs are combinations `w` of the setup elements, has
provided a non-zero polynomial with the setup secret as root. -/
theorem C25_receive (codec : PointCodec G1) (pp : Pairing Fr G1 G2 GT) (t : Fr) (b : ℕ → ℕ → Fr) (p : Party G1 G2)
    (hp : p.Setup pp t) (hF : 1 ≤ p.F) (corrupt : Finset UInt32) (hcor : corrupt.card ≤ p.F) (msgs : List (UInt32 × Bytes))
    (hnd : (msgs.map Prod.fst).Nodup)
    (hhon : ∀ m ∈ msgs, m.1 ∉ corrupt → HonestSR codec pp t b p.F (m.1 + 1).toNat (p.pid + 1) m.2)
    (w : UInt32 × Bytes → Fr[X])
    (halg : ∀ m ∈ msgs, m.1 ∈ corrupt → ∀ W, codec.dec (srMsg m.2).W = some W → W = (w m).eval t • pp.g1)
    (p' : Party G1 G2) (h : shareReduceReceive codec pp p SRState.init msgs = .ok (some p')) :
    p' = { p with reducedShare := sliceX b p.F (2 * p.F) ((p.pid + 1 : ℕ) : Fr) } ∨
    ∃ m ∈ msgs, m.1 ∈ corrupt ∧ ∃ v : Fr,
      polyOf (sliceX b p.F (2 * p.F) ((p.pid + 1 : ℕ) : Fr)) - C v - w m * (X - C (((m.1 + 1).toNat : ℕ) : Fr)) ≠ 0 ∧
      (polyOf (sliceX b p.F (2 * p.F) ((p.pid + 1 : ℕ) : Fr)) - C v - w m * (X - C (((m.1 + 1).toNat : ℕ) : Fr))).eval t = 0 := by
  have hrun := sr_run codec pp t b p hp hF (p.pid + 1) corrupt hcor _ rfl msgs [] SRState.init (by simpa using hnd)
    (by simpa using hhon) (SRInv.init _ _ _ _ _ _)
  rw [List.nil_append] at hrun
  rcases hrun with ⟨h1, -⟩ | ⟨h1, -⟩ | ⟨share, pts, h1, h2, h3, h4, h5⟩
  · rw [h1] at h; cases h
  · rw [h1] at h; cases h
  rw [h1] at h; cases h
  by_cases hbad : ∃ m ∈ msgs, m.1 ∈ corrupt ∧ ∃ v : Fr,
      polyOf (sliceX b p.F (2 * p.F) ((p.pid + 1 : ℕ) : Fr)) - C v - w m * (X - C (((m.1 + 1).toNat : ℕ) : Fr)) ≠ 0 ∧
      (polyOf (sliceX b p.F (2 * p.F) ((p.pid + 1 : ℕ) : Fr)) - C v - w m * (X - C (((m.1 + 1).toNat : ℕ) : Fr))).eval t = 0
  · exact Or.inr hbad
  left
  have hval : ∀ q ∈ pts, polyVal (sliceX b p.F (2 * p.F) ((p.pid + 1 : ℕ) : Fr)) (q.1 : Fr) = q.2 := by
    intro q hq
    rcases explained_value codec pp t b p.F (p.pid + 1) hF corrupt msgs hhon w halg q (h4 q hq) with h | h
    · exact h.symm
    · exact absurd h hbad
  have hx : ∀ q ∈ pts, q.1 < frModulus := by
    intro q hq
    obtain ⟨m', -, -, -, -, h1, -⟩ := h4 q hq
    rw [h1]
    exact lt_trans (UInt32.toNat_lt _) (by decide +kernel)
  have := lagrangeInterpolate_eq_of_eval p.F (pts.map fun q => ((q.1 : ℕ) : Fr)) (pts.map (·.2))
    (sliceX b p.F (2 * p.F) ((p.pid + 1 : ℕ) : Fr)) (by simp; omega) (by simp; omega) (by
      intro i hi k hk hne
      rw [List.getD_eq_getElem _ _ (by simp; omega), List.getD_eq_getElem _ _ (by simp; omega), List.getElem_map, List.getElem_map]
      apply fr_natCast_ne (hx _ (List.getElem_mem _)) (hx _ (List.getElem_mem _))
      intro h
      apply hne
      have h1 : i < (pts.map Prod.fst).length := by simp; omega
      have h2 : k < (pts.map Prod.fst).length := by simp; omega
      exact ((h3.getElem_inj_iff (hi := h1) (hj := h2)).1 (by simpa using h)).symm) (sliceX_length _ _ _ _) (by
      intro k hk
      rw [List.getD_eq_getElem _ _ (by simp; omega), List.getD_eq_getElem _ _ (by simp; omega), List.getElem_map, List.getElem_map]
      exact hval _ (List.getElem_mem _))
  rw [this] at h5
  cases h5
  rfl

/-- **C25 (receiver, termination).** If additionally at least `F+1` of the messages come from uncorrupted senders and the points in
all messages decode, the receiver obtains a share. -/
theorem C25_terminates (codec : PointCodec G1) (pp : Pairing Fr G1 G2 GT) (t : Fr) (b : ℕ → ℕ → Fr) (p : Party G1 G2)
    (hp : p.Setup pp t) (hF : 1 ≤ p.F) (corrupt : Finset UInt32) (hcor : corrupt.card ≤ p.F) (msgs : List (UInt32 × Bytes))
    (hnd : (msgs.map Prod.fst).Nodup)
    (hhon : ∀ m ∈ msgs, m.1 ∉ corrupt → HonestSR codec pp t b p.F (m.1 + 1).toNat (p.pid + 1) m.2)
    (hdec : ∀ m ∈ msgs, SRDecodable codec m.2)
    (henough : p.F + 1 ≤ (msgs.filter fun m => m.1 ∉ corrupt).length) :
    ∃ p', shareReduceReceive codec pp p SRState.init msgs = .ok (some p') := by
  have hrun := sr_run codec pp t b p hp hF (p.pid + 1) corrupt hcor _ rfl msgs [] SRState.init (by simpa using hnd)
    (by simpa using hhon) (SRInv.init _ _ _ _ _ _)
  rw [List.nil_append] at hrun
  rcases hrun with ⟨-, m, hm, h⟩ | ⟨-, h⟩ | ⟨share, pts, h1, -⟩
  · exact absurd (hdec m hm) h
  · omega
  · exact ⟨_, h1⟩

/-- `c` as a coefficient matrix with `B(·,y) = c` for all `y`. -/
theorem sliceX_const (f : List Fr) (F : ℕ) (hf : f.length = F + 1) (y : Fr) :
    sliceX (fun i j => if j = 0 then f.getD i 0 else 0) F (2 * F) y = f := by
  apply list_ext_getD (d := 0) (by rw [sliceX_length, hf])
  intro i hi
  rw [sliceX_length] at hi
  rw [sliceX_getD _ _ _ _ _ hi, Finset.sum_eq_single 0]
  · simp
  · intro j _ hj; simp [hj]
  · simp

/-- **C54 fails.** The sender field of a message is not authenticated and the commitment is not compared with anything the receiver
knows: a single process can send `F+1` messages under the ids `0..F` and so make a new member take any polynomial of its choice
as its reduced share, whatever arrives later. -/
theorem C54_spoofed_senders (codec : PointCodec G1) (pp : Pairing Fr G1 G2 GT) (t : Fr) (p : Party G1 G2) (hp : p.Setup pp t)
    (hF : 1 ≤ p.F) (hF' : p.F + 1 < 2 ^ 32) (f : List Fr) (hf : f.length = p.F + 1) :
    ∃ forged : List (UInt32 × Bytes), forged.map (fun m => m.1.toNat) = List.range (p.F + 1) ∧
      ∀ rest, shareReduceReceive codec pp p SRState.init (forged ++ rest) = .ok (some { p with reducedShare := f }) := by
  set b : ℕ → ℕ → Fr := fun i j => if j = 0 then f.getD i 0 else 0 with hb
  have hex : ∀ i : ℕ, ∃ data, HonestSR codec pp t b p.F (i + 1) (p.pid + 1) data := fun i => ⟨_, (honestSR_iff _ _ _ _ _ _ _ _).2 rfl⟩
  choose data hdata using hex
  set forged : List (UInt32 × Bytes) := (List.range (p.F + 1)).map fun i => (UInt32.ofNat i, data i) with hforged
  have hto : ∀ i < p.F + 1, (UInt32.ofNat i).toNat = i := by
    intro i hi
    rw [UInt32.toNat_ofNat', Nat.mod_eq_of_lt (by omega)]
  have hids : forged.map (fun m => m.1.toNat) = List.range (p.F + 1) := by
    rw [hforged, List.map_map]
    conv_rhs => rw [← List.map_id (List.range (p.F + 1))]
    apply List.map_congr_left
    intro i hi
    exact hto i (by simpa using hi)
  have hnd : (forged.map Prod.fst).Nodup := by
    have : ((forged.map Prod.fst).map UInt32.toNat).Nodup := by
      rw [List.map_map]
      have : forged.map (UInt32.toNat ∘ Prod.fst) = List.range (p.F + 1) := hids
      rw [this]; exact List.nodup_range
    exact this.of_map
  have hhon : ∀ m ∈ forged, m.1 ∉ (∅ : Finset UInt32) → HonestSR codec pp t b p.F (m.1 + 1).toNat (p.pid + 1) m.2 := by
    intro m hm _
    obtain ⟨i, hi, rfl⟩ := List.mem_map.1 hm
    have hi' : i < p.F + 1 := by simpa using hi
    have : (UInt32.ofNat i + 1).toNat = i + 1 := by
      rw [UInt32.toNat_add, hto i hi']
      simp
      omega
    simp only
    rw [this]; exact hdata i
  have hdec : ∀ m ∈ forged, SRDecodable codec m.2 := by
    intro m hm
    have hh := srMsg_honest _ _ _ _ _ _ _ _ (hhon m hm (by simp))
    unfold SRDecodable
    rw [hh]
    exact ⟨⟨_, codec.dec_enc _⟩, ⟨_, codec.dec_enc _⟩⟩
  obtain ⟨p', hp'⟩ := C25_terminates codec pp t b p hp hF ∅ (by simp) forged hnd hhon hdec (by
    rw [List.filter_eq_self.2 (by simp), hforged]; simp)
  refine ⟨forged, hids, fun rest => receive_append _ _ _ _ _ _ _ ?_⟩
  rcases C25_receive codec pp t b p hp hF ∅ (by simp) forged hnd hhon (fun _ => 0) (by simp) p' hp' with h | h
  · rw [hp', h, hb, sliceX_const f p.F hf]
  · obtain ⟨m, _, h, _⟩ := h; simp at h

/-! ### C24 -/

/-- `st` after `k ≤ F` copies of the honest message from one sender. -/
theorem sr_copies (codec : PointCodec G1) (pp : Pairing Fr G1 G2 GT) (t : Fr) (b : ℕ → ℕ → Fr) (p : Party G1 G2) (hp : p.Setup pp t)
    (hF : 1 ≤ p.F) (sender : UInt32) (data : Bytes) (hd : HonestSR codec pp t b p.F (sender + 1).toNat (p.pid + 1) data) (n : ℕ)
    (st : SRState) (v : Fr) (k : ℕ) (hpts : st.points (srMsg data).C = List.replicate k ((sender + 1).toNat, v))
    (hv : v = biVal b p.F (2 * p.F) (((sender + 1).toNat : ℕ) : Fr) ((p.pid + 1 : ℕ) : Fr)) (hk : k ≤ p.F) (hn : k + n = p.F + 1) :
    shareReduceReceive codec pp p st (List.replicate n (sender, data)) = .error .fatal := by
  induction n generalizing st k with
  | zero => omega
  | succ n ih =>
    have hh := srMsg_honest _ _ _ _ _ _ _ _ hd
    obtain ⟨v', hv', hstep⟩ := srStep_ok codec pp t p hp hF st sender (srMsg data) _ _ (by rw [hh, codec.dec_enc]) (by rw [hh, codec.dec_enc])
    have hvv : v' = v := by rw [hv', hh, frFrom32_copy, hv]
    rw [hvv] at hstep
    rcases hstep with ⟨-, hstep⟩ | ⟨h, -⟩
    swap
    · exfalso
      apply h
      rw [hv, ← sub_smul, smul_smul, ← polyVal_sliceX, ← quotVal_mul, mul_comm]
    rw [hpts, ← List.replicate_succ'] at hstep
    change shareReduceStepMsg codec pp p st sender (unmarshalD _ data) = _ at hstep
    rw [List.replicate_succ, shareReduceReceive, shareReduceStep, hstep]
    by_cases hlast : p.F + 1 ≤ (List.replicate (k + 1) ((sender + 1).toNat, v)).length
    · rw [if_pos hlast]
      have hk1 : k = p.F := by simp at hlast; omega
      have : lagrangeInterpolate p.F (((List.replicate (k + 1) ((sender + 1).toNat, v)).take (p.F + 1)).map fun q => ((q.1 : ℕ) : Fr))
          (((List.replicate (k + 1) ((sender + 1).toNat, v)).take (p.F + 1)).map (·.2)) = .error .fatal := by
        rw [C10_fatal_iff_duplicate _ _ _ (by simp; omega) (by simp; omega)]
        intro hdist
        apply hdist 0 (by omega) 1 (by omega) (by omega)
        rw [List.getD_eq_getElem _ _ (by simp), List.getD_eq_getElem _ _ (by simp; omega)]
        simp
      rw [this]
      rfl
    · rw [if_neg hlast]
      show shareReduceReceive codec pp p _ _ = _
      refine ih _ (k + 1) ?_ ?_ ?_
      · simp only; rw [if_pos trivial]
      · simp at hlast; omega
      · omega

/-- **C24 fails for ShareReduce.** `F+1` copies of one valid message (anybody can replay it) terminate the receiving process
through `log.Fatal`. -/
theorem C24_sharereduce_replay_fatal (codec : PointCodec G1) (pp : Pairing Fr G1 G2 GT) (t : Fr) (b : ℕ → ℕ → Fr) (p : Party G1 G2)
    (hp : p.Setup pp t) (hF : 1 ≤ p.F) (sender : UInt32) (data : Bytes)
    (hd : HonestSR codec pp t b p.F (sender + 1).toNat (p.pid + 1) data) :
    shareReduceReceive codec pp p SRState.init (List.replicate (p.F + 1) (sender, data)) = .error .fatal :=
  sr_copies codec pp t b p hp hF sender data hd (p.F + 1) SRState.init _ 0 rfl rfl (by omega) (by omega)

/-! ### C23 -/

/-- The Prepare payload of a member that knows the commitments to `B(·,1..2F+1)` is the same for all of them. -/
theorem prepareSend_eq (codec : PointCodec G1) (pp : Pairing Fr G1 G2 GT) (t : Fr) (b : ℕ → ℕ → Fr) (p : Party G1 G2)
    (h : KnowsComs pp t b p) : prepareSend codec p = marshal (⟨[] :: (oneTo (2 * p.F + 1)).map fun k : ℕ =>
      codec.enc (polyVal (sliceX b p.F (2 * p.F) (k : Fr)) t • pp.g1)⟩ : PPrepare) := by
  rw [prepareSend, Party.coms, List.map_map]
  congr 3
  apply List.map_congr_left
  intro k hk
  rw [mem_oneTo] at hk
  have := h k hk.1 hk.2
  rw [commitToPoly_ok pp t _ _ (by rw [sliceX_length])] at this
  rw [Function.comp_apply, ← Except.ok.inj this]

/-- Adopting the payload of a member that knows the commitments. -/
theorem prepareAdopt_honest (codec : PointCodec G1) (pp : Pairing Fr G1 G2 GT) (t : Fr) (b : ℕ → ℕ → Fr) (p o : Party G1 G2)
    (ho : KnowsComs pp t b o) (hoF : o.F = p.F) (hF : p.F ≤ 2 ^ 20) :
    ∃ pi, prepareAdopt codec p (prepareSend codec o) = .ok { p with proof := pi } ∧ KnowsComs pp t b { p with proof := pi } := by
  have hu : unmarshalD (⟨[]⟩ : PPrepare) (prepareSend codec o) = ⟨[] :: (oneTo (2 * p.F + 1)).map fun k : ℕ =>
      codec.enc (polyVal (sliceX b p.F (2 * p.F) (k : Fr)) t • pp.g1)⟩ := by
    have hs := size_prepare codec o (by omega)
    rw [prepareSend_eq codec pp t b o ho, hoF] at hs ⊢
    rw [unmarshalD, rt_PPrepare _ hs]
    rfl
  refine ⟨{ p.proof with contents := p.proof.contents.getD 0 (PiContent.zero 0) :: (oneTo (2 * p.F + 1)).map fun k : ℕ =>
    { (p.proof.contents.getD k (PiContent.zero k)) with CBj := polyVal (sliceX b p.F (2 * p.F) (k : Fr)) t • pp.g1 } }, ?_, ?_⟩
  · unfold prepareAdopt
    rw [hu]
    simp only
    rw [mapM_ok _ (fun k : ℕ => { (p.proof.contents.getD k (PiContent.zero k)) with
      CBj := polyVal (sliceX b p.F (2 * p.F) (k : Fr)) t • pp.g1 })]
    · rfl
    · intro k hk
      rw [mem_oneTo] at hk
      rw [cons_oneTo_idx _ _ _ _ hk.1 hk.2, Go.ok_bind, decode!_enc, Go.ok_bind]
      rfl
  · intro k h1 (h2 : k ≤ 2 * p.F + 1)
    simp only
    rw [cons_oneTo_getD _ _ _ _ _ h1 h2, commitToPoly_ok pp t _ _ (by rw [sliceX_length])]

/-- The loop of `PrepareReceive` with its counters. -/
theorem prepare_run (codec : PointCodec G1) (sha : Bytes → Bytes) (p : Party G1 G2) (rest pre : List (UInt32 × Bytes)) (count : Bytes → ℕ)
    (hcount : ∀ h, count h = (pre.filter fun m => sha m.2 = h).length) (hshort : ∀ h, count h ≤ p.F) :
    (prepareReceive codec sha p count (rest.map Prod.snd) = .ok none ∧
      ∀ h, ((pre ++ rest).filter fun m => sha m.2 = h).length ≤ p.F) ∨
    (∃ l m r, pre ++ rest = l ++ m :: r ∧ p.F + 1 = ((l ++ [m]).filter fun m' => sha m'.2 = sha m.2).length ∧
      prepareReceive codec sha p count (rest.map Prod.snd) = (prepareAdopt codec p m.2).map some) := by
  induction rest generalizing pre count with
  | nil =>
    left
    refine ⟨rfl, fun h => ?_⟩
    rw [List.append_nil, ← hcount]; exact hshort h
  | cons m rest ih =>
    have hone : ((pre ++ [m]).filter fun m' => sha m'.2 = sha m.2).length = count (sha m.2) + 1 := by
      rw [List.filter_append, List.length_append, ← hcount]; simp
    by_cases hc : count (sha m.2) + 1 = p.F + 1
    · right
      refine ⟨pre, m, rest, rfl, by omega, ?_⟩
      rw [List.map_cons, prepareReceive, if_pos hc]
      cases prepareAdopt codec p m.2 <;> rfl
    · rw [List.map_cons, prepareReceive, if_neg hc]
      have := ih (pre ++ [m]) (fun h' => if h' = sha m.2 then count (sha m.2) + 1 else count h') (by
        intro h
        split
        · rename_i h1; rw [h1, hone]
        · rename_i h1
          rw [List.filter_append, List.length_append, ← hcount]
          have : sha m.2 ≠ h := fun h2 => h1 h2.symm
          simp [this]) (by
        intro h
        split
        · have := hshort (sha m.2); omega
        · exact hshort h)
      rw [List.append_assoc, List.singleton_append] at this
      exact this

/-- **C23 (safety).** With at most `F` corrupted senders, one message per sender and in any order, the payload a new member adopts
is the one of an uncorrupted sender — or two of the payloads are different and have the same SHA-256 hash. -/
theorem C23_adopts_honest (codec : PointCodec G1) (sha : Bytes → Bytes) (p p' : Party G1 G2) (corrupt : Finset UInt32)
    (hcor : corrupt.card ≤ p.F) (msgs : List (UInt32 × Bytes)) (hnd : (msgs.map Prod.fst).Nodup)
    (h : prepareReceive codec sha p (fun _ => 0) (msgs.map Prod.snd) = .ok (some p')) :
    (∃ m ∈ msgs, m.1 ∉ corrupt ∧ prepareAdopt codec p m.2 = .ok p') ∨
    (∃ m ∈ msgs, ∃ m' ∈ msgs, m.2 ≠ m'.2 ∧ sha m.2 = sha m'.2) := by
  rcases prepare_run codec sha p msgs [] (fun _ => 0) (by simp) (by simp) with ⟨h1, -⟩ | ⟨l, m, r, h1, h2, h3⟩
  · rw [h1] at h; cases h
  rw [List.nil_append] at h1
  rw [h3] at h
  have hsub : (l ++ [m]).Sublist msgs := by
    rw [h1, show l ++ m :: r = (l ++ [m]) ++ r by simp]
    exact List.sublist_append_left _ _
  have hadopt : prepareAdopt codec p m.2 = .ok p' := by
    cases ha : prepareAdopt codec p m.2 with
    | error e => rw [ha] at h; cases h
    | ok q => rw [ha] at h; cases h; rfl
  have hex : ∃ m' ∈ (l ++ [m]).filter fun m' => sha m'.2 = sha m.2, m'.1 ∉ corrupt := by
    by_contra hcon
    push Not at hcon
    have hnd' : (((l ++ [m]).filter fun m' => sha m'.2 = sha m.2).map Prod.fst).Nodup :=
      hnd.sublist ((List.filter_sublist.trans hsub).map _)
    have hs : (((l ++ [m]).filter fun m' => sha m'.2 = sha m.2).map Prod.fst).toFinset ⊆ corrupt := by
      intro x hx
      rw [List.mem_toFinset] at hx
      obtain ⟨m', hm', rfl⟩ := List.mem_map.1 hx
      exact hcon m' hm'
    have := Finset.card_le_card hs
    rw [List.toFinset_card_of_nodup hnd', List.length_map] at this
    omega
  obtain ⟨m', hm', hc⟩ := hex
  rw [List.mem_filter] at hm'
  have hmem : m' ∈ msgs := hsub.subset hm'.1
  have hmm : m ∈ msgs := hsub.subset (by simp)
  have hsha : sha m'.2 = sha m.2 := by simpa using hm'.2
  by_cases he : m'.2 = m.2
  · left; exact ⟨m', hmem, hc, by rw [he]; exact hadopt⟩
  · right; exact ⟨m', hmem, m, hmm, he, hsha⟩

/-- **C23.** If the uncorrupted senders know the commitments to the slices of `B` and at least `F+1` of their Prepare messages
arrive, then the new member obtains exactly these commitments, changing nothing else — or a SHA-256 collision is exhibited. -/
theorem C23_prepare (codec : PointCodec G1) (sha : Bytes → Bytes) (pp : Pairing Fr G1 G2 GT) (t : Fr) (b : ℕ → ℕ → Fr) (p : Party G1 G2)
    (hF : p.F ≤ 2 ^ 20) (corrupt : Finset UInt32) (hcor : corrupt.card ≤ p.F) (msgs : List (UInt32 × Bytes))
    (hnd : (msgs.map Prod.fst).Nodup)
    (hhon : ∀ m ∈ msgs, m.1 ∉ corrupt → ∃ o : Party G1 G2, o.F = p.F ∧ KnowsComs pp t b o ∧ m.2 = prepareSend codec o)
    (henough : p.F + 1 ≤ (msgs.filter fun m => m.1 ∉ corrupt).length) :
    (∃ pi, prepareReceive codec sha p (fun _ => 0) (msgs.map Prod.snd) = .ok (some { p with proof := pi }) ∧
      KnowsComs pp t b { p with proof := pi }) ∨
    (∃ m ∈ msgs, ∃ m' ∈ msgs, m.2 ≠ m'.2 ∧ sha m.2 = sha m'.2) := by
  by_cases hcoll : ∃ m ∈ msgs, ∃ m' ∈ msgs, m.2 ≠ m'.2 ∧ sha m.2 = sha m'.2
  · exact Or.inr hcoll
  left
  -- all uncorrupted payloads are equal
  have hne : (msgs.filter fun m => m.1 ∉ corrupt) ≠ [] := by
    intro h; rw [h] at henough; simp at henough
  obtain ⟨m0, hm0⟩ := List.exists_mem_of_ne_nil _ hne
  rw [List.mem_filter] at hm0
  have hm0c : m0.1 ∉ corrupt := by simpa using hm0.2
  obtain ⟨o, ho1, ho2, ho3⟩ := hhon m0 hm0.1 hm0c
  have hall : ∀ m ∈ msgs, m.1 ∉ corrupt → m.2 = m0.2 := by
    intro m hm hc
    obtain ⟨o', h1, h2, h3⟩ := hhon m hm hc
    rw [h3, ho3, prepareSend_eq codec pp t b o' h2, prepareSend_eq codec pp t b o ho2, h1, ho1]
  rcases prepare_run codec sha p msgs [] (fun _ => 0) (by simp) (by simp) with ⟨-, h2⟩ | ⟨l, m, r, h1, h2, h3⟩
  · exfalso
    have := h2 (sha m0.2)
    rw [List.nil_append] at this
    have hle : (msgs.filter fun m => m.1 ∉ corrupt).length ≤ (msgs.filter fun m => sha m.2 = sha m0.2).length := by
      rw [← List.countP_eq_length_filter, ← List.countP_eq_length_filter]
      apply List.countP_mono_left
      intro m hm hc
      rw [hall m hm (by simpa using hc)]
      simp
    omega
  · rw [List.nil_append] at h1
    obtain ⟨pi, hp1, hp2⟩ := prepareAdopt_honest codec pp t b p o ho2 ho1 hF
    refine ⟨pi, ?_, hp2⟩
    -- the adopted payload has the hash of an uncorrupted one
    have hmm : m ∈ msgs := by rw [h1]; simp
    have hsub : (l ++ [m]).Sublist msgs := by
      rw [h1, show l ++ m :: r = (l ++ [m]) ++ r by simp]
      exact List.sublist_append_left _ _
    have hex : ∃ m' ∈ (l ++ [m]).filter fun m' => sha m'.2 = sha m.2, m'.1 ∉ corrupt := by
      by_contra hcon
      push Not at hcon
      have hnd' : (((l ++ [m]).filter fun m' => sha m'.2 = sha m.2).map Prod.fst).Nodup :=
        hnd.sublist ((List.filter_sublist.trans hsub).map _)
      have hs : (((l ++ [m]).filter fun m' => sha m'.2 = sha m.2).map Prod.fst).toFinset ⊆ corrupt := by
        intro x hx
        rw [List.mem_toFinset] at hx
        obtain ⟨m', hm', rfl⟩ := List.mem_map.1 hx
        exact hcon m' hm'
      have := Finset.card_le_card hs
      rw [List.toFinset_card_of_nodup hnd', List.length_map] at this
      omega
    obtain ⟨m', hm', hc⟩ := hex
    rw [List.mem_filter] at hm'
    have hmem : m' ∈ msgs := hsub.subset hm'.1
    have hsha : sha m'.2 = sha m.2 := by simpa using hm'.2
    have heq : m.2 = m0.2 := by
      by_contra hne
      apply hcoll
      refine ⟨m', hmem, m, hmm, ?_, hsha⟩
      rw [hall m' hmem hc]; exact fun h => hne h.symm
    rw [h3, heq, ho3, hp1]
    rfl

/-- **C24 fails for Prepare.** Senders are not counted: `F+1` copies of one message, whatever commitments it contains, are adopted
at once, whatever arrives later. -/
theorem C24_prepare_single_sender (codec : PointCodec G1) (sha : Bytes → Bytes) (p p' : Party G1 G2) (sender : UInt32) (data : Bytes)
    (h : prepareAdopt codec p data = .ok p') (rest : List (UInt32 × Bytes)) :
    prepareReceive codec sha p (fun _ => 0) ((List.replicate (p.F + 1) (sender, data) ++ rest).map Prod.snd) = .ok (some p') := by
  have key : ∀ n k : ℕ, ∀ count : Bytes → ℕ, count (sha data) = k → k + n = p.F + 1 → k ≤ p.F →
      prepareReceive codec sha p count ((List.replicate n (sender, data) ++ rest).map Prod.snd) = .ok (some p') := by
    intro n
    induction n with
    | zero => intro k count _ h1 h2; omega
    | succ n ih =>
      intro k count hk h1 h2
      rw [List.replicate_succ, List.cons_append, List.map_cons, prepareReceive]
      simp only
      rw [hk]
      by_cases hc : k + 1 = p.F + 1
      · rw [if_pos hc, h]; rfl
      · rw [if_neg hc]
        exact ih (k + 1) _ (by simp) (by omega) (by omega)
  exact key (p.F + 1) 0 _ rfl (by omega) (by omega)

/-- The commitments adopted this way are arbitrary: for all points `c 1, …, c (2F+1)` some payload installs them. -/
theorem C24_prepare_arbitrary (codec : PointCodec G1) (p : Party G1 G2) (hF : p.F ≤ 2 ^ 20) (c : ℕ → G1) :
    ∃ data p', prepareAdopt codec p data = .ok p' ∧
      ∀ k, 1 ≤ k → k ≤ 2 * p.F + 1 → (p'.proof.contents.getD k (PiContent.zero k)).CBj = c k := by
  set o : Party G1 G2 := { p with proof := ⟨0, PiContent.zero 0 :: (oneTo (2 * p.F + 1)).map fun k => ⟨k, c k, 0, 0, 0⟩⟩ } with ho
  have hu : unmarshalD (⟨[]⟩ : PPrepare) (prepareSend codec o) = ⟨[] :: (oneTo (2 * p.F + 1)).map fun k => codec.enc (c k)⟩ := by
    have hs := size_prepare codec o hF
    have : prepareSend codec o = marshal (⟨[] :: (oneTo (2 * p.F + 1)).map fun k => codec.enc (c k)⟩ : PPrepare) := by
      rw [prepareSend, Party.coms, List.map_map]
      congr 3
      apply List.map_congr_left
      intro k hk
      rw [mem_oneTo] at hk
      rw [Function.comp_apply]
      congr 1
      show (List.getD (PiContent.zero 0 :: (oneTo (2 * p.F + 1)).map fun k => (⟨k, c k, 0, 0, 0⟩ : PiContent G1)) k (PiContent.zero k)).CBj = _
      rw [cons_oneTo_getD _ _ _ _ _ hk.1 hk.2]
    rw [this] at hs ⊢
    rw [unmarshalD, rt_PPrepare _ hs]
    rfl
  set cs : List (PiContent G1) := p.proof.contents.getD 0 (PiContent.zero 0) ::
    (oneTo (2 * p.F + 1)).map fun k => { (p.proof.contents.getD k (PiContent.zero k)) with CBj := c k } with hcs
  refine ⟨prepareSend codec o, { p with proof := { p.proof with contents := cs } }, ?_, ?_⟩
  · unfold prepareAdopt
    rw [hu]
    simp only
    rw [mapM_ok _ (fun k => { (p.proof.contents.getD k (PiContent.zero k)) with CBj := c k })]
    · rfl
    · intro k hk
      rw [mem_oneTo] at hk
      rw [cons_oneTo_idx _ _ _ _ hk.1 hk.2, Go.ok_bind, decode!_enc, Go.ok_bind]
      rfl
  · intro k h1 h2
    simp only [hcs]
    rw [cons_oneTo_getD _ _ _ _ _ h1 h2]

/-- **C24, the part that holds.** When every sender is heard once, a single corrupted sender decides neither phase: the other
members' Prepare payload is adopted (or a hash collision exhibited) and ShareReduce returns. -/
theorem C24_one_message_each_partial (codec : PointCodec G1) (sha : Bytes → Bytes) (pp : Pairing Fr G1 G2 GT) (t : Fr) (b : ℕ → ℕ → Fr)
    (p : Party G1 G2) (hp : p.Setup pp t) (hF : 1 ≤ p.F) (a : UInt32) (prep red : List (UInt32 × Bytes))
    (hnd : (prep.map Prod.fst).Nodup) (hnd' : (red.map Prod.fst).Nodup)
    (hhon : ∀ m ∈ red, m.1 ≠ a → HonestSR codec pp t b p.F (m.1 + 1).toNat (p.pid + 1) m.2)
    (hdec : ∀ m ∈ red, SRDecodable codec m.2) (henough : p.F + 1 ≤ (red.filter fun m => m.1 ≠ a).length) :
    (∀ p', prepareReceive codec sha p (fun _ => 0) (prep.map Prod.snd) = .ok (some p') →
      (∃ m ∈ prep, m.1 ≠ a ∧ prepareAdopt codec p m.2 = .ok p') ∨ (∃ m ∈ prep, ∃ m' ∈ prep, m.2 ≠ m'.2 ∧ sha m.2 = sha m'.2)) ∧
    ∃ p', shareReduceReceive codec pp p SRState.init red = .ok (some p') := by
  refine ⟨fun p' h => ?_, ?_⟩
  · have := C23_adopts_honest codec sha p p' {a} (by simpa using hF) prep hnd h
    simpa using this
  · apply C25_terminates codec pp t b p hp hF {a} (by simpa using hF) red hnd' (by simpa using hhon) hdec
    simpa using henough

/-- **C25, end to end.** After an honest sharing of `s`, let any `F+1` or more holders run `ShareReduceSend`; then every member `j` of
the next committee that reads these messages in any order obtains `B(·,j)` for one `B` with `B(0,0) = s`. -/
theorem C25_end_to_end (codec : PointCodec G1) (pp : Pairing Fr G1 G2 GT) (t : Fr) (N F : ℕ) (s : Fr) (c : DealerCoins)
    (hF : 1 ≤ F) (hF' : F ≤ 2 ^ 20) (hN : 3 * F + 1 ≤ N) (hr : N < 2 ^ 32) :
    ∃ (b : ℕ → ℕ → Fr) (outs : ℕ → List Bytes), biVal b F (2 * F) 0 0 = s ∧
      (∀ i < N, ∃ msgs p q, clientShare codec pp (newKZG pp t (F + 1)) N F s c = .ok msgs ∧ newParty pp t N F i = .ok p ∧
        vssShareReceive codec pp p (msgs.getD i []) = .ok (q, true) ∧ shareReduceSend codec q = .ok (outs i)) ∧
      ∀ ids : List ℕ, ids.Nodup → F + 1 ≤ ids.length → (∀ i ∈ ids, i < N) → ∀ j < N, ∃ p, newParty pp t N F j = .ok p ∧
        shareReduceReceive codec pp p SRState.init (ids.map fun i => (UInt32.ofNat i, (outs i).getD j [])) =
          .ok (some { p with reducedShare := sliceX b F (2 * F) ((j + 1 : ℕ) : Fr) }) := by
  have hr' : N < frModulus := lt_trans hr (by decide +kernel)
  obtain ⟨msgs, hm, -, b, q, hb, hq, -⟩ := C18_honest_sharing codec pp t N F s c hF hF' hN hr'
  have key : ∀ i, ∃ out, i < N → shareReduceSend codec (q i) = .ok out ∧
      ∀ j < N, HonestSR codec pp t b F (i + 1) (j + 1) (out.getD j []) := by
    intro i
    by_cases hi : i < N
    swap
    · exact ⟨[], fun h => absurd h hi⟩
    obtain ⟨h1, h2, h3, h4, h5, -⟩ := hq i hi
    obtain ⟨out, k1, -, k3⟩ := C25_send codec pp t b (q i) h4 h5 (by omega) (by omega)
    refine ⟨out, fun _ => ⟨k1, fun j hj => ?_⟩⟩
    have := k3 j (by omega)
    rwa [h1, h2] at this
  choose outs houts using key
  refine ⟨b, outs, hb, ?_, ?_⟩
  · intro i hi
    obtain ⟨h1, h2, h3, h4, h5, p, h6, h7⟩ := hq i hi
    exact ⟨msgs, p, q i, hm, h6, h7, (houts i hi).1⟩
  intro ids hnd hlen hlt j hj
  obtain ⟨p, hp1, hp2, hp3, hp4, hp5⟩ := newParty_setup pp t N F j
  refine ⟨p, hp1, ?_⟩
  set ms : List (UInt32 × Bytes) := ids.map fun i => (UInt32.ofNat i, (outs i).getD j []) with hms
  have hto : ∀ i ∈ ids, (UInt32.ofNat i).toNat = i := by
    intro i hi
    have := hlt i hi
    rw [UInt32.toNat_ofNat', Nat.mod_eq_of_lt (by omega)]
  have hnd' : (ms.map Prod.fst).Nodup := by
    have : ((ms.map Prod.fst).map UInt32.toNat) = ids := by
      rw [List.map_map, hms, List.map_map]
      conv_rhs => rw [← List.map_id ids]
      exact List.map_congr_left hto
    exact (this ▸ hnd : ((ms.map Prod.fst).map UInt32.toNat).Nodup).of_map
  have hhon : ∀ m ∈ ms, m.1 ∉ (∅ : Finset UInt32) → HonestSR codec pp t b p.F (m.1 + 1).toNat (p.pid + 1) m.2 := by
    intro m hm _
    obtain ⟨i, hi, rfl⟩ := List.mem_map.1 hm
    have : (UInt32.ofNat i + 1).toNat = i + 1 := by
      have h2 := hlt i hi
      rw [UInt32.toNat_add, hto i hi]
      simp
      omega
    simp only
    rw [this, hp4, hp5]
    exact (houts i (hlt i hi)).2 j hj
  have hdec : ∀ m ∈ ms, SRDecodable codec m.2 := by
    intro m hm
    have hh := srMsg_honest _ _ _ _ _ _ _ _ (hhon m hm (by simp))
    unfold SRDecodable
    rw [hh]
    exact ⟨⟨_, codec.dec_enc _⟩, ⟨_, codec.dec_enc _⟩⟩
  obtain ⟨p', hp'⟩ := C25_terminates codec pp t b p hp2 (by omega) ∅ (by simp) ms hnd' hhon hdec (by
    rw [List.filter_eq_self.2 (by simp), hms, hp4]; simpa using hlen)
  rcases C25_receive codec pp t b p hp2 (by omega) ∅ (by simp) ms hnd' hhon (fun _ => 0) (by simp) p' hp' with h | h
  · rw [hp', h, hp4, hp5]
  · obtain ⟨m, _, h, _⟩ := h; simp at h

/-! ### Concrete cases -/

/-- `F = 1`, `N = 4`: messages of parties 3 and 1, in this order, to party 2. -/
example : ∃ (b : ℕ → ℕ → Fr) (outs : ℕ → List Bytes) (p : Party Fr Fr), biVal b 1 2 0 0 = 42 ∧
    shareReduceReceive frCodec (Pairing.dlog Fr) p SRState.init [(3, (outs 3).getD 2 []), (1, (outs 1).getD 2 [])] =
      .ok (some { p with reducedShare := sliceX b 1 2 3 }) := by
  obtain ⟨b, outs, h1, -, h3⟩ := C25_end_to_end frCodec (Pairing.dlog Fr) 7 4 1 42 ⟨fun i => i, fun k j => k + j⟩ le_rfl
    (by norm_num) (by norm_num) (by norm_num)
  obtain ⟨p, -, h4⟩ := h3 [3, 1] (by decide) (by decide) (by decide) 2 (by norm_num)
  exact ⟨b, outs, p, h1, h4⟩

/-- A lone attacker installs the share `5 + 6x` at member 2 of a committee of four. -/
example : ∃ (p : Party Fr Fr) (forged : List (UInt32 × Bytes)), newParty (Pairing.dlog Fr) 7 4 1 2 = .ok p ∧
    shareReduceReceive frCodec (Pairing.dlog Fr) p SRState.init forged = .ok (some { p with reducedShare := [5, 6] }) := by
  obtain ⟨p, h1, h2, h3, h4, h5⟩ := newParty_setup (Pairing.dlog Fr) 7 4 1 2
  obtain ⟨forged, -, h⟩ := C54_spoofed_senders frCodec (Pairing.dlog Fr) 7 p h2 (by omega) (by omega) [5, 6] (by rw [h4]; rfl)
  refine ⟨p, forged, h1, ?_⟩
  have := h []
  rwa [List.append_nil] at this

/-- Two copies of a message with commitments 10, 20, 30 are adopted by a member of a committee with `F = 1`. -/
example : ∃ (p p' : Party Fr Fr) (data : Bytes), newParty (Pairing.dlog Fr) 7 4 1 2 = .ok p ∧
    prepareReceive frCodec (fun b => b) p (fun _ => 0) [data, data] = .ok (some p') ∧
    (p'.proof.contents.getD 2 (PiContent.zero 2)).CBj = 20 := by
  obtain ⟨p, h1, h2, h3, h4, h5⟩ := newParty_setup (Pairing.dlog Fr) 7 4 1 2
  obtain ⟨data, p', k1, k2⟩ := C24_prepare_arbitrary frCodec p (by rw [h4]; norm_num) (fun k => 10 * (k : Fr))
  refine ⟨p, p', data, h1, ?_, ?_⟩
  · have := C24_prepare_single_sender frCodec (fun b => b) p p' 0 data k1 []
    rw [h4] at this
    exact this
  · rw [k2 2 (by norm_num) (by omega)]; norm_num

end

end DyCAPS
