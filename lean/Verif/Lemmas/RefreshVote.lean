import Verif.Lemmas.ProactWait
import Verif.Props.ShareDist

/-! A party of a refresh in which only messages of members that follow the protocol arrive: Verify and Vote. -/

set_option linter.unusedSectionVars false

namespace DyCAPS

section
variable {G1 G2 GT : Type} [AddCommGroup G1] [Module Fr G1] [AddCommGroup G2] [Module Fr G2] [AddCommGroup GT] [Module Fr GT]
variable [DecidableEq G1] [DecidableEq GT]

/-- The state of a party before the refresh. -/
structure Seat (pp : Pairing Fr G1 G2 GT) (t : Fr) (b : ℕ → ℕ → Fr) (p0 : Party G1 G2) : Prop where
  setup : p0.Setup pp t
  F1 : 1 ≤ p0.F
  F2 : p0.F ≤ 2 ^ 20
  N1 : 3 * p0.F + 1 ≤ p0.N
  N2 : p0.N < 2 ^ 32
  pid : p0.pid < p0.N
  coms : KnowsComs pp t b p0
  red : p0.reducedShare = sliceX b p0.F (2 * p0.F) ((p0.pid + 1 : ℕ) : Fr)

/-- The members and their contributions: `q (h+1)` is the polynomial of member `h`. -/
structure Gives (p0 : Party G1 G2) (H : Finset ℕ) (coins : ℕ → DealerCoins) (q : ℕ → ℕ → ℕ → Fr) : Prop where
  lt : ∀ h ∈ H, h < p0.N
  slices : ∀ h ∈ H, ∀ k, 1 ≤ k → k ≤ 2 * p0.F + 1 → sliceX (q (h + 1)) p0.F (2 * p0.F) (k : Fr) = ownQ p0.F (coins h) k

/-- The Recover message about member `k` that a party with number `h` sends to the party with index `l`. -/
def recMsg (codec : PointCodec G1) (pp : Pairing Fr G1 G2 GT) (t : Fr) (F : ℕ) (q : ℕ → ℕ → ℕ → Fr) (sgn : ℕ → Bytes → Bytes) (h k l : ℕ) : PRecover :=
  ⟨UInt32.ofNat (k + 1), frTo32 (polyVal (sliceX (q (k + 1)) F (2 * F) (l : Fr)) ((h + 1 : ℕ) : Fr)),
    codec.enc (quotVal (sliceX (q (k + 1)) F (2 * F) (l : Fr)) ((h + 1 : ℕ) : Fr) t • pp.g1), sgn h (decimalBytes (k + 1))⟩

/-- What the receiver reads from it. -/
def recDec (pp : Pairing Fr G1 G2 GT) (t : Fr) (F : ℕ) (q : ℕ → ℕ → ℕ → Fr) (sgn : ℕ → Bytes → Bytes) (h k l : ℕ) : RecoverMsg G1 :=
  ⟨h + 1, k + 1, polyVal (sliceX (q (k + 1)) F (2 * F) (l : Fr)) ((h + 1 : ℕ) : Fr),
    quotVal (sliceX (q (k + 1)) F (2 * F) (l : Fr)) ((h + 1 : ℕ) : Fr) t • pp.g1, sgn h (decimalBytes (k + 1))⟩

/-- The Commit and Reshare messages that arrive are those of members. -/
structure Env1 (codec : PointCodec G1) (pp : Pairing Fr G1 G2 GT) (t : Fr) (p0 : Party G1 G2) (H : Finset ℕ) (coins : ℕ → DealerCoins) (evs : List PEvent) : Prop where
  commit : ∀ j data, PEvent.commit j data ∈ evs → ∃ h ∈ H, j = h + 1 ∧
    ∃ m, commitMsg codec pp (newKZG pp t (p0.F + 1)) p0.F (coins h) = .ok m ∧ data = some (marshal m)
  reshare : ∀ s d, PEvent.reshare s d ∈ evs → ∃ h ∈ H, s = UInt32.ofNat h ∧
    ∃ m, reshareMsg codec (newKZG pp t (p0.F + 1)) p0.F (coins h) (p0.pid + 1) = .ok m ∧ d = marshal m

variable {codec : PointCodec G1} {pp : Pairing Fr G1 G2 GT} {t : Fr} {tb : Tbls} {p0 : Party G1 G2} {b : ℕ → ℕ → Fr} {q : ℕ → ℕ → ℕ → Fr}
  {H : Finset ℕ} {coins : ℕ → DealerCoins} {c : DealerCoins}

theorem Env1.mono {evs evs' : List PEvent} (h : Env1 codec pp t p0 H coins evs') (hs : ∀ e ∈ evs, e ∈ evs') : Env1 codec pp t p0 H coins evs :=
  ⟨fun j d hm => h.commit j d (hs _ hm), fun s d hm => h.reshare s d (hs _ hm)⟩

theorem Seat.r (hS : Seat pp t b p0) : 2 * p0.F + 1 < frModulus :=
  lt_trans (by have := hS.N1; have := hS.N2; omega : 2 * p0.F + 1 < 2 ^ 32) (by decide +kernel)

theorem ofNat_succ_toNat {h : ℕ} (hh : h + 1 < 2 ^ 32) : (UInt32.ofNat h + 1).toNat = h + 1 := by
  have := sender_index (h + 1) (by omega) hh
  rwa [Nat.add_sub_cancel] at this

/-- The parts of the party that never change. -/
structure Same (p0 p : Party G1 G2) : Prop where
  N : p.N = p0.N
  F : p.F = p0.F
  pid : p.pid = p0.pid
  kzg : p.kzg = p0.kzg
  table : p.table = p0.table
  proof : p.proof = p0.proof
  eq : p = { p0 with reducedShare := p.reducedShare, fullShare := p.fullShare }

theorem PRun.same {evs : List PEvent} {outs : List POut} {p : Party G1 G2} {st : PState G1}
    (h : PRun codec pp tb p0 (PState.init p0 c) evs outs p st) : Same p0 p := by
  have := h.static
  refine ⟨?_, ?_, ?_, ?_, ?_, ?_, this⟩ <;> rw [this]

theorem Same.setup {p0 p : Party G1 G2} (h : Same p0 p) (hp : p0.Setup pp t) : p.Setup pp t := by
  rw [h.eq]; exact ⟨hp.kzg, hp.table⟩

/-- An honest Commit message is accepted. -/
theorem Same.commit {p : Party G1 G2} (hS : Seat pp t b p0) (hG : Gives p0 H coins q) (hsame : Same p0 p) {h : ℕ} (hh : h ∈ H) {m : PCommit}
    (hm : commitMsg codec pp (newKZG pp t (p0.F + 1)) p0.F (coins h) = .ok m) (row : ℕ → G1) :
    ∃ row', verifyCommit codec pp p row (unmarshalD (⟨[]⟩ : PCommit) (marshal m)) = .ok (row', true) ∧ CommitsTo pp t p0.F p0.N (q (h + 1)) row' := by
  have h1 := (honest_commit_for codec pp t p0 hS.setup hS.F1 hS.F2 hS.N1 hS.r (coins h) (q (h + 1)) (hG.slices h hh) m hm).2 row
  rw [hsame.eq, verifyCommit_static]
  exact h1

/-- Verify: the accepted commitments. -/
structure ComInv (pp : Pairing Fr G1 G2 GT) (t : Fr) (p0 : Party G1 G2) (H : Finset ℕ) (q : ℕ → ℕ → ℕ → Fr) (st : PState G1) : Prop where
  done : ∀ j, st.comDone j = true → st.flgCom j = true
  flg : ∀ j, st.flgCom j = true → st.comDone j = true ∧ (∃ h ∈ H, j = h + 1) ∧ CommitsTo pp t p0.F p0.N (q j) (st.CQ j)
  rec_ : ∀ j, st.flgRec j = true → st.flgCom j = true
  held : ∀ k m, st.held k = some m → m.k = k ∧ st.flgCom k = true

theorem PRun.comInv (hS : Seat pp t b p0) (hG : Gives p0 H coins q) {evs : List PEvent} {outs : List POut} {p : Party G1 G2} {st : PState G1}
    (hrun : PRun codec pp tb p0 (PState.init p0 c) evs outs p st) (henv : Env1 codec pp t p0 H coins evs) : ComInv pp t p0 H q st := by
  induction hrun with
  | nil =>
    exact ⟨fun j h => by simp [PState.init] at h, fun j h => by simp [PState.init] at h, fun j h => by simp [PState.init] at h,
      fun j m h => by simp [PState.init] at h⟩
  | snoc hr hs ih =>
    rename_i evs1 outs1 p1 st1 ev p' st' out
    have ih := ih (henv.mono fun e he => List.mem_append_left _ he)
    have hsame := hr.same
    have hE := step_effect hs
    cases hE with
    | commit h1 h2 h3 hv =>
      rename_i j d row ok
      obtain ⟨h, hh, rfl, m, hm, hd⟩ := henv.commit j _ (List.mem_append_right _ (List.mem_singleton.2 rfl))
      cases hd
      obtain ⟨row', e1, e2⟩ := hsame.commit hS hG hh hm (st1.CQ (h + 1))
      rw [hv] at e1
      cases e1
      have hmono : ∀ j, st1.flgCom j = true → upd st1.flgCom (h + 1) true j = true := by
        intro j hj; unfold upd; split <;> simp_all
      refine ⟨fun j hj => ?_, fun j hj => ?_, fun j hj => hmono _ (ih.rec_ j hj), fun k m hk => ⟨(ih.held k m hk).1, hmono _ (ih.held k m hk).2⟩⟩
      · by_cases hjh : j = h + 1
        · subst hjh; simp
        · simp only [upd_ne _ _ hjh] at hj ⊢; exact ih.done j hj
      · by_cases hjh : j = h + 1
        · subst hjh; exact ⟨by simp, ⟨h, hh, rfl⟩, by simpa using e2⟩
        · simp only [upd_ne _ _ hjh] at hj ⊢; exact ih.flg j hj
    | reshare h1 h2 hv => exact ⟨ih.done, ih.flg, ih.rec_, ih.held⟩
    | resharePark => exact ⟨ih.done, ih.flg, ih.rec_, ih.held⟩
    | refreshPark => exact ⟨ih.done, ih.flg, ih.rec_, ih.held⟩
    | distPark => exact ⟨ih.done, ih.flg, ih.rec_, ih.held⟩
    | take h1 hv => exact ⟨ih.done, ih.flg, ih.rec_, ih.held⟩
    | pass h h1 h2 h3 h4 h5 =>
      rename_i m
      refine ⟨ih.done, ih.flg, ih.rec_, fun k m' hk => ?_⟩
      by_cases hkm : k = m.k
      · subst hkm
        simp only [upd_same] at hk
        cases hk
        exact ⟨rfl, h3⟩
      · simp only [upd_ne _ _ hkm] at hk; exact ih.held k m' hk
    | handleBad h1 h2 h3 =>
      rename_i k m
      refine ⟨ih.done, ih.flg, ih.rec_, fun k' m' hk => ?_⟩
      by_cases hkm : k' = k
      · subst hkm; simp [endIteration] at hk
      · simp only [endIteration, upd_ne _ _ hkm] at hk; exact ih.held k' m' hk
    | handleOk h1 h2 h3 hQ h4 =>
      rename_i k m fr Q
      refine ⟨ih.done, ih.flg, fun j hj => ?_, fun k' m' hk => ?_⟩
      · rcases hQ with ⟨-, rfl, -⟩ | ⟨-, -, rfl, -⟩
        · exact ih.rec_ j hj
        · by_cases hjk : j = k
          · subst hjk; exact (ih.held j m h2).2
          · simp only [afterAccept, upd_ne _ _ hjk] at hj; exact ih.rec_ j hj
      · by_cases hkm : k' = k
        · subst hkm; simp [afterAccept] at hk
        · simp only [afterAccept, upd_ne _ _ hkm] at hk; exact ih.held k' m' hk
    | handleComb h1 h2 h3 hQ h4 h5 h6 =>
      rename_i k m fr Q
      refine ⟨ih.done, ih.flg, fun j hj => ?_, fun k' m' hk => ?_⟩
      · rcases hQ with ⟨-, rfl, -⟩ | ⟨-, -, rfl, -⟩
        · exact ih.rec_ j hj
        · by_cases hjk : j = k
          · subst hjk; exact (ih.held j m h2).2
          · simp only [afterAccept, upd_ne _ _ hjk] at hj; exact ih.rec_ j hj
      · by_cases hkm : k' = k
        · subst hkm; simp [afterAccept] at hk
        · simp only [afterAccept, upd_ne _ _ hkm] at hk; exact ih.held k' m' hk
    | handleCall h1 h2 h3 hQ h4 h5 h6 h7 =>
      rename_i k m fr Q
      refine ⟨ih.done, ih.flg, fun j hj => ?_, fun k' m' hk => ?_⟩
      · rcases hQ with ⟨-, rfl, -⟩ | ⟨-, -, rfl, -⟩
        · exact ih.rec_ j hj
        · by_cases hjk : j = k
          · subst hjk; exact (ih.held j m h2).2
          · simp only [afterAccept, upd_ne _ _ hjk] at hj; exact ih.rec_ j hj
      · by_cases hkm : k' = k
        · subst hkm; simp [afterAccept] at hk
        · simp only [afterAccept, upd_ne _ _ hkm] at hk; exact ih.held k' m' hk
    | mvba h1 => exact ⟨ih.done, ih.flg, ih.rec_, ih.held⟩
    | refreshCom h1 h2 h3 => exact ⟨ih.done, ih.flg, ih.rec_, ih.held⟩
    | refreshRec h1 h2 h3 h4 => exact absurd h4 (hr.not_waited hS.F1 h1 h3)
    | refreshEnd h1 h2 => exact ⟨ih.done, ih.flg, ih.rec_, ih.held⟩
    | newOk => exact ⟨ih.done, ih.flg, ih.rec_, ih.held⟩
    | newBad => exact ⟨ih.done, ih.flg, ih.rec_, ih.held⟩
    | distBad => exact ⟨ih.done, ih.flg, ih.rec_, ih.held⟩
    | distOk => exact ⟨ih.done, ih.flg, ih.rec_, ih.held⟩
    | distFull => exact ⟨ih.done, ih.flg, ih.rec_, ih.held⟩
    | success => exact ⟨ih.done, ih.flg, ih.rec_, ih.held⟩

/-- The Reshare message of a member and the answer to it. -/
theorem vote_answer (hS : Seat pp t b p0) (hG : Gives p0 H coins q) {p : Party G1 G2} (hsame : Same p0 p) {row : ℕ → G1} {h : ℕ} (hh : h ∈ H)
    (hrow : CommitsTo pp t p0.F p0.N (q (h + 1)) row) {m : PReshare}
    (hm : reshareMsg codec (newKZG pp t (p0.F + 1)) p0.F (coins h) (p0.pid + 1) = .ok m) :
    vote codec pp tb p row (h + 1) (unmarshalD (⟨[], []⟩ : PReshare) (marshal m)) = .ok
      ((oneTo p0.N).map fun l => .recover l (recMsg codec pp t p0.F q (fun _ => tb.sign) p0.pid h l)) := by
  have hr := hS.r
  have hlt := hG.lt h hh
  have hm' : reshareMsg codec (newKZG pp t (p0.F + 1)) p0.F (coins h) (p0.pid + 1) = .ok (reshareOf codec p0.F
      (fun k : ℕ => biVal (q (h + 1)) p0.F (2 * p0.F) ((p0.pid + 1 : ℕ) : Fr) (k : Fr))
      (fun k : ℕ => quotVal (sliceX (q (h + 1)) p0.F (2 * p0.F) (k : Fr)) ((p0.pid + 1 : ℕ) : Fr) t • pp.g1)) := by
    unfold reshareMsg
    rw [mapM_ok _ (fun k : ℕ => quotVal (sliceX (q (h + 1)) p0.F (2 * p0.F) (k : Fr)) ((p0.pid + 1 : ℕ) : Fr) t • pp.g1)]
    · rw [Go.ok_bind]
      unfold reshareOf
      rw [List.map_map]
      refine congrArg Except.ok (congrArg₂ PReshare.mk (List.map_congr_left fun k hk => ?_) rfl)
      rw [mem_oneTo] at hk
      rw [evalPolyAt_eq, ← hG.slices h hh k hk.1 hk.2, polyVal_sliceX]
    · intro k hk
      rw [mem_oneTo] at hk
      rw [← hG.slices h hh k hk.1 hk.2, computeProofSingle_ok pp t _ _ _ (ne_nil_of_length (sliceX_length _ _ _ _)) (by rw [sliceX_length]; omega)]
  rw [hm'] at hm
  have hm := Except.ok.inj hm
  subst hm
  have key := vote_of codec pp t tb p (hsame.setup hS.setup) (by rw [hsame.F]; exact hS.F1) row (h + 1)
    (fun k : ℕ => biVal (q (h + 1)) p0.F (2 * p0.F) ((p0.pid + 1 : ℕ) : Fr) (k : Fr))
      (fun k : ℕ => quotVal (sliceX (q (h + 1)) p0.F (2 * p0.F) (k : Fr)) ((p0.pid + 1 : ℕ) : Fr) t • pp.g1)
  rw [hsame.F, hsame.N, hsame.pid] at key
  have hlist : ((oneTo p0.N).map fun l => POut.recover l (recMsg codec pp t p0.F q (fun _ => tb.sign) p0.pid h l)) = (oneTo p0.N).map fun l =>
      POut.recover l ⟨UInt32.ofNat (h + 1), frTo32 (voteVal p0.F (fun k : ℕ => biVal (q (h + 1)) p0.F (2 * p0.F) ((p0.pid + 1 : ℕ) : Fr) (k : Fr)) l),
        codec.enc (voteWit p0.F (fun k : ℕ => quotVal (sliceX (q (h + 1)) p0.F (2 * p0.F) (k : Fr)) ((p0.pid + 1 : ℕ) : Fr) t • pp.g1) l), tb.sign (decimalBytes (h + 1))⟩ := by
    apply List.map_congr_left
    intro l hl
    unfold recMsg
    rw [voteVal_poly p0.F hr, voteWit_poly pp t p0.F hr, polyVal_sliceX]
  rw [unmarshalD, rt_PReshare _ (size_reshare codec p0.F hS.F2 _ _), Option.getD_some, hlist, key, if_pos]
  · have := (commitsTo_iff _ _ _ _ _ _).1 hrow (2 * p0.F + 1) (by omega) (by have := hS.N1; omega)
    rw [this, smul_smul, ← sub_smul, ← polyVal_sliceX, ← quotVal_mul, mul_comm]

theorem reshare_answer (hS : Seat pp t b p0) (hG : Gives p0 H coins q) {p : Party G1 G2} (hsame : Same p0 p) {st : PState G1} {h : ℕ} (hh : h ∈ H) (hfree : st.voters ≠ 0)
    (hcom : st.flgCom (h + 1) = true) (hrow : CommitsTo pp t p0.F p0.N (q (h + 1)) (st.CQ (h + 1))) {m : PReshare}
    (hm : reshareMsg codec (newKZG pp t (p0.F + 1)) p0.F (coins h) (p0.pid + 1) = .ok m) :
    proactStep codec pp tb p st (.reshare (UInt32.ofNat h) (marshal m)) = some (.ok (p, { st with voters := st.voters - 1 },
      (oneTo p0.N).map fun l => .recover l (recMsg codec pp t p0.F q (fun _ => tb.sign) p0.pid h l))) := by
  have hlt := hG.lt h hh
  have hN2 := hS.N2
  have hv := vote_answer (tb := tb) hS hG hsame hh hrow hm
  simp only [proactStep]
  rw [ofNat_succ_toNat (by omega), if_neg hfree, if_neg (by rw [hsame.N]; omega), if_pos hcom, hv]
  rfl

/-- A Reshare message that is handled is that of a member. -/
theorem VoteTake.src {N : ℕ} (hS : Seat pp t b p0) (hG : Gives p0 H coins q) {evs : List PEvent} {st : PState G1} {ev : PEvent} {j : ℕ} {d : Bytes} {n : ℕ} {W : List (ℕ × Bytes)} {T : ℕ → Bool}
    (hv : VoteTake N st ev j d n W T) (hq : QueueInv p0.N evs st) (henv : Env1 codec pp t p0 H coins (evs ++ [ev])) :
    ∃ h ∈ H, j = h + 1 ∧ ∃ m, reshareMsg codec (newKZG pp t (p0.F + 1)) p0.F (coins h) (p0.pid + 1) = .ok m ∧ d = marshal m := by
  have hN2 := hS.N2
  cases hv with
  | now h0 h1 =>
    obtain ⟨h, hh, rfl, m, hm, rfl⟩ := henv.reshare _ _ (List.mem_append_right _ (List.mem_singleton.2 rfl))
    have := hG.lt h hh
    exact ⟨h, hh, ofNat_succ_toNat (by omega), m, hm, rfl⟩
  | later h0 h1 =>
    obtain ⟨s, e, hev⟩ := hq.votes _ h0
    obtain ⟨h, hh, rfl, m, hm, hd⟩ := henv.reshare _ _ (List.mem_append_left _ hev)
    have := hG.lt h hh
    exact ⟨h, hh, by rw [← ofNat_succ_toNat (h := h) (by omega)]; exact e, m, hm, hd⟩

theorem ofNat_inj32 {h h' : ℕ} (h1 : h < 2 ^ 32) (h2 : h' < 2 ^ 32) (e : UInt32.ofNat h = UInt32.ofNat h') : h = h' := by
  have := congrArg UInt32.toNat e
  rwa [UInt32.toNat_ofNat', UInt32.toNat_ofNat', Nat.mod_eq_of_lt h1, Nat.mod_eq_of_lt h2] at this

/-- Vote: every Reshare message that has arrived waits or has been answered, and no other Recover message has been sent. -/
theorem PRun.votes (hS : Seat pp t b p0) (hG : Gives p0 H coins q) {evs : List PEvent} {outs : List POut} {p : Party G1 G2} {st : PState G1}
    (hrun : PRun codec pp tb p0 (PState.init p0 c) evs outs p st) (henv : Env1 codec pp t p0 H coins evs) :
    (∀ h ∈ H, (∃ d, PEvent.reshare (UInt32.ofNat h) d ∈ evs) → (∃ d, (h + 1, d) ∈ st.voteWait) ∨
      ∀ l, 1 ≤ l → l ≤ p0.N → POut.recover l (recMsg codec pp t p0.F q (fun _ => tb.sign) p0.pid h l) ∈ outs) ∧
    (∀ l m, POut.recover l m ∈ outs → 1 ≤ l ∧ l ≤ p0.N ∧ ∃ h ∈ H, m = recMsg codec pp t p0.F q (fun _ => tb.sign) p0.pid h l) := by
  induction hrun with
  | nil => exact ⟨fun h _ ⟨d, hd⟩ => by simp at hd, fun l m hm => by simp at hm⟩
  | snoc hr hs ih =>
    rename_i evs1 outs1 p1 st1 ev p' st' out
    have henv1 := henv.mono (evs := evs1) fun e he => List.mem_append_left _ he
    obtain ⟨i1, i2⟩ := ih henv1
    have hsame := hr.same
    have hcom := hr.comInv hS hG henv1
    have hN2 := hS.N2
    have hrest : ∀ {st' : PState G1}, (∀ z ∈ st1.voteWait, z ∈ st'.voteWait) → (∀ s d, ev ≠ .reshare s d) → (∀ l m, POut.recover l m ∉ out) →
        (∀ h ∈ H, (∃ d, PEvent.reshare (UInt32.ofNat h) d ∈ evs1 ++ [ev]) → (∃ d, (h + 1, d) ∈ st'.voteWait) ∨
          ∀ l, 1 ≤ l → l ≤ p0.N → POut.recover l (recMsg codec pp t p0.F q (fun _ => tb.sign) p0.pid h l) ∈ outs1 ++ out) ∧
        (∀ l m, POut.recover l m ∈ outs1 ++ out → 1 ≤ l ∧ l ≤ p0.N ∧ ∃ h ∈ H, m = recMsg codec pp t p0.F q (fun _ => tb.sign) p0.pid h l) := by
      intro st' hw hev ho
      refine ⟨fun h' hh' ⟨d, hd⟩ => ?_, fun l m' hm' => ?_⟩
      · rw [List.mem_append, List.mem_singleton] at hd
        rcases hd with hd | hd
        · rcases i1 h' hh' ⟨d, hd⟩ with ⟨d, h⟩ | h
          · exact Or.inl ⟨d, hw _ h⟩
          · exact Or.inr fun l l1 l2 => List.mem_append_left _ (h l l1 l2)
        · exact absurd hd.symm (hev _ _)
      · rw [List.mem_append] at hm'
        rcases hm' with hm' | hm'
        · exact i2 l m' hm'
        · exact absurd hm' (ho l m')
    cases step_effect hs with
    | reshare h1 h2 hv =>
      rename_i j d n W T
      obtain ⟨h, hh, rfl, m, hm, rfl⟩ := h1.src hS hG hr.queueInv henv
      have hlt := hG.lt h hh
      rw [vote_answer hS hG hsame hh (hcom.flg _ h2).2.2 hm] at hv
      cases hv
      refine ⟨fun h' hh' ⟨d, hd⟩ => ?_, fun l m' hm' => ?_⟩
      · by_cases hhh : h' = h
        · subst hhh
          exact Or.inr fun l l1 l2 => List.mem_append_right _ (List.mem_map.2 ⟨l, mem_oneTo.2 ⟨l1, l2⟩, rfl⟩)
        · have hlt' := hG.lt h' hh'
          have hd1 : PEvent.reshare (UInt32.ofNat h') d ∈ evs1 := by
            rw [List.mem_append, List.mem_singleton] at hd
            rcases hd with hd | hd
            · exact hd
            · exfalso
              generalize hj : h + 1 = j at h1
              generalize hdd : marshal m = dd at h1
              cases h1 with
              | now _ _ =>
                injection hd with e1 e2
                rw [← e1, ofNat_succ_toNat (by omega)] at hj
                omega
              | later _ _ => cases hd
          rcases i1 h' hh' ⟨d, hd1⟩ with ⟨d, h⟩ | h
          · left
            refine ⟨d, ?_⟩
            show _ ∈ W
            generalize hj : _ + 1 = j at h1
            generalize hdd : marshal m = dd at h1
            cases h1 with
            | now _ _ => exact h
            | later _ _ => exact (List.mem_erase_of_ne (by intro e; have := congrArg Prod.fst e; simp only at this; omega)).2 h
          · exact Or.inr fun l l1 l2 => List.mem_append_left _ (h l l1 l2)
      · rw [List.mem_append] at hm'
        rcases hm' with hm' | hm'
        · exact i2 l m' hm'
        · obtain ⟨l', hl', he⟩ := List.mem_map.1 hm'
          injection he with e1 e2
          subst e1
          rw [mem_oneTo] at hl'
          exact ⟨hl'.1, hl'.2, h, hh, e2.symm⟩
    | resharePark h0 h1 h2 =>
      rename_i s d
      refine ⟨fun h' hh' ⟨d', hd⟩ => ?_, fun l m' hm' => i2 l m' (by rwa [List.append_nil] at hm')⟩
      have hlt' := hG.lt h' hh'
      rw [List.mem_append, List.mem_singleton] at hd
      rcases hd with hd | hd
      · rcases i1 h' hh' ⟨d', hd⟩ with ⟨d, h⟩ | h
        · exact Or.inl ⟨d, List.mem_append_left _ h⟩
        · exact Or.inr fun l l1 l2 => List.mem_append_left _ (h l l1 l2)
      · injection hd with e1 e2
        subst e1 e2
        refine Or.inl ⟨d', List.mem_append_right _ (List.mem_singleton.2 ?_)⟩
        rw [ofNat_succ_toNat (by omega)]
    | distBad h1 => exact hrest (fun _ h => h) (fun s d e => by subst e; cases h1) (by simp)
    | distOk h1 => exact hrest (fun _ h => h) (fun s d e => by subst e; cases h1) (by simp)
    | distFull h1 => exact hrest (fun _ h => h) (fun s d e => by subst e; cases h1) (by simp)
    | _ => exact hrest (fun _ h => h) (fun s d e => by cases e) (by simp)

end

end DyCAPS
