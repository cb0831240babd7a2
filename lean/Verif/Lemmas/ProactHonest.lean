import Verif.Lemmas.ProactRun
import Verif.Lemmas.Vote

/-! Executions of Proactivize in which all messages come from parties that follow the protocol. -/

set_option linter.unusedSectionVars false

namespace DyCAPS

open Polynomial

section
variable {G1 G2 GT : Type} [AddCommGroup G1] [Module Fr G1] [AddCommGroup G2] [Module Fr G2] [AddCommGroup GT] [Module Fr GT]
variable [DecidableEq G1] [DecidableEq GT]
variable {codec : PointCodec G1} {pp : Pairing Fr G1 G2 GT} {t : Fr} {tb : Tbls}

theorem PRun.trans {p0 p1 p2 : Party G1 G2} {s0 s1 s2 : PState G1} {e1 e2 : List PEvent} {o1 o2 : List POut}
    (h1 : PRun codec pp tb p0 s0 e1 o1 p1 s1) (h2 : PRun codec pp tb p1 s1 e2 o2 p2 s2) : PRun codec pp tb p0 s0 (e1 ++ e2) (o1 ++ o2) p2 s2 := by
  induction h2 with
  | nil => simpa using h1
  | snoc h hs ih => rw [← List.append_assoc, ← List.append_assoc]; exact ih.snoc hs

theorem PRun.single {p0 p1 : Party G1 G2} {s0 s1 : PState G1} {ev : PEvent} {out : List POut}
    (h : proactStep codec pp tb p0 s0 ev = some (.ok (p1, s1, out))) : PRun codec pp tb p0 s0 [ev] out p1 s1 := by
  have := PRun.snoc (PRun.nil (codec := codec) (pp := pp) (tb := tb) (p₀ := p0) (st₀ := s0)) h
  simpa using this

theorem upd_upd {α : Type} (f : ℕ → α) (k : ℕ) (a b : α) : upd (upd f k a) k b = upd f k b := by
  funext j; unfold upd; split <;> rfl

theorem upd_self {α : Type} (f : ℕ → α) (k : ℕ) (a : α) (h : f k = a) : upd f k a = f := by
  funext j; unfold upd; split
  · rename_i hj; rw [hj, h]
  · rfl

/-- A Recover message as sent by a voter. -/
def recoverBytes (codec : PointCodec G1) (k : ℕ) (v : Fr) (w : G1) (sg : Bytes) : Bytes :=
  marshal (⟨UInt32.ofNat k, frTo32 v, codec.enc w, sg⟩ : PRecover)

theorem size_recover (codec : PointCodec G1) (k : ℕ) (hk : k < 2 ^ 32) (v : Fr) (w : G1) (sg : Bytes) (hs : sg.length < 2 ^ 32) :
    (recoverBytes codec k v w sg).length < 2 ^ 64 := by
  show (encFields (putU32 1 _ ++ putBytes 2 _ ++ putBytes 3 _ ++ putBytes 4 _)).length < _
  simp only [encFields_append, List.length_append]
  have h0 := size_putU32 1 (by norm_num) (UInt32.ofNat k)
  have h1 := size_putBytes 2 (by norm_num) (frTo32 v)
  have h2 := size_putBytes 3 (by norm_num) (codec.enc w)
  have h3 := size_putBytes 4 (by norm_num) sg
  have e0 : (UInt32.ofNat k).toNat < 2 ^ 32 := UInt32.toNat_lt _
  have e1 := (C02_round_trip 0 v).1
  have e2 := codec.enc_len w
  have : (2:ℕ) ^ 32 * 4 + 1000 < 2 ^ 64 := by norm_num
  omega

theorem decodeRecover_of (p : Party G1 G2) (sender : UInt32) (k : ℕ) (hk : k ≤ p.N) (hN : p.N < 2 ^ 32) (v : Fr) (w : G1) (sg : Bytes)
    (hs : sg.length < 2 ^ 32) :
    decodeRecover codec p sender (recoverBytes codec k v w sg) = .ok ⟨(sender + 1).toNat, k, v, w, sg⟩ := by
  have hu : unmarshalD (⟨0, [], [], []⟩ : PRecover) (recoverBytes codec k v w sg) = ⟨UInt32.ofNat k, frTo32 v, codec.enc w, sg⟩ := by
    rw [unmarshalD, recoverBytes, rt_PRecover _ (size_recover codec k (by omega) v w sg hs)]
    rfl
  unfold decodeRecover
  rw [hu]
  simp only [frFrom32_copy, decode!_enc, Go.ok_bind]
  have hkk : (UInt32.ofNat k).toNat = k := by
    rw [UInt32.toNat_ofNat']; exact Nat.mod_eq_of_lt (by omega)
  rw [hkk, if_pos hk]
  rfl

/-- Receiving one Recover message: taken from the queue, handed to handler `k`, handled. -/
theorem deliver {p : Party G1 G2} {st st' : PState G1} {out : List POut} {k : ℕ} (h1 : 1 ≤ k) (h2 : k ≤ p.N) (hcom : st.flgCom k = true)
    (hex : st.exited k = false) (hheld : st.held k = none) (hslot : st.slot = none) (hrun : st.mvbaRunning = false)
    (sender : UInt32) (data : Bytes) (m : RecoverMsg G1) (hdec : decodeRecover codec p sender data = .ok m) (hmk : m.k = k)
    (hh : handleRecover pp tb p { st with held := upd st.held k (some m) } k m = .ok (st', out)) :
    PRun codec pp tb p st [.takeRecover sender data, .passRecover, .handleRecover k] out p st' := by
  have s1 : proactStep codec pp tb p st (.takeRecover sender data) = some (.ok (p, { st with slot := some m }, [])) := by
    simp only [proactStep, hslot, hdec]; rfl
  have s2 : proactStep codec pp tb p { st with slot := some m } .passRecover =
      some (.ok (p, { st with held := upd st.held k (some m) }, [])) := by
    simp only [proactStep, hmk]
    rw [if_pos ⟨h1, h2, hcom, hex, by rw [hheld]; rfl⟩]
    rw [← hslot]
  have s3 : proactStep codec pp tb p { st with held := upd st.held k (some m) } (.handleRecover k) = some (.ok (p, st', out)) := by
    simp only [proactStep]
    rw [if_neg (by simp [hrun])]
    simp only [upd_same]
    rw [hh]
    rfl
  have := ((PRun.single s1).trans (PRun.single s2)).trans (PRun.single s3)
  simpa using this

/-! ### A batch of Recover messages for one resharer -/

/-- Points on `f` at `1..n`. -/
def honestPoints (f : List Fr) (n : ℕ) : List (ℕ × Fr) := (oneTo n).map fun i : ℕ => (i, polyVal f (i : Fr))

/-- The combined signature for `k` from the shares of `1..2F+1`. -/
def honestSig (tb : Tbls) (F N : ℕ) (sg : ℕ → Bytes) (k : ℕ) : Bytes :=
  (tb.recover (decimalBytes k) ((oneTo (2 * F + 1)).map sg ++ List.replicate (N + 1 - (2 * F + 1)) []) (2 * F) N).getD []

/-- The state after the messages of parties `1..n` for `k`, `n ≤ 2F`. -/
def batchState (F : ℕ) (st : PState G1) (k : ℕ) (f : List Fr) (sg : ℕ → Bytes) (n : ℕ) : PState G1 :=
  { st with
    SRec := upd st.SRec k (honestPoints f n)
    SSig := upd st.SSig k ((oneTo n).map sg)
    Q := if F + 1 ≤ n then upd st.Q k f else st.Q
    flgRec := if F + 1 ≤ n then upd st.flgRec k true else st.flgRec }

/-- The state after the messages of parties `1..2F+1` for `k`. -/
def batchDone (tb : Tbls) (F N : ℕ) (st : PState G1) (k : ℕ) (f : List Fr) (sg : ℕ → Bytes) : PState G1 :=
  { batchState F st k f sg (2 * F + 1) with
    combined := upd st.combined k true
    mvbaIn := st.mvbaIn ++ [(k, honestSig tb F N sg k)]
    mvbaSent := decide (F + 1 ≤ st.mvbaIn.length + 1)
    mvbaRunning := decide (F + 1 ≤ st.mvbaIn.length + 1)
    exited := upd st.exited k (decide (F + 1 ≤ st.mvbaIn.length + 1)) }

/-- Handler `k` is idle and has not seen any message. -/
structure Fresh (st : PState G1) (k : ℕ) : Prop where
  SRec : st.SRec k = []
  SSig : st.SSig k = []
  flgRec : st.flgRec k = false
  combined : st.combined k = false
  exited : st.exited k = false
  held : st.held k = none
  slot : st.slot = none
  sent : st.mvbaSent = false
  running : st.mvbaRunning = false
  com : st.flgCom k = true

theorem oneTo_succ (n : ℕ) : oneTo (n + 1) = oneTo n ++ [n + 1] := by simp [oneTo, List.range_succ]

theorem honestPoints_succ (f : List Fr) (n : ℕ) : honestPoints f (n + 1) = honestPoints f n ++ [(n + 1, polyVal f ((n + 1 : ℕ) : Fr))] := by
  simp [honestPoints, oneTo_succ]

theorem honestPoints_length (f : List Fr) (n : ℕ) : (honestPoints f n).length = n := by simp [honestPoints, oneTo]

theorem interpolate_honest (F : ℕ) (f : List Fr) (hf : f.length = F + 1) (hr : F + 1 < frModulus) (n : ℕ) (hn : F + 1 ≤ n) :
    lagrangeInterpolate F (((honestPoints f n).take (F + 1)).map fun q => ((q.1 : ℕ) : Fr)) (((honestPoints f n).take (F + 1)).map (·.2)) = .ok f := by
  have ht : (honestPoints f n).take (F + 1) = honestPoints f (F + 1) := by
    unfold honestPoints oneTo
    rw [List.map_map, ← List.map_take, List.take_range, min_eq_left hn, List.map_map]
  rw [ht]
  have e1 : ((honestPoints f (F + 1)).map fun q => ((q.1 : ℕ) : Fr)) = firstIndices (F + 1) := by
    rw [firstIndices_eq, honestPoints, List.map_map]; rfl
  rw [e1]
  apply lagrangeInterpolate_eq_of_eval F _ _ f (by rw [firstIndices_length]) (by simp [honestPoints_length]) (distinct_firstIndices _ hr) hf
  intro i hi
  rw [firstIndices_getD _ _ (by omega), honestPoints, List.map_map, oneTo_map_getD _ _ _ _ (by omega)]
  simp

theorem recordPoint_batch (p : Party G1 G2) (hF : 1 ≤ p.F) (hN : 3 * p.F + 1 ≤ p.N) (hr : p.F + 1 < frModulus) (st : PState G1) (k : ℕ) (f : List Fr)
    (hf : f.length = p.F + 1) (sg : ℕ → Bytes) (n : ℕ) (hn : n + 1 ≤ 2 * p.F + 1) (hfr : st.flgRec k = false) (held : ℕ → Option (RecoverMsg G1))
    (m : RecoverMsg G1) (hx : m.x = n + 1) (hv : m.v = polyVal f ((n + 1 : ℕ) : Fr)) :
    recordPoint p { batchState p.F st k f sg n with held := held } k m =
      .ok { batchState p.F st k f sg (n + 1) with held := held, SSig := upd st.SSig k ((oneTo n).map sg) } := by
  unfold recordPoint
  simp only [batchState, upd_same, hx, hv, ← honestPoints_succ, upd_upd, honestPoints_length]
  by_cases h1 : p.F + 1 ≤ n
  · simp only [h1, if_true, upd_same, Bool.not_true, Bool.false_and, if_neg (by simp : ¬ (false = true)), if_pos (by omega : p.F + 1 ≤ n + 1)]
  · simp only [h1, if_false, hfr, Bool.not_false, Bool.true_and, decide_eq_true_eq]
    by_cases h2 : p.F + 1 ≤ n + 1
    · rw [if_pos h2, if_neg (by omega), interpolate_honest p.F f hf hr _ h2, Go.ok_bind]
      simp only [if_pos h2]
      rfl
    · rw [if_neg h2]
      simp only [if_neg h2]

theorem recordSig_batch (p : Party G1 G2) (st : PState G1) (k : ℕ) (f : List Fr) (sg : ℕ → Bytes) (n : ℕ) (hn : n + 1 < 2 * p.F + 1)
    (held : ℕ → Option (RecoverMsg G1)) (m : RecoverMsg G1) (hs : m.sigShare = sg (n + 1)) :
    recordSig tb p { batchState p.F st k f sg (n + 1) with held := held, SSig := upd st.SSig k ((oneTo n).map sg) } k m =
      .ok ({ batchState p.F st k f sg (n + 1) with held := held }, []) := by
  unfold recordSig
  have hl : (oneTo n).map sg ++ [sg (n + 1)] = (oneTo (n + 1)).map sg := by simp [oneTo_succ]
  simp only [batchState, upd_same, hs, hl, upd_upd]
  rw [if_neg]
  simp [oneTo]
  omega

theorem recordSig_last (p : Party G1 G2) (hN : 3 * p.F + 1 ≤ p.N) (st : PState G1) (k : ℕ) (f : List Fr) (sg : ℕ → Bytes)
    (hcomb : st.combined k = false) (hsent : st.mvbaSent = false) (hrun : st.mvbaRunning = false)
    (held : ℕ → Option (RecoverMsg G1)) (m : RecoverMsg G1) (hs : m.sigShare = sg (2 * p.F + 1)) :
    recordSig tb p { batchState p.F st k f sg (2 * p.F + 1) with held := held, SSig := upd st.SSig k ((oneTo (2 * p.F)).map sg) } k m =
      .ok ({ batchState p.F st k f sg (2 * p.F + 1) with
        held := held
        combined := upd st.combined k true
        mvbaIn := st.mvbaIn ++ [(k, honestSig tb p.F p.N sg k)]
        mvbaSent := decide (p.F + 1 ≤ st.mvbaIn.length + 1)
        mvbaRunning := decide (p.F + 1 ≤ st.mvbaIn.length + 1) },
        if p.F + 1 ≤ st.mvbaIn.length + 1 then
          [.mvba ⟨(st.mvbaIn ++ [(k, honestSig tb p.F p.N sg k)]).map (·.2), (st.mvbaIn ++ [(k, honestSig tb p.F p.N sg k)]).map fun q => UInt32.ofNat q.1⟩]
        else []) := by
  unfold recordSig
  have hl : (oneTo (2 * p.F)).map sg ++ [sg (2 * p.F + 1)] = (oneTo (2 * p.F + 1)).map sg := by simp [oneTo_succ]
  have hlen : ((oneTo (2 * p.F + 1)).map sg).length = 2 * p.F + 1 := by simp [oneTo]
  simp only [batchState, upd_same, hs, hl, upd_upd, hcomb, hlen, hsent, hrun]
  rw [if_pos (by simp), if_neg (by omega)]
  simp only [Bool.not_false, Bool.true_and, decide_eq_true_eq, List.length_append, List.length_singleton]
  by_cases h : p.F + 1 ≤ st.mvbaIn.length + 1
  · simp only [if_pos h, decide_eq_true h]
    rfl
  · simp only [if_neg h, decide_eq_false h]
    rfl

/-- Receiving the messages of parties `1..n` about `k`. -/
def batchEvents (codec : PointCodec G1) (pp : Pairing Fr G1 G2 GT) (t : Fr) (k : ℕ) (f : List Fr) (sg : ℕ → Bytes) (n : ℕ) : List PEvent :=
  (oneTo n).flatMap fun i => [.takeRecover (UInt32.ofNat (i - 1)) (recoverBytes codec k (polyVal f (i : Fr)) (quotVal f (i : Fr) t • pp.g1) (sg i)),
    .passRecover, .handleRecover k]

theorem honest_check (p : Party G1 G2) (hp : p.Setup pp t) (hF : 1 ≤ p.F) (f : List Fr) (x : Fr) :
    checkProofSingle pp p.kzg (polyVal f t • pp.g1) (quotVal f x t • pp.g1) x (polyVal f x) = .ok true := by
  rw [hp.kzg, checkProofSingle_ok pp t _ (by omega), smul_smul, ← sub_smul]
  have := quotVal_mul f x t
  rw [decide_eq_true]
  rw [← this, mul_comm]

theorem sender_index (i : ℕ) (h1 : 1 ≤ i) (h2 : i < 2 ^ 32) : (UInt32.ofNat (i - 1) + 1).toNat = i := by
  rw [UInt32.toNat_add, UInt32.toNat_ofNat']
  have : (1 : UInt32).toNat = 1 := rfl
  rw [this, Nat.mod_eq_of_lt (by omega : i - 1 < 2 ^ 32), Nat.sub_add_cancel h1, Nat.mod_eq_of_lt h2]

variable {p : Party G1 G2}

theorem endIteration_held (st : PState G1) (k : ℕ) (m : RecoverMsg G1) (hheld : st.held k = none) (hex : st.exited k = false)
    (hsent : st.mvbaSent = false) : endIteration { st with held := upd st.held k (some m) } k = st := by
  unfold endIteration
  simp only [upd_upd, hex, hsent, Bool.or_false]
  rw [upd_self _ _ _ hheld, upd_self _ _ _ hex]
  cases st
  simp_all

theorem endIteration_exit (st : PState G1) (k : ℕ) (m : RecoverMsg G1) (hheld : st.held k = none) (hex : st.exited k = false) :
    endIteration { st with held := upd st.held k (some m) } k = { st with exited := upd st.exited k st.mvbaSent } := by
  unfold endIteration
  simp only [upd_upd, hex, Bool.false_or]
  rw [upd_self _ _ _ hheld]

theorem batch_run (hp : p.Setup pp t) (hF : 1 ≤ p.F) (hN : 3 * p.F + 1 ≤ p.N) (hN' : p.N < 2 ^ 32) (st : PState G1) (k : ℕ) (h1 : 1 ≤ k) (h2 : k ≤ p.N)
    (hfresh : Fresh st k) (f : List Fr) (hf : f.length = p.F + 1) (hcq : st.CQ k (p.pid + 1) = polyVal f t • pp.g1) (sg : ℕ → Bytes)
    (hsg : ∀ i, (sg i).length < 2 ^ 32) (hver : ∀ i, 1 ≤ i → i ≤ 2 * p.F + 1 → tb.verifyPartial (decimalBytes k) (sg i) = true) (n : ℕ) (hn : n ≤ 2 * p.F) :
    PRun codec pp tb p st (batchEvents codec pp t k f sg n) [] p (batchState p.F st k f sg n) := by
  have hr : p.F + 1 < frModulus := lt_trans (by omega : p.F + 1 < 2 ^ 32) (by decide +kernel)
  induction n with
  | zero =>
    have : batchState p.F st k f sg 0 = st := by
      unfold batchState
      simp only [honestPoints, oneTo, List.range_zero, List.map_nil, if_neg (by omega : ¬ p.F + 1 ≤ 0)]
      rw [upd_self _ _ _ hfresh.SRec, upd_self _ _ _ hfresh.SSig]
    rw [this]
    exact PRun.nil
  | succ n ih =>
    have hev : batchEvents codec pp t k f sg (n + 1) = batchEvents codec pp t k f sg n ++ [.takeRecover (UInt32.ofNat n)
        (recoverBytes codec k (polyVal f ((n + 1 : ℕ) : Fr)) (quotVal f ((n + 1 : ℕ) : Fr) t • pp.g1) (sg (n + 1))), .passRecover, .handleRecover k] := by
      simp [batchEvents, oneTo_succ, List.flatMap_append]
    rw [hev]
    refine (ih (by omega)).trans (o2 := []) ?_
    have hdec := decodeRecover_of (codec := codec) p (UInt32.ofNat n) k h2 hN' (polyVal f ((n + 1 : ℕ) : Fr))
      (quotVal f ((n + 1 : ℕ) : Fr) t • pp.g1) (sg (n + 1)) (hsg _)
    have hsi := sender_index (n + 1) (by omega) (by omega)
    rw [Nat.add_sub_cancel] at hsi
    rw [hsi] at hdec
    refine deliver (codec := codec) (pp := pp) (tb := tb) (st := batchState p.F st k f sg n) h1 h2 hfresh.com hfresh.exited hfresh.held hfresh.slot hfresh.running _ _ _ hdec rfl ?_
    unfold handleRecover
    have hcq' : (batchState p.F st k f sg n).CQ k (p.pid + 1) = polyVal f t • pp.g1 := hcq
    simp only [hcq']
    rw [honest_check (pp := pp) (t := t) p hp hF, Go.ok_bind]
    simp only [Bool.true_and, hver (n + 1) (by omega) (by omega), if_true]
    rw [recordPoint_batch p hF hN hr st k f hf sg n (by omega) hfresh.flgRec _ _ rfl rfl, Go.ok_bind,
      recordSig_batch p st k f sg n (by omega) _ _ rfl, Go.ok_bind]
    exact congrArg (fun x => Except.ok (x, [])) (endIteration_held (batchState p.F st k f sg (n + 1)) k _ hfresh.held hfresh.exited hfresh.sent)

theorem batch_done (hp : p.Setup pp t) (hF : 1 ≤ p.F) (hN : 3 * p.F + 1 ≤ p.N) (hN' : p.N < 2 ^ 32) (st : PState G1) (k : ℕ) (h1 : 1 ≤ k) (h2 : k ≤ p.N)
    (hfresh : Fresh st k) (f : List Fr) (hf : f.length = p.F + 1) (hcq : st.CQ k (p.pid + 1) = polyVal f t • pp.g1) (sg : ℕ → Bytes)
    (hsg : ∀ i, (sg i).length < 2 ^ 32) (hver : ∀ i, 1 ≤ i → i ≤ 2 * p.F + 1 → tb.verifyPartial (decimalBytes k) (sg i) = true) :
    PRun codec pp tb p st (batchEvents codec pp t k f sg (2 * p.F + 1))
      (if p.F + 1 ≤ st.mvbaIn.length + 1 then
          [.mvba ⟨(st.mvbaIn ++ [(k, honestSig tb p.F p.N sg k)]).map (·.2), (st.mvbaIn ++ [(k, honestSig tb p.F p.N sg k)]).map fun q => UInt32.ofNat q.1⟩]
        else []) p (batchDone tb p.F p.N st k f sg) := by
  have hr : p.F + 1 < frModulus := lt_trans (by omega : p.F + 1 < 2 ^ 32) (by decide +kernel)
  have hev : batchEvents codec pp t k f sg (2 * p.F + 1) = batchEvents codec pp t k f sg (2 * p.F) ++ [.takeRecover (UInt32.ofNat (2 * p.F))
      (recoverBytes codec k (polyVal f ((2 * p.F + 1 : ℕ) : Fr)) (quotVal f ((2 * p.F + 1 : ℕ) : Fr) t • pp.g1) (sg (2 * p.F + 1))), .passRecover,
        .handleRecover k] := by
    simp [batchEvents, oneTo_succ, List.flatMap_append]
  rw [hev]
  generalize hout : (if p.F + 1 ≤ st.mvbaIn.length + 1 then
          [POut.mvba ⟨(st.mvbaIn ++ [(k, honestSig tb p.F p.N sg k)]).map (·.2), (st.mvbaIn ++ [(k, honestSig tb p.F p.N sg k)]).map fun q => UInt32.ofNat q.1⟩]
        else []) = out
  refine (batch_run hp hF hN hN' st k h1 h2 hfresh f hf hcq sg hsg hver (2 * p.F) (by omega)).trans (o2 := out) ?_
  subst hout
  have hdec := decodeRecover_of (codec := codec) p (UInt32.ofNat (2 * p.F)) k h2 hN' (polyVal f ((2 * p.F + 1 : ℕ) : Fr))
    (quotVal f ((2 * p.F + 1 : ℕ) : Fr) t • pp.g1) (sg (2 * p.F + 1)) (hsg _)
  have hsi := sender_index (2 * p.F + 1) (by omega) (by omega)
  rw [Nat.add_sub_cancel] at hsi
  rw [hsi] at hdec
  refine deliver (codec := codec) (pp := pp) (tb := tb) (st := batchState p.F st k f sg (2 * p.F)) h1 h2 hfresh.com hfresh.exited hfresh.held hfresh.slot hfresh.running _ _ _ hdec rfl ?_
  unfold handleRecover
  have hcq' : (batchState p.F st k f sg (2 * p.F)).CQ k (p.pid + 1) = polyVal f t • pp.g1 := hcq
  simp only [hcq']
  rw [honest_check (pp := pp) (t := t) p hp hF, Go.ok_bind]
  simp only [Bool.true_and, hver (2 * p.F + 1) (by omega) (by omega), if_true]
  rw [recordPoint_batch p hF hN hr st k f hf sg (2 * p.F) (by omega) hfresh.flgRec _ _ rfl rfl, Go.ok_bind,
    recordSig_last p hN st k f sg hfresh.combined hfresh.sent hfresh.running _ _ rfl, Go.ok_bind]
  exact congrArg (fun x => Except.ok (x, _)) (endIteration_exit { batchState p.F st k f sg (2 * p.F + 1) with
        combined := upd st.combined k true
        mvbaIn := st.mvbaIn ++ [(k, honestSig tb p.F p.N sg k)]
        mvbaSent := decide (p.F + 1 ≤ st.mvbaIn.length + 1)
        mvbaRunning := decide (p.F + 1 ≤ st.mvbaIn.length + 1) } k _ hfresh.held hfresh.exited)

/-! ### The phases of an honest execution -/

theorem commits_run (st : PState G1) (hcd : ∀ j, st.comDone j = false) (q : ℕ → ℕ → ℕ → Fr) (D : ℕ → Bytes)
    (hD : ∀ j, 1 ≤ j → j ≤ p.N → ∀ row, ∃ row', verifyCommit codec pp p row (unmarshalD (⟨[]⟩ : PCommit) (D j)) = .ok (row', true) ∧
      CommitsTo pp t p.F p.N (q j) row') (n : ℕ) (hn : n ≤ p.N) :
    ∃ cd CQ fc vt, PRun codec pp tb p st ((oneTo n).map fun j => .commit j (some (D j))) [] p { st with comDone := cd, CQ := CQ, flgCom := fc, voteToken := vt } ∧
      (∀ j, 1 ≤ j → j ≤ n → fc j = true ∧ CommitsTo pp t p.F p.N (q j) (CQ j)) ∧ ∀ j, n < j → cd j = false ∧ fc j = st.flgCom j := by
  induction n with
  | zero => exact ⟨st.comDone, st.CQ, st.flgCom, st.voteToken, PRun.nil, by intro j h1 h2; omega, fun j _ => ⟨hcd j, rfl⟩⟩
  | succ n ih =>
    obtain ⟨cd, CQ, fc, vt, h1, h2, h3⟩ := ih (by omega)
    obtain ⟨row', e1, e2⟩ := hD (n + 1) (by omega) hn (CQ (n + 1))
    refine ⟨upd cd (n + 1) true, upd CQ (n + 1) row', upd fc (n + 1) true, upd vt (n + 1) true, ?_, ?_, ?_⟩
    · rw [oneTo_succ, List.map_append]
      refine h1.trans (o2 := []) (PRun.single ?_)
      simp only [proactStep]
      rw [if_pos ⟨by omega, hn, (h3 _ (by omega)).1⟩, e1]
      rfl
    · intro j j1 j2
      by_cases hj : j = n + 1
      · subst hj; rw [upd_same, upd_same]; exact ⟨rfl, e2⟩
      · rw [upd_ne _ _ hj, upd_ne _ _ hj]; exact h2 j j1 (by omega)
    · intro j hj
      rw [upd_ne _ _ (by omega), upd_ne _ _ (by omega)]; exact h3 j (by omega)

/-- The state after complete batches for the resharers `ks`. -/
structure AfterBatches (tb : Tbls) (F N : ℕ) (f : ℕ → List Fr) (sg : ℕ → ℕ → Bytes) (st : PState G1) (ks : List ℕ) (st' : PState G1) : Prop where
  flgCom : st'.flgCom = st.flgCom
  CQ : st'.CQ = st.CQ
  refresh : st'.refresh = st.refresh
  newComDone : st'.newComDone = st.newComDone
  SCom : st'.SCom = st.SCom
  token : st'.token = st.token
  SB : st'.SB = st.SB
  successSent : st'.successSent = st.successSent
  held : st'.held = st.held
  slot : st'.slot = st.slot
  finished : st'.finished = st.finished
  successCount : st'.successCount = st.successCount
  dists : st'.dists = st.dists
  refreshWait : st'.refreshWait = st.refreshWait
  recd : ∀ k ∈ ks, st'.flgRec k = true ∧ st'.Q k = f k
  other : ∀ k, k ∉ ks → st'.flgRec k = st.flgRec k ∧ st'.Q k = st.Q k ∧ st'.SRec k = st.SRec k ∧ st'.SSig k = st.SSig k ∧
    st'.combined k = st.combined k ∧ st'.exited k = st.exited k
  mvbaIn : st'.mvbaIn = st.mvbaIn ++ ks.map fun k => (k, honestSig tb F N (sg k) k)
  sent : st'.mvbaSent = decide (F + 1 ≤ st'.mvbaIn.length)
  running : st'.mvbaRunning = decide (F + 1 ≤ st'.mvbaIn.length)

/-- The MVBA input of a party that obtained certificates for `ks`. -/
def mvbaInput (tb : Tbls) (F N : ℕ) (sg : ℕ → ℕ → Bytes) (ks : List ℕ) : PMVBAIN :=
  ⟨ks.map fun k => honestSig tb F N (sg k) k, ks.map UInt32.ofNat⟩

theorem batches_run (hp : p.Setup pp t) (hF : 1 ≤ p.F) (hN : 3 * p.F + 1 ≤ p.N) (hN' : p.N < 2 ^ 32) (st : PState G1) (hin : st.mvbaIn = [])
    (f : ℕ → List Fr) (hf : ∀ k, (f k).length = p.F + 1) (sg : ℕ → ℕ → Bytes) (hsg : ∀ k i, (sg k i).length < 2 ^ 32)
    (hver : ∀ k i, 1 ≤ i → i ≤ 2 * p.F + 1 → tb.verifyPartial (decimalBytes k) (sg k i) = true) (ks : List ℕ) (hnd : ks.Nodup)
    (hk : ∀ k ∈ ks, 1 ≤ k ∧ k ≤ p.N ∧ Fresh st k ∧ st.CQ k (p.pid + 1) = polyVal (f k) t • pp.g1) (hlen : ks.length ≤ p.F + 1)
    (hsent : st.mvbaSent = false) (hrunning : st.mvbaRunning = false) :
    ∃ st', PRun codec pp tb p st (ks.flatMap fun k => batchEvents codec pp t k (f k) (sg k) (2 * p.F + 1))
      (if ks.length = p.F + 1 then [.mvba (mvbaInput tb p.F p.N sg ks)] else []) p st' ∧ AfterBatches tb p.F p.N f sg st ks st' := by
  induction ks using List.reverseRecOn with
  | nil =>
    refine ⟨st, ?_, ?_⟩
    · rw [if_neg (by simp)]; exact PRun.nil
    · exact ⟨rfl, rfl, rfl, rfl, rfl, rfl, rfl, rfl, rfl, rfl, rfl, rfl, rfl, rfl, by simp, by simp, by simp, by rw [hsent, hin]; simp, by rw [hrunning, hin]; simp⟩
  | append_singleton ks k ih =>
    rw [List.nodup_append] at hnd
    have hkn : k ∉ ks := fun h => hnd.2.2 k h k (by simp) rfl
    have hl : ks.length + 1 ≤ p.F + 1 := by simpa using hlen
    obtain ⟨s1, r1, a1⟩ := ih hnd.1 (fun k' h' => hk k' (by simp [h'])) (by omega)
    obtain ⟨k1, k2, kf, kc⟩ := hk k (by simp)
    obtain ⟨o1, o2, o3, o4, o5, o6⟩ := a1.other k hkn
    have hl1 : s1.mvbaIn.length = ks.length := by rw [a1.mvbaIn, hin]; simp
    have hfresh : Fresh s1 k := by
      refine ⟨o3 ▸ kf.SRec, o4 ▸ kf.SSig, o1 ▸ kf.flgRec, o5 ▸ kf.combined, o6 ▸ kf.exited, by rw [a1.held]; exact kf.held, by rw [a1.slot]; exact kf.slot,
        ?_, ?_, by rw [a1.flgCom]; exact kf.com⟩
      · rw [a1.sent, hl1]; exact decide_eq_false (by omega)
      · rw [a1.running, hl1]; exact decide_eq_false (by omega)
    have hb := batch_done (codec := codec) (tb := tb) hp hF hN hN' s1 k k1 k2 hfresh (f k) (hf k) (by rw [a1.CQ]; exact kc) (sg k) (hsg k) (hver k)
    refine ⟨batchDone tb p.F p.N s1 k (f k) (sg k), ?_, ?_⟩
    · rw [if_neg (by omega)] at r1
      rw [List.flatMap_append, List.flatMap_singleton]
      have := r1.trans hb
      rw [List.nil_append] at this
      convert this using 1
      rw [hl1, List.length_append, List.length_singleton, a1.mvbaIn, hin]
      by_cases h : ks.length + 1 = p.F + 1
      · rw [if_pos h, if_pos (by omega)]
        simp [mvbaInput]
      · rw [if_neg h, if_neg (by omega)]
    · refine ⟨a1.flgCom, a1.CQ, a1.refresh, a1.newComDone, a1.SCom, a1.token, a1.SB, a1.successSent, a1.held, a1.slot, a1.finished, a1.successCount, a1.dists, a1.refreshWait, ?_, ?_, ?_, ?_, ?_⟩
      · intro j hj
        have hle : p.F + 1 ≤ 2 * p.F + 1 := by omega
        simp only [batchDone, batchState, if_pos hle]
        by_cases hjk : j = k
        · subst hjk; simp
        · rw [upd_ne _ _ hjk, upd_ne _ _ hjk]
          exact a1.recd j (by simpa [hjk] using hj)
      · intro j hj
        have hle : p.F + 1 ≤ 2 * p.F + 1 := by omega
        have hjk : j ≠ k := by rintro rfl; simp at hj
        simp only [batchDone, batchState, if_pos hle]
        rw [upd_ne _ _ hjk, upd_ne _ _ hjk, upd_ne _ _ hjk, upd_ne _ _ hjk, upd_ne _ _ hjk, upd_ne _ _ hjk]
        exact a1.other j (fun h => hj (by simp [h]))
      · simp only [batchDone, a1.mvbaIn]; simp
      · simp only [batchDone]; simp
      · simp only [batchDone]; simp

theorem addPoly_getD (F : ℕ) (a b : List Fr) (i : ℕ) (hi : i < F + 1) : (addPoly F a b).getD i 0 = a.getD i 0 + b.getD i 0 := by
  rw [addPoly, range_map_getD _ _ _ _ hi]

theorem addPoly_length (F : ℕ) (a b : List Fr) : (addPoly F a b).length = F + 1 := by simp [addPoly]

/-- Refresh over a list all of whose members have `flgCom`. -/
theorem refresh_run (J : List ℕ) (st : PState G1) (Qsum : List Fr) (Cs : ℕ → G1) (hl : p.reducedShare.length = p.F + 1)
    (hst : st.refresh = .looping J Qsum Cs) (hw : st.refreshWait = false) (hJ : ∀ j ∈ J, j ≤ p.N ∧ st.flgCom j = true) :
    ∃ rs Cs', PRun codec pp tb p st (List.replicate (J.length + 1) .refresh) [] { p with reducedShare := rs } { st with refresh := .done Cs' } ∧
      rs.length = p.F + 1 ∧ (∀ i < p.F + 1, rs.getD i 0 = Qsum.getD i 0 + (J.map fun j => (st.Q j).getD i 0).sum + p.reducedShare.getD i 0) ∧
      ∀ i, Cs' i = Cs i + (J.map fun j => st.CQ j i).sum := by
  induction J generalizing st Qsum Cs with
  | nil =>
    refine ⟨addPoly p.F Qsum p.reducedShare, Cs, ?_, addPoly_length _ _ _, ?_, by simp⟩
    · apply PRun.single
      simp only [proactStep, refreshStep, hst]
      rw [if_neg (by omega), List.drop_of_length_le (by omega), List.append_nil]
      rfl
    · intro i hi
      rw [addPoly_getD _ _ _ _ hi]; simp
  | cons j J ih =>
    obtain ⟨h1, h2⟩ := hJ j (by simp)
    have hstep : proactStep codec pp tb p st .refresh = some (.ok (p, { st with refresh := .looping J (addPoly p.F Qsum (st.Q j)) (fun i => Cs i + st.CQ j i) }, [])) := by
      simp only [proactStep, refreshStep, hst]
      rw [if_neg (by omega), hw, if_neg (by simp), if_pos h2]
      rfl
    obtain ⟨rs, Cs', r1, r2, r3, r4⟩ := ih { st with refresh := .looping J (addPoly p.F Qsum (st.Q j)) (fun i => Cs i + st.CQ j i) }
      (addPoly p.F Qsum (st.Q j)) (fun i => Cs i + st.CQ j i) rfl hw (fun k hk => hJ k (by simp [hk]))
    refine ⟨rs, Cs', ?_, r2, ?_, ?_⟩
    · rw [List.length_cons, List.replicate_succ]
      exact (PRun.single hstep).trans (o2 := []) r1
    · intro i hi
      rw [r3 i hi, addPoly_getD _ _ _ _ hi, List.map_cons, List.sum_cons]; ring
    · intro i
      rw [r4 i, List.map_cons, List.sum_cons, add_assoc]

theorem size_shareDist (codec : PointCodec G1) (v : Fr) (w : G1) : (marshal (⟨frTo32 v, codec.enc w⟩ : PShareDist)).length < 2 ^ 64 := by
  show (encFields (putBytes 1 _ ++ putBytes 2 _)).length < _
  simp only [encFields_append, List.length_append]
  have h1 := size_putBytes 1 (by norm_num) (frTo32 v)
  have h2 := size_putBytes 2 (by norm_num) (codec.enc w)
  have e1 := (C02_round_trip 0 v).1
  have e2 := codec.enc_len w
  have : (1000:ℕ) < 2 ^ 64 := by norm_num
  omega

/-- What a member with index `j` whose reduced share is `f` sends in ShareDist. -/
theorem shareDistMsg_ok (codec : PointCodec G1) (hp : p.Setup pp t) (hl : p.reducedShare.length = p.F + 1) (l : ℕ) :
    shareDistMsg codec p l = .ok ⟨frTo32 (polyVal p.reducedShare (l : Fr)), codec.enc (quotVal p.reducedShare (l : Fr) t • pp.g1)⟩ := by
  unfold shareDistMsg
  rw [hp.kzg, computeProofSingle_ok pp t _ _ _ (ne_nil_of_length hl) (by omega), Go.ok_bind, evalPolyAt_eq]
  rfl

theorem newCommitMsg_ok (codec : PointCodec G1) (hp : p.Setup pp t) (hl : p.reducedShare.length = p.F + 1) :
    newCommitMsg codec p = .ok (codec.enc (polyVal p.reducedShare t • pp.g1)) := by
  unfold newCommitMsg
  rw [hp.kzg, commitToPoly_ok pp t _ _ (by omega), Go.ok_bind]
  rfl

/-- The two messages of each member `j` of `js`, in order. -/
def distEvents (codec : PointCodec G1) (pp : Pairing Fr G1 G2 GT) (t : Fr) (l : ℕ) (g : ℕ → List Fr) (js : List ℕ) : List PEvent :=
  js.flatMap fun j => [.newCommit j (some (codec.enc (polyVal (g j) t • pp.g1))),
    .shareDist (UInt32.ofNat (j - 1)) (marshal (⟨frTo32 (polyVal (g j) (l : Fr)), codec.enc (quotVal (g j) (l : Fr) t • pp.g1)⟩ : PShareDist))]

theorem interpolate_indices (d : ℕ) (f : List Fr) (L : List ℕ) (hlen : L.length = d + 1) (hnd : L.Nodup) (hle : ∀ k ∈ L, k < frModulus) (hf : f.length = d + 1) :
    lagrangeInterpolate d (((L.map fun k : ℕ => (k, polyVal f (k : Fr))).take (d + 1)).map fun q => ((q.1 : ℕ) : Fr))
      (((L.map fun k : ℕ => (k, polyVal f (k : Fr))).take (d + 1)).map (·.2)) = .ok f := by
  rw [List.take_of_length_le (by rw [List.length_map]; omega), List.map_map, List.map_map]
  have hlx : ∀ i, i < d + 1 → (L.map ((fun q : ℕ × Fr => ((q.1 : ℕ) : Fr)) ∘ fun k : ℕ => (k, polyVal f (k : Fr)))).getD i 0 = ((L.getD i 0 : ℕ) : Fr) := by
    intro i hi
    rw [List.getD_eq_getElem _ _ (by simp only [List.length_map]; omega), List.getD_eq_getElem _ _ (by omega)]
    simp
  apply lagrangeInterpolate_eq_of_eval d _ _ _ (by simp only [List.length_map]; omega) (by simp only [List.length_map]; omega) _ hf
  · intro i hi
    rw [hlx i (by omega), List.getD_eq_getElem _ _ (by omega), List.getD_eq_getElem _ _ (by simp only [List.length_map]; omega)]
    simp
  · intro i hi k hk hne heq
    rw [hlx i (by omega), hlx k (by omega)] at heq
    have hii : i < L.length := by omega
    have hkk : k < L.length := by omega
    rw [List.getD_eq_getElem _ _ hii, List.getD_eq_getElem _ _ hkk] at heq
    by_cases hik : L[i] = L[k]
    · exact hne ((List.Nodup.getElem_inj_iff hnd).1 hik).symm
    · exact fr_natCast_ne (hle _ (List.getElem_mem hii)) (hle _ (List.getElem_mem hkk)) hik heq

/-- Correct NewCommit and ShareDist messages of up to `2F+1` members. -/
theorem dist_run (hp : p.Setup pp t) (hF : 1 ≤ p.F) (hN' : p.N < 2 ^ 32) (b' : ℕ → ℕ → Fr) (Cs : ℕ → G1)
    (hold : ∀ j, 1 ≤ j → j ≤ p.N → ∃ C, oldCom p j = .ok C ∧ C + Cs j = polyVal (sliceX b' p.F (2 * p.F) (j : Fr)) t • pp.g1)
    (st : PState G1) (hst : st.refresh = .done Cs) (hSB : st.SB = []) (hsent : st.successSent = false)
    (js : List ℕ) (hnd : js.Nodup) (hlen : js.length ≤ 2 * p.F + 1) (hdists : js.length ≤ st.dists)
    (hjs : ∀ j ∈ js, 1 ≤ j ∧ j ≤ p.N ∧ st.newComDone j = false) :
    ∃ p' st', PRun codec pp tb p st (distEvents codec pp t (p.pid + 1) (fun j => sliceX b' p.F (2 * p.F) (j : Fr)) js)
      (if js.length = 2 * p.F + 1 then [.success] else []) p' st' ∧
      st'.refresh = .done Cs ∧ st'.SB = js.map (fun j : ℕ => (j, biVal b' p.F (2 * p.F) ((p.pid + 1 : ℕ) : Fr) (j : Fr))) ∧
      (∀ j, j ∉ js → st'.newComDone j = st.newComDone j) ∧ st'.successCount = st.successCount ∧ st'.finished = st.finished ∧
      st'.successSent = decide (js.length = 2 * p.F + 1) ∧ st'.dists = st.dists - js.length ∧
      p' = { p with fullShare := if js.length = 2 * p.F + 1 then sliceY b' p.F (2 * p.F) ((p.pid + 1 : ℕ) : Fr) else p.fullShare } := by
  have hr : p.N < frModulus := lt_trans hN' (by decide +kernel)
  induction js using List.reverseRecOn with
  | nil =>
    refine ⟨p, st, ?_, hst, by rw [hSB]; rfl, fun _ _ => rfl, rfl, rfl, by rw [hsent]; simp, rfl, by simp⟩
    rw [if_neg (by simp)]; exact PRun.nil
  | append_singleton js j ih =>
    rw [List.nodup_append] at hnd
    have hjn : j ∉ js := fun h => hnd.2.2 j h j (by simp) rfl
    have hl : js.length + 1 ≤ 2 * p.F + 1 := by simpa using hlen
    obtain ⟨p1, s1, r1, a1, a2, a3, a5, a6, a7, a8, a4⟩ := ih hnd.1 (by omega) (by simp at hdists; omega) (fun k hk => hjs k (by simp [hk]))
    rw [if_neg (by omega)] at r1 a4
    obtain rfl : p1 = p := a4
    have hs1 : s1.successSent = false := by rw [a7]; exact decide_eq_false (by omega)
    obtain ⟨j1, j2, j3⟩ := hjs j (by simp)
    obtain ⟨C, c1, c2⟩ := hold j j1 j2
    set g := sliceX b' p1.F (2 * p1.F) (j : Fr) with hg
    have e1 : proactStep codec pp tb p1 s1 (.newCommit j (some (codec.enc (polyVal g t • pp.g1)))) =
        some (.ok (p1, { s1 with newComDone := upd s1.newComDone j true, SCom := upd s1.SCom j (some (polyVal g t • pp.g1)), token := upd s1.token j true }, [])) := by
      simp only [proactStep]
      rw [if_pos ⟨j1, j2, by rw [a3 j hjn, j3]⟩]
      conv_lhs => simp only [a1]
      unfold newCommitStep
      rw [c1, Go.ok_bind, decode!_enc, Go.ok_bind, if_pos c2.symm]
      rfl
    set s2 : PState G1 := { s1 with newComDone := upd s1.newComDone j true, SCom := upd s1.SCom j (some (polyVal g t • pp.g1)), token := upd s1.token j true } with hs2
    have hu : unmarshalD (⟨[], []⟩ : PShareDist) (marshal (⟨frTo32 (polyVal g ((p1.pid + 1 : ℕ) : Fr)), codec.enc (quotVal g ((p1.pid + 1 : ℕ) : Fr) t • pp.g1)⟩ : PShareDist)) =
        ⟨frTo32 (polyVal g ((p1.pid + 1 : ℕ) : Fr)), codec.enc (quotVal g ((p1.pid + 1 : ℕ) : Fr) t • pp.g1)⟩ := by
      rw [unmarshalD, rt_PShareDist _ (size_shareDist codec _ _)]; rfl
    have hval : polyVal g ((p1.pid + 1 : ℕ) : Fr) = biVal b' p1.F (2 * p1.F) ((p1.pid + 1 : ℕ) : Fr) (j : Fr) := by rw [hg, polyVal_sliceX]
    have e2 : ∃ st', proactStep codec pp tb p1 s2 (.shareDist (UInt32.ofNat (j - 1))
        (marshal (⟨frTo32 (polyVal g ((p1.pid + 1 : ℕ) : Fr)), codec.enc (quotVal g ((p1.pid + 1 : ℕ) : Fr) t • pp.g1)⟩ : PShareDist))) =
        some (.ok ({ p1 with fullShare := if (js ++ [j]).length = 2 * p1.F + 1 then sliceY b' p1.F (2 * p1.F) ((p1.pid + 1 : ℕ) : Fr) else p1.fullShare }, st',
          if (js ++ [j]).length = 2 * p1.F + 1 then [.success] else [])) ∧
        st'.refresh = .done Cs ∧ st'.SB = (js ++ [j]).map (fun j : ℕ => (j, biVal b' p1.F (2 * p1.F) ((p1.pid + 1 : ℕ) : Fr) (j : Fr))) ∧
        st'.newComDone = s2.newComDone ∧ st'.successCount = s2.successCount ∧ st'.finished = s2.finished ∧
        st'.successSent = decide ((js ++ [j]).length = 2 * p1.F + 1) ∧ st'.dists = s2.dists - 1 := by
      simp only [proactStep]
      rw [sender_index j j1 (by omega)]
      have hs2r : s2.refresh = .done Cs := a1
      have hs2t : s2.token j = true := by rw [hs2]; simp
      have hs2d : ¬ s2.dists = 0 := by
        show ¬ s1.dists = 0
        rw [a8]; simp at hdists; omega
      rw [hs2r]
      simp only [hs2t, hs2d, if_neg (by omega : ¬ p1.N < j), if_true, if_false]
      rw [hu]
      unfold shareDistStep
      have hsc : (s2.SCom j).getD 0 = polyVal g t • pp.g1 := by rw [hs2]; simp
      simp only [decode!_enc, Go.ok_bind, frFrom32_copy, hsc]
      rw [honest_check p1 hp hF, Go.ok_bind, if_pos rfl]
      have hss : s2.successSent = false := hs1
      have hsb : s2.SB ++ [(j, polyVal g ((p1.pid + 1 : ℕ) : Fr))] = (js ++ [j]).map (fun j : ℕ => (j, biVal b' p1.F (2 * p1.F) ((p1.pid + 1 : ℕ) : Fr) (j : Fr))) := by
        rw [hval, List.map_append, ← a2]; rfl
      simp only [hss, hsb, Bool.not_false, Bool.true_and, decide_eq_true_eq, List.length_map]
      by_cases hfull : (js ++ [j]).length = 2 * p1.F + 1
      · rw [if_pos (by omega)]
        have hpts : lagrangeInterpolate (2 * p1.F)
            ((((js ++ [j]).map (fun j : ℕ => (j, biVal b' p1.F (2 * p1.F) ((p1.pid + 1 : ℕ) : Fr) (j : Fr)))).take (2 * p1.F + 1)).map fun q => ((q.1 : ℕ) : Fr))
            ((((js ++ [j]).map (fun j : ℕ => (j, biVal b' p1.F (2 * p1.F) ((p1.pid + 1 : ℕ) : Fr) (j : Fr)))).take (2 * p1.F + 1)).map (·.2)) =
            .ok (sliceY b' p1.F (2 * p1.F) ((p1.pid + 1 : ℕ) : Fr)) := by
          have hnd' : (js ++ [j]).Nodup := by rw [List.nodup_append]; exact hnd
          have hle : ∀ k ∈ js ++ [j], k < frModulus := fun k hk => by have := (hjs k hk).2.1; omega
          simp only [← polyVal_sliceY]
          exact interpolate_indices _ _ _ hfull hnd' hle (sliceY_length _ _ _ _)
        rw [hpts, Go.ok_bind]
        rw [if_pos hfull, if_pos hfull, decide_eq_true hfull]
        exact ⟨_, rfl, rfl, hsb ▸ rfl, rfl, rfl, rfl, rfl, rfl⟩
      · have hfull' : ¬ 2 * p1.F + 1 ≤ (js ++ [j]).length := by
          rw [List.length_append, List.length_singleton] at hfull ⊢; omega
        rw [if_neg hfull', if_neg hfull, if_neg hfull, decide_eq_false hfull]
        exact ⟨_, rfl, rfl, hsb ▸ rfl, rfl, rfl, rfl, rfl, rfl⟩
    obtain ⟨st', e2, b1, b2, b3, b4, b5, b6, b7⟩ := e2
    refine ⟨_, st', ?_, b1, b2, ?_, b4.trans a5, b5.trans a6, b6, by rw [b7]; show s1.dists - 1 = _; rw [a8, List.length_append, List.length_singleton]; omega, rfl⟩
    · have := (r1.trans (PRun.single e1)).trans (PRun.single e2)
      simpa [distEvents, List.flatMap_append] using this
    · intro k hk
      have hkj : k ≠ j := by rintro rfl; simp at hk
      rw [b3, hs2]
      simp only
      rw [upd_ne _ _ hkj]
      exact a3 k (fun h => hk (by simp [h]))

end

end DyCAPS
