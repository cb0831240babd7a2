import Verif.Lemmas.TblsRun
import Verif.Props.VSS
import Verif.Props.Proactivize

/-!
# C35, C36: threshold signatures and vote certificates

Keys come from `sigKeyGen`: `coeffs` are the coefficients of the private polynomial, `coeffs[0]` is the secret key, party `i` holds the value at `i+1`.
-/

set_option linter.unusedSectionVars false

namespace DyCAPS

section
variable {G1 G2 GT : Type} [AddCommGroup G1] [Module Fr G1] [AddCommGroup G2] [Module Fr G2] [AddCommGroup GT] [Module Fr GT] [DecidableEq GT]

/-- **C35.** Every party's own share verifies and carries its index. -/
theorem C35_honest_share (S : KyberSuite G1 G2 GT) (n : ℕ) (hn : n ≤ 65536) (coeffs : List Fr) (msg : Bytes) (i : ℕ) (hi : i < n) :
    ∃ sk, (sigKeyGen S.pp.g2 n coeffs).1[i]? = some sk ∧ tblsVerifyPartial S (sigKeyGen S.pp.g2 n coeffs).2 msg (tblsSign S sk msg) = true ∧
      shareIndex (tblsSign S sk msg) = some i := by
  refine ⟨(i, priEval coeffs i), ?_, ?_, shareIndex_sign S i _ msg (by omega)⟩
  · simp [sigKeyGen, hi]
  · exact (verifyPartial_iff S coeffs msg _).2 ⟨i, shareIndex_sign S i _ msg (by omega), by simp [tblsSign, be16, S.codec.dec_enc]⟩

/-- **C35.** Keys dealt with threshold `t` (`t` coefficients, in the code `t = 2F+1`): whenever the first `t` shares handed to `Recover` verify and have different indices,
the result is the secret key times the hashed message - the same bytes for every choice and order of shares - and the public key accepts it. -/
theorem C35_combine (S : KyberSuite G1 G2 GT) (n t : ℕ) (ht : 1 ≤ t) (coeffs : List Fr) (hc : coeffs.length = t) (msg : Bytes) (a b : List Bytes) (ha : a.length = t)
    (hv : ∀ s ∈ a, tblsVerifyPartial S (sigKeyGen S.pp.g2 n coeffs).2 msg s = true) (hnd : (a.map shareIndex).Nodup) :
    tblsRecover S (sigKeyGen S.pp.g2 n coeffs).2 msg (a ++ b) t = some (S.codec.enc (coeffs.getD 0 0 • S.hm msg)) ∧
    blsVerify S (pubCommit (sigKeyGen S.pp.g2 n coeffs).2) msg (S.codec.enc (coeffs.getD 0 0 • S.hm msg)) = true := by
  constructor
  · obtain ⟨ixs, -, h⟩ := tblsRecover_ok S coeffs msg a b (by rintro rfl; simp at ha; omega) hv hnd (by omega)
    have h0 : coeffs.getD a.length 0 = 0 := by rw [List.getD_eq_getElem?_getD, List.getElem?_eq_none (by omega)]; rfl
    rw [h0, zero_mul, sub_zero, ha] at h
    exact h
  · show blsVerify S (pubCommit (coeffs.map fun c => c • S.pp.g2)) msg _ = true
    rw [pubCommit_eq, blsVerify_iff, S.codec.dec_enc]

/-- **C35.** The public key accepts one group element only. -/
theorem C35_unique (S : KyberSuite G1 G2 GT) (n : ℕ) (coeffs : List Fr) (msg sig : Bytes) :
    blsVerify S (pubCommit (sigKeyGen S.pp.g2 n coeffs).2) msg sig = true ↔ S.codec.dec sig = some (coeffs.getD 0 0 • S.hm msg) := by
  show blsVerify S (pubCommit (coeffs.map fun c => c • S.pp.g2)) msg sig = true ↔ _
  rw [pubCommit_eq, blsVerify_iff]

/-- **C35.** Whatever byte strings are handed to `Recover` - invalid shares, repeated ones, garbage, in any number and order - if it returns a signature, then it is the one
the public key accepts. -/
theorem C35_recover_sound (S : KyberSuite G1 G2 GT) (n t : ℕ) (ht : 1 ≤ t) (coeffs : List Fr) (hc : coeffs.length = t) (msg : Bytes) (sigs : List Bytes) {sig : Bytes}
    (h : tblsRecover S (sigKeyGen S.pp.g2 n coeffs).2 msg sigs t = some sig) :
    sig = S.codec.enc (coeffs.getD 0 0 • S.hm msg) ∧ blsVerify S (pubCommit (sigKeyGen S.pp.g2 n coeffs).2) msg sig = true := by
  subst hc
  have e := tblsRecover_sound S coeffs msg sigs ht h
  refine ⟨e, ?_⟩
  show blsVerify S (pubCommit (coeffs.map fun c => c • S.pp.g2)) msg sig = true
  rw [e, pubCommit_eq, blsVerify_iff, S.codec.dec_enc]

/-- **C35.** "Distinct" is needed: if an index is repeated among the first `t` verified shares, `Recover` fails even when `b` holds enough others. -/
theorem C35_repeated_index (S : KyberSuite G1 G2 GT) (n t : ℕ) (ht : 1 ≤ t) (coeffs : List Fr) (msg : Bytes) (a b : List Bytes) (ha : a.length = t)
    (hv : ∀ s ∈ a, tblsVerifyPartial S (sigKeyGen S.pp.g2 n coeffs).2 msg s = true) (hnd : ¬ (a.map shareIndex).Nodup) :
    tblsRecover S (sigKeyGen S.pp.g2 n coeffs).2 msg (a ++ b) t = none := by
  rw [← ha]
  exact tblsRecover_repeat S coeffs msg a b (by rintro rfl; simp at ha; omega) hv hnd

/-- `2F` verified shares of different parties with threshold `2F` and a key of degree `2F`: valid exactly if the leading coefficient or the hashed message is zero. -/
theorem cert_valid_iff (S : KyberSuite G1 G2 GT) (F : ℕ) (hF : 1 ≤ F) (coeffs : List Fr) (hc : coeffs.length = 2 * F + 1) (msg : Bytes) (a b : List Bytes)
    (ha : a.length = 2 * F) (hv : ∀ s ∈ a, tblsVerifyPartial S (coeffs.map fun c => c • S.pp.g2) msg s = true) (hnd : (a.map shareIndex).Nodup) :
    ∃ sig, tblsRecover S (coeffs.map fun c => c • S.pp.g2) msg (a ++ b) (2 * F) = some sig ∧
      (blsVerify S (pubCommit (coeffs.map fun c => c • S.pp.g2)) msg sig = true ↔ coeffs.getD (2 * F) 0 = 0 ∨ S.hm msg = 0) := by
  obtain ⟨ixs, hix, h⟩ := tblsRecover_ok S coeffs msg a b (by rintro rfl; simp at ha; omega) hv hnd (by omega)
  rw [ha] at h
  refine ⟨_, h, ?_⟩
  rw [pubCommit_eq, blsVerify_iff, S.codec.dec_enc, Option.some.injEq]
  have hp : (ixs.map fun i => -((i + 1 : ℕ) : Fr)).prod ≠ 0 := by
    rw [Ne, List.prod_eq_zero_iff]
    intro hm
    obtain ⟨i, hi, h0⟩ := List.mem_map.1 hm
    have hs : some i ∈ a.map shareIndex := by rw [hix]; exact List.mem_map.2 ⟨i, hi, rfl⟩
    obtain ⟨s, -, hs⟩ := List.mem_map.1 hs
    have := shareIndex_lt hs
    rw [neg_eq_zero] at h0
    have := natCast_inj_lt (a := i + 1) (b := 0) (by omega) (by omega) (by rw [h0]; simp)
    omega
  rw [sub_smul, sub_eq_self, smul_eq_zero, mul_eq_zero, or_iff_left hp]

end

section
variable {G1 G2 GT : Type} [AddCommGroup G1] [Module Fr G1] [AddCommGroup G2] [Module Fr G2] [AddCommGroup GT] [Module Fr GT]
variable [DecidableEq G1] [DecidableEq GT]
variable {K1 K2 KT : Type} [AddCommGroup K1] [Module Fr K1] [AddCommGroup K2] [Module Fr K2] [AddCommGroup KT] [Module Fr KT] [DecidableEq KT]

/-- No certificate made with threshold `2F` is valid. -/
theorem cert_invalid (S : KyberSuite K1 K2 KT) (hdec : S.codec.dec [] = none) (F N : ℕ) (hF : 1 ≤ F) (coeffs : List Fr) (hc : coeffs.length = 2 * F + 1)
    (hlead : coeffs.getD (2 * F) 0 ≠ 0) (sk : ℕ × Fr) (k : ℕ) (hhm : S.hm (decimalBytes k) ≠ 0) (sig : Bytes)
    (h : CertFrom (kyberTbls S (coeffs.map fun c => c • S.pp.g2) sk) F N k sig) :
    blsVerify S (pubCommit (coeffs.map fun c => c • S.pp.g2)) (decimalBytes k) sig = false := by
  obtain ⟨l, pad, hl, hv, rfl⟩ := h
  simp only [kyberTbls] at hv ⊢
  set pub := coeffs.map fun c => c • S.pp.g2 with hpub
  have hsplit : l ++ pad = l.take (2 * F) ++ (l.drop (2 * F) ++ pad) := by rw [← List.append_assoc, List.take_append_drop]
  have htl : (l.take (2 * F)).length = 2 * F := by rw [List.length_take]; omega
  have htv : ∀ s ∈ l.take (2 * F), tblsVerifyPartial S pub (decimalBytes k) s = true := fun s hs => hv s (List.mem_of_mem_take hs)
  rw [hsplit]
  by_cases hnd : ((l.take (2 * F)).map shareIndex).Nodup
  · obtain ⟨sig, h1, h2⟩ := cert_valid_iff S F hF coeffs hc (decimalBytes k) (l.take (2 * F)) (l.drop (2 * F) ++ pad) htl htv hnd
    rw [h1, Option.getD_some, Bool.eq_false_iff]
    intro hc
    rcases h2.1 hc with h | h
    · exact hlead h
    · exact hhm h
  · have := C35_repeated_index S 0 (2 * F) (by omega) coeffs (decimalBytes k) (l.take (2 * F)) (l.drop (2 * F) ++ pad) htl htv hnd
    simp only [sigKeyGen] at this
    rw [← hpub] at this
    rw [this]
    unfold blsVerify
    simp [hdec]

/-- **C36 is false.** In every run of a party, whatever messages it gets, every certificate in its MVBA proposal is rejected by the committee public key, unless the
leading coefficient of the signing key is zero (probability 1/r over keys). -/
theorem C36_never_valid (codec : PointCodec G1) (pp : Pairing Fr G1 G2 GT) (S : KyberSuite K1 K2 KT) (hdec : S.codec.dec [] = none)
    (p0 p : Party G1 G2) (hF : 1 ≤ p0.F) (coeffs : List Fr) (hc : coeffs.length = 2 * p0.F + 1) (hlead : coeffs.getD (2 * p0.F) 0 ≠ 0)
    (hhm : ∀ k, S.hm (decimalBytes k) ≠ 0) (sk : ℕ × Fr) (c : DealerCoins) (evs : List PEvent) (outs : List POut) (st : PState G1)
    (h : PRun codec pp (kyberTbls S (sigKeyGen S.pp.g2 p0.N coeffs).2 sk) p0 (PState.init p0 c) evs outs p st) (m : PMVBAIN) (hm : POut.mvba m ∈ outs) :
    ∃ L : List (ℕ × Bytes), m = ⟨L.map (·.2), L.map fun q => UInt32.ofNat q.1⟩ ∧ p0.F + 1 ≤ L.length ∧
      ∀ q ∈ L, blsVerify S (pubCommit (sigKeyGen S.pp.g2 p0.N coeffs).2) (decimalBytes q.1) q.2 = false := by
  obtain ⟨L, h1, h2, h3⟩ := (PRun.certs h).prop m hm
  exact ⟨L, h1, h2, fun q hq => cert_invalid S hdec p0.F p0.N hF coeffs hc hlead sk q.1 (hhm _) q.2 (h3 q hq)⟩

/-- **C36 is false.** With everybody honest, a party does send a proposal, for each of the `F+1` resharers `ks` it names, and none of its certificates is valid. -/
theorem C36_refuted (codec : PointCodec G1) (pp : Pairing Fr G1 G2 GT) (t : Fr) (S : KyberSuite K1 K2 KT) (hdec : S.codec.dec [] = none)
    (p : Party G1 G2) (hp : p.Setup pp t) (hF : 1 ≤ p.F) (hF' : p.F ≤ 2 ^ 20) (hN : 3 * p.F + 1 ≤ p.N) (hN' : p.N ≤ 65536) (hpid : p.pid < p.N)
    (hl : p.reducedShare.length = p.F + 1) (coeffs : List Fr) (hc : coeffs.length = 2 * p.F + 1) (hlead : coeffs.getD (2 * p.F) 0 ≠ 0)
    (hhm : ∀ k, S.hm (decimalBytes k) ≠ 0) (sk : ℕ × Fr) (c : DealerCoins) (q : ℕ → ℕ → ℕ → Fr) (D : ℕ → Bytes)
    (hD : ∀ j, 1 ≤ j → j ≤ p.N → ∀ row, ∃ row', verifyCommit codec pp p row (unmarshalD (⟨[]⟩ : PCommit) (D j)) = .ok (row', true) ∧
      CommitsTo pp t p.F p.N (q j) row')
    (ks : List ℕ) (hks : ks.Nodup) (hksl : ks.length = p.F + 1) (hks1 : ∀ k ∈ ks, 1 ≤ k ∧ k ≤ p.N) :
    ∃ evs p' st, ∃ L : List (ℕ × Bytes),
      PRun codec pp (kyberTbls S (sigKeyGen S.pp.g2 p.N coeffs).2 sk) p (PState.init p c) evs
        [.mvba ⟨L.map (·.2), L.map fun q => UInt32.ofNat q.1⟩] p' st ∧ L.map (·.1) = ks ∧
      ∀ q ∈ L, blsVerify S (pubCommit (sigKeyGen S.pp.g2 p.N coeffs).2) (decimalBytes q.1) q.2 = false := by
  set tb := kyberTbls S (sigKeyGen S.pp.g2 p.N coeffs).2 sk with htb
  set sg : ℕ → ℕ → Bytes := fun k i => if 1 ≤ i ∧ i ≤ 2 * p.F + 1 then tblsSign S (i - 1, priEval coeffs (i - 1)) (decimalBytes k) else [] with hsgd
  have hver : ∀ k i, 1 ≤ i → i ≤ 2 * p.F + 1 → tb.verifyPartial (decimalBytes k) (sg k i) = true := by
    intro k i h1 h2
    have hi : i - 1 < 65536 := by omega
    simp only [hsgd, if_pos (And.intro h1 h2), htb, kyberTbls, sigKeyGen]
    exact (verifyPartial_iff S coeffs _ _).2 ⟨i - 1, shareIndex_sign S _ _ _ hi, by simp [tblsSign, be16, S.codec.dec_enc]⟩
  have hlen : ∀ k i, (sg k i).length < 2 ^ 32 := by
    intro k i
    simp only [hsgd]
    split
    · simp only [tblsSign, be16, List.length_append, List.length_cons, List.length_nil]
      have := S.codec.enc_len (priEval coeffs (i - 1) • S.hm (decimalBytes k))
      omega
    · simp
  have hrec : ∀ m s a n r, tb.recover m s a n = some r → r.length < 2 ^ 32 := by
    intro m s a n r hr
    simp only [htb, kyberTbls, tblsRecover] at hr
    split at hr
    · cases hr
    · obtain ⟨x, -, rfl⟩ := Option.map_eq_some_iff.1 hr
      have := S.codec.enc_len x
      omega
  obtain ⟨rs, Cs, st, r, -⟩ := refresh_phase_run (codec := codec) (tb := tb) hp hF hF' hN (by omega) hpid hl c q D hD sg hlen hver hrec ks ks hks hksl hks1 hksl hks1 sg
  have fin : ∀ evs p', PRun codec pp tb p (PState.init p c) evs [.mvba (mvbaInput tb p.F p.N sg ks)] p' st → ∃ evs p' st, ∃ L : List (ℕ × Bytes),
      PRun codec pp tb p (PState.init p c) evs [.mvba ⟨L.map (·.2), L.map fun q => UInt32.ofNat q.1⟩] p' st ∧ L.map (·.1) = ks ∧
      ∀ q ∈ L, blsVerify S (pubCommit (sigKeyGen S.pp.g2 p.N coeffs).2) (decimalBytes q.1) q.2 = false := by
   intro evs p' r
   refine ⟨evs, p', st, ks.map fun k => (k, honestSig tb p.F p.N (sg k) k), ?_, ?_, ?_⟩
   · have e : mvbaInput tb p.F p.N sg ks = ⟨(ks.map fun k => (k, honestSig tb p.F p.N (sg k) k)).map (·.2),
         (ks.map fun k => (k, honestSig tb p.F p.N (sg k) k)).map fun q => UInt32.ofNat q.1⟩ := by simp [mvbaInput, Function.comp_def]
     rw [e] at r
     exact r
   · rw [List.map_map]; exact (List.map_congr_left (fun a _ => rfl)).trans (List.map_id _)
   · intro q' hq'
     obtain ⟨k, hk, rfl⟩ := List.mem_map.1 hq'
     refine cert_invalid S hdec p.F p.N hF coeffs hc hlead sk k (hhm _) _ ⟨(oneTo (2 * p.F + 1)).map (sg k), List.replicate (p.N + 1 - (2 * p.F + 1)) [], by simp [oneTo], ?_, rfl⟩
     intro s hs
     obtain ⟨i, hi, rfl⟩ := List.mem_map.1 hs
     simp only [oneTo, List.mem_map, List.mem_range] at hi
     obtain ⟨i, hi, rfl⟩ := hi
     exact hver k _ (by omega) (by omega)
  exact fin _ _ r

/-- **C36, what holds:** a certificate from verified shares with different indices is valid exactly for keys whose leading coefficient is zero (or if the message hashes to the
neutral element). Missing: everything else, see `C36_never_valid`. -/
theorem C36_degenerate_key_partial (S : KyberSuite K1 K2 KT) (F N : ℕ) (hF : 1 ≤ F) (coeffs : List Fr) (hc : coeffs.length = 2 * F + 1) (sk : ℕ × Fr) (k : ℕ) (l pad : List Bytes)
    (hl : 2 * F ≤ l.length) (hv : ∀ s ∈ l, (kyberTbls S (sigKeyGen S.pp.g2 N coeffs).2 sk).verifyPartial (decimalBytes k) s = true) (hnd : (l.map shareIndex).Nodup) :
    ∃ sig, (kyberTbls S (sigKeyGen S.pp.g2 N coeffs).2 sk).recover (decimalBytes k) (l ++ pad) (2 * F) N = some sig ∧
      (blsVerify S (pubCommit (sigKeyGen S.pp.g2 N coeffs).2) (decimalBytes k) sig = true ↔ coeffs.getD (2 * F) 0 = 0 ∨ S.hm (decimalBytes k) = 0) := by
  simp only [kyberTbls, sigKeyGen] at hv ⊢
  have hsplit : l ++ pad = l.take (2 * F) ++ (l.drop (2 * F) ++ pad) := by rw [← List.append_assoc, List.take_append_drop]
  rw [hsplit]
  exact cert_valid_iff S F hF coeffs hc _ _ _ (by rw [List.length_take]; omega) (fun s hs => hv s (List.mem_of_mem_take hs))
    (by rw [List.map_take]; exact hnd.sublist (List.take_sublist _ _))

end

/-! ## Concrete cases -/

/-- Points as logarithms, every message hashes to 7. -/
def toySuite : KyberSuite Fr Fr Fr := ⟨frCodec, Pairing.dlog Fr, fun _ => 7, true⟩

theorem toySuite_dec : toySuite.codec.dec [] = none := by decide +kernel

/-- `N = 4`, `F = 1`, key polynomial `5 + 3x + 2x²`: the shares of parties 0, 2, 3 combine to `5·7` with threshold 3. -/
example : tblsRecover toySuite (sigKeyGen 1 4 [5, 3, 2]).2 [1, 2] ([(3 : ℕ), 0, 2].map fun i => tblsSign toySuite (i, priEval [5, 3, 2] i) [1, 2]) 3 = some (frTo32 35) := by
  decide +kernel

/-- The same shares with threshold 2, as in the Recover phase: `(5 - 2·4·1)·7`, not accepted. -/
example : tblsRecover toySuite (sigKeyGen 1 4 [5, 3, 2]).2 [1, 2] ([(3 : ℕ), 0, 2].map fun i => tblsSign toySuite (i, priEval [5, 3, 2] i) [1, 2]) 2 = some (frTo32 (-21)) ∧
    blsVerify toySuite (pubCommit (sigKeyGen 1 4 [5, 3, 2]).2) [1, 2] (frTo32 (-21)) = false := by
  decide +kernel

/-- A repeated share among the first three: an error although three different shares are there. -/
example : tblsRecover toySuite (sigKeyGen 1 4 [5, 3, 2]).2 [1, 2] ([(3 : ℕ), 3, 0, 2].map fun i => tblsSign toySuite (i, priEval [5, 3, 2] i) [1, 2]) 3 = none := by
  decide +kernel

/-- Garbage and a wrong share among the shares, in a library that skips them: still `5·7`. -/
example : tblsRecover { toySuite with strict := false } (sigKeyGen 1 4 [5, 3, 2]).2 [1, 2]
    ([[], [0, 1, 9], tblsSign toySuite (1, 8) [1, 2]] ++ [(3 : ℕ), 0, 2].map fun i => tblsSign toySuite (i, priEval [5, 3, 2] i) [1, 2]) 3 = some (frTo32 35) := by
  decide +kernel

/-- The premises of `C35_combine` are met by these shares. -/
example : (∀ s ∈ [(3 : ℕ), 0, 2].map (fun i => tblsSign toySuite (i, priEval [5, 3, 2] i) [1, 2]), tblsVerifyPartial toySuite (sigKeyGen toySuite.pp.g2 4 [5, 3, 2]).2 [1, 2] s = true) ∧
    (([(3 : ℕ), 0, 2].map fun i => tblsSign toySuite (i, priEval [5, 3, 2] i) [1, 2]).map shareIndex).Nodup := by
  constructor
  · decide +kernel
  · decide +kernel

end DyCAPS
