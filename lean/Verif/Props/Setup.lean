import Verif.Lemmas.Setup
import Verif.Props.FFT
import Verif.Props.Secrecy
import Verif.Props.Tbls
import Verif.Spec.Poly

/-!
# Start-up of a node and small utilities (C73 to C79)
-/

namespace DyCAPS

open Polynomial

section Keys
variable {K1 K2 KT : Type} [AddCommGroup K1] [Module Fr K1] [AddCommGroup K2] [Module Fr K2] [AddCommGroup KT] [Module Fr KT] [DecidableEq KT]

/-! ## C73: the key files -/

/-- **C73.** Every process started with the parameters the files were generated for holds exactly the generated keys: share `i` is the value at `i+1` of the generated polynomial, the public polynomial is
its commitment, and the keys of the next committee come from the second polynomial. -/
theorem C73_key_files (g2 : K2) (n f : ℕ) (coeffs coeffsNew : List Fr) (h : coeffs.length = 2 * f + 1) (h' : coeffsNew.length = 2 * f + 1) :
    ∃ old new, nodeKeys g2 n f (genCoefficientsFile coeffs coeffsNew) = .ok (old, new) ∧
      (old.1.length = n ∧ ∀ i < n, old.1[i]? = some (i, polyVal coeffs ((i + 1 : ℕ) : Fr))) ∧ old.2 = coeffs.map (fun c => c • g2) ∧
      (new.1.length = n ∧ ∀ i < n, new.1[i]? = some (i, polyVal coeffsNew ((i + 1 : ℕ) : Fr))) ∧ new.2 = coeffsNew.map fun c => c • g2 := by
  have key : ∀ c : List Fr, (sigKeyGen g2 n c).1.length = n ∧ ∀ i < n, (sigKeyGen g2 n c).1[i]? = some (i, polyVal c ((i + 1 : ℕ) : Fr)) := by
    intro c
    refine ⟨by simp [sigKeyGen], fun i hi => ?_⟩
    rw [sigKeyGen, List.getElem?_map, List.getElem?_range hi]
    simp only [Option.map_some, priEval_eq, eval_polyOf]
  refine ⟨sigKeyGen g2 n coeffs, sigKeyGen g2 n coeffsNew, ?_, key _, rfl, key _, rfl⟩
  rw [nodeKeys, genCoefficientsFile, sigKeyGenFix_ok _ _ _ _ h.ge, sigKeyGenFix_ok _ _ _ _ h'.ge, List.take_of_length_le h.le, List.take_of_length_le h'.le]
  rfl

/-- **C73.** A process started with a larger `f` than the files were generated for, or without one of the files, stops with a panic. -/
theorem C73_stops (g2 : K2) (n f : ℕ) (files : KeyFiles) (coeffs coeffsNew : List Fr) :
    (coeffs.length < 2 * f + 1 → nodeKeys g2 n f (genCoefficientsFile coeffs coeffsNew) = .error .panic) ∧
    (2 * f + 1 ≤ coeffs.length → coeffsNew.length < 2 * f + 1 → nodeKeys g2 n f (genCoefficientsFile coeffs coeffsNew) = .error .panic) ∧
    (files.old = none → nodeKeys g2 n f files = .error .panic) := by
  refine ⟨fun h => ?_, fun h1 h2 => ?_, fun h => ?_⟩
  · rw [nodeKeys, genCoefficientsFile, sigKeyGenFix_panic _ _ _ _ h]; rfl
  · rw [nodeKeys, genCoefficientsFile, sigKeyGenFix_ok _ _ _ _ h1, sigKeyGenFix_panic _ _ _ _ h2]; rfl
  · rw [nodeKeys, h]; rfl

/-- **C73.** A process started with a smaller `f` starts without an error and has the public key of the others, but its share is a value of the truncated polynomial: what it signs is accepted by the
others exactly if the two polynomials agree at its point (or the message hashes to zero). -/
theorem C73_smaller_f (S : KyberSuite K1 K2 KT) (n f : ℕ) (coeffs coeffsNew : List Fr) (h : 2 * f + 1 ≤ coeffs.length) (h' : 2 * f + 1 ≤ coeffsNew.length) (hn : n ≤ 65536) :
    ∃ keys, nodeKeys S.pp.g2 n f (genCoefficientsFile coeffs coeffsNew) = .ok keys ∧ pubCommit keys.1.2 = coeffs.getD 0 0 • S.pp.g2 ∧
      ∀ i < n, ∃ sk, keys.1.1[i]? = some sk ∧ ∀ msg,
        (tblsVerifyPartial S (sigKeyGen S.pp.g2 n coeffs).2 msg (tblsSign S sk msg) = true ↔
          polyVal (coeffs.take (2 * f + 1)) ((i + 1 : ℕ) : Fr) • S.hm msg = polyVal coeffs ((i + 1 : ℕ) : Fr) • S.hm msg) := by
  refine ⟨(sigKeyGen S.pp.g2 n (coeffs.take (2 * f + 1)), sigKeyGen S.pp.g2 n (coeffsNew.take (2 * f + 1))), ?_, ?_, ?_⟩
  · rw [nodeKeys, genCoefficientsFile, sigKeyGenFix_ok _ _ _ _ h, sigKeyGenFix_ok _ _ _ _ h']; rfl
  · show pubCommit ((coeffs.take (2 * f + 1)).map fun c => c • S.pp.g2) = _
    rw [pubCommit_eq]
    congr 1
    cases coeffs with
    | nil => rfl
    | cons a l => simp
  · intro i hi
    refine ⟨(i, priEval (coeffs.take (2 * f + 1)) i), by simp [sigKeyGen, hi], fun msg => ?_⟩
    show tblsVerifyPartial S (coeffs.map fun c => c • S.pp.g2) msg _ = true ↔ _
    rw [verifyPartial_iff, ← eval_polyOf, ← eval_polyOf, ← priEval_eq, ← priEval_eq]
    have hix := shareIndex_sign S i (priEval (coeffs.take (2 * f + 1)) i) msg (by omega)
    constructor
    · rintro ⟨j, hj, hd⟩
      rw [hix] at hj
      cases hj
      simpa [tblsSign, be16, S.codec.dec_enc] using hd
    · intro e
      exact ⟨i, hix, by simpa [tblsSign, be16, S.codec.dec_enc] using e⟩

/-- `5 + 3x + 2x²` for `f = 1`: started with `f = 0`, party 1 has share 5 instead of `5 + 3·2 + 2·4 = 19`. -/
example : (nodeKeys (1 : Fr) 4 1 (genCoefficientsFile [5, 3, 2] [1, 1, 1])).map (fun k => k.1.1) = .ok [(0, 10), (1, 19), (2, 32), (3, 49)] ∧
    (nodeKeys (1 : Fr) 4 1 (genCoefficientsFile [5, 3, 2] [1, 1, 1])).map (fun k => k.2.1) = .ok [(0, 3), (1, 7), (2, 13), (3, 21)] ∧
    (nodeKeys (1 : Fr) 4 0 (genCoefficientsFile [5, 3, 2] [1, 1, 1])).map (fun k => k.1.1) = .ok [(0, 5), (1, 5), (2, 5), (3, 5)] ∧
    (nodeKeys (1 : Fr) 4 2 (genCoefficientsFile [5, 3, 2] [1, 1, 1])).map (fun k => k.1.1) = .error .panic := by
  decide +kernel

/-! ## C74: who can sign -/

/-- What one process can do alone with the keys it has read at start: sign with the first `t` shares and combine. -/
def soloSign (S : KyberSuite K1 K2 KT) (t : ℕ) (keys : List (ℕ × Fr) × List K2) (msg : Bytes) : Option Bytes :=
  tblsRecover S keys.2 msg ((keys.1.take t).map fun sk => tblsSign S sk msg) t

theorem soloSign_enc (S : KyberSuite K1 K2 KT) (n t : ℕ) (ht : 1 ≤ t) (htn : t ≤ n) (hn : n ≤ 65536) (coeffs : List Fr) (hc : coeffs.length = t) (msg : Bytes) :
    soloSign S t (sigKeyGen S.pp.g2 n coeffs) msg = some (S.codec.enc (coeffs.getD 0 0 • S.hm msg)) := by
  have hsk : ((sigKeyGen S.pp.g2 n coeffs).1.take t).map (fun sk => tblsSign S sk msg) = (List.range t).map fun i => tblsSign S (i, priEval coeffs i) msg := by
    rw [sigKeyGen, ← List.map_take, List.take_range, min_eq_left htn, List.map_map]
    rfl
  have hv : ∀ s ∈ (List.range t).map fun i => tblsSign S (i, priEval coeffs i) msg, tblsVerifyPartial S (sigKeyGen S.pp.g2 n coeffs).2 msg s = true := by
    intro s hs
    obtain ⟨i, hi, rfl⟩ := List.mem_map.1 hs
    obtain ⟨sk, h1, h2, -⟩ := C35_honest_share S n hn coeffs msg i (by rw [List.mem_range] at hi; omega)
    have : sk = (i, priEval coeffs i) := by
      have := List.mem_range.1 hi
      simp only [sigKeyGen, List.getElem?_map, List.getElem?_range (by omega : i < n), Option.map_some, Option.some.injEq] at h1
      exact h1.symm
    rw [← this]
    exact h2
  have hnd : (((List.range t).map fun i => tblsSign S (i, priEval coeffs i) msg).map shareIndex).Nodup := by
    have : ((List.range t).map fun i => tblsSign S (i, priEval coeffs i) msg).map shareIndex = (List.range t).map some := by
      rw [List.map_map]
      refine List.map_congr_left fun i hi => ?_
      exact shareIndex_sign S i _ msg (by rw [List.mem_range] at hi; omega)
    rw [this]
    exact List.nodup_range.map (Option.some_injective _)
  have h1 := (C35_combine S n t ht coeffs hc msg _ [] (by simp) hv hnd).1
  rw [List.append_nil] at h1
  rw [soloSign, hsk]
  exact h1

theorem soloSign_ok (S : KyberSuite K1 K2 KT) (n t : ℕ) (ht : 1 ≤ t) (htn : t ≤ n) (hn : n ≤ 65536) (coeffs : List Fr) (hc : coeffs.length = t) (msg : Bytes) :
    ∃ sig, soloSign S t (sigKeyGen S.pp.g2 n coeffs) msg = some sig ∧ blsVerify S (pubCommit (sigKeyGen S.pp.g2 n coeffs).2) msg sig = true :=
  ⟨_, soloSign_enc S n t ht htn hn coeffs hc msg, (C35_unique S n coeffs _ _).2 (S.codec.dec_enc _)⟩

/-- **C74.** The property fails: every single process - of any identity and role, in the old or the new committee, and the client - produces alone, for every message, signatures that the public keys
of both committees accept. -/
theorem C74_refuted (S : KyberSuite K1 K2 KT) (n f : ℕ) (hn : 2 * f + 1 ≤ n) (hn' : n ≤ 65536) (coeffs coeffsNew : List Fr) (h : coeffs.length = 2 * f + 1) (h' : coeffsNew.length = 2 * f + 1) :
    ∃ old new, nodeKeys S.pp.g2 n f (genCoefficientsFile coeffs coeffsNew) = .ok (old, new) ∧ ∀ msg,
      (∃ sig, soloSign S (2 * f + 1) old msg = some sig ∧ blsVerify S (coeffs.getD 0 0 • S.pp.g2) msg sig = true) ∧
      ∃ sig, soloSign S (2 * f + 1) new msg = some sig ∧ blsVerify S (coeffsNew.getD 0 0 • S.pp.g2) msg sig = true := by
  refine ⟨sigKeyGen S.pp.g2 n coeffs, sigKeyGen S.pp.g2 n coeffsNew, ?_, fun msg => ⟨?_, ?_⟩⟩
  · rw [nodeKeys, genCoefficientsFile, sigKeyGenFix_ok _ _ _ _ h.ge, sigKeyGenFix_ok _ _ _ _ h'.ge, List.take_of_length_le h.le, List.take_of_length_le h'.le]
    rfl
  · obtain ⟨sig, h1, h2⟩ := soloSign_ok S n (2 * f + 1) (by omega) hn hn' coeffs h msg
    rw [show (sigKeyGen S.pp.g2 n coeffs).2 = coeffs.map fun c => c • S.pp.g2 from rfl, pubCommit_eq] at h2
    exact ⟨sig, h1, h2⟩
  · obtain ⟨sig, h1, h2⟩ := soloSign_ok S n (2 * f + 1) (by omega) hn hn' coeffsNew h' msg
    rw [show (sigKeyGen S.pp.g2 n coeffsNew).2 = coeffsNew.map fun c => c • S.pp.g2 from rfl, pubCommit_eq] at h2
    exact ⟨sig, h1, h2⟩

/-- **C74.** What the sharing itself gives: at most `2f` shares, of whichever parties, are consistent with every possible secret key. Missing from the full statement: the code gives each process more
than its share. -/
theorem C74_shares_hide_partial (g2 : K2) (n f : ℕ) (hn : n ≤ 65536) (coeffs : List Fr) (h : coeffs.length = 2 * f + 1) (A : Finset ℕ) (hA : A.card ≤ 2 * f) (s : Fr) :
    ∃ coeffs' : List Fr, coeffs'.length = 2 * f + 1 ∧ coeffs'.getD 0 0 = s ∧
      ∀ i ∈ A, i < n → (sigKeyGen g2 n coeffs').1[i]? = (sigKeyGen g2 n coeffs).1[i]? := by
  classical
  set B := (A.filter fun i => i < n).image fun i => i + 1 with hB
  have hBc : B.card ≤ 2 * f := (Finset.card_image_le.trans (Finset.card_filter_le _ _)).trans hA
  refine ⟨(List.range (2 * f + 1)).map fun j => coeffs.getD j 0 + (s - coeffs.getD 0 0) * (rootPoly B).coeff j, by simp, ?_, ?_⟩
  · rw [getD_map_range _ _ _ _ (by omega), rootPoly_zero]
    ring
  · intro i hi hin
    have hiB : i + 1 ∈ B := Finset.mem_image.2 ⟨i, Finset.mem_filter.2 ⟨hi, hin⟩, rfl⟩
    have hr := rootPoly_root B (i + 1) hiB (by omega) (by have : 65537 < frModulus := (by decide +kernel); omega) (2 * f) hBc
    simp only [sigKeyGen, List.getElem?_map, List.getElem?_range hin, Option.map_some]
    rw [priEval_eq, priEval_eq, eval_polyOf, eval_polyOf, polyVal, polyVal, h, List.length_map, List.length_range]
    congr 2
    have : ∀ j ∈ Finset.range (2 * f + 1), ((List.range (2 * f + 1)).map fun j => coeffs.getD j 0 + (s - coeffs.getD 0 0) * (rootPoly B).coeff j).getD j 0 * ((i + 1 : ℕ) : Fr) ^ j =
        coeffs.getD j 0 * ((i + 1 : ℕ) : Fr) ^ j + (s - coeffs.getD 0 0) * ((rootPoly B).coeff j * ((i + 1 : ℕ) : Fr) ^ j) := by
      intro j hj
      rw [getD_map_range _ _ _ _ (Finset.mem_range.1 hj)]
      ring
    rw [Finset.sum_congr rfl this, Finset.sum_add_distrib, ← Finset.mul_sum, hr, mul_zero, add_zero]

/-- Four parties, `f = 1`, key `5`: one process signs alone. -/
example : soloSign toySuite 3 (sigKeyGen 1 4 [5, 3, 2]) [1, 2] = some (frTo32 35) ∧ blsVerify toySuite (5 : Fr) [1, 2] (frTo32 35) = true := by
  decide +kernel

end Keys

/-! ## C75: text form of points -/

section Text
variable {G : Type}

/-- Lower-case of a hexadecimal digit. -/
def lowerHex (c : UInt8) : UInt8 := if 65 ≤ c.toNat ∧ c.toNat ≤ 70 then c + 32 else c

/-- **C75.** Decoding the text form of a point gives the point back, whatever the receiver held. -/
theorem C75_roundtrip (enc : G → Bytes) (dec : Bytes → Option G) (hcodec : ∀ p, dec (enc p) = some p) (p q : G) :
    pointUnmarshalText dec (some q) (pointMarshalText enc p) = (some p, true) := by
  rw [pointUnmarshalText, pointMarshalText, hexDecode_encode]
  simp only [hcodec]

/-- **C75.** Whenever an error is returned - nil receiver, odd length, a character that is no hexadecimal digit, bytes that are no point - the receiver is as before. -/
theorem C75_error_keeps (dec : Bytes → Option G) (p : Option G) (text : Bytes) (h : (pointUnmarshalText dec p text).2 = false) : (pointUnmarshalText dec p text).1 = p := by
  unfold pointUnmarshalText at h ⊢
  cases p with
  | none => rfl
  | some q =>
    cases h1 : hexDecode text with
    | none => rfl
    | some d =>
      simp only [h1] at h
      cases h2 : dec d with
      | none => simp only [h2]
      | some x => simp [h2] at h

theorem hexDecode_iff : ∀ (text data : Bytes), hexDecode text = some data ↔ text.map lowerHex = hexEncode data
  | [], data => by
    cases data with
    | nil => simp [hexDecode, hexEncode]
    | cons x b => simp [hexDecode, hexEncode]
  | [a], data => by
    cases data with
    | nil => simp [hexDecode, hexEncode]
    | cons x b => simp [hexDecode, hexEncode]
  | a :: b :: rest, data => by
    have digit : ∀ (c : UInt8) (m : Fin 16), hexVal c = some m.val ↔ lowerHex c = hexDigit m := by
      have : ∀ (c : Fin 256) (m : Fin 16), hexVal (UInt8.ofNat c.val) = some m.val ↔ lowerHex (UInt8.ofNat c.val) = hexDigit m := by decide +kernel
      intro c m
      have := this ⟨c.toNat, c.toNat_lt⟩ m
      simpa using this
    cases data with
    | nil =>
      rw [hexDecode]
      simp only [hexEncode, List.flatMap_nil, List.map_cons]
      constructor
      · intro h
        cases hx : hexVal a with
        | none => simp [hx] at h
        | some x =>
          cases hy : hexVal b with
          | none => simp [hx, hy] at h
          | some y =>
            cases hr : hexDecode rest with
            | none => simp [hx, hy, hr] at h
            | some r => simp [hx, hy, hr] at h
      · intro h; cases h
    | cons d ds =>
      have hd := d.toNat_lt
      show hexDecode (a :: b :: rest) = some (d :: ds) ↔ lowerHex a :: lowerHex b :: rest.map lowerHex = hexDigit (d.toNat / 16) :: hexDigit (d.toNat % 16) :: hexEncode ds
      rw [hexDecode, List.cons.injEq, List.cons.injEq, ← hexDecode_iff rest ds, ← digit a ⟨d.toNat / 16, by omega⟩, ← digit b ⟨d.toNat % 16, by omega⟩]
      constructor
      · intro h
        cases hx : hexVal a with
        | none => simp [hx] at h
        | some x =>
          cases hy : hexVal b with
          | none => simp [hx, hy] at h
          | some y =>
            cases hr : hexDecode rest with
            | none => simp [hx, hy, hr] at h
            | some r =>
              simp only [hx, hy, hr, Option.bind_eq_bind, Option.bind_some] at h
              have h' := Option.some.inj h
              rw [List.cons.injEq] at h'
              have hx' := hexVal_lt hx
              have hy' := hexVal_lt hy
              have hn : 16 * x + y = d.toNat := by
                rw [← h'.1, UInt8.toNat_ofNat']
                omega
              exact ⟨by congr 1; show x = d.toNat / 16; omega, by congr 1; show y = d.toNat % 16; omega, by rw [h'.2]⟩
      · rintro ⟨h1, h2, h3⟩
        rw [h1, h2, h3]
        simp only [Option.bind_eq_bind, Option.bind_some]
        have : UInt8.ofNat (16 * (d.toNat / 16) + d.toNat % 16) = d := by
          apply UInt8.toNat_inj.1
          rw [UInt8.toNat_ofNat']
          omega
        rw [this]
        rfl

/-- **C75.** Exactly these texts are accepted: the hexadecimal digits, in either case, of an encoding that decodes to a point; and the receiver is then this point. -/
theorem C75_accepts (dec : Bytes → Option G) (q p : G) (text : Bytes) :
    pointUnmarshalText dec (some q) text = (some p, true) ↔ ∃ data, text.map lowerHex = hexEncode data ∧ dec data = some p := by
  simp only [← hexDecode_iff]
  unfold pointUnmarshalText
  cases h1 : hexDecode text with
  | none => simp
  | some d =>
    cases h2 : dec d with
    | none => simp [h2]
    | some x => simp [h2]

/-- `"0aF"` has odd length; `"0aFf"` is the two bytes 10, 255; a receiver that got an error keeps its value. -/
example : hexDecode [48, 97, 70] = none ∧ hexDecode [48, 97, 70, 102] = some [10, 255] ∧ hexEncode [10, 255] = [48, 97, 102, 102] ∧
    pointUnmarshalText frPointDec (some 7) [48, 97, 70] = (some 7, false) ∧ pointUnmarshalText frPointDec (some 7) (pointMarshalText frPointEnc 1000) = (some 1000, true) := by
  decide +kernel

end Text

/-! ## C76: the size of the evaluation domain -/

/-- **C76.** For 1 to 127 parties the result is the least `k` for which the domain of `2^k` points has room for the parties and the point for the secret; every other number of parties panics. -/
theorem C76_scale (size : UInt32) :
    (1 ≤ size.toNat ∧ size.toNat ≤ 127 → ∃ k, getScaleByCommitteeSize size = .ok k ∧ size.toNat + 1 ≤ 2 ^ k ∧ ∀ j, size.toNat + 1 ≤ 2 ^ j → k ≤ j) ∧
    (¬ (1 ≤ size.toNat ∧ size.toNat ≤ 127) → getScaleByCommitteeSize size = .error .panic) := by
  have hlt := size.toNat_lt
  have hmin : ∀ k j : ℕ, ∀ m : ℕ, 2 ^ k < m → m ≤ 2 ^ j → k + 1 ≤ j := by
    intro k j m h1 h2
    exact (Nat.pow_lt_pow_iff_right (by norm_num : 1 < 2)).1 (lt_of_lt_of_le h1 h2)
  have hadd : (size + 1).toNat = (size.toNat + 1) % 2 ^ 32 := by rw [UInt32.toNat_add]; rfl
  unfold getScaleByCommitteeSize
  simp only [GT.gt, UInt32.lt_iff_toNat_lt, UInt32.le_iff_toNat_le, hadd]
  simp only [UInt32.reduceToNat]
  constructor
  · intro h
    have e : (size.toNat + 1) % 2 ^ 32 = size.toNat + 1 := Nat.mod_eq_of_lt (by omega)
    rw [e]
    split_ifs with h1 h2 h3 h4 h5 h6 h7
    · exact ⟨1, rfl, by omega, fun j hj => hmin 0 j _ (by omega) hj⟩
    · exact ⟨2, rfl, by omega, fun j hj => hmin 1 j _ (by omega) hj⟩
    · exact ⟨3, rfl, by omega, fun j hj => hmin 2 j _ (by omega) hj⟩
    · exact ⟨4, rfl, by omega, fun j hj => hmin 3 j _ (by omega) hj⟩
    · exact ⟨5, rfl, by omega, fun j hj => hmin 4 j _ (by omega) hj⟩
    · exact ⟨6, rfl, by omega, fun j hj => hmin 5 j _ (by omega) hj⟩
    · exact ⟨7, rfl, by omega, fun j hj => hmin 6 j _ (by omega) hj⟩
    · omega
  · intro h
    split_ifs <;> first | rfl | omega

/-- Four parties need a domain of 8 points. -/
example : getScaleByCommitteeSize 4 = .ok 3 ∧ getScaleByCommitteeSize 0 = .error .panic ∧ getScaleByCommitteeSize 4294967295 = .error .panic := by decide +kernel

/-! ## C77: samples from indexed values -/

/-- **C77.** With a power of two as width, as many values as indices and no more than the width, and all indices inside the width: the result has the width as length and holds, at each position, the value
whose index it is - the last one, if the index is repeated - and nothing at the other positions. -/
theorem C77_samples {α : Type} (idxs : List ℤ) (vals : List α) (k : ℕ) (hl : idxs.length = vals.length) (hk : idxs.length ≤ 2 ^ k) (hin : ∀ i ∈ idxs, 0 ≤ i ∧ i < 2 ^ k) :
    ∃ out, getSamples idxs vals (2 ^ k) = .ok out ∧ out.length = 2 ^ k ∧
      (∀ j < 2 ^ k, out.getD j none = (((idxs.zip vals).filter fun iv => iv.1 = (j : ℤ)).getLast?).map Prod.snd) ∧
      (idxs.Nodup → ∀ n (h1 : n < idxs.length) (h2 : n < vals.length), out.getD idxs[n].toNat none = some vals[n]) := by
  have hz : ∀ iv ∈ idxs.zip vals, 0 ≤ iv.1 ∧ iv.1 < ((List.replicate (2 ^ k) (none : Option α)).length : ℤ) := by
    intro iv hiv
    have := hin iv.1 (List.of_mem_zip (a := iv.1) (b := iv.2) hiv).1
    simpa using this
  obtain ⟨out, h1, h2, h3⟩ := putSample_fold (idxs.zip vals) (List.replicate (2 ^ k) none) hz
  rw [List.length_replicate] at h2 h3
  have h3' : ∀ j < 2 ^ k, out.getD j none = (((idxs.zip vals).filter fun iv => iv.1 = (j : ℤ)).getLast?).map Prod.snd := by
    intro j hj
    rw [h3 j hj]
    cases ((idxs.zip vals).filter fun iv => iv.1 = (j : ℤ)).getLast? with
    | none => exact getD_replicate _ _ _
    | some q => rfl
  refine ⟨out, ?_, h2, h3', ?_⟩
  · rw [getSamples, if_neg (by simp [isPowerOfTwo_pow]), if_neg (by simpa using hl), if_neg (by omega), h1]
  · intro hnd n hn hn'
    obtain ⟨g0, g1⟩ := hin idxs[n] (List.getElem_mem hn)
    have hlt : idxs[n].toNat < 2 ^ k := by zify; omega
    rw [h3' _ hlt]
    have hmem : (idxs[n], vals[n]) ∈ idxs.zip vals := by
      rw [List.mem_iff_getElem]
      exact ⟨n, by simp; omega, by simp⟩
    have huniq : ∀ iv ∈ (idxs.zip vals).filter fun iv => iv.1 = ((idxs[n].toNat : ℕ) : ℤ), iv = (idxs[n], vals[n]) := by
      intro iv hiv
      obtain ⟨m1, m2⟩ := List.mem_filter.1 hiv
      obtain ⟨m, hm, e⟩ := List.mem_iff_getElem.1 m1
      have hm' : m < idxs.length := by simp at hm; omega
      have e1 : iv.1 = idxs[m] := by rw [← e]; simp
      have e2 : idxs[m] = idxs[n] := by
        simp only [decide_eq_true_eq] at m2
        omega
      have := (List.Nodup.getElem_inj_iff hnd).1 e2
      subst this
      rw [← e]
      simp
    have hne : ((idxs.zip vals).filter fun iv => iv.1 = ((idxs[n].toNat : ℕ) : ℤ)) ≠ [] := by
      apply List.ne_nil_of_mem (a := (idxs[n], vals[n]))
      refine List.mem_filter.2 ⟨hmem, ?_⟩
      simp only [decide_eq_true_eq]
      omega
    rw [List.getLast?_eq_getLast_of_ne_nil hne, huniq _ (List.getLast_mem hne)]
    rfl

/-- **C77.** Otherwise the call does not return: an index outside the width panics; lengths that do not match, too many values or a width that is no power of two end the process. -/
theorem C77_rejects {α : Type} (idxs : List ℤ) (vals : List α) (maxWidth : ℕ) :
    ((isPowerOfTwo maxWidth = false ∨ idxs.length ≠ vals.length ∨ maxWidth < idxs.length) → getSamples idxs vals maxWidth = .error .fatal) ∧
    (isPowerOfTwo maxWidth = true → idxs.length = vals.length → idxs.length ≤ maxWidth → (∃ i ∈ idxs, i < 0 ∨ (maxWidth : ℤ) ≤ i) → getSamples idxs vals maxWidth = .error .panic) := by
  constructor
  · intro h
    unfold getSamples
    split_ifs with h1 h2 h3
    · rfl
    · rfl
    · rfl
    · exfalso
      rcases h with h | h | h
      · simp [h] at h1
      · exact h2 h
      · omega
  · rintro h1 h2 h3 ⟨i, hi, hi'⟩
    rw [getSamples, if_neg (by simp [h1]), if_neg (by simpa using h2), if_neg (by omega)]
    apply putSample_panic
    obtain ⟨n, hn, rfl⟩ := List.mem_iff_getElem.1 hi
    refine ⟨(idxs[n], vals[n]), ?_, by simpa using hi'⟩
    rw [List.mem_iff_getElem]
    exact ⟨n, by simp; omega, by simp⟩

/-- Width 4, values 10, 20, 30 at positions 2, 0, 2: the second value for position 2 wins. -/
example : getSamples [2, 0, 2] [10, 20, 30] 4 = .ok [some 20, none, some 30, none] ∧ getSamples [4] [10] 4 = .error .panic ∧ getSamples [-1] [10] 4 = .error .panic ∧
    getSamples [1] [10] 3 = .error .fatal := by decide +kernel

/-! ## C78: commitments to evaluations -/

section Eval
variable {G : Type} [AddCommGroup G] [Module Fr G]

/-- **C78.** With the inverse transform of the setup points, committing to the values of a polynomial on the domain gives the commitment to the polynomial. -/
theorem C78_commit_evals {s k : ℕ} {fs : FFTSettings Fr} (h : newFFTSettings s = some fs) (hk : k ≤ s) (setup ifft : List G) (coeffs evals : List Fr) (hs : setup.length = 2 ^ k)
    (hc : coeffs.length = 2 ^ k) (h1 : fftG1 fs setup true = .ok (some ifft)) (h2 : inplaceFFT fs coeffs false = .ok (some evals)) :
    commitToEvalPoly ifft evals = .ok (∑ j ∈ Finset.range (2 ^ k), coeffs.getD j 0 • setup.getD j 0) ∧
    linCombG1 setup coeffs = .ok (∑ j ∈ Finset.range (2 ^ k), coeffs.getD j 0 • setup.getD j 0) := by
  obtain ⟨-, w, -, ok⟩ := newFFTSettings_some h
  have hprim := ok.sub_root hk
  rw [fftG1_ok ok hk _ hs] at h1
  rw [inplaceFFT_eq, fftG1_ok ok hk _ hc] at h2
  have e1 := Option.some.inj (Except.ok.inj h1)
  have e2 := Option.some.inj (Except.ok.inj h2)
  have hl1 : ifft.length = 2 ^ k := by rw [← e1]; simp
  have hl2 : evals.length = 2 ^ k := by rw [← e2]; simp
  have hlin : ∀ (ps : List G) (fs : List Fr), ps.length = 2 ^ k → fs.length = 2 ^ k → linCombG1 ps fs = .ok (∑ j ∈ Finset.range (2 ^ k), fs.getD j 0 • ps.getD j 0) := by
    intro ps fs hp hf
    rw [linCombG1, if_neg (by omega), hp]
    congr 1
    exact foldl_range_add_sum (fun i => fs.getD i 0 • ps.getD i 0) (2 ^ k)
  refine ⟨?_, hlin _ _ hs hc⟩
  rw [commitToEvalPoly, hlin _ _ hl1 hl2]
  congr 1
  have hn : 0 < 2 ^ k := by positivity
  have h0 := natCast_ne_zero_of_root hprim hn
  set u := w ^ 2 ^ (s - k) with hu
  calc ∑ j ∈ Finset.range (2 ^ k), evals.getD j 0 • ifft.getD j 0
      = ∑ j ∈ Finset.range (2 ^ k), (((2 ^ k : ℕ) : Fr)⁻¹ * dft u (2 ^ k) (fun i => coeffs.getD i 0) j) • dft u⁻¹ (2 ^ k) (fun i => setup.getD i 0) j := by
        refine Finset.sum_congr rfl fun j hj => ?_
        have hj' := Finset.mem_range.1 hj
        rw [← e1, ← e2, getD_map_range _ _ _ _ hj', getD_map_range _ _ _ _ hj']
        simp only [ftOf, if_true, Bool.false_eq_true, if_false]
        rw [smul_smul, mul_comm]
    _ = ∑ j ∈ Finset.range (2 ^ k), coeffs.getD j 0 • setup.getD j 0 := by
        rw [sum_dft_swap]
        refine Finset.sum_congr rfl fun j hj => ?_
        have e : (fun i => ((2 ^ k : ℕ) : Fr)⁻¹ * dft u (2 ^ k) (fun i => coeffs.getD i 0) i) = fun i => ((2 ^ k : ℕ) : Fr)⁻¹ • dft u (2 ^ k) (fun i => coeffs.getD i 0) i := rfl
        rw [e, dft_smul, dft_inv hprim hn _ _ (Finset.mem_range.1 hj), smul_smul, inv_mul_cancel₀ h0, one_smul]

/-- **C78.** Any other number of values panics. -/
theorem C78_length (ifft : List G) (evals : List Fr) (h : ifft.length ≠ evals.length) : commitToEvalPoly ifft evals = .error .panic := by
  rw [commitToEvalPoly, linCombG1, if_pos h]

/-- Setup points 1 and 7 (in a group of order `r`), polynomial `3 + 5X`: the commitment is `3 + 5·7` in both forms. -/
example : ∃ fs ifft evals, newFFTSettings 1 = some fs ∧ fftG1 fs ([1, 7] : List Fr) true = .ok (some ifft) ∧ inplaceFFT fs [3, 5] false = .ok (some evals) ∧
    commitToEvalPoly ifft evals = .ok (38 : Fr) := by
  obtain ⟨fs, w, h1, -, ok⟩ := newFFTSettings_ok (s := 1) (by norm_num)
  have h2 := fftG1_ok ok le_rfl ([1, 7] : List Fr) rfl true
  have h3 := fftG1_ok ok le_rfl ([3, 5] : List Fr) rfl false
  rw [← inplaceFFT_eq] at h3
  refine ⟨fs, _, _, h1, h2, h3, ?_⟩
  rw [(C78_commit_evals h1 le_rfl [1, 7] _ [3, 5] _ rfl rfl h2 h3).1]
  congr 1

end Eval

/-! ## C79: address lists -/

/-- The content of a file: every line followed by a newline. -/
def fileOf (lines : List Bytes) : Bytes := lines.flatMap fun l => l ++ [10]

theorem splitLines_fileOf : ∀ (lines : List Bytes), (∀ l ∈ lines, (10 : UInt8) ∉ l) → ∀ last, (10 : UInt8) ∉ last → splitLines [] (fileOf lines ++ last) = lines ++ [last]
  | [], _, last, h => by simpa [fileOf] using splitLines_last last h []
  | l :: lines, h, last, hlast => by
    have e : fileOf (l :: lines) ++ last = l ++ 10 :: (fileOf lines ++ last) := by simp [fileOf]
    rw [e, splitLines_append l (h l (by simp)), splitLines_fileOf lines (fun q hq => h q (by simp [hq])) last hlast]
    simp

/-- **C79.** A file with at least `n` lines: the node uses the first `n`, with or without a newline at the end of the file. -/
theorem C79_first_lines (lines : List Bytes) (last : Bytes) (h : ∀ l ∈ lines, (10 : UInt8) ∉ l) (hlast : (10 : UInt8) ∉ last) (n : ℕ) :
    (n ≤ lines.length → readList (some (fileOf lines ++ last)) n = .ok (lines.take n)) ∧
    (n = lines.length + 1 → readList (some (fileOf lines ++ last)) n = .ok (lines ++ [last])) ∧
    (lines.length + 1 < n → readList (some (fileOf lines ++ last)) n = .error .panic) := by
  simp only [readList, splitLines_fileOf lines h last hlast, sliceTo, List.length_append, List.length_singleton]
  refine ⟨fun hn => ?_, fun hn => ?_, fun hn => ?_⟩
  · rw [if_pos (by omega), List.take_append_of_le_length hn]
  · subst hn
    rw [if_pos (by omega), List.take_of_length_le (by simp)]
  · rw [if_neg (by omega)]

/-- **C79.** The property fails for a file with one address too few that ends in a newline: the last address is the empty string, and no error is raised. -/
theorem C79_refuted (lines : List Bytes) (h : ∀ l ∈ lines, (10 : UInt8) ∉ l) : readList (some (fileOf lines)) (lines.length + 1) = .ok (lines ++ [[]]) := by
  have := (C79_first_lines lines [] h (by simp) (lines.length + 1)).2.1 rfl
  rwa [List.append_nil] at this

/-- **C79.** What holds: if the file's last line is not empty, too few addresses stop the node; and every accepted list has `n` entries. Missing from the full statement: files that end in a newline. -/
theorem C79_too_few_partial (lines : List Bytes) (last : Bytes) (h : ∀ l ∈ lines, (10 : UInt8) ∉ l) (hlast : (10 : UInt8) ∉ last) (n : ℕ) (hn : lines.length + 1 < n) :
    readList (some (fileOf lines ++ last)) n = .error .panic ∧ ∀ file m out, readList file m = .ok out → out.length = m := by
  refine ⟨(C79_first_lines lines last h hlast n).2.2 hn, fun file m out ho => ?_⟩
  cases file with
  | none => cases ho
  | some data =>
    rw [readList, sliceTo] at ho
    split at ho
    · have := Except.ok.inj ho
      rw [← this, List.length_take]
      omega
    · cases ho

/-- "a\nb\n" for two nodes, and for three. -/
example : readList (some [97, 10, 98, 10]) 2 = .ok [[97], [98]] ∧ readList (some [97, 10, 98, 10]) 3 = .ok [[97], [98], []] ∧ readList (some [97, 10, 98]) 3 = .error .panic := by decide +kernel

end DyCAPS
