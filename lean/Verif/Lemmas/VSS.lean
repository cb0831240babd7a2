import Mathlib.LinearAlgebra.Lagrange
import Verif.Model.VSS
import Verif.Lemmas.Interp
import Verif.Spec.Shares
import Verif.Props.Bytes
import Verif.Props.Wire
import Verif.Props.KZG

/-! Helper lemmas about the sharing phase. -/

set_option linter.unusedSectionVars false

namespace DyCAPS

open Polynomial

theorem oneTo_length (n : ℕ) : (oneTo n).length = n := by simp [oneTo]

theorem mem_oneTo {n k : ℕ} : k ∈ oneTo n ↔ 1 ≤ k ∧ k ≤ n := by
  simp only [oneTo, List.mem_map, List.mem_range]
  constructor
  · rintro ⟨a, h, rfl⟩; omega
  · intro h; exact ⟨k - 1, by omega, by omega⟩

theorem oneTo_map_getD {α : Type} (f : ℕ → α) (d : α) (n i : ℕ) (h : i < n) : ((oneTo n).map f).getD i d = f (i + 1) := by
  rw [List.getD_eq_getElem _ _ (by simpa [oneTo] using h)]; simp [oneTo]

theorem cons_oneTo_getD {α : Type} (a : α) (f : ℕ → α) (d : α) (n k : ℕ) (h1 : 1 ≤ k) (h2 : k ≤ n) :
    (a :: (oneTo n).map f).getD k d = f k := by
  obtain ⟨k, rfl⟩ : ∃ m, k = m + 1 := ⟨k - 1, by omega⟩
  rw [List.getD_cons_succ, oneTo_map_getD _ _ _ _ (by omega)]

theorem cons_oneTo_idx {α : Type} (a : α) (f : ℕ → α) (n k : ℕ) (h1 : 1 ≤ k) (h2 : k ≤ n) :
    idx (a :: (oneTo n).map f) k = .ok (f k) := by
  rw [idx_of_lt (by simp [oneTo]; omega)]
  obtain ⟨k, rfl⟩ : ∃ m, k = m + 1 := ⟨k - 1, by omega⟩
  simp [oneTo]

theorem firstIndices_eq (n : ℕ) : (firstIndices n : List Fr) = (oneTo n).map fun k => ((k : ℕ) : Fr) := by
  simp [firstIndices, oneTo, Function.comp_def]

theorem allM_ok {α : Type} (f : α → Go Bool) (g : α → Bool) (l : List α) (h : ∀ a ∈ l, f a = .ok (g a)) :
    l.allM f = .ok (l.all g) := by
  induction l with
  | nil => rfl
  | cons a l ih =>
    rw [List.allM, h a (by simp), Go.ok_bind, List.all_cons]
    cases g a with
    | true => simpa using ih (fun b hb => h b (by simp [hb]))
    | false => rfl

theorem copy32_id (b : Bytes) (h : b.length = 32) : copy32 b = b := by
  apply list_ext_getD (d := 0) (by simp [copy32, h])
  intro j _
  by_cases hj : j < 32
  · rw [List.getD_eq_getElem _ _ (by simpa [copy32] using hj)]; simp [copy32]
  · rw [List.getD_eq_default _ _ (by simp [copy32]; omega), List.getD_eq_default _ _ (by omega)]

theorem frFrom32_copy (dst v : Fr) : (frFrom32 dst (copy32 (frTo32 v))).1 = v := by
  rw [copy32_id _ (C02_round_trip 0 v).1, (C02_round_trip dst v).2]

section dealer

variable (F : ℕ) (s : Fr) (c : DealerCoins)

theorem dealerF_length : (dealerF F s c).length = 2 * F + 1 := by simp [dealerF]
theorem dealerZ_length (k : ℕ) : (dealerZ F c k).length = F + 1 := by simp [dealerZ]
theorem dealerB_length (k : ℕ) : (dealerB F s c k).length = F + 1 := by simp [dealerB, dealerZ]

theorem dealerZ_getD (k j : ℕ) (h : j < F + 1) : (dealerZ F c k).getD j 0 = if j = 0 then 0 else c.rZ k j := by
  rw [List.getD_eq_getElem _ _ (by simpa [dealerZ] using h)]; simp [dealerZ]

theorem dealerB_getD (k j : ℕ) (h : j < F + 1) :
    (dealerB F s c k).getD j 0 = if j = 0 then dealerFVal F s c k else c.rZ k j := by
  rw [dealerB, getD_set, dealerZ_getD _ _ _ _ h]
  by_cases hj : j = 0
  · subst hj; simp [dealerZ_length]
  · rw [if_neg hj, if_neg (by rintro ⟨h, -⟩; exact hj h.symm), if_neg hj]

/-- `B(x,k) = Z(x,k) + F(k)`. -/
theorem dealerB_val (k : ℕ) (x : Fr) : polyVal (dealerB F s c k) x = polyVal (dealerZ F c k) x + dealerFVal F s c k := by
  rw [polyVal, polyVal, dealerB_length, dealerZ_length, Finset.sum_range_succ', Finset.sum_range_succ']
  rw [dealerB_getD _ _ _ _ _ (by omega), dealerZ_getD _ _ _ _ (by omega)]
  simp only [if_true, pow_zero, mul_one, zero_mul, add_zero]
  congr 1
  apply Finset.sum_congr rfl
  intro i hi
  have hi' : i < F := by simpa using hi
  rw [dealerB_getD _ _ _ _ _ (by omega), dealerZ_getD _ _ _ _ (by omega)]
  simp

theorem dealerZ_zero (k : ℕ) : polyVal (dealerZ F c k) 0 = 0 := by
  rw [polyVal, dealerZ_length, Finset.sum_range_succ', dealerZ_getD _ _ _ _ (by omega)]
  simp

theorem dealerB_zero (k : ℕ) : polyVal (dealerB F s c k) 0 = dealerFVal F s c k := by
  rw [dealerB_val, dealerZ_zero, zero_add]

theorem dealerF_zero : polyVal (dealerF F s c) 0 = s := by
  rw [polyVal, dealerF_length, Finset.sum_range_succ']
  simp [dealerF]

theorem dealerFVal_eq (k : ℕ) : dealerFVal F s c k = polyVal (dealerF F s c) (k : Fr) := evalPolyAt_eq _ _

theorem dealerShare_eq (i k : ℕ) : dealerShare F s c i k = polyVal (dealerB F s c k) (i : Fr) := evalPolyAt_eq _ _

end dealer

/-- There is a polynomial of degree `≤ d` with given values at `1, ..., d+1`. -/
theorem exists_interp (d : ℕ) (h : d + 1 < frModulus) (v : ℕ → Fr) :
    ∃ a : ℕ → Fr, ∀ k, 1 ≤ k → k ≤ d + 1 → ∑ j ∈ Finset.range (d + 1), a j * (k : Fr) ^ j = v k := by
  obtain ⟨res, h1, h2, h3⟩ := lagrangeInterpolate_ok d (firstIndices (d + 1)) ((oneTo (d + 1)).map v)
    (by rw [firstIndices_length]) (by simp [oneTo]) (distinct_firstIndices d h)
  refine ⟨fun j => res.getD j 0, fun k hk1 hk2 => ?_⟩
  have := h3 (k - 1) (by omega)
  rw [firstIndices_getD _ _ (by omega), oneTo_map_getD _ _ _ _ (by omega), Nat.sub_add_cancel hk1, eval_polyOf] at this
  rw [← this, polyVal, h2]

/-- The bivariate polynomial behind the dealer's lists. -/
theorem dealer_bivariate (F : ℕ) (s : Fr) (c : DealerCoins) (h : 2 * F + 1 < frModulus) :
    ∃ b : ℕ → ℕ → Fr, (∀ k, 1 ≤ k → k ≤ 2 * F + 1 → sliceX b F (2 * F) (k : Fr) = dealerB F s c k) ∧
      sliceY b F (2 * F) 0 = dealerF F s c := by
  choose a ha using fun i => exists_interp (2 * F) h (fun k => c.rZ k i)
  refine ⟨fun i j => if i = 0 then (dealerF F s c).getD j 0 else a i j, ?_, ?_⟩
  · intro k h1 h2
    apply list_ext_getD (d := 0) (by rw [sliceX_length, dealerB_length])
    intro i _
    by_cases hi : i < F + 1
    · rw [sliceX_getD _ _ _ _ _ hi, dealerB_getD _ _ _ _ _ hi]
      by_cases hi0 : i = 0
      · subst hi0
        simp only [if_true]
        rw [dealerFVal_eq, polyVal, dealerF_length]
      · simp only [hi0, if_false]
        exact ha i k h1 h2
    · rw [List.getD_eq_default _ _ (by rw [sliceX_length]; omega), List.getD_eq_default _ _ (by rw [dealerB_length]; omega)]
  · apply list_ext_getD (d := 0) (by rw [sliceY_length, dealerF_length])
    intro j _
    by_cases hj : j < 2 * F + 1
    · rw [sliceY_getD _ _ _ _ _ hj, Finset.sum_range_succ']
      simp
    · rw [List.getD_eq_default _ _ (by rw [sliceY_length]; omega), List.getD_eq_default _ _ (by rw [dealerF_length]; omega)]

section
variable {G1 G2 GT : Type} [AddCommGroup G1] [Module Fr G1] [AddCommGroup G2] [Module Fr G2] [AddCommGroup GT] [Module Fr GT]

/-- What the dealer publishes for index `k`. -/
def honestContent (pp : Pairing Fr G1 G2 GT) (t : Fr) (F : ℕ) (s : Fr) (c : DealerCoins) (k : ℕ) : PiContent G1 :=
  ⟨k, polyVal (dealerB F s c k) t • pp.g1, polyVal (dealerZ F c k) t • pp.g1, quotVal (dealerZ F c k) 0 t • pp.g1,
    dealerFVal F s c k • pp.g1⟩

def honestPi (pp : Pairing Fr G1 G2 GT) (t : Fr) (F : ℕ) (s : Fr) (c : DealerCoins) : Pi G1 :=
  ⟨s • pp.g1, PiContent.zero 0 :: (oneTo (2 * F + 1)).map (honestContent pp t F s c)⟩

theorem ne_nil_of_length {α : Type} {l : List α} {n : ℕ} (h : l.length = n + 1) : l ≠ [] := by
  intro h'; rw [h'] at h; simp at h

theorem dealerPi_ok (pp : Pairing Fr G1 G2 GT) (t : Fr) (F : ℕ) (s : Fr) (c : DealerCoins) :
    dealerPi pp (newKZG pp t (F + 1)) F s c = .ok (honestPi pp t F s c) := by
  unfold dealerPi
  rw [mapM_ok _ (honestContent pp t F s c)]
  · rfl
  · intro k _
    unfold dealerContent
    rw [commitToPoly_ok pp t _ _ (by rw [dealerB_length]), commitToPoly_ok pp t _ _ (by rw [dealerZ_length]),
      computeProofSingle_ok pp t _ _ _ (ne_nil_of_length (dealerZ_length F c k)) (by rw [dealerZ_length]; omega)]
    rfl

theorem dealerWitnesses_ok (pp : Pairing Fr G1 G2 GT) (t : Fr) (F : ℕ) (s : Fr) (c : DealerCoins) (i : ℕ) :
    dealerWitnesses (newKZG pp t (F + 1)) F s c i =
      .ok (0 :: (oneTo (2 * F + 1)).map fun j => quotVal (dealerB F s c j) (i : Fr) t • pp.g1) := by
  unfold dealerWitnesses
  rw [mapM_ok _ (fun j => quotVal (dealerB F s c j) (i : Fr) t • pp.g1)]
  · rfl
  · intro k _
    rw [computeProofSingle_ok pp t _ _ _ (ne_nil_of_length (dealerB_length F s c k)) (by rw [dealerB_length]; omega)]

/-- The (unmarshalled) message of the honest dealer to party `i-1`. -/
def honestMsg (codec : PointCodec G1) (pp : Pairing Fr G1 G2 GT) (t : Fr) (F : ℕ) (s : Fr) (c : DealerCoins) (i : ℕ) :
    PVSSSend :=
  encapsulateVSSSend codec (honestPi pp t F s c) (0 :: (oneTo (2 * F + 1)).map (dealerShare F s c i))
    (0 :: (oneTo (2 * F + 1)).map fun j => quotVal (dealerB F s c j) (i : Fr) t • pp.g1) F

theorem clientShare_ok (codec : PointCodec G1) (pp : Pairing Fr G1 G2 GT) (t : Fr) (N F : ℕ) (s : Fr) (c : DealerCoins) :
    clientShare codec pp (newKZG pp t (F + 1)) N F s c =
      .ok ((oneTo N).map fun i => marshal (honestMsg codec pp t F s c i)) := by
  unfold clientShare
  rw [dealerPi_ok, Go.ok_bind]
  apply mapM_ok
  intro i _
  rw [dealerWitnesses_ok]
  rfl

theorem decode!_enc (codec : PointCodec G1) (p : G1) : codec.decode! (codec.enc p) = .ok p := by
  simp [PointCodec.decode!, codec.dec_enc]

theorem encapsulate_pi (codec : PointCodec G1) (gs : G1) (f : ℕ → PiContent G1) (hj : ∀ k, (f k).j = k) (bij : List Fr)
    (w : List G1) (F : ℕ) :
    setFromVSSMessage codec (encapsulateVSSSend codec ⟨gs, PiContent.zero 0 :: (oneTo (2 * F + 1)).map f⟩ bij w F).pi F =
      .ok ⟨gs, PiContent.zero 0 :: (oneTo (2 * F + 1)).map f⟩ := by
  simp only [encapsulateVSSSend, setFromVSSMessage]
  rw [decode!_enc, Go.ok_bind, mapM_ok _ f]
  · rfl
  · intro k hk
    rw [mem_oneTo] at hk
    unfold decodeContent
    rw [cons_oneTo_idx _ _ _ _ hk.1 hk.2, Go.ok_bind, cons_oneTo_getD _ _ _ _ _ hk.1 hk.2]
    simp only [encodeContent, decode!_enc, Go.ok_bind, Go.pure_eq]
    have := hj k
    congr 1
    cases h : f k
    rw [h] at this
    simp at this
    simp [this]

theorem encapsulate_shares (codec : PointCodec G1) (pi : Pi G1) (v : ℕ → Fr) (w : ℕ → G1) (F : ℕ) :
    (oneTo (2 * F + 1)).mapM (decodeShare codec (encapsulateVSSSend codec pi (0 :: (oneTo (2 * F + 1)).map v)
      (0 :: (oneTo (2 * F + 1)).map w) F)) = .ok ((oneTo (2 * F + 1)).map fun k => (v k, w k)) := by
  apply mapM_ok
  intro k hk
  rw [mem_oneTo] at hk
  simp only [decodeShare, encapsulateVSSSend]
  rw [cons_oneTo_idx _ _ _ _ hk.1 hk.2, cons_oneTo_idx _ _ _ _ hk.1 hk.2, Go.ok_bind, Go.ok_bind,
    cons_oneTo_getD _ _ _ _ _ hk.1 hk.2, cons_oneTo_getD _ _ _ _ _ hk.1 hk.2, decode!_enc, Go.ok_bind, frFrom32_copy]
  rfl

theorem newParty_setup (pp : Pairing Fr G1 G2 GT) (t : Fr) (N F pid : ℕ) :
    ∃ p, newParty pp t N F pid = .ok p ∧ p.Setup pp t ∧ p.N = N ∧ p.F = F ∧ p.pid = pid := by
  unfold newParty
  rw [lagrangeTable_ok, Go.ok_bind]
  exact ⟨_, rfl, ⟨rfl, lagrangeTable_ok F N⟩, rfl, rfl, rfl⟩

variable [DecidableEq G1] [DecidableEq GT]

/-- The conditions that `VerifyVSSSendReceived` checks. -/
def VSSConds (pp : Pairing Fr G1 G2 GT) (t : Fr) (F pid : ℕ) (vals : List Fr) (wits : List G1) (pi : Pi G1) : Prop :=
  ∀ k, 1 ≤ k → k ≤ 2 * F + 1 →
    (pi.contents.getD k (PiContent.zero k)).CZj = t • (pi.contents.getD k (PiContent.zero k)).WZ0 ∧
    (pi.contents.getD k (PiContent.zero k)).CZj + (pi.contents.getD k (PiContent.zero k)).gFj =
      (pi.contents.getD k (PiContent.zero k)).CBj ∧
    (pi.contents.getD k (PiContent.zero k)).CBj - vals.getD k 0 • pp.g1 = (t - ((pid + 1 : ℕ) : Fr)) • wits.getD k 0

theorem verify_ok (pp : Pairing Fr G1 G2 GT) (t : Fr) (p : Party G1 G2) (hp : p.Setup pp t) (hF : 1 ≤ p.F) (vals : List Fr)
    (wits : List G1) (pi : Pi G1) :
    ∃ r, verifyVSSSendReceived pp p vals wits pi = .ok r ∧ (r = true ↔ VSSConds pp t p.F p.pid vals wits pi) := by
  have ht := hp.table
  rw [lagrangeTable_ok] at ht
  have ht' := Except.ok.inj ht
  unfold verifyVSSSendReceived
  rw [← ht', idx_of_lt (by simp), Go.ok_bind, linCombG1_ok _ _ (by simp [oneTo]), Go.ok_bind, hp.kzg]
  rw [allM_ok _ (fun k => decide ((pi.contents.getD k (PiContent.zero k)).CZj =
      t • (pi.contents.getD k (PiContent.zero k)).WZ0) && decide ((pi.contents.getD k (PiContent.zero k)).CZj +
      (pi.contents.getD k (PiContent.zero k)).gFj = (pi.contents.getD k (PiContent.zero k)).CBj)), Go.ok_bind,
    allM_ok _ (fun k => decide ((pi.contents.getD k (PiContent.zero k)).CBj - vals.getD k 0 • pp.g1 =
      (t - ((p.pid + 1 : ℕ) : Fr)) • wits.getD k 0))]
  · split
    · rename_i h
      refine ⟨false, rfl, ?_⟩
      simp only [Bool.false_eq_true, false_iff]
      intro hc
      simp only [Bool.not_eq_true', ← Bool.not_eq_true] at h
      apply h
      rw [List.all_eq_true]
      intro k hk
      rw [mem_oneTo] at hk
      obtain ⟨h1, h2, -⟩ := hc k hk.1 hk.2
      simp only [Bool.and_eq_true, decide_eq_true_eq]
      exact ⟨h1, h2⟩
    · rename_i h
      refine ⟨_, rfl, ?_⟩
      simp only [Bool.not_eq_true', Bool.not_eq_false] at h
      rw [List.all_eq_true] at h ⊢
      constructor
      · intro h3 k hk1 hk2
        have e1 := h k (mem_oneTo.2 ⟨hk1, hk2⟩)
        have e2 := h3 k (mem_oneTo.2 ⟨hk1, hk2⟩)
        simp only [Bool.and_eq_true, decide_eq_true_eq] at e1 e2
        exact ⟨e1.1, e1.2, e2⟩
      · intro hc k hk
        rw [mem_oneTo] at hk
        simpa using (hc k hk.1 hk.2).2.2
  · intro k _
    rw [checkProofSingle_ok pp t _ (by omega)]
  · intro k _
    show (checkProofSingle pp (newKZG pp t (p.F + 1)) _ _ 0 0 >>= _) = _
    rw [checkProofSingle_ok pp t _ (by omega), Go.ok_bind, zero_smul, sub_zero, sub_zero]
    rfl

/-- What decoding a well-formed message yields, and what then happens. -/
theorem vssReceiveMsg_of_decoded (codec : PointCodec G1) (pp : Pairing Fr G1 G2 GT) (t : Fr) (p : Party G1 G2) (hp : p.Setup pp t)
    (hF : 1 ≤ p.F) (hr : 2 * p.F + 1 < frModulus) (m : PVSSSend) (pi : Pi G1) (v : ℕ → Fr) (w : ℕ → G1)
    (hpi : setFromVSSMessage codec m.pi p.F = .ok pi)
    (hsh : (oneTo (2 * p.F + 1)).mapM (decodeShare codec m) = .ok ((oneTo (2 * p.F + 1)).map fun k => (v k, w k))) :
    (VSSConds pp t p.F p.pid (0 :: (oneTo (2 * p.F + 1)).map v) (0 :: (oneTo (2 * p.F + 1)).map w) pi ∧
      ∃ full : List Fr, full.length = 2 * p.F + 1 ∧ (∀ k, 1 ≤ k → k ≤ 2 * p.F + 1 → polyVal full (k : Fr) = v k) ∧
      vssReceiveMsg codec pp p m = .ok ({ p with
        proof := pi, witness := (oneTo (2 * p.F + 1)).map w, witnessIndexes := firstIndices (2 * p.F + 1), fullShare := full },
        true)) ∨
    (¬ VSSConds pp t p.F p.pid (0 :: (oneTo (2 * p.F + 1)).map v) (0 :: (oneTo (2 * p.F + 1)).map w) pi ∧
      vssReceiveMsg codec pp p m = .ok (p, false)) := by
  obtain ⟨r, hr1, hr2⟩ := verify_ok pp t p hp hF (0 :: (oneTo (2 * p.F + 1)).map v) (0 :: (oneTo (2 * p.F + 1)).map w) pi
  have hunf : vssReceiveMsg codec pp p m = (if !r then pure (p, false)
      else do
        let full ← lagrangeInterpolate (2 * p.F) (firstIndices (2 * p.F + 1)) ((oneTo (2 * p.F + 1)).map v)
        pure ({ p with
          proof := pi
          witness := (oneTo (2 * p.F + 1)).map w
          witnessIndexes := firstIndices (2 * p.F + 1)
          fullShare := full }, true)) := by
    unfold vssReceiveMsg
    rw [hpi, Go.ok_bind, hsh, Go.ok_bind]
    simp only [List.map_map, Function.comp_def]
    rw [hr1, Go.ok_bind]
  rw [hunf]
  cases r with
  | false =>
    right
    exact ⟨fun h => by simpa using hr2.2 h, rfl⟩
  | true =>
    left
    refine ⟨hr2.1 rfl, ?_⟩
    obtain ⟨full, h1, h2, h3⟩ := lagrangeInterpolate_ok (2 * p.F) (firstIndices (2 * p.F + 1)) ((oneTo (2 * p.F + 1)).map v)
      (by rw [firstIndices_length]) (by simp [oneTo]) (distinct_firstIndices _ hr)
    refine ⟨full, h2, ?_, ?_⟩
    · intro k hk1 hk2
      have := h3 (k - 1) (by omega)
      rwa [firstIndices_getD _ _ (by omega), oneTo_map_getD _ _ _ _ (by omega), Nat.sub_add_cancel hk1, eval_polyOf] at this
    · rw [h1]; rfl

theorem mapM_ok_inv {α β : Type} (d : β) (f : α → Go β) (l : List α) (r : List β) (h : l.mapM f = .ok r) :
    ∃ g : α → β, (∀ a ∈ l, f a = .ok (g a)) ∧ r = l.map g := by
  refine ⟨fun a => match f a with | .ok b => b | .error _ => d, ?_⟩
  induction l generalizing r with
  | nil => simp only [List.mapM_nil] at h; cases h; simp
  | cons a l ih =>
    rw [List.mapM_cons] at h
    cases ha : f a with
    | error e => rw [ha] at h; cases h
    | ok b =>
      rw [ha, Go.ok_bind] at h
      cases hl : l.mapM f with
      | error e => rw [hl] at h; cases h
      | ok r' =>
        rw [hl, Go.ok_bind] at h
        cases h
        obtain ⟨h1, h2⟩ := ih r' hl
        refine ⟨?_, ?_⟩
        · intro a' ha'
          rcases List.mem_cons.1 ha' with rfl | h3
          · simp only [ha]
          · exact h1 a' h3
        · rw [List.map_cons, ha, h2]

/-- A function that either returns or panics. -/
def NoFatal {α : Type} (x : Go α) : Prop := x ≠ .error .fatal

theorem mapM_panic {α β : Type} (f : α → Go β) (l : List α) (h : ∀ a ∈ l, NoFatal (f a)) (a : α) (ha : a ∈ l)
    (hp : f a = .error .panic) : l.mapM f = .error .panic := by
  induction l with
  | nil => simp at ha
  | cons b l ih =>
    rw [List.mapM_cons]
    cases hb : f b with
    | error e =>
      cases e with
      | panic => rfl
      | fatal => exact absurd hb (h b (by simp))
    | ok x =>
      have : a ∈ l := by
        rcases List.mem_cons.1 ha with rfl | h3
        · rw [hp] at hb; cases hb
        · exact h3
      rw [Go.ok_bind, ih (fun a ha => h a (by simp [ha])) this]; rfl

theorem mapM_cases {α β : Type} (d : β) (f : α → Go β) (l : List α) (h : ∀ a ∈ l, NoFatal (f a)) :
    (∃ g : α → β, (∀ a ∈ l, f a = .ok (g a)) ∧ l.mapM f = .ok (l.map g)) ∨
    ((∃ a ∈ l, f a = .error .panic) ∧ l.mapM f = .error .panic) := by
  by_cases hp : ∃ a ∈ l, f a = .error .panic
  · obtain ⟨a, ha, hp⟩ := hp
    exact Or.inr ⟨⟨a, ha, hp⟩, mapM_panic f l h a ha hp⟩
  · left
    push Not at hp
    have : ∀ a ∈ l, ∃ b, f a = .ok b := by
      intro a ha
      cases hb : f a with
      | ok b => exact ⟨b, rfl⟩
      | error e =>
        cases e with
        | panic => exact absurd hb (hp a ha)
        | fatal => exact absurd hb (h a ha)
    refine ⟨fun a => match f a with | .ok b => b | .error _ => d, ?_, ?_⟩
    · intro a ha
      obtain ⟨b, hb⟩ := this a ha
      simp only [hb]
    · apply mapM_ok
      intro a ha
      obtain ⟨b, hb⟩ := this a ha
      simp only [hb]

/-- A message built from any bivariate polynomial and any split `CB_k = CZ_k + gF_k` with `CZ_k = t·WZ_k` is accepted. -/
theorem receive_of_poly (codec : PointCodec G1) (pp : Pairing Fr G1 G2 GT) (t : Fr) (p : Party G1 G2) (hp : p.Setup pp t)
    (hF : 1 ≤ p.F) (hr : 2 * p.F + 1 < frModulus) (b : ℕ → ℕ → Fr) (gs : G1) (cz wz gf : ℕ → G1)
    (hz : ∀ k, 1 ≤ k → k ≤ 2 * p.F + 1 → cz k = t • wz k)
    (hg : ∀ k, 1 ≤ k → k ≤ 2 * p.F + 1 → cz k + gf k = polyVal (sliceX b p.F (2 * p.F) (k : Fr)) t • pp.g1) :
    ∃ q : Party G1 G2, q.pid = p.pid ∧ q.F = p.F ∧ q.N = p.N ∧ q.Setup pp t ∧ HoldsFull pp t b q ∧
      q.proof = ⟨gs, PiContent.zero 0 :: (oneTo (2 * p.F + 1)).map fun k : ℕ =>
        ⟨k, polyVal (sliceX b p.F (2 * p.F) (k : Fr)) t • pp.g1, cz k, wz k, gf k⟩⟩ ∧
      vssReceiveMsg codec pp p (encapsulateVSSSend codec ⟨gs, PiContent.zero 0 :: (oneTo (2 * p.F + 1)).map fun k : ℕ =>
          ⟨k, polyVal (sliceX b p.F (2 * p.F) (k : Fr)) t • pp.g1, cz k, wz k, gf k⟩⟩
        (0 :: (oneTo (2 * p.F + 1)).map fun k : ℕ => biVal b p.F (2 * p.F) ((p.pid + 1 : ℕ) : Fr) (k : Fr))
        (0 :: (oneTo (2 * p.F + 1)).map fun k : ℕ => quotVal (sliceX b p.F (2 * p.F) (k : Fr)) ((p.pid + 1 : ℕ) : Fr) t • pp.g1)
        p.F) = .ok (q, true) := by
  rcases vssReceiveMsg_of_decoded codec pp t p hp hF hr _ _
    (fun k => biVal b p.F (2 * p.F) ((p.pid + 1 : ℕ) : Fr) (k : Fr))
    (fun k => quotVal (sliceX b p.F (2 * p.F) (k : Fr)) ((p.pid + 1 : ℕ) : Fr) t • pp.g1)
    (encapsulate_pi codec gs (fun k => ⟨k, polyVal (sliceX b p.F (2 * p.F) (k : Fr)) t • pp.g1, cz k, wz k, gf k⟩) (fun _ => rfl) _ _ _)
    (encapsulate_shares codec _ _ _ _) with h | h
  · obtain ⟨-, full, hf1, hf2, hf3⟩ := h
    refine ⟨{ p with
        proof := ⟨gs, PiContent.zero 0 :: (oneTo (2 * p.F + 1)).map fun k : ℕ =>
          ⟨k, polyVal (sliceX b p.F (2 * p.F) (k : Fr)) t • pp.g1, cz k, wz k, gf k⟩⟩
        witness := (oneTo (2 * p.F + 1)).map fun k : ℕ =>
          quotVal (sliceX b p.F (2 * p.F) (k : Fr)) ((p.pid + 1 : ℕ) : Fr) t • pp.g1
        witnessIndexes := firstIndices (2 * p.F + 1)
        fullShare := full }, rfl, rfl, rfl, ⟨hp.kzg, hp.table⟩, ?_, rfl, hf3⟩
    constructor
    · show full = _
      have hd := distinct_firstIndices (2 * p.F) (by omega)
      apply polyOf_inj (by rw [hf1, sliceY_length])
      apply poly_unique (2 * p.F) (firstIndices (2 * p.F + 1)) _ _ _ _ hd
      · intro k hk
        rw [eval_polyOf, eval_polyOf, firstIndices_getD _ _ (by omega), hf2 (k + 1) (by omega) (by omega), polyVal_sliceY]
      · rw [← hf1]; exact degree_polyOf_lt _
      · have := degree_polyOf_lt (sliceY b p.F (2 * p.F) ((p.pid + 1 : ℕ) : Fr))
        rwa [sliceY_length] at this
    · intro k h1 (h2 : k ≤ 2 * p.F + 1)
      simp only
      rw [cons_oneTo_getD _ _ _ _ _ h1 h2, commitToPoly_ok pp t _ _ (by rw [sliceX_length])]
    · simp [oneTo]
    · intro k h1 (h2 : k ≤ 2 * p.F + 1)
      simp only
      rw [oneTo_map_getD _ _ _ _ (by omega), Nat.sub_add_cancel h1,
        computeProofSingle_ok pp t _ _ _ (ne_nil_of_length (sliceX_length _ _ _ _)) (by rw [sliceX_length]; omega)]
    · rfl
  · exfalso
    apply h.1
    intro k h1 h2
    rw [cons_oneTo_getD _ _ _ _ _ h1 h2, cons_oneTo_getD _ _ _ _ _ h1 h2, cons_oneTo_getD _ _ _ _ _ h1 h2]
    refine ⟨hz k h1 h2, hg k h1 h2, ?_⟩
    show polyVal (sliceX b p.F (2 * p.F) (k : Fr)) t • pp.g1 - _ = _
    rw [← polyVal_sliceX, ← sub_smul, smul_smul, ← quotVal_mul, mul_comm]

/-- The honest dealer's message, with any `gs`, in terms of the underlying bivariate polynomial. -/
theorem honest_as_poly (codec : PointCodec G1) (pp : Pairing Fr G1 G2 GT) (t : Fr) (F : ℕ) (s : Fr) (c : DealerCoins) (b : ℕ → ℕ → Fr)
    (hb : ∀ k, 1 ≤ k → k ≤ 2 * F + 1 → sliceX b F (2 * F) (k : Fr) = dealerB F s c k) (gs : G1) (i : ℕ) :
    encapsulateVSSSend codec { honestPi pp t F s c with gs := gs } (0 :: (oneTo (2 * F + 1)).map (dealerShare F s c i))
      (0 :: (oneTo (2 * F + 1)).map fun j => quotVal (dealerB F s c j) (i : Fr) t • pp.g1) F =
    encapsulateVSSSend codec ⟨gs, PiContent.zero 0 :: (oneTo (2 * F + 1)).map fun k : ℕ =>
        ⟨k, polyVal (sliceX b F (2 * F) (k : Fr)) t • pp.g1, polyVal (dealerZ F c k) t • pp.g1,
          quotVal (dealerZ F c k) 0 t • pp.g1, dealerFVal F s c k • pp.g1⟩⟩
      (0 :: (oneTo (2 * F + 1)).map fun k : ℕ => biVal b F (2 * F) (i : Fr) (k : Fr))
      (0 :: (oneTo (2 * F + 1)).map fun k : ℕ => quotVal (sliceX b F (2 * F) (k : Fr)) (i : Fr) t • pp.g1) F := by
  have e1 : (oneTo (2 * F + 1)).map (dealerShare F s c i) =
      (oneTo (2 * F + 1)).map fun k : ℕ => biVal b F (2 * F) (i : Fr) (k : Fr) := by
    apply List.map_congr_left
    intro k hk
    rw [mem_oneTo] at hk
    rw [dealerShare_eq, ← hb k hk.1 hk.2, polyVal_sliceX]
  have e2 : ((oneTo (2 * F + 1)).map fun j => quotVal (dealerB F s c j) (i : Fr) t • pp.g1) =
      (oneTo (2 * F + 1)).map fun k : ℕ => quotVal (sliceX b F (2 * F) (k : Fr)) (i : Fr) t • pp.g1 := by
    apply List.map_congr_left
    intro k hk
    rw [mem_oneTo] at hk
    rw [hb k hk.1 hk.2]
  have e3 : (oneTo (2 * F + 1)).map (honestContent pp t F s c) = (oneTo (2 * F + 1)).map fun k : ℕ =>
      (⟨k, polyVal (sliceX b F (2 * F) (k : Fr)) t • pp.g1, polyVal (dealerZ F c k) t • pp.g1,
          quotVal (dealerZ F c k) 0 t • pp.g1, dealerFVal F s c k • pp.g1⟩ : PiContent G1) := by
    apply List.map_congr_left
    intro k hk
    rw [mem_oneTo] at hk
    rw [hb k hk.1 hk.2]; rfl
  simp only [honestPi]
  rw [e1, e2, e3]

/-- Receiving the honest dealer's message with any `gs`. -/
theorem receive_honest (codec : PointCodec G1) (pp : Pairing Fr G1 G2 GT) (t : Fr) (p : Party G1 G2) (hp : p.Setup pp t)
    (hF : 1 ≤ p.F) (hr : 2 * p.F + 1 < frModulus) (s : Fr) (c : DealerCoins) (b : ℕ → ℕ → Fr)
    (hb : ∀ k, 1 ≤ k → k ≤ 2 * p.F + 1 → sliceX b p.F (2 * p.F) (k : Fr) = dealerB p.F s c k) (gs : G1) :
    ∃ q : Party G1 G2, q.pid = p.pid ∧ q.F = p.F ∧ q.N = p.N ∧ q.Setup pp t ∧ HoldsFull pp t b q ∧ q.proof.gs = gs ∧
      vssReceiveMsg codec pp p (encapsulateVSSSend codec { honestPi pp t p.F s c with gs := gs }
        (0 :: (oneTo (2 * p.F + 1)).map (dealerShare p.F s c (p.pid + 1)))
        (0 :: (oneTo (2 * p.F + 1)).map fun j => quotVal (dealerB p.F s c j) ((p.pid + 1 : ℕ) : Fr) t • pp.g1) p.F) = .ok (q, true) := by
  rw [honest_as_poly codec pp t p.F s c b hb gs]
  obtain ⟨q, h1, h2, h3, h4, h5, h6, h7⟩ := receive_of_poly codec pp t p hp hF hr b gs
    (fun k => polyVal (dealerZ p.F c k) t • pp.g1) (fun k => quotVal (dealerZ p.F c k) 0 t • pp.g1)
    (fun k => dealerFVal p.F s c k • pp.g1) (by
      intro k _ _
      have := quotVal_mul (dealerZ p.F c k) 0 t
      rw [dealerZ_zero, sub_zero, sub_zero] at this
      rw [smul_smul, ← this, mul_comm]) (by
      intro k h1 h2
      rw [hb k h1 h2, dealerB_val, add_smul])
  exact ⟨q, h1, h2, h3, h4, h5, by rw [h6], h7⟩

end

end DyCAPS
