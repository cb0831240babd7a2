import Verif.Model.Tbls
import Verif.Lemmas.KZG
import Mathlib.LinearAlgebra.Lagrange

/-!
# Threshold signatures: helper lemmas
-/

namespace DyCAPS

open Polynomial

section
variable {G1 G2 GT : Type} [AddCommGroup G1] [Module Fr G1] [AddCommGroup G2] [Module Fr G2] [AddCommGroup GT] [Module Fr GT]

theorem priEval_eq (coeffs : List Fr) (i : ℕ) : priEval coeffs i = (polyOf coeffs).eval ((i + 1 : ℕ) : Fr) := by
  rw [eval_polyOf]
  unfold priEval
  generalize ((i + 1 : ℕ) : Fr) = x
  induction coeffs with
  | nil => simp [polyVal]
  | cons c l ih =>
    rw [List.foldr_cons, ih, polyVal, polyVal, List.length_cons, Finset.sum_range_succ', Finset.sum_mul]
    simp only [List.getD_cons_succ, List.getD_cons_zero, pow_zero, mul_one, pow_succ, mul_assoc]

theorem pubEval_eq (g2 : G2) (coeffs : List Fr) (i : ℕ) : pubEval (coeffs.map fun c => c • g2) i = priEval coeffs i • g2 := by
  unfold pubEval priEval
  induction coeffs with
  | nil => simp
  | cons c l ih => rw [List.map_cons, List.foldr_cons, ih, List.foldr_cons, add_smul, mul_comm, mul_smul]

theorem pubCommit_eq (g2 : G2) (coeffs : List Fr) : pubCommit (coeffs.map fun c => c • g2) = coeffs.getD 0 0 • g2 := by
  cases coeffs with
  | nil => simp [pubCommit]
  | cons c l => simp [pubCommit]

theorem pairing_left_inj (pp : Pairing Fr G1 G2 GT) {a b : G1} (h : pp.e a pp.g2 = pp.e b pp.g2) : a = b := by
  obtain ⟨k, hk⟩ := pp.gen1 (a - b)
  have h0 : pp.e (a - b) pp.g2 = 0 := by rw [map_sub, LinearMap.sub_apply, h, sub_self]
  rw [hk, map_smul, LinearMap.smul_apply, smul_eq_zero] at h0
  have : k = 0 := h0.resolve_right pp.nondeg
  rw [this, zero_smul] at hk
  exact sub_eq_zero.1 hk

variable [DecidableEq GT]

theorem blsVerify_iff (S : KyberSuite G1 G2 GT) (x : Fr) (msg sig : Bytes) : blsVerify S (x • S.pp.g2) msg sig = true ↔ S.codec.dec sig = some (x • S.hm msg) := by
  unfold blsVerify
  cases h : S.codec.dec sig with
  | none => simp
  | some s =>
    simp only [decide_eq_true_eq, Option.some.injEq]
    constructor
    · intro he
      apply pairing_left_inj S.pp
      rw [← he, map_smul, map_smul, LinearMap.smul_apply]
    · rintro rfl
      rw [map_smul, map_smul, LinearMap.smul_apply]

theorem verifyPartial_iff (S : KyberSuite G1 G2 GT) (coeffs : List Fr) (msg s : Bytes) :
    tblsVerifyPartial S (coeffs.map fun c => c • S.pp.g2) msg s = true ↔ ∃ i, shareIndex s = some i ∧ S.codec.dec (s.drop 2) = some (priEval coeffs i • S.hm msg) := by
  unfold tblsVerifyPartial
  cases h : shareIndex s with
  | none => simp
  | some i => simp only [pubEval_eq, blsVerify_iff, Option.some.injEq, exists_eq_left']

theorem shareIndex_sign (S : KyberSuite G1 G2 GT) (i : ℕ) (v : Fr) (msg : Bytes) (hi : i < 65536) : shareIndex (tblsSign S (i, v) msg) = some i := by
  simp only [tblsSign, be16, shareIndex, List.cons_append, List.nil_append, Option.some.injEq]
  rw [UInt8.toNat_ofNat', UInt8.toNat_ofNat']
  omega

theorem shareIndex_lt {s : Bytes} {i : ℕ} (h : shareIndex s = some i) : i < 65536 := by
  unfold shareIndex at h
  split at h
  · rename_i a b _
    cases h
    have := a.toNat_lt
    have := b.toNat_lt
    omega
  · cases h

/-! ## Recover -/

theorem takeShares_ok (S : KyberSuite G1 G2 GT) (coeffs : List Fr) (msg : Bytes) (t : ℕ) (ix : Bytes → ℕ) :
    ∀ (a b : List Bytes) (acc : List (ℕ × G1)), a ≠ [] → acc.length + a.length = t → (∀ s ∈ a, shareIndex s = some (ix s) ∧ S.codec.dec (s.drop 2) = some (priEval coeffs (ix s) • S.hm msg)) →
      takeShares S (coeffs.map fun c => c • S.pp.g2) msg t (a ++ b) acc = some (acc ++ a.map fun s => (ix s, priEval coeffs (ix s) • S.hm msg)) := by
  intro a
  induction a with
  | nil => intro b acc h; exact absurd rfl h
  | cons s a ih =>
    intro b acc _ hl hv
    obtain ⟨h1, h2⟩ := hv s (by simp)
    have h3 : tblsVerifyPartial S (coeffs.map fun c => c • S.pp.g2) msg s = true := (verifyPartial_iff S coeffs msg s).2 ⟨_, h1, h2⟩
    simp only [List.cons_append, takeShares, h1, h2, h3, if_true, List.length_append, List.length_singleton]
    simp only [List.length_cons] at hl
    by_cases ha : a = []
    · subst ha
      simp only [List.length_nil] at hl
      rw [if_pos (by omega)]
      simp
    · have hpos : 0 < a.length := List.length_pos_iff.2 ha
      rw [if_neg (by omega), ih b _ ha (by simp; omega) (fun x hx => hv x (by simp [hx]))]
      simp

/-- What `Recover` collects, whatever it is given: verified shares, at most `t` of them. -/
theorem takeShares_sound (S : KyberSuite G1 G2 GT) (coeffs : List Fr) (msg : Bytes) (t : ℕ) :
    ∀ (sigs : List Bytes) (acc l : List (ℕ × G1)), acc.length < t → (∀ q ∈ acc, q.1 < 65536 ∧ q.2 = priEval coeffs q.1 • S.hm msg) →
      takeShares S (coeffs.map fun c => c • S.pp.g2) msg t sigs acc = some l → l.length ≤ t ∧ ∀ q ∈ l, q.1 < 65536 ∧ q.2 = priEval coeffs q.1 • S.hm msg := by
  intro sigs
  induction sigs with
  | nil => intro acc l hl ha h; cases h; exact ⟨hl.le, ha⟩
  | cons s rest ih =>
    intro acc l hl ha h
    have hskip : (if S.strict then none else takeShares S (coeffs.map fun c => c • S.pp.g2) msg t rest acc) = some l →
        l.length ≤ t ∧ ∀ q ∈ l, q.1 < 65536 ∧ q.2 = priEval coeffs q.1 • S.hm msg := by
      intro h
      split at h
      · cases h
      · exact ih acc l hl ha h
    simp only [takeShares] at h
    split at h
    · rename_i i v hi hv
      split at h
      · rename_i hver
        obtain ⟨j, hj, hd⟩ := (verifyPartial_iff S coeffs msg s).1 hver
        rw [hi] at hj; cases hj
        rw [hv] at hd; cases hd
        have ha' : ∀ q ∈ acc ++ [(i, priEval coeffs i • S.hm msg)], q.1 < 65536 ∧ q.2 = priEval coeffs q.1 • S.hm msg := by
          intro q hq
          rcases List.mem_append.1 hq with hq | hq
          · exact ha q hq
          · rw [List.mem_singleton.1 hq]; exact ⟨shareIndex_lt hi, rfl⟩
        split at h
        · cases h; exact ⟨by simp; omega, ha'⟩
        · rename_i hlt
          exact ih _ l (by omega) ha' h
      · exact hskip h
    · exact hskip h

theorem putShare_new (acc : List (ℕ × G1)) (s : ℕ × G1) (h : s.1 ∉ acc.map Prod.fst) : putShare acc s = acc ++ [s] := by
  unfold putShare
  rw [if_neg]
  intro hc
  obtain ⟨q, hq, he⟩ := List.any_eq_true.1 hc
  exact h (List.mem_map.2 ⟨q, hq, by simpa using he⟩)

theorem collectShares_nodup (t : ℕ) : ∀ (l acc : List (ℕ × G1)), ((acc ++ l).map Prod.fst).Nodup → acc.length + l.length = t → collectShares t l acc = acc ++ l := by
  intro l
  induction l with
  | nil => intro acc _ _; simp [collectShares]
  | cons s l ih =>
    intro acc hnd hl
    have hs : s.1 ∉ acc.map Prod.fst := by
      intro hm
      rw [List.map_append, List.nodup_append] at hnd
      exact hnd.2.2 _ hm _ (by simp) rfl
    simp only [collectShares, putShare_new _ _ hs, List.length_append, List.length_singleton]
    simp only [List.length_cons] at hl
    by_cases h0 : acc.length + 1 = t
    · rw [if_pos h0]
      have : l = [] := List.length_eq_zero_iff.1 (by omega)
      rw [this]
    · rw [if_neg h0, ih _ (by simpa using hnd) (by simp; omega)]
      simp

theorem putShare_fst (acc : List (ℕ × G1)) (s : ℕ × G1) (hnd : (acc.map Prod.fst).Nodup) :
    ((putShare acc s).map Prod.fst).Nodup ∧ ∀ x, x ∈ (putShare acc s).map Prod.fst → x ∈ acc.map Prod.fst ∨ x = s.1 := by
  by_cases h : s.1 ∈ acc.map Prod.fst
  · have e : (putShare acc s).map Prod.fst = acc.map Prod.fst := by
      unfold putShare
      obtain ⟨q, hq, he⟩ := List.mem_map.1 h
      rw [if_pos (List.any_eq_true.2 ⟨q, hq, by simpa using he⟩), List.map_map]
      apply List.map_congr_left
      intro x _
      simp only [Function.comp]
      split
      · rename_i h'; exact h'.symm
      · rfl
    rw [e]
    exact ⟨hnd, fun x hx => Or.inl hx⟩
  · rw [putShare_new _ _ h, List.map_append, List.nodup_append]
    refine ⟨⟨hnd, by simp, ?_⟩, fun x hx => by simpa using hx⟩
    intro a ha b hb
    simp only [List.map_cons, List.map_nil, List.mem_singleton] at hb
    rintro rfl
    exact h (hb ▸ ha)

theorem collectShares_fst (t : ℕ) : ∀ (l acc : List (ℕ × G1)), (acc.map Prod.fst).Nodup →
    ((collectShares t l acc).map Prod.fst).Nodup ∧ ∀ x, x ∈ (collectShares t l acc).map Prod.fst → x ∈ acc.map Prod.fst ∨ x ∈ l.map Prod.fst := by
  intro l
  induction l with
  | nil => intro acc h; exact ⟨h, fun x hx => Or.inl hx⟩
  | cons s l ih =>
    intro acc h
    obtain ⟨h1, h2⟩ := putShare_fst acc s h
    simp only [collectShares]
    split
    · refine ⟨h1, fun x hx => ?_⟩
      rcases h2 x hx with h | h
      · exact Or.inl h
      · right; simp [h]
    · obtain ⟨h3, h4⟩ := ih _ h1
      refine ⟨h3, fun x hx => ?_⟩
      rcases h4 x hx with h | h
      · rcases h2 x h with h | h
        · exact Or.inl h
        · right; simp [h]
      · right; simp [h]

/-- Fewer than `t` different indices: no signature. -/
theorem recoverCommit_none (shares : List (ℕ × G1)) (t : ℕ) (h : (shares.map Prod.fst).toFinset.card < t) : recoverCommit shares t = none := by
  unfold recoverCommit
  simp only
  rw [if_pos]
  obtain ⟨h1, h2⟩ := collectShares_fst t (shares.insertionSort fun a b => a.1 ≤ b.1) ([] : List (ℕ × G1)) (by simp)
  generalize collectShares t (shares.insertionSort fun a b => a.1 ≤ b.1) [] = tbl at h1 h2
  refine lt_of_le_of_lt ?_ h
  have : tbl.length = (tbl.map Prod.fst).toFinset.card := by rw [List.toFinset_card_of_nodup h1, List.length_map]
  rw [this]
  apply Finset.card_le_card
  intro x hx
  rw [List.mem_toFinset] at hx ⊢
  rcases h2 x hx with h | h
  · simp at h
  · obtain ⟨q, hq, rfl⟩ := List.mem_map.1 h
    exact List.mem_map.2 ⟨q, (List.mem_insertionSort _).1 hq, rfl⟩

theorem natCast_inj_lt {a b : ℕ} (ha : a < 65537) (hb : b < 65537) (h : ((a : ℕ) : Fr) = ((b : ℕ) : Fr)) : a = b := by
  have hm : 65537 < frModulus := by norm_num [frModulus]
  have := congrArg ZMod.val h
  rwa [ZMod.val_natCast_of_lt (by omega), ZMod.val_natCast_of_lt (by omega)] at this

/-- Interpolation at 0 through `t` points of a polynomial of degree at most `t`: off by the leading coefficient times the product of the negated points. -/
theorem lagrange_at_zero {s : Finset ℕ} (v : ℕ → Fr) (hv : Set.InjOn v s) (f : Fr[X]) (hf : f.natDegree ≤ s.card) :
    ∑ i ∈ s, ((∏ j ∈ s.erase i, v j) / (∏ j ∈ s.erase i, (v j - v i))) * f.eval (v i) = f.eval 0 - f.coeff s.card * ∏ i ∈ s, (-v i) := by
  set g : Fr[X] := f - C (f.coeff s.card) * Lagrange.nodal s v with hg
  have hnat : (Lagrange.nodal s v).natDegree = s.card := Lagrange.natDegree_nodal
  have hdeg : g.degree < s.card := by
    rw [degree_lt_iff_coeff_zero]
    intro m hm
    rw [hg, coeff_sub, coeff_C_mul]
    rcases Nat.eq_or_lt_of_le hm with h | h
    · subst h
      have := (Lagrange.nodal_monic (s := s) (v := v)).coeff_natDegree
      rw [hnat] at this
      rw [this]; ring
    · rw [coeff_eq_zero_of_natDegree_lt (lt_of_le_of_lt hf h), coeff_eq_zero_of_natDegree_lt (show (Lagrange.nodal s v).natDegree < m by rw [hnat]; exact h)]
      ring
  have hgv : ∀ i ∈ s, g.eval (v i) = f.eval (v i) := by
    intro i hi
    rw [hg, eval_sub, eval_mul, Lagrange.eval_nodal_at_node hi]; simp
  have hint := Lagrange.eq_interpolate_of_eval_eq (f := g) (fun i => f.eval (v i)) hv hdeg hgv
  have h0 := congrArg (eval 0) hint
  rw [Lagrange.interpolate_apply, eval_finsetSum] at h0
  have hg0 : g.eval 0 = f.eval 0 - f.coeff s.card * ∏ i ∈ s, (-v i) := by
    rw [hg, eval_sub, eval_mul, eval_C, Lagrange.eval_nodal]; simp
  rw [← hg0, h0]
  apply Finset.sum_congr rfl
  intro i hi
  rw [eval_mul, eval_C, mul_comm]
  congr 1
  rw [Lagrange.basis, eval_prod, ← Finset.prod_div_distrib]
  apply Finset.prod_congr rfl
  intro j hj
  have hne : v i ≠ v j := fun h => (Finset.ne_of_mem_erase hj) (hv (Finset.mem_coe.2 hi) (Finset.mem_coe.2 (Finset.mem_of_mem_erase hj)) h).symm
  rw [Lagrange.basisDivisor, eval_mul, eval_C, eval_sub, eval_X, eval_C]
  have h1 : v j - v i ≠ 0 := sub_ne_zero.2 (Ne.symm hne)
  have h2 : v i - v j ≠ 0 := sub_ne_zero.2 hne
  field_simp
  ring

/-- The interpolated value through `t` different shares. -/
theorem recoverCommit_ok (coeffs : List Fr) (hmsg : G1) (ixs : List ℕ) (hnd : ixs.Nodup) (hlt : ∀ i ∈ ixs, i < 65536) (hdeg : coeffs.length ≤ ixs.length + 1) :
    recoverCommit (ixs.map fun i => (i, priEval coeffs i • hmsg)) ixs.length =
      some ((coeffs.getD 0 0 - coeffs.getD ixs.length 0 * (ixs.map fun i => -((i + 1 : ℕ) : Fr)).prod) • hmsg) := by
  set shares := ixs.map fun i => (i, priEval coeffs i • hmsg) with hsh
  set sorted := shares.insertionSort fun a b => a.1 ≤ b.1 with hso
  have hperm : sorted.Perm shares := List.perm_insertionSort _ _
  have hfst : shares.map Prod.fst = ixs := by rw [hsh, List.map_map]; exact (List.map_congr_left (fun a _ => rfl)).trans (List.map_id _)
  have hsfst : (sorted.map Prod.fst).Perm ixs := by rw [← hfst]; exact hperm.map _
  have hsnd : (sorted.map Prod.fst).Nodup := hsfst.nodup_iff.2 hnd
  have hslen : sorted.length = ixs.length := by rw [hperm.length_eq, hsh, List.length_map]
  have hcol : collectShares ixs.length sorted [] = sorted := by
    rw [collectShares_nodup _ _ _ (by simpa using hsnd) (by simpa using hslen)]; simp
  unfold recoverCommit
  simp only [← hso, hcol]
  rw [if_neg (by omega)]
  congr 1
  set s : Finset ℕ := ixs.toFinset with hs
  have hcard : s.card = ixs.length := List.toFinset_card_of_nodup hnd
  have hinj : Set.InjOn (fun i : ℕ => ((i + 1 : ℕ) : Fr)) s := by
    intro a ha b hb h
    have h1 := hlt a (by simpa [hs] using ha)
    have h2 := hlt b (by simpa [hs] using hb)
    have := natCast_inj_lt (a := a + 1) (b := b + 1) (by omega) (by omega) h
    omega
  -- the coefficient as a quotient of products over finite sets
  have hcoef : ∀ i ∈ s, recoverCoeff sorted i = (∏ j ∈ s.erase i, ((j + 1 : ℕ) : Fr)) / ∏ j ∈ s.erase i, (((j + 1 : ℕ) : Fr) - ((i + 1 : ℕ) : Fr)) := by
    intro i _
    have key : ∀ g : ℕ → Fr, ((sorted.filter fun q => decide (q.1 ≠ i)).map fun q => g q.1).prod = ∏ j ∈ s.erase i, g j := by
      intro g
      have e1 : ((sorted.filter fun q => decide (q.1 ≠ i)).map fun q => g q.1) = (((sorted.map Prod.fst).filter fun j => decide (j ≠ i)).map g) := by
        rw [List.filter_map, List.map_map]; rfl
      rw [e1]
      have e2 : (((sorted.map Prod.fst).filter fun j => decide (j ≠ i)).map g).prod = ((ixs.filter fun j => decide (j ≠ i)).map g).prod :=
        ((hsfst.filter _).map g).prod_eq
      rw [e2, ← List.prod_toFinset g (hnd.filter _)]
      apply Finset.prod_congr _ (fun _ _ => rfl)
      ext j
      simp [hs, and_comm]
    unfold recoverCoeff
    simp only
    rw [key (fun j => ((j + 1 : ℕ) : Fr)), key (fun j => ((j + 1 : ℕ) : Fr) - ((i + 1 : ℕ) : Fr))]
  have hsum : (sorted.map fun q => recoverCoeff sorted q.1 • q.2).sum = (∑ i ∈ s, recoverCoeff sorted i * priEval coeffs i) • hmsg := by
    have e1 : (sorted.map fun q => recoverCoeff sorted q.1 • q.2).sum = (shares.map fun q => recoverCoeff sorted q.1 • q.2).sum := (hperm.map _).sum_eq
    rw [e1, hsh, List.map_map, Finset.sum_smul, ← List.sum_toFinset _ hnd]
    apply Finset.sum_congr rfl
    intro i _
    simp only [Function.comp, mul_smul]
  rw [hsum]
  congr 1
  have hnat : (polyOf coeffs).natDegree ≤ s.card := by
    rw [hcard]
    by_cases h0 : coeffs = []
    · subst h0; rw [polyOf_nil]; simp
    · have := natDegree_polyOf_lt coeffs h0; omega
  have hi := lagrange_at_zero (fun i : ℕ => ((i + 1 : ℕ) : Fr)) hinj (polyOf coeffs) hnat
  have hz : (polyOf coeffs).eval 0 = coeffs.getD 0 0 := by rw [← coeff_zero_eq_eval_zero, coeff_polyOf]
  rw [hz, coeff_polyOf, hcard] at hi
  rw [← List.prod_toFinset _ hnd, ← hs, ← hi]
  apply Finset.sum_congr rfl
  intro i hi'
  rw [hcoef i hi', priEval_eq]

/-- The outcome of `Recover` on shares that verify. -/
theorem tblsRecover_ok (S : KyberSuite G1 G2 GT) (coeffs : List Fr) (msg : Bytes) (a b : List Bytes) (ha : a ≠ [])
    (hv : ∀ s ∈ a, tblsVerifyPartial S (coeffs.map fun c => c • S.pp.g2) msg s = true) (hnd : (a.map shareIndex).Nodup) (hdeg : coeffs.length ≤ a.length + 1) :
    ∃ ixs : List ℕ, a.map shareIndex = ixs.map some ∧ tblsRecover S (coeffs.map fun c => c • S.pp.g2) msg (a ++ b) a.length =
      some (S.codec.enc ((coeffs.getD 0 0 - coeffs.getD a.length 0 * (ixs.map fun i => -((i + 1 : ℕ) : Fr)).prod) • S.hm msg)) := by
  set ix : Bytes → ℕ := fun s => (shareIndex s).getD 0 with hix
  have hv' : ∀ s ∈ a, shareIndex s = some (ix s) ∧ S.codec.dec (s.drop 2) = some (priEval coeffs (ix s) • S.hm msg) := by
    intro s hs
    obtain ⟨i, h1, h2⟩ := (verifyPartial_iff S coeffs msg s).1 (hv s hs)
    have e : ix s = i := by simp [hix, h1]
    rw [e]; exact ⟨h1, h2⟩
  have hmap : a.map shareIndex = (a.map ix).map some := by
    rw [List.map_map]; exact List.map_congr_left fun s hs => (hv' s hs).1
  have hnd' : (a.map ix).Nodup := by rw [hmap] at hnd; exact hnd.of_map _
  refine ⟨a.map ix, hmap, ?_⟩
  unfold tblsRecover
  rw [takeShares_ok S coeffs msg a.length ix a b [] ha (by simp) hv']
  simp only [List.nil_append]
  have e : (a.map fun s => (ix s, priEval coeffs (ix s) • S.hm msg)) = (a.map ix).map fun i => (i, priEval coeffs i • S.hm msg) := by rw [List.map_map]; rfl
  have hr := recoverCommit_ok coeffs (S.hm msg) (a.map ix) hnd' (by
    intro i hi
    obtain ⟨s, hs, rfl⟩ := List.mem_map.1 hi
    exact shareIndex_lt (hv' s hs).1) (by simpa using hdeg)
  rw [List.length_map] at hr
  rw [e, hr]
  rfl

/-- Whatever `Recover` is given, what it returns is the signature. -/
theorem tblsRecover_sound (S : KyberSuite G1 G2 GT) (coeffs : List Fr) (msg : Bytes) (sigs : List Bytes) (ht : 1 ≤ coeffs.length) {sig : Bytes}
    (h : tblsRecover S (coeffs.map fun c => c • S.pp.g2) msg sigs coeffs.length = some sig) : sig = S.codec.enc (coeffs.getD 0 0 • S.hm msg) := by
  unfold tblsRecover at h
  split at h
  · cases h
  · rename_i l hl
    obtain ⟨h1, h2⟩ := takeShares_sound S coeffs msg coeffs.length sigs [] l (by simp only [List.length_nil]; omega) (by simp) hl
    have hlm : l = (l.map Prod.fst).map fun i => (i, priEval coeffs i • S.hm msg) := by
      rw [List.map_map]
      conv_lhs => rw [← List.map_id l]
      exact List.map_congr_left fun q hq => Prod.ext rfl (h2 q hq).2
    obtain ⟨g, hg, rfl⟩ := Option.map_eq_some_iff.1 h
    have hcard : coeffs.length ≤ (l.map Prod.fst).toFinset.card := by
      by_contra hc
      rw [recoverCommit_none l coeffs.length (by omega)] at hg
      cases hg
    have hle := List.toFinset_card_le (l.map Prod.fst)
    rw [List.length_map] at hle
    have hlen : l.length = coeffs.length := by omega
    have hnd : (l.map Prod.fst).Nodup := Multiset.coe_nodup.1 (Multiset.toFinset_card_eq_card_iff_nodup.1 (by
      simp only [Multiset.coe_card, List.length_map]
      exact le_antisymm hle (by rw [hlen]; exact hcard)))
    have hr := recoverCommit_ok coeffs (S.hm msg) (l.map Prod.fst) hnd (by
      intro i hi
      obtain ⟨q, hq, rfl⟩ := List.mem_map.1 hi
      exact (h2 q hq).1) (by rw [List.length_map]; omega)
    rw [← hlm, List.length_map, hlen, hg] at hr
    have h0 : coeffs.getD coeffs.length 0 = 0 := by rw [List.getD_eq_getElem?_getD, List.getElem?_eq_none (by omega)]; rfl
    rw [h0, zero_mul, sub_zero] at hr
    rw [Option.some.inj hr]

/-- Repeated indices among the first `t` shares: an error. -/
theorem tblsRecover_repeat (S : KyberSuite G1 G2 GT) (coeffs : List Fr) (msg : Bytes) (a b : List Bytes) (ha : a ≠ [])
    (hv : ∀ s ∈ a, tblsVerifyPartial S (coeffs.map fun c => c • S.pp.g2) msg s = true) (hnd : ¬ (a.map shareIndex).Nodup) :
    tblsRecover S (coeffs.map fun c => c • S.pp.g2) msg (a ++ b) a.length = none := by
  set ix : Bytes → ℕ := fun s => (shareIndex s).getD 0 with hix
  have hv' : ∀ s ∈ a, shareIndex s = some (ix s) ∧ S.codec.dec (s.drop 2) = some (priEval coeffs (ix s) • S.hm msg) := by
    intro s hs
    obtain ⟨i, h1, h2⟩ := (verifyPartial_iff S coeffs msg s).1 (hv s hs)
    have e : ix s = i := by simp [hix, h1]
    rw [e]; exact ⟨h1, h2⟩
  have hmap : a.map shareIndex = (a.map ix).map some := by
    rw [List.map_map]; exact List.map_congr_left fun s hs => (hv' s hs).1
  have hnd' : ¬ (a.map ix).Nodup := by
    intro h
    rw [hmap] at hnd
    exact hnd (h.map (Option.some_injective _))
  unfold tblsRecover
  rw [takeShares_ok S coeffs msg a.length ix a b [] ha (by simp) hv']
  simp only [List.nil_append]
  rw [recoverCommit_none, Option.map_none]
  have e : ((a.map fun s => (ix s, priEval coeffs (ix s) • S.hm msg)).map Prod.fst) = a.map ix := by rw [List.map_map]; rfl
  rw [e]
  have h1 := List.toFinset_card_le (a.map ix)
  rw [List.length_map] at h1
  rcases Nat.lt_or_eq_of_le h1 with h | h
  · exact h
  · exact absurd (Multiset.coe_nodup.1 (Multiset.toFinset_card_eq_card_iff_nodup.1 (by simpa using h))) hnd'

end
end DyCAPS
