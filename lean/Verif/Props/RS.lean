import Verif.Lemmas.RS
import Verif.Props.RBC
import Mathlib.LinearAlgebra.Vandermonde
import Mathlib.LinearAlgebra.Matrix.NonsingularInverse

/-!
# Reliable broadcast with the erasure code of the library: C126
-/

namespace DyCAPS

theorem noCode_step {N F : ℕ} {sha spare : Bytes → Bytes} {g : List Bytes → List Bytes} {s s' : RState} {ev : REvent} {out : List ROut}
    (h : rbcStep ⟨N, F, sha, ⟨fun _ => none, g⟩, spare⟩ s ev = some (s', out)) : s.dead = false ∧ (∀ d, ev = .propose d → s'.dead = true) ∧ ∀ o ∈ out, o.kind ≠ .echo := by
  have hb : ∀ n d, ∀ o ∈ rBroadcast n .ready d, o.kind ≠ .echo := fun n d o ho => by
    simp only [rBroadcast, List.mem_map] at ho
    obtain ⟨_, _, rfl⟩ := ho
    simp
  unfold rbcStep at h
  by_cases hd : s.dead = true
  · rw [if_pos hd] at h
    cases h
  rw [if_neg hd] at h
  refine ⟨by simpa using hd, ?_⟩
  cases ev with
  | propose d =>
    simp only at h
    split_ifs at h
    cases h
    exact ⟨fun _ _ => rfl, by simp⟩
  | echo d =>
    refine ⟨fun _ h => (by cases h), ?_⟩
    simp only at h
    split_ifs at h
    have := Option.some.inj h
    intro o ho
    have e : out = (onEcho ⟨N, F, sha, ⟨fun _ => none, g⟩, spare⟩ s (echoPayload d).hash (echoPayload d).m).2 := by rw [this]
    rw [e] at ho
    unfold onEcho at ho
    dsimp only at ho
    split_ifs at ho <;> first | exact hb _ _ o ho | simp at ho
  | echoPush =>
    refine ⟨fun _ h => (by cases h), ?_⟩
    simp only at h
    split at h
    · split_ifs at h <;> cases h <;> simp
    · cases h
  | echoQuit =>
    refine ⟨fun _ h => (by cases h), ?_⟩
    simp only at h
    split_ifs at h
    cases h
    simp
  | ready j d =>
    refine ⟨fun _ h => (by cases h), ?_⟩
    simp only at h
    split_ifs at h
    cases h
    simp
  | readyStep =>
    refine ⟨fun _ h => (by cases h), ?_⟩
    simp only at h
    unfold onReadyStep at h
    intro o ho
    split at h
    all_goals (try split at h) <;> (try split_ifs at h) <;> first | (cases h; done) | (cases h; simp at ho; done) | (cases h; exact hb _ _ o ho)
  | main =>
    refine ⟨fun _ h => (by cases h), ?_⟩
    simp only [Option.map_eq_some_iff] at h
    obtain ⟨_, _, h⟩ := h
    cases h
    simp

/-- **C126 (refuted).** A committee of more than 256 members, or one in which no data shards are left, has no encoder: whoever takes a proposal is gone, and no honest member ever sends an Echo. -/
theorem C126_refuted {N F : ℕ} (hN : N ≤ F + 1 ∨ 256 < N) (sha spare : Bytes → Bytes) {H : Finset ℕ} {evs : List NEvent} {net : RNet}
    (hr : NRun ⟨N, F, sha, rsCode N F, spare⟩ H RNet.init evs net) :
    (∀ j s d, .deliver j .propose s d ∈ evs → (net.party j).dead = true) ∧ ∀ j j' d, (j, (⟨j', .echo, d⟩ : ROut)) ∉ net.sent := by
  have hc : rsCode N F = ⟨fun _ => none, id⟩ := if_pos (by omega)
  rw [hc] at hr
  induction hr with
  | nil => exact ⟨fun _ _ _ h => by simp at h, fun _ _ _ h => by simp [RNet.init] at h⟩
  | @snoc evs net ev net' h hs ih =>
    obtain ⟨ih1, ih2⟩ := ih
    have hat : ∀ {j rev}, net.at_ ⟨N, F, sha, ⟨fun _ => none, id⟩, spare⟩ j rev = some net' →
        (∀ i, (net.party i).dead = true → (net'.party i).dead = true) ∧ (∀ d, rev = .propose d → (net'.party j).dead = true) ∧ ∀ j j' d, (j, (⟨j', .echo, d⟩ : ROut)) ∉ net'.sent := by
      intro j rev ha
      simp only [RNet.at_, Option.map_eq_some_iff, Prod.exists] at ha
      obtain ⟨s', out, h1, rfl⟩ := ha
      obtain ⟨g1, g2, g3⟩ := noCode_step h1
      refine ⟨fun i hi => ?_, fun d hd => ?_, fun a a' d hm => ?_⟩
      · have : i ≠ j := fun e => by rw [e, g1] at hi; cases hi
        simpa [this] using hi
      · simpa using g2 d hd
      · rcases List.mem_append.1 hm with hm | hm
        · exact ih2 _ _ _ hm
        · obtain ⟨o, ho, he⟩ := List.mem_map.1 hm
          cases he
          exact g3 _ ho rfl
    cases ev with
    | send b M =>
      simp only [netStep] at hs
      split_ifs at hs
      cases hs
      refine ⟨fun j s d hd => ih1 j s d (by simpa using hd), fun a a' d hm => ?_⟩
      rcases List.mem_append.1 hm with hm | hm
      · exact ih2 _ _ _ hm
      · simp [rBroadcast] at hm
    | sendExcl b M x =>
      simp only [netStep] at hs
      split_ifs at hs
      cases hs
      refine ⟨fun j s d hd => ih1 j s d (by simpa using hd), fun a a' d hm => ?_⟩
      rcases List.mem_append.1 hm with hm | hm
      · exact ih2 _ _ _ hm
      · simp [rBroadcastExcl, rBroadcast] at hm
    | deliver j k s d =>
      simp only [netStep] at hs
      split_ifs at hs
      obtain ⟨a1, a2, a3⟩ := hat hs
      refine ⟨fun j' s' d' hd => ?_, a3⟩
      rcases List.mem_append.1 hd with hd | hd
      · exact a1 _ (ih1 _ _ _ hd)
      · simp only [List.mem_singleton, NEvent.deliver.injEq] at hd
        obtain ⟨rfl, rfl, rfl, rfl⟩ := hd
        exact a2 _ rfl
    | run j e =>
      simp only [netStep] at hs
      split_ifs at hs
      obtain ⟨a1, a2, a3⟩ := hat hs
      exact ⟨fun j' s' d' hd => a1 _ (ih1 _ _ _ (by simpa using hd)), a3⟩

/-- **C126 (refuted).** In such a committee every broadcast of an honest member can end the whole committee: after the delivery of its proposals nobody is left. -/
theorem C126_refuted_all {N F : ℕ} (hN : N ≤ F + 1 ∨ 256 < N) (sha spare : Bytes → Bytes) {b : ℕ} (hb : b < N) (M : PMessage) (hD : (marshal M).length < 2 ^ 32) :
    ∃ evs net, NRun ⟨N, F, sha, rsCode N F, spare⟩ (Finset.range N) RNet.init (.send b M :: evs) net ∧ HonestCast b M (.send b M :: evs) ∧
      ∀ j < N, (net.party j).dead = true ∧ (net.party j).result = none := by
  have hc : rsCode N F = ⟨fun _ => none, id⟩ := if_pos (by omega)
  rw [hc]
  obtain ⟨n1, h1, h2, h3⟩ := run_send (env := ⟨N, F, sha, ⟨fun _ => none, id⟩, spare⟩) (H := Finset.range N) (Finset.mem_range.2 hb) M
  obtain ⟨n2, g1, g2, _, _⟩ := h1.phase (List.range N) (fun j hj => by simpa using hj) List.nodup_range (fun j => [.deliver j .propose b (marshal M)])
    (fun _ => { RState.init with proposed := true, dead := true }) (fun _ => []) (fun j _ => by rw [h2 j]; rfl)
    (fun j hj e he => by
      simp only [List.mem_singleton] at he
      subst he
      refine ⟨rfl, hb, hD, fun _ => ?_⟩
      rw [h3]
      have := List.mem_range.1 hj
      simp only [rBroadcast, List.map_map, List.mem_map, List.mem_range, Function.comp]
      exact ⟨j, this, rfl⟩)
  refine ⟨(List.range N).flatMap fun j => [.deliver j .propose b (marshal M)], n2, by simpa using g1, ⟨?_, ?_, ?_⟩, fun j hj => ?_⟩
  · intro j s d h
    simp at h
    omega
  · intro M' h
    simpa using h
  · intro M' x h
    simp at h
  · rw [g2 j (List.mem_range.2 hj)]
    exact ⟨rfl, rfl⟩

/-- **C126 (part).** Up to 256 members: every nonempty message is cut into `N` shards, the first `N-(F+1)` of them begin with the message, and any `N-(F+1)` of the shards give back all of them. -/
theorem C126_code_partial {N F : ℕ} (h1 : F + 2 ≤ N) (h2 : N ≤ 256) {D : Bytes} (hD : D ≠ []) :
    ∃ sh, (rsCode N F).encode D = some sh ∧ sh.length = N ∧ D <+: (sh.take (N - (F + 1))).flatten ∧
      ∀ S : Finset ℕ, S ⊆ Finset.range N → N - (F + 1) ≤ S.card → (rsCode N F).fill ((List.range N).map fun i => if i ∈ S then sh.getD i [] else []) = sh := by
  have hk : 1 ≤ N - (F + 1) := by omega
  have hkN : N - (F + 1) ≤ N := by omega
  have hc : rsCode N F = ⟨rsEncode (N - (F + 1)) N, rsFill (N - (F + 1)) N⟩ := if_neg (by omega)
  rw [hc]
  have he := rsEncode_poly hk hkN h2 hD
  refine ⟨_, he, by simp, ?_, fun S hS hcard => ?_⟩
  · have he' := he
    rw [rsEncode, if_neg hD] at he'
    rw [← Option.some.inj he', List.take_append_of_le_length (by simp [rsSplit]), List.take_of_length_le (by simp [rsSplit])]
    exact rsSplit_prefix hk D
  · have hM : ∀ i, i < N → ((List.range N).map fun i => if i ∈ S then ((List.range N).map (polyShard (perShard (N - (F + 1)) D) (dataPoly (N - (F + 1)) D))).getD i [] else []).getD i [] =
        if i ∈ S then polyShard (perShard (N - (F + 1)) D) (dataPoly (N - (F + 1)) D) i else [] := fun i hi => by
      simp [List.getD_eq_getElem?_getD, hi]
    refine rsFill_poly hk h2 (fun b => dataPoly_degree (by omega) D b) (by simp) (fun i hi => ?_) ?_
    · rw [hM i hi]
      split_ifs
      · exact Or.inl rfl
      · exact Or.inr rfl
    · have e : S = (rsPresent N ((List.range N).map fun i => if i ∈ S then
          ((List.range N).map (polyShard (perShard (N - (F + 1)) D) (dataPoly (N - (F + 1)) D))).getD i [] else [])).toFinset := by
        ext i
        rw [List.mem_toFinset, rsPresent, List.mem_filter, List.mem_range]
        constructor
        · intro hi
          have hiN := Finset.mem_range.1 (hS hi)
          refine ⟨hiN, ?_⟩
          rw [hM i hiN, if_pos hi]
          have := perShard_pos hk hD
          have hl := polyShard_length (perShard (N - (F + 1)) D) (dataPoly (N - (F + 1)) D) i
          simp only [decide_eq_true_eq]
          intro h0
          rw [h0] at hl
          simp at hl
          omega
        · rintro ⟨hiN, h⟩
          rw [hM i hiN] at h
          by_contra hc
          simp [hc] at h
      calc N - (F + 1) ≤ S.card := hcard
        _ ≤ _ := by
          conv_lhs => rw [e]
          exact List.toFinset_card_le _

/-- **C126 (part).** Up to 256 members the assumptions made about the library in the other statements hold. -/
theorem C126_contract_partial {N F : ℕ} (hs : 3 * F + 1 ≤ N) (h2 : 2 ≤ N) (h3 : N ≤ 256) {sha : Bytes → Bytes} (hsha : ∀ x, (sha x).length = 32) (spare : Bytes → Bytes) :
    (⟨N, F, sha, rsCode N F, spare⟩ : REnv).Ok := rsCode_ok hs h2 h3 hsha spare

/-- **C126 (part).** Up to 256 members a broadcast ends with every honest member returning the message: C34 with nothing assumed of the erasure code. -/
theorem C126_broadcast_partial {N F : ℕ} (hs : 3 * F + 1 ≤ N) (h2 : 2 ≤ N) (h3 : N ≤ 256) {sha : Bytes → Bytes} (hsha : ∀ x, (sha x).length = 32) (spare : Bytes → Bytes)
    {H : Finset ℕ} (hH : HonestSet ⟨N, F, sha, rsCode N F, spare⟩ H) (x : IRun ⟨N, F, sha, rsCode N F, spare⟩ H) (hf : x.Fair) (hone : ∀ n, EchoOnce (x.before n))
    {b : ℕ} (hb : b ∈ H) {M : PMessage} (hc : ∀ n, HonestCast b M (x.before n)) (htr : ∀ n, TrueShards ⟨N, F, sha, rsCode N F, spare⟩ (marshal M) (x.before n))
    (hD : (marshal M).length < 2 ^ 30) (hne : marshal M ≠ []) {t : ℕ} (hsend : x.ev t = some (.send b M)) :
    ∃ n, ∀ m, n ≤ m → ∀ j ∈ H, ((x.net m).party j).result = some (some M) :=
  C34_termination_partial (rsCode_ok hs h2 h3 hsha spare) hH x hf hone hb hc htr hD hne hsend

open Matrix in
/-- **C126.** The rows used in the model are those of the library: with the Vandermonde matrix `V` of the `N` bytes, its upper square `T` and the matrix `V * T⁻¹` of the code, the rows of that matrix
are the rows with which the shards are computed from the data, and the rows of its product with the inverse of any `k` of its own rows are those with which they are computed from these `k` shards. -/
theorem C126_matrix {N k : ℕ} (hk1 : 1 ≤ k) (hk : k ≤ N) (hN : N ≤ 256) (xs : Fin k → Fin N) (hx : Function.Injective xs) :
    let V : Matrix (Fin N) (Fin k) GF := of fun r c => gfPoint r ^ (c : ℕ)
    let T : Matrix (Fin k) (Fin k) GF := V.submatrix (Fin.castLE hk) id
    let S : Matrix (Fin k) (Fin k) GF := (V * T⁻¹).submatrix xs id
    IsUnit T.det ∧ IsUnit S.det ∧ (∀ t i, (V * T⁻¹) t i = (gfRow (List.range k) t).getD i 0) ∧
      ∀ t i, (V * T⁻¹ * S⁻¹) t i = (gfRow (List.ofFn fun i => (xs i : ℕ)) t).getD i 0 := by
  intro V T S
  have key : ∀ ys : Fin k → Fin N, Function.Injective ys → IsUnit (V.submatrix ys id).det ∧
      ∀ t i, (V * (V.submatrix ys id)⁻¹) t i = (gfRow (List.ofFn fun i => (ys i : ℕ)) t).getD i 0 := by
    intro ys hy
    have hlt : ∀ i, (ys i : ℕ) < 256 := fun i => lt_of_lt_of_le (ys i).2 hN
    have hV : V.submatrix ys id = vandermonde fun i => gfPoint (ys i) := rfl
    have hu : IsUnit (V.submatrix ys id).det := by
      rw [hV, isUnit_iff_ne_zero, det_vandermonde_ne_zero_iff]
      intro i j h
      exact hy (Fin.ext (gfPoint_inj (hlt i) (hlt j) h))
    refine ⟨hu, fun t i => ?_⟩
    have hL : V = (of fun t i => (gfRow (List.ofFn fun i => (ys i : ℕ)) (t : Fin N)).getD (i : Fin k) 0 : Matrix (Fin N) (Fin k) GF) * V.submatrix ys id := by
      ext t c
      rw [mul_apply]
      have := gfRow_eval (xs := List.ofFn fun i => (ys i : ℕ)) (List.nodup_ofFn.2 fun i j h => hy (Fin.ext h)) (by
          intro i hi
          obtain ⟨j, rfl⟩ := (List.mem_ofFn' _ _).1 hi
          exact hlt j)
        (by intro h; have := congrArg List.length h; simp at this; omega) t (f := Polynomial.X ^ (c : ℕ)) (by
          rw [Polynomial.degree_X_pow, List.length_ofFn]
          exact_mod_cast c.2)
      rw [List.length_ofFn, Finset.sum_range] at this
      simp only [Polynomial.eval_pow, Polynomial.eval_X] at this
      show gfPoint t ^ (c : ℕ) = _
      rw [← this]
      refine Finset.sum_congr rfl fun i _ => ?_
      simp [V, List.getD_eq_getElem?_getD]
    have := congrArg (· * (V.submatrix ys id)⁻¹) hL
    simp only [Matrix.mul_assoc, mul_nonsing_inv _ hu, Matrix.mul_one] at this
    rw [this]
    rfl
  obtain ⟨t1, t2⟩ := key (Fin.castLE hk) (Fin.castLE_injective hk)
  obtain ⟨x1, x2⟩ := key xs hx
  have hS : S = V.submatrix xs id * T⁻¹ := rfl
  refine ⟨t1, ?_, fun t i => ?_, fun t i => ?_⟩
  · rw [hS, det_mul]
    exact x1.mul (isUnit_nonsing_inv_det T t1)
  · rw [show V * T⁻¹ = V * (V.submatrix (Fin.castLE hk) id)⁻¹ from rfl, t2]
    congr 2
    refine List.ext_getElem (by simp) fun i _ _ => by simp
  · rw [← x2, hS, Matrix.mul_inv_rev, nonsing_inv_nonsing_inv _ t1, Matrix.mul_assoc, ← Matrix.mul_assoc T⁻¹, nonsing_inv_mul _ t1, Matrix.one_mul]

/-- Four members, two data shards: three bytes are cut into two shards of two bytes; two parity shards follow. -/
example : (rsCode 4 1).encode [1, 2, 3] = some [[1, 2], [3, 0], [5, 6], [7, 4]] := by decide +kernel

/-- The two parity shards alone give back the data. -/
example : (rsCode 4 1).fill [[], [], [5, 6], [7, 4]] = [[1, 2], [3, 0], [5, 6], [7, 4]] := by decide +kernel

/-- A wrong shard gives wrong data, and one shard gives nothing. -/
example : (rsCode 4 1).fill [[1, 2], [], [5, 7], []] ≠ [[1, 2], [3, 0], [5, 6], [7, 4]] ∧ (rsCode 4 1).fill [[], [], [5, 6], []] = [[], [], [5, 6], []] := by decide +kernel

/-- The environments the other statements speak about exist. -/
example : (⟨4, 1, fun _ => List.replicate 32 0, rsCode 4 1, fun _ => []⟩ : REnv).Ok := C126_contract_partial (by norm_num) (by norm_num) (by norm_num) (by simp) _

/-- A committee of one member, and the one with 85 faults and 257 members. -/
example : (0 + 1 ≤ 0 + 1 ∨ 256 < 1) ∧ (257 ≤ 85 + 1 ∨ 256 < 257) ∧ 3 * 85 + 1 ≤ 257 := by omega

/-- 256 members, 85 faults, a message of 1000 bytes: any 170 shards suffice. -/
example : ∃ sh, (rsCode 256 85).encode (List.replicate 1000 7) = some sh ∧ sh.length = 256 ∧
    (rsCode 256 85).fill ((List.range 256).map fun i => if i ∈ Finset.Ico 86 256 then sh.getD i [] else []) = sh := by
  obtain ⟨sh, h1, h2, -, h4⟩ := C126_code_partial (N := 256) (F := 85) (by norm_num) le_rfl (D := List.replicate 1000 7) (List.ne_nil_of_length_pos (by rw [List.length_replicate]; norm_num))
  exact ⟨sh, h1, h2, h4 (Finset.Ico 86 256) (fun i hi => Finset.mem_range.2 (Finset.mem_Ico.1 hi).2) (by rw [Nat.card_Ico])⟩

/-- The execution of `toy_hypotheses` is a case of `C126_broadcast_partial`. -/
example : ∃ x : IRun (toyEnv 4 1) toyH, x.Fair ∧ ∃ n, ∀ m, n ≤ m → ∀ j ∈ toyH, ((x.net m).party j).result = some (some toyM) := by
  obtain ⟨net, h1, h2, h3, h4, h5, h6, h7⟩ := toy_hypotheses
  obtain ⟨x, a1, a2⟩ := IRun.of_run h1
  have hf := IRun.fair_of_settled a1 a2 h7
  have hb := fun n => IRun.before_of_list a1 n
  have hsub : ∀ n, x.before n ⊆ toyEvents := fun n => by rw [hb]; exact List.take_subset _ _
  refine ⟨x, hf, C126_broadcast_partial (N := 4) (F := 1) (by norm_num) (by norm_num) (by norm_num) (fun x => by simp) _ h3 x hf (fun n j => ?_) (b := 1) (by decide)
    (fun n => ⟨fun j s d h => h5.src j s d (hsub n h), fun M' h => h5.only M' (hsub n h), fun M' x h => h5.only_excl M' x (hsub n h)⟩)
    (fun n j s d sh h => h6 j s d sh (hsub n h)) (by decide +kernel) (by decide +kernel) (t := 0) (by rw [a1]; rfl)⟩
  have hn : (echoSenders (x.before n) j).Nodup := by
    rw [hb]
    exact (h4 j).sublist ((List.take_sublist n toyEvents).filterMap _)
  exact hn

end DyCAPS
