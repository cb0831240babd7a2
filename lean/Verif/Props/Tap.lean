import Verif.Spec.Tap
import Verif.Props.Framing
import Verif.Props.ShareReduce

/-!
# C128: someone who only reads the traffic

The connections carry protobuf messages as they are; nothing is encrypted. Someone who takes part in nothing and holds no key computes the secret from recorded connections of the sharing, of the
hand-off, or of the share distribution.
-/

set_option linter.unusedSectionVars false

namespace DyCAPS

section
variable {G1 G2 GT : Type} [AddCommGroup G1] [Module Fr G1] [AddCommGroup G2] [Module Fr G2] [AddCommGroup GT] [Module Fr GT]

theorem atZero_ok (x y f : List Fr) (d : ℕ) (hx : x.length = d + 1) (hy : y.length = d + 1) (hf : f.length = d + 1) (hnd : x.Nodup)
    (h : ∀ k ≤ d, polyVal f (x.getD k 0) = y.getD k 0) : atZero x y = .ok (polyVal f 0) := by
  have : lagrangeInterpolate (x.length - 1) x y = .ok f := by
    rw [hx, Nat.add_sub_cancel]
    refine lagrangeInterpolate_eq_of_eval d x y f hx.ge hy.ge (fun i hi j hj hne => ?_) hf h
    rw [List.getD_eq_getElem _ _ (by omega), List.getD_eq_getElem _ _ (by omega)]
    intro he
    exact hne ((hnd.getElem_inj_iff (hi := by omega) (hj := by omega)).1 he).symm
  rw [atZero, this, Go.ok_bind, evalPolyAt_eq]
  rfl

theorem points_nodup (l : List ℕ) (hnd : l.Nodup) (hlt : ∀ i ∈ l, i + 1 < frModulus) : (l.map fun i => ((i + 1 : ℕ) : Fr)).Nodup := by
  refine List.Nodup.map_on (fun i hi j hj he => ?_) hnd
  by_contra hne
  exact fr_natCast_ne (hlt i hi) (hlt j hj) (by omega) he

/-- The grid of values determines the value at `(0, 0)`. -/
theorem gridAtZero_ok (b : ℕ → ℕ → Fr) (dx dy : ℕ) (is js : List ℕ) (v : ℕ → ℕ → Fr) (hi : is.Nodup) (hil : is.length = dx + 1) (hlt : ∀ i ∈ is, i + 1 < frModulus)
    (hj : js.Nodup) (hjl : js.length = dy + 1) (hjlt : ∀ j ∈ js, j + 1 < frModulus)
    (hv : ∀ i ∈ is, ∀ j ∈ js, v i j = biVal b dx dy ((i + 1 : ℕ) : Fr) ((j + 1 : ℕ) : Fr)) : gridAtZero is js v = .ok (biVal b dx dy 0 0) := by
  have hrow : ∀ i ∈ is, atZero (js.map fun j => ((j + 1 : ℕ) : Fr)) (js.map (v i)) = .ok (biVal b dx dy ((i + 1 : ℕ) : Fr) 0) := by
    intro i hi
    rw [← polyVal_sliceY]
    refine atZero_ok _ _ _ dy (by simpa) (by simpa) (sliceY_length _ _ _ _) (points_nodup js hj hjlt) fun k hk => ?_
    rw [List.getD_eq_getElem _ _ (by simp; omega), List.getD_eq_getElem _ _ (by simp; omega), List.getElem_map, List.getElem_map, polyVal_sliceY, hv i hi _ (List.getElem_mem _)]
  rw [gridAtZero, mapM_ok _ (fun i => biVal b dx dy ((i + 1 : ℕ) : Fr) 0) _ hrow, Go.ok_bind, ← polyVal_sliceX]
  refine atZero_ok _ _ _ dx (by simpa) (by simpa) (sliceX_length _ _ _ _) (points_nodup is hi hlt) fun k hk => ?_
  rw [List.getD_eq_getElem _ _ (by simp; omega), List.getD_eq_getElem _ _ (by simp; omega), List.getElem_map, List.getElem_map, polyVal_sliceX]

/-- The first message of a type on a connection is found in the record. -/
theorem tapMessage_stream (type : String) (pre post : List PMessage) (m : PMessage) (hm : m.type = type) (hpre : ∀ m' ∈ pre, m'.type ≠ type)
    (hs : ∀ m' ∈ pre ++ m :: post, (marshal m').length < 2 ^ 32) : tapMessage type (sendStream (pre ++ m :: post)) = some m := by
  rw [tapMessage, (C03_stream _ hs).1, List.find?_append, List.find?_eq_none.2 (by simpa using hpre)]
  simp [hm]

/-! ### Sizes -/

theorem size_vssSend_small (codec : PointCodec G1) (pi : Pi G1) (bij : List Fr) (w : List G1) (F : ℕ) (hF : F ≤ 1000) :
    (marshal (encapsulateVSSSend codec pi bij w F)).length < 2 ^ 26 := by
  have hpi : (marshal (⟨codec.enc pi.gs, ⟨0, [], [], [], []⟩ :: (oneTo (2 * F + 1)).map fun j =>
      encodeContent codec (pi.contents.getD j (PiContent.zero j)) j⟩ : PPi)).length ≤ 10000000 := by
    show (encFields (putBytes 1 _ ++ putRep 2 _)).length ≤ _
    rw [encFields_append, List.length_append]
    have h1 := size_putBytes 1 (by norm_num) (codec.enc pi.gs)
    have e1 := codec.enc_len pi.gs
    have h2 := size_putRep 2 (by norm_num) ((((⟨0, [], [], [], []⟩ : PPiContent) :: (oneTo (2 * F + 1)).map fun j =>
      encodeContent codec (pi.contents.getD j (PiContent.zero j)) j)).map marshal) (2 * F + 1 + 400) (by
        intro b hb
        rw [List.map_cons, List.mem_cons, List.map_map, List.mem_map] at hb
        rcases hb with rfl | ⟨j, hj, rfl⟩
        · have : marshal (⟨0, [], [], [], []⟩ : PPiContent) = [] := rfl
          rw [this]; simp
        · have := size_content codec (pi.contents.getD j (PiContent.zero j)) j
          rw [mem_oneTo] at hj
          simp only [Function.comp_apply]
          omega)
    simp only [List.length_map, List.length_cons, oneTo_length] at h2
    have h3 : (2 * F + 1 + 1) * (2 * (2 * F + 1 + 400) + 2) ≤ 2002 * 4804 := Nat.mul_le_mul (by omega) (by omega)
    refine (Nat.add_le_add h1 h2).trans ?_
    omega
  show (encFields (putMsg 1 _ ++ putRep 2 _ ++ putRep 3 _)).length < _
  simp only [encFields_append, List.length_append, encapsulateVSSSend]
  have h1 := size_putMsg 1 (by norm_num) (⟨codec.enc pi.gs, ⟨0, [], [], [], []⟩ :: (oneTo (2 * F + 1)).map fun j =>
      encodeContent codec (pi.contents.getD j (PiContent.zero j)) j⟩ : PPi)
  have h2 := size_putRep 2 (by norm_num) ([] :: (oneTo (2 * F + 1)).map fun j => frTo32 (bij.getD j 0)) 32 (by
    intro b hb
    rw [List.mem_cons, List.mem_map] at hb
    rcases hb with rfl | ⟨j, -, rfl⟩
    · simp
    · rw [(C02_round_trip 0 _).1])
  have h3 := size_putRep 3 (by norm_num) ([] :: (oneTo (2 * F + 1)).map fun j => codec.enc (w.getD j 0)) 48 (by
    intro b hb
    rw [List.mem_cons, List.mem_map] at hb
    rcases hb with rfl | ⟨j, -, rfl⟩
    · simp
    · exact codec.enc_len _)
  simp only [List.length_map, List.length_cons, oneTo_length] at h2 h3
  omega

theorem size_message (m : PMessage) : (marshal m).length ≤ 2 * (stringToBytes m.type).length + 2 * m.id.length + m.sender.toNat + 2 * m.data.length + 8 := by
  have h1 := size_putBytes 1 (by norm_num) (stringToBytes m.type)
  have h2 := size_putBytes 2 (by norm_num) m.id
  have h3 := size_putU32 3 (by norm_num) m.sender
  have h4 := size_putBytes 4 (by norm_num) m.data
  show (encFields (putBytes 1 _ ++ putBytes 2 _ ++ putU32 3 _ ++ putBytes 4 _)).length ≤ _
  simp only [encFields_append, List.length_append]
  omega

theorem size_reduce_small (codec : PointCodec G1) (a b : G1) (v : Fr) : (marshal (⟨codec.enc a, frTo32 v, codec.enc b⟩ : PShareReduce)).length < 1000 := by
  show (encFields (putBytes 1 _ ++ putBytes 2 _ ++ putBytes 3 _)).length < _
  simp only [encFields_append, List.length_append]
  have h1 := size_putBytes 1 (by norm_num) (codec.enc a)
  have h2 := size_putBytes 2 (by norm_num) (frTo32 v)
  have h3 := size_putBytes 3 (by norm_num) (codec.enc b)
  have e1 := codec.enc_len a
  have e2 := (C02_round_trip 0 v).1
  have e3 := codec.enc_len b
  omega

theorem size_dist_small (codec : PointCodec G1) (a : G1) (v : Fr) : (marshal (⟨frTo32 v, codec.enc a⟩ : PShareDist)).length < 1000 := by
  show (encFields (putBytes 1 _ ++ putBytes 2 _)).length < _
  simp only [encFields_append, List.length_append]
  have h1 := size_putBytes 1 (by norm_num) (frTo32 v)
  have h2 := size_putBytes 2 (by norm_num) (codec.enc a)
  have e1 := (C02_round_trip 0 v).1
  have e2 := codec.enc_len a
  omega

/-- What the observer reads in the sharing sent to member `i`. -/
theorem tapVSS_client (codec : PointCodec G1) (pp : Pairing Fr G1 G2 GT) (t : Fr) (N F : ℕ) (s : Fr) (c : DealerCoins) (ID : Bytes) (hF : F ≤ 1000) (hID : ID.length ≤ 2 ^ 20)
    (msgs : List Bytes) (hm : clientShare codec pp (newKZG pp t (F + 1)) N F s c = .ok msgs) (i : ℕ) (hi : i < N) (j : ℕ) (h1 : 1 ≤ j) (h2 : j ≤ 2 * F + 1) :
    tapVSS (sendStream [clientMessage ID msgs i]) j = dealerShare F s c (i + 1) j := by
  rw [clientShare_ok] at hm
  have hd : msgs.getD i [] = marshal (honestMsg codec pp t F s c (i + 1)) := by
    rw [← Except.ok.inj hm, oneTo_map_getD _ _ _ _ hi]
  have hs := size_vssSend_small codec (honestPi pp t F s c) (0 :: (oneTo (2 * F + 1)).map (dealerShare F s c (i + 1)))
    (0 :: (oneTo (2 * F + 1)).map fun j => quotVal (dealerB F s c j) ((i + 1 : ℕ) : Fr) t • pp.g1) F hF
  have hlen : (marshal (clientMessage ID msgs i)).length < 2 ^ 32 := by
    have a := size_message (clientMessage ID msgs i)
    have e1 : (stringToBytes (clientMessage ID msgs i).type).length = 7 := by
      show (stringToBytes "VSSSend").length = 7
      decide +kernel
    have e2 : (clientMessage ID msgs i).sender.toNat = 2 ^ 31 - 1 := rfl
    have e3 : (clientMessage ID msgs i).id = ID := rfl
    have e4 : (clientMessage ID msgs i).data.length < 2 ^ 26 := by
      show (msgs.getD i []).length < _
      rw [hd]
      exact hs
    rw [e1, e2, e3] at a
    omega
  have ht := tapMessage_stream "VSSSend" [] [] (clientMessage ID msgs i) rfl (by simp) (by simpa using hlen)
  rw [List.nil_append] at ht
  have hu : unmarshalD (⟨none, [], []⟩ : PVSSSend) (msgs.getD i []) = honestMsg codec pp t F s c (i + 1) := by
    rw [hd, unmarshalD, rt_PVSSSend (honestMsg codec pp t F s c (i + 1)) (lt_trans hs (by norm_num))]
    rfl
  have hb : (honestMsg codec pp t F s c (i + 1)).BijList.getD j [] = frTo32 (dealerShare F s c (i + 1) j) := by
    show (([] : Bytes) :: (oneTo (2 * F + 1)).map fun j => frTo32 (((0 : Fr) :: (oneTo (2 * F + 1)).map (dealerShare F s c (i + 1))).getD j 0)).getD j [] = _
    obtain ⟨k, rfl⟩ : ∃ k, j = k + 1 := ⟨j - 1, by omega⟩
    rw [List.getD_cons_succ, oneTo_map_getD _ _ _ _ (by omega), List.getD_cons_succ, oneTo_map_getD _ _ _ _ (by omega)]
  rw [tapVSS, ht]
  show (frFrom32 0 ((unmarshalD (⟨none, [], []⟩ : PVSSSend) (msgs.getD i [])).BijList.getD j [])).1 = _
  rw [hu, hb, (C02_round_trip 0 _).2]

/-! ### C128 -/

/-- **C128, refuted (sharing).** Someone who records the connections of the client to any `F+1` members computes the secret from the bytes, whatever the secret, the random choices of the dealer and
the setup. -/
theorem C128_tapped_sharing (codec : PointCodec G1) (pp : Pairing Fr G1 G2 GT) (t : Fr) (N F : ℕ) (s : Fr) (c : DealerCoins) (ID : Bytes) (hF : F ≤ 1000) (hID : ID.length ≤ 2 ^ 20)
    (hr : N < frModulus) (is : List ℕ) (hnd : is.Nodup) (hlen : is.length = F + 1) (hlt : ∀ i ∈ is, i < N) :
    ∃ msgs, clientShare codec pp (newKZG pp t (F + 1)) N F s c = .ok msgs ∧
      gridAtZero is (List.range (2 * F + 1)) (fun i j => tapVSS (sendStream [clientMessage ID msgs i]) (j + 1)) = .ok s := by
  refine ⟨_, clientShare_ok codec pp t N F s c, ?_⟩
  have hmod : 2 * F + 1 < frModulus := lt_of_le_of_lt (by omega : 2 * F + 1 ≤ 2001) (by decide +kernel)
  obtain ⟨b, hb1, hb2⟩ := dealer_bivariate F s c hmod
  have hsec : biVal b F (2 * F) 0 0 = s := by rw [← polyVal_sliceY, hb2, dealerF_zero]
  rw [← hsec]
  refine gridAtZero_ok b F (2 * F) is _ _ hnd hlen (fun i hi => lt_of_le_of_lt (hlt i hi) hr) List.nodup_range (by simp)
    (fun j hj => lt_of_le_of_lt (by rw [List.mem_range] at hj; omega) hmod) fun i hi j hj => ?_
  rw [List.mem_range] at hj
  rw [hsec, tapVSS_client codec pp t N F s c ID hF hID _ (clientShare_ok codec pp t N F s c) i (hlt i hi) (j + 1) (by omega) (by omega), dealerShare, evalPolyAt_eq, ← hb1 (j + 1) (by omega) (by omega),
    polyVal_sliceX]

/-- **C128, refuted (hand-off).** Someone who records the connections of `F+1` members of the old committee to `2F+1` members of the new one computes the secret, whatever else is sent on them. -/
theorem C128_tapped_handoff (codec : PointCodec G1) (pp : Pairing Fr G1 G2 GT) (t : Fr) (N F : ℕ) (b : ℕ → ℕ → Fr) (hN : 3 * F + 1 ≤ N) (hr : N < frModulus)
    (is js : List ℕ) (hi : is.Nodup) (hil : is.length = F + 1) (hilt : ∀ i ∈ is, i < N) (hj : js.Nodup) (hjl : js.length = 2 * F + 1) (hjlt : ∀ j ∈ js, j < N)
    (P : ℕ → Party G1 G2) (hP : ∀ i ∈ is, (P i).Setup pp t ∧ (P i).F = F ∧ (P i).N = N ∧ (P i).pid = i ∧ HoldsFull pp t b (P i))
    (out : ℕ → List Bytes) (hout : ∀ i ∈ is, shareReduceSend codec (P i) = .ok (out i))
    (conn : ℕ → ℕ → List PMessage)
    (hconn : ∀ i ∈ is, ∀ j ∈ js, (∀ m ∈ conn i j, (marshal m).length < 2 ^ 32) ∧ ∃ pre post ID, conn i j = pre ++ ⟨"ShareReduce", ID, UInt32.ofNat i, (out i).getD j []⟩ :: post ∧ ∀ m ∈ pre, m.type ≠ "ShareReduce") :
    gridAtZero is js (fun i j => tapReduce (sendStream (conn i j))) = .ok (biVal b F (2 * F) 0 0) := by
  refine gridAtZero_ok b F (2 * F) is js _ hi hil (fun i hi => lt_of_le_of_lt (hilt i hi) hr) hj hjl (fun j hj => lt_of_le_of_lt (hjlt j hj) hr) fun i hi j hj => ?_
  obtain ⟨h1, h2, h3, h4, h5⟩ := hP i hi
  obtain ⟨msgs, k1, -, k3⟩ := C25_send codec pp t b (P i) h1 h5 (by omega) (by omega)
  have e : msgs = out i := by rw [hout i hi] at k1; exact (Except.ok.inj k1).symm
  subst e
  have hS := srMsg_honest _ _ _ _ _ _ _ _ (k3 j (by have := hjlt j hj; omega))
  obtain ⟨hsz, pre, post, ID, hc, hpre⟩ := hconn i hi j hj
  rw [hc] at hsz ⊢
  rw [tapReduce, tapMessage_stream "ShareReduce" pre post _ rfl hpre hsz]
  show (frFrom32 0 (srMsg ((out i).getD j [])).v).1 = _
  rw [hS]
  simp only
  rw [(C02_round_trip 0 _).2, h2, h4]

/-- **C128, refuted (refresh).** Someone who records, in the share distribution of a refresh, the connections of `2F+1` members to `F+1` members computes the secret, whatever else is sent on them. -/
theorem C128_tapped_refresh (codec : PointCodec G1) (N F : ℕ) (b : ℕ → ℕ → Fr) (hr : N < frModulus)
    (is js : List ℕ) (hi : is.Nodup) (hil : is.length = F + 1) (hilt : ∀ i ∈ is, i < N) (hj : js.Nodup) (hjl : js.length = 2 * F + 1) (hjlt : ∀ j ∈ js, j < N)
    (P : ℕ → Party G1 G2) (hP : ∀ j ∈ js, (P j).reducedShare = sliceX b F (2 * F) ((j + 1 : ℕ) : Fr))
    (sd : ℕ → ℕ → PShareDist) (hsd : ∀ i ∈ is, ∀ j ∈ js, shareDistMsg codec (P j) (i + 1) = .ok (sd j i))
    (conn : ℕ → ℕ → List PMessage)
    (hconn : ∀ i ∈ is, ∀ j ∈ js, (∀ m ∈ conn j i, (marshal m).length < 2 ^ 32) ∧ ∃ pre post ID, conn j i = pre ++ ⟨"ShareDist", ID, UInt32.ofNat j, marshal (sd j i)⟩ :: post ∧ ∀ m ∈ pre, m.type ≠ "ShareDist") :
    gridAtZero is js (fun i j => tapDist (sendStream (conn j i))) = .ok (biVal b F (2 * F) 0 0) := by
  refine gridAtZero_ok b F (2 * F) is js _ hi hil (fun i hi => lt_of_le_of_lt (hilt i hi) hr) hj hjl (fun j hj => lt_of_le_of_lt (hjlt j hj) hr) fun i hi j hj => ?_
  have hm := hsd i hi j hj
  rw [shareDistMsg] at hm
  cases hw : computeProofSingle (P j).kzg (P j).reducedShare ((i + 1 : ℕ) : Fr) with
  | error e => rw [hw] at hm; cases hm
  | ok w =>
    rw [hw, Go.ok_bind] at hm
    have hm := Except.ok.inj hm
    obtain ⟨hsz, pre, post, ID, hc, hpre⟩ := hconn i hi j hj
    rw [hc] at hsz ⊢
    have hl : (marshal (sd j i)).length < 2 ^ 64 := by
      rw [← hm]
      exact lt_trans (size_dist_small codec w _) (by norm_num)
    rw [tapDist, tapMessage_stream "ShareDist" pre post _ rfl hpre hsz]
    show (frFrom32 0 (unmarshalD (⟨[], []⟩ : PShareDist) (marshal (sd j i))).B).1 = _
    rw [unmarshalD, rt_PShareDist _ hl]
    show (frFrom32 0 (sd j i).B).1 = _
    rw [← hm]
    simp only
    rw [(C02_round_trip 0 _).2, evalPolyAt_eq, hP j hj, polyVal_sliceX]

/-- **C128, the part that holds.** The share values on the connections of the client to at most `F` members say nothing: as many random choices of the dealer lead to the recorded values under one
secret as under another. The commitments, which are the same on all connections, are not part of this statement. -/
theorem C128_few_partial (codec : PointCodec G1) (pp : Pairing Fr G1 G2 GT) (t : Fr) (N F : ℕ) (ID : Bytes) (hF : F ≤ 1000) (hID : ID.length ≤ 2 ^ 20) (hr : N < frModulus) (S : Finset ℕ)
    (hS : S.card ≤ F) (hlt : ∀ i ∈ S, i < N) (s s' : Fr) (view : ℕ → ℕ → Fr) :
    Nat.card {r : CoinSpace F // ∃ msgs, clientShare codec pp (newKZG pp t (F + 1)) N F s (coinsOf F r) = .ok msgs ∧
      ∀ i ∈ S, ∀ j, 1 ≤ j → j ≤ 2 * F + 1 → tapVSS (sendStream [clientMessage ID msgs i]) j = view i j} =
    Nat.card {r : CoinSpace F // ∃ msgs, clientShare codec pp (newKZG pp t (F + 1)) N F s' (coinsOf F r) = .ok msgs ∧
      ∀ i ∈ S, ∀ j, 1 ≤ j → j ≤ 2 * F + 1 → tapVSS (sendStream [clientMessage ID msgs i]) j = view i j} := by
  have key : ∀ s : Fr, Nat.card {r : CoinSpace F // ∃ msgs, clientShare codec pp (newKZG pp t (F + 1)) N F s (coinsOf F r) = .ok msgs ∧
      ∀ i ∈ S, ∀ j, 1 ≤ j → j ≤ 2 * F + 1 → tapVSS (sendStream [clientMessage ID msgs i]) j = view i j} =
      Nat.card {r : CoinSpace F // ∀ i ∈ S.image (· + 1), ∀ k, 1 ≤ k → k ≤ 2 * F + 1 → dealerShare F s (coinsOf F r) i k = view (i - 1) k} := by
    intro s
    refine Nat.card_congr (Equiv.subtypeEquivRight fun r => ⟨?_, fun h => ⟨_, clientShare_ok codec pp t N F s (coinsOf F r), fun i hi j h1 h2 => ?_⟩⟩)
    · rintro ⟨msgs, hm, h⟩ i hi k h1 h2
      obtain ⟨i, hi', rfl⟩ := Finset.mem_image.1 hi
      rw [← tapVSS_client codec pp t N F s _ ID hF hID msgs hm i (hlt i hi') k h1 h2]
      exact h i hi' k h1 h2
    · rw [tapVSS_client codec pp t N F s _ ID hF hID _ (clientShare_ok codec pp t N F s (coinsOf F r)) i (hlt i hi) j h1 h2]
      exact h (i + 1) (Finset.mem_image_of_mem _ hi) j h1 h2
  rw [key s, key s']
  refine C21_secrecy F (S.image (· + 1)) (Finset.card_image_le.trans hS) (fun i hi => ?_) s s' _
  obtain ⟨i, hi', rfl⟩ := Finset.mem_image.1 hi
  exact ⟨by omega, lt_of_le_of_lt (hlt i hi') hr⟩

/-! ### Concrete cases -/

/-- Four members, one fault, secret 42: the connections to members 3 and 0 give the secret. -/
example : ∃ msgs, clientShare frCodec (Pairing.dlog Fr) (newKZG (Pairing.dlog Fr) 7 2) 4 1 42 ⟨fun i => i, fun k j => k + j⟩ = .ok msgs ∧
    gridAtZero [3, 0] [0, 1, 2] (fun i j => tapVSS (sendStream [clientMessage [49] msgs i]) (j + 1)) = .ok 42 :=
  C128_tapped_sharing frCodec (Pairing.dlog Fr) 7 4 1 42 _ [49] (by norm_num) (by norm_num) (by decide +kernel) [3, 0] (by decide) rfl (by decide)

/-- A grid for `B(x,y) = 42 + x + 5xy²` that members 0, 2 and members 1, 2, 3 would exchange. -/
example : gridAtZero [0, 2] [1, 2, 3] (fun i j => (42 + (i + 1) + 5 * (i + 1) * (j + 1) ^ 2 : Fr)) = .ok 42 := by
  have h := gridAtZero_ok (fun i j => if j = 0 then (if i = 0 then 42 else 1) else if i = 1 ∧ j = 2 then 5 else 0) 1 2 [0, 2] [1, 2, 3]
    (fun i j => (42 + (i + 1) + 5 * (i + 1) * (j + 1) ^ 2 : Fr)) (by decide) rfl (by decide +kernel) (by decide) rfl (by decide +kernel) (by
      intro i _ j _
      simp [biVal, Finset.sum_range_succ, add_assoc])
  rw [h]
  simp [biVal, Finset.sum_range_succ]

/-- After a sharing of 42 the members 3 and 0 hand off to a new committee: the connections to its members 1, 2 and 3, each with nothing but the ShareReduce message, give 42. -/
example : ∃ (q : ℕ → Party Fr Fr) (out : ℕ → List Bytes), (∀ i ∈ [3, 0], shareReduceSend frCodec (q i) = .ok (out i)) ∧
    gridAtZero [3, 0] [1, 2, 3] (fun i j => tapReduce (sendStream [⟨"ShareReduce", [49], UInt32.ofNat i, (out i).getD j []⟩])) = .ok 42 := by
  obtain ⟨msgs, -, -, b, q, hb, hq, -⟩ := C18_honest_sharing frCodec (Pairing.dlog Fr) 7 4 1 42 ⟨fun i => i, fun k j => k + j⟩ le_rfl (by norm_num) (by norm_num) (by decide +kernel)
  have key : ∀ i, ∃ o, i < 4 → shareReduceSend frCodec (q i) = .ok o ∧ ∀ j < 4, HonestSR frCodec (Pairing.dlog Fr) 7 b 1 (i + 1) (j + 1) (o.getD j []) := by
    intro i
    by_cases hi : i < 4
    swap
    · exact ⟨[], fun h => absurd h hi⟩
    obtain ⟨h1, h2, h3, h4, h5, -⟩ := hq i hi
    obtain ⟨o, k1, -, k3⟩ := C25_send frCodec (Pairing.dlog Fr) 7 b (q i) h4 h5 (by omega) (by rw [h3]; decide +kernel)
    refine ⟨o, fun _ => ⟨k1, fun j hj => ?_⟩⟩
    have := k3 j (by omega)
    rwa [h1, h2] at this
  choose out hout using key
  have hlt : ∀ i ∈ [3, 0], i < 4 := by decide
  have hlt' : ∀ i ∈ [1, 2, 3], i < 4 := by decide
  refine ⟨q, out, fun i hi => (hout i (hlt i hi)).1, ?_⟩
  rw [← hb]
  refine C128_tapped_handoff frCodec (Pairing.dlog Fr) 7 4 1 b (by norm_num) (by decide +kernel) [3, 0] [1, 2, 3] (by decide) rfl hlt (by decide) rfl hlt' q (fun i hi => ?_) out
    (fun i hi => (hout i (hlt i hi)).1) (fun i j => [⟨"ShareReduce", [49], UInt32.ofNat i, (out i).getD j []⟩]) fun i hi j hj => ⟨fun m hm => ?_, [], [], [49], rfl, by simp⟩
  · obtain ⟨h1, h2, h3, h4, h5, -⟩ := hq i (hlt i hi)
    exact ⟨h4, h2, h3, h1, h5⟩
  · rw [List.mem_singleton.1 hm]
    obtain ⟨C, W, -, -, hd⟩ := (hout i (hlt i hi)).2 j (hlt' j hj)
    have a := size_message ⟨"ShareReduce", [49], UInt32.ofNat i, (out i).getD j []⟩
    have e1 : (stringToBytes "ShareReduce").length = 11 := by decide +kernel
    have e2 : (UInt32.ofNat i).toNat ≤ i := by rw [UInt32.toNat_ofNat']; exact Nat.mod_le _ _
    have e3 := size_reduce_small frCodec C W (biVal b 1 (2 * 1) ((i + 1 : ℕ) : Fr) ((j + 1 : ℕ) : Fr))
    rw [← hd] at e3
    have := hlt i hi
    simp only [List.length_cons, List.length_nil] at a
    omega

/-- After a refresh the members hold the reduced shares of `B(x,y) = 42 + x`: the connections of members 1, 2 and 3 to members 3 and 0 give 42. -/
example : ∃ (P : ℕ → Party Fr Fr) (sd : ℕ → ℕ → PShareDist), (∀ i ∈ [3, 0], ∀ j ∈ [1, 2, 3], shareDistMsg frCodec (P j) (i + 1) = .ok (sd j i)) ∧
    gridAtZero [3, 0] [1, 2, 3] (fun i j => tapDist (sendStream [⟨"ShareDist", [49], UInt32.ofNat j, marshal (sd j i)⟩])) = .ok 42 := by
  set b : ℕ → ℕ → Fr := fun i j => if j = 0 then (if i = 0 then 42 else 1) else 0 with hb
  choose p0 e1 e2 e3 e4 e5 using fun i => newParty_setup (Pairing.dlog Fr) 7 4 1 i
  set P : ℕ → Party Fr Fr := fun j => { p0 j with reducedShare := sliceX b 1 2 ((j + 1 : ℕ) : Fr) } with hP
  have hw : ∀ i j, ∃ w, computeProofSingle (P j).kzg (P j).reducedShare ((i + 1 : ℕ) : Fr) = .ok w := by
    intro i j
    have hk : (P j).kzg = newKZG (Pairing.dlog Fr) 7 (1 + 1) := by
      have := (e2 j).kzg
      rwa [e4] at this
    rw [hk]
    have hl : (P j).reducedShare.length = 2 := sliceX_length b 1 2 _
    exact ⟨_, computeProofSingle_ok (Pairing.dlog Fr) 7 (1 + 1) (P j).reducedShare ((i + 1 : ℕ) : Fr) (List.ne_nil_of_length_pos (by omega)) (by omega)⟩
  choose w hw using hw
  have hsd : ∀ i j, shareDistMsg frCodec (P j) (i + 1) = .ok ⟨frTo32 (evalPolyAt (P j).reducedShare ((i + 1 : ℕ) : Fr)), frCodec.enc (w i j)⟩ := by
    intro i j
    rw [shareDistMsg, hw i j]
    rfl
  refine ⟨P, fun j i => ⟨frTo32 (evalPolyAt (P j).reducedShare ((i + 1 : ℕ) : Fr)), frCodec.enc (w i j)⟩, fun i _ j _ => hsd i j, ?_⟩
  have h := C128_tapped_refresh frCodec 4 1 b (by decide +kernel) [3, 0] [1, 2, 3] (by decide) rfl (by decide) (by decide) rfl (by decide) P (fun _ _ => rfl)
    (fun j i => ⟨frTo32 (evalPolyAt (P j).reducedShare ((i + 1 : ℕ) : Fr)), frCodec.enc (w i j)⟩) (fun i _ j _ => hsd i j)
    (fun j i => [⟨"ShareDist", [49], UInt32.ofNat j, marshal (⟨frTo32 (evalPolyAt (P j).reducedShare ((i + 1 : ℕ) : Fr)), frCodec.enc (w i j)⟩ : PShareDist)⟩])
    fun i _ j hj => ⟨fun m hm => ?_, [], [], [49], rfl, by simp⟩
  · rw [h]
    simp [biVal, hb, Finset.sum_range_succ]
  · rw [List.mem_singleton.1 hm]
    have a := size_message ⟨"ShareDist", [49], UInt32.ofNat j, marshal (⟨frTo32 (evalPolyAt (P j).reducedShare ((i + 1 : ℕ) : Fr)), frCodec.enc (w i j)⟩ : PShareDist)⟩
    have e1 : (stringToBytes "ShareDist").length = 9 := by decide +kernel
    have e2 : (UInt32.ofNat j).toNat ≤ j := by rw [UInt32.toNat_ofNat']; exact Nat.mod_le _ _
    have e3 := size_dist_small frCodec (w i j) (evalPolyAt (P j).reducedShare ((i + 1 : ℕ) : Fr))
    have : ∀ j ∈ [1, 2, 3], j < 4 := by decide
    have := this j hj
    simp only [List.length_cons, List.length_nil] at a
    omega

end

end DyCAPS
