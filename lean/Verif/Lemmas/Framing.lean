import Verif.Model.Framing
import Verif.Lemmas.Bytes
import Verif.Lemmas.Wire

/-! Helper lemmas about the frame reader. -/

namespace DyCAPS

theorem recvBytes_append (s : RecvState) (a b : Bytes) : recvBytes s (a ++ b) = recvBytes (recvBytes s a) b := by
  simp [recvBytes, List.foldl_append]

theorem frame_eq (m : PMessage) (h : (marshal m).length < 2 ^ 32) :
    ∃ b0 b1 b2 b3, frame m = [b0, b1, b2, b3] ++ marshal m ∧ bytesToInt [b0, b1, b2, b3] = (marshal m).length := by
  refine ⟨_, _, _, _, rfl, ?_⟩
  have hb : bytesToUint32 (uint32ToBytes (UInt32.ofNat ((marshal m).length % 2 ^ 32 : Int).toNat)) =
      UInt32.ofNat ((marshal m).length % 2 ^ 32 : Int).toNat := by
    have := bytesToUint32_uint32ToBytes (UInt32.ofNat ((marshal m).length % 2 ^ 32 : Int).toNat) []
    rwa [List.append_nil] at this
  have : bytesToInt (uint32ToBytes (UInt32.ofNat ((marshal m).length % 2 ^ 32 : Int).toNat)) = (marshal m).length := by
    unfold bytesToInt
    rw [hb, UInt32.toNat_ofNat']
    omega
  exact this

/-- Reading part of a body of length `len`. -/
theorem recv_body_partial (out : List PMessage) (len : ℕ) (got bs : Bytes) (h : got.length + bs.length < len) :
    recvBytes ⟨.body len got, out⟩ bs = ⟨.body len (got ++ bs), out⟩ := by
  induction bs generalizing got with
  | nil => simp [recvBytes]
  | cons b bs ih =>
    have h1 : recvByte ⟨.body len got, out⟩ b = ⟨.body len (got ++ [b]), out⟩ := by
      simp only [recvByte]
      rw [if_pos (by simp only [List.length_append, List.length_cons, List.length_nil] at h ⊢; omega)]
    show recvBytes (recvByte _ b) bs = _
    rw [h1, ih _ (by simp only [List.length_append, List.length_cons, List.length_nil] at h ⊢; omega)]
    simp

/-- Reading a whole body. -/
theorem recv_body_full (out : List PMessage) (len : ℕ) (bs : Bytes) (h : bs.length = len) (h0 : 0 < len) :
    recvBytes ⟨.body len [], out⟩ bs = recvComplete out bs := by
  rcases List.eq_nil_or_concat bs with h1 | ⟨l, b, h1⟩
  · subst h1; simp at h; omega
  · rw [List.concat_eq_append] at h1
    subst h1
    rw [List.length_append, List.length_singleton] at h
    rw [recvBytes_append, recv_body_partial out len [] l (by simp; omega)]
    simp only [recvBytes, List.foldl_cons, List.foldl_nil, List.nil_append, recvByte, List.length_append,
      List.length_singleton]
    rw [if_neg (by omega)]

theorem recvByte_header_lt (out : List PMessage) (got : Bytes) (b : UInt8) (h : got.length < 3) :
    recvByte ⟨.header got, out⟩ b = ⟨.header (got ++ [b]), out⟩ := by
  unfold recvByte
  simp only [List.length_append, List.length_singleton]
  rw [if_pos (by omega)]

theorem recvByte_header_eq (out : List PMessage) (got : Bytes) (b : UInt8) (h : got.length = 3) :
    recvByte ⟨.header got, out⟩ b = if (bytesToInt (got ++ [b])).toNat = 0 then recvComplete out []
      else ⟨.body (bytesToInt (got ++ [b])).toNat [], out⟩ := by
  unfold recvByte
  simp only [List.length_append, List.length_singleton]
  rw [if_neg (by omega)]

theorem recv_header (out : List PMessage) (b0 b1 b2 b3 : UInt8) :
    recvBytes ⟨.header [], out⟩ [b0, b1, b2, b3] =
      if (bytesToInt [b0, b1, b2, b3]).toNat = 0 then recvComplete out []
      else ⟨.body (bytesToInt [b0, b1, b2, b3]).toNat [], out⟩ := by
  unfold recvBytes
  rw [List.foldl_cons, recvByte_header_lt _ _ _ (by simp), List.foldl_cons, recvByte_header_lt _ _ _ (by simp),
    List.foldl_cons, recvByte_header_lt _ _ _ (by simp), List.foldl_cons, recvByte_header_eq _ _ _ (by simp),
    List.foldl_nil]
  rfl

theorem recv_frame (out : List PMessage) (m : PMessage) (h : (marshal m).length < 2 ^ 32) :
    recvBytes ⟨.header [], out⟩ (frame m) = ⟨.header [], out ++ [m]⟩ := by
  obtain ⟨b0, b1, b2, b3, hf, hl⟩ := frame_eq m h
  have hrt : unmarshal PMessage (marshal m) = some m := rt_PMessage m (lt_trans h (by norm_num))
  have hc : recvComplete out (marshal m) = ⟨.header [], out ++ [m]⟩ := by
    unfold recvComplete; rw [hrt]
  rw [hf, recvBytes_append, recv_header, hl, Int.toNat_natCast]
  by_cases h0 : (marshal m).length = 0
  · have : marshal m = [] := List.length_eq_zero_iff.1 h0
    rw [if_pos h0, this]
    rw [this] at hc
    simpa [recvBytes] using hc
  · rw [if_neg h0, recv_body_full out _ _ rfl (by omega), hc]

/-- A proper prefix of a frame produces nothing. -/
theorem recv_frame_prefix (out : List PMessage) (m : PMessage) (h : (marshal m).length < 2 ^ 32) (k : ℕ)
    (hk : k < (frame m).length) :
    (recvBytes ⟨.header [], out⟩ ((frame m).take k)).out = out ∧
    (recvBytes ⟨.header [], out⟩ ((frame m).take k)).pos ≠ .dead := by
  obtain ⟨b0, b1, b2, b3, hf, hl⟩ := frame_eq m h
  rw [hf] at hk ⊢
  by_cases h4 : k < 4
  · have : k = 0 ∨ k = 1 ∨ k = 2 ∨ k = 3 := by omega
    rcases this with rfl | rfl | rfl | rfl <;>
      simp only [recvBytes, List.cons_append, List.take_succ_cons, List.take_zero, List.foldl_cons, List.foldl_nil] <;>
      (repeat rw [recvByte_header_lt _ _ _ (by simp)]) <;> simp
  · obtain ⟨j, rfl⟩ : ∃ j, k = 4 + j := ⟨k - 4, by omega⟩
    have ht : ([b0, b1, b2, b3] ++ marshal m).take (4 + j) = [b0, b1, b2, b3] ++ (marshal m).take j := by
      rw [List.take_append, List.take_of_length_le (by simp)]
      simp
    simp only [List.length_append, List.length_cons, List.length_nil] at hk
    rw [ht, recvBytes_append, recv_header, hl, Int.toNat_natCast, if_neg (by omega),
      recv_body_partial _ _ _ _ (by simp only [List.length_nil, List.length_take]; omega)]
    simp

theorem recv_stream (out : List PMessage) (ms : List PMessage) (h : ∀ m ∈ ms, (marshal m).length < 2 ^ 32) :
    recvBytes ⟨.header [], out⟩ (sendStream ms) = ⟨.header [], out ++ ms⟩ := by
  induction ms generalizing out with
  | nil => simp [sendStream, recvBytes]
  | cons m ms ih =>
    have hs : sendStream (m :: ms) = frame m ++ sendStream ms := by simp [sendStream]
    rw [hs, recvBytes_append, recv_frame out m (h m (by simp)), ih _ (fun x hx => h x (by simp [hx]))]
    simp

theorem recv_prefix (out : List PMessage) (ms : List PMessage) (h : ∀ m ∈ ms, (marshal m).length < 2 ^ 32) (k : ℕ)
    (hk : k ≤ (sendStream ms).length) :
    ∃ j ≤ ms.length, (recvBytes ⟨.header [], out⟩ ((sendStream ms).take k)).out = out ++ ms.take j ∧
      (recvBytes ⟨.header [], out⟩ ((sendStream ms).take k)).pos ≠ .dead ∧
      (sendStream (ms.take j)).length ≤ k ∧ (j < ms.length → k < (sendStream (ms.take (j + 1))).length) := by
  induction ms generalizing out k with
  | nil => exact ⟨0, by simp, by simp [sendStream, recvBytes]⟩
  | cons m ms ih =>
    have hs : ∀ l, sendStream (m :: l) = frame m ++ sendStream l := by intro l; simp [sendStream]
    rw [hs, List.length_append] at hk
    by_cases hlt : k < (frame m).length
    · obtain ⟨h1, h2⟩ := recv_frame_prefix out m (h m (by simp)) k hlt
      refine ⟨0, by simp, ?_⟩
      rw [hs, List.take_append_of_le_length hlt.le]
      refine ⟨by simpa using h1, h2, by simp [sendStream], ?_⟩
      intro _
      simpa [sendStream] using hlt
    · obtain ⟨i, rfl⟩ : ∃ i, k = (frame m).length + i := ⟨k - (frame m).length, by omega⟩
      obtain ⟨j, hj, h1, h2, h3, h4⟩ := ih (out ++ [m]) (fun x hx => h x (by simp [hx])) i (by omega)
      refine ⟨j + 1, by simpa using hj, ?_⟩
      have ht : (sendStream (m :: ms)).take ((frame m).length + i) = frame m ++ (sendStream ms).take i := by
        rw [hs, List.take_append]; simp
      rw [ht, recvBytes_append, recv_frame out m (h m (by simp))]
      refine ⟨by rw [h1]; simp, h2, ?_, ?_⟩
      · rw [List.take_succ_cons, hs, List.length_append]; omega
      · intro hj'
        rw [List.take_succ_cons, hs, List.length_append]
        have := h4 (by simpa using hj')
        omega

end DyCAPS
