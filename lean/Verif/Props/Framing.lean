import Verif.Lemmas.Framing

/-! C03: the byte stream written by a sender is cut back into exactly the sent messages. -/

namespace DyCAPS

/-- C03: reading the whole stream outputs exactly the sent sequence and leaves the reader at a frame boundary. -/
theorem C03_stream (ms : List PMessage) (h : ∀ m ∈ ms, (marshal m).length < 2 ^ 32) :
    (recvBytes .init (sendStream ms)).out = ms ∧ (recvBytes .init (sendStream ms)).pos = .header [] := by
  have := recv_stream [] ms h
  rw [RecvState.init, this]
  simp

/-- C03: after any prefix of the stream the reader is alive and has output exactly the messages whose frames are
completely contained in the prefix. -/
theorem C03_prefix (ms : List PMessage) (h : ∀ m ∈ ms, (marshal m).length < 2 ^ 32) (k : ℕ)
    (hk : k ≤ (sendStream ms).length) :
    ∃ j ≤ ms.length, (recvBytes .init ((sendStream ms).take k)).out = ms.take j ∧
      (recvBytes .init ((sendStream ms).take k)).pos ≠ .dead ∧
      (sendStream (ms.take j)).length ≤ k ∧ (j < ms.length → k < (sendStream (ms.take (j + 1))).length) := by
  simpa [RecvState.init] using recv_prefix [] ms h k hk

/-- C03: a connection cut anywhere never adds or reorders a message. -/
theorem C03_cut (ms : List PMessage) (h : ∀ m ∈ ms, (marshal m).length < 2 ^ 32) (k : ℕ) :
    (recvEOF (recvBytes .init ((sendStream ms).take k))).out <+: ms := by
  by_cases hk : k ≤ (sendStream ms).length
  · obtain ⟨j, -, h1, -⟩ := C03_prefix ms h k hk
    show (recvBytes .init ((sendStream ms).take k)).out <+: ms
    rw [h1]; exact List.take_prefix j ms
  · rw [List.take_of_length_le (by omega)]
    show (recvBytes .init (sendStream ms)).out <+: ms
    rw [(C03_stream ms h).1]

example : (recvBytes .init (sendStream [⟨"Echo", [1, 2], 3, [4]⟩, ⟨"", [], 0, []⟩, ⟨"Done", [], 2, [9, 9]⟩])).out =
    [⟨"Echo", [1, 2], 3, [4]⟩, ⟨"", [], 0, []⟩, ⟨"Done", [], 2, [9, 9]⟩] :=
  (C03_stream _ (by
    intro m hm
    simp only [List.mem_cons, List.not_mem_nil, or_false] at hm
    rcases hm with rfl | rfl | rfl <;> decide +kernel)).1

/-- C51: the reader survives neither the peer closing its connection nor a frame that is not a protobuf message: for every
reader state the close ends the process, and there is a 5-byte stream that ends it from the initial state. -/
theorem C51_peer_can_stop_receiver :
    (∀ s : RecvState, (recvEOF s).pos = .dead) ∧
    (recvBytes .init [0, 0, 0, 1, 0]).pos = .dead ∧
    (∀ s : RecvState, s.pos = .dead → ∀ bs, recvBytes s bs = s) := by
  refine ⟨fun _ => rfl, by decide +kernel, ?_⟩
  intro s hs bs
  induction bs with
  | nil => rfl
  | cons b bs ih =>
    have : recvByte s b = s := by unfold recvByte; rw [hs]
    show recvBytes (recvByte s b) bs = s
    rw [this, ih]

/-- Two frames, the second cut off after two bytes of its length: the first message is out, the reader waits. -/
example : ∃ j ≤ 2, (recvBytes .init ((sendStream [⟨"Echo", [1, 2], 3, [4]⟩, ⟨"Done", [], 2, [9, 9]⟩]).take 21)).out = [⟨"Echo", [1, 2], 3, [4]⟩, ⟨"Done", [], 2, [9, 9]⟩].take j ∧ j = 1 := by
  have hm : ∀ m ∈ [(⟨"Echo", [1, 2], 3, [4]⟩ : PMessage), ⟨"Done", [], 2, [9, 9]⟩], (marshal m).length < 2 ^ 32 := by
    intro m hm
    simp only [List.mem_cons, List.not_mem_nil, or_false] at hm
    rcases hm with rfl | rfl <;> decide +kernel
  obtain ⟨j, h1, h2, -, h4, h5⟩ := C03_prefix _ hm 21 (by decide +kernel)
  refine ⟨j, h1, h2, ?_⟩
  have e2 : 21 < (sendStream ([(⟨"Echo", [1, 2], 3, [4]⟩ : PMessage), ⟨"Done", [], 2, [9, 9]⟩].take 2)).length := by decide +kernel
  have e1 : (sendStream ([(⟨"Echo", [1, 2], 3, [4]⟩ : PMessage), ⟨"Done", [], 2, [9, 9]⟩].take 1)).length ≤ 21 := by decide +kernel
  match j, h1 with
  | 0, _ => have := h5 (by simp); rw [zero_add] at this; omega
  | 1, _ => rfl
  | 2, _ => omega

end DyCAPS
