import Verif.Lemmas.WireBad
import Verif.Model.Framing

/-! C04: protobuf payloads survive the wire. C86: payloads that do not decode. -/

namespace DyCAPS

/-- Two values with the same encoding are equal once the encoding decodes. -/
theorem marshal_inj {α : Type} [Proto α] {m m' : α} (h : marshal m = marshal m') (h1 : RoundTrips m) (h2 : RoundTrips m') :
    m = m' := by
  unfold RoundTrips at h1 h2
  rw [h, h2] at h1
  exact (Option.some.inj h1).symm

/-- The claim of C04 for one message type: every encodable value decodes to itself, so different values have
different encodings.  (`2^64` bytes is far above the 2 GiB limit of the protobuf library.) -/
def Lossless (α : Type) [Proto α] : Prop :=
  (∀ m : α, (marshal m).length < 2 ^ 64 → unmarshal α (marshal m) = some m) ∧
  (∀ m m' : α, (marshal m).length < 2 ^ 64 → marshal m = marshal m' → m = m')

theorem lossless_of {α : Type} [Proto α] (h : ∀ m : α, (marshal m).length < 2 ^ 64 → RoundTrips m) : Lossless α :=
  ⟨h, fun m m' hl he => marshal_inj he (h m hl) (h m' (he ▸ hl))⟩

/-- C04 for every message type of Message.proto. -/
theorem C04_all_types :
    Lossless PMessage ∧ Lossless PValue ∧ Lossless PEcho ∧ Lossless PLock ∧ Lossless PFinish ∧ Lossless PDone ∧
    Lossless PHalt ∧ Lossless PPreVote ∧ Lossless PVote ∧ Lossless PRBCEcho ∧ Lossless PRBCReady ∧ Lossless PPiContent ∧
    Lossless PPi ∧ Lossless PVSSSend ∧ Lossless PVSSEcho ∧ Lossless PVSSReady ∧ Lossless PVSSDistribute ∧
    Lossless PShareReduce ∧ Lossless PCommit ∧ Lossless PReshare ∧ Lossless PRecover ∧ Lossless PNewCommit ∧
    Lossless PShareDist ∧ Lossless PSuccess ∧ Lossless PMVBAIN ∧ Lossless PPrepare :=
  ⟨lossless_of rt_PMessage, lossless_of rt_PValue, lossless_of rt_PEcho, lossless_of rt_PLock, lossless_of rt_PFinish,
   lossless_of rt_PDone, lossless_of rt_PHalt, lossless_of rt_PPreVote, lossless_of rt_PVote, lossless_of rt_PRBCEcho,
   lossless_of rt_PRBCReady, lossless_of rt_PPiContent, lossless_of rt_PPi, lossless_of rt_PVSSSend,
   lossless_of rt_PVSSEcho, lossless_of rt_PVSSReady, lossless_of rt_PVSSDistribute, lossless_of rt_PShareReduce,
   lossless_of rt_PCommit, lossless_of rt_PReshare, lossless_of rt_PRecover, lossless_of rt_PNewCommit,
   lossless_of rt_PShareDist, lossless_of rt_PSuccess, lossless_of rt_PMVBAIN, lossless_of rt_PPrepare⟩

example : unmarshal PVSSSend (marshal (⟨some ⟨[1], [⟨7, [2], [], [3, 0], [4]⟩, ⟨0, [], [], [], []⟩]⟩, [[0], []], [[5, 6]]⟩ : PVSSSend)) =
    some ⟨some ⟨[1], [⟨7, [2], [], [3, 0], [4]⟩, ⟨0, [], [], [], []⟩]⟩, [[0], []], [[5, 6]]⟩ := by decide +kernel
example : (marshal (⟨[[1, 2]], [0, 300, 4294967295]⟩ : PMVBAIN)) =
    [0x0a, 2, 1, 2, 0x12, 8, 0, 0xac, 2, 0xff, 0xff, 0xff, 0xff, 0x0f] := by decide +kernel

/-- The message type name that `Encapsulation` expects for a payload. -/
def payloadType : Payload → String
  | .value _ => "Value" | .echo _ => "Echo" | .lock _ => "Lock" | .finish _ => "Finish" | .done _ => "Done"
  | .halt _ => "Halt" | .preVote _ => "PreVote" | .vote _ => "Vote" | .message _ => ""

/-- C04: encapsulating a payload under its own type name, sending the envelope over the wire and decapsulating it returns
type, instance id, sender and payload unchanged. -/
theorem C04_encapsulation (id : Bytes) (sender : UInt32) (p : Payload) (hp : ∀ m, p ≠ .message m) :
    ∃ env, encapsulation (payloadType p) id sender p = .ok env ∧ env.type = payloadType p ∧ env.id = id ∧
      env.sender = sender ∧ ((marshal env).length < 2 ^ 64 →
        unmarshal PMessage (marshal env) = some env ∧ decapsulation env.type env = p) := by
  have hdata : ∀ env : PMessage, (marshal env).length < 2 ^ 64 → env.data.length < 2 ^ 64 := by
    intro env h
    by_cases hd : env.data = []
    · rw [hd]; norm_num
    · refine lt_of_le_of_lt (length_le_of_mem (Proto.fields env) 4 env.data ?_) h
      refine List.mem_append_right _ ?_
      simp [putBytes, hd]
  cases p with
  | message m => exact absurd rfl (hp m)
  | value m =>
    refine ⟨_, rfl, rfl, rfl, rfl, fun h => ⟨rt_PMessage _ h, ?_⟩⟩
    have := rt_PValue m (hdata _ h)
    unfold RoundTrips at this
    simp [decapsulation, payloadType, unmarshalD, this]
  | echo m =>
    refine ⟨_, rfl, rfl, rfl, rfl, fun h => ⟨rt_PMessage _ h, ?_⟩⟩
    have := rt_PEcho m (hdata _ h)
    unfold RoundTrips at this
    simp [decapsulation, payloadType, unmarshalD, this]
  | lock m =>
    refine ⟨_, rfl, rfl, rfl, rfl, fun h => ⟨rt_PMessage _ h, ?_⟩⟩
    have := rt_PLock m (hdata _ h)
    unfold RoundTrips at this
    simp [decapsulation, payloadType, unmarshalD, this]
  | finish m =>
    refine ⟨_, rfl, rfl, rfl, rfl, fun h => ⟨rt_PMessage _ h, ?_⟩⟩
    have := rt_PFinish m (hdata _ h)
    unfold RoundTrips at this
    simp [decapsulation, payloadType, unmarshalD, this]
  | done m =>
    refine ⟨_, rfl, rfl, rfl, rfl, fun h => ⟨rt_PMessage _ h, ?_⟩⟩
    have := rt_PDone m (hdata _ h)
    unfold RoundTrips at this
    simp [decapsulation, payloadType, unmarshalD, this]
  | halt m =>
    refine ⟨_, rfl, rfl, rfl, rfl, fun h => ⟨rt_PMessage _ h, ?_⟩⟩
    have := rt_PHalt m (hdata _ h)
    unfold RoundTrips at this
    simp [decapsulation, payloadType, unmarshalD, this]
  | preVote m =>
    refine ⟨_, rfl, rfl, rfl, rfl, fun h => ⟨rt_PMessage _ h, ?_⟩⟩
    have := rt_PPreVote m (hdata _ h)
    unfold RoundTrips at this
    simp [decapsulation, payloadType, unmarshalD, this]
  | vote m =>
    refine ⟨_, rfl, rfl, rfl, rfl, fun h => ⟨rt_PMessage _ h, ?_⟩⟩
    have := rt_PVote m (hdata _ h)
    unfold RoundTrips at this
    simp [decapsulation, payloadType, unmarshalD, this]

example : ∃ env, encapsulation "Vote" [1] 2 (.vote ⟨true, [3], [4], [5]⟩) = .ok env ∧ env.type = "Vote" ∧
    decapsulation env.type env = .vote ⟨true, [3], [4], [5]⟩ := by
  obtain ⟨env, h1, h2, -, -, h5⟩ := C04_encapsulation [1] 2 (.vote ⟨true, [3], [4], [5]⟩) (by simp)
  have he : env = ⟨"Vote", [1], 2, marshal (⟨true, [3], [4], [5]⟩ : PVote)⟩ := by
    have := h1; simp [encapsulation, payloadType] at this; exact this.symm
  exact ⟨env, h1, h2, (h5 (by rw [he]; decide +kernel)).2⟩

/-- The opposite of C86 for one payload type: every message followed by a field with a number outside 1, …, 2^29 - 1, and anything after it, does not decode, and yet is processed like the message itself.
`zero` is the variable before decoding; `t` is the tag of the field, eight times its number plus the wire type. -/
def UsedAlthoughBad {α : Type} [Proto α] (zero : α) : Prop :=
  ∀ m : α, (marshal m).length < 2 ^ 64 → ∀ (t : ℕ) (rest : Bytes), t < 2 ^ 64 → (t / 8 = 0 ∨ 2 ^ 29 ≤ t / 8) →
    unmarshal α (marshal m ++ (encVarint t ++ rest)) = none ∧ unmarshalD zero (marshal m ++ (encVarint t ++ rest)) = m

theorem usedAlthoughBad_of {α : Type} [Proto α] (zero : α) (h : ∀ m : α, (marshal m).length < 2 ^ 64 → RoundTrips m)
    (hs : ∀ fs m, Proto.parse fs = some m → Proto.salvage zero fs = m) : UsedAlthoughBad zero :=
  fun m hl _ rest ht hb => bad_number zero hs (h m hl) ht hb rest

/-- **C86, refuted**: for every payload type of Message.proto, and every message of it. -/
theorem C86_refuted : UsedAlthoughBad (⟨[], []⟩ : PValue) ∧
    UsedAlthoughBad (⟨[]⟩ : PEcho) ∧
    UsedAlthoughBad (⟨[], []⟩ : PLock) ∧
    UsedAlthoughBad (⟨[], []⟩ : PFinish) ∧
    UsedAlthoughBad (⟨[]⟩ : PDone) ∧
    UsedAlthoughBad (⟨[], []⟩ : PHalt) ∧
    UsedAlthoughBad (⟨false, [], []⟩ : PPreVote) ∧
    UsedAlthoughBad (⟨false, [], [], []⟩ : PVote) ∧
    UsedAlthoughBad (⟨[], []⟩ : PRBCEcho) ∧
    UsedAlthoughBad (⟨[], []⟩ : PRBCReady) ∧
    UsedAlthoughBad (⟨none, [], []⟩ : PVSSSend) ∧
    UsedAlthoughBad (⟨none⟩ : PVSSEcho) ∧
    UsedAlthoughBad (⟨none, "", [], []⟩ : PVSSReady) ∧
    UsedAlthoughBad (⟨[], []⟩ : PVSSDistribute) ∧
    UsedAlthoughBad (⟨[], [], []⟩ : PShareReduce) ∧
    UsedAlthoughBad (⟨[]⟩ : PCommit) ∧
    UsedAlthoughBad (⟨[], []⟩ : PReshare) ∧
    UsedAlthoughBad (⟨0, [], [], []⟩ : PRecover) ∧
    UsedAlthoughBad (⟨[]⟩ : PNewCommit) ∧
    UsedAlthoughBad (⟨[], []⟩ : PShareDist) ∧
    UsedAlthoughBad (⟨[]⟩ : PSuccess) ∧
    UsedAlthoughBad (⟨[], []⟩ : PMVBAIN) ∧
    UsedAlthoughBad (⟨[]⟩ : PPrepare) :=
  ⟨usedAlthoughBad_of _ rt_PValue (salvage_prefix _),
   usedAlthoughBad_of _ rt_PEcho (salvage_prefix _),
   usedAlthoughBad_of _ rt_PLock (salvage_prefix _),
   usedAlthoughBad_of _ rt_PFinish (salvage_prefix _),
   usedAlthoughBad_of _ rt_PDone (salvage_prefix _),
   usedAlthoughBad_of _ rt_PHalt (salvage_prefix _),
   usedAlthoughBad_of _ rt_PPreVote (salvage_prefix _),
   usedAlthoughBad_of _ rt_PVote (salvage_prefix _),
   usedAlthoughBad_of _ rt_PRBCEcho (salvage_prefix _),
   usedAlthoughBad_of _ rt_PRBCReady (salvage_prefix _),
   usedAlthoughBad_of _ rt_PVSSSend salvage_VSSSend,
   usedAlthoughBad_of _ rt_PVSSEcho salvage_VSSEcho,
   usedAlthoughBad_of _ rt_PVSSReady salvage_VSSReady,
   usedAlthoughBad_of _ rt_PVSSDistribute (salvage_prefix _),
   usedAlthoughBad_of _ rt_PShareReduce (salvage_prefix _),
   usedAlthoughBad_of _ rt_PCommit (salvage_prefix _),
   usedAlthoughBad_of _ rt_PReshare (salvage_prefix _),
   usedAlthoughBad_of _ rt_PRecover (salvage_prefix _),
   usedAlthoughBad_of _ rt_PNewCommit (salvage_prefix _),
   usedAlthoughBad_of _ rt_PShareDist (salvage_prefix _),
   usedAlthoughBad_of _ rt_PSuccess (salvage_prefix _),
   usedAlthoughBad_of _ rt_PMVBAIN (salvage_prefix _),
   usedAlthoughBad_of _ rt_PPrepare (salvage_prefix _)⟩

/-- A Done message followed by a zero byte, and by a complete field with the number 2^29. -/
example : unmarshal PDone (marshal (⟨[7]⟩ : PDone) ++ [0]) = none ∧ unmarshalD (⟨[]⟩ : PDone) (marshal (⟨[7]⟩ : PDone) ++ [0]) = ⟨[7]⟩ ∧
    unmarshal PDone (marshal (⟨[7]⟩ : PDone) ++ [128, 128, 128, 128, 16, 5]) = none ∧ unmarshal PDone (marshal (⟨[7]⟩ : PDone) ++ [248, 255, 255, 255, 15, 5]) = some ⟨[7]⟩ ∧
    unmarshal PDone (marshal (⟨[7]⟩ : PDone) ++ [0, 5]) = none := by decide +kernel

/-- A vote that is cut short loses its signature share and is still taken for a vote. -/
example : unmarshal PVote ((marshal (⟨true, [3], [4], [5, 6]⟩ : PVote)).take 10) = none ∧
    decapsulation "Vote" ⟨"Vote", [1], 2, (marshal (⟨true, [3], [4], [5, 6]⟩ : PVote)).take 10⟩ = .vote ⟨true, [3], [4], []⟩ := by decide +kernel

/-- **C86 for envelopes (partial).** The envelope of a message is either decoded or stops the node; nothing is delivered from one that does not decode. Only payloads are used although they do
not decode. -/
theorem C86_envelope_partial (out : List PMessage) (buf : Bytes) :
    (∃ m, unmarshal PMessage buf = some m ∧ recvComplete out buf = ⟨.header [], out ++ [m]⟩) ∨
    (unmarshal PMessage buf = none ∧ recvComplete out buf = ⟨.dead, out⟩) := by
  unfold recvComplete
  cases h : unmarshal PMessage buf with
  | none => exact Or.inr ⟨rfl, rfl⟩
  | some m => exact Or.inl ⟨m, rfl, rfl⟩

example : recvComplete [] (marshal (⟨"Vote", [1], 2, [3]⟩ : PMessage) ++ [0]) = ⟨.dead, []⟩ := by decide +kernel

/-- Of a field that occurs twice the last occurrence counts, for text, bytes and numbers: the concatenation of two envelopes is read as the second one. -/
example : unmarshal PMessage (marshal (⟨"Vote", [1], 2, [3]⟩ : PMessage) ++ marshal (⟨"Done", [4], 5, [6]⟩ : PMessage)) = some ⟨"Done", [4], 5, [6]⟩ := by decide +kernel

end DyCAPS
