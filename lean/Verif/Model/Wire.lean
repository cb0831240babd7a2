import Verif.Model.Bytes

/-!
# Protobuf messages

Schema: `pkg/protobuf/Message.proto`.  `proto.Marshal` / `proto.Unmarshal` (google.golang.org/protobuf) are modelled by the
proto3 wire format: base-128 varints, tags `8*number + wiretype`, length-delimited payloads, default values omitted,
fields written in ascending number, `repeated uint32` packed; the decoder skips unknown fields, keeps the last
occurrence of a singular field and merges (concatenates) repeated occurrences of a singular sub-message.
Simplification: groups (wire types 3 and 4, unused by the schema) are decode errors here.
-/

namespace DyCAPS

/-- Base-128 varint. Inside `proto.Marshal`, for example RBC.go:29. -/
def encVarint (n : ℕ) : Bytes :=
  if h : n < 128 then [UInt8.ofNat n] else UInt8.ofNat (n % 128 + 128) :: encVarint (n / 128)
termination_by n
decreasing_by omega

/-- At most `k` more bytes may be read; the tenth byte (`k = 1`) may only be 0 or 1 (64-bit overflow otherwise). Inside `proto.Unmarshal`, for example receive.go:61. -/
def decVarint : ℕ → Bytes → Option (ℕ × Bytes)
  | 0, _ => none
  | _ + 1, [] => none
  | k + 1, b :: bs =>
    if b.toNat < 128 then (if k = 0 ∧ 1 < b.toNat then none else some (b.toNat, bs))
    else match decVarint k bs with
      | some (v, rest) => some (b.toNat - 128 + 128 * v, rest)
      | none => none

/-- A field value on the wire. Inside `proto.Marshal`, for example RBC.go:29. -/
inductive WireVal where
  | varint (n : ℕ)
  | fixed64 (b : Bytes)
  | bytes (b : Bytes)
  | fixed32 (b : Bytes)
  deriving DecidableEq, Repr

/-- The wire type written into the tag; inside `proto.Marshal`, for example RBC.go:29. -/
def WireVal.wtype : WireVal → ℕ
  | .varint _ => 0
  | .fixed64 _ => 1
  | .bytes _ => 2
  | .fixed32 _ => 5

/-- The fields of a message, by number and in order; inside `proto.Marshal`, for example RBC.go:29. -/
abbrev Fields := List (ℕ × WireVal)

/-- A field value without its tag; inside `proto.Marshal`, for example RBC.go:29. -/
def encVal : WireVal → Bytes
  | .varint n => encVarint n
  | .fixed64 b => b
  | .bytes b => encVarint b.length ++ b
  | .fixed32 b => b

/-- A field with its tag; inside `proto.Marshal`, for example RBC.go:29. -/
def encField (f : ℕ × WireVal) : Bytes := encVarint (8 * f.1 + f.2.wtype) ++ encVal f.2

/-- All fields; inside `proto.Marshal`, for example RBC.go:29. -/
def encFields (fs : Fields) : Bytes := fs.flatMap encField

/-- `take n` that fails on a short buffer. Inside `proto.Unmarshal`, for example receive.go:61. -/
def takeExact (n : ℕ) (b : Bytes) : Option (Bytes × Bytes) :=
  if n ≤ b.length then some (b.take n, b.drop n) else none

/-- A field value of the given wire type; inside `proto.Unmarshal`, for example receive.go:61. -/
def decVal (wt : ℕ) (b : Bytes) : Option (WireVal × Bytes) :=
  match wt with
  | 0 => (decVarint 10 b).map fun (v, r) => (.varint v, r)
  | 1 => (takeExact 8 b).map fun (v, r) => (.fixed64 v, r)
  | 2 => (decVarint 10 b).bind fun (n, r) => (takeExact n r).map fun (v, r) => (.bytes v, r)
  | 5 => (takeExact 4 b).map fun (v, r) => (.fixed32 v, r)
  | _ => none

/-- One field; the number 0 and numbers of 2^29 or more are errors; inside `proto.Unmarshal`, for example receive.go:61. -/
def decField (b : Bytes) : Option ((ℕ × WireVal) × Bytes) :=
  (decVarint 10 b).bind fun (tag, r) =>
    if tag / 8 = 0 ∨ 2 ^ 29 ≤ tag / 8 then none
    else (decVal (tag % 8) r).map fun (v, r) => ((tag / 8, v), r)

/-- Decode all fields; the fuel is the number of remaining bytes (every field consumes at least one). Inside `proto.Unmarshal`, for example receive.go:61. -/
def decFieldsAux : ℕ → Bytes → Option Fields
  | _, [] => some []
  | 0, _ :: _ => none
  | k + 1, b :: bs =>
    match decField (b :: bs) with
    | none => none
    | some (f, r) => (decFieldsAux k r).map (f :: ·)

/-- All fields; inside `proto.Unmarshal`, for example receive.go:61. -/
def decFields (b : Bytes) : Option Fields := decFieldsAux b.length b

/-! ### Field accessors -/

/-- The length-delimited occurrences of field `n`; inside `proto.Unmarshal`, for example receive.go:61. -/
def bytesOf (n : ℕ) (fs : Fields) : List Bytes :=
  fs.filterMap fun f => if f.1 = n then (match f.2 with | .bytes b => some b | _ => none) else none

/-- The varint occurrences of field `n`; inside `proto.Unmarshal`, for example receive.go:61. -/
def varintsOf (n : ℕ) (fs : Fields) : List ℕ :=
  fs.filterMap fun f => if f.1 = n then (match f.2 with | .varint v => some v | _ => none) else none

/-- A `bytes` field: the last occurrence; Message.proto. -/
def getBytes (n : ℕ) (fs : Fields) : Bytes := (bytesOf n fs).getLastD []
/-- A `uint32` field: the last occurrence, truncated to 32 bits; Message.proto. -/
def getU32 (n : ℕ) (fs : Fields) : UInt32 := UInt32.ofNat ((varintsOf n fs).getLastD 0)
/-- A `bool` field: the last occurrence; Message.proto. -/
def getBool (n : ℕ) (fs : Fields) : Bool := (varintsOf n fs).getLastD 0 != 0

/-- Bytes as a string if they are valid UTF-8; Message.proto:6. -/
def bytesToString (b : Bytes) : Option String := String.fromUTF8? ⟨b.toArray⟩
/-- The bytes of a string; Message.proto:6. -/
def stringToBytes (s : String) : Bytes := s.toUTF8.data.toList

/-- A string field: every occurrence must be valid UTF-8. Message.proto:6. -/
def getString (n : ℕ) (fs : Fields) : Option String :=
  ((bytesOf n fs).mapM bytesToString).map fun l => l.getLastD ""

/-- All varints packed in `b`; fuel = length. Message.proto. -/
def decPackedAux : ℕ → Bytes → Option (List ℕ)
  | _, [] => some []
  | 0, _ :: _ => none
  | k + 1, b :: bs =>
    match decVarint 10 (b :: bs) with
    | none => none
    | some (v, r) => (decPackedAux k r).map (v :: ·)

/-- The values one occurrence of field `n` contributes to a `repeated uint32`. Message.proto. -/
def repU32Of (n : ℕ) (f : ℕ × WireVal) : Option (List UInt32) :=
  if f.1 = n then
    match f.2 with
    | .varint v => some [UInt32.ofNat v]
    | .bytes b => (decPackedAux b.length b).map (·.map UInt32.ofNat)
    | _ => some []
  else some []

/-- `repeated uint32`: packed and unpacked occurrences, in order. Message.proto. -/
def getRepU32 (n : ℕ) (fs : Fields) : Option (List UInt32) :=
  (fs.mapM (repU32Of n)).map List.flatten

/-- A `bytes` or `string` field, omitted when empty; Message.proto. -/
def putBytes (n : ℕ) (b : Bytes) : Fields := if b = [] then [] else [(n, .bytes b)]
/-- A `uint32` field, omitted when zero; Message.proto. -/
def putU32 (n : ℕ) (v : UInt32) : Fields := if v = 0 then [] else [(n, .varint v.toNat)]
/-- A `bool` field, omitted when false; Message.proto. -/
def putBool (n : ℕ) (v : Bool) : Fields := if v then [(n, .varint 1)] else []
/-- A `repeated bytes` field or one of sub-messages; Message.proto. -/
def putRep (n : ℕ) (l : List Bytes) : Fields := l.map fun b => (n, .bytes b)
/-- A `repeated uint32` field, packed, omitted when empty; Message.proto. -/
def putPacked (n : ℕ) (l : List UInt32) : Fields :=
  if l = [] then [] else [(n, .bytes (l.flatMap fun v => encVarint v.toNat))]

/-! ### Message types -/

/-- The message made of the longest prefix of `fs` that `parse` accepts. Fields are stored one by one, in the order of the bytes, until one is in error; an element of a repeated field is
appended after it has been decoded. Inside `proto.Unmarshal`, for example RBC.go:114. -/
def salvagePrefix {α : Type} (parse : Fields → Option α) (dflt : α) (fs : Fields) : α := (fs.inits.reverse.findSome? parse).getD dflt

/-- One protobuf message type: its fields, its parser, and what `proto.Unmarshal` has stored when it returns an error, given the fields before the first byte that is not of the wire format.
Message.proto. -/
class Proto (α : Type) where
  fields : α → Fields
  parse : Fields → Option α
  salvage : α → Fields → α := salvagePrefix parse

/-- `proto.Marshal`. For example RBC.go:29. -/
def marshal {α : Type} [Proto α] (m : α) : Bytes := encFields (Proto.fields m)

/-- `proto.Unmarshal`; `none` is the returned error. For example receive.go:61. -/
def unmarshal (α : Type) [Proto α] (b : Bytes) : Option α := (decFields b).bind Proto.parse

/-- The fields before the first error of the wire format; fuel as in `decFieldsAux`. Inside `proto.Unmarshal`, for example RBC.go:114. -/
def decPrefixAux : ℕ → Bytes → Fields
  | 0, _ => []
  | k + 1, b =>
    match decField b with
    | none => []
    | some (f, r) => f :: decPrefixAux k r

/-- The fields before the first error of the wire format. Inside `proto.Unmarshal`, for example RBC.go:114. -/
def decPrefix (b : Bytes) : Fields := decPrefixAux b.length b

/-- `proto.Unmarshal` into a variable `dflt` without any field set, with the returned error ignored: the fields before the error are kept. For example RBC.go:114,173,285. -/
def unmarshalD {α : Type} [Proto α] (dflt : α) (b : Bytes) : α := (unmarshal α b).getD (Proto.salvage dflt (decPrefix b))

/-- A singular sub-message: each occurrence must decode, and they are merged. Message.proto:79-95. -/
def getMsg (α : Type) [Proto α] (n : ℕ) (fs : Fields) : Option (Option α) :=
  match bytesOf n fs with
  | [] => some none
  | l => if l.all fun b => (unmarshal α b).isSome then (unmarshal α l.flatten).map some else none

/-- `message Message`, pkg/protobuf/Message.proto:5-10. -/
structure PMessage where
  type : String
  id : Bytes
  sender : UInt32
  data : Bytes
  deriving DecidableEq

/-- The field numbers and types, pkg/protobuf/Message.proto:5-10. -/
instance : Proto PMessage where
  fields m := putBytes 1 (stringToBytes m.type) ++ putBytes 2 m.id ++ putU32 3 m.sender ++ putBytes 4 m.data
  parse fs := (getString 1 fs).map fun t => ⟨t, getBytes 2 fs, getU32 3 fs, getBytes 4 fs⟩

/-- `message Value`, pkg/protobuf/Message.proto:14-17. -/
structure PValue where
  value : Bytes
  validation : Bytes
  deriving DecidableEq

/-- The field numbers and types, pkg/protobuf/Message.proto:14-17. -/
instance : Proto PValue where
  fields m := putBytes 1 m.value ++ putBytes 2 m.validation
  parse fs := some ⟨getBytes 1 fs, getBytes 2 fs⟩

/-- `message Echo`, pkg/protobuf/Message.proto:19-21. -/
structure PEcho where
  sigshare : Bytes
  deriving DecidableEq

/-- The field numbers and types, pkg/protobuf/Message.proto:19-21. -/
instance : Proto PEcho where
  fields m := putBytes 1 m.sigshare
  parse fs := some ⟨getBytes 1 fs⟩

/-- `message Lock`, pkg/protobuf/Message.proto:24-27. -/
structure PLock where
  value : Bytes
  sig : Bytes
  deriving DecidableEq

/-- The field numbers and types, pkg/protobuf/Message.proto:24-27. -/
instance : Proto PLock where
  fields m := putBytes 1 m.value ++ putBytes 2 m.sig
  parse fs := some ⟨getBytes 1 fs, getBytes 2 fs⟩

/-- `message Finish`, pkg/protobuf/Message.proto:29-32. -/
structure PFinish where
  value : Bytes
  sig : Bytes
  deriving DecidableEq

/-- The field numbers and types, pkg/protobuf/Message.proto:29-32. -/
instance : Proto PFinish where
  fields m := putBytes 1 m.value ++ putBytes 2 m.sig
  parse fs := some ⟨getBytes 1 fs, getBytes 2 fs⟩

/-- `message Done`, pkg/protobuf/Message.proto:34-36. -/
structure PDone where
  coinShare : Bytes
  deriving DecidableEq

/-- The field numbers and types, pkg/protobuf/Message.proto:34-36. -/
instance : Proto PDone where
  fields m := putBytes 1 m.coinShare
  parse fs := some ⟨getBytes 1 fs⟩

/-- `message Halt`, pkg/protobuf/Message.proto:38-41. -/
structure PHalt where
  value : Bytes
  sig : Bytes
  deriving DecidableEq

/-- The field numbers and types, pkg/protobuf/Message.proto:38-41. -/
instance : Proto PHalt where
  fields m := putBytes 1 m.value ++ putBytes 2 m.sig
  parse fs := some ⟨getBytes 1 fs, getBytes 2 fs⟩

/-- `message PreVote`, pkg/protobuf/Message.proto:43-47. -/
structure PPreVote where
  vote : Bool
  value : Bytes
  sig : Bytes
  deriving DecidableEq

/-- The field numbers and types, pkg/protobuf/Message.proto:43-47. -/
instance : Proto PPreVote where
  fields m := putBool 1 m.vote ++ putBytes 2 m.value ++ putBytes 3 m.sig
  parse fs := some ⟨getBool 1 fs, getBytes 2 fs, getBytes 3 fs⟩

/-- `message Vote`, pkg/protobuf/Message.proto:49-54. -/
structure PVote where
  vote : Bool
  value : Bytes
  sig : Bytes
  sigshare : Bytes
  deriving DecidableEq

/-- The field numbers and types, pkg/protobuf/Message.proto:49-54. -/
instance : Proto PVote where
  fields m := putBool 1 m.vote ++ putBytes 2 m.value ++ putBytes 3 m.sig ++ putBytes 4 m.sigshare
  parse fs := some ⟨getBool 1 fs, getBytes 2 fs, getBytes 3 fs, getBytes 4 fs⟩

/-- `message RBCEcho`, pkg/protobuf/Message.proto:56-59. -/
structure PRBCEcho where
  hash : Bytes
  m : Bytes
  deriving DecidableEq

/-- The field numbers and types, pkg/protobuf/Message.proto:56-59. -/
instance : Proto PRBCEcho where
  fields m := putBytes 1 m.hash ++ putBytes 2 m.m
  parse fs := some ⟨getBytes 1 fs, getBytes 2 fs⟩

/-- `message RBCReady`, pkg/protobuf/Message.proto:61-64. -/
structure PRBCReady where
  hash : Bytes
  m : Bytes
  deriving DecidableEq

/-- The field numbers and types, pkg/protobuf/Message.proto:61-64. -/
instance : Proto PRBCReady where
  fields m := putBytes 1 m.hash ++ putBytes 2 m.m
  parse fs := some ⟨getBytes 1 fs, getBytes 2 fs⟩

/-- `message PiContent`, pkg/protobuf/Message.proto:66-72. -/
structure PPiContent where
  j : UInt32
  CBj : Bytes
  CZj : Bytes
  WZ0 : Bytes
  gFj : Bytes
  deriving DecidableEq

/-- The field numbers and types, pkg/protobuf/Message.proto:66-72. -/
instance : Proto PPiContent where
  fields m := putU32 1 m.j ++ putBytes 2 m.CBj ++ putBytes 3 m.CZj ++ putBytes 4 m.WZ0 ++ putBytes 5 m.gFj
  parse fs := some ⟨getU32 1 fs, getBytes 2 fs, getBytes 3 fs, getBytes 4 fs, getBytes 5 fs⟩

/-- `message Pi`, pkg/protobuf/Message.proto:74-77. -/
structure PPi where
  gs : Bytes
  piContents : List PPiContent
  deriving DecidableEq

/-- The field numbers and types, pkg/protobuf/Message.proto:74-77. -/
instance : Proto PPi where
  fields m := putBytes 1 m.gs ++ putRep 2 (m.piContents.map marshal)
  parse fs := ((bytesOf 2 fs).mapM (unmarshal PPiContent)).map fun l => ⟨getBytes 1 fs, l⟩

/-- Optional sub-message as written by `Marshal` (nil pointer = absent). Message.proto:79-95. -/
def putMsg {α : Type} [Proto α] (n : ℕ) : Option α → Fields
  | none => []
  | some m => [(n, .bytes (marshal m))]

/-- The fields up to and including the first occurrence of sub-message 1 that does not decode; later fields are not looked at. Inside `proto.Unmarshal`, for example VSS.go:27. -/
def untilBadPi : Fields → Fields
  | [] => []
  | f :: fs => if f.1 = 1 ∧ (getMsg PPi 1 [f]).isNone then [f] else f :: untilBadPi fs

/-- A singular sub-message is created before it is decoded, so that it is not nil and has its fields before the error. Inside `proto.Unmarshal`, for example VSS.go:27. -/
def salvagePi (fs : Fields) : Option PPi :=
  match bytesOf 1 fs with
  | [] => none
  | l => some (unmarshalD ⟨[], []⟩ l.flatten)

/-- `message VSSSend`, pkg/protobuf/Message.proto:79-83. -/
structure PVSSSend where
  pi : Option PPi
  BijList : List Bytes
  WBijList : List Bytes
  deriving DecidableEq

/-- The field numbers and types, pkg/protobuf/Message.proto:79-83. -/
instance : Proto PVSSSend where
  fields m := putMsg 1 m.pi ++ putRep 2 m.BijList ++ putRep 3 m.WBijList
  parse fs := (getMsg PPi 1 fs).map fun p => ⟨p, bytesOf 2 fs, bytesOf 3 fs⟩
  salvage _ fs := let l := untilBadPi fs; ⟨salvagePi l, bytesOf 2 l, bytesOf 3 l⟩

/-- `message VSSEcho`, pkg/protobuf/Message.proto:85-87. -/
structure PVSSEcho where
  pi : Option PPi
  deriving DecidableEq

/-- The field numbers and types, pkg/protobuf/Message.proto:85-87. -/
instance : Proto PVSSEcho where
  fields m := putMsg 1 m.pi
  parse fs := (getMsg PPi 1 fs).map fun p => ⟨p⟩
  salvage _ fs := ⟨salvagePi (untilBadPi fs)⟩

/-- `message VSSReady`, pkg/protobuf/Message.proto:90-95. -/
structure PVSSReady where
  pi : Option PPi
  readyType : String
  Bil : Bytes
  WBil : Bytes
  deriving DecidableEq

/-- The field numbers and types, pkg/protobuf/Message.proto:90-95. -/
instance : Proto PVSSReady where
  fields m := putMsg 1 m.pi ++ putBytes 2 (stringToBytes m.readyType) ++ putBytes 3 m.Bil ++ putBytes 4 m.WBil
  parse fs := (getMsg PPi 1 fs).bind fun p => (getString 2 fs).map fun t => ⟨p, t, getBytes 3 fs, getBytes 4 fs⟩
  salvage _ fs :=
    let l := (untilBadPi fs).takeWhile fun f => (getString 2 [f]).isSome
    ⟨salvagePi l, (getString 2 l).getD "", getBytes 3 l, getBytes 4 l⟩

/-- `message VSSDistribute`, pkg/protobuf/Message.proto:97-100. -/
structure PVSSDistribute where
  Bli : Bytes
  WBli : Bytes
  deriving DecidableEq

/-- The field numbers and types, pkg/protobuf/Message.proto:97-100. -/
instance : Proto PVSSDistribute where
  fields m := putBytes 1 m.Bli ++ putBytes 2 m.WBli
  parse fs := some ⟨getBytes 1 fs, getBytes 2 fs⟩

/-- `message ShareReduce`, pkg/protobuf/Message.proto:102-106. -/
structure PShareReduce where
  C : Bytes
  v : Bytes
  W : Bytes
  deriving DecidableEq

/-- The field numbers and types, pkg/protobuf/Message.proto:102-106. -/
instance : Proto PShareReduce where
  fields m := putBytes 1 m.C ++ putBytes 2 m.v ++ putBytes 3 m.W
  parse fs := some ⟨getBytes 1 fs, getBytes 2 fs, getBytes 3 fs⟩

/-- `message Commit`, pkg/protobuf/Message.proto:107-109. -/
structure PCommit where
  pi : List PPiContent
  deriving DecidableEq

/-- The field numbers and types, pkg/protobuf/Message.proto:107-109. -/
instance : Proto PCommit where
  fields m := putRep 1 (m.pi.map marshal)
  parse fs := ((bytesOf 1 fs).mapM (unmarshal PPiContent)).map fun l => ⟨l⟩

/-- `message Reshare`, pkg/protobuf/Message.proto:110-113. -/
structure PReshare where
  Qk : List Bytes
  wQk : List Bytes
  deriving DecidableEq

/-- The field numbers and types, pkg/protobuf/Message.proto:110-113. -/
instance : Proto PReshare where
  fields m := putRep 1 m.Qk ++ putRep 2 m.wQk
  parse fs := some ⟨bytesOf 1 fs, bytesOf 2 fs⟩

/-- `message Recover`, pkg/protobuf/Message.proto:114-119. -/
structure PRecover where
  index : UInt32
  v : Bytes
  w : Bytes
  sigShare : Bytes
  deriving DecidableEq

/-- The field numbers and types, pkg/protobuf/Message.proto:114-119. -/
instance : Proto PRecover where
  fields m := putU32 1 m.index ++ putBytes 2 m.v ++ putBytes 3 m.w ++ putBytes 4 m.sigShare
  parse fs := some ⟨getU32 1 fs, getBytes 2 fs, getBytes 3 fs, getBytes 4 fs⟩

/-- `message NewCommit`, pkg/protobuf/Message.proto:120-122. -/
structure PNewCommit where
  CB : Bytes
  deriving DecidableEq

/-- The field numbers and types, pkg/protobuf/Message.proto:120-122. -/
instance : Proto PNewCommit where
  fields m := putBytes 1 m.CB
  parse fs := some ⟨getBytes 1 fs⟩

/-- `message ShareDist`, pkg/protobuf/Message.proto:123-126. -/
structure PShareDist where
  B : Bytes
  wB : Bytes
  deriving DecidableEq

/-- The field numbers and types, pkg/protobuf/Message.proto:123-126. -/
instance : Proto PShareDist where
  fields m := putBytes 1 m.B ++ putBytes 2 m.wB
  parse fs := some ⟨getBytes 1 fs, getBytes 2 fs⟩

/-- `message Success`, pkg/protobuf/Message.proto:127-129. -/
structure PSuccess where
  nothing : Bytes
  deriving DecidableEq

/-- The field numbers and types, pkg/protobuf/Message.proto:127-129. -/
instance : Proto PSuccess where
  fields m := putBytes 1 m.nothing
  parse fs := some ⟨getBytes 1 fs⟩

/-- `message MVBAIN`, pkg/protobuf/Message.proto:131-134. -/
structure PMVBAIN where
  sig : List Bytes
  j : List UInt32
  deriving DecidableEq

/-- The field numbers and types, pkg/protobuf/Message.proto:131-134. -/
instance : Proto PMVBAIN where
  fields m := putRep 1 m.sig ++ putPacked 2 m.j
  parse fs := (getRepU32 2 fs).map fun js => ⟨bytesOf 1 fs, js⟩

/-- `message Prepare`, pkg/protobuf/Message.proto:136-138. -/
structure PPrepare where
  commitments : List Bytes
  deriving DecidableEq

/-- The field numbers and types, pkg/protobuf/Message.proto:136-138. -/
instance : Proto PPrepare where
  fields m := putRep 1 m.commitments
  parse fs := some ⟨bytesOf 1 fs⟩

/-! ### Encapsulation -/

/-- The payloads known to `Encapsulation`, pkg/core/message_encapsulation.go:12-42. -/
inductive Payload where
  | value (m : PValue)
  | echo (m : PEcho)
  | lock (m : PLock)
  | finish (m : PFinish)
  | done (m : PDone)
  | halt (m : PHalt)
  | preVote (m : PPreVote)
  | vote (m : PVote)
  | message (m : PMessage)
  deriving DecidableEq

/-- `Encapsulation`, message_encapsulation.go:12-42. A payload whose Go type is not the one asserted in the `case`
panics; an unknown message type leaves `data` nil. -/
def encapsulation (messageType : String) (id : Bytes) (sender : UInt32) (p : Payload) : Go PMessage :=
  let mk (d : Bytes) : Go PMessage := .ok ⟨messageType, id, sender, d⟩
  if messageType = "Value" then match p with | .value m => mk (marshal m) | _ => .error .panic
  else if messageType = "Echo" then match p with | .echo m => mk (marshal m) | _ => .error .panic
  else if messageType = "Lock" then match p with | .lock m => mk (marshal m) | _ => .error .panic
  else if messageType = "Finish" then match p with | .finish m => mk (marshal m) | _ => .error .panic
  else if messageType = "Done" then match p with | .done m => mk (marshal m) | _ => .error .panic
  else if messageType = "Halt" then match p with | .halt m => mk (marshal m) | _ => .error .panic
  else if messageType = "PreVote" then match p with | .preVote m => mk (marshal m) | _ => .error .panic
  else if messageType = "Vote" then match p with | .vote m => mk (marshal m) | _ => .error .panic
  else mk []

/-- `Decapsulation`, message_encapsulation.go:45-84. -/
def decapsulation (messageType : String) (m : PMessage) : Payload :=
  if messageType = "Value" then .value (unmarshalD ⟨[], []⟩ m.data)
  else if messageType = "Echo" then .echo (unmarshalD ⟨[]⟩ m.data)
  else if messageType = "Lock" then .lock (unmarshalD ⟨[], []⟩ m.data)
  else if messageType = "Finish" then .finish (unmarshalD ⟨[], []⟩ m.data)
  else if messageType = "Done" then .done (unmarshalD ⟨[]⟩ m.data)
  else if messageType = "Halt" then .halt (unmarshalD ⟨[], []⟩ m.data)
  else if messageType = "PreVote" then .preVote (unmarshalD ⟨false, [], []⟩ m.data)
  else if messageType = "Vote" then .vote (unmarshalD ⟨false, [], [], []⟩ m.data)
  else .message (unmarshalD ⟨"", [], 0, []⟩ m.data)

end DyCAPS
