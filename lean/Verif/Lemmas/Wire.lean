import Mathlib.Tactic.Ring
import Mathlib.Data.List.GetD
import Verif.Model.Wire

/-! Helper lemmas about the protobuf model. -/

namespace DyCAPS

theorem encVarint_ne_nil (n : ℕ) : encVarint n ≠ [] := by
  unfold encVarint; split <;> simp

/-- Varints of at most `k` groups decode, with whatever follows. -/
theorem decVarint_encVarint (k n : ℕ) (rest : Bytes) (hn : n < 128 ^ k) (hk : 0 < k) (hlast : n < 2 * 128 ^ (k - 1)) :
    decVarint k (encVarint n ++ rest) = some (n, rest) := by
  induction k generalizing n with
  | zero => omega
  | succ k ih =>
    unfold encVarint
    split
    · rename_i h
      have h1 : (UInt8.ofNat n).toNat = n := by rw [UInt8.toNat_ofNat']; omega
      simp only [List.cons_append, List.nil_append, decVarint, h1, h, if_true]
      rw [if_neg]
      rintro ⟨h2, h3⟩
      subst h2
      simp at hlast; omega
    · rename_i h
      have h1 : (UInt8.ofNat (n % 128 + 128)).toNat = n % 128 + 128 := by rw [UInt8.toNat_ofNat']; omega
      have hk0 : 0 < k := by
        rcases Nat.eq_zero_or_pos k with h0 | h0
        · subst h0; simp at hlast; omega
        · exact h0
      obtain ⟨k', rfl⟩ : ∃ k', k = k' + 1 := ⟨k - 1, by omega⟩
      have hp : 128 ^ (k' + 1 + 1) = 128 * 128 ^ (k' + 1) := by ring
      have hq : 128 ^ (k' + 1) = 128 * 128 ^ k' := by ring
      simp only [Nat.add_sub_cancel] at hlast
      simp only [List.cons_append, decVarint, h1]
      rw [if_neg (by omega), ih (n / 128) (by omega) hk0 (by simp only [Nat.add_sub_cancel]; omega)]
      simp only [Option.some.injEq, Prod.mk.injEq, and_true]
      omega

theorem decVarint10 (n : ℕ) (rest : Bytes) (h : n < 2 ^ 64) :
    decVarint 10 (encVarint n ++ rest) = some (n, rest) := by
  apply decVarint_encVarint
  · calc n < 2 ^ 64 := h
      _ ≤ 128 ^ 10 := by norm_num
  · norm_num
  · calc n < 2 ^ 64 := h
      _ = 2 * 128 ^ (10 - 1) := by norm_num

/-- A field that `Marshal` can write. -/
def FieldOK (f : ℕ × WireVal) : Prop :=
  1 ≤ f.1 ∧ f.1 < 2 ^ 29 ∧
  match f.2 with
  | .varint n => n < 2 ^ 64
  | .fixed64 b => b.length = 8
  | .bytes b => b.length < 2 ^ 64
  | .fixed32 b => b.length = 4

theorem takeExact_append (a b : Bytes) : takeExact a.length (a ++ b) = some (a, b) := by
  simp [takeExact]

theorem decVal_encVal (f : ℕ × WireVal) (h : FieldOK f) (rest : Bytes) :
    decVal f.2.wtype (encVal f.2 ++ rest) = some (f.2, rest) := by
  obtain ⟨n, v⟩ := f
  obtain ⟨-, -, h⟩ := h
  cases v with
  | varint n => simp only at h; simp [decVal, encVal, WireVal.wtype, decVarint10 n rest h]
  | fixed64 b =>
    simp only at h
    have := takeExact_append b rest
    rw [h] at this
    simp [decVal, encVal, WireVal.wtype, this]
  | bytes b =>
    simp only at h
    simp only [decVal, encVal, WireVal.wtype, List.append_assoc]
    rw [decVarint10 b.length _ h]
    simp [takeExact_append]
  | fixed32 b =>
    simp only at h
    have := takeExact_append b rest
    rw [h] at this
    simp [decVal, encVal, WireVal.wtype, this]

theorem wtype_lt (v : WireVal) : v.wtype < 8 := by cases v <;> simp [WireVal.wtype]

theorem decField_encField (f : ℕ × WireVal) (h : FieldOK f) (rest : Bytes) :
    decField (encField f ++ rest) = some (f, rest) := by
  have hv := decVal_encVal f h rest
  obtain ⟨h1, h2, -⟩ := h
  have hw := wtype_lt f.2
  unfold decField encField
  rw [List.append_assoc, decVarint10 _ _ (by
    have : 8 * f.1 + f.2.wtype < 8 * 2 ^ 29 := by omega
    calc _ < 8 * 2 ^ 29 := this
      _ ≤ 2 ^ 64 := by norm_num)]
  simp only [Option.bind_some]
  have e1 : (8 * f.1 + f.2.wtype) / 8 = f.1 := by omega
  have e2 : (8 * f.1 + f.2.wtype) % 8 = f.2.wtype := by omega
  rw [e1, e2, if_neg (by omega), hv]
  simp

theorem encField_ne_nil (f : ℕ × WireVal) : encField f ≠ [] := by
  simp [encField, encVarint_ne_nil]

theorem decFieldsAux_encFields (fs : Fields) (h : ∀ f ∈ fs, FieldOK f) (k : ℕ) (hk : (encFields fs).length ≤ k) :
    decFieldsAux k (encFields fs) = some fs := by
  induction fs generalizing k with
  | nil => cases k <;> simp [encFields, decFieldsAux]
  | cons f fs ih =>
    have hc : encFields (f :: fs) = encField f ++ encFields fs := by simp [encFields]
    rw [hc] at hk ⊢
    have hne := encField_ne_nil f
    obtain ⟨b, bs, hb⟩ : ∃ b bs, encField f ++ encFields fs = b :: bs := by
      cases hf : encField f with
      | nil => exact absurd hf hne
      | cons b bs => exact ⟨b, bs ++ encFields fs, by simp⟩
    have hlen : 0 < (encField f).length := List.length_pos_of_ne_nil hne
    rw [List.length_append] at hk
    obtain ⟨k', rfl⟩ : ∃ k', k = k' + 1 := ⟨k - 1, by omega⟩
    rw [hb, decFieldsAux, ← hb, decField_encField f (h f (by simp))]
    simp only
    rw [ih (fun g hg => h g (by simp [hg])) k' (by omega)]
    rfl

theorem decFields_encFields (fs : Fields) (h : ∀ f ∈ fs, FieldOK f) : decFields (encFields fs) = some fs :=
  decFieldsAux_encFields fs h _ le_rfl

/-! ### Accessor lemmas -/

@[simp] theorem bytesOf_append (n : ℕ) (a b : Fields) : bytesOf n (a ++ b) = bytesOf n a ++ bytesOf n b := by
  simp [bytesOf, List.filterMap_append]

@[simp] theorem varintsOf_append (n : ℕ) (a b : Fields) : varintsOf n (a ++ b) = varintsOf n a ++ varintsOf n b := by
  simp [varintsOf, List.filterMap_append]

theorem bytesOf_putBytes (n k : ℕ) (b : Bytes) :
    bytesOf n (putBytes k b) = if k = n ∧ b ≠ [] then [b] else [] := by
  unfold putBytes
  by_cases hb : b = []
  · simp [hb, bytesOf]
  · by_cases hk : k = n <;> simp [hb, hk, bytesOf]

theorem varintsOf_putBytes (n k : ℕ) (b : Bytes) : varintsOf n (putBytes k b) = [] := by
  unfold putBytes
  by_cases hb : b = [] <;> by_cases hk : k = n <;> simp [hb, hk, varintsOf]

theorem bytesOf_putU32 (n k : ℕ) (v : UInt32) : bytesOf n (putU32 k v) = [] := by
  unfold putU32
  by_cases hb : v = 0 <;> by_cases hk : k = n <;> simp [hb, hk, bytesOf]

theorem varintsOf_putU32 (n k : ℕ) (v : UInt32) :
    varintsOf n (putU32 k v) = if k = n ∧ v ≠ 0 then [v.toNat] else [] := by
  unfold putU32
  by_cases hb : v = 0 <;> by_cases hk : k = n <;> simp [hb, hk, varintsOf]

theorem bytesOf_putBool (n k : ℕ) (v : Bool) : bytesOf n (putBool k v) = [] := by
  unfold putBool
  cases v <;> by_cases hk : k = n <;> simp [hk, bytesOf]

theorem varintsOf_putBool (n k : ℕ) (v : Bool) :
    varintsOf n (putBool k v) = if k = n ∧ v = true then [1] else [] := by
  unfold putBool
  cases v <;> by_cases hk : k = n <;> simp [hk, varintsOf]

theorem bytesOf_putRep (n k : ℕ) (l : List Bytes) : bytesOf n (putRep k l) = if k = n then l else [] := by
  unfold putRep bytesOf
  by_cases hk : k = n
  · subst hk
    rw [if_pos rfl]
    induction l with
    | nil => simp
    | cons x l ih =>
      rw [List.map_cons, List.filterMap_cons]
      simp only [if_true]
      rw [ih]
  · rw [if_neg hk]
    induction l with
    | nil => simp
    | cons x l ih =>
      rw [List.map_cons, List.filterMap_cons]
      simp only [if_neg hk]
      exact ih

theorem varintsOf_putRep (n k : ℕ) (l : List Bytes) : varintsOf n (putRep k l) = [] := by
  unfold putRep varintsOf
  induction l with
  | nil => simp
  | cons x l ih =>
    rw [List.map_cons, List.filterMap_cons]
    by_cases hk : k = n <;> simp only [hk, if_true, if_false] <;> first | exact ih | simp [hk]

theorem bytesOf_putMsg {α : Type} [Proto α] (n k : ℕ) (m : Option α) :
    bytesOf n (putMsg k m) = match m with | none => [] | some m => if k = n then [marshal m] else [] := by
  cases m with
  | none => simp [putMsg, bytesOf]
  | some m => by_cases hk : k = n <;> simp [putMsg, bytesOf, hk]

theorem bytesToString_stringToBytes (s : String) : bytesToString (stringToBytes s) = some s := by
  unfold bytesToString stringToBytes String.fromUTF8?
  have : (⟨s.toUTF8.data.toList.toArray⟩ : ByteArray) = s.toByteArray := by simp
  rw [this, dif_pos s.isValidUTF8]
  rfl

theorem getString_put (n : ℕ) (s : String) : getString n (putBytes n (stringToBytes s)) = some s := by
  unfold getString
  rw [bytesOf_putBytes]
  by_cases h : stringToBytes s = []
  · have hs := bytesToString_stringToBytes s
    rw [h] at hs
    have h0 : bytesToString [] = some "" := bytesToString_stringToBytes ""
    rw [h0] at hs
    have hs' : "" = s := Option.some.inj hs
    rw [if_neg (by simp [h])]
    subst hs'
    rfl
  · rw [if_pos ⟨rfl, h⟩]
    simp [bytesToString_stringToBytes]

theorem getString_congr (n : ℕ) (fs fs' : Fields) (h : bytesOf n fs = bytesOf n fs') : getString n fs = getString n fs' := by
  unfold getString; rw [h]

theorem getLastD_ite (p : Prop) [Decidable p] (b : Bytes) :
    (if p ∧ b ≠ [] then [b] else []).getLastD [] = if p then b else [] := by
  by_cases hp : p <;> by_cases hb : b = [] <;> simp [hp, hb]

/-! ### Per-message round trips at field level -/

/-- The fields of `m` can be written and are parsed back to `m`. -/
def RoundTrips {α : Type} [Proto α] (m : α) : Prop := unmarshal α (marshal m) = some m

theorem roundTrips_of {α : Type} [Proto α] (m : α) (h1 : ∀ f ∈ Proto.fields m, FieldOK f)
    (h2 : Proto.parse (Proto.fields m) = some m) : RoundTrips m := by
  unfold RoundTrips unmarshal marshal
  rw [decFields_encFields _ h1]; simpa using h2

/-- Every bytes payload is part of the encoding, so its length is bounded by the total. -/
theorem length_le_of_mem (fs : Fields) (n : ℕ) (b : Bytes) (h : (n, WireVal.bytes b) ∈ fs) :
    b.length ≤ (encFields fs).length := by
  induction fs with
  | nil => simp at h
  | cons f fs ih =>
    have hc : encFields (f :: fs) = encField f ++ encFields fs := by simp [encFields]
    rw [hc, List.length_append]
    rcases List.mem_cons.1 h with h | h
    · subst h
      simp only [encField, encVal, List.length_append]; omega
    · have := ih h; omega

/-- A field that comes from one of the `put` functions. -/
inductive PutField : ℕ × WireVal → Prop where
  | bytes (n : ℕ) (b : Bytes) (hn : 1 ≤ n ∧ n < 2 ^ 29) : PutField (n, .bytes b)
  | varint (n v : ℕ) (hn : 1 ≤ n ∧ n < 2 ^ 29) (hv : v < 2 ^ 64) : PutField (n, .varint v)

theorem fieldOK_of_put (fs : Fields) (h : ∀ f ∈ fs, PutField f) (hl : (encFields fs).length < 2 ^ 64) :
    ∀ f ∈ fs, FieldOK f := by
  intro f hf
  have hp := h f hf
  cases hp with
  | bytes n b hn =>
    exact ⟨hn.1, hn.2, lt_of_le_of_lt (length_le_of_mem fs n b hf) hl⟩
  | varint n v hn hv => exact ⟨hn.1, hn.2, hv⟩

theorem put_putBytes (n : ℕ) (b : Bytes) (hn : 1 ≤ n ∧ n < 2 ^ 29) : ∀ f ∈ putBytes n b, PutField f := by
  intro f hf
  unfold putBytes at hf
  split at hf
  · simp at hf
  · rw [List.mem_singleton] at hf; subst hf; exact .bytes n b hn

theorem put_putU32 (n : ℕ) (v : UInt32) (hn : 1 ≤ n ∧ n < 2 ^ 29) : ∀ f ∈ putU32 n v, PutField f := by
  intro f hf
  unfold putU32 at hf
  split at hf
  · simp at hf
  · rw [List.mem_singleton] at hf; subst hf
    exact .varint n _ hn (lt_trans v.toNat_lt (by norm_num))

theorem put_putBool (n : ℕ) (v : Bool) (hn : 1 ≤ n ∧ n < 2 ^ 29) : ∀ f ∈ putBool n v, PutField f := by
  intro f hf
  unfold putBool at hf
  split at hf
  · rw [List.mem_singleton] at hf; subst hf; exact .varint n _ hn (by norm_num)
  · simp at hf

theorem put_putRep (n : ℕ) (l : List Bytes) (hn : 1 ≤ n ∧ n < 2 ^ 29) : ∀ f ∈ putRep n l, PutField f := by
  intro f hf
  unfold putRep at hf
  rw [List.mem_map] at hf
  obtain ⟨b, -, rfl⟩ := hf
  exact .bytes n b hn

theorem put_putMsg {α : Type} [Proto α] (n : ℕ) (m : Option α) (hn : 1 ≤ n ∧ n < 2 ^ 29) :
    ∀ f ∈ putMsg n m, PutField f := by
  intro f hf
  cases m with
  | none => simp [putMsg] at hf
  | some m => simp only [putMsg, List.mem_singleton] at hf; subst hf; exact .bytes n _ hn

theorem put_putPacked (n : ℕ) (l : List UInt32) (hn : 1 ≤ n ∧ n < 2 ^ 29) : ∀ f ∈ putPacked n l, PutField f := by
  intro f hf
  unfold putPacked at hf
  split at hf
  · simp at hf
  · rw [List.mem_singleton] at hf; subst hf; exact .bytes n _ hn

theorem put_append {a b : Fields} (ha : ∀ f ∈ a, PutField f) (hb : ∀ f ∈ b, PutField f) : ∀ f ∈ a ++ b, PutField f := by
  intro f hf
  rcases List.mem_append.1 hf with h | h
  · exact ha f h
  · exact hb f h

theorem roundTrips_of_put {α : Type} [Proto α] (m : α) (h1 : ∀ f ∈ Proto.fields m, PutField f)
    (hl : (marshal m).length < 2 ^ 64) (h2 : Proto.parse (Proto.fields m) = some m) : RoundTrips m :=
  roundTrips_of m (fieldOK_of_put _ h1 hl) h2

theorem ofNat_ite_u32 (p : Prop) [Decidable p] (v : UInt32) :
    UInt32.ofNat ((if p ∧ v ≠ 0 then [v.toNat] else []).getLastD 0) = if p then v else 0 := by
  by_cases hp : p <;> by_cases hv : v = 0 <;> simp [hp, hv]

theorem bool_ite (p : Prop) [Decidable p] (v : Bool) :
    ((if p ∧ v = true then [1] else ([] : List ℕ)).getLastD 0 != 0) = (decide p && v) := by
  by_cases hp : p <;> cases v <;> simp [hp]

macro "proto_put" : tactic => `(tactic|
  (repeat' first
    | apply put_append
    | exact put_putBytes _ _ (by norm_num)
    | exact put_putU32 _ _ (by norm_num)
    | exact put_putBool _ _ (by norm_num)
    | exact put_putRep _ _ (by norm_num)
    | exact put_putMsg _ _ (by norm_num)
    | exact put_putPacked _ _ (by norm_num)))

macro "proto_parse" : tactic => `(tactic|
  (simp only [Proto.fields, Proto.parse, getBytes, getU32, getBool, bytesOf_append, varintsOf_append, bytesOf_putBytes,
    varintsOf_putBytes, bytesOf_putU32, varintsOf_putU32, bytesOf_putBool, varintsOf_putBool, bytesOf_putRep,
    varintsOf_putRep, List.append_nil, List.nil_append, false_and, if_false, if_true, true_and, and_true, reduceCtorEq,
    Nat.reduceEqDiff, OfNat.ofNat_ne_one, OfNat.one_ne_ofNat, OfNat.ofNat_ne_zero, ne_eq]))

theorem getLastD_ne (b : Bytes) : (if ¬ b = [] then [b] else []).getLastD [] = b := by
  by_cases hb : b = [] <;> simp [hb]

theorem ofNat_ne (v : UInt32) : UInt32.ofNat ((if ¬ v = 0 then [v.toNat] else []).getLastD 0) = v := by
  by_cases hv : v = 0 <;> simp [hv]

theorem bool_ne (v : Bool) : ((if v = true then [1] else ([] : List ℕ)).getLastD 0 != 0) = v := by
  cases v <;> simp

theorem mapM_unmarshal {α : Type} [Proto α] (l : List α) (h : ∀ m ∈ l, RoundTrips m) :
    (l.map marshal).mapM (unmarshal α) = some l := by
  induction l with
  | nil => rfl
  | cons m l ih =>
    have h1 : unmarshal α (marshal m) = some m := h m (by simp)
    simp [h1, ih (fun x hx => h x (by simp [hx]))]

theorem rt_PValue (m : PValue) (hl : (marshal m).length < 2 ^ 64) : RoundTrips m :=
  roundTrips_of_put m (by simp only [Proto.fields]; proto_put) hl (by proto_parse; simp only [getLastD_ne])
theorem rt_PEcho (m : PEcho) (hl : (marshal m).length < 2 ^ 64) : RoundTrips m :=
  roundTrips_of_put m (by simp only [Proto.fields]; proto_put) hl (by proto_parse; simp only [getLastD_ne])
theorem rt_PLock (m : PLock) (hl : (marshal m).length < 2 ^ 64) : RoundTrips m :=
  roundTrips_of_put m (by simp only [Proto.fields]; proto_put) hl (by proto_parse; simp only [getLastD_ne])
theorem rt_PFinish (m : PFinish) (hl : (marshal m).length < 2 ^ 64) : RoundTrips m :=
  roundTrips_of_put m (by simp only [Proto.fields]; proto_put) hl (by proto_parse; simp only [getLastD_ne])
theorem rt_PDone (m : PDone) (hl : (marshal m).length < 2 ^ 64) : RoundTrips m :=
  roundTrips_of_put m (by simp only [Proto.fields]; proto_put) hl (by proto_parse; simp only [getLastD_ne])
theorem rt_PHalt (m : PHalt) (hl : (marshal m).length < 2 ^ 64) : RoundTrips m :=
  roundTrips_of_put m (by simp only [Proto.fields]; proto_put) hl (by proto_parse; simp only [getLastD_ne])
theorem rt_PPreVote (m : PPreVote) (hl : (marshal m).length < 2 ^ 64) : RoundTrips m :=
  roundTrips_of_put m (by simp only [Proto.fields]; proto_put) hl (by proto_parse; simp only [getLastD_ne, bool_ne])
theorem rt_PVote (m : PVote) (hl : (marshal m).length < 2 ^ 64) : RoundTrips m :=
  roundTrips_of_put m (by simp only [Proto.fields]; proto_put) hl (by proto_parse; simp only [getLastD_ne, bool_ne])
theorem rt_PRBCEcho (m : PRBCEcho) (hl : (marshal m).length < 2 ^ 64) : RoundTrips m :=
  roundTrips_of_put m (by simp only [Proto.fields]; proto_put) hl (by proto_parse; simp only [getLastD_ne])
theorem rt_PRBCReady (m : PRBCReady) (hl : (marshal m).length < 2 ^ 64) : RoundTrips m :=
  roundTrips_of_put m (by simp only [Proto.fields]; proto_put) hl (by proto_parse; simp only [getLastD_ne])
theorem rt_PPiContent (m : PPiContent) (hl : (marshal m).length < 2 ^ 64) : RoundTrips m :=
  roundTrips_of_put m (by simp only [Proto.fields]; proto_put) hl (by proto_parse; simp only [getLastD_ne, ofNat_ne])
theorem rt_PVSSDistribute (m : PVSSDistribute) (hl : (marshal m).length < 2 ^ 64) : RoundTrips m :=
  roundTrips_of_put m (by simp only [Proto.fields]; proto_put) hl (by proto_parse; simp only [getLastD_ne])
theorem rt_PShareReduce (m : PShareReduce) (hl : (marshal m).length < 2 ^ 64) : RoundTrips m :=
  roundTrips_of_put m (by simp only [Proto.fields]; proto_put) hl (by proto_parse; simp only [getLastD_ne])
theorem rt_PReshare (m : PReshare) (hl : (marshal m).length < 2 ^ 64) : RoundTrips m :=
  roundTrips_of_put m (by simp only [Proto.fields]; proto_put) hl (by proto_parse)
theorem rt_PRecover (m : PRecover) (hl : (marshal m).length < 2 ^ 64) : RoundTrips m :=
  roundTrips_of_put m (by simp only [Proto.fields]; proto_put) hl (by proto_parse; simp only [getLastD_ne, ofNat_ne])
theorem rt_PNewCommit (m : PNewCommit) (hl : (marshal m).length < 2 ^ 64) : RoundTrips m :=
  roundTrips_of_put m (by simp only [Proto.fields]; proto_put) hl (by proto_parse; simp only [getLastD_ne])
theorem rt_PShareDist (m : PShareDist) (hl : (marshal m).length < 2 ^ 64) : RoundTrips m :=
  roundTrips_of_put m (by simp only [Proto.fields]; proto_put) hl (by proto_parse; simp only [getLastD_ne])
theorem rt_PSuccess (m : PSuccess) (hl : (marshal m).length < 2 ^ 64) : RoundTrips m :=
  roundTrips_of_put m (by simp only [Proto.fields]; proto_put) hl (by proto_parse; simp only [getLastD_ne])
theorem rt_PPrepare (m : PPrepare) (hl : (marshal m).length < 2 ^ 64) : RoundTrips m :=
  roundTrips_of_put m (by simp only [Proto.fields]; proto_put) hl (by proto_parse)

theorem rt_PMessage (m : PMessage) (hl : (marshal m).length < 2 ^ 64) : RoundTrips m := by
  apply roundTrips_of_put m (by simp only [Proto.fields]; proto_put) hl
  have hs : getString 1 (Proto.fields m) = some m.type := by
    rw [← getString_put 1 m.type]
    apply getString_congr
    proto_parse
  have : Proto.parse (Proto.fields m) = (getString 1 (Proto.fields m)).map
      fun t => (⟨t, getBytes 2 (Proto.fields m), getU32 3 (Proto.fields m), getBytes 4 (Proto.fields m)⟩ : PMessage) := rfl
  rw [this, hs]
  proto_parse
  simp only [getLastD_ne, ofNat_ne, Option.map_some]

theorem mem_marshal_length {α : Type} [Proto α] (fs : Fields) (n : ℕ) (m : α) (l : List α) (hm : m ∈ l)
    (h : ∀ f ∈ putRep n (l.map marshal), f ∈ fs) : (marshal m).length ≤ (encFields fs).length := by
  apply length_le_of_mem fs n
  apply h
  simp only [putRep, List.map_map, List.mem_map]
  exact ⟨m, hm, rfl⟩

theorem rt_PPi (m : PPi) (hl : (marshal m).length < 2 ^ 64) : RoundTrips m := by
  apply roundTrips_of_put m (by simp only [Proto.fields]; proto_put) hl
  have hb : bytesOf 2 (Proto.fields m) = m.piContents.map marshal := by
    proto_parse
  have hm := mapM_unmarshal m.piContents (fun c hc => rt_PPiContent c (lt_of_le_of_lt
    (mem_marshal_length (Proto.fields m) 2 c m.piContents hc (fun f hf => List.mem_append_right _ hf)) hl))
  have : Proto.parse (Proto.fields m) = ((bytesOf 2 (Proto.fields m)).mapM (unmarshal PPiContent)).map
      fun l => (⟨getBytes 1 (Proto.fields m), l⟩ : PPi) := rfl
  rw [this, hb, hm]
  proto_parse
  simp only [getLastD_ne, Option.map_some]

theorem rt_PCommit (m : PCommit) (hl : (marshal m).length < 2 ^ 64) : RoundTrips m := by
  apply roundTrips_of_put m (by simp only [Proto.fields]; proto_put) hl
  have hb : bytesOf 1 (Proto.fields m) = m.pi.map marshal := by
    proto_parse
  have hm := mapM_unmarshal m.pi (fun c hc => rt_PPiContent c (lt_of_le_of_lt
    (mem_marshal_length (Proto.fields m) 1 c m.pi hc (fun f hf => hf)) hl))
  have : Proto.parse (Proto.fields m) = ((bytesOf 1 (Proto.fields m)).mapM (unmarshal PPiContent)).map
      fun l => (⟨l⟩ : PCommit) := rfl
  rw [this, hb, hm]; rfl

theorem getMsg_putMsg {α : Type} [Proto α] (n : ℕ) (m : Option α) (fs : Fields)
    (hfs : bytesOf n fs = bytesOf n (putMsg n m)) (h : ∀ x, m = some x → RoundTrips x) :
    getMsg α n fs = some m := by
  unfold getMsg
  rw [hfs, bytesOf_putMsg]
  cases m with
  | none => rfl
  | some x =>
    have := h x rfl
    unfold RoundTrips at this
    simp [this]

theorem putMsg_length {α : Type} [Proto α] (n : ℕ) (x : α) (fs : Fields)
    (h : ∀ f ∈ putMsg n (some x), f ∈ fs) : (marshal x).length ≤ (encFields fs).length := by
  apply length_le_of_mem fs n
  apply h; simp [putMsg]

theorem bytesOf_putMsg_ne {α : Type} [Proto α] (n k : ℕ) (m : Option α) (h : k ≠ n) : bytesOf n (putMsg k m) = [] := by
  rw [bytesOf_putMsg]; cases m <;> simp [h]

theorem rt_PVSSSend (m : PVSSSend) (hl : (marshal m).length < 2 ^ 64) : RoundTrips m := by
  apply roundTrips_of_put m (by simp only [Proto.fields]; proto_put) hl
  have hm : getMsg PPi 1 (Proto.fields m) = some m.pi := by
    apply getMsg_putMsg 1 m.pi
    · proto_parse
    · intro x hx
      exact rt_PPi x (lt_of_le_of_lt (putMsg_length 1 x (Proto.fields m) (fun f hf =>
        List.mem_append_left _ (List.mem_append_left _ (by rw [hx]; exact hf)))) hl)
  have : Proto.parse (Proto.fields m) = (getMsg PPi 1 (Proto.fields m)).map
      fun p => (⟨p, bytesOf 2 (Proto.fields m), bytesOf 3 (Proto.fields m)⟩ : PVSSSend) := rfl
  rw [this, hm]
  proto_parse
  simp [bytesOf_putMsg_ne]

theorem rt_PVSSEcho (m : PVSSEcho) (hl : (marshal m).length < 2 ^ 64) : RoundTrips m := by
  apply roundTrips_of_put m (by simp only [Proto.fields]; proto_put) hl
  have hm : getMsg PPi 1 (Proto.fields m) = some m.pi := by
    apply getMsg_putMsg 1 m.pi
    · rfl
    · intro x hx
      exact rt_PPi x (lt_of_le_of_lt (putMsg_length 1 x (Proto.fields m) (fun f hf => by
        simp only [Proto.fields]; rw [hx]; exact hf)) hl)
  have : Proto.parse (Proto.fields m) = (getMsg PPi 1 (Proto.fields m)).map fun p => (⟨p⟩ : PVSSEcho) := rfl
  rw [this, hm]; rfl

theorem rt_PVSSReady (m : PVSSReady) (hl : (marshal m).length < 2 ^ 64) : RoundTrips m := by
  apply roundTrips_of_put m (by simp only [Proto.fields]; proto_put) hl
  have hm : getMsg PPi 1 (Proto.fields m) = some m.pi := by
    apply getMsg_putMsg 1 m.pi
    · proto_parse
    · intro x hx
      exact rt_PPi x (lt_of_le_of_lt (putMsg_length 1 x (Proto.fields m) (fun f hf =>
        List.mem_append_left _ (List.mem_append_left _ (List.mem_append_left _ (by rw [hx]; exact hf))))) hl)
  have hs : getString 2 (Proto.fields m) = some m.readyType := by
    rw [← getString_put 2 m.readyType]
    apply getString_congr
    proto_parse
    simp [bytesOf_putMsg_ne]
  have : Proto.parse (Proto.fields m) = (getMsg PPi 1 (Proto.fields m)).bind fun p => (getString 2 (Proto.fields m)).map
      fun t => (⟨p, t, getBytes 3 (Proto.fields m), getBytes 4 (Proto.fields m)⟩ : PVSSReady) := rfl
  rw [this, hm, hs]
  proto_parse
  simp only [Option.bind_some, Option.map_some, bytesOf_putMsg_ne 3 1 m.pi (by norm_num),
    bytesOf_putMsg_ne 4 1 m.pi (by norm_num), List.nil_append, getLastD_ne]

theorem decPacked (l : List UInt32) (k : ℕ) (hk : (l.flatMap fun v => encVarint v.toNat).length ≤ k) :
    decPackedAux k (l.flatMap fun v => encVarint v.toNat) = some (l.map UInt32.toNat) := by
  induction l generalizing k with
  | nil => cases k <;> simp [decPackedAux]
  | cons v l ih =>
    rw [List.flatMap_cons] at hk ⊢
    obtain ⟨b, bs, hb⟩ : ∃ b bs, encVarint v.toNat ++ l.flatMap (fun v => encVarint v.toNat) = b :: bs := by
      cases hf : encVarint v.toNat with
      | nil => exact absurd hf (encVarint_ne_nil _)
      | cons b bs => exact ⟨b, _, rfl⟩
    have hlen : 0 < (encVarint v.toNat).length := List.length_pos_of_ne_nil (encVarint_ne_nil _)
    rw [List.length_append] at hk
    obtain ⟨k', rfl⟩ : ∃ k', k = k' + 1 := ⟨k - 1, by omega⟩
    rw [hb, decPackedAux, ← hb, decVarint10 _ _ (lt_trans v.toNat_lt (by norm_num))]
    simp only
    rw [ih k' (by omega)]
    rfl

theorem getRepU32_put (l : List UInt32) (sig : List Bytes) :
    getRepU32 2 (putRep 1 sig ++ putPacked 2 l) = some l := by
  unfold getRepU32
  rw [List.mapM_append]
  have h1 : (putRep 1 sig).mapM (repU32Of 2) = some (sig.map fun _ => []) := by
    unfold putRep
    induction sig with
    | nil => rfl
    | cons s sig ih => simp [ih, repU32Of]
  rw [h1]
  unfold putPacked
  by_cases hl : l = []
  · subst hl
    simp
  · have hd := decPacked l _ le_rfl
    simp only [hl, if_false, List.mapM_cons, List.mapM_nil, repU32Of, if_true, hd]
    have : List.map UInt32.ofNat (List.map UInt32.toNat l) = l := by
      rw [List.map_map]
      conv_rhs => rw [← List.map_id l]
      apply List.map_congr_left
      intro v _; simp
    simp [this]

theorem rt_PMVBAIN (m : PMVBAIN) (hl : (marshal m).length < 2 ^ 64) : RoundTrips m := by
  apply roundTrips_of_put m (by simp only [Proto.fields]; proto_put) hl
  have : Proto.parse (Proto.fields m) = (getRepU32 2 (Proto.fields m)).map
      fun js => (⟨bytesOf 1 (Proto.fields m), js⟩ : PMVBAIN) := rfl
  rw [this]
  have h2 : getRepU32 2 (Proto.fields m) = some m.j := getRepU32_put m.j m.sig
  rw [h2]
  have h3 : bytesOf 1 (Proto.fields m) = m.sig := by
    proto_parse
    have : bytesOf 1 (putPacked 2 m.j) = [] := by
      unfold putPacked bytesOf; split <;> simp
    rw [this, List.append_nil]
  rw [h3]; rfl

end DyCAPS
