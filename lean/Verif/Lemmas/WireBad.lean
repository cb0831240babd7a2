import Verif.Lemmas.Wire
import Mathlib.Data.List.TakeWhile

/-! What is decoded from a message that is followed by a byte in error. -/

namespace DyCAPS

theorem decVarint_append {k : ℕ} {b r : Bytes} {v : ℕ} (h : decVarint k b = some (v, r)) (s : Bytes) : decVarint k (b ++ s) = some (v, r ++ s) := by
  induction k generalizing b v r with
  | zero => simp [decVarint] at h
  | succ k ih =>
    cases b with
    | nil => simp [decVarint] at h
    | cons x bs =>
      simp only [decVarint, List.cons_append] at h ⊢
      split
      · rename_i hx
        rw [if_pos hx] at h
        split
        · rename_i h0
          rw [if_pos h0] at h; cases h
        · rename_i h0
          rw [if_neg h0] at h; cases h; rfl
      · rename_i hx
        rw [if_neg hx] at h
        cases hd : decVarint k bs with
        | none => rw [hd] at h; cases h
        | some vr =>
          obtain ⟨v', r'⟩ := vr
          rw [hd] at h
          rw [ih hd]
          cases h; rfl

theorem takeExact_more {n : ℕ} {b a r : Bytes} (h : takeExact n b = some (a, r)) (s : Bytes) : takeExact n (b ++ s) = some (a, r ++ s) := by
  unfold takeExact at h ⊢
  split at h
  · rename_i hn
    cases h
    rw [if_pos (by rw [List.length_append]; omega), List.take_append_of_le_length hn, List.drop_append_of_le_length hn]
  · cases h

theorem decVal_append {wt : ℕ} {b r : Bytes} {v : WireVal} (h : decVal wt b = some (v, r)) (s : Bytes) : decVal wt (b ++ s) = some (v, r ++ s) := by
  unfold decVal at h ⊢
  split at h
  · obtain ⟨⟨a, c⟩, h1, h2⟩ := Option.map_eq_some_iff.1 h
    cases h2
    rw [decVarint_append h1]; rfl
  · obtain ⟨⟨a, c⟩, h1, h2⟩ := Option.map_eq_some_iff.1 h
    cases h2
    rw [takeExact_more h1]; rfl
  · obtain ⟨⟨a, c⟩, h1, h2⟩ := Option.bind_eq_some_iff.1 h
    obtain ⟨⟨a', c'⟩, h3, h4⟩ := Option.map_eq_some_iff.1 h2
    cases h4
    rw [decVarint_append h1, Option.bind_some]
    simp only
    rw [takeExact_more h3]; rfl
  · obtain ⟨⟨a, c⟩, h1, h2⟩ := Option.map_eq_some_iff.1 h
    cases h2
    rw [takeExact_more h1]; rfl
  · cases h

theorem decField_append {b r : Bytes} {f : ℕ × WireVal} (h : decField b = some (f, r)) (s : Bytes) : decField (b ++ s) = some (f, r ++ s) := by
  unfold decField at h ⊢
  obtain ⟨⟨tag, c⟩, h1, h2⟩ := Option.bind_eq_some_iff.1 h
  rw [decVarint_append h1, Option.bind_some]
  simp only at h2 ⊢
  split at h2
  · cases h2
  · rename_i hn
    obtain ⟨⟨a', c'⟩, h3, h4⟩ := Option.map_eq_some_iff.1 h2
    cases h4
    rw [if_neg hn, decVal_append h3]; rfl

theorem decField_number {t : ℕ} (ht : t < 2 ^ 64) (hb : t / 8 = 0 ∨ 2 ^ 29 ≤ t / 8) (rest : Bytes) : decField (encVarint t ++ rest) = none := by
  unfold decField
  rw [decVarint10 t rest ht, Option.bind_some]
  exact if_pos hb

/-- Followed by bytes that are no field, the fields before it are kept and the whole is in error. -/
theorem decFieldsAux_bad {k : ℕ} {b : Bytes} {fs : Fields} (h : decFieldsAux k b = some fs) {y : UInt8} {t : Bytes} (hy : decField (y :: t) = none) (n : ℕ) (hn : k < n) :
    decFieldsAux n (b ++ y :: t) = none ∧ decPrefixAux n (b ++ y :: t) = fs := by
  induction k generalizing b fs n with
  | zero =>
    obtain ⟨n, rfl⟩ : ∃ n', n = n' + 1 := ⟨n - 1, by omega⟩
    cases b with
    | nil =>
      simp only [decFieldsAux, Option.some.injEq] at h; subst h
      simp [decFieldsAux, decPrefixAux, hy]
    | cons => simp [decFieldsAux] at h
  | succ k ih =>
    obtain ⟨n, rfl⟩ : ∃ n', n = n' + 1 := ⟨n - 1, by omega⟩
    cases b with
    | nil =>
      simp only [decFieldsAux, Option.some.injEq] at h; subst h
      simp [decFieldsAux, decPrefixAux, hy]
    | cons x bs =>
      simp only [decFieldsAux] at h
      cases hf : decField (x :: bs) with
      | none => rw [hf] at h; cases h
      | some fr =>
        obtain ⟨f, r⟩ := fr
        rw [hf] at h
        obtain ⟨fs', h1, rfl⟩ := Option.map_eq_some_iff.1 h
        have hf' := decField_append hf (y :: t)
        obtain ⟨i1, i2⟩ := ih h1 n (by omega)
        have e : x :: bs ++ y :: t = x :: (bs ++ y :: t) := rfl
        rw [e] at hf' ⊢
        simp only [decFieldsAux, decPrefixAux, hf', i1, i2]
        exact ⟨rfl, trivial⟩

theorem salvage_prefix_eq {α : Type} {parse : Fields → Option α} (dflt : α) {fs : Fields} {m : α} (h : parse fs = some m) : salvagePrefix parse dflt fs = m := by
  have : fs.inits.reverse = fs :: fs.dropLast.inits.reverse ∨ fs.inits.reverse = [fs] := by
    rcases List.eq_nil_or_concat fs with rfl | ⟨l, a, rfl⟩
    · right; rfl
    · left
      simp [List.inits_append]
  unfold salvagePrefix
  rcases this with h1 | h1 <;> rw [h1] <;> simp [List.findSome?_cons, h]

theorem salvage_prefix {α : Type} [Proto α] (zero : α) (hp : (Proto.salvage : α → Fields → α) = salvagePrefix Proto.parse := by rfl) :
    ∀ fs m, Proto.parse fs = some m → Proto.salvage zero fs = m := by
  intro fs m h
  rw [hp]
  exact salvage_prefix_eq zero h

theorem bad_tail {α : Type} [Proto α] (zero : α) (hs : ∀ fs m, Proto.parse fs = some m → Proto.salvage zero fs = m) {m : α} (h : RoundTrips m) {y : UInt8} {t : Bytes} (hy : decField (y :: t) = none) :
    unmarshal α (marshal m ++ y :: t) = none ∧ unmarshalD zero (marshal m ++ y :: t) = m := by
  obtain ⟨fs, h1, h2⟩ := Option.bind_eq_some_iff.1 h
  obtain ⟨a, c⟩ := decFieldsAux_bad h1 hy (marshal m ++ y :: t).length (by simp)
  have e : unmarshal α (marshal m ++ y :: t) = none := by
    unfold unmarshal decFields
    rw [a]; rfl
  refine ⟨e, ?_⟩
  unfold unmarshalD
  rw [e, Option.getD_none]
  unfold decPrefix
  rw [c]
  exact hs fs m h2

theorem encVarint_cons (n : ℕ) : ∃ y t, encVarint n = y :: t := by
  unfold encVarint
  split <;> exact ⟨_, _, rfl⟩

theorem bad_number {α : Type} [Proto α] (zero : α) (hs : ∀ fs m, Proto.parse fs = some m → Proto.salvage zero fs = m) {m : α} (h : RoundTrips m) {t : ℕ} (ht : t < 2 ^ 64)
    (hb : t / 8 = 0 ∨ 2 ^ 29 ≤ t / 8) (rest : Bytes) : unmarshal α (marshal m ++ (encVarint t ++ rest)) = none ∧ unmarshalD zero (marshal m ++ (encVarint t ++ rest)) = m := by
  have hy := decField_number ht hb rest
  obtain ⟨y, l, e⟩ := encVarint_cons t
  rw [e, List.cons_append] at hy ⊢
  exact bad_tail zero hs h hy

theorem bytesOf_cons (n : ℕ) (f : ℕ × WireVal) (fs : Fields) : bytesOf n (f :: fs) = bytesOf n [f] ++ bytesOf n fs := by
  rw [← bytesOf_append]; rfl

theorem getMsg_split {n : ℕ} {fs : Fields} {x : Option PPi} (h : getMsg PPi n fs = some x) :
    (∀ b ∈ bytesOf n fs, (unmarshal PPi b).isSome) ∧ ((bytesOf n fs = [] ∧ x = none) ∨ bytesOf n fs ≠ [] ∧ ∃ y, unmarshal PPi (bytesOf n fs).flatten = some y ∧ x = some y) := by
  unfold getMsg at h
  cases hb : bytesOf n fs with
  | nil =>
    rw [hb] at h
    simp only [Option.some.injEq] at h
    exact ⟨by simp, Or.inl ⟨rfl, h.symm⟩⟩
  | cons a l =>
    rw [hb] at h
    simp only at h
    split at h
    · rename_i ha
      obtain ⟨y, h1, h2⟩ := Option.map_eq_some_iff.1 h
      exact ⟨by simpa using ha, Or.inr ⟨by simp, y, h1, h2.symm⟩⟩
    · cases h

theorem untilBadPi_good {fs : Fields} (h : ∀ b ∈ bytesOf 1 fs, (unmarshal PPi b).isSome) : untilBadPi fs = fs := by
  induction fs with
  | nil => rfl
  | cons f fs ih =>
    rw [bytesOf_cons] at h
    have h1 : ¬ (f.1 = 1 ∧ (getMsg PPi 1 [f]).isNone = true) := by
      rintro ⟨hf, hn⟩
      rw [Option.isNone_iff_eq_none] at hn
      unfold getMsg at hn
      cases hb : bytesOf 1 [f] with
      | nil => rw [hb] at hn; cases hn
      | cons a l =>
        rw [hb] at hn h
        have hl : l = [] := by
          have : (bytesOf 1 [f]).length ≤ 1 := by
            unfold bytesOf; exact (List.length_filterMap_le _ _).trans (by simp)
          rw [hb] at this
          simpa using this
        subst hl
        have ha := h a (by simp)
        simp only at hn
        rw [if_pos (by simpa using ha)] at hn
        rw [Option.map_eq_none_iff] at hn
        simp only [List.flatten_cons, List.flatten_nil, List.append_nil] at hn
        rw [hn] at ha; cases ha
    rw [untilBadPi, if_neg h1, ih fun b hb => h b (by simp [hb])]

theorem salvagePi_good {fs : Fields} {x : Option PPi} (h : getMsg PPi 1 fs = some x) : salvagePi (untilBadPi fs) = x ∧ untilBadPi fs = fs := by
  obtain ⟨h1, h2⟩ := getMsg_split h
  rw [untilBadPi_good h1]
  refine ⟨?_, rfl⟩
  unfold salvagePi
  rcases h2 with ⟨hb, rfl⟩ | ⟨hb, y, hy, rfl⟩
  · rw [hb]
  · cases hl : bytesOf 1 fs with
    | nil => exact absurd hl hb
    | cons a l =>
      rw [hl] at hy
      simp only [unmarshalD, hy, Option.getD_some]

theorem salvage_VSSSend : ∀ fs (m : PVSSSend), Proto.parse fs = some m → Proto.salvage (⟨none, [], []⟩ : PVSSSend) fs = m := by
  intro fs m h
  obtain ⟨x, h1, rfl⟩ := Option.map_eq_some_iff.1 h
  obtain ⟨a, c⟩ := salvagePi_good h1
  show (⟨salvagePi (untilBadPi fs), bytesOf 2 (untilBadPi fs), bytesOf 3 (untilBadPi fs)⟩ : PVSSSend) = _
  rw [a, c]

theorem salvage_VSSEcho : ∀ fs (m : PVSSEcho), Proto.parse fs = some m → Proto.salvage (⟨none⟩ : PVSSEcho) fs = m := by
  intro fs m h
  obtain ⟨x, h1, rfl⟩ := Option.map_eq_some_iff.1 h
  show (⟨salvagePi (untilBadPi fs)⟩ : PVSSEcho) = _
  rw [(salvagePi_good h1).1]

theorem getString_each {n : ℕ} {fs : Fields} {t : String} (h : getString n fs = some t) : ∀ f ∈ fs, (getString n [f]).isSome := by
  obtain ⟨l, h1, -⟩ := Option.map_eq_some_iff.1 h
  clear h
  induction fs generalizing l with
  | nil => simp
  | cons f fs ih =>
    rw [bytesOf_cons, List.mapM_append] at h1
    obtain ⟨l1, e1, h2⟩ := Option.bind_eq_some_iff.1 h1
    obtain ⟨l2, e2, -⟩ := Option.bind_eq_some_iff.1 h2
    intro g hg
    rcases List.mem_cons.1 hg with rfl | hg
    · unfold getString; rw [e1]; rfl
    · exact ih l2 e2 g hg

theorem salvage_VSSReady : ∀ fs (m : PVSSReady), Proto.parse fs = some m → Proto.salvage (⟨none, "", [], []⟩ : PVSSReady) fs = m := by
  intro fs m h
  obtain ⟨x, h1, h2⟩ := Option.bind_eq_some_iff.1 h
  obtain ⟨t, h3, rfl⟩ := Option.map_eq_some_iff.1 h2
  obtain ⟨a, c⟩ := salvagePi_good h1
  have e : ((untilBadPi fs).takeWhile fun f => (getString 2 [f]).isSome) = fs := by
    rw [c]
    exact List.takeWhile_eq_self_iff.2 (getString_each h3)
  show (⟨salvagePi _, (getString 2 _).getD "", getBytes 3 _, getBytes 4 _⟩ : PVSSReady) = _
  rw [e, ← c, a, c, h3, Option.getD_some]

end DyCAPS
