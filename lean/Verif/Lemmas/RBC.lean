import Verif.Spec.RBC
import Verif.Lemmas.Size

/-!
# Reliable broadcast: invariants for agreement
-/

namespace DyCAPS

/-! ## Sizes of decoded payloads -/

theorem decVarint_len {k : ℕ} {b r : Bytes} {n : ℕ} (h : decVarint k b = some (n, r)) : r.length ≤ b.length := by
  induction k generalizing b n r with
  | zero => simp [decVarint] at h
  | succ k ih =>
    cases b with
    | nil => simp [decVarint] at h
    | cons x bs =>
      simp only [decVarint] at h
      split at h
      · split at h
        · cases h
        · cases h; simp
      · split at h
        · rename_i v rest h1
          cases h
          have := ih h1
          simp only [List.length_cons]; omega
        · cases h

theorem takeExact_len {n : ℕ} {b v r : Bytes} (h : takeExact n b = some (v, r)) : v.length ≤ b.length ∧ r.length ≤ b.length := by
  simp only [takeExact] at h
  split at h
  · cases h; simp
  · cases h

theorem decField_len {b r : Bytes} {f : ℕ × WireVal} (h : decField b = some (f, r)) : (∀ v, f.2 = .bytes v → v.length ≤ b.length) ∧ r.length ≤ b.length := by
  simp only [decField, Option.bind_eq_some_iff, Prod.exists] at h
  obtain ⟨tag, r1, h1, h2⟩ := h
  have hl1 := decVarint_len h1
  split at h2
  · cases h2
  · simp only [Option.map_eq_some_iff, Prod.exists, Prod.mk.injEq] at h2
    obtain ⟨v, r2, h3, rfl, rfl⟩ := h2
    simp only [decVal] at h3
    split at h3
    · simp only [Option.map_eq_some_iff, Prod.exists, Prod.mk.injEq] at h3
      obtain ⟨a, c, h4, rfl, rfl⟩ := h3
      have := decVarint_len h4
      exact ⟨by simp, by omega⟩
    · simp only [Option.map_eq_some_iff, Prod.exists, Prod.mk.injEq] at h3
      obtain ⟨a, c, h4, rfl, rfl⟩ := h3
      have := takeExact_len h4
      exact ⟨by simp, by omega⟩
    · simp only [Option.bind_eq_some_iff, Option.map_eq_some_iff, Prod.exists, Prod.mk.injEq] at h3
      obtain ⟨n, r3, h4, a, c, h5, rfl, rfl⟩ := h3
      have := decVarint_len h4
      have := takeExact_len h5
      refine ⟨?_, by omega⟩
      intro v hv; cases hv; omega
    · simp only [Option.map_eq_some_iff, Prod.exists, Prod.mk.injEq] at h3
      obtain ⟨a, c, h4, rfl, rfl⟩ := h3
      have := takeExact_len h4
      exact ⟨by simp, by omega⟩
    · cases h3

theorem decFieldsAux_len {k : ℕ} {b : Bytes} {fs : Fields} (h : decFieldsAux k b = some fs) : ∀ f ∈ fs, ∀ v, f.2 = .bytes v → v.length ≤ b.length := by
  induction k generalizing b fs with
  | zero =>
    cases b with
    | nil => simp only [decFieldsAux, Option.some.injEq] at h; subst h; simp
    | cons => simp [decFieldsAux] at h
  | succ k ih =>
    cases b with
    | nil => simp only [decFieldsAux, Option.some.injEq] at h; subst h; simp
    | cons x bs =>
      simp only [decFieldsAux] at h
      split at h
      · cases h
      · rename_i f r hf
        simp only [Option.map_eq_some_iff] at h
        obtain ⟨fs', h1, rfl⟩ := h
        obtain ⟨h2, h3⟩ := decField_len hf
        intro f' hf' v hv
        rcases List.mem_cons.1 hf' with rfl | h4
        · exact h2 v hv
        · exact (ih h1 f' h4 v hv).trans h3

theorem decPrefixAux_len {k : ℕ} {b : Bytes} : ∀ f ∈ decPrefixAux k b, ∀ v, f.2 = .bytes v → v.length ≤ b.length := by
  induction k generalizing b with
  | zero => simp [decPrefixAux]
  | succ k ih =>
    simp only [decPrefixAux]
    cases hf : decField b with
    | none => simp
    | some fr =>
      obtain ⟨f, r⟩ := fr
      obtain ⟨h2, h3⟩ := decField_len hf
      intro f' hf' v hv
      rcases List.mem_cons.1 hf' with rfl | h4
      · exact h2 v hv
      · exact (ih f' h4 v hv).trans h3

theorem salvagePrefix_cases {α : Type} (parse : Fields → Option α) (dflt : α) (fs : Fields) :
    salvagePrefix parse dflt fs = dflt ∨ ∃ l, l <+: fs ∧ parse l = some (salvagePrefix parse dflt fs) := by
  unfold salvagePrefix
  cases h : fs.inits.reverse.findSome? parse with
  | none => exact Or.inl rfl
  | some m =>
    obtain ⟨l, hl, hp⟩ := List.exists_of_findSome?_eq_some h
    exact Or.inr ⟨l, (List.mem_inits _ _).1 (List.mem_reverse.1 hl), hp⟩

theorem getBytes_le {k : ℕ} {fs : Fields} (h : ∀ f ∈ fs, ∀ v, f.2 = .bytes v → v.length ≤ k) (n : ℕ) : (getBytes n fs).length ≤ k := by
  have hm : ∀ v ∈ bytesOf n fs, v.length ≤ k := by
    intro v hv
    simp only [bytesOf, List.mem_filterMap] at hv
    obtain ⟨f, hf, h1⟩ := hv
    split at h1
    · split at h1
      · rename_i _ b' hb'
        cases h1
        exact h f hf _ hb'
      · cases h1
    · cases h1
  unfold getBytes
  cases hl : bytesOf n fs with
  | nil => simp
  | cons x xs =>
    rw [List.getLastD_cons]
    have : ((x :: xs).getLastD []) ∈ x :: xs := by
      rw [List.getLastD_eq_getLast?, List.getLast?_eq_getLast_of_ne_nil (by simp)]
      exact List.getLast_mem _
    rw [List.getLastD_cons] at this
    exact hm _ (hl ▸ this)

theorem getBytes_len {b : Bytes} {fs : Fields} (h : decFields b = some fs) (n : ℕ) : (getBytes n fs).length ≤ b.length := getBytes_le (decFieldsAux_len h) n

theorem echoPayload_len (data : Bytes) : (echoPayload data).hash.length ≤ data.length ∧ (echoPayload data).m.length ≤ data.length := by
  unfold echoPayload unmarshalD unmarshal
  cases h : decFields data with
  | none =>
    simp only [Option.bind_none, Option.getD_none]
    rcases salvagePrefix_cases (Proto.parse (α := PRBCEcho)) ⟨[], []⟩ (decPrefix data) with h1 | ⟨l, hl, h1⟩
    · have : Proto.salvage (⟨[], []⟩ : PRBCEcho) (decPrefix data) = ⟨[], []⟩ := h1
      rw [this]; simp
    · have : Proto.salvage (⟨[], []⟩ : PRBCEcho) (decPrefix data) = ⟨getBytes 1 l, getBytes 2 l⟩ := (Option.some.inj h1).symm
      rw [this]
      have h2 : ∀ f ∈ l, ∀ v, f.2 = .bytes v → v.length ≤ data.length := fun f hf => decPrefixAux_len f (hl.subset hf)
      exact ⟨getBytes_le h2 1, getBytes_le h2 2⟩
  | some fs => exact ⟨getBytes_len h 1, getBytes_len h 2⟩

theorem readyPayload_len (data : Bytes) : (readyPayload data).hash.length ≤ data.length ∧ (readyPayload data).m.length ≤ data.length := by
  unfold readyPayload unmarshalD unmarshal
  cases h : decFields data with
  | none =>
    simp only [Option.bind_none, Option.getD_none]
    rcases salvagePrefix_cases (Proto.parse (α := PRBCReady)) ⟨[], []⟩ (decPrefix data) with h1 | ⟨l, hl, h1⟩
    · have : Proto.salvage (⟨[], []⟩ : PRBCReady) (decPrefix data) = ⟨[], []⟩ := h1
      rw [this]; simp
    · have : Proto.salvage (⟨[], []⟩ : PRBCReady) (decPrefix data) = ⟨getBytes 1 l, getBytes 2 l⟩ := (Option.some.inj h1).symm
      rw [this]
      have h2 : ∀ f ∈ l, ∀ v, f.2 = .bytes v → v.length ≤ data.length := fun f hf => decPrefixAux_len f (hl.subset hf)
      exact ⟨getBytes_le h2 1, getBytes_le h2 2⟩
  | some fs => exact ⟨getBytes_len h 1, getBytes_len h 2⟩

theorem echoPayload_marshal (h m : Bytes) (hh : h.length ≤ 2 ^ 32) (hm : m.length ≤ 2 ^ 32) : echoPayload (marshal (⟨h, m⟩ : PRBCEcho)) = ⟨h, m⟩ := by
  have : (marshal (⟨h, m⟩ : PRBCEcho)).length < 2 ^ 64 := by
    show (encFields (putBytes 1 h ++ putBytes 2 m)).length < _
    rw [encFields_append, List.length_append]
    have h1 := size_putBytes 1 (by norm_num) h
    have h2 := size_putBytes 2 (by norm_num) m
    omega
  have := rt_PRBCEcho ⟨h, m⟩ this
  rw [echoPayload, unmarshalD, this]; rfl

theorem readyPayload_marshal (h m : Bytes) (hh : h.length ≤ 2 ^ 32) (hm : m.length ≤ 2 ^ 32) : readyPayload (marshal (⟨h, m⟩ : PRBCReady)) = ⟨h, m⟩ := by
  have : (marshal (⟨h, m⟩ : PRBCReady)).length < 2 ^ 64 := by
    show (encFields (putBytes 1 h ++ putBytes 2 m)).length < _
    rw [encFields_append, List.length_append]
    have h1 := size_putBytes 1 (by norm_num) h
    have h2 := size_putBytes 2 (by norm_num) m
    omega
  have := rt_PRBCReady ⟨h, m⟩ this
  rw [readyPayload, unmarshalD, this]; rfl

end DyCAPS
