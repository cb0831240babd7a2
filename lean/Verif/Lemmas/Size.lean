import Verif.Lemmas.VSS
import Verif.Model.ShareReduce

/-! Bounds on message sizes: with 48-byte points and committees of up to about a million parties no payload reaches 2^64 bytes. -/

set_option linter.unusedSectionVars false

namespace DyCAPS

theorem encVarint_length_le (n : ℕ) : (encVarint n).length ≤ n + 1 := by
  induction n using Nat.strongRecOn with
  | _ n ih =>
    rw [encVarint]
    split
    · simp
    · have := ih (n / 128) (by omega)
      simp; omega

theorem encVarint_small (n : ℕ) (h : n < 128) : (encVarint n).length = 1 := by
  rw [encVarint, dif_pos h]; rfl

theorem encFields_append (a b : Fields) : encFields (a ++ b) = encFields a ++ encFields b := by simp [encFields]

theorem size_bytes (n : ℕ) (hn : n ≤ 15) (b : Bytes) : (encField (n, .bytes b)).length ≤ 2 * b.length + 2 := by
  have h1 := encVarint_small (8 * n + 2) (by omega)
  have h2 := encVarint_length_le b.length
  simp only [encField, WireVal.wtype, encVal, List.length_append, h1]
  omega

theorem size_putBytes (n : ℕ) (hn : n ≤ 15) (b : Bytes) : (encFields (putBytes n b)).length ≤ 2 * b.length + 2 := by
  unfold putBytes
  split
  · simp [encFields]
  · have := size_bytes n hn b
    simpa [encFields] using this

theorem size_putU32 (n : ℕ) (hn : n ≤ 15) (v : UInt32) : (encFields (putU32 n v)).length ≤ v.toNat + 2 := by
  unfold putU32
  split
  · simp [encFields]
  · have h1 := encVarint_small (8 * n + 0) (by omega)
    have h2 := encVarint_length_le v.toNat
    simp only [encFields, List.flatMap_cons, List.flatMap_nil, encField, WireVal.wtype, encVal, List.append_nil,
      List.length_append, h1]
    omega

theorem size_putRep (n : ℕ) (hn : n ≤ 15) (l : List Bytes) (L : ℕ) (h : ∀ b ∈ l, b.length ≤ L) :
    (encFields (putRep n l)).length ≤ l.length * (2 * L + 2) := by
  induction l with
  | nil => simp [encFields, putRep]
  | cons b l ih =>
    have h1 := size_bytes n hn b
    have h2 := ih (fun b hb => h b (by simp [hb]))
    have h3 := h b (by simp)
    simp only [encFields, putRep, List.map_cons, List.flatMap_cons, List.length_append, List.length_cons] at h2 ⊢
    rw [Nat.add_mul]
    omega

theorem size_putMsg {α : Type} [Proto α] (n : ℕ) (hn : n ≤ 15) (m : α) :
    (encFields (putMsg n (some m))).length ≤ 2 * (marshal m).length + 2 := by
  have := size_bytes n hn (marshal m)
  simpa [putMsg, encFields] using this

section
variable {G1 G2 GT : Type} [AddCommGroup G1] [Module Fr G1] [AddCommGroup G2] [Module Fr G2] [AddCommGroup GT] [Module Fr GT]

theorem size_content (codec : PointCodec G1) (c : PiContent G1) (j : ℕ) :
    (marshal (encodeContent codec c j)).length ≤ j + 400 := by
  have hj : (UInt32.ofNat j).toNat ≤ j := by
    rw [UInt32.toNat_ofNat']; exact Nat.mod_le _ _
  have h1 := size_putU32 1 (by norm_num) (UInt32.ofNat j)
  have h2 := size_putBytes 2 (by norm_num) (codec.enc c.CBj)
  have h3 := size_putBytes 3 (by norm_num) (codec.enc c.CZj)
  have h4 := size_putBytes 4 (by norm_num) (codec.enc c.WZ0)
  have h5 := size_putBytes 5 (by norm_num) (codec.enc c.gFj)
  have e2 := codec.enc_len c.CBj
  have e3 := codec.enc_len c.CZj
  have e4 := codec.enc_len c.WZ0
  have e5 := codec.enc_len c.gFj
  show (encFields (putU32 1 _ ++ putBytes 2 _ ++ putBytes 3 _ ++ putBytes 4 _ ++ putBytes 5 _)).length ≤ _
  simp only [encFields_append, List.length_append, encodeContent]
  omega

theorem size_vssSend (codec : PointCodec G1) (pi : Pi G1) (bij : List Fr) (w : List G1) (F : ℕ)
    (hF : F ≤ 2 ^ 20) : (marshal (encapsulateVSSSend codec pi bij w F)).length < 2 ^ 64 := by
  have hpi : (marshal (⟨codec.enc pi.gs, ⟨0, [], [], [], []⟩ :: (oneTo (2 * F + 1)).map fun j =>
      encodeContent codec (pi.contents.getD j (PiContent.zero j)) j⟩ : PPi)).length ≤ 2 ^ 48 := by
    show (encFields (putBytes 1 _ ++ putRep 2 _)).length ≤ _
    rw [encFields_append, List.length_append]
    have h1 := size_putBytes 1 (by norm_num) (codec.enc pi.gs)
    have e1 := codec.enc_len pi.gs
    have h2 := size_putRep 2 (by norm_num) ((((⟨0, [], [], [], []⟩ : PPiContent) :: (oneTo (2 * F + 1)).map fun j =>
      encodeContent codec (pi.contents.getD j (PiContent.zero j)) j)).map marshal) (2 * F + 1 + 400) (by
        intro b hb
        rw [List.map_cons, List.mem_cons, List.map_map, List.mem_map] at hb
        rcases hb with rfl | ⟨j, hj, rfl⟩
        · have : marshal (⟨0, [], [], [], []⟩ : PPiContent) = [] := rfl
          rw [this]; simp
        · have := size_content codec (pi.contents.getD j (PiContent.zero j)) j
          rw [mem_oneTo] at hj
          simp only [Function.comp_apply]
          omega)
    simp only [List.length_map, List.length_cons, oneTo_length] at h2
    have h3 : (2 * F + 1 + 1) * (2 * (2 * F + 1 + 400) + 2) ≤ 2 ^ 22 * 2 ^ 24 := Nat.mul_le_mul (by omega) (by omega)
    have h4 : (2:ℕ) ^ 22 * 2 ^ 24 + 98 ≤ 2 ^ 48 := by norm_num
    refine (Nat.add_le_add h1 h2).trans ?_
    omega
  show (encFields (putMsg 1 _ ++ putRep 2 _ ++ putRep 3 _)).length < _
  simp only [encFields_append, List.length_append, encapsulateVSSSend]
  have h1 := size_putMsg 1 (by norm_num) (⟨codec.enc pi.gs, ⟨0, [], [], [], []⟩ :: (oneTo (2 * F + 1)).map fun j =>
      encodeContent codec (pi.contents.getD j (PiContent.zero j)) j⟩ : PPi)
  have h2 := size_putRep 2 (by norm_num) ([] :: (oneTo (2 * F + 1)).map fun j => frTo32 (bij.getD j 0)) 32 (by
    intro b hb
    rw [List.mem_cons, List.mem_map] at hb
    rcases hb with rfl | ⟨j, -, rfl⟩
    · simp
    · rw [(C02_round_trip 0 _).1])
  have h3 := size_putRep 3 (by norm_num) ([] :: (oneTo (2 * F + 1)).map fun j => codec.enc (w.getD j 0)) 48 (by
    intro b hb
    rw [List.mem_cons, List.mem_map] at hb
    rcases hb with rfl | ⟨j, -, rfl⟩
    · simp
    · exact codec.enc_len _)
  simp only [List.length_map, List.length_cons, oneTo_length] at h2 h3
  have : (2:ℕ) ^ 48 * 4 + 2 ^ 40 < 2 ^ 64 := by norm_num
  have : (2:ℕ) ^ 20 * 1000 < 2 ^ 40 := by norm_num
  omega

theorem size_shareReduce (codec : PointCodec G1) (a b : G1) (v : Fr) :
    (marshal (⟨codec.enc a, frTo32 v, codec.enc b⟩ : PShareReduce)).length < 2 ^ 64 := by
  show (encFields (putBytes 1 _ ++ putBytes 2 _ ++ putBytes 3 _)).length < _
  simp only [encFields_append, List.length_append]
  have h1 := size_putBytes 1 (by norm_num) (codec.enc a)
  have h2 := size_putBytes 2 (by norm_num) (frTo32 v)
  have h3 := size_putBytes 3 (by norm_num) (codec.enc b)
  have e1 := codec.enc_len a
  have e2 := (C02_round_trip 0 v).1
  have e3 := codec.enc_len b
  have : (1000:ℕ) < 2 ^ 64 := by norm_num
  omega

theorem size_prepare (codec : PointCodec G1) (p : Party G1 G2) (hF : p.F ≤ 2 ^ 20) :
    (prepareSend codec p).length < 2 ^ 64 := by
  show (encFields (putRep 1 _)).length < _
  have h := size_putRep 1 (by norm_num) ([] :: p.coms.map codec.enc) 48 (by
    intro b hb
    rw [List.mem_cons, List.mem_map] at hb
    rcases hb with rfl | ⟨j, -, rfl⟩
    · simp
    · exact codec.enc_len _)
  simp only [Party.coms, List.length_map, List.length_cons, oneTo_length] at h ⊢
  have : (2:ℕ) ^ 20 * 1000 < 2 ^ 64 := by norm_num
  omega

end

end DyCAPS
