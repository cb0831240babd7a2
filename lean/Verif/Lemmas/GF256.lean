import Verif.Model.GF256

/-!
# The field of 256 elements is a field
-/

namespace DyCAPS

/-- Multiplication by 2. -/
def gfTwice (x : UInt8) : UInt8 := (x <<< 1) ^^^ (if x.toBitVec.msb then 0x1d else 0)

theorem xor_left_comm8 (a b c : UInt8) : a ^^^ (b ^^^ c) = b ^^^ (a ^^^ c) := by
  rw [← UInt8.xor_assoc, UInt8.xor_comm a b, UInt8.xor_assoc]

theorem xor_cancel8 (a b : UInt8) : a ^^^ (a ^^^ b) = b := by
  rw [← UInt8.xor_assoc, UInt8.xor_self, UInt8.zero_xor]

theorem gfTwice_xor (x y : UInt8) : gfTwice (x ^^^ y) = gfTwice x ^^^ gfTwice y := by
  have e : (x ^^^ y) <<< 1 = (x <<< 1) ^^^ (y <<< 1) := by
    rw [← UInt8.toBitVec_inj]
    simp [BitVec.shiftLeft_xor_distrib]
  unfold gfTwice
  rw [e, UInt8.toBitVec_xor, BitVec.msb_xor]
  cases x.toBitVec.msb <;> cases y.toBitVec.msb <;>
    simp [UInt8.xor_assoc, UInt8.xor_comm 29]

theorem gfExp_log' : ∀ n : Fin 256, n.val ≠ 0 → gfExp (gfLog (UInt8.ofNat n)) = UInt8.ofNat n ∧ gfLog (UInt8.ofNat n) < 255 := by decide +kernel

theorem gfLog_exp' : ∀ i : Fin 255, gfLog (gfExp i) = i ∧ gfExp i ≠ 0 ∧ gfExp ((i.val + 1) % 255) = gfTwice (gfExp i) := by decide +kernel

theorem gfExp_log {a : UInt8} (h : a ≠ 0) : gfExp (gfLog a) = a ∧ gfLog a < 255 := by
  have := gfExp_log' ⟨a.toNat, UInt8.toNat_lt a⟩ fun e => h (UInt8.toNat_inj.1 e)
  simpa using this

theorem gfLog_exp {i : ℕ} (h : i < 255) : gfLog (gfExp i) = i ∧ gfExp i ≠ 0 ∧ gfExp ((i + 1) % 255) = gfTwice (gfExp i) := gfLog_exp' ⟨i, h⟩

theorem GF.ext' {a b : GF} (h : a.byte = b.byte) : a = b := by
  cases a; cases b; exact congrArg GF.mk h

@[simp] theorem gf_add (a b : GF) : (a + b).byte = a.byte ^^^ b.byte := rfl
@[simp] theorem gf_zero : (0 : GF).byte = 0 := rfl
@[simp] theorem gf_one : (1 : GF).byte = 1 := rfl
theorem gf_neg (a : GF) : -a = a := rfl

theorem gf_mul_zero {a b : GF} (h : a.byte = 0 ∨ b.byte = 0) : a * b = 0 := if_pos h

theorem gf_mul {a b : GF} (ha : a.byte ≠ 0) (hb : b.byte ≠ 0) : (a * b).byte = gfExp ((gfLog a.byte + gfLog b.byte) % 255) := by
  show GF.byte (if _ then _ else _) = _
  rw [if_neg (by simp [ha, hb])]

theorem gf_mul_ne {a b : GF} (ha : a.byte ≠ 0) (hb : b.byte ≠ 0) : (a * b).byte ≠ 0 := by
  rw [gf_mul ha hb]
  exact (gfLog_exp (Nat.mod_lt _ (by norm_num))).2.1

theorem gf_log_mul {a b : GF} (ha : a.byte ≠ 0) (hb : b.byte ≠ 0) : gfLog (a * b).byte = (gfLog a.byte + gfLog b.byte) % 255 := by
  rw [gf_mul ha hb]
  exact (gfLog_exp (Nat.mod_lt _ (by norm_num))).1

theorem gfTwice_iter_xor (n : ℕ) (x y : UInt8) : gfTwice^[n] (x ^^^ y) = gfTwice^[n] x ^^^ gfTwice^[n] y := by
  induction n with
  | zero => rfl
  | succ n ih => rw [Function.iterate_succ_apply', Function.iterate_succ_apply', Function.iterate_succ_apply', ih, gfTwice_xor]

theorem gfTwice_iter_zero (n : ℕ) : gfTwice^[n] 0 = 0 := by
  induction n with
  | zero => rfl
  | succ n ih => rw [Function.iterate_succ_apply', ih]; decide

theorem gfTwice_iter_exp (n : ℕ) {j : ℕ} (hj : j < 255) : gfTwice^[n] (gfExp j) = gfExp ((n + j) % 255) := by
  induction n with
  | zero => rw [Function.iterate_zero_apply, Nat.zero_add, Nat.mod_eq_of_lt hj]
  | succ n ih =>
    rw [Function.iterate_succ_apply', ih, ← (gfLog_exp (Nat.mod_lt _ (by norm_num))).2.2]
    congr 1
    omega

/-- Multiplying by a nonzero element is repeated doubling. -/
theorem gf_mul_iter {a : GF} (ha : a.byte ≠ 0) (b : GF) : (a * b).byte = gfTwice^[gfLog a.byte] b.byte := by
  by_cases hb : b.byte = 0
  · rw [gf_mul_zero (Or.inr hb), hb, gfTwice_iter_zero]; rfl
  · rw [gf_mul ha hb]
    conv_rhs => rw [← (gfExp_log hb).1]
    rw [gfTwice_iter_exp _ (gfExp_log hb).2]

theorem gf_mul_comm (a b : GF) : a * b = b * a := by
  by_cases h : a.byte = 0 ∨ b.byte = 0
  · rw [gf_mul_zero h, gf_mul_zero h.symm]
  · rw [not_or] at h
    exact GF.ext' (by rw [gf_mul h.1 h.2, gf_mul h.2 h.1, Nat.add_comm])

/-- The library's arithmetic on bytes is that of a field. -/
instance : Field GF := Field.ofMinimalAxioms GF
  (fun a b c => GF.ext' (by simp [UInt8.xor_assoc]))
  (fun a => GF.ext' (by simp))
  (fun a => GF.ext' (by rw [gf_neg]; simp))
  (fun a b c => by
    by_cases ha : a.byte = 0
    · rw [gf_mul_zero (Or.inl ha), gf_mul_zero (Or.inl ha), gf_mul_zero (a := 0) (Or.inl rfl)]
    by_cases hb : b.byte = 0
    · rw [gf_mul_zero (Or.inr hb), gf_mul_zero (a := b) (Or.inl hb), gf_mul_zero (a := 0) (Or.inl rfl), gf_mul_zero (b := 0) (Or.inr rfl)]
    by_cases hc : c.byte = 0
    · rw [gf_mul_zero (Or.inr hc), gf_mul_zero (Or.inr hc), gf_mul_zero (b := 0) (Or.inr rfl)]
    refine GF.ext' ?_
    rw [gf_mul (gf_mul_ne ha hb) hc, gf_mul ha (gf_mul_ne hb hc), gf_log_mul ha hb, gf_log_mul hb hc]
    congr 1
    omega)
  gf_mul_comm
  (fun a => by
    by_cases ha : a.byte = 0
    · rw [gf_mul_zero (Or.inr ha)]; exact GF.ext' ha.symm
    refine GF.ext' ?_
    have h1 : gfLog (1 : GF).byte = 0 := by decide
    rw [gf_mul (by decide) ha, h1, Nat.zero_add, Nat.mod_eq_of_lt (gfExp_log ha).2, (gfExp_log ha).1])
  (fun a ha => by
    have ha' : a.byte ≠ 0 := fun h => ha (GF.ext' h)
    have e : a⁻¹.byte = gfExp ((255 - gfLog a.byte) % 255) := by
      show GF.byte (if _ then _ else _) = _
      rw [if_neg ha']
    have hl := gfLog_exp (Nat.mod_lt (255 - gfLog a.byte) (show 255 > 0 by norm_num))
    refine GF.ext' ?_
    rw [gf_mul ha' (by rw [e]; exact hl.2.1), e, hl.1]
    have := (gfExp_log ha').2
    have h0 : (gfLog a.byte + (255 - gfLog a.byte) % 255) % 255 = 0 := by omega
    rw [h0]
    decide)
  (by decide)
  (fun a b c => by
    by_cases ha : a.byte = 0
    · rw [gf_mul_zero (Or.inl ha), gf_mul_zero (Or.inl ha), gf_mul_zero (Or.inl ha)]; rfl
    · exact GF.ext' (by rw [gf_add, gf_mul_iter ha, gf_mul_iter ha, gf_mul_iter ha, gf_add, gfTwice_iter_xor]))
  ⟨0, 1, by decide⟩

end DyCAPS
