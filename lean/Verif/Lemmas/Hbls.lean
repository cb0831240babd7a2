import Verif.Lemmas.Poly
import Verif.Model.Hbls

/-! # Lemmas for C118: Horner's rule and the loop of `BatchInvModFr` in the herumi back end -/

namespace DyCAPS

/-- What the library reads back is the number, whatever its size. -/
theorem hblsSetFr_decimal {L : HblsLib} (hL : L.Good) (x : Fr) : hblsSetFr L (decimal x.val) = .ok x := by
  unfold hblsSetFr
  rw [hL.reads]

/-- Horner's rule. -/
theorem horner_polyVal (l : List Fr) (x : Fr) : l.foldr (fun c acc => acc * x + c) 0 = polyVal l x := by
  induction l with
  | nil => simp [polyVal]
  | cons c l ih =>
    rw [List.foldr_cons, ih, polyVal, polyVal, List.length_cons, Finset.sum_range_succ', Finset.sum_mul]
    simp only [List.getD_cons_succ, List.getD_cons_zero, pow_zero, mul_one]
    congr 1
    exact Finset.sum_congr rfl fun i _ => by rw [pow_succ, mul_assoc]

/-- The loop over the indices, written as a map. -/
theorem hblsBatchInv_eq (f : List Fr) : hblsBatchInv f = f.map fun v => v⁻¹ := by
  have h : ∀ n ≤ f.length, (List.range n).foldl (fun f i => f.set i (hblsInv (f.getD i 0))) f = (f.take n).map (fun v => v⁻¹) ++ f.drop n := by
    intro n
    induction n with
    | zero => intro _; simp
    | succ n ih =>
      intro hn
      rw [List.range_succ, List.foldl_append, ih (by omega), List.foldl_cons, List.foldl_nil]
      have hl : ((f.take n).map (fun v : Fr => v⁻¹)).length = n := by simp; omega
      have hd : f.drop n = f[n] :: f.drop (n + 1) := List.drop_eq_getElem_cons (by omega)
      rw [hd, List.set_append_right _ _ (by omega), hl, Nat.sub_self, List.set_cons_zero, List.take_succ_eq_append_getElem (by omega), List.map_append, List.append_assoc]
      congr 2
      unfold hblsInv
      rw [List.getD_append_right _ _ _ _ (by omega), hl, Nat.sub_self]
      rfl
  unfold hblsBatchInv
  rw [h _ (by omega), List.take_length, List.drop_length, List.append_nil]

end DyCAPS
