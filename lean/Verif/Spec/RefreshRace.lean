import Verif.Spec.RefreshNet
import Verif.Model.RefreshRace

/-! What a refresh adds to a reduced share. `Q0 j` and `Q j` are the contribution of `j` as a member knows it before and after recovering it. -/

namespace DyCAPS

/-- Each of the contributions in `J` is added as a whole, before or after its recovery. -/
def AddsWhole (F : ℕ) (J : List ℕ) (Q0 Q : ℕ → List Fr) (old new : List Fr) : Prop :=
  ∃ gs : List (List Fr), List.Forall₂ (fun j g => g = Q0 j ∨ g = Q j) J gs ∧ ∀ i < F + 1, new.getD i 0 = old.getD i 0 + (gs.map (·.getD i 0)).sum

/-- For each of the contributions in `J` there is a number of coefficients that are added as they were before recovery, and the others are added as they were afterwards. -/
def AddsFrom (F : ℕ) (J : List ℕ) (Q0 Q : ℕ → List Fr) (old new : List Fr) : Prop :=
  ∃ as : List ℕ, as.length = J.length ∧
    ∀ i < F + 1, new.getD i 0 = old.getD i 0 + (List.zipWith (fun j a => if i < a then (Q0 j).getD i 0 else (Q j).getD i 0) J as).sum

/-- No Recover message is handled between the first coefficient of an iteration of the Refresh loop and the end of the iteration. -/
def QuietRefresh (evs : List FineEvent) : Prop :=
  ∀ a b c k, evs = a ++ FineEvent.coef :: b ++ FineEvent.ev (.handleRecover k) :: c → FineEvent.next ∈ b

end DyCAPS
