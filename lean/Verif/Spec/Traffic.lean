import Verif.Model.Proactivize

/-!
# Vocabulary: the messages of a refresh by kind
-/

namespace DyCAPS

/-- A Recover message for the party with index `l`. -/
def POut.recoverTo (l : ℕ) : POut → Bool
  | .recover l' _ => decide (l' = l)
  | _ => false

/-- A call of the agreement. -/
def POut.calls : POut → Bool
  | .mvba _ => true
  | _ => false

/-- A Success message (to everybody). -/
def POut.reports : POut → Bool
  | .success => true
  | _ => false

end DyCAPS
