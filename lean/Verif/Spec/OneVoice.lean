import Verif.Model.MVBA

/-!
# Vocabulary: the places a message of the agreement can take
-/

namespace DyCAPS

/-- What a message of the agreement is about, without its content: kind and round, for Value and Echo also instance and stage. There is one Halt for the whole agreement. -/
inductive MSlot where
  | value (r j stage : ℕ)
  | echo (r j stage : ℕ)
  | finish (r : ℕ)
  | done (r : ℕ)
  | halt
  | prevote (r : ℕ)
  | vote (r : ℕ)
  deriving DecidableEq

def MMsg.slot : MMsg → MSlot
  | .value r j stage _ _ => .value r j stage
  | .echo r j stage _ => .echo r j stage
  | .finish r _ _ => .finish r
  | .done r _ => .done r
  | .halt _ _ _ => .halt
  | .prevote r _ _ _ => .prevote r
  | .vote r _ _ _ _ => .vote r

/-- The executions of one party with whatever messages it is given, with what it has sent to everybody (an Echo: to the owner of the instance). -/
inductive MLocal (env : MEnv) (i : ℕ) (v val : Bytes) : List MEvent → MState → List MMsg → Prop
  | init : MLocal env i v val [] (MState.init i v val).1 (MState.init i v val).2
  | step {evs st sent ev o} (h : MLocal env i v val evs st sent) (hs : mvbaStep env i st ev = some o) : MLocal env i v val (evs ++ [ev]) o.st (sent ++ o.msgs)

/-- What honest party `i` has sent in an execution of the committee. -/
def sentBy (net : MNet) (i : ℕ) : List MMsg := net.sent.filterMap fun e => if e.1 = i then some e.2 else none

end DyCAPS
