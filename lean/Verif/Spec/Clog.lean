import Verif.Model.Dispatch
import Verif.Model.Program
import Verif.Spec.RBC

/-!
# Vocabulary: in which queues the messages of a member end up
-/

namespace DyCAPS

/-- The queue a message of the agreement is for. -/
def MMsg.use : MMsg → QueueUse
  | .value r j stage _ _ => .value r j stage
  | .echo r j stage _ => .echo r j stage
  | .finish r _ _ => .finish r
  | .done r _ => .done r
  | .halt r _ _ => .halt r
  | .prevote r _ _ _ => .preVote r
  | .vote r _ _ _ _ => .vote r

/-- The messages of a broadcast that are read from a queue. -/
def RbcQueue.kind : RbcQueue → RKind
  | .propose => .propose
  | .echo => .echo
  | .ready => .ready

/-- The queue of member `l` (counted from 0) that a message of the refresh is for; Recover goes to one member, Success to all, and the call of the agreement is no message. -/
def POut.useAt (l : ℕ) : POut → Option QueueUse
  | .recover l' _ => if l' = l + 1 then some .recover else none
  | .mvba _ => none
  | .success => some .success

/-- The call of `RBCSend` or `RBCSendExclude` by member `a`. -/
def NEvent.castBy (a : ℕ) : NEvent → Bool
  | .send b _ => decide (b = a)
  | .sendExcl b _ _ => decide (b = a)
  | _ => false

/-- The queues of member `l` that the messages of member `a` in one hand-off and one refresh are for: one message each in PrepareSend, ShareReduceSend, Reshare and ShareDist, those of the refresh goroutines
(`outs`), those of the agreement (`said`; an Echo goes to one member only, here it is counted for all) and those in the broadcasts of Commit and NewCommit (`casts`, `casts'`, by broadcaster). -/
def usesBy (N : ℕ) (outs : List POut) (said : List MMsg) (casts casts' : ℕ → List (ℕ × ROut)) (a l : ℕ) : List QueueUse :=
  [.prepare, .shareReduce, .reshare, .shareDist] ++ outs.filterMap (POut.useAt l) ++ said.map MMsg.use ++
    (List.product (oneTo N) [RbcQueue.propose, .echo, .ready]).flatMap (fun x => List.replicate (sentTo (casts x.1) a l x.2.kind).length (.commit x.2 x.1)) ++
    (List.product (oneTo N) [RbcQueue.propose, .echo, .ready]).flatMap (fun x => List.replicate (sentTo (casts' x.1) a l x.2.kind).length (.newCommit x.2 x.1))

/-- The identifier the phase is called with: one for the sharing, one for the hand-off and one for the refresh. -/
def phaseId (idV idH idR : Bytes) : QueueUse → Bytes
  | .vssSend => idV
  | .prepare | .shareReduce => idH
  | _ => idR

/-- The key of a queue. -/
def phaseKey (idV idH idR : Bytes) (u : QueueUse) : String × Bytes := queueKey (phaseId idV idH idR u) u

end DyCAPS
