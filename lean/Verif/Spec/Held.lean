import Verif.Lemmas.Dispatch
import Verif.Spec.Path

/-! Vocabulary for C136: what a process keeps. -/

namespace DyCAPS

/-- The pairs of type and id that goroutines of the process have asked `GetMessage` for, one entry per call. -/
def asked (evs : List PathEvent) : List (String × Bytes) :=
  evs.filterMap fun
    | .d (.call _ t id) => some (t, id)
    | _ => none

/-- The number of messages that wait to be read in the queues of these pairs. -/
def unread (s : PathState) (keys : List (String × Bytes)) : ℕ := (keys.map fun k => (s.d.queued k.1 k.2).length).sum

end DyCAPS
