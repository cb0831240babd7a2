import Verif.Model.Connect

/-!
# Vocabulary for connections
-/

namespace DyCAPS

/-- `a` has made a connection to `b`. -/
def Conns.Linked (N : ℕ) (s : Conns) (a b : Proc) : Prop := ∃ k, s.peer N a k = some b

/-- `a` has made all its connections: `InitSendChannel` (and `InitSendToNextChannel`) returned. -/
def Conns.Ready (N : ℕ) (s : Conns) (a : Proc) : Prop := s.dialled a = (a.dials N).length

/-- The readers have done all they can: no `read` and no `eof` is possible. -/
def Conns.Quiet (N : ℕ) (s : Conns) : Prop := ∀ a k, cStep N s (.read a k) = none ∧ cStep N s (.eof a k) = none

/-- The end of `a` reaches `b`: there is a chain of connections made from `a` on. -/
inductive Conns.Reaches (N : ℕ) (s : Conns) : Proc → Proc → Prop
  | refl {a} : Reaches N s a a
  | step {a b c} : Reaches N s a b → s.Linked N b c → Reaches N s a c

/-- In the timed execution `es` every process `a` waits, after its start, the time `w a` before it connects to anybody. -/
def KeepsWaiting (w : Proc → ℕ) (es : List (ℕ × CEvent)) : Prop := ∀ a t, (t, CEvent.dial a) ∈ es → ∃ t0, (t0, CEvent.start a) ∈ es ∧ t0 + w a ≤ t

end DyCAPS
