import Verif.Model.Path

/-!
# What is sent and what comes from where

Over the events of an execution.
-/

namespace DyCAPS

/-- The messages the peer on connection `a` has sent, in order. -/
def handed (evs : List PathEvent) (a : ℕ) : List PMessage :=
  evs.filterMap fun
    | .send b m => if b = a then some m else none
    | _ => none

/-- The peer on connection `a` runs the code: it writes nothing but frames, and of messages below 4 GB. -/
def PlainPeer (evs : List PathEvent) (a : ℕ) : Prop :=
  (∀ bs, PathEvent.raw a bs ∉ evs) ∧ ∀ m ∈ handed evs a, (marshal m).length < 2 ^ 32

/-- The messages of a type and id among `ms`. -/
def ofKey (t : String) (id : Bytes) (ms : List PMessage) : List PMessage := ms.filter fun m => decide (m.type = t ∧ m.id = id)

/-- What the goroutines that asked `GetMessage(t, id)` have read, in order. -/
def readBy (s : PathState) (t : String) (id : Bytes) : List PMessage := (s.d.log.filter fun e => decide (e.1 = (t, id))).map (·.2)

/-- `ms` is put together from lists, one for every connection, that satisfy `ok`: the messages can be attributed to connections such that those of connection `a` are in order a list with `ok a`. -/
def FromConns (ms : List PMessage) (ok : ℕ → List PMessage → Prop) : Prop :=
  ∃ tagged : List (ℕ × PMessage), tagged.map (·.2) = ms ∧ ∀ a, ok a ((tagged.filter fun e => decide (e.1 = a)).map (·.2))

/-- A step that needs nobody's decision: of a writer goroutine, a reader goroutine or the dispatcher. -/
def PathEvent.inner : PathEvent → Bool
  | .write _ | .byte _ | .push _ | .d .take | .d .look | .d .push => true
  | _ => false

/-- None of these goroutines can do anything. -/
def AtRest (N : ℕ) (s : PathState) : Prop := ∀ e : PathEvent, e.inner = true → pathStep N s e = none

end DyCAPS
