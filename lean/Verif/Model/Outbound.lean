import Mathlib.Logic.Function.Basic
import Verif.Model.Dispatch

/-!
# Sending to peers that may not read

The goroutines of one process that call `Send` and `Broadcast` (internal/party/party_utils.go:37-105), the writer goroutines of its connections (pkg/core/send.go:38-60) and the bytes on the way. `Model/Path` looks at
the same connections from the receiving side, with unbounded room for bytes on the way; here TCP holds `room` bytes per connection that the peer has not read, and a `conn.Write` waits while there is no room. The
connections have been made and stay open. The same code serves the next committee (`sendToNextChannels`).
-/

namespace DyCAPS

/-- `tasks g`: the channel sends goroutine `g` has still to do in its current call, in order. For every connection: the send channel (`sendQ`), the bytes the writer goroutine has still to write (`busy`), the bytes on
the way (`wire`), those the peer has read (`got`, history) and the messages put into the channel, with the goroutine (`put`, history). party_utils.go:37-105, send.go:36-60. -/
structure OutState where
  tasks : ℕ → List (ℕ × PMessage)
  sendQ : ℕ → List PMessage
  busy : ℕ → Bytes
  wire : ℕ → Bytes
  got : ℕ → Bytes
  put : ℕ → List (ℕ × PMessage)

/-- Nothing has been sent. send.go:36. -/
def OutState.init : OutState := ⟨fun _ => [], fun _ => [], fun _ => [], fun _ => [], fun _ => [], fun _ => []⟩

/-- The events. `broadcast g m`: goroutine `g` calls `Broadcast(m)` (party_utils.go:63). `send g d m`: it calls `Send(m, d)` (party_utils.go:38). `put g`: its next channel send succeeds (party_utils.go:43).
`take d`: the writer goroutine of connection `d` takes a message (send.go:41). `copy d`: TCP accepts a byte from it (send.go:51-52). `read d`: the peer reads a byte. -/
inductive OutEvent where
  | broadcast (g : ℕ) (m : PMessage)
  | send (g d : ℕ) (m : PMessage)
  | put (g : ℕ)
  | take (d : ℕ)
  | copy (d : ℕ)
  | read (d : ℕ)
  deriving DecidableEq

/-- One event; `none` if it cannot happen (for a goroutine: it waits). A goroutine makes its next call when the previous one has returned. party_utils.go:37-105, send.go:38-60. -/
def outStep (N room : ℕ) (s : OutState) : OutEvent → Option OutState
  | .broadcast g m => if s.tasks g = [] then some { s with tasks := Function.update s.tasks g ((List.range N).map fun d => (d, m)) } else none
  | .send g d m => if s.tasks g = [] ∧ d < N then some { s with tasks := Function.update s.tasks g [(d, m)] } else none
  | .put g =>
    match s.tasks g with
    | [] => none
    | (d, m) :: rest =>
      if (s.sendQ d).length < maxMessage then
        some { s with tasks := Function.update s.tasks g rest, sendQ := Function.update s.sendQ d (s.sendQ d ++ [m]), put := Function.update s.put d (s.put d ++ [(g, m)]) }
      else none
  | .take d =>
    match s.busy d, s.sendQ d with
    | [], m :: rest => some { s with sendQ := Function.update s.sendQ d rest, busy := Function.update s.busy d (frame m) }
    | _, _ => none
  | .copy d =>
    match s.busy d with
    | [] => none
    | b :: rest => if (s.wire d).length < room then some { s with busy := Function.update s.busy d rest, wire := Function.update s.wire d (s.wire d ++ [b]) } else none
  | .read d =>
    match s.wire d with
    | [] => none
    | b :: rest => some { s with wire := Function.update s.wire d rest, got := Function.update s.got d (s.got d ++ [b]) }

/-- Executions. party_utils.go:37-105, send.go:38-60. -/
inductive OutRun (N room : ℕ) (s₀ : OutState) : List OutEvent → OutState → Prop
  | nil : OutRun N room s₀ [] s₀
  | snoc {evs s ev s'} (h : OutRun N room s₀ evs s) (hs : outStep N room s ev = some s') : OutRun N room s₀ (evs ++ [ev]) s'

end DyCAPS
