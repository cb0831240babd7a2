import Mathlib.Logic.Function.Basic
import Verif.Model.Dispatch

/-!
# The path of a message

From the channel that `Send` writes to (`Model/Dispatch`), through the writer goroutine, the byte stream and the reader goroutine of a connection (`Model/Framing`), into the receive channel and through the
dispatcher (`Model/Dispatch`) to the goroutines that read from `GetMessage`. Seen from one receiving process with connections numbered from 0; the connections have been made (`Model/Connect`). TCP is a reliable
ordered byte stream. The two `conn.Write` calls for one message (send.go:51-52) are one step: the reader takes one byte at a time anyway, and nobody else writes to the connection.
-/

namespace DyCAPS

/-- For every connection: the send channel of the peer (`sendQ`), the bytes written and not yet read (`wire`), the reader goroutine (`rd`; its `out` is the message it waits to push, receive.go:67). For the process:
the receive channel, dispatcher and readers (`d`), and whether `log.Fatalln` has ended it. pkg/core/send.go:38-60, pkg/core/receive.go:47-69. -/
structure PathState where
  sendQ : ℕ → List PMessage
  wire : ℕ → Bytes
  rd : ℕ → RecvState
  d : DState
  ended : Bool

/-- All connections are new. send.go:36, receive.go:36, dispatche.go:12. -/
def PathState.init : PathState := ⟨fun _ => [], fun _ => [], fun _ => .init, DState.init, false⟩

/-- The events. `send a m`: the peer on connection `a` puts a message into its channel (party_utils.go:43). `write a`: its writer goroutine takes one and writes it (send.go:41-52). `raw a bs`: a peer that does not
run this code writes bytes. `byte a`: the reader goroutine reads a byte (receive.go:50-53). `push a`: it pushes its message (receive.go:67). `d e`: a step of the dispatcher or of a goroutine calling `GetMessage`. -/
inductive PathEvent where
  | send (a : ℕ) (m : PMessage)
  | write (a : ℕ)
  | raw (a : ℕ) (bs : Bytes)
  | byte (a : ℕ)
  | push (a : ℕ)
  | d (e : DEvent)

/-- One event; `none` if it cannot happen. The receiving process does nothing any more when it has ended; the peers can go on writing. pkg/core/send.go:38-60, pkg/core/receive.go:47-69, pkg/core/dispatche.go:15-25. -/
def pathStep (N : ℕ) (s : PathState) : PathEvent → Option PathState
  | .send a m => if (s.sendQ a).length < maxMessage then some { s with sendQ := Function.update s.sendQ a (s.sendQ a ++ [m]) } else none
  | .write a =>
    match s.sendQ a with
    | [] => none
    | m :: rest => some { s with sendQ := Function.update s.sendQ a rest, wire := Function.update s.wire a (s.wire a ++ frame m) }
  | .raw a bs => some { s with wire := Function.update s.wire a (s.wire a ++ bs) }
  | .byte a =>
    if s.ended = true ∨ (s.rd a).out ≠ [] then none
    else
      match s.wire a with
      | [] => none
      | b :: rest =>
        let r := recvByte (s.rd a) b
        some { s with wire := Function.update s.wire a rest, rd := Function.update s.rd a r, ended := decide (r.pos = .dead) }
  | .push a =>
    if s.ended = true then none
    else
      match (s.rd a).out with
      | [] => none
      | m :: rest =>
        (dStep N s.d (.arrive m)).map fun d => { s with rd := Function.update s.rd a ⟨(s.rd a).pos, rest⟩, d := d }
  | .d (.arrive _) => none
  | .d e => if s.ended = true then none else (dStep N s.d e).map fun d => { s with d := d }

/-- Executions. pkg/core. -/
inductive PathRun (N : ℕ) (s₀ : PathState) : List PathEvent → PathState → Prop
  | nil : PathRun N s₀ [] s₀
  | snoc {evs s ev s'} (h : PathRun N s₀ evs s) (hs : pathStep N s ev = some s') : PathRun N s₀ (evs ++ [ev]) s'

end DyCAPS
