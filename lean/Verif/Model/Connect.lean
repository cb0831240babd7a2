import Mathlib.Logic.Function.Basic
import Mathlib.Data.List.Basic

/-!
# Processes and their connections

`MakeReceiveChannel` (pkg/core/receive.go), `MakeSendChannel` (pkg/core/send.go) and the order in which `cmd/DyCAPs/main.go` calls them in the four roles. The content of the messages is `Model/Framing`; here
only their number on each connection and in the receive queue matters.

Simplifications: the addresses of the lists are distinct and `ListenTCP` succeeds; a connection request succeeds exactly if the process at the address listens (the kernel queues it for `AcceptTCP`); a process
ends for any reason at any time (event `stop`), which closes its connections.
-/

namespace DyCAPS

/-- A process: member `i` of the old or new committee (`-op2 oldCommittee`, `newCommittee`), of the only committee (`onlyOneCommittee`), or the client. main.go:40-189. -/
inductive Proc where
  | old (i : ℕ)
  | new (i : ℕ)
  | one (i : ℕ)
  | client
  deriving DecidableEq

/-- Whether the role calls `InitReceiveChannel`: all but the client do. main.go:53,86,123; 164-189. -/
def Proc.listens : Proc → Bool
  | .client => false
  | _ => true

/-- The addresses a process connects to, in order: `InitSendChannel` and for some roles `InitSendToNextChannel`, party_utils.go:20-34, with the lists given to `NewHonestParty`.
main.go:52-58 (old), 85-90 (new), 122-128 (one committee), 179-183 (client). -/
def Proc.dials (N : ℕ) : Proc → List Proc
  | .old _ => (List.range N).map .old ++ (List.range N).map .new
  | .new _ => (List.range N).map .new
  | .one _ => (List.range N).map .one ++ (List.range N).map .one
  | .client => (List.range N).map .old

/-- A process has not been started, runs (after `InitReceiveChannel`, party_utils.go:15-18), or has ended. -/
inductive Life where
  | down
  | up
  | ended
  deriving DecidableEq

/-- `life`; how many of the addresses a process has connected to (`dialled`); the number of messages written to the `k`-th connection of `a` and not yet in the receiver's queue (`flight a k`); the length of
`receiveChannel` (`queue`). send.go:41, receive.go:36,67. -/
structure Conns where
  life : Proc → Life
  dialled : Proc → ℕ
  flight : Proc → ℕ → ℕ
  queue : Proc → ℕ

/-- Before any process is started. test_multiCommittee.sh:18. -/
def Conns.init : Conns := ⟨fun _ => .down, fun _ => 0, fun _ _ => 0, fun _ => 0⟩

/-- `MAXMESSAGE`, send.go:15: the capacity of `receiveChannel`, receive.go:36. -/
def receiveCap : ℕ := 1024

/-- The events. `start`: InitReceiveChannel has returned. `dial`: one call of MakeSendChannel. `write`: the writer goroutine of connection `k` writes a message; `writeLost`, `writeFail`: the other side is gone, the
write succeeds or returns an error. `read`: the reader goroutine of connection `k` of `a` reads a message and pushes it. `eof`: it reads the end of the stream; `reset`: the connection is reset, which drops unread data.
`take`: the dispatcher takes a message. `stop`: the process ends (main returns, a panic or `log.Fatal` anywhere, a signal). -/
inductive CEvent where
  | start (a : Proc)
  | dial (a : Proc)
  | write (a : Proc) (k : ℕ)
  | writeLost (a : Proc) (k : ℕ)
  | writeFail (a : Proc) (k : ℕ)
  | read (a : Proc) (k : ℕ)
  | eof (a : Proc) (k : ℕ)
  | reset (a : Proc) (k : ℕ)
  | take (b : Proc)
  | stop (a : Proc)
  deriving DecidableEq

/-- A process ends: `log.Fatalln`, send.go:29,54,58, receive.go:57, or anything else. -/
def Conns.stop (s : Conns) (a : Proc) : Conns := { s with life := Function.update s.life a .ended }

/-- The receiver of the `k`-th connection of `a`, once it is made. -/
def Conns.peer (N : ℕ) (s : Conns) (a : Proc) (k : ℕ) : Option Proc := if k < s.dialled a then (a.dials N)[k]? else none

/-- One event; `none` if it cannot happen. `dial` with nobody listening: `DialTCP` returns an error and send.go:28-30 calls `log.Fatalln(err1)`, without another attempt. A write error ends the process (send.go:52-58), the end
of an incoming stream as well (receive.go:51-57). A reader waits with a message in hand while the queue is full (receive.go:67). -/
def cStep (N : ℕ) (s : Conns) : CEvent → Option Conns
  | .start a => if s.life a = .down then some { s with life := Function.update s.life a .up } else none
  | .dial a =>
    if s.life a = .up then
      match (a.dials N)[s.dialled a]? with
      | none => none
      | some b => if s.life b = .up ∧ b.listens = true then some { s with dialled := Function.update s.dialled a (s.dialled a + 1) } else some (s.stop a)
    else none
  | .write a k =>
    match s.peer N a k with
    | none => none
    | some b => if s.life a = .up ∧ s.life b = .up then some { s with flight := Function.update s.flight a (Function.update (s.flight a) k (s.flight a k + 1)) } else none
  | .writeLost a k =>
    match s.peer N a k with
    | none => none
    | some b => if s.life a = .up ∧ s.life b = .ended then some s else none
  | .writeFail a k =>
    match s.peer N a k with
    | none => none
    | some b => if s.life a = .up ∧ s.life b = .ended then some (s.stop a) else none
  | .read a k =>
    match s.peer N a k with
    | none => none
    | some b =>
      if s.life b = .up ∧ 0 < s.flight a k ∧ s.queue b < receiveCap then
        some { s with flight := Function.update s.flight a (Function.update (s.flight a) k (s.flight a k - 1)), queue := Function.update s.queue b (s.queue b + 1) }
      else none
  | .eof a k =>
    match s.peer N a k with
    | none => none
    | some b => if s.life b = .up ∧ s.life a = .ended ∧ s.flight a k = 0 then some (s.stop b) else none
  | .reset a k =>
    match s.peer N a k with
    | none => none
    | some b => if s.life b = .up ∧ s.life a = .ended ∧ s.queue b < receiveCap then some (s.stop b) else none
  | .take b => if s.life b = .up ∧ 0 < s.queue b then some { s with queue := Function.update s.queue b (s.queue b - 1) } else none
  | .stop a => if s.life a = .up then some (s.stop a) else none

/-- Executions: any order of events. -/
inductive CRun (N : ℕ) : Conns → List CEvent → Conns → Prop
  | nil {s} : CRun N s [] s
  | cons {s s' s'' e es} : cStep N s e = some s' → CRun N s' es s'' → CRun N s (e :: es) s''

/-- An execution with a clock: events with times that do not decrease. `t` is the time before the first event. -/
inductive TRun (N : ℕ) : ℕ → Conns → List (ℕ × CEvent) → Conns → Prop
  | nil {t s} : TRun N t s [] s
  | cons {t t' s s' s'' e es} : t ≤ t' → cStep N s e = some s' → TRun N t' s' es s'' → TRun N t s ((t', e) :: es) s''

/-- `main` sleeps between `InitReceiveChannel` and the first connection, for `t1` seconds in the new or only committee, `t2` in the old one and `t3` in the client. main.go:55,88,125,181; the defaults are those of
main.go:28-30 and of the script, test_multiCommittee.sh:19,24,30. -/
def Proc.wait (t1 t2 t3 : ℕ) : Proc → ℕ
  | .old _ => t2
  | .new _ => t1
  | .one _ => t1
  | .client => t3

end DyCAPS
