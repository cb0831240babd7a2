import Verif.Model.Framing

/-!
# Message routing

The dispatcher goroutine (`pkg/core/dispatche.go`), `GetMessage`, `Send`, `Broadcast*` (`internal/party/party_utils.go`).
Maps and channels are heap objects addressed by numbers, so that "the same channel" is a statement about addresses.
A step that would block is not enabled. `N*N` is taken over the naturals (no uint32 overflow); with capacity 0 a push would be a
rendezvous, which is not modelled (it is simply never enabled), so `N ≥ 1` is assumed where progress matters.
-/

namespace DyCAPS

/-- `MAXMESSAGE`, pkg/core/send.go:14. -/
def maxMessage : ℕ := 1024

/-- Where a goroutine executing the two `LoadOrStore` calls is: `first` before the outer one, `second` before the inner one (holding
the inner map), `have_` afterwards (holding the channel). pkg/core/dispatche.go:17-21 and `GetMessage`, internal/party/party_utils.go:107-113. -/
inductive LookupPos where
  | first
  | second (map : ℕ)
  | have_ (ch : ℕ)
  deriving DecidableEq

/-- Shared state: the receive channel (written by the connection goroutines), the double layer map, the channels and the goroutines
using them. `disp` is the dispatcher: the message it holds and its position; `cons c` is consumer `c`: the arguments of its
`GetMessage` call and its position. `arrived` and `log` are history: messages put into the receive channel, and messages read by
consumers together with the key they asked for. pkg/core/dispatche.go:11-28. -/
structure DState where
  recvQ : List PMessage
  nextMap : ℕ
  nextChan : ℕ
  outer : String → Option ℕ
  inner : ℕ → Bytes → Option ℕ
  chan : ℕ → List PMessage
  disp : Option (PMessage × LookupPos)
  cons : ℕ → Option ((String × Bytes) × LookupPos)
  arrived : List PMessage
  log : List ((String × Bytes) × PMessage)

/-- `MakeDispatcheChannels` has just been called. pkg/core/dispatche.go:12-14. -/
def DState.init : DState := ⟨[], 0, 0, fun _ => none, fun _ _ => none, fun _ => [], none, fun _ => none, [], []⟩

/-- `dispatcheChannels.LoadOrStore(type, new(sync.Map))`, dispatche.go:18, party_utils.go:108: the inner map to use. -/
def DState.loadOuter (s : DState) (t : String) : DState × ℕ :=
  match s.outer t with
  | some m => (s, m)
  | none => ({ s with nextMap := s.nextMap + 1, outer := fun t' => if t' = t then some s.nextMap else s.outer t' }, s.nextMap)

/-- `value1.LoadOrStore(string(id), make(chan, N*N))`, dispatche.go:20, party_utils.go:110: the channel to use. -/
def DState.loadInner (s : DState) (m : ℕ) (id : Bytes) : DState × ℕ :=
  match s.inner m id with
  | some c => (s, c)
  | none => ({ s with
      nextChan := s.nextChan + 1
      inner := fun m' id' => if m' = m ∧ id' = id then some s.nextChan else s.inner m' id' }, s.nextChan)

/-- One step of a goroutine between the two `LoadOrStore` calls. pkg/core/dispatche.go:17-19. -/
def DState.lookup (s : DState) (t : String) (id : Bytes) : LookupPos → Option (DState × LookupPos)
  | .first => let (s', m) := s.loadOuter t; some (s', .second m)
  | .second m => let (s', c) := s.loadInner m id; some (s', .have_ c)
  | .have_ _ => none

/-- Actions: a connection goroutine pushes a message (receive.go:66); the dispatcher takes a message (dispatche.go:17), looks the channel up,
pushes (dispatche.go:22); a goroutine calls `GetMessage`, continues it, reads a message from the channel it got. -/
inductive DEvent where
  | arrive (m : PMessage)
  | take
  | look
  | push
  | call (c : ℕ) (t : String) (id : Bytes)
  | cont (c : ℕ)
  | read (c : ℕ)

/-- The effect of an action; `none` if it is not enabled. pkg/core/dispatche.go:15-25. -/
def dStep (N : ℕ) (s : DState) : DEvent → Option DState
  | .arrive m =>
    if s.recvQ.length < maxMessage then some { s with recvQ := s.recvQ ++ [m], arrived := s.arrived ++ [m] } else none
  | .take =>
    match s.disp, s.recvQ with
    | none, m :: rest => some { s with recvQ := rest, disp := some (m, .first) }
    | _, _ => none
  | .look =>
    match s.disp with
    | some (m, pos) => (s.lookup m.type m.id pos).map fun (s', pos') => { s' with disp := some (m, pos') }
    | none => none
  | .push =>
    match s.disp with
    | some (m, .have_ c) =>
      if (s.chan c).length < N * N then some { s with chan := fun c' => if c' = c then s.chan c ++ [m] else s.chan c', disp := none } else none
    | _ => none
  | .call c t id => some { s with cons := fun c' => if c' = c then some ((t, id), .first) else s.cons c' }
  | .cont c =>
    match s.cons c with
    | some (k, pos) => (s.lookup k.1 k.2 pos).map fun (s', pos') => { s' with cons := fun c' => if c' = c then some (k, pos') else s'.cons c' }
    | none => none
  | .read c =>
    match s.cons c with
    | some (k, .have_ ch) =>
      match s.chan ch with
      | [] => none
      | m :: rest => some { s with chan := fun c' => if c' = ch then rest else s.chan c', log := s.log ++ [(k, m)] }
    | _ => none

/-- `DRun N s evs s'`: the actions `evs` lead from `s` to `s'`. Executions of pkg/core/dispatche.go:14-26. -/
inductive DRun (N : ℕ) (s₀ : DState) : List DEvent → DState → Prop
  | nil : DRun N s₀ [] s₀
  | snoc {evs s ev s'} (h : DRun N s₀ evs s) (hs : dStep N s ev = some s') : DRun N s₀ (evs ++ [ev]) s'

/-! ## Sending -/

/-- Outgoing channels of a party: `none` is a nil slice, an entry `none` a nil channel. internal/party/party.go, lines 46-50. -/
abbrev SendChans := Option (List (Option (List PMessage)))

/-- The fields of `HonestParty` used for sending. internal/party/party.go:123-170. -/
structure Net where
  N : ℕ
  sendChannels : SendChans
  sendToNextChannels : SendChans

/-- Outcome of a call: it returned, with or without an error; it waits forever on a channel; or an index was out of range. The state is the one
at that moment. internal/party/party_utils.go:38-105. -/
inductive SendRes (α : Type) where
  | ok (s : α)
  | err (s : α)
  | blocked (s : α)
  | panicked
  deriving DecidableEq

/-- `chans[des] <- m`. A send on a nil channel, or on a full one nobody reads, waits; the writer goroutine of send.go is not running here, so the queue
is what has been handed to it and not yet taken. -/
def pushChan (chans : SendChans) (des : ℕ) (m : PMessage) : SendRes SendChans :=
  match chans with
  | none => .panicked
  | some l =>
    match l[des]? with
    | none => .panicked
    | some none => .blocked chans
    | some (some q) => if q.length < maxMessage then .ok (some (l.set des (some (q ++ [m])))) else .blocked chans

/-- `checkSendChannelsInit`, party_utils.go:115-117. It looks at the other field. -/
def Net.checkSendChannelsInit (p : Net) : Bool := p.sendToNextChannels.isSome

/-- `checkInitSendChannelsToNext`, party_utils.go:119-121. -/
def Net.checkInitSendChannelsToNext (p : Net) : Bool := p.sendToNextChannels.isSome

/-- `Send`, party_utils.go:38-48. -/
def Net.send (p : Net) (m : PMessage) (des : ℕ) : SendRes Net :=
  if !p.checkSendChannelsInit then .err p
  else if des < p.N then
    match pushChan p.sendChannels des m with
    | .ok c => .ok { p with sendChannels := c }
    | .err _ => .err p
    | .blocked _ => .blocked p
    | .panicked => .panicked
  else .err p

/-- `SendToNextCommittee`, party_utils.go:51-60. -/
def Net.sendToNext (p : Net) (m : PMessage) (des : ℕ) : SendRes Net :=
  if !p.checkInitSendChannelsToNext then .err p
  else if des < p.N then
    match pushChan p.sendToNextChannels des m with
    | .ok c => .ok { p with sendToNextChannels := c }
    | .err _ => .err p
    | .blocked _ => .blocked p
    | .panicked => .panicked
  else .err p

/-- The loop `for i in is { err := send(m, i); if err != nil { return err } }`. internal/party/party_utils.go:63-105. -/
def sendLoop (send : Net → ℕ → SendRes Net) : List ℕ → Net → SendRes Net
  | [], p => .ok p
  | i :: is, p =>
    match send p i with
    | .ok p' => sendLoop send is p'
    | r => r

/-- `Broadcast`, party_utils.go:63-74. -/
def Net.broadcast (p : Net) (m : PMessage) : SendRes Net :=
  if !p.checkSendChannelsInit then .err p else sendLoop (fun p i => p.send m i) (List.range p.N) p

/-- `BroadcastExclude`, party_utils.go:77-90. -/
def Net.broadcastExclude (p : Net) (m : PMessage) (pid : ℕ) : SendRes Net :=
  if !p.checkSendChannelsInit then .err p
  else sendLoop (fun p i => if i ≠ pid then p.send m i else .ok p) (List.range p.N) p

/-- `BroadcastToNextCommittee`, party_utils.go:93-104. -/
def Net.broadcastToNext (p : Net) (m : PMessage) : SendRes Net :=
  if !p.checkInitSendChannelsToNext then .err p else sendLoop (fun p i => p.sendToNext m i) (List.range p.N) p

/-- The fields as `NewHonestParty` leaves them, party.go:165-166. -/
def Net.new (N : ℕ) : Net := ⟨N, some (List.replicate N none), some (List.replicate N none)⟩

/-- `InitSendChannel`, party_utils.go:21-27 (the connections succeed). -/
def Net.initSendChannel (p : Net) : Net := { p with sendChannels := some (List.replicate p.N (some [])) }

/-- `InitSendToNextChannel`, party_utils.go:29-35. -/
def Net.initSendToNextChannel (p : Net) : Net := { p with sendToNextChannels := some (List.replicate p.N (some [])) }

end DyCAPS
