import Verif.Model.Proactivize
import Mathlib.Data.Finset.Card

/-!
# A committee running ProactivizeAndShareDist

All members of a committee run `ProactivizeAndShareDist` (internal/party/ProactivizeAndShareDist.go) together; each is the state machine of `Verif.Model.Proactivize`.  The parties that
are not members have stopped before the refresh and send nothing.  What a member can be given next is what the members have sent:

* Reshare, Recover, ShareDist and Success messages are delivered at most once each, in any order (every send runs in its own goroutine, lines 249-257, 324-331, 549-553, 669-671);
* a reliable broadcast gives every member the bytes its sender broadcast, at any time after the sender started it (RBC.go, see `Verif.Model.RBC`);
* MVBA gives every member one and the same value, which is the input of one of the members (MVBA.go, see `Verif.Model.MVBA`).
-/

namespace DyCAPS

/-- The members of the committee (numbers counted from 0), their state before the refresh, the randomness of their contributions and their signing keys. The arguments and receivers of the calls of
ProactivizeAndShareDist.go:17. -/
structure RefSetup (G1 G2 : Type) where
  members : Finset ℕ
  start : ℕ → Party G1 G2
  coins : ℕ → DealerCoins
  tb : ℕ → Tbls

/-- A state of the committee: per party its fields, its local variables, the events that have happened at it and the messages it has sent. ProactivizeAndShareDist.go:17-93. -/
structure RefNet (G1 G2 : Type) where
  party : ℕ → Party G1 G2
  st : ℕ → PState G1
  evs : ℕ → List PEvent
  outs : ℕ → List POut

/-- Whether an event is the receipt of a Success message, ProactivizeAndShareDist.go:681-696. -/
def PEvent.isSuccess : PEvent → Bool
  | .success => true
  | _ => false

/-- The event at a member when it takes a message from a queue of this refresh; `none` for types that ProactivizeAndShareDist does not ask for. The sender of a Success message is not looked at.
`GetMessage` gives the queue of the type and the identifier. ProactivizeAndShareDist.go:264-266, 357-360, 617-620, 688-689. -/
def PEvent.ofMessage (m : PMessage) : Option PEvent :=
  if m.type = "Reshare" then some (.reshare m.sender m.data)
  else if m.type = "Recover" then some (.takeRecover m.sender m.data)
  else if m.type = "ShareDist" then some (.shareDist m.sender m.data)
  else if m.type = "Success" then some .success
  else none

/-- Whether a message is a Success message, ProactivizeAndShareDist.go:666-671. -/
def POut.isSuccess : POut → Bool
  | .success => true
  | _ => false

section
variable {G1 G2 GT : Type} [AddCommGroup G1] [Module Fr G1] [AddCommGroup G2] [Module Fr G2] [AddCommGroup GT] [Module Fr GT]

/-- Before the first step of the refresh. ProactivizeAndShareDist.go:17-93. -/
def RefNet.init (S : RefSetup G1 G2) : RefNet G1 G2 :=
  ⟨S.start, fun i => PState.init (S.start i) (S.coins i), fun _ => [], fun _ => []⟩

/-- Party `h` has left the Refresh loop and goes on to broadcast NewCommit and send ShareDist. ProactivizeAndShareDist.go:504-565. -/
def RefNet.Refreshed (net : RefNet G1 G2) (h : ℕ) : Prop := ∃ Cs, (net.st h).refresh = .done Cs

/-- What can be given to party `i` next: the messages of the members that it has not got yet, the results of the broadcasts and of MVBA, and the internal steps.
ProactivizeAndShareDist.go:95-140,218-257,324-331,437-440,535-571,666-671. -/
def RefNet.Offers (codec : PointCodec G1) (pp : Pairing Fr G1 G2 GT) (S : RefSetup G1 G2) (net : RefNet G1 G2) (i : ℕ) : PEvent → Prop
  | .commit j data => ∃ h ∈ S.members, j = h + 1 ∧ ∃ m, commitMsg codec pp (S.start h).kzg (S.start h).F (S.coins h) = .ok m ∧ data = some (marshal m)
  | .reshare s d => PEvent.reshare s d ∉ net.evs i ∧ ∃ h ∈ S.members, s = UInt32.ofNat h ∧
      ∃ m, reshareMsg codec (S.start h).kzg (S.start h).F (S.coins h) (i + 1) = .ok m ∧ d = marshal m
  | .vote _ _ => True
  | .takeRecover s d => PEvent.takeRecover s d ∉ net.evs i ∧ ∃ h ∈ S.members, s = UInt32.ofNat h ∧ ∃ m, POut.recover (i + 1) m ∈ net.outs h ∧ d = marshal m
  | .passRecover => True
  | .handleRecover _ => True
  | .mvba v => (∀ k ∈ S.members, ∀ v', PEvent.mvba v' ∈ net.evs k → v' = v) ∧ ∃ h ∈ S.members, ∃ m, POut.mvba m ∈ net.outs h ∧ v = marshal m
  | .refresh => True
  | .newCommit j data => ∃ h ∈ S.members, j = h + 1 ∧ net.Refreshed h ∧ ∃ d, newCommitMsg codec (net.party h) = .ok d ∧ data = some d
  | .shareDist s d => PEvent.shareDist s d ∉ net.evs i ∧ ∃ h ∈ S.members, s = UInt32.ofNat h ∧ net.Refreshed h ∧
      ∃ m, shareDistMsg codec (net.party h) (i + 1) = .ok m ∧ d = marshal m
  | .dist _ _ => True
  | .success => (net.evs i).countP PEvent.isSuccess < (S.members.filter fun h => (net.outs h).any POut.isSuccess).card

/-- Party `i` has made a step. ProactivizeAndShareDist.go. -/
def RefNet.put (net : RefNet G1 G2) (i : ℕ) (ev : PEvent) (p : Party G1 G2) (st : PState G1) (out : List POut) : RefNet G1 G2 :=
  ⟨upd net.party i p, upd net.st i st, upd net.evs i (net.evs i ++ [ev]), upd net.outs i (net.outs i ++ out)⟩

variable [DecidableEq G1] [DecidableEq GT]

/-- The states the committee can get into, with the number of steps made. ProactivizeAndShareDist.go. -/
inductive RefReach (codec : PointCodec G1) (pp : Pairing Fr G1 G2 GT) (S : RefSetup G1 G2) : ℕ → RefNet G1 G2 → Prop
  | init : RefReach codec pp S 0 (RefNet.init S)
  | step {n net i ev p' st' out} (h : RefReach codec pp S n net) (hi : i ∈ S.members) (ho : net.Offers codec pp S i ev)
      (hs : proactStep codec pp (S.tb i) (net.party i) (net.st i) ev = some (.ok (p', st', out))) : RefReach codec pp S (n + 1) (net.put i ev p' st' out)

/-- One step of one member. ProactivizeAndShareDist.go. -/
def RefNet.Step (codec : PointCodec G1) (pp : Pairing Fr G1 G2 GT) (S : RefSetup G1 G2) (net net' : RefNet G1 G2) : Prop :=
  ∃ i ∈ S.members, ∃ ev p' st' out, net.Offers codec pp S i ev ∧ proactStep codec pp (S.tb i) (net.party i) (net.st i) ev = some (.ok (p', st', out)) ∧
    net' = net.put i ev p' st' out

/-- Nothing can happen any more: every goroutine of every member has ended or waits for something that will never come. ProactivizeAndShareDist.go:17-716. -/
def RefNet.Settled (codec : PointCodec G1) (pp : Pairing Fr G1 G2 GT) (S : RefSetup G1 G2) (net : RefNet G1 G2) : Prop :=
  ∀ i ∈ S.members, ∀ ev, net.Offers codec pp S i ev → proactStep codec pp (S.tb i) (net.party i) (net.st i) ev = none

end

end DyCAPS
