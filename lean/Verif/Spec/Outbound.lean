import Verif.Model.Outbound

/-!
# What is meant for whom

Over the events of an execution of `OutRun`.
-/

namespace DyCAPS

/-- The messages goroutine `g` has, by its calls, meant for member `d`, in order. -/
def meant (N : ℕ) (evs : List OutEvent) (g d : ℕ) : List PMessage :=
  evs.filterMap fun
    | .broadcast g' m => if g' = g ∧ d < N then some m else none
    | .send g' d' m => if g' = g ∧ d' = d then some m else none
    | _ => none

/-- The calls are made by the goroutines below `n`. -/
def CallsBelow (n : ℕ) (evs : List OutEvent) : Prop := ∀ e ∈ evs, match e with
  | .broadcast g _ => g < n
  | .send g _ _ => g < n
  | _ => True

/-- A step that is not a call; `reads d` tells whether peer `d` reads. -/
def OutEvent.goesOn (reads : ℕ → Prop) : OutEvent → Prop
  | .put _ | .take _ | .copy _ => True
  | .read d => reads d
  | _ => False

/-- Nothing happens any more unless somebody makes a call or a peer that does not read starts reading. -/
def OutQuiet (N room : ℕ) (reads : ℕ → Prop) (s : OutState) : Prop := ∀ e : OutEvent, e.goesOn reads → outStep N room s e = none

/-- Peer `d` has been given, byte by byte, exactly the messages meant for it, those of each goroutine in order. -/
def HasAll (N : ℕ) (evs : List OutEvent) (s : OutState) (d : ℕ) : Prop :=
  ∃ L : List (ℕ × PMessage), s.got d = sendStream (L.map (·.2)) ∧ ∀ g, (L.filter fun e => decide (e.1 = g)).map (·.2) = meant N evs g d

end DyCAPS
