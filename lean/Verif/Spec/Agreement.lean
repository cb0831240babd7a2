import Verif.Model.MVBA

/-!
# Vocabulary for statements about the end of an agreement
-/

namespace DyCAPS

/-- `MainProcess` of this party has returned. -/
def MState.hasDecided (st : MState) : Prop := ∃ r v, st.phase = .decided r v

/-- Is it a step without an incoming message? -/
def MEvent.internal : MEvent → Bool
  | .recv _ _ => false
  | _ => true

/-- An execution has come to its end: no party whose `MainProcess` has not returned can make a step, and every message any party has sent was handled by all of them, or cannot be handled.
Nothing is asked of the parties that have returned (their goroutines may be cancelled at any point). -/
structure MSettled (env : MEnv) (net : MNet) : Prop where
  internal : ∀ i < env.N, ¬ (net.party i).hasDecided → ∀ ev, ev.internal = true → mvbaStep env i (net.party i) ev = none
  messages : ∀ i < env.N, ¬ (net.party i).hasDecided → ∀ s < env.N, ∀ m, (s, m) ∈ net.sent → (i, s, m) ∈ net.delivered ∨ mvbaStep env i (net.party i) (.recv s m) = none

/-- The same for executions in which only the parties in `A` go on, the others having stopped at some point: of the messages, those of the parties in `B` have been handled by the parties in `A`. -/
structure MSettledOn (env : MEnv) (A B : Finset ℕ) (net : MNet) : Prop where
  internal : ∀ i ∈ A, ¬ (net.party i).hasDecided → ∀ ev, ev.internal = true → mvbaStep env i (net.party i) ev = none
  messages : ∀ i ∈ A, ¬ (net.party i).hasDecided → ∀ s ∈ B, ∀ m, (s, m) ∈ net.sent → (i, s, m) ∈ net.delivered ∨ mvbaStep env i (net.party i) (.recv s m) = none

/-- Is it a Vote of round `r`, Yes or No? -/
def MMsg.isVote (r : ℕ) (yes : Bool) : MMsg → Bool
  | .vote r' y _ _ _ => r' == r && y == yes
  | _ => false

/-- The parties that have sent a Yes (a No) vote in round `r`. -/
def votersOf (N : ℕ) (sent : List (ℕ × MMsg)) (r : ℕ) (yes : Bool) : Finset ℕ := (Finset.range N).filter fun k => ∃ x ∈ sent, x.1 = k ∧ x.2.isVote r yes = true

/-- The votes of round `r` are split: both kinds were cast, neither by `2F+1` parties. -/
def SplitVote (N F : ℕ) (sent : List (ℕ × MMsg)) (r : ℕ) : Prop :=
  (votersOf N sent r true).Nonempty ∧ (votersOf N sent r false).Nonempty ∧ (votersOf N sent r true).card ≤ 2 * F ∧ (votersOf N sent r false).card ≤ 2 * F

end DyCAPS
