import Verif.Model.Proactivize

/-!
# The Refresh loop, coefficient by coefficient

`Model/Proactivize` takes one iteration of the Refresh loop as one step. The loop at ProactivizeAndShareDist.go:474-478 reads `Q[j][p.PID+1]` anew for every coefficient and holds no mutex, while handler `j` of
Recover replaces this slice at line 413, under `mutexSRec`, which the Refresh loop does not take. Handler `j` can do so in the middle of the loop: it has taken its message before MVBA was called and waited at
line 404 for `mutexSRec`, which is held while MVBA runs. In this file every execution of line 476 is a step of its own. Reads and writes are sequentially consistent, and a slice header is read and written as a whole.

Where the loop has waited for `RecDone[j]` (line 468), `Q[j][p.PID+1]` is not written any more, and the iteration is left as one step. So is the loop over `CQ[j]` (lines 480-485): without waiting it is
reached only when `flgCom[j]` is set, after which nobody writes the row `CQ[j]`.
-/

namespace DyCAPS

section
variable {G1 G2 GT : Type} [AddCommGroup G1] [Module Fr G1] [AddCommGroup G2] [Module Fr G2] [AddCommGroup GT] [Module Fr GT]
variable [DecidableEq G1] [DecidableEq GT]

/-- A party, the local variables, and the entries of `Qsum` already written in the current iteration (`Qsum` in `st` has the values from before the iteration). ProactivizeAndShareDist.go:464-486. -/
structure FineState (G1 G2 : Type) where
  p : Party G1 G2
  st : PState G1
  part : List Fr

/-- Events: one of `PEvent`, one execution of line 476, the end of an iteration (lines 480-486 of ProactivizeAndShareDist.go). -/
inductive FineEvent where
  | ev (e : PEvent)
  | coef
  | next

/-- The Refresh loop has found `flgCom[j]` set for its next `j`: it is at the loop of ProactivizeAndShareDist.go:474-478. An index above `N` is a panic (line 467) and left to `refreshStep`. -/
def FineState.adding (s : FineState G1 G2) : Bool :=
  match s.st.refresh with
  | .looping (j :: _) _ _ => decide (j ≤ s.p.N) && !s.st.refreshWait && s.st.flgCom j
  | _ => false

/-- A step of `proactStep` next to an iteration of the Refresh loop. ProactivizeAndShareDist.go. -/
def fineEv (codec : PointCodec G1) (pp : Pairing Fr G1 G2 GT) (tb : Tbls) (s : FineState G1 G2) (e : PEvent) : Option (Go (FineState G1 G2 × List POut)) :=
  match proactStep codec pp tb s.p s.st e with
  | none => none
  | some (.error f) => some (.error f)
  | some (.ok (p', st', out)) => some (.ok (⟨p', st', s.part⟩, out))

/-- One step: as in `proactStep`, except that an iteration of the Refresh loop that has not waited consists of `F+1` steps `coef` and a step `next`. All polynomials in `Q` have `F+1` coefficients
(lines 82, 91 and 413), so that no index at line 476 is out of range. ProactivizeAndShareDist.go:464-486. -/
def fineStep (codec : PointCodec G1) (pp : Pairing Fr G1 G2 GT) (tb : Tbls) (s : FineState G1 G2) : FineEvent → Option (Go (FineState G1 G2 × List POut))
  | .ev .refresh => if s.adding then none else fineEv codec pp tb s .refresh
  | .ev e => fineEv codec pp tb s e
  | .coef =>
    match s.st.refresh with
    | .looping (j :: _) Qsum _ =>
      if s.adding = true ∧ s.part.length < s.p.F + 1 then
        some (.ok ({ s with part := s.part ++ [Qsum.getD s.part.length 0 + (s.st.Q j).getD s.part.length 0] }, []))
      else none
    | _ => none
  | .next =>
    match s.st.refresh with
    | .looping (j :: rest) _ CQsum =>
      if s.adding = true ∧ s.part.length = s.p.F + 1 then
        some (.ok (⟨s.p, { s.st with refresh := .looping rest s.part (fun i => CQsum i + s.st.CQ j i) }, []⟩, []))
      else none
    | _ => none

/-- Executions with the Refresh loop coefficient by coefficient. ProactivizeAndShareDist.go. -/
inductive FineRun (codec : PointCodec G1) (pp : Pairing Fr G1 G2 GT) (tb : Tbls) (s₀ : FineState G1 G2) : List FineEvent → List POut → FineState G1 G2 → Prop
  | nil : FineRun codec pp tb s₀ [] [] s₀
  | snoc {evs outs s ev s' out} (h : FineRun codec pp tb s₀ evs outs s)
      (hs : fineStep codec pp tb s ev = some (.ok (s', out))) : FineRun codec pp tb s₀ (evs ++ [ev]) (outs ++ out) s'

end

end DyCAPS
