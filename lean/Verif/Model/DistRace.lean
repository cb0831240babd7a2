import Verif.Model.Proactivize

/-!
# The goroutines of ShareDist, read by read and write by write

`Model/Proactivize` takes the body of a ShareDist goroutine as one step (`shareDistStep`). The variables `SB` and `SuccessSent` it works on are shared by `N` goroutines and no mutex protects them
(`mutexKZG` is released at ProactivizeAndShareDist.go:642), so the steps of different goroutines can alternate. This file has these steps for the goroutines whose shares have verified.
Reads and writes are sequentially consistent, which is what an execution without compiler reordering gives, and a slice header and an element are read and written as a whole. A slice is a header that points
to an array; different headers can point to one array. `append` reads the header of `SB`, writes the element into the array if there is room and into a new array with a copy of the old elements otherwise, and
writes the header. The capacity of new arrays is a parameter. The loop at lines 657-660 reads the variable `SB` anew for every `DistX[t]` and every `DistY[t]`.
-/

namespace DyCAPS

/-- A slice header: the array, the length, the capacity. -/
structure SliceHdr where
  arr : ℕ
  len : ℕ
  cap : ℕ
deriving DecidableEq

/-- Where a goroutine stands whose share has verified, ProactivizeAndShareDist.go:644-673. -/
inductive DistPC where
  /-- before line 646 -/
  | start
  /-- has read `SB` for `append`, line 646 -/
  | loaded (h : SliceHdr)
  /-- the array is full; the elements copied so far, line 646 -/
  | growing (h : SliceHdr) (cs : List (ℕ × Fr))
  /-- has written the element and not yet `SB`, line 646 -/
  | written (h : SliceHdr)
  /-- has written `SB`, before line 653 -/
  | stored
  /-- the test at line 653 was positive; the entries of `DistX` and `DistY` read so far, lines 657-660 -/
  | reading (xs : List ℕ) (ys : List Fr)
  /-- has written `p.fullShare`, line 662 -/
  | interpolated
  /-- has broadcast Success, line 669 -/
  | reported
  /-- has set `SuccessSent`, line 670 -/
  | marked
  /-- left the goroutine -/
  | done
deriving DecidableEq

/-- The shared variables of ShareDist: the arrays, how many there are, `SB`, `SuccessSent`, `p.fullShare`, the number of Success broadcasts, the values in `SuccessSentChan` (capacity 1), whether line 686 has
been passed, and the goroutines, ProactivizeAndShareDist.go:516, 611-612, 682-687. -/
structure DistRace where
  mem : ℕ → ℕ → ℕ × Fr
  next : ℕ
  SB : SliceHdr
  sent : Bool
  full : List Fr
  successes : ℕ
  chan : ℕ
  counting : Bool
  pc : ℕ → DistPC

/-- Before the first share, with `full` the share from before; `SB` has length and capacity 0. ProactivizeAndShareDist.go:516, 611-612. -/
def DistRace.init (full : List Fr) : DistRace := ⟨fun _ _ => (0, 0), 1, ⟨0, 0, 0⟩, false, full, 0, 0, false, fun _ => .start⟩

/-- `SB[t]` for the index and the value of a share; `none` if it is out of range. ProactivizeAndShareDist.go:658-659. -/
def DistRace.at (st : DistRace) (t : ℕ) : Option (ℕ × Fr) := if t < st.SB.len then some (st.mem st.SB.arr t) else none

/-- The next step of goroutine `i`, which has the verified point `pt i`; `none` if there is none. `grow c` is the capacity of the array that replaces one of capacity `c`. Reading `SB[t]` beyond the length `SB`
has by then is a panic. ProactivizeAndShareDist.go:644-673. -/
def DistRace.go (grow : ℕ → ℕ) (F : ℕ) (pt : ℕ → ℕ × Fr) (st : DistRace) (i : ℕ) : Option (Go DistRace) :=
  match st.pc i with
  | .start => some (.ok { st with pc := upd st.pc i (.loaded st.SB) })
  | .loaded h =>
    if h.len < h.cap then some (.ok { st with mem := upd st.mem h.arr (upd (st.mem h.arr) h.len (pt i)), pc := upd st.pc i (.written ⟨h.arr, h.len + 1, h.cap⟩) })
    else some (.ok { st with pc := upd st.pc i (.growing h []) })
  | .growing h cs =>
    if cs.length < h.len then some (.ok { st with pc := upd st.pc i (.growing h (cs ++ [st.mem h.arr cs.length])) })
    else some (.ok { st with mem := upd st.mem st.next (fun t => (cs ++ [pt i]).getD t (0, 0)), next := st.next + 1, pc := upd st.pc i (.written ⟨st.next, h.len + 1, grow h.cap⟩) })
  | .written h => some (.ok { st with SB := h, pc := upd st.pc i .stored })
  | .stored =>
    if !st.sent && decide (2 * F + 1 ≤ st.SB.len) then some (.ok { st with pc := upd st.pc i (.reading [] []) })
    else some (.ok { st with pc := upd st.pc i .done })
  | .reading xs ys =>
    if ys.length < xs.length then
      match st.at ys.length with
      | none => some (.error .panic)
      | some q => some (.ok { st with pc := upd st.pc i (.reading xs (ys ++ [q.2])) })
    else if xs.length < 2 * F + 1 then
      match st.at xs.length with
      | none => some (.error .panic)
      | some q => some (.ok { st with pc := upd st.pc i (.reading (xs ++ [q.1]) ys) })
    else some (do
      let full ← lagrangeInterpolate (2 * F) (xs.map fun x => ((x : ℕ) : Fr)) ys
      pure { st with full := full, pc := upd st.pc i .interpolated })
  | .interpolated => some (.ok { st with successes := st.successes + 1, pc := upd st.pc i .reported })
  | .reported => some (.ok { st with sent := true, pc := upd st.pc i .marked })
  | .marked => if st.chan = 0 then some (.ok { st with chan := 1, pc := upd st.pc i .done }) else none
  | .done => none

/-- One step of a goroutine or of the goroutine that waits for `SuccessSentChan` once (ProactivizeAndShareDist.go:686). -/
inductive DistEvent where
  | go (i : ℕ)
  | count
deriving DecidableEq

/-- The machine of `n` goroutines, ProactivizeAndShareDist.go:614-687. -/
def distStep (grow : ℕ → ℕ) (F n : ℕ) (pt : ℕ → ℕ × Fr) (st : DistRace) : DistEvent → Option (Go DistRace)
  | .go i => if i < n then st.go grow F pt i else none
  | .count => if st.chan = 1 ∧ st.counting = false then some (.ok { st with chan := 0, counting := true }) else none

/-- A schedule. `none`: some event is not enabled. ProactivizeAndShareDist.go:614-687. -/
def distRun (grow : ℕ → ℕ) (F n : ℕ) (pt : ℕ → ℕ × Fr) : DistRace → List DistEvent → Option (Go DistRace)
  | st, [] => some (.ok st)
  | st, e :: es =>
    match distStep grow F n pt st e with
    | none => none
    | some (.error f) => some (.error f)
    | some (.ok st') => distRun grow F n pt st' es

end DyCAPS
