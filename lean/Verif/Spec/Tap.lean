import Verif.Model.Framing
import Verif.Model.Poly
import Verif.Model.VSS
import Verif.Model.Proactivize

/-!
# What someone reads who records a connection

The bytes of a connection as they pass (pkg/core/send.go:38-58). Nothing here uses a key, the setup secret or an encoding of points.
-/

namespace DyCAPS

/-- The first message of a type on a recorded connection. -/
def tapMessage (type : String) (rec : Bytes) : Option PMessage := (recvBytes .init rec).out.find? fun m => m.type == type

/-- Entry `j` of the list of share values in the sharing that the client sent on the connection. -/
def tapVSS (rec : Bytes) (j : ℕ) : Fr :=
  match tapMessage "VSSSend" rec with
  | some m => (frFrom32 0 ((unmarshalD (⟨none, [], []⟩ : PVSSSend) m.data).BijList.getD j [])).1
  | none => 0

/-- The value in the ShareReduce message on the connection. -/
def tapReduce (rec : Bytes) : Fr :=
  match tapMessage "ShareReduce" rec with
  | some m => (frFrom32 0 (unmarshalD (⟨[], [], []⟩ : PShareReduce) m.data).v).1
  | none => 0

/-- The value in the ShareDist message on the connection. -/
def tapDist (rec : Bytes) : Fr :=
  match tapMessage "ShareDist" rec with
  | some m => (frFrom32 0 (unmarshalD (⟨[], []⟩ : PShareDist) m.data).B).1
  | none => 0

/-- The value at zero of the polynomial through the points `(x, y)`, with the interpolation of the code. -/
def atZero (x y : List Fr) : Go Fr := do
  let p ← lagrangeInterpolate (x.length - 1) x y
  pure (evalPolyAt p 0)

/-- From values `v i j` at the points `(i + 1, j + 1)` the value at `(0, 0)`. -/
def gridAtZero (is js : List ℕ) (v : ℕ → ℕ → Fr) : Go Fr := do
  let rows ← is.mapM fun i => atZero (js.map fun j => ((j + 1 : ℕ) : Fr)) (js.map (v i))
  atZero (is.map fun i => ((i + 1 : ℕ) : Fr)) rows

end DyCAPS
