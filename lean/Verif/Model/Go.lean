import Mathlib.Data.List.Basic

/-!
# Go failure values

`Go α` is the result of a Go function that may not return: `panic` stands for a run-time panic (index out of range,
nil dereference, negative `make`, explicit `panic(...)`), `fatal` for `log.Fatal*` (process exit).
-/

namespace DyCAPS

/-- How a Go function can fail: `panic` (also a failed index or nil check of the runtime) or `log.Fatal`, in all files. -/
inductive Fault where
  | panic
  | fatal
  deriving DecidableEq, Repr

/-- The outcome of a Go function, in all files. -/
abbrev Go (α : Type*) := Except Fault α

/-- Slice read `l[i]`: out of range is a panic. In all files. -/
def idx {α : Type*} (l : List α) (i : ℕ) : Go α :=
  match l[i]? with
  | some a => .ok a
  | none => .error .panic

@[simp] theorem idx_of_lt {α : Type*} {l : List α} {i : ℕ} (h : i < l.length) :
    idx l i = .ok l[i] := by simp [idx, h]

theorem idx_of_ge {α : Type*} {l : List α} {i : ℕ} (h : l.length ≤ i) :
    idx l i = .error .panic := by simp [idx, h]

@[simp] theorem Go.ok_bind {α β : Type} (a : α) (f : α → Go β) : ((Except.ok a : Go α) >>= f) = f a := rfl

@[simp] theorem Go.error_bind {α β : Type} (e : Fault) (f : α → Go β) :
    ((Except.error e : Go α) >>= f) = Except.error e := rfl

@[simp] theorem Go.pure_eq {α : Type} (a : α) : (pure a : Go α) = Except.ok a := rfl

end DyCAPS
