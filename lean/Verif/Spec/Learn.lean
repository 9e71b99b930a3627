import Verif.Model.Association
/-
Small vocabulary for the learning properties, independent of the model's helpers.
-/
namespace PyFCM.Spec

variable {α : Type}

/-- The cells of a column from top to bottom. -/
def cells : Column α → List (Cell α)
  | .strs xs => xs.map .str
  | .bools xs => xs.map .bool
  | .ints xs => xs.map .int
  | .floats xs => xs.map .float

/-- Entry `(k, i)` of a matrix given as a list of rows. -/
def entry (u : List (List α)) (k i : Nat) : Option α := (u[k]?).bind (·[i]?)

end PyFCM.Spec
