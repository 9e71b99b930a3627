import Verif.Model.Fcm
import Mathlib.Data.Real.Basic
import Mathlib.Algebra.BigOperators.Group.List.Basic
/-
What joining maps means (the documentation of `join_maps`, loader.py:157-176).
-/
namespace PyFCM
namespace Spec

/-- `v` summarises the non-empty list `xs` as the strategy says. -/
structure Aggregated (strategy : String) (xs : List ℝ) (v : ℝ) : Prop where
  nonempty : xs ≠ []
  highest : strategy = "highest" → v ∈ xs ∧ ∀ x ∈ xs, x ≤ v
  lowest : strategy = "lowest" → v ∈ xs ∧ ∀ x ∈ xs, v ≤ x
  average : strategy = "average" → v * xs.length = xs.sum

variable {α : Type}

/-- Concept `c` is to be part of the joined map. -/
def Joins (strategy : String) (maps : List (FCM α)) (c : String) : Prop :=
  (strategy = "union" → ∃ m ∈ maps, c ∈ m.topology.keys) ∧
  (strategy = "intersection" → ∀ m ∈ maps, c ∈ m.topology.keys)

/-- The activations of `c` in the maps containing it. -/
def valuesOf (maps : List (FCM α)) (c : String) : List α :=
  maps.filterMap fun m => (m.topology.get? c).map (·.value)

/-- The weights given to `o -> d`. -/
def weightsOf (maps : List (FCM α)) (o d : String) : List α :=
  maps.flatMap fun m => (m.arcList.filter fun a => a.origin = o ∧ a.dest = d).map (·.weight)

end Spec
end PyFCM
