import Verif.Spec.Stop
/-
Specification: going on without a reset.
-/
namespace PyFCM.Spec
open PyFCM

variable {α : Type} [Arith α]

/-- How far a record moved with its last entry. -/
def lastMove (xs : List α) : α := Arith.abs (xs.getD (xs.length - 1) (lit 0) - xs.getD (xs.length - 2) (lit 0))

/-- When the records are `old` followed by the first `s - 1` entries of `new`, there is no reason to go on. -/
def Tired (old new : String → List α) (cs : List String) (maxIter : Int) (stop : Bool) (diff : α) (s : Nat) : Prop :=
  maxIter ≤ (s : Int) ∨
    (stop = true ∧ 1 < s ∧ ∀ c ∈ cs, Arith.lt diff (lastMove (old c ++ (new c).take (s - 1))) = false)

end PyFCM.Spec
