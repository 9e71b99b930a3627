import Verif.Spec.Recurrence
/-
The map as the vectorised engine sees it.
-/
namespace PyFCM.Spec
open Arith

variable {α : Type} [Arith α]

/-- Of several relations between the same concepts, in the same direction, only the last. -/
def latest : List (Rel α) → List (Rel α)
  | [] => []
  | r :: rs => if ∃ s ∈ rs, s.origin = r.origin ∧ s.dest = r.dest then latest rs else r :: latest rs

/-- A concept that influences its neighbours in any case and divides its input only by a positive number. -/
def Concept.vector (k : Concept α) : Concept α :=
  { k with active := true, divisor := k.divisor.filter fun d => lit 0 <? d }

/-- The map as the vectorised engine sees it: inactive concepts influence their neighbours too, inputs are divided only by
positive sums, and of several relations between the same concepts the last one counts. -/
def Net.vector (N : Net α) : Net α := ⟨fun c => (N.concept c).map Concept.vector, latest N.rels⟩

end PyFCM.Spec
