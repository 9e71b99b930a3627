import Verif.Model.Engine
import Verif.Spec.Recurrence
/-
How a map object is read as a network of the specification.
-/
namespace PyFCM
open Arith

variable {α : Type} [Arith α]

/-- A complete concept: none of the keys used by inference is missing. -/
def Node.toSpec (n : Node α) : Option (Spec.Concept α) :=
  match n.exec, n.useMem, n.fn with
  | some ex, some um, some f =>
    some { active := n.active, rescale := ex.2 == "PAPAGEORGIUS", memory := um,
           divisor := if f.name = "fuzzy" then some n.actvSum else none,
           act := fun x => callActv f.fn x f.args }
  | _, _, _ => none

def Arc.toSpec (a : Arc α) : Spec.Rel α := ⟨a.origin, a.dest, a.weight⟩

/-- The network described by a map. -/
def FCM.net (m : FCM α) : Spec.Net α :=
  { concept := fun c => (m.topology.get? c).bind Node.toSpec, rels := m.arcList.map Arc.toSpec }

/-- The recorded trajectory of a concept (empty for an unknown one). -/
def FCM.traj (m : FCM α) (c : String) : List α := (m.execution.get? c).getD []

end PyFCM
