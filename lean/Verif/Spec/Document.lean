import Verif.Model.Json
/-
What a JSON document says about the map (loader.py:30-58, the documentation of `from_json`).
-/
namespace PyFCM
open Arith

variable {α : Type} [Arith α]

namespace Spec

/-- The settings of `m` are the given or documented default ones.  `extra_steps` values below 1 count as 1. -/
structure Settings (d : MapDesc α) (m : FCM α) : Prop where
  maxIter : d.maxIter = some m.maxIter
  decision : d.decisionFunction = some m.decisionName
  activation : d.activationFunction = some m.mapFn.name
  args : m.mapFn.args = d.activationFunctionArgs.getD []
  memory : d.memoryInfluence = some m.memInfluence
  diff : m.stabilityDiff = d.stabilityDiff.getD (dec 1 1000)
  stop : m.stopAtStabilize = d.stopAtStabilize.getD true
  extra : (m.extraSteps : Int) = max (d.extraSteps.getD 5) 1
  weight : m.weight = d.weight.getD (lit 1)

/-- `n` is the concept described by `c` in a document with memory setting `mem` and map function `mapFn`. -/
structure Says (mem : Bool) (mapFn : FnInfo α) (c : ConceptDesc α) (n : Node α) : Prop where
  value : n.value = c.activation.getD (lit 0)
  active : n.active = c.active.getD true
  decision : n.type = some TYPE_DECISION ↔ c.type = some "DECISION"
  simple : n.type = some TYPE_SIMPLE ↔ c.type ≠ some "DECISION"
  memory : n.useMem = some (c.memoryInfluence.getD mem)
  exec : n.exec.map (·.2) = some (c.exitationFunction.getD "KOSKO")
  custom : ∀ g, c.activationDict = none → c.customFunction = some g →
    ∃ f, n.fn = some f ∧ f.name = g ∧ f.args = c.customFunctionArgs.getD []
  plain : c.activationDict = none → c.customFunction = none → n.fn = some mapFn
  dict : ∀ a, c.activationDict = some a → n.fn = some ⟨.fuzzy, "fuzzy", a⟩

end Spec

end PyFCM
