import Verif.Model.Engine
/-
The public operations of `FuzzyCognitiveMap` as one inductive type, so that "every state a client can reach"
(including states left behind by calls that raised) can be quantified over.
-/
namespace PyFCM
open Arith

variable {α : Type} [Arith α]

/-- The calls and attribute assignments that change a `FuzzyCognitiveMap` (fcm.py: add_concept 153,
set_concept_properties 257, set_default_concept_properties 318, set_map_decision_function 96,
set_map_activation_function 104, add_relation 372, init_concept 427, reset_execution 475, clear_execution 486,
clear_all 416, run_inference 583; public attributes fcm.py:46-94: max_iter, flag_stop_at_stabilize,
stability_diff, flag_mem_influence, weight, debug, fit_inclination). -/
inductive Op (α : Type) where
  | addConcept (name : String) (a : ConceptArgs α)
  | setConceptProperties (name : String) (a : ConceptArgs α)
  | setDefaultConceptProperties (a : ConceptArgs α)
  | setMapDecisionFunction (f : String)
  | setMapActivationFunction (f : String) (kwargs : Args α)
  | addRelation (origin dest : String) (w : α)
  | initConcept (name : String) (v : α) (required : Bool)
  | resetExecution
  | clearExecution
  | clearAll
  | runInference (reset : Bool)
  | assignMaxIter (n : Int)
  | assignStop (b : Bool)
  | assignStabilityDiff (d : α)
  | assignMemInfluence (b : Bool)
  | assignWeight (w : α)
  | assignDebug (b : Bool)
  | assignFitInclination (x : Option α)

/-- Effect of an operation: result (a Python exception is an `error`) and the object afterwards. -/
def Op.run : Op α → PyM (FCM α) Unit
  | .addConcept n a => FCM.addConcept n a
  | .setConceptProperties n a => FCM.setConceptProperties n a
  | .setDefaultConceptProperties a => FCM.setDefaultConceptProperties a
  | .setMapDecisionFunction f => FCM.setMapDecisionFunction f
  | .setMapActivationFunction f k => FCM.setMapActivationFunction f k
  | .addRelation o d w => FCM.addRelation o d w
  | .initConcept n v r => FCM.initConcept n v r
  | .resetExecution => FCM.resetExecution
  | .clearExecution => FCM.clearExecution
  | .clearAll => FCM.clearAll
  | .runInference r => FCM.runInference r
  | .assignMaxIter n => PyM.modify fun m => { m with maxIter := n }
  | .assignStop b => PyM.modify fun m => { m with stopAtStabilize := b }
  | .assignStabilityDiff d => PyM.modify fun m => { m with stabilityDiff := d }
  | .assignMemInfluence b => PyM.modify fun m => { m with memInfluence := b }
  | .assignWeight w => PyM.modify fun m => { m with weight := w }
  | .assignDebug b => PyM.modify fun m => { m with debug := b }
  | .assignFitInclination x => PyM.modify fun m => { m with fitInclination := x }

/-- The object after a sequence of operations, exceptions being caught by the caller. -/
def runOps (ops : List (Op α)) (m : FCM α) : FCM α := ops.foldl (fun m op => (op.run m).2) m

/-- The states reachable from a constructor call by any sequence of operations, some of which may raise. -/
def Reachable (m : FCM α) : Prop :=
  ∃ maxIt extra stab diff dec mem act kwargs m0 ops,
    FCM.new maxIt extra stab diff dec mem act kwargs = .ok m0 ∧ m = runOps ops m0

/-- The states reachable when no call raises. -/
inductive CleanReachable : FCM α → Prop
  | new {maxIt extra stab diff dec mem act kwargs m}
      (h : FCM.new maxIt extra stab diff dec mem act kwargs = .ok m) : CleanReachable m
  | step {m m' : FCM α} (op : Op α) (h : CleanReachable m) (hop : op.run m = (.ok (), m')) : CleanReachable m'

end PyFCM
