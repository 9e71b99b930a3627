import Verif.Model.Engine
/-
Model of `to_json` (fcm.py:667-734) and `from_json` (loader.py:7-152).

A JSON document is a record with one (optional) field per key the code writes or reads; the text level
(`json.dumps` / `json.loads`) is in Model/JsonText.lean; here, `json.dumps` rejects numpy arrays and arrays come
back as Python lists.  Simplifications: a concept's `id` and the three keys of a relation are always present;
argument dictionaries whose keys clash with parameter names of the called Python functions are not modelled.
-/
namespace PyFCM
open Arith

variable {α : Type} [Arith α]

/-- A concept description: keys written by fcm.py:698-721 and read by loader.py:113-143. -/
structure ConceptDesc (α : Type) where
  id : String
  /-- `is_active`: written by to_json, never read. -/
  isActive : Option Bool := none
  type : Option String := none
  activation : Option α := none
  /-- `use_memory`: written by to_json, never read. -/
  useMemory : Option Bool := none
  customFunction : Option String := none
  customFunctionArgs : Option (Args α) := none
  activationDict : Option (Args α) := none
  /-- `active`: read by from_json, never written. -/
  active : Option Bool := none
  /-- `memory_influence`: read by from_json, never written for a concept. -/
  memoryInfluence : Option Bool := none
  /-- `exitation_function`: read by from_json, never written. -/
  exitationFunction : Option String := none
  deriving Repr, DecidableEq

/-- fcm.py:725-729, loader.py:147-149. -/
structure RelDesc (α : Type) where
  origin : String
  destiny : String
  weight : α
  deriving Repr, DecidableEq

/-- The document (fcm.py:674-687). -/
structure MapDesc (α : Type) where
  maxIter : Option Int := none
  decisionFunction : Option String := none
  activationFunction : Option String := none
  memoryInfluence : Option Bool := none
  stabilityDiff : Option α := none
  stopAtStabilize : Option Bool := none
  extraSteps : Option Int := none
  weight : Option α := none
  activationFunctionArgs : Option (Args α) := none
  concepts : Option (List (ConceptDesc α)) := none
  relations : Option (List (RelDesc α)) := none
  deriving Repr, DecidableEq

/-- `json.dumps` of an argument dictionary: numpy arrays are not serialisable (`TypeError`). -/
def jsonArgs (args : Args α) : Except Err (Args α) :=
  if args.any (fun p => match p.2 with | .arr _ => true | _ => false) then .error .typeError else .ok args

/-- fcm.py:691-697 -/
def typeName (t : String) : String :=
  if t = TYPE_REGRESOR then "REGRESSION"
  else if t = TYPE_FUZZY then "FUZZY"
  else if t = TYPE_DECISION then "DECISION"
  else "SIMPLE"

/-- fcm.py:689-722: the description of one concept. -/
def conceptToJson (m : FCM α) (name : String) (n : Node α) : Except Err (ConceptDesc α) := do
  let ty ← need "type of node" n.type
  let um ← need "use memory in current node execution" n.useMem
  let f ← need "custom activation function name" n.fn
  let base : ConceptDesc α :=
    { id := name, isActive := some n.active, type := some (typeName ty), activation := some n.value,
      useMemory := if um ≠ m.memInfluence then some um else none }
  if f.name ≠ m.mapFn.name then
    if f.name = "fuzzy" then
      let fa ← need "activation relation for continuous values" n.fuzzyAct
      return { base with customFunction := some f.name
                         activationDict := some [("membership", .list fa.membership),
                                                 ("val_list", .list fa.valList)] }
    else if f.args.length > 0 then
      let a ← jsonArgs f.args
      return { base with customFunction := some f.name, customFunctionArgs := some a }
    else return { base with customFunction := some f.name }
  else return base

/-- fcm.py:667-734 `to_json()` followed by parsing the text. -/
def FCM.toJson (m : FCM α) : Except Err (MapDesc α) := do
  let concepts ← m.topology.mapM fun p => conceptToJson m p.1 p.2
  let args ← if m.mapFn.args.length > 0 then (do let a ← jsonArgs m.mapFn.args; pure (some a)) else pure none
  return { maxIter := some m.maxIter, decisionFunction := some m.decisionName,
           activationFunction := some m.mapFn.name, memoryInfluence := some m.memInfluence,
           stabilityDiff := some m.stabilityDiff, stopAtStabilize := some m.stopAtStabilize,
           extraSteps := some (m.extraSteps : Int), weight := some m.weight,
           activationFunctionArgs := args, concepts := some concepts,
           relations := some (m.arcList.map fun a => ⟨a.origin, a.dest, a.weight⟩) }

/-- `str(err)`; only the message of `Exception(msg)` is modelled exactly. -/
def Err.str : Err → String
  | .exc s => s
  | .keyError k => "'" ++ k ++ "'"
  | .indexError => "list index out of range"
  | .zeroDivision => "division by zero"
  | .typeError => "type error"
  | .valueError => "value error"
  | .notImplemented => "not implemented"
  | .oob => "out of bounds"
  | .diverge => "diverge"

/-- Run a method and keep the object (`Except` drops it when the method raises). -/
def PyM.exec {σ β : Type} (x : PyM σ β) (s : σ) : Except Err σ :=
  match x s with
  | (.ok _, s') => .ok s'
  | (.error e, _) => .error e

/-- loader.py:113-141: the arguments `from_json` passes to `add_concept`. -/
def ConceptDesc.toArgs (c : ConceptDesc α) (ty : String) : ConceptArgs α :=
  { type := some (if ty = "DECISION" then TYPE_DECISION else TYPE_SIMPLE)
    isActive := some (c.active.getD true)
    useMemory := c.memoryInfluence
    excitation := some (c.exitationFunction.getD "KOSKO")
    activationDict := c.activationDict
    activation := c.customFunction
    kwargs := c.customFunctionArgs.getD [] }

/-- loader.py:112-143: one concept. -/
def loadConcept (c : ConceptDesc α) (m : FCM α) : Except Err (FCM α) := do
  let ty ← need "type" c.type
  let m ← (FCM.addConcept c.id (c.toArgs ty)).exec m
  match c.activation with
  | some v => (FCM.initConcept c.id v).exec m
  | none => return m

/-- loader.py:112-143 -/
def loadConcepts : List (ConceptDesc α) → FCM α → Except Err (FCM α)
  | [], m => .ok m
  | c :: cs, m => do
    let m ← loadConcept c m
    loadConcepts cs m

/-- loader.py:146-149 -/
def loadRelations : List (RelDesc α) → FCM α → Except Err (FCM α)
  | [], m => .ok m
  | r :: rs, m => do
    let m ← (FCM.addRelation r.origin r.destiny r.weight).exec m
    loadRelations rs m

/-- loader.py:81-150: the body of `from_json`. -/
def fromJsonBody (d : MapDesc α) : Except Err (FCM α) := do
  let mi ← need "max_iter" d.maxIter
  let df ← need "decision_function" d.decisionFunction
  let mem ← need "memory_influence" d.memoryInfluence
  let af ← need "activation_function" d.activationFunction
  let m ← FCM.new (maxIt := mi) (extraSteps := d.extraSteps.getD 5) (stabilize := d.stopAtStabilize.getD true)
    (stabilityDiff := d.stabilityDiff.getD (dec 1 1000)) (decision := df) (memInfluence := mem)
    (activation := af) (kwargs := d.activationFunctionArgs.getD [])
  let m := { m with weight := d.weight.getD (lit 1) }
  let cs ← need "concepts" d.concepts
  let m ← loadConcepts cs m
  let rs ← need "relations" d.relations
  loadRelations rs m

/-- loader.py:7-152 `from_json`: every exception is wrapped. -/
def fromJson (d : MapDesc α) : Except Err (FCM α) :=
  match fromJsonBody d with
  | .ok m => .ok m
  | .error e => .error (.exc ("Cannot load json data due: " ++ e.str))

end PyFCM
