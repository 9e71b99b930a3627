import Verif.Model.QuickSort
/-
Model of the class `FuzzyCognitiveMap` (py_fcm/fcm.py): state, concept / relation management.
The inference engines are in Engine.lean, JSON export in Json.lean.  Plotting is not modelled.
-/
namespace PyFCM
open Arith

variable {α : Type} [Arith α]

/-- The processed activation dictionary stored under NODE_FUZZY_ACTIVATION (numpy arrays). -/
structure FuzzyDesc (α : Type) where
  valList : List α
  membership : List α
  deriving Repr, DecidableEq

/-- NODE_ACTV_FUNC, NODE_ACTV_FUNC_NAME, NODE_ACTV_FUNC_ARGS (always assigned together). -/
structure FnInfo (α : Type) where
  fn : ActFn
  name : String
  args : Args α
  deriving Repr, DecidableEq

/-- One entry of `__topology` (fcm.py:37-40, 185-255).  The keys assigned after a point at which
`add_concept` may raise are `Option`s: `none` = key absent. -/
structure Node (α : Type) where
  arcs : List (String × α)
  aux : List α
  value : α
  actvSum : α
  active : Bool
  exec : Option (ExcFn × String)
  type : Option String
  fuzzyAct : Option (FuzzyDesc α)
  fuzzyMin : Option α
  fuzzyMax : Option α
  useMem : Option Bool
  useMapFunc : Option Bool
  fn : Option (FnInfo α)
  argsVect : Option (List α)
  deriving Repr, DecidableEq

/-- `_default_concept` (fcm.py:80, 318-366).  All keys but the fuzzy ones are present after construction. -/
structure DefaultConcept (α : Type) where
  active : Bool
  exec : ExcFn × String
  type : String
  fuzzyAct : Option (FuzzyDesc α)
  fuzzyMin : Option α
  fuzzyMax : Option α
  useMem : Bool
  useMapFunc : Bool
  fn : FnInfo α
  deriving Repr, DecidableEq

/-- The data cached by `__vectorized_inference` (fcm.py:536-542). -/
structure Cache (α : Type) where
  relationMatrix : List (List α)
  functions : List Nat
  functionArgs : List (List α)
  normalize : List α
  memory : List Bool
  avoidSaturation : List Bool
  deriving Repr, DecidableEq

/-- An entry of `__arc_list`: (destiny, weight, origin) - see RELATION_* in __const.py:21-23. -/
structure Arc (α : Type) where
  dest : String
  weight : α
  origin : String
  deriving Repr, DecidableEq

/-- The object (fcm.py:40-94).  `iterations` starts at 1; `extraSteps` is stored normalised (≥ 1). -/
structure FCM (α : Type) where
  topology : Dict (Node α)
  arcList : List (Arc α)
  execution : Dict (List α)
  stopAtStabilize : Bool
  maxIter : Int
  extraSteps : Nat
  stabilityDiff : α
  decisionFn : DecFn
  decisionName : String
  memInfluence : Bool
  mapFn : FnInfo α
  iterations : Nat
  weight : α
  default : DefaultConcept α
  debug : Bool
  fitInclination : Option α
  prepared : Bool
  cache : Cache α
  stateVector : List α
  deriving Repr, DecidableEq

/-- `sorted(names)` -/
def insertName (x : String) : List String → List String
  | [] => [x]
  | y :: ys => if x ≤ y then x :: y :: ys else y :: insertName x ys
def sortNames : List String → List String
  | [] => []
  | x :: xs => insertName x (sortNames xs)

/-- fcm.py:126-135: the values contributed by one argument.  Simplification: a string argument makes
`np.array(values, dtype=np.float64)` raise `ValueError` (a numeric string would be converted). -/
def argValues : ArgVal α → Except Err (List α)
  | .num x => .ok [x]
  | .arr xs => .ok xs
  | .list xs => .ok xs
  | .str _ => .error .valueError

def concatArgs (args : Args α) : List String → Except Err (List α)
  | [] => .ok []
  | n :: ns => do
    let v ← need n (args.get? n)
    let xs ← argValues v
    let rest ← concatArgs args ns
    return xs ++ rest

/-- fcm.py:122-136 `__process_function_args`. -/
def processFunctionArgs (args : Args α) : Except Err (List α) :=
  concatArgs args (sortNames args.keys)

/-- `np.array(x, dtype=np.float64)` followed by `len`: a scalar has no `len`. -/
def asArray : ArgVal α → Except Err (List α)
  | .arr xs => .ok xs
  | .list xs => .ok xs
  | .num _ => .error .typeError
  | .str _ => .error .valueError

/-- fcm.py:139-151 `__process_activation_dict`: returns the sorted and the scaled description.
The division at line 148 is a numpy scalar division (no exception). -/
def processActivationDict (d : Args α) : Except Err (FuzzyDesc α × FuzzyDesc α) := do
  let vl ← need "val_list" (d.get? "val_list")
  let valList ← asArray vl
  let mb ← need "membership" (d.get? "membership")
  let membership ← asArray mb
  let (valList, membership) ← dualQuickSort valList membership
  match valList with
  | [] => .error .indexError
  | v0 :: _ =>
    let minVal := abs v0
    let maxVal := valList.getLastD v0
    let scaled := valList.map fun v => (v + minVal) / (minVal + maxVal)
    return (⟨valList, membership⟩, ⟨scaled, membership⟩)

/-- The scaled dictionary as keyword arguments (fcm.py:150, key order `val_list`, `membership`). -/
def FuzzyDesc.toArgs (d : FuzzyDesc α) : Args α :=
  [("val_list", .arr d.valList), ("membership", .arr d.membership)]

/-- `NODE_FUZZY_MIN` / `NODE_FUZZY_MAX` of a processed (non-empty) description, fcm.py:217-219. -/
def FuzzyDesc.fmin (d : FuzzyDesc α) : Option α := d.valList.head?.map abs
def FuzzyDesc.fmax (d : FuzzyDesc α) : Option α := d.valList.getLast?

/-- The arguments shared by add_concept / set_concept_properties / set_default_concept_properties.
`none` is Python's `None`; a non-bool `is_active` / `use_memory` behaves like `None` (fcm.py:188, 226). -/
structure ConceptArgs (α : Type) where
  type : Option String := none
  isActive : Option Bool := none
  useMemory : Option Bool := none
  excitation : Option String := none
  activationDict : Option (Args α) := none
  activation : Option String := none
  kwargs : Args α := []

def isFuzzyType (t : String) : Bool := t == TYPE_FUZZY || t == TYPE_REGRESOR

/-- fcm.py:185-191: the freshly created dictionary entry (with NODE_ACTIVE). -/
def freshNode (active : Bool) : Node α :=
  { arcs := [], aux := [], value := lit 0, actvSum := lit 0, active := active, exec := none, type := none,
    fuzzyAct := none, fuzzyMin := none, fuzzyMax := none, useMem := none, useMapFunc := none, fn := none,
    argsVect := none }

/-- fcm.py:193-202: the excitation function of the new node. -/
def buildExec (dflt : DefaultConcept α) (a : ConceptArgs α) : PyM (Node α) Unit :=
  match a.excitation with
  | some e =>
    match Excitation.getByName e with
    | some f => PyM.modify fun n => { n with exec := some (f, e) }
    | none => PyM.raise (.exc ("Unknown excitation function: " ++ e))
  | none => PyM.modify fun n => { n with exec := some dflt.exec }

/-- fcm.py:204-207: the type of the new node. -/
def buildType (dflt : DefaultConcept α) (a : ConceptArgs α) : String :=
  match a.type with
  | some t => if isValidType t then t else dflt.type
  | none => dflt.type

/-- fcm.py:214-219, 279-285, 336-342: process an activation dictionary and store it; the result is the scaled
dictionary. -/
def storeFuzzy (d : Args α) : PyM (Node α) (Option (Args α)) := do
  let p ← PyM.lift (processActivationDict d)
  PyM.modify fun n => { n with fuzzyAct := some p.1, fuzzyMin := p.1.fmin, fuzzyMax := p.1.fmax }
  pure (some p.2.toArgs)

/-- fcm.py:220-224: copy the fuzzy description of the default concept. -/
def copyFuzzy (dflt : DefaultConcept α) : PyM (Node α) (Option (Args α)) := do
  let fa ← PyM.lift (need "fuzzy activation" dflt.fuzzyAct)
  PyM.modify fun n => { n with fuzzyAct := some fa }
  let fmin ← PyM.lift (need "fuzzy min" dflt.fuzzyMin)
  let fmax ← PyM.lift (need "fuzzy max" dflt.fuzzyMax)
  PyM.modify fun n => { n with fuzzyMin := some fmin, fuzzyMax := some fmax }
  pure none

/-- fcm.py:211-224: the fuzzy description of the new node; the result is the value of `activation_dict` afterwards. -/
def buildFuzzy (dflt : DefaultConcept α) (a : ConceptArgs α) (ty : String) : PyM (Node α) (Option (Args α)) :=
  if isFuzzyType ty then
    match a.activationDict with
    | some d => storeFuzzy d
    | none => if dflt.type = ty then copyFuzzy dflt else pure none
  else pure a.activationDict

/-- fcm.py:232-253, 293-314: the activation function; `fallback` is the map's / default concept's function. -/
def buildFn (fallback : FnInfo α) (a : ConceptArgs α) (adict : Option (Args α)) : PyM (Node α) (List α) :=
  match adict with
  | some d => do
    PyM.modify fun n => { n with fn := some ⟨.fuzzy, "fuzzy", d⟩ }
    PyM.lift (processFunctionArgs d)
  | none =>
    match a.activation with
    | some f =>
      match Activation.getFunctionByName f with
      | some fn => do
        PyM.modify fun n => { n with fn := some ⟨fn, f, a.kwargs⟩ }
        PyM.lift (processFunctionArgs a.kwargs)
      | none => PyM.raise (.exc ("Unknown activation function: " ++ f))
    | none => do
      PyM.modify fun n => { n with fn := some fallback }
      let v ← PyM.lift (processFunctionArgs fallback.args)
      PyM.modify fun n => { n with useMapFunc := some true }
      pure v

/-- fcm.py:226-253, 287-314: memory flag, activation function and its argument vector. -/
def buildRest (useMem : Bool) (fallback : FnInfo α) (a : ConceptArgs α) (adict : Option (Args α)) :
    PyM (Node α) Unit := do
  PyM.modify fun n => { n with useMem := some useMem, useMapFunc := some false }
  let vect ← buildFn fallback a adict
  PyM.modify fun n => { n with argsVect := some vect }

/-- fcm.py:193-253: the rest of `add_concept`, as a program over the new node (the state is kept where it raises). -/
def buildNode (dflt : DefaultConcept α) (a : ConceptArgs α) : PyM (Node α) Unit := do
  buildExec dflt a
  PyM.modify fun n => { n with type := some (buildType dflt a) }
  let adict ← buildFuzzy dflt a (buildType dflt a)
  buildRest (a.useMemory.getD dflt.useMem) dflt.fn a adict

/-- fcm.py:153-255 `add_concept`. -/
def FCM.addConcept (name : String) (a : ConceptArgs α) : PyM (FCM α) Unit := fun m =>
  let active := a.isActive.getD m.default.active
  let (r, node) := buildNode m.default a (freshNode active)
  match r with
  | .error e => (.error e, { m with prepared := false, topology := m.topology.set name node })
  | .ok () =>
    (.ok (), { m with
      prepared := false
      topology := m.topology.set name { node with value := lit 0 }
      execution := m.execution.set name [lit 0] })

/-- fcm.py:261-276: the optional updates of `set_concept_properties` before the fuzzy part. -/
def updateActive (a : ConceptArgs α) : PyM (Node α) Unit :=
  match a.isActive with
  | some b => PyM.modify fun n => { n with active := b }
  | none => pure ()

def updateExec (a : ConceptArgs α) : PyM (Node α) Unit :=
  match a.excitation with
  | some e =>
    match Excitation.getByName e with
    | some f => PyM.modify fun n => { n with exec := some (f, e) }
    | none => PyM.raise (.exc ("Unknown excitation function: " ++ e))
  | none => pure ()

def updateType (a : ConceptArgs α) : PyM (Node α) Unit :=
  match a.type with
  | some t =>
    if isValidType t then PyM.modify fun n => { n with type := some t }
    else PyM.raise (.exc "Unknown node type")
  | none => pure ()

/-- fcm.py:278-285: only when the *argument* concept_type is fuzzy / regressor. -/
def updateFuzzy (a : ConceptArgs α) : PyM (Node α) (Option (Args α)) :=
  match a.activationDict with
  | some d => if (a.type.map isFuzzyType).getD false then storeFuzzy d else pure (some d)
  | none => pure none

/-- fcm.py:261-314: the body of `set_concept_properties` as a program over the node.
`memFlag` is `self.flag_mem_influence`, `mapFn` the map's current activation function. -/
def updateNode (memFlag : Bool) (mapFn : FnInfo α) (a : ConceptArgs α) : PyM (Node α) Unit := do
  updateActive a
  updateExec a
  updateType a
  let adict ← updateFuzzy a
  buildRest (a.useMemory.getD memFlag) mapFn a adict

/-- fcm.py:257-316 `set_concept_properties`. -/
def FCM.setConceptProperties (name : String) (a : ConceptArgs α) : PyM (FCM α) Unit := fun m =>
  match m.topology.get? name with
  | none => (.error (.exc ("Concept " ++ name ++ " not found")), m)
  | some node =>
    let (r, node') := updateNode m.memInfluence m.mapFn a node
    (r, { m with prepared := false, topology := m.topology.set name node' })

/-- fcm.py:321-329 -/
def defaultActive (a : ConceptArgs α) : PyM (DefaultConcept α) Unit :=
  match a.isActive with
  | some b => PyM.modify fun n => { n with active := b }
  | none => pure ()

/-- fcm.py:324-329: `Excitation.get_by_name(None)` is None, and the error message concatenation then raises
TypeError. -/
def defaultExec (a : ConceptArgs α) : PyM (DefaultConcept α) Unit :=
  match a.excitation with
  | some e =>
    match Excitation.getByName e with
    | some f => PyM.modify fun n => { n with exec := (f, e) }
    | none => PyM.raise (.exc ("Unknown excitation function: " ++ e))
  | none => PyM.raise .typeError

/-- fcm.py:330-333 -/
def defaultType (a : ConceptArgs α) : PyM (DefaultConcept α) Unit :=
  match a.type with
  | some t =>
    if isValidType t then PyM.modify fun n => { n with type := t }
    else PyM.raise (.exc "Unknown node type")
  | none => PyM.raise (.exc "Unknown node type")

/-- fcm.py:335-342: `concept_type == TYPE_FUZZY or concept_type == TYPE_REGRESOR and activation_dict is not None`. -/
def defaultFuzzy (a : ConceptArgs α) : PyM (DefaultConcept α) (Option (Args α)) :=
  if a.type = some TYPE_FUZZY ∨ (a.type = some TYPE_REGRESOR ∧ a.activationDict.isSome) then
    match a.activationDict with
    | some d => do
      let p ← PyM.lift (processActivationDict d)
      PyM.modify fun n => { n with fuzzyAct := some p.1, fuzzyMin := p.1.fmin, fuzzyMax := p.1.fmax }
      pure (some p.2.toArgs)
    | none => PyM.raise .typeError
  else pure a.activationDict

/-- fcm.py:350-366 -/
def defaultFn (mapFn : FnInfo α) (a : ConceptArgs α) (adict : Option (Args α)) : PyM (DefaultConcept α) Unit :=
  match adict with
  | some d => PyM.modify fun n => { n with fn := ⟨.fuzzy, "fuzzy", d⟩ }
  | none =>
    match a.activation with
    | some f =>
      match Activation.getFunctionByName f with
      | some fn => PyM.modify fun n => { n with fn := ⟨fn, f, a.kwargs⟩ }
      | none => PyM.raise (.exc ("Unknown ativation function: " ++ f))
    | none => PyM.modify fun n => { n with fn := mapFn, useMapFunc := true }

/-- fcm.py:318-366: the body of `set_default_concept_properties` as a program over `_default_concept`.
Here the Python defaults are `concept_type=TYPE_SIMPLE`, `is_active=True`, `excitation_function='KOSKO'`:
`defaultArgs` below. -/
def updateDefault (memFlag : Bool) (mapFn : FnInfo α) (a : ConceptArgs α) : PyM (DefaultConcept α) Unit := do
  defaultActive a
  defaultExec a
  defaultType a
  let adict ← defaultFuzzy a
  PyM.modify fun n => { n with useMem := a.useMemory.getD memFlag, useMapFunc := false }
  defaultFn mapFn a adict

/-- The Python default arguments of `set_default_concept_properties` (fcm.py:318-320). -/
def defaultArgs : ConceptArgs α :=
  { type := some TYPE_SIMPLE, isActive := some true, excitation := some "KOSKO" }

/-- fcm.py:318-366 `set_default_concept_properties`. -/
def FCM.setDefaultConceptProperties (a : ConceptArgs α) : PyM (FCM α) Unit := fun m =>
  let (r, d) := updateDefault m.memInfluence m.mapFn a m.default
  (r, { m with default := d })

/-- fcm.py:96-102 `set_map_decision_function`. -/
def FCM.setMapDecisionFunction (fname : String) : PyM (FCM α) Unit := fun m =>
  match Decision.getByName fname with
  | none => (.error (.exc ("Unknown decision function '" ++ fname ++ "'")), m)
  | some f => (.ok (), { m with decisionName := fname, decisionFn := f })

/-- fcm.py:113-119: one round of the concept loop of `set_map_activation_function`. -/
def applyMapFn (mapFn : FnInfo α) (c : String) : PyM (FCM α) Unit := fun m =>
  match m.topology.get? c with
  | none => (.error (.keyError c), m)
  | some n =>
    match n.useMapFunc with
    | none => (.error (.keyError "use map activation function"), m)
    | some false => (.ok (), m)
    | some true =>
      match processFunctionArgs mapFn.args with
      | .error e => (.error e, { m with topology := m.topology.set c { n with fn := some mapFn } })
      | .ok v => (.ok (), { m with topology := m.topology.set c { n with fn := some mapFn, argsVect := some v } })

/-- fcm.py:104-119 `set_map_activation_function`. -/
def FCM.setMapActivationFunction (fname : String) (kwargs : Args α) : PyM (FCM α) Unit := do
  PyM.modify fun m => { m with prepared := false }
  match Activation.getFunctionByName fname with
  | none => PyM.raise (.exc ("Unknown activation function '" ++ fname ++ "'"))
  | some f => do
    PyM.modify fun m => { m with mapFn := ⟨f, fname, kwargs⟩ }
    let m ← PyM.get
    PyM.forEach m.topology.keys (applyMapFn ⟨f, fname, kwargs⟩)

/-- fcm.py:368-370 `get_concept_value` (`None` for an unknown concept). -/
def FCM.getConceptValue (m : FCM α) (name : String) : Option α := (m.topology.get? name).map (·.value)

/-- fcm.py:391-403: the fitted slope for a function name (`none`: the function is not fitted). -/
def slopeFor (fname : String) (sum fit : α) : Except Err (Option α) :=
  if fname = "sigmoid" then (sigmoidLambda (abs sum) fit).map some
  else if fname = "sigmoid_hip" then (sigmoidHipLambda (abs sum) fit).map some
  else if fname = "relm" then .ok (some (lit 1))
  else .ok none

/-- fcm.py:390-407: slope fitting of the destiny concept. -/
def fitSlope (fit : α) (n : Node α) : Except Err (Node α) :=
  match n.fn with
  | none => .error (.keyError "custom activation function name")
  | some f =>
    match slopeFor f.name n.actvSum fit with
    | .error e => .error e
    | .ok (some l) => .ok { n with fn := some { f with args := [("lambda_val", .num l)] }, argsVect := some [l] }
    | .ok none => .ok n

/-- fcm.py:372-409 `add_relation`. -/
def FCM.addRelation (origin dest : String) (w : α) : PyM (FCM α) Unit := fun m =>
  let m := { m with prepared := false }
  if m.topology.has dest && m.topology.has origin then
    let t := m.topology.modify origin fun n => { n with arcs := n.arcs ++ [(dest, w)] }
    let t := t.modify dest fun n => { n with actvSum := n.actvSum + w }
    let m := { m with topology := t }
    match m.fitInclination with
    | none => (.ok (), { m with arcList := m.arcList ++ [⟨dest, w, origin⟩] })
    | some fit =>
      match t.get? dest with
      | none => (.error (.keyError dest), m)
      | some n =>
        match fitSlope fit n with
        | .error e => (.error e, m)
        | .ok n' =>
          (.ok (), { m with topology := t.set dest n', arcList := m.arcList ++ [⟨dest, w, origin⟩] })
  else (.ok (), m)

/-- fcm.py:411-414 `get_concept_outgoing_relations`. -/
def FCM.outgoingRelations (m : FCM α) (name : String) : List (String × α) :=
  match m.topology.get? name with
  | some n => n.arcs
  | none => []

/-- fcm.py:427-456 `init_concept`. -/
def FCM.initConcept (name : String) (value : α) (requiredPresence : Bool := true) : PyM (FCM α) Unit := fun m =>
  match m.topology.get? name with
  | none => if requiredPresence then (.error (.exc ("Missing concept " ++ name)), m) else (.ok (), m)
  | some n =>
    match n.fn with
    | none => (.error (.keyError "custom activation function name"), m)
    | some f =>
      if f.name = "fuzzy" then
        match n.fuzzyAct with
        | none => (.error (.keyError "activation relation for continuous values"), m)
        | some fa =>
          match fuzzySet value fa.membership fa.valList with
          | .error e => (.error e, m)
          | .ok v => (.ok (), { m with
              topology := m.topology.set name { n with value := v, aux := [] }
              execution := m.execution.set name [v] })
      else (.ok (), { m with
        topology := m.topology.set name { n with value := value, aux := [] }
        execution := m.execution.set name [value] })

/-- fcm.py:481-484: one round of `reset_execution`. -/
def resetOne (c : String) : PyM (FCM α) Unit := fun m =>
  match m.topology.get? c with
  | none => (.ok (), m)
  | some n =>
    let m := { m with topology := m.topology.set c { n with aux := [] } }
    match m.execution.get? c with
    | none => (.error (.keyError c), m)
    | some [] => (.error .indexError, m)
    | some (v :: _) => (.ok (), { m with
        topology := m.topology.set c { n with aux := [], value := v }
        execution := m.execution.set c [v] })

/-- fcm.py:475-484 `reset_execution`. -/
def FCM.resetExecution : PyM (FCM α) Unit := fun m =>
  PyM.forEach m.topology.keys resetOne m

/-- fcm.py:493-495 -/
def clearOne (c : String) : PyM (FCM α) Unit := fun m =>
  match m.topology.get? c with
  | none => (.ok (), m)
  | some n => (.ok (), { m with
      topology := m.topology.set c { n with aux := [], value := lit 0 }
      execution := m.execution.set c [lit 0] })

/-- fcm.py:486-495 `clear_execution`. -/
def FCM.clearExecution : PyM (FCM α) Unit := fun m =>
  PyM.forEach m.topology.keys clearOne m

/-- fcm.py:416-425 `clear_all`. -/
def FCM.clearAll : PyM (FCM α) Unit := do
  FCM.resetExecution
  PyM.modify fun m => { m with topology := [], arcList := [], execution := [] }

/-- fcm.py:467-470: has every concept moved by at most the threshold in the last step? (no short-circuit) -/
def stableLoop (diff : α) : Dict (List α) → Except Err Bool
  | [] => .ok true
  | (_, xs) :: rest => do
    let a ← pyIdxBack xs 1
    let b ← pyIdxBack xs 2
    let r ← stableLoop diff rest
    return (if diff <? abs (a - b) then false else r)

/-- fcm.py:458-473 `is_stable`. -/
def FCM.isStable (m : FCM α) : Except Err Bool :=
  if m.iterations > 1 then stableLoop m.stabilityDiff m.execution else .ok false

/-- fcm.py:601-628 `get_final_state`; iterates over `__execution`, a key without topology entry is a KeyError. -/
def finalStateLoop (m : FCM α) (ctype : String) (names : List String) : List String → Except Err (Dict α)
  | [] => .ok []
  | c :: cs => do
    let pick ←
      if names.length > 0 then
        if names.contains c then do
          let n ← need c (m.topology.get? c)
          pure (some n.value)
        else pure none
      else do
        let n ← need c (m.topology.get? c)
        if ctype = "any" then do
          -- line 626: the `elif` reads NODE_TYPE as well
          let _ ← need "type of node" n.type
          pure (some n.value)
        else if ctype = "target" then do
          let t ← need "type of node" n.type
          pure (if t = TYPE_DECISION ∨ t = TYPE_REGRESOR then some n.value else none)
        else do
          let t ← need "type of node" n.type
          pure (if t = ctype then some n.value else none)
    let rest ← finalStateLoop m ctype names cs
    return (match pick with
      | some v => (c, v) :: rest
      | none => rest)

def FCM.getFinalState (m : FCM α) (ctype : String := "target") (names : List String := []) : Except Err (Dict α) :=
  finalStateLoop m ctype names m.execution.keys

/-- fcm.py:12-94 `__init__`: raises for an unknown decision or activation function. -/
def FCM.new (maxIt : Int := 200) (extraSteps : Int := 5) (stabilize : Bool := true)
    (stabilityDiff : α := dec 1 1000) (decision : String := "MEAN") (memInfluence : Bool := true)
    (activation : String := "sigmoid_hip") (kwargs : Args α := []) : Except Err (FCM α) :=
  match Decision.getByName decision with
  | none => .error (.exc ("Unknown decision function '" ++ decision ++ "'"))
  | some df =>
    match Activation.getFunctionByName activation with
    | none => .error (.exc ("Unknown activation function '" ++ activation ++ "'"))
    | some af =>
      .ok { topology := [], arcList := [], execution := [], stopAtStabilize := stabilize, maxIter := maxIt,
            extraSteps := if extraSteps > 0 then extraSteps.toNat else 1,
            stabilityDiff := stabilityDiff, decisionFn := df, decisionName := decision,
            memInfluence := memInfluence, mapFn := ⟨af, activation, kwargs⟩, iterations := 1, weight := lit 1,
            default := { active := true, exec := (.kosko, "KOSKO"), type := TYPE_SIMPLE, fuzzyAct := none,
                         fuzzyMin := none, fuzzyMax := none, useMem := memInfluence, useMapFunc := true,
                         fn := ⟨af, activation, kwargs⟩ },
            debug := true, fitInclination := none, prepared := false,
            cache := ⟨[], [], [], [], [], []⟩, stateVector := [] }

end PyFCM
