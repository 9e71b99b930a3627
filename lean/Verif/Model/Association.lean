import Verif.Model.Join
import Verif.Model.LearnUtils
/-
Model of py_fcm/learning/association.py (`AssociationBasedFCM`) and py_fcm/fcm_estimator.py (`FcmEstimator`).

pandas is reduced to named, homogeneous columns.  Parameters of the model: the discretiser, the text of a float
(`str(x)`), truncation of a float to an int, and the iteration order of the Python set `__processed_features`.
-/
namespace PyFCM
open Arith

variable {α : Type} [Arith α]

/-- A dataset column: object (strings), bool, int or float dtype. -/
inductive Column (α : Type) where
  | strs (xs : List String)
  | bools (xs : List Bool)
  | ints (xs : List Int)
  | floats (xs : List α)
  deriving Repr

/-- A single cell. -/
inductive Cell (α : Type) where
  | str (s : String)
  | bool (b : Bool)
  | int (i : Int)
  | float (x : α)
  deriving Repr, DecidableEq

/-- The external pieces the generator depends on. -/
structure Ext (α : Type) where
  /-- `fuzzy_feature_discretization` with the configured strategy: clusters, value list, memberships. -/
  disc : String → List α → Except Err (Nat × List α × List (List α))
  /-- `str(x)` of a float. -/
  fmt : α → String
  /-- `int(x)` of a float (raises on NaN / inf). -/
  trunc : α → Except Err Int
  /-- Iteration order of a Python set of strings. -/
  order : List String → List String

/-- association.py:30-52: the generator's configuration. -/
structure GenConf (α : Type) where
  separator : String := "___"
  exclusion : α
  causality : α → α → α → α → Except Err α
  evaluation : α → α → α → α → Except Err α
  threshold : α
  sign : Option (α → α → α → α → Except Err α) := none
  signCut : α
  double : Bool := true
  featuresRelation : Bool := true
  inferType : Bool := true

/-- One entry of `__features` (association.py:59-83, 87-102) once its concepts have been generated. -/
structure Feature (α : Type) where
  type : String
  names : List String
  /-- one membership row per concept -/
  desc : List (List α)
  deriving Repr, DecidableEq

/-- The generator's mutable state together with the map it writes to. -/
structure Gen (α : Type) where
  features : Dict (Feature α)
  processed : List String
  fcm : FCM α
  deriving DecidableEq

/-- `str(value)` of a cell. -/
def Cell.text (x : Ext α) : Cell α → String
  | .str s => s
  | .bool true => "True"
  | .bool false => "False"
  | .int i => toString i
  | .float v => x.fmt v

/-- association.py:54-55 `__name_concept`. -/
def nameConcept (cfg : GenConf α) (feat : String) (value : String) : String :=
  value ++ cfg.separator ++ feat

/-- Run a map method on the generator's map. -/
def Gen.onFcm (p : PyM (FCM α) Unit) : PyM (Gen α) Unit := fun g =>
  match p g.fcm with
  | (r, m) => (r, { g with fcm := m })

/-- The distinct values of a column as cells (`np.unique`), and the one-hot rows (learning/utils.py:6-14). -/
def Column.uniqCells : Column α → List (Cell α)
  | .strs xs => (uniq (fun a b => a < b) xs).map .str
  | .bools xs => (uniq (fun a b => !a && b) xs).map .bool
  | .ints xs => (uniq (fun a b => a < b) xs).map .int
  | .floats xs => (uniq Arith.lt xs).map .float
def Column.oneHot : Column α → List (List α)
  | .strs xs => genDiscreteMatrix (fun a b => a == b) xs (uniq (fun a b => a < b) xs)
  | .bools xs => genDiscreteMatrix (fun a b => a == b) xs (uniq (fun a b => !a && b) xs)
  | .ints xs => genDiscreteMatrix (fun a b => a == b) xs (uniq (fun a b => a < b) xs)
  | .floats xs => genDiscreteMatrix Arith.eq xs (uniq Arith.lt xs)

/-- The column as floats (`astype(np.float64)`); only numeric columns get here. -/
def Column.asFloats : Column α → List α
  | .strs _ => []
  | .bools _ => []
  | .ints xs => xs.map lit
  | .floats xs => xs

/-- association.py:69-80: one continuous concept; returns its name and membership row. -/
def genContinuousOne (cfg : GenConf α) (feat type : String) (data valList : List α) (k : Nat) (memb : List α) :
    PyM (Gen α) (String × List α) := do
  let name := nameConcept cfg feat (toString k)
  let dict : Args α := [("membership", .arr memb), ("val_list", .arr valList)]
  Gen.onFcm (FCM.addConcept name { type := some type, isActive := some true, activationDict := some dict })
  let row ← PyM.lift (data.mapM fun v => fuzzySet v memb valList)
  return (name, row)

/-- association.py:69-80: the cluster loop. -/
def genContinuousLoop (cfg : GenConf α) (feat type : String) (data valList : List α) :
    Nat → Nat → List (List α) → PyM (Gen α) (List (String × List α))
  | 0, _, _ => pure []
  | n + 1, k, ms => do
    match ms with
    | [] => PyM.raise .indexError
    | memb :: ms => do
      let r ← genContinuousOne cfg feat type data valList k memb
      let rs ← genContinuousLoop cfg feat type data valList n (k + 1) ms
      return r :: rs

/-- association.py:57-83 `__gen_continuous_concepts`. -/
def genContinuous (cfg : GenConf α) (x : Ext α) (targets : List String) (feat : String) (data : List α) :
    PyM (Gen α) Unit := do
  let type := if feat ∈ targets then TYPE_REGRESOR else TYPE_FUZZY
  let (n, valList, memb) ← PyM.lift (x.disc feat data)
  let rs ← genContinuousLoop cfg feat type data valList n 0 memb
  PyM.modify fun g => { g with features := g.features.set feat ⟨type, rs.map (·.1), rs.map (·.2)⟩ }

/-- association.py:97-100: the concept loop of `__gen_discrete_concepts`. -/
def genDiscreteLoop (type : String) : List String → PyM (Gen α) Unit
  | [] => pure ()
  | n :: ns => do
    Gen.onFcm (FCM.addConcept n { type := some type, isActive := some true })
    genDiscreteLoop type ns

/-- association.py:85-102 `__gen_discrete_concepts`. -/
def genDiscrete (cfg : GenConf α) (x : Ext α) (targets : List String) (feat : String) (col : Column α) :
    PyM (Gen α) Unit := do
  let type := if feat ∈ targets then TYPE_DECISION else TYPE_SIMPLE
  let names := col.uniqCells.map fun c => nameConcept cfg feat (c.text x)
  genDiscreteLoop type names
  PyM.modify fun g => { g with features := g.features.set feat ⟨type, names, col.oneHot⟩ }

/-- association.py:109-115: exclusion relations of one concept with the later ones. -/
def innerRow (e : α) (a : String) : List String → PyM (Gen α) Unit
  | [] => pure ()
  | b :: bs => do
    Gen.onFcm (FCM.addRelation a b e)
    Gen.onFcm (FCM.addRelation b a e)
    innerRow e a bs

/-- association.py:108-115 -/
def innerLoop (e : α) : List String → PyM (Gen α) Unit
  | [] => pure ()
  | a :: as => do
    innerRow e a as
    innerLoop e as

/-- association.py:104-115 `__def_inner_feat_relations`. -/
def innerRelations (cfg : GenConf α) (feat : String) : PyM (Gen α) Unit := do
  if cfg.exclusion =? lit 0 then pure ()
  else do
    let g ← PyM.get
    let f ← PyM.lift (need feat (g.features.get? feat))
    innerLoop cfg.exclusion f.names

/-- association.py:117-125 `__def_relation_weight`: relation `a → b` from the coefficients of `a → b`. -/
def defWeight (cfg : GenConf α) (a b : String) (sign : α) (c : Coef α) : PyM (Gen α) Unit := do
  let e ← PyM.lift (cfg.evaluation c.pq c.pnq c.npq c.npnq)
  if cfg.threshold <? abs e then do
    let v ← PyM.lift (cfg.causality c.pq c.pnq c.npq c.npnq)
    let w := sign * v
    if w =? lit 0 then pure () else Gen.onFcm (FCM.addRelation a b w)
  else pure ()

/-- association.py:137-143: the sign of a relation. -/
def relSign (cfg : GenConf α) (c : Coef α) : Except Err α :=
  match cfg.sign with
  | none => .ok (lit 1)
  | some f => do
    let s ← f c.pq c.pnq c.npq c.npnq
    return if s <? cfg.signCut then lit (-1) else lit 1

/-- association.py:178-181 -/
def isTarget (f : Feature α) : Bool := f.type == TYPE_REGRESOR || f.type == TYPE_DECISION

/-- association.py:183-185 -/
def sameGroup (f g : Feature α) : Bool := (isTarget f && isTarget g) || (!isTarget f && !isTarget g)

/-- `if b: x` -/
def runIf {σ : Type} (b : Bool) (x : PyM σ Unit) : PyM σ Unit := if b then x else pure ()

/-- association.py:128-169: the body for one pair of concepts. -/
def pairRelation (cfg : GenConf α) (fa fb : Feature α) (pa pb : String × List α) : PyM (Gen α) Unit := do
  match calcCoef pa.2 pb.2 with
  | none => PyM.raise (.exc "Invalid relation input data")
  | some (pq, qp) => do
    let spq ← PyM.lift (relSign cfg pq)
    let sqp ← PyM.lift (relSign cfg qp)
    if cfg.double then do
      defWeight cfg pa.1 pb.1 spq pq
      defWeight cfg pb.1 pa.1 sqp qp
    else if sameGroup fa fb then do
      let p ← PyM.lift (cfg.causality pq.pq pq.pnq pq.npq pq.npnq)
      let q ← PyM.lift (cfg.causality qp.pq qp.pnq qp.npq qp.npnq)
      runIf (abs q <? abs p) (defWeight cfg pa.1 pb.1 spq pq)
      runIf (abs p <? abs q) (defWeight cfg pb.1 pa.1 sqp qp)
    else if isTarget fa then defWeight cfg pb.1 pa.1 sqp qp
    else defWeight cfg pa.1 pb.1 spq pq

/-- association.py:127-169 `__def_two_feat_relation`. -/
def twoFeat (cfg : GenConf α) (fa fb : Feature α) : PyM (Gen α) Unit :=
  PyM.forEach (fa.names.zip fa.desc) fun pa =>
    PyM.forEach (fb.names.zip fb.desc) fun pb => pairRelation cfg fa fb pa pb

/-- association.py:172-174, 188-190: the body of both feature loops. -/
def relateWith (cfg : GenConf α) (feat other : String) : PyM (Gen α) Unit := do
  if other = feat then pure ()
  else do
    let g ← PyM.get
    let fa ← PyM.lift (need feat (g.features.get? feat))
    let fb ← PyM.lift (need other (g.features.get? other))
    if cfg.featuresRelation then twoFeat cfg fa fb
    else if sameGroup fa fb then pure ()
    else twoFeat cfg fa fb

/-- `set.add` -/
def setAdd (s : String) (xs : List String) : List String := if s ∈ xs then xs else xs ++ [s]

/-- association.py:203-233: one feature.  (The code stores the feature's data and type in `__features` before it makes the
concepts; here the entry is stored with its concepts.  The difference can be seen only by predicting after a build that raised
while making the concepts of a feature.) -/
def buildFeature (cfg : GenConf α) (x : Ext α) (targets : List String) (feat : String) (col : Column α) :
    PyM (Gen α) Unit := do
  match col with
  | .strs _ => genDiscrete cfg x targets feat col
  | .bools _ => genDiscrete cfg x targets feat col
  | _ =>
    if cfg.inferType = true ∧ col.uniqCells.length < 10 then genDiscrete cfg x targets feat col
    else genContinuous cfg x targets feat col.asFloats
  innerRelations cfg feat
  PyM.modify fun g => { g with processed := setAdd feat g.processed }
  let g ← PyM.get
  PyM.forEach (x.order g.processed) (relateWith cfg feat)

/-- association.py:193-235 `build_fcm` on the map already installed in the state (`self.__fcm = fcm`). -/
def buildFcm (cfg : GenConf α) (x : Ext α) (targets : List String) : List (String × Column α) → PyM (Gen α) Unit
  | [] => pure ()
  | (feat, col) :: rest => do
    buildFeature cfg x targets feat col
    buildFcm cfg x targets rest

/-- association.py:29-52 `__init__`: the generator's private map; `fit_inclination` is set on that map only. -/
def Gen.new (fit : Bool) : Except Err (Gen α) := do
  let p ← FCM.new
  return ⟨[], [], if fit then { p with fitInclination := some (dec 3 4) } else p⟩

/-- association.py:193-201, 235: `build_fcm` installs the given map, or a new default map, in place of the private one
and returns it. -/
def Gen.build (cfg : GenConf α) (x : Ext α) (targets : List String) (cols : List (String × Column α))
    (given : Option (FCM α)) : PyM (Gen α) Unit := fun g =>
  match given with
  | some m => buildFcm cfg x targets cols { g with fcm := m }
  | none => match (FCM.new : Except Err (FCM α)) with
    | .error e => (.error e, g)
    | .ok m => buildFcm cfg x targets cols { g with fcm := m }

/-- association.py:287-290 `reset`. -/
def Gen.reset : PyM (Gen α) Unit := do
  PyM.modify fun g => { g with features := [], processed := [] }
  Gen.onFcm FCM.clearAll

/-- association.py:240-241 -/
def initAll (value : α) : List String → PyM (FCM α) Unit
  | [] => pure ()
  | c :: cs => do
    FCM.initConcept c value false
    initAll value cs

/-- A cell as a number, for continuous features (a string cannot be used: numba `TypeError`). -/
def Cell.num : Cell α → Except Err α
  | .str _ => .error .typeError
  | .bool b => .ok (lit (if b then 1 else 0))
  | .int i => .ok (lit i)
  | .float v => .ok v

/-- association.py:243-244: the text used to look a discrete value up. -/
def Cell.key (x : Ext α) : Cell α → Except Err String
  | .str s => .ok s
  | .bool b => .ok (toString (if b then (1 : Int) else 0))
  | .int i => .ok (toString i)
  | .float v => do let i ← x.trunc v; return toString i

/-- association.py:238-245 -/
def initByFeatureBody (cfg : GenConf α) (x : Ext α) (features : Dict (Feature α)) (feat : String)
    (value : Cell α) : PyM (FCM α) Unit := do
  let f ← PyM.lift (need feat (features.get? feat))
  if isFuzzyType f.type then do
    let v ← PyM.lift value.num
    initAll v f.names
  else do
    let k ← PyM.lift (value.key x)
    FCM.initConcept (nameConcept cfg feat k) (lit 1) false

/-- association.py:237-247 `init_concept_by_feature_data`: every exception becomes "Cannot init concept". -/
def initByFeature (cfg : GenConf α) (x : Ext α) (features : Dict (Feature α)) (feat : String)
    (value : Cell α) : PyM (FCM α) Unit := fun m =>
  match initByFeatureBody cfg x features feat value m with
  | (.ok (), m') => (.ok (), m')
  | (.error _, m') => (.error (.exc "Cannot init concept"), m')

/-- association.py:249-251 `__get_feature_and_info`: (feature, info). -/
def featureAndInfo (cfg : GenConf α) (concept : String) : Except Err (String × String) := do
  if cfg.separator.toList = [] then .error .valueError
  else do
    let parts := pySplit cfg.separator concept
    let f ← pyIdx parts 1
    let i ← pyIdx parts 0
    return (f, i)

/-- A predicted label. -/
inductive Label where
  | str (s : String)
  | int (n : Nat)
  deriving DecidableEq, Repr, Inhabited

/-- `str.isnumeric` (ASCII digits only: other Unicode numerals are not modelled). -/
def isNumeric (s : String) : Bool := s.toList ≠ [] && s.toList.all Char.isDigit

/-- `int(s)` for a numeral. -/
def digitsToNat (s : List Char) : Nat := s.foldl (fun n c => n * 10 + (c.toNat - '0'.toNat)) 0

/-- association.py:266-267 -/
def toLabel (s : String) : Label := if isNumeric s then .int (digitsToNat s.toList) else .str s

/-- association.py:256-263: the search for the most activated concept. -/
def argmaxLoop : List (String × α) → Nat → α → Nat → Nat
  | [], _, _, res => res
  | (_, o) :: rest, pos, best, res =>
    if best <? o then argmaxLoop rest (pos + 1) o pos else argmaxLoop rest (pos + 1) best res

/-- association.py:255-268: the label of one feature. -/
def bestLabel (outs : List (String × α)) : Except Err Label := do
  let r ← pyIdx outs (argmaxLoop outs 0 (lit (-1)) 0)
  return toLabel r.1

/-- association.py:253-269 `__get_discrete_feature_result`. -/
def discreteResult : Dict (List (String × α)) → Except Err (Dict Label)
  | [] => .ok []
  | (f, outs) :: rest => do
    let l ← bestLabel outs
    let r ← discreteResult rest
    return (f, l) :: r

/-- association.py:276-281: grouping of the final state by feature (discrete features only; the continuous ones
are collected but not returned). -/
def groupResult (cfg : GenConf α) (features : Dict (Feature α)) :
    Dict α → Dict (List (String × α)) → Except Err (Dict (List (String × α)))
  | [], acc => .ok acc
  | (c, v) :: rest, acc => do
    let (feat, info) ← featureAndInfo cfg c
    let f ← need feat (features.get? feat)
    if isFuzzyType f.type then groupResult cfg features rest acc
    else groupResult cfg features rest (match acc.get? feat with
      | some l => acc.set feat (l ++ [(info, v)])
      | none => acc.set feat [(info, v)])

/-- association.py:271-285 `get_inference_result`. -/
def inferenceResult (cfg : GenConf α) (features : Dict (Feature α)) : PyM (FCM α) (Dict Label) := do
  FCM.runInference
  let m ← PyM.get
  let st ← PyM.lift m.getFinalState
  let grouped ← PyM.lift (groupResult cfg features st [])
  PyM.lift (discreteResult grouped)

/-! ### fcm_estimator.py -/

/-- The estimator: `__fcm` and the generator share the map after `fit`; before, the generator has a private one. -/
structure Estimator (α : Type) where
  generated : Bool
  fcm : FCM α
  /-- the generator's private map (`none` once it works on `fcm`) -/
  priv : Option (FCM α)
  features : Dict (Feature α)
  processed : List String

/-- fcm_estimator.py:11-40 `__init__`: builds the estimator's map (`debug = not vectorized_run`) and the generator with
its own default map.  The excitation default is applied to the estimator's map. -/
def Estimator.new (fcm0 : Except Err (FCM α)) (excitation : String) (vectorized : Bool) (fit : Bool) :
    Except Err (Estimator α) := do
  let m ← fcm0
  let m ← (FCM.setDefaultConceptProperties { (defaultArgs : ConceptArgs α) with excitation := some excitation }).exec m
  let p ← FCM.new
  return { generated := false, fcm := { m with debug := !vectorized }
           priv := some (if fit then { p with fitInclination := some (dec 3 4) } else p)
           features := [], processed := [] }

/-- fcm_estimator.py:77 `self.__generator.reset()`. -/
def Estimator.reset : PyM (Estimator α) Unit := fun e =>
  let e := { e with features := [], processed := [] }
  match e.priv with
  | some p => match FCM.clearAll p with
    | (r, p') => (r, { e with priv := some p' })
  | none => match FCM.clearAll e.fcm with
    | (r, m) => (r, { e with fcm := m })

/-- fcm_estimator.py:76 `x.join(y, rsuffix='_class')`: clashing columns of `y` are renamed.  (A clash of the renamed
column is not modelled; rows are aligned by position.) -/
def joinColumns (x y : List (String × Column α)) : List (String × Column α) :=
  x ++ y.map fun p => if p.1 ∈ x.map (·.1) then (p.1 ++ "_class", p.2) else p

/-- fcm_estimator.py:70-80 `fit` on named columns. -/
def Estimator.fit (cfg : GenConf α) (ext : Ext α) (x y : List (String × Column α)) : PyM (Estimator α) Unit := fun e =>
  match Estimator.reset e with
  | (.error err, e) => (.error err, e)
  | (.ok (), e) =>
    let (r, g) := buildFcm cfg ext (y.map (·.1)) (joinColumns x y) ⟨e.features, e.processed, e.fcm⟩
    let e := { e with fcm := g.fcm, features := g.features, processed := g.processed, priv := none }
    match r with
    | .error err => (.error err, e)
    | .ok () => (.ok (), { e with generated := true })

/-- fcm_estimator.py:91-92: initialise the map with one row. -/
def initRow (cfg : GenConf α) (x : Ext α) (features : Dict (Feature α)) (row : List (String × Cell α)) :
    PyM (FCM α) Unit :=
  PyM.forEach row fun p => initByFeature cfg x features p.1 p.2

/-- fcm_estimator.py:90-96: one row of `predict`. -/
def predictRow (cfg : GenConf α) (x : Ext α) (features : Dict (Feature α)) (row : List (String × Cell α)) :
    PyM (FCM α) (Dict Label) := do
  FCM.clearExecution
  initRow cfg x features row
  inferenceResult cfg features

/-- fcm_estimator.py:89-96 -/
def predictRows (cfg : GenConf α) (x : Ext α) (features : Dict (Feature α)) :
    List (List (String × Cell α)) → PyM (FCM α) (List (Dict Label))
  | [] => pure []
  | r :: rs => do
    let p ← predictRow cfg x features r
    let ps ← predictRows cfg x features rs
    return p :: ps

def notFitted : Err := .exc "There is no FCM generated, the fit method mus be called first"

/-- fcm_estimator.py:82-99 `predict`: per row the predicted labels (the final DataFrame collects them by feature). -/
def Estimator.predict (cfg : GenConf α) (x : Ext α) (rows : List (List (String × Cell α))) :
    PyM (Estimator α) (List (Dict Label)) := fun e =>
  if e.generated then
    let (r, m) := predictRows cfg x e.features rows e.fcm
    (r, { e with fcm := m })
  else (.error notFitted, e)

/-- Python `==` between a cell of `y` and a predicted label. -/
def cellEqLabel : Cell α → Label → Bool
  | .str s, .str t => s == t
  | .int i, .int n => i == (n : Int)
  | .bool b, .int n => (if b then 1 else 0) == n
  | .float v, .int n => v =? lit (n : Int)
  | _, _ => false

/-- fcm_estimator.py:109-114: the counting loop of one column; `preds` are the predictions of the rows.  A
feature that was not predicted raises `KeyError`. -/
def scoreColumn (feat : String) : List (Cell α) → List (Dict Label) → Nat × Nat → Except Err (Nat × Nat)
  | [], _, acc => .ok acc
  | _ :: _, [], _ => .error (.keyError feat)
  | v :: vs, p :: ps, (right, total) => do
    let l ← need feat (p.get? feat)
    scoreColumn feat vs ps (if cellEqLabel v l then right + 1 else right, total + 1)

/-- fcm_estimator.py:108-114 -/
def scoreColumns (preds : List (Dict Label)) : List (String × List (Cell α)) → Nat × Nat → Except Err (Nat × Nat)
  | [], acc => .ok acc
  | (f, vs) :: rest, acc => do
    let acc ← scoreColumn f vs preds acc
    scoreColumns preds rest acc

/-- fcm_estimator.py:101-117 `score`. -/
def Estimator.score (cfg : GenConf α) (x : Ext α) (rows : List (List (String × Cell α)))
    (y : List (String × List (Cell α))) : PyM (Estimator α) α := do
  let e ← PyM.get
  if e.generated then do
    let preds ← Estimator.predict cfg x rows
    let (right, total) ← PyM.lift (scoreColumns preds y (0, 0))
    PyM.lift (if total = 0 then .error .zeroDivision else .ok (lit (right : Int) / lit (total : Int)))
  else PyM.raise notFitted

end PyFCM
