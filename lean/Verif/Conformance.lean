import Verif.Model.Join
import Verif.Model.Api
/-
Tests, not proofs: the model, run on IEEE doubles, against the values that the repository's own unit tests expect
(/repo/tests).  They check the reading of the Python code, which the theorems take for granted.

Not reproduced: tests/test_generator.py and tests/test_estimator.py expect a one-cluster description (value / maximum) of
a numeric column with four values, which the present code (association.py:208-214, discretization/__init__.py:74-76)
cannot produce: fewer than ten distinct values make a column categorical.
-/
namespace PyFCM.Conformance
open PyFCM

deriving instance BEq for ArgVal
deriving instance BEq for ConceptDesc
deriving instance BEq for RelDesc
deriving instance BEq for MapDesc

/-- The result, if there is one. -/
def val {β : Type} (x : Except Err β) : Option β := x.toOption

/-! ### tests/test_functions.py -/

-- 8-24: excitation
#guard Excitation.kosko [1, 1, 1] (1.0 : Float) true == 4
#guard Excitation.kosko [1, 1, 1] (1.0 : Float) false == 3
#guard Excitation.papageorgius [1, 1, 1] (1.0 : Float) true == 4
#guard Excitation.papageorgius [1, 1, 1] (1.0 : Float) false == 3
-- 28-50: step functions
#guard bistate (0.5 : Float) == 1 && bistate (-0.5 : Float) == 0
#guard threestate (0.30 : Float) == 0 && threestate (0.60 : Float) == 0.5 && threestate (0.75 : Float) == 1
#guard saturation (-60 : Float) == 0 && saturation (75 : Float) == 1
-- 52-71: sigmoids
#guard val (sigmoid (1 : Float) 1) == some 0.7310585786300049
#guard val (sigmoid (-1 : Float) 1) == some 0.2689414213699951
#guard val (sigmoid (-1 : Float) 50) == some 1.928749847963918e-22
#guard val (sigmoidHip (1 : Float) 2) == some 0.7615941559557649
#guard val (sigmoidHip (-1 : Float) 2) == some (-0.7615941559557649)
-- 73-99: conditional equalities
#guard gceq (0.7 : Float) 0.5 == 0.7 && gceq (7 : Float) 0.5 == 1 && gceq (0.3 : Float) 0.5 == 0
#guard gceq (-7 : Float) (-3.5) == 0 && gceq (-2 : Float) (-3.5) == -1
#guard lceq (0.7 : Float) 0.5 == 0 && lceq (7 : Float) 0.5 == 0 && lceq (0.3 : Float) 0.5 == 0.3
#guard lceq (-7 : Float) (-3.5) == -1 && lceq (-2 : Float) (-3.5) == 0
-- 101-118: fuzzy sets
#guard val (fuzzySet (10 : Float) [0, 1] [5, 15]) == some 0.5
#guard val (fuzzySet (4 : Float) [0, 1] [5, 15]) == some 0
#guard val (fuzzySet (16 : Float) [0, 1] [5, 15]) == some 1
#guard val (fuzzySet (7 : Float) [0, 0.5, 1] [5, 15, 20]) == some 0.09999999999999998
#guard val (fuzzySet (16 : Float) [0, 0.5, 1] [5, 15, 20]) == some 0.6
-- 115-120 expect -0.75 and -0.25 for -1.0 and -0.5 on the mirrored description:
#guard val (fuzzySet (-1 : Float) [0.25, 0.5, 1, 0.5, 0.25] [0.2, 0.4, 0.6, 0.8, 1]) == some (-0.75)
#guard val (fuzzySet (-0.5 : Float) [0.25, 0.5, 1, 0.5, 0.25] [0.2, 0.4, 0.6, 0.8, 1]) == some (-0.25)
-- 121-148: relation measures
#guard val (Relation.supp (1 : Float) 2 2 1) == some 0.16666666666666666
#guard val (Relation.conf (1 : Float) 1 1 1) == some 0.5
#guard val (Relation.lift (1 : Float) 2 2 1) == some 0.6666666666666666
#guard val (Relation.odr (1 : Float) 2 2 1) == some 0.25
#guard val (Relation.rodr (1 : Float) 2 2 1) == some 0.5
#guard val (Relation.posInf (1 : Float) 2 2 1) == some (-0.3333333333333333)
#guard val (Relation.simple (1 : Float) 2 2 1) == some 0.3333333333333333
-- 150-156: sorting (and the sorted array itself)
#guard val (dualQuickSort [2, 6, 1, (5 : Float)] [2, 6, 1, (5 : Float)]) == some ([1, 2, 5, 6], [1, 2, 5, 6])

/-! ### tests/test_fcm.py -/

/-- A map built by calls none of which may raise. -/
def build (m : Except Err (FCM Float)) (ops : List (Op Float)) : Except Err (FCM Float) :=
  ops.foldl (fun m op => m.bind fun m => op.run.exec m) m

/-- The tests were written when `mem_influence` was `False` by default (now `True`, fcm.py:13). -/
def old : Except Err (FCM Float) := FCM.new (memInfluence := false)

def doc (m : Except Err (FCM Float)) : Option (MapDesc Float) := val (m.bind FCM.toJson)
def concepts (m : Except Err (FCM Float)) : Option (List (ConceptDesc Float)) := (doc m).bind (·.concepts)
def relations (m : Except Err (FCM Float)) : Option (List (RelDesc Float)) := (doc m).bind (·.relations)

/-- 10-39: `__init_complex_fcm` -/
def complex : List (Op Float) :=
  [.addConcept "result_1" { type := some TYPE_DECISION }, .addConcept "result_2" { type := some TYPE_DECISION },
   .addConcept "input_1" {}, .initConcept "input_1" 0.5 true, .addConcept "input_2" {}, .initConcept "input_2" 0.2 true,
   .addConcept "input_3" {}, .initConcept "input_3" 1 true, .addConcept "input_4" {}, .initConcept "input_4" (-0.2) true,
   .addConcept "input_5" {}, .initConcept "input_5" (-0.5) true,
   .addRelation "input_1" "result_1" 0.5, .addRelation "input_2" "result_1" 1,
   .addRelation "input_4" "result_2" 0.5, .addRelation "input_5" "result_2" 1,
   .addRelation "input_1" "input_4" (-0.3), .addRelation "input_1" "input_3" 0.7,
   .addRelation "input_5" "input_2" (-0.3), .addRelation "input_5" "input_3" 0.7,
   .addRelation "result_2" "input_3" 0.5, .addRelation "result_1" "input_3" 0.5]

/-- An exported concept of the default kind. -/
def cd (id ty : String) (v : Float) : ConceptDesc Float := { id := id, isActive := some true, type := some ty, activation := some v }

/-- 42-54, 159-169: the document of an empty default map. -/
def emptyDoc : MapDesc Float :=
  { maxIter := some 200, decisionFunction := some "MEAN", activationFunction := some "sigmoid_hip",
    memoryInfluence := some false, stabilityDiff := some 0.001, stopAtStabilize := some true, extraSteps := some 5,
    weight := some 1, concepts := some [], relations := some [] }

#guard doc old == some emptyDoc
-- 58-75
#guard doc (build old [.setMapDecisionFunction "LAST", .setMapActivationFunction "sigmoid" [("lambda_val", .num 10)]]) ==
  some { emptyDoc with decisionFunction := some "LAST", activationFunction := some "sigmoid",
                       activationFunctionArgs := some [("lambda_val", .num 10)] }
-- 77-88
#guard concepts (build old [.addConcept "test" {}]) == some [cd "test" "SIMPLE" 0]
#guard ((val (build old [.addConcept "test" {}, .initConcept "test" 0.5 true])).bind (·.getConceptValue "test")) == some 0.5
-- 90-102
#guard concepts (build old [.addConcept "test" {}, .addConcept "test" { type := some TYPE_DECISION }]) ==
  some [cd "test" "DECISION" 0]

def custom : ConceptArgs Float :=
  { isActive := some false, type := some TYPE_DECISION, useMemory := some true, excitation := some "PAPAGEORGIUS",
    activation := some "gceq", kwargs := [("weight", .num 0.3)] }
def customDesc : ConceptDesc Float :=
  { cd "test" "DECISION" 0 with isActive := some false, useMemory := some true, customFunction := some "gceq",
                                customFunctionArgs := some [("weight", .num 0.3)] }

-- 104-112
#guard concepts (build old [.addConcept "test" custom]) == some [customDesc]
-- 114-124
#guard concepts (build old [.setDefaultConceptProperties { custom with isActive := some true }, .addConcept "test" {}]) ==
  some [{ customDesc with isActive := some true }]
-- 126-140
#guard concepts (build old [.addConcept "test" {}, .setConceptProperties "test" custom]) == some [customDesc]
-- 142-152
#guard relations (build old [.addConcept "test" {}, .addConcept "test_1" {}, .addRelation "test" "test_1" 0.5]) ==
  some [⟨"test", "test_1", 0.5⟩]
-- 154-172
#guard doc (build old [.addConcept "test" {}, .addConcept "test_1" {}, .addRelation "test" "test_1" 0.5, .clearAll]) ==
  some emptyDoc

/-- The recorded means: the average of each whole trajectory after a run, and after a further run of the vectorised
engine.  The tests were written when MEAN averaged the whole trajectory; run_inference (fcm.py:598-601) now leaves out the
extra steps, so the tests' expectations are compared with the trajectories rather than with the final values. -/
def means (m : Except Err (FCM Float)) : Option (List (String × Float)) :=
  (val m).bind fun m => m.execution.mapM fun p => (val (Decision.mean p.2 0)).map fun v => (p.1, v)
def both (m : Except Err (FCM Float)) : Option (List (String × Float)) × Option (List (String × Float)) :=
  (means (build m [.runInference true]), means (build m [.runInference true, .assignDebug false, .runInference true]))

def seven (a b c d e f g : Float) : Option (List (String × Float)) × Option (List (String × Float)) :=
  let r := some [("result_1", a), ("result_2", b), ("input_1", c), ("input_2", d), ("input_3", e), ("input_4", f), ("input_5", g)]
  (r, r)

-- 174-194
#guard both (build old complex) ==
  seven 0.056969360711939906 (-0.06113548755394814) 0.05 0.034888503362331805 0.09792163723261006
    (-0.034888503362331805) (-0.05)
-- 196-202
#guard (val (build old (complex ++ [.runInference true]))).map (fun m => val m.isStable) == some (some true)
#guard (val (build old (complex ++ [.runInference true, .assignDebug false, .runInference true]))).map
  (fun m => val m.isStable) == some (some true)

def final (ops : List (Op Float)) (ty : String := "target") (names : List String := []) : Option (Dict Float) :=
  (val (build old (complex ++ ops))).bind fun m => val (m.getFinalState ty names)

-- 204-242: which concepts are reported
#guard (final [.runInference true]).map (·.keys) == some ["result_1", "result_2"]
#guard (final [.runInference true] (names := ["result_1"])).map (·.keys) == some ["result_1"]
#guard (final [.runInference true] "any").map (·.keys) ==
  some ["result_1", "result_2", "input_1", "input_2", "input_3", "input_4", "input_5"]
#guard (final [.runInference true] TYPE_DECISION).map (·.keys) == some ["result_1", "result_2"]
-- 244-256
#guard final [.runInference true, .resetExecution] (names := ["input_1"]) == some [("input_1", 0.5)]
#guard final [.runInference true, .clearExecution] (names := ["input_1"]) == some [("input_1", 0)]
-- 258-274
#guard both (build old (complex ++ [.setMapActivationFunction "sigmoid" []])) ==
  seven 0.5994700184028905 0.5755041378442186 0.5 0.44379910825937535 0.7851790048472618 0.3963131391906254 0.4
-- 276-296
#guard both (build old (complex ++ [.setMapActivationFunction "biestate" []])) ==
  seven 0.2 0 0.05 0.12 0.3 (-0.02) (-0.05)
-- 298-317
#guard both (build old (complex ++ [.setMapActivationFunction "threestate" []])) ==
  seven 0.0625 0 0.0625 0.025 0.125 (-0.025) (-0.0625)
-- 319-338
#guard both (build old (complex ++ [.setMapActivationFunction "saturation" []])) ==
  seven 0.06 0 0.05 0.034999999999999996 0.13 (-0.02) (-0.05)
-- 340-359
#guard both (build old (complex ++ [.setMapActivationFunction "gceq" [("weight", .num 0.0001)]])) ==
  seven 0.06 0 0.05 0.034999999999999996 0.13 (-0.02) (-0.05)
-- 361-380
#guard both (build old (complex ++ [.setMapActivationFunction "lceq" [("weight", .num 0.0001)]])) ==
  seven 0 (-0.06749999999999999) 0.05 0.02 0.06625 (-0.034999999999999996) (-0.05)

/-- 382-427 -/
def fuzzyOps : List (Op Float) :=
  [.addConcept "r1" { type := some TYPE_DECISION }, .addConcept "r2" { type := some TYPE_DECISION },
   .addConcept "c1" { type := some TYPE_SIMPLE, activation := some "threestate" },
   .addConcept "c2" { type := some TYPE_SIMPLE, activation := some "threestate" },
   .addConcept "c3" { type := some TYPE_FUZZY, activationDict := some [
     ("membership", .list [0.25, 0.5, 1, 0.5, 0.25]), ("val_list", .list [1, 2, 3, 4, 5])] },
   .addRelation "c3" "r1" 0.5, .addRelation "c3" "r2" 0.5, .addRelation "r1" "c1" 1, .addRelation "r2" "c2" 1,
   .addRelation "c1" "c3" 0.7, .addRelation "c1" "r2" (-0.3), .addRelation "c2" "c3" 0.8, .addRelation "c2" "r1" (-0.2),
   .initConcept "c1" (-1) true, .initConcept "c2" (-1) true]

#guard both (build (FCM.new (memInfluence := false) (activation := "sigmoid")) fuzzyOps) ==
  let r := some [("r1", 0.4687996143920417), ("r2", 0.4625401367231719), ("c1", 0.3), ("c2", 0.3), ("c3", 0.3)]
  (r, r)

-- 429-461
#guard both (build old (complex ++
  [.addConcept "result_1" { type := some TYPE_DECISION, useMemory := some true, excitation := some "PAPAGEORGIUS",
                            activation := some "gceq", kwargs := [("weight", .num 0.003)] },
   .addConcept "result_2" { type := some TYPE_DECISION, useMemory := some true, excitation := some "PAPAGEORGIUS",
                            activation := some "sigmoid", kwargs := [("lambda_val", .num 10)] },
   .addConcept "input_1" { useMemory := some true, excitation := some "PAPAGEORGIUS", activation := some "threestate" },
   .initConcept "input_1" 0.59 true])) ==
  seven 0 0.00012648385157387873 0.07375 0.04361062920291475 (-0.6816478125020062) 0.18674101269496457 (-0.0625)

/-! ### tests/test_public_library_functions.py -/

/-- The settings shared by the documents of the tests. -/
def base : MapDesc Float :=
  { maxIter := some 500, activationFunction := some "sigmoid", memoryInfluence := some false,
    decisionFunction := some "LAST" }
def gceqConcept : ConceptDesc Float :=
  { id := "concept_2", type := some "DECISION", customFunction := some "gceq",
    customFunctionArgs := some [("weight", .num 0.3)] }

/-- What to_json writes for the tests' documents. -/
def shown : MapDesc Float :=
  { base with stabilityDiff := some 0.001, stopAtStabilize := some true, extraSteps := some 5, weight := some 1 }
def gceqShown : ConceptDesc Float := { gceqConcept with isActive := some true, activation := some 0 }

/-- 8-30 -/
def loaded : Except Err (FCM Float) := fromJson { base with
  activationFunctionArgs := some [("lambda_val", .num 1)]
  concepts := some [{ id := "concept_1", type := some "SIMPLE", activation := some 0.5 }, gceqConcept,
    { id := "concept_3", type := some "SIMPLE", memoryInfluence := some true },
    { id := "concept_4", type := some "SIMPLE", customFunction := some "saturation", activation := some 0.3 }]
  relations := some [⟨"concept_4", "concept_2", -0.1⟩, ⟨"concept_1", "concept_3", 0.59⟩,
    ⟨"concept_3", "concept_2", 0.8911⟩] }

-- 32-76
#guard (val loaded).bind (fun m => val m.toJson) == some { shown with
  activationFunctionArgs := some [("lambda_val", .num 1)]
  concepts := some [{ id := "concept_1", isActive := some true, type := some "SIMPLE", activation := some 0.5 },
    gceqShown,
    { id := "concept_3", isActive := some true, type := some "SIMPLE", activation := some 0, useMemory := some true },
    { id := "concept_4", isActive := some true, type := some "SIMPLE", activation := some 0.3,
      customFunction := some "saturation" }]
  relations := some [⟨"concept_4", "concept_2", -0.1⟩, ⟨"concept_1", "concept_3", 0.59⟩,
    ⟨"concept_3", "concept_2", 0.8911⟩] }

/-- 79-144: the three maps.  (The key `actv_func_args` of these documents is one that from_json does not read, and the
third has an arc to a concept it does not have, which add_relation ignores.) -/
def three : Option (List (FCM Float)) := val <| [
  { base with
    concepts := some [{ id := "concept_1", type := some "SIMPLE", activation := some 0.25 }, gceqConcept]
    relations := some [⟨"concept_1", "concept_2", 0.25⟩] },
  { base with
    concepts := some [{ id := "concept_1", type := some "SIMPLE", activation := some 0.5 }, gceqConcept,
      { id := "concept_4", type := some "SIMPLE", customFunction := some "saturation", activation := some 0.3 }]
    relations := some [⟨"concept_4", "concept_2", 0.2⟩, ⟨"concept_1", "concept_2", 0.75⟩] },
  { base with
    concepts := some [{ id := "concept_1", type := some "SIMPLE", activation := some 0.75 }, gceqConcept,
      { id := "concept_3", type := some "SIMPLE", memoryInfluence := some true }]
    relations := some [⟨"concept_1", "concept_4", -0.3911⟩, ⟨"concept_2", "concept_3", 0.8911⟩] }].mapM fromJson

def joined (cs vs rs : String) : Option (MapDesc Float) :=
  (three.bind fun ms => val (joinMaps ms cs vs rs)).bind fun m => val m.toJson

def simpleShown (id : String) (v : Float) : ConceptDesc Float :=
  { id := id, isActive := some true, type := some "SIMPLE", activation := some v }

-- 146-173 (concept_3 of the third map uses memory; the joined one does not: to_json and from_json use different keys)
#guard joined "union" "average" "average" == some { shown with
  concepts := some [simpleShown "concept_1" 0.5, gceqShown,
    { simpleShown "concept_4" 0.3 with customFunction := some "saturation" }, simpleShown "concept_3" 0]
  relations := some [⟨"concept_1", "concept_2", 0.5⟩, ⟨"concept_4", "concept_2", 0.2⟩,
    ⟨"concept_2", "concept_3", 0.8911⟩] }
-- 175-199
#guard (three.bind fun ms => val ((joinMaps ms).bind fun m => (build (.ok m) [.runInference true]))).bind
    (fun m => val m.toJson) == some { shown with
  concepts := some [simpleShown "concept_1" 0.5, gceqShown,
    { simpleShown "concept_4" 0 with customFunction := some "saturation" }, simpleShown "concept_3" 0.5]
  relations := some [⟨"concept_1", "concept_2", 0.5⟩, ⟨"concept_4", "concept_2", 0.2⟩,
    ⟨"concept_2", "concept_3", 0.8911⟩] }
-- 201-216
#guard joined "intersection" "average" "average" == some { shown with
  concepts := some [simpleShown "concept_1" 0.5, gceqShown], relations := some [⟨"concept_1", "concept_2", 0.5⟩] }
-- 218-236
#guard joined "intersection" "highest" "highest" == some { shown with
  concepts := some [simpleShown "concept_1" 0.75, gceqShown], relations := some [⟨"concept_1", "concept_2", 0.75⟩] }
-- 238-256
#guard joined "intersection" "lowest" "lowest" == some { shown with
  concepts := some [simpleShown "concept_1" 0.25, gceqShown], relations := some [⟨"concept_1", "concept_2", 0.25⟩] }

def message {β : Type} : Except Err β → String
  | .ok _ => ""
  | .error e => e.str

-- 258-279
#guard three.map (fun ms => message (joinMaps ms "aaaa")) == some "Unknown concept strategy: aaaa"
#guard three.map (fun ms => message (joinMaps ms (valueStrategy := "aaaa"))) == some "Unknown value strategy: aaaa"
#guard three.map (fun ms => message (joinMaps ms (relationStrategy := "aaaa"))) == some "Unknown relation strategy: aaaa"
-- 281-292 (the test expects memory_influence False, the default of an earlier constructor)
#guard val ((joinMaps ([] : List (FCM Float)) "intersection" "highest" "highest").bind FCM.toJson) == some {
  maxIter := some 200, decisionFunction := some "MEAN", activationFunction := some "sigmoid_hip",
  memoryInfluence := some true, stabilityDiff := some 0.001, stopAtStabilize := some true, extraSteps := some 5,
  weight := some 1, concepts := some [], relations := some [] }

end PyFCM.Conformance
