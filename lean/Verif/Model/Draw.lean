import Verif.Model.Association
import Verif.Model.Plot
/-
`fit` and `predict` with plot=True: the pictures that are written on the way.  matplotlib is reduced to the curves of the
open figure (their y values; the x values are always 0, 1, …) and to the files written; axes are left out and every colour
name is taken to be known.
-/
namespace PyFCM
open Arith

variable {α : Type} [Arith α]

/-- The state of `matplotlib.pyplot`: the curves of the open figure and the files written, in order. -/
structure Pictures (α : Type) where
  canvas : List (List α)
  files : List (String × List (List α))
  deriving DecidableEq, Repr

/-- `plt.plot(range(n), ys, colour)`: a ValueError if the lengths differ. -/
def Pictures.plot (n : Nat) (ys : List α) : PyM (Pictures α) Unit := fun p =>
  if ys.length = n then (.ok (), { p with canvas := p.canvas ++ [ys] }) else (.error .valueError, p)

/-- `plt.savefig(name); plt.close()`. -/
def Pictures.save (name : String) : PyM (Pictures α) Unit := PyM.modify fun p => ⟨[], p.files ++ [(name, p.canvas)]⟩

/-- discretization/__init__.py:104 -/
def plotColors : List String := ["b", "orange", "g", "r", "c", "m", "y", "k", "Brown", "ForestGreen"]

/-- discretization/__init__.py:109: one cluster. -/
def plotCluster (valList : List α) (memb : List (List α)) (i : Nat) : PyM (Pictures α) Unit := do
  let row ← PyM.lift (pyIdx memb i)
  let _ ← PyM.lift (pyIdx plotColors i)
  Pictures.plot valList.length row

/-- discretization/__init__.py:102-115: the picture of a numeric column (the generator always gives the name of the column). -/
def plotClusters (dir att : String) (n : Nat) (valList : List α) (memb : List (List α)) : PyM (Pictures α) Unit := do
  PyM.forEach (List.range n) (plotCluster valList memb)
  Pictures.save (dir ++ "/" ++ att ++ ".png")

/-- association.py:205-229: is the column discretized? -/
def Column.clustered (cfg : GenConf α) : Column α → Bool
  | .strs _ => false
  | .bools _ => false
  | c => !(cfg.inferType && decide (c.uniqCells.length < 10))

/-- association.py:63-66 with plot=True: the picture is drawn at the end of the discretization, before the concepts of the
column are made.  If the discretization raises nothing is drawn (and `buildFeature` raises the same exception). -/
def drawColumn (cfg : GenConf α) (x : Ext α) (dir feat : String) (col : Column α) : PyM (Pictures α) Unit :=
  if col.clustered cfg then
    match x.disc feat col.asFloats with
    | .ok (n, valList, memb) => plotClusters dir feat n valList memb
    | .error _ => pure ()
  else pure ()

/-- Run a method of the generator, or of pyplot, on the pair of both. -/
def onFirst {σ τ β : Type} (p : PyM σ β) : PyM (σ × τ) β := fun s => ((p s.1).1, ((p s.1).2, s.2))
def onSecond {σ τ β : Type} (p : PyM τ β) : PyM (σ × τ) β := fun s => ((p s.2).1, (s.1, (p s.2).2))

/-- association.py:193-235 `build_fcm(plot=True)`.  (The discretization is a function here, so it does not matter that
`buildFeature` asks for it again.) -/
def buildFcmDrawn (cfg : GenConf α) (x : Ext α) (dir : String) (targets : List String) :
    List (String × Column α) → PyM (Gen α × Pictures α) Unit
  | [] => pure ()
  | (feat, col) :: rest => do
    onSecond (drawColumn cfg x dir feat col)
    onFirst (buildFeature cfg x targets feat col)
    buildFcmDrawn cfg x dir targets rest

/-- fcm_estimator.py:70-80 `fit(plot=True, plot_dir=dir)`. -/
def Estimator.fitDrawn (cfg : GenConf α) (ext : Ext α) (dir : String) (x y : List (String × Column α)) :
    PyM (Estimator α × Pictures α) Unit := fun s =>
  match Estimator.reset s.1 with
  | (.error err, e) => (.error err, (e, s.2))
  | (.ok (), e) =>
    match buildFcmDrawn cfg ext dir (y.map (·.1)) (joinColumns x y) (⟨e.features, e.processed, e.fcm⟩, s.2) with
    | (.error err, (g, p)) =>
      (.error err, ({ e with fcm := g.fcm, features := g.features, processed := g.processed, priv := none }, p))
    | (.ok (), (g, p)) =>
      (.ok (), ({ e with generated := true, fcm := g.fcm, features := g.features, processed := g.processed, priv := none }, p))

/-- fcm.py:633-652: one recorded concept of `plot_execution` with the default arguments. -/
def drawConcept (m : FCM α) (t : String × List α) : PyM (Pictures α) Unit := do
  let v ← PyM.lift (curve 0 t.2)
  let n ← PyM.lift (need t.1 (m.topology.get? t.1))
  let b ← PyM.lift (isDrawn "target" n)
  if b then Pictures.plot v.length v else pure ()

/-- fcm.py:630-655 `plot_execution(fig_name, plot_dir=dir)`. -/
def drawExecution (m : FCM α) (dir name : String) : PyM (Pictures α) Unit := do
  PyM.forEach m.execution (drawConcept m)
  Pictures.save (dir ++ "/" ++ name ++ ".png")

/-- association.py:271-285 `get_inference_result(plot=True, plot_dir=dir)`. -/
def inferenceResultDrawn (cfg : GenConf α) (features : Dict (Feature α)) (dir : String) :
    PyM (FCM α × Pictures α) (Dict Label) := do
  onFirst (FCM.runInference true)
  let s ← PyM.get
  let st ← PyM.lift s.1.getFinalState
  let grouped ← PyM.lift (groupResult cfg features st [])
  onSecond (drawExecution s.1 dir "fcm")
  PyM.lift (discreteResult grouped)

/-- fcm_estimator.py:90-96: one row of `predict(plot=True)`. -/
def predictRowDrawn (cfg : GenConf α) (x : Ext α) (features : Dict (Feature α)) (dir : String) (row : List (String × Cell α)) :
    PyM (FCM α × Pictures α) (Dict Label) := do
  onFirst FCM.clearExecution
  onFirst (initRow cfg x features row)
  inferenceResultDrawn cfg features dir

/-- fcm_estimator.py:89-96 -/
def predictRowsDrawn (cfg : GenConf α) (x : Ext α) (features : Dict (Feature α)) (dir : String) :
    List (List (String × Cell α)) → PyM (FCM α × Pictures α) (List (Dict Label))
  | [] => pure []
  | r :: rs => do
    let p ← predictRowDrawn cfg x features dir r
    let ps ← predictRowsDrawn cfg x features dir rs
    return p :: ps

/-- fcm_estimator.py:82-99 `predict(plot=True, plot_dir=dir)`. -/
def Estimator.predictDrawn (cfg : GenConf α) (x : Ext α) (dir : String) (rows : List (List (String × Cell α))) :
    PyM (Estimator α × Pictures α) (List (Dict Label)) := fun s =>
  if s.1.generated then
    match predictRowsDrawn cfg x s.1.features dir rows (s.1.fcm, s.2) with
    | (r, (m, p)) => (r, ({ s.1 with fcm := m }, p))
  else (.error notFitted, s)

end PyFCM
