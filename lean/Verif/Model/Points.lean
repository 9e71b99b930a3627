import Verif.Model.Clustering
/-
Model of the clustering algorithms for data with several columns: py_fcm/learning/discretization/fuzzy_cmeans.py,
rl_fuzzy_cmeans.py and the distance of py_fcm/learning/utils.py.  A data matrix is a list of samples (rows) and `dim` is
its number of columns.  What does not depend on the coordinates (weights, memberships, proportions) is the code of
Model/Clustering.lean.  For one column this is the model of Model/Clustering.lean (C116_one_column).
Simplification: all samples and centres have `dim` coordinates, which numpy's rectangular arrays ensure.
-/
namespace PyFCM
open Arith

variable {α : Type} [Arith α]

/-- `np.linalg.norm` of a vector. -/
def vecNorm (p : List α) : α := sqrt (pysum (p.map fun x => x * x))

/-- `np.linalg.norm(a - b)` for two samples. -/
def pointDist (a b : List α) : α := vecNorm (List.zipWith (· - ·) a b)

/-! ### fuzzy_cmeans.py -/

/-- utils.py:34-39 `one_dimension_distance`: one row per centre, one column per sample. -/
def pointDists (data centers : List (List α)) : List (List α) :=
  centers.map fun c => data.map fun x => pointDist x c

/-- fuzzy_cmeans.py:23: the cluster centres, `um.dot(data)` divided by the sums of the weights. -/
def ptCenters (eps m : α) (dim : Nat) (data : List (List α)) (u : List (List α)) : List (List α) :=
  (cmWeights eps m u).map fun r =>
    (List.range dim).map fun j => pysum (List.zipWith (· * ·) r (column data j)) / pysum r

/-- fuzzy_cmeans.py:25-26 -/
def ptDist (eps : α) (data cntr : List (List α)) : List (List α) := mapEntries (fun x => fmax x eps) (pointDists data cntr)

/-- Result of one step: centres, memberships, objective, distances. -/
structure PtStep (α : Type) where
  cntr : List (List α)
  u : List (List α)
  jm : α
  d : List (List α)

/-- fuzzy_cmeans.py:8-32 `_cmeans0` -/
def ptCmeans0 (eps m : α) (dim : Nat) (data : List (List α)) (u : List (List α)) : Except Err (PtStep α) := do
  let cntr := ptCenters eps m dim data u
  let d := ptDist eps data cntr
  let e ← pdiv (-(lit 2)) (m - lit 1)
  let u' ← normalizePowerColumns eps d e
  return ⟨cntr, u', cmObjective (cmWeights eps m u) d, d⟩

/-- State of the loop of `cmeans`. -/
structure PtState (α : Type) where
  u : List (List α)
  last : Option (PtStep α) := none
  jm : List α := []
  p : Nat := 0

/-- fuzzy_cmeans.py:136-144: the loop; `fuel = maxiter - 1 - p`. -/
def ptLoop (eps m error : α) (dim : Nat) (data : List (List α)) : Nat → PtState α → Except Err (PtState α)
  | 0, s => .ok s
  | fuel + 1, s => do
    let r ← ptCmeans0 eps m dim data s.u
    let s' : PtState α := ⟨r.u, some r, s.jm ++ [r.jm], s.p + 1⟩
    if frob r.u s.u <? error then return s' else ptLoop eps m error dim data fuel s'

/-- What `cmeans` returns (fuzzy_cmeans.py:148), without `u0`. -/
structure PtResult (α : Type) where
  cntr : List (List α)
  u : List (List α)
  d : List (List α)
  jm : List α
  p : Nat
  fpc : α

/-- fuzzy_cmeans.py:147-148: without any round (`maxiter ≤ 1`) the centres are unbound. -/
def ptFinish (data : List (List α)) (s : PtState α) : Except Err (PtResult α) :=
  match s.last with
  | some r => do
    let fpc ← fpCoeff s.u data.length
    return ⟨r.cntr, s.u, r.d, s.jm, s.p, fpc⟩
  | none => .error (.exc "UnboundLocalError")

/-- fuzzy_cmeans.py:56-148 `cmeans` from the start `init` (see `cmeans`). -/
def ptCmeans (eps m error : α) (maxiter dim : Nat) (data : List (List α)) (c : Nat) (init : List (List α)) :
    Except Err (PtResult α) :=
  if init.length < c ∨ (init.take c).any (fun r => decide (r.length < data.length)) = true then .error .oob
  else
    let u := (init.take c).map fun r => (r.take data.length).map fun x => if x <? eps then eps else x
    ptLoop eps m error dim data (maxiter - 1) { u := u } >>= ptFinish data

/-! ### rl_fuzzy_cmeans.py -/

/-- rl_fuzzy_cmeans.py:13-14, 16-17: `exp((-d² + r1 * log alpha) / r2)`. -/
def ptKernel (r1 r2 : α) (x v : List α) (a : α) : Except Err α := do
  let l ← plog a
  let q ← pdiv (-(pointDist x v * pointDist x v) + r1 * l) r2
  return exp q

/-- rl_fuzzy_cmeans.py:11-17: the memberships of one sample. -/
def ptRow (v : List (List α)) (alpha : List α) (r1 r2 : α) (x : List α) : Except Err (List α) := do
  let ks ← (v.zip alpha).mapM fun p => ptKernel r1 r2 x p.1 p.2
  ks.mapM fun k => pdiv k (pysum ks)

/-- rl_fuzzy_cmeans.py:7-18 `_compute_u`: one row per sample. -/
def ptComputeU (data v : List (List α)) (alpha : List α) (r1 r2 : α) : Except Err (List (List α)) :=
  data.mapM fun x => ptRow v alpha r1 r2 x

/-- rl_fuzzy_cmeans.py:85-93 `_update_v`: every coordinate of the centre of every cluster (an array division). -/
def ptUpdateV (dim : Nat) (data : List (List α)) (u : List (List α)) (c : Nat) : List (List α) :=
  (List.range c).map fun k =>
    (List.range dim).map fun j => pysum (List.zipWith (· * ·) (column data j) (column u k)) / pysum (column u k)

/-- Loop state of `rl_fuzzy_cmeans`. -/
structure PtRlState (α : Type) where
  v : List (List α)
  alpha : List α
  /-- `None` before the first round -/
  u : Option (List (List α))
  r1 : α
  r2 : α
  r3 : α
  t : Nat

/-- rl_fuzzy_cmeans.py:114: the condition to leave the loop. -/
def ptStop (error : α) (na : List α) (nv v : List (List α)) : Bool :=
  na.length == 1 || (nv.length == v.length && (frob nv v <? error))

/-- rl_fuzzy_cmeans.py:104-120: one round; the Boolean says whether the loop breaks. -/
def ptRound (error : α) (dim : Nat) (data : List (List α)) (s : PtRlState α) : Except Err (PtRlState α × Bool) := do
  let u ← ptComputeU data s.v s.alpha s.r1 s.r2
  let r1 := exp (lit (-(s.t : Int)) / lit 10)
  let r2 := exp (lit (-(s.t : Int)) / lit 100)
  let na ← rlUpdateAlpha u s.alpha r1 s.r3
  let r3 ← rlUpdateR3 s.alpha na u
  let r ← rlResize na u
  let r3 := if s.t ≥ 100 ∧ s.alpha.length = r.1.length then lit 0 else r3
  let nv := ptUpdateV dim data r.2 r.1.length
  let stop := ptStop error r.1 nv s.v
  return (⟨nv, r.1, some r.2, r1, r2, r3, if stop then s.t else s.t + 1⟩, stop)

/-- rl_fuzzy_cmeans.py:103-120: `fuel = max_iter - t`. -/
def ptRlLoop (error : α) (dim : Nat) (data : List (List α)) : Nat → PtRlState α → Except Err (PtRlState α)
  | 0, s => .ok s
  | fuel + 1, s => do
    let r ← ptRound error dim data s
    if r.2 then return r.1 else ptRlLoop error dim data fuel r.1

/-- rl_fuzzy_cmeans.py:98-102: the initial state. -/
def ptInit (data : List (List α)) : Except Err (PtRlState α) := do
  let a ← pdiv (lit 1) (lit (data.length : Int))
  return ⟨data, data.map fun _ => a, none, lit 1, lit 1, lit 1, 1⟩

/-- rl_fuzzy_cmeans.py:97-122 `rl_fuzzy_cmeans`. -/
def ptRl (error : α) (maxIter dim : Nat) (data : List (List α)) : Except Err (PtRlState α) := do
  let s ← ptInit data
  ptRlLoop error dim data (maxIter - 1) s

/-- rl_fuzzy_cmeans.py:138-142 `RlFuzzyCmeans.predict`, the search loop for one element. -/
def ptNearestLoop (x : List α) : List (List α) → Nat → α → Nat → Nat
  | [], _, _, res => res
  | c :: cs, pos, best, res =>
    if pointDist c x <? best then ptNearestLoop x cs (pos + 1) (pointDist c x) pos
    else ptNearestLoop x cs (pos + 1) best res

/-- rl_fuzzy_cmeans.py:136-143: index of the nearest centroid. -/
def ptNearest (centroids : List (List α)) (x : List α) : Except Err Nat :=
  match centroids with
  | [] => .error .indexError
  | c :: cs => .ok (ptNearestLoop x cs 1 (pointDist c x) 0)

/-- rl_fuzzy_cmeans.py:133-144 `RlFuzzyCmeans.predict`. -/
def ptPredict (centroids xs : List (List α)) : Except Err (List Nat) := xs.mapM fun x => ptNearest centroids x

end PyFCM
