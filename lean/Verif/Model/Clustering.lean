import Verif.Model.LearnUtils
/-
Model of py_fcm/learning/utils.py:33-106 and py_fcm/learning/discretization/* for one-dimensional data (the only
data the library clusters: discretization/__init__.py:75 passes one column).
Matrices are lists of rows.  Not modelled: the plots; `np.polyfit` and the random start are parameters.
-/
namespace PyFCM
open Arith

variable {α : Type} [Arith α]

/-! ### learning/utils.py -/

/-- utils.py:34-39 `one_dimension_distance` for one-column data. -/
def oneDimDist (data centers : List α) : List (List α) :=
  centers.map fun c => data.map fun x => abs (x - c)

/-- `columns[:, j]` -/
def column (u : List (List α)) (j : Nat) : List α := u.map fun r => r.getD j (lit 0)

/-- Apply a function to every entry. -/
def mapEntries (f : α → α) (u : List (List α)) : List (List α) := u.map fun r => r.map f

/-- Apply a per-column function to a matrix: `f j x` on entry `x` of column `j`. -/
def mapCols (f : Nat → α → α) (u : List (List α)) : List (List α) :=
  u.map fun r => r.mapIdx f

/-- utils.py:43-59 `normalize_columns` (an array division: no exception). -/
def normalizeColumns (u : List (List α)) : List (List α) :=
  mapCols (fun j x => x / pysum (column u j)) u

/-- `np.fmax` (a NaN loses). -/
def fmax (a b : α) : α := if b ≤? a then a else b

/-- `np.max` / `np.min` of a column; an empty column (no clusters) has no entries to which the result is applied. -/
def npMax : List α → α
  | [] => lit 0
  | x :: xs => xs.foldl (fun m y => if m <? y then y else m) x
def npMin : List α → α
  | [] => lit 0
  | x :: xs => xs.foldl (fun m y => if y <? m then y else m) x

/-- utils.py:63-106 `normalize_power_columns`; the `assert` (line 79) is the error branch. -/
def normalizePowerColumns (eps : α) (u : List (List α)) (e : α) : Except Err (List (List α)) :=
  if u.all (fun r => r.all fun x => lit 0 ≤? x) then
    let u := mapCols (fun j x => x / npMax (column u j)) u
    let u := mapEntries (fun x => fmax x eps) u
    let u := if e <? lit 0 then mapCols (fun j x => x / npMin (column u j)) u else u
    .ok (normalizeColumns (mapEntries (fun x => pow x e) u))
  else .error (.exc "AssertionError")

/-! ### fuzzy_cmeans.py -/

/-- fuzzy_cmeans.py:16-20: the weights `um` of the samples. -/
def cmWeights (eps m : α) (u : List (List α)) : List (List α) :=
  mapEntries (fun x => pow (fmax x eps) m) (normalizeColumns u)

/-- fuzzy_cmeans.py:23: the cluster centres (an array division). -/
def cmCenters (eps m : α) (data : List α) (u : List (List α)) : List α :=
  (cmWeights eps m u).map fun r => pysum (List.zipWith (· * ·) r data) / pysum r

/-- fuzzy_cmeans.py:25-26: the distances of the samples to the centres. -/
def cmDist (eps : α) (data cntr : List α) : List (List α) := mapEntries (fun x => fmax x eps) (oneDimDist data cntr)

/-- fuzzy_cmeans.py:28: the objective `jm`. -/
def cmObjective (um d : List (List α)) : α :=
  pysum (List.zipWith (fun a b => pysum (List.zipWith (fun x y => x * pow y (lit 2)) a b)) um d)

/-- Result of one step: centres, memberships, objective, distances. -/
structure CmStep (α : Type) where
  cntr : List α
  u : List (List α)
  jm : α
  d : List (List α)

/-- fuzzy_cmeans.py:8-32 `_cmeans0`.  The division of line 30 is a scalar one. -/
def cmeans0 (eps m : α) (data : List α) (u : List (List α)) : Except Err (CmStep α) := do
  let cntr := cmCenters eps m data u
  let d := cmDist eps data cntr
  let e ← pdiv (-(lit 2)) (m - lit 1)
  let u' ← normalizePowerColumns eps d e
  return ⟨cntr, u', cmObjective (cmWeights eps m u) d, d⟩

/-- `np.linalg.norm(u - u2)` (Frobenius). -/
def frob (u v : List (List α)) : α :=
  sqrt (pysum (List.zipWith (fun a b => pysum (List.zipWith (fun x y => (x - y) * (x - y)) a b)) u v))

/-- State of the loop of `cmeans`: the memberships, the last step's results (`None` before the first), the objective
history (oldest first) and the number of rounds `p`. -/
structure CmState (α : Type) where
  u : List (List α)
  last : Option (CmStep α) := none
  jm : List α := []
  p : Nat := 0

/-- fuzzy_cmeans.py:136-144: the loop; `fuel = maxiter - 1 - p`. -/
def cmLoop (eps m error : α) (data : List α) : Nat → CmState α → Except Err (CmState α)
  | 0, s => .ok s
  | fuel + 1, s => do
    let r ← cmeans0 eps m data s.u
    let s' : CmState α := ⟨r.u, some r, s.jm ++ [r.jm], s.p + 1⟩
    if frob r.u s.u <? error then return s' else cmLoop eps m error data fuel s'

/-- fuzzy_cmeans.py:36-52 `_fp_coeff`: `trace(u · uᵀ) / n` (a scalar division). -/
def fpCoeff (u : List (List α)) (n : Nat) : Except Err α :=
  pdiv (pysum (u.map fun r => pysum (r.map fun x => x * x))) (lit (n : Int))

/-- What `cmeans` returns (fuzzy_cmeans.py:148), without `u0`. -/
structure CmResult (α : Type) where
  cntr : List α
  u : List (List α)
  d : List (List α)
  jm : List α
  p : Nat
  fpc : α

/-- fuzzy_cmeans.py:147-148: without any round (`maxiter ≤ 1`) the centres are unbound. -/
def cmFinish (data : List α) (s : CmState α) : Except Err (CmResult α) :=
  match s.last with
  | some r => do
    let fpc ← fpCoeff s.u data.length
    return ⟨r.cntr, s.u, r.d, s.jm, s.p, fpc⟩
  | none => .error (.exc "UnboundLocalError")

/-- fuzzy_cmeans.py:56-148 `cmeans` from the start `init`.  Reading outside `init` (lines 128-130) is not checked by
numba. -/
def cmeans (eps m error : α) (maxiter : Nat) (data : List α) (c : Nat) (init : List (List α)) :
    Except Err (CmResult α) :=
  if init.length < c ∨ (init.take c).any (fun r => decide (r.length < data.length)) = true then .error .oob
  else
    let u := (init.take c).map fun r => (r.take data.length).map fun x => if x <? eps then eps else x
    cmLoop eps m error data (maxiter - 1) { u := u } >>= cmFinish data

/-- fuzzy_cmeans.py:119-126: the start when none is given; `rand` is the random matrix. -/
def randomStart (rand : List (List α)) : List (List α) := normalizeColumns rand

/-! ### rl_fuzzy_cmeans.py -/

/-- `math.log`: raises `ValueError` unless the argument is positive. -/
def plog (a : α) : Except Err α := if lit 0 <? a then .ok (log a) else .error .valueError

/-- rl_fuzzy_cmeans.py:13-14, 16-17: `exp((-d² + r1 * log alpha) / r2)`. -/
def rlKernel (r1 r2 x v a : α) : Except Err α := do
  let l ← plog a
  let q ← pdiv (-(abs (x - v) * abs (x - v)) + r1 * l) r2
  return exp q

/-- rl_fuzzy_cmeans.py:11-17: the memberships of one sample. -/
def rlRow (v alpha : List α) (r1 r2 x : α) : Except Err (List α) := do
  let ks ← (v.zip alpha).mapM fun p => rlKernel r1 r2 x p.1 p.2
  ks.mapM fun k => pdiv k (pysum ks)

/-- rl_fuzzy_cmeans.py:7-18 `_compute_u`: one row per sample. -/
def rlComputeU (data v alpha : List α) (r1 r2 : α) : Except Err (List (List α)) :=
  data.mapM fun x => rlRow v alpha r1 r2 x

/-- rl_fuzzy_cmeans.py:22-33 `_update_alpha` (`np.log2` does not raise). -/
def rlUpdateAlpha (u : List (List α)) (alpha : List α) (r1 r3 : α) : Except Err (List α) :=
  let lnAccum := pysum (alpha.map fun a => a * log2 a)
  (alpha.zipIdx).mapM fun p => do
    let pre ← u.mapM fun row => do
      let q ← pdiv r3 r1
      return row.getD p.2 (lit 0) + q * p.1 * (log2 p.1 - lnAccum)
    pdiv (pysum pre) (lit (u.length : Int))

/-- rl_fuzzy_cmeans.py:37-56 `_update_r3`. -/
def rlUpdateR3 (alphaOld newAlpha : List α) (u : List (List α)) : Except Err α := do
  let n : α := lit (u.length : Int)
  let ls ← alphaOld.mapM fun a => do
    let l ← plog a
    return a * l
  let s := pysum ls
  let num := pysum (List.zipWith (fun a b => exp (lit (-1) * n * abs (b - a))) alphaOld newAlpha)
  let ku ← (List.range alphaOld.length).mapM fun k => pdiv (pysum (column u k)) n
  let v1 ← pdiv num (lit (alphaOld.length : Int))
  let mku ← pymax ku
  let mv ← pymax (alphaOld.map fun a => a * s)
  let v2 ← pdiv (lit 1 - mku) (-mv)
  return if v2 <? v1 then v2 else v1

/-- `row / row.sum()` (an array division). -/
def normRow (r : List α) : List α := r.map fun x => x / pysum r

/-- rl_fuzzy_cmeans.py:60-81 `_resize_references`.  The rows to be dropped are counted with `<`, the rows kept are
chosen with `>=` (lines 65, 72): the same unless a value is NaN. -/
def rlResize (alpha : List α) (u : List (List α)) : Except Err (List α × List (List α)) := do
  let keep ← alpha.mapM fun a => do
    let t ← pdiv (lit 1) (lit (u.length : Int))
    return t ≤? a
  return (normRow (keepAt keep alpha), u.map fun r => normRow (keepAt keep r))

/-- rl_fuzzy_cmeans.py:85-93 `_update_v` (the division at line 92 is an array one). -/
def rlUpdateV (data : List α) (u : List (List α)) (c : Nat) : List α :=
  (List.range c).map fun k => pysum (List.zipWith (· * ·) data (column u k)) / pysum (column u k)

/-- Loop state of `rl_fuzzy_cmeans`. -/
structure RlState (α : Type) where
  v : List α
  alpha : List α
  /-- `None` before the first round -/
  u : Option (List (List α))
  r1 : α
  r2 : α
  r3 : α
  t : Nat
  deriving Repr

/-- rl_fuzzy_cmeans.py:114: the condition to leave the loop. -/
def rlStop (error : α) (na nv v : List α) : Bool :=
  na.length == 1 || (nv.length == v.length &&
    (sqrt (pysum (List.zipWith (fun a b => (a - b) * (a - b)) nv v)) <? error))

/-- rl_fuzzy_cmeans.py:104-120: one round; the Boolean says whether the loop breaks. -/
def rlRound (error : α) (data : List α) (s : RlState α) : Except Err (RlState α × Bool) := do
  let u ← rlComputeU data s.v s.alpha s.r1 s.r2
  let r1 := exp (lit (-(s.t : Int)) / lit 10)
  let r2 := exp (lit (-(s.t : Int)) / lit 100)
  let na ← rlUpdateAlpha u s.alpha r1 s.r3
  let r3 ← rlUpdateR3 s.alpha na u
  let r ← rlResize na u
  let r3 := if s.t ≥ 100 ∧ s.alpha.length = r.1.length then lit 0 else r3
  let nv := rlUpdateV data r.2 r.1.length
  let stop := rlStop error r.1 nv s.v
  return (⟨nv, r.1, some r.2, r1, r2, r3, if stop then s.t else s.t + 1⟩, stop)

/-- rl_fuzzy_cmeans.py:103-120: `fuel = max_iter - t`. -/
def rlLoop (error : α) (data : List α) : Nat → RlState α → Except Err (RlState α)
  | 0, s => .ok s
  | fuel + 1, s => do
    let r ← rlRound error data s
    if r.2 then return r.1 else rlLoop error data fuel r.1

/-- rl_fuzzy_cmeans.py:98-102: the initial state. -/
def rlInit (data : List α) : Except Err (RlState α) := do
  let a ← pdiv (lit 1) (lit (data.length : Int))
  return ⟨data, data.map fun _ => a, none, lit 1, lit 1, lit 1, 1⟩

/-- rl_fuzzy_cmeans.py:97-122 `rl_fuzzy_cmeans`. -/
def rlCmeans (error : α) (maxIter : Nat) (data : List α) : Except Err (RlState α) := do
  let s ← rlInit data
  rlLoop error data (maxIter - 1) s

/-- rl_fuzzy_cmeans.py:138-142 `RlFuzzyCmeans.predict`, the search loop for one element. -/
def nearestLoop (x : α) : List α → Nat → α → Nat → Nat
  | [], _, _, res => res
  | c :: cs, pos, best, res =>
    if abs (c - x) <? best then nearestLoop x cs (pos + 1) (abs (c - x)) pos
    else nearestLoop x cs (pos + 1) best res

/-- rl_fuzzy_cmeans.py:136-143: index of the nearest centroid (`centroids[0]` on an empty array raises). -/
def nearest (centroids : List α) (x : α) : Except Err Nat :=
  match centroids with
  | [] => .error .indexError
  | c :: cs => .ok (nearestLoop x cs 1 (abs (c - x)) 0)

/-- rl_fuzzy_cmeans.py:133-144 `RlFuzzyCmeans.predict`. -/
def rlPredict (centroids xs : List α) : Except Err (List Nat) := xs.mapM fun x => nearest centroids x

/-! ### clusters_estimation.py -/

/-- The lists of change points are kept reversed (newest first). -/
structure CpState (α : Type) where
  mean : α
  xs : List Nat
  ys : List α
  grow : Bool
  deriving Repr

/-- clusters_estimation.py:32-40: append a change point when the curve starts or stops to grow fast. -/
def cpAppend (i : Nat) (a d : α) (s : CpState α) : CpState α :=
  let s := if (abs s.mean <? d) && !s.grow then { s with grow := true, xs := i :: s.xs, ys := a :: s.ys } else s
  if (d <? abs s.mean) && s.grow then { s with grow := false, xs := i :: s.xs, ys := a :: s.ys } else s

/-- clusters_estimation.py:42-44: drop the newest point if the one before is too near. -/
def cpDrop (lim : α) (i : Nat) (s : CpState α) : CpState α :=
  match s.xs with
  | _ :: p :: rest => if lit ((i : Int) - p) <? lim then { s with xs := p :: rest, ys := s.ys.tail } else s
  | _ => s

/-- clusters_estimation.py:31-46: one round of the loop over the samples (`a = values[i]`, `b = values[i + 1]`).
`lim = n_samples * min_interval`. -/
def cpStep (lim : α) (i : Nat) (a b : α) (s : CpState α) : CpState α :=
  let d := abs (a - b)
  let s := cpDrop lim i (cpAppend i a d s)
  { s with mean := (d + s.mean) / lit 2 }

/-- clusters_estimation.py:31-46 -/
def cpLoop (lim : α) : Nat → List α → CpState α → CpState α
  | i, a :: b :: rest, s => cpLoop lim (i + 1) (b :: rest) (cpStep lim i a b s)
  | _, _, s => s

/-- clusters_estimation.py:48-57: the last sample closes the last interval. -/
def cpClose (lim last : α) (n : Nat) (s : CpState α) : List Nat × List α :=
  match s.xs with
  | x :: p :: rest =>
    if lit ((n : Int) - 1 - x) <? lim then (((n - 1) :: p :: rest).reverse, (last :: s.ys.tail).reverse)
    else (((n - 1) :: x :: p :: rest).reverse, (last :: s.ys).reverse)
  | _ => (s.xs.reverse, s.ys.reverse)

/-- clusters_estimation.py:11-57 `__estimate_change_points`: positions and values, oldest first.  `mc` is
`max_clusters`, a float if it was halved (line 166). -/
def changePoints (values : List α) (mc : α) : Except Err (List Nat × List α) := do
  let q ← pdiv (lit 1) mc
  let lim := lit (values.length : Int) * q
  return cpClose lim (values.getLastD (lit 0)) values.length (cpLoop lim 0 values ⟨lit 0, [], [], false⟩)

/-- The parts of the environment the clustering depends on: the machine epsilon, the curve `np.polyfit` finds
(clusters_estimation.py:61-64) and the random matrices. -/
structure ClusterEnv (α : Type) where
  eps : α
  image : List α → α → List α
  rand : Nat → Nat → List (List α)

/-- clusters_estimation.py:82-100: the two highest memberships of a sample and their positions. -/
structure Top2 (α : Type) where
  val : α
  pos : Nat
  sec : α
  secPos : Nat

/-- clusters_estimation.py:92-100: the search among the remaining clusters. -/
def top2Loop : List α → Nat → Top2 α → Top2 α
  | [], _, t => t
  | x :: xs, j, t =>
    if t.val <? x then top2Loop xs (j + 1) ⟨x, j, t.val, t.pos⟩
    else if (t.sec <? x) && !(x =? t.val) then top2Loop xs (j + 1) { t with sec := x, secPos := j }
    else top2Loop xs (j + 1) t

/-- clusters_estimation.py:81-100 -/
def top2 : List α → Except Err (Top2 α)
  | a :: b :: rest => .ok (top2Loop rest 2 (if b <? a then ⟨a, 0, b, 1⟩ else ⟨b, 1, a, 0⟩))
  | _ => .error .indexError

/-- clusters_estimation.py:102-103 (dist_matrix: line 72): weighted mean distance of sample `x` to the samples of a cluster. -/
def meanDist (data row : List α) (x : α) : α :=
  pysum (List.zipWith (· * ·) (data.map fun y => abs (x - y)) row) / lit ((data.length : Int) - 1)

/-- clusters_estimation.py:78-104: weight and silhouette of every sample. -/
def silhouettes (data : List α) (u : List (List α)) : Except Err (List (α × α)) :=
  (data.zipIdx).mapM fun p => do
    let t ← top2 (column u p.2)
    let a := meanDist data (u.getD t.pos []) p.1
    let b := meanDist data (u.getD t.secPos []) p.1
    return (pow (t.val - t.sec) (lit 2), (b - a) / (if b <? a then a else b))

/-- clusters_estimation.py:105: the fuzzy silhouette of a clustering. -/
def silScore (data : List α) (r : CmResult α) : Except Err α := do
  let ws ← silhouettes data r.u
  return pysum (ws.map fun p => p.1 * p.2) / pysum (ws.map (·.1))

/-- clusters_estimation.py:113-117 `__fuzzy_cross_entropy`. -/
def crossEntropy (a b : List α) : α :=
  pysum (List.zipWith (fun x y => x * log2 (x / (x / lit 2 + y / lit 2)) +
    (lit 1 - x) * log2 ((lit 1 - x) / (lit 1 - (x + y) / lit 2))) a b)

/-- clusters_estimation.py:133-135 -/
def rowEntropy (n : Nat) (r : List α) : α :=
  -(pysum (r.map fun x => x * log2 x + (lit 1 - x) * log2 (lit 1 - x))) / (lit (n : Int) * log2 (lit 2))

/-- `np.linalg.norm` of a vector. -/
def norm2 (r : List α) : α := sqrt (pysum (r.map fun x => x * x))

/-- clusters_estimation.py:126-149: the combined fuzzy entropy of a clustering with `k` clusters.  Line 138 takes the
norm of the whole column of differences.  The running sums are written as separate sums. -/
def cfeScore (data : List α) (k : Nat) (r : CmResult α) : α :=
  let n := data.length
  let center := pysum data / lit (n : Int)
  let rows := r.u.zip r.cntr
  let hui := pysum (rows.map fun p => rowEntropy n p.1)
  let wsgd := pysum (rows.map fun p =>
    pysum (p.1.map fun x => x * pow (norm2 (data.map fun y => y - p.2)) (lit 2)))
  let bgds := pysum (rows.map fun p => pysum p.1 * pow (abs (p.2 - center)) (lit 2))
  let sfce := pysum (r.u.zipIdx.map fun p => pysum (r.u.zipIdx.map fun q =>
    if p.2 = q.2 then lit 0 else crossEntropy p.1 q.1 + crossEntropy q.1 p.1))
  let sfce := lit 2 / lit ((k : Int) * (k - 1)) * sfce
  let fe := hui / lit (k : Int)
  let ch := (bgds / lit ((k : Int) - 1)) * (lit ((n : Int) - k) / wsgd)
  (sfce / fe + ch) / lit 2

/-- Outcome of a cluster estimation: number of clusters and description (rows = clusters; `none` is Python's None). -/
abbrev Clusters (α : Type) := Nat × Option (List (List α))

/-- clusters_estimation.py:76-110, 127-154: the best-scored clustering over `ks`. -/
def selectLoop (cm : Nat → Except Err (CmResult α)) (score : Nat → CmResult α → Except Err α) :
    List Nat → α → Clusters α → Except Err (Clusters α)
  | [], _, best => .ok best
  | k :: ks, bestScore, best => do
    let r ← cm k
    let s ← score k r
    if bestScore <? s then selectLoop cm score ks s (k, some r.u) else selectLoop cm score ks bestScore best

/-- clusters_estimation.py:69-110, 120-154: `fuzzy_silhouette` and `cfe`.  Without a positive score the result is 0
clusters with the data (one column) as description. -/
def selectClusters (cm : Nat → Except Err (CmResult α)) (score : Nat → CmResult α → Except Err α)
    (maxClusters : Nat) (data : List α) : Except Err (Clusters α) :=
  selectLoop cm score (List.range' 2 (maxClusters - 1)) (lit 0) (0, some (data.map fun x => [x]))

/-- clusters_estimation.py:163-164 and fuzzy_cmeans.py:152: the fixed arguments of the clustering. -/
def cmStd (env : ClusterEnv α) (maxiter : Nat) (data : List α) (c : Nat) (init : List (List α)) :
    Except Err (CmResult α) :=
  cmeans env.eps (dec 25 10) (dec 1 10000) maxiter data c init

/-- clusters_estimation.py:165-166: `max_clusters` as the gap method sees it. -/
def effMax (maxClusters n : Nat) : α :=
  if maxClusters ≥ n then lit (n : Int) / lit 2 else lit (maxClusters : Int)

/-- clusters_estimation.py:173-181: the start of the clustering is the distances to the change points. -/
def gapInit (data ys : List α) : List (List α) := oneDimDist data (if ys.length > 2 then ys.dropLast else ys)

/-- clusters_estimation.py:170-190: the gap method. -/
def estimateGap (env : ClusterEnv α) (maxiter : Nat) (data : List α) (maxClusters : Nat) : Except Err (Clusters α) := do
  let mc : α := effMax maxClusters data.length
  let cp ← changePoints (env.image data mc) mc
  if cp.2.length > 2 then do
    let r ← cmStd env maxiter data (cp.2.length - 1) (gapInit data cp.2)
    return (cp.2.length - 1, some r.u)
  else return (1, some [data.map fun _ => lit 1])

/-- clusters_estimation.py:157-196 `estimate_clusters`.  With `max_clusters >= data.size` the maximum becomes a float
(line 166) and `range` (lines 76, 127) raises `TypeError`.  An unknown method is replaced by a function object, which
is no method name either (lines 167-169), so that (1, None) is returned. -/
def estimateClusters (env : ClusterEnv α) (maxiter : Nat) (data : List α) (maxClusters : Nat) (method : String) :
    Except Err (Clusters α) :=
  let cm := fun k => cmStd env maxiter data k (randomStart (env.rand k data.length))
  if method = "gap_concentration" then estimateGap env maxiter data maxClusters
  else if method = "fuzzy_silhouette" then
    if maxClusters ≥ data.length then .error .typeError
    else selectClusters cm (fun _ r => silScore data r) maxClusters data
  else if method = "combined_fuzzy_entropy" then
    if maxClusters ≥ data.length then .error .typeError
    else selectClusters cm (fun k r => .ok (cfeScore data k r)) maxClusters data
  else .ok (1, none)

/-! ### discretization/__init__.py -/

/-- A row of `clusters_desc` before transposition. -/
structure Row3 (α : Type) where
  c0 : α
  c1 : α
  c2 : α
  deriving Repr, DecidableEq

/-- discretization/__init__.py:25-32: one round.  The writes happen one after the other: when `pos = max - pos` (the
centre row) line 31 reads the entry line 30 has just zeroed. -/
def threeStep (mid mx pos : Nat) (t : List (Row3 α)) : List (Row3 α) :=
  let t := t.modify pos fun r => { r with c2 := lit 0 }
  let t := t.modify pos fun r => { r with c1 := lit (pos : Int) / lit (mid : Int) }
  let t := t.modify pos fun r => { r with c0 := lit 1 - r.c1 }
  let t := t.modify (mx - pos) fun r => { r with c0 := lit 0 }
  let a := ((t[pos]?).map (·.c0)).getD (lit 0)
  let t := t.modify (mx - pos) fun r => { r with c2 := a }
  let b := ((t[pos]?).map (·.c1)).getD (lit 0)
  t.modify (mx - pos) fun r => { r with c1 := b }

/-- discretization/__init__.py:25-32: the first `k` rounds of the loop. -/
def threeLoop (mid mx : Nat) : Nat → List (Row3 α) → List (Row3 α)
  | 0, t => t
  | k + 1, t => threeStep mid mx k (threeLoop mid mx k t)

/-- discretization/__init__.py:11-15: an even number of values gets one more in the middle. -/
def oddValues (vals : List α) : Except Err (List α) :=
  if vals.length % 2 = 0 then
    match vals.drop (vals.length / 2 - 1) with
    | a :: b :: _ =>
      .ok (vals.take (vals.length / 2) ++ [a + abs (a - b) / lit 2] ++ vals.drop (vals.length / 2))
    | _ => .error .indexError
  else .ok vals

/-- discretization/__init__.py:10-46 `__create_three_clusters`; the result rows are per value (the code returns
the transpose).  `new_list` (lines 19-21) is only used for its length. -/
def createThreeClusters (vals : List α) : Except Err (List α × List (Row3 α)) := do
  let vals ← oddValues vals
  let n := vals.length
  let mid := n / 2 + 1
  let t := threeLoop mid (n - 1) mid (List.replicate n ⟨lit 0, lit 0, lit 0⟩)
  if mid < n then
    return (vals, ((t.set 0 ⟨lit 1, lit 0, lit 0⟩).set mid ⟨lit 0, lit 1, lit 0⟩).set (n - 1) ⟨lit 0, lit 0, lit 1⟩)
  else .error .indexError

/-- discretization/__init__.py:89-92: the robust-learning strategy.  Without a round there are no memberships. -/
def estimateRl (maxiter : Nat) (data : List α) : Except Err (Clusters α) := do
  let s ← rlCmeans (dec 5 10000) maxiter data
  match s.u with
  | none => .error (.exc "AttributeError")
  | some u => return (s.alpha.length, some ((List.range s.alpha.length).map (column u)))

/-- discretization/__init__.py:80-96: the strategies. -/
def runStrategy (env : ClusterEnv α) (maxClusters maxiter : Nat) (strategy : String) (v : List α) :
    Except Err (Clusters α) :=
  if strategy = "cmeans-gap" then estimateClusters env maxiter v maxClusters "gap_concentration"
  else if strategy = "cmeans-sil" then estimateClusters env maxiter v maxClusters "fuzzy_silhouette"
  else if strategy = "cmeans-cfe" then estimateClusters env maxiter v maxClusters "combined_fuzzy_entropy"
  else if strategy = "rl-cmeans" then estimateRl maxiter v
  else .error (.exc ("Unsupported clustering method: " ++ strategy))

/-- discretization/__init__.py:49-117 `fuzzy_feature_discretization`: number of clusters, values, memberships. -/
def discretize (env : ClusterEnv α) (maxClusters maxiter : Nat) (strategy attName : String) (vals : List α) :
    Except Err (Nat × List α × Option (List (List α))) :=
  let v := uniq Arith.lt vals
  if v.length < 10 then
    .error (.exc ("Too few (" ++ toString v.length ++ ") variations for fuzzy clustering on feature: " ++ attName))
  else do
    let r ← runStrategy env maxClusters maxiter strategy v
    if r.1 < 2 then do
      let q ← createThreeClusters v
      return (3, q.1, some [q.2.map (·.c0), q.2.map (·.c1), q.2.map (·.c2)])
    else return (r.1, v, r.2)

end PyFCM
