import Verif.Model.Fcm
/-
Model of the inference engines: fcm.py:497-599, 736-746 and functions.py:83-127.
-/
namespace PyFCM
open Arith

variable {α : Type} [Arith α]

/-! ### Iterative engine -/

/-- fcm.py:736-746 `__keep_execution`. -/
def FCM.keepExecution (m : FCM α) : Except Err Bool :=
  if (m.iterations : Int) ≥ m.maxIter then .ok false
  else if m.stopAtStabilize then
    match m.isStable with
    | .ok b => .ok (!b)
    | .error e => .error e
  else .ok true

/-- fcm.py:511-515: what an active origin sends along a relation. -/
def arcInput (excName : String) (value weight : α) : α :=
  if excName = "PAPAGEORGIUS" then (lit 2 * value - lit 1) * weight else value * weight

/-- fcm.py:506-515: one round of the relation loop. -/
def gatherArc (arc : Arc α) : PyM (FCM α) Unit := fun m =>
  match m.topology.get? arc.origin with
  | none => (.error (.keyError arc.origin), m)
  | some o =>
    if o.active then
      match o.exec with
      | none => (.error (.keyError "custom execution function name"), m)
      | some ex =>
        match m.topology.get? arc.dest with
        | none => (.error (.keyError arc.dest), m)
        | some d =>
          let d' := { d with aux := d.aux ++ [arcInput ex.2 o.value arc.weight] }
          (.ok (), { m with topology := m.topology.set arc.dest d' })
    else (.ok (), m)

/-- fcm.py:517-528: one round of the concept loop. -/
def stepNode (c : String) : PyM (FCM α) Unit := fun m =>
  match m.topology.get? c with
  | none => (.error (.keyError c), m)
  | some n =>
    match n.exec with
    | none => (.error (.keyError "custom execution function"), m)
    | some ex =>
      match n.useMem with
      | none => (.error (.keyError "use memory in current node execution"), m)
      | some um =>
        let execVal := ex.1.run n.aux n.value um
        let n := { n with aux := [] }
        let m := { m with topology := m.topology.set c n }
        match n.fn with
        | none => (.error (.keyError "custom activation function name"), m)
        | some f =>
          match (if f.name = "fuzzy" then pdiv execVal n.actvSum else .ok execVal) with
          | .error e => (.error e, m)
          | .ok execVal =>
            match callActv f.fn execVal f.args with
            | .error e => (.error e, m)
            | .ok result =>
              let m := { m with topology := m.topology.set c { n with value := result } }
              match m.execution.get? c with
              | none => (.error (.keyError c), m)
              | some xs => (.ok (), { m with execution := m.execution.set c (xs ++ [result]) })

/-- fcm.py:506-530: one inference step. -/
def FCM.stepOnce : PyM (FCM α) Unit := fun m =>
  match PyM.forEach m.arcList gatherArc m with
  | (.error e, m1) => (.error e, m1)
  | (.ok (), m1) =>
    match PyM.forEach m1.execution.keys stepNode m1 with
    | (.error e, m2) => (.error e, m2)
    | (.ok (), m2) => (.ok (), { m2 with iterations := m2.iterations + 1 })

/-- fcm.py:500-530: the `while extra_steps > 0` loop.  `fuel` bounds the number of rounds; running out of it
is `diverge` (shown impossible for the fuel used by `iterativeInference`). -/
def FCM.iterLoop : Nat → Nat → PyM (FCM α) Unit
  | 0, extra => fun m => if extra > 0 then (.error .diverge, m) else (.ok (), m)
  | fuel + 1, extra => fun m =>
    if extra > 0 then
      match m.keepExecution with
      | .error e => (.error e, m)
      | .ok keep =>
        let extra' := if keep then m.extraSteps - 1 else extra - 1
        match FCM.stepOnce m with
        | (.error e, m1) => (.error e, m1)
        | (.ok (), m1) => FCM.iterLoop fuel extra' m1
    else (.ok (), m)

/-- fcm.py:497-530 `__iterative_inference`. -/
def FCM.iterativeInference : PyM (FCM α) Unit := fun m =>
  FCM.iterLoop (m.maxIter.toNat + m.extraSteps) (m.extraSteps - 1) { m with iterations := 1 }

/-! ### Vectorised engine -/

/-- `np.dot(state_vector, relation_matrix)` (functions.py:104): entry `j` is `Σ_i state[i] * mat[i][j]`, summed in
index order.  (BLAS may sum in another order: not modelled; exact for exact arithmetic.) -/
def dotCol (state : List α) (mat : List (List α)) (j : Nat) : α :=
  pysum (List.zipWith (fun s row => s * row.getD j (lit 0)) state mat)

/-- functions.py:108-109: normalisation of a fuzzy concept's input. -/
def normInput (r x : α) : Except Err α := if lit 0 <? r then pdiv x r else .ok x

/-- functions.py:106-111: the new value of concept `pos`. -/
def vecNode (c : Cache α) (state : List α) (pos : Nat) : Except Err α := do
  let s ← njIdx state pos
  let mem ← njIdx c.memory pos
  let r ← njIdx c.normalize pos
  let f ← njIdx c.functions pos
  let args ← njIdx c.functionArgs pos
  let x := dotCol state c.relationMatrix pos
  let x := if mem then x + s else x
  let x ← normInput r x
  execActvFunction f x args

/-- functions.py:113-114, 95-96: `2 * v - 1` for Papageorgius concepts. -/
def desat (sat : Bool) (v : α) : α := if sat then lit 2 * v - lit 1 else v

/-- `output[:, k]` summed (functions.py:120). -/
def colSum (out : List (List α)) (k : Nat) : α := pysum (out.map fun r => r.getD k (lit 2))

/-- functions.py:100-126: the loop.  `out` is the output matrix by rows; `cur`, `it`, `ctr` are `current_step`,
`it_counter`, `extra_steps_counter`; writing a column outside the matrix is `oob`. -/
def vecLoop (c : Cache α) (n : Nat) (maxIter : Nat) (minDiff : α) (extra : Nat) :
    Nat → List α → List (List α) → Nat → Nat → Nat → Except Err (List (List α))
  | 0, _, _, _, _, _ => .error .diverge
  | fuel + 1, state, out, cur, it, ctr => do
    let it := it - 1
    let new ← (List.range n).mapM (vecNode c state)
    if cur < maxIter then
      let out := List.zipWith (fun r v => r.set cur v) out new
      let state := List.zipWith desat c.avoidSaturation new
      let cur := cur + 1
      let diff := abs (colSum out (cur - 1) - colSum out (cur - 2))
      let below := diff <? minDiff
      let ctr := if below then ctr - 1 else extra
      if it = 0 ∨ (below = true ∧ ctr = 0) then return out
      else vecLoop c n maxIter minDiff extra fuel state out cur it ctr
    else .error .oob

/-- functions.py:83-127 `vectorized_run` for a non-empty map; `np.full` with a negative size raises.
`it_counter` is kept as a `Nat` (`max_iterations - rounds`, only compared with 0). -/
def vectorizedRun (c : Cache α) (state0 : List α) (maxIter : Int) (minDiff : α) (extra : Nat) :
    Except Err (List (List α)) :=
  if maxIter < 0 then .error .valueError
  else if maxIter = 0 then .error .oob
  else
    let m := maxIter.toNat
    let out := state0.map fun v => (List.replicate m (lit 2)).set 0 v
    let state := List.zipWith desat c.avoidSaturation state0
    vecLoop c state0.length m minDiff extra m state out 1 m extra

/-- fcm.py:549: the id of the activation function (`None`, which numba rejects, for an unknown name). -/
def constOf (name : String) : Except Err Nat :=
  match Activation.getConstByName name with
  | some i => .ok i
  | none => .error .typeError

/-- fcm.py:545-557: the cached entries of one concept. -/
def prepRow (n : Node α) : Except Err (Nat × List α × Bool × α × Bool) := do
  let f ← need "custom activation function name" n.fn
  let id ← constOf f.name
  let args ← need "custom activation function arguments in vector" n.argsVect
  let um ← need "use memory in current node execution" n.useMem
  let ex ← need "custom execution function name" n.exec
  return (id, args, um, if f.name = "fuzzy" then n.actvSum else lit 0, ex.2 == "PAPAGEORGIUS")

/-- `m[i][j] = w` -/
def matSet (m : List (List α)) (i j : Nat) (w : α) : List (List α) :=
  m.modify i fun row => row.set j w

/-- fcm.py:558-564: filling the relation matrix; an unknown end makes `concepts.index` raise `ValueError`. -/
def fillMatrix (concepts : List String) : List (Arc α) → List (List α) → Except Err (List (List α))
  | [], m => .ok m
  | a :: as, m =>
    if a.origin ∈ concepts ∧ a.dest ∈ concepts then
      fillMatrix concepts as (matSet m (concepts.idxOf a.origin) (concepts.idxOf a.dest) a.weight)
    else .error .valueError

/-- fcm.py:536-564: the cached data computed from the current map. -/
def FCM.prepare (m : FCM α) : Except Err (Cache α) := do
  let rows ← m.topology.mapM fun p => prepRow p.2
  let k := m.topology.length
  let mat ← fillMatrix m.topology.keys m.arcList (List.replicate k (List.replicate k (lit 0)))
  return { relationMatrix := mat, functions := rows.map (·.1), functionArgs := rows.map (·.2.1),
           memory := rows.map (·.2.2.1), normalize := rows.map (·.2.2.2.1), avoidSaturation := rows.map (·.2.2.2.2) }

/-- fcm.py:574-578: index of the first column holding the filler `2.0` in the first row (`max_iter - 1` if none). -/
def colIndex (row : List α) (maxIter : Nat) : Nat :=
  match row.findIdx? (fun v => v =? lit 2) with
  | some i => i
  | none => maxIter - 1

/-- fcm.py:580-581: store the trajectories. -/
def storeRows (k : Nat) : List String → List (List α) → Dict (List α) → Dict (List α)
  | c :: cs, r :: rs, d => storeRows k cs rs (d.set c (r.take k))
  | _, _, d => d

/-- fcm.py:568-581: run on the cached data and read the result back.  An empty map makes the call raise
(empty typed lists / `result[0, ...]`), modelled as `typeError`. -/
def FCM.vectorRunStore (m : FCM α) : Except Err Unit × FCM α :=
  match m.stateVector with
  | [] => (.error .typeError, m)
  | _ :: _ =>
    match vectorizedRun m.cache m.stateVector m.maxIter m.stabilityDiff m.extraSteps with
    | .error e => (.error e, m)
    | .ok result =>
      let k := colIndex (result.headD []) m.maxIter.toNat
      (.ok (), { m with
        stateVector := result.map fun r => r.headD (lit 2)
        execution := storeRows k m.topology.keys result m.execution })

/-- fcm.py:532-581 `__vectorized_inference`.  Simplification: when the preparation raises, the partially filled
caches are modelled as empty (the flag stays set, as in the code). -/
def FCM.vectorizedInference : PyM (FCM α) Unit := fun m =>
  let sv := m.topology.map fun p => p.2.value
  if m.prepared then
    -- 566-567: overwrites the entries of the existing array, whose size does not change
    FCM.vectorRunStore { m with stateVector := sv ++ m.stateVector.drop sv.length }
  else
    match m.prepare with
    | .error e => (.error e, { m with prepared := true, stateVector := sv, cache := ⟨[], [], [], [], [], []⟩ })
    | .ok c => FCM.vectorRunStore { m with prepared := true, stateVector := sv, cache := c }

/-- fcm.py:596-599: one round of the final loop of `run_inference`. -/
def decideNode (c : String) : PyM (FCM α) Unit := fun m =>
  match m.topology.get? c with
  | none => (.ok (), m)
  | some n =>
    match m.execution.get? c with
    | none => (.error (.keyError c), m)
    | some xs =>
      match m.decisionFn.run xs ((xs.length : Int) - m.extraSteps - 1) with
      | .error e => (.error e, m)
      | .ok v => (.ok (), { m with topology := m.topology.set c { n with value := v } })

/-- fcm.py:591-594: the engine selected by `debug`. -/
def FCM.engine : PyM (FCM α) Unit := fun m =>
  if m.debug then FCM.iterativeInference m else FCM.vectorizedInference m

/-- fcm.py:596-599: the decision loop. -/
def FCM.decideAll : PyM (FCM α) Unit := fun m => PyM.forEach m.topology.keys decideNode m

/-- fcm.py:583-599 `run_inference`. -/
def FCM.runInference (reset : Bool := true) : PyM (FCM α) Unit := fun m =>
  match (if reset then FCM.resetExecution m else (.ok (), m)) with
  | (.error e, m) => (.error e, m)
  | (.ok (), m) =>
    match FCM.engine m with
    | (.error e, m) => (.error e, m)
    | (.ok (), m) => FCM.decideAll m

end PyFCM
