import Verif.Props.PointsRl
/-
Data with one column: the algorithms on points are those on numbers (C116, C117).  Real arithmetic.
-/
namespace PyFCM
open Arith Spec

/-- A column of numbers as a matrix with one column. -/
def Spec.asColumn (xs : List ℝ) : List (List ℝ) := xs.map fun x => [x]

theorem pointDist_one (x c : ℝ) : pointDist [x] [c] = Arith.abs (x - c) := by
  unfold pointDist vecNorm
  rw [pysum_real]
  show Real.sqrt (((x - c) * (x - c)) + 0) = |x - c|
  rw [add_zero, Real.sqrt_mul_self_eq_abs]

theorem column_asColumn (xs : List ℝ) : column (asColumn xs) 0 = xs := by
  simp [column, asColumn, Function.comp_def]

theorem pointDists_one (data cntr : List ℝ) : pointDists (asColumn data) (asColumn cntr) = oneDimDist data cntr := by
  simp [pointDists, asColumn, oneDimDist, Function.comp_def, pointDist_one]

theorem ptCenters_one (eps m : ℝ) (data : List ℝ) (u : List (List ℝ)) :
    ptCenters eps m 1 (asColumn data) u = asColumn (cmCenters eps m data u) := by
  unfold ptCenters cmCenters
  conv_rhs => rw [asColumn, List.map_map]
  refine List.map_congr_left fun r _ => ?_
  simp [List.range_succ, column_asColumn]

/-- The result of a step on numbers, as one on points. -/
def Spec.liftStep (r : CmStep ℝ) : PtStep ℝ := ⟨asColumn r.cntr, r.u, r.jm, r.d⟩

theorem ptCmeans0_one (eps m : ℝ) (data : List ℝ) (u : List (List ℝ)) :
    ptCmeans0 eps m 1 (asColumn data) u = (cmeans0 eps m data u).map liftStep := by
  unfold ptCmeans0 cmeans0
  dsimp only
  rw [ptCenters_one]
  have e : ptDist eps (asColumn data) (asColumn (cmCenters eps m data u)) = cmDist eps data (cmCenters eps m data u) := by
    unfold ptDist cmDist
    rw [pointDists_one]
  rw [e]
  cases pdiv (-(lit 2)) (m - lit 1) with
  | error _ => rfl
  | ok q =>
    show (normalizePowerColumns eps _ q >>= _) = Except.map liftStep (normalizePowerColumns eps _ q >>= _)
    cases normalizePowerColumns eps (cmDist eps data (cmCenters eps m data u)) q <;> rfl

def Spec.liftState (s : CmState ℝ) : PtState ℝ := ⟨s.u, s.last.map liftStep, s.jm, s.p⟩

theorem ptLoop_one (eps m error : ℝ) (data : List ℝ) : ∀ (fuel : Nat) (s : CmState ℝ),
    ptLoop eps m error 1 (asColumn data) fuel (liftState s) = (cmLoop eps m error data fuel s).map liftState
  | 0, _ => rfl
  | fuel + 1, s => by
    unfold ptLoop cmLoop
    rw [show (liftState s).u = s.u from rfl, ptCmeans0_one]
    cases cmeans0 eps m data s.u with
    | error _ => rfl
    | ok r =>
      show (if frob r.u s.u <? error then (Except.ok _ : Except Err (PtState ℝ)) else
          ptLoop eps m error 1 (asColumn data) fuel (liftState ⟨r.u, some r, s.jm ++ [r.jm], s.p + 1⟩)) =
        Except.map liftState (if frob r.u s.u <? error then (Except.ok _ : Except Err (CmState ℝ)) else
          cmLoop eps m error data fuel ⟨r.u, some r, s.jm ++ [r.jm], s.p + 1⟩)
      split
      · rfl
      · exact ptLoop_one eps m error data fuel _

/-- On one column the clustering of points returns what the clustering of numbers does, or raises the same error. -/
theorem C116_one_column (eps m error : ℝ) (maxiter : Nat) (data : List ℝ) (c : Nat) (init : List (List ℝ)) :
    ptCmeans eps m error maxiter 1 (asColumn data) c init =
      (cmeans eps m error maxiter data c init).map fun r => ⟨asColumn r.cntr, r.u, r.d, r.jm, r.p, r.fpc⟩ := by
  have hl : (asColumn data).length = data.length := by simp [asColumn]
  unfold ptCmeans cmeans
  rw [hl]
  split
  · rfl
  · dsimp only
    have h := ptLoop_one eps m error data (maxiter - 1)
      { u := (init.take c).map fun r => (r.take data.length).map fun x => if x <? eps then eps else x }
    have e : liftState { u := (init.take c).map fun r => (r.take data.length).map fun x => if x <? eps then eps else x } =
      { u := (init.take c).map fun r => (r.take data.length).map fun x => if x <? eps then eps else x } := rfl
    rw [e] at h
    rw [h]
    cases cmLoop eps m error data (maxiter - 1)
      { u := (init.take c).map fun r => (r.take data.length).map fun x => if x <? eps then eps else x } with
    | error _ => rfl
    | ok s =>
      show ptFinish (asColumn data) (liftState s) = Except.map _ (cmFinish data s)
      unfold ptFinish cmFinish
      rw [hl, show (liftState s).u = s.u from rfl, show (liftState s).last = s.last.map liftStep from rfl]
      cases s.last with
      | none => rfl
      | some r =>
        show (fpCoeff s.u data.length >>= _) = Except.map _ (fpCoeff s.u data.length >>= _)
        cases fpCoeff s.u data.length <;> rfl

/-! ### robust learning -/

def Spec.liftRl (s : RlState ℝ) : PtRlState ℝ := ⟨asColumn s.v, s.alpha, s.u, s.r1, s.r2, s.r3, s.t⟩

theorem ptRow_one (v alpha : List ℝ) (r1 r2 x : ℝ) : ptRow (asColumn v) alpha r1 r2 [x] = rlRow v alpha r1 r2 x := by
  unfold ptRow rlRow asColumn
  rw [List.zip_map_left, mapM_map]
  have : (fun a : ℝ × ℝ => ptKernel r1 r2 [x] (Prod.map (fun x => [x]) id a).1 (Prod.map (fun x => [x]) id a).2) =
      fun p => rlKernel r1 r2 x p.1 p.2 := by
    funext p
    unfold ptKernel rlKernel
    simp only [Prod.map, id, pointDist_one]
  rw [this]

theorem ptComputeU_one (data v alpha : List ℝ) (r1 r2 : ℝ) :
    ptComputeU (asColumn data) (asColumn v) alpha r1 r2 = rlComputeU data v alpha r1 r2 := by
  unfold ptComputeU rlComputeU
  conv_lhs => rw [show asColumn data = data.map fun x => [x] from rfl]
  rw [mapM_map]
  simp only [ptRow_one]

theorem ptUpdateV_one (data : List ℝ) (u : List (List ℝ)) (c : Nat) :
    ptUpdateV 1 (asColumn data) u c = asColumn (rlUpdateV data u c) := by
  unfold ptUpdateV rlUpdateV
  conv_rhs => rw [asColumn, List.map_map]
  refine List.map_congr_left fun k _ => ?_
  simp [List.range_succ, column_asColumn]

theorem frob_one (a b : List ℝ) : frob (asColumn a) (asColumn b) =
    Arith.sqrt (pysum (List.zipWith (fun a b => (a - b) * (a - b)) a b)) := by
  unfold frob asColumn
  rw [List.zipWith_map]
  congr 3
  funext x y
  rw [pysum_real]
  simp

theorem ptRound_one (error : ℝ) (data : List ℝ) (s : RlState ℝ) :
    ptRound error 1 (asColumn data) (liftRl s) = (rlRound error data s).map fun r => (liftRl r.1, r.2) := by
  unfold ptRound rlRound
  rw [show (liftRl s).v = asColumn s.v from rfl, show (liftRl s).alpha = s.alpha from rfl, show (liftRl s).r1 = s.r1 from rfl,
    show (liftRl s).r2 = s.r2 from rfl, show (liftRl s).r3 = s.r3 from rfl, show (liftRl s).t = s.t from rfl, ptComputeU_one]
  cases rlComputeU data s.v s.alpha s.r1 s.r2 with
  | error _ => rfl
  | ok u =>
    dsimp only [bind, Except.bind]
    cases rlUpdateAlpha u s.alpha (Arith.exp (lit (-(s.t : Int)) / lit 10)) s.r3 with
    | error _ => rfl
    | ok na =>
      dsimp only
      cases rlUpdateR3 s.alpha na u with
      | error _ => rfl
      | ok r3 =>
        dsimp only
        cases rlResize na u with
        | error _ => rfl
        | ok r =>
          dsimp only
          rw [ptUpdateV_one]
          have e : ptStop error r.1 (asColumn (rlUpdateV data r.2 r.1.length)) (asColumn s.v) =
              rlStop error r.1 (rlUpdateV data r.2 r.1.length) s.v := by
            unfold ptStop rlStop
            rw [frob_one]
            simp [asColumn]
          rw [e]
          rfl

theorem ptRlLoop_one (error : ℝ) (data : List ℝ) : ∀ (fuel : Nat) (s : RlState ℝ),
    ptRlLoop error 1 (asColumn data) fuel (liftRl s) = (rlLoop error data fuel s).map liftRl
  | 0, _ => rfl
  | fuel + 1, s => by
    unfold ptRlLoop rlLoop
    rw [ptRound_one]
    cases rlRound error data s with
    | error _ => rfl
    | ok r =>
      show (if r.2 = true then (Except.ok (liftRl r.1) : Except Err (PtRlState ℝ)) else ptRlLoop error 1 (asColumn data) fuel (liftRl r.1)) =
        Except.map liftRl (if r.2 = true then (Except.ok r.1 : Except Err (RlState ℝ)) else rlLoop error data fuel r.1)
      split
      · rfl
      · exact ptRlLoop_one error data fuel r.1

/-- On one column the robust clustering of points returns what the one of numbers does, or raises the same error. -/
theorem C117_one_column (error : ℝ) (maxIter : Nat) (data : List ℝ) :
    ptRl error maxIter 1 (asColumn data) = (rlCmeans error maxIter data).map liftRl := by
  have hl : (asColumn data).length = data.length := by simp [asColumn]
  unfold ptRl rlCmeans
  have e : ptInit (asColumn data) = (rlInit data).map liftRl := by
    unfold ptInit rlInit
    rw [hl]
    cases pdiv (lit 1 : ℝ) (lit (data.length : Int)) with
    | error _ => rfl
    | ok a =>
      show Except.ok (⟨asColumn data, (asColumn data).map (fun _ => a), none, lit 1, lit 1, lit 1, 1⟩ : PtRlState ℝ) =
        Except.ok (liftRl ⟨data, data.map (fun _ => a), none, lit 1, lit 1, lit 1, 1⟩)
      have : (asColumn data).map (fun _ => a) = data.map fun _ => a := by simp [asColumn, Function.comp_def]
      rw [this]
      rfl
  rw [e]
  cases rlInit data with
  | error _ => rfl
  | ok s => exact ptRlLoop_one error data (maxIter - 1) s

theorem ptNearestLoop_one (x : ℝ) : ∀ (cs : List ℝ) (pos : Nat) (best : ℝ) (res : Nat),
    ptNearestLoop [x] (asColumn cs) pos best res = nearestLoop x cs pos best res
  | [], _, _, _ => rfl
  | c :: cs, pos, best, res => by
    show (if pointDist [c] [x] <? best then ptNearestLoop [x] (asColumn cs) (pos + 1) (pointDist [c] [x]) pos
      else ptNearestLoop [x] (asColumn cs) (pos + 1) best res) = _
    unfold nearestLoop
    rw [pointDist_one]
    split
    · exact ptNearestLoop_one x cs _ _ _
    · exact ptNearestLoop_one x cs _ _ _

/-- On one column the prediction is the one for numbers. -/
theorem C117_predict_one (centroids xs : List ℝ) : ptPredict (asColumn centroids) (asColumn xs) = rlPredict centroids xs := by
  unfold ptPredict rlPredict
  conv_lhs => rw [show asColumn xs = xs.map fun x => [x] from rfl]
  rw [mapM_map]
  congr 1
  funext x
  cases centroids with
  | nil => rfl
  | cons c cs =>
    show Except.ok (ptNearestLoop [x] (asColumn cs) 1 (pointDist [c] [x]) 0) = Except.ok (nearestLoop x cs 1 (Arith.abs (c - x)) 0)
    rw [pointDist_one, ptNearestLoop_one]

/-- Three numbers as a column: both algorithms return (C46, C48), so neither side of the equations is an error. -/
example : ∃ r, ptCmeans (1 / 1000) 2 (1 / 10000) 20 1 (asColumn [0, 1, 5]) 2 [[1, 1, 0], [0, 0, 1]] = .ok r := by
  obtain ⟨r, h, -⟩ := C46_cmeans (eps := 1 / 1000) (m := 2) (error := 1 / 10000) (maxiter := 20) (c := 2) (data := [0, 1, 5])
    (init := [[1, 1, 0], [0, 0, 1]]) (by norm_num) (by norm_num) (by norm_num) (by simp) ⟨by simp, by simp⟩ (by norm_num)
  rw [C116_one_column, h]
  exact ⟨_, rfl⟩
example : ∃ s, ptRl (1 / 2000) 110 1 (asColumn [0, 1, 5]) = .ok s := by
  obtain ⟨s, h, -⟩ := C48_mixture (error := 1 / 2000) 110 (data := [0, 1, 5]) (by simp)
  rw [C117_one_column, h]
  exact ⟨_, rfl⟩

end PyFCM
