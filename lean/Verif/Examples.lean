import Verif.Model.ArithInst
import Verif.Model.Api
/-
Concrete maps over exact rational arithmetic, built through the public API.  They show that the hypotheses of the
theorems in `Verif/Props` are satisfiable and serve as witnesses in counterexamples.
-/
namespace PyFCM.Ex
open PyFCM

deriving instance Inhabited for FnInfo
deriving instance Inhabited for DefaultConcept
deriving instance Inhabited for Cache
deriving instance Inhabited for FCM

/-- The map returned by the constructor (an arbitrary one if it raises). -/
def made (x : Except Err (FCM ℚ)) : FCM ℚ := match x with
  | .ok m => m
  | .error _ => default

/-- `x` returned normally: its final state. -/
theorem run_eq {σ : Type} {x : Except Err Unit × σ} (h : x.1 = .ok ()) : x = (.ok (), x.2) := by
  rw [← h]

theorem reachable_made {maxIt extra stab diff dec mem act kwargs} {m0 : FCM ℚ} (ops : List (Op ℚ))
    (h : FCM.new maxIt extra stab diff dec mem act kwargs = .ok m0) : Reachable (runOps ops m0) :=
  ⟨_, _, _, _, _, _, _, _, m0, ops, h, rfl⟩

/-- No call of the sequence raises. -/
def clean {α : Type} [Arith α] (ops : List (Op α)) (m : FCM α) : Bool := match ops with
  | [] => true
  | op :: ops => match (op.run m).1 with
    | .ok () => clean ops (op.run m).2
    | .error _ => false

theorem cleanReachable_of {α : Type} [Arith α] {m : FCM α} (h : CleanReachable m) (ops : List (Op α)) (hc : clean ops m = true) :
    CleanReachable (runOps ops m) := by
  induction ops generalizing m with
  | nil => exact h
  | cons op ops ih =>
    unfold clean at hc
    split at hc
    · rename_i hok
      exact ih (.step op h (run_eq hok)) hc
    · cases hc

/-- `FuzzyCognitiveMap(max_it=5, extra_steps=2, activation_function='saturation', decision_function='LAST')`. -/
def sat0 : FCM ℚ := made (FCM.new (maxIt := 5) (extraSteps := 2) (decision := "LAST") (activation := "saturation"))

theorem sat0_new : FCM.new (maxIt := 5) (extraSteps := 2) (decision := "LAST") (activation := "saturation") = .ok sat0 :=
  rfl

/-- a -(3/4)-> b, b -(-1/2)-> a, b -(1)-> c; b is rescaled, c forgets its value; a starts at 1, b at 3/4. -/
def ops1 : List (Op ℚ) :=
  [.addConcept "a" {}, .addConcept "b" { excitation := some "PAPAGEORGIUS" },
   .addConcept "c" { type := some TYPE_DECISION, useMemory := some false },
   .addRelation "a" "b" (3/4), .addRelation "b" "a" (-1/2), .addRelation "b" "c" 1,
   .initConcept "a" 1 true, .initConcept "b" (3/4) true]

def map1 : FCM ℚ := runOps ops1 sat0

theorem map1_reachable : Reachable map1 := reachable_made ops1 sat0_new
theorem map1_clean : CleanReachable map1 := cleanReachable_of (.new sat0_new) ops1 (by decide +kernel)

/-- The map after `map1.run_inference()`. -/
def map1' : FCM ℚ := (FCM.runInference true map1).2

theorem map1_run : FCM.runInference true map1 = (.ok (), map1') := run_eq (by decide +kernel)

/-- The recorded trajectories. -/
theorem map1_traj : map1'.execution =
    [("a", [1, 3/4, 1/4, 0, 0, 0]), ("b", [3/4, 1, 1, 1, 1, 1]), ("c", [0, 1/2, 1, 1, 1, 1])] := by decide +kernel

/-- The same map with more iterations allowed, run by the vectorised engine. -/
def map2 : FCM ℚ := runOps (ops1 ++ [.assignMaxIter 9, .assignDebug false]) sat0

theorem map2_reachable : Reachable map2 := reachable_made _ sat0_new
def map2' : FCM ℚ := (FCM.runInference true map2).2
theorem map2_run : FCM.runInference true map2 = (.ok (), map2') := run_eq (by decide +kernel)

end PyFCM.Ex
