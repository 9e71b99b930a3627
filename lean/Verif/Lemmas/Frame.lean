import Verif.Model.Engine
/-
Inference before the decision does not look at the decision function.
-/
namespace PyFCM
open Arith

set_option linter.unusedSectionVars false

variable {α : Type} [Arith α]

/-- The same map with another decision function (the effect of `set_map_decision_function`). -/
def FCM.withDec (f : DecFn) (nm : String) (m : FCM α) : FCM α := { m with decisionFn := f, decisionName := nm }

/-- `x` commutes with changing the decision function. -/
def Comm (f : DecFn) (nm : String) (x : PyM (FCM α) Unit) : Prop :=
  ∀ m, x (m.withDec f nm) = ((x m).1, (x m).2.withDec f nm)

variable {f : DecFn} {nm : String}

theorem Comm.forEach {ι : Type} {g : ι → PyM (FCM α) Unit} (xs : List ι) (hg : ∀ x, Comm f nm (g x)) :
    Comm f nm (PyM.forEach xs g) := by
  intro m
  induction xs generalizing m with
  | nil => rfl
  | cons x xs ih =>
    unfold PyM.forEach
    rw [hg x m]
    cases h : g x m with
    | mk r m1 =>
      cases r with
      | error e => rfl
      | ok u => exact ih m1

theorem resetOne_comm (c : String) : Comm f nm (resetOne (α := α) c) := by
  intro m
  simp only [resetOne, FCM.withDec]
  split
  · rfl
  · split <;> rfl

theorem gatherArc_comm (a : Arc α) : Comm f nm (gatherArc a) := by
  intro m
  simp only [gatherArc, FCM.withDec]
  split
  · rfl
  · split
    · split
      · rfl
      · split <;> rfl
    · rfl

theorem stepNode_comm (c : String) : Comm f nm (stepNode (α := α) c) := by
  intro m
  simp only [stepNode, FCM.withDec]
  split
  · rfl
  · split
    · rfl
    · split
      · rfl
      · split
        · rfl
        · split
          · rfl
          · split
            · rfl
            · split <;> rfl

theorem keepExecution_comm (m : FCM α) : (m.withDec f nm).keepExecution = m.keepExecution := rfl

theorem stepOnce_comm : Comm f nm (FCM.stepOnce (α := α)) := by
  intro m
  unfold FCM.stepOnce
  have h1 := Comm.forEach (f := f) (nm := nm) m.arcList gatherArc_comm m
  have e : (m.withDec f nm).arcList = m.arcList := rfl
  rw [e, h1]
  cases h : PyM.forEach m.arcList gatherArc m with
  | mk r m1 =>
    cases r with
    | error e => rfl
    | ok u =>
      dsimp only
      have h2 := Comm.forEach (f := f) (nm := nm) m1.execution.keys stepNode_comm m1
      have e' : (m1.withDec f nm).execution = m1.execution := rfl
      rw [e', h2]
      cases h' : PyM.forEach m1.execution.keys stepNode m1 with
      | mk r m2 => cases r <;> rfl

theorem iterLoop_comm (fuel extra : Nat) : Comm f nm (FCM.iterLoop (α := α) fuel extra) := by
  induction fuel generalizing extra with
  | zero => intro m; unfold FCM.iterLoop; split <;> rfl
  | succ k ih =>
    intro m
    unfold FCM.iterLoop
    split
    · rw [keepExecution_comm]
      cases m.keepExecution with
      | error e => rfl
      | ok keep =>
        dsimp only
        rw [stepOnce_comm m]
        cases h : FCM.stepOnce m with
        | mk r m1 =>
          cases r with
          | error e => rfl
          | ok u => exact ih _ m1
    · rfl

theorem iterative_comm : Comm f nm (FCM.iterativeInference (α := α)) := by
  intro m
  exact iterLoop_comm _ _ { m with iterations := 1 }

theorem vectorRunStore_comm (m : FCM α) :
    (m.withDec f nm).vectorRunStore = (m.vectorRunStore.1, m.vectorRunStore.2.withDec f nm) := by
  simp only [FCM.vectorRunStore, FCM.withDec]
  split
  · rfl
  · split <;> rfl

theorem vectorized_comm : Comm f nm (FCM.vectorizedInference (α := α)) := by
  intro m
  unfold FCM.vectorizedInference
  dsimp only
  by_cases hp : m.prepared = true
  · rw [if_pos hp, if_pos (show (m.withDec f nm).prepared = true from hp)]
    exact vectorRunStore_comm { m with stateVector := _ }
  · rw [if_neg hp, if_neg (show ¬ (m.withDec f nm).prepared = true from hp)]
    have e : (m.withDec f nm).prepare = m.prepare := rfl
    rw [e]
    cases m.prepare with
    | error e => rfl
    | ok c => exact vectorRunStore_comm { m with prepared := true, stateVector := _, cache := c }

theorem engine_comm : Comm f nm (FCM.engine (α := α)) := by
  intro m
  unfold FCM.engine
  by_cases hd : m.debug = true
  · rw [if_pos hd, if_pos (show (m.withDec f nm).debug = true from hd)]; exact iterative_comm m
  · rw [if_neg hd, if_neg (show ¬ (m.withDec f nm).debug = true from hd)]; exact vectorized_comm m

theorem reset_comm : Comm f nm (FCM.resetExecution (α := α)) := by
  intro m
  exact Comm.forEach m.topology.keys resetOne_comm m

end PyFCM
