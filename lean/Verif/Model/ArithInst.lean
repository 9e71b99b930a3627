import Verif.Model.Arith
import Mathlib.Analysis.SpecialFunctions.Pow.Real
import Mathlib.Analysis.SpecialFunctions.Log.Base
/-
The two exact instances of `Arith`: ℝ (for the analytic properties) and ℚ (for computed counterexamples).
-/
namespace PyFCM

open Classical in
/-- Exact real arithmetic. -/
noncomputable instance instArithReal : Arith ℝ where
  toAdd := inferInstance
  toSub := inferInstance
  toMul := inferInstance
  toNeg := inferInstance
  toDiv := inferInstance
  lit n := (n : ℝ)
  le a b := decide (a ≤ b)
  lt a b := decide (a < b)
  eq a b := decide (a = b)
  abs := fun x => |x|
  exp := Real.exp
  log := Real.log
  log2 := fun x => Real.logb 2 x
  sqrt := Real.sqrt
  pow := fun x y => x ^ y

/-- Exact rational arithmetic, for counterexamples evaluated by the kernel.  The transcendental operations are
placeholders (constant 0); no counterexample uses them. -/
instance instArithRat : Arith ℚ where
  toAdd := inferInstance
  toSub := inferInstance
  toMul := inferInstance
  toNeg := inferInstance
  toDiv := inferInstance
  lit n := (n : ℚ)
  le a b := decide (a ≤ b)
  lt a b := decide (a < b)
  eq a b := decide (a = b)
  abs := fun x => if x < 0 then -x else x
  exp := fun _ => 0
  log := fun _ => 0
  log2 := fun _ => 0
  sqrt := fun _ => 0
  pow := fun _ _ => 0

section RealSimp
variable (a b : ℝ)
@[simp] theorem real_le : (Arith.le a b = true) ↔ a ≤ b := by simp [Arith.le]
@[simp] theorem real_lt : (Arith.lt a b = true) ↔ a < b := by simp [Arith.lt]
@[simp] theorem real_eq : (Arith.eq a b = true) ↔ a = b := by simp [Arith.eq]
@[simp] theorem real_le_f : (Arith.le a b = false) ↔ b < a := by simp [Arith.le]
@[simp] theorem real_lt_f : (Arith.lt a b = false) ↔ b ≤ a := by simp [Arith.lt]
@[simp] theorem real_eq_f : (Arith.eq a b = false) ↔ a ≠ b := by simp [Arith.eq]
@[simp] theorem real_lit (n : Int) : (lit n : ℝ) = (n : ℝ) := rfl
@[simp] theorem real_abs : (Arith.abs a : ℝ) = |a| := rfl
@[simp] theorem real_exp : (Arith.exp a : ℝ) = Real.exp a := rfl
@[simp] theorem real_log : (Arith.log a : ℝ) = Real.log a := rfl
theorem real_add : @HAdd.hAdd ℝ ℝ ℝ (@instHAdd ℝ instArithReal.toAdd) a b = a + b := rfl
end RealSimp


end PyFCM
