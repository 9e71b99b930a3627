import Verif.Lemmas.RealFn
import Mathlib.Analysis.SpecialFunctions.Sigmoid
import Mathlib.Analysis.Calculus.MeanValue
/-
Lipschitz constants of the activation functions over the reals.
-/
namespace PyFCM
open Arith

theorem sigmoid_lip (x y : ℝ) : |Real.sigmoid x - Real.sigmoid y| ≤ 1 / 4 * |x - y| := by
  have h := Convex.norm_image_sub_le_of_norm_deriv_le (f := Real.sigmoid) (s := Set.univ) (C := 1 / 4) (x := y) (y := x)
    (fun z _ => (Real.hasDerivAt_sigmoid z).differentiableAt)
    (fun z _ => by
      rw [Real.deriv_sigmoid, Real.norm_eq_abs]
      have h0 := Real.sigmoid_pos z
      have h1 := Real.sigmoid_lt_one z
      rw [abs_of_nonneg (mul_nonneg h0.le (by linarith))]
      nlinarith [sq_nonneg (Real.sigmoid z - 1 / 2)])
    convex_univ (Set.mem_univ _) (Set.mem_univ _)
  simpa [Real.norm_eq_abs] using h

theorem sigmoid_eq (v l : ℝ) : 1 / (1 + Real.exp (-(l * v))) = Real.sigmoid (l * v) := by
  rw [Real.sigmoid_def, one_div]

/-- `sigmoid` with slope `l`: constant |l|/4. -/
theorem sigmoid_lipschitz {x y l u v : ℝ} (hu : sigmoid x l = .ok u) (hv : sigmoid y l = .ok v) :
    |u - v| ≤ |l| / 4 * |x - y| := by
  rw [sigmoid_real] at hu hv
  obtain rfl := Except.ok.inj hu
  obtain rfl := Except.ok.inj hv
  rw [sigmoid_eq, sigmoid_eq]
  refine (sigmoid_lip _ _).trans (le_of_eq ?_)
  rw [← mul_sub, abs_mul]
  ring

theorem hip_eq (v l : ℝ) : (1 - Real.exp (min 500 (-(l * v)))) / (1 + Real.exp (min 500 (-(l * v)))) =
    2 * Real.sigmoid (max (-500) (l * v)) - 1 := by
  have e : min 500 (-(l * v)) = -(max (-500) (l * v)) := by
    rw [max_def, min_def]
    split_ifs <;> linarith
  rw [Real.sigmoid_def, e]
  have := Real.exp_pos (-(max (-500) (l * v)))
  field_simp
  ring

/-- `sigmoid_hip` with slope `l`: constant |l|/2. -/
theorem sigmoidHip_lipschitz {x y l u v : ℝ} (hu : sigmoidHip x l = .ok u) (hv : sigmoidHip y l = .ok v) :
    |u - v| ≤ |l| / 2 * |x - y| := by
  rw [sigmoidHip_real] at hu hv
  obtain rfl := Except.ok.inj hu
  obtain rfl := Except.ok.inj hv
  rw [hip_eq, hip_eq]
  have h := sigmoid_lip (max (-500) (l * x)) (max (-500) (l * y))
  have h2 : |max (-500) (l * x) - max (-500) (l * y)| ≤ |l * x - l * y| := by
    have := abs_max_sub_max_le_max (-500) (l * x) (-500) (l * y)
    simpa using this
  have e : 2 * Real.sigmoid (max (-500) (l * x)) - 1 - (2 * Real.sigmoid (max (-500) (l * y)) - 1) =
      2 * (Real.sigmoid (max (-500) (l * x)) - Real.sigmoid (max (-500) (l * y))) := by ring
  rw [e, abs_mul, abs_of_pos (by norm_num : (0 : ℝ) < 2)]
  rw [← mul_sub, abs_mul] at h2
  linarith

theorem clamp_lip (x y : ℝ) : |max 0 (min 1 x) - max 0 (min 1 y)| ≤ |x - y| := by
  have h1 := abs_max_sub_max_le_max 0 (min 1 x) 0 (min 1 y)
  have h2 := abs_min_sub_min_le_max 1 x 1 y
  simp only [sub_self, abs_zero, abs_nonneg, max_eq_right] at h1 h2
  exact h1.trans h2

/-- `saturation`: constant 1. -/
theorem saturation_lipschitz (x y : ℝ) : |saturation x - saturation y| ≤ 1 * |x - y| := by
  rw [saturation_real, saturation_real, one_mul]
  exact clamp_lip x y

/-- `relm` with slope `l > 0`: constant 1/l. -/
theorem relm_lipschitz {x y l u v : ℝ} (hl : 0 < l) (hu : relm x l = .ok u) (hv : relm y l = .ok v) :
    |u - v| ≤ 1 / l * |x - y| := by
  have e : ∀ z : ℝ, (if z < 0 then 0 else if 1 < z / l then 1 else z / l) = max 0 (min 1 (z / l)) := by
    intro z
    by_cases h : z < 0
    · have : z / l < 0 := div_neg_of_neg_of_pos h hl
      rw [if_pos h, min_eq_right (by linarith), max_eq_left this.le]
    · have : 0 ≤ z / l := div_nonneg (not_lt.1 h) hl.le
      rw [if_neg h]
      by_cases h1 : 1 < z / l
      · rw [if_pos h1, min_eq_left h1.le, max_eq_right (by norm_num)]
      · rw [if_neg h1, min_eq_right (not_lt.1 h1), max_eq_right this]
  rw [relm_real hl.ne'] at hu hv
  obtain rfl := Except.ok.inj hu
  obtain rfl := Except.ok.inj hv
  rw [e, e]
  refine (clamp_lip _ _).trans (le_of_eq ?_)
  rw [← sub_div, abs_div, abs_of_pos hl]
  ring

end PyFCM
