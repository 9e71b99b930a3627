import Verif.Lemmas.RealFn
import Mathlib.Analysis.SpecialFunctions.Trigonometric.DerivHyp
/-
C69 (the activation functions are the documented functions) and C70 (the relation measures are the statistics they are
named after).
-/
namespace PyFCM
open Arith

/-! ### C69 -/

/-- C69: `biestate` is 1 exactly on the positive numbers and 0 elsewhere. -/
theorem C69_bistate (v : ℝ) : (bistate v = 1 ↔ 0 < v) ∧ (bistate v = 0 ↔ v ≤ 0) := by
  unfold bistate
  by_cases h : v ≤ 0
  · rw [if_pos (by simpa using h)]; simp [h]
  · rw [if_neg (by simpa using h)]; simp [h, not_le.1 h]

/-- C69: `threestate` is 0 up to 1/3, 1/2 from there up to 2/3, and 1 above. -/
theorem C69_threestate (v : ℝ) : (threestate v = 0 ↔ v ≤ 1 / 3) ∧ (threestate v = 1 / 2 ↔ 1 / 3 < v ∧ v ≤ 2 / 3) ∧
    (threestate v = 1 ↔ 2 / 3 < v) := by
  unfold threestate
  by_cases h : v ≤ 1 / 3
  · rw [if_pos (by simpa using h)]
    refine ⟨by simpa using h, ?_, ?_⟩
    · simp only [real_lit, Int.cast_zero]
      exact ⟨fun hh => by norm_num at hh, fun hh => absurd h (not_le.2 hh.1)⟩
    · simp only [real_lit, Int.cast_zero]
      exact ⟨fun hh => by norm_num at hh, fun hh => by linarith⟩
  · have h1 := not_le.1 h
    rw [if_neg (by simpa using h)]
    by_cases h2 : v ≤ 2 / 3
    · rw [if_pos (by simpa using h2)]
      simp only [dec, real_lit, Int.cast_one, Int.cast_ofNat]
      exact ⟨⟨fun hh => by norm_num at hh, fun hh => absurd hh h⟩, ⟨fun _ => ⟨h1, h2⟩, fun _ => trivial⟩,
        ⟨fun hh => by norm_num at hh, fun hh => absurd h2 (not_le.2 hh)⟩⟩
    · rw [if_neg (by simpa using h2)]
      simp only [real_lit, Int.cast_one]
      exact ⟨⟨fun hh => by norm_num at hh, fun hh => absurd hh h⟩,
        ⟨fun hh => by norm_num at hh, fun hh => absurd hh.2 h2⟩, ⟨fun _ => not_le.1 h2, fun _ => trivial⟩⟩

/-- C69: `saturation` leaves the unit interval alone and moves everything else to its nearer end. -/
theorem C69_saturation (v : ℝ) :
    (0 ≤ v → v ≤ 1 → saturation v = v) ∧ (v ≤ 0 → saturation v = 0) ∧ (1 ≤ v → saturation v = 1) := by
  rw [saturation_real]
  refine ⟨fun h0 h1 => by rw [min_eq_right h1, max_eq_right h0], fun h => ?_, fun h => ?_⟩
  · rw [min_eq_right (by linarith), max_eq_left h]
  · rw [min_eq_left h, max_eq_right (by norm_num)]

/-- C69: `relm` with a positive slope is `saturation` of the quotient. -/
theorem C69_relm (v l : ℝ) (hl : 0 < l) : (0 ≤ v → v ≤ l → relm v l = .ok (v / l)) ∧
    (v ≤ 0 → relm v l = .ok 0) ∧ (l ≤ v → relm v l = .ok 1) := by
  refine ⟨fun h0 h1 => ?_, fun h => ?_, fun h => ?_⟩
  · rw [relm_real hl.ne', if_neg (not_lt.2 h0), if_neg (by rw [not_lt, div_le_one hl]; exact h1)]
  · rw [relm_real hl.ne']
    by_cases hv : v < 0
    · rw [if_pos hv]
    · have : v = 0 := le_antisymm h (not_lt.1 hv)
      subst this
      rw [if_neg (lt_irrefl _), zero_div, if_neg (by norm_num)]
  · rw [relm_real hl.ne', if_neg (by linarith)]
    by_cases hv : 1 < v / l
    · rw [if_pos hv]
    · rw [if_neg hv]
      have : v / l = 1 := le_antisymm (not_lt.1 hv) (by rw [le_div_iff₀ hl]; linarith)
      rw [this]

/-- C69: `gceq` keeps values from the weight upwards and `lceq` those up to the weight, both within [-1,1]; the others
become 0. -/
theorem C69_gceq (v w : ℝ) : (v < w → gceq v w = 0) ∧ (w ≤ v → -1 ≤ v → v ≤ 1 → gceq v w = v) ∧
    (w ≤ v → 1 ≤ v → gceq v w = 1) ∧ (w ≤ v → v ≤ -1 → gceq v w = -1) := by
  rw [gceq_real]
  refine ⟨fun h => if_neg (not_le.2 h), fun h h0 h1 => ?_, fun h h1 => ?_, fun h h1 => ?_⟩
  · rw [if_pos h, min_eq_right h1, max_eq_right h0]
  · rw [if_pos h, min_eq_left h1, max_eq_right (by norm_num)]
  · rw [if_pos h, min_eq_right (by linarith), max_eq_left h1]

theorem C69_lceq (v w : ℝ) : (w < v → lceq v w = 0) ∧ (v ≤ w → -1 ≤ v → v ≤ 1 → lceq v w = v) ∧
    (v ≤ w → 1 ≤ v → lceq v w = 1) ∧ (v ≤ w → v ≤ -1 → lceq v w = -1) := by
  rw [lceq_real]
  refine ⟨fun h => if_neg (not_le.2 h), fun h h0 h1 => ?_, fun h h1 => ?_, fun h h1 => ?_⟩
  · rw [if_pos h, min_eq_right h1, max_eq_right h0]
  · rw [if_pos h, min_eq_left h1, max_eq_right (by norm_num)]
  · rw [if_pos h, min_eq_right (by linarith), max_eq_left h1]

/-- C69: `sigmoid` is the logistic function. -/
theorem C69_sigmoid (v l : ℝ) : sigmoid v l = .ok (1 / (1 + Real.exp (-(l * v)))) := sigmoid_real v l

/-- C69: `sigmoid_hip` is the hyperbolic tangent of half the scaled value, as long as the scaled value is at least -500;
below that it stays at the value for -500. -/
theorem C69_sigmoid_hip (v l : ℝ) :
    (-500 ≤ l * v → sigmoidHip v l = .ok (Real.tanh (l * v / 2))) ∧
    (l * v ≤ -500 → sigmoidHip v l = .ok (Real.tanh (-250))) := by
  have key (x : ℝ) : (1 - Real.exp (-x)) / (1 + Real.exp (-x)) = Real.tanh (x / 2) := by
    rw [Real.tanh_eq_sinh_div_cosh, Real.sinh_eq, Real.cosh_eq]
    have h1 : Real.exp (-x) = Real.exp (-(x / 2)) * Real.exp (-(x / 2)) := by
      rw [← Real.exp_add]; congr 1; ring
    have h2 : Real.exp (x / 2) * Real.exp (-(x / 2)) = 1 := by rw [← Real.exp_add]; simp
    have p1 := Real.exp_pos (x / 2)
    have p2 := Real.exp_pos (-(x / 2))
    rw [h1, div_eq_div_iff (by positivity) (by positivity)]
    linear_combination (-Real.exp (-(x / 2))) * h2
  refine ⟨fun h => ?_, fun h => ?_⟩
  · rw [sigmoidHip_real, min_eq_right (by linarith), key]
  · rw [sigmoidHip_real, min_eq_left (by linarith)]
    have := key (-500)
    rw [neg_neg] at this
    rw [this]
    norm_num

example : bistate (0 : ℝ) = 0 ∧ bistate (1/10 : ℝ) = 1 := ⟨(C69_bistate 0).2.2 le_rfl, (C69_bistate _).1.2 (by norm_num)⟩
example : threestate (2/3 : ℝ) = 1 / 2 := (C69_threestate _).2.1.2 ⟨by norm_num, le_rfl⟩
example : relm (1 : ℝ) 2 = .ok (1 / 2) := (C69_relm 1 2 (by norm_num)).1 (by norm_num) (by norm_num)
example : gceq (7 : ℝ) (1/2) = 1 := (C69_gceq 7 (1/2)).2.2.1 (by norm_num) (by norm_num)
example : sigmoidHip (1 : ℝ) 2 = .ok (Real.tanh (2 * 1 / 2)) := (C69_sigmoid_hip 1 2).1 (by norm_num)

/-! ### C70

A sample is a list of observations: was the premise present, was the conclusion present. -/

/-- The number of observations with a property. -/
def Spec.Sample.number (S : List (Bool × Bool)) (p : Bool × Bool → Bool) : ℝ := (S.countP p : ℕ)

namespace Spec.Sample
variable (S : List (Bool × Bool))

/-- Observations of premise and conclusion. -/
noncomputable abbrev both : ℝ := number S fun o => o.1 && o.2
/-- Observations of the premise without the conclusion. -/
noncomputable abbrev premiseOnly : ℝ := number S fun o => o.1 && !o.2
/-- Observations of the conclusion without the premise. -/
noncomputable abbrev conclusionOnly : ℝ := number S fun o => !o.1 && o.2
/-- Observations of neither. -/
noncomputable abbrev neither : ℝ := number S fun o => !o.1 && !o.2
/-- Observations of the premise. -/
noncomputable abbrev premise : ℝ := number S fun o => o.1
/-- Observations of the conclusion. -/
noncomputable abbrev conclusion : ℝ := number S fun o => o.2
/-- All observations. -/
noncomputable abbrev total : ℝ := number S fun _ => true
/-- Observations where premise and conclusion agree. -/
noncomputable abbrev agree : ℝ := number S fun o => o.1 == o.2
/-- Observations where they differ. -/
noncomputable abbrev differ : ℝ := number S fun o => o.1 != o.2

end Spec.Sample

section
open Spec.Sample
variable (S : List (Bool × Bool))

theorem number_nonneg (p : Bool × Bool → Bool) : 0 ≤ number S p := Nat.cast_nonneg _

theorem number_zero_or_one_le (p : Bool × Bool → Bool) : number S p = 0 ∨ 1 ≤ number S p := by
  unfold number
  rcases Nat.eq_zero_or_pos (S.countP p) with h | h
  · left; rw [h]; simp
  · right; exact_mod_cast h

theorem number_add {p q r : Bool × Bool → Bool} (h : ∀ o, (r o = (p o || q o)) ∧ (p o && q o) = false) :
    number S p + number S q = number S r := by
  unfold number
  rw [← Nat.cast_add]
  congr 1
  induction S with
  | nil => rfl
  | cons o S ih =>
    simp only [List.countP_cons]
    have := h o
    cases hp : p o <;> cases hq : q o <;> simp_all <;> omega

theorem number_P : (both S) + (premiseOnly S) = (premise S) := number_add S (by decide)
theorem number_nP : (conclusionOnly S) + (neither S) = (total S) - (premise S) := by
  have : (number S fun o => !o.1) + (premise S) = (total S) := number_add S (by decide)
  rw [number_add S (r := fun o => !o.1) (by decide)]; linarith
theorem number_Q : (both S) + (conclusionOnly S) = (conclusion S) := number_add S (by decide)
theorem number_agree : (both S) + (neither S) = (agree S) := number_add S (by decide)
theorem number_differ : (premiseOnly S) + (conclusionOnly S) = (differ S) := number_add S (by decide)
theorem number_total : (both S) + (premiseOnly S) + (conclusionOnly S) + (neither S) = (total S) := by
  have := number_P S; have := number_nP S; linarith

theorem number_all_pos (h : S ≠ []) : 0 < (total S) := by
  unfold total number
  rw [Nat.cast_pos]
  exact List.length_pos_iff.2 h |>.trans_eq (by simp)

/-- C70: the support is the fraction of the observations with premise and conclusion. -/
theorem C70_supp (h : S ≠ []) : Relation.supp (both S) (premiseOnly S) (conclusionOnly S) (neither S) = .ok ((both S) / (total S)) := by
  unfold Relation.supp
  rw [number_total, pdiv_real (number_all_pos S h).ne']

/-- C70: the confidence is the fraction of the observations with the premise that have the conclusion too; without any
observation of the premise it is 0. -/
theorem C70_conf : Relation.conf (both S) (premiseOnly S) (conclusionOnly S) (neither S) = .ok (if (premise S) = 0 then 0 else (both S) / (premise S)) := by
  unfold Relation.conf
  rw [number_P]
  by_cases h : (premise S) = 0
  · rw [if_pos (by simpa using h), if_pos h]; simp
  · rw [if_neg (by simpa using h), if_neg h, pdiv_real h]

/-- C70: the lift is the confidence relative to the frequency of the conclusion.  It exists exactly if premise and
conclusion were observed. -/
theorem C70_lift : ((premise S) ≠ 0 → (conclusion S) ≠ 0 → Relation.lift (both S) (premiseOnly S) (conclusionOnly S) (neither S) = .ok ((both S) / (premise S) / ((conclusion S) / (total S)))) ∧
    ((premise S) = 0 ∨ (conclusion S) = 0 → Relation.lift (both S) (premiseOnly S) (conclusionOnly S) (neither S) = .error .zeroDivision) := by
  unfold Relation.lift
  rw [number_total, number_P, number_Q]
  have hN (h : (premise S) ≠ 0) : (total S) ≠ 0 := by
    have h1 := number_nP S
    have h2 := number_nonneg S fun o => !o.1 && o.2
    have h3 := number_nonneg S fun o => !o.1 && !o.2
    have h4 := lt_of_le_of_ne (number_nonneg S fun o => o.1) (Ne.symm h)
    intro h5
    linarith
  refine ⟨fun hp hq => ?_, fun h => ?_⟩
  · rw [pdiv_real hp, pdiv_real (hN hp)]
    simp only [bind, Except.bind]
    rw [pdiv_real (div_ne_zero hq (hN hp))]
  · by_cases hp : (premise S) = 0
    · rw [hp, pdiv_real_zero]; rfl
    · have hq := h.resolve_left hp
      rw [hq, pdiv_real hp, pdiv_real (hN hp), zero_div]
      simp only [bind, Except.bind]
      rw [pdiv_real_zero]

/-- C70: the odds ratio is the product of the agreeing cells over that of the differing ones (or the former alone if the
latter is 0). -/
theorem C70_odr : Relation.odr (both S) (premiseOnly S) (conclusionOnly S) (neither S) =
    .ok (if (premiseOnly S) * (conclusionOnly S) = 0 then (both S) * (neither S) else (both S) * (neither S) / ((premiseOnly S) * (conclusionOnly S))) := by
  unfold Relation.odr
  by_cases h : (premiseOnly S) * (conclusionOnly S) = 0
  · rw [if_pos (by simpa using h), if_pos h]
  · rw [if_neg (by simpa using h), if_neg h, pdiv_real h]

/-- C70: the reduced odds ratio is the number of agreeing observations over that of the differing ones (or the former
alone if there are no differing ones). -/
theorem C70_rodr : Relation.rodr (both S) (premiseOnly S) (conclusionOnly S) (neither S) = .ok (if (differ S) = 0 then (agree S) else (agree S) / (differ S)) := by
  unfold Relation.rodr
  rw [number_differ, number_agree]
  by_cases h : (differ S) = 0
  · rw [if_pos (by simpa using h), if_pos h]
  · rw [if_neg (by simpa using h), if_neg h, pdiv_real h]

/-- C70: lift and odds ratio judge alike: whenever no cell of the differing ones is empty and both measures exist, lift
exceeds 1 exactly if the odds ratio does, and that means that the conclusion is more frequent among the observations
with the premise than among all. -/
theorem C70_lift_odr (h : (premiseOnly S) * (conclusionOnly S) ≠ 0) (hp : (premise S) ≠ 0) (hq : (conclusion S) ≠ 0) :
    ∃ l o, Relation.lift (both S) (premiseOnly S) (conclusionOnly S) (neither S) = .ok l ∧ Relation.odr (both S) (premiseOnly S) (conclusionOnly S) (neither S) = .ok o ∧
      (1 < l ↔ 1 < o) ∧ (1 < l ↔ (conclusion S) / (total S) < (both S) / (premise S)) := by
  refine ⟨_, _, (C70_lift S).1 hp hq, C70_odr S, ?_⟩
  rw [if_neg h]
  have a := number_nonneg S fun o => o.1 && o.2
  have b := lt_of_le_of_ne (number_nonneg S fun o => o.1 && !o.2) (Ne.symm (left_ne_zero_of_mul h))
  have c := lt_of_le_of_ne (number_nonneg S fun o => !o.1 && o.2) (Ne.symm (right_ne_zero_of_mul h))
  have d := number_nonneg S fun o => !o.1 && !o.2
  have eP := number_P S
  have eQ := number_Q S
  have eN := number_total S
  have pP : 0 < premise S := lt_of_le_of_ne (number_nonneg S fun o => o.1) (Ne.symm hp)
  have pQ : 0 < conclusion S := lt_of_le_of_ne (number_nonneg S fun o => o.2) (Ne.symm hq)
  have pN : 0 < (total S) := by linarith
  have key : (conclusion S) / (total S) < (both S) / (premise S) ↔ (premiseOnly S) * (conclusionOnly S) < (both S) * (neither S) := by
    rw [div_lt_div_iff₀ pN pP, ← eP, ← eQ, ← eN]
    constructor <;> intro hh <;> nlinarith
  have hl : 1 < (both S) / (premise S) / ((conclusion S) / (total S)) ↔ (conclusion S) / (total S) < (both S) / (premise S) := by rw [one_lt_div (div_pos pQ pN)]
  refine ⟨?_, hl⟩
  rw [hl, key, one_lt_div (mul_pos b c)]

/-- C70: the positive influence exists exactly if the premise was observed.  It is positive, negative or zero as the
observations with the premise that have the conclusion, per differing observation, are more, fewer or as many as those
that do not have it, per agreeing observation (a number of 0 observations counts as 1). -/
theorem C70_pos_inf (hp : (premise S) ≠ 0) : ∃ r, Relation.posInf (both S) (premiseOnly S) (conclusionOnly S) (neither S) = .ok r ∧
    (0 < r ↔ (premiseOnly S) / max 1 (agree S) < (both S) / max 1 (differ S)) ∧ (r < 0 ↔ (both S) / max 1 (differ S) < (premiseOnly S) / max 1 (agree S)) ∧
    |r| ≤ max ((both S) / (premise S)) ((premiseOnly S) / (premise S)) := by
  have side (x e : ℝ) (he : e = 0 ∨ 1 ≤ e) : Relation.posInfSide x e (premise S) = .ok (x / max 1 e / (premise S)) := by
    unfold Relation.posInfSide
    rcases he with rfl | he
    · rw [if_pos (by simp), pdiv_real hp, max_eq_left (by norm_num), div_one]
    · have hep : e ≠ 0 := by intro h; rw [h] at he; norm_num at he
      rw [if_neg (by simpa using hep), pdiv_real hep]
      simp only [bind, Except.bind]
      rw [pdiv_real hp, max_eq_right he]
  unfold Relation.posInf
  rw [number_P, number_differ, number_agree, side _ _ (number_zero_or_one_le S _)]
  simp only [bind, Except.bind]
  rw [side _ _ (number_zero_or_one_le S _)]
  simp only
  have pP : 0 < premise S := lt_of_le_of_ne (number_nonneg S fun o => o.1) (Ne.symm hp)
  have p0 : 0 ≤ (both S) / max 1 (differ S) := div_nonneg (number_nonneg S _) (le_max_of_le_left (by norm_num))
  have n0 : 0 ≤ (premiseOnly S) / max 1 (agree S) := div_nonneg (number_nonneg S _) (le_max_of_le_left (by norm_num))
  have p1 : (both S) / max 1 (differ S) ≤ (both S) := div_le_self (number_nonneg S _) (le_max_left _ _)
  have n1 : (premiseOnly S) / max 1 (agree S) ≤ (premiseOnly S) := div_le_self (number_nonneg S _) (le_max_left _ _)
  by_cases h1 : (premiseOnly S) / max 1 (agree S) < (both S) / max 1 (differ S)
  · rw [if_pos (by simpa using div_lt_div_of_pos_right h1 pP)]
    refine ⟨_, rfl, ⟨fun _ => h1, fun _ => div_pos (by linarith) pP⟩, ⟨fun h => ?_, fun h => by linarith⟩, ?_⟩
    · exact absurd h (not_lt.2 (div_nonneg p0 pP.le))
    · rw [abs_of_nonneg (div_nonneg p0 pP.le)]
      exact le_max_of_le_left (div_le_div_of_nonneg_right p1 pP.le)
  · rw [if_neg (by simpa using div_le_div_of_nonneg_right (not_lt.1 h1) pP.le)]
    by_cases h2 : (both S) / max 1 (differ S) < (premiseOnly S) / max 1 (agree S)
    · rw [if_pos (by simpa using div_lt_div_of_pos_right h2 pP)]
      have hpos : 0 < (premiseOnly S) / max 1 (agree S) / (premise S) := div_pos (by linarith) pP
      refine ⟨_, rfl, ?_⟩
      simp only [real_lit, Int.reduceNeg, Int.cast_neg, Int.cast_one, neg_mul, one_mul]
      refine ⟨⟨fun h => by linarith, fun h => absurd h h1⟩, ⟨fun _ => h2, fun _ => by linarith⟩, ?_⟩
      rw [abs_neg, abs_of_pos hpos]
      exact le_max_of_le_right (div_le_div_of_nonneg_right n1 pP.le)
    · rw [if_neg (by simpa using div_le_div_of_nonneg_right (not_lt.1 h2) pP.le)]
      refine ⟨_, rfl, ?_⟩
      simp only [real_lit, Int.cast_zero, abs_zero]
      exact ⟨⟨fun h => absurd h (lt_irrefl _), fun h => absurd h h1⟩,
        ⟨fun h => absurd h (lt_irrefl _), fun h => absurd h h2⟩,
        le_max_of_le_left (div_nonneg (number_nonneg S _) pP.le)⟩

theorem C70_pos_inf_raises (hp : (premise S) = 0) : Relation.posInf (both S) (premiseOnly S) (conclusionOnly S) (neither S) = .error .zeroDivision := by
  unfold Relation.posInf Relation.posInfSide
  rw [number_P, hp]
  have hd := number_zero_or_one_le S fun o => o.1 != o.2
  rw [number_differ]
  by_cases h : (differ S) = 0
  · rw [if_pos (by simpa using h), pdiv_real_zero]; rfl
  · rw [if_neg (by simpa using h), pdiv_real h]
    simp only [bind, Except.bind]
    rw [pdiv_real_zero]

/-- C70: `bayes` weighs the surplus of premise over non-premise among the observations with the conclusion; without
surplus it is 0. -/
theorem C70_bayes (h : S ≠ []) : Relation.bayes (both S) (premiseOnly S) (conclusionOnly S) (neither S) =
    .ok (if (conclusionOnly S) < (both S) then ((both S) - (conclusionOnly S)) / (total S) * ((conclusion S) / (total S)) / ((premise S) / (total S)) else 0) := by
  have pN := number_all_pos S h
  unfold Relation.bayes
  simp only
  rw [number_total, number_P, number_Q, pdiv_real pN.ne', pdiv_real pN.ne']
  simp only [bind, Except.bind]
  by_cases h1 : (conclusionOnly S) < (both S)
  · rw [if_pos (by simpa using h1), if_pos h1, pdiv_real pN.ne']
    simp only
    have pP : 0 < (premise S) := by
      have := number_P S
      have := number_nonneg S fun o => o.1 && !o.2
      have := number_nonneg S fun o => !o.1 && o.2
      linarith
    rw [pdiv_real (div_pos pP pN).ne']
  · rw [if_neg (by simpa using h1), if_neg h1]; simp [pure, Except.pure]

/-- C70: `simple` adds the observations without the premise to the difference between confirmations and contradictions;
it is 0 if these are equally many. -/
theorem C70_simple (h : S ≠ []) : Relation.simple (both S) (premiseOnly S) (conclusionOnly S) (neither S) =
    .ok (if (both S) = (premiseOnly S) then 0 else ((both S) - (premiseOnly S) + ((total S) - (premise S))) / (total S)) := by
  have pN := number_all_pos S h
  unfold Relation.simple
  simp only
  rw [number_total]
  by_cases h1 : (both S) = (premiseOnly S)
  · rw [if_pos (by simpa using h1), if_pos h1]; simp
  · rw [if_neg (by simpa using h1), if_neg h1, if_neg (by simpa using sub_ne_zero.2 h1), pdiv_real pN.ne',
      ← number_nP S]
    congr 2
    ring

/-- C70: without observations all the measures that divide by the number of observations raise. -/
theorem C70_empty : Relation.supp (α := ℝ) 0 0 0 0 = .error .zeroDivision ∧
    Relation.bayes (α := ℝ) 0 0 0 0 = .error .zeroDivision ∧ Relation.simple (α := ℝ) 0 0 0 0 = .ok 0 := by
  refine ⟨?_, ?_, ?_⟩
  · unfold Relation.supp; simp only [add_zero]; exact pdiv_real_zero 0
  · unfold Relation.bayes; simp only [add_zero, pdiv_real_zero]; rfl
  · unfold Relation.simple; rw [if_pos (by simp)]; simp

end

/-- The numbers of a concrete sample: three observations with both, one with the premise only, two with the conclusion
only. -/
example : ∃ l o, Relation.lift (α := ℝ) 3 1 2 4 = .ok l ∧ Relation.odr (α := ℝ) 3 1 2 4 = .ok o ∧ (1 < l ↔ 1 < o) := by
  have h := C70_lift_odr ([(true, true), (true, true), (true, true), (true, false), (false, true), (false, true),
    (false, false), (false, false), (false, false), (false, false)])
  norm_num [Spec.Sample.number, List.countP_cons] at h
  obtain ⟨l, hl, o, ho, h1, _⟩ := h
  exact ⟨l, o, hl, ho, h1⟩

end PyFCM
