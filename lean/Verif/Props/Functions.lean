import Verif.Lemmas.Fuzzy
import Verif.Lemmas.Args
/-
Properties of the scalar functions: ranges (C06), interpolation (C23), sigmoids (C26), name tables (C27),
relation measures (C37), `Fuzzy.fuzzyfication` (C53).
-/
namespace PyFCM
open Arith

/-! ### C06: ranges -/

theorem C06_saturation (v : ℝ) : 0 ≤ saturation v ∧ saturation v ≤ 1 := by
  rw [saturation_real]
  exact ⟨le_max_left _ _, max_le (by norm_num) (min_le_left _ _)⟩

theorem C06_bistate (v : ℝ) : bistate v = 0 ∨ bistate v = 1 := by
  unfold bistate; split <;> simp

theorem C06_threestate (v : ℝ) : threestate v = 0 ∨ threestate v = 1 / 2 ∨ threestate v = 1 := by
  unfold threestate
  split
  · left; simp
  · split
    · right; left; simp [dec]
    · right; right; simp

/-- `sigmoid` never raises and stays strictly inside (0,1), whatever the slope. -/
theorem C06_sigmoid (v l : ℝ) : ∃ r, sigmoid v l = .ok r ∧ 0 < r ∧ r < 1 := by
  refine ⟨_, sigmoid_real v l, by positivity, ?_⟩
  rw [div_lt_one (by positivity)]
  linarith [Real.exp_pos (-(l * v))]

/-- `sigmoid_hip` never raises and stays strictly inside (-1,1). -/
theorem C06_sigmoid_hip (v l : ℝ) : ∃ r, sigmoidHip v l = .ok r ∧ -1 < r ∧ r < 1 := by
  refine ⟨_, sigmoidHip_real v l, ?_, ?_⟩
  · rw [lt_div_iff₀ (by positivity)]; linarith
  · rw [div_lt_one (by positivity)]; linarith [Real.exp_pos (min 500 (-(l * v)))]

/-- `relm` with a positive slope. -/
theorem C06_relm (v l : ℝ) (hl : 0 < l) : ∃ r, relm v l = .ok r ∧ 0 ≤ r ∧ r ≤ 1 := by
  refine ⟨_, relm_real hl.ne', ?_⟩
  split
  · norm_num
  · split
    · norm_num
    · rename_i h1 h2
      exact ⟨div_nonneg (not_lt.1 h1) hl.le, not_lt.1 h2⟩

/-- The slope has to be positive: with a negative one `relm` is unbounded below, with slope 0 it raises. -/
theorem C06_relm_slope (b : ℝ) (hb : 0 ≤ b) : relm b (-1) = .ok (-b) ∧ relm b 0 = .error .zeroDivision := by
  constructor
  · rw [relm_real (by norm_num), if_neg (not_lt.2 hb), if_neg (by rw [div_neg, div_one]; linarith), div_neg, div_one]
  · unfold relm
    rw [if_neg (by simpa using hb), pdiv_real_zero]
    rfl

theorem C06_gceq (v w : ℝ) : -1 ≤ gceq v w ∧ gceq v w ≤ 1 := by
  rw [gceq_real]
  split
  · exact ⟨le_max_left _ _, max_le (by norm_num) (min_le_left _ _)⟩
  · norm_num

theorem C06_lceq (v w : ℝ) : -1 ≤ lceq v w ∧ lceq v w ≤ 1 := by
  rw [lceq_real]
  split
  · exact ⟨le_max_left _ _, max_le (by norm_num) (min_le_left _ _)⟩
  · norm_num

/-- `fuzzy_set` on a sorted description with memberships in [0,1]. -/
theorem C06_fuzzy {v r : ℝ} {mb vl : List ℝ} (hs : vl.Pairwise (· ≤ ·)) (hlen : mb.length = vl.length)
    (hm : ∀ m ∈ mb, 0 ≤ m ∧ m ≤ 1) (h : fuzzySet v mb vl = .ok r) : -1 ≤ r ∧ r ≤ 1 :=
  fuzzySet_range hs hlen hm h

/-! ### C23: interpolation -/

/-- The specification determines the value on strictly increasing lists. -/
theorem Spec.Interp.unique {xs ys : List ℝ} {x y y' : ℝ} (hs : xs.Pairwise (· < ·))
    (h : Spec.Interp xs ys x y) (h' : Spec.Interp xs ys x y') (hne : xs ≠ []) : y = y' := by
  have lt_of {i j : Nat} {a b : ℝ} (hi : xs[i]? = some a) (hj : xs[j]? = some b) (hij : i < j) : a < b := by
    obtain ⟨h1, rfl⟩ := List.getElem?_eq_some_iff.1 hi
    obtain ⟨h2, rfl⟩ := List.getElem?_eq_some_iff.1 hj
    exact List.pairwise_iff_getElem.1 hs _ _ _ _ hij
  have le_idx {i j : Nat} {a b : ℝ} (hi : xs[i]? = some a) (hj : xs[j]? = some b) (hab : a < b) : i < j := by
    rcases Nat.lt_trichotomy i j with h | h | h
    · exact h
    · subst h; rw [hi] at hj; cases hj; exact absurd hab (lt_irrefl _)
    · exact absurd (lt_of hj hi h) (not_lt.2 hab.le)
  have mem {i : Nat} {a : ℝ} (hi : xs[i]? = some a) : a ∈ xs := List.mem_of_getElem? hi
  obtain ⟨x0, xr, hx⟩ := List.exists_cons_of_ne_nil hne
  have m0 : x0 ∈ xs := by rw [hx]; simp
  cases h with
  | listed i hx hy =>
    cases h' with
    | listed j hx' hy' =>
      rcases Nat.lt_trichotomy i j with h | h | h
      · exact absurd (lt_of hx hx' h) (lt_irrefl _)
      · subst h; rw [hy] at hy'; exact Option.some.inj hy'
      · exact absurd (lt_of hx' hx h) (lt_irrefl _)
    | below h' _ => exact absurd (h' _ (mem hx)) (lt_irrefl _)
    | above h' _ => exact absurd (h' _ (mem hx)) (lt_irrefl _)
    | between j x0 x1 y0 y1 h0 h1 k0 k1 l0 l1 hy' =>
      have := le_idx h0 hx l0; have := le_idx hx h1 l1; omega
  | below hb hy =>
    cases h' with
    | listed j hx' hy' => exact absurd (hb _ (mem hx')) (lt_irrefl _)
    | below h' hy' => rw [hy] at hy'; exact Option.some.inj hy'
    | above h' hy' => exact absurd (hb _ m0) (not_lt.2 (h' _ m0).le)
    | between j x0 x1 y0 y1 h0 h1 k0 k1 l0 l1 hy' => exact absurd (hb _ (mem h0)) (not_lt.2 l0.le)
  | above ha hy =>
    cases h' with
    | listed j hx' hy' => exact absurd (ha _ (mem hx')) (lt_irrefl _)
    | below h' hy' => exact absurd (ha _ m0) (not_lt.2 (h' _ m0).le)
    | above h' hy' => rw [hy] at hy'; exact Option.some.inj hy'
    | between j x0 x1 y0 y1 h0 h1 k0 k1 l0 l1 hy' => exact absurd (ha _ (mem h1)) (not_lt.2 l1.le)
  | between i x0 x1 y0 y1 h0 h1 k0 k1 l0 l1 hy =>
    cases h' with
    | listed j hx' hy' => have := le_idx h0 hx' l0; have := le_idx hx' h1 l1; omega
    | below h' hy' => exact absurd (h' _ (mem h0)) (not_lt.2 l0.le)
    | above h' hy' => exact absurd (h' _ (mem h1)) (not_lt.2 l1.le)
    | between j z0 z1 w0 w1 g0 g1 e0 e1 n0 n1 hy' =>
      have a1 := le_idx h0 g1 (l0.trans n1)
      have a2 := le_idx g0 h1 (n0.trans l1)
      have : i = j := by omega
      subst this
      rw [h0] at g0; rw [h1] at g1; rw [k0] at e0; rw [k1] at e1
      cases g0; cases g1; cases e0; cases e1
      rw [hy, hy']

/-- C23 as stated. -/
def C23_full : Prop := ∀ (v : ℝ) (mb vl : List ℝ), vl.Pairwise (· < ·) → mb.length = vl.length → vl ≠ [] →
  ∃ y, fuzzySet v mb vl = .ok y ∧ Spec.Interp vl mb v y

/-- C23, non-negative inputs: for a strictly increasing description with two or more points and memberships in
[-1,1], `fuzzy_set` is the piecewise linear interpolation. -/
theorem C23_interpolates_partial {v : ℝ} {mb vl : List ℝ} (hs : vl.Pairwise (· < ·))
    (hlen : mb.length = vl.length) (h2 : 2 ≤ vl.length) (hm : ∀ m ∈ mb, -1 ≤ m ∧ m ≤ 1) (hv : 0 ≤ v) :
    ∃ y, fuzzySet v mb vl = .ok y ∧ Spec.Interp vl mb v y := by
  have hb : (false = true) ↔ Mirrored vl v := by
    simp only [Bool.false_eq_true, false_iff]
    rintro ⟨h, -⟩; linarith
  obtain ⟨y, hy, he⟩ := fuzzySet_interp (hs.imp fun h => h.le) hlen h2 hm hb (.inl hv)
  exact ⟨y, by simpa [mirror] using he, by simpa using hy⟩

/-- C23, negative inputs on descriptions inside [0,1]: the code mirrors, it returns `-(1 - m)` for the membership
`m` interpolated at `|v|`, so the stated property is false there. -/
theorem C23_mirrored {v : ℝ} {mb vl : List ℝ} (hs : vl.Pairwise (· < ·))
    (hlen : mb.length = vl.length) (h2 : 2 ≤ vl.length) (hm : ∀ m ∈ mb, -1 ≤ m ∧ m ≤ 1) (hv : v < 0)
    (h01 : ∀ x ∈ vl, 0 ≤ x ∧ x ≤ 1) :
    ∃ y, fuzzySet v mb vl = .ok (-(1 - y)) ∧ Spec.Interp vl mb (-v) y := by
  have hb : (true = true) ↔ Mirrored vl v := by
    simp only [true_iff]; exact ⟨hv, h01⟩
  obtain ⟨y, hy, he⟩ := fuzzySet_interp (hs.imp fun h => h.le) hlen h2 hm hb (.inr rfl)
  exact ⟨y, by simpa [mirror] using he, by simpa using hy⟩

/-- C23 is false as stated: three descriptions on which `fuzzy_set` does not interpolate.
Negative inputs between listed points of an unscaled description are looked up with their sign dropped; negative
inputs below a description inside [0,1] do not give the first membership; a one-point description reads past
its end. -/
theorem C23_counterexample :
    fuzzySet (-15/2 : ℚ) [0, 1, 0] [-10, -5, 5] = .ok (-1) ∧
    fuzzySet (-1/2 : ℚ) [0, 1] [0, 1] = .ok (-1/2) ∧
    fuzzySet (2 : ℚ) [1] [1] = .error .oob := by
  decide +kernel

/-- C23 is false as stated, over the reals: -1/2 lies below the description `0 ↦ 0, 1 ↦ 1` and is not mapped to 0. -/
theorem C23_false : ¬ C23_full := by
  intro h
  obtain ⟨y, hy, hi⟩ := h (-1/2) [0, 1] [0, 1] (by simp) rfl (by simp)
  obtain ⟨z, hz, hj⟩ := C23_mirrored (v := -1/2) (mb := [0, 1]) (vl := [0, 1]) (by simp) rfl (by simp) (by simp)
    (by norm_num) (by simp)
  have h0 : y = 0 := hi.unique (by simp) (.below (by norm_num) rfl) (by simp)
  have h1 : z = 1/2 := hj.unique (by simp)
    (.between 0 0 1 0 1 rfl rfl rfl rfl (by norm_num) (by norm_num) (by norm_num)) (by simp)
  rw [hz] at hy
  injection hy with hy
  rw [h0, h1] at hy
  norm_num at hy

/-- The interpolation theorem applies to an ordinary description; here at a point between two listed values. -/
example : ∃ y, fuzzySet (15 : ℝ) [0, 1, 0] [10, 20, 30] = .ok y ∧ y = 1 / 2 := by
  obtain ⟨y, h1, h2⟩ := C23_interpolates_partial (v := 15) (mb := [0, 1, 0]) (vl := [10, 20, 30])
    (by norm_num) rfl (by norm_num) (by norm_num) (by norm_num)
  refine ⟨y, h1, ?_⟩
  refine h2.unique (by norm_num) ?_ (by simp)
  exact .between 0 10 20 0 1 rfl rfl rfl rfl (by norm_num) (by norm_num) (by norm_num)

/-! ### C26: sigmoids -/

theorem C26_sigmoid_mono {x y l a b : ℝ} (hl : 0 < l) (hxy : x < y) (ha : sigmoid x l = .ok a)
    (hb : sigmoid y l = .ok b) : a < b := by
  rw [sigmoid_real] at ha hb
  obtain rfl := Except.ok.inj ha
  obtain rfl := Except.ok.inj hb
  apply one_div_lt_one_div_of_lt (by positivity)
  have : Real.exp (-(l * y)) < Real.exp (-(l * x)) := Real.exp_lt_exp.2 (by nlinarith)
  linarith

theorem C26_sigmoid_symm (x l : ℝ) {a b : ℝ} (ha : sigmoid x l = .ok a) (hb : sigmoid (-x) l = .ok b) :
    b = 1 - a := by
  rw [sigmoid_real] at ha hb
  obtain rfl := Except.ok.inj ha
  obtain rfl := Except.ok.inj hb
  have e : Real.exp (-(l * -x)) = (Real.exp (-(l * x)))⁻¹ := by rw [← Real.exp_neg]; congr 1; ring
  rw [e]
  have hp := Real.exp_pos (-(l * x))
  generalize Real.exp (-(l * x)) = t at hp
  field_simp
  ring

/-- Monotone, not strictly: below the cut at exponent 500 the function is constant. -/
theorem C26_sigmoid_hip_mono {x y l a b : ℝ} (hl : 0 < l) (hxy : x ≤ y) (ha : sigmoidHip x l = .ok a)
    (hb : sigmoidHip y l = .ok b) : a ≤ b := by
  rw [sigmoidHip_real] at ha hb
  obtain rfl := Except.ok.inj ha
  obtain rfl := Except.ok.inj hb
  have h : Real.exp (min 500 (-(l * y))) ≤ Real.exp (min 500 (-(l * x))) :=
    Real.exp_le_exp.2 (min_le_min le_rfl (by nlinarith))
  rw [div_le_div_iff₀ (by positivity) (by positivity)]
  nlinarith

/-- `sigmoid_lambda` fits the slope exactly. -/
theorem C26_sigmoid_fit {x y : ℝ} (hx : x ≠ 0) (h0 : 0 < y) (h1 : y < 1) :
    ∃ l, sigmoidLambda x y = .ok l ∧ sigmoid x l = .ok y := by
  refine ⟨-(Real.log (1 / y - 1) / x), ?_, ?_⟩
  · unfold sigmoidLambda
    rw [pdiv_real h0.ne']
    simp only [bind, Except.bind, pdiv_real hx]
    simp [pure, Except.pure]
  · rw [sigmoid_real]
    have hp : 0 < 1 / y - 1 := by
      have : 1 < 1 / y := by rw [lt_div_iff₀ h0]; linarith
      linarith
    have e : -(-(Real.log (1 / y - 1) / x) * x) = Real.log (1 / y - 1) := by field_simp
    rw [e, Real.exp_log hp]
    congr 1
    field_simp
    ring

/-- `sigmoid_hip_lambda` fits the slope exactly, for every target the cut exponent can reach. -/
theorem C26_sigmoid_hip_fit {x y : ℝ} (hx : x ≠ 0) (h0 : -1 < y) (h1 : y < 1)
    (hc : Real.log ((1 - y) / (1 + y)) ≤ 500) :
    ∃ l, sigmoidHipLambda x y = .ok l ∧ sigmoidHip x l = .ok y := by
  have hy : (1 + y) ≠ 0 := by linarith
  refine ⟨-(Real.log ((1 - y) / (1 + y)) / x), ?_, ?_⟩
  · unfold sigmoidHipLambda
    have e : (lit 1 : ℝ) = 1 := by simp
    rw [e, pdiv_real hy]
    simp only [bind, Except.bind, pdiv_real hx]
    simp [pure, Except.pure]
  · rw [sigmoidHip_real]
    have hp : 0 < (1 - y) / (1 + y) := div_pos (by linarith) (by linarith)
    have e : -(-(Real.log ((1 - y) / (1 + y)) / x) * x) = Real.log ((1 - y) / (1 + y)) := by field_simp
    rw [e, min_eq_right hc, Real.exp_log hp]
    congr 1
    have h2 : (1 - (1 - y) / (1 + y)) = 2 * y / (1 + y) := by field_simp; ring
    have h3 : (1 + (1 - y) / (1 + y)) = 2 / (1 + y) := by field_simp; ring
    rw [h2, h3]
    field_simp

/-- The targets the property names: `0 ≤ y < 1`. -/
theorem C26_sigmoid_hip_fit_nonneg {x y : ℝ} (hx : 0 < x) (h0 : 0 ≤ y) (h1 : y < 1) :
    ∃ l, sigmoidHipLambda x y = .ok l ∧ sigmoidHip x l = .ok y := by
  refine C26_sigmoid_hip_fit hx.ne' (by linarith) h1 ?_
  have hp : 0 < (1 - y) / (1 + y) := div_pos (by linarith) (by linarith)
  have : (1 - y) / (1 + y) ≤ 1 := by rw [div_le_one (by linarith)]; linarith
  exact (Real.log_nonpos hp.le this).trans (by norm_num)

example : ∃ l, sigmoidHipLambda (2 : ℝ) (4/5) = .ok l ∧ sigmoidHip 2 l = .ok (4/5) :=
  C26_sigmoid_hip_fit_nonneg (by norm_num) (by norm_num) (by norm_num)

/-! ### C27: name tables -/

/-- The callable and the constant of a name are both defined or both undefined. -/
theorem C27_both (n : String) :
    (Activation.getFunctionByName n).isSome = (Activation.getConstByName n).isSome := by
  rw [getConst_eq]; cases Activation.getFunctionByName n <;> rfl

/-- Whenever the keyword call of a name's callable returns, dispatching the name's constant on the vector built
from the keywords returns the same value. -/
theorem C27_same {α : Type} [Arith α] {n : String} {f : ActFn} {id : Nat} {x y : α} {args : Args α}
    (hf : Activation.getFunctionByName n = some f) (hid : Activation.getConstByName n = some id)
    (hl : ∀ m v, args.get? "membership" = some (.arr m) → args.get? "val_list" = some (.arr v) →
      m.length = v.length)
    (h : callActv f x args = .ok y) :
    ∃ vect, processFunctionArgs args = .ok vect ∧ execActvFunction id x vect = .ok y := by
  rw [getConst_eq, hf] at hid
  obtain rfl := Option.some.inj hid
  refine callActv_vect h fun m v hk => ?_
  rcases kwFuzzy_cases hk with rfl | rfl
  · exact hl m v (by simp [Dict.get?]) (by simp [Dict.get?])
  · exact hl m v (by simp [Dict.get?]) (by simp [Dict.get?])

/-- The table is not empty and the vectorised dispatch is reached with real arguments. -/
example : ∃ vect, processFunctionArgs ([("val_list", .arr [1, 2]), ("membership", .arr [0, 1])] : Args ℚ) = .ok vect ∧
    execActvFunction FUNC_FUZZY (3/2 : ℚ) vect = .ok (1/2) := by
  refine C27_same (n := "fuzzy") (f := .fuzzy) rfl rfl ?_ (by decide +kernel)
  intro m v h1 h2
  simp [Dict.get?] at h1 h2
  subst h1; subst h2; rfl

/-- C27 as stated (the first two conjuncts are `C27_both` and `C27_same`). -/
def C27_full : Prop :=
  (∀ n, (Activation.getFunctionByName n).isSome = (Activation.getConstByName n).isSome) ∧
  (∀ (α : Type) [Arith α] (n : String) (f : ActFn) (id : Nat) (x y : α) (args : Args α),
    Activation.getFunctionByName n = some f → Activation.getConstByName n = some id →
    (∀ m v, args.get? "membership" = some (.arr m) → args.get? "val_list" = some (.arr v) → m.length = v.length) →
    callActv f x args = .ok y → ∃ vect, processFunctionArgs args = .ok vect ∧ execActvFunction id x vect = .ok y) ∧
  (∀ n ∈ Activation.functionNames, (Activation.getFunctionByName n).isSome) ∧
  (∀ n ∈ Excitation.functionNames, (Excitation.getByName n).isSome) ∧
  (∀ n ∈ Decision.functionNames, (Decision.getByName n).isSome)

/-- Every advertised name except one per table resolves; `Decision` is complete. -/
theorem C27_advertised_partial :
    (∀ n ∈ Activation.functionNames, n ≠ "proportion" → (Activation.getFunctionByName n).isSome) ∧
    (∀ n ∈ Excitation.functionNames, n ≠ "MEAN" → (Excitation.getByName n).isSome) ∧
    (∀ n ∈ Decision.functionNames, (Decision.getByName n).isSome) := by decide

/-- C27 is false as stated: "proportion" and "MEAN" are advertised and do not resolve. -/
theorem C27_counterexample :
    ("proportion" ∈ Activation.functionNames ∧ Activation.getFunctionByName "proportion" = none) ∧
    ("MEAN" ∈ Excitation.functionNames ∧ Excitation.getByName "MEAN" = none) := by decide
theorem C27_false : ¬ C27_full := by
  intro h
  have := h.2.2.1 "proportion" (by decide)
  rw [C27_counterexample.1.2] at this
  cases this

/-! ### C37: relation measures -/

section
variable {a b c d : ℝ}

theorem C37_supp (ha : 0 ≤ a) (hb : 0 ≤ b) (hc : 0 ≤ c) (hd : 0 ≤ d) (h : 0 < a + b) :
    ∃ r, Relation.supp a b c d = .ok r ∧ 0 ≤ r ∧ r ≤ 1 := by
  refine ⟨_, pdiv_real (by linarith), ?_, ?_⟩
  · exact div_nonneg ha (by linarith)
  · rw [div_le_one (by linarith)]; linarith

theorem C37_conf (ha : 0 ≤ a) (hb : 0 ≤ b) : ∃ r, Relation.conf a b c d = .ok r ∧ 0 ≤ r ∧ r ≤ 1 := by
  unfold Relation.conf
  by_cases h : a + b = 0
  · rw [if_pos (by simpa using h)]; exact ⟨_, rfl, by simp⟩
  · rw [if_neg (by simpa using h)]
    have hp : 0 < a + b := lt_of_le_of_ne (by linarith) (Ne.symm h)
    refine ⟨_, pdiv_real h, div_nonneg ha hp.le, ?_⟩
    rw [div_le_one hp]; linarith

theorem C37_simple (ha : 0 ≤ a) (hb : 0 ≤ b) (hc : 0 ≤ c) (hd : 0 ≤ d) (h : 0 < a + b) :
    ∃ r, Relation.simple a b c d = .ok r ∧ -1 ≤ r ∧ r ≤ 1 := by
  unfold Relation.simple
  by_cases h1 : a = b
  · rw [if_pos (by simpa using h1)]; exact ⟨_, rfl, by simp⟩
  · rw [if_neg (by simpa using h1), if_neg (by simpa using sub_ne_zero.2 h1)]
    have hp : 0 < a + b + c + d := by linarith
    refine ⟨_, pdiv_real hp.ne', ?_, ?_⟩
    · rw [le_div_iff₀ hp]; linarith
    · rw [div_le_one hp]; linarith

end

/-- One side of `pos_inf`: `x / e / t` (or `x / t` when nothing contradicts) for counts. -/
theorem posInf_side {x e t : ℝ} (hx : 0 ≤ x) (he : e = 0 ∨ 1 ≤ e) (hxt : x ≤ t) (ht : 0 < t) :
    ∃ r, Relation.posInfSide x e t = .ok r ∧ 0 ≤ r ∧ r ≤ 1 := by
  unfold Relation.posInfSide
  have hq : x / t ≤ 1 := by rw [div_le_one ht]; exact hxt
  rcases he with rfl | he
  · rw [if_pos (by simp)]
    exact ⟨_, pdiv_real ht.ne', div_nonneg hx ht.le, hq⟩
  · have hep : 0 < e := by linarith
    rw [if_neg (by simpa using hep.ne'), pdiv_real hep.ne']
    refine ⟨_, pdiv_real ht.ne', div_nonneg (div_nonneg hx hep.le) ht.le, ?_⟩
    rw [div_le_one ht]
    exact (div_le_self hx he).trans hxt

/-- C37 as stated: all four measures, every table of non-negative numbers with a present premise (the first three
conjuncts are `C37_supp`, `C37_conf`, `C37_simple`). -/
def C37_full : Prop := ∀ a b c d : ℝ, 0 ≤ a → 0 ≤ b → 0 ≤ c → 0 ≤ d → 0 < a + b →
  (∃ r, Relation.supp a b c d = .ok r ∧ 0 ≤ r ∧ r ≤ 1) ∧ (∃ r, Relation.conf a b c d = .ok r ∧ 0 ≤ r ∧ r ≤ 1) ∧
  (∃ r, Relation.simple a b c d = .ok r ∧ -1 ≤ r ∧ r ≤ 1) ∧ (∃ r, Relation.posInf a b c d = .ok r ∧ -1 ≤ r ∧ r ≤ 1)

/-- `pos_inf` on tables of counts (every cell 0 or at least 1), the case of discrete features.  Missing from the
full statement: fractional tables, where it is false (`C37_counterexample`). -/
theorem C37_pos_inf_partial {a b c d : ℝ} (ha : a = 0 ∨ 1 ≤ a) (hb : b = 0 ∨ 1 ≤ b) (hc : c = 0 ∨ 1 ≤ c)
    (hd : d = 0 ∨ 1 ≤ d) (h : 0 < a + b) :
    ∃ r, Relation.posInf a b c d = .ok r ∧ -1 ≤ r ∧ r ≤ 1 := by
  have a0 : 0 ≤ a := by rcases ha with h | h <;> linarith
  have b0 : 0 ≤ b := by rcases hb with h | h <;> linarith
  have hbc : b + c = 0 ∨ 1 ≤ b + c := by
    rcases hb with rfl | hb <;> rcases hc with rfl | hc
    · left; norm_num
    · right; linarith
    · right; linarith
    · right; linarith
  have had : a + d = 0 ∨ 1 ≤ a + d := by
    rcases ha with rfl | ha <;> rcases hd with rfl | hd
    · left; norm_num
    · right; linarith
    · right; linarith
    · right; linarith
  obtain ⟨p, hp, p0, p1⟩ := posInf_side a0 hbc (by linarith : a ≤ a + b) h
  obtain ⟨q, hq, q0, q1⟩ := posInf_side b0 had (by linarith : b ≤ a + b) h
  unfold Relation.posInf
  rw [hp]
  simp only [bind, Except.bind]
  rw [hq]
  dsimp only
  by_cases c1 : q < p
  · rw [if_pos (by simpa using c1)]; exact ⟨_, rfl, by linarith, p1⟩
  · rw [if_neg (by simpa using c1)]
    by_cases c2 : p < q
    · rw [if_pos (by simpa using c2)]
      refine ⟨_, rfl, ?_, ?_⟩ <;> simp <;> linarith
    · rw [if_neg (by simpa using c2)]
      exact ⟨_, rfl, by simp, by simp⟩

example : ∃ r, Relation.posInf (3 : ℝ) 1 2 4 = .ok r ∧ -1 ≤ r ∧ r ≤ 1 :=
  C37_pos_inf_partial (by norm_num) (by norm_num) (by norm_num) (by norm_num) (by norm_num)

/-- C37 is false as stated: on a fractional table with a present premise `pos_inf` returns 8. -/
theorem C37_counterexample :
    Relation.posInf (4/10 : ℚ) (1/10) 0 0 = .ok 8 := by decide +kernel
theorem C37_false : ¬ C37_full := by
  intro h
  obtain ⟨r, hr, -, h1⟩ := (h (4/10) (1/10) 0 0 (by norm_num) (by norm_num) (by norm_num) (by norm_num) (by norm_num)).2.2.2
  have hp : Relation.posInfSide (4/10 : ℝ) (1/10 + 0) (4/10 + 1/10) = .ok 8 := by
    unfold Relation.posInfSide
    rw [if_neg (by norm_num), pdiv_real (by norm_num)]
    show pdiv (4/10 / (1/10 + 0) : ℝ) (4/10 + 1/10) = _
    rw [pdiv_real (by norm_num)]
    norm_num
  have hq : Relation.posInfSide (1/10 : ℝ) (4/10 + 0) (4/10 + 1/10) = .ok (1/2) := by
    unfold Relation.posInfSide
    rw [if_neg (by norm_num), pdiv_real (by norm_num)]
    show pdiv (1/10 / (4/10 + 0) : ℝ) (4/10 + 1/10) = _
    rw [pdiv_real (by norm_num)]
    norm_num
  unfold Relation.posInf at hr
  rw [hp] at hr
  simp only [bind, Except.bind] at hr
  rw [hq] at hr
  simp only at hr
  rw [if_pos (by simp; norm_num)] at hr
  injection hr with hr
  rw [← hr] at h1
  norm_num at h1

/-! ### C53: Fuzzy.fuzzyfication -/

theorem pyIdx_ok {β} {xs : List β} {i : Nat} {x : β} (h : xs[i]? = some x) : pyIdx xs i = .ok x := by
  unfold pyIdx; rw [h]

theorem pyIdx_some {β} {xs : List β} {i : Nat} {x : β} (h : pyIdx xs i = .ok x) : xs[i]? = some x := by
  unfold pyIdx at h
  cases hx : xs[i]? with
  | none => rw [hx] at h; cases h
  | some y => rw [hx] at h; cases h; rfl

/-- What the search loop knows: the candidate below (if any) is a listed point below the value, the candidate
above (if any) one above. -/
structure FzInv (value : ℝ) (vl : List ℝ) (st : FzState ℝ) : Prop where
  prev : st.prevValue = 1 ∨ ∃ x, vl[st.prevPos]? = some x ∧ x < value
  next : st.nextValue = -1 ∨ ∃ x, vl[st.nextPos]? = some x ∧ value < x

theorem fuzzyfLoop_spec {value : ℝ} {mb : List ℝ} (vl : List ℝ) (xs : List ℝ) (pos : Nat) (st : FzState ℝ)
    (hxs : vl.drop pos = xs) (hinv : FzInv value vl st) {r : ℝ ⊕ FzState ℝ}
    (h : fuzzyfLoop value mb xs pos st = .ok r) :
    match r with
    | .inl m => m ∈ mb ∧ ∃ i, vl[i]? = some value ∧ mb[i]? = some m ∧ ∀ j, pos ≤ j → j < i → vl[j]? ≠ some value
    | .inr st' => FzInv value vl st' ∧ value ∉ xs := by
  induction xs generalizing pos st with
  | nil => cases h; exact ⟨hinv, by simp⟩
  | cons x xs ih =>
    have hx : vl[pos]? = some x := by rw [← List.head?_drop, hxs]; rfl
    have hxs' : vl.drop (pos + 1) = xs := by rw [← List.drop_drop, hxs]; rfl
    unfold fuzzyfLoop at h
    by_cases hv : value = x
    · rw [if_pos (by simpa using hv)] at h
      obtain ⟨m, hm, h⟩ := ebind_ok h
      cases h
      have hm := pyIdx_some hm
      exact ⟨List.mem_of_getElem? hm, pos, by rw [hx, hv], hm, fun j h1 h2 => by omega⟩
    · rw [if_neg (by simpa using hv)] at h
      dsimp only at h
      have key : FzInv value vl (if (lit 0 <? value - x) = true then
          if ((value - x) <? st.prevValue) = true then { st with prevValue := value - x, prevPos := pos } else st
        else
          if (st.nextValue <? value - x) = true then { st with nextValue := value - x, nextPos := pos } else st) := by
        split
        · rename_i h0
          split
          · exact ⟨.inr ⟨x, hx, by simpa using h0⟩, hinv.next⟩
          · exact hinv
        · rename_i h0
          split
          · refine ⟨hinv.prev, .inr ⟨x, hx, ?_⟩⟩
            have : value ≤ x := by simpa using h0
            exact lt_of_le_of_ne this hv
          · exact hinv
      have := ih (pos + 1) _ hxs' key h
      cases r with
      | inl m =>
        obtain ⟨hm, i, h1, h2, h3⟩ := this
        refine ⟨hm, i, h1, h2, fun j hj hji => ?_⟩
        rcases Nat.lt_or_ge pos j with hlt | hge
        · exact h3 j hlt hji
        · have : j = pos := by omega
          subst this; rw [hx]; intro hc; exact hv (Option.some.inj hc).symm
      | inr st' => exact ⟨this.1, by simp [this.2, hv]⟩

/-- `fuzzyfication` returns a value between the smallest and the largest membership. -/
theorem C53_between {v ms nv r : ℝ} {mb vl : List ℝ} {lo hi : ℝ} (hm : ∀ m ∈ mb, lo ≤ m ∧ m ≤ hi)
    (h1 : -1 ≤ lo) (h2 : hi ≤ 1) (h : fuzzyfication v ms nv mb vl = .ok r) : lo ≤ r ∧ r ≤ hi := by
  unfold fuzzyfication at h
  obtain ⟨value, -, h⟩ := ebind_ok h
  obtain ⟨res, hres, h⟩ := ebind_ok h
  have hspec := fuzzyfLoop_spec vl vl 0 _ rfl (by exact ⟨.inl (by simp), .inl (by simp)⟩) hres
  cases res with
  | inl m => cases h; exact hm _ hspec.1
  | inr st =>
    dsimp only at h
    split at h
    · exact hm _ (pymin_real h).1
    · rename_i hp
      split at h
      · exact hm _ (pymax_real h).1
      · rename_i hn
        obtain ⟨y0, hy0, h⟩ := ebind_ok h
        obtain ⟨y1, hy1, h⟩ := ebind_ok h
        obtain ⟨xn, hxn, h⟩ := ebind_ok h
        obtain ⟨xp, hxp, h⟩ := ebind_ok h
        have m0 := hm _ (List.mem_of_getElem? (pyIdx_some hy0))
        have m1 := hm _ (List.mem_of_getElem? (pyIdx_some hy1))
        have lp : xp < value := by
          rcases hspec.1.prev with e | ⟨x, hx, hlt⟩
          · exact absurd e (by simpa using hp)
          · rw [pyIdx_some hxp] at hx; cases hx; exact hlt
        have ln : value < xn := by
          rcases hspec.1.next with e | ⟨x, hx, hlt⟩
          · exact absurd e (by simpa using hn)
          · rw [pyIdx_some hxn] at hx; cases hx; exact hlt
        have hne : xn - xp ≠ 0 := by linarith
        rw [if_neg (by simpa using hne), pdiv_real hne] at h
        simp only [bind, Except.bind, pdiv_real hne, pure, Except.pure, Except.ok.injEq] at h
        have hest : (lit 1 - (value - xp) / (xn - xp)) * y0 + (lit 1 - (xn - value) / (xn - xp)) * y1 =
            y0 + (y1 - y0) * ((value - xp) / (xn - xp)) := by
          simp only [real_lit]
          field_simp
          push_cast
          ring
        rw [hest, clamp_real] at h
        have hr := lerp_mem m0 m1 (frac_mem lp ln).1 (frac_mem lp ln).2
        rw [min_eq_right (by linarith), max_eq_right (by linarith)] at h
        rw [← h]; exact hr

/-- At a listed (scaled) value it returns the membership listed there. -/
theorem C53_listed {v ms nv : ℝ} {mb vl : List ℝ} {i : Nat} {m : ℝ} (hn : nv ≠ 0)
    (hv : vl[i]? = some ((v + ms) / nv)) (hm : mb[i]? = some m)
    (hfirst : ∀ j, j < i → vl[j]? ≠ some ((v + ms) / nv)) : fuzzyfication v ms nv mb vl = .ok m := by
  unfold fuzzyfication
  rw [pdiv_real hn]
  simp only [bind, Except.bind]
  generalize (v + ms) / nv = value at *
  have key : ∀ (xs : List ℝ) (pos : Nat) (st : FzState ℝ), vl.drop pos = xs → pos ≤ i →
      fuzzyfLoop value mb xs pos st = .ok (.inl m) := by
    intro xs
    induction xs with
    | nil =>
      intro pos st hxs hle
      have : vl.length ≤ pos := List.drop_eq_nil_iff.1 hxs
      have := (List.getElem?_eq_some_iff.1 hv).1
      omega
    | cons x xs ih =>
      intro pos st hxs hle
      have hx : vl[pos]? = some x := by rw [← List.head?_drop, hxs]; rfl
      have hxs' : vl.drop (pos + 1) = xs := by rw [← List.drop_drop, hxs]; rfl
      unfold fuzzyfLoop
      rcases Nat.lt_or_ge pos i with hlt | hge
      · have : value ≠ x := by
          intro e; exact hfirst pos hlt (by rw [hx, e])
        rw [if_neg (by simpa using this)]
        exact ih (pos + 1) _ hxs' hlt
      · have : pos = i := by omega
        subst this
        rw [hv] at hx
        obtain rfl := Option.some.inj hx
        rw [if_pos (by simp), pyIdx_ok hm]
        rfl
  rw [key vl 0 _ rfl (Nat.zero_le _)]
  rfl

/-- Both theorems on one description: a listed value and one in between. -/
example : fuzzyfication (20 : ℝ) 0 100 [0, 1, 1/2] [1/10, 2/10, 3/10] = .ok 1 ∧
    fuzzyfication (25 : ℚ) 0 100 [0, 1, 1/2] [1/10, 2/10, 3/10] = .ok (3/4) := by
  constructor
  · exact C53_listed (i := 1) (by norm_num) (by norm_num) rfl
      (by intro j hj; obtain rfl : j = 0 := by omega
          norm_num)
  · decide +kernel

end PyFCM
