import Verif.Props.Mutual
import Mathlib.Algebra.Order.Chebyshev
import Mathlib.MeasureTheory.Integral.IntervalIntegral.FundThmCalculus
import Mathlib.Analysis.Calculus.Deriv.MeanValue
import Mathlib.Analysis.Calculus.Deriv.Pow
/-
C126: maps in which influence is mutual and the functions are smooth.
-/
namespace PyFCM
open Arith Spec

/-! ### Convexity -/

/-- A function whose derivative points away from `a` is least at `a`. -/
theorem least_at {g g' : ℝ → ℝ} (hg : ∀ z, HasDerivAt g (g' z) z) {a : ℝ} (h : ∀ z, 0 ≤ g' z * (z - a)) (z : ℝ) : g a ≤ g z := by
  have hc : Continuous g := continuous_iff_continuousAt.2 fun z => (hg z).continuousAt
  rcases lt_trichotomy a z with hlt | rfl | hlt
  · obtain ⟨w, hw, e⟩ := exists_hasDerivAt_eq_slope g g' hlt hc.continuousOn (fun w _ => hg w)
    have h1 := h w
    have h2 : 0 ≤ g' w := by
      by_contra hneg
      have := mul_neg_of_neg_of_pos (not_le.1 hneg) (sub_pos.2 hw.1)
      linarith
    rw [e] at h2
    have := (div_nonneg_iff.1 h2).resolve_right (fun h => by linarith [h.2])
    linarith [this.1]
  · exact le_refl _
  · obtain ⟨w, hw, e⟩ := exists_hasDerivAt_eq_slope g g' hlt hc.continuousOn (fun w _ => hg w)
    have h1 := h w
    have h2 : g' w ≤ 0 := by
      by_contra hpos
      have := mul_neg_of_pos_of_neg (not_le.1 hpos) (sub_neg.2 hw.2)
      linarith
    rw [e] at h2
    have h3 : g a - g z ≤ 0 := by
      by_contra hpos
      have := div_pos (not_le.1 hpos) (sub_pos.2 hlt)
      linarith
    linarith

/-- A primitive of a rising function with slope at most `l` lies above its tangents, by a quadratic margin. -/
theorem above_tangent {f F : ℝ → ℝ} (hF : ∀ z, HasDerivAt F (f z) z) (hmono : Monotone f) {l : ℝ} (hl : 0 < l)
    (hlip : ∀ x y, |f x - f y| ≤ l * |x - y|) (h k : ℝ) : F k + f k * (h - k) + (f h - f k) ^ 2 / (2 * l) ≤ F h := by
  -- the tilted primitive is least at k
  have h1 : ∀ z, F k - f k * k ≤ F z - f k * z := by
    refine least_at (g := fun z => F z - f k * z) (g' := fun z => f z - f k) (fun z => ?_) (fun z => ?_)
    · have e := (hF z).sub ((hasDerivAt_id z).const_mul (f k))
      rw [mul_one] at e
      exact e
    · rcases le_total k z with hz | hz
      · exact mul_nonneg (sub_nonneg.2 (hmono hz)) (sub_nonneg.2 hz)
      · exact mul_nonneg_of_nonpos_of_nonpos (sub_nonpos.2 (hmono hz)) (sub_nonpos.2 hz)
  -- and below a parabola
  have h2 : ∀ z, F z ≤ F h + f h * (z - h) + l / 2 * (z - h) ^ 2 := by
    intro z
    have := least_at (g := fun z => F h + f h * (z - h) + l / 2 * (z - h) ^ 2 - F z) (g' := fun z => f h + l * (z - h) - f z)
      (a := h) (fun z => ?_) (fun z => ?_) z
    · simp only [sub_self, mul_zero, add_zero, ne_eq, OfNat.ofNat_ne_zero, not_false_eq_true, zero_pow] at this
      linarith
    · have e := ((((hasDerivAt_id z).sub_const h).const_mul (f h)).const_add (F h)).add
        ((((hasDerivAt_id z).sub_const h).pow 2).const_mul (l / 2))
      have e2 := e.sub (hF z)
      have e3 : f h * 1 + l / 2 * (((2 : ℕ) : ℝ) * (id z - h) ^ (2 - 1) * 1) - f z = f h + l * (z - h) - f z := by
        show f h * 1 + l / 2 * (((2 : ℕ) : ℝ) * (z - h) ^ (2 - 1) * 1) - f z = f h + l * (z - h) - f z
        push_cast
        ring
      rw [e3] at e2
      exact e2
    · have hb := hlip z h
      rcases le_total h z with hz | hz
      · rw [abs_of_nonneg (sub_nonneg.2 hz), abs_of_nonneg (sub_nonneg.2 (hmono hz))] at hb
        exact mul_nonneg (by linarith) (by linarith)
      · rw [abs_of_nonpos (sub_nonpos.2 hz), abs_of_nonpos (sub_nonpos.2 (hmono hz))] at hb
        exact mul_nonneg_of_nonpos_of_nonpos (by linarith) (by linarith)
  have h3 := h1 (h - (f h - f k) / l)
  have h4 := h2 (h - (f h - f k) / l)
  have e1 : f h * (h - (f h - f k) / l - h) + l / 2 * (h - (f h - f k) / l - h) ^ 2 =
      -(f h * (f h - f k) / l) + (f h - f k) ^ 2 / (2 * l) := by
    field_simp
    ring
  have e2 : f k * (h - (f h - f k) / l) = f k * h - f k * (f h - f k) / l := by
    field_simp
  have e3 : f h * (f h - f k) / l - f k * (f h - f k) / l = (f h - f k) ^ 2 / l := by ring
  have e4 : (f h - f k) ^ 2 / l = 2 * ((f h - f k) ^ 2 / (2 * l)) := by
    field_simp
  linarith

/-- A rising function with bounded slope has a primitive. -/
theorem primitive {f : ℝ → ℝ} {l : ℝ} (hlip : ∀ x y, |f x - f y| ≤ l * |x - y|) :
    ∃ F : ℝ → ℝ, F 0 = 0 ∧ ∀ z, HasDerivAt F (f z) z := by
  have hc : Continuous f := by
    rw [Metric.continuous_iff]
    intro b ε hε
    refine ⟨ε / (|l| + 1), by positivity, fun a ha => ?_⟩
    rw [Real.dist_eq] at ha ⊢
    calc |f a - f b| ≤ l * |a - b| := hlip a b
      _ ≤ (|l| + 1) * |a - b| := mul_le_mul_of_nonneg_right (by linarith [le_abs_self l]) (abs_nonneg _)
      _ < (|l| + 1) * (ε / (|l| + 1)) := mul_lt_mul_of_pos_left ha (by positivity)
      _ = ε := by field_simp
  exact ⟨fun h => ∫ u in (0:ℝ)..h, f u, by simp, fun z => (hc.integral_hasStrictDerivAt 0 z).hasDerivAt⟩

/-! ### The energy along a run -/

section
variable {S : Finset String} {K : String → String → ℝ} {b : String → ℝ} {f F : String → ℝ → ℝ} {l : ℝ} {x : Nat → String → ℝ} {n : Nat}

/-- A run of smooth functions. -/
structure SoftRun (S : Finset String) (K : String → String → ℝ) (b : String → ℝ) (f F : String → ℝ → ℝ) (l : ℝ)
    (x : Nat → String → ℝ) (n : Nat) : Prop where
  comm : ∀ c ∈ S, ∀ d ∈ S, K d c = K c d
  pos : 0 < l
  prim : ∀ c ∈ S, F c 0 = 0 ∧ ∀ z, HasDerivAt (F c) (f c z) z
  mono : ∀ c ∈ S, Monotone (f c)
  lip : ∀ c ∈ S, ∀ y z, |f c y - f c z| ≤ l * |y - z|
  range : ∀ t, t ≤ n → ∀ c ∈ S, |x t c| ≤ 1
  bound : ∀ c ∈ S, ∀ z, |f c z| ≤ 1
  step : ∀ t, t + 1 ≤ n → ∀ c ∈ S, x (t + 1) c = f c (fieldAt S K b (x t) c)

/-- How large an input can be. -/
noncomputable def grip (S : Finset String) (K : String → String → ℝ) (b : String → ℝ) (c : String) : ℝ :=
  ∑ d ∈ S, |K d c| + |b c|

/-- The potential of the value reached from the state `y`. -/
noncomputable def pot (S : Finset String) (K : String → String → ℝ) (b : String → ℝ) (f F : String → ℝ → ℝ) (y : String → ℝ)
    (c : String) : ℝ :=
  fieldAt S K b y c * f c (fieldAt S K b y c) - F c (fieldAt S K b y c)

theorem sum_grip {y : String → ℝ} (hy : ∀ d ∈ S, |y d| ≤ 1) (c : String) : |∑ d ∈ S, K d c * y d| ≤ ∑ d ∈ S, |K d c| := by
  refine (Finset.abs_sum_le_sum_abs _ _).trans (Finset.sum_le_sum fun d hd => ?_)
  rw [abs_mul]
  exact mul_le_of_le_one_right (abs_nonneg _) (hy d hd)

theorem field_grip {y : String → ℝ} (hy : ∀ d ∈ S, |y d| ≤ 1) (c : String) : |fieldAt S K b y c| ≤ grip S K b c := by
  unfold fieldAt grip
  exact (abs_add_le _ _).trans (add_le_add (sum_grip hy c) (le_refl _))

namespace SoftRun

theorem tangent (h : SoftRun S K b f F l x n) {c : String} (hc : c ∈ S) (y z : ℝ) :
    F c z + f c z * (y - z) + (f c y - f c z) ^ 2 / (2 * l) ≤ F c y :=
  above_tangent (h.prim c hc).2 (h.mono c hc) h.pos (h.lip c hc) y z

/-- Each value is better than any other, by a margin. -/
theorem better (h : SoftRun S K b f F l x n) {c : String} (hc : c ∈ S) (y z : String → ℝ) :
    (f c (fieldAt S K b y c) - f c (fieldAt S K b z c)) ^ 2 / (2 * l) ≤
      (pot S K b f F z c - f c (fieldAt S K b z c) * fieldAt S K b y c) - (pot S K b f F y c - f c (fieldAt S K b y c) * fieldAt S K b y c) := by
  have := h.tangent hc (fieldAt S K b y c) (fieldAt S K b z c)
  unfold pot
  linarith

theorem pot_range (h : SoftRun S K b f F l x n) {c : String} (hc : c ∈ S) {y : String → ℝ} (hy : ∀ d ∈ S, |y d| ≤ 1) :
    0 ≤ pot S K b f F y c ∧ pot S K b f F y c ≤ 2 * grip S K b c := by
  have h1 := h.tangent hc 0 (fieldAt S K b y c)
  have h2 := h.tangent hc (fieldAt S K b y c) 0
  have hg := field_grip (K := K) (b := b) hy c
  have b1 := h.bound c hc (fieldAt S K b y c)
  have b2 := h.bound c hc 0
  have hp := h.pos
  rw [(h.prim c hc).1] at h1 h2
  have n1 : 0 ≤ (f c 0 - f c (fieldAt S K b y c)) ^ 2 / (2 * l) := by positivity
  have n2 : 0 ≤ (f c (fieldAt S K b y c) - f c 0) ^ 2 / (2 * l) := by positivity
  unfold pot
  constructor
  · linarith
  · have h3 : fieldAt S K b y c * (f c (fieldAt S K b y c) - f c 0) ≤ |fieldAt S K b y c| * 2 := by
      refine (le_abs_self _).trans ?_
      rw [abs_mul]
      refine mul_le_mul_of_nonneg_left ?_ (abs_nonneg _)
      exact (abs_sub _ _).trans (by linarith)
    linarith

/-- Two steps. -/
theorem two (h : SoftRun S K b f F l x n) {k : Nat} (hk : k + 2 ≤ n) :
    ∑ t ∈ Finset.range k, ∑ c ∈ S, (x (t + 3) c - x (t + 1) c) ^ 2 ≤ 16 * l * ∑ c ∈ S, grip S K b c := by
  have hp := h.pos
  set E : Nat → ℝ := fun t => ∑ c ∈ S, pot S K b f F (x (t + 1)) c + ∑ c ∈ S, pot S K b f F (x t) c +
    energy S K b (fun _ _ => 0) (x (t + 2)) (x (t + 1)) with hE
  have step : ∀ t, t + 3 ≤ n → (∑ c ∈ S, (x (t + 3) c - x (t + 1) c) ^ 2) / (2 * l) ≤ E t - E (t + 1) := by
    intro t ht
    have e1 : E t = ∑ c ∈ S, pot S K b f F (x (t + 1)) c + ∑ c ∈ S, (pot S K b f F (x t) c - x (t + 1) c * fieldAt S K b (x (t + 2)) c) +
        ∑ c ∈ S, (0 - b c * x (t + 2) c) := by
      rw [hE]
      dsimp only
      rw [energy_comm h.comm]
      unfold energy
      simp only [Finset.sum_sub_distrib, Finset.sum_const_zero]
      ring
    have e2 : E (t + 1) = ∑ c ∈ S, (pot S K b f F (x (t + 2)) c - x (t + 3) c * fieldAt S K b (x (t + 2)) c) +
        ∑ c ∈ S, pot S K b f F (x (t + 1)) c + ∑ c ∈ S, (0 - b c * x (t + 2) c) := by
      rw [hE]
      dsimp only
      unfold energy
      simp only [Finset.sum_sub_distrib, Finset.sum_const_zero]
      ring
    rw [e1, e2, Finset.sum_div]
    have : ∑ c ∈ S, (x (t + 3) c - x (t + 1) c) ^ 2 / (2 * l) ≤
        ∑ c ∈ S, ((pot S K b f F (x t) c - x (t + 1) c * fieldAt S K b (x (t + 2)) c) -
          (pot S K b f F (x (t + 2)) c - x (t + 3) c * fieldAt S K b (x (t + 2)) c)) := by
      refine Finset.sum_le_sum fun c hc => ?_
      have := h.better hc (x (t + 2)) (x t)
      rwa [← h.step t (by omega) c hc, ← h.step (t + 2) (by omega) c hc] at this
    rw [Finset.sum_sub_distrib] at this
    linarith
  have tele : ∀ k, k + 2 ≤ n → (∑ t ∈ Finset.range k, ∑ c ∈ S, (x (t + 3) c - x (t + 1) c) ^ 2) / (2 * l) ≤ E 0 - E k := by
    intro k
    induction k with
    | zero => intro _; simp
    | succ k ih =>
      intro hk
      rw [Finset.sum_range_succ, add_div]
      have := ih (by omega)
      have := step k (by omega)
      linarith
  have hb : ∀ t, t + 2 ≤ n → -(2 * ∑ c ∈ S, grip S K b c) ≤ E t ∧ E t ≤ 6 * ∑ c ∈ S, grip S K b c := by
    intro t ht
    have p1 := fun c (hc : c ∈ S) => h.pot_range hc (h.range (t + 1) (by omega))
    have p2 := fun c (hc : c ∈ S) => h.pot_range hc (h.range t (by omega))
    have hs : ∀ c ∈ S, |0 - x (t + 2) c * fieldAt S K b (x (t + 1)) c| ≤ grip S K b c := by
      intro c hc
      rw [zero_sub, abs_neg, abs_mul]
      exact (mul_le_of_le_one_left (abs_nonneg _) (h.range (t + 2) ht c hc)).trans (field_grip (h.range (t + 1) (by omega)) c)
    have hbx : ∀ c ∈ S, |0 - b c * x (t + 1) c| ≤ grip S K b c := by
      intro c hc
      rw [zero_sub, abs_neg, abs_mul]
      refine (mul_le_of_le_one_right (abs_nonneg _) (h.range (t + 1) (by omega) c hc)).trans ?_
      unfold grip
      linarith [Finset.sum_nonneg fun d (_ : d ∈ S) => abs_nonneg (K d c)]
    have a1 := Finset.sum_nonneg fun c hc => (p1 c hc).1
    have a2 := Finset.sum_nonneg fun c hc => (p2 c hc).1
    have a3 := Finset.sum_le_sum fun c hc => (p1 c hc).2
    have a4 := Finset.sum_le_sum fun c hc => (p2 c hc).2
    have a5 := (Finset.abs_sum_le_sum_abs _ _).trans (Finset.sum_le_sum hs)
    have a6 := (Finset.abs_sum_le_sum_abs _ _).trans (Finset.sum_le_sum hbx)
    rw [← Finset.mul_sum] at a3 a4
    rw [abs_le] at a5 a6
    rw [hE]
    dsimp only
    unfold energy
    constructor <;> linarith [a5.1, a5.2, a6.1, a6.2]
  have t1 := tele k hk
  have t2 := (hb 0 (by omega)).2
  have t3 := (hb k hk).1
  rw [div_le_iff₀ (by positivity)] at t1
  nlinarith

/-- One step, if the form is non-negative. -/
theorem one (h : SoftRun S K b f F l x n) (hpos : ∀ w : String → ℝ, 0 ≤ ∑ c ∈ S, w c * ∑ d ∈ S, K d c * w d) {k : Nat}
    (hk : k + 1 ≤ n) : ∑ t ∈ Finset.range k, ∑ c ∈ S, (x (t + 2) c - x (t + 1) c) ^ 2 ≤ 8 * l * ∑ c ∈ S, grip S K b c := by
  have hp := h.pos
  set A : (String → ℝ) → (String → ℝ) → ℝ := fun u v => ∑ c ∈ S, u c * ∑ d ∈ S, K d c * v d with hA
  have symm : ∀ u v, A u v = A v u := by
    intro u v
    rw [hA]
    simp only [Finset.mul_sum]
    rw [Finset.sum_comm]
    refine Finset.sum_congr rfl fun c hc => Finset.sum_congr rfl fun d hd => ?_
    rw [h.comm d hd c hc]
    ring
  have subl : ∀ u v w, A (fun c => u c - v c) w = A u w - A v w := by
    intro u v w
    rw [hA]
    simp only [sub_mul, Finset.sum_sub_distrib]
  have subr : ∀ u v w, A w (fun c => u c - v c) = A w u - A w v := fun u v w => by rw [symm, subl, symm u, symm v]
  set e : Nat → ℝ := fun t => ∑ c ∈ S, (pot S K b f F (x t) c - b c * x (t + 1) c) - A (x (t + 1)) (x (t + 1)) / 2 with he
  have step : ∀ t, t + 2 ≤ n → (∑ c ∈ S, (x (t + 2) c - x (t + 1) c) ^ 2) / (2 * l) ≤ e t - e (t + 1) := by
    intro t ht
    have hsum : ∑ c ∈ S, (x (t + 2) c - x (t + 1) c) ^ 2 / (2 * l) ≤
        ∑ c ∈ S, ((pot S K b f F (x t) c - x (t + 1) c * fieldAt S K b (x (t + 1)) c) -
          (pot S K b f F (x (t + 1)) c - x (t + 2) c * fieldAt S K b (x (t + 1)) c)) := by
      refine Finset.sum_le_sum fun c hc => ?_
      have := h.better hc (x (t + 1)) (x t)
      rwa [← h.step t (by omega) c hc, ← h.step (t + 1) (by omega) c hc] at this
    have hd := hpos fun c => x (t + 2) c - x (t + 1) c
    change 0 ≤ A (fun c => x (t + 2) c - x (t + 1) c) (fun c => x (t + 2) c - x (t + 1) c) at hd
    rw [subl, subr, subr, symm (x (t + 1)) (x (t + 2))] at hd
    have ef : ∀ u : String → ℝ, ∑ c ∈ S, u c * fieldAt S K b (x (t + 1)) c = A u (x (t + 1)) + ∑ c ∈ S, b c * u c := by
      intro u
      unfold fieldAt
      simp only [mul_add, Finset.sum_add_distrib]
      rw [hA]
      congr 1
      exact Finset.sum_congr rfl fun c _ => mul_comm _ _
    rw [← Finset.sum_div] at hsum
    simp only [Finset.sum_sub_distrib, ef] at hsum
    rw [he]
    dsimp only
    simp only [Finset.sum_sub_distrib]
    linarith
  have tele : ∀ k, k + 1 ≤ n → (∑ t ∈ Finset.range k, ∑ c ∈ S, (x (t + 2) c - x (t + 1) c) ^ 2) / (2 * l) ≤ e 0 - e k := by
    intro k
    induction k with
    | zero => intro _; simp
    | succ k ih =>
      intro hk
      rw [Finset.sum_range_succ, add_div]
      have := ih (by omega)
      have := step k (by omega)
      linarith
  have hb : ∀ t, t + 1 ≤ n → -(∑ c ∈ S, grip S K b c) ≤ e t ∧ e t ≤ 3 * ∑ c ∈ S, grip S K b c := by
    intro t ht
    have p2 := fun c (hc : c ∈ S) => h.pot_range hc (h.range t (by omega))
    have hr := h.range (t + 1) ht
    have hs : ∀ c ∈ S, |b c * x (t + 1) c + x (t + 1) c * (∑ d ∈ S, K d c * x (t + 1) d) / 2| ≤ grip S K b c := by
      intro c hc
      have u1 : |b c * x (t + 1) c| ≤ |b c| := by
        rw [abs_mul]
        exact mul_le_of_le_one_right (abs_nonneg _) (hr c hc)
      have u2 : |x (t + 1) c * (∑ d ∈ S, K d c * x (t + 1) d)| ≤ ∑ d ∈ S, |K d c| := by
        rw [abs_mul]
        exact (mul_le_of_le_one_left (abs_nonneg _) (hr c hc)).trans (sum_grip hr c)
      have u3 : 0 ≤ ∑ d ∈ S, |K d c| := Finset.sum_nonneg fun d _ => abs_nonneg _
      unfold grip
      rw [abs_le] at u1 u2 ⊢
      constructor <;> linarith [u1.1, u1.2, u2.1, u2.2]
    have a2 := Finset.sum_nonneg fun c hc => (p2 c hc).1
    have a4 := Finset.sum_le_sum fun c hc => (p2 c hc).2
    have a5 := (Finset.abs_sum_le_sum_abs _ _).trans (Finset.sum_le_sum hs)
    rw [← Finset.mul_sum] at a4
    rw [abs_le, Finset.sum_add_distrib, ← Finset.sum_div] at a5
    rw [he, hA]
    dsimp only
    rw [Finset.sum_sub_distrib]
    constructor <;> linarith [a5.1, a5.2]
  have t1 := tele k hk
  have t2 := (hb 0 (by omega)).2
  have t3 := (hb k hk).1
  rw [div_le_iff₀ (by positivity)] at t1
  nlinarith

end SoftRun

end

/-! ### Smooth functions -/

/-- The function of every concept is smooth and rising: no more than `l` times as steep as the identity. -/
def Supple (m : FCM ℝ) (l : ℝ) : Prop :=
  ∀ c n, m.topology.get? c = some n → ∃ f L, n.fn = some f ∧ RisingArgs f ∧ SlopeArgs f L ∧ L ≤ l

/-- The function of a concept as a function of the reals. -/
noncomputable def actOf (m : FCM ℝ) (c : String) (z : ℝ) : ℝ :=
  match (m.topology.get? c).bind (·.fn) with
  | some f => (callActv f.fn z f.args).toOption.getD 0
  | none => 0

theorem actOf_eq {m : FCM ℝ} {c : String} {n : Node ℝ} {f : FnInfo ℝ} {L : ℝ} (hn : m.topology.get? c = some n)
    (hf : n.fn = some f) (hL : SlopeArgs f L) (z : ℝ) : callActv f.fn z f.args = .ok (actOf m c z) := by
  obtain ⟨v, hv⟩ := callActv_total hL.proper.1 z
  unfold actOf
  rw [hn, Option.bind_some, hf]
  dsimp only
  rw [hv]
  rfl

theorem actOf_facts {m : FCM ℝ} {l : ℝ} (hs : Supple m l) {c : String} (hc : c ∈ m.topology.keys) :
    Monotone (actOf m c) ∧ (∀ y z, |actOf m c y - actOf m c z| ≤ l * |y - z|) ∧ ∀ z, |actOf m c z| ≤ 1 := by
  obtain ⟨n, hn⟩ := Dict.exists_get?_of_mem hc
  obtain ⟨f, L, hf, hr, hL, hl⟩ := hs c n hn
  have he := actOf_eq hn hf hL
  refine ⟨fun y z hyz => callActv_rises hr hyz (he y) (he z), fun y z => ?_, fun z => abs_le.2 (callActv_range hL.proper.2 (he z))⟩
  exact ((callActv_slope hL).2 y z _ _ (he y) (he z)).trans (mul_le_mul_of_nonneg_right hl (abs_nonneg _))

theorem supple_next {m : FCM ℝ} (hm : Reachable m) {l : ℝ} (hs : Supple m l) {N : Net ℝ} (hN : SameActs m N)
    (hor : ∀ r ∈ N.rels, r.origin ∈ m.topology.keys) {A : String → ℝ} {c : String} {v : ℝ} (hc : c ∈ m.topology.keys)
    (h : next N A c = some (.ok v)) :
    v = actOf m c (fieldAt m.topology.keys.toFinset (strength N) (bias N m.topology.keys) A c) := by
  have h' := h
  unfold next at h'
  obtain ⟨k, hk, -⟩ := Option.map_eq_some_iff.1 h'
  obtain ⟨k0, h0, hact, hdiv⟩ := hN c k hk
  obtain ⟨n, hn, hsp⟩ := Option.bind_eq_some_iff.1 (show (m.topology.get? c).bind Node.toSpec = some k0 from h0)
  obtain ⟨f, hf, hact0⟩ := toSpec_act hsp
  obtain ⟨f', L, hf', hr, hL, -⟩ := hs c n hn
  rw [hf] at hf'
  cases hf'
  have hname : f.name ≠ "fuzzy" := by
    intro e
    have hok : Activation.getFunctionByName f.name = some f.fn := (hm.inv.nodes c n hn).fn f hf
    rw [e] at hok
    have hok : f.fn = .fuzzy := (Option.some.inj hok).symm
    unfold RisingArgs at hr
    rw [hok] at hr
    exact hr
  have hdiv0 : k0.divisor = none := by
    unfold Node.toSpec at hsp
    rw [hf] at hsp
    split at hsp
    · rename_i f2 _ _ hf2
      cases hf2
      cases hsp
      dsimp only
      rw [if_neg]
      simpa using hname
    · cases hsp
  rw [next_field hm.inv.tnd hor _ hc hk (hdiv hdiv0), hact, hact0] at h
  have h := Option.some.inj h
  dsimp only at h
  rw [actOf_eq hn hf hL] at h
  exact (Except.ok.inj h).symm

theorem run_soft {m : FCM ℝ} (hm : Reachable m) {l : ℝ} (hl : 0 < l) (hs : Supple m l) {N : Net ℝ} (hN : SameActs m N)
    (hor : ∀ r ∈ N.rels, r.origin ∈ m.topology.keys) (hmut : Mutual N m.topology.keys) {x : Nat → String → ℝ} {n : Nat}
    (hrun : ∀ t, t + 1 ≤ n → ∀ c ∈ m.topology.keys, next N (x t) c = some (.ok (x (t + 1) c)))
    (h0 : ∀ c ∈ m.topology.keys, -1 ≤ x 0 c ∧ x 0 c ≤ 1) :
    ∃ F, SoftRun m.topology.keys.toFinset (strength N) (bias N m.topology.keys) (actOf m) F l x n := by
  have hprim : ∀ c, ∃ F : ℝ → ℝ, c ∈ m.topology.keys → F 0 = 0 ∧ ∀ z, HasDerivAt F (actOf m c z) z := by
    intro c
    by_cases hc : c ∈ m.topology.keys
    · obtain ⟨F, hF⟩ := primitive (actOf_facts hs hc).2.1
      exact ⟨F, fun _ => hF⟩
    · exact ⟨0, fun h => absurd h hc⟩
  choose F hF using hprim
  have step : ∀ t, t + 1 ≤ n → ∀ c ∈ m.topology.keys.toFinset, x (t + 1) c =
      actOf m c (fieldAt m.topology.keys.toFinset (strength N) (bias N m.topology.keys) (x t) c) := by
    intro t ht c hc
    rw [List.mem_toFinset] at hc
    exact supple_next hm hs hN hor hc (hrun t ht c hc)
  refine ⟨F, strength_comm hmut, hl, fun c hc => hF c (List.mem_toFinset.1 hc), fun c hc => (actOf_facts hs (List.mem_toFinset.1 hc)).1,
    fun c hc => (actOf_facts hs (List.mem_toFinset.1 hc)).2.1, ?_, fun c hc => (actOf_facts hs (List.mem_toFinset.1 hc)).2.2, step⟩
  intro t ht c hc
  cases t with
  | zero => exact abs_le.2 (h0 c (List.mem_toFinset.1 hc))
  | succ t =>
    show |x (t + 1) c| ≤ 1
    rw [step t ht c hc]
    exact (actOf_facts hs (List.mem_toFinset.1 hc)).2.2 _

/-! ### How strong the influences are -/

/-- All influences together: those of the concepts on each other and on themselves, by relations and by memory. -/
noncomputable def Spec.totalPull (N : Net ℝ) (cs : List String) : ℝ :=
  (cs.map fun c => (cs.map fun d => |coupling N d c|).sum +
    match N.concept c with
    | some k => if k.memory then (if k.rescale then 2 else 1) else 0
    | none => 0).sum

theorem offset_le (N : Net ℝ) (d c : String) : |offset N d c| ≤ |coupling N d c| / 2 := by
  unfold offset coupling
  cases N.concept d with
  | none => simp
  | some o =>
    dsimp only
    cases o.active <;> cases o.rescale <;> simp [abs_mul, weightsOf]
    positivity

theorem recall_pos (N : Net ℝ) (c : String) : 0 ≤ recall N c ∧ |recallOffset N c| ≤ recall N c / 2 := by
  unfold recall recallOffset
  cases N.concept c with
  | none => simp
  | some k =>
    dsimp only
    cases k.memory <;> cases k.rescale <;> simp

theorem grip_le {N : Net ℝ} {cs : List String} {c : String} (hc : c ∈ cs) :
    grip cs.toFinset (strength N) (bias N cs) c ≤ 3 / 2 * (∑ d ∈ cs.toFinset, |coupling N d c| + recall N c) := by
  obtain ⟨r1, r2⟩ := recall_pos N c
  have h1 : ∑ d ∈ cs.toFinset, |strength N d c| ≤ ∑ d ∈ cs.toFinset, |coupling N d c| + recall N c := by
    have : ∀ d ∈ cs.toFinset, |strength N d c| ≤ |coupling N d c| + if d = c then recall N c else 0 := by
      intro d _
      unfold strength
      refine (abs_add_le _ _).trans (add_le_add (le_refl _) ?_)
      split
      · rw [abs_of_nonneg r1]
      · simp
    refine (Finset.sum_le_sum this).trans ?_
    rw [Finset.sum_add_distrib, Finset.sum_ite_eq' cs.toFinset c, if_pos (List.mem_toFinset.2 hc)]
  have h2 : |bias N cs c| ≤ (∑ d ∈ cs.toFinset, |coupling N d c|) / 2 + recall N c / 2 := by
    unfold bias
    refine (abs_sub _ _).trans (add_le_add ?_ r2)
    rw [abs_neg, Finset.sum_div]
    exact (Finset.abs_sum_le_sum_abs _ _).trans (Finset.sum_le_sum fun d _ => offset_le N d c)
  unfold grip
  linarith

theorem grips_le {N : Net ℝ} {cs : List String} (hnd : cs.Nodup) :
    ∑ c ∈ cs.toFinset, grip cs.toFinset (strength N) (bias N cs) c ≤ 3 / 2 * totalPull N cs := by
  have : totalPull N cs = ∑ c ∈ cs.toFinset, (∑ d ∈ cs.toFinset, |coupling N d c| + recall N c) := by
    unfold totalPull recall
    rw [← List.sum_toFinset _ hnd]
    refine Finset.sum_congr rfl fun c _ => ?_
    rw [List.sum_toFinset _ hnd]
    rfl
  rw [this, Finset.mul_sum]
  exact Finset.sum_le_sum fun c hc => grip_le (List.mem_toFinset.1 hc)

theorem totalPull_nonneg (N : Net ℝ) (cs : List String) : 0 ≤ totalPull N cs := by
  unfold totalPull
  refine List.sum_nonneg fun x hx => ?_
  obtain ⟨c, -, rfl⟩ := List.mem_map.1 hx
  refine add_nonneg (List.sum_nonneg fun y hy => ?_) (recall_pos N c).1
  obtain ⟨d, -, rfl⟩ := List.mem_map.1 hy
  exact abs_nonneg _

/-- How far the concepts are from each other in two states: the sum of the squared differences. -/
noncomputable def Spec.shifted (traj : String → List ℝ) (cs : List String) (s t : Nat) : ℝ :=
  (cs.map fun c => (at' traj t c - at' traj s c) ^ 2).sum

theorem shifted_eq {traj : String → List ℝ} {cs : List String} (hnd : cs.Nodup) (s t : Nat) :
    shifted traj cs s t = ∑ c ∈ cs.toFinset, (at' traj t c - at' traj s c) ^ 2 := by
  unfold shifted
  rw [List.sum_toFinset _ hnd]

theorem shifted_nonneg (traj : String → List ℝ) (cs : List String) (s t : Nat) : 0 ≤ shifted traj cs s t := by
  unfold shifted
  refine List.sum_nonneg fun x hx => ?_
  obtain ⟨c, -, rfl⟩ := List.mem_map.1 hx
  positivity

theorem shifted_ge {traj : String → List ℝ} {cs : List String} (hnd : cs.Nodup) {s t : Nat} {c : String} (hc : c ∈ cs) {e : ℝ}
    (he : 0 ≤ e) (h : e < |at' traj t c - at' traj s c|) : e ^ 2 ≤ shifted traj cs s t := by
  rw [shifted_eq hnd]
  refine le_trans ?_ (Finset.single_le_sum (f := fun c => (at' traj t c - at' traj s c) ^ 2) (fun _ _ => sq_nonneg _) (List.mem_toFinset.2 hc))
  rw [← sq_abs (at' traj t c - at' traj s c)]
  exact pow_le_pow_left₀ he h.le 2

theorem run_two_sum {m : FCM ℝ} (hm : Reachable m) {l : ℝ} (hl : 0 < l) (hs : Supple m l) {N : Net ℝ} (hN : SameActs m N)
    (hor : ∀ r ∈ N.rels, r.origin ∈ m.topology.keys) (hmut : Mutual N m.topology.keys) {traj : String → List ℝ} {len : Nat}
    (hrun : IsRun N m.topology.keys traj len) (h0 : 0 < len → ∀ c ∈ m.topology.keys, -1 ≤ at' traj 0 c ∧ at' traj 0 c ≤ 1)
    {k : Nat} (hk : k + 2 < len) :
    ∑ t ∈ Finset.range k, shifted traj m.topology.keys (t + 1) (t + 3) ≤ 24 * l * totalPull N m.topology.keys := by
  obtain ⟨n, rfl⟩ : ∃ n, len = n + 1 := ⟨len - 1, by omega⟩
  obtain ⟨F, hF⟩ := run_soft hm hl hs hN hor hmut (x := at' traj) (n := n) (fun t ht c hc => (hrun c hc).2 t (by omega)) (h0 (by omega))
  have h1 := hF.two (k := k) (by omega)
  have h2 := grips_le (N := N) hm.inv.tnd
  simp only [shifted_eq hm.inv.tnd]
  refine h1.trans ?_
  have := mul_le_mul_of_nonneg_left h2 (show 0 ≤ 16 * l by positivity)
  linarith

theorem run_one_sum {m : FCM ℝ} (hm : Reachable m) {l : ℝ} (hl : 0 < l) (hs : Supple m l) {N : Net ℝ} (hN : SameActs m N)
    (hor : ∀ r ∈ N.rels, r.origin ∈ m.topology.keys) (hmut : Mutual N m.topology.keys) (hanc : Anchored N m.topology.keys)
    {traj : String → List ℝ} {len : Nat} (hrun : IsRun N m.topology.keys traj len)
    (h0 : 0 < len → ∀ c ∈ m.topology.keys, -1 ≤ at' traj 0 c ∧ at' traj 0 c ≤ 1) {k : Nat} (hk : k + 1 < len) :
    ∑ t ∈ Finset.range k, shifted traj m.topology.keys (t + 1) (t + 2) ≤ 12 * l * totalPull N m.topology.keys := by
  obtain ⟨n, rfl⟩ : ∃ n, len = n + 1 := ⟨len - 1, by omega⟩
  obtain ⟨F, hF⟩ := run_soft hm hl hs hN hor hmut (x := at' traj) (n := n) (fun t ht c hc => (hrun c hc).2 t (by omega)) (h0 (by omega))
  have h1 := hF.one (form_nonneg (strength_comm hmut) (strength_dom hm.inv.tnd hanc)) (k := k) (by omega)
  have h2 := grips_le (N := N) hm.inv.tnd
  simp only [shifted_eq hm.inv.tnd]
  refine h1.trans ?_
  have := mul_le_mul_of_nonneg_left h2 (show 0 ≤ 8 * l by positivity)
  linarith

/-- C126: if influence is mutual, then the squared changes over two steps have a bounded sum, however long the map runs: the run
nears a rhythm of period two. -/
theorem C126_two {m m' : FCM ℝ} (hm : Reachable m) (hd : m.debug = true) {l : ℝ} (hl : 0 < l) (hs : Supple m l)
    (hmut : Mutual m.net m.topology.keys) (h0 : ∀ c ∈ m.topology.keys, -1 ≤ at' m.traj 0 c ∧ at' m.traj 0 c ≤ 1)
    (h : FCM.runInference true m = (.ok (), m')) {k : Nat} (hk : k + 2 < m'.iterations) :
    ∑ t ∈ Finset.range k, shifted m'.traj m.topology.keys (t + 1) (t + 3) ≤ 24 * l * totalPull m.net m.topology.keys := by
  obtain ⟨len, hi⟩ := run_iter hm.inv hd h
  rw [hi.iters] at hk
  exact run_two_sum hm hl hs (plays_net m) (origins hm) hmut hi.run (fun _ c hc => by rw [(hi.init c hc).2]; exact h0 c hc) hk

/-- C126: if moreover every concept is held at least as strongly by itself as by all others together, the squared changes from
step to step have a bounded sum: the run settles. -/
theorem C126_one {m m' : FCM ℝ} (hm : Reachable m) (hd : m.debug = true) {l : ℝ} (hl : 0 < l) (hs : Supple m l)
    (hmut : Mutual m.net m.topology.keys) (hanc : Anchored m.net m.topology.keys)
    (h0 : ∀ c ∈ m.topology.keys, -1 ≤ at' m.traj 0 c ∧ at' m.traj 0 c ≤ 1)
    (h : FCM.runInference true m = (.ok (), m')) {k : Nat} (hk : k + 1 < m'.iterations) :
    ∑ t ∈ Finset.range k, shifted m'.traj m.topology.keys (t + 1) (t + 2) ≤ 12 * l * totalPull m.net m.topology.keys := by
  obtain ⟨len, hi⟩ := run_iter hm.inv hd h
  rw [hi.iters] at hk
  exact run_one_sum hm hl hs (plays_net m) (origins hm) hmut hanc hi.run (fun _ c hc => by rw [(hi.init c hc).2]; exact h0 c hc) hk

theorem few_steps {D : Nat → ℝ} {e B : ℝ} (he : 0 < e) (hD : ∀ t, 0 ≤ D t) {k : Nat} (hB : ∑ t ∈ Finset.range k, D t ≤ B)
    {T : Finset Nat} (hT : ∀ t ∈ T, t < k ∧ e ^ 2 ≤ D t) : (T.card : ℝ) ≤ B / e ^ 2 := by
  rw [le_div_iff₀ (by positivity)]
  have h1 : (T.card : ℝ) * e ^ 2 ≤ ∑ t ∈ T, D t := by
    rw [← nsmul_eq_mul]
    exact Finset.card_nsmul_le_sum T D _ fun t ht => (hT t ht).2
  have h2 : ∑ t ∈ T, D t ≤ ∑ t ∈ Finset.range k, D t :=
    Finset.sum_le_sum_of_subset_of_nonneg (fun t ht => Finset.mem_range.2 (hT t ht).1) fun t _ _ => hD t
  linarith

/-- C126: so only a bounded number of steps moves some concept by more than a given amount. -/
theorem C126_steps {m m' : FCM ℝ} (hm : Reachable m) (hd : m.debug = true) {l : ℝ} (hl : 0 < l) (hs : Supple m l)
    (hmut : Mutual m.net m.topology.keys) (hanc : Anchored m.net m.topology.keys)
    (h0 : ∀ c ∈ m.topology.keys, -1 ≤ at' m.traj 0 c ∧ at' m.traj 0 c ≤ 1)
    (h : FCM.runInference true m = (.ok (), m')) {e : ℝ} (he : 0 < e) {T : Finset Nat}
    (hT : ∀ t ∈ T, 1 ≤ t ∧ t + 1 < m'.iterations ∧ ∃ c ∈ m.topology.keys, e < |at' m'.traj (t + 1) c - at' m'.traj t c|) :
    (T.card : ℝ) ≤ 12 * l * totalPull m.net m.topology.keys / e ^ 2 := by
  by_cases hne : m'.iterations < 2
  · have : T = ∅ := Finset.eq_empty_of_forall_notMem fun t ht => by have := hT t ht; omega
    subst this
    have := totalPull_nonneg m.net m.topology.keys
    simp only [Finset.card_empty, Nat.cast_zero]
    positivity
  · have hsum := C126_one hm hd hl hs hmut hanc h0 h (k := m'.iterations - 2) (by omega)
    have := few_steps (T := T.image (· - 1)) he (fun t => shifted_nonneg _ _ _ _) hsum (fun t ht => by
      obtain ⟨u, hu, rfl⟩ := Finset.mem_image.1 ht
      obtain ⟨h1, h2, c, hc, h3⟩ := hT u hu
      refine ⟨by omega, shifted_ge hm.inv.tnd hc he.le ?_⟩
      rw [show u - 1 + 1 = u by omega, show u - 1 + 2 = u + 1 by omega]
      exact h3)
    rwa [Finset.card_image_of_injOn] at this
    intro u hu v hv huv
    have := hT u hu
    have := hT v hv
    dsimp only at huv
    omega

/-- C126: and inference stops in time, whatever the limit of iterations. -/
theorem C126_stops {m m' : FCM ℝ} (hm : Reachable m) (hd : m.debug = true) {l : ℝ} (hl : 0 < l) (hs : Supple m l)
    (hmut : Mutual m.net m.topology.keys) (hanc : Anchored m.net m.topology.keys)
    (h0 : ∀ c ∈ m.topology.keys, -1 ≤ at' m.traj 0 c ∧ at' m.traj 0 c ≤ 1)
    (h : FCM.runInference true m = (.ok (), m')) (hstop : m.stopAtStabilize = true) (he : 0 < m.stabilityDiff) :
    (m'.iterations : ℝ) ≤ 3 + (m.extraSteps - 1) * (12 * l * totalPull m.net m.topology.keys / m.stabilityDiff ^ 2 + 1) := by
  obtain ⟨len, hi⟩ := run_iter hm.inv hd h
  have hx := hm.inv.extra
  obtain ⟨w, hw⟩ : ∃ w, m.extraSteps = w + 1 := ⟨m.extraSteps - 1, by omega⟩
  have hst := hi.stops
  rw [hw, Nat.add_sub_cancel] at hst
  have hsum := fun k hk => C126_one hm hd hl hs hmut hanc h0 h (k := k) hk
  rw [hi.iters] at hsum ⊢
  have hcnt : ∀ J, 3 + J * w < len → J * m.stabilityDiff ^ 2 ≤
      ∑ t ∈ Finset.range (J * w), shifted m'.traj m.topology.keys (t + 1) (t + 2) := by
    intro J
    induction J with
    | zero => intro _; simp
    | succ J ih =>
      intro hJ
      rw [Nat.succ_mul] at hJ ⊢
      rw [Finset.sum_range_add]
      have h1 := ih (by omega)
      obtain ⟨s, s1, s2, s3⟩ := hst.least (3 + (J * w + w)) (by omega) hJ
      have s4 : ¬ Calm m'.traj m.topology.keys m.stabilityDiff s := fun hc => s3 (.inr ⟨hstop, by omega, hc⟩)
      unfold Calm at s4
      push Not at s4
      obtain ⟨c, hc, s5⟩ := s4
      have s5 : m.stabilityDiff < |at' m'.traj (s - 1) c - at' m'.traj (s - 2) c| := by simpa using s5
      have h2 := shifted_ge hm.inv.tnd hc he.le s5
      have h3 : shifted m'.traj m.topology.keys (s - 2) (s - 1) ≤
          ∑ t ∈ Finset.range w, shifted m'.traj m.topology.keys (J * w + t + 1) (J * w + t + 2) := by
        have := Finset.single_le_sum (s := Finset.range w) (a := s - 3 - J * w)
          (f := fun t => shifted m'.traj m.topology.keys (J * w + t + 1) (J * w + t + 2)) (fun _ _ => shifted_nonneg _ _ _ _)
          (Finset.mem_range.2 (by omega))
        rwa [show J * w + (s - 3 - J * w) + 1 = s - 2 by omega, show J * w + (s - 3 - J * w) + 2 = s - 1 by omega] at this
      push_cast
      linarith
  have hw' : (m.extraSteps : ℝ) - 1 = w := by rw [hw]; push_cast; ring
  rw [hw']
  by_cases hlen : len < 4
  · have hT : 0 ≤ 12 * l * totalPull m.net m.topology.keys / m.stabilityDiff ^ 2 := by
      have := totalPull_nonneg m.net m.topology.keys
      positivity
    have : (len : ℝ) ≤ 3 := by exact_mod_cast (by omega : len ≤ 3)
    have : 0 ≤ (w : ℝ) * (12 * l * totalPull m.net m.topology.keys / m.stabilityDiff ^ 2 + 1) := by positivity
    linarith
  · have hw0 : 0 < w := by
      rcases Nat.eq_zero_or_pos w with rfl | h
      · obtain ⟨s, s1, s2, -⟩ := hst.least 1 (by omega) (by omega)
        omega
      · exact h
    have hJ := Nat.div_mul_le_self (len - 4) w
    have hJ' := Nat.lt_div_mul_add (a := len - 4) hw0
    set J := (len - 4) / w
    have h1 := hcnt J (by omega)
    have h2 := hsum (J * w) (by omega)
    have h3 : (J : ℝ) ≤ 12 * l * totalPull m.net m.topology.keys / m.stabilityDiff ^ 2 := by
      rw [le_div_iff₀ (by positivity)]
      linarith
    have h4 : (len : ℝ) ≤ 3 + (J * w + w) := by
      exact_mod_cast (by omega : len ≤ 3 + (J * w + w))
    have h5 : (w : ℝ) * J ≤ w * (12 * l * totalPull m.net m.topology.keys / m.stabilityDiff ^ 2) :=
      mul_le_mul_of_nonneg_left h3 (by positivity)
    linarith

/-- C126: the vectorised engine nears a rhythm of period two as well … -/
theorem C126_vector_two {m m' : FCM ℝ} (hm : Vectorised m) {l : ℝ} (hl : 0 < l) (hs : Supple m l)
    (hmut : Mutual m.net.vector m.topology.keys) (h : FCM.runInference true m = (.ok (), m')) {k : Nat}
    (hk : ∀ c ∈ m.topology.keys, k + 2 < (m'.traj c).length) :
    ∑ t ∈ Finset.range k, shifted m'.traj m.topology.keys (t + 1) (t + 3) ≤ 24 * l * totalPull m.net.vector m.topology.keys := by
  obtain ⟨len, hr, hz⟩ := vec_run hm h
  obtain ⟨c, hc⟩ : ∃ c, c ∈ m.topology.keys := by
    cases ht : m.topology with
    | nil => exact absurd ht hm.nonempty
    | cons p q => exact ⟨p.1, by simp [Dict.keys]⟩
  have hk := hk c hc
  rw [(hr c hc).1] at hk
  exact run_two_sum hm.clean.reachable hl hs (plays_vector m) (origins_vector hm.clean.reachable) hmut hr
    (fun hp c hc => by rw [hz c hc hp]; exact hm.start c hc) hk

/-- C126: … and settles. -/
theorem C126_vector_one {m m' : FCM ℝ} (hm : Vectorised m) {l : ℝ} (hl : 0 < l) (hs : Supple m l)
    (hmut : Mutual m.net.vector m.topology.keys) (hanc : Anchored m.net.vector m.topology.keys)
    (h : FCM.runInference true m = (.ok (), m')) {k : Nat} (hk : ∀ c ∈ m.topology.keys, k + 1 < (m'.traj c).length) :
    ∑ t ∈ Finset.range k, shifted m'.traj m.topology.keys (t + 1) (t + 2) ≤ 12 * l * totalPull m.net.vector m.topology.keys := by
  obtain ⟨len, hr, hz⟩ := vec_run hm h
  obtain ⟨c, hc⟩ : ∃ c, c ∈ m.topology.keys := by
    cases ht : m.topology with
    | nil => exact absurd ht hm.nonempty
    | cons p q => exact ⟨p.1, by simp [Dict.keys]⟩
  have hk := hk c hc
  rw [(hr c hc).1] at hk
  exact run_one_sum hm.clean.reachable hl hs (plays_vector m) (origins_vector hm.clean.reachable) hmut hanc hr
    (fun hp c hc => by rw [hz c hc hp]; exact hm.start c hc) hk

/-- C126: so it returns, if enough iterations are allowed. -/
theorem C126_vector_returns {m : FCM ℝ} (hm : Vectorised m) {l : ℝ} (hl : 0 < l) (hs : Supple m l)
    (hmut : Mutual m.net.vector m.topology.keys) (hanc : Anchored m.net.vector m.topology.keys) (hdec : m.decisionName ≠ "EXITED")
    (he : 0 < m.stabilityDiff) {j : Nat}
    (hj : m.topology.length * (12 * l * totalPull m.net.vector m.topology.keys) < j * m.stabilityDiff ^ 2)
    (hmax : (2 + j * m.extraSteps : Int) ≤ m.maxIter) : (FCM.runInference true m).1 = .ok () := by
  have hr := hm.clean.reachable
  obtain ⟨x, e0, hx, hrange⟩ := vec_orbit hm.clean.clean hm.args hm.start
  rw [C105_returns hm.clean hm.off hm.nonempty (fun c n f hn hf => (hm.args c n f hn hf).1.kw) hdec e0 hx (not_two hrange)]
  by_contra hno
  push Not at hno
  set w := m.extraSteps with hw
  have hwpos : 1 ≤ w := hr.inv.extra
  set S := m.topology.keys.toFinset with hS
  obtain ⟨F, hF⟩ := run_soft hr hl hs (plays_vector m) (origins_vector hr) hmut (x := x) (n := j * w + 1)
    (fun t _ c hc => hx t c hc) (hrange 0)
  have h1 := hF.one (form_nonneg (strength_comm hmut) (strength_dom hr.inv.tnd hanc)) (k := j * w) (le_refl _)
  have h2 := grips_le (N := m.net.vector) hr.inv.tnd
  have hcard : (S.card : ℝ) = m.topology.length := by
    rw [hS, List.toFinset_card_of_nodup hr.inv.tnd]
    simp [Dict.keys]
  have hcnt : ∀ i, i ≤ j → i * m.stabilityDiff ^ 2 ≤ S.card * ∑ t ∈ Finset.range (i * w), ∑ c ∈ S, (x (t + 2) c - x (t + 1) c) ^ 2 := by
    intro i
    induction i with
    | zero => intro _; simp
    | succ i ih =>
      intro hi
      have h3 := ih (by omega)
      have hmul : (i + 1) * w ≤ j * w := Nat.mul_le_mul_right w hi
      rw [Nat.succ_mul] at hmul ⊢
      rw [Finset.sum_range_add, mul_add]
      have hle : ((2 + (i * w + w) : Nat) : Int) ≤ m.maxIter := by
        have : ((i * w + w : Nat) : Int) ≤ (j * w : Nat) := by exact_mod_cast hmul
        push_cast at this ⊢
        linarith
      obtain ⟨s, s1, s2, s3⟩ := hno (2 + (i * w + w)) hle (by omega)
      unfold Level at s3
      have s3 : m.stabilityDiff ≤ |(m.topology.keys.map (x s)).sum - (m.topology.keys.map (x (s - 1))).sum| := by
        simpa [total_real] using s3
      rw [← List.sum_toFinset _ hr.inv.tnd, ← List.sum_toFinset _ hr.inv.tnd, ← Finset.sum_sub_distrib] at s3
      have h4 : m.stabilityDiff ^ 2 ≤ S.card * ∑ c ∈ S, (x s c - x (s - 1) c) ^ 2 := by
        refine le_trans ?_ (sq_sum_le_card_mul_sum_sq (s := S) (f := fun c => x s c - x (s - 1) c))
        rw [← sq_abs (∑ c ∈ S, (x s c - x (s - 1) c))]
        exact pow_le_pow_left₀ he.le s3 2
      have h5 : ∑ c ∈ S, (x s c - x (s - 1) c) ^ 2 ≤
          ∑ t ∈ Finset.range w, ∑ c ∈ S, (x (i * w + t + 2) c - x (i * w + t + 1) c) ^ 2 := by
        have := Finset.single_le_sum (s := Finset.range w) (a := s - 2 - i * w)
          (f := fun t => ∑ c ∈ S, (x (i * w + t + 2) c - x (i * w + t + 1) c) ^ 2)
          (fun _ _ => Finset.sum_nonneg fun _ _ => sq_nonneg _) (Finset.mem_range.2 (by omega))
        rwa [show i * w + (s - 2 - i * w) + 2 = s by omega, show i * w + (s - 2 - i * w) + 1 = s - 1 by omega] at this
      have h6 := mul_le_mul_of_nonneg_left h5 (Nat.cast_nonneg (α := ℝ) S.card)
      push_cast
      linarith
  have h7 := hcnt j (le_refl _)
  have h8 : ∑ t ∈ Finset.range (j * w), ∑ c ∈ S, (x (t + 2) c - x (t + 1) c) ^ 2 ≤
      12 * l * totalPull m.net.vector m.topology.keys := by
    refine h1.trans ?_
    have := mul_le_mul_of_nonneg_left h2 (show 0 ≤ 8 * l by positivity)
    linarith
  have h9 := mul_le_mul_of_nonneg_left h8 (Nat.cast_nonneg (α := ℝ) S.card)
  rw [hcard] at h7 h9
  linarith

/-! ### Concrete cases -/

namespace Ex

/-- `FuzzyCognitiveMap(stability_diff=0.1, decision_function='LAST', mem_influence=False, activation_function='sigmoid')` -/
noncomputable def hum0 : FCM ℝ :=
  match FCM.new (stabilityDiff := dec 1 10) (decision := "LAST") (memInfluence := false) (activation := "sigmoid") with
  | .ok m => m
  | .error _ => default

theorem hum0_new : FCM.new (α := ℝ) (stabilityDiff := dec 1 10) (decision := "LAST") (memInfluence := false)
    (activation := "sigmoid") = .ok hum0 := rfl

noncomputable def humOps (debug : Bool) : List (Op ℝ) :=
  [.addConcept "a" {}, .addConcept "b" {}, .addRelation "a" "a" (1/100), .addRelation "a" "b" (-1/100), .addRelation "b" "a" (-1/100),
   .addRelation "b" "b" (1/100), .initConcept "a" 1 true, .assignDebug debug]

/-- a and b weaken each other and strengthen themselves. -/
noncomputable def hum (debug : Bool) : FCM ℝ := runOps (humOps debug) hum0

theorem hum_clean (debug : Bool) : CleanReachable (hum debug) := by
  cases debug
  · exact cleanReachable_of (.new hum0_new) (humOps false) rfl
  · exact cleanReachable_of (.new hum0_new) (humOps true) rfl

theorem hum_keys (debug : Bool) : (hum debug).topology.keys = ["a", "b"] := by cases debug <;> rfl
theorem hum_arcs (debug : Bool) : (hum debug).arcList =
    [⟨"a", 1/100, "a"⟩, ⟨"b", -1/100, "a"⟩, ⟨"a", -1/100, "b"⟩, ⟨"b", 1/100, "b"⟩] := by cases debug <;> rfl

theorem hum_node (debug : Bool) {c : String} {n : Node ℝ} (h : (hum debug).topology.get? c = some n) :
    n.fn = some ⟨.sigmoid, "sigmoid", []⟩ ∧ n.exec = some (.kosko, "KOSKO") ∧ n.useMem = some false ∧ n.active = true := by
  have hk : c ∈ (hum debug).topology.keys := Dict.mem_keys_of_get? h
  have key : ∀ c, c = "a" ∨ c = "b" → ∃ o, (hum debug).topology.get? c = some o ∧
      o.fn = some ⟨.sigmoid, "sigmoid", []⟩ ∧ o.exec = some (.kosko, "KOSKO") ∧ o.useMem = some false ∧ o.active = true := by
    rintro c (rfl | rfl) <;> cases debug <;> exact ⟨_, rfl, rfl, rfl, rfl, rfl⟩
  rw [hum_keys] at hk
  obtain ⟨o, h1, h2⟩ := key c (by simpa using hk)
  rw [h] at h1
  cases h1
  exact h2

theorem hum_supple (debug : Bool) : Supple (hum debug) (1/4) := fun _ _ hn =>
  ⟨_, 1/4, (hum_node debug hn).1, .inl rfl, .inl ⟨rfl, rfl⟩, le_refl _⟩

theorem hum_concept (debug : Bool) {c : String} (hc : c ∈ (hum debug).topology.keys) : (hum debug).net.concept c =
    some ⟨true, false, false, none, fun x => callActv .sigmoid x []⟩ := by
  obtain ⟨n, hn⟩ := Dict.exists_get?_of_mem hc
  obtain ⟨h1, h2, h3, h4⟩ := hum_node debug hn
  rw [concept_node hn, toSpec_of h1 h2 h3, h4]
  rfl

theorem hum_rels (debug : Bool) : (hum debug).net.rels =
    [⟨"a", "a", 1/100⟩, ⟨"a", "b", -1/100⟩, ⟨"b", "a", -1/100⟩, ⟨"b", "b", 1/100⟩] := by
  have : ∀ m : FCM ℝ, m.net.rels = m.arcList.map Arc.toSpec := fun _ => rfl
  rw [this, hum_arcs]
  rfl

theorem hum_coupling (debug : Bool) {c d : String} (hc : c = "a" ∨ c = "b") (hd : d = "a" ∨ d = "b") :
    coupling (hum debug).net d c = if d = c then 1/100 else -1/100 := by
  unfold coupling
  rw [hum_concept debug (c := d) (by rw [hum_keys]; simpa using hd), hum_rels]
  rcases hc with rfl | rfl <;> rcases hd with rfl | rfl <;> simp [total]

theorem hum_mutual (debug : Bool) : Mutual (hum debug).net (hum debug).topology.keys := by
  intro c hc d hd
  rw [hum_keys] at hc hd
  rw [hum_coupling debug (by simpa using hc) (by simpa using hd), hum_coupling debug (by simpa using hd) (by simpa using hc)]
  simp only [eq_comm]

theorem hum_anchored (debug : Bool) : Anchored (hum debug).net (hum debug).topology.keys := by
  intro c hc
  refine ⟨_, hum_concept debug hc, ?_⟩
  rw [hum_keys] at hc ⊢
  have hc : c = "a" ∨ c = "b" := by simpa using hc
  rw [hum_coupling debug hc hc, if_pos rfl]
  have hab := hum_coupling debug (c := "a") (d := "b") (.inl rfl) (.inr rfl)
  have hba := hum_coupling debug (c := "b") (d := "a") (.inr rfl) (.inl rfl)
  rcases hc with rfl | rfl
  · simp [hab, abs_div]
  · simp [hba, abs_div]

theorem hum_pull (debug : Bool) : totalPull (hum debug).net (hum debug).topology.keys = 4/100 := by
  have haa := hum_coupling debug (c := "a") (d := "a") (.inl rfl) (.inl rfl)
  have hbb := hum_coupling debug (c := "b") (d := "b") (.inr rfl) (.inr rfl)
  have hab := hum_coupling debug (c := "a") (d := "b") (.inl rfl) (.inr rfl)
  have hba := hum_coupling debug (c := "b") (d := "a") (.inr rfl) (.inl rfl)
  have ca := hum_concept debug (c := "a") (by rw [hum_keys]; simp)
  have cb := hum_concept debug (c := "b") (by rw [hum_keys]; simp)
  unfold totalPull
  rw [hum_keys]
  simp [haa, hbb, hab, hba, ca, cb, abs_div]
  norm_num

theorem hum_start (debug : Bool) : ∀ c ∈ (hum debug).topology.keys, -1 ≤ at' (hum debug).traj 0 c ∧ at' (hum debug).traj 0 c ≤ 1 := by
  intro c hc
  rw [hum_keys] at hc
  have hc : c = "a" ∨ c = "b" := by simpa using hc
  rcases hc with rfl | rfl
  · have : at' (hum debug).traj 0 "a" = 1 := by cases debug <;> rfl
    rw [this]; norm_num
  · have : at' (hum debug).traj 0 "b" = lit 0 := by cases debug <;> rfl
    rw [this]; norm_num

theorem hum_diff (debug : Bool) : (hum debug).stabilityDiff = 1/10 := by
  have : (hum debug).stabilityDiff = dec 1 10 := by cases debug <;> rfl
  rw [this]
  norm_num [dec]

theorem hum_runs : ∃ m', FCM.runInference true (hum true) = (.ok (), m') :=
  C75_succeeds (hum_clean true) rfl (fun c n f hn hf => by
    rw [(hum_node true hn).1] at hf
    cases hf
    exact ⟨.inl rfl, fun h => absurd h (by decide)⟩) (by exact by decide)

/-- The two stop after at most 55 of the 200 iterations allowed: thirteen windows of four steps. -/
example : ∃ m', FCM.runInference true (hum true) = (.ok (), m') ∧ m'.iterations ≤ 55 := by
  obtain ⟨m', h⟩ := hum_runs
  refine ⟨m', h, ?_⟩
  have := C126_stops (hum_clean true).reachable rfl (by norm_num) (hum_supple true) (hum_mutual true) (hum_anchored true)
    (hum_start true) h rfl (by rw [hum_diff]; norm_num)
  rw [hum_pull, hum_diff, show (hum true).extraSteps = 5 from rfl] at this
  have : (m'.iterations : ℝ) ≤ 55 := by
    norm_num at this ⊢
    linarith
  exact_mod_cast this

/-- The squared changes add up to no more than 0.12. -/
example {m' : FCM ℝ} (h : FCM.runInference true (hum true) = (.ok (), m')) {k : Nat} (hk : k + 1 < m'.iterations) :
    ∑ t ∈ Finset.range k, shifted m'.traj (hum true).topology.keys (t + 1) (t + 2) ≤ 0.12 := by
  have := C126_one (hum_clean true).reachable rfl (by norm_num) (hum_supple true) (hum_mutual true) (hum_anchored true)
    (hum_start true) h hk
  rw [hum_pull] at this
  norm_num at this ⊢
  linarith

theorem hum_vector : (hum false).net.vector = (hum false).net := by
  have hcon : ∀ c k, (hum false).net.concept c = some k → k.active = true ∧ k.divisor = none := by
    intro c k hk
    obtain ⟨n, hn, -⟩ := Option.bind_eq_some_iff.1 (show ((hum false).topology.get? c).bind Node.toSpec = some k from hk)
    rw [hum_concept false (Dict.mem_keys_of_get? hn)] at hk
    cases hk
    exact ⟨rfl, rfl⟩
  refine C105_same (fun c k hk => (hcon c k hk).1) (fun c k d hk hd => ?_) ?_
  · rw [(hcon c k hk).2] at hd
    cases hd
  · rw [hum_rels]
    simp

theorem hum_vectorised : Vectorised (hum false) where
  clean := hum_clean false
  off := rfl
  nonempty := fun e => by
    have := hum_keys false
    rw [e] at this
    cases this
  args := fun c n f hn hf => by
    rw [(hum_node false hn).1] at hf
    cases hf
    exact ⟨.inl rfl, trivial⟩
  start := hum_start false

/-- The vectorised engine returns: 25 windows of five steps fit in 200 iterations. -/
example : (FCM.runInference true (hum false)).1 = .ok () := by
  refine C126_vector_returns (j := 25) hum_vectorised (l := 1/4) (by norm_num) (hum_supple false) ?_ ?_ (by exact by decide) ?_ ?_ ?_
  · rw [hum_vector]; exact hum_mutual false
  · rw [hum_vector]; exact hum_anchored false
  · rw [hum_diff]; norm_num
  · rw [hum_vector, hum_pull, hum_diff, show List.length (hum false).topology = 2 from rfl]
    norm_num
  · exact by decide

/-- `FuzzyCognitiveMap(max_it=20, decision_function='LAST', mem_influence=False, activation_function='saturation')`. -/
def sway0 : FCM ℚ :=
  match FCM.new (maxIt := 20) (decision := "LAST") (memInfluence := false) (activation := "saturation") with
  | .ok m => m
  | .error _ => default

theorem sway0_new : FCM.new (α := ℚ) (maxIt := 20) (decision := "LAST") (memInfluence := false) (activation := "saturation") =
    .ok sway0 := rfl

def sway : FCM ℚ := runOps (swapOps true) sway0

theorem sway_clean : CleanReachable sway := cleanReachable_of (.new sway0_new) (swapOps true) (by decide +kernel)

/-- Where influence is mutual but no concept holds itself, smooth functions swing too: every step moves both concepts by 1, so
the anchor is needed in `C126_one`. -/
theorem C126_unanchored : (FCM.runInference true sway).1 = .ok () ∧ coupling sway.net "a" "b" = coupling sway.net "b" "a" ∧
    (FCM.runInference true sway).2.traj "a" = (List.range 24).map (fun t => if t % 2 = 0 then 1 else 0) ∧
    (FCM.runInference true sway).2.traj "b" = (List.range 24).map (fun t => if t % 2 = 0 then 0 else 1) := by
  decide +kernel

def wheel : FCM ℚ := runOps ringOps sway0

theorem wheel_clean : CleanReachable wheel := cleanReachable_of (.new sway0_new) ringOps (by decide +kernel)

/-- One-way influence goes round in longer circles: mutuality is needed in `C126_two`. -/
theorem C126_wheel : (FCM.runInference true wheel).1 = .ok () ∧
    (FCM.runInference true wheel).2.traj "a" = (List.range 24).map (fun t => if t % 3 = 0 then 1 else 0) ∧
    coupling wheel.net "a" "b" = 1 ∧ coupling wheel.net "b" "a" = 0 := by
  decide +kernel

end Ex

end PyFCM
