import Verif.Model.Functions
import Verif.Lemmas.RealList
import Mathlib.Tactic.FieldSimp
import Mathlib.Tactic.Ring
/-
The scalar functions over the reals.
-/
namespace PyFCM
open Arith

theorem pdiv_real {a b : ℝ} (h : b ≠ 0) : pdiv a b = .ok (a / b) := by
  unfold pdiv
  rw [if_neg (by simpa using h)]

theorem pdiv_real_zero (a : ℝ) : pdiv a (0 : ℝ) = .error .zeroDivision := by
  unfold pdiv
  rw [if_pos (by simp)]

/-- `sigmoid` without the partiality. -/
theorem sigmoid_real (v l : ℝ) : sigmoid v l = .ok (1 / (1 + Real.exp (-(l * v)))) := by
  unfold sigmoid
  have e : (lit (-1) : ℝ) * l * v = -(l * v) := by simp
  have h : (lit 1 : ℝ) + Arith.exp ((lit (-1) : ℝ) * l * v) = 1 + Real.exp (-(l * v)) := by
    rw [e]; simp
  rw [h, pdiv_real (by positivity)]
  simp

/-- The function computed by `sigmoid_hip`: the exponent is cut at 500. -/
theorem sigmoidHip_real (v l : ℝ) :
    sigmoidHip v l = .ok ((1 - Real.exp (min 500 (-(l * v)))) / (1 + Real.exp (min 500 (-(l * v))))) := by
  unfold sigmoidHip
  have e : (lit (-1) : ℝ) * l * v = -(l * v) := by simp
  rw [e]
  by_cases h : (500 : ℝ) < -(l * v)
  · rw [if_pos (by simpa using h), min_eq_left h.le]
    have h2 : (lit 1 : ℝ) + Arith.exp (lit 500 : ℝ) = 1 + Real.exp 500 := by simp
    rw [h2, pdiv_real (by positivity)]
    simp
  · rw [if_neg (by simpa using h), min_eq_right (not_lt.1 h)]
    have h2 : (lit 1 : ℝ) + Arith.exp (-(l * v)) = 1 + Real.exp (-(l * v)) := by simp
    rw [h2, pdiv_real (by positivity)]
    simp

theorem relm_real {v l : ℝ} (hl : l ≠ 0) :
    relm v l = .ok (if v < 0 then 0 else if 1 < v / l then 1 else v / l) := by
  unfold relm
  by_cases h : v < 0
  · rw [if_pos (by simpa using h), if_pos h]; simp
  · rw [if_neg (by simpa using h), if_neg h, pdiv_real hl]
    simp only [bind, Except.bind]
    by_cases h1 : 1 < v / l
    · rw [if_pos (by simpa using h1), if_pos h1]; simp [pure, Except.pure]
    · rw [if_neg (by simpa using h1), if_neg h1]; rfl

theorem saturation_real (v : ℝ) : saturation v = max 0 (min 1 v) := by
  unfold saturation
  by_cases h : v < 0
  · rw [if_pos (by simpa using h), min_eq_right (by linarith), max_eq_left h.le]; simp
  · rw [if_neg (by simpa using h)]
    by_cases h1 : 1 < v
    · rw [if_pos (by simpa using h1), min_eq_left h1.le, max_eq_right (by norm_num)]; simp
    · rw [if_neg (by simpa using h1), min_eq_right (not_lt.1 h1), max_eq_right (not_lt.1 h)]

theorem gceq_real (v w : ℝ) : gceq v w = if w ≤ v then max (-1) (min 1 v) else 0 := by
  unfold gceq
  by_cases h : w ≤ v
  · rw [if_pos (by simpa using h), if_pos h]
    by_cases h1 : 1 < v
    · rw [if_pos (by simpa using h1), min_eq_left h1.le, max_eq_right (by norm_num)]; simp
    · rw [if_neg (by simpa using h1), min_eq_right (not_lt.1 h1)]
      by_cases h2 : v < -1
      · rw [if_pos (by simpa using h2), max_eq_left h2.le]; simp
      · rw [if_neg (by simpa using h2), max_eq_right (not_lt.1 h2)]
  · rw [if_neg (by simpa using h), if_neg h]; simp

theorem lceq_real (v w : ℝ) : lceq v w = if v ≤ w then max (-1) (min 1 v) else 0 := by
  unfold lceq
  by_cases h : v ≤ w
  · rw [if_pos (by simpa using h), if_pos h]
    by_cases h1 : 1 < v
    · rw [if_pos (by simpa using h1), min_eq_left h1.le, max_eq_right (by norm_num)]; simp
    · rw [if_neg (by simpa using h1), min_eq_right (not_lt.1 h1)]
      by_cases h2 : v < -1
      · rw [if_pos (by simpa using h2), max_eq_left h2.le]; simp
      · rw [if_neg (by simpa using h2), max_eq_right (not_lt.1 h2)]
  · rw [if_neg (by simpa using h), if_neg h]; simp

/-! ### np.searchsorted on a sorted list -/

theorem searchLoop_spec {a : List ℝ} {v : ℝ} (hs : a.Pairwise (· ≤ ·)) (fuel lo hi : Nat) (hhi : hi ≤ a.length)
    (hlo : lo ≤ hi) (hf : hi - lo ≤ fuel)
    (h1 : ∀ j (h : j < a.length), j < lo → a[j] < v) (h2 : ∀ j (h : j < a.length), hi ≤ j → v ≤ a[j]) :
    let r := searchLoop a v fuel lo hi
    r ≤ a.length ∧ (∀ j (h : j < a.length), j < r → a[j] < v) ∧ ∀ j (h : j < a.length), r ≤ j → v ≤ a[j] := by
  induction fuel generalizing lo hi with
  | zero =>
    have : lo = hi := by omega
    subst this
    exact ⟨hhi, h1, h2⟩
  | succ f ih =>
    simp only [searchLoop]
    by_cases hlt : lo < hi
    · rw [if_pos hlt]
      have hmid : (lo + hi) / 2 < a.length := by omega
      rw [List.getElem?_eq_getElem hmid]
      dsimp only
      by_cases hx : a[(lo + hi) / 2] < v
      · rw [if_pos (by simpa using hx)]
        refine ih _ _ hhi (by omega) (by omega) ?_ h2
        intro j hj hlt'
        refine lt_of_le_of_lt ?_ hx
        rcases Nat.lt_or_ge j ((lo + hi) / 2) with hj2 | hj2
        · exact List.pairwise_iff_getElem.1 hs _ _ _ _ hj2
        · have : j = (lo + hi) / 2 := by omega
          subst this; exact le_refl _
      · rw [if_neg (by simpa using hx)]
        refine ih _ _ (by omega) (by omega) (by omega) h1 ?_
        intro j hj hle
        refine le_trans (not_lt.1 hx) ?_
        rcases Nat.lt_or_ge ((lo + hi) / 2) j with hj2 | hj2
        · exact List.pairwise_iff_getElem.1 hs _ _ _ _ hj2
        · have : j = (lo + hi) / 2 := by omega
          subst this; exact le_refl _
    · rw [if_neg hlt]
      have : lo = hi := by omega
      subst this
      exact ⟨hhi, h1, h2⟩

theorem searchSorted_spec {a : List ℝ} {v : ℝ} (hs : a.Pairwise (· ≤ ·)) :
    searchSorted a v ≤ a.length ∧ (∀ j (h : j < a.length), j < searchSorted a v → a[j] < v) ∧
      ∀ j (h : j < a.length), searchSorted a v ≤ j → v ≤ a[j] :=
  searchLoop_spec hs _ _ _ (le_refl _) (by omega) (by omega) (fun j _ h => by omega) (fun j h h' => by omega)

end PyFCM
