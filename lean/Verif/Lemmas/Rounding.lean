import Verif.Lemmas.Floating
import Verif.Lemmas.Binary64
import Verif.Lemmas.Lipschitz
/-
Rounding errors of the activation functions and of sums.
-/
namespace PyFCM
open Arith Spec Ieee

set_option linter.unusedSectionVars false

/-- Results up to 3e^500 are rounded, and the exponential up to e^500 is computed, with an error of at most `ε` (relative
to 1 plus the result); the exponential of more than 500 is at least e^499 or overflows. -/
structure Accurate [F : Format] (ε : ℝ) : Prop where
  nonneg : 0 ≤ ε
  small : ε ≤ 1 / 1000
  tiny : Real.exp (-400) ≤ ε
  near : ∀ x, |x| ≤ 3 * Real.exp 500 → ∃ r, F.rd x = fin r ∧ |r - x| ≤ ε * (1 + |x|)
  exp : ∀ x ≤ 500, ∃ e, F.exp (fin x) = fin e ∧ |e - Real.exp x| ≤ ε * (1 + Real.exp x)
  large : ∀ x, 500 < x → F.exp (fin x) = pinf ∨ ∃ e, F.exp (fin x) = fin e ∧ Real.exp 499 ≤ e

section
variable [F : Format] {ε : ℝ}

theorem exp500_ge : (501 : ℝ) ≤ Real.exp 500 := by
  have := Real.add_one_le_exp (500 : ℝ)
  linarith

theorem rd_one : F.rd 1 = fin 1 := by simpa using F.ints 1 (big_of (by decide))
theorem rd_zero : F.rd 0 = fin 0 := by simpa using F.ints 0 (big_of (by decide))

theorem rd_ge_one {x r : ℝ} (h : 1 ≤ x) (e : F.rd x = fin r) : 1 ≤ r := by
  have := F.mono 1 x h
  rw [rd_one, e] at this
  exact this

/-- The exponent `-l * x`. -/
theorem exponent (A : Accurate ε) {x l : ℝ} (hl : F.rd l = fin l) (h : |l * x| ≤ Real.exp 500) :
    ∃ t, (lit (-1) * (fin l : Ieee) * fin x : Ieee) = fin t ∧ |t - -(l * x)| ≤ ε * (1 + |l * x|) := by
  have e : (lit (-1) * (fin l : Ieee) : Ieee) = fin (-l) := by
    rw [litm1]
    show F.rd (-1 * l) = _
    rw [neg_one_mul, F.odd, hl]
    rfl
  rw [e]
  have e2 : -l * x = -(l * x) := by ring
  obtain ⟨t, ht, hd⟩ := A.near (-l * x) (by rw [e2, abs_neg]; linarith [exp500_ge])
  exact ⟨t, ht, by rw [e2, abs_neg] at hd; exact hd⟩

/-- The computed exponential and 1 plus it. -/
theorem one_plus (A : Accurate ε) {t : ℝ} (h : t ≤ 500) : ∃ e b, F.exp (fin t) = fin e ∧ 0 ≤ e ∧ |e - Real.exp t| ≤ ε * (1 + Real.exp t) ∧
    F.rd (1 + e) = fin b ∧ 1 ≤ b ∧ |b - (1 + e)| ≤ 2 * ε * (1 + e) := by
  obtain ⟨e, he, hd⟩ := A.exp t h
  have e0 : 0 ≤ e := by
    have := F.exp_nonneg (fin t) (by intro e; cases e)
    rw [he] at this
    exact this
  have h1 := (abs_le.1 hd).2
  have h2 := Real.exp_le_exp.2 h
  have h3 := exp500_ge
  have hlt : |1 + e| ≤ 3 * Real.exp 500 := by
    rw [abs_of_nonneg (by linarith)]
    nlinarith [A.nonneg, A.small, Real.exp_pos t]
  obtain ⟨b, hb, hbd⟩ := A.near (1 + e) hlt
  refine ⟨e, b, he, e0, hd, hb, rd_ge_one (by linarith) hb, hbd.trans ?_⟩
  rw [abs_of_nonneg (by linarith : (0 : ℝ) ≤ 1 + e)]
  nlinarith [A.nonneg]

theorem sig_lip (t s : ℝ) : |1 / (1 + Real.exp t) - 1 / (1 + Real.exp s)| ≤ 1 / 4 * |t - s| := by
  have := sigmoid_lip (-t) (-s)
  rw [Real.sigmoid_def, Real.sigmoid_def, neg_neg, neg_neg] at this
  rw [one_div, one_div]
  refine this.trans (le_of_eq ?_)
  rw [show -t - -s = -(t - s) by ring, abs_neg]

/-- `1 / (1 + e)` moves less than `e` does. -/
theorem inv_diff {a b : ℝ} (ha : 1 ≤ a) (hb : 1 ≤ b) : |1 / a - 1 / b| ≤ |a - b| / b := by
  have e : 1 / a - 1 / b = (b - a) / (a * b) := by field_simp
  rw [e, abs_div, abs_of_pos (by positivity : 0 < a * b), abs_sub_comm]
  refine div_le_div_of_nonneg_left (abs_nonneg _) (by linarith) ?_
  nlinarith

/-- What overflows or is large becomes small. -/
theorem large_inv (A : Accurate ε) {t : ℝ} (h : 500 < t) : ∃ z, pdiv (lit 1) ((lit 1 : Ieee) + Arith.exp (fin t)) = .ok (fin z) ∧ 0 ≤ z ∧ z ≤ 3 * ε := by
  have hA := A.nonneg
  rw [lit1]
  have key : ((fin 1 : Ieee) + Arith.exp (fin t)) = pinf ∨ ∃ b, ((fin 1 : Ieee) + Arith.exp (fin t)) = fin b ∧ Real.exp 400 ≤ b := by
    show Ieee.add (fin 1) (F.exp (fin t)) = _ ∨ ∃ b, Ieee.add (fin 1) (F.exp (fin t)) = _ ∧ _
    rcases A.large t h with e | ⟨e, he, h1⟩
    · rw [e]; exact .inl rfl
    · rw [he]
      have h2 : Real.exp 499 ≤ Real.exp 500 := Real.exp_le_exp.2 (by norm_num)
      obtain ⟨r, hr, hrd⟩ := A.near (Real.exp 499) (by rw [abs_of_pos (Real.exp_pos _)]; linarith [Real.exp_pos 500])
      have h3 : Real.exp 400 ≤ r := by
        rw [abs_of_pos (Real.exp_pos _)] at hrd
        have h4 : Real.exp 499 = Real.exp 400 * Real.exp 99 := by rw [← Real.exp_add]; norm_num
        have h5 := Real.add_one_le_exp (99 : ℝ)
        have h6 := (abs_le.1 hrd).1
        have h7 := Real.add_one_le_exp (400 : ℝ)
        have h8 : ε * (1 + Real.exp 499) ≤ 1 / 1000 * (1 + Real.exp 499) :=
          mul_le_mul_of_nonneg_right A.small (by linarith [Real.exp_pos 499])
        have h9 : Real.exp 400 * 100 ≤ Real.exp 400 * Real.exp 99 := mul_le_mul_of_nonneg_left (by linarith) (Real.exp_pos _).le
        linarith
      have h4 := F.mono (Real.exp 499) (1 + e) (by linarith)
      rw [hr] at h4
      show F.rd (1 + e) = _ ∨ ∃ b, F.rd (1 + e) = _ ∧ _
      revert h4
      generalize F.rd (1 + e) = y
      cases y with
      | nan => intro h; exact h.elim
      | ninf => intro h; exact h.elim
      | pinf => intro _; exact .inl rfl
      | fin b => intro h; exact .inr ⟨b, rfl, h3.trans h⟩
  rcases key with e | ⟨b, e, hb⟩ <;> rw [e]
  · exact ⟨0, by rw [pdiv_ok (by intro e; cases e)]; rfl, le_rfl, by linarith⟩
  · have b0 : 0 < b := (Real.exp_pos 400).trans_le hb
    have h1 : 1 / b ≤ ε := by
      refine le_trans ?_ A.tiny
      rw [Real.exp_neg, ← one_div]
      exact one_div_le_one_div_of_le (Real.exp_pos _) hb
    have h0 : 0 ≤ 1 / b := by positivity
    obtain ⟨z, hz, hzd⟩ := A.near (1 / b) (by rw [abs_of_nonneg h0]; linarith [exp500_ge, A.small])
    refine ⟨z, ?_, ?_, ?_⟩
    · rw [pdiv_ok (by intro e; have := Ieee.fin.inj e; linarith)]
      congr 1
      show (if b = 0 then _ else F.rd (1 / b)) = _
      rw [if_neg (by linarith), hz]
    · have := F.mono 0 (1 / b) h0
      rw [rd_zero, hz] at this
      exact this
    · rw [abs_of_nonneg h0] at hzd
      have := (abs_le.1 hzd).2
      nlinarith [A.small]

theorem sigmoid_near (A : Accurate ε) {x l : ℝ} (hl : F.rd l = fin l) (h : |l * x| ≤ Real.exp 500) :
    ∃ z, sigmoid (fin x : Ieee) (fin l) = .ok (fin z) ∧ |z - 1 / (1 + Real.exp (-(l * x)))| ≤ ε * (6 + |l * x|) := by
  obtain ⟨t, ht, htd⟩ := exponent A hl h
  rcases lt_or_ge 500 t with ht5 | ht5
  · obtain ⟨z, hz, z0, z1⟩ := large_inv A ht5
    refine ⟨z, by unfold sigmoid; rw [ht]; exact hz, ?_⟩
    have h4 := sig_lip t (-(l * x))
    have h5 : 1 / (1 + Real.exp t) ≤ ε := by
      refine le_trans ?_ A.tiny
      rw [Real.exp_neg, ← one_div]
      exact one_div_le_one_div_of_le (Real.exp_pos _) (by linarith [Real.exp_le_exp.2 (by linarith : (400 : ℝ) ≤ t)])
    have h6 : 0 ≤ 1 / (1 + Real.exp t) := by positivity
    have h7 := abs_le.1 h4
    have hA := A.nonneg
    rw [abs_le]
    constructor <;> nlinarith [abs_nonneg (l * x)]
  obtain ⟨e, b, he, e0, hed, hb, b1, hbd⟩ := one_plus A ht5
  have hbi : 1 / b ≤ 1 := by rw [div_le_one (by linarith)]; exact b1
  have hb0 : 0 ≤ 1 / b := by positivity
  obtain ⟨z, hz, hzd⟩ := A.near (1 / b) (by rw [abs_of_nonneg hb0]; linarith [exp500_ge])
  refine ⟨z, ?_, ?_⟩
  · unfold sigmoid
    rw [ht, lit1]
    have e1 : (fin 1 + Arith.exp (fin t) : Ieee) = fin b := by
      show Ieee.add (fin 1) (F.exp (fin t)) = _
      rw [he]
      exact hb
    rw [e1, pdiv_ok (by intro e; have := Ieee.fin.inj e; linarith)]
    congr 1
    show (if b = 0 then _ else F.rd (1 / b)) = _
    rw [if_neg (by linarith), hz]
  · have h1 : |z - 1 / b| ≤ 2 * ε := by
      rw [abs_of_nonneg hb0] at hzd
      nlinarith [A.nonneg]
    have h2 : |1 / b - 1 / (1 + e)| ≤ 2 * ε := by
      refine (inv_diff b1 (by linarith)).trans ?_
      rw [div_le_iff₀ (by linarith)]
      exact hbd
    have h3 : |1 / (1 + e) - 1 / (1 + Real.exp t)| ≤ ε := by
      refine (inv_diff (by linarith) (by linarith [Real.exp_pos t])).trans ?_
      rw [div_le_iff₀ (by linarith [Real.exp_pos t]), show 1 + e - (1 + Real.exp t) = e - Real.exp t by ring]
      exact hed
    have h4 := sig_lip t (-(l * x))
    have e5 : z - 1 / (1 + Real.exp (-(l * x))) = (z - 1 / b) + (1 / b - 1 / (1 + e)) + (1 / (1 + e) - 1 / (1 + Real.exp t)) +
        (1 / (1 + Real.exp t) - 1 / (1 + Real.exp (-(l * x)))) := by ring
    rw [e5]
    refine (abs_add_le _ _).trans ?_
    have h6 := (abs_add_le ((z - 1 / b) + (1 / b - 1 / (1 + e))) (1 / (1 + e) - 1 / (1 + Real.exp t)))
    have h7 := abs_add_le (z - 1 / b) (1 / b - 1 / (1 + e))
    nlinarith [A.nonneg, abs_nonneg (l * x)]

theorem hip_sig (t : ℝ) : (1 - Real.exp t) / (1 + Real.exp t) = 2 * (1 / (1 + Real.exp t)) - 1 := by
  have := Real.exp_pos t
  field_simp
  ring

theorem sigmoidHip_near (A : Accurate ε) {x l : ℝ} (hl : F.rd l = fin l) (h : |l * x| ≤ Real.exp 500) :
    ∃ z, sigmoidHip (fin x : Ieee) (fin l) = .ok (fin z) ∧
      |z - (1 - Real.exp (min 500 (-(l * x)))) / (1 + Real.exp (min 500 (-(l * x))))| ≤ ε * (14 + |l * x|) := by
  obtain ⟨t', ht', htd'⟩ := exponent A hl h
  obtain ⟨t, ht, htd, ht5⟩ : ∃ t, (if (lit 500 : Ieee) <? fin t' then (lit 500 : Ieee) else fin t') = fin t ∧
      |t - min 500 (-(l * x))| ≤ ε * (1 + |l * x|) ∧ t ≤ 500 := by
    have l500 : (lit 500 : Ieee) = fin 500 := by simpa using Format.small (n := 500) (by decide)
    refine ⟨min 500 t', ?_, ?_, min_le_left _ _⟩
    · rw [l500]
      rcases lt_or_ge 500 t' with g | g
      · rw [if_pos (by rw [dlt_iff]; exact g), min_eq_left g.le]
      · rw [if_neg (by rw [dlt_iff]; exact not_lt.2 g), min_eq_right g]
    · refine le_trans ?_ htd'
      exact (abs_min_sub_min_le_max 500 t' 500 (-(l * x))).trans (by simp)
  obtain ⟨e, b, he, e0, hed, hb, b1, hbd⟩ := one_plus A ht5
  have hA := A.nonneg
  have hA1 := A.small
  generalize min 500 (-(l * x)) = u at *
  have hlt : |1 - e| ≤ 1 + e := by rw [abs_le]; constructor <;> linarith
  have hle : 1 + e ≤ 3 * Real.exp 500 := by
    have h1 := (abs_le.1 hed).2
    have h2 := Real.exp_le_exp.2 ht5
    nlinarith [exp500_ge, Real.exp_pos t]
  obtain ⟨n, hn, hnd⟩ := A.near (1 - e) (hlt.trans hle)
  have hnd : |n - (1 - e)| ≤ 2 * ε * (1 + e) := hnd.trans (by nlinarith)
  have hbp : 0 < b := by linarith
  have hq : |n / b - (1 - e) / (1 + e)| ≤ 8 * ε := by
    have e1 : n / b - (1 - e) / (1 + e) = ((n - (1 - e)) * (1 + e) + (1 - e) * ((1 + e) - b)) / (b * (1 + e)) := by
      have : (1 + e) ≠ 0 := by linarith
      field_simp
      ring
    rw [e1, abs_div, abs_of_pos (by positivity : 0 < b * (1 + e)), div_le_iff₀ (by positivity)]
    have h1 : |(n - (1 - e)) * (1 + e)| ≤ 2 * ε * (1 + e) * (1 + e) := by
      rw [abs_mul, abs_of_pos (by linarith : 0 < 1 + e)]
      exact mul_le_mul_of_nonneg_right hnd (by linarith)
    have h2 : |(1 - e) * ((1 + e) - b)| ≤ (1 + e) * (2 * ε * (1 + e)) := by
      rw [abs_mul]
      refine mul_le_mul hlt ?_ (abs_nonneg _) (by linarith)
      rw [abs_sub_comm]; exact hbd
    have h3 := abs_add_le ((n - (1 - e)) * (1 + e)) ((1 - e) * ((1 + e) - b))
    have h4 : (1 + e) / 2 ≤ b := by
      have := (abs_le.1 hbd).1
      nlinarith
    have h5 : 4 * ε * (1 + e) * (1 + e) ≤ 8 * ε * (b * (1 + e)) := by
      have : ε * (1 + e) * ((1 + e) / 2) ≤ ε * (1 + e) * b := mul_le_mul_of_nonneg_left h4 (by positivity)
      nlinarith
    nlinarith
  have hf : |(1 - e) / (1 + e)| ≤ 1 := by
    rw [abs_div, abs_of_pos (by linarith : 0 < 1 + e), div_le_one (by linarith)]
    exact hlt
  have hnb : |n / b| ≤ 2 := by
    have := abs_add_le (n / b - (1 - e) / (1 + e)) ((1 - e) / (1 + e))
    rw [sub_add_cancel] at this
    linarith
  obtain ⟨z, hz, hzd⟩ := A.near (n / b) (by linarith [exp500_ge])
  refine ⟨z, ?_, ?_⟩
  · unfold sigmoidHip
    have sp : ∀ b : Bool, (if b = true then pdiv ((lit 1 : Ieee) - Arith.exp (lit 500)) (lit 1 + Arith.exp (lit 500))
        else pdiv (lit 1 - Arith.exp (fin t')) (lit 1 + Arith.exp (fin t'))) =
        pdiv (lit 1 - Arith.exp (if b = true then (lit 500 : Ieee) else fin t')) (lit 1 + Arith.exp (if b = true then (lit 500 : Ieee) else fin t')) := by
      intro b; cases b <;> rfl
    rw [ht', sp, ht, lit1]
    have e1 : (fin 1 + Arith.exp (fin t) : Ieee) = fin b := by
      show Ieee.add (fin 1) (F.exp (fin t)) = _
      rw [he]
      exact hb
    have e2 : (fin 1 - Arith.exp (fin t) : Ieee) = fin n := by
      show Ieee.add (fin 1) (Ieee.neg (F.exp (fin t))) = _
      rw [he]
      exact hn
    rw [e1, e2, pdiv_ok (by intro e; have := Ieee.fin.inj e; linarith)]
    congr 1
    show (if b = 0 then _ else F.rd (n / b)) = _
    rw [if_neg (by linarith), hz]
  · have h1 : |z - n / b| ≤ 3 * ε := by nlinarith
    have h3 : |1 / (1 + e) - 1 / (1 + Real.exp t)| ≤ ε := by
      refine (inv_diff (by linarith) (by linarith [Real.exp_pos t])).trans ?_
      rw [div_le_iff₀ (by linarith [Real.exp_pos t]), show 1 + e - (1 + Real.exp t) = e - Real.exp t by ring]
      exact hed
    have h4 := sig_lip t u
    have e6 : (1 - e) / (1 + e) = 2 * (1 / (1 + e)) - 1 := by
      have : (1 + e) ≠ 0 := by linarith
      field_simp
      ring
    rw [hip_sig]
    have e5 : z - (2 * (1 / (1 + Real.exp u)) - 1) = (z - n / b) + (n / b - (1 - e) / (1 + e)) +
        2 * (1 / (1 + e) - 1 / (1 + Real.exp t)) + 2 * (1 / (1 + Real.exp t) - 1 / (1 + Real.exp u)) := by rw [e6]; ring
    rw [e5]
    refine (abs_add_le _ _).trans ?_
    have h6 := (abs_add_le ((z - n / b) + (n / b - (1 - e) / (1 + e))) (2 * (1 / (1 + e) - 1 / (1 + Real.exp t))))
    have h7 := abs_add_le (z - n / b) (n / b - (1 - e) / (1 + e))
    have h8 : |2 * (1 / (1 + e) - 1 / (1 + Real.exp t))| ≤ 2 * ε := by rw [abs_mul, abs_two]; linarith
    have h9 : |2 * (1 / (1 + Real.exp t) - 1 / (1 + Real.exp u))| ≤ 1 / 2 * |t - u| := by
      rw [abs_mul, abs_two]; linarith
    nlinarith [abs_nonneg (l * x)]

theorem relm_near (A : Accurate ε) {x l : ℝ} (hl : 0 < l) :
    ∃ z, relm (fin x : Ieee) (fin l) = .ok (fin z) ∧ |z - if x < 0 then 0 else if 1 < x / l then 1 else x / l| ≤ 2 * ε := by
  have hA := A.nonneg
  have hne : (fin l : Ieee) ≠ fin 0 := by intro e; have := Ieee.fin.inj e; linarith
  by_cases hx : x < 0
  · refine ⟨0, ?_, by rw [if_pos hx]; simpa using hA⟩
    unfold relm
    rw [if_pos (by rw [dlt_iff, lit0]; exact hx), lit0]
  · have hq : 0 ≤ x / l := div_nonneg (not_lt.1 hx) hl.le
    have hdiv : (fin x / fin l : Ieee) = F.rd (x / l) := if_neg hl.ne'
    have unf : relm (fin x : Ieee) (fin l) = .ok (if lit 1 <? (F.rd (x / l) : Ieee) then lit 1 else F.rd (x / l)) := by
      unfold relm
      rw [if_neg (by rw [dlt_iff, lit0]; exact hx), pdiv_ok hne, hdiv]
      simp only [bind, Except.bind]
      split <;> rfl
    rw [unf, if_neg hx]
    by_cases h1 : 1 < x / l
    · refine ⟨1, ?_, by rw [if_pos h1]; simpa using hA⟩
      have := F.mono 1 (x / l) h1.le
      rw [rd_one] at this
      congr 1
      by_cases hc : (lit 1 <? (F.rd (x / l) : Ieee)) = true
      · rw [if_pos hc, lit1]
      · rw [if_neg hc]
        rw [dlt_iff, lit1] at hc
        revert this hc
        generalize F.rd (x / l) = r
        cases r with
        | nan => intro h; exact h.elim
        | ninf => intro h; exact h.elim
        | pinf => intro _ h; exact absurd trivial h
        | fin r =>
          intro h1 h2
          have h1 : (1 : ℝ) ≤ r := h1
          have h2 : ¬ (1 : ℝ) < r := h2
          rw [le_antisymm (not_lt.1 h2) h1]
    · rw [if_neg h1]
      have h1 := not_lt.1 h1
      obtain ⟨z, hz, hzd⟩ := A.near (x / l) (by rw [abs_of_nonneg hq]; linarith [exp500_ge])
      refine ⟨z, ?_, by rw [abs_of_nonneg hq] at hzd; nlinarith⟩
      rw [hz, if_neg]
      rw [dlt_iff, lit1]
      have := F.mono (x / l) 1 h1
      rw [hz, rd_one] at this
      exact not_lt.2 this

theorem saturation_near (x : ℝ) : saturation (fin x : Ieee) = fin (saturation x) := by
  unfold saturation
  rw [lit0, lit1]
  by_cases h0 : x < 0
  · have a : (fin x <? (fin 0 : Ieee)) = true := by rw [dlt_iff]; exact h0
    have b : (x <? (lit 0 : ℝ)) = true := by simpa using h0
    rw [if_pos a, if_pos b]; simp
  · have a : ¬ (fin x <? (fin 0 : Ieee)) = true := by rw [dlt_iff]; exact h0
    have b : ¬ (x <? (lit 0 : ℝ)) = true := by simpa using h0
    rw [if_neg a, if_neg b]
    by_cases h1 : 1 < x
    · have a : (fin 1 <? (fin x : Ieee)) = true := by rw [dlt_iff]; exact h1
      have b : ((lit 1 : ℝ) <? x) = true := by simpa using h1
      rw [if_pos a, if_pos b]; simp
    · have a : ¬ (fin 1 <? (fin x : Ieee)) = true := by rw [dlt_iff]; exact h1
      have b : ¬ ((lit 1 : ℝ) <? x) = true := by simpa using h1
      rw [if_neg a, if_neg b]

end

/-! ### The doubles -/

namespace Binary64

theorem nearest_near {x p r : ℝ} (h0 : 0 ≤ x) (h1 : x ≤ top) (hp : Grid p) (hr : Grid r) (px : p ≤ x) (xr : x ≤ r) :
    |nearest x - x| ≤ (r - p) / 2 := by
  obtain ⟨-, d1, d2⟩ := down_spec h0
  obtain ⟨-, u1, u2⟩ := up_spec h1
  have hd := d2 p hp px
  have hu := u2 r hr xr
  rw [abs_le]
  unfold nearest
  split_ifs <;> constructor <;> linarith

theorem magnitude_near {x : ℝ} (h0 : 0 ≤ x) (h1 : x ≤ (2 : ℝ) ^ (802 : ℤ)) : ∃ r, magnitude x = fin r ∧ |r - x| ≤ 2 ^ (-53 : ℤ) * (1 + x) := by
  obtain ⟨k, k0, k1, hlt, hle⟩ : ∃ k : ℤ, 0 ≤ k ∧ k ≤ 802 ∧ x < (2 : ℝ) ^ (k + 1) ∧ (2 : ℝ) ^ k ≤ 1 + x := by
    by_cases hx : x < 1
    · exact ⟨0, le_rfl, by norm_num, by norm_num; linarith, by norm_num; linarith⟩
    · have hx := not_lt.1 hx
      refine ⟨Int.log 2 x, ?_, ?_, by simpa using Int.lt_zpow_succ_log_self (b := 2) (by norm_num) x, ?_⟩
      · rw [← Int.zpow_le_iff_le_log (b := 2) (by norm_num) (by linarith)]
        simpa using hx
      · by_contra hc
        have h2 := Int.zpow_log_le_self (b := 2) (r := x) (by norm_num) (by linarith)
        have h3 : (2 : ℝ) ^ (802 : ℤ) < (2 : ℝ) ^ (Int.log 2 x) := zpow_lt_zpow_right₀ (by norm_num) (by omega)
        have h2 : (2 : ℝ) ^ (Int.log 2 x) ≤ x := by simpa using h2
        exact absurd (h3.trans_le h2) (not_lt.2 h1)
      · have h2 := Int.zpow_log_le_self (b := 2) (r := x) (by norm_num) (by linarith)
        have h2 : (2 : ℝ) ^ (Int.log 2 x) ≤ x := by simpa using h2
        linarith
  have hs : (0 : ℝ) < (2 : ℝ) ^ (k - 52) := by positivity
  have e1 : (2 : ℝ) ^ (k + 1) = 2 ^ 53 * (2 : ℝ) ^ (k - 52) := by
    rw [show k + 1 = (53 : ℕ) + (k - 52) by push_cast; ring, zpow_add₀ (by norm_num), zpow_natCast]
  have e2 : (2 : ℝ) ^ (k - 52) / 2 = (2 : ℝ) ^ (-53 : ℤ) * (2 : ℝ) ^ k := by
    rw [← zpow_add₀ (by norm_num), show -53 + k = (k - 52) - 1 by ring, zpow_sub_one₀ (by norm_num)]
    ring
  have hlt' := hlt
  rw [e1] at hlt
  set s := (2 : ℝ) ^ (k - 52) with hsd
  have f0 : 0 ≤ ⌊x / s⌋ := Int.floor_nonneg.2 (by positivity)
  have f1 : ⌊x / s⌋ < 2 ^ 53 := by
    rw [Int.floor_lt, div_lt_iff₀ hs]
    exact_mod_cast hlt
  have g1 : Grid (⌊x / s⌋ * s) := ⟨_, k - 52, f0, f1.le, by omega, by omega, rfl⟩
  have g2 : Grid ((⌊x / s⌋ + 1 : ℤ) * s) := ⟨_, k - 52, by omega, f1, by omega, by omega, rfl⟩
  have t1 : (2 : ℝ) ^ (k + 1) ≤ (2 : ℝ) ^ (971 : ℤ) := zpow_le_zpow_right₀ (by norm_num) (by omega)
  have t2 : (2 : ℝ) ^ (971 : ℤ) < top := zpow_lt_zpow_right₀ (by norm_num) (by norm_num)
  have ht : x < top := hlt'.trans_le (t1.trans t2.le)
  have hn := nearest_near h0 ht.le g1 g2 ((le_div_iff₀ hs).1 (Int.floor_le _))
    ((div_le_iff₀ hs).1 (by push_cast; exact (Int.lt_floor_add_one _).le))
  have hbound : |nearest x - x| ≤ 2 ^ (-53 : ℤ) * (1 + x) := by
    refine hn.trans ?_
    have e3 : (((⌊x / s⌋ + 1 : ℤ) : ℝ) * s - ⌊x / s⌋ * s) / 2 = s / 2 := by push_cast; ring
    rw [e3, e2]
    exact mul_le_mul_of_nonneg_left hle (by positivity)
  refine ⟨nearest x, ?_, hbound⟩
  have hm : nearest x ≤ (2 : ℝ) ^ (971 : ℤ) := by
    have := nearest_mono h0 (hlt'.le.trans t1) t2.le
    rwa [nearest_eq (grid_pow (by norm_num) le_rfl) t2.le] at this
  unfold magnitude
  rw [min_eq_left ht.le, if_neg (hm.trans_lt t2).ne]

theorem round_near {x : ℝ} (h : |x| ≤ (2 : ℝ) ^ (802 : ℤ)) : ∃ r, round x = fin r ∧ |r - x| ≤ 2 ^ (-53 : ℤ) * (1 + |x|) := by
  rcases le_total 0 x with h0 | h0
  · rw [abs_of_nonneg h0] at h ⊢
    rw [round_pos h0]
    exact magnitude_near h0 h
  · rw [abs_of_nonpos h0] at h ⊢
    obtain ⟨r, hr, hd⟩ := magnitude_near (by linarith : 0 ≤ -x) h
    refine ⟨-r, ?_, ?_⟩
    · have := round_odd (-x)
      rw [neg_neg, round_pos (by linarith : 0 ≤ -x), hr] at this
      exact this
    · rw [show -r - x = -(r - -x) by ring, abs_neg]
      exact hd

/-- The doubles round with a relative error of 2⁻⁵³. -/
theorem accurate : Accurate (F := format) (2 ^ (-53 : ℤ)) where
  nonneg := by positivity
  small := by norm_num
  tiny := by
    have h1 := Real.exp_one_gt_d9
    have h2 : (2 : ℝ) ^ (53 : ℤ) ≤ Real.exp 400 := by
      have e : Real.exp 400 = Real.exp 1 ^ 400 := by rw [← Real.exp_nat_mul]; norm_num
      have h3 : (2 : ℝ) ^ 53 ≤ (2 : ℝ) ^ 400 := pow_le_pow_right₀ (by norm_num) (by norm_num)
      have h4 : (2 : ℝ) ^ 400 ≤ Real.exp 1 ^ 400 := pow_le_pow_left₀ (by norm_num) (by linarith) 400
      rw [e]
      exact_mod_cast h3.trans h4
    rw [Real.exp_neg, zpow_neg]
    exact inv_anti₀ (by positivity) h2
  near x h := round_near (h.trans (by
    rw [show (802 : ℤ) = 800 + 2 by norm_num, zpow_add₀ (by norm_num)]
    have := exp_500
    generalize (2 : ℝ) ^ (800 : ℤ) = z at *
    norm_num
    linarith [Real.exp_pos 500]))
  exp x h := by
    have h1 : Real.exp x ≤ (2 : ℝ) ^ (802 : ℤ) := (Real.exp_le_exp.2 h).trans (exp_500.trans (zpow_le_zpow_right₀ (by norm_num) (by norm_num)))
    have := round_near (x := Real.exp x) (by rw [abs_of_pos (Real.exp_pos x)]; exact h1)
    rw [abs_of_pos (Real.exp_pos x)] at this
    exact this
  large x h := by
    have h2 := round_mono (Real.exp_le_exp.2 h.le)
    have h3 : Real.exp 500 ≤ (2 : ℝ) ^ (802 : ℤ) := exp_500.trans (zpow_le_zpow_right₀ (by norm_num) (by norm_num))
    obtain ⟨r, hr, hrd⟩ := round_near (x := Real.exp 500) (by rw [abs_of_pos (Real.exp_pos _)]; exact h3)
    rw [hr] at h2
    have h4 : Real.exp 499 ≤ r := by
      rw [abs_of_pos (Real.exp_pos _)] at hrd
      have e : Real.exp 500 = Real.exp 499 * Real.exp 1 := by rw [← Real.exp_add]; norm_num
      have h5 := (abs_le.1 hrd).1
      have h6 := Real.exp_one_gt_d9
      have h7 : (2 : ℝ) ^ (-53 : ℤ) ≤ 1 / 1000 := by norm_num
      have h8 := mul_le_mul_of_nonneg_right h7 (by positivity : 0 ≤ 1 + Real.exp 500)
      have h9 : Real.exp 499 * 2.7 ≤ Real.exp 499 * Real.exp 1 := mul_le_mul_of_nonneg_left (by linarith) (Real.exp_pos _).le
      have h10 := Real.add_one_le_exp (499 : ℝ)
      clear h7 h3 hrd
      generalize (2 : ℝ) ^ (-53 : ℤ) * (1 + Real.exp 500) = y at *
      linarith
    show round (Real.exp x) = _ ∨ ∃ e, round (Real.exp x) = _ ∧ _
    revert h2
    generalize round (Real.exp x) = y
    cases y with
    | nan => intro h; exact h.elim
    | ninf => intro h; exact h.elim
    | pinf => intro _; exact .inl rfl
    | fin b => intro h; exact .inr ⟨b, rfl, h4.trans h⟩

end Binary64

end PyFCM
