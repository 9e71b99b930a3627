import Verif.Lemmas.Floating
import Mathlib.Data.Int.Interval
import Mathlib.Analysis.Complex.ExponentialBounds
import Mathlib.Order.ConditionallyCompleteLattice.Finset
/-
The format of Python's and numpy's floats: IEEE 754 binary64, rounding to nearest, ties to even.
-/
namespace PyFCM.Binary64
open Ieee

/-- The magnitudes `m * 2^e`, together with 2^1024, to which what overflows is rounded. -/
def Grid (x : ℝ) : Prop := ∃ m e : ℤ, 0 ≤ m ∧ m ≤ 2 ^ 53 ∧ -1074 ≤ e ∧ e ≤ 971 ∧ x = m * (2 : ℝ) ^ e

/-- A magnitude with an even significand. -/
def Even (x : ℝ) : Prop := ∃ m e : ℤ, 0 ≤ m ∧ 2 * m ≤ 2 ^ 53 ∧ -1074 ≤ e ∧ e ≤ 971 ∧ x = (2 * m : ℤ) * (2 : ℝ) ^ e

/-- 2^1024 -/
noncomputable def top : ℝ := (2 : ℝ) ^ (1024 : ℤ)

/-- The neighbours of `x`. -/
noncomputable def down (x : ℝ) : ℝ := sSup {p | Grid p ∧ p ≤ x}
noncomputable def up (x : ℝ) : ℝ := sInf {p | Grid p ∧ x ≤ p}

open Classical in
/-- The nearest magnitude, of two equally near ones the even one. -/
noncomputable def nearest (x : ℝ) : ℝ :=
  if x - down x < up x - x then down x
  else if up x - x < x - down x then up x
  else if Even (down x) then down x else up x

open Classical in
/-- Rounding of a magnitude. -/
noncomputable def magnitude (x : ℝ) : Ieee := if nearest (min x top) = top then pinf else fin (nearest (min x top))

/-- Rounding. -/
noncomputable def round (x : ℝ) : Ieee := if 0 ≤ x then magnitude x else (magnitude (-x)).neg

/-! ### Magnitudes -/

theorem grid_finite : {p | Grid p}.Finite := by
  have h : ((Set.Icc (0 : ℤ) (2 ^ 53)) ×ˢ (Set.Icc (-1074 : ℤ) 971)).Finite := (Set.finite_Icc _ _).prod (Set.finite_Icc _ _)
  refine (h.image fun p => (p.1 : ℝ) * (2 : ℝ) ^ p.2).subset ?_
  rintro x ⟨m, e, h1, h2, h3, h4, rfl⟩
  exact ⟨(m, e), ⟨⟨h1, h2⟩, ⟨h3, h4⟩⟩, rfl⟩

theorem grid_zero : Grid 0 := ⟨0, 0, le_rfl, by norm_num, by norm_num, by norm_num, by simp⟩

theorem grid_int {n : ℤ} (h0 : 0 ≤ n) (h : n ≤ 2 ^ 53) : Grid n := ⟨n, 0, h0, h, by norm_num, by norm_num, by simp⟩

theorem grid_pow {k : ℤ} (h0 : -1074 ≤ k) (h : k ≤ 971) : Grid ((2 : ℝ) ^ k) := ⟨1, k, by norm_num, by norm_num, h0, h, by simp⟩

theorem grid_top : Grid top := by
  refine ⟨2 ^ 53, 971, by norm_num, le_rfl, by norm_num, le_rfl, ?_⟩
  unfold top
  rw [show (1024 : ℤ) = 53 + 971 by norm_num, zpow_add₀ (by norm_num), show ((2 ^ 53 : ℤ) : ℝ) = (2 : ℝ) ^ (53 : ℤ) by norm_num]

theorem grid_nonneg {x : ℝ} (h : Grid x) : 0 ≤ x := by
  obtain ⟨m, e, h1, -, -, -, rfl⟩ := h
  have : (0 : ℝ) ≤ m := by exact_mod_cast h1
  positivity

theorem top_pos : 0 < top := by unfold top; positivity

section
variable {x y : ℝ}

theorem down_spec (hx : 0 ≤ x) : Grid (down x) ∧ down x ≤ x ∧ ∀ p, Grid p → p ≤ x → p ≤ down x := by
  have hf : {p | Grid p ∧ p ≤ x}.Finite := grid_finite.subset fun p h => h.1
  have hn : {p | Grid p ∧ p ≤ x}.Nonempty := ⟨0, grid_zero, hx⟩
  have := hn.csSup_mem hf
  exact ⟨this.1, this.2, fun p h1 h2 => le_csSup hf.bddAbove ⟨h1, h2⟩⟩

theorem up_spec (hx : x ≤ top) : Grid (up x) ∧ x ≤ up x ∧ ∀ p, Grid p → x ≤ p → up x ≤ p := by
  have hf : {p | Grid p ∧ x ≤ p}.Finite := grid_finite.subset fun p h => h.1
  have hn : {p | Grid p ∧ x ≤ p}.Nonempty := ⟨top, grid_top, hx⟩
  have := hn.csInf_mem hf
  exact ⟨this.1, this.2, fun p h1 h2 => csInf_le hf.bddBelow ⟨h1, h2⟩⟩

theorem nearest_or : nearest x = down x ∨ nearest x = up x := by
  unfold nearest
  split
  · exact .inl rfl
  · split
    · exact .inr rfl
    · split
      · exact .inl rfl
      · exact .inr rfl

theorem nearest_grid (h0 : 0 ≤ x) (h1 : x ≤ top) : Grid (nearest x) := by
  rcases nearest_or (x := x) with e | e <;> rw [e]
  · exact (down_spec h0).1
  · exact (up_spec h1).1

theorem nearest_eq (h : Grid x) (h1 : x ≤ top) : nearest x = x := by
  have h0 := grid_nonneg h
  have hd : down x = x := le_antisymm (down_spec h0).2.1 ((down_spec h0).2.2 x h le_rfl)
  have hu : up x = x := le_antisymm ((up_spec h1).2.2 x h le_rfl) (up_spec h1).2.1
  rcases nearest_or (x := x) with e | e <;> rw [e]
  · exact hd
  · exact hu

theorem nearest_mono (h0 : 0 ≤ x) (hxy : x ≤ y) (h1 : y ≤ top) : nearest x ≤ nearest y := by
  obtain ⟨dx, dx1, dx2⟩ := down_spec h0
  obtain ⟨dy, dy1, dy2⟩ := down_spec (h0.trans hxy)
  obtain ⟨ux, ux1, ux2⟩ := up_spec (hxy.trans h1)
  obtain ⟨uy, uy1, uy2⟩ := up_spec h1
  have hd : down x ≤ down y := dy2 _ dx (dx1.trans hxy)
  have hu : up x ≤ up y := ux2 _ uy (hxy.trans uy1)
  have hn : down y ≤ nearest y := by
    rcases nearest_or (x := y) with e | e <;> rw [e]
    linarith
  have hm : nearest x ≤ up x := by
    rcases nearest_or (x := x) with e | e <;> rw [e]
    linarith
  by_cases hc : up x ≤ y
  · exact hm.trans ((dy2 _ ux hc).trans hn)
  · by_cases hc' : x ≤ down y
    · exact hm.trans ((ux2 _ dy hc').trans hn)
    · have ed : down x = down y := le_antisymm hd (dx2 _ dy (not_le.1 hc').le)
      have eu : up x = up y := le_antisymm hu (uy2 _ ux (not_le.1 hc).le)
      unfold nearest
      rw [ed, eu]
      have hdu : down y ≤ up y := dy1.trans uy1
      split_ifs <;> first | exact le_rfl | exact hdu | (exfalso; linarith)

theorem magnitude_fin (h : Grid x) (h1 : x < top) : magnitude x = fin x := by
  unfold magnitude
  rw [min_eq_left h1.le, nearest_eq h h1.le, if_neg h1.ne]

theorem magnitude_nonneg (h0 : 0 ≤ x) : (fin 0).le (magnitude x) := by
  unfold magnitude
  split
  · trivial
  · exact grid_nonneg (nearest_grid (le_min h0 top_pos.le) (min_le_right _ _))

theorem magnitude_mono (h0 : 0 ≤ x) (h : x ≤ y) : (magnitude x).le (magnitude y) := by
  have hm := nearest_mono (le_min h0 top_pos.le) (min_le_min_right top h) (min_le_right _ _)
  have ht : nearest (min y top) ≤ top := by
    have := nearest_mono (x := min y top) (y := top) (le_min (h0.trans h) top_pos.le) (min_le_right _ _) le_rfl
    rwa [nearest_eq grid_top le_rfl] at this
  unfold magnitude
  split
  · rename_i e
    rw [if_pos (le_antisymm ht (e.symm.le.trans hm))]
    trivial
  · split
    · trivial
    · exact hm

theorem magnitude_num : magnitude x ≠ nan := by
  unfold magnitude
  split <;> (intro e; cases e)

theorem magnitude_zero : magnitude 0 = fin 0 := magnitude_fin grid_zero top_pos

end

theorem neg_neg' (a : Ieee) : a.neg.neg = a := by
  cases a <;> simp [Ieee.neg]

theorem round_pos {x : ℝ} (h : 0 ≤ x) : round x = magnitude x := if_pos h

theorem round_odd (x : ℝ) : round (-x) = (round x).neg := by
  rcases lt_trichotomy x 0 with h | h | h
  · rw [round_pos (by linarith)]
    unfold round
    rw [if_neg (by linarith), neg_neg']
  · subst h
    rw [neg_zero, round_pos le_rfl, magnitude_zero]
    simp [Ieee.neg]
  · unfold round
    rw [if_neg (by linarith), if_pos h.le, neg_neg]

theorem neg_mono {a b : Ieee} (h : a.le b) : b.neg.le a.neg := by
  cases a <;> cases b <;> simp_all [Ieee.le, Ieee.neg]

theorem round_mono {x y : ℝ} (h : x ≤ y) : (round x).le (round y) := by
  by_cases hx : 0 ≤ x
  · rw [round_pos hx, round_pos (hx.trans h)]
    exact magnitude_mono hx h
  · by_cases hy : 0 ≤ y
    · rw [round_pos hy]
      unfold round
      rw [if_neg hx]
      have h1 := magnitude_nonneg (x := -x) (by linarith)
      have h2 := magnitude_nonneg hy
      have h3 := neg_mono h1
      rw [show (fin 0).neg = fin 0 by simp [Ieee.neg]] at h3
      revert h2 h3
      generalize (magnitude (-x)).neg = a
      generalize magnitude y = b
      cases a <;> cases b <;> simp [Ieee.le]
      intros; linarith
    · unfold round
      rw [if_neg hx, if_neg hy]
      exact neg_mono (magnitude_mono (by linarith) (by linarith))

theorem round_num (x : ℝ) : round x ≠ nan := by
  have h : ∀ a : Ieee, a ≠ nan → a.neg ≠ nan := by
    intro a h e
    cases a <;> simp_all [Ieee.neg]
  unfold round
  split
  · exact magnitude_num
  · exact h _ magnitude_num

theorem int_lt_top {n : ℤ} (h : n ≤ 2 ^ 53) : (n : ℝ) < top := by
  have h1 : (n : ℝ) ≤ 2 ^ (53 : ℤ) := by exact_mod_cast h
  have h2 : (2 : ℝ) ^ (53 : ℤ) < top := by
    unfold top
    exact zpow_lt_zpow_right₀ (by norm_num) (by norm_num)
  linarith

theorem round_int {n : ℤ} (h : |n| ≤ 2 ^ 53) : round n = fin n := by
  have key : ∀ n : ℤ, 0 ≤ n → n ≤ 2 ^ 53 → round n = fin n := fun n h0 h => by
    rw [round_pos (by exact_mod_cast h0)]
    exact magnitude_fin (grid_int h0 h) (int_lt_top h)
  rcases le_total 0 n with h0 | h0
  · exact key n h0 (by rwa [abs_of_nonneg h0] at h)
  · have := key (-n) (by omega) (by rwa [abs_of_nonpos h0] at h)
    have e := round_odd ((-n : ℤ) : ℝ)
    rw [this] at e
    simpa [Ieee.neg] using e

theorem exp_500 : Real.exp 500 ≤ (2 : ℝ) ^ (800 : ℤ) := by
  have h1 : Real.exp 5 ≤ (2 : ℝ) ^ (8 : ℤ) := by
    have h2 : Real.exp 5 = Real.exp 1 ^ 5 := by rw [← Real.exp_nat_mul]; norm_num
    have h3 : Real.exp 1 ^ 5 ≤ (3 : ℝ) ^ 5 := pow_le_pow_left₀ (Real.exp_pos 1).le (Real.exp_one_lt_three.le) 5
    rw [h2]
    refine h3.trans ?_
    norm_num
  have h2 : Real.exp 500 = Real.exp 5 ^ 100 := by rw [← Real.exp_nat_mul]; norm_num
  rw [h2, show (800 : ℤ) = 8 * (100 : ℕ) by norm_num, zpow_mul, zpow_natCast]
  exact pow_le_pow_left₀ (Real.exp_pos 5).le h1 100

/-- No overflow up to 2^971. -/
theorem round_small {x : ℝ} {k : ℤ} (hk : 0 ≤ k) (hk' : k ≤ 971) (h0 : 0 ≤ x) (h : x ≤ (2 : ℝ) ^ k) :
    ∃ r, round x = fin r ∧ 0 ≤ r ∧ r ≤ (2 : ℝ) ^ k := by
  have hlt : (2 : ℝ) ^ k < top := by
    unfold top
    exact zpow_lt_zpow_right₀ (by norm_num) (by omega)
  have h1 := round_mono h
  rw [round_pos (x := (2 : ℝ) ^ k) (by positivity), magnitude_fin (grid_pow (by omega) hk') hlt] at h1
  have h2 := magnitude_nonneg h0
  rw [← round_pos h0] at h2
  revert h1 h2
  generalize round x = a
  cases a with
  | nan => intro h; exact h.elim
  | pinf => intro h; exact h.elim
  | ninf => intro _ h; exact h.elim
  | fin r => intro a b; exact ⟨r, rfl, b, a⟩

/-- The doubles, with exponential, logarithms and square root rounded correctly. -/
noncomputable instance format : Format where
  rd := round
  rd_num := round_num
  mono _ _ := round_mono
  odd := round_odd
  big := 2 ^ 53
  big_ge := by norm_num
  ints n h := round_int (by exact_mod_cast h)
  exp
    | nan => nan
    | ninf => fin 0
    | fin x => round (Real.exp x)
    | pinf => pinf
  exp_nonneg x h := by
    cases x with
    | nan => exact absurd rfl h
    | ninf => exact le_refl (0 : ℝ)
    | pinf => trivial
    | fin x =>
      show (fin 0).le (round (Real.exp x))
      rw [round_pos (Real.exp_pos x).le]
      exact magnitude_nonneg (Real.exp_pos x).le
  exp_nan := rfl
  exp_ninf := rfl
  exp_small x h := by
    obtain ⟨e, he, e0, e1⟩ := round_small (k := 800) (by norm_num) (by norm_num) (Real.exp_pos x).le ((Real.exp_le_exp.2 h).trans exp_500)
    have h2 : (1 : ℝ) ≤ (2 : ℝ) ^ (800 : ℤ) := one_le_zpow₀ (by norm_num) (by norm_num)
    obtain ⟨s, hs, -⟩ := round_small (x := 1 + e) (k := 801) (by norm_num) (by norm_num) (by linarith) (by
      rw [show (801 : ℤ) = 800 + 1 by norm_num, zpow_add₀ (by norm_num), zpow_one]
      generalize (2 : ℝ) ^ (800 : ℤ) = z at *
      linarith)
    exact ⟨e, s, he, hs⟩
  log
    | fin x => if 0 < x then round (Real.log x) else if x = 0 then ninf else nan
    | pinf => pinf
    | _ => nan
  log2
    | fin x => if 0 < x then round (Real.logb 2 x) else if x = 0 then ninf else nan
    | pinf => pinf
    | _ => nan
  sqrt
    | fin x => if 0 ≤ x then round (Real.sqrt x) else nan
    | pinf => pinf
    | _ => nan
  pow
    | fin x, fin y => round (x ^ y)
    | _, _ => nan

end PyFCM.Binary64
