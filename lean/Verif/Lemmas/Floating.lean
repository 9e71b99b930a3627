import Verif.Lemmas.Fuzzy
import Verif.Lemmas.Args
/-
Floating-point numbers: reals that are rounded after every operation, two infinities and NaN.  Any rounding that is
monotone, odd and exact on small integers is admitted; the binary formats of IEEE 754 in their default rounding are of
this kind.  Not part of the library's code: Python, numpy and numba compute with them.  Simplification: zeros have no sign
(it is visible only in a division by zero, and inference makes no unguarded one).
-/
namespace PyFCM
open Arith

set_option linter.unusedSectionVars false

/-- A floating-point number. -/
inductive Ieee where
  | nan
  | ninf
  | fin (x : ℝ)
  | pinf

namespace Ieee

def neg : Ieee → Ieee
  | nan => nan
  | ninf => pinf
  | fin x => fin (-x)
  | pinf => ninf

/-- IEEE comparison: false as soon as a NaN is involved. -/
def le : Ieee → Ieee → Prop
  | nan, _ => False
  | _, nan => False
  | ninf, _ => True
  | _, pinf => True
  | fin x, fin y => x ≤ y
  | _, _ => False

def lt : Ieee → Ieee → Prop
  | nan, _ => False
  | _, nan => False
  | ninf, ninf => False
  | ninf, _ => True
  | pinf, _ => False
  | fin _, pinf => True
  | fin x, fin y => x < y
  | fin _, ninf => False

def eq : Ieee → Ieee → Prop
  | ninf, ninf => True
  | pinf, pinf => True
  | fin x, fin y => x = y
  | _, _ => False

def abs : Ieee → Ieee
  | nan => nan
  | ninf => pinf
  | fin x => fin |x|
  | pinf => pinf

/-- The infinity of the sign of `x`, NaN for 0. -/
noncomputable def inf (x : ℝ) : Ieee := if 0 < x then pinf else if x < 0 then ninf else nan

end Ieee

open Ieee

/-- A floating-point format: how results are rounded, and the library functions. -/
class Format where
  rd : ℝ → Ieee
  rd_num : ∀ x, rd x ≠ nan
  mono : ∀ x y, x ≤ y → (rd x).le (rd y)
  odd : ∀ x, rd (-x) = (rd x).neg
  /-- the integers up to `big` are represented exactly (2^53 for doubles) -/
  big : Nat
  big_ge : 1000 ≤ big
  ints : ∀ n : Int, |n| ≤ big → rd n = fin n
  exp : Ieee → Ieee
  exp_nonneg : ∀ x, x ≠ nan → (fin 0).le (exp x)
  exp_nan : exp nan = nan
  exp_ninf : exp ninf = fin 0
  /-- no overflow up to the exponent 500 -/
  exp_small : ∀ x ≤ 500, ∃ e s, exp (fin x) = fin e ∧ rd (1 + e) = fin s
  log : Ieee → Ieee
  log2 : Ieee → Ieee
  sqrt : Ieee → Ieee
  pow : Ieee → Ieee → Ieee

namespace Ieee
variable [F : Format]

def add : Ieee → Ieee → Ieee
  | nan, _ => nan
  | _, nan => nan
  | fin x, fin y => F.rd (x + y)
  | pinf, ninf => nan
  | ninf, pinf => nan
  | pinf, _ => pinf
  | _, pinf => pinf
  | ninf, _ => ninf
  | _, ninf => ninf

noncomputable def mul : Ieee → Ieee → Ieee
  | nan, _ => nan
  | _, nan => nan
  | fin x, fin y => F.rd (x * y)
  | fin x, pinf => inf x
  | fin x, ninf => inf (-x)
  | pinf, fin y => inf y
  | ninf, fin y => inf (-y)
  | pinf, pinf => pinf
  | ninf, ninf => pinf
  | pinf, ninf => ninf
  | ninf, pinf => ninf

noncomputable def div : Ieee → Ieee → Ieee
  | nan, _ => nan
  | _, nan => nan
  | fin x, fin y => if y = 0 then inf x else F.rd (x / y)
  | fin _, pinf => fin 0
  | fin _, ninf => fin 0
  | pinf, fin y => if y < 0 then ninf else pinf
  | ninf, fin y => if y < 0 then pinf else ninf
  | _, _ => nan

end Ieee

noncomputable instance (a b : Ieee) : Decidable (Ieee.le a b) := Classical.propDecidable _
noncomputable instance (a b : Ieee) : Decidable (Ieee.lt a b) := Classical.propDecidable _
noncomputable instance (a b : Ieee) : Decidable (Ieee.eq a b) := Classical.propDecidable _

noncomputable instance [F : Format] : Arith Ieee where
  add := Ieee.add
  sub a b := Ieee.add a b.neg
  mul := Ieee.mul
  neg := Ieee.neg
  div := Ieee.div
  lit n := F.rd n
  le a b := decide (Ieee.le a b)
  lt a b := decide (Ieee.lt a b)
  eq a b := decide (Ieee.eq a b)
  abs := Ieee.abs
  exp := F.exp
  log := F.log
  log2 := F.log2
  sqrt := F.sqrt
  pow := F.pow

/-- NaN, or a number between the bounds. -/
def Within (lo hi : ℝ) (x : Ieee) : Prop := x = nan ∨ ∃ r, x = fin r ∧ lo ≤ r ∧ r ≤ hi

/-- A number between the bounds. -/
def Among (lo hi : ℝ) (x : Ieee) : Prop := ∃ r, x = fin r ∧ lo ≤ r ∧ r ≤ hi

theorem Among.within {lo hi : ℝ} {x : Ieee} (h : Among lo hi x) : Within lo hi x := .inr h
theorem Within.nan (lo hi : ℝ) : Within lo hi Ieee.nan := .inl rfl
theorem Among.mono {lo hi lo' hi' : ℝ} {x : Ieee} (h : Among lo hi x) (h1 : lo' ≤ lo) (h2 : hi ≤ hi') : Among lo' hi' x := by
  obtain ⟨r, rfl, a, b⟩ := h
  exact ⟨r, rfl, h1.trans a, b.trans h2⟩
theorem Within.mono {lo hi lo' hi' : ℝ} {x : Ieee} (h : Within lo hi x) (h1 : lo' ≤ lo) (h2 : hi ≤ hi') : Within lo' hi' x :=
  h.imp_right fun h => Among.mono h h1 h2

section
variable [F : Format]

/-! ### Comparisons -/

theorem dle_iff {a b : Ieee} : (a ≤? b) = true ↔ Ieee.le a b := by
  show decide _ = true ↔ _
  rw [decide_eq_true_iff]
theorem dlt_iff {a b : Ieee} : (a <? b) = true ↔ Ieee.lt a b := by
  show decide _ = true ↔ _
  rw [decide_eq_true_iff]
theorem deq_iff {a b : Ieee} : (a =? b) = true ↔ Ieee.eq a b := by
  show decide _ = true ↔ _
  rw [decide_eq_true_iff]

/-! ### Rounding -/

theorem Format.lit_int {n : Int} (h : |n| ≤ F.big) : (lit n : Ieee) = Ieee.fin n := F.ints n h

theorem Format.small {n : Int} (h : |n| ≤ 1000) : (lit n : Ieee) = Ieee.fin n :=
  F.ints n (h.trans (by exact_mod_cast F.big_ge))

theorem lit0 : (lit 0 : Ieee) = Ieee.fin 0 := by simpa using Format.small (n := 0) (by decide)
theorem lit1 : (lit 1 : Ieee) = Ieee.fin 1 := by simpa using Format.small (n := 1) (by decide)
theorem litm1 : (lit (-1) : Ieee) = Ieee.fin (-1) := by simpa using Format.small (n := -1) (by decide)
theorem lit2 : (lit 2 : Ieee) = Ieee.fin 2 := by simpa using Format.small (n := 2) (by decide)

/-- Rounding does not cross integers. -/
theorem Format.rd_among {lo hi : Int} (h1 : |lo| ≤ F.big) (h2 : |hi| ≤ F.big) {x : ℝ} (a : (lo : ℝ) ≤ x)
    (b : x ≤ hi) : Among lo hi (F.rd x) := by
  have m1 := F.mono _ _ a
  have m2 := F.mono _ _ b
  rw [F.ints _ h1] at m1
  rw [F.ints _ h2] at m2
  cases h : F.rd x with
  | nan => exact absurd h (F.rd_num x)
  | ninf => rw [h] at m1; exact m1.elim
  | pinf => rw [h] at m2; exact m2.elim
  | fin r =>
    rw [h] at m1 m2
    exact ⟨r, rfl, m1, m2⟩

theorem add_among {lo hi lo' hi' : Int} (h1 : |lo + lo'| ≤ F.big) (h2 : |hi + hi'| ≤ F.big) {x y : Ieee}
    (hx : Among lo hi x) (hy : Among lo' hi' y) : Among ((lo + lo' : Int) : ℝ) ((hi + hi' : Int) : ℝ) (x + y : Ieee) := by
  obtain ⟨r, rfl, a, b⟩ := hx
  obtain ⟨s, rfl, c, d⟩ := hy
  exact Format.rd_among h1 h2 (by push_cast; linarith) (by push_cast; linarith)

theorem nan_add (y : Ieee) : (Ieee.nan : Ieee) + y = Ieee.nan := rfl
theorem add_nan (x : Ieee) : x + (Ieee.nan : Ieee) = Ieee.nan := by
  cases x <;> rfl
theorem nan_mul (y : Ieee) : (Ieee.nan : Ieee) * y = Ieee.nan := rfl
theorem mul_nan (x : Ieee) : x * (Ieee.nan : Ieee) = Ieee.nan := by
  cases x <;> rfl
theorem nan_div (y : Ieee) : (Ieee.nan : Ieee) / y = Ieee.nan := rfl
theorem div_nan (x : Ieee) : x / (Ieee.nan : Ieee) = Ieee.nan := by
  cases x <;> rfl
theorem sub_eq (x y : Ieee) : x - y = x + (Ieee.neg y : Ieee) := rfl

theorem add_within {lo hi lo' hi' : Int} (h1 : |lo + lo'| ≤ F.big) (h2 : |hi + hi'| ≤ F.big) {x y : Ieee}
    (hx : Within lo hi x) (hy : Within lo' hi' y) : Within ((lo + lo' : Int) : ℝ) ((hi + hi' : Int) : ℝ) (x + y : Ieee) := by
  rcases hx with rfl | hx
  · exact .inl rfl
  · rcases hy with rfl | hy
    · exact .inl (add_nan x)
    · exact .inr (add_among h1 h2 hx hy)

theorem neg_among {lo hi : Int} {y : Ieee} (hy : Among lo hi y) : Among ((-hi : Int) : ℝ) ((-lo : Int) : ℝ) (Ieee.neg y) := by
  obtain ⟨s, rfl, c, d⟩ := hy
  exact ⟨-s, rfl, by push_cast; linarith, by push_cast; linarith⟩
theorem neg_within {lo hi : Int} {y : Ieee} (hy : Within lo hi y) : Within ((-hi : Int) : ℝ) ((-lo : Int) : ℝ) (Ieee.neg y) := by
  rcases hy with rfl | hy
  · exact .inl rfl
  · exact .inr (neg_among hy)

/-- `1 - x`. -/
theorem one_sub_within {lo hi : Int} (h1 : |1 + -hi| ≤ F.big) (h2 : |1 + -lo| ≤ F.big) {y : Ieee} (hy : Within lo hi y) :
    Within ((1 + -hi : Int) : ℝ) ((1 + -lo : Int) : ℝ) ((lit 1 : Ieee) - y : Ieee) := by
  rw [sub_eq]
  exact add_within h1 h2 (lo := 1) (hi := 1) (.inr ⟨1, lit1, by simp, by simp⟩) (neg_within hy)

theorem mul_within {lo hi : Int} (h1 : |lo| ≤ F.big) (h2 : |hi| ≤ F.big) {x y : Ieee}
    (h : x = Ieee.nan ∨ y = Ieee.nan ∨ ∃ r s, x = Ieee.fin r ∧ y = Ieee.fin s ∧ (lo : ℝ) ≤ r * s ∧ r * s ≤ hi) :
    Within lo hi (x * y : Ieee) := by
  rcases h with rfl | rfl | ⟨r, s, rfl, rfl, a, b⟩
  · exact .inl rfl
  · exact .inl (mul_nan x)
  · exact .inr (Format.rd_among h1 h2 a b)

theorem big_of {n : Int} (h : |n| ≤ 1000) : |n| ≤ F.big := h.trans (by exact_mod_cast F.big_ge)

/-- Products of numbers in [0,1]. -/
theorem mul_unit {x y : Ieee} (hx : Within 0 1 x) (hy : Within 0 1 y) : Within 0 1 (x * y : Ieee) := by
  have := mul_within (lo := 0) (hi := 1) (x := x) (y := y) (big_of (by decide)) (big_of (by decide)) (by
    rcases hx with rfl | ⟨r, rfl, a, b⟩
    · exact .inl rfl
    · rcases hy with rfl | ⟨s, rfl, c, d⟩
      · exact .inr (.inl rfl)
      · exact .inr (.inr ⟨r, s, rfl, rfl, by push_cast; positivity, by push_cast; nlinarith⟩))
  simpa using this

/-! ### Division -/

theorem eq_zero_iff {b : Ieee} : (b =? lit 0) = true ↔ b = Ieee.fin 0 := by
  rw [deq_iff, lit0]
  cases b with
  | fin y =>
    show y = 0 ↔ _
    constructor
    · rintro rfl; rfl
    · intro h; exact Ieee.fin.inj h
  | nan => exact ⟨fun h => h.elim, fun h => nomatch h⟩
  | ninf => exact ⟨fun h => h.elim, fun h => nomatch h⟩
  | pinf => exact ⟨fun h => h.elim, fun h => nomatch h⟩

theorem pdiv_ok {a b : Ieee} (h : b ≠ Ieee.fin 0) : pdiv a b = .ok (a / b) := by
  unfold pdiv
  rw [if_neg (fun e => h (eq_zero_iff.1 e))]

theorem pdiv_some {a b r : Ieee} (h : pdiv a b = .ok r) : b ≠ Ieee.fin 0 ∧ r = a / b := by
  unfold pdiv at h
  split at h
  · cases h
  · rename_i e
    cases h
    exact ⟨fun e' => e (eq_zero_iff.2 e'), rfl⟩

/-- A quotient of finite numbers. -/
theorem div_among {lo hi : Int} (h1 : |lo| ≤ F.big) (h2 : |hi| ≤ F.big) {x y : ℝ} (hy : y ≠ 0) (a : (lo : ℝ) ≤ x / y)
    (b : x / y ≤ hi) : Among lo hi ((Ieee.fin x : Ieee) / (Ieee.fin y : Ieee) : Ieee) := by
  have : ((Ieee.fin x : Ieee) / (Ieee.fin y : Ieee) : Ieee) = F.rd (x / y) := if_neg hy
  rw [this]
  exact Format.rd_among h1 h2 a b

/-- The quotient of `-b ≤ a ≤ b`. -/
theorem div_within {a b : Ieee} (hb : b ≠ Ieee.fin 0) (h0 : (Ieee.fin 0).le b) (h1 : (Ieee.neg b).le a) (h2 : a.le b) :
    Within (-1) 1 (a / b : Ieee) := by
  cases b with
  | nan => exact .inl (div_nan a)
  | ninf => exact h0.elim
  | pinf =>
    cases a with
    | nan => exact .inl rfl
    | ninf => exact .inl rfl
    | pinf => exact .inl rfl
    | fin x => exact .inr ⟨0, rfl, by norm_num, by norm_num⟩
  | fin y =>
    have y0 : (0 : ℝ) ≤ y := h0
    have yn : y ≠ 0 := fun e => hb (by rw [e])
    have yp : 0 < y := lt_of_le_of_ne y0 (Ne.symm yn)
    cases a with
    | nan => exact .inl rfl
    | ninf => exact h1.elim
    | pinf => exact h2.elim
    | fin x =>
      have a1 : -y ≤ x := h1
      have a2 : x ≤ y := h2
      have := div_among (lo := -1) (hi := 1) (x := x) (big_of (by decide)) (big_of (by decide)) yn
        (by push_cast; rw [le_div_iff₀ yp]; linarith) (by push_cast; rw [div_le_iff₀ yp]; linarith)
      exact .inr (show Among _ _ _ by simpa using this)

/-- The quotient of `0 ≤ a ≤ b`. -/
theorem div_unit {a b : Ieee} (hb : b ≠ Ieee.fin 0) (h1 : (Ieee.fin 0).le a) (h2 : a.le b) : Within 0 1 (a / b : Ieee) := by
  cases b with
  | nan => exact .inl (div_nan a)
  | ninf => cases a <;> first | exact h1.elim | exact h2.elim
  | pinf =>
    cases a with
    | nan => exact .inl rfl
    | ninf => exact .inl rfl
    | pinf => exact .inl rfl
    | fin x => exact .inr ⟨0, rfl, by norm_num, by norm_num⟩
  | fin y =>
    have yn : y ≠ 0 := fun e => hb (by rw [e])
    cases a with
    | nan => exact .inl rfl
    | ninf => exact h1.elim
    | pinf => exact h2.elim
    | fin x =>
      have a1 : 0 ≤ x := h1
      have a2 : x ≤ y := h2
      have yp : 0 < y := lt_of_le_of_ne (a1.trans a2) (Ne.symm yn)
      have := div_among (lo := 0) (hi := 1) (x := x) (big_of (by decide)) (big_of (by decide)) yn
        (by push_cast; positivity) (by push_cast; rw [div_le_iff₀ yp]; linarith)
      exact .inr (show Among _ _ _ by simpa using this)

/-! ### Activation functions -/

theorem clamp_one {v : Ieee} {lo : ℝ} (h : v = Ieee.nan ∨ (Ieee.fin lo).le v) (hlo : lo ≤ 1) :
    Within lo 1 (if lit 1 <? v then lit 1 else v : Ieee) := by
  split
  · exact .inr ⟨1, lit1, hlo, le_rfl⟩
  · rename_i h1
    rw [dlt_iff, lit1] at h1
    rcases h with rfl | h
    · exact .inl rfl
    · cases v with
      | nan => exact .inl rfl
      | ninf => exact h.elim
      | pinf => exact absurd trivial h1
      | fin x => exact .inr ⟨x, rfl, h, not_lt.1 h1⟩

theorem saturation_within (v : Ieee) : Within 0 1 (saturation v) := by
  unfold saturation
  split
  · exact .inr ⟨0, lit0, le_rfl, by norm_num⟩
  · rename_i h
    rw [dlt_iff, lit0] at h
    refine clamp_one ?_ (by norm_num)
    cases v with
    | nan => exact .inl rfl
    | ninf => exact absurd trivial h
    | pinf => exact .inr trivial
    | fin x => exact .inr (not_lt.1 h)

theorem bistate_among (v : Ieee) : Among 0 1 (bistate v) := by
  unfold bistate
  split
  · exact ⟨0, lit0, le_rfl, by norm_num⟩
  · exact ⟨1, lit1, by norm_num, le_rfl⟩

theorem threestate_among (v : Ieee) : Among 0 1 (threestate v) := by
  unfold threestate
  split
  · exact ⟨0, lit0, le_rfl, by norm_num⟩
  · split
    · unfold dec
      rw [lit1, lit2]
      have := div_among (lo := 0) (hi := 1) (x := 1) (y := 2) (big_of (by decide)) (big_of (by decide)) (by norm_num)
        (by norm_num) (by norm_num)
      simpa using this
    · exact ⟨1, lit1, by norm_num, le_rfl⟩

theorem gceq_within (v w : Ieee) : Within (-1) 1 (gceq v w) := by
  unfold gceq
  split
  · split
    · exact .inr ⟨1, lit1, by norm_num, le_rfl⟩
    · split
      · exact .inr ⟨-1, litm1, le_rfl, by norm_num⟩
      · rename_i h1 h2
        rw [dlt_iff, lit1] at h1
        rw [dlt_iff, litm1] at h2
        cases v with
        | nan => exact .inl rfl
        | ninf => exact absurd trivial h2
        | pinf => exact absurd trivial h1
        | fin x => exact .inr ⟨x, rfl, not_lt.1 h2, not_lt.1 h1⟩
  · exact .inr ⟨0, lit0, by norm_num, by norm_num⟩

theorem lceq_within (v w : Ieee) : Within (-1) 1 (lceq v w) := by
  unfold lceq
  split
  · split
    · exact .inr ⟨1, lit1, by norm_num, le_rfl⟩
    · split
      · exact .inr ⟨-1, litm1, le_rfl, by norm_num⟩
      · rename_i h1 h2
        rw [dlt_iff, lit1] at h1
        rw [dlt_iff, litm1] at h2
        cases v with
        | nan => exact .inl rfl
        | ninf => exact absurd trivial h2
        | pinf => exact absurd trivial h1
        | fin x => exact .inr ⟨x, rfl, not_lt.1 h2, not_lt.1 h1⟩
  · exact .inr ⟨0, lit0, by norm_num, by norm_num⟩

/-- `1 + e` for a non-negative `e`. -/
theorem one_add {e : Ieee} (h : e = Ieee.nan ∨ (Ieee.fin 0).le e) :
    (lit 1 : Ieee) + e = Ieee.nan ∨ (Ieee.fin 1).le ((lit 1 : Ieee) + e : Ieee) := by
  rw [lit1]
  rcases h with rfl | h
  · exact .inl rfl
  · cases e with
    | nan => exact .inl rfl
    | ninf => exact h.elim
    | pinf => exact .inr trivial
    | fin x =>
      right
      have x0 : (0 : ℝ) ≤ x := h
      have := F.mono 1 (1 + x) (by linarith)
      have e1 : F.rd 1 = Ieee.fin 1 := by simpa using F.ints 1 (big_of (by decide))
      rw [e1] at this
      exact this

theorem exp_sign (x : Ieee) : (Arith.exp x : Ieee) = Ieee.nan ∨ (Ieee.fin 0).le (Arith.exp x : Ieee) := by
  by_cases h : x = Ieee.nan
  · left
    rw [h]
    exact F.exp_nan
  · exact .inr (F.exp_nonneg x h)

theorem ge_one_ne {b : Ieee} (h : b = Ieee.nan ∨ (Ieee.fin 1).le b) : b ≠ Ieee.fin 0 := by
  rintro rfl
  rcases h with h | h
  · cases h
  · exact absurd (show (1 : ℝ) ≤ 0 from h) (by norm_num)

theorem sigmoid_within (v l : Ieee) : ∃ r, sigmoid v l = .ok r ∧ Within 0 1 r := by
  unfold sigmoid
  have h := one_add (exp_sign (lit (-1) * l * v))
  rw [pdiv_ok (ge_one_ne h)]
  refine ⟨_, rfl, ?_⟩
  generalize (lit 1 + Arith.exp (lit (-1) * l * v) : Ieee) = b at *
  rcases h with rfl | h
  · exact .inl (div_nan _)
  · refine div_unit (ge_one_ne (.inr h)) ?_ ?_
    · rw [lit1]; exact (show (0 : ℝ) ≤ 1 by norm_num)
    · rw [lit1]; exact h

/-- `(1 - e) / (1 + e)`. -/
theorem hip_within {e : Ieee} (h : e = Ieee.nan ∨ (Ieee.fin 0).le e) :
    Within (-1) 1 (((lit 1 : Ieee) - e) / ((lit 1 : Ieee) + e) : Ieee) := by
  have h1 := one_add h
  rcases h1 with h1 | h1
  · rw [h1]; exact .inl (div_nan _)
  · refine div_within (ge_one_ne (.inr h1)) ?_ ?_ ?_
    · generalize (lit 1 + e : Ieee) = b at *
      cases b with
      | nan => exact h1.elim
      | ninf => exact h1.elim
      | pinf => trivial
      | fin y => exact le_trans (by norm_num) (show (1 : ℝ) ≤ y from h1)
    all_goals
      rw [sub_eq]
      rw [lit1] at *
      rcases h with rfl | h
      · exact h1.elim
      · cases e with
        | nan => exact h1.elim
        | ninf => exact h.elim
        | pinf => trivial
        | fin x =>
          have x0 : (0 : ℝ) ≤ x := h
          first
          | (show (F.rd (1 + x)).neg.le (F.rd (1 + -x))
             rw [← F.odd]
             exact F.mono _ _ (by linarith))
          | (show (F.rd (1 + -x)).le (F.rd (1 + x))
             exact F.mono _ _ (by linarith))

theorem sigmoidHip_within (v l : Ieee) : ∃ r, sigmoidHip v l = .ok r ∧ Within (-1) 1 r := by
  unfold sigmoidHip
  split
  · have h := exp_sign (lit 500 : Ieee)
    rw [pdiv_ok (ge_one_ne (one_add h))]
    exact ⟨_, rfl, hip_within h⟩
  · have h := exp_sign (lit (-1) * l * v : Ieee)
    rw [pdiv_ok (ge_one_ne (one_add h))]
    exact ⟨_, rfl, hip_within h⟩

theorem rd0 : F.rd 0 = Ieee.fin 0 := by simpa using F.ints 0 (big_of (by decide))

theorem relm_within {v l : Ieee} (hl : (Ieee.fin 0).lt l) {r : Ieee} (h : relm v l = .ok r) : Within 0 1 r := by
  unfold relm at h
  split at h
  · cases h; exact .inr ⟨0, lit0, le_rfl, by norm_num⟩
  · rename_i hv
    rw [dlt_iff, lit0] at hv
    obtain ⟨q, hq, h⟩ := ebind_ok h
    obtain ⟨-, rfl⟩ := pdiv_some hq
    have e : r = (if lit 1 <? (v / l) then lit 1 else v / l : Ieee) := by
      split at h
      · rename_i g; cases h; rw [if_pos g]
      · rename_i g; cases h; rw [if_neg g]
    rw [e]
    refine clamp_one ?_ (by norm_num)
    cases l with
    | nan => exact .inl (div_nan v)
    | ninf => exact hl.elim
    | pinf =>
      cases v with
      | nan => exact .inl rfl
      | ninf => exact absurd trivial hv
      | pinf => exact .inl rfl
      | fin x => exact .inr (le_refl (0 : ℝ))
    | fin y =>
      have y0 : (0 : ℝ) < y := hl
      cases v with
      | nan => exact .inl rfl
      | ninf => exact absurd trivial hv
      | pinf =>
        right
        show (Ieee.fin 0).le (if y < 0 then _ else _)
        rw [if_neg (not_lt.2 y0.le)]
        trivial
      | fin x =>
        right
        show (Ieee.fin 0).le (if y = 0 then _ else _)
        rw [if_neg y0.ne']
        have := F.mono 0 (x / y) (div_nonneg (not_lt.1 hv) y0.le)
        rw [rd0] at this
        exact this

/-! ### fuzzy_set -/

/-- The binary search: positions below the result are smaller than `v`, those from it on are not. -/
theorem searchLoop_split {α : Type} [Arith α] {a : List α} {v : α}
    (hs : ∀ i j (hi : i < a.length) (hj : j < a.length), i ≤ j → (a[j] <? v) = true → (a[i] <? v) = true)
    (fuel lo hi : Nat) (hhi : hi ≤ a.length) (hlo : lo ≤ hi) (hf : hi - lo ≤ fuel)
    (h1 : ∀ j (h : j < a.length), j < lo → (a[j] <? v) = true) (h2 : ∀ j (h : j < a.length), hi ≤ j → (a[j] <? v) = false) :
    let r := searchLoop a v fuel lo hi
    r ≤ a.length ∧ (∀ j (h : j < a.length), j < r → (a[j] <? v) = true) ∧ ∀ j (h : j < a.length), r ≤ j → (a[j] <? v) = false := by
  induction fuel generalizing lo hi with
  | zero =>
    have : lo = hi := by omega
    subst this
    exact ⟨hhi, h1, h2⟩
  | succ f ih =>
    simp only [searchLoop]
    by_cases hlt : lo < hi
    · rw [if_pos hlt]
      have hmid : (lo + hi) / 2 < a.length := by omega
      rw [List.getElem?_eq_getElem hmid]
      dsimp only
      cases hx : a[(lo + hi) / 2] <? v with
      | true =>
        rw [if_pos rfl]
        refine ih _ _ hhi (by omega) (by omega) ?_ h2
        intro j hj hlt'
        exact hs j _ hj hmid (by omega) hx
      | false =>
        rw [if_neg (by simp)]
        refine ih _ _ (by omega) (by omega) (by omega) h1 ?_
        intro j hj hle
        cases hy : a[j] <? v with
        | false => rfl
        | true => rw [hs _ j hmid hj hle hy] at hx; cases hx
    · rw [if_neg hlt]
      have : lo = hi := by omega
      subst this
      exact ⟨hhi, h1, h2⟩

theorem searchSorted_split {α : Type} [Arith α] {a : List α} {v : α}
    (hs : ∀ i j (hi : i < a.length) (hj : j < a.length), i ≤ j → (a[j] <? v) = true → (a[i] <? v) = true) :
    searchSorted a v ≤ a.length ∧ (∀ j (h : j < a.length), j < searchSorted a v → (a[j] <? v) = true) ∧
      ∀ j (h : j < a.length), searchSorted a v ≤ j → (a[j] <? v) = false :=
  searchLoop_split hs _ _ _ (le_refl _) (by omega) (by omega) (fun j _ h => by omega) (fun j h h' => by omega)

/-- Ascending numbers. -/
def Ascending (vl : List Ieee) : Prop := vl.Pairwise Ieee.le ∧ ∀ x ∈ vl, ∃ r, x = Ieee.fin r

theorem Ascending.closed {vl : List Ieee} (h : Ascending vl) (v : Ieee) :
    ∀ i j (hi : i < vl.length) (hj : j < vl.length), i ≤ j → (vl[j] <? v) = true → (vl[i] <? v) = true := by
  intro i j hi hj hij h1
  rw [dlt_iff] at *
  rcases hij.lt_or_eq with g | rfl
  · have := List.pairwise_iff_getElem.1 h.1 i j hi hj g
    obtain ⟨x, ex⟩ := h.2 _ (List.getElem_mem hi)
    obtain ⟨y, ey⟩ := h.2 _ (List.getElem_mem hj)
    rw [ex]
    have hle : x ≤ y := by rw [ex, ey] at this; exact this
    rw [ey] at h1
    cases v with
    | nan => exact h1
    | ninf => exact h1
    | pinf => trivial
    | fin z => exact lt_of_le_of_lt hle h1
  · exact h1

/-- The interpolation with a mirrored argument, between neighbours of the value. -/
theorem interp_within {x p q : ℝ} {mb vl : List Ieee} {i j : Nat} {r : Ieee} (hm : ∀ m ∈ mb, Among 0 1 m)
    (hp : vl[i]? = some (Ieee.fin p : Ieee)) (hq : vl[j]? = some (Ieee.fin q : Ieee)) (h0 : 0 < x) (h1 : p ≤ x) (h2 : x ≤ q)
    (h : fuzzyInterp true (Ieee.fin x : Ieee) mb vl i j = .ok r) : Within (-1) 1 r := by
  unfold fuzzyInterp at h
  obtain ⟨s, hs, h⟩ := ebind_ok h
  have es : s = Ieee.fin 1 := by
    unfold signOf at hs
    rw [if_neg (by rw [eq_zero_iff]; intro e; exact h0.ne' (Ieee.fin.inj e))] at hs
    obtain ⟨-, rfl⟩ := pdiv_some hs
    show Ieee.div (Ieee.fin x) (Ieee.fin |x|) = _
    rw [abs_of_pos h0]
    show (if x = 0 then _ else F.rd (x / x)) = _
    rw [if_neg h0.ne', div_self h0.ne']
    simpa using F.ints 1 (big_of (by decide))
  have ev : (Arith.abs (Ieee.fin x : Ieee) : Ieee) = Ieee.fin x := by
    show Ieee.fin |x| = _
    rw [abs_of_pos h0]
  dsimp only at h
  rw [ev] at h
  obtain ⟨y0, hy0, h⟩ := ebind_ok h
  obtain ⟨y1, hy1, h⟩ := ebind_ok h
  obtain ⟨vp, hvp, h⟩ := ebind_ok h
  obtain ⟨vn, hvn, h⟩ := ebind_ok h
  have e1 := (njIdx_some hvp).symm.trans hp
  have e2 := (njIdx_some hvn).symm.trans hq
  cases e1; cases e2
  obtain ⟨a, ha, h⟩ := ebind_ok h
  obtain ⟨b, hb, h⟩ := ebind_ok h
  rw [if_pos rfl] at h
  cases h
  obtain ⟨na, rfl⟩ := pdiv_some ha
  obtain ⟨nb, rfl⟩ := pdiv_some hb
  have wa : Within 0 1 (((Ieee.fin x : Ieee) - (Ieee.fin p : Ieee)) / ((Ieee.fin q : Ieee) - (Ieee.fin p : Ieee)) : Ieee) := by
    refine div_unit na ?_ ?_
    · have := F.mono 0 (x + -p) (by linarith)
      rw [rd0] at this
      exact this
    · exact F.mono (x + -p) (q + -p) (by linarith)
  have wb : Within 0 1 (((Ieee.fin q : Ieee) - (Ieee.fin x : Ieee)) / ((Ieee.fin q : Ieee) - (Ieee.fin p : Ieee)) : Ieee) := by
    refine div_unit nb ?_ ?_
    · have := F.mono 0 (q + -x) (by linarith)
      rw [rd0] at this
      exact this
    · exact F.mono (q + -x) (q + -p) (by linarith)
  have m0 := (hm y0 (List.mem_of_getElem? (njIdx_some hy0))).within
  have m1 := (hm y1 (List.mem_of_getElem? (njIdx_some hy1))).within
  have one (z : Ieee) (hz : Within 0 1 z) : Within 0 1 (lit 1 - z : Ieee) := by
    have := one_sub_within (lo := 0) (hi := 1) (big_of (by decide)) (big_of (by decide)) (by simpa using hz)
    simpa using this
  have t0 := mul_unit (one _ wa) m0
  have t1 := mul_unit (one _ wb) m1
  rw [es]
  clear ha hb
  generalize ((lit 1 - (fin x - fin p) / (fin q - fin p)) * y0 : Ieee) = A at *
  generalize ((lit 1 - (fin q - fin x) / (fin q - fin p)) * y1 : Ieee) = B at *
  have s2 : Within 0 2 (A + B : Ieee) := by
    have := add_within (lo := 0) (hi := 1) (lo' := 0) (hi' := 1) (big_of (by decide)) (big_of (by decide))
      (by simpa using t0) (by simpa using t1)
    simpa using this
  have s3 : Within 0 2 ((Ieee.fin 1 : Ieee) * (A + B) : Ieee) := by
    have := mul_within (lo := 0) (hi := 2) (x := (Ieee.fin 1 : Ieee)) (big_of (by decide)) (big_of (by decide)) (by
      rcases s2 with e | ⟨z, e, c, d⟩
      · exact .inr (.inl e)
      · exact .inr (.inr ⟨1, z, rfl, e, by push_cast; linarith, by push_cast; linarith⟩))
    simpa using this
  have s4 : Within (-1) 1 (lit 1 - fin 1 * (A + B) : Ieee) := by
    have := one_sub_within (lo := 0) (hi := 2) (big_of (by decide)) (big_of (by decide)) (by simpa using s3)
    refine this.mono ?_ ?_ <;> norm_num
  have := mul_within (lo := -1) (hi := 1) (x := (lit (-1) : Ieee)) (big_of (by decide)) (big_of (by decide)) (by
      rcases s4 with e | ⟨z, e, c, d⟩
      · exact .inr (.inl e)
      · exact .inr (.inr ⟨-1, z, litm1, e, by push_cast; linarith, by push_cast; linarith⟩))
  simpa using this

theorem fuzzyAt_within {neg : Bool} {m : Ieee} (h : Among 0 1 m) : Within (-1) 1 (fuzzyAt neg m) := by
  unfold fuzzyAt
  cases neg with
  | false => exact (h.mono (by norm_num) le_rfl).within
  | true =>
    rw [if_pos rfl]
    have s4 : Within 0 1 (lit 1 - m : Ieee) := by
      have := one_sub_within (lo := 0) (hi := 1) (big_of (by decide)) (big_of (by decide)) (by simpa using h.within)
      simpa using this
    have := mul_within (lo := -1) (hi := 1) (x := (lit (-1) : Ieee)) (big_of (by decide)) (big_of (by decide)) (by
        rcases s4 with e | ⟨z, e, c, d⟩
        · exact .inr (.inl e)
        · exact .inr (.inr ⟨-1, z, litm1, e, by push_cast; linarith, by push_cast; linarith⟩))
    simpa using this

/-- Without mirroring the interpolation is cut off. -/
theorem interp_cut {v : Ieee} {mb vl : List Ieee} {i j : Nat} {r : Ieee}
    (h : fuzzyInterp false v mb vl i j = .ok r) : Within (-1) 1 r := by
  unfold fuzzyInterp at h
  obtain ⟨s, hs, h⟩ := ebind_ok h
  dsimp only at h
  obtain ⟨y0, hy0, h⟩ := ebind_ok h
  obtain ⟨y1, hy1, h⟩ := ebind_ok h
  obtain ⟨vp, hvp, h⟩ := ebind_ok h
  obtain ⟨vn, hvn, h⟩ := ebind_ok h
  obtain ⟨a, ha, h⟩ := ebind_ok h
  obtain ⟨b, hb, h⟩ := ebind_ok h
  rw [if_neg (by simp)] at h
  generalize (s * ((lit 1 - a) * y0 + (lit 1 - b) * y1) : Ieee) = est at h
  cases h
  generalize hz : (if lit 1 <? est then lit 1 else est : Ieee) = z
  split
  · exact .inr ⟨-1, litm1, le_rfl, by norm_num⟩
  · rename_i g
    rw [dlt_iff, litm1] at g
    split at hz
    · subst hz; exact .inr ⟨1, lit1, by norm_num, le_rfl⟩
    · rename_i g1
      subst hz
      rw [dlt_iff, lit1] at g1
      cases est with
      | nan => exact .inl rfl
      | ninf => exact absurd trivial g
      | pinf => exact absurd trivial g1
      | fin x => exact .inr ⟨x, rfl, not_lt.1 g, not_lt.1 g1⟩

theorem interp_short {neg : Bool} {v : Ieee} {mb vl : List Ieee} {i j : Nat} {r : Ieee}
    (h : fuzzyInterp neg v mb vl i j = .ok r) : j < vl.length := by
  unfold fuzzyInterp at h
  obtain ⟨s, hs, h⟩ := ebind_ok h
  dsimp only at h
  obtain ⟨y0, hy0, h⟩ := ebind_ok h
  obtain ⟨y1, hy1, h⟩ := ebind_ok h
  obtain ⟨vp, hvp, h⟩ := ebind_ok h
  obtain ⟨vn, hvn, h⟩ := ebind_ok h
  exact (List.getElem?_eq_some_iff.1 (njIdx_some hvn)).1

theorem fuzzySet_within {v r : Ieee} {mb vl : List Ieee} (hs : Ascending vl) (hm : ∀ m ∈ mb, Among 0 1 m)
    (h : fuzzySet v mb vl = .ok r) : Within (-1) 1 r := by
  unfold fuzzySet at h
  obtain ⟨mn, e1, h⟩ := ebind_ok h
  obtain ⟨mx, e2, h⟩ := ebind_ok h
  dsimp only at h
  generalize hneg : ((lit 0 ≤? mn) && (mn ≤? lit 1) && ((lit 0 ≤? mx) && (mx ≤? lit 1)) && (v <? lit 0)) = neg at h
  generalize hv : (if neg = true then Arith.abs v else v) = x at h
  obtain ⟨q1, q2, q3⟩ := searchSorted_split (hs.closed x)
  generalize searchSorted vl x = i0 at *
  generalize hidx : (if i0 = vl.length then i0 - 1 else i0) = idx at h
  obtain ⟨vi, hvi, h⟩ := ebind_ok h
  have gvi := njIdx_some hvi
  obtain ⟨hil, evi⟩ := List.getElem?_eq_some_iff.1 gvi
  have hat : ∀ {i : Nat}, (do let m ← njIdx mb i; return fuzzyAt neg m : Except Err Ieee) = .ok r → Within (-1) 1 r := by
    intro i h
    obtain ⟨m, hmm, h⟩ := ebind_ok h
    cases h
    exact fuzzyAt_within (hm m (List.mem_of_getElem? (njIdx_some hmm)))
  have key : ∀ {i j : Nat}, (neg = true → j = idx ∧ i + 1 = idx ∧ i0 = idx) → fuzzyInterp neg x mb vl i j = .ok r → Within (-1) 1 r := by
    intro i j hij hI
    cases neg with
    | false => exact interp_cut hI
    | true =>
      obtain ⟨rfl, hi, rfl⟩ := hij rfl
      have l1 := q2 i (by omega) (by omega)
      have l2 := q3 i0 hil le_rfl
      obtain ⟨p, ep⟩ := hs.2 _ (List.getElem_mem (show i < vl.length by omega))
      obtain ⟨q, eq'⟩ := hs.2 _ (List.getElem_mem hil)
      rw [dlt_iff, ep] at l1
      rw [← Bool.not_eq_true, dlt_iff, eq'] at l2
      rw [if_pos rfl] at hv
      have hv0 : Ieee.lt v (Ieee.fin 0) := by
        simp only [Bool.and_eq_true] at hneg
        have := dlt_iff.1 hneg.2
        rwa [lit0] at this
      cases x with
      | nan => exact l1.elim
      | ninf => exact l1.elim
      | pinf => exact absurd trivial l2
      | fin z =>
        have hz : 0 < z := by
          cases v with
          | nan => exact hv0.elim
          | ninf => cases hv
          | pinf => exact hv0.elim
          | fin w =>
            have : |w| = z := Ieee.fin.inj hv
            rw [← this]
            exact abs_pos.2 (ne_of_lt hv0)
        exact interp_within hm (List.getElem?_eq_some_iff.2 ⟨_, ep⟩) (List.getElem?_eq_some_iff.2 ⟨hil, eq'⟩) hz
          (le_of_lt l1) (not_lt.1 l2) hI
  -- unless all values are smaller, the position found is a neighbour from above
  have above : ¬ (vi <? x) = true → i0 = idx := by
    intro hlt
    by_contra hne
    have : i0 = vl.length := by
      by_contra hn
      rw [if_neg hn] at hidx
      exact hne hidx
    have := q2 idx hil (by omega)
    rw [evi] at this
    exact hlt this
  obtain ⟨y, ey⟩ := hs.2 vi (List.mem_of_getElem? gvi)
  have hnum : neg = true → ∃ z, x = Ieee.fin z ∨ x = Ieee.pinf := by
    intro hn
    rw [if_pos hn] at hv
    rw [hn] at hneg
    simp only [Bool.and_eq_true] at hneg
    have hv0 := dlt_iff.1 hneg.2
    rw [lit0] at hv0
    cases v with
    | nan => exact hv0.elim
    | ninf => exact ⟨0, .inr hv.symm⟩
    | pinf => exact hv0.elim
    | fin w => exact ⟨_, .inl hv.symm⟩
  split at h
  · exact hat h
  split at h
  · rename_i hne h0
    split at h
    · exact hat h
    · rename_i hlt
      refine key (fun hn => ?_) h
      exfalso
      have hx : (vi <? x) = true := by
        rw [dlt_iff, ey]
        rw [dlt_iff, ey] at hlt
        rw [deq_iff, ey] at hne
        obtain ⟨z, rfl | rfl⟩ := hnum hn
        · exact lt_of_le_of_ne (not_lt.1 hlt) hne
        · trivial
      have h1 : i0 = vl.length := by
        by_contra hn'
        rw [if_neg hn'] at hidx
        have := q3 idx hil (by omega)
        rw [evi, hx] at this
        cases this
      rw [if_pos h1] at hidx
      have := interp_short h
      omega
  rename_i hne h0
  split at h
  · split at h
    · exact hat h
    · rename_i hlt
      exact key (fun _ => ⟨rfl, by omega, above hlt⟩) h
  · rename_i hlast
    have hi0 : i0 = idx := by
      by_contra hn
      have : i0 = vl.length := by
        by_contra hn'
        rw [if_neg hn'] at hidx
        exact hn hidx
      rw [if_pos this] at hidx
      omega
    split at h
    · rename_i hd
      refine key (fun hn => ?_) h
      exfalso
      have := q3 idx hil (by omega)
      rw [evi, ey, ← Bool.not_eq_true, dlt_iff] at this
      rw [dlt_iff, lit0, ey] at hd
      obtain ⟨z, rfl | rfl⟩ := hnum hn
      · have hle : z ≤ y := not_lt.1 this
        have := F.mono (z + -y) 0 (by linarith)
        rw [rd0] at this
        have hd' : (Ieee.fin 0).lt (F.rd (z + -y)) := hd
        cases hr : F.rd (z + -y) with
        | nan => exact F.rd_num _ hr
        | ninf => rw [hr] at hd'; exact hd'.elim
        | pinf => rw [hr] at this; exact this.elim
        | fin w =>
          rw [hr] at this hd'
          exact absurd (show (0 : ℝ) < w from hd') (not_lt.2 (show w ≤ 0 from this))
      · exact this trivial
    · exact key (fun _ => ⟨rfl, by omega, hi0⟩) h

end

end PyFCM
