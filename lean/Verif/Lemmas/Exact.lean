import Verif.Model.ArithInst
import Verif.Spec.Stop
/-
The few laws of exact arithmetic needed to compare sums taken in different orders.  They hold in the reals and in the
rationals (and fail for floating point).
-/
namespace PyFCM
open Arith Spec

/-- Laws of exact arithmetic. -/
class Exact (α : Type) [Arith α] : Prop where
  add_comm : ∀ a b : α, a + b = b + a
  add_assoc : ∀ a b c : α, a + b + c = a + (b + c)
  zero_add : ∀ a : α, lit 0 + a = a
  mul_zero : ∀ a : α, a * lit 0 = lit 0
  lt_self : (lit 0 <? (lit 0 : α)) = false
  pos_ne : ∀ a : α, (lit 0 <? a) = true → (a =? lit 0) = false
  two : (lit 2 =? (lit 2 : α)) = true

instance : Exact ℝ where
  add_comm := _root_.add_comm
  add_assoc := _root_.add_assoc
  zero_add a := by simp
  mul_zero a := by simp
  lt_self := by simp
  pos_ne a h := by simpa using (show (0 : ℝ) < a by simpa using h).ne'
  two := by simp

instance : Exact ℚ where
  add_comm := _root_.add_comm
  add_assoc := _root_.add_assoc
  zero_add a := by
    have : (lit 0 : ℚ) = 0 := rfl
    rw [this]; exact _root_.zero_add a
  mul_zero a := by
    have : (lit 0 : ℚ) = 0 := rfl
    rw [this]; exact MulZeroClass.mul_zero a
  lt_self := rfl
  pos_ne a h := by
    have h0 : (lit 0 : ℚ) = 0 := rfl
    rw [h0] at h ⊢
    have h' : (0 : ℚ) < a := of_decide_eq_true h
    exact decide_eq_false h'.ne'
  two := rfl

variable {α : Type} [Arith α] [Exact α]

theorem Exact.add_zero (a : α) : a + lit 0 = a := by rw [Exact.add_comm, Exact.zero_add]

theorem foldl_add (xs : List α) (a : α) : xs.foldl (· + ·) a = a + xs.foldl (· + ·) (lit 0) := by
  induction xs generalizing a with
  | nil => simp only [List.foldl_nil, Exact.add_zero]
  | cons x xs ih =>
    simp only [List.foldl_cons]
    rw [ih (a + x), ih (lit 0 + x), Exact.zero_add, Exact.add_assoc]

theorem total_cons (x : α) (xs : List α) : total (x :: xs) = x + total xs := by
  unfold total
  rw [List.foldl_cons, foldl_add, Exact.zero_add]

theorem total_perm {xs ys : List α} (h : xs.Perm ys) : total xs = total ys := by
  induction h with
  | nil => rfl
  | cons x _ ih => rw [total_cons, total_cons, ih]
  | swap x y l =>
    simp only [total_cons]
    rw [← Exact.add_assoc, Exact.add_comm y x, Exact.add_assoc]
  | trans _ _ ih1 ih2 => rw [ih1, ih2]

theorem total_pysum {β : Type} [Arith β] (xs : List β) : pysum xs = total xs := rfl

end PyFCM
