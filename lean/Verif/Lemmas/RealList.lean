import Verif.Model.ArithInst
import Verif.Spec.Stop
import Mathlib.Algebra.BigOperators.Group.List.Basic
import Mathlib.Tactic.Linarith
/-
Lists of reals: sums and maxima computed by loops.
-/
namespace PyFCM
open Arith Spec

theorem foldl_add_real (xs : List ℝ) (a : ℝ) :
    xs.foldl (fun x y => @HAdd.hAdd ℝ ℝ ℝ (@instHAdd ℝ instArithReal.toAdd) x y) a = a + xs.sum := by
  induction xs generalizing a with
  | nil => simp
  | cons x xs ih =>
    rw [List.foldl_cons, ih, List.sum_cons, ← add_assoc]

theorem total_real (xs : List ℝ) : total xs = xs.sum := by
  unfold total
  rw [foldl_add_real]
  simp

theorem pysum_real (xs : List ℝ) : pysum xs = xs.sum := by
  unfold pysum
  rw [foldl_add_real]
  simp

theorem sum_between {xs : List ℝ} {lo hi : ℝ} (h : ∀ x ∈ xs, lo ≤ x ∧ x ≤ hi) :
    lo * xs.length ≤ xs.sum ∧ xs.sum ≤ hi * xs.length := by
  induction xs with
  | nil => simp
  | cons x xs ih =>
    have h1 := h x (by simp)
    have h2 := ih fun y hy => h y (by simp [hy])
    simp only [List.sum_cons, List.length_cons]
    push_cast
    constructor <;> nlinarith [h1.1, h1.2, h2.1, h2.2]

theorem foldl_max_real (xs : List ℝ) (a : ℝ) :
    let r := xs.foldl (fun m y => if Arith.lt m y then y else m) a
    (r = a ∨ r ∈ xs) ∧ a ≤ r ∧ ∀ y ∈ xs, y ≤ r := by
  induction xs generalizing a with
  | nil => simp
  | cons x xs ih =>
    simp only [List.foldl_cons]
    by_cases h : a < x
    · rw [if_pos (by simpa using h)]
      obtain ⟨h1, h2, h3⟩ := ih x
      refine ⟨?_, le_trans h.le h2, ?_⟩
      · rcases h1 with h1 | h1
        · right; exact List.mem_cons.2 (Or.inl h1)
        · right; exact List.mem_cons_of_mem _ h1
      · intro y hy
        rcases List.mem_cons.1 hy with rfl | hy
        · exact h2
        · exact h3 y hy
    · rw [if_neg (by simpa using h)]
      obtain ⟨h1, h2, h3⟩ := ih a
      refine ⟨?_, h2, ?_⟩
      · rcases h1 with h1 | h1
        · left; exact h1
        · right; exact List.mem_cons_of_mem _ h1
      · intro y hy
        rcases List.mem_cons.1 hy with rfl | hy
        · exact le_trans (not_lt.1 h) h2
        · exact h3 y hy

theorem foldl_min_real (xs : List ℝ) (a : ℝ) :
    let r := xs.foldl (fun m y => if Arith.lt y m then y else m) a
    (r = a ∨ r ∈ xs) ∧ r ≤ a ∧ ∀ y ∈ xs, r ≤ y := by
  induction xs generalizing a with
  | nil => simp
  | cons x xs ih =>
    simp only [List.foldl_cons]
    by_cases h : x < a
    · rw [if_pos (by simpa using h)]
      obtain ⟨h1, h2, h3⟩ := ih x
      refine ⟨?_, le_trans h2 h.le, ?_⟩
      · rcases h1 with h1 | h1
        · right; exact List.mem_cons.2 (Or.inl h1)
        · right; exact List.mem_cons_of_mem _ h1
      · intro y hy
        rcases List.mem_cons.1 hy with rfl | hy
        · exact h2
        · exact h3 y hy
    · rw [if_neg (by simpa using h)]
      obtain ⟨h1, h2, h3⟩ := ih a
      refine ⟨?_, h2, ?_⟩
      · rcases h1 with h1 | h1
        · left; exact h1
        · right; exact List.mem_cons_of_mem _ h1
      · intro y hy
        rcases List.mem_cons.1 hy with rfl | hy
        · exact le_trans h2 (not_lt.1 h)
        · exact h3 y hy

theorem maxOf_real {xs : List ℝ} {v : ℝ} (h : maxOf xs = some v) : v ∈ xs ∧ ∀ y ∈ xs, y ≤ v := by
  cases xs with
  | nil => cases h
  | cons x xs =>
    simp only [maxOf, Option.some.injEq] at h
    subst h
    obtain ⟨h1, h2, h3⟩ := foldl_max_real xs x
    refine ⟨?_, ?_⟩
    · rcases h1 with h1 | h1
      · rw [h1]; simp
      · exact List.mem_cons_of_mem _ h1
    · intro y hy
      rcases List.mem_cons.1 hy with rfl | hy
      · exact h2
      · exact h3 y hy

theorem pymax_real {xs : List ℝ} {v : ℝ} (h : pymax xs = .ok v) : v ∈ xs ∧ ∀ y ∈ xs, y ≤ v := by
  apply maxOf_real
  cases xs with
  | nil => cases h
  | cons x xs => simp only [pymax, Except.ok.injEq] at h; rw [← h]; rfl

theorem pymin_real {xs : List ℝ} {v : ℝ} (h : pymin xs = .ok v) : v ∈ xs ∧ ∀ y ∈ xs, v ≤ y := by
  cases xs with
  | nil => cases h
  | cons x xs =>
    simp only [pymin, Except.ok.injEq] at h
    subst h
    obtain ⟨h1, h2, h3⟩ := foldl_min_real xs x
    refine ⟨?_, ?_⟩
    · rcases h1 with h1 | h1
      · rw [h1]; simp
      · exact List.mem_cons_of_mem _ h1
    · intro y hy
      rcases List.mem_cons.1 hy with rfl | hy
      · exact h2
      · exact h3 y hy

end PyFCM
