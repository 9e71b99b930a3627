import Verif.Model.Clustering
import Verif.Lemmas.RealList
import Mathlib.Algebra.BigOperators.Ring.List
import Mathlib.Tactic.Positivity
/-
Matrices of reals: column sums, normalisation.
-/
namespace PyFCM
open Arith

theorem except_bind_ok {β γ : Type} {x : Except Err β} {f : β → Except Err γ} {c : γ} (h : (x >>= f) = .ok c) :
    ∃ b, x = .ok b ∧ f b = .ok c := by
  cases x with
  | error e => cases h
  | ok b => exact ⟨b, rfl, h⟩

/-- `u` has `c` rows of `n` entries. -/
def Spec.Shape {β : Type} (u : List (List β)) (c n : Nat) : Prop := u.length = c ∧ ∀ r ∈ u, r.length = n

/-- All entries are positive. -/
def Spec.Positive (u : List (List ℝ)) : Prop := ∀ r ∈ u, ∀ x ∈ r, 0 < x

/-- A fuzzy partition of `n` samples into `c` clusters: all memberships are positive, those of each sample sum to 1. -/
structure Spec.Partition (u : List (List ℝ)) (c n : Nat) : Prop where
  shape : Spec.Shape u c n
  pos : Spec.Positive u
  sum : ∀ j < n, (u.map fun r => r.getD j 0).sum = 1

theorem shape_mapCols {u : List (List ℝ)} {c n : Nat} (f : Nat → ℝ → ℝ) (h : Spec.Shape u c n) :
    Spec.Shape (mapCols f u) c n := by
  refine ⟨by simp [mapCols, h.1], fun r hr => ?_⟩
  obtain ⟨r', hr', rfl⟩ := List.mem_map.1 hr
  simp [h.2 r' hr']

theorem shape_mapEntries {u : List (List ℝ)} {c n : Nat} (f : ℝ → ℝ) (h : Spec.Shape u c n) :
    Spec.Shape (mapEntries f u) c n := by
  refine ⟨by simp [mapEntries, h.1], fun r hr => ?_⟩
  obtain ⟨r', hr', rfl⟩ := List.mem_map.1 hr
  simp [h.2 r' hr']

theorem positive_mapEntries {u : List (List ℝ)} {f : ℝ → ℝ} (h : ∀ r ∈ u, ∀ x ∈ r, 0 < f x) :
    Spec.Positive (mapEntries f u) := by
  intro r hr x hx
  obtain ⟨r', hr', rfl⟩ := List.mem_map.1 hr
  obtain ⟨y, hy, rfl⟩ := List.mem_map.1 hx
  exact h r' hr' y hy

theorem positive_mapCols {u : List (List ℝ)} {f : Nat → ℝ → ℝ}
    (h : ∀ r ∈ u, ∀ j (hj : j < r.length), 0 < f j r[j]) : Spec.Positive (mapCols f u) := by
  intro r hr x hx
  obtain ⟨r', hr', rfl⟩ := List.mem_map.1 hr
  obtain ⟨j, hj, rfl⟩ := List.mem_iff_getElem.1 hx
  rw [List.getElem_mapIdx]
  exact h r' hr' j (by simpa using hj)

theorem column_real (u : List (List ℝ)) (j : Nat) : column u j = u.map fun r => r.getD j 0 := by simp [column]

theorem column_mem {u : List (List ℝ)} {r : List ℝ} (hr : r ∈ u) {j : Nat} (hj : j < r.length) : r[j] ∈ column u j := by
  refine List.mem_map.2 ⟨r, hr, ?_⟩
  simp [hj]

theorem column_pos {u : List (List ℝ)} {c n : Nat} (hs : Spec.Shape u c n) (hp : Spec.Positive u) {j : Nat} (hj : j < n) :
    ∀ x ∈ column u j, 0 < x := by
  intro x hx
  obtain ⟨r, hr, rfl⟩ := List.mem_map.1 hx
  have hjr : j < r.length := by rw [hs.2 r hr]; exact hj
  simp only [List.getD_eq_getElem?_getD, List.getElem?_eq_getElem hjr, Option.getD_some]
  exact hp r hr _ (List.getElem_mem _)

theorem sum_pos_of {xs : List ℝ} (h : ∀ x ∈ xs, 0 < x) (hne : xs ≠ []) : 0 < xs.sum := by
  cases xs with
  | nil => exact absurd rfl hne
  | cons x xs =>
    have h1 : 0 ≤ xs.sum := List.sum_nonneg fun y hy => (h y (by simp [hy])).le
    have h2 := h x (by simp)
    simp only [List.sum_cons]
    linarith

theorem le_sum_of_mem {xs : List ℝ} (h : ∀ x ∈ xs, 0 ≤ x) {x : ℝ} (hx : x ∈ xs) : x ≤ xs.sum :=
  List.single_le_sum h x hx

theorem npMax_spec {xs : List ℝ} (hne : xs ≠ []) : npMax xs ∈ xs ∧ ∀ x ∈ xs, x ≤ npMax xs := by
  cases xs with
  | nil => exact absurd rfl hne
  | cons a xs =>
    obtain ⟨h1, h2, h3⟩ := foldl_max_real xs a
    unfold npMax
    refine ⟨?_, ?_⟩
    · rcases h1 with h1 | h1
      · exact List.mem_cons.2 (.inl h1)
      · exact List.mem_cons_of_mem _ h1
    · intro x hx
      rcases List.mem_cons.1 hx with rfl | hx
      · exact h2
      · exact h3 x hx

theorem npMin_spec {xs : List ℝ} (hne : xs ≠ []) : npMin xs ∈ xs ∧ ∀ x ∈ xs, npMin xs ≤ x := by
  cases xs with
  | nil => exact absurd rfl hne
  | cons a xs =>
    obtain ⟨h1, h2, h3⟩ := foldl_min_real xs a
    unfold npMin
    refine ⟨?_, ?_⟩
    · rcases h1 with h1 | h1
      · exact List.mem_cons.2 (.inl h1)
      · exact List.mem_cons_of_mem _ h1
    · intro x hx
      rcases List.mem_cons.1 hx with rfl | hx
      · exact h2
      · exact h3 x hx

theorem fmax_real (a b : ℝ) : fmax a b = max a b := by
  unfold fmax
  by_cases h : b ≤ a
  · rw [if_pos (by simpa using h), max_eq_left h]
  · rw [if_neg (by simpa using h), max_eq_right (not_le.1 h).le]

theorem getD_mapIdx (f : Nat → ℝ → ℝ) {r : List ℝ} {j : Nat} (hj : j < r.length) :
    (r.mapIdx f).getD j 0 = f j (r.getD j 0) := by
  simp [List.getD_eq_getElem?_getD, List.getElem?_eq_getElem hj]

/-- Dividing positive columns by their sums gives a fuzzy partition. -/
theorem normalizeColumns_partition {u : List (List ℝ)} {c n : Nat} (hc : 0 < c) (hs : Spec.Shape u c n)
    (hp : Spec.Positive u) : Spec.Partition (normalizeColumns u) c n := by
  have hne : ∀ j, column u j ≠ [] := by
    intro j e
    have := congrArg List.length e
    simp [column, hs.1] at this
    omega
  have hpos : ∀ j < n, 0 < pysum (column u j) := by
    intro j hj
    rw [pysum_real]
    exact sum_pos_of (column_pos hs hp hj) (hne j)
  refine ⟨shape_mapCols _ hs, ?_, ?_⟩
  · refine positive_mapCols fun r hr j hj => ?_
    exact div_pos (hp r hr _ (List.getElem_mem _)) (hpos j (hs.2 r hr ▸ hj))
  · intro j hj
    unfold normalizeColumns mapCols
    rw [List.map_map]
    have : u.map ((fun r => r.getD j 0) ∘ fun r => r.mapIdx fun j x => x / pysum (column u j)) =
        u.map fun r => r.getD j 0 * (pysum (column u j))⁻¹ := by
      refine List.map_congr_left fun r hr => ?_
      simp only [Function.comp]
      rw [getD_mapIdx _ (by rw [hs.2 r hr]; exact hj), div_eq_mul_inv]
    rw [this, List.sum_map_mul_right]
    have e : (u.map fun r => r.getD j 0).sum = pysum (column u j) := by
      rw [pysum_real]; simp [column]
    rw [e]
    exact mul_inv_cancel₀ (hpos j hj).ne'

/-- Rows of positive entries: every normalised power is a fuzzy partition. -/
theorem normalizePowerColumns_ok {eps e : ℝ} {u : List (List ℝ)} {c n : Nat} (he : 0 < eps) (hc : 0 < c)
    (hs : Spec.Shape u c n) (hp : Spec.Positive u) :
    ∃ w, normalizePowerColumns eps u e = .ok w ∧ Spec.Partition w c n := by
  unfold normalizePowerColumns
  rw [if_pos (by
    rw [List.all_eq_true]
    intro r hr
    rw [List.all_eq_true]
    intro x hx
    simpa using (hp r hr x hx).le)]
  refine ⟨_, rfl, ?_⟩
  have key : ∀ w : List (List ℝ), Spec.Shape w c n → Spec.Positive w →
      Spec.Shape (if e <? lit 0 then mapCols (fun j x => x / npMin (column w j)) w else w) c n ∧
      Spec.Positive (if e <? lit 0 then mapCols (fun j x => x / npMin (column w j)) w else w) := by
    intro w hs hp
    split
    · refine ⟨shape_mapCols _ hs, positive_mapCols fun r hr j hj => ?_⟩
      have hne : column w j ≠ [] := fun e => by simp [column] at e; rw [e] at hr; cases hr
      exact div_pos (hp r hr _ (List.getElem_mem _))
        (column_pos hs hp (hs.2 r hr ▸ hj) _ (npMin_spec hne).1)
    · exact ⟨hs, hp⟩
  obtain ⟨k1, k2⟩ := key (mapEntries (fun x => fmax x eps) (mapCols (fun j x => x / npMax (column u j)) u))
    (shape_mapEntries _ (shape_mapCols _ hs)) (positive_mapEntries fun r hr x hx => by
      rw [fmax_real]; exact lt_of_lt_of_le he (le_max_right _ _))
  refine normalizeColumns_partition hc (shape_mapEntries _ k1) (positive_mapEntries fun r hr x hx => ?_)
  exact Real.rpow_pos_of_pos (k2 r hr x hx) _

theorem sum_range_getD (r : List ℝ) : r.sum = ((List.range r.length).map fun j => r.getD j 0).sum := by
  congr 1
  refine List.ext_getElem (by simp) fun i h1 h2 => ?_
  simp [List.getD_eq_getElem?_getD, List.getElem?_eq_getElem h1]

/-- Summing by rows or by columns. -/
theorem sum_rows_cols {n : Nat} : ∀ {u : List (List ℝ)}, (∀ r ∈ u, r.length = n) →
    (u.map List.sum).sum = ((List.range n).map fun j => (u.map fun r => r.getD j 0).sum).sum
  | [], _ => by simp
  | r :: u, h => by
    simp only [List.map_cons, List.sum_cons]
    rw [sum_rows_cols fun r hr => h r (by simp [hr]), sum_range_getD r, h r (by simp), ← List.sum_map_add]

theorem Spec.Partition.total {u : List (List ℝ)} {c n : Nat} (h : Spec.Partition u c n) : (u.map List.sum).sum = n := by
  rw [sum_rows_cols h.shape.2]
  have : (List.range n).map (fun j => (u.map fun r => r.getD j 0).sum) = (List.range n).map fun _ => (1 : ℝ) :=
    List.map_congr_left fun j hj => h.sum j (List.mem_range.1 hj)
  rw [this]
  simp

theorem Spec.Partition.le_one {u : List (List ℝ)} {c n : Nat} (h : Spec.Partition u c n) : ∀ r ∈ u, ∀ x ∈ r, x ≤ 1 := by
  intro r hr x hx
  obtain ⟨j, hj, rfl⟩ := List.mem_iff_getElem.1 hx
  have hjn : j < n := h.shape.2 r hr ▸ hj
  rw [← h.sum j hjn, ← column_real]
  refine le_sum_of_mem ?_ (column_mem hr hj)
  intro y hy
  exact (column_pos h.shape h.pos hjn y hy).le

end PyFCM
