import Verif.Lemmas.Uniq
import Verif.Lemmas.RealList
import Verif.Spec.Learn
/-
C35 (one-hot matrices) and C36 (co-occurrence coefficients).
-/
namespace PyFCM
open Arith

variable {α : Type} [Arith α]

/-! ### C35 -/

/-- C35: the matrix of `gen_discrete_feature_matrix` has `1` at (value, row) exactly where the row holds the value. -/
theorem C35_matrix {β : Type} {eq : β → β → Bool} (heq : ∀ a b, eq a b = true ↔ a = b) (one : (lit 1 : α) ≠ lit 0)
    (vals us : List β) (k i : Nat) (u v : β) (hu : us[k]? = some u) (hv : vals[i]? = some v) :
    (Spec.entry (genDiscreteMatrix eq vals us : List (List α)) k i = some (lit 1) ↔ v = u) ∧
    (Spec.entry (genDiscreteMatrix eq vals us : List (List α)) k i = some (lit 0) ↔ v ≠ u) := by
  have h : Spec.entry (genDiscreteMatrix eq vals us : List (List α)) k i
      = some (if eq v u then lit 1 else lit 0) := by
    simp [Spec.entry, genDiscreteMatrix, hu, hv]
  rw [h]
  by_cases huv : v = u
  · have : eq v u = true := (heq v u).2 huv
    rw [this]
    simp [huv, one]
  · have : eq v u = false := by
      rw [Bool.eq_false_iff]; exact fun hh => huv ((heq v u).1 hh)
    simp [this, huv, Ne.symm one]

example : (Spec.entry (genDiscreteMatrix (fun a b => a == b) ["a", "b", "a"] ["a", "b"] : List (List ℚ)) 0 2
    = some 1) := by decide

open Classical in
theorem oneHot_eq [Ordered α] (col : Column α) :
    (col.oneHot : List (List α)) = col.uniqCells.map fun u => (Spec.cells col).map fun v =>
      if v = u then lit 1 else lit 0 := by
  cases col with
  | strs xs =>
    simp only [Column.oneHot, Column.uniqCells, Spec.cells, genDiscreteMatrix, List.map_map]
    refine List.map_congr_left fun u _ => List.map_congr_left fun v _ => ?_
    simp
  | bools xs =>
    simp only [Column.oneHot, Column.uniqCells, Spec.cells, genDiscreteMatrix, List.map_map]
    refine List.map_congr_left fun u _ => List.map_congr_left fun v _ => ?_
    simp
  | ints xs =>
    simp only [Column.oneHot, Column.uniqCells, Spec.cells, genDiscreteMatrix, List.map_map]
    refine List.map_congr_left fun u _ => List.map_congr_left fun v _ => ?_
    simp
  | floats xs =>
    simp only [Column.oneHot, Column.uniqCells, Spec.cells, genDiscreteMatrix, List.map_map]
    refine List.map_congr_left fun u _ => List.map_congr_left fun v _ => ?_
    simp [Ordered.eq]

/-- The values found by `np.unique` are the values of the column, each once. -/
theorem C35_values [Ordered α] (col : Column α) :
    col.uniqCells.Nodup ∧ ∀ c, c ∈ col.uniqCells ↔ c ∈ Spec.cells col := by
  cases col with
  | strs xs =>
    exact ⟨(uniq_nodup strictOrder_string xs).map fun a b h => Cell.str.inj h,
      fun c => by simp only [Column.uniqCells, Spec.cells, List.mem_map, mem_uniq strictOrder_string]⟩
  | bools xs =>
    exact ⟨(uniq_nodup strictOrder_bool xs).map fun a b h => Cell.bool.inj h,
      fun c => by simp only [Column.uniqCells, Spec.cells, List.mem_map, mem_uniq strictOrder_bool]⟩
  | ints xs =>
    exact ⟨(uniq_nodup strictOrder_int xs).map fun a b h => Cell.int.inj h,
      fun c => by simp only [Column.uniqCells, Spec.cells, List.mem_map, mem_uniq strictOrder_int]⟩
  | floats xs =>
    exact ⟨(uniq_nodup Ordered.lt xs).map fun a b h => Cell.float.inj h,
      fun c => by simp only [Column.uniqCells, Spec.cells, List.mem_map, mem_uniq Ordered.lt]⟩

/-- C35: the one-hot matrix of a column has `1` at (value, row) exactly where the row holds the value, `0`
elsewhere. -/
theorem C35_one_hot [Ordered α] (col : Column α) (k i : Nat) (u v : Cell α)
    (hu : col.uniqCells[k]? = some u) (hv : (Spec.cells col)[i]? = some v) :
    (Spec.entry col.oneHot k i = some (lit 1) ↔ v = u) ∧ (Spec.entry col.oneHot k i = some (lit 0) ↔ v ≠ u) := by
  classical
  have h : Spec.entry (col.oneHot : List (List α)) k i = some (if v = u then lit 1 else lit 0) := by
    rw [oneHot_eq]; simp [Spec.entry, hu, hv]
  rw [h]
  by_cases huv : v = u
  · simp [huv, Ordered.one]
  · simp [huv, Ne.symm (Ordered.one (α := α))]

/-- C35: every row of the dataset has exactly one `1`. -/
theorem C35_exactly_one [Ordered α] (col : Column α) (i : Nat) (hi : i < (Spec.cells col).length) :
    ∃ k, Spec.entry col.oneHot k i = some (lit 1) ∧
      ∀ k', Spec.entry col.oneHot k' i = some (lit 1) → k' = k := by
  obtain ⟨hn, hm⟩ := C35_values col
  have hv : (Spec.cells col)[i]? = some (Spec.cells col)[i] := List.getElem?_eq_getElem hi
  have hmem := (hm _).2 (List.getElem_mem hi)
  obtain ⟨k, hk, hkv⟩ := List.mem_iff_getElem.1 hmem
  have hu : col.uniqCells[k]? = some (Spec.cells col)[i] := by rw [List.getElem?_eq_getElem hk, hkv]
  refine ⟨k, ((C35_one_hot col k i _ _ hu hv).1).2 rfl, fun k' h' => ?_⟩
  have hk' : k' < col.uniqCells.length := by
    by_contra hlt
    have : (col.oneHot : List (List α))[k']? = none := by
      rw [oneHot_eq]; simp; omega
    simp [Spec.entry, this] at h'
  have hu' : col.uniqCells[k']? = some (col.uniqCells[k']) := List.getElem?_eq_getElem hk'
  have := ((C35_one_hot col k' i _ _ hu' hv).1).1 h'
  refine (List.Nodup.getElem_inj_iff hn (hi := hk') (hj := hk)).1 ?_
  rw [hkv, this]

example : 1 < (Spec.cells (.floats [3, 1, 3, 2] : Column ℚ)).length := by decide
example : (Column.uniqCells (.floats [3, 1, 3, 2] : Column ℚ)).length = 3 := by decide +kernel

/-! ### C36 -/

theorem coefLoop_sum : ∀ (a b : List ℝ) (c : Coef ℝ), a.length = b.length →
    (coefLoop a b c).pq + (coefLoop a b c).pnq + (coefLoop a b c).npq + (coefLoop a b c).npnq
      = c.pq + c.pnq + c.npq + c.npnq + a.length ∧
    (coefLoop a b c).pq + (coefLoop a b c).pnq = c.pq + c.pnq + a.sum ∧
    (coefLoop a b c).pq + (coefLoop a b c).npq = c.pq + c.npq + b.sum := by
  intro a
  induction a with
  | nil => intro b c h; cases b <;> simp_all [coefLoop]
  | cons x xs ih =>
    intro b c h
    cases b with
    | nil => simp at h
    | cons y ys =>
      obtain ⟨h1, h2, h3⟩ := ih ys ⟨c.pq + x * y, c.pnq + x * (lit 1 - y), c.npq + (lit 1 - x) * y,
        c.npnq + (lit 1 - x) * (lit 1 - y)⟩ (by simpa using h)
      simp only [coefLoop, List.sum_cons, List.length_cons]
      rw [h1, h2, h3]
      simp only [real_lit]
      push_cast
      refine ⟨by ring, by ring, by ring⟩

theorem coefLoop_nonneg : ∀ (a b : List ℝ) (c : Coef ℝ),
    (∀ x ∈ a, 0 ≤ x ∧ x ≤ 1) → (∀ y ∈ b, 0 ≤ y ∧ y ≤ 1) →
    0 ≤ c.pq → 0 ≤ c.pnq → 0 ≤ c.npq → 0 ≤ c.npnq →
    0 ≤ (coefLoop a b c).pq ∧ 0 ≤ (coefLoop a b c).pnq ∧ 0 ≤ (coefLoop a b c).npq ∧
      0 ≤ (coefLoop a b c).npnq := by
  intro a
  induction a with
  | nil => intro b c _ _ h1 h2 h3 h4; exact ⟨h1, h2, h3, h4⟩
  | cons x xs ih =>
    intro b c ha hb h1 h2 h3 h4
    cases b with
    | nil => exact ⟨h1, h2, h3, h4⟩
    | cons y ys =>
      have hx := ha x (by simp)
      have hy := hb y (by simp)
      have hx' : (0 : ℝ) ≤ lit 1 - x := by simp only [real_lit]; push_cast; linarith [hx.2]
      have hy' : (0 : ℝ) ≤ lit 1 - y := by simp only [real_lit]; push_cast; linarith [hy.2]
      exact ih ys _ (fun z hz => ha z (by simp [hz])) (fun z hz => hb z (by simp [hz]))
        (add_nonneg h1 (mul_nonneg hx.1 hy.1)) (add_nonneg h2 (mul_nonneg hx.1 hy'))
        (add_nonneg h3 (mul_nonneg hx' hy.1)) (add_nonneg h4 (mul_nonneg hx' hy'))

/-- C36: the coefficients of two columns of the same length are a contingency table: they add up to the number of
samples and have the columns' totals as marginals. -/
theorem C36_table (a b : List ℝ) (p q : Coef ℝ) (h : calcCoef a b = some (p, q)) :
    p.pq + p.pnq + p.npq + p.npnq = a.length ∧
    p.pq + p.pnq = a.sum ∧ p.pq + p.npq = b.sum ∧
    p.npq + p.npnq = a.length - a.sum ∧ p.pnq + p.npnq = a.length - b.sum := by
  unfold calcCoef at h
  by_cases hl : a.length = b.length
  · rw [if_pos hl] at h
    have hp := (Prod.mk.inj (Option.some.inj h)).1
    obtain ⟨h1, h2, h3⟩ := coefLoop_sum a b ⟨lit 0, lit 0, lit 0, lit 0⟩ hl
    rw [hp] at h1 h2 h3
    simp only [real_lit, Int.cast_zero, zero_add] at h1 h2 h3
    refine ⟨h1, h2, h3, by linarith, by linarith⟩
  · rw [if_neg hl] at h; cases h

/-- C36: for memberships in [0, 1] the coefficients are non-negative. -/
theorem C36_nonneg (a b : List ℝ) (p q : Coef ℝ) (h : calcCoef a b = some (p, q))
    (ha : ∀ x ∈ a, 0 ≤ x ∧ x ≤ 1) (hb : ∀ y ∈ b, 0 ≤ y ∧ y ≤ 1) :
    0 ≤ p.pq ∧ 0 ≤ p.pnq ∧ 0 ≤ p.npq ∧ 0 ≤ p.npnq := by
  unfold calcCoef at h
  by_cases hl : a.length = b.length
  · rw [if_pos hl] at h
    have hp := (Prod.mk.inj (Option.some.inj h)).1
    have := coefLoop_nonneg a b ⟨lit 0, lit 0, lit 0, lit 0⟩ ha hb (by simp) (by simp) (by simp) (by simp)
    rw [hp] at this
    exact this
  · rw [if_neg hl] at h; cases h

theorem coefLoop_swap (mul_comm : ∀ x y : α, x * y = y * x) : ∀ (a b : List α) (c : Coef α),
    coefLoop b a ⟨c.pq, c.npq, c.pnq, c.npnq⟩
      = ⟨(coefLoop a b c).pq, (coefLoop a b c).npq, (coefLoop a b c).pnq, (coefLoop a b c).npnq⟩ := by
  intro a
  induction a with
  | nil => intro b c; cases b <;> rfl
  | cons x xs ih =>
    intro b c
    cases b with
    | nil => rfl
    | cons y ys =>
      simp only [coefLoop]
      rw [← ih ys]
      simp only [mul_comm]

/-- C36: the second tuple is what the code computes with the roles of the columns swapped.  (Only commutativity of
multiplication is used, so this holds for IEEE doubles as well.) -/
theorem C36_swap (mul_comm : ∀ x y : α, x * y = y * x) (a b : List α) (p q : Coef α)
    (h : calcCoef a b = some (p, q)) : calcCoef b a = some (q, p) := by
  unfold calcCoef at h ⊢
  by_cases hl : a.length = b.length
  · rw [if_pos hl] at h
    have hp := (Prod.mk.inj (Option.some.inj h)).1
    have hq := (Prod.mk.inj (Option.some.inj h)).2
    rw [if_pos hl.symm]
    have := coefLoop_swap mul_comm a b ⟨lit 0, lit 0, lit 0, lit 0⟩
    simp only at this
    rw [this, hp]
    rw [hp] at hq
    rw [← hq]
  · rw [if_neg hl] at h; cases h

/-- C36: columns of different lengths have no coefficients, and only those. -/
theorem C36_none (a b : List α) : calcCoef a b = none ↔ a.length ≠ b.length := by
  unfold calcCoef
  by_cases hl : a.length = b.length <;> simp [hl]

example : calcCoef [1, 0, 1 / 2] [1, 1, (0 : ℚ)] = some (⟨1, 1 / 2, 1, 1 / 2⟩, ⟨1, 1, 1 / 2, 1 / 2⟩) := by
  decide +kernel

/-- The hypotheses of the C36 theorems are met by one-hot columns. -/
example : (calcCoef [1, 0, 1] [1, 1, (0 : ℝ)]).isSome = true ∧ ∀ x ∈ [1, 0, (1 : ℝ)], 0 ≤ x ∧ x ≤ 1 := by
  refine ⟨rfl, ?_⟩
  intro x hx
  simp only [List.mem_cons, List.not_mem_nil, or_false] at hx
  rcases hx with rfl | rfl | rfl <;> norm_num

end PyFCM
