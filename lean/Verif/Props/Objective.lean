import Verif.Props.Cmeans
import Mathlib.Analysis.MeanInequalitiesPow
import Mathlib.Tactic.IntervalCases
/-
Fuzzy c-means: one round is the textbook update (C80) and the objective never increases (C81).  Real arithmetic.
-/
namespace PyFCM
open Arith

/-! ### Matrices as sums over indices -/

theorem list_sum_range (n : Nat) (f : Nat → ℝ) : ((List.range n).map f).sum = ∑ i ∈ Finset.range n, f i := by
  simp [Finset.sum, Multiset.range]

theorem row_sum {r : List ℝ} {n : Nat} (h : r.length = n) : r.sum = ∑ j ∈ Finset.range n, r.getD j 0 := by
  rw [sum_range_getD, h, list_sum_range]

theorem column_sum {u : List (List ℝ)} {c n : Nat} (hs : Spec.Shape u c n) (j : Nat) :
    (column u j).sum = ∑ k ∈ Finset.range c, entry u k j := by
  rw [column_real, row_sum (n := c) (by simp [hs.1])]
  refine Finset.sum_congr rfl fun k hk => ?_
  have hk' : k < u.length := hs.1 ▸ Finset.mem_range.1 hk
  simp [entry, List.getD_eq_getElem?_getD, List.getElem?_eq_getElem hk']

theorem getD_zipWith_mul {a b : List ℝ} {n j : Nat} (f : ℝ → ℝ → ℝ) (ha : a.length = n) (hb : b.length = n) (hj : j < n) :
    (List.zipWith f a b).getD j 0 = f (a.getD j 0) (b.getD j 0) := by
  have h1 : j < a.length := ha ▸ hj
  have h2 : j < b.length := hb ▸ hj
  simp [List.getD_eq_getElem?_getD, List.getElem?_zipWith, List.getElem?_eq_getElem h1, List.getElem?_eq_getElem h2]

theorem zip_sum {a b : List ℝ} {n : Nat} (f : ℝ → ℝ → ℝ) (ha : a.length = n) (hb : b.length = n) :
    (List.zipWith f a b).sum = ∑ j ∈ Finset.range n, f (a.getD j 0) (b.getD j 0) := by
  rw [row_sum (n := n) (by simp [ha, hb])]
  exact Finset.sum_congr rfl fun j hj => getD_zipWith_mul f ha hb (Finset.mem_range.1 hj)

/-! ### C80: the update -/

/-- The weight of sample `j` in cluster `i`: its share of the sample's memberships, at least `eps`, to the power `m`. -/
noncomputable def Spec.weight (eps m : ℝ) (c : Nat) (U : Nat → Nat → ℝ) (i j : Nat) : ℝ :=
  max (U i j / ∑ k ∈ Finset.range c, U k j) eps ^ m

/-- The distance of sample `j` to the centre of cluster `i`, at least `eps`. -/
noncomputable def Spec.away (eps : ℝ) (X V : Nat → ℝ) (i j : Nat) : ℝ := max |X j - V i| eps

open Spec

theorem entry_weights {eps m : ℝ} {u : List (List ℝ)} {c n i j : Nat} (hs : Shape u c n) (hi : i < c) (hj : j < n) :
    entry (cmWeights eps m u) i j = weight eps m c (entry u) i j := by
  unfold cmWeights normalizeColumns
  rw [entry_mapEntries _ (shape_mapCols _ hs) hi hj, entry_mapCols _ hs hi hj, fmax_real, pysum_real, column_sum hs]
  rfl

theorem cmeans0_parts {eps m : ℝ} {data : List ℝ} {u : List (List ℝ)} {r : CmStep ℝ} (h : cmeans0 eps m data u = .ok r) :
    r.cntr = cmCenters eps m data u ∧ r.d = cmDist eps data r.cntr ∧ r.jm = cmObjective (cmWeights eps m u) r.d ∧
      ∃ e, pdiv (-(lit 2)) (m - lit 1) = .ok e ∧ normalizePowerColumns eps r.d e = .ok r.u := by
  unfold cmeans0 at h
  obtain ⟨e, h1, h⟩ := except_bind_ok h
  obtain ⟨w, h2, h⟩ := except_bind_ok h
  cases h
  exact ⟨rfl, rfl, rfl, e, h1, h2⟩

theorem cntr_length {eps m : ℝ} {data : List ℝ} {u : List (List ℝ)} {r : CmStep ℝ} (h : cmeans0 eps m data u = .ok r) :
    r.cntr.length = u.length := by
  rw [(cmeans0_parts h).1]
  simp [cmCenters, cmWeights, mapEntries, normalizeColumns, mapCols]

/-- The new centres are the means of the samples with these weights. -/
theorem C80_centres {eps m : ℝ} {data : List ℝ} {u : List (List ℝ)} {r : CmStep ℝ} {c : Nat} (hs : Shape u c data.length)
    (h : cmeans0 eps m data u = .ok r) {i : Nat} (hi : i < c) :
    r.cntr.getD i 0 = (∑ j ∈ Finset.range data.length, weight eps m c (entry u) i j * data.getD j 0) /
      ∑ j ∈ Finset.range data.length, weight eps m c (entry u) i j := by
  have hw := cmWeights_shape (eps := eps) (m := m) hs
  have hi' : i < (cmWeights eps m u).length := hw.1 ▸ hi
  have hl := hw.2 _ (List.getElem_mem hi')
  have hg : ∀ j, ((cmWeights eps m u)[i]).getD j 0 = entry (cmWeights eps m u) i j := fun j => by
    simp [entry, List.getD_eq_getElem?_getD, List.getElem?_eq_getElem hi']
  rw [(cmeans0_parts h).1]
  unfold cmCenters
  rw [List.getD_eq_getElem?_getD, List.getElem?_map, List.getElem?_eq_getElem hi', Option.map_some, Option.getD_some,
    pysum_real, pysum_real, zip_sum _ hl rfl, row_sum hl]
  congr 1
  · exact Finset.sum_congr rfl fun j hj => by rw [hg, entry_weights hs hi (Finset.mem_range.1 hj)]
  · exact Finset.sum_congr rfl fun j hj => by rw [hg, entry_weights hs hi (Finset.mem_range.1 hj)]

theorem entry_d {eps m : ℝ} {data : List ℝ} {u : List (List ℝ)} {r : CmStep ℝ} {c : Nat} (hs : Shape u c data.length)
    (h : cmeans0 eps m data u = .ok r) {i j : Nat} (hi : i < c) (hj : j < data.length) :
    entry r.d i j = away eps (data.getD · 0) (r.cntr.getD · 0) i j := by
  have hi' : i < r.cntr.length := by rw [cntr_length h, hs.1]; exact hi
  rw [(cmeans0_parts h).2.1, entry_cmDist data r.cntr hi' hj]
  simp [away, List.getD_eq_getElem?_getD, List.getElem?_eq_getElem hi', List.getElem?_eq_getElem hj]

/-- The objective is the sum of the weighted squared distances. -/
theorem C80_objective {eps m : ℝ} {data : List ℝ} {u : List (List ℝ)} {r : CmStep ℝ} {c : Nat} (hs : Shape u c data.length)
    (h : cmeans0 eps m data u = .ok r) :
    r.jm = ∑ i ∈ Finset.range c, ∑ j ∈ Finset.range data.length,
      weight eps m c (entry u) i j * away eps (data.getD · 0) (r.cntr.getD · 0) i j ^ 2 := by
  have hw := cmWeights_shape (eps := eps) (m := m) hs
  have hd : Shape r.d c data.length := by
    have := cmDist_shape (eps := eps) data r.cntr
    rwa [cntr_length h, hs.1, ← (cmeans0_parts h).2.1] at this
  rw [(cmeans0_parts h).2.2.1]
  unfold cmObjective
  rw [pysum_real, row_sum (n := c) (by simp [hw.1, hd.1])]
  refine Finset.sum_congr rfl fun i hi => ?_
  have hi := Finset.mem_range.1 hi
  have h1 : i < (cmWeights eps m u).length := hw.1 ▸ hi
  have h2 : i < r.d.length := hd.1 ▸ hi
  have e : (List.zipWith (fun a b => pysum (List.zipWith (fun x y => x * Arith.pow y (lit 2)) a b)) (cmWeights eps m u) r.d).getD i 0 =
      pysum (List.zipWith (fun x y : ℝ => x * Arith.pow y (lit 2)) (cmWeights eps m u)[i] r.d[i]) := by
    simp [List.getD_eq_getElem?_getD, List.getElem?_zipWith, List.getElem?_eq_getElem h1, List.getElem?_eq_getElem h2]
  rw [e, pysum_real, zip_sum _ (hw.2 _ (List.getElem_mem h1)) (hd.2 _ (List.getElem_mem h2))]
  refine Finset.sum_congr rfl fun j hj => ?_
  have hj := Finset.mem_range.1 hj
  have g1 : ((cmWeights eps m u)[i]).getD j 0 = entry (cmWeights eps m u) i j := by
    simp [entry, List.getD_eq_getElem?_getD, List.getElem?_eq_getElem h1]
  have g2 : (r.d[i]).getD j 0 = entry r.d i j := by
    simp [entry, List.getD_eq_getElem?_getD, List.getElem?_eq_getElem h2]
  rw [g1, g2, entry_weights hs hi hj, entry_d hs h hi hj]
  congr 1
  show Real.rpow _ (lit 2) = _
  have : (lit 2 : ℝ) = 2 := by simp
  rw [this]
  exact Real.rpow_two _

/-- `normalize_power_columns` without clamping: powers divided by the sum of the column's powers. -/
theorem normalizePowerColumns_entry {eps e : ℝ} {u w : List (List ℝ)} {c n : Nat} (he : 0 < eps) (hs : Shape u c n)
    (hp : Positive u) {i j : Nat} (hi : i < c) (hj : j < n) (hr : ∀ i < c, ∀ k < c, eps * entry u k j ≤ entry u i j)
    (h : normalizePowerColumns eps u e = .ok w) :
    entry w i j = entry u i j ^ e / ∑ k ∈ Finset.range c, entry u k j ^ e := by
  unfold normalizePowerColumns at h
  split at h
  swap
  · cases h
  have h := Except.ok.inj h
  have hM := (column_entry_pos hs hp hi hj).1
  have hne : column u j ≠ [] := fun e => by
    have := congrArg List.length e
    simp [column, hs.1] at this
    omega
  obtain ⟨k, hk, ek⟩ : ∃ k < c, npMax (column u j) = entry u k j := by
    obtain ⟨k, hk, e⟩ := List.mem_iff_getElem.1 (npMax_spec hne).1
    have hk' : k < u.length := by simpa [column] using hk
    refine ⟨k, hs.1 ▸ hk', ?_⟩
    rw [← e]
    simp [column, entry, List.getD_eq_getElem?_getD, List.getElem?_eq_getElem hk']
  have s1 := shape_mapCols (fun j x => x / npMax (column u j)) hs
  have s2 := shape_mapEntries (fun x => fmax x eps) s1
  have p2 : Positive (mapEntries (fun x => fmax x eps) (mapCols (fun j x => x / npMax (column u j)) u)) :=
    positive_mapEntries fun r hr x hx => by rw [fmax_real]; exact lt_of_lt_of_le he (le_max_right _ _)
  have l1 : ∀ i < c, entry (mapEntries (fun x => fmax x eps) (mapCols (fun j x => x / npMax (column u j)) u)) i j =
      entry u i j / npMax (column u j) := by
    intro i hi
    rw [entry_mapEntries _ s1 hi hj, entry_mapCols _ hs hi hj, fmax_real, max_eq_left]
    rw [le_div_iff₀ hM, ek]
    exact hr i hi k hk
  generalize mapEntries (fun x => fmax x eps) (mapCols (fun j x => x / npMax (column u j)) u) = v at *
  obtain ⟨z, hz, s3, ⟨q, hq, l3⟩⟩ : ∃ z, (if e <? lit 0 then mapCols (fun j x => x / npMin (column v j)) v else v) = z ∧
      Shape z c n ∧ ∃ q > 0, ∀ i < c, entry z i j = entry u i j * q := by
    split
    · refine ⟨_, rfl, shape_mapCols _ s2, 1 / npMax (column u j) / npMin (column v j), ?_, fun i hi => ?_⟩
      · exact div_pos (one_div_pos.2 hM) (column_entry_pos s2 p2 hi hj).2.1
      · rw [entry_mapCols _ s2 hi hj, l1 i hi]
        ring
    · refine ⟨_, rfl, s2, 1 / npMax (column u j), one_div_pos.2 hM, fun i hi => ?_⟩
      rw [l1 i hi]
      ring
  rw [hz] at h
  have s4 := shape_mapEntries (fun x => Arith.pow x e) s3
  have l4 : ∀ i < c, entry (mapEntries (fun x => Arith.pow x e) z) i j = entry u i j ^ e * q ^ e := by
    intro i hi
    rw [entry_mapEntries _ s3 hi hj, l3 i hi]
    exact Real.mul_rpow (entry_pos hs hp hi hj).le hq.le
  rw [← h]
  unfold normalizeColumns
  rw [entry_mapCols _ s4 hi hj, pysum_real, column_sum s4, l4 i hi,
    Finset.sum_congr rfl fun k hk => l4 k (Finset.mem_range.1 hk), ← Finset.sum_mul,
    mul_div_mul_right _ _ (Real.rpow_pos_of_pos hq e).ne']

/-- The new memberships: as long as no distance is below `eps` times another of the same sample, the membership of a sample
in cluster `i` is `1 / Σ_k (d_i / d_k) ^ (2 / (m - 1))`. -/
theorem C80_memberships {eps m : ℝ} {data : List ℝ} {u : List (List ℝ)} {r : CmStep ℝ} {c : Nat} (he : 0 < eps) (hm : m ≠ 1)
    (hs : Shape u c data.length) (h : cmeans0 eps m data u = .ok r) {i j : Nat} (hi : i < c) (hj : j < data.length)
    (hr : ∀ i < c, ∀ k < c, eps * away eps (data.getD · 0) (r.cntr.getD · 0) k j ≤ away eps (data.getD · 0) (r.cntr.getD · 0) i j) :
    entry r.u i j = 1 / ∑ k ∈ Finset.range c, (away eps (data.getD · 0) (r.cntr.getD · 0) i j /
      away eps (data.getD · 0) (r.cntr.getD · 0) k j) ^ (2 / (m - 1)) := by
  obtain ⟨-, hd, -, e, h1, h2⟩ := cmeans0_parts h
  have hds : Shape r.d c data.length := by
    have := cmDist_shape (eps := eps) data r.cntr
    rwa [cntr_length h, hs.1, ← hd] at this
  have hdp : Positive r.d := hd ▸ cmDist_positive he data r.cntr
  have ee : e = -(2 / (m - 1)) := by
    have : pdiv (-(lit 2)) (m - lit 1) = Except.ok (-2 / (m - 1) : ℝ) := by
      have e : (lit 1 : ℝ) = 1 := by simp
      have e2 : (lit 2 : ℝ) = 2 := by simp
      rw [e, e2]
      exact pdiv_real (sub_ne_zero.2 hm)
    rw [h1] at this
    rw [Except.ok.inj this]
    ring
  subst ee
  have hE : ∀ k < c, entry r.d k j = away eps (data.getD · 0) (r.cntr.getD · 0) k j := fun k hk => entry_d hs h hk hj
  rw [normalizePowerColumns_entry he hds hdp hi hj (fun i hi k hk => by rw [hE i hi, hE k hk]; exact hr i hi k hk) h2]
  have hpos : ∀ k < c, 0 < entry r.d k j := fun k hk => entry_pos hds hdp hk hj
  have h3 := Real.rpow_pos_of_pos (hpos i hi) (2 / (m - 1))
  have e1 : ∑ k ∈ Finset.range c, (away eps (data.getD · 0) (r.cntr.getD · 0) i j /
      away eps (data.getD · 0) (r.cntr.getD · 0) k j) ^ (2 / (m - 1)) =
      entry r.d i j ^ (2 / (m - 1)) * ∑ k ∈ Finset.range c, entry r.d k j ^ (-(2 / (m - 1))) := by
    rw [Finset.mul_sum]
    refine Finset.sum_congr rfl fun k hk => ?_
    have hk := Finset.mem_range.1 hk
    rw [← hE i hi, ← hE k hk, Real.div_rpow (hpos i hi).le (hpos k hk).le, div_eq_mul_inv, ← Real.rpow_neg (hpos k hk).le]
  rw [e1, Real.rpow_neg (hpos i hi).le, one_div, mul_inv, div_eq_mul_inv]

/-! ### C81: the objective -/

/-- Among all memberships summing to at least 1, those of the update minimise the weighted sum of squared distances. -/
theorem best_memberships {c : Nat} {m : ℝ} (hm : 1 < m) {D v : Nat → ℝ} (hc : 0 < c) (hD : ∀ i < c, 0 < D i) (hv : ∀ i < c, 0 ≤ v i)
    (h1 : 1 ≤ ∑ i ∈ Finset.range c, v i) :
    ∑ i ∈ Finset.range c, (1 / ∑ k ∈ Finset.range c, (D i / D k) ^ (2 / (m - 1))) ^ m * D i ^ 2 ≤
      ∑ i ∈ Finset.range c, v i ^ m * D i ^ 2 := by
  have hm0 : m - 1 ≠ 0 := by linarith
  obtain ⟨w, hw⟩ : ∃ w : Nat → ℝ, w = fun i => D i ^ (-(2 / (m - 1))) := ⟨_, rfl⟩
  have wpos : ∀ i < c, 0 < w i := fun i hi => by rw [hw]; exact Real.rpow_pos_of_pos (hD i hi) _
  obtain ⟨W, hW⟩ : ∃ W, W = ∑ i ∈ Finset.range c, w i := ⟨_, rfl⟩
  have Wpos : 0 < W := by
    rw [hW]
    exact Finset.sum_pos (fun i hi => wpos i (Finset.mem_range.1 hi)) ⟨0, Finset.mem_range.2 hc⟩
  have hsq : ∀ i < c, D i ^ 2 = w i ^ (1 - m) := by
    intro i hi
    rw [hw]
    show D i ^ 2 = (D i ^ (-(2 / (m - 1)))) ^ (1 - m)
    rw [← Real.rpow_mul (hD i hi).le, ← Real.rpow_two]
    congr 1
    field_simp
    ring
  have hu : ∀ i < c, 1 / ∑ k ∈ Finset.range c, (D i / D k) ^ (2 / (m - 1)) = w i / W := by
    intro i hi
    have e : ∑ k ∈ Finset.range c, (D i / D k) ^ (2 / (m - 1)) = (w i)⁻¹ * W := by
      rw [hW, Finset.mul_sum]
      refine Finset.sum_congr rfl fun k hk => ?_
      have hk := Finset.mem_range.1 hk
      rw [hw]
      show _ = (D i ^ (-(2 / (m - 1))))⁻¹ * D k ^ (-(2 / (m - 1)))
      rw [Real.div_rpow (hD i hi).le (hD k hk).le, Real.rpow_neg (hD i hi).le, Real.rpow_neg (hD k hk).le, inv_inv, div_eq_mul_inv]
    rw [e, one_div, mul_inv, inv_inv, div_eq_mul_inv]
  have hl : ∑ i ∈ Finset.range c, (1 / ∑ k ∈ Finset.range c, (D i / D k) ^ (2 / (m - 1))) ^ m * D i ^ 2 = W * (W⁻¹) ^ m := by
    have : ∀ i ∈ Finset.range c, (1 / ∑ k ∈ Finset.range c, (D i / D k) ^ (2 / (m - 1))) ^ m * D i ^ 2 = w i * (W⁻¹) ^ m := by
      intro i hi
      have hi := Finset.mem_range.1 hi
      rw [hu i hi, hsq i hi, div_eq_mul_inv, Real.mul_rpow (wpos i hi).le (inv_pos.2 Wpos).le, mul_right_comm,
        ← Real.rpow_add (wpos i hi)]
      norm_num
    rw [Finset.sum_congr rfl this, ← Finset.sum_mul, ← hW]
  rw [hl]
  have hJ := Real.rpow_arith_mean_le_arith_mean_rpow (Finset.range c) (fun i => w i / W) (fun i => v i / w i)
    (fun i hi => (div_pos (wpos i (Finset.mem_range.1 hi)) Wpos).le)
    (by rw [← Finset.sum_div, ← hW, div_self Wpos.ne'])
    (fun i hi => div_nonneg (hv i (Finset.mem_range.1 hi)) (wpos i (Finset.mem_range.1 hi)).le) hm.le
  have e1 : ∑ i ∈ Finset.range c, w i / W * (v i / w i) = (∑ i ∈ Finset.range c, v i) * W⁻¹ := by
    rw [Finset.sum_mul]
    refine Finset.sum_congr rfl fun i hi => ?_
    have := (wpos i (Finset.mem_range.1 hi)).ne'
    field_simp
  have e2 : ∑ i ∈ Finset.range c, w i / W * (v i / w i) ^ m = W⁻¹ * ∑ i ∈ Finset.range c, v i ^ m * D i ^ 2 := by
    rw [Finset.mul_sum]
    refine Finset.sum_congr rfl fun i hi => ?_
    have hi := Finset.mem_range.1 hi
    rw [hsq i hi, Real.div_rpow (hv i hi) (wpos i hi).le, Real.rpow_sub (wpos i hi), Real.rpow_one]
    have := (Real.rpow_pos_of_pos (wpos i hi) m).ne'
    field_simp
  rw [e1, e2] at hJ
  have h2 : (W⁻¹) ^ m ≤ ((∑ i ∈ Finset.range c, v i) * W⁻¹) ^ m := by
    refine Real.rpow_le_rpow (inv_pos.2 Wpos).le ?_ (by linarith)
    have := inv_pos.2 Wpos
    nlinarith
  have h3 := mul_le_mul_of_nonneg_left (h2.trans hJ) Wpos.le
  rwa [← mul_assoc, mul_inv_cancel₀ Wpos.ne', one_mul] at h3

/-- The weighted mean minimises the weighted sum of squares. -/
theorem best_centre {n : Nat} {a X : Nat → ℝ} (ha : ∀ j < n, 0 ≤ a j) (v : ℝ) :
    ∑ j ∈ Finset.range n, a j * (X j - (∑ j ∈ Finset.range n, a j * X j) / ∑ j ∈ Finset.range n, a j) ^ 2 ≤
      ∑ j ∈ Finset.range n, a j * (X j - v) ^ 2 := by
  obtain ⟨A, hA⟩ : ∃ A, A = ∑ j ∈ Finset.range n, a j := ⟨_, rfl⟩
  obtain ⟨B, hB⟩ : ∃ B, B = ∑ j ∈ Finset.range n, a j * X j := ⟨_, rfl⟩
  rw [← hA, ← hB]
  have hA0 : 0 ≤ A := hA ▸ Finset.sum_nonneg fun j hj => ha j (Finset.mem_range.1 hj)
  have key : ∀ t : ℝ, ∑ j ∈ Finset.range n, a j * (X j - t) ^ 2 = ∑ j ∈ Finset.range n, a j * X j ^ 2 - 2 * t * B + t ^ 2 * A := by
    intro t
    rw [hA, hB, Finset.mul_sum, Finset.mul_sum, ← Finset.sum_sub_distrib, ← Finset.sum_add_distrib]
    exact Finset.sum_congr rfl fun j _ => by ring
  rw [key, key]
  rcases hA0.eq_or_lt with h | h
  · have hz : ∀ j ∈ Finset.range n, a j = 0 :=
      (Finset.sum_eq_zero_iff_of_nonneg fun j hj => ha j (Finset.mem_range.1 hj)).1 (hA ▸ h.symm)
    have hB0 : B = 0 := by
      rw [hB]
      exact Finset.sum_eq_zero fun j hj => by rw [hz j hj, zero_mul]
    rw [← h, hB0]
    simp
  · have e : 2 * (B / A) * B - (B / A) ^ 2 * A = B ^ 2 / A := by field_simp; ring
    have e2 : B ^ 2 / A - (2 * v * B - v ^ 2 * A) = (B - v * A) ^ 2 / A := by field_simp; ring
    have : 0 ≤ (B - v * A) ^ 2 / A := div_nonneg (sq_nonneg _) h.le
    linarith

/-- No membership and no ratio of distances of this round was raised to `eps`. -/
structure Spec.Clear (eps : ℝ) (data : List ℝ) (c : Nat) (r : CmStep ℝ) : Prop where
  ratios : ∀ j < data.length, ∀ i < c, ∀ k < c,
    eps * away eps (data.getD · 0) (r.cntr.getD · 0) k j ≤ away eps (data.getD · 0) (r.cntr.getD · 0) i j
  members : ∀ i < c, ∀ j < data.length, eps ≤ entry r.u i j

theorem partition_sum {u : List (List ℝ)} {c n j : Nat} (h : Partition u c n) (hj : j < n) :
    ∑ k ∈ Finset.range c, entry u k j = 1 := by
  rw [← column_sum h.shape, column_real]
  exact h.sum j hj

/-- One more round raises the objective by at most `n * eps ^ 2`, and not at all if all its distances are at least `eps`. -/
theorem C81_round {eps m : ℝ} {data : List ℝ} {u : List (List ℝ)} {r s : CmStep ℝ} {c : Nat} (he : 0 < eps) (hm : 1 < m)
    (hc : 0 < c) (hs : Shape u c data.length) (hp : Positive u) (hr : cmeans0 eps m data u = .ok r)
    (hcl : Clear eps data c r) (hr2 : cmeans0 eps m data r.u = .ok s) :
    s.jm ≤ r.jm + data.length * eps ^ 2 ∧
      ((∀ i < c, ∀ j < data.length, eps ≤ |data.getD j 0 - s.cntr.getD i 0|) → s.jm ≤ r.jm) := by
  have hune : u ≠ [] := by rintro rfl; have := hs.1; simp at this; omega
  have hpart : Partition r.u c data.length := by
    obtain ⟨r', h1, -, -, h2⟩ := cmeans0_ok (data := data) he hm.ne' hune
    rw [hr] at h1
    cases h1
    rwa [hs.1] at h2
  obtain ⟨X, hX⟩ : ∃ X : Nat → ℝ, X = (data.getD · 0) := ⟨_, rfl⟩
  obtain ⟨U, hU⟩ : ∃ U : Nat → Nat → ℝ, U = entry r.u := ⟨_, rfl⟩
  have upos : ∀ i < c, ∀ j < data.length, 0 < U i j := fun i hi j hj => by rw [hU]; exact entry_pos hpart.shape hpart.pos hi hj
  have usum : ∀ j < data.length, ∑ k ∈ Finset.range c, U k j = 1 := fun j hj => by rw [hU]; exact partition_sum hpart hj
  have ule : ∀ i < c, ∀ j < data.length, U i j ≤ 1 := fun i hi j hj => by
    rw [← usum j hj]
    exact Finset.single_le_sum (f := fun k => U k j) (fun k hk => (upos k (Finset.mem_range.1 hk) j hj).le) (Finset.mem_range.2 hi)
  have hwt : ∀ i < c, ∀ j < data.length, weight eps m c (entry r.u) i j = U i j ^ m := by
    intro i hi j hj
    unfold weight
    rw [← hU, usum j hj, div_one, max_eq_left (by rw [hU]; exact hcl.members i hi j hj)]
  have hwpos : ∀ i < c, ∀ j < data.length, 0 < U i j ^ m := fun i hi j hj => Real.rpow_pos_of_pos (upos i hi j hj) m
  -- the objective of the second round
  have hs2 : s.jm = ∑ i ∈ Finset.range c, ∑ j ∈ Finset.range data.length, U i j ^ m * max |X j - s.cntr.getD i 0| eps ^ 2 := by
    rw [C80_objective hpart.shape hr2, hX]
    refine Finset.sum_congr rfl fun i hi => Finset.sum_congr rfl fun j hj => ?_
    rw [hwt i (Finset.mem_range.1 hi) j (Finset.mem_range.1 hj)]
    rfl
  -- the centres of the second round are optimal
  have hcen : ∀ i < c, ∑ j ∈ Finset.range data.length, U i j ^ m * (X j - s.cntr.getD i 0) ^ 2 ≤
      ∑ j ∈ Finset.range data.length, U i j ^ m * (X j - r.cntr.getD i 0) ^ 2 := by
    intro i hi
    have e : s.cntr.getD i 0 = (∑ j ∈ Finset.range data.length, U i j ^ m * X j) / ∑ j ∈ Finset.range data.length, U i j ^ m := by
      rw [C80_centres hpart.shape hr2 hi, hX]
      congr 1
      · exact Finset.sum_congr rfl fun j hj => by rw [hwt i hi j (Finset.mem_range.1 hj)]
      · exact Finset.sum_congr rfl fun j hj => by rw [hwt i hi j (Finset.mem_range.1 hj)]
    rw [e]
    exact best_centre (fun j hj => (hwpos i hi j hj).le) _
  -- the memberships are optimal for the distances of the first round
  have hmem : ∀ j < data.length, ∑ i ∈ Finset.range c, U i j ^ m * away eps X (r.cntr.getD · 0) i j ^ 2 ≤
      ∑ i ∈ Finset.range c, weight eps m c (entry u) i j * away eps X (r.cntr.getD · 0) i j ^ 2 := by
    intro j hj
    have hpos : ∀ i < c, 0 < away eps X (r.cntr.getD · 0) i j := fun i _ => lt_of_lt_of_le he (le_max_right _ _)
    have cpos : 0 < ∑ k ∈ Finset.range c, entry u k j :=
      Finset.sum_pos (fun k hk => entry_pos hs hp (Finset.mem_range.1 hk) hj) ⟨0, Finset.mem_range.2 hc⟩
    have hb := best_memberships hm (D := fun i => away eps X (r.cntr.getD · 0) i j)
      (v := fun i => max (entry u i j / ∑ k ∈ Finset.range c, entry u k j) eps) hc hpos
      (fun i _ => le_trans he.le (le_max_right _ _)) (by
        calc (1 : ℝ) = ∑ i ∈ Finset.range c, entry u i j / ∑ k ∈ Finset.range c, entry u k j := by
              rw [← Finset.sum_div, div_self cpos.ne']
          _ ≤ _ := Finset.sum_le_sum fun i _ => le_max_left _ _)
    refine le_trans (le_of_eq ?_) hb
    refine Finset.sum_congr rfl fun i hi => ?_
    rw [hU, C80_memberships he hm.ne' hs hr (Finset.mem_range.1 hi) hj (hcl.ratios j hj), hX]
  have hmain : ∑ i ∈ Finset.range c, ∑ j ∈ Finset.range data.length, U i j ^ m * (X j - s.cntr.getD i 0) ^ 2 ≤ r.jm := by
    calc _ ≤ ∑ i ∈ Finset.range c, ∑ j ∈ Finset.range data.length, U i j ^ m * (X j - r.cntr.getD i 0) ^ 2 :=
          Finset.sum_le_sum fun i hi => hcen i (Finset.mem_range.1 hi)
      _ ≤ ∑ i ∈ Finset.range c, ∑ j ∈ Finset.range data.length, U i j ^ m * away eps X (r.cntr.getD · 0) i j ^ 2 := by
          refine Finset.sum_le_sum fun i hi => Finset.sum_le_sum fun j hj => ?_
          refine mul_le_mul_of_nonneg_left ?_ (hwpos i (Finset.mem_range.1 hi) j (Finset.mem_range.1 hj)).le
          rw [← sq_abs]
          exact pow_le_pow_left₀ (abs_nonneg _) (le_max_left _ _) 2
      _ = ∑ j ∈ Finset.range data.length, ∑ i ∈ Finset.range c, U i j ^ m * away eps X (r.cntr.getD · 0) i j ^ 2 := Finset.sum_comm
      _ ≤ ∑ j ∈ Finset.range data.length, ∑ i ∈ Finset.range c,
            weight eps m c (entry u) i j * away eps X (r.cntr.getD · 0) i j ^ 2 :=
          Finset.sum_le_sum fun j hj => hmem j (Finset.mem_range.1 hj)
      _ = r.jm := by rw [C80_objective hs hr, Finset.sum_comm, hX]
  refine ⟨?_, fun hfar => ?_⟩
  · have hsl : ∑ i ∈ Finset.range c, ∑ j ∈ Finset.range data.length, U i j ^ m * eps ^ 2 ≤ data.length * eps ^ 2 := by
      rw [Finset.sum_comm]
      calc _ ≤ ∑ j ∈ Finset.range data.length, eps ^ 2 := by
            refine Finset.sum_le_sum fun j hj => ?_
            have hj := Finset.mem_range.1 hj
            rw [← Finset.sum_mul]
            refine mul_le_of_le_one_left (sq_nonneg _) ?_
            rw [← usum j hj]
            refine Finset.sum_le_sum fun i hi => ?_
            have hi := Finset.mem_range.1 hi
            calc U i j ^ m ≤ U i j ^ (1 : ℝ) := Real.rpow_le_rpow_of_exponent_ge (upos i hi j hj) (ule i hi j hj) hm.le
              _ = U i j := Real.rpow_one _
        _ = _ := by simp
    refine le_trans ?_ (add_le_add hmain hsl)
    rw [hs2, ← Finset.sum_add_distrib]
    refine Finset.sum_le_sum fun i hi => ?_
    rw [← Finset.sum_add_distrib]
    refine Finset.sum_le_sum fun j hj => ?_
    rw [← mul_add]
    refine mul_le_mul_of_nonneg_left ?_ (hwpos i (Finset.mem_range.1 hi) j (Finset.mem_range.1 hj)).le
    rcases max_cases |X j - s.cntr.getD i 0| eps with ⟨e, -⟩ | ⟨e, -⟩ <;> rw [e]
    · rw [sq_abs]; nlinarith [sq_nonneg eps]
    · nlinarith [sq_nonneg (X j - s.cntr.getD i 0)]
  · refine le_trans (le_of_eq ?_) hmain
    rw [hs2]
    refine Finset.sum_congr rfl fun i hi => Finset.sum_congr rfl fun j hj => ?_
    rw [max_eq_left (by rw [hX]; exact hfar i (Finset.mem_range.1 hi) j (Finset.mem_range.1 hj)), sq_abs]

/-- The rounds of a run: each starts from the memberships of the one before. -/
def Spec.Rounds (eps m : ℝ) (data : List ℝ) : List (List ℝ) → List (CmStep ℝ) → Prop
  | _, [] => True
  | u, r :: rs => cmeans0 eps m data u = .ok r ∧ Rounds eps m data r.u rs

theorem cmLoop_rounds {eps m error : ℝ} {data : List ℝ} : ∀ (fuel : Nat) (s s' : CmState ℝ),
    cmLoop eps m error data fuel s = .ok s' → ∃ rs, Rounds eps m data s.u rs ∧ s'.jm = s.jm ++ rs.map (·.jm)
  | 0, s, s', h => by
    cases h
    exact ⟨[], trivial, by simp⟩
  | fuel + 1, s, s', h => by
    unfold cmLoop at h
    obtain ⟨r, h1, h⟩ := except_bind_ok h
    split at h
    · cases h
      exact ⟨[r], ⟨h1, trivial⟩, by simp⟩
    · obtain ⟨rs, g1, g2⟩ := cmLoop_rounds fuel _ _ h
      exact ⟨r :: rs, ⟨h1, g1⟩, by rw [g2]; simp⟩

theorem rounds_chain {eps m : ℝ} {data : List ℝ} {c : Nat} (he : 0 < eps) (hm : 1 < m) (hc : 0 < c) :
    ∀ (rs : List (CmStep ℝ)) (u : List (List ℝ)), Shape u c data.length → Positive u → Rounds eps m data u rs →
      (∀ r ∈ rs, Clear eps data c r) →
      (rs.map (·.jm)).IsChain (fun a b => b ≤ a + data.length * eps ^ 2) ∧
      ((∀ r ∈ rs, ∀ i < c, ∀ j < data.length, eps ≤ |data.getD j 0 - r.cntr.getD i 0|) → (rs.map (·.jm)).IsChain (· ≥ ·))
  | [], _, _, _, _, _ => ⟨.nil, fun _ => .nil⟩
  | [r], _, _, _, _, _ => ⟨.singleton _, fun _ => .singleton _⟩
  | r :: s :: rs, u, hs, hp, ⟨h1, h2, h3⟩, hcl => by
    have hune : u ≠ [] := by rintro rfl; have := hs.1; simp at this; omega
    have hpart : Partition r.u c data.length := by
      obtain ⟨r', k1, -, -, k2⟩ := cmeans0_ok (data := data) he hm.ne' hune
      rw [h1] at k1
      cases k1
      rwa [hs.1] at k2
    obtain ⟨a, b⟩ := rounds_chain he hm hc (s :: rs) r.u hpart.shape hpart.pos ⟨h2, h3⟩ fun x hx => hcl x (List.mem_cons_of_mem _ hx)
    obtain ⟨a', b'⟩ := C81_round he hm hc hs hp h1 (hcl r (by simp)) h2
    exact ⟨.cons_cons a' a, fun hf => .cons_cons (b' (hf s (by simp))) (b fun x hx => hf x (List.mem_cons_of_mem _ hx))⟩

/-- The history of the objective that `cmeans` returns has one value per round; as long as nothing is clamped it never
increases, and clamped distances let it grow by at most `n * eps ^ 2` per round. -/
theorem C81_history {eps m error : ℝ} {maxiter c : Nat} {data : List ℝ} {init : List (List ℝ)} {res : CmResult ℝ} (he : 0 < eps)
    (hm : 1 < m) (hc : 0 < c) (h : cmeans eps m error maxiter data c init = .ok res) :
    ∃ rs, Rounds eps m data ((init.take c).map fun r => (r.take data.length).map fun x => max x eps) rs ∧
      res.jm = rs.map (·.jm) ∧ ((∀ r ∈ rs, Clear eps data c r) →
        res.jm.IsChain (fun a b => b ≤ a + data.length * eps ^ 2) ∧
        ((∀ r ∈ rs, ∀ i < c, ∀ j < data.length, eps ≤ |data.getD j 0 - r.cntr.getD i 0|) → res.jm.Pairwise (· ≥ ·))) := by
  unfold cmeans at h
  split at h
  · cases h
  rename_i hno
  obtain ⟨s, h1, h2⟩ := except_bind_ok h
  have hst : (init.take c).map (fun r => (r.take data.length).map fun x => if x <? eps then eps else x) =
      (init.take c).map fun r => (r.take data.length).map fun x => max x eps := by
    refine List.map_congr_left fun r _ => List.map_congr_left fun x _ => ?_
    by_cases hx : x < eps
    · rw [if_pos (by simpa using hx), max_eq_right hx.le]
    · rw [if_neg (by simpa using hx), max_eq_left (not_lt.1 hx)]
  rw [hst] at h1
  obtain ⟨rs, g1, g2⟩ := cmLoop_rounds _ _ _ h1
  have hj : res.jm = s.jm := by
    unfold cmFinish at h2
    split at h2
    · obtain ⟨f, -, h2⟩ := except_bind_ok h2
      cases h2
      rfl
    · cases h2
  refine ⟨rs, g1, by rw [hj, g2]; rfl, fun hcl => ?_⟩
  have hshape : Shape ((init.take c).map fun r => (r.take data.length).map fun x => max x eps) c data.length := by
    rw [not_or] at hno
    refine ⟨by simp; omega, fun r hr => ?_⟩
    obtain ⟨q, hq, rfl⟩ := List.mem_map.1 hr
    have := hno.2
    simp only [List.any_eq_true, decide_eq_true_eq, not_exists, not_and, not_lt] at this
    simp [this q hq]
  have hpos : Positive ((init.take c).map fun r => (r.take data.length).map fun x => max x eps) := by
    intro r hr x hx
    obtain ⟨q, hq, rfl⟩ := List.mem_map.1 hr
    obtain ⟨y, hy, rfl⟩ := List.mem_map.1 hx
    exact lt_of_lt_of_le he (le_max_right _ _)
  obtain ⟨a, b⟩ := rounds_chain he hm hc rs _ hshape hpos g1 hcl
  have e : res.jm = rs.map (·.jm) := by rw [hj, g2]; rfl
  rw [e]
  refine ⟨a, fun hf => ?_⟩
  exact List.isChain_iff_pairwise.1 (b hf)

/-! ### Concrete case -/

/-- Samples 0 and 4, two clusters, exponent 2, `eps` 0.0001, memberships 3/4 and 1/4: the round gives the centres 2/5 and 18/5
and the memberships 81/82 and 1/82, nothing is clamped, and the objective does not grow in the next round. -/
example : ∃ r s, cmeans0 (1/10000) 2 [0, 4] [[3/4, 1/4], [1/4, 3/4]] = .ok r ∧ cmeans0 (1/10000) 2 [0, 4] r.u = .ok s ∧
    r.cntr.getD 0 0 = 2/5 ∧ r.cntr.getD 1 0 = 18/5 ∧ entry r.u 0 0 = 81/82 ∧ Clear (1/10000) [0, 4] 2 r ∧
    s.jm ≤ r.jm + 2 * (1/10000) ^ 2 := by
  have hs : Shape ([[3/4, 1/4], [1/4, 3/4]] : List (List ℝ)) 2 ([0, 4] : List ℝ).length := ⟨rfl, by simp⟩
  have hp : Positive ([[3/4, 1/4], [1/4, 3/4]] : List (List ℝ)) := by
    intro r hr x hx
    simp only [List.mem_cons, List.not_mem_nil, or_false] at hr
    rcases hr with rfl | rfl <;> simp only [List.mem_cons, List.not_mem_nil, or_false] at hx <;> rcases hx with rfl | rfl <;> norm_num
  obtain ⟨r, hr, -, -, hq⟩ := cmeans0_ok (eps := 1/10000) (m := 2) (data := [0, 4]) (u := [[3/4, 1/4], [1/4, 3/4]])
    (by norm_num) (by norm_num) (by simp)
  obtain ⟨s, hr2, -⟩ := cmeans0_ok (eps := 1/10000) (m := 2) (data := [0, 4]) (u := r.u) (by norm_num) (by norm_num)
    (by intro e; have := hq.shape.1; rw [e] at this; simp at this)
  have w00 : weight (1/10000) 2 2 (entry [[3/4, 1/4], [1/4, 3/4]]) 0 0 = 9/16 := by
    simp [weight, entry, Finset.sum_range_succ]; norm_num
  have w01 : weight (1/10000) 2 2 (entry [[3/4, 1/4], [1/4, 3/4]]) 0 1 = 1/16 := by
    simp [weight, entry, Finset.sum_range_succ]; norm_num
  have w10 : weight (1/10000) 2 2 (entry [[3/4, 1/4], [1/4, 3/4]]) 1 0 = 1/16 := by
    simp [weight, entry, Finset.sum_range_succ]; norm_num
  have w11 : weight (1/10000) 2 2 (entry [[3/4, 1/4], [1/4, 3/4]]) 1 1 = 9/16 := by
    simp [weight, entry, Finset.sum_range_succ]; norm_num
  have c0 : r.cntr.getD 0 0 = 2/5 := by
    rw [C80_centres hs hr (by norm_num)]
    simp only [List.length_cons, List.length_nil, Finset.sum_range_succ, Finset.sum_range_zero, w00, w01]
    norm_num
  have c1 : r.cntr.getD 1 0 = 18/5 := by
    rw [C80_centres hs hr (by norm_num)]
    simp only [List.length_cons, List.length_nil, Finset.sum_range_succ, Finset.sum_range_zero, w10, w11]
    norm_num
  have a00 : away (1/10000) (([0, 4] : List ℝ).getD · 0) (r.cntr.getD · 0) 0 0 = 2/5 := by
    unfold away; beta_reduce; rw [c0]; norm_num [abs_of_neg]
  have a01 : away (1/10000) (([0, 4] : List ℝ).getD · 0) (r.cntr.getD · 0) 0 1 = 18/5 := by
    unfold away; beta_reduce; rw [c0]; norm_num [abs_of_pos]
  have a10 : away (1/10000) (([0, 4] : List ℝ).getD · 0) (r.cntr.getD · 0) 1 0 = 18/5 := by
    unfold away; beta_reduce; rw [c1]; norm_num [abs_of_neg]
  have a11 : away (1/10000) (([0, 4] : List ℝ).getD · 0) (r.cntr.getD · 0) 1 1 = 2/5 := by
    unfold away; beta_reduce; rw [c1]; norm_num [abs_of_pos]
  have hrat : ∀ j < ([0, 4] : List ℝ).length, ∀ i < 2, ∀ k < 2, (1/10000 : ℝ) * away (1/10000) (([0, 4] : List ℝ).getD · 0)
      (r.cntr.getD · 0) k j ≤ away (1/10000) (([0, 4] : List ℝ).getD · 0) (r.cntr.getD · 0) i j := by
    intro j hj i hi k hk
    have hj : j < 2 := hj
    interval_cases j <;> interval_cases i <;> interval_cases k <;> simp only [a00, a01, a10, a11] <;> norm_num
  have hmem : ∀ i < 2, ∀ j < 2, entry r.u i j = if i = j then 81/82 else 1/82 := by
    intro i hi j hj
    rw [C80_memberships (by norm_num) (by norm_num) hs hr hi hj (hrat j hj)]
    interval_cases i <;> interval_cases j <;>
      simp only [Finset.sum_range_succ, Finset.sum_range_zero, a00, a01, a10, a11] <;> norm_num
  have hcl : Clear (1/10000) [0, 4] 2 r := ⟨hrat, fun i hi j hj => by
    rw [hmem i hi j hj]; split <;> norm_num⟩
  refine ⟨r, s, hr, hr2, c0, c1, by rw [hmem 0 (by norm_num) 0 (by norm_num)]; norm_num, hcl, ?_⟩
  have := (C81_round (by norm_num) (by norm_num) (by norm_num) hs hp hr hcl hr2).1
  simpa using this

end PyFCM
