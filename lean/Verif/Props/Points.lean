import Verif.Model.Points
import Verif.Props.CmeansRun
/-
Fuzzy c-means on data with any number of columns (C116).  Real arithmetic.
-/
namespace PyFCM
open Arith Spec

/-- The Euclidean distance of two points with `dim` coordinates. -/
noncomputable def Spec.gap (dim : Nat) (a b : List ℝ) : ℝ :=
  Real.sqrt (∑ j ∈ Finset.range dim, (a.getD j 0 - b.getD j 0) ^ 2)

/-- A matrix: every row has `dim` entries. -/
def Spec.Rect (dim : Nat) (data : List (List ℝ)) : Prop := ∀ p ∈ data, p.length = dim

/-- A point within the samples: their mean for some positive weights. -/
def Spec.Blend (dim : Nat) (data : List (List ℝ)) (c : List ℝ) : Prop :=
  c.length = dim ∧ ∃ w : Nat → ℝ, (∀ i < data.length, 0 < w i) ∧ ∑ i ∈ Finset.range data.length, w i = 1 ∧
    ∀ j < dim, c.getD j 0 = ∑ i ∈ Finset.range data.length, w i * entry data i j

theorem pointDist_real {dim : Nat} {a b : List ℝ} (ha : a.length = dim) (hb : b.length = dim) :
    pointDist a b = gap dim a b := by
  unfold pointDist vecNorm gap
  show Real.sqrt _ = Real.sqrt _
  congr 1
  rw [pysum_real, List.map_zipWith, zip_sum _ ha hb]
  exact Finset.sum_congr rfl fun j _ => by ring

theorem gap_nonneg (dim : Nat) (a b : List ℝ) : 0 ≤ gap dim a b := Real.sqrt_nonneg _

theorem gap_sq (dim : Nat) (a b : List ℝ) : gap dim a b ^ 2 = ∑ j ∈ Finset.range dim, (a.getD j 0 - b.getD j 0) ^ 2 :=
  Real.sq_sqrt (Finset.sum_nonneg fun _ _ => sq_nonneg _)

theorem gap_comm (dim : Nat) (a b : List ℝ) : gap dim a b = gap dim b a := by
  unfold gap
  congr 1
  exact Finset.sum_congr rfl fun j _ => by ring

theorem ptCenters_table {eps m : ℝ} {dim : Nat} {data u : List (List ℝ)} : Rect dim (ptCenters eps m dim data u) := by
  intro p hp
  obtain ⟨r, -, rfl⟩ := List.mem_map.1 hp
  simp

theorem ptDist_shape {eps : ℝ} (data cntr : List (List ℝ)) : Shape (ptDist eps data cntr) cntr.length data.length := by
  refine shape_mapEntries _ ⟨by simp [pointDists], fun r hr => ?_⟩
  obtain ⟨c, -, rfl⟩ := List.mem_map.1 hr
  simp

theorem ptDist_positive {eps : ℝ} (he : 0 < eps) (data cntr : List (List ℝ)) : Positive (ptDist eps data cntr) := by
  refine positive_mapEntries fun r _ x _ => ?_
  rw [fmax_real]
  exact lt_of_lt_of_le he (le_max_right _ _)

theorem ptCmeans0_parts {eps m : ℝ} {dim : Nat} {data u : List (List ℝ)} {r : PtStep ℝ}
    (h : ptCmeans0 eps m dim data u = .ok r) :
    r.cntr = ptCenters eps m dim data u ∧ r.d = ptDist eps data r.cntr ∧ r.jm = cmObjective (cmWeights eps m u) r.d ∧
      ∃ e, pdiv (-(lit 2)) (m - lit 1) = .ok e ∧ normalizePowerColumns eps r.d e = .ok r.u := by
  unfold ptCmeans0 at h
  obtain ⟨e, h1, h⟩ := except_bind_ok h
  obtain ⟨w, h2, h⟩ := except_bind_ok h
  cases h
  exact ⟨rfl, rfl, rfl, e, h1, h2⟩

theorem exponent_real {m : ℝ} (hm : m ≠ 1) : pdiv (-(lit 2)) (m - lit 1) = Except.ok (-2 / (m - 1) : ℝ) := by
  have e : (lit 1 : ℝ) = 1 := by simp
  have e2 : (lit 2 : ℝ) = 2 := by simp
  rw [e, e2]
  exact pdiv_real (sub_ne_zero.2 hm)

theorem ptCenters_length {eps m : ℝ} {dim : Nat} {data u : List (List ℝ)} : (ptCenters eps m dim data u).length = u.length := by
  simp [ptCenters, cmWeights, mapEntries, normalizeColumns, mapCols]

/-- Every step, from whatever matrix, returns positive memberships that sum to 1 for every sample. -/
theorem C116_step {eps m : ℝ} {dim : Nat} {data u : List (List ℝ)} (he : 0 < eps) (hm : m ≠ 1) (hu : u ≠ []) :
    ∃ r, ptCmeans0 eps m dim data u = .ok r ∧ Partition r.u u.length data.length := by
  have hl := ptCenters_length (eps := eps) (m := m) (dim := dim) (data := data) (u := u)
  have hs := hl ▸ ptDist_shape (eps := eps) data (ptCenters eps m dim data u)
  obtain ⟨w, h1, h2⟩ := normalizePowerColumns_ok (e := -2 / (m - 1)) he (List.length_pos_iff.2 hu) hs
    (ptDist_positive he data (ptCenters eps m dim data u))
  refine ⟨⟨ptCenters eps m dim data u, w, cmObjective (cmWeights eps m u) (ptDist eps data (ptCenters eps m dim data u)),
    ptDist eps data (ptCenters eps m dim data u)⟩, ?_, h2⟩
  unfold ptCmeans0
  rw [exponent_real hm]
  show (normalizePowerColumns eps (ptDist eps data (ptCenters eps m dim data u)) (-2 / (m - 1)) >>= _) = _
  rw [h1]
  rfl

theorem step_partition {eps m : ℝ} {dim c : Nat} {data u : List (List ℝ)} {r : PtStep ℝ} (he : 0 < eps) (hm : m ≠ 1)
    (hc : 0 < c) (hs : Shape u c data.length) (h : ptCmeans0 eps m dim data u = .ok r) : Partition r.u c data.length := by
  have hune : u ≠ [] := by rintro rfl; have := hs.1; simp at this; omega
  obtain ⟨r', h1, h2⟩ := C116_step (dim := dim) (data := data) he hm hune
  rw [h] at h1
  cases h1
  rwa [hs.1] at h2

theorem ptCntr_length {eps m : ℝ} {dim : Nat} {data u : List (List ℝ)} {r : PtStep ℝ}
    (h : ptCmeans0 eps m dim data u = .ok r) : r.cntr.length = u.length := by
  rw [(ptCmeans0_parts h).1, ptCenters_length]

theorem column_getD (u : List (List ℝ)) {i : Nat} (j : Nat) (hi : i < u.length) : (column u j).getD i 0 = entry u i j := by
  simp [column, entry, List.getD_eq_getElem?_getD, List.getElem?_eq_getElem hi]

/-- The new centres are, in every coordinate, the means of the samples with the weights of C80. -/
theorem C116_centres {eps m : ℝ} {dim : Nat} {data u : List (List ℝ)} {r : PtStep ℝ} {c : Nat} (hs : Shape u c data.length)
    (h : ptCmeans0 eps m dim data u = .ok r) {i k : Nat} (hi : i < c) (hk : k < dim) :
    entry r.cntr i k = (∑ j ∈ Finset.range data.length, weight eps m c (entry u) i j * entry data j k) /
      ∑ j ∈ Finset.range data.length, weight eps m c (entry u) i j := by
  have hw := cmWeights_shape (eps := eps) (m := m) hs
  have hi' : i < (cmWeights eps m u).length := hw.1 ▸ hi
  have hl := hw.2 _ (List.getElem_mem hi')
  have hg : ∀ j, ((cmWeights eps m u)[i]).getD j 0 = entry (cmWeights eps m u) i j := fun j => by
    simp [entry, List.getD_eq_getElem?_getD, List.getElem?_eq_getElem hi']
  rw [(ptCmeans0_parts h).1]
  unfold ptCenters
  have e : entry ((cmWeights eps m u).map fun r => (List.range dim).map fun j =>
      pysum (List.zipWith (· * ·) r (column data j)) / pysum r) i k =
      pysum (List.zipWith (· * ·) (cmWeights eps m u)[i] (column data k)) / pysum (cmWeights eps m u)[i] := by
    simp [entry, List.getD_eq_getElem?_getD, hi', hk]
  rw [e, pysum_real, pysum_real, zip_sum _ hl (by simp [column]), row_sum hl]
  congr 1
  · refine Finset.sum_congr rfl fun j hj => ?_
    have hj := Finset.mem_range.1 hj
    rw [hg, entry_weights hs hi hj, column_getD data k hj]
  · exact Finset.sum_congr rfl fun j hj => by rw [hg, entry_weights hs hi (Finset.mem_range.1 hj)]

theorem weight_pos {eps m : ℝ} (he : 0 < eps) (c : Nat) (U : Nat → Nat → ℝ) (i j : Nat) : 0 < weight eps m c U i j :=
  Real.rpow_pos_of_pos (lt_of_lt_of_le he (le_max_right _ _)) _

/-- Every centre is a mean of the samples with positive weights. -/
theorem C116_blend {eps m : ℝ} {dim : Nat} {data u : List (List ℝ)} {r : PtStep ℝ} {c : Nat} (he : 0 < eps) (hd : data ≠ [])
    (hs : Shape u c data.length) (h : ptCmeans0 eps m dim data u = .ok r) : ∀ p ∈ r.cntr, Blend dim data p := by
  intro p hp
  obtain ⟨i, hi, rfl⟩ := List.mem_iff_getElem.1 hp
  have hi' : i < c := by rw [ptCntr_length h, hs.1] at hi; exact hi
  have ht : r.cntr[i].length = dim := by
    have := ptCenters_table (eps := eps) (m := m) (dim := dim) (data := data) (u := u)
    rw [← (ptCmeans0_parts h).1] at this
    exact this _ hp
  have hpos : 0 < ∑ j ∈ Finset.range data.length, weight eps m c (entry u) i j :=
    Finset.sum_pos (fun j _ => weight_pos he c _ i j) ⟨0, Finset.mem_range.2 (List.length_pos_iff.2 hd)⟩
  refine ⟨ht, fun j => weight eps m c (entry u) i j / ∑ j ∈ Finset.range data.length, weight eps m c (entry u) i j,
    fun j _ => div_pos (weight_pos he c _ i j) hpos, ?_, fun k hk => ?_⟩
  · rw [← Finset.sum_div, div_self hpos.ne']
  · have e : (r.cntr[i]).getD k 0 = entry r.cntr i k := by
      simp [entry, List.getD_eq_getElem?_getD, List.getElem?_eq_getElem hi]
    rw [e, C116_centres hs h hi' hk, Finset.sum_div]
    exact Finset.sum_congr rfl fun j _ => by ring

/-- The distance of sample `j` to the centre of cluster `i`, at least `eps`. -/
noncomputable def Spec.remote (eps : ℝ) (dim : Nat) (data cntr : List (List ℝ)) (i j : Nat) : ℝ :=
  max (gap dim (data.getD j []) (cntr.getD i [])) eps

theorem entry_ptDist {eps : ℝ} {dim : Nat} {data cntr : List (List ℝ)} (hd : Rect dim data) (hc : Rect dim cntr) {i j : Nat}
    (hi : i < cntr.length) (hj : j < data.length) : entry (ptDist eps data cntr) i j = remote eps dim data cntr i j := by
  have hs : Shape (pointDists data cntr) cntr.length data.length := ⟨by simp [pointDists], by
    intro r hr
    obtain ⟨c, -, rfl⟩ := List.mem_map.1 hr
    simp⟩
  unfold ptDist
  rw [entry_mapEntries _ hs hi hj, fmax_real]
  unfold remote
  congr 1
  rw [show entry (pointDists data cntr) i j = pointDist data[j] cntr[i] by
    simp [entry, pointDists, List.getD_eq_getElem?_getD, List.getElem?_eq_getElem hi, List.getElem?_eq_getElem hj],
    pointDist_real (hd _ (List.getElem_mem hj)) (hc _ (List.getElem_mem hi))]
  simp [List.getD_eq_getElem?_getD, List.getElem?_eq_getElem hi, List.getElem?_eq_getElem hj]

theorem entry_ptd {eps m : ℝ} {dim : Nat} {data u : List (List ℝ)} {r : PtStep ℝ} {c : Nat} (hd : Rect dim data)
    (hs : Shape u c data.length) (h : ptCmeans0 eps m dim data u = .ok r) {i j : Nat} (hi : i < c) (hj : j < data.length) :
    entry r.d i j = remote eps dim data r.cntr i j := by
  have hi' : i < r.cntr.length := by rw [ptCntr_length h, hs.1]; exact hi
  have ht : Rect dim r.cntr := by rw [(ptCmeans0_parts h).1]; exact ptCenters_table
  rw [(ptCmeans0_parts h).2.1, entry_ptDist hd ht hi' hj]

/-- The objective is the sum of the weighted squared distances. -/
theorem C116_objective {eps m : ℝ} {dim : Nat} {data u : List (List ℝ)} {r : PtStep ℝ} {c : Nat} (hd : Rect dim data)
    (hs : Shape u c data.length) (h : ptCmeans0 eps m dim data u = .ok r) :
    r.jm = ∑ i ∈ Finset.range c, ∑ j ∈ Finset.range data.length,
      weight eps m c (entry u) i j * remote eps dim data r.cntr i j ^ 2 := by
  have hw := cmWeights_shape (eps := eps) (m := m) hs
  have hds : Shape r.d c data.length := by
    have := ptDist_shape (eps := eps) data r.cntr
    rwa [ptCntr_length h, hs.1, ← (ptCmeans0_parts h).2.1] at this
  rw [(ptCmeans0_parts h).2.2.1]
  unfold cmObjective
  rw [pysum_real, row_sum (n := c) (by simp [hw.1, hds.1])]
  refine Finset.sum_congr rfl fun i hi => ?_
  have hi := Finset.mem_range.1 hi
  have h1 : i < (cmWeights eps m u).length := hw.1 ▸ hi
  have h2 : i < r.d.length := hds.1 ▸ hi
  have e : (List.zipWith (fun a b => pysum (List.zipWith (fun x y => x * Arith.pow y (lit 2)) a b)) (cmWeights eps m u) r.d).getD i 0 =
      pysum (List.zipWith (fun x y : ℝ => x * Arith.pow y (lit 2)) (cmWeights eps m u)[i] r.d[i]) := by
    simp [List.getD_eq_getElem?_getD, List.getElem?_zipWith, List.getElem?_eq_getElem h1, List.getElem?_eq_getElem h2]
  rw [e, pysum_real, zip_sum _ (hw.2 _ (List.getElem_mem h1)) (hds.2 _ (List.getElem_mem h2))]
  refine Finset.sum_congr rfl fun j hj => ?_
  have hj := Finset.mem_range.1 hj
  have g1 : ((cmWeights eps m u)[i]).getD j 0 = entry (cmWeights eps m u) i j := by
    simp [entry, List.getD_eq_getElem?_getD, List.getElem?_eq_getElem h1]
  have g2 : (r.d[i]).getD j 0 = entry r.d i j := by
    simp [entry, List.getD_eq_getElem?_getD, List.getElem?_eq_getElem h2]
  rw [g1, g2, entry_weights hs hi hj, entry_ptd hd hs h hi hj]
  congr 1
  show Real.rpow _ (lit 2) = _
  have : (lit 2 : ℝ) = 2 := by simp
  rw [this]
  exact Real.rpow_two _

/-- As long as no distance is below `eps` times another of the same sample, the membership of a sample in cluster `i` is
`1 / Σ_k (d_i / d_k) ^ (2 / (m - 1))`. -/
theorem C116_memberships {eps m : ℝ} {dim : Nat} {data u : List (List ℝ)} {r : PtStep ℝ} {c : Nat} (he : 0 < eps) (hm : m ≠ 1)
    (hd : Rect dim data) (hs : Shape u c data.length) (h : ptCmeans0 eps m dim data u = .ok r) {i j : Nat} (hi : i < c)
    (hj : j < data.length)
    (hr : ∀ i < c, ∀ k < c, eps * remote eps dim data r.cntr k j ≤ remote eps dim data r.cntr i j) :
    entry r.u i j = 1 / ∑ k ∈ Finset.range c, (remote eps dim data r.cntr i j / remote eps dim data r.cntr k j) ^ (2 / (m - 1)) := by
  obtain ⟨-, hd', -, e, h1, h2⟩ := ptCmeans0_parts h
  have hds : Shape r.d c data.length := by
    have := ptDist_shape (eps := eps) data r.cntr
    rwa [ptCntr_length h, hs.1, ← hd'] at this
  have hdp : Positive r.d := hd' ▸ ptDist_positive he data r.cntr
  have ee : e = -(2 / (m - 1)) := by
    have := exponent_real hm
    rw [h1] at this
    rw [Except.ok.inj this]
    ring
  subst ee
  have hE : ∀ k < c, entry r.d k j = remote eps dim data r.cntr k j := fun k hk => entry_ptd hd hs h hk hj
  rw [normalizePowerColumns_entry he hds hdp hi hj (fun i hi k hk => by rw [hE i hi, hE k hk]; exact hr i hi k hk) h2]
  have hpos : ∀ k < c, 0 < entry r.d k j := fun k hk => entry_pos hds hdp hk hj
  have e1 : ∑ k ∈ Finset.range c, (remote eps dim data r.cntr i j / remote eps dim data r.cntr k j) ^ (2 / (m - 1)) =
      entry r.d i j ^ (2 / (m - 1)) * ∑ k ∈ Finset.range c, entry r.d k j ^ (-(2 / (m - 1))) := by
    rw [Finset.mul_sum]
    refine Finset.sum_congr rfl fun k hk => ?_
    have hk := Finset.mem_range.1 hk
    rw [← hE i hi, ← hE k hk, Real.div_rpow (hpos i hi).le (hpos k hk).le, div_eq_mul_inv, ← Real.rpow_neg (hpos k hk).le]
  rw [e1, Real.rpow_neg (hpos i hi).le, one_div, mul_inv, div_eq_mul_inv]

/-- With an exponent above 1 a sample belongs to a nearer centre at least as much as to a farther one. -/
theorem C116_nearer {eps m : ℝ} {dim : Nat} {data u : List (List ℝ)} {r : PtStep ℝ} {c : Nat} (he : 0 < eps) (hm : 1 < m)
    (hd : Rect dim data) (hs : Shape u c data.length) (h : ptCmeans0 eps m dim data u = .ok r) {i k j : Nat} (hi : i < c)
    (hk : k < c) (hj : j < data.length)
    (hle : gap dim (data.getD j []) (r.cntr.getD i []) ≤ gap dim (data.getD j []) (r.cntr.getD k [])) :
    entry r.u k j ≤ entry r.u i j := by
  obtain ⟨-, hd', -, e, h1, h2⟩ := ptCmeans0_parts h
  rw [exponent_real hm.ne'] at h1
  cases h1
  have hds : Shape r.d c data.length := by
    have := ptDist_shape (eps := eps) data r.cntr
    rwa [ptCntr_length h, hs.1, ← hd'] at this
  have hdp : Positive r.d := hd' ▸ ptDist_positive he data r.cntr
  refine normalizePowerColumns_anti he (div_neg_of_neg_of_pos (by norm_num) (by linarith)) hds hdp hi hk hj ?_ h2
  rw [entry_ptd hd hs h hi hj, entry_ptd hd hs h hk hj]
  exact max_le_max hle le_rfl

/-! ### the whole run -/

/-- The rounds of a run: each starts from the memberships of the one before. -/
def Spec.PtRounds (eps m : ℝ) (dim : Nat) (data : List (List ℝ)) : List (List ℝ) → List (PtStep ℝ) → Prop
  | _, [] => True
  | u, r :: rs => ptCmeans0 eps m dim data u = .ok r ∧ PtRounds eps m dim data r.u rs

/-- Every round moved the memberships by at least `error`. -/
def Spec.PtUnsettled (error : ℝ) (c n : Nat) : List (List ℝ) → List (PtStep ℝ) → Prop
  | _, [] => True
  | u, r :: rs => error ≤ moved c n (entry u) (entry r.u) ∧ PtUnsettled error c n r.u rs

/-- The memberships after the rounds `rs`. -/
def Spec.ptAfter : List (List ℝ) → List (PtStep ℝ) → List (List ℝ)
  | u, [] => u
  | _, r :: rs => ptAfter r.u rs

theorem ptLoop_run {eps m error : ℝ} {dim : Nat} {data : List (List ℝ)} {c : Nat} (he : 0 < eps) (hm : m ≠ 1) (hc : 0 < c) :
    ∀ (fuel : Nat) (s : PtState ℝ), Shape s.u c data.length →
      ∃ s', ptLoop eps m error dim data fuel s = .ok s' ∧ ((fuel = 0 ∧ s' = s) ∨
        ∃ rs last, PtRounds eps m dim data s.u (rs ++ [last]) ∧ PtUnsettled error c data.length s.u rs ∧
          (moved c data.length (entry (ptAfter s.u rs)) (entry last.u) < error ∨ rs.length + 1 = fuel) ∧ rs.length + 1 ≤ fuel ∧
          Partition last.u c data.length ∧
          s' = ⟨last.u, some last, s.jm ++ (rs ++ [last]).map (·.jm), s.p + (rs.length + 1)⟩)
  | 0, s, _ => ⟨s, rfl, .inl ⟨rfl, rfl⟩⟩
  | fuel + 1, s, hs => by
    have hne : s.u ≠ [] := by rintro e; have := hs.1; rw [e] at this; simp at this; omega
    obtain ⟨r, h1, h2⟩ := C116_step (dim := dim) (data := data) he hm hne
    rw [hs.1] at h2
    unfold ptLoop
    rw [h1]
    show ∃ s', (if frob r.u s.u <? error then Except.ok (⟨r.u, some r, s.jm ++ [r.jm], s.p + 1⟩ : PtState ℝ)
      else ptLoop eps m error dim data fuel ⟨r.u, some r, s.jm ++ [r.jm], s.p + 1⟩) = .ok s' ∧ _
    rw [frob_real hs h2.shape]
    by_cases hlt : moved c data.length (entry s.u) (entry r.u) < error
    · rw [if_pos (by simpa using hlt)]
      exact ⟨_, rfl, .inr ⟨[], r, ⟨h1, trivial⟩, trivial, .inl hlt, by simp, h2, by simp⟩⟩
    · rw [if_neg (by simpa using hlt)]
      obtain ⟨s', k, g⟩ := ptLoop_run (error := error) he hm hc fuel ⟨r.u, some r, s.jm ++ [r.jm], s.p + 1⟩ h2.shape
      refine ⟨s', k, .inr ?_⟩
      rcases g with ⟨rfl, e⟩ | ⟨rs, last, g1, g2, g3, g4, g5, g6⟩
      · exact ⟨[], r, ⟨h1, trivial⟩, trivial, .inr rfl, by simp, h2, e⟩
      · refine ⟨r :: rs, last, ⟨h1, g1⟩, ⟨not_lt.1 hlt, g2⟩, ?_, by simpa using g4, g5, ?_⟩
        · rcases g3 with g3 | g3
          · exact .inl g3
          · right
            simpa using g3
        · rw [g6]
          simp
          omega

theorem ptRounds_last {eps m : ℝ} {dim : Nat} {data : List (List ℝ)} {c : Nat} (he : 0 < eps) (hm : m ≠ 1) (hc : 0 < c) :
    ∀ (rs : List (PtStep ℝ)) (last : PtStep ℝ) (u : List (List ℝ)), Shape u c data.length →
    PtRounds eps m dim data u (rs ++ [last]) → ∃ v, Shape v c data.length ∧ ptCmeans0 eps m dim data v = .ok last
  | [], _, u, hs, h => ⟨u, hs, h.1⟩
  | r :: rs, last, _, hs, h => ptRounds_last he hm hc rs last r.u (step_partition he hm hc hs h.1).shape h.2

/-- A run on data of any dimension: it returns the last round's centres, memberships and distances, the objective of
every round and their number; it stops after the first round that moves the memberships by less than `error`, at the
latest after `maxiter - 1` rounds.  The memberships are positive and sum to 1 for every sample, the centres are means
of the samples with positive weights, and the partition coefficient is between `1 / c` and 1. -/
theorem C116_cmeans {eps m error : ℝ} {maxiter c dim : Nat} {data init : List (List ℝ)} (he : 0 < eps) (hm : m ≠ 1)
    (hc : 0 < c) (hd : data ≠ []) (ht : Rect dim data) (hi : Start init c data.length) (hit : 2 ≤ maxiter) :
    let start := (init.take c).map fun r => (r.take data.length).map fun x => max x eps
    ∃ res rs last, ptCmeans eps m error maxiter dim data c init = .ok res ∧
      PtRounds eps m dim data start (rs ++ [last]) ∧ PtUnsettled error c data.length start rs ∧
      (moved c data.length (entry (ptAfter start rs)) (entry last.u) < error ∨ rs.length + 1 = maxiter - 1) ∧
      rs.length + 1 ≤ maxiter - 1 ∧
      res.cntr = last.cntr ∧ res.u = last.u ∧ res.jm = (rs ++ [last]).map (·.jm) ∧ res.p = rs.length + 1 ∧
      (∀ i < c, ∀ j < data.length, entry res.d i j = remote eps dim data res.cntr i j) ∧
      Partition res.u c data.length ∧ (res.cntr.length = c ∧ ∀ p ∈ res.cntr, Blend dim data p) ∧
      res.fpc = (∑ i ∈ Finset.range c, ∑ j ∈ Finset.range data.length, entry res.u i j ^ 2) / data.length ∧
      1 / c ≤ res.fpc ∧ res.fpc ≤ 1 := by
  intro start
  have hno : ¬ (init.length < c ∨ (init.take c).any (fun r => decide (r.length < data.length)) = true) := by
    rintro (h | h)
    · exact absurd h (not_lt.2 hi.1)
    · rw [List.any_eq_true] at h
      obtain ⟨r, hr, h⟩ := h
      have := hi.2 r hr
      simp at h
      omega
  have hst : (init.take c).map (fun r => (r.take data.length).map fun x => if x <? eps then eps else x) = start := by
    refine List.map_congr_left fun r _ => List.map_congr_left fun x _ => ?_
    by_cases hx : x < eps
    · rw [if_pos (by simpa using hx), max_eq_right hx.le]
    · rw [if_neg (by simpa using hx), max_eq_left (not_lt.1 hx)]
  have hs : Shape start c data.length := by
    have h0 := hi.1
    refine ⟨by simp [start]; omega, fun r hr => ?_⟩
    obtain ⟨r', hr', rfl⟩ := List.mem_map.1 hr
    have := hi.2 r' hr'
    simp
    omega
  obtain ⟨s', h1, h2⟩ := ptLoop_run (eps := eps) (m := m) (error := error) (dim := dim) he hm hc (maxiter - 1) { u := start } hs
  rcases h2 with ⟨e, -⟩ | ⟨rs, last, g1, g2, g3, g4, g5, rfl⟩
  · omega
  obtain ⟨v, hv, hl⟩ := ptRounds_last he hm hc rs last start hs g1
  have hn : (0 : ℝ) < data.length := by exact_mod_cast List.length_pos_iff.2 hd
  have hf : fpCoeff last.u data.length = .ok ((last.u.map fun r => (r.map fun x => x * x).sum).sum / data.length) := by
    unfold fpCoeff
    have e : (lit (data.length : Int) : ℝ) = data.length := by simp
    rw [e, pdiv_real hn.ne', pysum_real]
    congr 4
    funext r
    exact pysum_real _
  obtain ⟨b1, b2⟩ := sum_sq_bounds hc g5
  refine ⟨⟨last.cntr, last.u, last.d, (rs ++ [last]).map (·.jm), rs.length + 1,
    (last.u.map fun r => (r.map fun x => x * x).sum).sum / data.length⟩, rs, last, ?_, g1, g2, g3, g4, rfl, rfl, rfl, rfl, ?_, g5,
    ⟨(ptCntr_length hl).trans hv.1, C116_blend he hd hv hl⟩, ?_, ?_, ?_⟩
  · unfold ptCmeans
    rw [if_neg hno]
    dsimp only
    rw [hst, h1]
    change ptFinish data ⟨last.u, some last, _, _⟩ = _
    unfold ptFinish
    dsimp only
    rw [hf]
    change Except.ok _ = Except.ok _
    simp
  · exact fun i hi j hj => entry_ptd ht hv hl hi hj
  · dsimp only
    rw [map_sum_getD _ [] _ g5.shape.1]
    congr 1
    refine Finset.sum_congr rfl fun i hi => ?_
    rw [map_sum_getD _ 0 _ (row_length g5.shape (Finset.mem_range.1 hi))]
    exact Finset.sum_congr rfl fun j _ => (pow_two _).symm
  · show 1 / (c : ℝ) ≤ _ / (data.length : ℝ)
    rw [le_div_iff₀ hn]
    calc _ = (data.length : ℝ) / c := by ring
      _ ≤ _ := b1
  · show _ / (data.length : ℝ) ≤ 1
    rw [div_le_one hn]
    exact b2

/-! ### the objective -/

/-- No membership and no ratio of distances of this round was raised to `eps`. -/
structure Spec.PtClear (eps : ℝ) (dim : Nat) (data : List (List ℝ)) (c : Nat) (r : PtStep ℝ) : Prop where
  ratios : ∀ j < data.length, ∀ i < c, ∀ k < c, eps * remote eps dim data r.cntr k j ≤ remote eps dim data r.cntr i j
  members : ∀ i < c, ∀ j < data.length, eps ≤ entry r.u i j

/-- One more round raises the objective by at most `n * eps ^ 2`, and not at all if all its distances are at least `eps`. -/
theorem C116_round {eps m : ℝ} {dim : Nat} {data u : List (List ℝ)} {r s : PtStep ℝ} {c : Nat} (he : 0 < eps) (hm : 1 < m)
    (hc : 0 < c) (hd : Rect dim data) (hs : Shape u c data.length) (hp : Positive u) (hr : ptCmeans0 eps m dim data u = .ok r)
    (hcl : PtClear eps dim data c r) (hr2 : ptCmeans0 eps m dim data r.u = .ok s) :
    s.jm ≤ r.jm + data.length * eps ^ 2 ∧
      ((∀ i < c, ∀ j < data.length, eps ≤ gap dim (data.getD j []) (s.cntr.getD i [])) → s.jm ≤ r.jm) := by
  have hpart := step_partition he hm.ne' hc hs hr
  obtain ⟨U, hU⟩ : ∃ U : Nat → Nat → ℝ, U = entry r.u := ⟨_, rfl⟩
  have upos : ∀ i < c, ∀ j < data.length, 0 < U i j := fun i hi j hj => by rw [hU]; exact entry_pos hpart.shape hpart.pos hi hj
  have usum : ∀ j < data.length, ∑ k ∈ Finset.range c, U k j = 1 := fun j hj => by rw [hU]; exact partition_sum hpart hj
  have ule : ∀ i < c, ∀ j < data.length, U i j ≤ 1 := fun i hi j hj => by
    rw [← usum j hj]
    exact Finset.single_le_sum (f := fun k => U k j) (fun k hk => (upos k (Finset.mem_range.1 hk) j hj).le) (Finset.mem_range.2 hi)
  have hwt : ∀ i < c, ∀ j < data.length, weight eps m c (entry r.u) i j = U i j ^ m := by
    intro i hi j hj
    unfold weight
    rw [← hU, usum j hj, div_one, max_eq_left (by rw [hU]; exact hcl.members i hi j hj)]
  have hwpos : ∀ i < c, ∀ j < data.length, 0 < U i j ^ m := fun i hi j hj => Real.rpow_pos_of_pos (upos i hi j hj) m
  obtain ⟨G, hG⟩ : ∃ G : PtStep ℝ → Nat → Nat → ℝ, G = fun r i j => gap dim (data.getD j []) (r.cntr.getD i []) := ⟨_, rfl⟩
  have hG0 : ∀ r i j, 0 ≤ G r i j := fun r i j => by rw [hG]; exact gap_nonneg _ _ _
  have hap : ∀ (r : PtStep ℝ) i j, remote eps dim data r.cntr i j = max (G r i j) eps := fun r i j => by rw [hG]; rfl
  -- the objective of the second round
  have hs2 : s.jm = ∑ i ∈ Finset.range c, ∑ j ∈ Finset.range data.length, U i j ^ m * max (G s i j) eps ^ 2 := by
    rw [C116_objective hd hpart.shape hr2]
    refine Finset.sum_congr rfl fun i hi => Finset.sum_congr rfl fun j hj => ?_
    rw [hwt i (Finset.mem_range.1 hi) j (Finset.mem_range.1 hj), hap]
  -- the centres of the second round are optimal in every coordinate
  have hcen : ∀ i < c, ∑ j ∈ Finset.range data.length, U i j ^ m * G s i j ^ 2 ≤
      ∑ j ∈ Finset.range data.length, U i j ^ m * G r i j ^ 2 := by
    intro i hi
    have ex : ∀ t : PtStep ℝ, ∑ j ∈ Finset.range data.length, U i j ^ m * G t i j ^ 2 =
        ∑ k ∈ Finset.range dim, ∑ j ∈ Finset.range data.length, U i j ^ m * (entry data j k - entry t.cntr i k) ^ 2 := by
      intro t
      rw [Finset.sum_comm]
      refine Finset.sum_congr rfl fun j _ => ?_
      rw [hG]
      dsimp only
      rw [gap_sq, Finset.mul_sum]
      rfl
    rw [ex, ex]
    refine Finset.sum_le_sum fun k hk => ?_
    have e : entry s.cntr i k = (∑ j ∈ Finset.range data.length, U i j ^ m * entry data j k) /
        ∑ j ∈ Finset.range data.length, U i j ^ m := by
      rw [C116_centres hpart.shape hr2 hi (Finset.mem_range.1 hk)]
      congr 1
      · exact Finset.sum_congr rfl fun j hj => by rw [hwt i hi j (Finset.mem_range.1 hj)]
      · exact Finset.sum_congr rfl fun j hj => by rw [hwt i hi j (Finset.mem_range.1 hj)]
    rw [e]
    exact best_centre (a := fun j => U i j ^ m) (X := fun j => entry data j k) (fun j hj => (hwpos i hi j hj).le) _
  -- the memberships are optimal for the distances of the first round
  have hmem : ∀ j < data.length, ∑ i ∈ Finset.range c, U i j ^ m * max (G r i j) eps ^ 2 ≤
      ∑ i ∈ Finset.range c, weight eps m c (entry u) i j * max (G r i j) eps ^ 2 := by
    intro j hj
    have hpos : ∀ i < c, 0 < max (G r i j) eps := fun i _ => lt_of_lt_of_le he (le_max_right _ _)
    have cpos : 0 < ∑ k ∈ Finset.range c, entry u k j :=
      Finset.sum_pos (fun k hk => entry_pos hs hp (Finset.mem_range.1 hk) hj) ⟨0, Finset.mem_range.2 hc⟩
    have hb := best_memberships hm (D := fun i => max (G r i j) eps)
      (v := fun i => max (entry u i j / ∑ k ∈ Finset.range c, entry u k j) eps) hc hpos
      (fun i _ => le_trans he.le (le_max_right _ _)) (by
        calc (1 : ℝ) = ∑ i ∈ Finset.range c, entry u i j / ∑ k ∈ Finset.range c, entry u k j := by
              rw [← Finset.sum_div, div_self cpos.ne']
          _ ≤ _ := Finset.sum_le_sum fun i _ => le_max_left _ _)
    refine le_trans (le_of_eq ?_) hb
    refine Finset.sum_congr rfl fun i hi => ?_
    rw [hU, C116_memberships he hm.ne' hd hs hr (Finset.mem_range.1 hi) hj (hcl.ratios j hj)]
    simp only [hap]
  have hmain : ∑ i ∈ Finset.range c, ∑ j ∈ Finset.range data.length, U i j ^ m * G s i j ^ 2 ≤ r.jm := by
    calc _ ≤ ∑ i ∈ Finset.range c, ∑ j ∈ Finset.range data.length, U i j ^ m * G r i j ^ 2 :=
          Finset.sum_le_sum fun i hi => hcen i (Finset.mem_range.1 hi)
      _ ≤ ∑ i ∈ Finset.range c, ∑ j ∈ Finset.range data.length, U i j ^ m * max (G r i j) eps ^ 2 := by
          refine Finset.sum_le_sum fun i hi => Finset.sum_le_sum fun j hj => ?_
          refine mul_le_mul_of_nonneg_left ?_ (hwpos i (Finset.mem_range.1 hi) j (Finset.mem_range.1 hj)).le
          exact pow_le_pow_left₀ (hG0 r i j) (le_max_left _ _) 2
      _ = ∑ j ∈ Finset.range data.length, ∑ i ∈ Finset.range c, U i j ^ m * max (G r i j) eps ^ 2 := Finset.sum_comm
      _ ≤ ∑ j ∈ Finset.range data.length, ∑ i ∈ Finset.range c, weight eps m c (entry u) i j * max (G r i j) eps ^ 2 :=
          Finset.sum_le_sum fun j hj => hmem j (Finset.mem_range.1 hj)
      _ = r.jm := by
          rw [C116_objective hd hs hr, Finset.sum_comm]
          simp only [hap]
  refine ⟨?_, fun hfar => ?_⟩
  · have hsl : ∑ i ∈ Finset.range c, ∑ j ∈ Finset.range data.length, U i j ^ m * eps ^ 2 ≤ data.length * eps ^ 2 := by
      rw [Finset.sum_comm]
      calc _ ≤ ∑ j ∈ Finset.range data.length, eps ^ 2 := by
            refine Finset.sum_le_sum fun j hj => ?_
            have hj := Finset.mem_range.1 hj
            rw [← Finset.sum_mul]
            refine mul_le_of_le_one_left (sq_nonneg _) ?_
            rw [← usum j hj]
            refine Finset.sum_le_sum fun i hi => ?_
            have hi := Finset.mem_range.1 hi
            calc U i j ^ m ≤ U i j ^ (1 : ℝ) := Real.rpow_le_rpow_of_exponent_ge (upos i hi j hj) (ule i hi j hj) hm.le
              _ = U i j := Real.rpow_one _
        _ = _ := by simp
    refine le_trans ?_ (add_le_add hmain hsl)
    rw [hs2, ← Finset.sum_add_distrib]
    refine Finset.sum_le_sum fun i hi => ?_
    rw [← Finset.sum_add_distrib]
    refine Finset.sum_le_sum fun j hj => ?_
    rw [← mul_add]
    refine mul_le_mul_of_nonneg_left ?_ (hwpos i (Finset.mem_range.1 hi) j (Finset.mem_range.1 hj)).le
    rcases max_cases (G s i j) eps with ⟨e, -⟩ | ⟨e, -⟩ <;> rw [e]
    · nlinarith [sq_nonneg eps]
    · nlinarith [sq_nonneg (G s i j)]
  · refine le_trans (le_of_eq ?_) hmain
    rw [hs2]
    refine Finset.sum_congr rfl fun i hi => Finset.sum_congr rfl fun j hj => ?_
    rw [max_eq_left (by rw [hG]; exact hfar i (Finset.mem_range.1 hi) j (Finset.mem_range.1 hj))]

theorem ptRounds_chain {eps m : ℝ} {dim : Nat} {data : List (List ℝ)} {c : Nat} (he : 0 < eps) (hm : 1 < m) (hc : 0 < c)
    (hd : Rect dim data) : ∀ (rs : List (PtStep ℝ)) (u : List (List ℝ)), Shape u c data.length → Positive u →
      PtRounds eps m dim data u rs → (∀ r ∈ rs, PtClear eps dim data c r) →
      (rs.map (·.jm)).IsChain (fun a b => b ≤ a + data.length * eps ^ 2) ∧
      ((∀ r ∈ rs, ∀ i < c, ∀ j < data.length, eps ≤ gap dim (data.getD j []) (r.cntr.getD i [])) →
        (rs.map (·.jm)).IsChain (· ≥ ·))
  | [], _, _, _, _, _ => ⟨.nil, fun _ => .nil⟩
  | [r], _, _, _, _, _ => ⟨.singleton _, fun _ => .singleton _⟩
  | r :: s :: rs, u, hs, hp, ⟨h1, h2, h3⟩, hcl => by
    have hpart := step_partition he hm.ne' hc hs h1
    obtain ⟨a, b⟩ := ptRounds_chain he hm hc hd (s :: rs) r.u hpart.shape hpart.pos ⟨h2, h3⟩
      fun x hx => hcl x (List.mem_cons_of_mem _ hx)
    obtain ⟨a', b'⟩ := C116_round he hm hc hd hs hp h1 (hcl r (by simp)) h2
    exact ⟨.cons_cons a' a, fun hf => .cons_cons (b' (hf s (by simp))) (b fun x hx => hf x (List.mem_cons_of_mem _ hx))⟩

/-- The objective history of a run never increases as long as nothing is clamped; clamped distances let it grow by at
most `n * eps ^ 2` per round. -/
theorem C116_history {eps m : ℝ} {c dim : Nat} {data init : List (List ℝ)} (he : 0 < eps) (hm : 1 < m)
    (hc : 0 < c) (ht : Rect dim data) (hi : Start init c data.length) {rs : List (PtStep ℝ)}
    (hr : PtRounds eps m dim data ((init.take c).map fun r => (r.take data.length).map fun x => max x eps) rs)
    (hcl : ∀ r ∈ rs, PtClear eps dim data c r) :
    (rs.map (·.jm)).IsChain (fun a b => b ≤ a + data.length * eps ^ 2) ∧
      ((∀ r ∈ rs, ∀ i < c, ∀ j < data.length, eps ≤ gap dim (data.getD j []) (r.cntr.getD i [])) →
        (rs.map (·.jm)).Pairwise (· ≥ ·)) := by
  have hs : Shape ((init.take c).map fun r => (r.take data.length).map fun x => max x eps) c data.length := by
    have h0 := hi.1
    refine ⟨by simp; omega, fun r hr => ?_⟩
    obtain ⟨r', hr', rfl⟩ := List.mem_map.1 hr
    have := hi.2 r' hr'
    simp
    omega
  have hpos : Positive ((init.take c).map fun r => (r.take data.length).map fun x => max x eps) := by
    intro r hr x hx
    obtain ⟨q, hq, rfl⟩ := List.mem_map.1 hr
    obtain ⟨y, hy, rfl⟩ := List.mem_map.1 hx
    exact lt_of_lt_of_le he (le_max_right _ _)
  obtain ⟨a, b⟩ := ptRounds_chain he hm hc ht rs _ hs hpos hr hcl
  exact ⟨a, fun hf => List.isChain_iff_pairwise.1 (b hf)⟩

/-! ### Concrete case -/

/-- The samples (0, 0) and (3, 4), two clusters, exponent 2, `eps` 0.0001, memberships 3/4 and 1/4: the round gives the centres
(0.3, 0.4) and (2.7, 3.6) and the memberships 81/82 and 1/82, nothing is clamped, and the objective does not grow in the next
round. -/
example : ∃ r s, ptCmeans0 (1/10000) 2 2 [[0, 0], [3, 4]] [[3/4, 1/4], [1/4, 3/4]] = .ok r ∧
    ptCmeans0 (1/10000) 2 2 [[0, 0], [3, 4]] r.u = .ok s ∧
    entry r.cntr 0 0 = 3/10 ∧ entry r.cntr 0 1 = 2/5 ∧ entry r.u 0 0 = 81/82 ∧ PtClear (1/10000) 2 [[0, 0], [3, 4]] 2 r ∧
    s.jm ≤ r.jm + 2 * (1/10000) ^ 2 := by
  have ht : Rect 2 [[0, 0], [3, 4]] := by intro p hp; simp at hp; rcases hp with rfl | rfl <;> rfl
  have hs : Shape ([[3/4, 1/4], [1/4, 3/4]] : List (List ℝ)) 2 ([[0, 0], [3, 4]] : List (List ℝ)).length := ⟨rfl, by simp⟩
  have hp : Positive ([[3/4, 1/4], [1/4, 3/4]] : List (List ℝ)) := by
    intro r hr x hx
    simp only [List.mem_cons, List.not_mem_nil, or_false] at hr
    rcases hr with rfl | rfl <;> simp only [List.mem_cons, List.not_mem_nil, or_false] at hx <;> rcases hx with rfl | rfl <;> norm_num
  obtain ⟨r, hr, hq⟩ := C116_step (eps := 1/10000) (m := 2) (dim := 2) (data := [[0, 0], [3, 4]]) (u := [[3/4, 1/4], [1/4, 3/4]])
    (by norm_num) (by norm_num) (by simp)
  obtain ⟨s, hr2, -⟩ := C116_step (eps := 1/10000) (m := 2) (dim := 2) (data := [[0, 0], [3, 4]]) (u := r.u)
    (by norm_num) (by norm_num) (by intro e; have := hq.shape.1; rw [e] at this; simp at this)
  have w00 : weight (1/10000) 2 2 (entry [[3/4, 1/4], [1/4, 3/4]]) 0 0 = 9/16 := by
    simp [weight, entry, Finset.sum_range_succ]; norm_num
  have w01 : weight (1/10000) 2 2 (entry [[3/4, 1/4], [1/4, 3/4]]) 0 1 = 1/16 := by
    simp [weight, entry, Finset.sum_range_succ]; norm_num
  have w10 : weight (1/10000) 2 2 (entry [[3/4, 1/4], [1/4, 3/4]]) 1 0 = 1/16 := by
    simp [weight, entry, Finset.sum_range_succ]; norm_num
  have w11 : weight (1/10000) 2 2 (entry [[3/4, 1/4], [1/4, 3/4]]) 1 1 = 9/16 := by
    simp [weight, entry, Finset.sum_range_succ]; norm_num
  have d : ∀ j k, entry [[0, 0], [3, 4]] j k = (([[0, 0], [3, 4]] : List (List ℝ)).getD j []).getD k 0 := fun _ _ => rfl
  have c00 : entry r.cntr 0 0 = 3/10 := by
    rw [C116_centres hs hr (by norm_num) (by norm_num)]
    simp only [List.length_cons, List.length_nil, Finset.sum_range_succ, Finset.sum_range_zero, w00, w01, d]
    norm_num
  have c01 : entry r.cntr 0 1 = 2/5 := by
    rw [C116_centres hs hr (by norm_num) (by norm_num)]
    simp only [List.length_cons, List.length_nil, Finset.sum_range_succ, Finset.sum_range_zero, w00, w01, d]
    norm_num
  have c10 : entry r.cntr 1 0 = 27/10 := by
    rw [C116_centres hs hr (by norm_num) (by norm_num)]
    simp only [List.length_cons, List.length_nil, Finset.sum_range_succ, Finset.sum_range_zero, w10, w11, d]
    norm_num
  have c11 : entry r.cntr 1 1 = 18/5 := by
    rw [C116_centres hs hr (by norm_num) (by norm_num)]
    simp only [List.length_cons, List.length_nil, Finset.sum_range_succ, Finset.sum_range_zero, w10, w11, d]
    norm_num
  have ap : ∀ i j, ∀ g : ℝ, 1/10000 ≤ g → (entry [[0, 0], [3, 4]] j 0 - entry r.cntr i 0) ^ 2 +
      (entry [[0, 0], [3, 4]] j 1 - entry r.cntr i 1) ^ 2 = g ^ 2 → remote (1/10000) 2 [[0, 0], [3, 4]] r.cntr i j = g := by
    intro i j g hg h
    unfold remote gap
    rw [Finset.sum_range_succ, Finset.sum_range_succ, Finset.sum_range_zero, zero_add]
    rw [show (([[0, 0], [3, 4]] : List (List ℝ)).getD j []).getD 0 0 = entry [[0, 0], [3, 4]] j 0 from rfl,
      show (([[0, 0], [3, 4]] : List (List ℝ)).getD j []).getD 1 0 = entry [[0, 0], [3, 4]] j 1 from rfl,
      show (r.cntr.getD i []).getD 0 0 = entry r.cntr i 0 from rfl, show (r.cntr.getD i []).getD 1 0 = entry r.cntr i 1 from rfl, h,
      Real.sqrt_sq (by linarith), max_eq_left hg]
  have a00 := ap 0 0 (1/2) (by norm_num) (by rw [c00, c01, d, d]; norm_num)
  have a01 := ap 0 1 (9/2) (by norm_num) (by rw [c00, c01, d, d]; norm_num)
  have a10 := ap 1 0 (9/2) (by norm_num) (by rw [c10, c11, d, d]; norm_num)
  have a11 := ap 1 1 (1/2) (by norm_num) (by rw [c10, c11, d, d]; norm_num)
  have hrat : ∀ j < ([[0, 0], [3, 4]] : List (List ℝ)).length, ∀ i < 2, ∀ k < 2,
      (1/10000 : ℝ) * remote (1/10000) 2 [[0, 0], [3, 4]] r.cntr k j ≤ remote (1/10000) 2 [[0, 0], [3, 4]] r.cntr i j := by
    intro j hj i hi k hk
    have hj : j < 2 := hj
    interval_cases j <;> interval_cases i <;> interval_cases k <;> simp only [a00, a01, a10, a11] <;> norm_num
  have hmem : ∀ i < 2, ∀ j < 2, entry r.u i j = if i = j then 81/82 else 1/82 := by
    intro i hi j hj
    rw [C116_memberships (by norm_num) (by norm_num) ht hs hr hi hj (hrat j hj)]
    interval_cases i <;> interval_cases j <;>
      simp only [Finset.sum_range_succ, Finset.sum_range_zero, a00, a01, a10, a11] <;> norm_num
  have hcl : PtClear (1/10000) 2 [[0, 0], [3, 4]] 2 r := ⟨hrat, fun i hi j hj => by
    rw [hmem i hi j hj]; split <;> norm_num⟩
  refine ⟨r, s, hr, hr2, c00, c01, by rw [hmem 0 (by norm_num) 0 (by norm_num)]; norm_num, hcl, ?_⟩
  have := (C116_round (by norm_num) (by norm_num) (by norm_num) ht hs hp hr hcl hr2).1
  simpa using this

/-- A run the theorem covers: four points of the plane, two clusters. -/
example := C116_cmeans (eps := 1 / 1000) (m := 5 / 2) (error := 1 / 10000) (maxiter := 200) (c := 2) (dim := 2)
  (data := [[0, 1], [1, 0], [5, 5], [6, 4]]) (init := [[1, 1, 0, 0], [0, 0, 1, 1]]) (by norm_num) (by norm_num) (by norm_num)
  (by simp) (by intro p hp; simp at hp; rcases hp with rfl | rfl | rfl | rfl <;> rfl) ⟨by simp, by simp⟩ (by norm_num)

end PyFCM
