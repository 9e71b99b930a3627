import Verif.Lemmas.Matrix
import Verif.Lemmas.RealFn
/-
Fuzzy c-means (C46, C47, C62, C63), for one-dimensional data and exact real arithmetic.
-/
namespace PyFCM
open Arith

theorem cmWeights_shape {eps m : ℝ} {u : List (List ℝ)} {c n : Nat} (hs : Spec.Shape u c n) :
    Spec.Shape (cmWeights eps m u) c n := shape_mapEntries _ (shape_mapCols _ hs)

theorem cmWeights_positive {eps m : ℝ} (he : 0 < eps) (u : List (List ℝ)) : Spec.Positive (cmWeights eps m u) := by
  refine positive_mapEntries fun r _ x _ => ?_
  rw [fmax_real]
  exact Real.rpow_pos_of_pos (lt_of_lt_of_le he (le_max_right _ _)) _

theorem cmDist_shape {eps : ℝ} (data cntr : List ℝ) : Spec.Shape (cmDist eps data cntr) cntr.length data.length := by
  refine shape_mapEntries _ ⟨by simp [oneDimDist], fun r hr => ?_⟩
  obtain ⟨c, -, rfl⟩ := List.mem_map.1 hr
  simp

theorem cmDist_positive {eps : ℝ} (he : 0 < eps) (data cntr : List ℝ) : Spec.Positive (cmDist eps data cntr) := by
  refine positive_mapEntries fun r _ x _ => ?_
  rw [fmax_real]
  exact lt_of_lt_of_le he (le_max_right _ _)

theorem cmeans0_ok {eps m : ℝ} {data : List ℝ} {u : List (List ℝ)} (he : 0 < eps) (hm : m ≠ 1) (hu : u ≠ []) :
    ∃ r, cmeans0 eps m data u = .ok r ∧ r.cntr = cmCenters eps m data u ∧
      normalizePowerColumns eps (cmDist eps data r.cntr) (-2 / (m - 1)) = .ok r.u ∧
      Spec.Partition r.u u.length data.length := by
  have hl : (cmCenters eps m data u).length = u.length := by simp [cmCenters, cmWeights, mapEntries, normalizeColumns, mapCols]
  have hs := hl ▸ cmDist_shape (eps := eps) data (cmCenters eps m data u)
  obtain ⟨w, h1, h2⟩ := normalizePowerColumns_ok (e := -2 / (m - 1)) he (List.length_pos_iff.2 hu) hs
    (cmDist_positive he data (cmCenters eps m data u))
  refine ⟨⟨cmCenters eps m data u, w, cmObjective (cmWeights eps m u) (cmDist eps data (cmCenters eps m data u)),
    cmDist eps data (cmCenters eps m data u)⟩, ?_, rfl, h1, h2⟩
  unfold cmeans0
  have hd : pdiv (-(lit 2)) (m - lit 1) = Except.ok (-2 / (m - 1) : ℝ) := by
    have e : (lit 1 : ℝ) = 1 := by simp
    have e2 : (lit 2 : ℝ) = 2 := by simp
    rw [e, e2]
    exact pdiv_real (sub_ne_zero.2 hm)
  rw [hd]
  show (normalizePowerColumns eps (cmDist eps data (cmCenters eps m data u)) (-2 / (m - 1)) >>= _) = _
  rw [h1]
  rfl

/-- C46: every iteration, from whatever matrix, gives positive memberships that sum to 1 for every sample. -/
theorem C46_step {eps m : ℝ} {data : List ℝ} {u : List (List ℝ)} (he : 0 < eps) (hm : m ≠ 1) (hu : u ≠ []) :
    ∃ r, cmeans0 eps m data u = .ok r ∧ Spec.Partition r.u u.length data.length := by
  obtain ⟨r, h1, -, -, h2⟩ := cmeans0_ok (data := data) he hm hu
  exact ⟨r, h1, h2⟩

/-- With the exponent 1 the step divides by zero. -/
theorem C46_one (eps : ℝ) (data : List ℝ) (u : List (List ℝ)) : cmeans0 eps 1 data u = .error .zeroDivision := by
  unfold cmeans0
  have : pdiv (-(lit 2)) ((1 : ℝ) - lit 1) = .error .zeroDivision := by
    unfold pdiv
    rw [if_pos (by simp)]
  rw [this]
  rfl

/-! ### C47 -/

theorem weighted_ge {lo : ℝ} : ∀ (r data : List ℝ), r.length = data.length → (∀ x ∈ r, 0 < x) → (∀ x ∈ data, lo ≤ x) →
    lo * r.sum ≤ (List.zipWith (· * ·) r data).sum ∧
      ((∃ x ∈ data, lo < x) → lo * r.sum < (List.zipWith (· * ·) r data).sum)
  | [], [], _, _, _ => by simp
  | w :: r, x :: data, hl, hr, hd => by
    obtain ⟨h1, h2⟩ := weighted_ge r data (by simpa using hl) (fun y hy => hr y (by simp [hy])) fun y hy => hd y (by simp [hy])
    have hw := hr w (by simp)
    have hx := hd x (by simp)
    simp only [List.sum_cons, List.zipWith_cons_cons]
    refine ⟨by nlinarith, ?_⟩
    rintro ⟨y, hy, hlt⟩
    rcases List.mem_cons.1 hy with rfl | hy
    · nlinarith
    · have := h2 ⟨y, hy, hlt⟩
      nlinarith

theorem weighted_le {hi : ℝ} (r data : List ℝ) (hl : r.length = data.length) (hr : ∀ x ∈ r, 0 < x)
    (hd : ∀ x ∈ data, x ≤ hi) : (List.zipWith (· * ·) r data).sum ≤ hi * r.sum ∧
      ((∃ x ∈ data, x < hi) → (List.zipWith (· * ·) r data).sum < hi * r.sum) := by
  obtain ⟨h1, h2⟩ := weighted_ge (lo := -hi) r (data.map (- ·)) (by simpa using hl) hr (by
    intro x hx; obtain ⟨y, hy, rfl⟩ := List.mem_map.1 hx; linarith [hd y hy])
  have e : (List.zipWith (· * ·) r (data.map (- ·))).sum = -(List.zipWith (· * ·) r data).sum := by
    clear h1 h2 hr hd
    induction r generalizing data with
    | nil => simp
    | cons w r ih =>
      cases data with
      | nil => simp
      | cons x data =>
        simp only [List.map_cons, List.zipWith_cons_cons, List.sum_cons]
        rw [ih data (by simpa using hl)]
        ring
  rw [e] at h1 h2
  refine ⟨by linarith, ?_⟩
  rintro ⟨x, hx, hlt⟩
  have := h2 ⟨-x, List.mem_map_of_mem hx, by linarith⟩
  linarith

theorem center_between {r data : List ℝ} (hl : r.length = data.length) (hd : data ≠ []) (hr : ∀ x ∈ r, 0 < x)
    {lo hi : ℝ} (h : ∀ x ∈ data, lo ≤ x ∧ x ≤ hi) :
    let c := pysum (List.zipWith (· * ·) r data) / pysum r
    (lo ≤ c ∧ c ≤ hi) ∧ ((∃ x ∈ data, lo < x) → lo < c) ∧ ((∃ x ∈ data, x < hi) → c < hi) := by
  simp only [pysum_real]
  have hpos : 0 < r.sum := sum_pos_of hr (by
    intro e; rw [e] at hl; exact hd (List.length_eq_zero_iff.1 hl.symm))
  obtain ⟨h1, h2⟩ := weighted_ge r data hl hr fun x hx => (h x hx).1
  obtain ⟨h3, h4⟩ := weighted_le r data hl hr fun x hx => (h x hx).2
  exact ⟨⟨(le_div_iff₀ hpos).2 h1, (div_le_iff₀ hpos).2 h3⟩, fun hx => (lt_div_iff₀ hpos).2 (h2 hx),
    fun hx => (div_lt_iff₀ hpos).2 (h4 hx)⟩

/-- The centre lies between the smallest and the largest sample; strictly, unless all samples are equal. -/
def Spec.Inside (data : List ℝ) (c : ℝ) : Prop :=
  (∃ x ∈ data, x ≤ c) ∧ (∃ x ∈ data, c ≤ x) ∧
    ((∃ x ∈ data, ∃ y ∈ data, x ≠ y) → (∃ x ∈ data, x < c) ∧ ∃ x ∈ data, c < x)

theorem inside_of {r data : List ℝ} (hl : r.length = data.length) (hd : data ≠ []) (hr : ∀ x ∈ r, 0 < x) :
    Spec.Inside data (pysum (List.zipWith (· * ·) r data) / pysum r) := by
  obtain ⟨h1, h2⟩ := npMin_spec hd
  obtain ⟨h3, h4⟩ := npMax_spec hd
  obtain ⟨⟨k1, k2⟩, k3, k4⟩ := center_between hl hd hr fun x hx => ⟨h2 x hx, h4 x hx⟩
  refine ⟨⟨_, h1, k1⟩, ⟨_, h3, k2⟩, ?_⟩
  rintro ⟨x, hx, y, hy, hne⟩
  have a : ∃ x ∈ data, npMin data < x := by
    by_contra hc
    push Not at hc
    exact hne ((le_antisymm (hc x hx) (h2 x hx)).trans (le_antisymm (hc y hy) (h2 y hy)).symm)
  have b : ∃ x ∈ data, x < npMax data := by
    by_contra hc
    push Not at hc
    exact hne ((le_antisymm (h4 x hx) (hc x hx)).trans (le_antisymm (h4 y hy) (hc y hy)).symm)
  exact ⟨⟨_, h1, k3 a⟩, ⟨_, h3, k4 b⟩⟩

/-- C47: after every iteration all centres are inside the range of the data. -/
theorem C47_step {eps m : ℝ} {data : List ℝ} {u : List (List ℝ)} {r : CmStep ℝ} (he : 0 < eps)
    (hd : data ≠ []) (hu : ∀ w ∈ u, w.length = data.length) (h : cmeans0 eps m data u = .ok r) :
    ∀ c ∈ r.cntr, Spec.Inside data c := by
  have hr : r.cntr = cmCenters eps m data u := by
    unfold cmeans0 at h
    obtain ⟨e, -, h⟩ := except_bind_ok h
    obtain ⟨w, -, h⟩ := except_bind_ok h
    cases h
    rfl
  rw [hr]
  intro c hc
  obtain ⟨w, hw, rfl⟩ := List.mem_map.1 hc
  exact inside_of ((cmWeights_shape ⟨rfl, hu⟩).2 w hw) hd (cmWeights_positive he u w hw)

/-! ### C62: nearer centres get higher memberships -/

theorem getD_map_real (f : ℝ → ℝ) {r : List ℝ} {j : Nat} (hj : j < r.length) : (r.map f).getD j 0 = f (r.getD j 0) := by
  simp [List.getD_eq_getElem?_getD, List.getElem?_eq_getElem hj]

/-- Entry `(i, j)` of a matrix. -/
def entry (u : List (List ℝ)) (i j : Nat) : ℝ := (u.getD i []).getD j 0

theorem entry_mapCols (f : Nat → ℝ → ℝ) {u : List (List ℝ)} {c n i j : Nat} (hs : Spec.Shape u c n) (hi : i < c) (hj : j < n) :
    entry (mapCols f u) i j = f j (entry u i j) := by
  have hi' : i < u.length := hs.1 ▸ hi
  have hr := hs.2 u[i] (List.getElem_mem _)
  unfold entry mapCols
  simp only [List.getD_eq_getElem?_getD, List.getElem?_map, List.getElem?_eq_getElem hi', Option.map_some, Option.getD_some]
  exact getD_mapIdx f (hr ▸ hj)

theorem entry_mapEntries (f : ℝ → ℝ) {u : List (List ℝ)} {c n i j : Nat} (hs : Spec.Shape u c n) (hi : i < c) (hj : j < n) :
    entry (mapEntries f u) i j = f (entry u i j) := by
  have hi' : i < u.length := hs.1 ▸ hi
  have hr := hs.2 u[i] (List.getElem_mem _)
  unfold entry mapEntries
  simp only [List.getD_eq_getElem?_getD, List.getElem?_map, List.getElem?_eq_getElem hi', Option.map_some, Option.getD_some]
  have := getD_map_real f (hr ▸ hj : j < u[i].length)
  simp only [List.getD_eq_getElem?_getD, List.getElem?_map] at this
  exact this

theorem entry_pos {u : List (List ℝ)} {c n i j : Nat} (hs : Spec.Shape u c n) (hp : Spec.Positive u) (hi : i < c)
    (hj : j < n) : 0 < entry u i j := by
  have hi' : i < u.length := hs.1 ▸ hi
  have hr := hs.2 u[i] (List.getElem_mem _)
  unfold entry
  simp only [List.getD_eq_getElem?_getD, List.getElem?_eq_getElem hi', Option.getD_some,
    List.getElem?_eq_getElem (hr ▸ hj : j < u[i].length)]
  exact hp _ (List.getElem_mem _) _ (List.getElem_mem _)

theorem column_entry_pos {u : List (List ℝ)} {c n i j : Nat} (hs : Spec.Shape u c n) (hp : Spec.Positive u) (hi : i < c)
    (hj : j < n) : 0 < npMax (column u j) ∧ 0 < npMin (column u j) ∧ 0 < pysum (column u j) := by
  have hne : column u j ≠ [] := fun e => by
    have := congrArg List.length e
    simp [column, hs.1] at this
    omega
  refine ⟨column_pos hs hp hj _ (npMax_spec hne).1, column_pos hs hp hj _ (npMin_spec hne).1, ?_⟩
  rw [pysum_real]
  exact sum_pos_of (column_pos hs hp hj) hne

/-- Negative powers reverse the order of the entries of a column. -/
theorem normalizePowerColumns_anti {eps e : ℝ} {u w : List (List ℝ)} {c n i k j : Nat} (he : 0 < eps) (hneg : e < 0)
    (hs : Spec.Shape u c n) (hp : Spec.Positive u) (hi : i < c) (hk : k < c) (hj : j < n)
    (hle : entry u i j ≤ entry u k j) (h : normalizePowerColumns eps u e = .ok w) : entry w k j ≤ entry w i j := by
  unfold normalizePowerColumns at h
  split at h
  · have h := Except.ok.inj h
    rw [if_pos (by simpa using hneg)] at h
    have s1 := shape_mapCols (fun j x => x / npMax (column u j)) hs
    have s2 := shape_mapEntries (fun x => fmax x eps) s1
    have p2 : Spec.Positive (mapEntries (fun x => fmax x eps) (mapCols (fun j x => x / npMax (column u j)) u)) :=
      positive_mapEntries fun r hr x hx => by rw [fmax_real]; exact lt_of_lt_of_le he (le_max_right _ _)
    have l1 : entry (mapEntries (fun x => fmax x eps) (mapCols (fun j x => x / npMax (column u j)) u)) i j ≤
        entry (mapEntries (fun x => fmax x eps) (mapCols (fun j x => x / npMax (column u j)) u)) k j := by
      rw [entry_mapEntries _ s1 hi hj, entry_mapEntries _ s1 hk hj, entry_mapCols _ hs hi hj, entry_mapCols _ hs hk hj,
        fmax_real, fmax_real]
      exact max_le_max (div_le_div_of_nonneg_right hle (column_entry_pos hs hp hi hj).1.le) le_rfl
    generalize mapEntries (fun x => fmax x eps) (mapCols (fun j x => x / npMax (column u j)) u) = v at *
    have s3 := shape_mapCols (fun j x => x / npMin (column v j)) s2
    have hm := (column_entry_pos s2 p2 hi hj).2.1
    have p3 : Spec.Positive (mapCols (fun j x => x / npMin (column v j)) v) := by
      refine positive_mapCols fun r hr j hj => ?_
      exact div_pos (p2 r hr _ (List.getElem_mem _)) (column_entry_pos s2 p2 hi (s2.2 r hr ▸ hj)).2.1
    have l2 : entry (mapCols (fun j x => x / npMin (column v j)) v) i j ≤
        entry (mapCols (fun j x => x / npMin (column v j)) v) k j := by
      rw [entry_mapCols _ s2 hi hj, entry_mapCols _ s2 hk hj]
      exact div_le_div_of_nonneg_right l1 hm.le
    generalize mapCols (fun j x => x / npMin (column v j)) v = z at *
    have s4 := shape_mapEntries (fun x => pow x e) s3
    have p4 : Spec.Positive (mapEntries (fun x => pow x e) z) :=
      positive_mapEntries fun r hr x hx => Real.rpow_pos_of_pos (p3 r hr x hx) _
    have l3 : entry (mapEntries (fun x => pow x e) z) k j ≤ entry (mapEntries (fun x => pow x e) z) i j := by
      rw [entry_mapEntries _ s3 hi hj, entry_mapEntries _ s3 hk hj]
      exact Real.rpow_le_rpow_of_nonpos (entry_pos s3 p3 hi hj) l2 hneg.le
    rw [← h]
    unfold normalizeColumns
    rw [entry_mapCols _ s4 hi hj, entry_mapCols _ s4 hk hj]
    exact div_le_div_of_nonneg_right l3 (column_entry_pos s4 p4 hi hj).2.2.le
  · cases h

theorem entry_cmDist {eps : ℝ} (data cntr : List ℝ) {i j : Nat} (hi : i < cntr.length) (hj : j < data.length) :
    entry (cmDist eps data cntr) i j = max |data[j] - cntr[i]| eps := by
  have hs : Spec.Shape (oneDimDist data cntr) cntr.length data.length := ⟨by simp [oneDimDist], by
    intro r hr
    obtain ⟨c, -, rfl⟩ := List.mem_map.1 hr
    simp⟩
  unfold cmDist
  rw [entry_mapEntries _ hs hi hj, fmax_real]
  congr 1
  simp [entry, oneDimDist, List.getD_eq_getElem?_getD, List.getElem?_eq_getElem hi, List.getElem?_eq_getElem hj]

/-- C62: with an exponent above 1, after every iteration a sample belongs to a nearer centre at least as much as to
a farther one. -/
theorem C62_nearer {eps m : ℝ} {data : List ℝ} {u : List (List ℝ)} {r : CmStep ℝ} (he : 0 < eps) (hm : 1 < m)
    (h : cmeans0 eps m data u = .ok r) {i k j : Nat} (hi : i < r.cntr.length) (hk : k < r.cntr.length)
    (hj : j < data.length) (hle : |data[j] - r.cntr[i]| ≤ |data[j] - r.cntr[k]|) :
    (r.u.getD k []).getD j 0 ≤ (r.u.getD i []).getD j 0 := by
  have hu : u ≠ [] := by
    rintro rfl
    unfold cmeans0 at h
    obtain ⟨e, -, h⟩ := except_bind_ok h
    obtain ⟨w, -, h⟩ := except_bind_ok h
    cases h
    cases hi
  obtain ⟨r', h1, -, h2, -⟩ := cmeans0_ok (data := data) he hm.ne' hu
  rw [h] at h1
  cases h1
  refine normalizePowerColumns_anti he (div_neg_of_neg_of_pos (by norm_num) (by linarith)) (cmDist_shape data r.cntr)
    (cmDist_positive he data r.cntr) hi hk hj ?_ h2
  rw [entry_cmDist data r.cntr hi hj, entry_cmDist data r.cntr hk hj]
  exact max_le_max hle le_rfl

/-! ### the whole algorithm -/

/-- What holds of the state once a round has run. -/
structure CmGood (data : List ℝ) (c : Nat) (s : CmState ℝ) : Prop where
  part : Spec.Partition s.u c data.length
  last : ∃ r, s.last = some r ∧ r.u = s.u ∧ r.cntr.length = c ∧ ∀ x ∈ r.cntr, Spec.Inside data x
  hist : s.jm.length = s.p

theorem cmLoop_ok {eps m error : ℝ} {data : List ℝ} {c : Nat} (he : 0 < eps) (hm : m ≠ 1) (hc : 0 < c) (hd : data ≠ []) :
    ∀ (fuel : Nat) (s : CmState ℝ), Spec.Shape s.u c data.length → s.jm.length = s.p → (fuel = 0 → CmGood data c s) →
      ∃ s', cmLoop eps m error data fuel s = .ok s' ∧ CmGood data c s' ∧ s'.p ≤ s.p + fuel
  | 0, s, _, _, hg => ⟨s, rfl, hg rfl, by omega⟩
  | fuel + 1, s, hs, hj, _ => by
    have hu : s.u ≠ [] := by intro e; have := hs.1; rw [e] at this; simp at this; omega
    obtain ⟨r, h1, h2, -, h3⟩ := cmeans0_ok (data := data) he hm hu
    have hlen : r.cntr.length = c := by
      rw [h2, ← hs.1]
      simp [cmCenters, cmWeights, mapEntries, normalizeColumns, mapCols]
    rw [hs.1] at h3
    have hg : CmGood data c ⟨r.u, some r, s.jm ++ [r.jm], s.p + 1⟩ :=
      ⟨h3, ⟨r, rfl, rfl, hlen, C47_step he hd hs.2 h1⟩, by simp [hj]⟩
    unfold cmLoop
    rw [h1]
    show ∃ s', (if frob r.u s.u <? error then Except.ok (⟨r.u, some r, s.jm ++ [r.jm], s.p + 1⟩ : CmState ℝ)
      else cmLoop eps m error data fuel ⟨r.u, some r, s.jm ++ [r.jm], s.p + 1⟩) = .ok s' ∧ _
    split
    · exact ⟨_, rfl, hg, by simp⟩
    · obtain ⟨s', k1, k2, k3⟩ := cmLoop_ok he hm hc hd fuel _ h3.shape hg.hist fun _ => hg
      exact ⟨s', k1, k2, by simp at k3; omega⟩

/-- A start for `c` clusters: at least `c` rows with an entry for every sample. -/
def Spec.Start (init : List (List ℝ)) (c n : Nat) : Prop := c ≤ init.length ∧ ∀ r ∈ init.take c, n ≤ r.length

theorem sum_sq_bounds {u : List (List ℝ)} {c n : Nat} (hc : 0 < c) (h : Spec.Partition u c n) :
    (n : ℝ) / c ≤ (u.map fun r => (r.map fun x => x * x).sum).sum ∧
      (u.map fun r => (r.map fun x => x * x).sum).sum ≤ n := by
  have hc' : (0 : ℝ) < c := by exact_mod_cast hc
  have key : ∀ (f : ℝ → ℝ), (∀ r ∈ u, ∀ x ∈ r, f x ≤ x * x) →
      (u.map fun r => (r.map f).sum).sum ≤ (u.map fun r => (r.map fun x => x * x).sum).sum := by
    intro f hf
    refine List.sum_le_sum fun r hr => ?_
    exact List.sum_le_sum fun x hx => hf r hr x hx
  have tot := h.total
  constructor
  · refine le_trans (le_of_eq ?_) (key (fun x => x * (2 / c) + (-(1 / (c * c)) : ℝ)) ?_)
    · have e : (u.map fun r => (r.map fun x => x * (2 / c) + (-(1 / (c * c)) : ℝ)).sum) =
          u.map fun r => r.sum * (2 / c) + (-(n / (c * c)) : ℝ) := by
        refine List.map_congr_left fun r hr => ?_
        rw [List.sum_map_add, List.sum_map_mul_right, List.map_id', List.map_const', List.sum_replicate, h.shape.2 r hr]
        simp
        ring
      rw [e, List.sum_map_add, List.sum_map_mul_right, tot, List.map_const', List.sum_replicate, h.shape.1]
      simp
      field_simp
      ring
    · intro r hr x hx
      have : 0 ≤ (x - 1 / c) ^ 2 := sq_nonneg _
      have e : (x - 1 / c) ^ 2 = x * x - (x * (2 / c) + (-(1 / (c * c)) : ℝ)) := by
        field_simp
        ring
      linarith
  · rw [← tot]
    refine List.sum_le_sum fun r hr => ?_
    conv_rhs => rw [← List.map_id r]
    refine List.sum_le_sum fun x hx => ?_
    have h1 := h.pos r hr x hx
    have h2 := h.le_one r hr x hx
    simp only [id]
    nlinarith

/-- C46, C47, C63: from every start and with any number of iterations, the clustering returns positive memberships
that sum to 1 for every sample, centres inside the data, one objective value per iteration, and a partition
coefficient between `1 / c` and 1. -/
theorem C46_cmeans {eps m error : ℝ} {maxiter c : Nat} {data : List ℝ} {init : List (List ℝ)} (he : 0 < eps)
    (hm : m ≠ 1) (hc : 0 < c) (hd : data ≠ []) (hi : Spec.Start init c data.length) (hit : 2 ≤ maxiter) :
    ∃ r, cmeans eps m error maxiter data c init = .ok r ∧ Spec.Partition r.u c data.length ∧
      (r.cntr.length = c ∧ ∀ x ∈ r.cntr, Spec.Inside data x) ∧ (r.jm.length = r.p ∧ 1 ≤ r.p ∧ r.p < maxiter) ∧
      1 / c ≤ r.fpc ∧ r.fpc ≤ 1 := by
  unfold cmeans
  rw [if_neg (by
    rintro (h | h)
    · exact absurd h (not_lt.2 hi.1)
    · rw [List.any_eq_true] at h
      obtain ⟨r, hr, h⟩ := h
      have := hi.2 r hr
      simp at h
      omega)]
  have hs : Spec.Shape ((init.take c).map fun r => (r.take data.length).map fun x : ℝ => if x <? eps then eps else x) c
      data.length := by
    have h0 := hi.1
    refine ⟨by simp; omega, fun r hr => ?_⟩
    obtain ⟨r', hr', rfl⟩ := List.mem_map.1 hr
    have := hi.2 r' hr'
    simp
    omega
  obtain ⟨s, h1, h2, h3⟩ := cmLoop_ok (m := m) (error := error) he hm hc hd (maxiter - 1) { u := _ } hs rfl fun e => by omega
  obtain ⟨r, h4, h5, h6, h7⟩ := h2.last
  dsimp only
  rw [h1]
  show ∃ r, cmFinish data s = _ ∧ _
  have hn : (0 : ℝ) < data.length := by exact_mod_cast List.length_pos_iff.2 hd
  have hf : fpCoeff s.u data.length = .ok ((s.u.map fun r => (r.map fun x => x * x).sum).sum / data.length) := by
    unfold fpCoeff
    have e : (lit (data.length : Int) : ℝ) = data.length := by simp
    rw [e, pdiv_real hn.ne', pysum_real]
    congr 4
    funext r
    exact pysum_real _
  unfold cmFinish
  rw [h4]
  dsimp only
  rw [hf]
  obtain ⟨b1, b2⟩ := sum_sq_bounds hc h2.part
  refine ⟨_, rfl, h2.part, ⟨h6, h7⟩, ⟨h2.hist, ?_, by show s.p < maxiter; simp at h3; omega⟩, ?_, ?_⟩
  · have hp : s.p ≠ 0 := by
      intro e
      have hx := h1
      rw [show maxiter - 1 = (maxiter - 2) + 1 by omega] at hx
      unfold cmLoop at hx
      obtain ⟨r0, -, hx⟩ := except_bind_ok hx
      have mono : ∀ (f : Nat) (a b : CmState ℝ), cmLoop eps m error data f a = .ok b → a.p ≤ b.p := by
        intro f
        induction f with
        | zero => intro a b h; cases h; rfl
        | succ f ih =>
          intro a b h
          unfold cmLoop at h
          obtain ⟨r1, -, h⟩ := except_bind_ok h
          dsimp only at h
          split at h
          · cases h; simp
          · have := ih _ _ h; simp at this; omega
      dsimp only at hx
      split at hx
      · cases hx; cases e
      · have := mono _ _ _ hx; simp at this; omega
    show 1 ≤ s.p
    omega
  · show 1 / (c : ℝ) ≤ _ / (data.length : ℝ)
    rw [le_div_iff₀ hn]
    calc _ = (data.length : ℝ) / c := by ring
      _ ≤ _ := b1
  · show _ / (data.length : ℝ) ≤ 1
    rw [div_le_one hn]
    exact b2

/-- A start the theorem covers: two clusters, four samples. -/
example := C46_cmeans (eps := 1 / 1000) (m := 5 / 2) (error := 1 / 10000) (maxiter := 200) (c := 2) (data := [0, 1, 5, 6])
  (init := [[0, 1, 5, 6], [5, 4, 0, 1]]) (by norm_num) (by norm_num) (by norm_num) (by simp)
  ⟨by simp, by simp⟩ (by norm_num)

/-- One step on three samples: it returns, and C47 and C62 apply to what it returns. -/
example := C46_step (eps := 1 / 1000) (m := 2) (data := [0, 1, 5]) (u := [[1, 1, 0], [0, 0, 1]]) (by norm_num) (by norm_num)
  (by simp)
example {r : CmStep ℝ} (h : cmeans0 (1 / 1000) 2 [0, 1, 5] [[1, 1, 0], [0, 0, 1]] = .ok r) :=
  C47_step (by norm_num) (by simp) (by simp) h
example {r : CmStep ℝ} (h : cmeans0 (1 / 1000) 2 [0, 1, 5] [[1, 1, 0], [0, 0, 1]] = .ok r) (h2 : r.cntr.length = 2)
    (hle : |5 - r.cntr[1]| ≤ |5 - r.cntr[0]|) :=
  C62_nearer (i := 1) (k := 0) (j := 2) (by norm_num) (by norm_num) h (by omega) (by omega) (by simp) hle

end PyFCM
