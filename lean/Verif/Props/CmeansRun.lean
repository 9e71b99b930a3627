import Verif.Props.Objective
/-
What a run of fuzzy c-means returns and when it stops (C92).  Real arithmetic.
-/
namespace PyFCM
open Arith Spec

/-- How far the memberships moved: the Euclidean distance of the two matrices. -/
noncomputable def Spec.moved (c n : Nat) (U W : Nat → Nat → ℝ) : ℝ :=
  Real.sqrt (∑ i ∈ Finset.range c, ∑ j ∈ Finset.range n, (W i j - U i j) ^ 2)

/-- Every round moved the memberships by at least `error`. -/
def Spec.Unsettled (error : ℝ) (c n : Nat) : List (List ℝ) → List (CmStep ℝ) → Prop
  | _, [] => True
  | u, r :: rs => error ≤ moved c n (entry u) (entry r.u) ∧ Unsettled error c n r.u rs

/-- The memberships after the rounds `rs`. -/
def Spec.after : List (List ℝ) → List (CmStep ℝ) → List (List ℝ)
  | u, [] => u
  | _, r :: rs => after r.u rs

theorem map_sum_getD {β : Type} (f : β → ℝ) (d : β) (l : List β) {n : Nat} (h : l.length = n) :
    (l.map f).sum = ∑ i ∈ Finset.range n, f (l.getD i d) := by
  rw [row_sum (n := n) (by simp [h])]
  refine Finset.sum_congr rfl fun i hi => ?_
  have hi' : i < l.length := h ▸ Finset.mem_range.1 hi
  simp [List.getD_eq_getElem?_getD, hi']

theorem row_length {u : List (List ℝ)} {c n i : Nat} (hs : Shape u c n) (hi : i < c) : (u.getD i []).length = n := by
  have hi' : i < u.length := hs.1 ▸ hi
  rw [List.getD_eq_getElem?_getD, List.getElem?_eq_getElem hi']
  exact hs.2 _ (List.getElem_mem _)

theorem frob_real {u w : List (List ℝ)} {c n : Nat} (hu : Shape u c n) (hw : Shape w c n) :
    frob w u = moved c n (entry u) (entry w) := by
  unfold frob moved
  show Real.sqrt _ = Real.sqrt _
  congr 1
  rw [pysum_real, row_sum (n := c) (by simp [hu.1, hw.1])]
  refine Finset.sum_congr rfl fun i hi => ?_
  have h1 : i < u.length := hu.1 ▸ Finset.mem_range.1 hi
  have h2 : i < w.length := hw.1 ▸ Finset.mem_range.1 hi
  have e : (List.zipWith (fun a b => pysum (List.zipWith (fun x y : ℝ => (x - y) * (x - y)) a b)) w u).getD i 0 =
      pysum (List.zipWith (fun x y : ℝ => (x - y) * (x - y)) w[i] u[i]) := by
    simp [List.getD_eq_getElem?_getD, h1, h2]
  rw [e, pysum_real, zip_sum _ (hw.2 _ (List.getElem_mem h2)) (hu.2 _ (List.getElem_mem h1))]
  refine Finset.sum_congr rfl fun j _ => ?_
  simp only [entry, List.getD_eq_getElem?_getD, List.getElem?_eq_getElem h1, List.getElem?_eq_getElem h2, Option.getD_some]
  ring

theorem cmLoop_run {eps m error : ℝ} {data : List ℝ} {c : Nat} (he : 0 < eps) (hm : m ≠ 1) (hc : 0 < c) : ∀ (fuel : Nat) (s s' : CmState ℝ),
    Shape s.u c data.length → cmLoop eps m error data fuel s = .ok s' →
      (fuel = 0 ∧ s' = s) ∨ ∃ rs last, Rounds eps m data s.u (rs ++ [last]) ∧ Unsettled error c data.length s.u rs ∧
        (moved c data.length (entry (after s.u rs)) (entry last.u) < error ∨ rs.length + 1 = fuel) ∧ rs.length + 1 ≤ fuel ∧
        Shape last.u c data.length ∧
        s' = ⟨last.u, some last, s.jm ++ (rs ++ [last]).map (·.jm), s.p + (rs.length + 1)⟩
  | 0, s, s', _, h => by
    cases h
    exact .inl ⟨rfl, rfl⟩
  | fuel + 1, s, s', hs, h => by
    right
    unfold cmLoop at h
    obtain ⟨r, h1, h⟩ := except_bind_ok h
    have hne : s.u ≠ [] := by rintro e; have := hs.1; rw [e] at this; simp at this; omega
    have hr : Shape r.u c data.length := by
      obtain ⟨r', k1, k2⟩ := C46_step (data := data) he hm hne
      rw [h1] at k1
      cases k1
      rw [hs.1] at k2
      exact k2.shape
    rw [frob_real hs hr] at h
    by_cases hlt : moved c data.length (entry s.u) (entry r.u) < error
    · rw [if_pos (by simpa using hlt)] at h
      cases h
      exact ⟨[], r, ⟨h1, trivial⟩, trivial, .inl hlt, by simp, hr, by simp⟩
    · rw [if_neg (by simpa using hlt)] at h
      rcases cmLoop_run he hm hc fuel _ _ hr h with ⟨rfl, e⟩ | ⟨rs, last, g1, g2, g3, g4, g5, g6⟩
      · exact ⟨[], r, ⟨h1, trivial⟩, trivial, .inr rfl, by simp, hr, e⟩
      · refine ⟨r :: rs, last, ⟨h1, g1⟩, ⟨not_lt.1 hlt, g2⟩, ?_, by simpa using g4, g5, ?_⟩
        · rcases g3 with g3 | g3
          · exact .inl g3
          · right
            simpa using g3
        · rw [g6]
          simp
          omega

theorem rounds_last {eps m : ℝ} {data : List ℝ} {c : Nat} (he : 0 < eps) (hm : m ≠ 1) (hc : 0 < c) : ∀ (rs : List (CmStep ℝ)) (last : CmStep ℝ)
    (u : List (List ℝ)), Shape u c data.length → Rounds eps m data u (rs ++ [last]) →
    ∃ v, Shape v c data.length ∧ cmeans0 eps m data v = .ok last
  | [], last, u, hs, h => ⟨u, hs, h.1⟩
  | r :: rs, last, u, hs, h => by
    refine rounds_last he hm hc rs last r.u ?_ h.2
    have hne : u ≠ [] := by rintro rfl; have := hs.1; simp at this; omega
    obtain ⟨r', k1, k2⟩ := C46_step (data := data) he hm hne
    rw [h.1] at k1
    cases k1
    rw [hs.1] at k2
    exact k2.shape

/-- C92: a run returns the centres, memberships and distances of its last round, the objective of every round and their
number; it stops after the first round that moves the memberships by less than `error`, at the latest after
`maxiter - 1` rounds.  The partition coefficient is the mean sum of the squared memberships. -/
theorem C92_run {eps m error : ℝ} {maxiter c : Nat} {data : List ℝ} {init : List (List ℝ)} {res : CmResult ℝ} (he : 0 < eps)
    (hm : m ≠ 1) (hc : 0 < c) (h : cmeans eps m error maxiter data c init = .ok res) :
    let start := (init.take c).map fun r => (r.take data.length).map fun x => max x eps
    ∃ rs last, Rounds eps m data start (rs ++ [last]) ∧ Unsettled error c data.length start rs ∧
      (moved c data.length (entry (after start rs)) (entry last.u) < error ∨ rs.length + 1 = maxiter - 1) ∧
      rs.length + 1 ≤ maxiter - 1 ∧
      res.cntr = last.cntr ∧ res.u = last.u ∧ res.jm = (rs ++ [last]).map (·.jm) ∧ res.p = rs.length + 1 ∧
      (∀ i < c, ∀ j < data.length, entry res.d i j = max |data.getD j 0 - res.cntr.getD i 0| eps) ∧
      res.fpc = (∑ i ∈ Finset.range c, ∑ j ∈ Finset.range data.length, entry res.u i j ^ 2) / data.length := by
  intro start
  unfold cmeans at h
  split at h
  · cases h
  rename_i hno
  obtain ⟨s, h1, h2⟩ := except_bind_ok h
  have hst : (init.take c).map (fun r => (r.take data.length).map fun x => if x <? eps then eps else x) = start := by
    refine List.map_congr_left fun r _ => List.map_congr_left fun x _ => ?_
    by_cases hx : x < eps
    · rw [if_pos (by simpa using hx), max_eq_right hx.le]
    · rw [if_neg (by simpa using hx), max_eq_left (not_lt.1 hx)]
  rw [hst] at h1
  have hshape : Shape start c data.length := by
    rw [not_or] at hno
    refine ⟨by simp [start]; omega, fun r hr => ?_⟩
    obtain ⟨q, hq, rfl⟩ := List.mem_map.1 hr
    have := hno.2
    simp only [List.any_eq_true, decide_eq_true_eq, not_exists, not_and, not_lt] at this
    simp [this q hq]
  rcases cmLoop_run he hm hc _ _ _ hshape h1 with ⟨-, rfl⟩ | ⟨rs, last, g1, g2, g3, g4, g5, rfl⟩
  · cases h2
  · unfold cmFinish at h2
    obtain ⟨f, h3, h2⟩ := except_bind_ok h2
    cases h2
    obtain ⟨v, hv, hl⟩ := rounds_last he hm hc rs last start hshape g1
    refine ⟨rs, last, g1, g2, g3, g4, rfl, rfl, by simp, by simp, ?_, ?_⟩
    · intro i hi j hj
      have hcl : last.cntr.length = c := (cntr_length hl).trans hv.1
      show entry last.d i j = max |data.getD j 0 - last.cntr.getD i 0| eps
      rw [(cmeans0_parts hl).2.1]
      unfold cmDist
      have ho : Shape (oneDimDist data last.cntr) c data.length := by
        refine ⟨by simp [oneDimDist, hcl], fun r hr => ?_⟩
        obtain ⟨q, -, rfl⟩ := List.mem_map.1 hr
        simp
      rw [entry_mapEntries _ ho hi hj, fmax_real]
      congr 1
      have hi' : i < last.cntr.length := hcl ▸ hi
      simp [oneDimDist, entry, List.getD_eq_getElem?_getD, hi', hj]
    · unfold fpCoeff pdiv at h3
      split at h3
      · cases h3
      · injection h3 with h3
        dsimp only
        rw [← h3, pysum_real, map_sum_getD _ [] _ g5.1]
        congr 1
        · refine Finset.sum_congr rfl fun i hi => ?_
          rw [pysum_real, map_sum_getD _ 0 _ (row_length g5 (Finset.mem_range.1 hi))]
          exact Finset.sum_congr rfl fun j _ => (pow_two _).symm

/-- Three rounds are allowed and the first two moves are at least `error`: the run exists (C46). -/
example : ∃ res, cmeans (1/10000 : ℝ) 2 (1/1000) 4 [0, 1, 5] 2 [[1, 1/2, 1/4], [0, 1/2, 3/4]] = .ok res ∧ 1 ≤ res.p ∧ res.p ≤ 3 := by
  obtain ⟨res, h, -⟩ := C46_cmeans (eps := 1/10000) (m := 2) (error := 1/1000) (maxiter := 4) (c := 2) (data := [0, 1, 5])
    (init := [[1, 1/2, 1/4], [0, 1/2, 3/4]]) (by norm_num) (by norm_num) (by norm_num) (by simp) ⟨by simp, by simp⟩ (by norm_num)
  obtain ⟨rs, last, -, -, -, h1, -, -, -, h2, -⟩ := C92_run (by norm_num) (by norm_num) (by norm_num) h
  exact ⟨res, h, by omega, by omega⟩

end PyFCM
