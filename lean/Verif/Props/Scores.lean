import Verif.Props.CmeansRun
import Verif.Props.Discretize
import Verif.Lemmas.Prepared
import Mathlib.Analysis.SpecialFunctions.BinaryEntropy
/-
The cluster validity scores: the fuzzy silhouette (C89), the choice of the number of clusters (C90), the combined fuzzy
entropy (C91).
-/
namespace PyFCM
open Arith Spec

/-! ### C89: the fuzzy silhouette -/

/-- `a` is a cluster with the highest membership of sample `j`, `b` one with the highest among the others. -/
structure Spec.TopTwo (U : Nat → Nat → ℝ) (c j a b : Nat) : Prop where
  fst : a < c
  snd : b < c
  ne : a ≠ b
  best : ∀ i < c, U i j ≤ U a j
  next : ∀ i < c, i ≠ a → U i j ≤ U b j

/-- Distance of sample `j` to cluster `i`: the distances to the samples, weighted with their memberships. -/
noncomputable def Spec.apart (X : Nat → ℝ) (U : Nat → Nat → ℝ) (n j i : Nat) : ℝ :=
  (∑ l ∈ Finset.range n, |X j - X l| * U i l) / (n - 1)

/-- How much nearer sample `j` is to cluster `a` than to cluster `b`, relative to the greater distance. -/
noncomputable def Spec.silhouette (X : Nat → ℝ) (U : Nat → Nat → ℝ) (n j a b : Nat) : ℝ :=
  (apart X U n j b - apart X U n j a) / max (apart X U n j a) (apart X U n j b)

/-- The mean silhouette with the squared gaps of the memberships as weights. -/
noncomputable def Spec.fuzzySilhouette (X : Nat → ℝ) (U : Nat → Nat → ℝ) (n : Nat) (a b : Nat → Nat) : ℝ :=
  (∑ j ∈ Finset.range n, (U (a j) j - U (b j) j) ^ 2 * silhouette X U n j (a j) (b j)) /
    ∑ j ∈ Finset.range n, (U (a j) j - U (b j) j) ^ 2

/-- What the search for the two highest memberships keeps: `k` entries have been seen. -/
structure Top2Inv (col : List ℝ) (k : Nat) (t : Top2 ℝ) : Prop where
  pos : t.pos < k
  sec : t.secPos < k
  ne : t.pos ≠ t.secPos
  val : t.val = col.getD t.pos 0
  sval : t.sec = col.getD t.secPos 0
  best : ∀ i < k, col.getD i 0 ≤ t.val
  next : (∀ i < k, i ≠ t.pos → col.getD i 0 ≤ t.sec) ∨ ∃ i < k, i ≠ t.pos ∧ col.getD i 0 = t.val

theorem top2Loop_inv {col : List ℝ} : ∀ (rest : List ℝ) (k : Nat) (t : Top2 ℝ), col.drop k = rest → k ≤ col.length →
    Top2Inv col k t → Top2Inv col col.length (top2Loop rest k t)
  | [], k, t, hd, hk, h => by
    have : k = col.length := by
      have := congrArg List.length hd
      simp at this
      omega
    exact this ▸ h
  | x :: xs, k, t, hd, hk, h => by
    have hx : col.getD k 0 = x := by
      have := congrArg (fun l => l[0]?) hd
      simp only [List.getElem?_drop, List.getElem?_cons_zero, Nat.add_zero] at this
      rw [List.getD_eq_getElem?_getD, this]
      rfl
    have hd' : col.drop (k + 1) = xs := by
      have := congrArg List.tail hd
      simpa using this
    have hk' : k + 1 ≤ col.length := by
      have := congrArg List.length hd
      simp at this
      omega
    unfold top2Loop
    by_cases h1 : t.val < x
    · rw [if_pos (by simpa using h1)]
      refine top2Loop_inv xs (k + 1) _ hd' hk' ⟨Nat.lt_succ_self k, Nat.lt_succ_of_lt h.pos, ?_, hx.symm, h.val, ?_, .inl ?_⟩
      · exact (Nat.ne_of_lt h.pos).symm
      · intro i hi
        rcases Nat.lt_succ_iff_lt_or_eq.1 hi with hi | rfl
        · exact (h.best i hi).trans h1.le
        · exact hx.le
      · intro i hi hne
        rcases Nat.lt_succ_iff_lt_or_eq.1 hi with hi | rfl
        · exact h.best i hi
        · exact absurd rfl hne
    · rw [if_neg (by simpa using h1)]
      have h1 : x ≤ t.val := not_lt.1 h1
      have hb : ∀ i < k + 1, col.getD i 0 ≤ t.val := by
        intro i hi
        rcases Nat.lt_succ_iff_lt_or_eq.1 hi with hi | rfl
        · exact h.best i hi
        · exact hx ▸ h1
      by_cases h2 : t.sec < x ∧ x ≠ t.val
      · rw [if_pos (by simpa using h2)]
        refine top2Loop_inv xs (k + 1) _ hd' hk' ⟨Nat.lt_succ_of_lt h.pos, Nat.lt_succ_self k, Nat.ne_of_lt h.pos, h.val, hx.symm, hb, ?_⟩
        rcases h.next with hn | ⟨i, hi, hne, e⟩
        · left
          intro i hi hne
          rcases Nat.lt_succ_iff_lt_or_eq.1 hi with hi | rfl
          · exact (hn i hi hne).trans h2.1.le
          · exact hx.le
        · exact .inr ⟨i, Nat.lt_succ_of_lt hi, hne, e⟩
      · rw [if_neg (by simpa using h2)]
        refine top2Loop_inv xs (k + 1) _ hd' hk' ⟨Nat.lt_succ_of_lt h.pos, Nat.lt_succ_of_lt h.sec, h.ne, h.val, h.sval, hb, ?_⟩
        by_cases hxv : x = t.val
        · exact .inr ⟨k, Nat.lt_succ_self k, (Nat.ne_of_lt h.pos).symm, hx.trans hxv⟩
        · rcases h.next with hn | ⟨i, hi, hne, e⟩
          · left
            intro i hi hne
            rcases Nat.lt_succ_iff_lt_or_eq.1 hi with hi | rfl
            · exact hn i hi hne
            · rw [hx]
              by_contra hlt
              exact h2 ⟨not_le.1 hlt, hxv⟩
          · exact .inr ⟨i, Nat.lt_succ_of_lt hi, hne, e⟩

theorem top2_inv {col : List ℝ} (h : 2 ≤ col.length) : ∃ t, top2 col = .ok t ∧ Top2Inv col col.length t := by
  match col, h with
  | a :: b :: rest, h =>
    refine ⟨_, rfl, top2Loop_inv rest 2 _ rfl (by simp) ?_⟩
    by_cases hab : b < a
    · rw [if_pos (by simpa using hab)]
      refine ⟨by simp, by simp, by simp, by simp, by simp, ?_, .inl ?_⟩
      · intro i hi
        interval_cases i
        · simp
        · simpa using hab.le
      · intro i hi hne
        interval_cases i
        · exact absurd rfl hne
        · simp
    · rw [if_neg (by simpa using hab)]
      refine ⟨by simp, by simp, by simp, by simp, by simp, ?_, .inl ?_⟩
      · intro i hi
        interval_cases i
        · simpa using hab
        · simp
      · intro i hi hne
        interval_cases i
        · simp
        · exact absurd rfl hne

theorem getD_column {u : List (List ℝ)} {i j : Nat} (hi : i < u.length) : (column u j).getD i 0 = entry u i j := by
  simp [column_real, entry, List.getD_eq_getElem?_getD, List.getElem?_eq_getElem hi]

theorem meanDist_real {data : List ℝ} {u : List (List ℝ)} {c i j : Nat} (hs : Shape u c data.length) (hi : i < c) (hj : j < data.length) :
    meanDist data (u.getD i []) data[j] = apart (data.getD · 0) (entry u) data.length j i := by
  have hi' : i < u.length := hs.1 ▸ hi
  have hl : (u.getD i []).length = data.length := by
    rw [List.getD_eq_getElem?_getD, List.getElem?_eq_getElem hi']
    exact hs.2 _ (List.getElem_mem _)
  unfold meanDist apart
  rw [pysum_real, zip_sum _ (by simp) hl]
  congr 1
  · refine Finset.sum_congr rfl fun l hl' => ?_
    have hl' := Finset.mem_range.1 hl'
    simp only [List.getD_eq_getElem?_getD, List.getElem?_map, List.getElem?_eq_getElem hl', List.getElem?_eq_getElem hj, entry,
      Option.map_some, Option.getD_some, real_abs]
  · simp

/-- The weight and the silhouette of every sample. -/
theorem silhouettes_real {data : List ℝ} {u : List (List ℝ)} {c : Nat} (hc : 2 ≤ c) (hs : Shape u c data.length) :
    ∃ a b : Nat → Nat, (∀ j < data.length, a j < c ∧ b j < c ∧ a j ≠ b j ∧ (∀ i < c, entry u i j ≤ entry u (a j) j) ∧
        ((∀ i < c, i ≠ a j → entry u i j ≤ entry u (b j) j) ∨ ∃ i < c, i ≠ a j ∧ entry u i j = entry u (a j) j)) ∧
      silhouettes data u = .ok ((List.range data.length).map fun j =>
        ((entry u (a j) j - entry u (b j) j) ^ 2, silhouette (data.getD · 0) (entry u) data.length j (a j) (b j))) := by
  have hcol : ∀ j, (column u j).length = c := fun j => by simp [column, hs.1]
  have key : ∀ j, ∃ t, top2 (column u j) = .ok t ∧ Top2Inv (column u j) c t := fun j => by
    obtain ⟨t, h1, h2⟩ := top2_inv (col := column u j) (by rw [hcol]; exact hc)
    exact ⟨t, h1, hcol j ▸ h2⟩
  choose t ht1 ht2 using key
  have hg : ∀ {i}, i < c → ∀ j, (column u j).getD i 0 = entry u i j := fun hi j => getD_column (hs.1 ▸ hi)
  have hv : ∀ j, (t j).val = entry u (t j).pos j := fun j => (ht2 j).val.trans (hg (ht2 j).pos j)
  have hsv : ∀ j, (t j).sec = entry u (t j).secPos j := fun j => (ht2 j).sval.trans (hg (ht2 j).sec j)
  refine ⟨fun j => (t j).pos, fun j => (t j).secPos, fun j hj => ⟨(ht2 j).pos, (ht2 j).sec, (ht2 j).ne, ?_, ?_⟩, ?_⟩
  · intro i hi
    rw [← hv, ← hg hi]
    exact (ht2 j).best i hi
  · rcases (ht2 j).next with h | ⟨i, hi, hne, e⟩
    · left
      intro i hi hne
      rw [← hsv, ← hg hi]
      exact h i hi hne
    · right
      exact ⟨i, hi, hne, by rw [← hv, ← hg hi]; exact e⟩
  · unfold silhouettes
    have hz : data.zipIdx = (List.range data.length).map fun j => (data.getD j 0, j) := by
      apply List.ext_getElem
      · simp
      · intro j h1 h2
        have : j < data.length := by simpa using h1
        simp [this]
    rw [hz]
    rw [mapM_map]
    refine mapM_ok_of fun j hj => ?_
    have hj := List.mem_range.1 hj
    have e1 : data.getD j 0 = data[j] := by simp [List.getD_eq_getElem?_getD, hj]
    dsimp only
    rw [ht1 j]
    show Except.ok _ = Except.ok _
    rw [e1, meanDist_real hs (ht2 j).pos hj, meanDist_real hs (ht2 j).sec hj, hv, hsv]
    congr 2
    · show (_ - _ : ℝ) ^ ((2 : Int) : ℝ) = _
      norm_num
    · unfold silhouette
      congr 1
      by_cases h : apart (data.getD · 0) (entry u) data.length j (t j).secPos < apart (data.getD · 0) (entry u) data.length j (t j).pos
      · rw [if_pos (by simpa using h), max_eq_left h.le]
      · rw [if_neg (by simpa using h), max_eq_right (not_lt.1 h)]

theorem silScore_real {data : List ℝ} {r : CmResult ℝ} {c : Nat} (hc : 2 ≤ c) (hs : Shape r.u c data.length) :
    ∃ a b : Nat → Nat, (∀ j < data.length, a j < c ∧ b j < c ∧ a j ≠ b j ∧ (∀ i < c, entry r.u i j ≤ entry r.u (a j) j) ∧
        ((∀ i < c, i ≠ a j → entry r.u i j ≤ entry r.u (b j) j) ∨ ∃ i < c, i ≠ a j ∧ entry r.u i j = entry r.u (a j) j)) ∧
      silScore data r = .ok (fuzzySilhouette (data.getD · 0) (entry r.u) data.length a b) := by
  obtain ⟨a, b, h1, h2⟩ := silhouettes_real hc hs
  refine ⟨a, b, h1, ?_⟩
  unfold silScore
  rw [h2]
  show Except.ok _ = Except.ok _
  simp only [pysum_real, List.map_map, Function.comp_def, list_sum_range]
  rfl

theorem apart_pos {data : List ℝ} {u : List (List ℝ)} {c i j : Nat} (hp : Partition u c data.length)
    (hd : ∃ x ∈ data, ∃ y ∈ data, x ≠ y) (hi : i < c) : 0 < apart (data.getD · 0) (entry u) data.length j i := by
  obtain ⟨x, hx, y, hy, hxy⟩ := hd
  obtain ⟨p, hpl, rfl⟩ := List.mem_iff_getElem.1 hx
  obtain ⟨q, hql, rfl⟩ := List.mem_iff_getElem.1 hy
  have hn : 2 ≤ data.length := by
    by_contra hlt
    have : p = q := by omega
    subst this
    exact hxy rfl
  have hi' : i < u.length := hp.shape.1 ▸ hi
  have hpos : ∀ l < data.length, 0 < entry u i l := by
    intro l hl
    have hl' : l < u[i].length := by rw [hp.shape.2 _ (List.getElem_mem hi')]; exact hl
    have := hp.pos _ (List.getElem_mem hi') _ (List.getElem_mem hl')
    simpa [entry, List.getD_eq_getElem?_getD, List.getElem?_eq_getElem hi', List.getElem?_eq_getElem hl'] using this
  unfold apart
  have hn' : (2 : ℝ) ≤ data.length := by exact_mod_cast hn
  refine div_pos ?_ (by linarith)
  refine Finset.sum_pos' (fun l hl => mul_nonneg (abs_nonneg _) (hpos l (Finset.mem_range.1 hl)).le) ?_
  by_cases h : data.getD j 0 = data[p]
  · refine ⟨q, Finset.mem_range.2 hql, mul_pos (abs_pos.2 (sub_ne_zero.2 ?_)) (hpos q hql)⟩
    show data.getD j 0 ≠ data.getD q 0
    rw [h]
    simpa [List.getD_eq_getElem?_getD, hql] using hxy
  · refine ⟨p, Finset.mem_range.2 hpl, mul_pos (abs_pos.2 (sub_ne_zero.2 ?_)) (hpos p hpl)⟩
    simpa [List.getD_eq_getElem?_getD, hpl] using h

theorem silhouette_unit {X : Nat → ℝ} {U : Nat → Nat → ℝ} {n j a b : Nat} (ha : 0 < apart X U n j a) (hb : 0 < apart X U n j b) :
    |silhouette X U n j a b| ≤ 1 := by
  unfold silhouette
  have hm : 0 < max (apart X U n j a) (apart X U n j b) := lt_max_of_lt_left ha
  rw [abs_div, abs_of_pos hm, div_le_one hm, abs_le]
  constructor
  · have := le_max_left (apart X U n j a) (apart X U n j b)
    linarith
  · have := le_max_right (apart X U n j a) (apart X U n j b)
    linarith

theorem weighted_unit {n : Nat} {w s : Nat → ℝ} (hw : ∀ j < n, 0 ≤ w j) (hs : ∀ j < n, |s j| ≤ 1)
    (hp : 0 < ∑ j ∈ Finset.range n, w j) : |(∑ j ∈ Finset.range n, w j * s j) / ∑ j ∈ Finset.range n, w j| ≤ 1 := by
  rw [abs_div, abs_of_pos hp, div_le_one hp]
  refine (Finset.abs_sum_le_sum_abs _ _).trans (Finset.sum_le_sum fun j hj => ?_)
  have hj := Finset.mem_range.1 hj
  rw [abs_mul, abs_of_nonneg (hw j hj)]
  exact mul_le_of_le_one_right (hw j hj) (hs j hj)

/-- C89 in full: for every clustering of samples that are not all the same, the score is the fuzzy silhouette, built
from the two clusters with the highest memberships of every sample, and lies between -1 and 1. -/
def C89_full : Prop :=
  ∀ (data : List ℝ) (r : CmResult ℝ) (c : Nat), 2 ≤ c → Partition r.u c data.length → (∃ x ∈ data, ∃ y ∈ data, x ≠ y) →
    ∃ a b : Nat → Nat, (∀ j < data.length, TopTwo (entry r.u) c j (a j) (b j)) ∧
      silScore data r = .ok (fuzzySilhouette (data.getD · 0) (entry r.u) data.length a b) ∧
      |fuzzySilhouette (data.getD · 0) (entry r.u) data.length a b| ≤ 1

/-- C89, missing: samples whose highest membership is shared by two clusters (the code may then take a third cluster
for the second one, and with a tie for every sample all weights are 0).  No division is by zero. -/
theorem C89_silhouette_partial {data : List ℝ} {r : CmResult ℝ} {c : Nat} (hc : 2 ≤ c) (hp : Partition r.u c data.length)
    (hd : ∃ x ∈ data, ∃ y ∈ data, x ≠ y)
    (hm : ∀ j < data.length, ∃ a < c, ∀ i < c, i ≠ a → entry r.u i j < entry r.u a j) :
    ∃ a b : Nat → Nat, (∀ j < data.length, TopTwo (entry r.u) c j (a j) (b j)) ∧
      silScore data r = .ok (fuzzySilhouette (data.getD · 0) (entry r.u) data.length a b) ∧
      |fuzzySilhouette (data.getD · 0) (entry r.u) data.length a b| ≤ 1 ∧
      (∀ j < data.length, 0 < apart (data.getD · 0) (entry r.u) data.length j (a j)) ∧
      0 < ∑ j ∈ Finset.range data.length, (entry r.u (a j) j - entry r.u (b j) j) ^ 2 := by
  obtain ⟨a, b, h1, h2⟩ := silScore_real (r := r) hc hp.shape
  have hgap : ∀ j < data.length, ∀ i < c, i ≠ a j → entry r.u i j < entry r.u (a j) j := by
    intro j hj i hi hne
    obtain ⟨a', ha', hlt⟩ := hm j hj
    obtain ⟨q1, -, -, q2, -⟩ := h1 j hj
    have : a j = a' := by
      by_contra hn
      exact absurd (q2 a' ha') (not_le.2 (hlt _ q1 hn))
    exact this ▸ hlt i hi (this ▸ hne)
  have htop : ∀ j < data.length, TopTwo (entry r.u) c j (a j) (b j) := by
    intro j hj
    obtain ⟨q1, q2, q3, q4, q5⟩ := h1 j hj
    refine ⟨q1, q2, q3, q4, q5.resolve_right ?_⟩
    rintro ⟨i, hi, hne, e⟩
    exact absurd e (hgap j hj i hi hne).ne
  have hpos : ∀ j < data.length, 0 < (entry r.u (a j) j - entry r.u (b j) j) ^ 2 := by
    intro j hj
    have := hgap j hj (b j) (htop j hj).snd (htop j hj).ne.symm
    exact pow_pos (by linarith) 2
  have hsum : 0 < ∑ j ∈ Finset.range data.length, (entry r.u (a j) j - entry r.u (b j) j) ^ 2 := by
    refine Finset.sum_pos (fun j hj => hpos j (Finset.mem_range.1 hj)) ?_
    obtain ⟨x, hx, -⟩ := hd
    exact Finset.nonempty_range_iff.2 (by rw [Ne, List.length_eq_zero_iff]; rintro rfl; simp at hx)
  refine ⟨a, b, htop, h2, ?_, fun j hj => apart_pos hp hd (htop j hj).fst, hsum⟩
  exact weighted_unit (fun j hj => (hpos j hj).le)
    (fun j hj => silhouette_unit (apart_pos hp hd (htop j hj).fst) (apart_pos hp hd (htop j hj).snd)) hsum

/-- Three clusters of the samples 0 and 1; the first sample belongs equally to the first and the third cluster. -/
noncomputable def Ex.tied : CmResult ℝ := ⟨[], [[3/7, 1/2], [1/7, 1/3], [3/7, 1/6]], [], [], 0, 0⟩

theorem Ex.tied_partition : Partition Ex.tied.u 3 2 := by
  refine ⟨⟨rfl, ?_⟩, ?_, ?_⟩
  · simp [Ex.tied]
  · intro r hr x hx
    simp only [Ex.tied, List.mem_cons, List.not_mem_nil, or_false] at hr
    rcases hr with rfl | rfl | rfl <;> simp only [List.mem_cons, List.not_mem_nil, or_false] at hx <;>
      rcases hx with rfl | rfl <;> norm_num
  · intro j hj
    interval_cases j <;> norm_num [Ex.tied]

theorem Ex.tied_score : silScore [0, 1] Ex.tied = .ok (-(4 / 147 + 1 / 54) / (4 / 49 + 1 / 36)) := by
  have t0 : top2 (column Ex.tied.u 0) = .ok ⟨3/7, 0, 1/7, 1⟩ := by
    norm_num [Ex.tied, column, top2, top2Loop, Arith.lt, Arith.eq]
  have t1 : top2 (column Ex.tied.u 1) = .ok ⟨1/2, 0, 1/3, 1⟩ := by
    norm_num [Ex.tied, column, top2, top2Loop, Arith.lt, Arith.eq]
  have hs : silhouettes [0, 1] Ex.tied.u = .ok [(4/49, -1/3), (1/36, -2/3)] := by
    unfold silhouettes
    simp only [List.zipIdx_cons, List.zipIdx_nil, List.mapM_cons, List.mapM_nil, t0, t1, zero_add]
    dsimp only [bind, Except.bind, pure, Except.pure]
    norm_num [meanDist, Ex.tied, Arith.lt, pysum, Arith.abs, Arith.pow]
  unfold silScore
  rw [hs]
  show Except.ok _ = Except.ok _
  simp only [pysum_real]
  norm_num

/-- The second cluster of the first sample is not the one with the second highest membership. -/
theorem C89_counterexample : ¬ C89_full := by
  intro h
  obtain ⟨a, b, h1, h2, -⟩ := h [0, 1] Ex.tied 3 (by norm_num) Ex.tied_partition ⟨0, by simp, 1, by simp, by norm_num⟩
  rw [Ex.tied_score] at h2
  injection h2 with h2
  have e0 := h1 0 (by simp)
  have e1 := h1 1 (by simp)
  have g0 : entry Ex.tied.u (a 0) 0 - entry Ex.tied.u (b 0) 0 = 0 := by
    obtain ⟨q1, q2, q3, q4, q5⟩ := e0
    generalize a 0 = p at *
    generalize b 0 = q at *
    have k0 := q4 0 (by norm_num)
    have k5 := q5 0 (by norm_num)
    have k6 := q5 2 (by norm_num)
    interval_cases p <;> interval_cases q <;> norm_num [entry, Ex.tied] at *
  have a1 : a 1 = 0 := by
    have := e1.best 0 (by norm_num)
    have hlt := e1.fst
    generalize a 1 = p at *
    interval_cases p <;> norm_num [entry, Ex.tied] at *
  have b1 : b 1 = 1 := by
    have k := e1.next 1 (by norm_num) (by rw [a1]; norm_num)
    have hlt := e1.snd
    have hne := e1.ne
    rw [a1] at hne
    generalize b 1 = p at *
    interval_cases p <;> norm_num [entry, Ex.tied] at *
  revert h2
  unfold fuzzySilhouette
  simp only [List.length_cons, List.length_nil, zero_add, Nat.reduceAdd, Finset.sum_range_succ, Finset.range_zero, Finset.sum_empty, g0, a1, b1]
  norm_num [silhouette, apart, entry, Ex.tied, Finset.sum_range_succ]

/-- A clustering that meets the hypotheses of the partial theorem. -/
noncomputable def Ex.untied : CmResult ℝ := ⟨[], [[4/7, 1/2], [1/7, 1/3], [2/7, 1/6]], [], [], 0, 0⟩

theorem Ex.untied_partition : Partition Ex.untied.u 3 2 := by
  refine ⟨⟨rfl, ?_⟩, ?_, ?_⟩
  · simp [Ex.untied]
  · intro r hr x hx
    simp only [Ex.untied, List.mem_cons, List.not_mem_nil, or_false] at hr
    rcases hr with rfl | rfl | rfl <;> simp only [List.mem_cons, List.not_mem_nil, or_false] at hx <;>
      rcases hx with rfl | rfl <;> norm_num
  · intro j hj
    interval_cases j <;> norm_num [Ex.untied]

example := C89_silhouette_partial (data := [0, 1]) (r := Ex.untied) (by norm_num) Ex.untied_partition ⟨0, by simp, 1, by simp, by norm_num⟩
  (by
    intro j hj
    refine ⟨0, by norm_num, fun i hi hne => ?_⟩
    simp only [List.length_cons, List.length_nil, zero_add, Nat.reduceAdd] at hj
    interval_cases j <;> interval_cases i <;> norm_num [entry, Ex.untied] at *)

/-! ### C90: the number of clusters -/

section
variable {α : Type} [Arith α]

theorem selectLoop_spec [Ordered α] {cm : Nat → Except Err (CmResult α)} {score : Nat → CmResult α → Except Err α} :
    ∀ (ks : List Nat) (b : α) (best res : Clusters α), selectLoop cm score ks b best = .ok res →
      (∀ j ∈ ks, ∃ r s, cm j = .ok r ∧ score j r = .ok s) ∧
      ((res = best ∧ ∀ j ∈ ks, ∀ r s, cm j = .ok r → score j r = .ok s → (b <? s) = false) ∨
        ∃ pre k post r s, ks = pre ++ k :: post ∧ cm k = .ok r ∧ score k r = .ok s ∧ res = (k, some r.u) ∧ (b <? s) = true ∧
          (∀ j ∈ pre, ∀ r' s', cm j = .ok r' → score j r' = .ok s' → (s' <? s) = true) ∧
          ∀ j ∈ post, ∀ r' s', cm j = .ok r' → score j r' = .ok s' → (s <? s') = false)
  | [], b, best, res, h => by
    cases h
    exact ⟨by simp, .inl ⟨rfl, by simp⟩⟩
  | j :: ks, b, best, res, h => by
    have ho : StrictOrder (Arith.lt : α → α → Bool) := Ordered.lt
    unfold selectLoop at h
    obtain ⟨r, h1, h⟩ := except_bind_ok h
    obtain ⟨s, h2, h⟩ := except_bind_ok h
    have uniq : ∀ {r' s'}, cm j = .ok r' → score j r' = .ok s' → s' = s := by
      intro r' s' e1 e2
      rw [h1] at e1
      cases e1
      rw [h2] at e2
      cases e2
      rfl
    by_cases hb : (b <? s) = true
    · rw [if_pos hb] at h
      obtain ⟨i1, i2⟩ := selectLoop_spec ks s _ res h
      refine ⟨?_, .inr ?_⟩
      · intro i hi
        rcases List.mem_cons.1 hi with rfl | hi
        · exact ⟨r, s, h1, h2⟩
        · exact i1 i hi
      · rcases i2 with ⟨rfl, i2⟩ | ⟨pre, k, post, r', s', e, q1, q2, q3, q4, q5, q6⟩
        · exact ⟨[], j, ks, r, s, rfl, h1, h2, rfl, hb, by simp, i2⟩
        · refine ⟨j :: pre, k, post, r', s', by rw [e]; rfl, q1, q2, q3, ho.trans _ _ _ hb q4, ?_, q6⟩
          intro i hi r'' s'' e1 e2
          rcases List.mem_cons.1 hi with rfl | hi
          · rw [uniq e1 e2]
            exact q4
          · exact q5 i hi r'' s'' e1 e2
    · rw [if_neg hb] at h
      have hb : (b <? s) = false := by simpa using hb
      obtain ⟨i1, i2⟩ := selectLoop_spec ks b _ res h
      refine ⟨?_, ?_⟩
      · intro i hi
        rcases List.mem_cons.1 hi with rfl | hi
        · exact ⟨r, s, h1, h2⟩
        · exact i1 i hi
      · rcases i2 with ⟨rfl, i2⟩ | ⟨pre, k, post, r', s', e, q1, q2, q3, q4, q5, q6⟩
        · refine .inl ⟨rfl, fun i hi r'' s'' e1 e2 => ?_⟩
          rcases List.mem_cons.1 hi with rfl | hi
          · rw [uniq e1 e2]
            exact hb
          · exact i2 i hi r'' s'' e1 e2
        · refine .inr ⟨j :: pre, k, post, r', s', by rw [e]; rfl, q1, q2, q3, q4, ?_, q6⟩
          intro i hi r'' s'' e1 e2
          rcases List.mem_cons.1 hi with rfl | hi
          · rw [uniq e1 e2]
            by_cases hsb : (s <? b) = true
            · exact ho.trans _ _ _ hsb q4
            · have : b = s := ho.tri _ _ (by simpa using hb) (by simpa using hsb)
              exact this ▸ q4
          · exact q5 i hi r'' s'' e1 e2

/-- `k` is the least number of clusters from 2 to `maxc` with the highest score, and that score is positive; `u` are
the memberships found for it. -/
structure Spec.BestCount (cm : Nat → Except Err (CmResult α)) (score : Nat → CmResult α → Except Err α) (maxc k : Nat)
    (u : List (List α)) : Prop where
  low : 2 ≤ k
  high : k ≤ maxc
  wins : ∃ r s, cm k = .ok r ∧ score k r = .ok s ∧ r.u = u ∧ (lit 0 <? s) = true ∧
    ∀ j r' s', 2 ≤ j → j ≤ maxc → cm j = .ok r' → score j r' = .ok s' → (s <? s') = false ∧ (j < k → (s' <? s) = true)

/-- No number of clusters from 2 to `maxc` has a positive score. -/
def Spec.NoCount (cm : Nat → Except Err (CmResult α)) (score : Nat → CmResult α → Except Err α) (maxc : Nat) : Prop :=
  ∀ j r s, 2 ≤ j → j ≤ maxc → cm j = .ok r → score j r = .ok s → (lit 0 <? s) = false

/-- C90 for the search: every number of clusters is tried, and the first best one with a positive score is returned. -/
theorem C90_best [Ordered α] {cm : Nat → Except Err (CmResult α)} {score : Nat → CmResult α → Except Err α} {maxc k : Nat}
    {data : List α} {d : Option (List (List α))} (h : selectClusters cm score maxc data = .ok (k, d)) :
    (∀ j, 2 ≤ j → j ≤ maxc → ∃ r s, cm j = .ok r ∧ score j r = .ok s) ∧
    ((k = 0 ∧ d = some (data.map fun x => [x]) ∧ NoCount cm score maxc) ∨ ∃ u, d = some u ∧ BestCount cm score maxc k u) := by
  unfold selectClusters at h
  obtain ⟨h1, h2⟩ := selectLoop_spec _ _ _ _ h
  have hmem : ∀ j, 2 ≤ j → j ≤ maxc → j ∈ List.range' 2 (maxc - 1) := fun j a b => by
    rw [List.mem_range'_1]; omega
  refine ⟨fun j a b => h1 j (hmem j a b), ?_⟩
  rcases h2 with ⟨e, h2⟩ | ⟨pre, k', post, r, s, e, q1, q2, q3, q4, q5, q6⟩
  · cases e
    exact .inl ⟨rfl, rfl, fun j r s a b => h2 j (hmem j a b) r s⟩
  · cases q3
    have hk : k ∈ List.range' 2 (maxc - 1) := by rw [e]; simp
    rw [List.mem_range'_1] at hk
    have hpw := List.pairwise_lt_range' (s := 2) (n := maxc - 1)
    rw [e, List.pairwise_append] at hpw
    obtain ⟨-, p2, p3⟩ := hpw
    rw [List.pairwise_cons] at p2
    refine .inr ⟨r.u, rfl, hk.1, by omega, r, s, q1, q2, rfl, q4, ?_⟩
    intro j r' s' a b e1 e2
    have hj := hmem j a b
    rw [e, List.mem_append, List.mem_cons] at hj
    have ho : StrictOrder (Arith.lt : α → α → Bool) := Ordered.lt
    rcases hj with hj | rfl | hj
    · have := q5 j hj r' s' e1 e2
      refine ⟨?_, fun _ => this⟩
      by_contra hc
      have := ho.trans _ _ _ this (by simpa using hc)
      exact absurd this (by simp [ho.irrefl])
    · rw [q1] at e1
      cases e1
      rw [q2] at e2
      cases e2
      exact ⟨ho.irrefl _, fun h => absurd h (lt_irrefl _)⟩
    · exact ⟨q6 j hj r' s' e1 e2, fun h => absurd h (not_lt.2 (p2.1 j hj).le)⟩

/-- C90: the silhouette and the entropy strategy return the first best number of clusters with a positive score, with
the memberships fuzzy c-means found for it, or three forced clusters if no score is positive. -/
theorem C90_discretize [Ordered α] {env : ClusterEnv α} {maxc maxiter k : Nat} {strategy name : String} {vals v : List α}
    {u : Option (List (List α))} (hs : strategy = "cmeans-sil" ∨ strategy = "cmeans-cfe")
    (h : discretize env maxc maxiter strategy name vals = .ok (k, v, u)) :
    let w := uniq Arith.lt vals
    let cm := fun k => cmeans env.eps (dec 25 10) (dec 1 10000) maxiter w k (normalizeColumns (env.rand k w.length))
    let score := fun k r => if strategy = "cmeans-sil" then silScore w r else .ok (cfeScore w k r)
    maxc < w.length ∧ (∀ j, 2 ≤ j → j ≤ maxc → ∃ r s, cm j = .ok r ∧ score j r = .ok s) ∧
      ((k = 3 ∧ NoCount cm score maxc ∧ ∃ q, createThreeClusters w = .ok q ∧ v = q.1) ∨
        (v = w ∧ ∃ u', u = some u' ∧ BestCount cm score maxc k u')) := by
  intro w cm score
  unfold discretize at h
  dsimp only at h
  split at h
  · cases h
  · obtain ⟨r, h1, h⟩ := except_bind_ok h
    have key : maxc < w.length ∧ selectClusters cm score maxc w = .ok r := by
      unfold runStrategy estimateClusters at h1
      rcases hs with rfl | rfl
      · rw [if_neg (by decide), if_pos rfl] at h1
        dsimp only at h1
        rw [if_neg (by decide), if_pos rfl] at h1
        split at h1
        · cases h1
        · exact ⟨by show maxc < (uniq Arith.lt vals).length; omega, h1⟩
      · rw [if_neg (by decide), if_neg (by decide), if_pos rfl] at h1
        dsimp only at h1
        rw [if_neg (by decide), if_neg (by decide), if_pos rfl] at h1
        split at h1
        · cases h1
        · exact ⟨by show maxc < (uniq Arith.lt vals).length; omega, h1⟩
    obtain ⟨hm, hsel⟩ := key
    obtain ⟨a, b⟩ := C90_best (k := r.1) (d := r.2) hsel
    refine ⟨hm, a, ?_⟩
    split at h
    · rename_i hlt
      obtain ⟨q, hq, h⟩ := except_bind_ok h
      cases h
      rcases b with ⟨-, -, b⟩ | ⟨u', -, b⟩
      · exact .inl ⟨rfl, b, q, hq, rfl⟩
      · exact absurd b.low (not_le.2 hlt)
    · rename_i hge
      cases h
      rcases b with ⟨b, -⟩ | ⟨u', e, b⟩
      · omega
      · exact .inr ⟨rfl, u', e, b⟩

/-- The scores of 2, 3, 4 and 5 clusters are 1, 2, 2 and -1. -/
def Ex.scored : Except Err (Clusters ℚ) :=
  selectClusters (fun k => .ok ⟨[], List.replicate k [1], [], [], 0, 0⟩) (fun k _ => .ok ([0, 0, 1, 2, 2, -1].getD k 0)) 5 [7, 8]

theorem Ex.scored_eq : Ex.scored = .ok (3, some [[1], [1], [1]]) := by decide +kernel

example := C90_best (α := ℚ) Ex.scored_eq

example : ∃ k v u, discretize exEnv 7 200 "cmeans-cfe" "f" Ex.ten = .ok (k, v, u) ∧ 7 < (uniq Arith.lt Ex.ten).length := by
  obtain ⟨k, v, u, h, -⟩ := C51_returns exEnv_ok (maxc := 7) (maxiter := 200) (strategy := "cmeans-cfe") "f" Ex.ten_distinct (le_refl _)
    ⟨by decide, .inr (.inl ⟨.inr rfl, by decide⟩)⟩
  exact ⟨k, v, some u, h, (C90_discretize (.inr rfl) h).1⟩

end

/-! ### C91: the combined fuzzy entropy -/

/-- Relative entropy, in bits, of a membership `x` with respect to the mean of `x` and `y`. -/
noncomputable def Spec.divergence (x y : ℝ) : ℝ :=
  x * Real.logb 2 (x / ((x + y) / 2)) + (1 - x) * Real.logb 2 ((1 - x) / (1 - (x + y) / 2))

/-- The cross entropy of two clusters, in both directions. -/
noncomputable def Spec.crossed (U : Nat → Nat → ℝ) (n i k : Nat) : ℝ :=
  ∑ j ∈ Finset.range n, (divergence (U i j) (U k j) + divergence (U k j) (U i j))

/-- Separation: the mean cross entropy of two different clusters, in both orders. -/
noncomputable def Spec.separation (U : Nat → Nat → ℝ) (c n : Nat) : ℝ :=
  2 / (c * (c - 1)) * ∑ i ∈ Finset.range c, ∑ k ∈ Finset.range c, if i = k then 0 else crossed U n i k

/-- Fuzziness: the mean entropy of a membership, in bits. -/
noncomputable def Spec.fuzziness (U : Nat → Nat → ℝ) (c n : Nat) : ℝ :=
  (∑ i ∈ Finset.range c, (∑ j ∈ Finset.range n, Real.binEntropy (U i j)) / (n * Real.log 2)) / c

/-- Dispersion between the clusters. -/
noncomputable def Spec.between (X V : Nat → ℝ) (U : Nat → Nat → ℝ) (c n : Nat) : ℝ :=
  ∑ i ∈ Finset.range c, (∑ j ∈ Finset.range n, U i j) * (V i - (∑ j ∈ Finset.range n, X j) / n) ^ 2

/-- Dispersion within the clusters. -/
noncomputable def Spec.within (X V : Nat → ℝ) (U : Nat → Nat → ℝ) (c n : Nat) : ℝ :=
  ∑ i ∈ Finset.range c, ∑ j ∈ Finset.range n, U i j * (X j - V i) ^ 2

/-- What the code uses instead: every membership is multiplied with the squared distance of *all* samples. -/
noncomputable def Spec.spread (X V : Nat → ℝ) (U : Nat → Nat → ℝ) (c n : Nat) : ℝ :=
  ∑ i ∈ Finset.range c, (∑ j ∈ Finset.range n, U i j) * ∑ j ∈ Finset.range n, (X j - V i) ^ 2

/-- The combined fuzzy entropy with the dispersion `W` within the clusters: the mean of separation over fuzziness and
the Calinski–Harabasz index. -/
noncomputable def Spec.combined (X V : Nat → ℝ) (U : Nat → Nat → ℝ) (c n : Nat) (W : ℝ) : ℝ :=
  (separation U c n / fuzziness U c n + between X V U c n / (c - 1) * ((n - c) / W)) / 2

theorem binEntropy_logb (x : ℝ) :
    x * Real.logb 2 x + (1 - x) * Real.logb 2 (1 - x) = -(Real.binEntropy x / Real.log 2) := by
  unfold Real.binEntropy Real.logb
  rw [Real.log_inv, Real.log_inv]
  ring

theorem rowEntropy_real {r : List ℝ} {n : Nat} (h : r.length = n) :
    rowEntropy n r = (∑ j ∈ Finset.range n, Real.binEntropy (r.getD j 0)) / (n * Real.log 2) := by
  unfold rowEntropy
  rw [pysum_real, map_sum_getD _ 0 r h]
  show -(∑ j ∈ Finset.range n, ((r.getD j 0) * Real.logb 2 (r.getD j 0) + (((1 : Int) : ℝ) - r.getD j 0) * Real.logb 2 (((1 : Int) : ℝ) - r.getD j 0))) /
    (((n : Int) : ℝ) * Real.logb 2 ((2 : Int) : ℝ)) = _
  push_cast
  simp only [binEntropy_logb, Finset.sum_neg_distrib, neg_neg]
  have h2 : Real.logb 2 2 = 1 := Real.logb_self_eq_one (by norm_num)
  rw [h2, mul_one, ← Finset.sum_div, div_div, mul_comm (Real.log 2)]

theorem crossEntropy_real {a b : List ℝ} {n : Nat} (ha : a.length = n) (hb : b.length = n) :
    crossEntropy a b = ∑ j ∈ Finset.range n, divergence (a.getD j 0) (b.getD j 0) := by
  unfold crossEntropy
  rw [pysum_real, zip_sum _ ha hb]
  refine Finset.sum_congr rfl fun j _ => ?_
  unfold divergence
  generalize a.getD j 0 = x
  generalize b.getD j 0 = y
  show x * Real.logb 2 (x / (x / ((2 : Int) : ℝ) + y / ((2 : Int) : ℝ))) +
    (((1 : Int) : ℝ) - x) * Real.logb 2 ((((1 : Int) : ℝ) - x) / (((1 : Int) : ℝ) - (x + y) / ((2 : Int) : ℝ))) = _
  push_cast
  rw [← add_div]

theorem norm2_sq (r : List ℝ) : (norm2 r) ^ (2 : ℕ) = (r.map fun x => x * x).sum := by
  unfold norm2
  rw [pysum_real]
  show Real.sqrt _ ^ 2 = _
  exact Real.sq_sqrt (List.sum_nonneg fun x hx => by
    obtain ⟨y, -, rfl⟩ := List.mem_map.1 hx
    exact mul_self_nonneg y)

/-- C91 in full: the score is the combined fuzzy entropy with the dispersion within the clusters. -/
def C91_full : Prop :=
  ∀ (data : List ℝ) (r : CmResult ℝ) (c : Nat), 2 ≤ c → c < data.length → Partition r.u c data.length → r.cntr.length = c →
    cfeScore data c r = combined (data.getD · 0) (r.cntr.getD · 0) (entry r.u) c data.length
      (within (data.getD · 0) (r.cntr.getD · 0) (entry r.u) c data.length)

/-- C91, missing: the dispersion within the clusters; the code uses the spread of all samples instead. -/
theorem C91_entropy_partial {data : List ℝ} {r : CmResult ℝ} {c : Nat} (hs : Shape r.u c data.length) (hv : r.cntr.length = c) :
    cfeScore data c r = combined (data.getD · 0) (r.cntr.getD · 0) (entry r.u) c data.length
      (spread (data.getD · 0) (r.cntr.getD · 0) (entry r.u) c data.length) := by
  have hz : (r.u.zip r.cntr).length = c := by simp [hs.1, hv]
  have hzg : ∀ i < c, (r.u.zip r.cntr).getD i ([], 0) = (r.u.getD i [], r.cntr.getD i 0) := by
    intro i hi
    have h1 : i < r.u.length := hs.1 ▸ hi
    have h2 : i < r.cntr.length := hv ▸ hi
    have h3 : i < (r.u.zip r.cntr).length := hz ▸ hi
    simp only [List.getD_eq_getElem?_getD, List.getElem?_eq_getElem h1, List.getElem?_eq_getElem h2, List.getElem?_eq_getElem h3,
      List.getElem_zip, Option.getD_some]
  have hig : ∀ i < c, r.u.zipIdx.getD i ([], 0) = (r.u.getD i [], i) := by
    intro i hi
    have h1 : i < r.u.length := hs.1 ▸ hi
    simp [List.getD_eq_getElem?_getD, h1]
  have hi : r.u.zipIdx.length = c := by simp [hs.1]
  have e1 : (r.u.zipIdx.map fun p => (r.u.zipIdx.map fun q =>
      if p.2 = q.2 then lit 0 else crossEntropy p.1 q.1 + crossEntropy q.1 p.1).sum).sum =
      ∑ i ∈ Finset.range c, ∑ k ∈ Finset.range c, if i = k then 0 else crossed (entry r.u) data.length i k := by
    rw [map_sum_getD _ ([], 0) _ hi]
    refine Finset.sum_congr rfl fun i hi' => ?_
    have hi' := Finset.mem_range.1 hi'
    rw [map_sum_getD _ ([], 0) _ hi, hig i hi']
    refine Finset.sum_congr rfl fun k hk => ?_
    have hk := Finset.mem_range.1 hk
    rw [hig k hk]
    dsimp only
    split
    · simp
    · rw [crossEntropy_real (row_length hs hi') (row_length hs hk), crossEntropy_real (row_length hs hk) (row_length hs hi'),
        ← Finset.sum_add_distrib]
      rfl
  have e2 : ((r.u.zip r.cntr).map fun p => rowEntropy data.length p.1).sum =
      ∑ i ∈ Finset.range c, (∑ j ∈ Finset.range data.length, Real.binEntropy (entry r.u i j)) / (data.length * Real.log 2) := by
    rw [map_sum_getD _ ([], 0) _ hz]
    refine Finset.sum_congr rfl fun i hi' => ?_
    have hi' := Finset.mem_range.1 hi'
    rw [hzg i hi']
    exact rowEntropy_real (row_length hs hi')
  have e3 : ((r.u.zip r.cntr).map fun p => p.1.sum * pow (Arith.abs (p.2 - data.sum / lit (data.length : Int))) (lit 2)).sum =
      between (data.getD · 0) (r.cntr.getD · 0) (entry r.u) c data.length := by
    rw [map_sum_getD _ ([], 0) _ hz]
    unfold between
    refine Finset.sum_congr rfl fun i hi' => ?_
    have hi' := Finset.mem_range.1 hi'
    rw [hzg i hi']
    dsimp only
    rw [row_sum (row_length hs hi'), row_sum (r := data) rfl]
    congr 1
    show |_ - _| ^ ((2 : Int) : ℝ) = _
    push_cast
    rw [Real.rpow_two, sq_abs]
    rfl
  have e4 : ((r.u.zip r.cntr).map fun p => (p.1.map fun x => x * pow (norm2 (data.map fun y => y - p.2)) (lit 2)).sum).sum =
      spread (data.getD · 0) (r.cntr.getD · 0) (entry r.u) c data.length := by
    rw [map_sum_getD _ ([], 0) _ hz]
    unfold spread
    refine Finset.sum_congr rfl fun i hi' => ?_
    have hi' := Finset.mem_range.1 hi'
    rw [hzg i hi']
    dsimp only
    rw [map_sum_getD _ 0 _ (row_length hs hi'), ← Finset.sum_mul]
    congr 1
    show (norm2 _) ^ ((2 : Int) : ℝ) = _
    push_cast
    rw [Real.rpow_two, norm2_sq, List.map_map, map_sum_getD _ 0 data rfl]
    refine Finset.sum_congr rfl fun j _ => ?_
    dsimp only [Function.comp]
    ring
  unfold cfeScore
  dsimp only
  simp only [pysum_real]
  rw [e1, e2, e3, e4]
  unfold combined separation fuzziness
  show (((2 : Int) : ℝ) / (((c : Int) * (c - 1) : Int) : ℝ) * _ / (_ / ((c : Int) : ℝ)) + _ / (((c : Int) - 1 : Int) : ℝ) * ((((data.length : Int) - c : Int) : ℝ) / _)) / ((2 : Int) : ℝ) = _
  push_cast
  rfl

theorem kl_aux {p q : ℝ} (hp : 0 < p) (hq : 0 < q) : p - q ≤ p * Real.log (p / q) ∧ (p ≠ q → p - q < p * Real.log (p / q)) := by
  have e : Real.log (p / q) = -Real.log (q / p) := by rw [← Real.log_inv, inv_div]
  have hqp : 0 < q / p := div_pos hq hp
  have m : p * (q / p - 1) = q - p := by field_simp
  rw [e]
  constructor
  · have := mul_le_mul_of_nonneg_left (Real.log_le_sub_one_of_pos hqp) hp.le
    rw [m] at this
    linarith
  · intro hne
    have h1 : q / p ≠ 1 := fun h => hne ((div_eq_one_iff_eq hp.ne').1 h).symm
    have := mul_lt_mul_of_pos_left (Real.log_lt_sub_one_of_pos hqp h1) hp
    rw [m] at this
    linarith

theorem divergence_nonneg {x y : ℝ} (hx : 0 < x ∧ x < 1) (hy : 0 < y ∧ y < 1) :
    0 ≤ divergence x y ∧ (x ≠ y → 0 < divergence x y) := by
  have hl : 0 < Real.log 2 := Real.log_pos (by norm_num)
  have hm : 0 < (x + y) / 2 := by linarith [hx.1, hy.1]
  have hm1 : 0 < 1 - (x + y) / 2 := by linarith [hx.2, hy.2]
  have hx1 : 0 < 1 - x := by linarith [hx.2]
  obtain ⟨a1, a2⟩ := kl_aux hx.1 hm
  obtain ⟨b1, -⟩ := kl_aux hx1 hm1
  have e : divergence x y = (x * Real.log (x / ((x + y) / 2)) + (1 - x) * Real.log ((1 - x) / (1 - (x + y) / 2))) / Real.log 2 := by
    unfold divergence Real.logb
    ring
  rw [e]
  constructor
  · refine div_nonneg ?_ hl.le
    linarith
  · intro hne
    refine div_pos ?_ hl
    have := a2 (fun h => hne (by linarith))
    linarith

theorem divergence_self (x : ℝ) : divergence x x = 0 := by
  unfold divergence
  have h : (x + x) / 2 = x := by ring
  rw [h]
  have k : ∀ y : ℝ, y * Real.logb 2 (y / y) = 0 := by
    intro y
    by_cases hy : y = 0
    · simp [hy]
    · rw [div_self hy]
      simp
  rw [k, k, add_zero]

theorem crossed_nonneg {U : Nat → Nat → ℝ} {n i k : Nat} (hi : ∀ j < n, 0 < U i j ∧ U i j < 1) (hk : ∀ j < n, 0 < U k j ∧ U k j < 1) :
    0 ≤ crossed U n i k ∧ (crossed U n i k = 0 ↔ ∀ j < n, U i j = U k j) := by
  have h0 : ∀ j ∈ Finset.range n, 0 ≤ divergence (U i j) (U k j) + divergence (U k j) (U i j) := fun j hj => by
    have hj := Finset.mem_range.1 hj
    exact add_nonneg (divergence_nonneg (hi j hj) (hk j hj)).1 (divergence_nonneg (hk j hj) (hi j hj)).1
  refine ⟨Finset.sum_nonneg h0, ?_⟩
  unfold crossed
  rw [Finset.sum_eq_zero_iff_of_nonneg h0]
  constructor
  · intro h j hj
    by_contra hne
    have h1 := h j (Finset.mem_range.2 hj)
    have h2 := (divergence_nonneg (hi j hj) (hk j hj)).2 hne
    have h3 := (divergence_nonneg (hk j hj) (hi j hj)).1
    linarith
  · intro h j hj
    rw [h j (Finset.mem_range.1 hj), divergence_self, add_zero]

theorem Spec.Partition.inside {u : List (List ℝ)} {c n : Nat} (h : Partition u c n) (hc : 2 ≤ c) {i j : Nat} (hi : i < c) (hj : j < n) :
    0 < entry u i j ∧ entry u i j < 1 := by
  have hpos : ∀ i < c, 0 < entry u i j := by
    intro i hi
    have hi' : i < u.length := h.shape.1 ▸ hi
    have hl' : j < u[i].length := by rw [h.shape.2 _ (List.getElem_mem hi')]; exact hj
    have := h.pos _ (List.getElem_mem hi') _ (List.getElem_mem hl')
    simpa [entry, List.getD_eq_getElem?_getD, List.getElem?_eq_getElem hi', List.getElem?_eq_getElem hl'] using this
  refine ⟨hpos i hi, ?_⟩
  have hs : ∑ k ∈ Finset.range c, entry u k j = 1 := by
    rw [← column_sum h.shape, column_real]
    exact h.sum j hj
  obtain ⟨k, hk, hne⟩ : ∃ k < c, k ≠ i := by
    by_cases h0 : i = 0
    · exact ⟨1, by omega, by omega⟩
    · exact ⟨0, by omega, fun e => h0 e.symm⟩
  have := Finset.add_le_sum (f := fun k => entry u k j) (s := Finset.range c) (fun k hk => (hpos k (Finset.mem_range.1 hk)).le)
    (Finset.mem_range.2 hi) (Finset.mem_range.2 hk) hne.symm
  rw [hs] at this
  linarith [hpos k hk]

/-- Two clusters with the same memberships. -/
def Spec.AllAlike (U : Nat → Nat → ℝ) (c n : Nat) : Prop := ∀ i < c, ∀ k < c, ∀ j < n, U i j = U k j

theorem separation_nonneg {U : Nat → Nat → ℝ} {c n : Nat} (hc : 2 ≤ c) (h : ∀ i < c, ∀ j < n, 0 < U i j ∧ U i j < 1) :
    0 ≤ separation U c n ∧ (separation U c n = 0 ↔ AllAlike U c n) := by
  have hc' : (2 : ℝ) ≤ c := by exact_mod_cast hc
  have hq : (0 : ℝ) < 2 / (c * (c - 1)) := div_pos (by norm_num) (mul_pos (by linarith) (by linarith))
  have h0 : ∀ i ∈ Finset.range c, ∀ k ∈ Finset.range c, 0 ≤ if i = k then 0 else crossed U n i k := by
    intro i hi k hk
    split
    · exact le_refl _
    · exact (crossed_nonneg (h i (Finset.mem_range.1 hi)) (h k (Finset.mem_range.1 hk))).1
  have h1 : ∀ i ∈ Finset.range c, 0 ≤ ∑ k ∈ Finset.range c, if i = k then 0 else crossed U n i k :=
    fun i hi => Finset.sum_nonneg (h0 i hi)
  refine ⟨mul_nonneg hq.le (Finset.sum_nonneg h1), ?_⟩
  unfold separation
  rw [mul_eq_zero, or_iff_right hq.ne', Finset.sum_eq_zero_iff_of_nonneg h1]
  constructor
  · intro hz i hi k hk
    have := (Finset.sum_eq_zero_iff_of_nonneg (h0 i (Finset.mem_range.2 hi))).1 (hz i (Finset.mem_range.2 hi)) k (Finset.mem_range.2 hk)
    split at this
    · rename_i e
      subst e
      exact fun j _ => rfl
    · exact (crossed_nonneg (h i hi) (h k hk)).2.1 this
  · intro ha i hi
    refine Finset.sum_eq_zero fun k hk => ?_
    split
    · rfl
    · exact (crossed_nonneg (h i (Finset.mem_range.1 hi)) (h k (Finset.mem_range.1 hk))).2.2
        (ha i (Finset.mem_range.1 hi) k (Finset.mem_range.1 hk))

theorem fuzziness_unit {U : Nat → Nat → ℝ} {c n : Nat} (hc : 0 < c) (hn : 0 < n) (h : ∀ i < c, ∀ j < n, 0 < U i j ∧ U i j < 1) :
    0 < fuzziness U c n ∧ fuzziness U c n ≤ 1 := by
  have hl : 0 < Real.log 2 := Real.log_pos (by norm_num)
  have hc' : (0 : ℝ) < c := by exact_mod_cast hc
  have hn' : (0 : ℝ) < n := by exact_mod_cast hn
  have hd : 0 < n * Real.log 2 := mul_pos hn' hl
  unfold fuzziness
  constructor
  · refine div_pos (Finset.sum_pos (fun i hi => div_pos (Finset.sum_pos (fun j hj => ?_) ?_) hd) ?_) hc'
    · have := h i (Finset.mem_range.1 hi) j (Finset.mem_range.1 hj)
      exact Real.binEntropy_pos this.1 this.2
    · exact Finset.nonempty_range_iff.2 hn.ne'
    · exact Finset.nonempty_range_iff.2 hc.ne'
  · rw [div_le_one hc']
    have : ∀ i ∈ Finset.range c, (∑ j ∈ Finset.range n, Real.binEntropy (U i j)) / (n * Real.log 2) ≤ 1 := by
      intro i _
      rw [div_le_one hd]
      refine (Finset.sum_le_card_nsmul _ _ _ fun j _ => Real.binEntropy_le_log_two).trans ?_
      simp
    refine (Finset.sum_le_card_nsmul _ _ _ this).trans ?_
    simp

theorem spread_pos {data : List ℝ} {u : List (List ℝ)} {c : Nat} (V : Nat → ℝ) (hc : 2 ≤ c) (hp : Partition u c data.length)
    (hd : ∃ x ∈ data, ∃ y ∈ data, x ≠ y) : 0 < spread (data.getD · 0) V (entry u) c data.length := by
  have hn : 0 < data.length := by
    obtain ⟨x, hx, -⟩ := hd
    exact List.length_pos_of_mem hx
  refine Finset.sum_pos (fun i hi => mul_pos ?_ ?_) (Finset.nonempty_range_iff.2 (by omega))
  · exact Finset.sum_pos (fun j hj => (hp.inside hc (Finset.mem_range.1 hi) (Finset.mem_range.1 hj)).1)
      (Finset.nonempty_range_iff.2 hn.ne')
  · refine Finset.sum_pos' (fun j _ => sq_nonneg _) ?_
    obtain ⟨x, hx, y, hy, hxy⟩ := hd
    obtain ⟨p, hpl, rfl⟩ := List.mem_iff_getElem.1 hx
    obtain ⟨q, hql, rfl⟩ := List.mem_iff_getElem.1 hy
    have e1 : data.getD p 0 = data[p] := by simp [List.getD_eq_getElem?_getD, hpl]
    have e2 : data.getD q 0 = data[q] := by simp [List.getD_eq_getElem?_getD, hql]
    by_cases h : data[p] = V i
    · refine ⟨q, Finset.mem_range.2 hql, ?_⟩
      have : data.getD q 0 - V i ≠ 0 := by
        rw [e2, ← h]
        exact sub_ne_zero.2 (Ne.symm hxy)
      positivity
    · refine ⟨p, Finset.mem_range.2 hpl, ?_⟩
      have : data.getD p 0 - V i ≠ 0 := by
        rw [e1]
        exact sub_ne_zero.2 h
      positivity

/-- C91: fuzziness lies in (0, 1], separation is not negative and zero only for clusters with the same memberships, and
the score is not negative and zero only if moreover all centres are in the mean of the samples.  No division is by zero. -/
theorem C91_bounds {data : List ℝ} {r : CmResult ℝ} {c : Nat} (hc : 2 ≤ c) (hn : c < data.length) (hp : Partition r.u c data.length)
    (hv : r.cntr.length = c) (hd : ∃ x ∈ data, ∃ y ∈ data, x ≠ y) :
    (0 < fuzziness (entry r.u) c data.length ∧ fuzziness (entry r.u) c data.length ≤ 1) ∧
    (0 ≤ separation (entry r.u) c data.length ∧
      (separation (entry r.u) c data.length = 0 ↔ AllAlike (entry r.u) c data.length)) ∧
    0 < spread (data.getD · 0) (r.cntr.getD · 0) (entry r.u) c data.length ∧
    0 ≤ cfeScore data c r ∧
    (cfeScore data c r = 0 ↔ AllAlike (entry r.u) c data.length ∧ ∀ i < c, r.cntr.getD i 0 = data.sum / data.length) := by
  have hin : ∀ i < c, ∀ j < data.length, 0 < entry r.u i j ∧ entry r.u i j < 1 := fun i hi j hj => hp.inside hc hi hj
  have f := fuzziness_unit (by omega) (by omega) hin
  have s := separation_nonneg hc hin
  have w := spread_pos (r.cntr.getD · 0) hc hp hd
  refine ⟨f, s, w, ?_⟩
  rw [C91_entropy_partial hp.shape hv]
  have hc' : (2 : ℝ) ≤ c := by exact_mod_cast hc
  have hn' : (c : ℝ) < data.length := by exact_mod_cast hn
  have hb0 : ∀ i ∈ Finset.range c, 0 ≤ (∑ j ∈ Finset.range data.length, entry r.u i j) *
      (r.cntr.getD i 0 - (∑ j ∈ Finset.range data.length, data.getD j 0) / data.length) ^ 2 := fun i hi =>
    mul_nonneg (Finset.sum_nonneg fun j hj => (hin i (Finset.mem_range.1 hi) j (Finset.mem_range.1 hj)).1.le) (sq_nonneg _)
  have hb : 0 ≤ between (data.getD · 0) (r.cntr.getD · 0) (entry r.u) c data.length := Finset.sum_nonneg hb0
  have hq : 0 < ((data.length : ℝ) - c) / spread (data.getD · 0) (r.cntr.getD · 0) (entry r.u) c data.length := div_pos (by linarith) w
  have t1 := div_nonneg s.1 f.1.le
  have t2 := mul_nonneg (div_nonneg hb (show (0 : ℝ) ≤ (c : ℝ) - 1 by linarith)) hq.le
  unfold combined
  refine ⟨div_nonneg (add_nonneg t1 t2) (by norm_num), ?_⟩
  rw [div_eq_zero_iff, or_iff_left (by norm_num), add_eq_zero_iff_of_nonneg t1 t2, div_eq_zero_iff, or_iff_left f.1.ne', s.2,
    mul_eq_zero, or_iff_left hq.ne', div_eq_zero_iff, or_iff_left (by linarith)]
  refine and_congr_right fun _ => ?_
  unfold between
  rw [Finset.sum_eq_zero_iff_of_nonneg hb0]
  have hsum : ∑ j ∈ Finset.range data.length, data.getD j 0 = data.sum := (row_sum rfl).symm
  constructor
  · intro h i hi
    have h1 := h i (Finset.mem_range.2 hi)
    rw [mul_eq_zero] at h1
    rcases h1 with h1 | h1
    · have : 0 < ∑ j ∈ Finset.range data.length, entry r.u i j :=
        Finset.sum_pos (fun j hj => (hin i hi j (Finset.mem_range.1 hj)).1) (Finset.nonempty_range_iff.2 (by omega))
      exact absurd h1 this.ne'
    · have := pow_eq_zero_iff (two_ne_zero) |>.1 h1
      rw [hsum] at this
      linarith
  · intro h i hi
    rw [hsum, h i (Finset.mem_range.1 hi), sub_self]
    simp

/-- Two clusters of the samples 0, 1, 3. -/
noncomputable def Ex.three : CmResult ℝ := ⟨[1/2, 3], [[3/4, 3/4, 1/4], [1/4, 1/4, 3/4]], [], [], 0, 0⟩

theorem Ex.three_partition : Partition Ex.three.u 2 3 := by
  refine ⟨⟨rfl, ?_⟩, ?_, ?_⟩
  · simp [Ex.three]
  · intro r hr x hx
    simp only [Ex.three, List.mem_cons, List.not_mem_nil, or_false] at hr
    rcases hr with rfl | rfl <;> simp only [List.mem_cons, List.not_mem_nil, or_false] at hx <;>
      rcases hx with rfl | rfl | rfl <;> norm_num
  · intro j hj
    interval_cases j <;> norm_num [Ex.three]

theorem C91_counterexample : ¬ C91_full := by
  intro h
  have h1 := h [0, 1, 3] Ex.three 2 (by norm_num) (by norm_num) Ex.three_partition rfl
  rw [C91_entropy_partial (data := [0, 1, 3]) (r := Ex.three) (c := 2) Ex.three_partition.shape rfl] at h1
  revert h1
  unfold combined
  generalize separation (entry Ex.three.u) 2 ([0, 1, 3] : List ℝ).length / fuzziness (entry Ex.three.u) 2 ([0, 1, 3] : List ℝ).length = z
  norm_num [between, within, spread, Finset.sum_range_succ, Ex.three, entry]

example := C91_bounds (data := [0, 1, 3]) (r := Ex.three) (by norm_num) (by norm_num) Ex.three_partition rfl ⟨0, by simp, 1, by simp, by norm_num⟩

end PyFCM
