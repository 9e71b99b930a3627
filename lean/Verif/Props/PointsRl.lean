import Verif.Props.Points
import Verif.Props.RlRound
/-
Robust-learning fuzzy c-means on data with any number of columns (C117).  Real arithmetic.
-/
namespace PyFCM
open Arith

namespace Spec

/-- A mean of the samples with some weights, none of them negative. -/
def Hull (dim : Nat) (data : List (List ℝ)) (c : List ℝ) : Prop :=
  c.length = dim ∧ ∃ w : Nat → ℝ, (∀ i < data.length, 0 ≤ w i) ∧ ∑ i ∈ Finset.range data.length, w i = 1 ∧
    ∀ j < dim, c.getD j 0 = ∑ i ∈ Finset.range data.length, w i * entry data i j

/-- A valid mixture: positive proportions that sum to 1, at most one cluster per sample and at least one, a centre
for each within the convex hull of the samples, and positive memberships that sum to 1 for every sample. -/
structure PtMixture (dim : Nat) (data : List (List ℝ)) (s : PtRlState ℝ) : Prop where
  pos : ∀ a ∈ s.alpha, 0 < a
  sum : s.alpha.sum = 1
  some : 1 ≤ s.alpha.length
  few : s.alpha.length ≤ data.length
  centers : s.v.length = s.alpha.length
  range : ∀ c ∈ s.v, Hull dim data c
  rows : ∀ u, s.u = .some u → u.length = data.length ∧
    ∀ r ∈ u, r.length = s.alpha.length ∧ (∀ x ∈ r, 0 < x) ∧ r.sum = 1

/-- Membership of a sample in cluster `k`: a Gaussian of the distance, weighted with the proportion. -/
noncomputable def ptShare (dim : Nat) (V : Nat → List ℝ) (A : Nat → ℝ) (c : Nat) (r1 r2 : ℝ) (x : List ℝ) (k : Nat) : ℝ :=
  Real.exp ((-gap dim x (V k) ^ 2 + r1 * Real.log (A k)) / r2) /
    ∑ t ∈ Finset.range c, Real.exp ((-gap dim x (V t) ^ 2 + r1 * Real.log (A t)) / r2)

/-- One round, from `s` to `s'`; `b` tells whether it is the last (see `RlStep`). -/
def PtRlStep (error : ℝ) (dim : Nat) (data : List (List ℝ)) (s s' : PtRlState ℝ) (b : Bool) : Prop :=
  let n := data.length
  let c := s.alpha.length
  let A := fun k => s.alpha.getD k 0
  let P := fun i => ptShare dim (s.v.getD · []) A c s.r1 s.r2 (data.getD i [])
  let B := rlWeight P A n c (s.r3 / Real.exp (-(s.t : ℝ) / 10))
  let K := rlKept B n c
  let Q := fun i k => P i k / (K.map (P i)).sum
  s'.alpha = K.map (fun k => B k / (K.map B).sum) ∧
  s'.u = some ((List.range n).map fun i => K.map (Q i)) ∧
  s'.v = K.map (fun k => (List.range dim).map fun j =>
    (∑ i ∈ Finset.range n, entry data i j * Q i k) / ∑ i ∈ Finset.range n, Q i k) ∧
  s'.r1 = Real.exp (-(s.t : ℝ) / 10) ∧ s'.r2 = Real.exp (-(s.t : ℝ) / 100) ∧
  (100 ≤ s.t → K.length = c → s'.r3 = 0) ∧
  (¬ (100 ≤ s.t ∧ K.length = c) → ∃ mk mv, Highest c (fun k => (∑ i ∈ Finset.range n, P i k) / n) mk ∧
    Highest c (fun k => A k * ∑ t ∈ Finset.range c, A t * Real.log (A t)) mv ∧ mv < 0 ∧
    s'.r3 = min ((∑ k ∈ Finset.range c, Real.exp (-(n * |B k - A k|))) / c) ((1 - mk) / -mv)) ∧
  (b = true ↔ K.length = 1 ∨ (K.length = c ∧ moved c dim (entry s.v) (entry s'.v) < error)) ∧
  s'.t = (if b then s.t else s.t + 1)

/-- The state before the first round: every sample is the centre of its own cluster. -/
structure PtRlStart (data : List (List ℝ)) (s : PtRlState ℝ) : Prop where
  centers : s.v = data
  weights : s.alpha = data.map fun _ => 1 / (data.length : ℝ)
  rates : s.r1 = 1 ∧ s.r2 = 1 ∧ s.r3 = 1
  round : s.t = 1

end Spec

open Spec

theorem hull_of_blend {dim : Nat} {data : List (List ℝ)} {c : List ℝ} (h : Blend dim data c) : Hull dim data c := by
  obtain ⟨h1, w, h2, h3, h4⟩ := h
  exact ⟨h1, w, fun i hi => (h2 i hi).le, h3, h4⟩

theorem hull_self {dim : Nat} {data : List (List ℝ)} (ht : Rect dim data) {c : List ℝ} (hc : c ∈ data) : Hull dim data c := by
  obtain ⟨i, hi, rfl⟩ := List.mem_iff_getElem.1 hc
  refine ⟨ht _ hc, fun k => if k = i then 1 else 0, fun k _ => by dsimp only; split <;> norm_num, ?_, fun j _ => ?_⟩
  · rw [Finset.sum_ite_eq' _ i fun _ => (1 : ℝ), if_pos (Finset.mem_range.2 hi)]
  · have : ∀ k ∈ Finset.range data.length, (if k = i then (1 : ℝ) else 0) * entry data k j = if k = i then entry data k j else 0 := by
      intro k _
      split <;> simp
    rw [Finset.sum_congr rfl this, Finset.sum_ite_eq' _ i fun k => entry data k j, if_pos (Finset.mem_range.2 hi)]
    simp [entry, List.getD_eq_getElem?_getD, hi]

theorem points_as_range (l : List (List ℝ)) : l = (List.range l.length).map fun k => l.getD k [] := by
  apply List.ext_getElem
  · simp
  · intro i h1 h2
    simp [List.getD_eq_getElem?_getD, h1]

theorem ptZip_as_range {a : List (List ℝ)} {b : List ℝ} {n : Nat} (ha : a.length = n) (hb : b.length = n) :
    a.zip b = (List.range n).map fun k => (a.getD k [], b.getD k 0) := by
  apply List.ext_getElem
  · simp [ha, hb]
  · intro i h1 h2
    have h3 : i < a.length := by simp at h1; omega
    have h4 : i < b.length := by simp at h1; omega
    simp [List.getD_eq_getElem?_getD, h3, h4]

theorem ptRow_real {dim : Nat} {v : List (List ℝ)} {alpha : List ℝ} {r1 r2 : ℝ} {c : Nat} {x : List ℝ} (hx : x.length = dim)
    (ht : Rect dim v) (hc : 0 < c) (hv : v.length = c) (hl : alpha.length = c) (ha : ∀ a ∈ alpha, 0 < a) (h2 : 0 < r2) :
    ptRow v alpha r1 r2 x = .ok ((List.range c).map (ptShare dim (v.getD · []) (alpha.getD · 0) c r1 r2 x)) := by
  unfold ptRow
  rw [ptZip_as_range hv hl, mapM_map]
  have e : ∀ k ∈ List.range c, ptKernel r1 r2 x (v.getD k []) (alpha.getD k 0) =
      .ok (Real.exp ((-gap dim x (v.getD k []) ^ 2 + r1 * Real.log (alpha.getD k 0)) / r2)) := by
    intro k hk
    have hk := List.mem_range.1 hk
    have hk' : k < alpha.length := hl ▸ hk
    have hkv : k < v.length := hv ▸ hk
    have hp : 0 < alpha.getD k 0 := by
      have := ha _ (List.getElem_mem hk')
      simpa [List.getD_eq_getElem?_getD, hk'] using this
    have hvl : (v.getD k []).length = dim := by
      have := ht _ (List.getElem_mem hkv)
      simpa [List.getD_eq_getElem?_getD, hkv] using this
    unfold ptKernel
    rw [plog_ok hp, pointDist_real hx hvl]
    show (pdiv _ r2 >>= _) = _
    rw [pdiv_real h2.ne']
    show Except.ok (Real.exp _) = _
    rw [pow_two]
  rw [mapM_ok_of e]
  show ((List.range c).map _).mapM _ = _
  rw [pysum_real, list_sum_range, mapM_map]
  refine mapM_ok_of fun k _ => ?_
  have : 0 < ∑ t ∈ Finset.range c, Real.exp ((-gap dim x (v.getD t []) ^ 2 + r1 * Real.log (alpha.getD t 0)) / r2) :=
    Finset.sum_pos (fun t _ => Real.exp_pos _) (Finset.nonempty_range_iff.2 hc.ne')
  exact pdiv_real this.ne'

/-- The memberships of all samples. -/
theorem ptComputeU_real {dim : Nat} {data v : List (List ℝ)} {alpha : List ℝ} {r1 r2 : ℝ} {c : Nat} (hd : Rect dim data)
    (ht : Rect dim v) (hc : 0 < c) (hv : v.length = c) (hl : alpha.length = c) (ha : ∀ a ∈ alpha, 0 < a) (h2 : 0 < r2) :
    ptComputeU data v alpha r1 r2 = .ok ((List.range data.length).map fun i =>
      (List.range c).map (ptShare dim (v.getD · []) (alpha.getD · 0) c r1 r2 (data.getD i []))) := by
  unfold ptComputeU
  conv_lhs => rw [points_as_range data]
  rw [mapM_map]
  refine mapM_ok_of fun i hi => ptRow_real ?_ ht hc hv hl ha h2
  have hi := List.mem_range.1 hi
  have := hd _ (List.getElem_mem hi)
  simpa [List.getD_eq_getElem?_getD, hi] using this

theorem ptShare_row {dim : Nat} (V : Nat → List ℝ) (A : Nat → ℝ) {c : Nat} (hc : 0 < c) (r1 r2 : ℝ) (x : List ℝ) :
    RowOk c ((List.range c).map (ptShare dim V A c r1 r2 x)) := by
  have hp : 0 < ∑ t ∈ Finset.range c, Real.exp ((-gap dim x (V t) ^ 2 + r1 * Real.log (A t)) / r2) :=
    Finset.sum_pos (fun t _ => Real.exp_pos _) (Finset.nonempty_range_iff.2 hc.ne')
  refine ⟨by simp, fun y hy => ?_, ?_⟩
  · obtain ⟨k, -, rfl⟩ := List.mem_map.1 hy
    exact div_pos (Real.exp_pos _) hp
  · rw [list_sum_range]
    unfold ptShare
    rw [← Finset.sum_div, div_self hp.ne']

theorem ptUpdateV_blend {dim : Nat} {data u : List (List ℝ)} {c : Nat} (hd : data ≠ []) (hl : u.length = data.length)
    (hrow : ∀ r ∈ u, RowOk c r) : ∀ v ∈ ptUpdateV dim data u c, Blend dim data v := by
  intro v hv
  obtain ⟨k, hk, rfl⟩ := List.mem_map.1 hv
  have hk := List.mem_range.1 hk
  have hp : ∀ x ∈ column u k, 0 < x :=
    column_pos (c := u.length) (n := c) ⟨rfl, fun r hr => (hrow r hr).1⟩ (fun r hr => (hrow r hr).2.1) hk
  have hlen : (column u k).length = data.length := by simp [column, hl]
  have hne : column u k ≠ [] := fun e => by rw [e] at hlen; exact hd (List.length_eq_zero_iff.1 hlen.symm)
  have hsum := sum_pos_of hp hne
  refine ⟨by simp, fun i => (column u k).getD i 0 / (column u k).sum, fun i hi => ?_, ?_, fun j hj => ?_⟩
  · have hi' : i < (column u k).length := hlen ▸ hi
    refine div_pos ?_ hsum
    have := hp _ (List.getElem_mem hi')
    simpa [List.getD_eq_getElem?_getD, hi'] using this
  · rw [← Finset.sum_div, ← row_sum hlen, div_self hsum.ne']
  · rw [getD_map_range hj, pysum_real, pysum_real, zip_sum _ (by simp [column]) hlen, Finset.sum_div]
    refine Finset.sum_congr rfl fun i hi => ?_
    rw [column_getD data j (Finset.mem_range.1 hi)]
    ring

/-- One round: nothing is divided by zero, no logarithm of a non-positive number is taken, and a valid mixture of not
more clusters comes out. -/
theorem ptRound_ok {error : ℝ} {dim : Nat} {data : List (List ℝ)} {s : PtRlState ℝ} (ht : Rect dim data) (h : PtMixture dim data s)
    (h2 : 2 ≤ s.alpha.length) (hr2 : 0 < s.r2) :
    ∃ s' b, ptRound error dim data s = .ok (s', b) ∧ PtMixture dim data s' ∧ s'.alpha.length ≤ s.alpha.length ∧
      (b = false → 2 ≤ s'.alpha.length) ∧ 0 < s'.r2 ∧ (∃ u, s'.u = some u) ∧ ∀ c ∈ s'.v, Blend dim data c := by
  have hd : data ≠ [] := by rintro rfl; have := h.few; rw [List.length_nil] at this; omega
  have htv : Rect dim s.v := fun p hp => (h.range p hp).1
  obtain ⟨u, hu⟩ : ∃ u, u = (List.range data.length).map fun i =>
      (List.range s.alpha.length).map (ptShare dim (s.v.getD · []) (s.alpha.getD · 0) s.alpha.length s.r1 s.r2 (data.getD i [])) :=
    ⟨_, rfl⟩
  have u1 : ptComputeU data s.v s.alpha s.r1 s.r2 = .ok u :=
    (ptComputeU_real ht htv (by omega) h.centers rfl h.pos hr2).trans (by rw [hu])
  have u2 : u.length = data.length := by rw [hu]; simp
  have u3 : ∀ r ∈ u, RowOk s.alpha.length r := by
    intro r hr
    rw [hu] at hr
    obtain ⟨i, -, rfl⟩ := List.mem_map.1 hr
    exact ptShare_row _ _ (by omega) _ _ _
  clear hu
  have hune : u ≠ [] := by
    intro e; rw [e] at u2; exact hd (List.length_eq_zero_iff.1 u2.symm)
  let r1 : ℝ := exp (lit (-(s.t : Int)) / lit 10)
  let r2 : ℝ := exp (lit (-(s.t : Int)) / lit 100)
  have hr1' : 0 < r1 := Real.exp_pos _
  obtain ⟨na, a1, a2, a3⟩ := rlUpdateAlpha_ok (r3 := s.r3) hune hr1' u3 h.sum
  obtain ⟨r3, b1⟩ := rlUpdateR3_ok (na := na) hune h2 h.pos h.sum
  obtain ⟨r, c1, c2, c3, c4, c5, c6⟩ := rlResize_ok (alpha := na) hune (by rw [a2, u2]; exact h.few) a3
    (fun w hw => a2 ▸ u3 w hw)
  have hin := ptUpdateV_blend (dim := dim) (u := r.2) hd (by rw [c5, u2]) c6
  have hx : ptRound error dim data s = .ok (⟨ptUpdateV dim data r.2 r.1.length, r.1, some r.2, r1, r2,
      if s.t ≥ 100 ∧ s.alpha.length = r.1.length then lit 0 else r3,
      if ptStop error r.1 (ptUpdateV dim data r.2 r.1.length) s.v then s.t else s.t + 1⟩,
      ptStop error r.1 (ptUpdateV dim data r.2 r.1.length) s.v) := by
    unfold ptRound
    rw [u1]
    show (rlUpdateAlpha u s.alpha r1 s.r3 >>= _) = _
    rw [a1]
    show (rlUpdateR3 s.alpha na u >>= _) = _
    rw [b1]
    show (rlResize na u >>= _) = _
    rw [c1]
    rfl
  refine ⟨_, _, hx, ⟨c4.2.1, c4.2.2, c3, ?_, by simp [ptUpdateV], ?_, ?_⟩, by dsimp only; omega, ?_, Real.exp_pos _,
    ⟨_, rfl⟩, hin⟩
  · dsimp only; have := h.few; omega
  · exact fun c hc => hull_of_blend (hin c hc)
  · intro w hw
    cases hw
    exact ⟨by rw [c5, u2], c6⟩
  · intro hb
    dsimp only
    unfold ptStop at hb
    rw [Bool.or_eq_false_iff] at hb
    have := hb.1
    simp at this
    omega

theorem ptUpdateV_real {dim : Nat} {data : List (List ℝ)} {n : Nat} (hn : data.length = n) (K : List Nat) (Q : Nat → Nat → ℝ) :
    ptUpdateV dim data ((List.range n).map fun i => K.map (Q i)) K.length =
      K.map fun k => (List.range dim).map fun j =>
        (∑ i ∈ Finset.range n, entry data i j * Q i k) / ∑ i ∈ Finset.range n, Q i k := by
  apply List.ext_getElem
  · simp [ptUpdateV]
  · intro p h1 h2
    have hp : p < K.length := by simpa [ptUpdateV] using h1
    have hcol : column ((List.range n).map fun i => K.map (Q i)) p = (List.range n).map fun i => Q i K[p] := by
      rw [column_real, List.map_map]
      refine List.map_congr_left fun i _ => ?_
      simp [List.getD_eq_getElem?_getD, hp]
    simp only [ptUpdateV, List.getElem_map, List.getElem_range, hcol, pysum_real]
    refine List.map_congr_left fun j _ => ?_
    rw [zip_sum (n := n) _ (by simp [column, hn]) (by simp), list_sum_range]
    congr 1
    refine Finset.sum_congr rfl fun i hi => ?_
    have hi := Finset.mem_range.1 hi
    rw [getD_map_range hi, column_getD data j (hn ▸ hi)]

/-- One round from a valid mixture with at least two clusters, see `PtRlStep`. -/
theorem C117_round {error : ℝ} {dim : Nat} {data : List (List ℝ)} {s s' : PtRlState ℝ} {b : Bool} (ht : Rect dim data)
    (hm : PtMixture dim data s) (h2 : 2 ≤ s.alpha.length) (hr2 : 0 < s.r2) (hx : ptRound error dim data s = .ok (s', b)) :
    PtRlStep error dim data s s' b := by
  unfold PtRlStep
  intro n c A P B K Q
  have hn : 0 < n := by have := hm.few; show 0 < data.length; omega
  have hc : 0 < c := by show 0 < s.alpha.length; omega
  have htv : Rect dim s.v := fun p hp => (hm.range p hp).1
  have hU : ptComputeU data s.v s.alpha s.r1 s.r2 = .ok ((List.range n).map fun i => (List.range c).map (P i)) :=
    ptComputeU_real ht htv hc hm.centers rfl hm.pos hr2
  have e1 : (exp (lit (-(s.t : Int)) / lit 10) : ℝ) = Real.exp (-(s.t : ℝ) / 10) := by
    show Real.exp _ = _
    congr 1
    show ((-(s.t : Int) : Int) : ℝ) / ((10 : Int) : ℝ) = _
    push_cast
    rfl
  have e2 : (exp (lit (-(s.t : Int)) / lit 100) : ℝ) = Real.exp (-(s.t : ℝ) / 100) := by
    show Real.exp _ = _
    congr 1
    show ((-(s.t : Int) : Int) : ℝ) / ((100 : Int) : ℝ) = _
    push_cast
    rfl
  unfold ptRound at hx
  dsimp only at hx
  rw [e1, e2] at hx
  obtain ⟨u, q1, hx⟩ := except_bind_ok hx
  cases hU.symm.trans q1
  obtain ⟨na, q2, hx⟩ := except_bind_ok hx
  have hB : rlUpdateAlpha ((List.range n).map fun i => (List.range c).map (P i)) s.alpha (Real.exp (-(s.t : ℝ) / 10)) s.r3 =
      .ok ((List.range c).map B) := rlUpdateAlpha_real hn rfl (Real.exp_pos _).ne'
  cases hB.symm.trans q2
  obtain ⟨r3, q3, hx⟩ := except_bind_ok hx
  have hR := rlUpdateR3_real hn h2 rfl hm.pos hm.sum q3
  obtain ⟨r, q4, hx⟩ := except_bind_ok hx
  have hK : rlResize ((List.range c).map B) ((List.range n).map fun i => (List.range c).map (P i)) =
      .ok (K.map (fun k => B k / (K.map B).sum), (List.range n).map fun i => K.map (Q i)) := rlResize_real hn
  cases hK.symm.trans q4
  have hV := ptUpdateV_real (dim := dim) (data := data) (n := n) rfl K Q
  have hlen : (K.map fun k => B k / (K.map B).sum).length = K.length := by simp
  dsimp only at hx
  rw [hlen, hV] at hx
  cases hx
  have h0 : (lit 0 : ℝ) = 0 := by simp
  refine ⟨rfl, rfl, rfl, rfl, rfl, fun t1 t2 => ?_, fun t1 => ?_, ?_, rfl⟩
  · dsimp only
    rw [if_pos ⟨t1, t2.symm⟩, h0]
  · dsimp only
    rw [if_neg (fun q => t1 ⟨q.1, q.2.symm⟩)]
    exact hR
  · unfold ptStop
    have hv : s.v.length = c := hm.centers
    simp only [Bool.or_eq_true, Bool.and_eq_true, beq_iff_eq, hlen, List.length_map, hv, real_lt]
    refine or_congr Iff.rfl (and_congr_right fun hk => ?_)
    rw [frob_real (c := c) (n := dim) ⟨hv, htv⟩ ⟨by simpa using hk, fun r hr => by
      obtain ⟨k, -, rfl⟩ := List.mem_map.1 hr; simp⟩]

theorem ptInit_ok {dim : Nat} {data : List (List ℝ)} (ht : Rect dim data) (hd : 2 ≤ data.length) :
    ∃ s, ptInit data = .ok s ∧ PtMixture dim data s ∧ PtRlStart data s := by
  have hn : (0 : ℝ) < data.length := by exact_mod_cast (by omega : 0 < data.length)
  have e : (lit (data.length : Int) : ℝ) = data.length := by simp
  have e1 : (lit 1 : ℝ) = 1 := by simp
  refine ⟨⟨data, data.map fun _ => 1 / (data.length : ℝ), none, 1, 1, 1, 1⟩, ?_, ⟨?_, ?_, ?_, ?_, ?_, ?_, ?_⟩,
    ⟨rfl, rfl, ⟨rfl, rfl, rfl⟩, rfl⟩⟩
  · unfold ptInit
    rw [e, e1, pdiv_real hn.ne']
    rfl
  · intro a h
    obtain ⟨x, -, rfl⟩ := List.mem_map.1 h
    exact one_div_pos.2 hn
  · simp only [List.map_const', List.sum_replicate, nsmul_eq_mul]
    field_simp
  · simp; omega
  · simp
  · simp
  · exact fun c hc => hull_self ht hc
  · intro u h; cases h

theorem ptRlLoop_run {error : ℝ} {dim : Nat} {data : List (List ℝ)} (ht : Rect dim data) : ∀ (fuel : Nat) (s : PtRlState ℝ),
    PtMixture dim data s → 2 ≤ s.alpha.length → 0 < s.r2 →
    ∃ s', ptRlLoop error dim data fuel s = .ok s' ∧ PtMixture dim data s' ∧ s'.alpha.length ≤ s.alpha.length ∧
      (fuel ≠ 0 → (∃ u, s'.u = some u) ∧ ∀ c ∈ s'.v, Blend dim data c) ∧
      ∃ (p : Nat) (seq : Nat → PtRlState ℝ), p ≤ fuel ∧ seq 0 = s ∧ seq p = s' ∧
        (∀ i, i + 1 < p → PtRlStep error dim data (seq i) (seq (i + 1)) false) ∧
        (∀ i, i + 1 = p → ∃ b, PtRlStep error dim data (seq i) (seq (i + 1)) b ∧ (p < fuel → b = true)) ∧ (p = 0 → fuel = 0)
  | 0, s, h, _, _ => ⟨s, rfl, h, le_rfl, fun e => absurd rfl e, 0, fun _ => s, le_rfl, rfl, rfl, fun i h => by omega,
      fun i h => by omega, fun _ => rfl⟩
  | fuel + 1, s, h, h2, hr2 => by
    obtain ⟨s1, b, k1, k2, k3, k4, k5, k6, k7⟩ := ptRound_ok (error := error) ht h h2 hr2
    have hs := C117_round ht h h2 hr2 k1
    unfold ptRlLoop
    rw [k1]
    cases b with
    | true =>
      refine ⟨s1, rfl, k2, k3, fun _ => ⟨k6, k7⟩, 1, fun i => if i = 0 then s else s1, by omega, rfl, rfl, fun i h => by omega,
        fun i h => ?_, fun h => by omega⟩
      obtain rfl : i = 0 := by omega
      exact ⟨true, hs, fun _ => rfl⟩
    | false =>
      obtain ⟨s', l1, l2, l3, l4, p, seq, a1, a2, a3, a4, a5, a6⟩ := ptRlLoop_run (error := error) ht fuel s1 k2 (k4 rfl) k5
      refine ⟨s', l1, l2, l3.trans k3, fun _ => ?_, p + 1, fun i => if i = 0 then s else seq (i - 1), by omega, rfl,
        by simpa using a3, ?_, ?_, fun h => by omega⟩
      · by_cases hf : fuel = 0
        · subst hf
          cases l1
          exact ⟨k6, k7⟩
        · exact l4 hf
      · intro i hi
        rcases i with _ | i
        · simpa [a2] using hs
        · simpa using a4 i (by omega)
      · intro i hi
        rcases i with _ | i
        · obtain rfl : p = 0 := by omega
          have := a6 rfl
          exact ⟨false, by simpa [a2] using hs, fun h => by omega⟩
        · obtain ⟨b, b1, b2⟩ := a5 i (by omega)
          exact ⟨b, by simpa using b1, fun h => b2 (by omega)⟩

/-- A run on at least two samples of any dimension: it starts with every sample as its own cluster, does rounds until one
is the last (`PtRlStep`), at most `maxIter - 1`, and returns a valid mixture; once a round has run, every centre is a
mean of the samples with positive weights. -/
theorem C117_run {error : ℝ} (maxIter : Nat) {dim : Nat} {data : List (List ℝ)} (ht : Rect dim data) (hd : 2 ≤ data.length) :
    ∃ (s : PtRlState ℝ) (p : Nat) (seq : Nat → PtRlState ℝ), ptRl error maxIter dim data = .ok s ∧ PtMixture dim data s ∧
      (2 ≤ maxIter → (∃ u, s.u = some u) ∧ ∀ c ∈ s.v, Blend dim data c) ∧
      p ≤ maxIter - 1 ∧ PtRlStart data (seq 0) ∧ seq p = s ∧
      (∀ i, i + 1 < p → PtRlStep error dim data (seq i) (seq (i + 1)) false) ∧
      (∀ i, i + 1 = p → ∃ b, PtRlStep error dim data (seq i) (seq (i + 1)) b ∧ (p < maxIter - 1 → b = true)) ∧
      (p = 0 → maxIter ≤ 1) := by
  obtain ⟨s0, i1, i2, i3⟩ := ptInit_ok ht hd
  obtain ⟨s, l1, l2, -, l3, p, seq, a1, a2, a3, a4, a5, a6⟩ := ptRlLoop_run (error := error) ht (maxIter - 1) s0 i2
    (by rw [i3.weights]; simpa using hd) (by rw [i3.rates.2.1]; norm_num)
  refine ⟨s, p, seq, ?_, l2, fun h => l3 (by omega), a1, a2 ▸ i3, a3, a4, a5, fun h => by have := a6 h; omega⟩
  unfold ptRl
  rw [i1]
  exact l1

theorem ptRlLoop_mono {error : ℝ} {dim : Nat} {data : List (List ℝ)} (ht : Rect dim data) (j : Nat) : ∀ (k : Nat) (s : PtRlState ℝ),
    PtMixture dim data s → 2 ≤ s.alpha.length → 0 < s.r2 → ∀ {a b : PtRlState ℝ}, ptRlLoop error dim data k s = .ok a →
    ptRlLoop error dim data (k + j) s = .ok b → b.alpha.length ≤ a.alpha.length
  | 0, s, h, h2, h4, a, b, ha, hb => by
    cases ha
    obtain ⟨s', k1, -, k2, -⟩ := ptRlLoop_run (error := error) ht (0 + j) s h h2 h4
    rw [hb] at k1
    cases k1
    exact k2
  | k + 1, s, h, h2, h4, a, b, ha, hb => by
    obtain ⟨s1, st, k1, k2, -, k4, k5, -⟩ := ptRound_ok (error := error) ht h h2 h4
    rw [show k + 1 + j = (k + j) + 1 by omega] at hb
    unfold ptRlLoop at ha hb
    rw [k1] at ha hb
    cases st with
    | true => cases ha; cases hb; exact le_rfl
    | false => exact ptRlLoop_mono ht j k s1 k2 (k4 rfl) k5 ha hb

/-- With more rounds there are never more clusters. -/
theorem C117_shrink {error : ℝ} {dim : Nat} {data : List (List ℝ)} (ht : Rect dim data) (hd : 2 ≤ data.length) {k j : Nat}
    {a b : PtRlState ℝ} (ha : ptRl error k dim data = .ok a) (hb : ptRl error (k + j) dim data = .ok b) :
    b.alpha.length ≤ a.alpha.length := by
  obtain ⟨s0, i1, i2, i3⟩ := ptInit_ok ht hd
  have hl : 2 ≤ s0.alpha.length := by rw [i3.weights]; simpa using hd
  have hr : 0 < s0.r2 := by rw [i3.rates.2.1]; norm_num
  unfold ptRl at ha hb
  rw [i1] at ha hb
  have ha : ptRlLoop error dim data (k - 1) s0 = .ok a := ha
  have hb : ptRlLoop error dim data (k + j - 1) s0 = .ok b := hb
  by_cases hk : k = 0
  · subst hk
    cases ha
    obtain ⟨s', k1, -, k2, -⟩ := ptRlLoop_run (error := error) ht (0 + j - 1) a i2 hl hr
    rw [hb] at k1
    cases k1
    exact k2
  · rw [show k + j - 1 = (k - 1) + j by omega] at hb
    exact ptRlLoop_mono ht j _ s0 i2 hl hr ha hb

/-- On a single sample the first round divides by zero. -/
theorem C117_single {error : ℝ} {x : List ℝ} {maxIter : Nat} (h : 2 ≤ maxIter) :
    ptRl error maxIter x.length [x] = .error .zeroDivision := by
  have hi : ptInit [x] = .ok (⟨[x], [1], none, 1, 1, 1, 1⟩ : PtRlState ℝ) := by
    simp [ptInit, pdiv, Arith.eq, bind, Except.bind, pure, Except.pure]
  unfold ptRl
  rw [hi]
  show ptRlLoop error x.length [x] (maxIter - 1) _ = _
  rw [show maxIter - 1 = (maxIter - 2) + 1 by omega]
  unfold ptRlLoop
  have hr : ptRound error x.length [x] (⟨[x], [1], none, 1, 1, 1, 1⟩ : PtRlState ℝ) = .error .zeroDivision := by
    obtain ⟨row, h1, h2⟩ : ∃ row, ptRow [x] [(1 : ℝ)] 1 1 x = .ok row ∧ RowOk 1 row :=
      ⟨_, ptRow_real rfl (by simp [Rect]) (c := 1) (by norm_num) rfl rfl (by simp) (by norm_num), ptShare_row _ _ (by norm_num) _ _ _⟩
    have hu : ptComputeU [x] [x] [1] 1 1 = .ok [row] := by
      unfold ptComputeU
      rw [List.mapM_cons, h1]
      rfl
    obtain ⟨na, a1, -, -⟩ := rlUpdateAlpha_ok (u := [row]) (alpha := [(1 : ℝ)])
      (r1 := exp (lit (-((1 : Nat) : Int)) / lit 10)) (r3 := 1) (by simp) (Real.exp_pos _) (by simpa using h2) (by simp)
    have h3 : rlUpdateR3 [1] na [row] = .error .zeroDivision := by
      have e : (plog 1 : Except Err ℝ) = .ok 0 := by simp [plog]
      simp [rlUpdateR3, e, pdiv, pymax, List.range_succ, pysum_real, bind, Except.bind, pure, Except.pure]
    unfold ptRound
    rw [hu]
    show (rlUpdateAlpha [row] [1] (exp (lit (-((1 : Nat) : Int)) / lit 10)) 1 >>= _) = _
    rw [a1]
    show (rlUpdateR3 [1] na [row] >>= _) = _
    rw [h3]
    rfl
  rw [hr]
  rfl

/-! ### the nearest centroid -/

theorem ptNearestLoop_spec {α : Type} [Arith α] [Ordered α] (x : List α) (all : List (List α)) :
    ∀ (cs : List (List α)) (pos : Nat) (best : α) (res : Nat),
    all.drop pos = cs → res < pos → (all[res]?).map (fun c => pointDist c x) = some best →
    (∀ j < pos, ∀ c, all[j]? = some c → (pointDist c x <? best) = false) →
    (∀ j < res, ∀ c, all[j]? = some c → (best <? pointDist c x) = true) →
    ∃ b, (all[ptNearestLoop x cs pos best res]?).map (fun c => pointDist c x) = some b ∧
      (∀ (j : Nat) c, all[j]? = some c → (pointDist c x <? b) = false) ∧
      ∀ j < ptNearestLoop x cs pos best res, ∀ c, all[j]? = some c → (b <? pointDist c x) = true
  | [], pos, best, res, hd, _, h1, h2, h3 => by
    have hl : all.length ≤ pos := by simpa using hd
    exact ⟨best, h1, fun j c hj => h2 j (lt_of_lt_of_le (List.getElem?_eq_some_iff.1 hj).1 hl) c hj, h3⟩
  | c0 :: cs, pos, best, res, hd, hr, h1, h2, h3 => by
    have ho : StrictOrder (Arith.lt : α → α → Bool) := Ordered.lt
    have hc0 : all[pos]? = some c0 := by
      have := congrArg (fun l => l[0]?) hd
      simpa using this
    have hd' : all.drop (pos + 1) = cs := by
      have := congrArg List.tail hd
      simpa using this
    unfold ptNearestLoop
    split
    · rename_i hlt
      have hle : ∀ j < pos, ∀ c, all[j]? = some c → (pointDist c0 x <? pointDist c x) = true := by
        intro j hj c hc
        have := h2 j hj c hc
        by_contra hn
        by_cases h' : (best <? pointDist c x) = true
        · exact hn (ho.trans _ _ _ hlt h')
        · have := ho.tri _ _ this (by simpa using h')
          rw [this] at hn
          exact hn hlt
      refine ptNearestLoop_spec x all cs (pos + 1) _ pos hd' (by omega) (by rw [hc0]; rfl) ?_ hle
      intro j hj c hc
      by_cases e : j = pos
      · subst e
        rw [hc0] at hc
        cases hc
        exact ho.irrefl _
      · have := hle j (by omega) c hc
        rw [← Bool.not_eq_true]
        intro h'
        have := ho.trans _ _ _ this h'
        rw [ho.irrefl] at this
        cases this
    · rename_i hlt
      refine ptNearestLoop_spec x all cs (pos + 1) best res hd' (by omega) h1 ?_ h3
      intro j hj c hc
      by_cases e : j = pos
      · subst e
        rw [hc0] at hc
        cases hc
        simpa using hlt
      · exact h2 j (by omega) c hc

/-- Prediction raises without a centre; otherwise every sample gets the first of the centres that are nearest in Euclidean
distance. -/
theorem C117_predict {dim : Nat} {centroids xs : List (List ℝ)} (hc : Rect dim centroids) (hx : Rect dim xs) (hne : centroids ≠ []) :
    ∃ ks, ptPredict centroids xs = .ok ks ∧ ks.length = xs.length ∧ ∀ (i : Nat) (x : List ℝ) (k : Nat), xs[i]? = some x → ks[i]? = some k →
      k < centroids.length ∧ (∀ j < centroids.length, gap dim x (centroids.getD k []) ≤ gap dim x (centroids.getD j [])) ∧
      ∀ j < k, gap dim x (centroids.getD k []) < gap dim x (centroids.getD j []) := by
  have one : ∀ x ∈ xs, ∃ k, ptNearest centroids x = .ok k ∧ k < centroids.length ∧
      (∀ j < centroids.length, gap dim x (centroids.getD k []) ≤ gap dim x (centroids.getD j [])) ∧
      ∀ j < k, gap dim x (centroids.getD k []) < gap dim x (centroids.getD j []) := by
    intro x hxm
    have ho : StrictOrder (Arith.lt : ℝ → ℝ → Bool) := Ordered.lt
    cases centroids with
    | nil => exact absurd rfl hne
    | cons c0 cs =>
      obtain ⟨b, h1, h2, h3⟩ := ptNearestLoop_spec x (c0 :: cs) cs 1 (pointDist c0 x) 0 (by simp) (by omega) (by simp)
        (by
          intro j hj c hc
          obtain rfl : j = 0 := by omega
          simp at hc
          rw [hc]
          exact ho.irrefl _) (by intro j hj; omega)
      have hk : ptNearest (c0 :: cs) x = .ok (ptNearestLoop x cs 1 (pointDist c0 x) 0) := rfl
      generalize ptNearestLoop x cs 1 (pointDist c0 x) 0 = k at *
      obtain ⟨ck, h4, rfl⟩ := Option.map_eq_some_iff.1 h1
      obtain ⟨hk', rfl⟩ := List.getElem?_eq_some_iff.1 h4
      have hg : ∀ j, ∀ hj : j < (c0 :: cs).length, pointDist (c0 :: cs)[j] x = gap dim x ((c0 :: cs).getD j []) := by
        intro j hj
        rw [pointDist_real (hc _ (List.getElem_mem hj)) (hx _ hxm), gap_comm]
        simp [List.getD_eq_getElem?_getD, List.getElem?_eq_getElem hj]
      refine ⟨k, hk, hk', fun j hj => ?_, fun j hj => ?_⟩
      · have := h2 j _ (List.getElem?_eq_getElem hj)
        rw [hg j hj, hg k hk'] at this
        simpa using this
      · have hj' : j < (c0 :: cs).length := by omega
        have := h3 j hj _ (List.getElem?_eq_getElem hj')
        rw [hg j hj', hg k hk'] at this
        simpa using this
  clear hx
  induction xs with
  | nil => exact ⟨[], rfl, rfl, by simp⟩
  | cons y ys ih =>
    obtain ⟨ks, h1, h2, h3⟩ := ih fun x hx => one x (by simp [hx])
    obtain ⟨k, hk, hk'⟩ := one y (by simp)
    refine ⟨k :: ks, ?_, by simp [h2], ?_⟩
    · unfold ptPredict at h1 ⊢
      rw [List.mapM_cons, hk, h1]
      rfl
    · intro i x k' hx hk''
      cases i with
      | zero => simp at hx hk''; subst hx hk''; exact hk'
      | succ i => exact h3 i x k' (by simpa using hx) (by simpa using hk'')

/-- Four points of the plane: the hypotheses hold. -/
example := C117_run (error := 1 / 2000) 110 (dim := 2) (data := [[0, 1], [1, 0], [5, 5], [6, 4]])
  (by intro p hp; simp at hp; rcases hp with rfl | rfl | rfl | rfl <;> rfl) (by simp)
example := C117_predict (dim := 2) (centroids := [[0, 0], [3, 4], [6, 8]]) (xs := [[3, 5], [0, 1]])
  (by intro p hp; simp at hp; rcases hp with rfl | rfl | rfl <;> rfl) (by intro p hp; simp at hp; rcases hp with rfl | rfl <;> rfl)
  (by simp)
example {a b : PtRlState ℝ} (ha : ptRl (1 / 2000) 3 2 [[0, 1], [1, 0], [5, 5]] = .ok a)
    (hb : ptRl (1 / 2000) (3 + 4) 2 [[0, 1], [1, 0], [5, 5]] = .ok b) := C117_shrink
  (by intro p hp; simp at hp; rcases hp with rfl | rfl | rfl <;> rfl) (by simp) ha hb

end PyFCM
