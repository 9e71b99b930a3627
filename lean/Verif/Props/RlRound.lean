import Verif.Props.RlCmeans
import Verif.Props.CmeansRun
import Verif.Lemmas.Prepared
/-
One round of robust-learning fuzzy c-means (C93).  Real arithmetic.
-/
namespace PyFCM
open Arith

namespace Spec

/-- Membership of a sample at `x` in cluster `k`: a Gaussian of the distance, weighted with the proportion. -/
noncomputable def rlShare (V A : Nat → ℝ) (c : Nat) (r1 r2 x : ℝ) (k : Nat) : ℝ :=
  Real.exp ((-(x - V k) ^ 2 + r1 * Real.log (A k)) / r2) /
    ∑ t ∈ Finset.range c, Real.exp ((-(x - V t) ^ 2 + r1 * Real.log (A t)) / r2)

/-- New proportion of cluster `k`: its mean membership and `q` times the entropy term, which lets large clusters grow at
the cost of small ones. -/
noncomputable def rlWeight (P : Nat → Nat → ℝ) (A : Nat → ℝ) (n c : Nat) (q : ℝ) (k : Nat) : ℝ :=
  (∑ i ∈ Finset.range n, P i k) / n + q * A k * (Real.logb 2 (A k) - ∑ t ∈ Finset.range c, A t * Real.logb 2 (A t))

open Classical in
/-- The clusters that are kept: those with a proportion of at least one sample. -/
noncomputable def rlKept (A : Nat → ℝ) (n c : Nat) : List Nat := (List.range c).filter fun k => 1 / (n : ℝ) ≤ A k

/-- `m` is the highest of `f 0`, …, `f (c - 1)`. -/
def Highest (c : Nat) (f : Nat → ℝ) (m : ℝ) : Prop := (∃ k < c, f k = m) ∧ ∀ k < c, f k ≤ m

/-- One round, from `s` to `s'`; `b` tells whether it is the last.  `P i k` is the membership of sample `i` in cluster `k`,
`B` are the new proportions, `K` the kept clusters and `Q` the scaled memberships. -/
def RlStep (error : ℝ) (data : List ℝ) (s s' : RlState ℝ) (b : Bool) : Prop :=
  let n := data.length
  let c := s.alpha.length
  let A := fun k => s.alpha.getD k 0
  let P := fun i => rlShare (s.v.getD · 0) A c s.r1 s.r2 (data.getD i 0)
  let B := rlWeight P A n c (s.r3 / Real.exp (-(s.t : ℝ) / 10))
  let K := rlKept B n c
  let Q := fun i k => P i k / (K.map (P i)).sum
  s'.alpha = K.map (fun k => B k / (K.map B).sum) ∧
  s'.u = some ((List.range n).map fun i => K.map (Q i)) ∧
  s'.v = K.map (fun k => (∑ i ∈ Finset.range n, data.getD i 0 * Q i k) / ∑ i ∈ Finset.range n, Q i k) ∧
  s'.r1 = Real.exp (-(s.t : ℝ) / 10) ∧ s'.r2 = Real.exp (-(s.t : ℝ) / 100) ∧
  (100 ≤ s.t → K.length = c → s'.r3 = 0) ∧
  (¬ (100 ≤ s.t ∧ K.length = c) → ∃ mk mv, Highest c (fun k => (∑ i ∈ Finset.range n, P i k) / n) mk ∧
    Highest c (fun k => A k * ∑ t ∈ Finset.range c, A t * Real.log (A t)) mv ∧ mv < 0 ∧
    s'.r3 = min ((∑ k ∈ Finset.range c, Real.exp (-(n * |B k - A k|))) / c) ((1 - mk) / -mv)) ∧
  (b = true ↔ K.length = 1 ∨ (K.length = c ∧
    Real.sqrt (∑ k ∈ Finset.range c, (s'.v.getD k 0 - s.v.getD k 0) ^ 2) < error)) ∧
  s'.t = (if b then s.t else s.t + 1)

/-- The state before the first round: every sample is the centre of its own cluster. -/
structure RlStart (data : List ℝ) (s : RlState ℝ) : Prop where
  centers : s.v = data
  weights : s.alpha = data.map fun _ => 1 / (data.length : ℝ)
  rates : s.r1 = 1 ∧ s.r2 = 1 ∧ s.r3 = 1
  round : s.t = 1

end Spec

open Spec

theorem list_as_range (l : List ℝ) : l = (List.range l.length).map fun k => l.getD k 0 := by
  apply List.ext_getElem
  · simp
  · intro i h1 h2
    simp [List.getD_eq_getElem?_getD, h1]

theorem zipIdx_as_range (l : List ℝ) : l.zipIdx = (List.range l.length).map fun k => (l.getD k 0, k) := by
  apply List.ext_getElem
  · simp
  · intro i h1 h2
    have : i < l.length := by simpa using h1
    simp [List.getD_eq_getElem?_getD, this]

theorem zip_as_range {a b : List ℝ} {n : Nat} (ha : a.length = n) (hb : b.length = n) :
    a.zip b = (List.range n).map fun k => (a.getD k 0, b.getD k 0) := by
  apply List.ext_getElem
  · simp [ha, hb]
  · intro i h1 h2
    have h3 : i < a.length := by simp at h1; omega
    have h4 : i < b.length := by simp at h1; omega
    simp [List.getD_eq_getElem?_getD, h3, h4]

theorem keepAt_filter_map {β γ : Type} (p : β → Bool) (f : β → γ) : ∀ l : List β, keepAt (l.map p) (l.map f) = (l.filter p).map f
  | [] => rfl
  | a :: l => by
    simp only [List.map_cons, keepAt, List.filter_cons, keepAt_filter_map p f l]
    split <;> rfl

theorem rlRow_real {v alpha : List ℝ} {r1 r2 : ℝ} {c : Nat} (x : ℝ) (hc : 0 < c) (hv : v.length = c) (hl : alpha.length = c)
    (ha : ∀ a ∈ alpha, 0 < a) (h2 : 0 < r2) :
    rlRow v alpha r1 r2 x = .ok ((List.range c).map (rlShare (v.getD · 0) (alpha.getD · 0) c r1 r2 x)) := by
  unfold rlRow
  rw [zip_as_range hv hl, mapM_map]
  have e : ∀ k ∈ List.range c, rlKernel r1 r2 x (v.getD k 0) (alpha.getD k 0) =
      .ok (Real.exp ((-(x - v.getD k 0) ^ 2 + r1 * Real.log (alpha.getD k 0)) / r2)) := by
    intro k hk
    have hk := List.mem_range.1 hk
    have hk' : k < alpha.length := hl ▸ hk
    have hp : 0 < alpha.getD k 0 := by
      have := ha _ (List.getElem_mem hk')
      simpa [List.getD_eq_getElem?_getD, hk'] using this
    unfold rlKernel
    rw [plog_ok hp]
    show (pdiv _ r2 >>= _) = _
    rw [pdiv_real h2.ne']
    show Except.ok (Real.exp _) = _
    congr 4
    show -(|x - v.getD k 0| * |x - v.getD k 0|) = _
    rw [abs_mul_abs_self, pow_two]
  rw [mapM_ok_of e]
  show ((List.range c).map _).mapM _ = _
  rw [pysum_real, list_sum_range, mapM_map]
  refine mapM_ok_of fun k _ => ?_
  have : 0 < ∑ t ∈ Finset.range c, Real.exp ((-(x - v.getD t 0) ^ 2 + r1 * Real.log (alpha.getD t 0)) / r2) :=
    Finset.sum_pos (fun t _ => Real.exp_pos _) (Finset.nonempty_range_iff.2 hc.ne')
  exact pdiv_real this.ne'

/-- The memberships of all samples. -/
theorem rlComputeU_real {data v alpha : List ℝ} {r1 r2 : ℝ} {c : Nat} (hc : 0 < c) (hv : v.length = c) (hl : alpha.length = c)
    (ha : ∀ a ∈ alpha, 0 < a) (h2 : 0 < r2) :
    rlComputeU data v alpha r1 r2 = .ok ((List.range data.length).map fun i =>
      (List.range c).map (rlShare (v.getD · 0) (alpha.getD · 0) c r1 r2 (data.getD i 0))) := by
  unfold rlComputeU
  conv_lhs => rw [list_as_range data]
  rw [mapM_map]
  exact mapM_ok_of fun i _ => rlRow_real _ hc hv hl ha h2

theorem getD_map_range {f : Nat → ℝ} {c k : Nat} (hk : k < c) : ((List.range c).map f).getD k 0 = f k := by
  simp [List.getD_eq_getElem?_getD, hk]

theorem rlUpdateAlpha_real {alpha : List ℝ} {P : Nat → Nat → ℝ} {n c : Nat} {r1 r3 : ℝ} (hn : 0 < n) (hl : alpha.length = c) (hr : r1 ≠ 0) :
    rlUpdateAlpha ((List.range n).map fun i => (List.range c).map (P i)) alpha r1 r3 =
      .ok ((List.range c).map (rlWeight P (alpha.getD · 0) n c (r3 / r1))) := by
  have hn' : (n : ℝ) ≠ 0 := by exact_mod_cast hn.ne'
  unfold rlUpdateAlpha
  dsimp only
  rw [zipIdx_as_range, hl, mapM_map]
  refine mapM_ok_of fun k hk => ?_
  have hk := List.mem_range.1 hk
  dsimp only
  rw [mapM_map, mapM_ok_of (g := fun i => P i k + r3 / r1 * alpha.getD k 0 *
    (Real.logb 2 (alpha.getD k 0) - ∑ t ∈ Finset.range c, alpha.getD t 0 * Real.logb 2 (alpha.getD t 0)))]
  · show pdiv _ _ = _
    have e : (lit (((List.range n).map fun i => (List.range c).map (P i)).length : Int) : ℝ) = n := by simp
    rw [e, pdiv_real hn', pysum_real, list_sum_range, Finset.sum_add_distrib]
    unfold rlWeight
    simp only [Finset.sum_const, Finset.card_range, nsmul_eq_mul]
    congr 1
    field_simp
  · intro i _
    rw [pdiv_real hr]
    show Except.ok _ = Except.ok _
    have e0 : (lit 0 : ℝ) = 0 := by simp
    rw [e0, getD_map_range hk, pysum_real, map_sum_getD _ 0 alpha hl]
    rfl

theorem pymax_highest {c : Nat} {f : Nat → ℝ} (hc : 0 < c) : ∃ m, pymax ((List.range c).map f) = .ok m ∧ Highest c f m := by
  obtain ⟨m, h⟩ := pymax_exists (xs := (List.range c).map f) (by simp; omega)
  obtain ⟨h1, h2⟩ := pymax_real h
  refine ⟨m, h, ?_, fun k hk => h2 _ (List.mem_map.2 ⟨k, List.mem_range.2 hk, rfl⟩)⟩
  obtain ⟨k, hk, e⟩ := List.mem_map.1 h1
  exact ⟨k, List.mem_range.1 hk, e⟩

theorem column_grid {P : Nat → Nat → ℝ} {n c k : Nat} (hk : k < c) :
    column ((List.range n).map fun i => (List.range c).map (P i)) k = (List.range n).map fun i => P i k := by
  rw [column_real, List.map_map]
  exact List.map_congr_left fun i _ => getD_map_range hk

theorem rlUpdateR3_real {alpha : List ℝ} {P : Nat → Nat → ℝ} {B : Nat → ℝ} {n c : Nat} {r3 : ℝ} (hn : 0 < n) (hc : 2 ≤ c) (hl : alpha.length = c)
    (ha : ∀ a ∈ alpha, 0 < a) (hsum : alpha.sum = 1)
    (h : rlUpdateR3 alpha ((List.range c).map B) ((List.range n).map fun i => (List.range c).map (P i)) = .ok r3) :
    ∃ mk mv, Highest c (fun k => (∑ i ∈ Finset.range n, P i k) / n) mk ∧
      Highest c (fun k => alpha.getD k 0 * ∑ t ∈ Finset.range c, alpha.getD t 0 * Real.log (alpha.getD t 0)) mv ∧ mv < 0 ∧
      r3 = min ((∑ k ∈ Finset.range c, Real.exp (-(n * |B k - alpha.getD k 0|))) / c) ((1 - mk) / -mv) := by
  have hn' : (n : ℝ) ≠ 0 := by exact_mod_cast hn.ne'
  have hc' : (c : ℝ) ≠ 0 := by exact_mod_cast (by omega : c ≠ 0)
  have hlt : ∀ a ∈ alpha, a < 1 := fun a h => hsum ▸ lt_sum_of_mem ha (by omega) a h
  have hA : ∀ k < c, 0 < alpha.getD k 0 ∧ alpha.getD k 0 < 1 := by
    intro k hk
    have hk' : k < alpha.length := hl ▸ hk
    have e : alpha.getD k 0 = alpha[k] := by simp [List.getD_eq_getElem?_getD, hk']
    rw [e]
    exact ⟨ha _ (List.getElem_mem hk'), hlt _ (List.getElem_mem hk')⟩
  have hs : ∑ t ∈ Finset.range c, alpha.getD t 0 * Real.log (alpha.getD t 0) < 0 :=
    Finset.sum_neg (fun t ht => mul_neg_of_pos_of_neg (hA t (Finset.mem_range.1 ht)).1
      (Real.log_neg (hA t (Finset.mem_range.1 ht)).1 (hA t (Finset.mem_range.1 ht)).2)) (Finset.nonempty_range_iff.2 (by omega))
  obtain ⟨mk, k1, k2⟩ := pymax_highest (c := c) (f := fun k => (∑ i ∈ Finset.range n, P i k) / n) (by omega)
  obtain ⟨mv, v1, v2⟩ := pymax_highest (c := c)
    (f := fun k => alpha.getD k 0 * ∑ t ∈ Finset.range c, alpha.getD t 0 * Real.log (alpha.getD t 0)) (by omega)
  have hmv : mv < 0 := by
    obtain ⟨k, hk, e⟩ := v2.1
    rw [← e]
    exact mul_neg_of_pos_of_neg (hA k hk).1 hs
  refine ⟨mk, mv, k2, v2, hmv, ?_⟩
  have e0 : alpha = (List.range c).map fun k => alpha.getD k 0 := hl ▸ list_as_range alpha
  have e1 : alpha.mapM (fun a => do let l ← plog a; return a * l) =
      .ok ((List.range c).map fun k => alpha.getD k 0 * Real.log (alpha.getD k 0)) := by
    conv_lhs => rw [e0]
    rw [mapM_map]
    refine mapM_ok_of fun k hk => ?_
    rw [plog_ok (hA k (List.mem_range.1 hk)).1]
    rfl
  have e2 : (lit (((List.range n).map fun i => (List.range c).map (P i)).length : Int) : ℝ) = n := by simp
  have e3 : (List.range alpha.length).mapM (fun k => pdiv (pysum (column ((List.range n).map fun i => (List.range c).map (P i)) k))
      (lit (((List.range n).map fun i => (List.range c).map (P i)).length : Int) : ℝ)) =
      .ok ((List.range c).map fun k => (∑ i ∈ Finset.range n, P i k) / n) := by
    rw [hl, e2]
    refine mapM_ok_of fun k hk => ?_
    rw [pdiv_real hn', column_grid (List.mem_range.1 hk), pysum_real, list_sum_range]
  have e4 : alpha.map (fun a => a * pysum ((List.range c).map fun k => alpha.getD k 0 * Real.log (alpha.getD k 0))) =
      (List.range c).map fun k => alpha.getD k 0 * ∑ t ∈ Finset.range c, alpha.getD t 0 * Real.log (alpha.getD t 0) := by
    rw [pysum_real, list_sum_range]
    conv_lhs => rw [e0]
    rw [List.map_map]
    refine List.map_congr_left fun k hk => ?_
    rw [← e0]
    rfl
  have e5 : (List.zipWith (fun a b => exp (lit (-1) * lit (((List.range n).map fun i => (List.range c).map (P i)).length : Int) * Arith.abs (b - a)))
      alpha ((List.range c).map B)).sum = ∑ k ∈ Finset.range c, Real.exp (-(n * |B k - alpha.getD k 0|)) := by
    rw [zip_sum _ hl (by simp)]
    refine Finset.sum_congr rfl fun k hk => ?_
    rw [getD_map_range (Finset.mem_range.1 hk), e2]
    show Real.exp (((-1 : Int) : ℝ) * n * |_|) = _
    congr 1
    push_cast
    ring
  unfold rlUpdateR3 at h
  rw [e1] at h
  dsimp only [bind, Except.bind] at h
  rw [e3, e4, v1, pysum_real, e5, hl] at h
  dsimp only at h
  have e6 : (lit (c : Int) : ℝ) = c := by simp
  rw [e6, pdiv_real hc'] at h
  dsimp only at h
  rw [k1] at h
  dsimp only at h
  rw [pdiv_real (by linarith : -mv ≠ 0)] at h
  dsimp only at h
  cases h
  have e7 : (lit 1 : ℝ) = 1 := by simp
  rw [e7]
  split
  · rename_i hlt'
    rw [min_eq_right (by simpa using (le_of_lt ((real_lt _ _).1 hlt')))]
  · rename_i hlt'
    rw [min_eq_left (by simpa using hlt')]

open Classical in
theorem rlResize_real {P : Nat → Nat → ℝ} {B : Nat → ℝ} {n c : Nat} (hn : 0 < n) :
    rlResize ((List.range c).map B) ((List.range n).map fun i => (List.range c).map (P i)) =
      .ok ((rlKept B n c).map fun k => B k / ((rlKept B n c).map B).sum,
        (List.range n).map fun i => (rlKept B n c).map fun k => P i k / ((rlKept B n c).map (P i)).sum) := by
  have hn' : (n : ℝ) ≠ 0 := by exact_mod_cast hn.ne'
  unfold rlResize
  rw [mapM_map, mapM_ok_of (g := fun k => decide (1 / (n : ℝ) ≤ B k))]
  · show Except.ok _ = Except.ok _
    congr 2
    · unfold normRow
      rw [keepAt_filter_map, pysum_real, List.map_map]
      rfl
    · rw [List.map_map]
      refine List.map_congr_left fun i _ => ?_
      dsimp only [Function.comp]
      unfold normRow
      rw [keepAt_filter_map, pysum_real, List.map_map]
      rfl
  · intro k _
    have e : (lit (((List.range n).map fun i => (List.range c).map (P i)).length : Int) : ℝ) = n := by simp
    have e1 : (lit 1 : ℝ) = 1 := by simp
    rw [e, e1, pdiv_real hn']
    rfl

theorem rlUpdateV_real {data : List ℝ} {n : Nat} (hn : data.length = n) (K : List Nat) (Q : Nat → Nat → ℝ) :
    rlUpdateV data ((List.range n).map fun i => K.map (Q i)) K.length =
      K.map fun k => (∑ i ∈ Finset.range n, data.getD i 0 * Q i k) / ∑ i ∈ Finset.range n, Q i k := by
  apply List.ext_getElem
  · simp [rlUpdateV]
  · intro p h1 h2
    have hp : p < K.length := by simpa [rlUpdateV] using h1
    have hcol : column ((List.range n).map fun i => K.map (Q i)) p = (List.range n).map fun i => Q i K[p] := by
      rw [column_real, List.map_map]
      refine List.map_congr_left fun i _ => ?_
      simp [List.getD_eq_getElem?_getD, hp]
    simp only [rlUpdateV, List.getElem_map, List.getElem_range, hcol, pysum_real]
    rw [zip_sum _ hn (by simp), list_sum_range]
    congr 1
    exact Finset.sum_congr rfl fun i hi => by rw [getD_map_range (Finset.mem_range.1 hi)]

/-- C93: one round from a valid mixture with at least two clusters.  Membership is a Gaussian of the distance weighted
with the proportion of the cluster; the new proportions follow the mean memberships and the entropy; clusters with less
than one sample are dropped and the rest is scaled to sum 1; the new centres are the weighted means of the samples; the
rates fall with the number `t` of the round.  The loop ends with a single cluster or when the centres moved less than
`error`. -/
theorem C93_round {error : ℝ} {data : List ℝ} {s s' : RlState ℝ} {b : Bool} (hm : Mixture data s) (h2 : 2 ≤ s.alpha.length)
    (hr2 : 0 < s.r2) (hx : rlRound error data s = .ok (s', b)) :
    RlStep error data s s' b := by
  unfold RlStep
  intro n c A P B K Q
  have hn : 0 < n := by have := hm.few; show 0 < data.length; omega
  have hc : 0 < c := by show 0 < s.alpha.length; omega
  have hU : rlComputeU data s.v s.alpha s.r1 s.r2 = .ok ((List.range n).map fun i => (List.range c).map (P i)) :=
    rlComputeU_real hc hm.centers rfl hm.pos hr2
  have e1 : (exp (lit (-(s.t : Int)) / lit 10) : ℝ) = Real.exp (-(s.t : ℝ) / 10) := by
    show Real.exp _ = _
    congr 1
    show ((-(s.t : Int) : Int) : ℝ) / ((10 : Int) : ℝ) = _
    push_cast
    rfl
  have e2 : (exp (lit (-(s.t : Int)) / lit 100) : ℝ) = Real.exp (-(s.t : ℝ) / 100) := by
    show Real.exp _ = _
    congr 1
    show ((-(s.t : Int) : Int) : ℝ) / ((100 : Int) : ℝ) = _
    push_cast
    rfl
  unfold rlRound at hx
  dsimp only at hx
  rw [e1, e2] at hx
  obtain ⟨u, q1, hx⟩ := except_bind_ok hx
  cases hU.symm.trans q1
  obtain ⟨na, q2, hx⟩ := except_bind_ok hx
  have hB : rlUpdateAlpha ((List.range n).map fun i => (List.range c).map (P i)) s.alpha (Real.exp (-(s.t : ℝ) / 10)) s.r3 =
      .ok ((List.range c).map B) := rlUpdateAlpha_real hn rfl (Real.exp_pos _).ne'
  cases hB.symm.trans q2
  obtain ⟨r3, q3, hx⟩ := except_bind_ok hx
  have hR := rlUpdateR3_real hn h2 rfl hm.pos hm.sum q3
  obtain ⟨r, q4, hx⟩ := except_bind_ok hx
  have hK : rlResize ((List.range c).map B) ((List.range n).map fun i => (List.range c).map (P i)) =
      .ok (K.map (fun k => B k / (K.map B).sum), (List.range n).map fun i => K.map (Q i)) := rlResize_real hn
  cases hK.symm.trans q4
  have hV := rlUpdateV_real (data := data) (n := n) rfl K Q
  have hlen : (K.map fun k => B k / (K.map B).sum).length = K.length := by simp
  dsimp only at hx
  rw [hlen, hV] at hx
  cases hx
  have h0 : (lit 0 : ℝ) = 0 := by simp
  refine ⟨rfl, rfl, rfl, rfl, rfl, fun t1 t2 => ?_, fun t1 => ?_, ?_, rfl⟩
  · dsimp only
    rw [if_pos ⟨t1, t2.symm⟩, h0]
  · dsimp only
    rw [if_neg (fun q => t1 ⟨q.1, q.2.symm⟩)]
    exact hR
  · unfold rlStop
    have hv : s.v.length = c := hm.centers
    simp only [Bool.or_eq_true, Bool.and_eq_true, beq_iff_eq, hlen, List.length_map, hv, real_lt]
    refine or_congr Iff.rfl (and_congr_right fun hk => ?_)
    rw [pysum_real, zip_sum (n := c) _ (by simpa using hk) hv]
    simp only [pow_two]
    rfl

theorem rlLoop_run {error : ℝ} {data : List ℝ} : ∀ (fuel : Nat) (s s' : RlState ℝ), Mixture data s → 2 ≤ s.alpha.length →
    0 < s.r1 → 0 < s.r2 → rlLoop error data fuel s = .ok s' →
    ∃ (p : Nat) (seq : Nat → RlState ℝ), p ≤ fuel ∧ seq 0 = s ∧ seq p = s' ∧
      (∀ i, i + 1 < p → RlStep error data (seq i) (seq (i + 1)) false) ∧
      (∀ i, i + 1 = p → ∃ b, RlStep error data (seq i) (seq (i + 1)) b ∧ (p < fuel → b = true)) ∧ (p = 0 → fuel = 0)
  | 0, s, s', _, _, _, _, hx => by
    cases hx
    exact ⟨0, fun _ => s, le_rfl, rfl, rfl, fun i h => by omega, fun i h => by omega, fun _ => rfl⟩
  | fuel + 1, s, s', h, h2, hr1, hr2, hx => by
    obtain ⟨s1, b, k1, k2, -, k4, k5, k6, -, -, -⟩ := rlRound_ok (error := error) h h2 hr1 hr2
    have hs := C93_round h h2 hr2 k1
    unfold rlLoop at hx
    rw [k1] at hx
    cases b with
    | true =>
      cases hx
      refine ⟨1, fun i => if i = 0 then s else s1, by omega, rfl, rfl, fun i h => by omega, fun i h => ?_, fun h => by omega⟩
      obtain rfl : i = 0 := by omega
      exact ⟨true, hs, fun _ => rfl⟩
    | false =>
      obtain ⟨p, seq, a1, a2, a3, a4, a5, a6⟩ := rlLoop_run fuel s1 s' k2 (k4 rfl) k5 k6 hx
      refine ⟨p + 1, fun i => if i = 0 then s else seq (i - 1), by omega, rfl, by simpa using a3, ?_, ?_, fun h => by omega⟩
      · intro i hi
        rcases i with _ | i
        · simpa [a2] using hs
        · simpa using a4 i (by omega)
      · intro i hi
        rcases i with _ | i
        · obtain rfl : p = 0 := by omega
          have := a6 rfl
          exact ⟨false, by simpa [a2] using hs, fun h => by omega⟩
        · obtain ⟨b, b1, b2⟩ := a5 i (by omega)
          exact ⟨b, by simpa using b1, fun h => b2 (by omega)⟩

/-- C93: the whole run.  It starts with every sample as its own cluster and does rounds until one is the last (see `RlStep`),
at most `maxIter - 1`. -/
theorem C93_run {error : ℝ} (maxIter : Nat) {data : List ℝ} (hd : 2 ≤ data.length) :
    ∃ (s : RlState ℝ) (p : Nat) (seq : Nat → RlState ℝ), rlCmeans error maxIter data = .ok s ∧ p ≤ maxIter - 1 ∧
      RlStart data (seq 0) ∧ seq p = s ∧ (∀ i, i + 1 < p → RlStep error data (seq i) (seq (i + 1)) false) ∧
      (∀ i, i + 1 = p → ∃ b, RlStep error data (seq i) (seq (i + 1)) b ∧ (p < maxIter - 1 → b = true)) ∧
      (p = 0 → maxIter ≤ 1) := by
  have hn : (0 : ℝ) < data.length := by exact_mod_cast (by omega : 0 < data.length)
  obtain ⟨s0, i1, i2, i3, i4, i5⟩ := rlInit_ok hd
  obtain ⟨s, l1, -, -⟩ := rlLoop_ok (error := error) (maxIter - 1) s0 i2 (by omega) (by rw [i4]; norm_num) (by rw [i5]; norm_num)
  obtain ⟨p, seq, a1, a2, a3, a4, a5, a6⟩ :=
    rlLoop_run (error := error) (maxIter - 1) s0 s i2 (by omega) (by rw [i4]; norm_num) (by rw [i5]; norm_num) l1
  refine ⟨s, p, seq, ?_, a1, ?_, a3, a4, a5, fun h => by have := a6 h; omega⟩
  · unfold rlCmeans
    rw [i1]
    exact l1
  · rw [a2]
    unfold rlInit at i1
    have e : (lit (data.length : Int) : ℝ) = data.length := by simp
    have e1 : (lit 1 : ℝ) = 1 := by simp
    rw [e, e1, pdiv_real hn.ne'] at i1
    cases i1
    exact ⟨rfl, rfl, ⟨rfl, rfl, rfl⟩, rfl⟩

/-- The hypotheses hold of the initial mixture of three numbers, from which a round runs. -/
example : ∃ s s' b, Mixture [0, 1, 5] s ∧ 2 ≤ s.alpha.length ∧ 0 < s.r2 ∧ rlRound (1 / 2000 : ℝ) [0, 1, 5] s = .ok (s', b) ∧
    RlStep (1 / 2000) [0, 1, 5] s s' b := by
  obtain ⟨s, -, h2, h3, h4, h5⟩ := rlInit_ok (data := [0, 1, 5]) (by decide)
  have hl : 2 ≤ s.alpha.length := by rw [h3]; decide
  have hr : 0 < s.r2 := by rw [h5]; norm_num
  obtain ⟨s', b, h6, -⟩ := rlRound_ok (error := 1 / 2000) h2 hl (by rw [h4]; norm_num) hr
  exact ⟨s, s', b, h2, hl, hr, h6, C93_round h2 hl hr h6⟩

end PyFCM
