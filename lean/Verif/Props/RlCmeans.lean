import Verif.Props.Cmeans
import Verif.Lemmas.Uniq
/-
Robust-learning fuzzy c-means (C48, C64, C65), for one-dimensional data and exact real arithmetic.
-/
namespace PyFCM
open Arith

theorem mapM_exists {β γ : Type} {f : β → Except Err γ} {P : γ → Prop} : ∀ {l : List β},
    (∀ x ∈ l, ∃ y, f x = .ok y ∧ P y) → ∃ ys, l.mapM f = .ok ys ∧ ys.length = l.length ∧ ∀ y ∈ ys, P y
  | [], _ => ⟨[], rfl, rfl, by simp⟩
  | x :: l, h => by
    obtain ⟨y, h1, h2⟩ := h x (by simp)
    obtain ⟨ys, h3, h4, h5⟩ := mapM_exists fun z hz => h z (List.mem_cons_of_mem x hz)
    refine ⟨y :: ys, ?_, by simp [h4], ?_⟩
    · rw [List.mapM_cons, h1, h3]; rfl
    · intro z hz
      rcases List.mem_cons.1 hz with rfl | hz
      · exact h2
      · exact h5 z hz

theorem mapM_ok_of {β γ : Type} {f : β → Except Err γ} {g : β → γ} : ∀ {l : List β}, (∀ x ∈ l, f x = .ok (g x)) →
    l.mapM f = .ok (l.map g)
  | [], _ => rfl
  | x :: l, h => by
    rw [List.mapM_cons, h x (by simp), mapM_ok_of fun z hz => h z (List.mem_cons_of_mem x hz)]
    rfl

/-- The memberships of a sample in `c` clusters: positive, summing to 1. -/
def Spec.RowOk (c : Nat) (row : List ℝ) : Prop := row.length = c ∧ (∀ x ∈ row, 0 < x) ∧ row.sum = 1

theorem sum_div {xs : List ℝ} (s : ℝ) : (xs.map fun x => x / s).sum = xs.sum / s := by
  simp only [div_eq_mul_inv]
  rw [List.sum_map_mul_right, List.map_id']

theorem rowOk_div {ks : List ℝ} (h : ∀ x ∈ ks, 0 < x) (hne : ks ≠ []) :
    Spec.RowOk ks.length (ks.map fun k => k / ks.sum) := by
  have hp := sum_pos_of h hne
  refine ⟨by simp, ?_, ?_⟩
  · intro x hx
    obtain ⟨k, hk, rfl⟩ := List.mem_map.1 hx
    exact div_pos (h k hk) hp
  · rw [sum_div, div_self hp.ne']

theorem normRow_ok {r : List ℝ} (h : ∀ x ∈ r, 0 < x) (hne : r ≠ []) : Spec.RowOk r.length (normRow r) := by
  unfold normRow
  rw [pysum_real]
  exact rowOk_div h hne

theorem plog_ok {a : ℝ} (h : 0 < a) : plog a = .ok (Real.log a) := by
  unfold plog
  rw [if_pos (by simpa using h)]
  rfl

theorem rlRow_ok {v alpha : List ℝ} {r1 r2 : ℝ} (x : ℝ) (hl : v.length = alpha.length) (hne : alpha ≠ [])
    (ha : ∀ a ∈ alpha, 0 < a) (h2 : 0 < r2) : ∃ row, rlRow v alpha r1 r2 x = .ok row ∧ Spec.RowOk alpha.length row := by
  obtain ⟨ks, k1, k2, k3⟩ := mapM_exists (f := fun p : ℝ × ℝ => rlKernel r1 r2 x p.1 p.2) (P := fun y => 0 < y)
    (l := v.zip alpha) (by
      intro p hp
      have hp2 := ha p.2 (List.of_mem_zip hp).2
      refine ⟨Real.exp ((-(Arith.abs (x - p.1) * Arith.abs (x - p.1)) + r1 * Real.log p.2) / r2), ?_, Real.exp_pos _⟩
      unfold rlKernel
      rw [plog_ok hp2]
      show (pdiv _ r2 >>= _) = _
      rw [pdiv_real h2.ne']
      rfl)
  have hlen : ks.length = alpha.length := by rw [k2]; simp [hl]
  have hks : ks ≠ [] := by
    intro e; rw [e] at hlen; exact hne (List.length_eq_zero_iff.1 hlen.symm)
  refine ⟨ks.map fun k => k / ks.sum, ?_, hlen ▸ rowOk_div k3 hks⟩
  unfold rlRow
  rw [k1]
  show ks.mapM (fun k => pdiv k (pysum ks)) = _
  rw [pysum_real]
  exact mapM_ok_of fun k _ => pdiv_real (sum_pos_of k3 hks).ne'

theorem lt_sum_of_mem : ∀ {l : List ℝ}, (∀ x ∈ l, 0 < x) → 2 ≤ l.length → ∀ x ∈ l, x < l.sum
  | [], _, h, _, _ => by simp at h
  | a :: t, hp, hl, x, hx => by
    have ht : t ≠ [] := by rintro rfl; simp at hl
    have hpt : ∀ y ∈ t, 0 < y := fun y hy => hp y (by simp [hy])
    have h1 := sum_pos_of hpt ht
    have h2 := hp a (by simp)
    simp only [List.sum_cons]
    rcases List.mem_cons.1 hx with rfl | hx
    · linarith
    · have := le_sum_of_mem (fun y hy => (hpt y hy).le) hx
      linarith

theorem sum_zipIdx_fst (l : List ℝ) (g : ℝ → ℝ) : (l.zipIdx.map fun p => g p.1).sum = (l.map g).sum := by
  rw [show (fun p : ℝ × Nat => g p.1) = g ∘ Prod.fst from rfl, ← List.map_map, List.zipIdx_map_fst]

theorem sum_zipIdx_snd (l : List ℝ) (g : Nat → ℝ) :
    (l.zipIdx.map fun p => g p.2).sum = ((List.range l.length).map g).sum := by
  rw [show (fun p : ℝ × Nat => g p.2) = g ∘ Prod.snd from rfl, ← List.map_map, List.zipIdx_map_snd, List.range_eq_range']

theorem rlUpdateAlpha_ok {u : List (List ℝ)} {alpha : List ℝ} {r1 r3 : ℝ} (hu : u ≠ []) (hr1 : 0 < r1)
    (hrow : ∀ r ∈ u, Spec.RowOk alpha.length r) (hsum : alpha.sum = 1) :
    ∃ na, rlUpdateAlpha u alpha r1 r3 = .ok na ∧ na.length = alpha.length ∧ na.sum = 1 := by
  have hn : (0 : ℝ) < u.length := by exact_mod_cast List.length_pos_iff.2 hu
  let L : ℝ := pysum (alpha.map fun a => a * log2 a)
  let q : ℝ := r3 / r1
  let g : ℝ × Nat → ℝ := fun p =>
    ((u.map fun row => row.getD p.2 0).sum + u.length * (q * p.1 * (log2 p.1 - L))) / u.length
  have hL : L = (alpha.map fun a => a * log2 a).sum := pysum_real _
  refine ⟨alpha.zipIdx.map g, ?_, by simp, ?_⟩
  · unfold rlUpdateAlpha
    refine mapM_ok_of fun p _ => ?_
    have h1 : (u.mapM fun row => (do
        let q ← pdiv r3 r1
        return row.getD p.2 (lit 0) + q * p.1 * (log2 p.1 - L)) : Except Err (List ℝ)) =
        .ok (u.map fun row => row.getD p.2 0 + q * p.1 * (log2 p.1 - L)) := by
      refine mapM_ok_of fun row _ => ?_
      rw [pdiv_real hr1.ne']
      have : (lit 0 : ℝ) = 0 := by simp
      rw [this]
      rfl
    rw [show (pysum (alpha.map fun a => a * log2 a) : ℝ) = L from rfl, h1]
    show pdiv _ _ = _
    have e : (lit (u.length : Int) : ℝ) = u.length := by simp
    rw [e, pdiv_real hn.ne', pysum_real]
    show Except.ok _ = Except.ok (g p)
    congr 2
    rw [List.sum_map_add, List.map_const', List.sum_replicate]
    simp
  · have e1 : alpha.zipIdx.map g = alpha.zipIdx.map fun p =>
        (u.map fun row => row.getD p.2 0).sum / u.length + q * (p.1 * log2 p.1 - p.1 * L) := by
      refine List.map_congr_left fun p _ => ?_
      show ((u.map fun row => row.getD p.2 0).sum + u.length * (q * p.1 * (log2 p.1 - L))) / u.length = _
      field_simp
    rw [e1, List.sum_map_add, sum_zipIdx_snd alpha fun k => (u.map fun row => row.getD k 0).sum / u.length,
      sum_zipIdx_fst alpha fun a => q * (a * log2 a - a * L)]
    have e2 : ((List.range alpha.length).map fun k => (u.map fun row => row.getD k 0).sum / (u.length : ℝ)).sum = 1 := by
      have := sum_div (xs := (List.range alpha.length).map fun k => (u.map fun row => row.getD k 0).sum) (u.length : ℝ)
      rw [List.map_map] at this
      rw [show (fun k => (u.map fun row => row.getD k 0).sum / (u.length : ℝ)) =
        (fun x => x / (u.length : ℝ)) ∘ fun k => (u.map fun row => row.getD k 0).sum from rfl, this,
        ← sum_rows_cols fun r hr => (hrow r hr).1]
      have : u.map List.sum = u.map fun _ => (1 : ℝ) := List.map_congr_left fun r hr => (hrow r hr).2.2
      rw [this, List.map_const', List.sum_replicate]
      simp only [nsmul_eq_mul, mul_one]
      exact div_self hn.ne'
    have e3 : (alpha.map fun a => q * (a * log2 a - a * L)).sum = 0 := by
      rw [List.sum_map_mul_left]
      have : (alpha.map fun a => a * log2 a - a * L) = alpha.map fun a => a * log2 a + a * (-L) :=
        List.map_congr_left fun a _ => by ring
      rw [this, List.sum_map_add, List.sum_map_mul_right, List.map_id', hsum, ← hL]
      ring
    rw [e2, e3]
    ring

theorem pymax_exists {xs : List ℝ} (h : xs ≠ []) : ∃ v, pymax xs = .ok v := by
  cases xs with
  | nil => exact absurd rfl h
  | cons x xs => exact ⟨_, rfl⟩

theorem rlUpdateR3_ok {alpha na : List ℝ} {u : List (List ℝ)} (hu : u ≠ []) (hl : 2 ≤ alpha.length)
    (ha : ∀ a ∈ alpha, 0 < a) (hsum : alpha.sum = 1) : ∃ r3, rlUpdateR3 alpha na u = .ok r3 := by
  have hn : (0 : ℝ) < u.length := by exact_mod_cast List.length_pos_iff.2 hu
  have hc : (0 : ℝ) < alpha.length := by exact_mod_cast (by omega : 0 < alpha.length)
  have hne : alpha ≠ [] := by rintro rfl; simp at hl
  have hlt : ∀ a ∈ alpha, a < 1 := fun a h => hsum ▸ lt_sum_of_mem ha hl a h
  unfold rlUpdateR3
  rw [mapM_ok_of (g := fun a : ℝ => a * Real.log a) fun a h => by rw [plog_ok (ha a h)]; rfl]
  have hs : (pysum (alpha.map fun a => a * Real.log a) : ℝ) < 0 := by
    rw [pysum_real]
    have := sum_pos_of (xs := alpha.map fun a => -(a * Real.log a)) (by
      intro x hx
      obtain ⟨a, h, rfl⟩ := List.mem_map.1 hx
      have := mul_neg_of_pos_of_neg (ha a h) (Real.log_neg (ha a h) (hlt a h))
      linarith) (by simpa using hne)
    have e : (alpha.map fun a => -(a * Real.log a)).sum = -(alpha.map fun a => a * Real.log a).sum := by
      have : (fun a : ℝ => -(a * Real.log a)) = fun a => (-1) * (a * Real.log a) := by funext a; ring
      rw [this, List.sum_map_mul_left]
      ring
    linarith
  have e1 : (lit (u.length : Int) : ℝ) = u.length := by simp
  have e2 : (lit (alpha.length : Int) : ℝ) = alpha.length := by simp
  show ∃ r3, ((List.range alpha.length).mapM (fun k => pdiv (pysum (column u k)) (lit (u.length : Int) : ℝ)) >>= _) = _
  rw [e1, mapM_ok_of (g := fun k => pysum (column u k) / (u.length : ℝ)) fun k _ => pdiv_real hn.ne']
  show ∃ r3, (pdiv _ (lit (alpha.length : Int) : ℝ) >>= _) = _
  rw [e2, pdiv_real hc.ne']
  obtain ⟨mku, hk⟩ := pymax_exists (xs := (List.range alpha.length).map fun k => pysum (column u k) / (u.length : ℝ)) (by
    intro e
    have := congrArg List.length e
    simp at this
    exact hne this)
  show ∃ r3, (pymax ((List.range alpha.length).map fun k => pysum (column u k) / (u.length : ℝ)) >>= _) = _
  rw [hk]
  obtain ⟨mv, hm⟩ := pymax_exists (xs := alpha.map fun a => a * (pysum (alpha.map fun a => a * Real.log a) : ℝ)) (by
    simpa using hne)
  show ∃ r3, (pymax (alpha.map fun a => a * (pysum (alpha.map fun a => a * Real.log a) : ℝ)) >>= _) = _
  rw [hm]
  have hmv : mv < 0 := by
    obtain ⟨a, h, e⟩ := List.mem_map.1 (pymax_real hm).1
    rw [← e]
    exact mul_neg_of_pos_of_neg (ha a h) hs
  show ∃ r3, (pdiv _ (-mv) >>= _) = _
  rw [pdiv_real (by linarith : -mv ≠ 0)]
  exact ⟨_, rfl⟩

theorem keepAt_filter (p : ℝ → Bool) : ∀ l : List ℝ, keepAt (l.map p) l = l.filter p
  | [] => rfl
  | a :: l => by
    simp only [List.map_cons, keepAt, List.filter_cons, keepAt_filter p l]

theorem keepAt_count : ∀ (bs : List Bool) (l : List ℝ), l.length = bs.length →
    (keepAt bs l).length = (bs.filter id).length
  | [], l, h => by cases l <;> simp [keepAt] at *
  | b :: bs, [], h => by simp at h
  | b :: bs, a :: l, h => by
    have := keepAt_count bs l (by simpa using h)
    cases b <;> simp [keepAt, this]

theorem keepAt_sub : ∀ (bs : List Bool) (l : List ℝ), ∀ x ∈ keepAt bs l, x ∈ l
  | [], l => by cases l <;> simp [keepAt]
  | b :: bs, [] => by simp [keepAt]
  | b :: bs, a :: l => by
    intro x hx
    unfold keepAt at hx
    split at hx
    · rcases List.mem_cons.1 hx with rfl | hx
      · simp
      · exact List.mem_cons_of_mem _ (keepAt_sub bs l x hx)
    · exact List.mem_cons_of_mem _ (keepAt_sub bs l x hx)

theorem rlResize_ok {alpha : List ℝ} {u : List (List ℝ)} (hu : u ≠ []) (hl : alpha.length ≤ u.length)
    (hsum : alpha.sum = 1) (hrow : ∀ r ∈ u, Spec.RowOk alpha.length r) :
    ∃ r, rlResize alpha u = .ok r ∧ r.1.length ≤ alpha.length ∧ 1 ≤ r.1.length ∧ Spec.RowOk r.1.length r.1 ∧
      r.2.length = u.length ∧ ∀ w ∈ r.2, Spec.RowOk r.1.length w := by
  have hn : (0 : ℝ) < u.length := by exact_mod_cast List.length_pos_iff.2 hu
  let p : ℝ → Bool := fun a => 1 / (u.length : ℝ) ≤? a
  have hp : ∀ a, p a = true ↔ 1 / (u.length : ℝ) ≤ a := fun a => by simp [p]
  -- some proportion is at least the mean
  have hne : alpha.filter p ≠ [] := by
    intro e
    have hall : ∀ a ∈ alpha, a < 1 / (u.length : ℝ) := by
      intro a h
      by_contra hc
      have : a ∈ alpha.filter p := List.mem_filter.2 ⟨h, (hp a).2 (not_lt.1 hc)⟩
      rw [e] at this; cases this
    have h0 : alpha ≠ [] := by rintro rfl; simp at hsum
    have : 0 < (alpha.map fun a => 1 / (u.length : ℝ) + -1 * a).sum := sum_pos_of (by
      intro x hx
      obtain ⟨a, h, rfl⟩ := List.mem_map.1 hx
      linarith [hall a h]) (by simpa using h0)
    rw [List.sum_map_add, List.sum_map_mul_left, List.map_id', hsum, List.map_const', List.sum_replicate, nsmul_eq_mul] at this
    have h1 : (alpha.length : ℝ) * (1 / u.length) ≤ 1 := by
      rw [mul_one_div, div_le_one hn]
      exact_mod_cast hl
    linarith
  have hpos : ∀ a ∈ alpha.filter p, 0 < a := by
    intro a h
    have := (hp a).1 (List.mem_filter.1 h).2
    exact lt_of_lt_of_le (one_div_pos.2 hn) this
  have hlen : (alpha.filter p).length = ((alpha.map p).filter id).length := by
    rw [← keepAt_filter, keepAt_count _ _ (by simp)]
  refine ⟨(normRow (keepAt (alpha.map p) alpha), u.map fun r => normRow (keepAt (alpha.map p) r)), ?_, ?_⟩
  · unfold rlResize
    rw [mapM_ok_of (g := p) fun a _ => by
      have e : (lit (u.length : Int) : ℝ) = u.length := by simp
      have e1 : (lit 1 : ℝ) = 1 := by simp
      rw [e, e1, pdiv_real hn.ne']
      rfl]
    rfl
  · dsimp only
    rw [keepAt_filter]
    have hr := normRow_ok hpos hne
    have e : (normRow (alpha.filter p)).length = (alpha.filter p).length := hr.1
    rw [e]
    refine ⟨List.length_filter_le _ _, List.length_pos_iff.2 hne, hr, by simp, ?_⟩
    intro w hw
    obtain ⟨r, hr, rfl⟩ := List.mem_map.1 hw
    have hk := keepAt_count (alpha.map p) r (by simp [(hrow r hr).1])
    rw [hlen, ← hk]
    refine normRow_ok (fun x hx => (hrow r hr).2.1 x (keepAt_sub _ _ x hx)) ?_
    intro e
    rw [e, ← hlen] at hk
    exact hne (List.length_eq_zero_iff.1 hk.symm)

/-- A valid mixture: positive proportions that sum to 1, at most one cluster per sample and at least one, a centre
for each within the range of the data, and positive memberships that sum to 1 for every sample. -/
structure Spec.Mixture (data : List ℝ) (s : RlState ℝ) : Prop where
  pos : ∀ a ∈ s.alpha, 0 < a
  sum : s.alpha.sum = 1
  some : 1 ≤ s.alpha.length
  few : s.alpha.length ≤ data.length
  centers : s.v.length = s.alpha.length
  range : ∀ c ∈ s.v, (∃ x ∈ data, x ≤ c) ∧ ∃ x ∈ data, c ≤ x
  rows : ∀ u, s.u = .some u → u.length = data.length ∧
    ∀ r ∈ u, r.length = s.alpha.length ∧ (∀ x ∈ r, 0 < x) ∧ r.sum = 1

theorem rlUpdateV_inside {data : List ℝ} {u : List (List ℝ)} {c : Nat} (hd : data ≠ []) (hl : u.length = data.length)
    (hrow : ∀ r ∈ u, Spec.RowOk c r) : ∀ v ∈ rlUpdateV data u c, Spec.Inside data v := by
  intro v hv
  obtain ⟨k, hk, rfl⟩ := List.mem_map.1 hv
  have hk := List.mem_range.1 hk
  have hp : ∀ x ∈ column u k, 0 < x :=
    column_pos (c := u.length) (n := c) ⟨rfl, fun r hr => (hrow r hr).1⟩ (fun r hr => (hrow r hr).2.1) hk
  have hlen : (column u k).length = data.length := by simp [column, hl]
  have := inside_of hlen hd hp
  rwa [List.zipWith_comm_of_comm (f := fun x1 x2 : ℝ => x1 * x2)] at this
  intro x y
  exact mul_comm x y

/-- C48, one round: nothing is divided by zero, no logarithm of a non-positive number is taken, and a valid mixture
of not more clusters comes out. -/
theorem rlRound_ok {error : ℝ} {data : List ℝ} {s : RlState ℝ} (h : Spec.Mixture data s) (h2 : 2 ≤ s.alpha.length)
    (_hr1 : 0 < s.r1) (hr2 : 0 < s.r2) :
    ∃ s' b, rlRound error data s = .ok (s', b) ∧ Spec.Mixture data s' ∧ s'.alpha.length ≤ s.alpha.length ∧
      (b = false → 2 ≤ s'.alpha.length) ∧ 0 < s'.r1 ∧ 0 < s'.r2 ∧ (∃ u, s'.u = some u) ∧
      (∀ c ∈ s'.v, Spec.Inside data c) ∧ s'.t = (if b then s.t else s.t + 1) := by
  have hd : data ≠ [] := by rintro rfl; have := h.few; rw [List.length_nil] at this; omega
  have hne : s.alpha ≠ [] := by intro e; rw [e] at h2; simp at h2
  obtain ⟨u, u1, u2, u3⟩ := mapM_exists (l := data) fun x _ => rlRow_ok (r1 := s.r1) x h.centers hne h.pos hr2
  have hu : u ≠ [] := by
    intro e; rw [e] at u2; exact hd (List.length_eq_zero_iff.1 u2.symm)
  let r1 : ℝ := exp (lit (-(s.t : Int)) / lit 10)
  let r2 : ℝ := exp (lit (-(s.t : Int)) / lit 100)
  have hr1' : 0 < r1 := Real.exp_pos _
  obtain ⟨na, a1, a2, a3⟩ := rlUpdateAlpha_ok (r3 := s.r3) hu hr1' u3 h.sum
  obtain ⟨r3, b1⟩ := rlUpdateR3_ok (na := na) hu h2 h.pos h.sum
  obtain ⟨r, c1, c2, c3, c4, c5, c6⟩ := rlResize_ok (alpha := na) hu (by rw [a2, u2]; exact h.few) a3
    (fun w hw => a2 ▸ u3 w hw)
  have hin := rlUpdateV_inside (u := r.2) hd (by rw [c5, u2]) c6
  have hx : rlRound error data s = .ok (⟨rlUpdateV data r.2 r.1.length, r.1, some r.2, r1, r2,
      if s.t ≥ 100 ∧ s.alpha.length = r.1.length then lit 0 else r3,
      if rlStop error r.1 (rlUpdateV data r.2 r.1.length) s.v then s.t else s.t + 1⟩,
      rlStop error r.1 (rlUpdateV data r.2 r.1.length) s.v) := by
    unfold rlRound rlComputeU
    rw [u1]
    show (rlUpdateAlpha u s.alpha r1 s.r3 >>= _) = _
    rw [a1]
    show (rlUpdateR3 s.alpha na u >>= _) = _
    rw [b1]
    show (rlResize na u >>= _) = _
    rw [c1]
    rfl
  refine ⟨_, _, hx, ⟨c4.2.1, c4.2.2, c3, ?_, by simp [rlUpdateV], ?_, ?_⟩, by dsimp only; omega, ?_, hr1', Real.exp_pos _,
    ⟨_, rfl⟩, hin, rfl⟩
  · dsimp only; have := h.few; omega
  · intro c hc
    exact ⟨(hin c hc).1, (hin c hc).2.1⟩
  · intro w hw
    cases hw
    exact ⟨by rw [c5, u2], c6⟩
  · intro hb
    dsimp only
    unfold rlStop at hb
    rw [Bool.or_eq_false_iff] at hb
    have := hb.1
    simp at this
    omega

theorem rlLoop_ok {error : ℝ} {data : List ℝ} : ∀ (fuel : Nat) (s : RlState ℝ), Spec.Mixture data s → 2 ≤ s.alpha.length →
    0 < s.r1 → 0 < s.r2 → ∃ s', rlLoop error data fuel s = .ok s' ∧ Spec.Mixture data s' ∧ s'.alpha.length ≤ s.alpha.length ∧
      (fuel ≠ 0 → (∃ u, s'.u = some u) ∧ ∀ c ∈ s'.v, Spec.Inside data c)
  | 0, s, h, _, _, _ => ⟨s, rfl, h, le_rfl, fun e => absurd rfl e⟩
  | fuel + 1, s, h, h2, hr1, hr2 => by
    obtain ⟨s1, b, k1, k2, k3, k4, k5, k6, k7, k8, -⟩ := rlRound_ok (error := error) h h2 hr1 hr2
    unfold rlLoop
    rw [k1]
    cases b with
    | true => exact ⟨s1, rfl, k2, k3, fun _ => ⟨k7, k8⟩⟩
    | false =>
      obtain ⟨s', l1, l2, l3, l4⟩ := rlLoop_ok fuel s1 k2 (k4 rfl) k5 k6
      refine ⟨s', l1, l2, l3.trans k3, fun _ => ?_⟩
      by_cases hf : fuel = 0
      · subst hf
        cases l1
        exact ⟨k7, k8⟩
      · exact l4 hf

theorem rlInit_ok {data : List ℝ} (hd : 2 ≤ data.length) : ∃ s, rlInit data = .ok s ∧ Spec.Mixture data s ∧
    s.alpha.length = data.length ∧ s.r1 = 1 ∧ s.r2 = 1 := by
  have hn : (0 : ℝ) < data.length := by exact_mod_cast (by omega : 0 < data.length)
  have e : (lit (data.length : Int) : ℝ) = data.length := by simp
  have e1 : (lit 1 : ℝ) = 1 := by simp
  refine ⟨⟨data, data.map fun _ => 1 / (data.length : ℝ), none, 1, 1, 1, 1⟩, ?_, ⟨?_, ?_, ?_, ?_, ?_, ?_, ?_⟩, by simp, rfl, rfl⟩
  · unfold rlInit
    rw [e, e1, pdiv_real hn.ne']
    rfl
  · intro a h
    obtain ⟨x, -, rfl⟩ := List.mem_map.1 h
    exact one_div_pos.2 hn
  · simp only [List.map_const', List.sum_replicate, nsmul_eq_mul]
    field_simp
  · simp; omega
  · simp
  · simp
  · exact fun c hc => ⟨⟨c, hc, le_rfl⟩, ⟨c, hc, le_rfl⟩⟩
  · intro u h; cases h

/-- C48, C65: on at least two samples, with any number of rounds, the algorithm returns a valid mixture (see
`Spec.Mixture`); once a round has run there are memberships, and the centres are strictly inside the data unless all
samples are equal. -/
theorem C48_mixture {error : ℝ} (maxIter : Nat) {data : List ℝ} (hd : 2 ≤ data.length) :
    ∃ s, rlCmeans error maxIter data = .ok s ∧ Spec.Mixture data s ∧
      (2 ≤ maxIter → (∃ u, s.u = some u) ∧ ∀ c ∈ s.v, Spec.Inside data c) := by
  obtain ⟨s0, h1, h2, h3, h4, h5⟩ := rlInit_ok hd
  obtain ⟨s, k1, k2, -, k3⟩ := rlLoop_ok (error := error) (maxIter - 1) s0 h2 (by omega) (by rw [h4]; norm_num)
    (by rw [h5]; norm_num)
  refine ⟨s, ?_, k2, fun h => k3 (by omega)⟩
  unfold rlCmeans
  rw [h1]
  exact k1

theorem rlLoop_mono {error : ℝ} {data : List ℝ} (j : Nat) : ∀ (k : Nat) (s : RlState ℝ), Spec.Mixture data s →
    2 ≤ s.alpha.length → 0 < s.r1 → 0 < s.r2 → ∀ {a b : RlState ℝ}, rlLoop error data k s = .ok a →
    rlLoop error data (k + j) s = .ok b → b.alpha.length ≤ a.alpha.length
  | 0, s, h, h2, h3, h4, a, b, ha, hb => by
    cases ha
    obtain ⟨s', k1, -, k2, -⟩ := rlLoop_ok (error := error) (0 + j) s h h2 h3 h4
    rw [hb] at k1
    cases k1
    exact k2
  | k + 1, s, h, h2, h3, h4, a, b, ha, hb => by
    obtain ⟨s1, st, k1, k2, k3, k4, k5, k6, -⟩ := rlRound_ok (error := error) h h2 h3 h4
    rw [show k + 1 + j = (k + j) + 1 by omega] at hb
    unfold rlLoop at ha hb
    rw [k1] at ha hb
    cases st with
    | true => cases ha; cases hb; exact le_rfl
    | false => exact rlLoop_mono j k s1 k2 (k4 rfl) k5 k6 ha hb

/-- C48: with more rounds there are never more clusters. -/
theorem C48_shrink {error : ℝ} {data : List ℝ} (hd : 2 ≤ data.length) {k j : Nat} {a b : RlState ℝ}
    (ha : rlCmeans error k data = .ok a) (hb : rlCmeans error (k + j) data = .ok b) :
    b.alpha.length ≤ a.alpha.length := by
  obtain ⟨s0, h1, h2, h3, h4, h5⟩ := rlInit_ok hd
  unfold rlCmeans at ha hb
  rw [h1] at ha hb
  have ha : rlLoop error data (k - 1) s0 = .ok a := ha
  have hb : rlLoop error data (k + j - 1) s0 = .ok b := hb
  by_cases hk : k = 0
  · subst hk
    cases ha
    obtain ⟨s', k1, -, k2, -⟩ := rlLoop_ok (error := error) (0 + j - 1) a h2 (by omega) (by rw [h4]; norm_num)
      (by rw [h5]; norm_num)
    rw [hb] at k1
    cases k1
    exact k2
  · rw [show k + j - 1 = (k - 1) + j by omega] at hb
    exact rlLoop_mono j _ s0 h2 (by omega) (by rw [h4]; norm_num) (by rw [h5]; norm_num) ha hb

/-- On a single sample the first round divides by zero. -/
theorem C48_single {error x : ℝ} {maxIter : Nat} (h : 2 ≤ maxIter) : rlCmeans error maxIter [x] = .error .zeroDivision := by
  have hi : rlInit [x] = .ok (⟨[x], [1], none, 1, 1, 1, 1⟩ : RlState ℝ) := by
    simp [rlInit, pdiv, Arith.eq, bind, Except.bind, pure, Except.pure]
  unfold rlCmeans
  rw [hi]
  show rlLoop error [x] (maxIter - 1) _ = _
  rw [show maxIter - 1 = (maxIter - 2) + 1 by omega]
  unfold rlLoop
  have hr : rlRound error [x] (⟨[x], [1], none, 1, 1, 1, 1⟩ : RlState ℝ) = .error .zeroDivision := by
    obtain ⟨row, h1, h2⟩ := rlRow_ok (v := [x]) (alpha := [(1 : ℝ)]) (r1 := 1) (r2 := 1) x rfl (by simp) (by simp) (by norm_num)
    have hu : rlComputeU [x] [x] [1] 1 1 = .ok [row] := by
      unfold rlComputeU
      rw [List.mapM_cons, h1]
      rfl
    obtain ⟨na, a1, -, -⟩ := rlUpdateAlpha_ok (u := [row]) (alpha := [(1 : ℝ)])
      (r1 := exp (lit (-((1 : Nat) : Int)) / lit 10)) (r3 := 1) (by simp) (Real.exp_pos _) (by simpa using h2) (by simp)
    have h3 : rlUpdateR3 [1] na [row] = .error .zeroDivision := by
      have e : (plog 1 : Except Err ℝ) = .ok 0 := by simp [plog]
      simp [rlUpdateR3, e, pdiv, pymax, List.range_succ, pysum_real, bind, Except.bind, pure, Except.pure]
    unfold rlRound
    rw [hu]
    show (rlUpdateAlpha [row] [1] (exp (lit (-((1 : Nat) : Int)) / lit 10)) 1 >>= _) = _
    rw [a1]
    show (rlUpdateR3 [1] na [row] >>= _) = _
    rw [h3]
    rfl
  rw [hr]
  rfl

/-- A data set and a number of rounds the theorems cover. -/
example := C48_mixture (error := 1 / 2000) 110 (data := [0, 1, 5, 6]) (by simp)
example {a b : RlState ℝ} (ha : rlCmeans (1 / 2000) 3 [0, 1, 5, 6] = .ok a)
    (hb : rlCmeans (1 / 2000) (3 + 4) [0, 1, 5, 6] = .ok b) := C48_shrink (by simp) ha hb

/-! ### C64: the nearest centroid -/

theorem nearestLoop_spec {α : Type} [Arith α] [Ordered α] (x : α) (all : List α) : ∀ (cs : List α) (pos : Nat) (best : α) (res : Nat),
    all.drop pos = cs → res < pos → (all[res]?).map (fun c => Arith.abs (c - x)) = some best →
    (∀ j < pos, ∀ c, all[j]? = some c → (Arith.abs (c - x) <? best) = false) →
    (∀ j < res, ∀ c, all[j]? = some c → (best <? Arith.abs (c - x)) = true) →
    ∃ b, (all[nearestLoop x cs pos best res]?).map (fun c => Arith.abs (c - x)) = some b ∧
      (∀ (j : Nat) c, all[j]? = some c → (Arith.abs (c - x) <? b) = false) ∧
      ∀ j < nearestLoop x cs pos best res, ∀ c, all[j]? = some c → (b <? Arith.abs (c - x)) = true
  | [], pos, best, res, hd, _, h1, h2, h3 => by
    have hl : all.length ≤ pos := by simpa using hd
    exact ⟨best, h1, fun j c hj => h2 j (lt_of_lt_of_le (List.getElem?_eq_some_iff.1 hj).1 hl) c hj, h3⟩
  | c0 :: cs, pos, best, res, hd, hr, h1, h2, h3 => by
    have ho : StrictOrder (Arith.lt : α → α → Bool) := Ordered.lt
    have hc0 : all[pos]? = some c0 := by
      have := congrArg (fun l => l[0]?) hd
      simpa using this
    have hd' : all.drop (pos + 1) = cs := by
      have := congrArg List.tail hd
      simpa using this
    unfold nearestLoop
    split
    · rename_i hlt
      have hle : ∀ j < pos, ∀ c, all[j]? = some c → (Arith.abs (c0 - x) <? Arith.abs (c - x)) = true := by
        intro j hj c hc
        have := h2 j hj c hc
        by_contra hn
        by_cases h' : (best <? Arith.abs (c - x)) = true
        · exact hn (ho.trans _ _ _ hlt h')
        · have := ho.tri _ _ this (by simpa using h')
          rw [this] at hn
          exact hn hlt
      refine nearestLoop_spec x all cs (pos + 1) _ pos hd' (by omega) (by rw [hc0]; rfl) ?_ hle
      intro j hj c hc
      by_cases e : j = pos
      · subst e
        rw [hc0] at hc
        cases hc
        exact ho.irrefl _
      · have := hle j (by omega) c hc
        rw [← Bool.not_eq_true]
        intro h'
        have := ho.trans _ _ _ this h'
        rw [ho.irrefl] at this
        cases this
    · rename_i hlt
      refine nearestLoop_spec x all cs (pos + 1) best res hd' (by omega) h1 ?_ h3
      intro j hj c hc
      by_cases e : j = pos
      · subst e
        rw [hc0] at hc
        cases hc
        simpa using hlt
      · exact h2 j (by omega) c hc

/-- C64: the predicted cluster is the first whose centre is nearest to the sample. -/
theorem C64_nearest {α : Type} [Arith α] [Ordered α] {centroids : List α} {x : α} {k : Nat}
    (h : nearest centroids x = .ok k) : ∃ ck, centroids[k]? = some ck ∧
      (∀ (j : Nat) c, centroids[j]? = some c → (Arith.abs (c - x) <? Arith.abs (ck - x)) = false) ∧
      ∀ j < k, ∀ c, centroids[j]? = some c → (Arith.abs (ck - x) <? Arith.abs (c - x)) = true := by
  have ho : StrictOrder (Arith.lt : α → α → Bool) := Ordered.lt
  cases centroids with
  | nil => cases h
  | cons c0 cs =>
    cases h
    obtain ⟨b, h1, h2, h3⟩ := nearestLoop_spec x (c0 :: cs) cs 1 (Arith.abs (c0 - x)) 0 (by simp) (by omega) (by simp)
      (by
        intro j hj c hc
        obtain rfl : j = 0 := by omega
        simp at hc
        rw [hc]
        exact ho.irrefl _) (by intro j hj; omega)
    obtain ⟨ck, h4, rfl⟩ := Option.map_eq_some_iff.1 h1
    exact ⟨ck, h4, h2, h3⟩

/-- C64: every sample is predicted once there is a centre, and none otherwise. -/
theorem C64_predict {α : Type} [Arith α] {centroids : List α} (h : centroids ≠ []) (xs : List α) :
    ∃ ks, rlPredict centroids xs = .ok ks ∧ ks.length = xs.length ∧
      ∀ (i : Nat) (x : α) (k : Nat), xs[i]? = some x → ks[i]? = some k → nearest centroids x = .ok k := by
  induction xs with
  | nil => exact ⟨[], rfl, rfl, by simp⟩
  | cons y ys ih =>
    obtain ⟨ks, h1, h2, h3⟩ := ih
    obtain ⟨k, hk⟩ : ∃ k, nearest centroids y = .ok k := by
      cases centroids with
      | nil => exact absurd rfl h
      | cons c cs => exact ⟨_, rfl⟩
    refine ⟨k :: ks, ?_, by simp [h2], ?_⟩
    · unfold rlPredict at h1 ⊢
      rw [List.mapM_cons, hk, h1]
      rfl
    · intro i x k' hx hk'
      cases i with
      | zero => simp at hx hk'; subst hx hk'; exact hk
      | succ i => exact h3 i x k' (by simpa using hx) (by simpa using hk')

/-- Of two centres equally near the first is taken. -/
example := C64_nearest (α := ℚ) (centroids := [9, 1, 3]) (x := 2) (k := 1) (by decide +kernel)
example : (rlPredict [9, 1, 3] [(2 : ℚ), 8]).toOption = some [1, 0] := by decide +kernel

end PyFCM
