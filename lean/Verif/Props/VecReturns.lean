import Verif.Lemmas.VecRuns
/-
C94: when the vectorised engine returns, and what it records.
-/
namespace PyFCM
open Arith Spec

section Runs
variable {α : Type} [Arith α] [Exact α]

/-- C94: what the vectorised engine records. -/
theorem C94_records {m m' : FCM α} (hr : CleanReachable m) (hd : m.debug = false) (hne : m.topology ≠ []) (hf : VecFair m)
    {x : Nat → String → α} (h0 : ∀ k ∈ m.topology.keys, x 0 k = at' m.traj 0 k) (hx : Orbit m.net m.topology.keys x)
    (h2 : ∀ t, ∀ k ∈ m.topology.keys, (x t k =? lit 2) = false) (h : FCM.runInference true m = (.ok (), m')) :
    ∃ l : Nat, (l : Int) ≤ m.maxIter ∧ StopsAt (Level m.topology.keys x m.stabilityDiff) m.extraSteps l ∧
      ∀ k ∈ m.topology.keys, m'.traj k = (List.range (if (l : Int) < m.maxIter then l else l - 1)).map (x · k) :=
  vec_records hr.clean hr.reachable.coherent hd hne hf.args h0 (by rw [hf.vector]; exact hx) h2 h

/-- C94: when the vectorised engine returns. -/
theorem C94_returns {m : FCM α} (hr : CleanReachable m) (hd : m.debug = false) (hne : m.topology ≠ []) (hf : VecFair m)
    (hdec : m.decisionName ≠ "EXITED")
    {x : Nat → String → α} (h0 : ∀ k ∈ m.topology.keys, x 0 k = at' m.traj 0 k) (hx : Orbit m.net m.topology.keys x)
    (h2 : ∀ t, ∀ k ∈ m.topology.keys, (x t k =? lit 2) = false) :
    (FCM.runInference true m).1 = .ok () ↔
      ∃ l : Nat, (l : Int) ≤ m.maxIter ∧ m.extraSteps < l ∧
        ∀ s, l - m.extraSteps ≤ s → s < l → Level m.topology.keys x m.stabilityDiff s :=
  vec_returns hr.clean hr.reachable.coherent hd hne hf.args hdec h0 (by rw [hf.vector]; exact hx) h2

/-- C94: when the vectorised engine returns, also with EXITED, which finds no value if `extra_steps + 1` states are recorded. -/
theorem C94_decides {m : FCM α} (hr : CleanReachable m) (hd : m.debug = false) (hne : m.topology ≠ []) (hf : VecFair m)
    {x : Nat → String → α} (h0 : ∀ k ∈ m.topology.keys, x 0 k = at' m.traj 0 k) (hx : Orbit m.net m.topology.keys x)
    (h2 : ∀ t, ∀ k ∈ m.topology.keys, (x t k =? lit 2) = false) :
    (FCM.runInference true m).1 = .ok () ↔
      ∃ l : Nat, (l : Int) ≤ m.maxIter ∧ StopsAt (Level m.topology.keys x m.stabilityDiff) m.extraSteps l ∧
        (m.decisionName = "EXITED" → (if (l : Int) < m.maxIter then l else l - 1) ≠ m.extraSteps + 1) :=
  vec_returns_iff hr.clean hr.reachable.coherent hd hne hf.args h0 (by rw [hf.vector]; exact hx) h2

end Runs

/-! ### Real arithmetic -/

/-- C94, real arithmetic: it is enough that the functions have proper parameters and the map starts in [-1,1]. -/
theorem C94_real {m : FCM ℝ} (hr : CleanReachable m) (hd : m.debug = false) (hne : m.topology ≠ []) (hf : VecFair m)
    (hdec : m.decisionName ≠ "EXITED")
    (hn : ∀ c n f, m.topology.get? c = some n → n.fn = some f → ProperArgs f ∧ TameArgs f)
    (h0 : ∀ c ∈ m.topology.keys, -1 ≤ at' m.traj 0 c ∧ at' m.traj 0 c ≤ 1) :
    ∃ x, (∀ k ∈ m.topology.keys, x 0 k = at' m.traj 0 k) ∧ Orbit m.net m.topology.keys x ∧
      (∀ t, ∀ k ∈ m.topology.keys, -1 ≤ x t k ∧ x t k ≤ 1) ∧
      ((FCM.runInference true m).1 = .ok () ↔ ∃ l : Nat, (l : Int) ≤ m.maxIter ∧ m.extraSteps < l ∧
        ∀ s, l - m.extraSteps ≤ s → s < l →
          |(m.topology.keys.map (x s)).sum - (m.topology.keys.map (x (s - 1))).sum| < m.stabilityDiff) := by
  obtain ⟨x, e0, hx, hrange⟩ := vec_orbit hr.clean hn h0
  rw [hf.vector] at hx
  refine ⟨x, e0, hx, hrange, ?_⟩
  rw [C94_returns hr hd hne hf hdec e0 hx (not_two hrange)]
  simp only [level_real]

theorem sum_diff_le {cs : List String} {f g : String → ℝ} {ε : ℝ} (h : ∀ c ∈ cs, |f c - g c| ≤ ε) :
    |(cs.map f).sum - (cs.map g).sum| ≤ cs.length * ε := by
  induction cs with
  | nil => simp
  | cons c cs ih =>
    have h1 := h c (by simp)
    have h2 := ih fun d hd => h d (by simp [hd])
    simp only [List.map_cons, List.sum_cons, List.length_cons, Nat.cast_add, Nat.cast_one]
    have : f c + (cs.map f).sum - (g c + (cs.map g).sum) = (f c - g c) + ((cs.map f).sum - (cs.map g).sum) := by ring
    rw [this]
    refine (abs_add_le _ _).trans ?_
    linarith

/-- C94, contracting maps (see C78): with a threshold above 0 and enough iterations allowed the vectorised engine returns. -/
theorem C94_contracting {m : FCM ℝ} (hr : CleanReachable m) (hd : m.debug = false) (hne : m.topology ≠ []) (hf : VecFair m)
    (hdec : m.decisionName ≠ "EXITED") {q : ℝ} (hq : Flat m q) (q0 : 0 ≤ q) (q1 : q ≤ 1)
    (h0 : ∀ c ∈ m.topology.keys, -1 ≤ at' m.traj 0 c ∧ at' m.traj 0 c ≤ 1) {n : Nat}
    (hn : m.topology.length * (q ^ n * 2) < m.stabilityDiff) (hmax : (n : Int) + m.extraSteps + 1 ≤ m.maxIter) :
    ∃ m', FCM.runInference true m = (.ok (), m') := by
  have hlk : m.topology.keys.length = m.topology.length := by simp [Dict.keys]
  obtain ⟨x, e0, hx, hrange, hiff⟩ := C94_real hr hd hne hf hdec (fun c k f a b => by
    obtain ⟨f', ex, um, L, g1, g2, g3, g4, -⟩ := hq c k a
    rw [b] at g1
    cases g1
    exact g4.proper) h0
  have hC := contracting_of hr.reachable hq
  have hO := origins hr.reachable
  have hstep : ∀ t, ∀ c ∈ m.topology.keys, |x (t + 1) c - x t c| ≤ q ^ t * 2 := by
    intro t
    induction t with
    | zero =>
      intro c hc
      have a := hrange 1 c hc
      have b := hrange 0 c hc
      rw [abs_le]
      constructor <;> linarith
    | succ t ih =>
      intro c hc
      have := next_diff hC hO (ih) hc (hx (t + 1) c hc) (hx t c hc)
      rw [pow_succ]
      calc _ ≤ q * (q ^ t * 2) := this
        _ = q ^ t * q * 2 := by ring
  have hok := hiff.2 ⟨n + m.extraSteps + 1, by push_cast; omega, by omega, fun s a b => ?_⟩
  · exact ⟨_, by rw [← hok]⟩
  · have hs : n ≤ s - 1 := by omega
    have e : s - 1 + 1 = s := by omega
    have := sum_diff_le (cs := m.topology.keys) (f := x s) (g := x (s - 1)) (ε := q ^ n * 2) fun c hc => by
      have h1 := hstep (s - 1) c hc
      rw [e] at h1
      have h2 : q ^ (s - 1) ≤ q ^ n := pow_le_pow_of_le_one q0 q1 hs
      linarith
    rw [hlk] at this
    linarith

namespace Ex

/-- `Ex.flat` with `debug = False`: run by the vectorised engine. -/
noncomputable def vflat (x : ℝ) : FCM ℝ := runOps [.assignDebug false] (flat x)

theorem vflat_clean (x : ℝ) : CleanReachable (vflat x) := cleanReachable_of (flat_clean x) [.assignDebug false] rfl
theorem vflat_keys (x : ℝ) : (vflat x).topology.keys = ["a", "b"] := rfl
theorem vflat_topology (x : ℝ) : (vflat x).topology = (flat x).topology := rfl
theorem vflat_arcs (x : ℝ) : (vflat x).arcList = (flat x).arcList := rfl

theorem vflat_fair (x : ℝ) : VecFair (vflat x) := by
  have hnode : ∀ c n, (vflat x).topology.get? c = some n → n.active = true ∧ n.fn = some ⟨.sigmoid, "sigmoid", []⟩ := by
    intro c n hn
    have hk : c ∈ (vflat x).topology.keys := Dict.mem_keys_of_get? hn
    rw [vflat_keys] at hk
    obtain ⟨o, g, a, f, -⟩ := flat_node x (c := c) (by simpa using hk)
    rw [vflat_topology, g] at hn
    cases hn
    exact ⟨a, f⟩
  refine ⟨fun c n hn => (hnode c n hn).1, ?_, fun c n f hn hf hz => ?_, fun c n f hn hf => ?_⟩
  · rw [vflat_arcs, flat_arcs]
    simp [NoParallel]
  · rw [(hnode c n hn).2] at hf
    cases hf
    simp at hz
  · rw [(hnode c n hn).2] at hf
    cases hf
    exact .inl rfl

theorem vflat_flat (x : ℝ) : Flat (vflat x) (3/8) := flat_flat x

theorem vflat_start {x : ℝ} (h1 : -1 ≤ x) (h2 : x ≤ 1) :
    ∀ c ∈ (vflat x).topology.keys, -1 ≤ at' (vflat x).traj 0 c ∧ at' (vflat x).traj 0 c ≤ 1 := flat_start h1 h2

end Ex

/-- The two concepts together change by at most 2 * (3/8)^t * 2 in step t; with the default threshold 0.001 and the default
bound of 200 steps every run from [-1,1] returns. -/
example {x : ℝ} (h1 : -1 ≤ x) (h2 : x ≤ 1) : ∃ m', FCM.runInference true (Ex.vflat x) = (.ok (), m') :=
  C94_contracting (Ex.vflat_clean x) rfl (by intro h; have := congrArg Dict.keys h; rw [Ex.vflat_keys] at this; cases this)
    (Ex.vflat_fair x) (show "LAST" ≠ "EXITED" by decide) (Ex.vflat_flat x) (by norm_num) (by norm_num)
    (Ex.vflat_start h1 h2) (n := 9)
    (by
      have hd : (Ex.vflat x).stabilityDiff = 1/1000 := by
        show (dec 1 1000 : ℝ) = _
        norm_num [dec]
      have hl : (Ex.vflat x).topology.length = 2 := rfl
      rw [hd, hl]
      norm_num)
    (by show (9 : Int) + (5 : Nat) + 1 ≤ 200; norm_num)

end PyFCM
