import Verif.Lemmas.Decision
import Verif.Lemmas.Frame
import Verif.Lemmas.Repeat
import Verif.Lemmas.RealList
import Verif.Examples
/-
C08, C09: the decision functions.
-/
namespace PyFCM
open Arith Spec

/-! ### C08 -/

section
variable {α : Type} [Arith α]

theorem final_value_of {m m' : FCM α} (hm : Inv m) (h : FCM.runInference true m = (.ok (), m'))
    {c : String} (hc : c ∈ m.topology.keys) :
    ∃ v, m'.getConceptValue c = some v ∧ decideBy m.decisionName (m'.traj c) m.extraSteps = some v := by
  obtain ⟨m1, m2, h1, h2, h3, hf, ha, hm2⟩ := run_after hm h
  obtain ⟨e1, kt1, _⟩ := reset_spec hm h1
  obtain ⟨e3, kt3, hall⟩ := decideAll_spec hm2 h3
  have hset : m2.decisionFn = m.decisionFn ∧ m2.extraSteps = m.extraSteps := by
    have h5 : m2.decisionFn = m1.decisionFn ∧ m2.extraSteps = m1.extraSteps := by
      have := ha.eq
      rw [e3] at this
      have h6 := congrArg FCM.decisionFn this
      have h7 := congrArg FCM.extraSteps this
      exact ⟨h6, h7⟩
    rw [h5.1, h5.2, e1]
    exact ⟨rfl, rfl⟩
  have hk : m2.topology.keys = m.topology.keys := by rw [← kt3, ha.keys, kt1]
  obtain ⟨n, hn⟩ := Dict.exists_get?_of_mem (d := m2.topology) (k := c) (by rw [hk]; exact hc)
  obtain ⟨xs, v, hx, hv, hn'⟩ := hall c n hn
  refine ⟨v, by simp [FCM.getConceptValue, hn'], ?_⟩
  have htr : m'.traj c = xs := by
    unfold FCM.traj; rw [e3]; simp [hx]
  rw [htr, ← decFn_eq hm.dec]
  rw [hset.1, hset.2] at hv
  exact hv

/-- After `run_inference()` (either engine) the value of every concept is what the documented decision function says
about its recorded trajectory. -/
theorem C08_final_value {m m' : FCM α} (hr : Reachable m) (h : FCM.runInference true m = (.ok (), m'))
    {c : String} (hc : c ∈ m.topology.keys) :
    ∃ v, m'.getConceptValue c = some v ∧ decideBy m.decisionName (m'.traj c) m.extraSteps = some v :=
  final_value_of hr.inv h hc

example {c : String} (hc : c ∈ Ex.map1.topology.keys) := C08_final_value Ex.map1_reachable Ex.map1_run hc
example : Ex.map1'.getConceptValue "c" = some 1 ∧ decideBy "LAST" (Ex.map1'.traj "c") 2 = some 1 := by decide +kernel

/-- LAST is a recorded value. -/
theorem C08_last {xs : List α} {extra : Nat} {v : α}
    (h : Decision.last xs ((xs.length : Int) - extra - 1) = .ok v) : v ∈ xs := by
  rw [last_eq, orErr_ok] at h
  unfold decideLast at h
  split at h <;> exact List.mem_of_getElem? h

end

/-- MEAN is the arithmetic mean of the first `k` recorded values, where `k` leaves out the `extra_steps` last ones if
more than `extra_steps + 1` values were recorded, and is everything otherwise. -/
theorem C08_mean {xs : List ℝ} {extra : Nat} {v : ℝ}
    (h : Decision.mean xs ((xs.length : Int) - extra - 1) = .ok v) :
    ∃ k, k = (if extra + 1 < xs.length then xs.length - extra else xs.length) ∧ 0 < k ∧
      v = (xs.take k).sum / k := by
  rw [mean_eq, orErr_ok] at h
  refine ⟨_, rfl, ?_⟩
  unfold decideMean at h
  by_cases hlt : extra + 1 < xs.length
  · rw [if_pos hlt] at h ⊢
    dsimp only at h
    split at h
    · cases h
    · cases h
      refine ⟨by omega, ?_⟩
      rw [total_real, real_lit, List.length_take, Nat.min_eq_left (by omega)]
      simp
  · rw [if_neg hlt] at h ⊢
    dsimp only at h
    split at h
    · cases h
    · rename_i hx
      cases h
      refine ⟨List.length_pos_iff.2 hx, ?_⟩
      rw [total_real, List.take_length, real_lit]
      simp

/-- EXITED is the greatest of the values before the last `extra_steps + 1` ones (of all values if fewer were
recorded). -/
theorem C08_exited {xs : List ℝ} {extra : Nat} {v : ℝ}
    (h : Decision.exited xs ((xs.length : Int) - extra - 1) = .ok v) :
    ∃ ys, ys = (if extra + 1 ≤ xs.length then xs.take (xs.length - extra - 1) else xs) ∧
      v ∈ ys ∧ ∀ y ∈ ys, y ≤ v := by
  rw [exited_eq, orErr_ok] at h
  refine ⟨_, rfl, ?_⟩
  unfold decideExited at h
  by_cases hle : extra + 1 ≤ xs.length
  · rw [if_pos hle] at h ⊢; exact maxOf_real h
  · rw [if_neg hle] at h ⊢; exact maxOf_real h

/-- Whatever the decision function, the decided value lies between any bounds of the recorded values. -/
theorem C08_between {xs : List ℝ} {extra : Nat} {f : DecFn} {v lo hi : ℝ}
    (hb : ∀ x ∈ xs, lo ≤ x ∧ x ≤ hi) (h : f.run xs ((xs.length : Int) - extra - 1) = .ok v) : lo ≤ v ∧ v ≤ hi := by
  cases f with
  | last => exact hb v (C08_last h)
  | mean =>
    obtain ⟨k, hk, hpos, rfl⟩ := C08_mean h
    have hkl : k ≤ xs.length := by rw [hk]; split <;> omega
    have h1 := sum_between (xs := xs.take k) (fun x hx => hb x (List.mem_of_mem_take hx))
    rw [List.length_take, Nat.min_eq_left hkl] at h1
    have hkr : (0 : ℝ) < k := by exact_mod_cast hpos
    constructor
    · rw [le_div_iff₀ hkr]; linarith [h1.1]
    · rw [div_le_iff₀ hkr]; linarith [h1.2]
  | exited =>
    obtain ⟨ys, hys, hv, _⟩ := C08_exited h
    refine hb v ?_
    rw [hys] at hv
    split at hv
    · exact List.mem_of_mem_take hv
    · exact hv

example : (Decision.mean [1, 3, 5, 5] ((([1, 3, 5, 5] : List ℚ).length : Int) - 1 - 1) : Except Err ℚ) = .ok 3 := by
  decide +kernel
example : (Decision.exited [1, 3, 2, 5] ((([1, 3, 2, 5] : List ℚ).length : Int) - 1 - 1) : Except Err ℚ) = .ok 3 := by
  decide +kernel

/-! ### C09 -/

section
variable {α : Type} [Arith α]

theorem decideAll_success {m : FCM α}
    (h : ∀ c ∈ m.topology.keys, ∃ xs v, m.execution.get? c = some xs ∧
      m.decisionFn.run xs ((xs.length : Int) - m.extraSteps - 1) = .ok v) :
    ∃ m', FCM.decideAll m = (.ok (), m') := by
  have hstep : ∀ c ∈ m.topology.keys, ∀ s : FCM α,
      (s.execution = m.execution ∧ s.decisionFn = m.decisionFn ∧ s.extraSteps = m.extraSteps) →
      ∃ s', decideNode c s = (.ok (), s') ∧
        (s'.execution = m.execution ∧ s'.decisionFn = m.decisionFn ∧ s'.extraSteps = m.extraSteps) := by
    intro c hc s hs
    obtain ⟨xs, v, hx, hv⟩ := h c hc
    cases hn : s.topology.get? c with
    | none => exact ⟨s, by simp [decideNode, hn], hs⟩
    | some n =>
      exact ⟨{ s with topology := s.topology.set c { n with value := v } },
        by simp only [decideNode, hn, hs.1, hx, hs.2.1, hs.2.2, hv], hs⟩
  obtain ⟨m', h', _⟩ := forEach_success _ hstep ⟨rfl, rfl, rfl⟩
  exact ⟨m', h'⟩

/-- C09 as stated. -/
def C09_full (α : Type) [Arith α] : Prop := ∀ m : FCM α, Reachable m → m.decisionFn = .last →
  (FCM.runInference true m).1 = .ok () →
  (FCM.runInference true { m with decisionFn := .exited, decisionName := "EXITED" }).1 = .ok ()

/-- EXITED is available exactly when no recorded trajectory has `extra_steps + 1` entries: if the map completes its run
with decision function LAST, then the same map with EXITED completes iff that is so. -/
theorem C09_exited_iff {m m' : FCM α} (hr : Reachable m) (hl : m.decisionFn = .last)
    (h : FCM.runInference true m = (.ok (), m')) :
    (FCM.runInference true { m with decisionFn := .exited, decisionName := "EXITED" }).1 = .ok () ↔
      ∀ c ∈ m.topology.keys, (m'.traj c).length ≠ m.extraSteps + 1 := by
  obtain ⟨m1, m2, h1, h2, h3, hf, ha, hm2⟩ := run_after hr.inv h
  obtain ⟨e1, kt1, _⟩ := reset_spec hr.inv h1
  obtain ⟨e3, kt3, hall⟩ := decideAll_spec hm2 h3
  have hset : m2.decisionFn = .last ∧ m2.extraSteps = m.extraSteps := by
    have := ha.eq
    rw [e3] at this
    have h6 := congrArg FCM.decisionFn this
    have h7 := congrArg FCM.extraSteps this
    have h6' : m2.decisionFn = m1.decisionFn := h6
    have h7' : m2.extraSteps = m1.extraSteps := h7
    rw [h6', h7', e1]
    exact ⟨hl, rfl⟩
  have hk : m2.topology.keys = m.topology.keys := by rw [← kt3, ha.keys, kt1]
  have hrun : FCM.runInference true (m.withDec .exited "EXITED") = FCM.decideAll (m2.withDec .exited "EXITED") := by
    unfold FCM.runInference
    rw [if_pos rfl, reset_comm m, h1]
    dsimp only
    rw [engine_comm m1, h2]
  change (FCM.runInference true (m.withDec .exited "EXITED")).1 = _ ↔ _
  rw [hrun]
  have htr : ∀ c, m'.traj c = m2.traj c := by intro c; unfold FCM.traj; rw [e3]
  have hne : ∀ c ∈ m2.topology.keys, ∃ xs, m2.execution.get? c = some xs ∧ xs ≠ [] ∧ m'.traj c = xs := by
    intro c hc
    obtain ⟨n, hn⟩ := Dict.exists_get?_of_mem hc
    obtain ⟨xs, v, hx, hv, _⟩ := hall c n hn
    refine ⟨xs, hx, ?_, by rw [htr]; simp [FCM.traj, hx]⟩
    rintro rfl
    exact decFn_nil _ _ (by simp; omega) _ hv
  constructor
  · intro hok c hc hlen
    cases hd : FCM.decideAll (m2.withDec .exited "EXITED") with
    | mk r s =>
      rw [hd] at hok
      simp only at hok
      subst hok
      have hinv : Inv (m2.withDec .exited "EXITED") :=
        ⟨hm2.tnd, hm2.xnd, hm2.sub, hm2.ends, hm2.nodes, hm2.dflt, hm2.mapFn, rfl, hm2.extra⟩
      obtain ⟨_, _, hall'⟩ := decideAll_spec hinv hd
      rw [← hk] at hc
      obtain ⟨n, hn⟩ := Dict.exists_get?_of_mem hc
      obtain ⟨xs, v, hx, hv, _⟩ := hall' c n hn
      obtain ⟨ys, hy, hyne, hyt⟩ := hne c hc
      have : xs = ys := by
        have hx' : m2.execution.get? c = some xs := hx
        rw [hy] at hx'; cases hx'; rfl
      subst this
      have hv' : Decision.exited xs ((xs.length : Int) - m2.extraSteps - 1) = .ok v := hv
      rw [exited_eq, orErr_ok] at hv'
      rw [hyt] at hlen
      have := decideExited_eq_none.2 (Or.inr (by rw [hset.2]; exact hlen) : xs = [] ∨ xs.length = m2.extraSteps + 1)
      rw [this] at hv'
      cases hv'
  · intro hlen
    obtain ⟨s, hs⟩ := decideAll_success (m := m2.withDec .exited "EXITED") (by
      intro c hc
      have hc' : c ∈ m2.topology.keys := hc
      obtain ⟨xs, hx, hxne, hxt⟩ := hne c hc'
      have hl := hlen c (by rw [← hk]; exact hc')
      rw [hxt] at hl
      have : decideExited xs m2.extraSteps ≠ none := by
        rw [Ne, decideExited_eq_none, hset.2]
        rintro (h0 | h0)
        · exact hxne h0
        · exact hl h0
      obtain ⟨v, hv⟩ := Option.ne_none_iff_exists'.1 this
      refine ⟨xs, v, hx, ?_⟩
      show Decision.exited xs ((xs.length : Int) - m2.extraSteps - 1) = .ok v
      rw [exited_eq, hv]; rfl)
    rw [hs]

end

/-- `map1` limited to two iterations. -/
def Ex.map1b : FCM ℚ := runOps (Ex.ops1 ++ [.assignMaxIter 2]) Ex.sat0
theorem Ex.map1b_run : FCM.runInference true Ex.map1b = (.ok (), (FCM.runInference true Ex.map1b).2) :=
  Ex.run_eq (by decide +kernel)

/-- C09 for runs in which no trajectory has exactly `extra_steps + 1` entries (otherwise it fails, `C09_exited_iff`). -/
theorem C09_exited_partial {α : Type} [Arith α] {m m' : FCM α} (hr : Reachable m) (hl : m.decisionFn = .last)
    (h : FCM.runInference true m = (.ok (), m'))
    (hn : ∀ c ∈ m.topology.keys, (m'.traj c).length ≠ m.extraSteps + 1) :
    (FCM.runInference true { m with decisionFn := .exited, decisionName := "EXITED" }).1 = .ok () :=
  (C09_exited_iff hr hl h).2 hn

example := C09_exited_partial Ex.map1_reachable rfl Ex.map1_run (by decide +kernel)
example := C09_exited_iff (Ex.reachable_made _ Ex.sat0_new) rfl Ex.map1b_run

/-- The property as documented is false: the run completes with LAST and raises `ValueError` (max of an empty list)
with EXITED. -/
theorem C09_counterexample : ∃ m : FCM ℚ, Reachable m ∧ (FCM.runInference true m).1 = .ok () ∧ m.decisionFn = .last ∧
    (FCM.setMapDecisionFunction "EXITED" m).1 = .ok () ∧
    (FCM.runInference true (FCM.setMapDecisionFunction "EXITED" m).2).1 = .error .valueError :=
  ⟨Ex.map1b, Ex.reachable_made _ Ex.sat0_new, by decide +kernel, rfl, by decide +kernel, by decide +kernel⟩

theorem C09_false : ¬ C09_full ℚ := by
  intro h
  have := h Ex.map1b (Ex.reachable_made _ Ex.sat0_new) rfl (by decide +kernel)
  have e : (FCM.runInference true { Ex.map1b with decisionFn := .exited, decisionName := "EXITED" }).1 = .error .valueError := by
    decide +kernel
  rw [e] at this
  cases this

end PyFCM
