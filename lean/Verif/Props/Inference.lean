import Verif.Lemmas.RunTop
import Verif.Lemmas.VectorTerm
import Verif.Lemmas.Repeat
import Verif.Examples
/-
C01 - C05: `run_inference`, `reset_execution`, `clear_execution`.  All statements hold in every arithmetic, i.e. also
for floating point.
-/
namespace PyFCM
open Arith Spec

variable {α : Type} [Arith α]

/-! ### C01: the recorded trajectories are the synchronous recurrence -/

/-- After `run_inference()` with the iterative engine, all trajectories have one common length `len ≥ 1`; entry 0 is
the activation set before the run; entry `t + 1` is the recurrence `Spec.next` applied to the entries `t` of *all*
concepts.  The network (concepts, properties, relations) is what it was before. -/
theorem C01_recurrence {m m' : FCM α} (hr : Reachable m) (hd : m.debug = true)
    (h : FCM.runInference true m = (.ok (), m')) :
    ∃ len, 1 ≤ len ∧ IsRun m.net m.topology.keys m'.traj len ∧
      (∀ c ∈ m.topology.keys, m.traj c ≠ [] ∧ at' m'.traj 0 c = at' m.traj 0 c) ∧
      m'.net = m.net ∧ m'.topology.keys = m.topology.keys := by
  obtain ⟨len, r⟩ := run_iter hr.inv hd h
  exact ⟨len, Nat.lt_of_le_of_lt (Nat.zero_le _) r.stops.above, r.run, r.init, r.net, r.keys⟩

example : ∃ len, 1 ≤ len ∧ IsRun Ex.map1.net Ex.map1.topology.keys Ex.map1'.traj len :=
  let ⟨l, a, b, _⟩ := C01_recurrence Ex.map1_reachable rfl Ex.map1_run
  ⟨l, a, b⟩

/-- The recurrence spelled out once on `map1`: from step 1 to step 2 concept `a` moves from 3/4 to
`saturation(3/4 + (2*1 - 1) * (-1/2)) = 1/4`. -/
example : at' Ex.map1'.traj 2 "a" = 1/4 ∧ at' Ex.map1'.traj 1 "a" = 3/4 ∧ at' Ex.map1'.traj 1 "b" = 1 := by
  decide +kernel

/-! ### C02: termination and number of steps -/

/-- `run_inference` never loops forever, whatever the state of the object and whichever engine is selected. -/
theorem C02_terminates (reset : Bool) (m : FCM α) : (FCM.runInference reset m).1 ≠ .error .diverge :=
  run_ne_diverge reset m

/-- Iterative engine: every trajectory has at most `max(max_iter, 1) + (extra_steps - 1)` entries, i.e. at most
`(max_iter - 1) + (extra_steps - 1)` steps are executed when `max_iter ≥ 1`. -/
theorem C02_bound {m m' : FCM α} (hr : Reachable m) (hd : m.debug = true)
    (h : FCM.runInference true m = (.ok (), m')) {c : String} (hc : c ∈ m.topology.keys) :
    ((m'.traj c).length : Int) ≤ max m.maxIter 1 + ((m.extraSteps : Int) - 1) := by
  obtain ⟨len, r⟩ := run_iter hr.inv hd h
  rw [(r.run c hc).1]
  have he := hr.inv.extra
  apply Classical.byContradiction
  intro hlt
  have hw := r.stops.above
  obtain ⟨s, h1, _, hq⟩ := r.stops.least ((max m.maxIter 1).toNat + (m.extraSteps - 1)) (by omega) (by omega)
  exact hq (Or.inl (by omega))

/-- With `stop_at_stabilize=False` and `extra_steps ≥ 2` the number of steps is exactly the bound. -/
theorem C02_exact {m m' : FCM α} (hr : Reachable m) (hd : m.debug = true) (hs : m.stopAtStabilize = false)
    (he : 2 ≤ m.extraSteps) (h : FCM.runInference true m = (.ok (), m')) {c : String} (hc : c ∈ m.topology.keys) :
    ((m'.traj c).length : Int) = max m.maxIter 1 + ((m.extraSteps : Int) - 1) := by
  apply Int.le_antisymm (C02_bound hr hd h hc)
  obtain ⟨len, r⟩ := run_iter hr.inv hd h
  rw [(r.run c hc).1]
  have hw := r.stops.above
  rcases r.stops.window (len - (m.extraSteps - 1)) (Nat.le_refl _) (by omega) with hq | ⟨hq, _⟩
  · omega
  · rw [hs] at hq; cases hq

/-- With `extra_steps = 1` (also used for every value `≤ 1`) the iterative engine does not execute a single step. -/
theorem C02_no_step {m m' : FCM α} (hr : Reachable m) (hd : m.debug = true) (he : m.extraSteps = 1)
    (h : FCM.runInference true m = (.ok (), m')) {c : String} (hc : c ∈ m.topology.keys) :
    (m'.traj c).length = 1 := by
  obtain ⟨len, r⟩ := run_iter hr.inv hd h
  rw [(r.run c hc).1]
  have hw := r.stops.above
  apply Classical.byContradiction
  intro hne
  obtain ⟨s, h1, h2, _⟩ := r.stops.least 1 (by omega) (by omega)
  omega

/-- Vectorised engine: at most `max_iter` entries are recorded. -/
theorem C02_vector_bound {m m' : FCM α} (hr : Reachable m) (hd : m.debug = false)
    (h : FCM.runInference true m = (.ok (), m')) {c : String} (hc : c ∈ m.topology.keys) :
    ((m'.traj c).length : Int) ≤ m.maxIter := by
  obtain ⟨m1, m2, h1, h2, h3, hf, ha, hm2⟩ := run_after hr.inv h
  obtain ⟨e1, kt1, _, _, _⟩ := reset_spec hr.inv h1
  obtain ⟨e3, _, _⟩ := decideAll_spec hm2 h3
  unfold FCM.engine at h2
  rw [if_neg (by rw [reset_settings h1, hd]; simp)] at h2
  obtain ⟨cache, sv, result, hcase, hne, hres, e2⟩ := vectorized_ok h2
  obtain ⟨hpos, hrows⟩ := vectorizedRun_rows hres
  obtain ⟨hrl, _⟩ := vectorizedRun_heads hres
  have hmax : m1.maxIter = m.maxIter := by rw [e1]
  have hlen : m1.topology.keys.length = m1.topology.length := by simp [Dict.keys]
  have hsvl : m1.topology.length ≤ sv.length := by
    rcases hcase with ⟨_, _, rfl⟩ | ⟨_, _, rfl⟩ <;> simp
  have hst := storeRows_get (k := colIndex (result.headD []) m1.maxIter.toNat) (cs := m1.topology.keys) (rs := result)
    (d := m1.execution) hf.inv.tnd (by omega)
  rw [← kt1] at hc
  obtain ⟨i, hi, rfl⟩ := List.getElem_of_mem hc
  have hg := hst.2.1 i hi (by omega)
  have hx : m'.execution = m1.stored result := by rw [e3, e2]
  have : m'.traj m1.topology.keys[i] = result[i].take (colIndex (result.headD []) m1.maxIter.toNat) := by
    unfold FCM.traj
    rw [hx]
    unfold FCM.stored
    rw [hg]; rfl
  rw [this, List.length_take]
  have := hrows _ (List.getElem_mem (by omega : i < result.length))
  omega

example {c : String} (hc : c ∈ Ex.map1.topology.keys) : ((Ex.map1'.traj c).length : Int) ≤ 6 :=
  C02_bound Ex.map1_reachable rfl Ex.map1_run hc
example {c : String} (hc : c ∈ Ex.map2.topology.keys) : ((Ex.map2'.traj c).length : Int) ≤ 9 :=
  C02_vector_bound Ex.map2_reachable rfl Ex.map2_run hc

/-- `map1` without stopping at stability. -/
def Ex.map1s : FCM ℚ := runOps (Ex.ops1 ++ [.assignStop false]) Ex.sat0
example {c : String} (hc : c ∈ Ex.map1s.topology.keys) :
    ((((FCM.runInference true Ex.map1s).2).traj c).length : Int) = 6 :=
  C02_exact (Ex.reachable_made _ Ex.sat0_new) rfl rfl (by decide +kernel) (Ex.run_eq (by decide +kernel)) hc

/-! ### C03: the reason for stopping -/

/-- Iterative engine, `w = extra_steps - 1`: the common length of the trajectories is the *least* length above `w`
such that each of the last `w` steps was entered with the iteration limit reached, or (only with `stop_at_stabilize`)
with no concept having moved by more than `stability_diff` in the step before. -/
theorem C03_stop_reason {m m' : FCM α} (hr : Reachable m) (hd : m.debug = true)
    (h : FCM.runInference true m = (.ok (), m')) :
    ∃ len, (∀ c ∈ m.topology.keys, (m'.traj c).length = len) ∧
      StopsAt (fun s => m.maxIter ≤ (s : Int) ∨ (m.stopAtStabilize = true ∧ 1 < s ∧
        ∀ c ∈ m.topology.keys, (m.stabilityDiff <? abs (at' m'.traj (s - 1) c - at' m'.traj (s - 2) c)) = false))
        (m.extraSteps - 1) len := by
  obtain ⟨len, r⟩ := run_iter hr.inv hd h
  exact ⟨len, fun c hc => (r.run c hc).1, r.stops⟩

example := C03_stop_reason Ex.map1_reachable rfl Ex.map1_run

/-! ### C04: repeatability -/

/-- `run_inference()` on the object it leaves behind returns normally and changes nothing at all: all trajectories,
final values, counters and prepared data are the same.  Both engines. -/
theorem C04_repeatable {m m' : FCM α} (hr : Reachable m) (h : FCM.runInference true m = (.ok (), m')) :
    FCM.runInference true m' = (.ok (), m') := run_twice hr.inv h

example : FCM.runInference true Ex.map1' = (.ok (), Ex.map1') := C04_repeatable Ex.map1_reachable Ex.map1_run
example : FCM.runInference true Ex.map2' = (.ok (), Ex.map2') := C04_repeatable Ex.map2_reachable Ex.map2_run

/-! ### C05: `reset_execution` and `clear_execution` -/

/-- The parts of the object that `reset_execution` and `clear_execution` must not touch: concepts and their
properties, relations, settings, engine data. -/
structure SameButActivations (m m' : FCM α) : Prop where
  rest : m' = { m with topology := m'.topology, execution := m'.execution }
  keys : m'.topology.keys = m.topology.keys
  /-- a concept differs in its value and its pending inputs only -/
  props : ∀ c n, m.topology.get? c = some n → ∃ v, m'.topology.get? c = some { n with value := v, aux := [] }

/-- After `run_inference()` (either engine), `reset_execution()` returns normally and gives every concept back the
activation it had at the start of the run, which becomes its only recorded value. -/
theorem C05_reset_after_run {m m' : FCM α} (hr : Reachable m) (h : FCM.runInference true m = (.ok (), m')) :
    ∃ m'', FCM.resetExecution m' = (.ok (), m'') ∧ SameButActivations m' m'' ∧
      ∀ c ∈ m.topology.keys, m''.getConceptValue c = (m.traj c).head? ∧ m''.traj c = (m.traj c).take 1 ∧
        m.traj c ≠ [] := by
  obtain ⟨m1, m2, h1, h2, h3, hf, ha, hm2⟩ := run_after hr.inv h
  have hm' : Inv m' := by have := runInference_pres true m hr.inv; rwa [h] at this
  have hreset := reset_after_run hf ha hm'
  refine ⟨_, hreset, ⟨?_, ha.keys.symm, ?_⟩, ?_⟩
  · obtain ⟨e, _⟩ := reset_spec hm' hreset; exact e
  · intro c n hn
    obtain ⟨_, _, _, _, hall⟩ := reset_spec hm' hreset
    obtain ⟨n', v, _, hn', _, hn'', _⟩ := hall c (Dict.mem_keys_of_get? hn)
    rw [hn] at hn'; cases hn'
    exact ⟨v, hn''⟩
  · intro c hc
    obtain ⟨_, _, _, _, hall⟩ := reset_spec hr.inv h1
    obtain ⟨n, v, rest, _, hx, hn1, hx1⟩ := hall c hc
    refine ⟨?_, ?_, ?_⟩
    · simp [FCM.getConceptValue, hn1, FCM.traj, hx, setVal]
    · simp [FCM.traj, hx, hx1]
    · simp [FCM.traj, hx]

/-- `reset_execution()` in any state, when it returns: each concept goes back to the first value of its trajectory. -/
theorem C05_reset {m m' : FCM α} (hr : Reachable m) (h : FCM.resetExecution m = (.ok (), m')) :
    SameButActivations m m' ∧
      ∀ c ∈ m.topology.keys, m'.getConceptValue c = (m.traj c).head? ∧ m'.traj c = (m.traj c).take 1 := by
  obtain ⟨e, kt, _, _, hall⟩ := reset_spec hr.inv h
  refine ⟨⟨e, kt, ?_⟩, ?_⟩
  · intro c n hn
    obtain ⟨n', v, _, hn', _, hn'', _⟩ := hall c (Dict.mem_keys_of_get? hn)
    rw [hn] at hn'; cases hn'
    exact ⟨v, hn''⟩
  · intro c hc
    obtain ⟨n, v, rest, _, hx, hn1, hx1⟩ := hall c hc
    exact ⟨by simp [FCM.getConceptValue, hn1, FCM.traj, hx, setVal], by simp [FCM.traj, hx, hx1]⟩

/-- `clear_execution()` never raises and sets every concept to 0, forgetting its trajectory. -/
theorem C05_clear {m : FCM α} (hr : Reachable m) :
    ∃ m', FCM.clearExecution m = (.ok (), m') ∧ SameButActivations m m' ∧
      ∀ c ∈ m.topology.keys, m'.getConceptValue c = some (lit 0) ∧ m'.traj c = [lit 0] := by
  obtain ⟨m', h, e, kt, hall⟩ := clear_spec hr.inv
  refine ⟨m', h, ⟨e, kt, fun c n hn => ⟨lit 0, (hall c n hn).1⟩⟩, ?_⟩
  intro c hc
  obtain ⟨n, hn⟩ := Dict.exists_get?_of_mem hc
  obtain ⟨a, b⟩ := hall c n hn
  exact ⟨by simp [FCM.getConceptValue, a, setVal], by simp [FCM.traj, b]⟩

example := C05_reset_after_run Ex.map1_reachable Ex.map1_run
example := C05_clear Ex.map1_reachable

end PyFCM
