import Verif.Lemmas.Returns
import Verif.Props.Success
import Verif.Props.Dynamics
/-
When `run_inference` with the iterative engine returns: exactly if the recurrence has a run from the initial activations
that reaches the length at which the engine stops.
-/
namespace PyFCM
open Arith Spec

set_option linter.unusedSectionVars false

variable {α : Type} [Arith α]

/-! ### C111 -/

/-- The recurrence of `m` has the run `x` of `len` states from the initial activations. -/
structure Runs (m : FCM α) (x : String → List α) (len : Nat) : Prop where
  start : ∀ c ∈ m.topology.keys, at' x 0 c = at' m.traj 0 c
  run : IsRun m.net m.topology.keys x len

/-- `len` is the number of states after which the run `x` is to be stopped. -/
def Ends (m : FCM α) (x : String → List α) (len : Nat) : Prop :=
  StopsAt (Quiet x m.topology.keys m.maxIter m.stopAtStabilize m.stabilityDiff) (m.extraSteps - 1) len

/-- EXITED finds no value: it disregards the last `extra_steps + 1` states. -/
def TooShort (m : FCM α) (len : Nat) : Prop :=
  m.decisionName = "EXITED" ∧ m.topology ≠ [] ∧ len = m.extraSteps + 1

/-- After a history without exceptions the iterative engine returns exactly if the recurrence, started in the initial
activations, is defined for as many states as the stopping rule asks for (and EXITED, if chosen, finds a value). -/
theorem C111_returns {m : FCM α} (hm : CleanReachable m) (hd : m.debug = true) :
    (∃ m', FCM.runInference true m = (.ok (), m')) ↔ ∃ x len, Runs m x len ∧ Ends m x len ∧ ¬ TooShort m len := by
  rw [run_returns_iff hm.clean hd]
  refine exists_congr fun x => exists_congr fun len => ?_
  constructor
  · rintro ⟨h1, h2, h3, h4⟩
    refine ⟨⟨h1, h2⟩, h3, fun ⟨e, hne, hl⟩ => ?_⟩
    obtain ⟨c, hc⟩ : ∃ c, c ∈ m.topology.keys := by
      cases ht : m.topology with
      | nil => exact absurd ht hne
      | cons p l => exact ⟨p.1, by simp [Dict.keys]⟩
    have hlc := (h2 c hc).1
    have hx : x c ≠ [] := fun h => by rw [h] at hlc; simp at hlc; omega
    exact (decideBy_defined hm.clean.inv.dec hx).1 (h4 c hc) e (by rw [hlc, hl])
  · rintro ⟨⟨h1, h2⟩, h3, h4⟩
    refine ⟨h1, h2, h3, fun c hc => ?_⟩
    have hlc := (h2 c hc).1
    have := h3.above
    have hx : x c ≠ [] := fun h => by rw [h] at hlc; simp at hlc; omega
    refine (decideBy_defined hm.clean.inv.dec hx).2 fun e hl => h4 ⟨e, ?_, by rw [← hl, hlc]⟩
    intro ht
    rw [ht] at hc
    simp [Dict.keys] at hc

/-- The run `x` of `len` states is not yet to be stopped, but its last state has no successor. -/
def Stuck (m : FCM α) (x : String → List α) (len : Nat) : Prop :=
  1 ≤ len ∧ (∀ l ≤ len, ¬ Ends m x l) ∧ ∃ c ∈ m.topology.keys, ∀ v, next m.net (at' x (len - 1)) c ≠ some (.ok v)

theorem at'_append {x : String → List α} {v : String → α} {len t : Nat} {c : String} (hl : (x c).length = len)
    (ht : t < len) : at' (fun d => x d ++ [v d]) t c = at' x t c := by
  simp only [at', List.getD_eq_getElem?_getD]
  rw [List.getElem?_append_left (by omega)]

theorem ends_congr {m : FCM α} {x y : String → List α} {l : Nat}
    (h : ∀ t, t + 1 < l → ∀ c ∈ m.topology.keys, at' y t c = at' x t c) (hx : Ends m x l) : Ends m y l := by
  have hq : ∀ s, s < l → (Quiet y m.topology.keys m.maxIter m.stopAtStabilize m.stabilityDiff s ↔
      Quiet x m.topology.keys m.maxIter m.stopAtStabilize m.stabilityDiff s) := by
    intro s hs
    unfold Quiet Calm
    refine or_congr Iff.rfl (and_congr Iff.rfl ⟨fun ⟨a, b⟩ => ⟨a, fun c hc => ?_⟩, fun ⟨a, b⟩ => ⟨a, fun c hc => ?_⟩⟩)
    · rw [← h _ (by omega) c hc, ← h _ (by omega) c hc]; exact b c hc
    · rw [h _ (by omega) c hc, h _ (by omega) c hc]; exact b c hc
  refine ⟨hx.above, fun s a b => (hq s b).2 (hx.window s a b), fun k a b => ?_⟩
  obtain ⟨s, h1, h2, h3⟩ := hx.least k a b
  exact ⟨s, h1, h2, fun h => h3 ((hq s (by omega)).1 h)⟩

/-- A run goes on until it is to be stopped or is stuck. -/
theorem runs_on {m : FCM α} (hi : Inv m) (n : Nat) : (∃ x, Runs m x (n + 1) ∧ ∀ l ≤ n + 1, ¬ Ends m x l) ∨
    (∃ x len, Runs m x len ∧ Ends m x len) ∨ ∃ x len, Runs m x len ∧ Stuck m x len := by
  induction n with
  | zero =>
    have h1 : Runs m (fun c => [at' m.traj 0 c]) 1 :=
      ⟨fun c _ => rfl, fun c _ => ⟨rfl, fun t ht => by omega⟩⟩
    by_cases he : Ends m (fun c => [at' m.traj 0 c]) 1
    · exact .inr (.inl ⟨_, _, h1, he⟩)
    · refine .inl ⟨_, h1, fun l hl h => ?_⟩
      have := h.above
      have hl1 : l = 1 := by omega
      exact he (hl1 ▸ h)
  | succ n ih =>
    rcases ih with ⟨x, hx, hno⟩ | h | h
    · by_cases hs : ∀ c ∈ m.topology.keys, ∃ v, next m.net (at' x n) c = some (.ok v)
      · obtain ⟨v, hv⟩ : ∃ v : String → α, ∀ c ∈ m.topology.keys, next m.net (at' x n) c = some (.ok (v c)) := by
          classical
          refine ⟨fun c => if h : ∃ v, next m.net (at' x n) c = some (.ok v) then Classical.choose h else lit 0, fun c hc => ?_⟩
          dsimp only
          rw [dif_pos (hs c hc)]
          exact Classical.choose_spec (hs c hc)
        have hold : ∀ t, t < n + 1 → ∀ c ∈ m.topology.keys, at' (fun d => x d ++ [v d]) t c = at' x t c :=
          fun t ht c hc => at'_append (hx.run c hc).1 ht
        have hnext : ∀ t, t < n + 1 → ∀ c ∈ m.topology.keys,
            next m.net (at' (fun d => x d ++ [v d]) t) c = next m.net (at' x t) c := by
          intro t ht c hc
          refine next_congr (hold t ht c hc) fun r hr => ?_
          obtain ⟨a, ha, rfl⟩ := List.mem_map.1 hr
          exact hold t ht _ (hi.ends a ha).1
        have hy : Runs m (fun d => x d ++ [v d]) (n + 1 + 1) := by
          refine ⟨fun c hc => by rw [hold 0 (by omega) c hc]; exact hx.start c hc, fun c hc => ⟨?_, fun t ht => ?_⟩⟩
          · simp [(hx.run c hc).1]
          · rw [hnext t (by omega) c hc]
            by_cases hlt : t + 1 < n + 1
            · rw [(hx.run c hc).2 t hlt, hold (t + 1) hlt c hc]
            · have htn : t = n := by omega
              subst htn
              rw [hv c hc]
              have hl := (hx.run c hc).1
              simp [at', List.getD_eq_getElem?_getD, ← hl]
        by_cases he : Ends m (fun d => x d ++ [v d]) (n + 1 + 1)
        · exact .inr (.inl ⟨_, _, hy, he⟩)
        · refine .inl ⟨_, hy, fun l hl h => ?_⟩
          by_cases hln : l = n + 1 + 1
          · exact he (hln ▸ h)
          · exact hno l (by omega) (ends_congr (fun t ht c hc => (hold t (by omega) c hc).symm) h)
      · refine .inr (.inr ⟨x, n + 1, hx, by omega, hno, ?_⟩)
        simp only [not_forall, not_exists] at hs
        obtain ⟨c, hc, hv⟩ := hs
        exact ⟨c, hc, hv⟩
    · exact .inr (.inl h)
    · exact .inr (.inr h)

/-- Every run is to be stopped at the latest `extra_steps` states after `max_iter`. -/
theorem ends_by {m : FCM α} {x : String → List α} : ∃ l ≤ m.maxIter.toNat + m.extraSteps + 1, Ends m x l := by
  classical
  have hex : ∃ l, m.extraSteps - 1 < l ∧ ∀ s, l - (m.extraSteps - 1) ≤ s → s < l →
      Quiet x m.topology.keys m.maxIter m.stopAtStabilize m.stabilityDiff s :=
    ⟨m.maxIter.toNat + m.extraSteps + 1, by omega, fun s h1 h2 => .inl (by omega)⟩
  refine ⟨Nat.find hex, Nat.find_min' hex ⟨by omega, fun s h1 h2 => .inl (by omega)⟩, (Nat.find_spec hex).1,
    (Nat.find_spec hex).2, fun l h1 h2 => ?_⟩
  have := Nat.find_min hex h2
  simp only [not_and, not_forall] at this
  obtain ⟨s, a, b, c⟩ := this h1
  exact ⟨s, a, b, c⟩

/-- Runs of the same map agree. -/
theorem Runs.agree {m : FCM α} (hi : Inv m) {x y : String → List α} {a b : Nat} (hx : Runs m x a) (hy : Runs m y b)
    (t : Nat) (h1 : t < a) (h2 : t < b) : ∀ c ∈ m.topology.keys, at' x t c = at' y t c := by
  induction t with
  | zero => exact fun c hc => by rw [hx.start c hc, hy.start c hc]
  | succ t ih =>
    intro c hc
    have e1 := (hx.run c hc).2 t h1
    have e2 := (hy.run c hc).2 t h2
    have ih := ih (by omega) (by omega)
    rw [next_congr (ih c hc) fun r hr => by
      obtain ⟨a, ha, rfl⟩ := List.mem_map.1 hr
      exact ih _ (hi.ends a ha).1, e2] at e1
    simpa using e1.symm

/-- The iterative engine records the run of the recurrence that reaches its end. -/
theorem C111_records {m m' : FCM α} (hm : CleanReachable m) (hd : m.debug = true)
    (r : FCM.runInference true m = (.ok (), m')) {x : String → List α} {len : Nat} (hx : Runs m x len) (he : Ends m x len) :
    ∀ c ∈ m.topology.keys, m'.traj c = x c := by
  have hi := hm.clean.inv
  obtain ⟨k, hk⟩ := run_iter hi hd r
  have hy : Runs m m'.traj k := ⟨fun c hc => (hk.init c hc).2, hk.run⟩
  have hlen : len = k := by
    rcases Nat.lt_trichotomy len k with h | h | h
    · obtain ⟨s, a, b, c⟩ := hk.stops.least len he.above h
      exact absurd ((ends_congr (fun t ht c hc => (hx.agree hi hy t (by omega) (by omega) c hc).symm) he).window s a b) c
    · exact h
    · obtain ⟨s, a, b, c⟩ := he.least k hk.stops.above h
      exact absurd ((ends_congr (fun t ht c hc => hx.agree hi hy t (by omega) (by omega) c hc) hk.stops).window s a b) c
  subst hlen
  intro c hc
  have l1 := (hk.run c hc).1
  have l2 := (hx.run c hc).1
  apply List.ext_getElem (by rw [l1, l2])
  intro i h1 h2
  have := hy.agree hi hx i (by omega) (by omega) c hc
  unfold at' at this
  simpa [List.getD_eq_getElem?_getD, h1, h2] using this

/-- After a history without exceptions the iterative engine raises exactly if some state before the end of the run has
no successor, because an activation function is not defined at the input of some concept, or EXITED finds no value. -/
theorem C111_raises {m : FCM α} (hm : CleanReachable m) (hd : m.debug = true) :
    (∃ e m', FCM.runInference true m = (.error e, m')) ↔
      ∃ x len, Runs m x len ∧ (Stuck m x len ∨ Ends m x len ∧ TooShort m len) := by
  have hi := hm.clean.inv
  have hcases : (∃ e m', FCM.runInference true m = (.error e, m')) ↔ ¬ ∃ m', FCM.runInference true m = (.ok (), m') := by
    rcases hr : FCM.runInference true m with ⟨r, s⟩
    cases r with
    | ok u => simp
    | error e => simp
  rw [hcases, C111_returns hm hd]
  constructor
  · intro hno
    rcases runs_on hi (m.maxIter.toNat + m.extraSteps + 1) with ⟨x, hx, hn⟩ | ⟨x, len, hx, he⟩ | ⟨x, len, hx, hs⟩
    · obtain ⟨l, hl, he⟩ := ends_by (m := m) (x := x)
      exact absurd he (hn l (by omega))
    · refine ⟨x, len, hx, .inr ⟨he, ?_⟩⟩
      apply Classical.byContradiction
      exact fun h => hno ⟨x, len, hx, he, h⟩
    · exact ⟨x, len, hx, .inl hs⟩
  · rintro ⟨x, len, hx, hs⟩ ⟨y, k, hy, he, hsh⟩
    rcases hs with ⟨h1, h2, c, hc, h3⟩ | ⟨h1, h2⟩
    · by_cases hk : k ≤ len
      · exact h2 k hk (ends_congr (fun t ht c hc => hx.agree hi hy t (by omega) (by omega) c hc) he)
      · have := (hy.run c hc).2 (len - 1) (by omega)
        rw [next_congr (hy.agree hi hx (len - 1) (by omega) (by omega) c hc) fun r hr => by
          obtain ⟨a, ha, rfl⟩ := List.mem_map.1 hr
          exact hy.agree hi hx (len - 1) (by omega) (by omega) _ (hi.ends a ha).1] at this
        exact h3 _ this
    · have hlen : len = k := by
        rcases Nat.lt_trichotomy len k with h | h | h
        · obtain ⟨s, a, b, c⟩ := he.least len h1.above h
          exact absurd ((ends_congr (y := y) (fun t ht c hc => (hx.agree hi hy t (by omega) (by omega) c hc).symm) h1).window s a b) c
        · exact h
        · obtain ⟨s, a, b, c⟩ := h1.least k he.above h
          exact absurd ((ends_congr (y := x) (fun t ht c hc => (hx.agree hi hy t (by omega) (by omega) c hc)) he).window s a b) c
      exact hsh (hlen ▸ h2)

/-- Two maps with the same concepts, settings, initial activations and recurrence: one returns exactly if the other
does, with the same trajectories and final values. -/
theorem C111_depends {m n : FCM α} (hm : CleanReachable m) (hn : CleanReachable n) (hd : m.debug = true)
    (hd' : n.debug = true) (h : Akin m n) {m' : FCM α} (r : FCM.runInference true m = (.ok (), m')) :
    ∃ n', FCM.runInference true n = (.ok (), n') ∧
      ∀ c, n'.traj c = m'.traj c ∧ n'.getConceptValue c = m'.getConceptValue c := by
  obtain ⟨a, hi⟩ := run_iter hm.clean.inv hd r
  obtain ⟨n', hn'⟩ : ∃ n', FCM.runInference true n = (.ok (), n') := by
    refine run_returns hn.clean hd' (x := m'.traj) (len := a) (fun c hc => ?_) (fun c hc => ?_) ?_ fun c hc => ?_
    · rw [(hi.init c ((h.keys c).1 hc)).2, h.start c ((h.keys c).1 hc)]
    · have := hi.run c ((h.keys c).1 hc)
      exact ⟨this.1, fun t ht => by rw [h.next _ c ((h.keys c).1 hc)]; exact this.2 t ht⟩
    · have hq : Quiet m'.traj n.topology.keys n.maxIter n.stopAtStabilize n.stabilityDiff =
          Quiet m'.traj m.topology.keys m.maxIter m.stopAtStabilize m.stabilityDiff := by
        funext s
        unfold Quiet Calm
        rw [h.maxIter, h.stop, h.diff]
        exact propext (or_congr Iff.rfl (and_congr Iff.rfl (and_congr Iff.rfl
          ⟨fun q c hc => q c ((h.keys c).2 hc), fun q c hc => q c ((h.keys c).1 hc)⟩)))
      rw [hq, h.extra]
      exact hi.stops
    · obtain ⟨x, v, -, -, hv⟩ := hi.final c ((h.keys c).1 hc)
      have hl := (hi.run c ((h.keys c).1 hc)).1
      exact ⟨v, (decFn_eq hn.clean.inv.dec _ _ _).1 (by rw [h.dec, h.extra, hl]; exact hv)⟩
  obtain ⟨b, hj⟩ := run_iter hn.clean.inv hd' hn'
  exact ⟨n', hn', iter_akin h hi hj⟩

/-- C15 with the iterative engine, outcome included: if the map returns for one order of the relations, it does for
every order. -/
theorem C15_returns [Exact α] {m m1 : FCM α} (hm : CleanReachable m) (dm : m.debug = true) (hf : m.fitInclination = none)
    {rs rs' : List (String × String × α)} (hp : rs.Perm rs') (r1 : FCM.runInference true (addAll rs m) = (.ok (), m1)) :
    ∃ m2, FCM.runInference true (addAll rs' m) = (.ok (), m2) ∧
      ∀ c, m2.traj c = m1.traj c ∧ m2.getConceptValue c = m1.getConceptValue c :=
  C111_depends (hm.addAll hf rs) (hm.addAll hf rs') (by rw [(addAll_added hf rs).eq]; exact dm)
    (by rw [(addAll_added hf rs').eq]; exact dm) (alike_perm hf hp).akin r1

/-! ### Concrete cases -/

namespace Ex

/-- `FuzzyCognitiveMap(max_it=2, decision_function='EXITED', activ_function='saturation')` over the rationals. -/
def brief0 : FCM ℚ :=
  match FCM.new (maxIt := 2) (decision := "EXITED") (activation := "saturation") with
  | .ok m => m
  | .error _ => default

theorem brief0_new : FCM.new (α := ℚ) (maxIt := 2) (decision := "EXITED") (activation := "saturation") = .ok brief0 := rfl

def brief : FCM ℚ := runOps [.addConcept "a" {}, .initConcept "a" (1/2) true] brief0
theorem brief_clean : CleanReachable brief := cleanReachable_of (.new brief0_new) _ (by decide +kernel)

/-- Two iterations and five extra steps: six states, all of which EXITED disregards. -/
theorem brief_raises : (FCM.runInference true brief).1 = .error .valueError := by decide +kernel

theorem brief_next : ∀ c ∈ brief.topology.keys, ∀ t < 5,
    next brief.net (at' (fun _ => List.replicate 6 (1/2)) t) c = some (.ok (at' (fun _ => List.replicate 6 (1/2)) (t + 1) c)) := by
  decide +kernel

theorem brief_start : ∀ c ∈ brief.topology.keys, at' (fun _ => List.replicate 6 (1/2)) 0 c = at' brief.traj 0 c := by
  decide +kernel

theorem brief_maxIter : brief.maxIter = 2 := by decide +kernel
theorem brief_extra : brief.extraSteps = 5 := by decide +kernel

/-- The run of `brief` ... -/
theorem brief_runs : Runs brief (fun _ => List.replicate 6 (1/2)) 6 :=
  ⟨brief_start, fun c hc => ⟨rfl, fun t ht => brief_next c hc t (by omega)⟩⟩

/-- ... which is stopped after six states. -/
theorem brief_ends : Ends brief (fun _ => List.replicate 6 (1/2)) 6 := by
  unfold Ends
  rw [brief_extra]
  refine ⟨by omega, fun s h1 h2 => .inl (by rw [brief_maxIter]; omega), fun l h1 h2 => ⟨1, by omega, by omega, ?_⟩⟩
  rintro (h | ⟨-, h, -⟩)
  · rw [brief_maxIter] at h; omega
  · omega

theorem brief_short : TooShort brief 6 := ⟨by decide +kernel, by decide +kernel, by decide +kernel⟩

example : ∃ e m', FCM.runInference true brief = (.error e, m') :=
  (C111_raises brief_clean (by decide +kernel)).2 ⟨_, _, brief_runs, .inr ⟨brief_ends, brief_short⟩⟩

/-- The fuzzy concept without incoming relations: its first state has no successor. -/
theorem lone_runs : Runs lone (fun _ => [0]) 1 := ⟨by decide +kernel, fun c _ => ⟨rfl, fun t ht => by omega⟩⟩
theorem lone_next : next lone.net (at' (fun _ => [0]) 0) "a" = some (.error .zeroDivision) := by decide +kernel
theorem lone_extra : lone.extraSteps = 2 := by decide +kernel
theorem lone_a : "a" ∈ lone.topology.keys := by decide +kernel
theorem lone_stuck : Stuck lone (fun _ => [0]) 1 := by
  refine ⟨by omega, fun l hl h => ?_, "a", lone_a, fun v h => ?_⟩
  · have := h.above
    rw [lone_extra] at this
    omega
  · rw [show 1 - 1 = 0 from rfl, lone_next] at h
    cases h

example : ∃ e m', FCM.runInference true lone = (.error e, m') :=
  (C111_raises lone_clean (by decide +kernel)).2 ⟨_, _, lone_runs, .inl lone_stuck⟩

/-- A map that returns, hence one with a run that reaches its end. -/
example : ∃ x len, Runs map1 x len ∧ Ends map1 x len ∧ ¬ TooShort map1 len :=
  (C111_returns map1_clean (by decide +kernel)).1 ⟨_, run_eq (by decide +kernel)⟩

example {m' : FCM ℚ} (r : FCM.runInference true map1 = (.ok (), m')) : ∃ x len, Ends map1 x len ∧ ∀ c ∈ map1.topology.keys, m'.traj c = x c := by
  obtain ⟨x, len, hx, he, -⟩ := (C111_returns map1_clean (by decide +kernel)).1 ⟨_, r⟩
  exact ⟨x, len, he, C111_records map1_clean (by decide +kernel) r hx he⟩

example := C15_returns (bare_clean true) (by decide +kernel) (by decide +kernel) rels_perm (run_eq (by decide +kernel))

end Ex

end PyFCM
