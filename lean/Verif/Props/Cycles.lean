import Verif.Props.VecChange
import Verif.Props.Contract
import Mathlib.Combinatorics.Pigeonhole
/-
C120: maps of two- and three-valued concepts end in a cycle.
-/
namespace PyFCM
open Arith Spec

/-! ### Specification -/

section Spec
variable {α : Type} [Arith α]

/-- The values of an activation function that has only a few of them. -/
def Spec.fewValues : String → Option (List α)
  | "biestate" => some [lit 0, lit 1]
  | "threestate" => some [lit 0, dec 1 2, lit 1]
  | _ => none

/-- The stability difference tells the values of two- and three-valued concepts apart: only equal ones differ by no more
than `d`. -/
def Spec.Tells (d : α) : Prop :=
  ∀ u ∈ [lit 0, dec 1 2, lit 1], ∀ v ∈ [lit 0, dec 1 2, lit 1], (Arith.lt d (Arith.abs (u - v)) = false ↔ u = v)

/-- The state of the concepts `cs` does not change in the step from `t` to `t + 1`. -/
def Spec.Rests (traj : String → List α) (cs : List String) (t : Nat) : Prop :=
  ∀ c ∈ cs, at' traj (t + 1) c = at' traj t c

/-- All concepts are two- or three-valued. -/
def Stepwise (m : FCM α) : Prop :=
  ∀ c n, m.topology.get? c = some n → ∃ f, n.fn = some f ∧ (f.name = "biestate" ∨ f.name = "threestate")

/-- In how many states a map of two- and three-valued concepts can be: 2 to the number of the former times 3 to the number
of the latter. -/
def stateCount (m : FCM α) : Nat :=
  2 ^ (m.topology.filter fun p => p.2.fn.map (·.name) == some "biestate").length *
  3 ^ (m.topology.filter fun p => p.2.fn.map (·.name) == some "threestate").length

end Spec

/-! ### Sequences of states -/

section Orbits
variable {α : Type} [Arith α]

/-- All ways to choose one value per concept. -/
def choices (V : String → List α) : List String → List (List α)
  | [] => [[]]
  | c :: cs => (V c).flatMap fun v => (choices V cs).map (v :: ·)

omit [Arith α] in
theorem choices_length (V : String → List α) (cs : List String) :
    (choices V cs).length = (cs.map fun c => (V c).length).prod := by
  induction cs with
  | nil => rfl
  | cons c cs ih => simp [choices, List.length_flatMap, ih]

omit [Arith α] in
theorem mem_choices {V : String → List α} {cs : List String} {A : String → α} (h : ∀ c ∈ cs, A c ∈ V c) :
    cs.map A ∈ choices V cs := by
  induction cs with
  | nil => simp [choices]
  | cons c cs ih =>
    simp only [choices, List.map_cons, List.mem_flatMap, List.mem_map]
    exact ⟨A c, h c (.head _), cs.map A, ih fun d hd => h d (.tail _ hd), rfl⟩

omit [Arith α] in
/-- Among any `K + 1` states two are equal if there are only `K` of them. -/
theorem repeats {V : String → List α} {cs : List String} {x : Nat → String → α} {K : Nat}
    (hK : (cs.map fun c => (V c).length).prod = K) (h : ∀ t, 1 ≤ t → t ≤ K + 1 → ∀ c ∈ cs, x t c ∈ V c) :
    ∃ i j, 1 ≤ i ∧ i < j ∧ j ≤ K + 1 ∧ ∀ c ∈ cs, x i c = x j c := by
  classical
  have hcard : ((choices V cs).toFinset).card < (Finset.Icc 1 (K + 1)).card := by
    have := List.toFinset_card_le (choices V cs)
    rw [choices_length, hK] at this
    simp
    omega
  obtain ⟨i, hi, j, hj, hne, he⟩ := Finset.exists_ne_map_eq_of_card_lt_of_maps_to (f := fun t => cs.map (x t)) hcard (by
    intro t ht
    have := Finset.mem_Icc.1 ht
    exact List.mem_toFinset.2 (mem_choices (h t this.1 this.2)))
  have he : ∀ c ∈ cs, x i c = x j c := List.map_inj_left.1 he
  have hi := Finset.mem_Icc.1 hi
  have hj := Finset.mem_Icc.1 hj
  rcases Nat.lt_or_gt_of_ne hne with hlt | hlt
  · exact ⟨i, j, hi.1, hlt, hj.2, he⟩
  · exact ⟨j, i, hj.1, hlt, hi.2, fun c hc => (he c hc).symm⟩

/-- Equal states have equal successors. -/
theorem follow {N : Net α} {cs : List String} {traj : String → List α} {len : Nat} (hr : IsRun N cs traj len)
    (ho : ∀ r ∈ N.rels, r.origin ∈ cs) {i j : Nat} (he : ∀ c ∈ cs, at' traj i c = at' traj j c) :
    ∀ s, i + s < len → j + s < len → ∀ c ∈ cs, at' traj (i + s) c = at' traj (j + s) c := by
  intro s
  induction s with
  | zero => exact fun _ _ => he
  | succ s ih =>
    intro hi hj c hc
    have e := ih (by omega) (by omega)
    have h1 := (hr c hc).2 (i + s) hi
    have h2 := (hr c hc).2 (j + s) hj
    rw [next_congr (B := at' traj (j + s)) (e c hc) fun r h => e _ (ho r h), h2] at h1
    exact (Except.ok.inj (Option.some.inj h1)).symm

/-- A run with few values is periodic after its beginning. -/
theorem run_cycle {N : Net α} {cs : List String} {traj : String → List α} {len : Nat} (hr : IsRun N cs traj len)
    (ho : ∀ r ∈ N.rels, r.origin ∈ cs) {V : String → List α} {K : Nat} (hK : (cs.map fun c => (V c).length).prod = K)
    (hK0 : 0 < K) (hV : ∀ c ∈ cs, ∀ A v, next N A c = some (.ok v) → v ∈ V c) :
    ∃ a p, 1 ≤ a ∧ 1 ≤ p ∧ a + p ≤ K + 1 ∧
      ∀ c ∈ cs, ∀ t, a ≤ t → t + p < len → at' traj (t + p) c = at' traj t c := by
  by_cases hlen : K + 1 < len
  · obtain ⟨i, j, h1, h2, h3, he⟩ := repeats (x := at' traj) hK fun t h1 h2 c hc => by
      obtain ⟨s, rfl⟩ : ∃ s, t = s + 1 := ⟨t - 1, by omega⟩
      exact hV c hc _ _ ((hr c hc).2 s (by omega))
    refine ⟨i, j - i, h1, by omega, by omega, fun c hc t ht hl => ?_⟩
    have := follow hr ho he (t - i) (by omega) (by omega) c hc
    rw [show i + (t - i) = t by omega, show j + (t - i) = t + (j - i) by omega] at this
    exact this.symm
  · exact ⟨K, 1, hK0, le_refl _, le_refl _, fun c hc t ht hl => absurd hl (by omega)⟩

/-- The first moment from which such a run rests is among its first `K` steps. -/
theorem rest_early {N : Net α} {cs : List String} {traj : String → List α} {len : Nat} (hr : IsRun N cs traj len)
    (ho : ∀ r ∈ N.rels, r.origin ∈ cs) {V : String → List α} {K : Nat} (hK : (cs.map fun c => (V c).length).prod = K)
    (hK0 : 0 < K) (hV : ∀ c ∈ cs, ∀ A v, next N A c = some (.ok v) → v ∈ V c) {b : Nat} (hb : 1 ≤ b) (hbl : b + 1 < len)
    (hbe : ∀ c ∈ cs, at' traj (b + 1) c = at' traj b c) :
    ∃ a, 1 ≤ a ∧ a ≤ K ∧ a ≤ b ∧ ∀ t, a ≤ t → t < len → ∀ c ∈ cs, at' traj t c = at' traj a c := by
  classical
  have hex : ∃ a, 1 ≤ a ∧ a + 1 < len ∧ ∀ c ∈ cs, at' traj (a + 1) c = at' traj a c := ⟨b, hb, hbl, hbe⟩
  obtain ⟨a, ⟨ha1, hal, hae⟩, hmin⟩ := Nat.findX hex
  have hab : a ≤ b := by
    by_contra hcon
    exact hmin b (by omega) ⟨hb, hbl, hbe⟩
  have hconst : ∀ s, a + s < len → ∀ c ∈ cs, at' traj (a + s) c = at' traj a c := by
    intro s
    induction s with
    | zero => exact fun _ _ _ => rfl
    | succ s ih =>
      intro hs c hc
      have := follow hr ho (i := a + 1) (j := a) hae s (by omega) (by omega) c hc
      rw [show a + 1 + s = a + (s + 1) by omega] at this
      rw [this]
      exact ih (by omega) c hc
  refine ⟨a, ha1, ?_, hab, fun t h1 h2 c hc => ?_⟩
  · by_contra hcon
    obtain ⟨a', p, h1, h2, h3, hper⟩ := run_cycle hr ho hK hK0 hV
    -- a moment of the first period that is like `a`
    have hback : ∀ n, ∀ c ∈ cs, ∀ t, a' ≤ t → t + n * p < len → at' traj (t + n * p) c = at' traj t c := by
      intro n
      induction n with
      | zero => intro c hc t _ _; simp
      | succ n ih =>
        intro c hc t ht hl
        have e : t + (n + 1) * p = (t + n * p) + p := by rw [Nat.add_mul]; omega
        rw [e] at hl ⊢
        rw [hper c hc (t + n * p) (by omega) hl]
        exact ih c hc t ht (by omega)
    obtain ⟨u, n, hu1, hu2, hun⟩ : ∃ u n, a' ≤ u ∧ u < a' + p ∧ u + n * p = a := by
      refine ⟨a' + (a - a') % p, (a - a') / p, by omega, ?_, ?_⟩
      · have := Nat.mod_lt (a - a') (show 0 < p by omega)
        omega
      · have := Nat.mod_add_div (a - a') p
        rw [Nat.mul_comm] at this
        omega
    have hua : u < a := by omega
    refine hmin u hua ⟨by omega, by omega, fun c hc => ?_⟩
    have e1 := hback n c hc u hu1 (by omega)
    have e2 := hback n c hc (u + 1) (by omega) (by omega)
    rw [hun] at e1
    rw [show u + 1 + n * p = a + 1 by omega] at e2
    rw [← e1, ← e2]
    exact hae c hc
  · have := hconst (t - a) (by omega) c hc
    rwa [show a + (t - a) = t by omega] at this

end Orbits

/-! ### The concepts of a map -/

section Maps
variable {α : Type} [Arith α]

/-- The values of the concept `c`. -/
def valuesAt (m : FCM α) (c : String) : List α :=
  match (m.topology.get? c).bind (·.fn) with
  | some f => (fewValues f.name).getD []
  | none => []

theorem callActv_values {m : FCM α} (hm : Reachable m) (hs : Stepwise m) {c : String} {n : Node α} {f : FnInfo α}
    (hn : m.topology.get? c = some n) (hf : n.fn = some f) {x v : α} (h : callActv f.fn x f.args = .ok v) :
    v ∈ valuesAt m c := by
  obtain ⟨f', hf', hname⟩ := hs c n hn
  rw [hf] at hf'
  cases hf'
  have hok : Activation.getFunctionByName f.name = some f.fn := (hm.inv.nodes c n hn).fn f hf
  unfold valuesAt
  rw [hn]
  simp only [Option.bind_some, hf]
  rcases hname with e | e <;> rw [e] at hok ⊢ <;> have hok := (Option.some.inj hok).symm <;> rw [hok] at h <;>
    unfold callActv at h <;> simp only at h <;> split at h <;> cases h
  · show bistate x ∈ [lit 0, lit 1]
    unfold bistate
    split <;> simp
  · show threestate x ∈ [lit 0, dec 1 2, lit 1]
    unfold threestate
    split
    · simp
    · split <;> simp

theorem toSpec_act {n : Node α} {k : Concept α} (h : n.toSpec = some k) :
    ∃ f, n.fn = some f ∧ k.act = fun x => callActv f.fn x f.args := by
  unfold Node.toSpec at h
  split at h
  · rename_i f _ _ hf
    cases h
    exact ⟨_, hf, rfl⟩
  · cases h

theorem next_values {m : FCM α} (hm : Reachable m) (hs : Stepwise m) {N : Net α}
    (hN : ∀ c k, N.concept c = some k → ∃ k0, m.net.concept c = some k0 ∧ k.act = k0.act) {c : String} {A : String → α}
    {v : α} (h : next N A c = some (.ok v)) : v ∈ valuesAt m c := by
  unfold next at h
  obtain ⟨k, hk, h⟩ := Option.map_eq_some_iff.1 h
  obtain ⟨k0, h0, ha⟩ := hN c k hk
  obtain ⟨n, hn, ht⟩ := Option.bind_eq_some_iff.1 (show (m.topology.get? c).bind Node.toSpec = some k0 from h0)
  obtain ⟨f, hf, hact⟩ := toSpec_act ht
  rw [ha, hact] at h
  simp only at h
  split at h
  · exact callActv_values hm hs hn hf h
  · split at h
    · cases h
    · exact callActv_values hm hs hn hf h

theorem levels_prod {m : FCM α} (hm : Reachable m) (hs : Stepwise m) :
    (m.topology.keys.map fun c => (valuesAt m c).length).prod = stateCount m := by
  have hnd : m.topology.keys.Nodup := hm.inv.tnd
  have key : ∀ p ∈ m.topology, ∃ f, p.2.fn = some f ∧ (f.name = "biestate" ∨ f.name = "threestate") ∧
      valuesAt m p.1 = (fewValues f.name).getD [] := by
    intro p hp
    have hg := Dict.get?_of_mem hnd hp
    obtain ⟨f, hf, h⟩ := hs p.1 p.2 hg
    refine ⟨f, hf, h, ?_⟩
    unfold valuesAt
    rw [hg]
    simp [hf]
  unfold stateCount Dict.keys
  rw [List.map_map]
  generalize hl : m.topology = l at key ⊢
  clear hl
  induction l with
  | nil => rfl
  | cons p l ih =>
    have := ih fun q hq => key q (.tail _ hq)
    obtain ⟨f, hf, h, hv⟩ := key p (.head _)
    simp only [List.map_cons, List.prod_cons, Function.comp_apply, hv]
    rw [show (List.map ((fun c => (valuesAt m c).length) ∘ fun x => x.1) l).prod = _ from this]
    rcases h with e | e
    · rw [List.filter_cons_of_pos (by simp [hf, e]), List.filter_cons_of_neg (by simp [hf, e]), e]
      simp only [fewValues, Option.getD_some, List.length_cons, List.length_nil, pow_succ]
      ring
    · rw [List.filter_cons_of_neg (by simp [hf, e]), List.filter_cons_of_pos (by simp [hf, e]), e]
      simp only [fewValues, Option.getD_some, List.length_cons, List.length_nil, pow_succ]
      ring

omit [Arith α] in
theorem stateCount_pos (m : FCM α) : 0 < stateCount m := by
  unfold stateCount
  positivity

end Maps

/-! ### C120 -/

section Iterative
variable {α : Type} [Arith α]

theorem net_acts (m : FCM α) (c : String) (k : Concept α) (h : m.net.concept c = some k) :
    ∃ k0, m.net.concept c = some k0 ∧ k.act = k0.act := ⟨k, h, rfl⟩

theorem vector_acts (m : FCM α) (c : String) (k : Concept α) (h : m.net.vector.concept c = some k) :
    ∃ k0, m.net.concept c = some k0 ∧ k.act = k0.act := by
  obtain ⟨k0, h1, rfl⟩ := Option.map_eq_some_iff.1 h
  exact ⟨k0, h1, rfl⟩

/-- C120: in a map of two- and three-valued concepts the iterative engine enters a cycle: from a step `a ≥ 1` on the
activations of all concepts repeat every `p` steps, and `a + p` exceeds the number of states by at most 1. -/
theorem C120_cycle {m m' : FCM α} (hm : Reachable m) (hd : m.debug = true) (hs : Stepwise m)
    (h : FCM.runInference true m = (.ok (), m')) :
    ∃ a p, 1 ≤ a ∧ 1 ≤ p ∧ a + p ≤ stateCount m + 1 ∧
      ∀ c ∈ m.topology.keys, ∀ t, a ≤ t → t + p < m'.iterations → at' m'.traj (t + p) c = at' m'.traj t c := by
  obtain ⟨len, hi⟩ := run_iter hm.inv hd h
  rw [hi.iters]
  exact run_cycle hi.run (origins hm) (levels_prod hm hs) (stateCount_pos m) fun c _ A v hv =>
    next_values hm hs (net_acts m) hv

theorem mem_levels {m : FCM α} {c : String} {v : α} (h : v ∈ valuesAt m c) :
    v ∈ ([lit 0, dec 1 2, lit 1] : List α) := by
  unfold valuesAt at h
  split at h
  · rename_i f _
    unfold fewValues at h
    split at h <;> simp at h ⊢
    · rcases h with h | h <;> simp [h]
    · exact h
  · simp at h

/-- C120: if the iterative engine stops before the limit of iterations, and the stability difference tells the values
apart, the map is at rest: the last two states are equal, and applying the recurrence to the last state leaves every
concept as it is. -/
theorem C120_stop {m m' : FCM α} (hm : Reachable m) (hd : m.debug = true) (hs : Stepwise m)
    (h : FCM.runInference true m = (.ok (), m')) (htell : Tells m.stabilityDiff) (hx : 3 ≤ m.extraSteps)
    (hl : (m'.iterations : Int) ≤ m.maxIter) :
    3 < m'.iterations ∧ Rests m'.traj m.topology.keys (m'.iterations - 2) ∧
      ∀ c ∈ m.topology.keys, next m.net (at' m'.traj (m'.iterations - 1)) c = some (.ok (at' m'.traj (m'.iterations - 1) c)) := by
  obtain ⟨len, hi⟩ := run_iter hm.inv hd h
  rw [hi.iters] at hl ⊢
  have hab := hi.stops.above
  have hq : ∀ s, len - (m.extraSteps - 1) ≤ s → s < len → 1 < s ∧ Calm m'.traj m.topology.keys m.stabilityDiff s := by
    intro s h1 h2
    rcases hi.stops.window s h1 h2 with h3 | ⟨-, h3, h4⟩
    · omega
    · exact ⟨h3, h4⟩
  have h4 : 3 < len := by
    have := (hq (len - 2) (by omega) (by omega)).1
    omega
  have hval : ∀ t, 1 ≤ t → t < len → ∀ c ∈ m.topology.keys, at' m'.traj t c ∈ ([lit 0, dec 1 2, lit 1] : List α) := by
    intro t h1 h2 c hc
    obtain ⟨s, rfl⟩ : ∃ s, t = s + 1 := ⟨t - 1, by omega⟩
    exact mem_levels (next_values hm hs (net_acts m) ((hi.run c hc).2 s h2))
  have e3 : ∀ c ∈ m.topology.keys, at' m'.traj (len - 2) c = at' m'.traj (len - 3) c := by
    intro c hc
    have := (hq (len - 1) (by omega) (by omega)).2 c hc
    rw [show len - 1 - 1 = len - 2 by omega, show len - 1 - 2 = len - 3 by omega] at this
    exact (htell _ (hval _ (by omega) (by omega) c hc) _ (hval _ (by omega) (by omega) c hc)).1 this
  have e2 : ∀ c ∈ m.topology.keys, at' m'.traj (len - 1) c = at' m'.traj (len - 2) c := by
    intro c hc
    have := follow hi.run (origins hm) e3 1 (by omega) (by omega) c hc
    rwa [show len - 2 + 1 = len - 1 by omega, show len - 3 + 1 = len - 2 by omega] at this
  refine ⟨h4, fun c hc => ?_, fun c hc => ?_⟩
  · rw [show len - 2 + 1 = len - 1 by omega]
    exact e2 c hc
  · have := (hi.run c hc).2 (len - 2) (by omega)
    rw [show len - 2 + 1 = len - 1 by omega] at this
    rw [next_congr (B := at' m'.traj (len - 2)) (e2 c hc) fun r hr => e2 _ (origins hm r hr)]
    exact this

/-- C120: with `stop_at_stabilize` the iterative engine returns at the latest `extra_steps + 1` iterations after the number
of states, unless the state changes in every step from the first on to the end of the run. -/
theorem C120_time {m m' : FCM α} (hm : Reachable m) (hd : m.debug = true) (hs : Stepwise m)
    (h : FCM.runInference true m = (.ok (), m')) (htell : Tells m.stabilityDiff) (hstop : m.stopAtStabilize = true) :
    m'.iterations ≤ stateCount m + m.extraSteps + 1 ∨
      ∀ t, 1 ≤ t → t + 1 < m'.iterations → ¬ Rests m'.traj m.topology.keys t := by
  obtain ⟨len, hi⟩ := run_iter hm.inv hd h
  rw [hi.iters]
  by_contra hcon
  push Not at hcon
  obtain ⟨hlen, b, hb, hbl, hbe⟩ := hcon
  have hV : ∀ c ∈ m.topology.keys, ∀ A v, next m.net A c = some (.ok v) → v ∈ valuesAt m c :=
    fun c _ A v hv => next_values hm hs (net_acts m) hv
  obtain ⟨a, h1, h2, -, h3⟩ := rest_early hi.run (origins hm) (levels_prod hm hs) (stateCount_pos m) hV hb hbl hbe
  have hx := hm.inv.extra
  obtain ⟨s, hs1, hs2, hs3⟩ := hi.stops.least (a + 1 + m.extraSteps) (by omega) (by omega)
  refine hs3 (Or.inr ⟨hstop, by omega, fun c hc => ?_⟩)
  rw [h3 (s - 1) (by omega) (by omega) c hc, h3 (s - 2) (by omega) (by omega) c hc]
  have hm2 : at' m'.traj a c ∈ ([lit 0, dec 1 2, lit 1] : List α) := by
    obtain ⟨u, rfl⟩ : ∃ u, a = u + 1 := ⟨a - 1, by omega⟩
    exact mem_levels (hV c hc _ _ ((hi.run c hc).2 u (by omega)))
  exact (htell _ hm2 _ hm2).2 rfl

end Iterative

/-- Over the reals every stability difference from 0 to less than 1/2 tells the values apart. -/
theorem C120_tells {d : ℝ} (h0 : 0 ≤ d) (h1 : d < 1/2) : Tells d := by
  intro u hu v hv
  have e : (dec 1 2 : ℝ) = 1/2 := by norm_num [dec]
  rw [← Bool.not_eq_true, real_lt]
  show ¬ d < |u - v| ↔ u = v
  rw [e] at hu hv
  simp only [real_lit, List.mem_cons, List.not_mem_nil, or_false, Int.cast_zero, Int.cast_one] at hu hv
  rcases hu with rfl | rfl | rfl <;> rcases hv with rfl | rfl | rfl <;> norm_num [abs_of_pos, abs_of_neg] <;> linarith

/-- C120: the same cycle in what the vectorised engine records. -/
theorem C120_vector {m m' : FCM ℝ} (hm : Vectorised m) (hs : Stepwise m) (h : FCM.runInference true m = (.ok (), m')) :
    ∃ a p, 1 ≤ a ∧ 1 ≤ p ∧ a + p ≤ stateCount m + 1 ∧
      ∀ c ∈ m.topology.keys, ∀ t, a ≤ t → t + p < (m'.traj c).length → at' m'.traj (t + p) c = at' m'.traj t c := by
  obtain ⟨l, hr, -⟩ := vec_run hm h
  obtain ⟨a, p, h1, h2, h3, h4⟩ := run_cycle hr (origins_vector hm.clean.reachable) (levels_prod hm.clean.reachable hs)
    (stateCount_pos m) fun c _ A v hv => next_values hm.clean.reachable hs (vector_acts m) hv
  exact ⟨a, p, h1, h2, h3, fun c hc t ht hl => h4 c hc t ht (by rwa [(hr c hc).1] at hl)⟩

/-! ### The vectorised engine may stop inside a cycle -/

/-- The statement `C120_stop` makes about the iterative engine, for the vectorised one: when it stops before the limit,
the last two recorded states are equal. -/
def C120_vector_stop_full : Prop :=
  ∀ m m' : FCM ℚ, CleanReachable m → m.debug = false → Stepwise m → 3 ≤ m.extraSteps → Tells m.stabilityDiff →
    FCM.runInference true m = (.ok (), m') → (∀ c ∈ m.topology.keys, ((m'.traj c).length : Int) < m.maxIter) →
    ∀ c ∈ m.topology.keys, at' m'.traj ((m'.traj c).length - 1) c = at' m'.traj ((m'.traj c).length - 2) c

namespace Ex

/-- `FuzzyCognitiveMap(max_it=20, decision_function='LAST', mem_influence=False, activation_function='biestate')`. -/
def swap0 : FCM ℚ :=
  match FCM.new (maxIt := 20) (decision := "LAST") (memInfluence := false) (activation := "biestate") with
  | .ok m => m
  | .error _ => default

theorem swap0_new : FCM.new (α := ℚ) (maxIt := 20) (decision := "LAST") (memInfluence := false) (activation := "biestate") =
    .ok swap0 := rfl

def swapOps (debug : Bool) : List (Op ℚ) :=
  [.addConcept "a" {}, .addConcept "b" {}, .addRelation "a" "b" 1, .addRelation "b" "a" 1, .initConcept "a" 1 true,
   .assignDebug debug]

/-- a and b pass their values to each other; a starts at 1 and b at 0. -/
def swap (debug : Bool) : FCM ℚ := runOps (swapOps debug) swap0

theorem swap_clean (debug : Bool) : CleanReachable (swap debug) := by
  cases debug
  · exact cleanReachable_of (.new swap0_new) (swapOps false) (by decide +kernel)
  · exact cleanReachable_of (.new swap0_new) (swapOps true) (by decide +kernel)

theorem swap_steps (debug : Bool) : Stepwise (swap debug) := by
  intro c n hn
  have hk : c ∈ (swap debug).topology.keys := Dict.mem_keys_of_get? hn
  have e : (swap debug).topology.keys = ["a", "b"] := by cases debug <;> decide +kernel
  rw [e] at hk
  have key : ∀ c ∈ ["a", "b"], (((swap debug).topology.get? c).bind (·.fn)).map (·.name) = some "biestate" := by
    cases debug <;> decide +kernel
  have := key c hk
  rw [hn] at this
  obtain ⟨f, hf, hname⟩ := Option.map_eq_some_iff.1 this
  exact ⟨f, hf, Or.inl hname⟩

theorem swap_tells (debug : Bool) : Tells (swap debug).stabilityDiff := by
  unfold Tells
  cases debug <;> decide +kernel

theorem swap_run (debug : Bool) : (FCM.runInference true (swap debug)).1 = .ok () := by
  cases debug <;> decide +kernel

/-- The iterative engine goes on until the limit (and `extra_steps - 1` steps more): a is 1, 0, 1, 0, … -/
theorem swap_traj : (FCM.runInference true (swap true)).2.traj "a" = (List.range 24).map (fun t => if t % 2 = 0 then 1 else 0) := by
  decide +kernel

/-- The vectorised engine looks at the sum of the activations, which is always 1, and stops. -/
theorem swap_vec : (FCM.runInference true (swap false)).2.traj "a" = [1, 0, 1, 0, 1, 0] := by
  decide +kernel

/-- The cycle of C120: 4 states, the period is 2, and the state changes in every step. -/
example : stateCount (swap true) = 4 ∧ (∃ a p, 1 ≤ a ∧ 1 ≤ p ∧ a + p ≤ 5 ∧ ∀ c ∈ (swap true).topology.keys, ∀ t, a ≤ t →
    t + p < (FCM.runInference true (swap true)).2.iterations →
    at' (FCM.runInference true (swap true)).2.traj (t + p) c = at' (FCM.runInference true (swap true)).2.traj t c) ∧
    ∀ t, 1 ≤ t → t + 1 < (FCM.runInference true (swap true)).2.iterations →
      ¬ Rests (FCM.runInference true (swap true)).2.traj (swap true).topology.keys t := by
  have e : stateCount (swap true) = 4 := by decide +kernel
  have h := run_eq (swap_run true)
  refine ⟨e, ?_, ?_⟩
  · have := C120_cycle (swap_clean true).reachable (by decide +kernel) (swap_steps true) h
    rwa [e] at this
  · have := C120_time (swap_clean true).reachable (by decide +kernel) (swap_steps true) h (swap_tells true) (by decide +kernel)
    rw [e] at this
    refine this.resolve_left ?_
    decide +kernel

def settle0 : FCM ℚ :=
  match FCM.new (maxIt := 20) (decision := "LAST") (activation := "biestate") with
  | .ok m => m
  | .error _ => default

theorem settle0_new : FCM.new (α := ℚ) (maxIt := 20) (decision := "LAST") (activation := "biestate") = .ok settle0 := rfl

def settleOps : List (Op ℚ) :=
  [.addConcept "a" {}, .addConcept "b" { activation := some "threestate" }, .addRelation "a" "b" (1/2),
   .addRelation "b" "a" (-1/4), .initConcept "a" 1 true, .assignDebug true]

/-- a (two-valued) excites b (three-valued) with weight 1/2, b inhibits a with weight 1/4; both remember their values. -/
def settle : FCM ℚ := runOps settleOps settle0

theorem settle_clean : CleanReachable settle := cleanReachable_of (.new settle0_new) settleOps (by decide +kernel)

theorem settle_steps : Stepwise settle := by
  intro c n hn
  have hk : c ∈ settle.topology.keys := Dict.mem_keys_of_get? hn
  rw [show settle.topology.keys = ["a", "b"] by decide +kernel] at hk
  have key : ∀ c ∈ ["a", "b"], ((settle.topology.get? c).bind (·.fn)).map (·.name) = some "biestate" ∨
      ((settle.topology.get? c).bind (·.fn)).map (·.name) = some "threestate" := by decide +kernel
  rcases key c hk with h | h <;> rw [hn] at h <;> obtain ⟨f, hf, hname⟩ := Option.map_eq_some_iff.1 h
  · exact ⟨f, hf, Or.inl hname⟩
  · exact ⟨f, hf, Or.inr hname⟩

theorem settle_run : (FCM.runInference true settle).1 = .ok () := by decide +kernel

/-- b rises from 0 over 1/2 to 1; the map has 6 states, and the engine stops at rest after 8 of at most 12 iterations. -/
example : (FCM.runInference true settle).2.traj "b" = [0, 1/2, 1, 1, 1, 1, 1, 1] ∧ stateCount settle = 6 ∧
    Rests (FCM.runInference true settle).2.traj settle.topology.keys 6 ∧
    (FCM.runInference true settle).2.iterations ≤ 6 + 5 + 1 := by
  have ht : Tells settle.stabilityDiff := by
    unfold Tells
    decide +kernel
  have h := run_eq settle_run
  have e6 : stateCount settle = 6 := by decide +kernel
  have e5 : settle.extraSteps = 5 := by decide +kernel
  have e8 : (FCM.runInference true settle).2.iterations = 8 := by decide +kernel
  have h1 := C120_stop settle_clean.reachable (by decide +kernel) settle_steps h ht (by rw [e5]; omega)
    (by rw [e8]; decide +kernel)
  have h2 := C120_time settle_clean.reachable (by decide +kernel) settle_steps h ht (by decide +kernel)
  rw [e8] at h1
  refine ⟨by decide +kernel, e6, h1.2.1, ?_⟩
  rw [e6, e5] at h2
  exact h2.resolve_right fun hno => hno 6 (by omega) (by omega) h1.2.1

/-! A map for the vectorised engine over the reals. -/

noncomputable def swapR0 : FCM ℝ :=
  match FCM.new (maxIt := 20) (decision := "LAST") (memInfluence := false) (activation := "biestate") with
  | .ok m => m
  | .error _ => default

theorem swapR0_new : FCM.new (α := ℝ) (maxIt := 20) (decision := "LAST") (memInfluence := false) (activation := "biestate") =
    .ok swapR0 := rfl

noncomputable def swapROps : List (Op ℝ) :=
  [.addConcept "a" {}, .addConcept "b" {}, .addRelation "a" "b" 1, .addRelation "b" "a" 1, .initConcept "a" 1 true,
   .assignDebug false]

/-- The same map over the reals. -/
noncomputable def swapR : FCM ℝ := runOps swapROps swapR0

theorem swapR_clean : CleanReachable swapR := cleanReachable_of (.new swapR0_new) swapROps rfl

theorem swapR_node {c : String} (h : c = "a" ∨ c = "b") : ∃ o, swapR.topology.get? c = some o ∧
    o.fn = some ⟨.bistate, "biestate", []⟩ := by
  rcases h with rfl | rfl
  · exact ⟨_, rfl, rfl⟩
  · exact ⟨_, rfl, rfl⟩

theorem swapR_fn {c : String} {n : Node ℝ} (hn : swapR.topology.get? c = some n) : n.fn = some ⟨.bistate, "biestate", []⟩ := by
  have hk : c ∈ swapR.topology.keys := Dict.mem_keys_of_get? hn
  rw [show swapR.topology.keys = ["a", "b"] from rfl] at hk
  obtain ⟨o, h1, h2⟩ := swapR_node (by simpa using hk)
  rw [hn] at h1
  cases h1
  exact h2

theorem swapR_vec : Vectorised swapR where
  clean := swapR_clean
  off := rfl
  nonempty := by
    intro h
    have : swapR.topology.keys = [] := by rw [h]; rfl
    rw [show swapR.topology.keys = ["a", "b"] from rfl] at this
    cases this
  args := fun c n f hn hf => by
    rw [swapR_fn hn] at hf
    cases hf
    exact ⟨rfl, trivial⟩
  start := fun c hc => by
    rw [show swapR.topology.keys = ["a", "b"] from rfl] at hc
    have : c = "a" ∨ c = "b" := by simpa using hc
    rcases this with rfl | rfl
    · rw [show at' swapR.traj 0 "a" = 1 from rfl]; norm_num
    · rw [show at' swapR.traj 0 "b" = lit 0 from rfl]; norm_num

theorem swapR_concept {c : String} (h : c = "a" ∨ c = "b") :
    swapR.net.vector.concept c = some ⟨true, false, false, none, fun x => callActv .bistate x []⟩ := by
  rcases h with rfl | rfl <;> rfl

theorem swapR_rels : swapR.net.vector.rels = [⟨"a", "b", 1⟩, ⟨"b", "a", 1⟩] := by
  have : swapR.net.rels = [⟨"a", "b", 1⟩, ⟨"b", "a", 1⟩] := rfl
  show latest swapR.net.rels = _
  rw [this]
  simp [latest]

/-- How it goes on for ever. -/
noncomputable def swapX (t : Nat) (c : String) : ℝ := if (c = "a") = (t % 2 = 0) then 1 else 0

theorem swapX_orbit : Orbit swapR.net.vector swapR.topology.keys swapX := by
  intro t c hc
  rw [show swapR.topology.keys = ["a", "b"] from rfl] at hc
  have hc : c = "a" ∨ c = "b" := by simpa using hc
  have hb : ∀ x : ℝ, callActv .bistate x [] = .ok (if x ≤ 0 then 0 else 1) := by
    intro x
    show Except.ok (bistate x) = _
    unfold bistate
    simp
  unfold next
  rw [swapR_concept hc]
  simp only [Option.map_some, hb, Bool.false_eq_true, if_false]
  have hin : total (inputs swapR.net.vector (swapX t) c) = swapX (t + 1) c := by
    unfold inputs
    rw [swapR_rels]
    rcases Nat.mod_two_eq_zero_or_one t with e | e <;> rcases hc with rfl | rfl <;>
      simp [along, swapR_concept, source, total, swapX, e, Nat.add_mod]
  rw [hin]
  congr 2
  unfold swapX
  split <;> norm_num

theorem swapR_returns : (FCM.runInference true swapR).1 = .ok () := by
  have hk : swapR.topology.keys = ["a", "b"] := rfl
  refine (vec_returns swapR_vec.clean.clean swapR_vec.clean.reachable.coherent rfl swapR_vec.nonempty
    (fun c n f hn hf => by rw [swapR_fn hn] at hf; cases hf; exact rfl) (by decide) ?_ swapX_orbit ?_).2 ⟨6, by decide, by decide, ?_⟩
  · intro c hc
    rw [hk] at hc
    have hc : c = "a" ∨ c = "b" := by simpa using hc
    rcases hc with rfl | rfl
    · rw [show at' swapR.traj 0 "a" = 1 from rfl]; simp [swapX]
    · rw [show at' swapR.traj 0 "b" = lit 0 from rfl]; simp [swapX]
  · exact not_two fun t k _ => by unfold swapX; split <;> norm_num
  · intro s _ _
    unfold Level
    rw [hk, real_lt]
    have : ∀ t, total (["a", "b"].map (swapX t)) = 1 := by
      intro t
      rcases Nat.mod_two_eq_zero_or_one t with e | e <;> simp [total, swapX, e]
    rw [this, this]
    show |(1 : ℝ) - 1| < dec 1 1000
    norm_num [dec]

/-- C120 for the vectorised engine. -/
example : ∃ a p, 1 ≤ a ∧ 1 ≤ p ∧ a + p ≤ 5 ∧ ∀ c ∈ swapR.topology.keys, ∀ t, a ≤ t →
    t + p < ((FCM.runInference true swapR).2.traj c).length →
    at' (FCM.runInference true swapR).2.traj (t + p) c = at' (FCM.runInference true swapR).2.traj t c :=
  C120_vector swapR_vec (fun _ _ hn => ⟨_, swapR_fn hn, Or.inl rfl⟩) (run_eq swapR_returns)

/-- The default stability difference, 1/1000. -/
example : Tells (dec 1 1000 : ℝ) := C120_tells (by norm_num [dec]) (by norm_num [dec])

end Ex

theorem C120_vector_stop_counterexample : ¬ C120_vector_stop_full := by
  intro h
  have := h (Ex.swap false) _ (Ex.swap_clean false) (by decide +kernel) (Ex.swap_steps false) (by decide +kernel)
    (Ex.swap_tells false) (Ex.run_eq (Ex.swap_run false)) (by decide +kernel) "a" (by decide +kernel)
  rw [Ex.swap_vec] at this
  simp [at', Ex.swap_vec] at this

end PyFCM
