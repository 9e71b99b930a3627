import Verif.Props.Rounding
import Verif.Props.FloatingCases
/-
C115: maps over the doubles and over the reals.
-/
namespace PyFCM
open Arith Spec Ieee

namespace Ex

open Binary64

noncomputable def flatF0 : FCM Ieee :=
  match FCM.new (decision := "LAST") (activation := "sigmoid") with
  | .ok m => m
  | .error _ => default

theorem flatF0_new : FCM.new (α := Ieee) (decision := "LAST") (activation := "sigmoid") = .ok flatF0 := rfl

noncomputable def flatFOps (x : Ieee) : List (Op Ieee) :=
  [.addConcept "a" {}, .addConcept "b" {}, .addRelation "a" "b" (fin (1/2)), .addRelation "b" "a" (fin (-1/2)), .initConcept "a" x true]

/-- The map `flat` over the doubles. -/
noncomputable def flatF (x : Ieee) : FCM Ieee := runOps (flatFOps x) flatF0

theorem flatF_clean (x : Ieee) : CleanReachable (flatF x) := cleanReachable_of (.new flatF0_new) (flatFOps x) rfl
theorem flatF_keys (x : Ieee) : (flatF x).topology.keys = ["a", "b"] := rfl
theorem flatF_arcs (x : Ieee) : (flatF x).arcList = [⟨"b", fin (1/2), "a"⟩, ⟨"a", fin (-1/2), "b"⟩] := rfl
theorem flatF_node (x : Ieee) {c : String} (h : c = "a" ∨ c = "b") : ∃ o, (flatF x).topology.get? c = some o ∧ o.active = true ∧
    o.fn = some ⟨.sigmoid, "sigmoid", []⟩ ∧ o.exec = some (.kosko, "KOSKO") ∧ o.useMem = some true := by
  rcases h with rfl | rfl
  · exact ⟨_, rfl, rfl, rfl, rfl, rfl⟩
  · exact ⟨_, rfl, rfl, rfl, rfl, rfl⟩
theorem flatF_a (x : Ieee) : at' (flatF x).traj 0 "a" = x := rfl
theorem flatF_b (x : Ieee) : at' (flatF x).traj 0 "b" = lit 0 := rfl

theorem flatF_run (x : Ieee) : ∃ m', FCM.runInference true (flatF x) = (.ok (), m') :=
  C114_returns (flatF_clean x) rfl (fun c n f hn hf => by
    have hk : c ∈ (flatF x).topology.keys := Dict.mem_keys_of_get? hn
    rw [flatF_keys] at hk
    obtain ⟨o, g, -, g1, -⟩ := flatF_node x (c := c) (by simpa using hk)
    rw [g] at hn; cases hn; rw [g1] at hf; cases hf
    exact .inl rfl) (show "LAST" ≠ "EXITED" by decide)

theorem flat_represents {x : ℝ} (hx : |x| ≤ 1) : Represents 2 1 (flatF (fin x)) (flat x) where
  keys := (flatF_keys _).trans (flat_keys _).symm
  nodes c n k hn hk := by
    have hc : c ∈ (flat x).topology.keys := Dict.mem_keys_of_get? hk
    rw [flat_keys] at hc
    have hc : c = "a" ∨ c = "b" := by simpa using hc
    obtain ⟨o, g, g1, g2, g3, g4⟩ := flatF_node (fin x) hc
    obtain ⟨o', g', g1', g2', g3', g4'⟩ := flat_node x hc
    rw [g] at hn; cases hn
    rw [g'] at hk; cases hk
    exact ⟨g1.trans g1'.symm, g3.trans g3'.symm, g4.trans g4'.symm, _, _, g2, g2', rfl, .inr (.inl rfl), .inl ⟨rfl, rfl⟩⟩
  arcs := by
    rw [flatF_arcs, flat_arcs]
    refine .cons ⟨rfl, rfl, rfl, ?_⟩ (.cons ⟨rfl, rfl, rfl, ?_⟩ .nil)
    · show |(1/2 : ℝ)| ≤ _
      rw [abs_of_pos] <;> norm_num
    · show |(-1/2 : ℝ)| ≤ _
      rw [abs_of_neg] <;> norm_num
  start c hc := by
    rw [flat_keys] at hc
    simp only [List.mem_cons, List.not_mem_nil, or_false] at hc
    rcases hc with rfl | rfl
    · rw [flatF_a, flat_a]; exact ⟨rfl, hx⟩
    · rw [flatF_b, flat_b, lit0]; simp

theorem flat_into (x : ℝ) : ∀ c ∈ (flat x).topology.keys, ((flat x).arcList.filter fun a => a.dest = c).length < 2 := by
  intro c hc
  rw [flat_arcs]
  rw [flat_keys] at hc
  simp only [List.mem_cons, List.not_mem_nil, or_false] at hc
  rcases hc with rfl | rfl <;> simp

/-- The rounding error of a step of `flat`: 158 units of 2⁻⁵³. -/
theorem flat_error : stepError (2 ^ (-53 : ℤ)) 2 1 2 = 158 * 2 ^ (-53 : ℤ) := by
  unfold stepError
  push_cast
  ring

theorem exp_many {x : ℝ} (h : x ≤ 500) : x ≤ Real.exp 500 := by linarith [Real.add_one_le_exp (500 : ℝ)]

end Ex

/-- Started at any double in [-1,1], the map computes the values over the reals with 13 correct decimals. -/
example {x : ℝ} (hx : |x| ≤ 1) : ∃ m' r', FCM.runInference true (Ex.flatF (fin x)) = (.ok (), m') ∧ FCM.runInference true (Ex.flat x) = (.ok (), r') ∧
    ∀ t, t < (m'.traj "b").length → t < (r'.traj "b").length → ∃ z, at' m'.traj t "b" = fin z ∧ |z - at' r'.traj t "b"| ≤ 1 / 10 ^ 13 := by
  obtain ⟨m', hm⟩ := Ex.flatF_run (fin x)
  obtain ⟨r', hr⟩ := Ex.flat_run x
  refine ⟨m', r', hm, hr, fun t h1 h2 => ?_⟩
  obtain ⟨z, hz, -, hd⟩ := C115_bounded Binary64.accurate le_rfl le_rfl (show 3 * 1 * 2 ≤ 2 ^ 53 by norm_num) (Ex.exp_many (by norm_num))
    (Ex.flatF_clean (fin x)).reachable (Ex.flat_clean x).reachable rfl rfl (Ex.flat_represents hx) (Ex.flat_flat x) (by norm_num) (by norm_num)
    (Ex.flat_into x) hm hr (c := "b") (by rw [Ex.flat_keys]; simp) h1 h2
  refine ⟨z, hz, hd.trans ?_⟩
  rw [Ex.flat_error]
  norm_num

/-- And it comes that near to the equilibrium. -/
example {x : ℝ} (hx : |x| ≤ 1) : ∃ m' X, FCM.runInference true (Ex.flatF (fin x)) = (.ok (), m') ∧ Equilibrium (Ex.flat x).net (Ex.flat x).topology.keys X ∧
    ∀ t, t < (m'.traj "b").length → ∃ z, at' m'.traj t "b" = fin z ∧ |z - X "b"| ≤ (3/8) ^ t * 2 + 1 / 10 ^ 13 := by
  obtain ⟨m', hm⟩ := Ex.flatF_run (fin x)
  obtain ⟨X, hX, -⟩ := C79_equilibrium (Ex.flat_clean x).reachable (Ex.flat_flat x) (by norm_num) (by norm_num)
  refine ⟨m', X, hm, hX, fun t h1 => ?_⟩
  obtain ⟨z, hz, -, hd⟩ := C115_equilibrium Binary64.accurate le_rfl le_rfl (show 3 * 1 * 2 ≤ 2 ^ 53 by norm_num) (Ex.exp_many (by norm_num))
    (Ex.flatF_clean (fin x)).reachable (Ex.flat_clean x).reachable rfl (Ex.flat_represents hx) (Ex.flat_flat x) (by norm_num) (by norm_num)
    (Ex.flat_into x) hX hm (c := "b") (by rw [Ex.flat_keys]; simp) h1
  refine ⟨z, hz, hd.trans ?_⟩
  rw [Ex.flat_error]
  norm_num

namespace Ex

/-- The two maps with `stop_at_stabilize` off. -/
noncomputable def flatS (x : ℝ) : FCM ℝ := { flat x with stopAtStabilize := false }
noncomputable def flatFS (x : Ieee) : FCM Ieee := { flatF x with stopAtStabilize := false }

theorem flatS_clean (x : ℝ) : CleanReachable (flatS x) := .step (.assignStop false) (flat_clean x) rfl
theorem flatFS_clean (x : Ieee) : CleanReachable (flatFS x) := .step (.assignStop false) (flatF_clean x) rfl

theorem flatS_represents {x : ℝ} (hx : |x| ≤ 1) : Represents 2 1 (flatFS (fin x)) (flatS x) :=
  have h := flat_represents hx
  ⟨h.keys, h.nodes, h.arcs, h.start⟩

theorem flatS_flat (x : ℝ) : Flat (flatS x) (3/8) := flat_flat x

theorem flatFS_run (x : Ieee) : ∃ m', FCM.runInference true (flatFS x) = (.ok (), m') :=
  C114_returns (flatFS_clean x) rfl (fun c n f hn hf => by
    have hk : c ∈ (flatF x).topology.keys := Dict.mem_keys_of_get? hn
    rw [flatF_keys] at hk
    obtain ⟨o, g, -, g1, -⟩ := flatF_node x (c := c) (by simpa using hk)
    have hn : (flatF x).topology.get? c = some n := hn
    rw [g] at hn; cases hn; rw [g1] at hf; cases hf
    exact .inl rfl) (show "LAST" ≠ "EXITED" by decide)

theorem flatS_run (x : ℝ) : ∃ m', FCM.runInference true (flatS x) = (.ok (), m') :=
  C75_succeeds (flatS_clean x) rfl
    (fun c n f hg hf => by
      have hk : c ∈ (flat x).topology.keys := Dict.mem_keys_of_get? hg
      rw [flat_keys] at hk
      obtain ⟨o, g, -, g1, -⟩ := flat_node x (c := c) (by simpa using hk)
      have hg : (flat x).topology.get? c = some n := hg
      rw [g] at hg; cases hg; rw [g1] at hf; cases hf
      exact ⟨.inl rfl, fun h => by simp at h⟩)
    (show "LAST" ≠ "EXITED" by decide)

end Ex

/-- For 200 iterations: the final values agree in 13 decimals. -/
example {x : ℝ} (hx : |x| ≤ 1) : ∃ m' r', FCM.runInference true (Ex.flatFS (fin x)) = (.ok (), m') ∧
    FCM.runInference true (Ex.flatS x) = (.ok (), r') ∧
    ∃ z v, m'.getConceptValue "b" = some (fin z) ∧ r'.getConceptValue "b" = some v ∧ |z - v| ≤ 1 / 10 ^ 13 := by
  obtain ⟨m', hm⟩ := Ex.flatFS_run (fin x)
  obtain ⟨r', hr⟩ := Ex.flatS_run x
  refine ⟨m', r', hm, hr, ?_⟩
  obtain ⟨z, v, h1, h2, hd⟩ := C115_last Binary64.accurate le_rfl le_rfl (show 3 * 1 * 2 ≤ 2 ^ 53 by norm_num) (Ex.exp_many (by norm_num))
    (Ex.flatFS_clean (fin x)).reachable (Ex.flatS_clean x).reachable rfl rfl (Ex.flatS_represents hx) (Ex.flatS_flat x) (by norm_num) (by norm_num)
    (Ex.flat_into x) rfl rfl rfl rfl rfl rfl hm hr (c := "b") (show "b" ∈ (Ex.flat x).topology.keys by rw [Ex.flat_keys]; simp)
  refine ⟨z, v, h1, h2, hd.trans ?_⟩
  rw [Ex.flat_error]
  norm_num

/-! ### C115: functions that jump -/

/-- The claim for every activation function without parameters: the recorded values are nearer than 1 to those over the reals. -/
def C115_jumping : Prop := ∀ (m m' : FCM Ieee) (r r' : FCM ℝ), CleanReachable m → CleanReachable r → m.debug = true → r.debug = true →
  m.topology.keys = r.topology.keys →
  (∀ c n k, m.topology.get? c = some n → r.topology.get? c = some k → n.active = k.active ∧ n.exec = k.exec ∧ n.useMem = k.useMem ∧
    ∃ f g, n.fn = some f ∧ k.fn = some g ∧ f.fn = g.fn ∧ f.fn ≠ .fuzzy ∧ f.args = [] ∧ g.args = []) →
  List.Forall₂ (fun a b => a.origin = b.origin ∧ a.dest = b.dest ∧ a.weight = fin b.weight ∧ Binary64.round b.weight = fin b.weight ∧ |b.weight| ≤ 1)
    m.arcList r.arcList →
  (∀ c ∈ r.topology.keys, at' m.traj 0 c = fin (at' r.traj 0 c) ∧ Binary64.round (at' r.traj 0 c) = fin (at' r.traj 0 c) ∧ |at' r.traj 0 c| ≤ 1) →
  FCM.runInference true m = (.ok (), m') → FCM.runInference true r = (.ok (), r') → ∀ c ∈ r.topology.keys, ∀ t,
  t < (m'.traj c).length → t < (r'.traj c).length → ∃ z, at' m'.traj t c = fin z ∧ |z - at' r'.traj t c| < 1

namespace Binary64

/-- What is below half the least number becomes 0. -/
theorem round_tiny {x : ℝ} (h0 : 0 ≤ x) (h : x < (2 : ℝ) ^ (-1075 : ℤ)) : round x = fin 0 := by
  have ht : x < top := h.trans_le (zpow_le_zpow_right₀ (by norm_num) (by norm_num))
  have e : (2 : ℝ) ^ (-1074 : ℤ) = 2 * (2 : ℝ) ^ (-1075 : ℤ) := by
    rw [show (-1074 : ℤ) = 1 + -1075 by norm_num, zpow_add₀ (by norm_num), zpow_one]
  have least : ∀ p, Grid p → 0 < p → (2 : ℝ) ^ (-1074 : ℤ) ≤ p := by
    rintro p ⟨a, k, h1, -, h3, -, rfl⟩ hp
    have hk : (2 : ℝ) ^ (-1074 : ℤ) ≤ (2 : ℝ) ^ k := zpow_le_zpow_right₀ (by norm_num) h3
    have ha : 1 ≤ a := by
      by_contra hc
      have : a = 0 := by omega
      rw [this] at hp
      simp at hp
    have ha' : (1 : ℝ) ≤ a := by exact_mod_cast ha
    have hkp : (0 : ℝ) < (2 : ℝ) ^ k := by positivity
    generalize (2 : ℝ) ^ (-1074 : ℤ) = s at *
    nlinarith
  obtain ⟨d1, d2, -⟩ := down_spec h0
  have hd : down x = 0 := by
    by_contra hc
    have := least _ d1 (lt_of_le_of_ne (grid_nonneg d1) (Ne.symm hc))
    have hp : (0 : ℝ) < (2 : ℝ) ^ (-1075 : ℤ) := by positivity
    rw [e] at this
    generalize (2 : ℝ) ^ (-1075 : ℤ) = s at *
    linarith
  have hn : nearest x = 0 := by
    rcases eq_or_lt_of_le h0 with g | g
    · rw [← g]; exact nearest_eq grid_zero top_pos.le
    · obtain ⟨u1, u2, -⟩ := up_spec ht.le
      have := least _ u1 (g.trans_le u2)
      unfold nearest
      rw [hd, if_pos]
      rw [e] at this
      generalize (2 : ℝ) ^ (-1075 : ℤ) = s at *
      linarith
  rw [round_pos h0]
  unfold magnitude
  rw [min_eq_left ht.le, hn, if_neg top_pos.ne]

theorem round_pow {k : ℤ} (h0 : -1074 ≤ k) (h : k ≤ 971) : round ((2 : ℝ) ^ k) = fin ((2 : ℝ) ^ k) := by
  rw [round_pos (by positivity)]
  exact magnitude_fin (grid_pow h0 h) (zpow_lt_zpow_right₀ (by norm_num) (by omega))

end Binary64

namespace Ex

open Binary64

/-- 2⁻⁶⁰⁰ -/
noncomputable def small : ℝ := (2 : ℝ) ^ (-600 : ℤ)

noncomputable def jumpR0 : FCM ℝ :=
  match FCM.new (decision := "LAST") (activation := "biestate") with
  | .ok m => m
  | .error _ => default
noncomputable def jumpF0 : FCM Ieee :=
  match FCM.new (decision := "LAST") (activation := "biestate") with
  | .ok m => m
  | .error _ => default

theorem jumpR0_new : FCM.new (α := ℝ) (decision := "LAST") (activation := "biestate") = .ok jumpR0 := rfl
theorem jumpF0_new : FCM.new (α := Ieee) (decision := "LAST") (activation := "biestate") = .ok jumpF0 := rfl

noncomputable def jumpROps : List (Op ℝ) :=
  [.addConcept "a" {}, .addConcept "b" {}, .addRelation "a" "b" small, .initConcept "a" small true]
noncomputable def jumpFOps : List (Op Ieee) :=
  [.addConcept "a" {}, .addConcept "b" {}, .addRelation "a" "b" (fin small), .initConcept "a" (fin small) true]

/-- a starts at 2⁻⁶⁰⁰ and passes 2⁻¹²⁰⁰ to b (bistate). -/
noncomputable def jumpR : FCM ℝ := runOps jumpROps jumpR0
noncomputable def jumpF : FCM Ieee := runOps jumpFOps jumpF0

theorem jumpR_clean : CleanReachable jumpR := cleanReachable_of (.new jumpR0_new) jumpROps rfl
theorem jumpF_clean : CleanReachable jumpF := cleanReachable_of (.new jumpF0_new) jumpFOps rfl
theorem jumpR_keys : jumpR.topology.keys = ["a", "b"] := rfl
theorem jumpF_keys : jumpF.topology.keys = ["a", "b"] := rfl
theorem jumpR_arcs : jumpR.arcList = [⟨"b", small, "a"⟩] := rfl
theorem jumpF_arcs : jumpF.arcList = [⟨"b", fin small, "a"⟩] := rfl
theorem jumpR_node {c : String} (h : c = "a" ∨ c = "b") : ∃ o, jumpR.topology.get? c = some o ∧ o.active = true ∧
    o.fn = some ⟨.bistate, "biestate", []⟩ ∧ o.exec = some (.kosko, "KOSKO") ∧ o.useMem = some true := by
  rcases h with rfl | rfl
  · exact ⟨_, rfl, rfl, rfl, rfl, rfl⟩
  · exact ⟨_, rfl, rfl, rfl, rfl, rfl⟩
theorem jumpF_node {c : String} (h : c = "a" ∨ c = "b") : ∃ o, jumpF.topology.get? c = some o ∧ o.active = true ∧
    o.fn = some ⟨.bistate, "biestate", []⟩ ∧ o.exec = some (.kosko, "KOSKO") ∧ o.useMem = some true := by
  rcases h with rfl | rfl
  · exact ⟨_, rfl, rfl, rfl, rfl, rfl⟩
  · exact ⟨_, rfl, rfl, rfl, rfl, rfl⟩
theorem jumpR_a : at' jumpR.traj 0 "a" = small := rfl
theorem jumpR_b : at' jumpR.traj 0 "b" = lit 0 := rfl
theorem jumpF_a : at' jumpF.traj 0 "a" = fin small := rfl
theorem jumpF_b : at' jumpF.traj 0 "b" = lit 0 := rfl

theorem small_pos : 0 < small := by unfold small; positivity
theorem small_one : small ≤ 1 := zpow_le_one_of_nonpos₀ (by norm_num) (by norm_num)
theorem small_round : Binary64.round small = fin small := round_pow (by norm_num) (by norm_num)
theorem small_product : Binary64.round (small * small) = fin 0 := by
  refine round_tiny (by have := small_pos; positivity) ?_
  unfold small
  rw [← zpow_add₀ (by norm_num)]
  exact zpow_lt_zpow_right₀ (by norm_num) (by norm_num)

theorem jumpF_run : ∃ m', FCM.runInference true jumpF = (.ok (), m') :=
  C114_returns jumpF_clean rfl (fun c n f hn hf => by
    have hk : c ∈ jumpF.topology.keys := Dict.mem_keys_of_get? hn
    rw [jumpF_keys] at hk
    obtain ⟨o, g, -, g1, -⟩ := jumpF_node (c := c) (by simpa using hk)
    rw [g] at hn; cases hn; rw [g1] at hf; cases hf
    rfl) (show "LAST" ≠ "EXITED" by decide)

theorem jumpR_run : ∃ m', FCM.runInference true jumpR = (.ok (), m') :=
  C75_succeeds jumpR_clean rfl
    (fun c n f hg hf => by
      have hk : c ∈ jumpR.topology.keys := Dict.mem_keys_of_get? hg
      rw [jumpR_keys] at hk
      obtain ⟨o, g, -, g1, -⟩ := jumpR_node (c := c) (by simpa using hk)
      rw [g] at hg; cases hg; rw [g1] at hf; cases hf
      exact ⟨rfl, fun h => by simp at h⟩)
    (show "LAST" ≠ "EXITED" by decide)

end Ex

open Ex in
/-- C115 without the bounded slopes is false: a product that underflows switches a bistate concept. -/
theorem C115_jump : ¬ C115_jumping := by
  intro h
  obtain ⟨m', hm⟩ := jumpF_run
  obtain ⟨r', hr⟩ := jumpR_run
  have hb : "b" ∈ jumpR.topology.keys := by rw [jumpR_keys]; simp
  have hb' : "b" ∈ jumpF.topology.keys := by rw [jumpF_keys]; simp
  have ha : "a" ∈ jumpR.topology.keys := by rw [jumpR_keys]; simp
  have ha' : "a" ∈ jumpF.topology.keys := by rw [jumpF_keys]; simp
  obtain ⟨lm, im⟩ := run_iter jumpF_clean.reachable.inv rfl hm
  obtain ⟨lr, ir⟩ := run_iter jumpR_clean.reachable.inv rfl hr
  have am : 4 < lm := im.stops.above
  have ar : 4 < lr := ir.stops.above
  obtain ⟨z, hz, hd⟩ := h jumpF m' jumpR r' jumpF_clean jumpR_clean rfl rfl (jumpF_keys.trans jumpR_keys.symm)
    (fun c n k hn hk => by
      have hc : c ∈ jumpR.topology.keys := Dict.mem_keys_of_get? hk
      rw [jumpR_keys] at hc
      have hc : c = "a" ∨ c = "b" := by simpa using hc
      obtain ⟨o, g, g1, g2, g3, g4⟩ := jumpF_node hc
      obtain ⟨o', g', g1', g2', g3', g4'⟩ := jumpR_node hc
      rw [g] at hn; cases hn
      rw [g'] at hk; cases hk
      exact ⟨g1.trans g1'.symm, g3.trans g3'.symm, g4.trans g4'.symm, _, _, g2, g2', rfl, by simp, rfl, rfl⟩)
    (by
      rw [jumpF_arcs, jumpR_arcs]
      refine .cons ⟨rfl, rfl, rfl, small_round, ?_⟩ .nil
      show |small| ≤ 1
      rw [abs_of_pos small_pos]
      exact small_one)
    (fun c hc => by
      rw [jumpR_keys] at hc
      simp only [List.mem_cons, List.not_mem_nil, or_false] at hc
      rcases hc with rfl | rfl
      · rw [jumpF_a, jumpR_a, abs_of_pos small_pos]
        exact ⟨rfl, small_round, small_one⟩
      · rw [jumpF_b, jumpR_b, lit0]
        have : Binary64.round ((0 : ℤ) : ℝ) = fin ((0 : ℤ) : ℝ) := Binary64.round_int (by norm_num)
        simpa using this)
    hm hr "b" hb 1 (by rw [(im.run _ hb').1]; omega) (by rw [(ir.run _ hb).1]; omega)
  have n1 := (im.run "b" hb').2 0 (by omega)
  have n2 := (ir.run "b" hb).2 0 (by omega)
  have hba : ("b" : String) ≠ "a" := by decide
  obtain ⟨oa, ga, g1, g2, g3, g4⟩ := jumpF_node (c := "a") (.inl rfl)
  obtain ⟨ob, gb, b1, b2, b3, b4⟩ := jumpF_node (c := "b") (.inr rfl)
  obtain ⟨pa, ka, k1, k2, k3, k4⟩ := jumpR_node (c := "a") (.inl rfl)
  obtain ⟨pb, la, l1, l2, l3, l4⟩ := jumpR_node (c := "b") (.inr rfl)
  have ca : jumpF.net.concept "a" = oa.toSpec := by simp only [FCM.net, ga, Option.bind_some]
  have cb : jumpF.net.concept "b" = ob.toSpec := by simp only [FCM.net, gb, Option.bind_some]
  have da : jumpR.net.concept "a" = pa.toSpec := by simp only [FCM.net, ka, Option.bind_some]
  have db : jumpR.net.concept "b" = pb.toSpec := by simp only [FCM.net, la, Option.bind_some]
  rw [toSpec_at g2 g3 g4] at ca
  rw [toSpec_at b2 b3 b4] at cb
  rw [toSpec_of k2 k3 k4] at da
  rw [toSpec_of l2 l3 l4] at db
  have i1 : inputs jumpF.net (at' m'.traj 0) "b" = [fin small * fin small] := by
    unfold inputs
    show (jumpF.arcList.map Arc.toSpec).filterMap _ = _
    rw [jumpF_arcs]
    simp only [List.map_cons, List.map_nil, List.filterMap_cons, List.filterMap_nil, Arc.toSpec, along, if_true, ca, g1, source,
      (im.init "a" ha').2, jumpF_a]
    simp
  have i2 : inputs jumpR.net (at' r'.traj 0) "b" = [small * small] := by
    unfold inputs
    show (jumpR.arcList.map Arc.toSpec).filterMap _ = _
    rw [jumpR_arcs]
    simp only [List.map_cons, List.map_nil, List.filterMap_cons, List.filterMap_nil, Arc.toSpec, along, if_true, da, k1, source,
      (ir.init "a" ha).2, jumpR_a]
    simp
  have t1 : total (inputs jumpF.net (at' m'.traj 0) "b") = fin 0 := by
    rw [i1]
    show (lit 0 + fin small * fin small : Ieee) = _
    rw [lit0]
    show Ieee.add (fin 0) (Binary64.round (small * small)) = _
    rw [small_product]
    show Binary64.round (0 + 0) = _
    rw [add_zero]
    exact rd_zero (F := Binary64.format)
  have t2 : total (inputs jumpR.net (at' r'.traj 0) "b") = small * small := by
    rw [i2, total_real]
    simp
  unfold next at n1 n2
  rw [cb] at n1
  rw [db] at n2
  simp only [Option.map_some, t1, t2, source, (im.init "b" hb').2, (ir.init "b" hb).2, jumpF_b, jumpR_b] at n1 n2
  have e1 : at' m'.traj 1 "b" = fin 0 := by
    have : (fin 0 + lit 0 : Ieee) = fin 0 := by
      rw [lit0]
      show Binary64.round (0 + 0) = _
      rw [add_zero]
      exact rd_zero (F := Binary64.format)
    have nb : (bistate (fin 0 : Ieee)) = fin 0 := by
      unfold bistate
      rw [if_pos (by rw [dle_iff, lit0]; exact le_refl (0 : ℝ)), lit0]
    simp [callActv, this, nb] at n1
    exact n1.symm
  have e2 : at' r'.traj 1 "b" = 1 := by
    have nb : bistate (small * small) = 1 := by
      unfold bistate
      have h1 : 0 < small * small := mul_pos small_pos small_pos
      rw [if_neg (by simpa using h1)]
      simp
    simp [callActv, nb] at n2
    exact n2.symm
  rw [e1] at hz
  rw [e2] at hd
  cases hz
  norm_num at hd

end PyFCM
