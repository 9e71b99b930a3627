import Verif.Props.Floating
import Verif.Lemmas.Binary64
/-
C114: maps over the doubles.
-/
namespace PyFCM
open Arith Spec Ieee

namespace Ex

open Binary64

/-- The largest power of two among the doubles. -/
noncomputable def huge : ℝ := (2 : ℝ) ^ (1023 : ℤ)

theorem huge_top : top = 2 * huge := by
  unfold top huge
  rw [show (1024 : ℤ) = 1 + 1023 by norm_num, zpow_add₀ (by norm_num), zpow_one]

theorem huge_pos : 0 < huge := by unfold huge; positivity

theorem huge_double : Binary64.round huge = fin huge ∧ Binary64.round (-huge) = fin (-huge) := by
  have h : Binary64.round huge = fin huge := by
    rw [round_pos huge_pos.le]
    refine magnitude_fin ⟨2 ^ 52, 971, by norm_num, by norm_num, by norm_num, le_rfl, ?_⟩ (by linarith [huge_top, huge_pos])
    unfold huge
    rw [show (1023 : ℤ) = 52 + 971 by norm_num, zpow_add₀ (by norm_num), show ((2 ^ 52 : ℤ) : ℝ) = (2 : ℝ) ^ (52 : ℤ) by norm_num]
  refine ⟨h, ?_⟩
  rw [round_odd, h]
  rfl

instance : Inhabited Ieee := ⟨nan⟩

noncomputable def float0 : FCM Ieee :=
  match FCM.new (decision := "LAST") with
  | .ok m => m
  | .error _ => default

theorem float0_new : FCM.new (α := Ieee) (decision := "LAST") = .ok float0 := rfl

noncomputable def floatOps (d : Bool) (x v w : Ieee) : List (Op Ieee) :=
  [.addConcept "a" { excitation := some "PAPAGEORGIUS" }, .addConcept "b" { activation := some "saturation" },
   .addRelation "a" "b" v, .addRelation "a" "b" w, .initConcept "a" x true, .assignDebug d]

/-- Two relations of weights `v` and `w` from a (PAPAGEORGIUS, sigmoid_hip) to b (saturation); a starts at `x`, b at 0. -/
noncomputable def float (d : Bool) (x v w : Ieee) : FCM Ieee := runOps (floatOps d x v w) float0

theorem float_clean (d : Bool) (x v w : Ieee) : CleanReachable (float d x v w) :=
  cleanReachable_of (.new float0_new) (floatOps d x v w) rfl
theorem float_keys (d : Bool) (x v w : Ieee) : (float d x v w).topology.keys = ["a", "b"] := rfl
theorem float_arcs (d : Bool) (x v w : Ieee) : (float d x v w).arcList = [⟨"b", v, "a"⟩, ⟨"b", w, "a"⟩] := rfl
theorem float_a (d : Bool) (x v w : Ieee) : ∃ o, (float d x v w).topology.get? "a" = some o ∧
    o.fn = some ⟨.sigmoidHip, "sigmoid_hip", []⟩ ∧ o.exec = some (.papageorgius, "PAPAGEORGIUS") ∧ o.useMem = some true ∧
    o.active = true ∧ o.argsVect = some [] :=
  ⟨_, rfl, rfl, rfl, rfl, rfl, rfl⟩
theorem float_b (d : Bool) (x v w : Ieee) : ∃ o, (float d x v w).topology.get? "b" = some o ∧
    o.fn = some ⟨.saturation, "saturation", []⟩ ∧ o.exec = some (.kosko, "KOSKO") ∧ o.useMem = some true ∧ o.active = true ∧
    o.argsVect = some [] :=
  ⟨_, rfl, rfl, rfl, rfl, rfl, rfl⟩
theorem float_start (d : Bool) (x v w : Ieee) : at' (float d x v w).traj 0 "a" = x ∧ at' (float d x v w).traj 0 "b" = lit 0 :=
  ⟨rfl, rfl⟩

theorem float_cases {d : Bool} {x v w : Ieee} {c : String} {n : Node Ieee} {f : FnInfo Ieee}
    (h : (float d x v w).topology.get? c = some n) (hf : n.fn = some f) :
    n.argsVect = some [] ∧ f.args = [] ∧ (f.fn = .sigmoidHip ∨ f.fn = .saturation) := by
  have hk := Dict.mem_keys_of_get? h
  rw [float_keys] at hk
  have hk : c = "a" ∨ c = "b" := by simpa using hk
  rcases hk with rfl | rfl
  · obtain ⟨o, g, g1, -, -, -, g2⟩ := float_a d x v w
    rw [g] at h; cases h; rw [g1] at hf; cases hf
    exact ⟨g2, rfl, .inl rfl⟩
  · obtain ⟨o, g, g1, -, -, -, g2⟩ := float_b d x v w
    rw [g] at h; cases h; rw [g1] at hf; cases hf
    exact ⟨g2, rfl, .inr rfl⟩

theorem float_steady {d : Bool} {x v w : Ieee} (c : String) (n : Node Ieee) (f : FnInfo Ieee)
    (h : (float d x v w).topology.get? c = some n) (hf : n.fn = some f) : SteadyArgs f := by
  obtain ⟨-, h1, h2⟩ := float_cases h hf
  refine ⟨by rcases h2 with e | e <;> rw [e] <;> simp, fun l hl => ?_⟩
  rw [h1] at hl
  cases hl

theorem float_plain {d : Bool} {x v w : Ieee} (c : String) (n : Node Ieee) (f : FnInfo Ieee)
    (h : (float d x v w).topology.get? c = some n) (hf : n.fn = some f) : PlainArgs f := by
  obtain ⟨-, h1, h2⟩ := float_cases h hf
  unfold PlainArgs
  rcases h2 with e | e <;> rw [e]
  · exact .inl h1
  · exact h1

theorem float_run (x v w : Ieee) : ∃ m', FCM.runInference true (float true x v w) = (.ok (), m') :=
  C114_returns (float_clean true x v w) rfl float_plain (show "LAST" ≠ "EXITED" by decide)

theorem float_init {d : Bool} {x v w : Ieee} (hx : Among (-1) 1 x) (c : String) (hc : c ∈ (float d x v w).topology.keys) :
    Among (-1) 1 (at' (float d x v w).traj 0 c) := by
  rw [float_keys] at hc
  have hk : c = "a" ∨ c = "b" := by simpa using hc
  rcases hk with rfl | rfl
  · rw [(float_start d x v w).1]; exact hx
  · rw [(float_start d x v w).2]; exact ⟨0, lit0, by norm_num, by norm_num⟩

theorem float_weights {d : Bool} {x v w : Ieee} {W : Nat} (hv : Among (-W) W v) (hw : Among (-W) W w) :
    ∀ a ∈ (float d x v w).arcList, Among (-W) W a.weight := by
  intro a ha
  rw [float_arcs] at ha
  have : a = ⟨"b", v, "a"⟩ ∨ a = ⟨"b", w, "a"⟩ := by simpa using ha
  rcases this with rfl | rfl
  · exact hv
  · exact hw

/-- Weights 1/2 and -7: the run returns and every recorded value is a number in [-1,1]. -/
example : ∃ m', FCM.runInference true (float true (fin (1/3)) (fin (1/2)) (fin (-7))) = (.ok (), m') ∧
    (∀ x ∈ m'.traj "b", Among (-1) 1 x) := by
  obtain ⟨m', h⟩ := float_run (fin (1/3)) (fin (1/2)) (fin (-7))
  exact ⟨m', h, (C114_no_nan (W := 7) (float_clean _ _ _ _).reachable rfl (show 3 * 7 ≤ 2 ^ 53 by decide)
    (float_weights ⟨_, rfl, by norm_num, by norm_num⟩ ⟨_, rfl, by norm_num, by norm_num⟩) float_steady
    (float_init ⟨_, rfl, by norm_num, by norm_num⟩) h (by rw [float_keys]; simp)).1⟩

/-- Any weights (infinities and NaN included): [-1,1] or NaN. -/
example (v w : Ieee) : ∃ m', FCM.runInference true (float true (fin (1/3)) v w) = (.ok (), m') ∧
    (∀ x ∈ m'.traj "b", Within (-1) 1 x) := by
  obtain ⟨m', h⟩ := float_run (fin (1/3)) v w
  exact ⟨m', h, (C114_iterative (float_clean _ _ _ _).reachable rfl
    (fun c n f hn hf => steady_sound (float_steady c n f hn hf))
    (fun c hc => (float_init ⟨_, rfl, by norm_num, by norm_num⟩ c hc).within) h (by rw [float_keys]; simp)).1⟩

/-- The vectorised engine. -/
example {m' : FCM Ieee} (h : FCM.runInference true (float false (fin (1/3)) (fin (1/2)) (fin (-7))) = (.ok (), m')) :
    (∀ x ∈ m'.traj "b", Among (-1) 1 x) :=
  (C114_no_nan_vectorised (W := 7) (float_clean _ _ _ _).reachable rfl (show 3 * 7 ≤ 2 ^ 53 by decide)
    (float_weights ⟨_, rfl, by norm_num, by norm_num⟩ ⟨_, rfl, by norm_num, by norm_num⟩)
    (fun c n f v hn hf hv => by
      obtain ⟨h1, h2, h3⟩ := float_cases hn hf
      rw [h1] at hv; cases hv
      refine ⟨(float_steady c n f hn hf).1, fun _ _ l hl => by cases hl⟩)
    (float_init ⟨_, rfl, by norm_num, by norm_num⟩) h (by rw [float_keys]; simp)).1

end Ex

/-! ### C114: NaN -/

/-- Without a bound on the weights: whatever the format, with numbers as weights and starting values in [-1,1] no NaN is recorded. -/
def C114_numbers : Prop := ∀ (_ : Format) (m m' : FCM Ieee), CleanReachable m → m.debug = true →
  (∀ c n f, m.topology.get? c = some n → n.fn = some f → SteadyArgs f) →
  (∀ a ∈ m.arcList, ∃ w, a.weight = fin w ∧ Format.rd w = fin w) → (∀ c ∈ m.topology.keys, Among (-1) 1 (at' m.traj 0 c)) →
  FCM.runInference true m = (.ok (), m') → ∀ c ∈ m.topology.keys, ∀ x ∈ m'.traj c, x ≠ nan

section
open Ex Binary64

theorem big_product : (fin (-3) : Ieee) * fin huge = ninf ∧ (fin (-3) : Ieee) * fin (-huge) = pinf := by
  have h0 := huge_pos
  have h : Binary64.round (3 * huge) = pinf := by
    rw [round_pos (by linarith)]
    unfold magnitude
    rw [min_eq_right (by linarith [huge_top]), nearest_eq grid_top le_rfl, if_pos rfl]
  constructor
  · show Binary64.round (-3 * huge) = _
    rw [show -3 * huge = -(3 * huge) by ring, round_odd, h]
    rfl
  · show Binary64.round (-3 * -huge) = _
    rw [show -3 * -huge = 3 * huge by ring, h]

/-- The second recorded value of b. -/
theorem float_nan {m' : FCM Ieee} {len : Nat} (hi : IterRun (float true (fin (-1)) (fin huge) (fin (-huge))) m' len) (hl : 1 < len) :
    at' m'.traj 1 "b" = nan := by
  have hb : "b" ∈ (float true (fin (-1)) (fin huge) (fin (-huge))).topology.keys := by rw [float_keys]; simp
  have ha : "a" ∈ (float true (fin (-1)) (fin huge) (fin (-huge))).topology.keys := by rw [float_keys]; simp
  have hs := (hi.run "b" hb).2 0 hl
  have ea : at' m'.traj 0 "a" = fin (-1) := by rw [(hi.init "a" ha).2]; exact (float_start ..).1
  have eb : at' m'.traj 0 "b" = fin 0 := by rw [(hi.init "b" hb).2, (float_start ..).2]; exact lit0
  obtain ⟨o, g, g1, g2, g3, g4, -⟩ := float_a true (fin (-1)) (fin huge) (fin (-huge))
  obtain ⟨o', k, k1, k2, k3, k4, -⟩ := float_b true (fin (-1)) (fin huge) (fin (-huge))
  have ca : (float true (fin (-1)) (fin huge) (fin (-huge))).net.concept "a" = o.toSpec := by
    simp only [FCM.net, g, Option.bind_some]
  have cb : (float true (fin (-1)) (fin huge) (fin (-huge))).net.concept "b" = o'.toSpec := by
    simp only [FCM.net, k, Option.bind_some]
  have rels : (float true (fin (-1)) (fin huge) (fin (-huge))).net.rels = [⟨"a", "b", fin huge⟩, ⟨"a", "b", fin (-huge)⟩] := by
    show (FCM.arcList _).map _ = _
    rw [float_arcs]; rfl
  have src : (lit 2 * fin (-1) - lit 1 : Ieee) = fin (-3) := by
    rw [lit2, lit1]
    have h1 : (fin 2 * fin (-1) : Ieee) = fin (-2) := by
      show Binary64.round (2 * -1) = _
      rw [show (2 * -1 : ℝ) = ((-2 : ℤ) : ℝ) by norm_num, round_int (by norm_num)]
      norm_num
    rw [h1, sub_eq]
    show Binary64.round (-2 + -1) = _
    rw [show (-2 + -1 : ℝ) = ((-3 : ℤ) : ℝ) by norm_num, round_int (by norm_num)]
    norm_num
  have hin : inputs (float true (fin (-1)) (fin huge) (fin (-huge))).net (at' m'.traj 0) "b" = [ninf, pinf] := by
    unfold inputs
    rw [rels]
    simp only [List.filterMap_cons, List.filterMap_nil, along, ca, Node.toSpec, g1, g2, g3, g4, source, ea, if_true, beq_self_eq_true,
      src, big_product.1, big_product.2]
  have htot : total [ninf, (pinf : Ieee)] = nan := by
    unfold total
    rw [List.foldl_cons, List.foldl_cons, List.foldl_nil, lit0]
    rfl
  have hsat : saturation (nan : Ieee) = nan := by
    unfold saturation
    rw [if_neg (by rw [dlt_iff]; exact id), if_neg (by rw [dlt_iff, lit1]; exact id)]
  unfold next at hs
  rw [hin, htot, cb] at hs
  simp only [Node.toSpec, k1, k2, k3, Option.map_some, if_true, show ("saturation" = "fuzzy") = False by simp, if_false, source,
    show (("KOSKO" : String) == "PAPAGEORGIUS") = false by decide, Bool.false_eq_true, eb] at hs
  have hn : (nan : Ieee) + fin 0 = nan := rfl
  rw [hn] at hs
  have hc : callActv (α := Ieee) .saturation nan [] = .ok nan := by
    show Except.ok (saturation nan) = _
    rw [hsat]
  rw [hc] at hs
  exact (Except.ok.inj (Option.some.inj hs)).symm

/-- The contributions of two relations of opposite huge weights overflow to -∞ and +∞; their sum is NaN. -/
theorem C114_nan : ¬ C114_numbers := by
  intro hf
  obtain ⟨m', h⟩ := float_run (fin (-1)) (fin huge) (fin (-huge))
  have hr := (float_clean true (fin (-1)) (fin huge) (fin (-huge))).reachable
  obtain ⟨len, hi⟩ := run_iter hr.inv rfl h
  have hb : "b" ∈ (float true (fin (-1)) (fin huge) (fin (-huge))).topology.keys := by rw [float_keys]; simp
  have hl : 1 < len := by
    have := hi.stops.above
    rw [show (float true (fin (-1)) (fin huge) (fin (-huge))).extraSteps = 5 from rfl] at this
    omega
  have hx := float_nan hi hl
  have hlen := (hi.run "b" hb).1
  refine hf format _ m' (float_clean ..) rfl float_steady ?_ (float_init ⟨-1, rfl, by norm_num, by norm_num⟩) h "b" hb
    (at' m'.traj 1 "b") ?_ hx
  · intro a ha
    rw [float_arcs] at ha
    have : a = ⟨"b", fin huge, "a"⟩ ∨ a = ⟨"b", fin (-huge), "a"⟩ := by simpa using ha
    rcases this with rfl | rfl
    · exact ⟨_, rfl, huge_double.1⟩
    · exact ⟨_, rfl, huge_double.2⟩
  · unfold at'
    rw [List.getD_eq_getElem?_getD, List.getElem?_eq_getElem (by omega)]
    exact List.getElem_mem _

end

end PyFCM
