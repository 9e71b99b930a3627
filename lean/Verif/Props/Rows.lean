import Verif.Lemmas.Rows
import Verif.Lemmas.RealFn
import Verif.Props.Numeric
import Mathlib.Tactic.FieldSimp
/-
C73: learning does not depend on the order of the rows.
C74: learning from several copies of every row gives the same map, for the measures that are ratios of counts.
-/
namespace PyFCM
open Arith Spec

set_option linter.unusedSectionVars false

/-! ### Predictions use a feature's type and concept names only -/

section predict
variable {cfg : GenConf ℝ} {x : Ext ℝ} {is : List Nat} {fs : Dict (Feature ℝ)}

abbrev pickFeatures (is : List Nat) (fs : Dict (Feature ℝ)) : Dict (Feature ℝ) := fs.map fun p => (p.1, pickFeature is p.2)

theorem need_pick (feat : String) : need feat (Dict.get? (pickFeatures is fs) feat) =
    (need feat (fs.get? feat)).map (pickFeature is) := by
  rw [get?_mapVals]
  cases fs.get? feat <;> rfl

theorem initByFeature_pick (feat : String) (v : Cell ℝ) :
    initByFeature cfg x (pickFeatures is fs) feat v = initByFeature cfg x fs feat v := by
  have : initByFeatureBody cfg x (pickFeatures is fs) feat v = initByFeatureBody cfg x fs feat v := by
    unfold initByFeatureBody
    rw [need_pick]
    cases need feat (fs.get? feat) <;> rfl
  funext m
  unfold initByFeature
  rw [this]

theorem groupResult_pick : ∀ (d : Dict ℝ) (acc : Dict (List (String × ℝ))),
    groupResult cfg (pickFeatures is fs) d acc = groupResult cfg fs d acc
  | [], _ => rfl
  | (c, v) :: rest, acc => by
    unfold groupResult
    cases featureAndInfo cfg c with
    | error e => rfl
    | ok q =>
      obtain ⟨feat, info⟩ := q
      change (need feat (Dict.get? (pickFeatures is fs) feat) >>= _) = (need feat (fs.get? feat) >>= _)
      rw [need_pick]
      simp only [groupResult_pick rest]
      cases need feat (fs.get? feat) <;> rfl

theorem predictRow_pick (row : List (String × Cell ℝ)) :
    predictRow cfg x (pickFeatures is fs) row = predictRow cfg x fs row := by
  unfold predictRow inferenceResult initRow
  simp only [initByFeature_pick, groupResult_pick]

theorem predictRows_pick : ∀ rows, predictRows cfg x (pickFeatures is fs) rows = predictRows cfg x fs rows
  | [] => rfl
  | r :: rs => by
    unfold predictRows
    rw [predictRow_pick, predictRows_pick rs]

end predict

/-! ### Learning -/

section learn
variable {n k : Nat} {is : List Nat} {cfg : GenConf ℝ} {x : Ext ℝ} {ts : List String} {cols : List (String × Column ℝ)}

theorem learn_rows (h : Copies k n is) (hk : 1 ≤ k) (hp : Proportional k cfg) (hx : OnValues x)
    (hl : ∀ p ∈ cols, (cells p.2).length = n) {given : Option (FCM ℝ)} {fit : Bool} {g0 : Gen ℝ} (h0 : Gen.new fit = .ok g0) :
    (∀ g, Gen.build cfg x ts cols given g0 = (.ok (), g) → ∃ g', Gen.build cfg x ts (pickRows is cols) given g0 = (.ok (), g') ∧
      g'.fcm = g.fcm ∧ g'.features = g.features.map fun p => (p.1, pickFeature is p.2)) ∧
    (∀ e g, Gen.build cfg x ts cols given g0 = (.error e, g) →
      ∃ e' g', Gen.build cfg x ts (pickRows is cols) given g0 = (.error e', g')) := by
  have hf : g0.features = [] := by cases h0; rfl
  have start : ∀ m : FCM ℝ, OnRows n is { g0 with fcm := m } { g0 with fcm := m } := fun m =>
    ⟨rfl, rfl, by simp [hf], by simp [hf]⟩
  unfold Gen.build
  have main : ∀ m : FCM ℝ, (∀ g, buildFcm cfg x ts cols { g0 with fcm := m } = (.ok (), g) →
      ∃ g', buildFcm cfg x ts (pickRows is cols) { g0 with fcm := m } = (.ok (), g') ∧
        g'.fcm = g.fcm ∧ g'.features = g.features.map fun p => (p.1, pickFeature is p.2)) ∧
      (∀ e g, buildFcm cfg x ts cols { g0 with fcm := m } = (.error e, g) →
        ∃ e' g', buildFcm cfg x ts (pickRows is cols) { g0 with fcm := m } = (.error e', g')) := by
    intro m
    obtain ⟨h1, h2⟩ := buildFcm_sim (ts := ts) h hk hp hx cols hl _ _ (start m)
    refine ⟨fun g hg => ?_, h2⟩
    obtain ⟨_, g', h3, -, h4⟩ := h1 () g hg
    exact ⟨g', h3, h4.fcm, h4.features⟩
  cases given with
  | some m => exact main m
  | none =>
    cases (FCM.new : Except Err (FCM ℝ)) with
    | error e => exact ⟨fun _ h => (by cases h), fun _ _ _ => ⟨_, _, rfl⟩⟩
    | ok m => exact main m

theorem join_pick (xs ys : List (String × Column ℝ)) :
    joinColumns (pickRows is xs) (pickRows is ys) = pickRows is (joinColumns xs ys) := by
  unfold joinColumns pickRows
  have hn : (xs.map fun p => (p.1, pickCol is p.2)).map (·.1) = xs.map (·.1) := by simp [Function.comp_def]
  rw [hn]
  simp only [List.map_append, List.map_map]
  congr 1
  refine List.map_congr_left fun p _ => ?_
  simp only [Function.comp]
  split <;> rfl

theorem fit_rows (h : Copies k n is) (hk : 1 ≤ k) (hp : Proportional k cfg) (hx : OnValues x)
    {xs ys : List (String × Column ℝ)} (hl : ∀ p ∈ xs ++ ys, (cells p.2).length = n) (e : Estimator ℝ) :
    (∀ e1, Estimator.fit cfg x xs ys e = (.ok (), e1) →
      ∃ e1', Estimator.fit cfg x (pickRows is xs) (pickRows is ys) e = (.ok (), e1') ∧ e1'.fcm = e1.fcm ∧
        ∀ rows, (Estimator.predict cfg x rows e1').1 = (Estimator.predict cfg x rows e1).1) ∧
    (∀ err e1, Estimator.fit cfg x xs ys e = (.error err, e1) →
      ∃ err' e1', Estimator.fit cfg x (pickRows is xs) (pickRows is ys) e = (.error err', e1')) := by
  have hl' : ∀ p ∈ joinColumns xs ys, (cells p.2).length = n := by
    intro p hp'
    unfold joinColumns at hp'
    rcases List.mem_append.1 hp' with hm | hm
    · exact hl p (List.mem_append_left _ hm)
    · obtain ⟨q, hq, rfl⟩ := List.mem_map.1 hm
      have := hl q (List.mem_append_right _ hq)
      split <;> exact this
  have hts : (pickRows is ys).map (·.1) = ys.map (·.1) := by simp [pickRows, Function.comp_def]
  unfold Estimator.fit
  rw [join_pick, hts]
  have hres : (Estimator.reset e).2.features = [] := by
    unfold Estimator.reset
    dsimp only
    split <;> rfl
  rcases hr : Estimator.reset e with ⟨_ | ⟨⟩, e0⟩
  · exact ⟨fun _ h => (by cases h), fun _ _ _ => ⟨_, _, rfl⟩⟩
  · rw [hr] at hres
    dsimp only at hres ⊢
    obtain ⟨h1, h2⟩ := buildFcm_sim (ts := ys.map (·.1)) h hk hp hx _ hl' ⟨e0.features, e0.processed, e0.fcm⟩
      ⟨e0.features, e0.processed, e0.fcm⟩ ⟨rfl, rfl, by simp [hres], by simp [hres]⟩
    rcases hb : buildFcm cfg x (ys.map (·.1)) (joinColumns xs ys) ⟨e0.features, e0.processed, e0.fcm⟩ with ⟨_ | ⟨⟩, g⟩
    · obtain ⟨e', g', h3⟩ := h2 _ _ hb
      rw [h3, hb]
      exact ⟨fun _ h => (by cases h), fun _ _ _ => ⟨_, _, rfl⟩⟩
    · obtain ⟨_, g', h3, -, h4⟩ := h1 _ _ hb
      rw [h3, hb]
      refine ⟨fun e1 he => ?_, fun _ _ h => by cases h⟩
      cases he
      refine ⟨_, rfl, h4.fcm, fun rows => ?_⟩
      unfold Estimator.predict
      dsimp only
      rw [if_pos rfl, if_pos rfl, h4.features, h4.fcm, predictRows_pick]

/-! ### C73 -/

theorem copies_one (h : is.Perm (List.range n)) : Copies 1 n is := by
  intro i
  rw [h.count_eq]
  split
  · exact List.count_eq_one_of_mem List.nodup_range (List.mem_range.2 ‹_›)
  · exact List.count_eq_zero_of_not_mem (by rw [List.mem_range]; assumption)

theorem proportional_one (cfg : GenConf ℝ) : Proportional 1 cfg :=
  ⟨fun _ _ _ _ => by simp, fun _ _ _ _ => by simp, fun _ _ _ _ _ _ => by simp⟩

/-- C73: `build_fcm` on the same rows in another order returns the same map and describes the same features with the
same concepts; it raises in the one order if and only if it raises in the other. -/
theorem C73_order (hi : is.Perm (List.range n)) (hx : OnValues x) (hl : ∀ p ∈ cols, (cells p.2).length = n)
    {given : Option (FCM ℝ)} {fit : Bool} {g0 : Gen ℝ} (h0 : Gen.new fit = .ok g0) :
    (∀ g, Gen.build cfg x ts cols given g0 = (.ok (), g) → ∃ g', Gen.build cfg x ts (pickRows is cols) given g0 = (.ok (), g') ∧
      g'.fcm = g.fcm ∧ g'.features = g.features.map fun p => (p.1, pickFeature is p.2)) ∧
    (∀ e g, Gen.build cfg x ts cols given g0 = (.error e, g) →
      ∃ e' g', Gen.build cfg x ts (pickRows is cols) given g0 = (.error e', g')) :=
  learn_rows (copies_one hi) (le_refl _) (proportional_one cfg) hx hl h0

/-- C73: an estimator fitted on the same rows in another order has the same map and predicts the same labels. -/
theorem C73_fit (hi : is.Perm (List.range n)) (hx : OnValues x) {xs ys : List (String × Column ℝ)}
    (hl : ∀ p ∈ xs ++ ys, (cells p.2).length = n) (e : Estimator ℝ) :
    (∀ e1, Estimator.fit cfg x xs ys e = (.ok (), e1) →
      ∃ e1', Estimator.fit cfg x (pickRows is xs) (pickRows is ys) e = (.ok (), e1') ∧ e1'.fcm = e1.fcm ∧
        ∀ rows, (Estimator.predict cfg x rows e1').1 = (Estimator.predict cfg x rows e1).1) ∧
    (∀ err e1, Estimator.fit cfg x xs ys e = (.error err, e1) →
      ∃ err' e1', Estimator.fit cfg x (pickRows is xs) (pickRows is ys) e = (.error err', e1')) :=
  fit_rows (copies_one hi) (le_refl _) (proportional_one cfg) hx hl e

/-- C73: the library's discretization looks at the set of the values only, for every strategy and every source of
random numbers. -/
theorem C73_discretization (env : ClusterEnv ℝ) (s : String) (x : Ext ℝ) : OnValues (x.standard env s) :=
  discretize_onValues env s x

/-! ### C74 -/

/-- `f` is a ratio of counts: nothing changes when every count is multiplied by the same factor. -/
def Spec.Ratio (f : ℝ → ℝ → ℝ → ℝ → Except Err ℝ) : Prop :=
  ∀ k : Nat, 1 ≤ k → ∀ a b c d : ℝ, f (k * a) (k * b) (k * c) (k * d) = f a b c d

theorem pdiv_times {t : ℝ} (ht : t ≠ 0) (a b : ℝ) : pdiv (t * a) (t * b) = pdiv a b := by
  by_cases hb : b = 0
  · subst hb; rw [mul_zero, pdiv_real_zero, pdiv_real_zero]
  · rw [pdiv_real hb, pdiv_real (mul_ne_zero ht hb), mul_div_mul_left _ _ ht]

theorem ratio_supp : Ratio (fun a b c d => Relation.supp a b c d) := by
  intro k hk a b c d
  have ht : (k : ℝ) ≠ 0 := by positivity
  unfold Relation.supp
  dsimp only
  rw [← pdiv_times ht a]
  congr 1
  ring

theorem ratio_conf : Ratio (Relation.conf) := by
  intro k hk a b c d
  have ht : (k : ℝ) ≠ 0 := by positivity
  unfold Relation.conf
  have e : (k : ℝ) * a + k * b = k * (a + b) := by ring
  rw [e]
  by_cases h : a + b = 0
  · rw [if_pos (by simp [h]), if_pos (by simp [h])]
  · rw [if_neg (by simp [h, ht]), if_neg (by simp [h]), pdiv_times ht]

theorem ratio_lift : Ratio (fun a b c d => Relation.lift a b c d) := by
  intro k hk a b c d
  have ht : (k : ℝ) ≠ 0 := by positivity
  unfold Relation.lift
  have e1 : (k : ℝ) * a + k * b = k * (a + b) := by ring
  have e2 : (k : ℝ) * a + k * c = k * (a + c) := by ring
  have e3 : (k : ℝ) * (a + b) + k * c + k * d = k * (a + b + c + d) := by ring
  simp only [e1, e2, e3, pdiv_times ht]

theorem ratio_simple : Ratio (fun a b c d => Relation.simple a b c d) := by
  intro k hk a b c d
  have ht : (k : ℝ) ≠ 0 := by positivity
  unfold Relation.simple
  dsimp only
  have e3 : (k : ℝ) * a + k * b + k * c + k * d = k * (a + b + c + d) := by ring
  have e4 : (k : ℝ) * a - k * b - (k * d + k * c) = k * (a - b - (d + c)) := by ring
  have e5 : (k : ℝ) * a - k * b + (k * d + k * c) = k * (a - b + (d + c)) := by ring
  have e6 : (k : ℝ) * a - k * b = k * (a - b) := by ring
  rw [e3, e4, e5, e6, pdiv_times ht, pdiv_times ht]
  by_cases h : a = b
  · rw [if_pos (by simp [h]), if_pos (by simp [h])]
  · have hk0 : k ≠ 0 := by omega
    have hs : a - b ≠ 0 := sub_ne_zero.2 h
    have hm : (k : ℝ) * a ≠ k * b := fun e => h (mul_left_cancel₀ ht e)
    have f1 : ((k : ℝ) * a =? k * b) = false := by simpa using ⟨h, hk0⟩
    have f2 : (a =? b) = false := by simpa using h
    have f3 : ((k : ℝ) * (a - b) =? lit 0) = false := by simpa using ⟨hk0, hs⟩
    have f4 : (a - b =? lit 0) = false := by simpa using hs
    rw [f1, f2, f3, f4]

theorem ratio_bayes : Ratio (fun a b c d => Relation.bayes a b c d) := by
  intro k hk a b c d
  have ht : (k : ℝ) ≠ 0 := by positivity
  have hp : (0 : ℝ) < k := by positivity
  unfold Relation.bayes
  dsimp only
  have e1 : (k : ℝ) * a + k * b = k * (a + b) := by ring
  have e2 : (k : ℝ) * a + k * c = k * (a + c) := by ring
  have e3 : (k : ℝ) * (a + b) + k * c + k * d = k * (a + b + c + d) := by ring
  have e4 : (k : ℝ) * a - k * c = k * (a - c) := by ring
  simp only [e1, e2, e3, e4, pdiv_times ht]
  have e5 : ((k * c : ℝ) <? (k * a)) = (c <? a) := by
    rw [Bool.eq_iff_iff]
    simp [hp]
  rw [e5]

/-- C74 for any ratios: learning from `k` copies of every row, in any order, gives the same map. -/
theorem C74_ratios_partial (hk : 1 ≤ k) (hi : Copies k n is) (hc : Ratio cfg.causality) (he : Ratio cfg.evaluation)
    (hs : ∀ f, cfg.sign = some f → Ratio f) (hx : OnValues x) (hl : ∀ p ∈ cols, (cells p.2).length = n)
    {given : Option (FCM ℝ)} {fit : Bool} {g0 : Gen ℝ} (h0 : Gen.new fit = .ok g0) :
    (∀ g, Gen.build cfg x ts cols given g0 = (.ok (), g) → ∃ g', Gen.build cfg x ts (pickRows is cols) given g0 = (.ok (), g') ∧
      g'.fcm = g.fcm) ∧
    (∀ e g, Gen.build cfg x ts cols given g0 = (.error e, g) →
      ∃ e' g', Gen.build cfg x ts (pickRows is cols) given g0 = (.error e', g')) := by
  obtain ⟨h1, h2⟩ := learn_rows (ts := ts) (given := given) hi hk ⟨hc k hk, he k hk, fun f hf => hs f hf k hk⟩ hx hl h0
  exact ⟨fun g hg => by obtain ⟨g', h3, h4, -⟩ := h1 g hg; exact ⟨g', h3, h4⟩, h2⟩

/-- C74: support, confidence, lift, the bayesian and the simple measure are ratios. -/
theorem C74_measures_partial : Ratio (fun a b c d => Relation.supp a b c d) ∧ Ratio (Relation.conf) ∧
    Ratio (fun a b c d => Relation.lift a b c d) ∧ Ratio (fun a b c d => Relation.bayes a b c d) ∧
    Ratio (fun a b c d => Relation.simple a b c d) :=
  ⟨ratio_supp, ratio_conf, ratio_lift, ratio_bayes, ratio_simple⟩

/-- C74: an estimator fitted on `k` copies of every row predicts the same labels. -/
theorem C74_fit_partial (hk : 1 ≤ k) (hi : Copies k n is) (hc : Ratio cfg.causality) (he : Ratio cfg.evaluation)
    (hs : ∀ f, cfg.sign = some f → Ratio f) (hx : OnValues x) {xs ys : List (String × Column ℝ)}
    (hl : ∀ p ∈ xs ++ ys, (cells p.2).length = n) (e : Estimator ℝ) :
    (∀ e1, Estimator.fit cfg x xs ys e = (.ok (), e1) →
      ∃ e1', Estimator.fit cfg x (pickRows is xs) (pickRows is ys) e = (.ok (), e1') ∧ e1'.fcm = e1.fcm ∧
        ∀ rows, (Estimator.predict cfg x rows e1').1 = (Estimator.predict cfg x rows e1).1) ∧
    (∀ err e1, Estimator.fit cfg x xs ys e = (.error err, e1) →
      ∃ err' e1', Estimator.fit cfg x (pickRows is xs) (pickRows is ys) e = (.error err', e1')) :=
  fit_rows hi hk ⟨hc k hk, he k hk, fun f hf => hs f hf k hk⟩ hx hl e

end learn

/-! The remaining measures grow or shrink with the number of rows. -/

/-- `build_fcm` on rational numbers with the given measure as causality, without targets, and its relations. -/
def Ex.arcsWith (f : ℚ → ℚ → ℚ → ℚ → Except Err ℚ) (cols : List (String × Column ℚ)) : List (String × String × ℚ) :=
  match (Gen.new false : Except Err (Gen ℚ)) with
  | .error _ => []
  | .ok g0 => ((Gen.build { Ex.conf with causality := f, exclusion := 0 } Ex.ext [] cols none g0).2.fcm.arcList).map
      fun r => (r.origin, r.dest, r.weight)

def Ex.four : List (String × Column ℚ) := [("f", .strs ["a", "a", "a", "b"]), ("g", .strs ["u", "u", "v", "v"])]

/-- C74 in full: whatever measure of the library is used, repeating every row gives the same map. -/
def C74_full : Prop :=
  ∀ f ∈ [fun a b c d => Relation.supp a b c d, Relation.conf, fun a b c d => Relation.lift a b c d,
      fun a b c d => Relation.bayes a b c d, fun a b c d => Relation.simple a b c d,
      fun a b c d => Relation.rodr a b c d, fun a b c d => Relation.odr a b c d, fun a b c d => Relation.posInf a b c d],
    ∀ (cols : List (String × Column ℚ)) n, (∀ p ∈ cols, (cells p.2).length = n) → ∀ k is, 1 ≤ k → Copies k n is →
      Ex.arcsWith f (pickRows is cols) = Ex.arcsWith f cols

/-- The positive influence halves when every row is repeated, so C74 fails for it. -/
theorem C74_counterexample : ¬ C74_full := by
  intro h
  have h1 := h (fun a b c d => Relation.posInf a b c d) (by simp) Ex.four 4 (by simp [Ex.four, cells]) 2
    [0, 1, 2, 3, 0, 1, 2, 3] (by decide) (by
      intro i
      by_cases hi : i < 4
      · rw [if_pos hi]
        have : i = 0 ∨ i = 1 ∨ i = 2 ∨ i = 3 := by omega
        rcases this with rfl | rfl | rfl | rfl <;> decide
      · rw [if_neg hi]
        exact List.count_eq_zero_of_not_mem (by simp; omega))
  have h2 : Ex.arcsWith (fun a b c d => Relation.posInf a b c d) (pickRows [0, 1, 2, 3, 0, 1, 2, 3] Ex.four) =
      [("u___g", "a___f", 1 / 2), ("a___f", "u___g", 1 / 3), ("v___g", "a___f", -1 / 4), ("a___f", "v___g", -1 / 3),
       ("v___g", "b___f", 1 / 4), ("b___f", "v___g", 1 / 2)] := by decide +kernel
  have h3 : Ex.arcsWith (fun a b c d => Relation.posInf a b c d) Ex.four =
      [("u___g", "a___f", 1), ("a___f", "u___g", 2 / 3), ("v___g", "a___f", -1 / 2), ("a___f", "v___g", -2 / 3),
       ("v___g", "b___f", 1 / 2), ("b___f", "v___g", 1)] := by decide +kernel
  rw [h2, h3] at h1
  simp at h1

/-! ### Concrete cases -/

/-- The example table of C66 with its first row moved to the end. -/
example : ∃ g0 g g' : Gen ℝ, Gen.new true = .ok g0 ∧
    Gen.build Ex.realConf (Ex.realExt.standard exEnv "cmeans-gap") ["class"] Ex.mixed none g0 = (.ok (), g) ∧
    Gen.build Ex.realConf (Ex.realExt.standard exEnv "cmeans-gap") ["class"]
      (pickRows [1, 2, 3, 4, 5, 6, 7, 8, 9, 10, 0] Ex.mixed) none g0 = (.ok (), g') ∧ g'.fcm = g.fcm := by
  have hl : ∀ p ∈ Ex.mixed, (cells p.2).length = 11 := by simp [Ex.mixed, cells]
  have hnew : ∃ g0 : Gen ℝ, Gen.new true = .ok g0 := ⟨_, rfl⟩
  obtain ⟨g0, h0⟩ := hnew
  obtain ⟨g, hg⟩ := C66_learns exEnv_ok (.inl rfl) (cfg := Ex.realConf) rfl (safe_default rfl rfl rfl) (x := Ex.realExt) (fun l => .refl _)
    (ts := ["class"]) hl h0
  obtain ⟨g', h1, h2, -⟩ := (C73_order (is := [1, 2, 3, 4, 5, 6, 7, 8, 9, 10, 0]) (by decide) (C73_discretization exEnv "cmeans-gap" Ex.realExt) hl h0).1 g hg
  exact ⟨g0, g, g', h0, hg, h1, h2⟩

/-- The example table of C66 twice. -/
example : ∃ g0 g g' : Gen ℝ, Gen.new true = .ok g0 ∧
    Gen.build Ex.realConf (Ex.realExt.standard exEnv "cmeans-gap") ["class"] Ex.mixed none g0 = (.ok (), g) ∧
    Gen.build Ex.realConf (Ex.realExt.standard exEnv "cmeans-gap") ["class"]
      (pickRows (List.range 11 ++ List.range 11) Ex.mixed) none g0 = (.ok (), g') ∧ g'.fcm = g.fcm := by
  have hl : ∀ p ∈ Ex.mixed, (cells p.2).length = 11 := by simp [Ex.mixed, cells]
  have hnew : ∃ g0 : Gen ℝ, Gen.new true = .ok g0 := ⟨_, rfl⟩
  obtain ⟨g0, h0⟩ := hnew
  obtain ⟨g, hg⟩ := C66_learns exEnv_ok (.inl rfl) (cfg := Ex.realConf) rfl (safe_default rfl rfl rfl) (x := Ex.realExt) (fun l => .refl _)
    (ts := ["class"]) hl h0
  obtain ⟨g', h1, h2⟩ := (C74_ratios_partial (k := 2) (by decide) (is := List.range 11 ++ List.range 11) (by
      intro i
      rw [List.count_append, copies_one (.refl _) i]
      split <;> rfl) (cfg := Ex.realConf) ratio_conf ratio_supp (fun _ h => by cases h)
    (C73_discretization exEnv "cmeans-gap" Ex.realExt) hl h0).1 g hg
  exact ⟨g0, g, g', h0, hg, h1, h2⟩

end PyFCM
