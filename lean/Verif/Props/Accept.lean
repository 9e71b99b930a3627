import Verif.Props.Settings
import Verif.Props.Numeric
import Verif.Props.Success
import Verif.Props.Dynamics
/-
C96: which values a fitted estimator accepts in a row to be predicted.
-/
namespace PyFCM
open Arith

set_option linter.unusedSectionVars false

section any
variable {α : Type} [Arith α]

/-- The value can be used for a column: any number for a continuous column; a text, an integer, a truth value or a float
with an integer part for a discrete one. -/
def Spec.Usable (x : Ext α) (discrete : Bool) : Cell α → Prop
  | .str _ => discrete = true
  | .float v => discrete = true → ∃ i, x.trunc v = .ok i
  | _ => True

/-- C96: a value of a discrete column that is not the name of a concept is ignored. -/
theorem C96_ignored [Ordered α] {cfg : GenConf α} {x x' : Ext α} {xs ys : List (String × Column α)}
    {e0 e e1 e2 : Estimator α} {b : Bool} (hn : Spec.New e0) (h : Spec.Hist cfg e0 b e)
    (hx : ∀ l, (x.order l).Perm l) (hr : Spec.Readable cfg x (xs ++ ys))
    (hf : Estimator.fit cfg x xs ys e = (.ok (), e1)) (hs : Spec.Since cfg e1 e2) {q : String × Column α}
    (hq : q ∈ xs ++ ys) (hd : q.2.isDiscrete cfg = true) {u : Cell α} {k : String} (hk : u.key x' = .ok k)
    (hc : k ++ cfg.separator ++ q.1 ∉ e2.fcm.topology.keys) :
    initByFeature cfg x' e2.features q.1 u e2.fcm = (.ok (), e2.fcm) := by
  have hj := joinColumns_disjoint hr.columns
  obtain ⟨-, -, -, hfit⟩ := fit_fitted hn h hx (hj ▸ hr) hf
  rw [hj] at hfit
  obtain ⟨hfe, -⟩ := hs.same
  obtain ⟨F, cs, hF⟩ := hfit q hq
  have hfo := hF.feat
  unfold FeatureOf at hfo
  rw [if_pos hd] at hfo
  obtain ⟨ht, -⟩ := hfo
  unfold initByFeature initByFeatureBody
  rw [PyM.run_bind, hfe, hF.get]
  simp only [need, PyM.run_lift]
  rw [if_neg (by rw [ht]; split <;> decide), PyM.run_bind, PyM.run_lift, hk]
  dsimp only
  unfold nameConcept FCM.initConcept
  rw [(Dict.get?_eq_none_iff _ _).2 hc]
  rfl

theorem initByFeature_refused [Ordered α] {cfg : GenConf α} {x x' : Ext α} {xs ys : List (String × Column α)}
    {e0 e e1 : Estimator α} {b : Bool} (hn : Spec.New e0) (h : Spec.Hist cfg e0 b e)
    (hx : ∀ l, (x.order l).Perm l) (hr : Spec.Readable cfg x (xs ++ ys))
    (hf : Estimator.fit cfg x xs ys e = (.ok (), e1)) {feat : String} {u : Cell α}
    (hu : ∀ q ∈ xs ++ ys, q.1 = feat → ¬ Spec.Usable x' (q.2.isDiscrete cfg) u) (m : FCM α) :
    initByFeature cfg x' e1.features feat u m = (.error (.exc "Cannot init concept"), m) := by
  have hj := joinColumns_disjoint hr.columns
  have hkeys := (C55_refit hn h hx (hj ▸ hr.columns) hf).2.2
  obtain ⟨-, -, -, hfit⟩ := fit_fitted hn h hx (hj ▸ hr) hf
  rw [hj] at hfit hkeys
  unfold initByFeature initByFeatureBody
  rw [PyM.run_bind]
  by_cases hm : feat ∈ (xs ++ ys).map (·.1)
  · obtain ⟨q, hq, rfl⟩ := List.mem_map.1 hm
    obtain ⟨F, cs, hF⟩ := hfit q hq
    have hfo := hF.feat
    have hu := hu q hq rfl
    unfold FeatureOf at hfo
    rw [hF.get]
    simp only [need, PyM.run_lift]
    split at hfo
    · rename_i hd
      obtain ⟨ht, -⟩ := hfo
      rw [hd] at hu
      rw [if_neg (by rw [ht]; split <;> decide), PyM.run_bind, PyM.run_lift]
      cases u with
      | str s => exact absurd rfl hu
      | bool b => exact absurd trivial hu
      | int i => exact absurd trivial hu
      | float v =>
        have : ∃ er, (Cell.float v).key x' = .error er := by
          unfold Cell.key
          cases hv : x'.trunc v with
          | error er => exact ⟨er, by simp only [hv]; rfl⟩
          | ok i => exact absurd (fun _ => ⟨i, hv⟩) hu
        obtain ⟨er, her⟩ := this
        rw [her]
    · rename_i hd
      obtain ⟨n, vl, memb, -, -, ht, -⟩ := hfo
      rw [if_pos (by rw [ht]; split <;> decide), PyM.run_bind, PyM.run_lift]
      cases u with
      | str s => rfl
      | bool b => exact absurd trivial hu
      | int i => exact absurd trivial hu
      | float v => exact absurd (fun h => absurd h hd) hu
  · rw [(Dict.get?_eq_none_iff _ _).2 (by rw [hkeys]; exact hm)]
    rfl

/-- C96: a value for an unknown column, a text for a continuous column and a float without an integer part for a discrete
one are refused; the map stays as it is. -/
theorem C96_refused [Ordered α] {cfg : GenConf α} {x x' : Ext α} {xs ys : List (String × Column α)}
    {e0 e e1 e2 : Estimator α} {b : Bool} (hn : Spec.New e0) (h : Spec.Hist cfg e0 b e)
    (hx : ∀ l, (x.order l).Perm l) (hr : Spec.Readable cfg x (xs ++ ys))
    (hf : Estimator.fit cfg x xs ys e = (.ok (), e1)) (hs : Spec.Since cfg e1 e2) {feat : String} {u : Cell α}
    (hu : ∀ q ∈ xs ++ ys, q.1 = feat → ¬ Spec.Usable x' (q.2.isDiscrete cfg) u) :
    initByFeature cfg x' e2.features feat u e2.fcm = (.error (.exc "Cannot init concept"), e2.fcm) := by
  rw [hs.same.1]
  exact initByFeature_refused hn h hx hr hf hu e2.fcm

end any

/-- C96: a number for a continuous column sets each of its clusters to the membership interpolated from the training
data, unless the number is negative. -/
theorem C96_number {env : ClusterEnv ℝ} (he : Spec.Env env) {s : String} (hs : Spec.Strategy s) {cfg : GenConf ℝ}
    (hi : cfg.inferType = true) {x x' : Ext ℝ} {xs ys : List (String × Column ℝ)} {e0 e e1 e2 : Estimator ℝ} {b : Bool}
    (hn : Spec.New e0) (h : Spec.Hist cfg e0 b e) (hx : ∀ l, (x.order l).Perm l)
    (hr : Spec.Readable cfg (x.standard env s) (xs ++ ys))
    (hf : Estimator.fit cfg (x.standard env s) xs ys e = (.ok (), e1)) (hsince : Spec.Since cfg e1 e2) {q : String × Column ℝ}
    (hq : q ∈ xs ++ ys) (hd : q.2.isDiscrete cfg = false) {u : Cell ℝ} {v : ℝ} (hu : u = .float v ∨ ∃ i, u = .int i ∧ v = lit i) :
    ∃ k vl memb m', (x.standard env s).disc q.1 (Spec.numbers q.2) = .ok (k, vl, memb) ∧
      Spec.DiscOf (Spec.numbers q.2) k vl memb ∧ initByFeature cfg x' e2.features q.1 u e2.fcm = (.ok (), m') ∧
      (0 ≤ v → ∀ (i : Nat) mb, memb[i]? = some mb → ∃ nd, m'.topology.get? (toString i ++ cfg.separator ++ q.1) = some nd ∧
        Spec.Interp vl mb v nd.value) ∧
      ∀ c, (∀ i < k, c ≠ toString i ++ cfg.separator ++ q.1) →
        m'.topology.get? c = e2.fcm.topology.get? c ∧ m'.execution.get? c = e2.fcm.execution.get? c := by
  obtain ⟨k, vl, memb, h1, h2, -⟩ := standard_disc he hs x q.1 hi hd
  have hv2 : 2 ≤ vl.length := by
    obtain ⟨d, h10, l, l1, l3, l2⟩ := numeric_distinct hi hd
    have : l ⊆ vl := fun t ht => h2.covers t ((l3 t).1 ht)
    have := (List.Nodup.subperm l1 this).length_le
    omega
  have htot : ∀ mb ∈ memb, ∃ a, fuzzySet v mb vl = .ok a := fun mb hmb =>
    fuzzySet_total (h2.sorted.imp fun h => h.le) (h2.desc.shape.2 mb hmb) hv2
  have hA : ∀ i : Nat, ∃ a, ∀ mb, memb[i]? = some mb → fuzzySet v mb vl = .ok a := by
    intro i
    cases hm : memb[i]? with
    | none => exact ⟨0, fun mb h => by cases h⟩
    | some mb =>
      obtain ⟨a, ha⟩ := htot mb (List.mem_of_getElem? hm)
      exact ⟨a, fun mb' h => by cases h; exact ha⟩
  choose A hA using hA
  obtain ⟨m', i1, i2, i3⟩ := C45_number_partial (x := x.standard env s) (x' := x') hn h hx hr hf hsince hq hd (n := k) (vl := vl)
    (memb := memb) (by rw [asFloats_numbers]; exact h1) (h2.sorted.imp fun h => by simpa using h) h2.desc.shape.2 (u := u)
    (v := v) hu (A := A) (fun i mb _ hmb => hA i mb hmb)
  refine ⟨k, vl, memb, m', h1, h2, i1, fun hv i mb hmb => ?_, i3⟩
  have hik : i < k := by rw [← h2.desc.shape.1]; exact (List.getElem?_eq_some_iff.1 hmb).1
  obtain ⟨⟨nd, n1, n2⟩, -⟩ := i2 i hik
  have hmm := List.mem_of_getElem? hmb
  obtain ⟨y, y1, y2⟩ := C23_interpolates_partial h2.sorted (h2.desc.shape.2 mb hmm) hv2
    (fun t ht => ⟨by linarith [(h2.desc.unit mb hmm t ht).1], (h2.desc.unit mb hmm t ht).2⟩) hv
  rw [hA i mb hmb] at y1
  cases y1
  exact ⟨nd, n1, n2 ▸ y2⟩

/-! ### What can be used -/

theorem born_cont_fn {α : Type} [Arith α] {d : DefaultConcept α} {ty : String} {memb vl : List α} {n : Node α}
    (h : Born d (contArgs ty memb vl) n) (hv : isValidType ty = true) (hf : isFuzzyType ty = true) :
    ∃ p, processActivationDict [("membership", .arr memb), ("val_list", .arr vl)] = .ok p ∧ n.fuzzyAct = some p.1 ∧
      n.fn = some ⟨.fuzzy, "fuzzy", p.2.toArgs⟩ := by
  obtain ⟨n0, h0, rfl⟩ := h
  unfold buildNode at h0
  obtain ⟨_, s1, h1, g1⟩ := bind_okP h0
  obtain ⟨_, s2, h2, g2⟩ := bind_okP g1
  obtain rfl := modify_okP h2
  obtain ⟨ad, s3, h3, g3⟩ := bind_okP g2
  have hb : buildType d (contArgs ty memb vl : ConceptArgs α) = ty := by simp [buildType, contArgs, hv]
  rw [hb] at h3
  unfold buildFuzzy at h3
  rw [if_pos hf] at h3
  simp only [contArgs] at h3
  obtain ⟨k1, p, k2, rfl, k3, -, -⟩ := storeFuzzy_ok h3
  unfold buildRest at g3
  obtain ⟨_, s4, h4, g4⟩ := bind_okP g3
  obtain rfl := modify_okP h4
  obtain ⟨v, s5, h5, g5⟩ := bind_okP g4
  obtain rfl := modify_okP g5
  simp only [buildFn] at h5
  obtain ⟨_, s6, h6, g6⟩ := bind_okP h5
  obtain rfl := modify_okP h6
  obtain ⟨-, rfl⟩ := lift_okP g6
  exact ⟨p, k2, k3, rfl⟩

/-- The scaled values are ascending as well. -/
theorem scaled_sorted {v0 : ℝ} {r : List ℝ} (hs : (v0 :: r).Pairwise (· < ·)) (hl : 2 ≤ (v0 :: r).length) :
    ((v0 :: r).map fun v => (v + Arith.abs v0) / (Arith.abs v0 + (v0 :: r).getLastD v0)).Pairwise (· ≤ ·) := by
  have hr : r ≠ [] := by rintro rfl; simp at hl
  have hlast : v0 < (v0 :: r).getLastD v0 := by
    rw [List.getLastD_cons, List.getLastD_eq_getLast?, List.getLast?_eq_some_getLast hr]
    exact (List.pairwise_cons.1 hs).1 _ (List.getLast_mem hr)
  have hpos : 0 < Arith.abs v0 + (v0 :: r).getLastD v0 := by
    have : (Arith.abs v0 : ℝ) = |v0| := rfl
    rw [this]
    linarith [neg_abs_le v0]
  rw [List.pairwise_map]
  refine hs.imp fun {a b} h => ?_
  exact div_le_div_of_nonneg_right (by linarith) hpos.le

/-- The concepts of a fitted map: those of discrete columns have the given activation function, those of continuous
columns their own fuzzy set, with values in [-1, 1]. -/
theorem fitted_of {env : ClusterEnv ℝ} (he : Spec.Env env) {s : String} (hs : Spec.Strategy s) {cfg : GenConf ℝ}
    (hi : cfg.inferType = true) {x : Ext ℝ} {xs ys : List (String × Column ℝ)} {e0 e e1 : Estimator ℝ} {b : Bool}
    (hn : Spec.New e0) (h : Spec.Hist cfg e0 b e) (hx : ∀ l, (x.order l).Perm l)
    (hr : Spec.Readable cfg (x.standard env s) (xs ++ ys))
    (hf : Estimator.fit cfg (x.standard env s) xs ys e = (.ok (), e1)) {q : String × Column ℝ} (hq : q ∈ xs ++ ys)
    {c : String} (hqc : Spec.ConceptOf cfg (x.standard env s) q c) :
    ∃ n f, e1.fcm.topology.get? c = some n ∧ n.fn = some f ∧
      (q.2.isDiscrete cfg = true ∧ f = e0.fcm.default.fn ∨
        q.2.isDiscrete cfg = false ∧ f.name = "fuzzy" ∧ ProperArgs f ∧ TameArgs f ∧ ∃ fa, n.fuzzyAct = some fa ∧ ∀ v, ∃ a, fuzzySet v fa.membership fa.valList = .ok a ∧ -1 ≤ a ∧ a ≤ 1) := by
  have hj := joinColumns_disjoint hr.columns
  have hkin := fit_kin (x := x.standard env s) hn h hx (hj ▸ hr) hf
  rw [hj] at hkin
  have hfi : e0.fcm.fitInclination = none := by
    obtain ⟨_, _, _, _, _, _, _, _, _, _, _, h0⟩ := hn
    obtain ⟨_, _, _, -, -, -, -, -, -, -, -, -, -, -, h12, -⟩ := new_settings h0
    exact h12
  rw [hfi] at hkin
  obtain ⟨F, cs, hF, hcs⟩ := hkin q hq
  have hcn := (mem_names hF c).2 hqc
  unfold FeatureOf at hF
  split at hF
  · rename_i hd
    obtain ⟨ht, -, -, rfl⟩ := hF
    obtain ⟨n0, n, h1, h2, h3⟩ := hcs (c, discArgs F.type) (by simpa using hcn)
    obtain ⟨-, h4⟩ := born_disc h1 (by rw [ht]; split <;> decide) (by rw [ht]; split <;> decide)
    exact ⟨n, _, h2, (congrArg Node.fn (h3.2.2.2.2.1 rfl)).trans h4, .inl ⟨hd, rfl⟩⟩
  · rename_i hd
    have hd : q.2.isDiscrete cfg = false := by simpa using hd
    obtain ⟨k, vl, memb, hdisc, hl, ht, hN, -, rfl⟩ := hF
    obtain ⟨k', vl', memb', hdisc', h2, -⟩ := standard_disc he hs x q.1 hi hd
    rw [asFloats_numbers, hdisc'] at hdisc
    cases hdisc
    obtain ⟨i, hi', ei⟩ := List.mem_iff_getElem.1 hcn
    have hlen : F.names.length = k := by rw [hN]; simp
    have hm : (c, contArgs F.type (memb[i]'(by omega)) vl) ∈ (F.names.zip memb).map fun p => (p.1, contArgs F.type p.2 vl) := by
      refine List.mem_map.2 ⟨(c, memb[i]'(by omega)), ?_, rfl⟩
      rw [List.mem_iff_getElem]
      exact ⟨i, by simp; omega, by rw [List.getElem_zip, ei]⟩
    obtain ⟨n0, n, g1, g2, g3⟩ := hcs _ hm
    obtain ⟨p, k1, k2, k3⟩ := born_cont_fn g1 (by rw [ht]; split <;> decide) (by rw [ht]; split <;> decide)
    have hv2 : 2 ≤ vl.length := by
      obtain ⟨d, h10, l, l1, l3, l2⟩ := numeric_distinct hi hd
      have : l ⊆ vl := fun t ht => h2.covers t ((l3 t).1 ht)
      have := (List.Nodup.subperm l1 this).length_le
      omega
    have hml : (memb[i]'(by omega)).length = vl.length := h2.desc.shape.2 _ (List.getElem_mem _)
    obtain ⟨a, b, vl2, mb2, v0, r, mb', w1, w2, w3, w4, w5, w6, w7⟩ := processActivationDict_ok k1
    cases w1
    cases w2
    cases w3
    cases w4
    rw [dualQuickSort_sorted hml.symm (h2.sorted.imp fun h => by simpa using h)] at w5
    have w5 := Prod.mk.inj (Except.ok.inj w5)
    refine ⟨n, _, g2, (congrArg Node.fn (g3.2.2.2.2.1 rfl)).trans k3, .inr ⟨hd, rfl, ?_, ?_, p.1, g3.2.1.trans k2, ?_⟩⟩
    · refine ⟨p.2.membership, p.2.valList, .inr rfl, ?_, ?_, ?_⟩
      · rw [w7]; dsimp only; rw [← w5.2, hml, w5.1]; simp
      · rw [w7]; dsimp only; rw [List.length_map, ← w5.1]; exact hv2
      · rw [w7]; dsimp only
        exact scaled_sorted (w5.1 ▸ h2.sorted) (w5.1 ▸ hv2)
    · show ∀ mb vl, _ → _ → _
      intro mb vl e1 e2
      simp [FuzzyDesc.toArgs] at e1 e2
      subst e1 e2
      refine ⟨?_, ?_, ?_⟩
      · rw [w7]; dsimp only; rw [← w5.2, hml, w5.1]; simp
      · rw [w7]; dsimp only
        exact scaled_sorted (w5.1 ▸ h2.sorted) (w5.1 ▸ hv2)
      · rw [w7]; dsimp only; rw [← w5.2]
        exact h2.desc.unit _ (List.getElem_mem _)
    · intro v
      rw [w6]
      dsimp only
      rw [← w5.1, ← w5.2]
      obtain ⟨a, ha⟩ := fuzzySet_total (value := v) (h2.sorted.imp fun h => h.le) hml hv2
      exact ⟨a, ha, fuzzySet_range (h2.sorted.imp fun h => h.le) hml (h2.desc.unit _ (List.getElem_mem _)) ha⟩

/-- Likewise by concept. -/
theorem fitted_range {env : ClusterEnv ℝ} (he : Spec.Env env) {s : String} (hs : Spec.Strategy s) {cfg : GenConf ℝ}
    (hi : cfg.inferType = true) {x : Ext ℝ} {xs ys : List (String × Column ℝ)} {e0 e e1 : Estimator ℝ} {b : Bool}
    (hn : Spec.New e0) (h : Spec.Hist cfg e0 b e) (hx : ∀ l, (x.order l).Perm l)
    (hr : Spec.Readable cfg (x.standard env s) (xs ++ ys))
    (hf : Estimator.fit cfg (x.standard env s) xs ys e = (.ok (), e1)) {c : String} (hc : c ∈ e1.fcm.topology.keys) :
    ∃ n f, e1.fcm.topology.get? c = some n ∧ n.fn = some f ∧
      (f = e0.fcm.default.fn ∨
        (∃ q ∈ xs ++ ys, q.2.isDiscrete cfg = false ∧ Spec.ConceptOf cfg (x.standard env s) q c) ∧ f.name = "fuzzy" ∧
        ProperArgs f ∧ ∃ fa, n.fuzzyAct = some fa ∧ ∀ v, ∃ a, fuzzySet v fa.membership fa.valList = .ok a ∧ -1 ≤ a ∧ a ≤ 1) := by
  have hj := joinColumns_disjoint hr.columns
  obtain ⟨-, -, hk, -⟩ := fit_fitted (x := x.standard env s) hn h hx (hj ▸ hr) hf
  rw [hj] at hk
  obtain ⟨q, hq, hqc⟩ := hk c hc
  obtain ⟨n, f, h1, h2, h3⟩ := fitted_of he hs hi hn h hx hr hf hq hqc
  exact ⟨n, f, h1, h2, h3.imp And.right fun ⟨a, b, c, _, d⟩ => ⟨⟨q, hq, a, hqc⟩, b, c, d⟩⟩

/-- The concepts of a fitted map: those of discrete columns have the given activation function, those of continuous
columns their own fuzzy set. -/
theorem fitted_node {env : ClusterEnv ℝ} (he : Spec.Env env) {s : String} (hs : Spec.Strategy s) {cfg : GenConf ℝ}
    (hi : cfg.inferType = true) {x : Ext ℝ} {xs ys : List (String × Column ℝ)} {e0 e e1 : Estimator ℝ} {b : Bool}
    (hn : Spec.New e0) (h : Spec.Hist cfg e0 b e) (hx : ∀ l, (x.order l).Perm l)
    (hr : Spec.Readable cfg (x.standard env s) (xs ++ ys))
    (hf : Estimator.fit cfg (x.standard env s) xs ys e = (.ok (), e1)) {c : String} (hc : c ∈ e1.fcm.topology.keys) :
    ∃ n f, e1.fcm.topology.get? c = some n ∧ n.fn = some f ∧
      (f = e0.fcm.default.fn ∨
        (∃ q ∈ xs ++ ys, q.2.isDiscrete cfg = false ∧ Spec.ConceptOf cfg (x.standard env s) q c) ∧ f.name = "fuzzy" ∧
        ProperArgs f ∧ ∃ fa, n.fuzzyAct = some fa ∧ ∀ v, ∃ a, fuzzySet v fa.membership fa.valList = .ok a) := by
  obtain ⟨n, f, h1, h2, h3⟩ := fitted_range he hs hi hn h hx hr hf hc
  refine ⟨n, f, h1, h2, h3.imp id ?_⟩
  rintro ⟨h4, h5, h6, fa, h7, h8⟩
  exact ⟨h4, h5, h6, fa, h7, fun v => let ⟨a, ha, _⟩ := h8 v; ⟨a, ha⟩⟩

/-- Setting a concept of such a map succeeds, and so does setting all clusters of a column. -/
theorem initConcept_fits {m1 m : FCM ℝ} {d : FnInfo ℝ} (hd : d.name ≠ "fuzzy")
    (hm : ∀ c ∈ m1.topology.keys, ∃ n f, m1.topology.get? c = some n ∧ n.fn = some f ∧
      (f = d ∨ f.name = "fuzzy" ∧ ∃ fa, n.fuzzyAct = some fa ∧ ∀ v, ∃ a, fuzzySet v fa.membership fa.valList = .ok a))
    (hv : m.view = m1.view) (c : String) (v : ℝ) : ∃ m', FCM.initConcept c v false m = (.ok (), m') := by
  by_cases hc : c ∈ m.topology.keys
  · obtain ⟨n1, f, h1, h2, h3⟩ := hm c (view_keys hv ▸ hc)
    have := view_get hv c
    rw [h1] at this
    obtain ⟨n, e1, e2⟩ := Option.map_eq_some_iff.1 this
    have hfn : n.fn = some f := (congrArg Node.fn e2 :).trans h2
    rcases h3 with rfl | ⟨h3, fa, h4, h5⟩
    · exact ⟨_, initConcept_plain v e1 hfn hd⟩
    · obtain ⟨a, ha⟩ := h5 v
      exact ⟨_, initConcept_fuzzy e1 hfn h3 ((congrArg Node.fuzzyAct e2 :).trans h4) ha⟩
  · unfold FCM.initConcept
    rw [(Dict.get?_eq_none_iff _ _).2 hc]
    exact ⟨m, rfl⟩

theorem initAll_fits {m1 : FCM ℝ} {d : FnInfo ℝ} (hd : d.name ≠ "fuzzy")
    (hm : ∀ c ∈ m1.topology.keys, ∃ n f, m1.topology.get? c = some n ∧ n.fn = some f ∧
      (f = d ∨ f.name = "fuzzy" ∧ ∃ fa, n.fuzzyAct = some fa ∧ ∀ v, ∃ a, fuzzySet v fa.membership fa.valList = .ok a))
    (v : ℝ) : ∀ (cs : List String) (m : FCM ℝ), m.view = m1.view → ∃ m', initAll v cs m = (.ok (), m')
  | [], m, _ => ⟨m, rfl⟩
  | c :: cs, m, hv => by
    obtain ⟨m', h⟩ := initConcept_fits hd hm hv c v
    have hq := initConcept_quiet m c v false m (.refl m)
    rw [h] at hq
    obtain ⟨m2, h2⟩ := initAll_fits hd hm v cs m' (hq.view.trans hv)
    refine ⟨m2, ?_⟩
    unfold initAll
    rw [PyM.run_bind, h]
    exact h2

theorem initByFeature_fits {env : ClusterEnv ℝ} (he : Spec.Env env) {s : String} (hs : Spec.Strategy s) {cfg : GenConf ℝ}
    (hi : cfg.inferType = true) {x x' : Ext ℝ} {xs ys : List (String × Column ℝ)} {e0 e e1 : Estimator ℝ} {b : Bool}
    (hn : Spec.New e0) (h : Spec.Hist cfg e0 b e) (hx : ∀ l, (x.order l).Perm l)
    (hr : Spec.Readable cfg (x.standard env s) (xs ++ ys))
    (hf : Estimator.fit cfg (x.standard env s) xs ys e = (.ok (), e1)) (hfn : e0.fcm.default.fn.name ≠ "fuzzy")
    {q : String × Column ℝ} (hq : q ∈ xs ++ ys) {u : Cell ℝ} (hu : Spec.Usable x' (q.2.isDiscrete cfg) u) {m : FCM ℝ}
    (hv : m.view = e1.fcm.view) : ∃ m', initByFeature cfg x' e1.features q.1 u m = (.ok (), m') := by
  have hj := joinColumns_disjoint hr.columns
  obtain ⟨-, -, -, hfit⟩ := fit_fitted (x := x.standard env s) hn h hx (hj ▸ hr) hf
  rw [hj] at hfit
  have hm : ∀ c ∈ e1.fcm.topology.keys, ∃ n f, e1.fcm.topology.get? c = some n ∧ n.fn = some f ∧
      (f = e0.fcm.default.fn ∨ f.name = "fuzzy" ∧ ∃ fa, n.fuzzyAct = some fa ∧
        ∀ v, ∃ a, fuzzySet v fa.membership fa.valList = .ok a) := by
    intro c hc
    obtain ⟨n, f, h1, h2, h3⟩ := fitted_node he hs hi hn h hx hr hf hc
    exact ⟨n, f, h1, h2, h3.imp id fun h => ⟨h.2.1, h.2.2.2⟩⟩
  obtain ⟨F, cs, hF⟩ := hfit q hq
  have hfo := hF.feat
  unfold initByFeature initByFeatureBody
  rw [PyM.run_bind, hF.get]
  simp only [need, PyM.run_lift]
  unfold FeatureOf at hfo
  split at hfo
  · rename_i hd
    obtain ⟨ht, -⟩ := hfo
    rw [if_neg (by rw [ht]; split <;> decide), PyM.run_bind, PyM.run_lift]
    have hk : ∃ k, u.key x' = .ok k := by
      rw [hd] at hu
      cases u with
      | str s => exact ⟨_, rfl⟩
      | bool b => exact ⟨_, rfl⟩
      | int i => exact ⟨_, rfl⟩
      | float v =>
        obtain ⟨i, hi⟩ := hu rfl
        exact ⟨toString i, by simp only [Cell.key, hi]; rfl⟩
    obtain ⟨k, hk⟩ := hk
    rw [hk]
    dsimp only
    obtain ⟨m', h'⟩ := initConcept_fits hfn hm hv (nameConcept cfg q.1 k) (lit 1)
    rw [h']
    exact ⟨m', rfl⟩
  · rename_i hd
    have hd : q.2.isDiscrete cfg = false := by simpa using hd
    obtain ⟨n, vl, memb, -, -, ht, -⟩ := hfo
    rw [if_pos (by rw [ht]; split <;> decide), PyM.run_bind, PyM.run_lift]
    have hk : ∃ v, u.num = .ok v := by
      rw [hd] at hu
      cases u with
      | str s => cases hu
      | bool b => exact ⟨_, rfl⟩
      | int i => exact ⟨_, rfl⟩
      | float v => exact ⟨_, rfl⟩
    obtain ⟨v, hk⟩ := hk
    rw [hk]
    dsimp only
    obtain ⟨m', h'⟩ := initAll_fits hfn hm v F.names m hv
    rw [h']
    exact ⟨m', rfl⟩

/-- C96: a value is accepted exactly when it can be used for a column of the training data. -/
theorem C96_accepts {env : ClusterEnv ℝ} (he : Spec.Env env) {s : String} (hs : Spec.Strategy s) {cfg : GenConf ℝ}
    (hi : cfg.inferType = true) {x x' : Ext ℝ} {xs ys : List (String × Column ℝ)} {e0 e e1 e2 : Estimator ℝ} {b : Bool}
    (hn : Spec.New e0) (h : Spec.Hist cfg e0 b e) (hx : ∀ l, (x.order l).Perm l)
    (hr : Spec.Readable cfg (x.standard env s) (xs ++ ys))
    (hf : Estimator.fit cfg (x.standard env s) xs ys e = (.ok (), e1)) (hsince : Spec.Since cfg e1 e2)
    (hfn : e0.fcm.default.fn.name ≠ "fuzzy") (feat : String) (u : Cell ℝ) :
    (∃ m', initByFeature cfg x' e2.features feat u e2.fcm = (.ok (), m')) ↔
      ∃ q ∈ xs ++ ys, q.1 = feat ∧ Spec.Usable x' (q.2.isDiscrete cfg) u := by
  constructor
  · rintro ⟨m', h'⟩
    by_contra hc
    push Not at hc
    have := C96_refused (x := x.standard env s) (x' := x') (u := u) hn h hx hr hf hsince hc
    rw [this] at h'
    cases h'
  · rintro ⟨q, hq, rfl, hu⟩
    obtain ⟨hfe, hv⟩ := hsince.same
    rw [hfe]
    exact initByFeature_fits he hs hi hn h hx hr hf hfn hq hu hv

end PyFCM
