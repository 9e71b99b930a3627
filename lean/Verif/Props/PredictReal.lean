import Verif.Props.VecPredict
import Verif.Props.Predict
/-
C42 over the real numbers: the final activations an estimator works with lie in [-1,1], so the running maximum that starts
at -1 (from_data.py:199-204) loses nothing.
-/
namespace PyFCM
open Arith Spec

set_option linter.unusedSectionVars false

theorem tame_of_good {m : FCM ℝ} (hm : CleanInv m)
    (ht : ∀ c n f, m.topology.get? c = some n → n.fn = some f → ProperArgs f ∧ TameArgs f) :
    ∀ c n f v, m.topology.get? c = some n → n.fn = some f → n.argsVect = some v → TameVect f.fn v := by
  intro c n f v hg hf hv
  obtain ⟨h2, h1⟩ := ht c n f hg hf
  replace h2 := h2.kw
  have hp := (hm.good _ _ hg).vect f v hf hv
  unfold TameArgs at h1
  unfold KwOk at h2
  unfold TameVect
  cases hfn : f.fn <;> rw [hfn] at h1 h2 <;> simp only at h1 h2 ⊢
  case relm =>
    intro l hl
    rcases h2 with e | ⟨l', e⟩
    · rw [e, vect_nil] at hp; cases hp; cases hl
    · rw [e, vect_num] at hp; cases hp; cases hl
      exact h1 l (by rw [e]; simp)
  case fuzzy =>
    obtain ⟨mb, vl, hk, hl⟩ := h2
    rw [kwFuzzy_vect hk] at hp
    cases hp
    have hmem : ("membership", ArgVal.arr mb) ∈ f.args ∧ ("val_list", ArgVal.arr vl) ∈ f.args := by
      rcases kwFuzzy_cases hk with e | e <;> rw [e] <;> simp
    obtain ⟨a, b, c⟩ := h1 mb vl hmem.1 hmem.2
    exact ⟨mb, vl, rfl, a, b, c⟩

/-- `run_inference` on a sound map with tame functions ends with activations in [-1,1], whatever the engine. -/
theorem run_within {m m' : FCM ℝ} (hm : CleanInv m) (hco : Coherent m)
    (ht : ∀ c n f, m.topology.get? c = some n → n.fn = some f → ProperArgs f ∧ TameArgs f)
    (h0 : ∀ c ∈ m.topology.keys, -1 ≤ at' m.traj 0 c ∧ at' m.traj 0 c ≤ 1)
    (h : FCM.runInference true m = (.ok (), m')) {c : String} (hc : c ∈ m.topology.keys) :
    ∃ v, m'.getConceptValue c = some v ∧ -1 ≤ v ∧ v ≤ 1 := by
  have hall : ∀ x ∈ m'.traj c, -1 ≤ x ∧ x ≤ 1 := by
    cases hd : m.debug with
    | true =>
      obtain ⟨len, hi⟩ := run_iter hm.inv hd h
      intro x hx
      obtain ⟨t, htl, rfl⟩ := List.getElem_of_mem hx
      have e : (m'.traj c)[t] = at' m'.traj t c := by simp [at', List.getD_eq_getElem?_getD, htl]
      rw [e]
      cases t with
      | zero => rw [(hi.init c hc).2]; exact h0 c hc
      | succ t =>
        obtain ⟨n, f, x, hg, hf, hcall⟩ := iter_value hi hc (by rw [← (hi.run c hc).1]; exact htl)
        exact callActv_range (ht c n f hg hf).2 hcall
    | false =>
      have hne : m.topology ≠ [] := by
        intro e
        rw [e] at hc
        simp [Dict.keys] at hc
      obtain ⟨cc, ys, k, hv⟩ := run_vec hm.inv hco hd hne h
      have hrng := vec_range hm.inv (tame_of_good hm ht) h0 hv.prep hv.cols
      have hi := List.idxOf_lt_length_iff.2 hc
      have htr := (hv.traj_take (Exact.two (α := ℝ)) hne hi).2
      rw [keys_getElem_idxOf hc] at htr
      intro x hx
      rw [htr] at hx
      obtain ⟨y, hy, rfl⟩ := List.mem_map.1 (List.mem_of_mem_take hx)
      rw [List.getD_eq_getElem?_getD]
      cases hyx : y[m.topology.keys.idxOf c]? with
      | none => simp
      | some v => exact hrng y hy v (List.mem_of_getElem? hyx)
  obtain ⟨v, hv, hdec⟩ := final_value_of hm.inv h hc
  exact ⟨v, hv, C08_between hall ((decFn_eq hm.inv.dec _ _ _).2 hdec)⟩

/-- The node functions of a fitted estimator are proper and tame, and so are those of every map with the same view. -/
theorem fitted_tame {env : ClusterEnv ℝ} (he : Spec.Env env) {s : String} (hs : Spec.Strategy s) {cfg : GenConf ℝ}
    (hi : cfg.inferType = true) {x : Ext ℝ} {xs ys : List (String × Column ℝ)} {maxIt extra : Int} {stab : Bool} {diff : ℝ}
    {dc : String} {mem : Bool} {act : String} {kwargs : Args ℝ} {exc : String} {vec fit : Bool} {e0 e e1 : Estimator ℝ} {b : Bool}
    (h0 : Estimator.new (FCM.new maxIt extra stab diff dc mem act kwargs) exc vec fit = .ok e0)
    (h : Spec.Hist cfg e0 b e) (hx : ∀ l, (x.order l).Perm l) (hr : Spec.Readable cfg (x.standard env s) (xs ++ ys))
    (hf : Estimator.fit cfg (x.standard env s) xs ys e = (.ok (), e1))
    (hargs : ∀ f, Activation.getFunctionByName act = some f → ProperArgs ⟨f, act, kwargs⟩ ∧ TameArgs ⟨f, act, kwargs⟩)
    {m2 : FCM ℝ} (hv2 : m2.view = e1.fcm.view) :
    ∀ c n f, m2.topology.get? c = some n → n.fn = some f → ProperArgs f ∧ TameArgs f := by
  have hn : Spec.New e0 := ⟨_, _, _, _, _, _, _, _, _, _, _, h0⟩
  obtain ⟨d, f, g, -, h2, -, -, -, -, -, -, -, -, -, -, -, -, h15⟩ := new_settings h0
  have hj := joinColumns_disjoint hr.columns
  obtain ⟨-, hs1, hk, -⟩ := fit_fitted (x := x.standard env s) hn h hx (hj ▸ hr) hf
  rw [hj] at hk
  intro c n f' hc hfc
  have hck : c ∈ e1.fcm.topology.keys := by rw [← view_keys hv2]; exact Dict.mem_keys_of_get? hc
  obtain ⟨q, hq, hqc⟩ := hk c hck
  obtain ⟨n1, f1, g1, g2, g3⟩ := fitted_of he hs hi hn h hx hr hf hq hqc
  have := view_get hv2 c
  rw [hc, g1] at this
  have e : n.fn = some f1 := (congrArg Node.fn (Option.some.inj this) :).trans g2
  rw [hfc] at e
  cases e
  rcases g3 with ⟨-, rfl⟩ | ⟨-, -, g4, g5, -⟩
  · rw [h15]; exact hargs f h2
  · exact ⟨g4, g5⟩

/-- After a row has been predicted every concept of the estimator's map has an activation in [-1,1]. -/
theorem row_within {env : ClusterEnv ℝ} (he : Spec.Env env) {s : String} (hs : Spec.Strategy s) {cfg : GenConf ℝ}
    (hi : cfg.inferType = true) {x x' : Ext ℝ} {xs ys : List (String × Column ℝ)} {maxIt extra : Int} {stab : Bool} {diff : ℝ}
    {dc : String} {mem : Bool} {act : String} {kwargs : Args ℝ} {exc : String} {vec fit : Bool} {e0 e e1 : Estimator ℝ} {b : Bool}
    (h0 : Estimator.new (FCM.new maxIt extra stab diff dc mem act kwargs) exc vec fit = .ok e0)
    (h : Spec.Hist cfg e0 b e) (hx : ∀ l, (x.order l).Perm l) (hr : Spec.Readable cfg (x.standard env s) (xs ++ ys))
    (hf : Estimator.fit cfg (x.standard env s) xs ys e = (.ok (), e1)) (hfn : act ≠ "fuzzy")
    (hargs : ∀ f, Activation.getFunctionByName act = some f → ProperArgs ⟨f, act, kwargs⟩ ∧ TameArgs ⟨f, act, kwargs⟩)
    {m m' : FCM ℝ} (hm : Sound m) (hv : m.view = e1.fcm.view) {row : List (String × Cell ℝ)} {p : Dict Label}
    (hp : predictRow cfg x' e1.features row m = (.ok p, m')) {c : String} (hc : c ∈ e1.fcm.topology.keys) :
    ∃ v, m'.getConceptValue c = some v ∧ -1 ≤ v ∧ v ≤ 1 := by
  have hn : Spec.New e0 := ⟨_, _, _, _, _, _, _, _, _, _, _, h0⟩
  obtain ⟨_, _, _, -, -, -, -, -, -, -, -, -, -, -, -, -, -, h15⟩ := new_settings h0
  have hrow : Spec.UsableRow cfg x' (xs ++ ys) row := by
    by_contra hu
    obtain ⟨k, hk⟩ := predictRow_refused (x := x.standard env s) hn h hx hr hf hu m
    rw [hk] at hp
    cases hp
  obtain ⟨m1, m2, c1, c2, hcalm, hclean, hmild⟩ := started (x' := x') he hs hi hn h hx hr hf (by rw [h15]; exact hfn) hm hv hrow
  obtain ⟨k, k2, d1, d2, hinf⟩ := predictRow_ok hp
  rw [c1] at d1
  cases d1
  rw [c2] at d2
  cases d2
  have hv2 : m2.view = e1.fcm.view := hcalm.quiet.view.trans hv
  have hstart : ∀ c ∈ m2.topology.keys, -1 ≤ at' m2.traj 0 c ∧ at' m2.traj 0 c ≤ 1 := by
    intro c hc
    obtain ⟨a, as, ha⟩ := hclean.exe c hc
    have := hmild c a as ha
    unfold at' FCM.traj
    rw [ha]
    exact this
  exact run_within hclean hcalm.sound.coherent (fitted_tame he hs hi h0 h hx hr hf hargs hv2) hstart
    (inferenceResult_ok hinf).1 (by rw [view_keys hv2]; exact hc)

/-- C42 for the standard clustering and real numbers, without the condition on the activations: after `predict` the final
activations of all output concepts lie in [-1,1], so for each categorical target the prediction is one of the training values
and no other training value has a higher final activation. -/
theorem C42_real_partial {env : ClusterEnv ℝ} (he : Spec.Env env) {s : String} (hs : Spec.Strategy s) {cfg : GenConf ℝ}
    (hi : cfg.inferType = true) {x x' : Ext ℝ} {xs ys : List (String × Column ℝ)} {maxIt extra : Int} {stab : Bool} {diff : ℝ}
    {dc : String} {mem : Bool} {act : String} {kwargs : Args ℝ} {exc : String} {vec fit : Bool}
    {e0 e e1 e2 e3 : Estimator ℝ} {b : Bool} {r : List (String × Cell ℝ)} {p : Dict Label}
    (h0 : Estimator.new (FCM.new maxIt extra stab diff dc mem act kwargs) exc vec fit = .ok e0)
    (h : Spec.Hist cfg e0 b e) (hx : ∀ l, (x.order l).Perm l) (hr : Spec.Readable cfg (x.standard env s) (xs ++ ys))
    (hf : Estimator.fit cfg (x.standard env s) xs ys e = (.ok (), e1)) (hfn : act ≠ "fuzzy")
    (hargs : ∀ f, Activation.getFunctionByName act = some f → ProperArgs ⟨f, act, kwargs⟩ ∧ TameArgs ⟨f, act, kwargs⟩)
    (hsince : Spec.Since cfg e1 e2) (hp : Estimator.predict cfg x' [r] e2 = (.ok [p], e3)) :
    ∃ st, e3.fcm.getFinalState = .ok st ∧ (∀ c a, (c, a) ∈ st → -1 ≤ a ∧ a ≤ 1) ∧
      (∀ f l, List.lookup f p = some l → ∃ q ∈ ys, q.1 = f) ∧
      ∀ q ∈ ys, q.2.isDiscrete cfg = true → Spec.cells q.2 ≠ [] →
      ∃ u ∈ Spec.cells q.2, ∃ l a, List.lookup q.1 p = some l ∧ (Spec.Plain u → Spec.Typed u l) ∧
        (u.text (x.standard env s) ++ cfg.separator ++ q.1, a) ∈ st ∧
        ∀ u' ∈ Spec.cells q.2, ∃ a', (u'.text (x.standard env s) ++ cfg.separator ++ q.1, a') ∈ st ∧ a' ≤ a := by
  have hn : Spec.New e0 := ⟨_, _, _, _, _, _, _, _, _, _, _, h0⟩
  obtain ⟨st, hst, h1, h2⟩ := C42_predict_partial (x := x.standard env s) hn h hx hr hf hsince hp
  have hj := joinColumns_disjoint hr.columns
  obtain ⟨hc1, hs1, hk, -⟩ := fit_fitted (x := x.standard env s) hn h hx (hj ▸ hr) hf
  obtain ⟨hfe, hv⟩ := hsince.same
  have hs2 := hsince.sound hs1
  have hg2 : e2.generated = true := by
    unfold Estimator.predict at hp
    split at hp
    · assumption
    · cases hp
  unfold Estimator.predict at hp
  rw [if_pos hg2] at hp
  rcases hrow : predictRow cfg x' e2.features r e2.fcm with ⟨_ | p1, m3⟩
  · unfold predictRows at hp
    rw [PyM.run_bind, hrow] at hp
    cases hp
  have hrows : predictRows cfg x' e2.features [r] e2.fcm = (.ok [p1], m3) := by
    unfold predictRows
    rw [PyM.run_bind, hrow]
    rfl
  rw [hrows] at hp
  cases hp
  obtain ⟨hs3, ht3, -⟩ := predictRow_calm hs2 hrow
  have hv3 : m3.view = e1.fcm.view := ht3.view.trans hv
  have hgood := good_view hc1.good hv3
  obtain ⟨st', hst', -, hmem⟩ := final_state_of hs3.inv hs3.sameKeys (fun c n hn => (hgood c n hn).full.type) "target" []
  change m3.getFinalState = _ at hst
  rw [hst] at hst'
  cases hst'
  have hin : ∀ c a, (c, a) ∈ st → -1 ≤ a ∧ a ≤ 1 := by
    intro c a hca
    obtain ⟨n, ty, g1, -, -, rfl⟩ := (hmem c a).1 hca
    obtain ⟨v, hv', hb⟩ := row_within he hs hi h0 h hx hr hf hfn hargs hs2 hv (hfe ▸ hrow)
      (c := c) (by rw [← view_keys hv3]; exact Dict.mem_keys_of_get? g1)
    have e : m3.getConceptValue c = some n.value := by unfold FCM.getConceptValue; rw [g1]; rfl
    rw [e] at hv'
    cases hv'
    exact hb
  refine ⟨st, hst, hin, h1, fun q hq hd hne => ?_⟩
  obtain ⟨u, hu, l, a, g1, g2, g3, g4⟩ := h2 q hq hd hne fun u _ a ha => by
    have := (hin _ a ha).1
    simpa using this
  refine ⟨u, hu, l, a, g1, g2, g3, fun u' hu' => ?_⟩
  obtain ⟨a', k1, k2⟩ := g4 u' hu'
  exact ⟨a', k1, by simpa using k2⟩

/-- Red things are predicted to be "yes" or "no", whichever has the higher activation. -/
example {e1 : Estimator ℝ}
    (hf : Estimator.fit Ex.realConf (Ex.realExt.standard exEnv "cmeans-gap") Ex.xsr Ex.ysr Ex.est0r = (.ok (), e1)) :
    ∃ p e3 st, Estimator.predict Ex.realConf Ex.realExt [[("color", .str "red")]] e1 = (.ok [p], e3) ∧
      e3.fcm.getFinalState = .ok st ∧ ∃ u a, (u = "yes" ∨ u = "no") ∧ List.lookup "class" p = some (.str u) ∧
      (u ++ "___" ++ "class", a) ∈ st ∧ -1 ≤ a ∧ a ≤ 1 ∧
      ∀ u', u' = "yes" ∨ u' = "no" → ∃ a', (u' ++ "___" ++ "class", a') ∈ st ∧ a' ≤ a := by
  obtain ⟨ps, e3, hp⟩ := (C97_predicts (x' := Ex.realExt) exEnv_ok (.inl rfl) rfl Ex.est0r_new .start (fun l => .refl _)
    Ex.r_readable hf .start (by decide) (fun f h => by cases h; exact .inl rfl) (by decide) (by
      intro q hq hd
      simp only [Ex.xsr, Ex.ysr, List.cons_append, List.nil_append, List.mem_cons, List.not_mem_nil, or_false] at hq
      rcases hq with rfl | rfl <;> cases hd) [[("color", .str "red")]]).1 (by
    intro r hr p hp
    obtain rfl := List.mem_singleton.1 hr
    obtain rfl := List.mem_singleton.1 hp
    exact ⟨("color", .strs ["red", "blue", "red"]), by simp [Ex.xsr], rfl, rfl⟩)
  obtain ⟨p, rfl⟩ : ∃ p, ps = [p] := by
    unfold Estimator.predict at hp
    split at hp
    · rcases hc : predictRows Ex.realConf Ex.realExt e1.features [[("color", .str "red")]] e1.fcm with ⟨er | ps', m'⟩ <;>
        rw [hc] at hp <;> cases hp
      unfold predictRows at hc
      rw [PyM.run_bind] at hc
      split at hc
      · cases hc; exact ⟨_, rfl⟩
      · cases hc
    · cases hp
  obtain ⟨st, hst, hin, -, hq⟩ := C42_real_partial exEnv_ok (.inl rfl) rfl Ex.est0r_new .start (fun l => .refl _) Ex.r_readable hf
    (by decide) (fun f h => by cases h; exact ⟨.inl rfl, trivial⟩) .start hp
  obtain ⟨u, hu, l, a, h1, h2, h3, h4⟩ := hq ("class", .strs ["yes", "no", "yes"]) (by simp [Ex.ysr]) rfl (by simp [Spec.cells])
  have hb := hin _ _ h3
  simp only [Spec.cells, List.map_cons, List.map_nil, List.mem_cons, List.not_mem_nil, or_false] at hu
  have hmax : ∀ u', u' = "yes" ∨ u' = "no" → ∃ a', (u' ++ "___" ++ "class", a') ∈ st ∧ a' ≤ a := by
    intro u' hu'
    exact h4 (.str u') (by rcases hu' with rfl | rfl <;> simp [Spec.cells])
  have key : ∀ t : String, (t = "yes" ∨ t = "no") → u = .str t → ∃ u a, (u = "yes" ∨ u = "no") ∧
      List.lookup "class" p = some (.str u) ∧ (u ++ "___" ++ "class", a) ∈ st ∧ -1 ≤ a ∧ a ≤ 1 ∧
      ∀ u', u' = "yes" ∨ u' = "no" → ∃ a', (u' ++ "___" ++ "class", a') ∈ st ∧ a' ≤ a := by
    rintro t ht rfl
    have hl := h2 (by
      rcases ht with rfl | rfl
      · exact .inr ⟨'y', by decide, by decide⟩
      · exact .inr ⟨'n', by decide, by decide⟩)
    refine ⟨t, a, ht, ?_, h3, hb.1, hb.2, hmax⟩
    rw [h1]
    exact congrArg some hl
  refine ⟨p, e3, st, hp, hst, ?_⟩
  rcases hu with rfl | rfl | rfl
  · exact key "yes" (.inl rfl) rfl
  · exact key "no" (.inr rfl) rfl
  · exact key "yes" (.inl rfl) rfl

end PyFCM
