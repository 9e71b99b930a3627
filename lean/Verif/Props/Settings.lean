import Verif.Props.Predict
import Verif.Props.Build
/-
C95: the settings given to an estimator.
-/
namespace PyFCM
open Arith

set_option linter.unusedSectionVars false

variable {α : Type} [Arith α]

/-- What the constructor of the estimator leaves in its map. -/
theorem new_settings {maxIt extra : Int} {stab : Bool} {diff : α} {dc : String} {mem : Bool} {act : String} {kwargs : Args α}
    {exc : String} {vec fit : Bool} {e0 : Estimator α}
    (h : Estimator.new (FCM.new maxIt extra stab diff dc mem act kwargs) exc vec fit = .ok e0) :
    ∃ d f g, Decision.getByName dc = some d ∧ Activation.getFunctionByName act = some f ∧ Excitation.getByName exc = some g ∧
      e0.fcm.maxIter = maxIt ∧ e0.fcm.extraSteps = (if extra > 0 then extra.toNat else 1) ∧ e0.fcm.stopAtStabilize = stab ∧
      e0.fcm.stabilityDiff = diff ∧ e0.fcm.decisionFn = d ∧ e0.fcm.decisionName = dc ∧ e0.fcm.mapFn = ⟨f, act, kwargs⟩ ∧
      e0.fcm.debug = !vec ∧ e0.fcm.fitInclination = none ∧
      e0.fcm.default.exec = (g, exc) ∧ e0.fcm.default.useMem = mem ∧ e0.fcm.default.fn = ⟨f, act, kwargs⟩ := by
  unfold Estimator.new at h
  obtain ⟨m, hm, h⟩ := exc_bind_ok h
  obtain ⟨m1, hm1, h⟩ := exc_bind_ok h
  obtain ⟨p, -, h⟩ := exc_bind_ok h
  cases h
  unfold FCM.new at hm
  split at hm
  · cases hm
  rename_i d hd
  split at hm
  · cases hm
  rename_i f hf
  cases hm
  unfold PyM.exec FCM.setDefaultConceptProperties updateDefault at hm1
  cases hg : Excitation.getByName exc with
  | none =>
    simp [PyM.run_bind, defaultActive, defaultExec, defaultArgs, hg, PyM.modify, PyM.raise] at hm1
  | some g =>
    refine ⟨d, f, g, hd, hf, rfl, ?_⟩
    simp [PyM.run_bind, defaultActive, defaultExec, defaultType, defaultFuzzy, defaultFn, defaultArgs, hg, PyM.modify,
      isValidType, TYPE_SIMPLE, TYPE_FUZZY, TYPE_REGRESOR] at hm1
    cases hm1
    exact ⟨rfl, rfl, rfl, rfl, rfl, rfl, rfl, rfl, rfl, rfl, rfl, rfl⟩

/-- C95: the constructor accepts exactly the known function names. -/
theorem C95_accepts (maxIt extra : Int) (stab : Bool) (diff : α) (dc : String) (mem : Bool) (act : String) (kwargs : Args α)
    (exc : String) (vec fit : Bool) :
    (∃ e0, Estimator.new (FCM.new maxIt extra stab diff dc mem act kwargs) exc vec fit = .ok e0) ↔
      dc ∈ ["LAST", "MEAN", "EXITED"] ∧ exc ∈ ["KOSKO", "PAPAGEORGIUS"] ∧
      act ∈ ["biestate", "threestate", "saturation", "tan_hip", "sigmoid", "sigmoid_hip", "fuzzy", "gceq", "lceq", "relm"] := by
  have hD : dc ∈ ["LAST", "MEAN", "EXITED"] ↔ ∃ d, Decision.getByName dc = some d := by
    unfold Decision.getByName
    simp only [List.mem_cons, List.not_mem_nil, or_false]
    repeat' split
    all_goals simp_all
  have hE : exc ∈ ["KOSKO", "PAPAGEORGIUS"] ↔ ∃ d, Excitation.getByName exc = some d := by
    unfold Excitation.getByName
    simp only [List.mem_cons, List.not_mem_nil, or_false]
    repeat' split
    all_goals simp_all
  have hA : act ∈ ["biestate", "threestate", "saturation", "tan_hip", "sigmoid", "sigmoid_hip", "fuzzy", "gceq", "lceq", "relm"] ↔
      ∃ d, Activation.getFunctionByName act = some d := by
    unfold Activation.getFunctionByName
    simp only [List.mem_cons, List.not_mem_nil, or_false]
    repeat' split
    all_goals simp_all
  rw [hD, hE, hA]
  constructor
  · rintro ⟨e0, h⟩
    obtain ⟨d, f, g, h1, h2, h3, -⟩ := new_settings h
    exact ⟨⟨d, h1⟩, ⟨g, h3⟩, f, h2⟩
  · rintro ⟨⟨d, hd⟩, ⟨g, hg⟩, f, hf⟩
    unfold Estimator.new FCM.new
    rw [hd, hf]
    simp [PyM.exec, FCM.setDefaultConceptProperties, updateDefault, PyM.run_bind, defaultActive, defaultExec, defaultType,
      defaultFuzzy, defaultFn, defaultArgs, hg, PyM.modify, isValidType, TYPE_SIMPLE, TYPE_FUZZY, TYPE_REGRESOR]
    exact ⟨_, rfl⟩

/-- C95: the map of the estimator has the settings that were given, whatever was called since. -/
theorem C95_settings {cfg : GenConf α} {maxIt extra : Int} {stab : Bool} {diff : α} {dc : String} {mem : Bool} {act : String}
    {kwargs : Args α} {exc : String} {vec fit : Bool} {e0 e : Estimator α} {b : Bool}
    (h0 : Estimator.new (FCM.new maxIt extra stab diff dc mem act kwargs) exc vec fit = .ok e0) (h : Spec.Hist cfg e0 b e) :
    e.fcm.maxIter = maxIt ∧ e.fcm.extraSteps = (if extra > 0 then extra.toNat else 1) ∧ e.fcm.stopAtStabilize = stab ∧
      e.fcm.stabilityDiff = diff ∧ e.fcm.decisionName = dc ∧ Decision.getByName dc = some e.fcm.decisionFn ∧
      e.fcm.debug = !vec := by
  have hn : Spec.New e0 := ⟨_, _, _, _, _, _, _, _, _, _, _, h0⟩
  have hs := (h.ok hn).1.settings
  obtain ⟨d, f, g, h1, -, -, h4, h5, h6, h7, h8, h9, -, h11, -⟩ := new_settings h0
  have e1 : e.fcm.maxIter = e0.fcm.maxIter := (congrArg FCM.maxIter hs :)
  have e2 : e.fcm.extraSteps = e0.fcm.extraSteps := (congrArg FCM.extraSteps hs :)
  have e3 : e.fcm.stopAtStabilize = e0.fcm.stopAtStabilize := (congrArg FCM.stopAtStabilize hs :)
  have e4 : e.fcm.stabilityDiff = e0.fcm.stabilityDiff := (congrArg FCM.stabilityDiff hs :)
  have e5 : e.fcm.decisionName = e0.fcm.decisionName := (congrArg FCM.decisionName hs :)
  have e6 : e.fcm.decisionFn = e0.fcm.decisionFn := (congrArg FCM.decisionFn hs :)
  have e7 : e.fcm.debug = e0.fcm.debug := (congrArg FCM.debug hs :)
  exact ⟨e1.trans h4, e2.trans h5, e3.trans h6, e4.trans h7, e5.trans h9, by rw [e6, h8, h1], e7.trans h11⟩

/-- Every concept of a fitted map is the one added for its column, up to relations and values. -/
theorem fit_kin [Ordered α] {cfg : GenConf α} {x : Ext α} {xs ys : List (String × Column α)} {e0 e e1 : Estimator α}
    {b : Bool} (hn : Spec.New e0) (h : Spec.Hist cfg e0 b e) (hx : ∀ l, (x.order l).Perm l)
    (hr : Spec.Readable cfg x (joinColumns xs ys)) (hf : Estimator.fit cfg x xs ys e = (.ok (), e1)) :
    ∀ q ∈ joinColumns xs ys, ∃ F cs, FeatureOf cfg x (ys.map (·.1)) q.1 q.2 F cs ∧
      ∀ p ∈ cs, ∃ n0 n, Born e0.fcm.default p.2 n0 ∧ e1.fcm.topology.get? p.1 = some n ∧ Kin e0.fcm.fitInclination n0 n := by
  obtain ⟨he, -⟩ := h.ok hn
  rcases fit_cases he hf with ⟨err, h1, -⟩ | ⟨m0, g, hm, hb, rfl⟩
  · cases h1
  obtain ⟨W, L, hB⟩ := buildFcm_built hx hr.columns hb
  have hnd := hB.names_nodup hr
  intro q hq
  obtain ⟨w, hw, ew, hF⟩ := hB.of_col hq
  refine ⟨w.2.1, w.2.2, hF, ?_⟩
  intro p hp
  obtain ⟨n0, n, h1, h2, h3⟩ := hB.born hnd w hw p hp
  have hd : m0.default = e0.fcm.default := (congrArg FCM.default hm.settings :)
  have hi : m0.fitInclination = e0.fcm.fitInclination := (congrArg FCM.fitInclination hm.settings :)
  exact ⟨n0, n, hd ▸ h1, h2, hi ▸ h3⟩

/-- C95: so do its concepts after `fit`: all are active and use the excitation function and the memory setting that were
given; the concepts of a discrete column use the activation function that was given, those of a continuous column the
function `fuzzy`. -/
theorem C95_concepts [Ordered α] {cfg : GenConf α} {x : Ext α} {xs ys : List (String × Column α)} {maxIt extra : Int}
    {stab : Bool} {diff : α} {dc : String} {mem : Bool} {act : String} {kwargs : Args α} {exc : String} {vec fit : Bool}
    {e0 e e1 : Estimator α} {b : Bool}
    (h0 : Estimator.new (FCM.new maxIt extra stab diff dc mem act kwargs) exc vec fit = .ok e0) (h : Spec.Hist cfg e0 b e)
    (hx : ∀ l, (x.order l).Perm l) (hr : Spec.Readable cfg x (joinColumns xs ys))
    (hf : Estimator.fit cfg x xs ys e = (.ok (), e1)) {q : String × Column α} (hq : q ∈ joinColumns xs ys) {c : String}
    (hc : Spec.ConceptOf cfg x q c) :
    ∃ n f g, e1.fcm.topology.get? c = some n ∧ n.active = true ∧ n.useMem = some mem ∧
      Excitation.getByName exc = some g ∧ n.exec = some (g, exc) ∧ Activation.getFunctionByName act = some f ∧
      if q.2.isDiscrete cfg then n.fn = some ⟨f, act, kwargs⟩ ∧ n.useMapFunc = some true
      else (∃ args, n.fn = some ⟨.fuzzy, "fuzzy", args⟩) ∧ n.useMapFunc = some false := by
  have hn : Spec.New e0 := ⟨_, _, _, _, _, _, _, _, _, _, _, h0⟩
  obtain ⟨d, f, g, h1, h2, h3, -, -, -, -, -, -, -, -, h12, h13, h14, h15⟩ := new_settings h0
  obtain ⟨F, cs, hF, hcs⟩ := fit_kin hn h hx hr hf q hq
  have hcn := (mem_names hF c).2 hc
  rw [h12] at hcs
  unfold FeatureOf at hF
  split at hF
  · rename_i hd
    obtain ⟨-, -, -, rfl⟩ := hF
    obtain ⟨n0, n, ⟨n1, hb, rfl⟩, hn, k⟩ := hcs (c, discArgs F.type) (by simpa using hcn)
    obtain ⟨ex, adict, f', custom, vect, hex, hdict, hch, e⟩ := buildNode_ok hb
    have hdn : adict = none := by
      cases adict with
      | none => rfl
      | some d => simp [discArgs] at hdict
    obtain ⟨rfl, rfl⟩ := hch.other hdn rfl
    have e1 : n1.active = _ := (congrArg Node.active e :)
    have e2 : n1.exec = _ := (congrArg Node.exec e :)
    have e3 : n1.useMem = _ := (congrArg Node.useMem e :)
    have e4 : n1.useMapFunc = _ := (congrArg Node.useMapFunc e :)
    have e5 : n1.fn = _ := (congrArg Node.fn e :)
    have hex : ex = e0.fcm.default.exec := hex
    refine ⟨n, f, g, hn, k.2.2.1.trans e1, k.2.2.2.2.2.2.1.trans (e3.trans ?_), h3, k.2.2.2.2.2.1.trans (e2.trans ?_), h2, ?_⟩
    · rw [← h14]; rfl
    · rw [hex, h13]
    · rw [if_pos hd]
      exact ⟨(congrArg Node.fn (k.2.2.2.2.1 rfl)).trans (e5.trans (by rw [h15])), k.2.2.2.2.2.2.2.trans e4⟩
  · rename_i hd
    obtain ⟨n', vl, memb, -, hl, ht, hN, -, rfl⟩ := hF
    obtain ⟨i, hi, ei⟩ := List.mem_iff_getElem.1 hcn
    have hlen : F.names.length = n' := by rw [hN]; simp
    have hm : (c, contArgs F.type (memb[i]'(by omega)) vl) ∈ (F.names.zip memb).map fun p => (p.1, contArgs F.type p.2 vl) := by
      refine List.mem_map.2 ⟨(c, memb[i]'(by omega)), ?_, rfl⟩
      rw [List.mem_iff_getElem]
      exact ⟨i, by simp; omega, by rw [List.getElem_zip, ei]⟩
    obtain ⟨n0, n, ⟨n1, hb, rfl⟩, hn, k⟩ := hcs _ hm
    obtain ⟨ex, adict, f', custom, vect, hex, hdict, hch, e⟩ := buildNode_ok hb
    obtain ⟨dd, hdd⟩ : ∃ dd, adict = some dd := by
      cases adict with
      | none => simp [contArgs] at hdict
      | some d => exact ⟨d, rfl⟩
    obtain ⟨rfl, rfl⟩ := hch.dict dd hdd
    have e1 : n1.active = _ := (congrArg Node.active e :)
    have e2 : n1.exec = _ := (congrArg Node.exec e :)
    have e3 : n1.useMem = _ := (congrArg Node.useMem e :)
    have e4 : n1.useMapFunc = _ := (congrArg Node.useMapFunc e :)
    have e5 : n1.fn = _ := (congrArg Node.fn e :)
    have hex : ex = e0.fcm.default.exec := hex
    refine ⟨n, f, g, hn, k.2.2.1.trans e1, k.2.2.2.2.2.2.1.trans (e3.trans ?_), h3, k.2.2.2.2.2.1.trans (e2.trans ?_), h2, ?_⟩
    · rw [← h14]; rfl
    · rw [hex, h13]
    · rw [if_neg hd]
      exact ⟨⟨dd, (congrArg Node.fn (k.2.2.2.2.1 rfl)).trans e5⟩, k.2.2.2.2.2.2.2.trans e4⟩

/-! ### Examples -/

example := C95_accepts (α := ℚ) 200 5 true (1 / 1000) "MEAN" true "saturation" [] "KOSKO" true true
example : ¬ ∃ e0 : Estimator ℚ, Estimator.new (FCM.new 200 5 true (1 / 1000) "MEAN" true "tanh" []) "KOSKO" true true = .ok e0 :=
  fun h => absurd ((C95_accepts _ _ _ _ _ _ _ _ _ _ _).1 h).2.2 (by decide)

/-- After a fit and predictions. -/
example : Ex.est2.fcm.maxIter = 200 ∧ Ex.est2.fcm.extraSteps = (if (5 : Int) > 0 then (5 : Int).toNat else 1) ∧
    Ex.est2.fcm.stopAtStabilize = true ∧ Ex.est2.fcm.stabilityDiff = dec 1 1000 ∧ Ex.est2.fcm.decisionName = "MEAN" ∧
    Decision.getByName "MEAN" = some Ex.est2.fcm.decisionFn ∧ Ex.est2.fcm.debug = !true :=
  C95_settings (h0 := (rfl : Estimator.new (FCM.new 200 5 true (dec 1 1000) "MEAN" true "saturation" []) "KOSKO" true true = .ok Ex.est0))
    (.predict (.fit .start _ _ _ Ex.est1_fit) Ex.ext Ex.rows)

/-- A concept of the fitted map. -/
example : ∃ n f g, Ex.est1.fcm.topology.get? "red___color" = some n ∧ n.active = true ∧ n.useMem = some true ∧
    Excitation.getByName "KOSKO" = some g ∧ n.exec = some (g, "KOSKO") ∧ Activation.getFunctionByName "saturation" = some f ∧
    n.fn = some ⟨f, "saturation", []⟩ ∧ n.useMapFunc = some true := by
  have h := C95_concepts (cfg := Ex.conf) (x := Ex.ext)
    (h0 := (rfl : Estimator.new (FCM.new 200 5 true (dec 1 1000) "MEAN" true "saturation" []) "KOSKO" true true = .ok Ex.est0))
    (xs := Ex.xs) (ys := Ex.ys) .start (fun _ => .refl _)
    (joinColumns_disjoint Ex.est1_readable.columns ▸ Ex.est1_readable) Ex.est1_fit (q := ("color", .strs ["red", "blue", "red"]))
    (by simp [joinColumns, Ex.xs]) (c := "red___color") ⟨.str "red", by simp [Spec.cells], rfl⟩
  exact h

end PyFCM
