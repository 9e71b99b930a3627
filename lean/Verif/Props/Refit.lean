import Verif.Lemmas.Restart
import Verif.Props.Predicts
/-
`fit` can be repeated (C102).
-/
namespace PyFCM
open Arith

set_option linter.unusedSectionVars false

section any
variable {α : Type} [Arith α]

/-- Calls of `predict` and `score` since `e1`; all have returned. -/
inductive Spec.Went (cfg : GenConf α) (e1 : Estimator α) : Estimator α → Prop
  | start : Spec.Went cfg e1 e1
  | predict {e e' : Estimator α} {ps} (h : Spec.Went cfg e1 e) (x : Ext α) (rows : List (List (String × Cell α)))
      (hp : Estimator.predict cfg x rows e = (.ok ps, e')) : Spec.Went cfg e1 e'
  | score {e e' : Estimator α} {r} (h : Spec.Went cfg e1 e) (x : Ext α) (rows : List (List (String × Cell α)))
      (y : List (String × List (Cell α))) (hp : Estimator.score cfg x rows y e = (.ok r, e')) : Spec.Went cfg e1 e'

/-- C102 in full: once `fit` has returned, whatever `predict` and `score` did since, `fit` returns or raises as it would
on a new estimator. -/
def C102_full (α : Type) [Arith α] : Prop :=
  ∀ (cfg : GenConf α) (e0 e : Estimator α), Spec.New e0 → Spec.Ready cfg e0 e → ∀ x xs ys,
    (Estimator.fit cfg x xs ys e).1 = (Estimator.fit cfg x xs ys e0).1

theorem fit_again {cfg : GenConf α} {e0 e : Estimator α} (hn : Spec.New e0) (he : EstOk e0 e) (hp : e.priv = none)
    (hs : Started e.fcm) (x : Ext α) (xs ys : List (String × Column α)) :
    (Estimator.fit cfg x xs ys e).1 = (Estimator.fit cfg x xs ys e0).1 := by
  obtain ⟨h0, -, -⟩ := hn.ok
  obtain ⟨m1, h1⟩ := reset_success hs
  have hr : ∃ e1, Estimator.reset e = (.ok (), e1) := by
    unfold Estimator.reset FCM.clearAll
    rw [hp]
    dsimp only
    rw [PyM.run_bind, h1]
    exact ⟨_, rfl⟩
  obtain ⟨e1, hr⟩ := hr
  rcases hff : Estimator.fit cfg x xs ys e with ⟨r, f⟩
  obtain ⟨m0, g, hm, hb, -⟩ := fit_built he hff hr
  obtain ⟨e2, hr0⟩ := hn.reset
  rcases hf0 : Estimator.fit cfg x xs ys e0 with ⟨r0, f0⟩
  obtain ⟨m2, g2, hm2, hb2, -⟩ := fit_built h0 hf0 hr0
  obtain ⟨k1, -⟩ := buildFcm_rel remade_rel cfg x (ys.map (·.1)) (joinColumns xs ys) ⟨[], [], m2⟩ ⟨[], [], m0⟩
    ⟨rfl, rfl, hm2.remade hm⟩
  rw [hb, hb2] at k1
  exact k1

theorem fit_clean {cfg : GenConf α} {x : Ext α} {xs ys : List (String × Column α)} {e0 e e' : Estimator α}
    (he : EstOk e0 e) (h : Estimator.fit cfg x xs ys e = (.ok (), e')) : CleanInv e'.fcm ∧ e'.priv = none := by
  rcases fit_cases he h with ⟨err, h1, -⟩ | ⟨m0, g, hm, hb, rfl⟩
  · cases h1
  · exact ⟨buildFcm_clean (emptied_clean hm) hb, rfl⟩

theorem predict_priv (cfg : GenConf α) (x : Ext α) (rows : List (List (String × Cell α))) (e : Estimator α) :
    (Estimator.predict cfg x rows e).2.priv = e.priv := by
  rcases predict_snd cfg x rows e with h | ⟨h, -⟩ <;> rw [h]

theorem Spec.Ready.priv {cfg : GenConf α} {e0 e : Estimator α} (hn : Spec.New e0) (h : Spec.Ready cfg e0 e) :
    e.priv = none := by
  induction h with
  | fit h x xs ys hf => exact (fit_clean (h.ok hn).1 hf).2
  | predict h x rows ih => rw [predict_priv]; exact ih
  | score h x rows y ih => rw [score_snd, predict_priv]; exact ih

/-- C102 with `vectorized_run=False`: calls of `predict` and `score` may have raised. -/
theorem C102_iterative_partial {cfg : GenConf α} {e0 e : Estimator α} (hn : Spec.New e0) (h : Spec.Ready cfg e0 e)
    (hd : e0.fcm.debug = true) (x : Ext α) (xs ys : List (String × Column α)) :
    (Estimator.fit cfg x xs ys e).1 = (Estimator.fit cfg x xs ys e0).1 := by
  have key : ∃ K, e.fcm.topology.keys = K ∧ Filled K e.fcm := by
    induction h with
    | @fit b e e' h x xs ys hf =>
      refine ⟨_, rfl, ?_, (fit_clean (h.ok hn).1 hf).1.exe⟩
      have := (fit_est (h.ok hn).1 hf).1.settings
      exact (congrArg FCM.debug this :).trans hd
    | @predict e h x rows ih =>
      obtain ⟨K, k1, k2⟩ := ih
      rcases predict_snd cfg x rows e with h1 | ⟨h1, -⟩
      · rw [h1]; exact ⟨K, k1, k2⟩
      · rw [h1]
        exact ⟨K, (predictRows_tracked K cfg x _ rows _ ⟨k1, fun c hc => (h.sound hn).sameKeys c |>.1 (k1 ▸ hc)⟩).1,
          predictRows_filled K cfg x _ rows _ k2⟩
    | @score e h x rows y ih =>
      obtain ⟨K, k1, k2⟩ := ih
      rw [score_snd]
      rcases predict_snd cfg x rows e with h1 | ⟨h1, -⟩
      · rw [h1]; exact ⟨K, k1, k2⟩
      · rw [h1]
        exact ⟨K, (predictRows_tracked K cfg x _ rows _ ⟨k1, fun c hc => (h.sound hn).sameKeys c |>.1 (k1 ▸ hc)⟩).1,
          predictRows_filled K cfg x _ rows _ k2⟩
  obtain ⟨K, k1, -, k2⟩ := key
  exact fit_again hn (h.hist.ok hn).1 (h.priv hn) (fun c hc => k2 c (k1 ▸ hc)) x xs ys

theorem predict_went {cfg : GenConf α} {x : Ext α} {rows : List (List (String × Cell α))} {e e' : Estimator α} {ps}
    (h : Estimator.predict cfg x rows e = (.ok ps, e')) (hs : Startable e.fcm) : Startable e'.fcm := by
  unfold Estimator.predict at h
  split at h
  · rcases hp : predictRows cfg x e.features rows e.fcm with ⟨r, m⟩
    rw [hp] at h
    cases h
    exact predictRows_startable cfg x _ rows _ _ _ hs hp
  · cases h

theorem score_went {cfg : GenConf α} {x : Ext α} {rows : List (List (String × Cell α))} {y : List (String × List (Cell α))}
    {e e' : Estimator α} {r} (h : Estimator.score cfg x rows y e = (.ok r, e')) :
    ∃ ps, Estimator.predict cfg x rows e = (.ok ps, e') := by
  rw [score_unfold] at h
  split at h
  · rcases hp : Estimator.predict cfg x rows e with ⟨_ | ps, e1⟩
    · rw [hp] at h; cases h
    · rw [hp] at h
      exact ⟨ps, by rw [(Prod.mk.inj h).2]⟩
  · cases h

theorem Spec.Went.since {cfg : GenConf α} {e1 e : Estimator α} (h : Spec.Went cfg e1 e) : Spec.Since cfg e1 e := by
  induction h with
  | start => exact .start
  | predict h x rows hp ih => have := ih.predict x rows; rwa [hp] at this
  | score h x rows y hp ih => have := ih.score x rows y; rwa [hp] at this

/-- C102 with either engine, if all calls since the last `fit` have returned. -/
theorem C102_returned_partial {cfg : GenConf α} {x : Ext α} {xs ys : List (String × Column α)} {e0 e e1 e2 : Estimator α}
    {b : Bool} (hn : Spec.New e0) (h : Spec.Hist cfg e0 b e) (hf : Estimator.fit cfg x xs ys e = (.ok (), e1))
    (hw : Spec.Went cfg e1 e2) (x' : Ext α) (xs' ys' : List (String × Column α)) :
    (Estimator.fit cfg x' xs' ys' e2).1 = (Estimator.fit cfg x' xs' ys' e0).1 := by
  obtain ⟨hc, hp⟩ := fit_clean (h.ok hn).1 hf
  have key : Startable e2.fcm ∧ e2.priv = none := by
    induction hw with
    | start => exact ⟨⟨hc.inv, hc.exe⟩, hp⟩
    | @predict e e' ps h x rows hp ih =>
      refine ⟨predict_went hp ih.1, ?_⟩
      have := predict_priv cfg x rows e
      rw [hp] at this
      exact this.trans ih.2
    | @score e e' r h x rows y hp ih =>
      obtain ⟨ps, hp⟩ := score_went hp
      refine ⟨predict_went hp ih.1, ?_⟩
      have := predict_priv cfg x rows e
      rw [hp] at this
      exact this.trans ih.2
  exact fit_again hn ((hw.since.hist h hf).ok hn).1 key.2 key.1.2 x' xs' ys'

/-- All trajectories consist of a zero. -/
def Zeroed (m : FCM α) : Prop := ∀ c xs, m.execution.get? c = some xs → xs = [lit 0]

theorem zeroed_gen : GenPres (Zeroed : FCM α → Prop) := by
  constructor
  · intro c a m hm
    unfold FCM.addConcept
    dsimp only
    split
    · exact hm
    · intro k xs hk
      dsimp only at hk
      rw [Dict.get?_set] at hk
      split at hk
      · cases hk; rfl
      · exact hm k xs hk
  · intro o d w m hm
    unfold FCM.addRelation
    dsimp only
    repeat' split
    all_goals exact hm

theorem fit_zeroed {cfg : GenConf α} {x : Ext α} {xs ys : List (String × Column α)} {e0 e e' : Estimator α}
    (he : EstOk e0 e) (h : Estimator.fit cfg x xs ys e = (.ok (), e')) : Zeroed e'.fcm := by
  rcases fit_cases he h with ⟨err, h1, -⟩ | ⟨m0, g, hm, hb, rfl⟩
  · cases h1
  · have := buildFcm_pres zeroed_gen cfg x (ys.map (·.1)) (joinColumns xs ys) ⟨[], [], m0⟩
      (fun c xs hx => by dsimp only at hx; rw [hm.execution] at hx; cases hx)
    rw [hb] at this
    exact this

end any

/-! ### The library's own discretization -/

/-- Setting concepts of a fitted map never starts a trajectory with the filler. -/
theorem initConcept_headed {m : FCM ℝ} (hm : Headed m) {c : String} {v : ℝ} {r : Bool}
    (hv : ∀ n f, m.topology.get? c = some n → n.fn = some f →
      (f.name ≠ "fuzzy" ∧ v ≠ 2) ∨ f.name = "fuzzy" ∧ ∀ fa a, n.fuzzyAct = some fa →
        fuzzySet v fa.membership fa.valList = .ok a → a ≠ 2) :
    Headed (FCM.initConcept c v r m).2 := by
  unfold FCM.initConcept
  split
  · split <;> exact hm
  · rename_i n hn
    have h1 : ∀ (n' : Node ℝ) (w : ℝ), w ≠ 2 → Headed
        { m with topology := m.topology.set c n', execution := m.execution.set c [w] } := by
      intro n' w hw
      refine ⟨hm.1, fun k hk => ?_⟩
      dsimp only at hk ⊢
      rw [Dict.keys_set_of_mem _ _ _ (Dict.mem_keys_of_get? hn)] at hk
      rw [Dict.get?_set]
      split
      · exact ⟨w, [], rfl, by simpa using hw⟩
      · exact hm.2 k hk
    split
    · exact hm
    · rename_i f hf
      have := hv n f hn hf
      split
      · rename_i hfz
        split
        · exact hm
        · rename_i fa hfa
          split
          · exact hm
          · rename_i a ha
            rcases this with ⟨h2, -⟩ | ⟨-, h2⟩
            · exact absurd hfz h2
            · exact h1 _ _ (h2 fa a hfa ha)
      · rename_i hfz
        rcases this with ⟨-, h2⟩ | ⟨h2, -⟩
        · exact h1 _ _ h2
        · exact absurd h2 hfz

theorem initAll_headed {m1 : FCM ℝ} {v : ℝ} : ∀ cs : List String,
    (∀ c ∈ cs, ∀ n f, m1.topology.get? c = some n → n.fn = some f → f.name = "fuzzy" ∧ ∀ fa a, n.fuzzyAct = some fa →
      fuzzySet v fa.membership fa.valList = .ok a → a ≠ 2) →
    Pres (fun m : FCM ℝ => Headed m ∧ m.view = m1.view) (initAll v cs)
  | [], _ => Pres.pure _
  | c :: cs, h => by
    unfold initAll
    refine Pres.bind (fun m hm => ⟨?_, ?_⟩) fun _ => initAll_headed cs fun d hd => h d (by simp [hd])
    · refine initConcept_headed hm.1 fun n f hn hf => .inr ?_
      have := view_get hm.2 c
      rw [hn] at this
      obtain ⟨n1, e1, e2⟩ := Option.map_eq_some_iff.1 this.symm
      have h1 : n1.fn = n.fn := (congrArg Node.fn e2 :)
      have h2 : n1.fuzzyAct = n.fuzzyAct := (congrArg Node.fuzzyAct e2 :)
      have := h c (by simp) n1 f e1 (h1.trans hf)
      rwa [h2] at this
    · exact (initConcept_quiet m c v false m (.refl m)).view.trans hm.2

/-- C102 with either engine and the library's own discretization: calls of `predict` and `score` may have raised. -/
theorem C102_own_partial {env : ClusterEnv ℝ} (he : Spec.Env env) {s : String} (hs : Spec.Strategy s) {cfg : GenConf ℝ}
    (hi : cfg.inferType = true) {x : Ext ℝ} {xs ys : List (String × Column ℝ)} {e0 e e1 e2 : Estimator ℝ} {b : Bool}
    (hn : Spec.New e0) (h : Spec.Hist cfg e0 b e) (hx : ∀ l, (x.order l).Perm l)
    (hr : Spec.Readable cfg (x.standard env s) (xs ++ ys))
    (hf : Estimator.fit cfg (x.standard env s) xs ys e = (.ok (), e1)) (hsince : Spec.Since cfg e1 e2)
    (hfn : e0.fcm.default.fn.name ≠ "fuzzy") (x' : Ext ℝ) (xs' ys' : List (String × Column ℝ)) :
    (Estimator.fit cfg x' xs' ys' e2).1 = (Estimator.fit cfg x' xs' ys' e0).1 := by
  have hready : Spec.Ready cfg e0 e2 := by
    clear hr
    induction hsince with
    | start => exact .fit h _ _ _ hf
    | predict _ x rows ih => exact ih.predict x rows
    | score _ x rows y ih => exact ih.score x rows y
  have hok := (hready.hist.ok hn).1
  have hset := hok.settings
  cases hd : e0.fcm.debug with
  | true => exact C102_iterative_partial hn hready hd x' xs' ys'
  | false =>
  have hj := joinColumns_disjoint hr.columns
  have hkeys := (C55_refit (x := x.standard env s) hn h hx (hj ▸ hr.columns) hf).2.2
  obtain ⟨hc1, -, -, hfit⟩ := fit_fitted (x := x.standard env s) hn h hx (hj ▸ hr) hf
  rw [hj] at hfit hkeys
  have hnode : ∀ c n f, e1.fcm.topology.get? c = some n → n.fn = some f → f = e0.fcm.default.fn ∨ f.name = "fuzzy" ∧
      ∀ v fa a, n.fuzzyAct = some fa → fuzzySet v fa.membership fa.valList = .ok a → a ≠ 2 := by
    intro c n f hcn hfn'
    obtain ⟨n', f', g1, g2, g3⟩ := fitted_range he hs hi hn h hx hr hf (Dict.mem_keys_of_get? hcn)
    rw [hcn] at g1
    cases g1
    rw [hfn'] at g2
    cases g2
    refine g3.imp id ?_
    rintro ⟨-, g4, -, fa, g5, g6⟩
    refine ⟨g4, fun v fa' a ha hfa => ?_⟩
    rw [g5] at ha
    cases ha
    obtain ⟨a', ha', -, h2⟩ := g6 v
    rw [hfa] at ha'
    cases ha'
    linarith
  have hcont : ∀ q ∈ xs ++ ys, q.2.isDiscrete cfg = false → ∀ c, Spec.ConceptOf cfg (x.standard env s) q c →
      ∀ n f, e1.fcm.topology.get? c = some n → n.fn = some f → f.name = "fuzzy" := by
    intro q hq hdq c hc n f hcn hfn'
    obtain ⟨_, _, _, _, _, _, _, _, _, _, _, h0⟩ := hn
    obtain ⟨n', f', g', k1, -, -, -, -, -, k2⟩ := C95_concepts (x := x.standard env s) h0 h hx (hj ▸ hr) hf (hj ▸ hq) hc
    rw [hdq] at k2
    obtain ⟨⟨args, k3⟩, -⟩ := k2
    rw [hcn] at k1
    cases k1
    rw [hfn'] at k3
    cases k3
    rfl
  have hby : ∀ (z : Ext ℝ) feat u, Pres (fun m : FCM ℝ => (Inv m ∧ Headed m) ∧ m.view = e1.fcm.view)
      (initByFeature cfg z e1.features feat u) := by
    intro z feat u m hm
    have hinv : Inv (initByFeature cfg z e1.features feat u m).2 :=
      initByFeature_pres (fun c v r => Op.pres (.initConcept c v r)) cfg z e1.features feat u m hm.1.1
    suffices hb : Pres (fun m : FCM ℝ => Headed m ∧ m.view = e1.fcm.view) (initByFeatureBody cfg z e1.features feat u) by
      have h1 := hb m ⟨hm.1.2, hm.2⟩
      refine ⟨⟨hinv, ?_⟩, ?_⟩
      · unfold initByFeature
        split <;> rename_i h <;> rw [h] at h1 <;> exact h1.1
      · unfold initByFeature
        split <;> rename_i h <;> rw [h] at h1 <;> exact h1.2
    unfold initByFeatureBody
    by_cases hm' : feat ∈ (xs ++ ys).map (·.1)
    · obtain ⟨q, hq, rfl⟩ := List.mem_map.1 hm'
      obtain ⟨F, cs, hF⟩ := hfit q hq
      have hfo := hF.feat
      have hnames := mem_names hfo
      rw [hF.get]
      intro m0 hm0
      rw [PyM.run_bind]
      simp only [need, PyM.run_lift]
      revert m0
      change Pres _ _
      refine Pres.ite (fun hfz => ?_) fun _ => ?_
      · refine Pres.bind (Pres.lift _) fun v => initAll_headed _ fun c hc n f hcn hfn' => ?_
        have hdq : q.2.isDiscrete cfg = false := by
          unfold FeatureOf at hfo
          split at hfo
          · rw [hfo.1] at hfz
            split at hfz <;> cases hfz
          · exact Bool.eq_false_iff.2 ‹_›
        have hfz' := hcont q hq hdq c ((hnames c).1 hc) n f hcn hfn'
        rcases hnode c n f hcn hfn' with rfl | ⟨-, k⟩
        · exact absurd hfz' hfn
        · exact ⟨hfz', k v⟩
      · refine Pres.bind (Pres.lift _) fun k m hm => ⟨?_, ?_⟩
        · refine initConcept_headed hm.1 fun n f hn hf => ?_
          have := view_get hm.2 (nameConcept cfg q.1 k)
          rw [hn] at this
          obtain ⟨n1, e1, e2⟩ := Option.map_eq_some_iff.1 this.symm
          have h1 : n1.fn = n.fn := (congrArg Node.fn e2 :)
          have h2 : n1.fuzzyAct = n.fuzzyAct := (congrArg Node.fuzzyAct e2 :)
          rcases hnode _ n1 f e1 (h1.trans hf) with rfl | ⟨k1, k2⟩
          · exact .inl ⟨hfn, by norm_num [lit]⟩
          · exact .inr ⟨k1, by rw [← h2]; exact k2 _⟩
        · exact (initConcept_quiet m _ _ _ m (.refl m)).view.trans hm.2
    · rw [(Dict.get?_eq_none_iff _ _).2 (by rw [hkeys]; exact hm')]
      intro m hm
      exact hm
  have key : (Inv e2.fcm ∧ Headed e2.fcm) ∧ e2.fcm.view = e1.fcm.view ∧ e2.features = e1.features := by
    have step : ∀ (z : Ext ℝ) rows (k : Estimator ℝ), (Inv k.fcm ∧ Headed k.fcm) ∧ k.fcm.view = e1.fcm.view ∧
        k.features = e1.features → (Inv (Estimator.predict cfg z rows k).2.fcm ∧ Headed (Estimator.predict cfg z rows k).2.fcm) ∧
        (Estimator.predict cfg z rows k).2.fcm.view = e1.fcm.view ∧
        (Estimator.predict cfg z rows k).2.features = e1.features := by
      intro z rows k hk
      rcases predict_snd cfg z rows k with h1 | ⟨h1, -⟩
      · rw [h1]; exact hk
      · rw [h1]
        have := predictRows_by (hby z)
          (fun m hm => ⟨clear_headed (by norm_num [lit]) m hm.1, (clear_quiet m).view.trans hm.2⟩)
          (fun m hm => ⟨run_headed m hm.1, (run_view true m).trans hm.2⟩) rows k.fcm ⟨hk.1, hk.2.1⟩
        rw [hk.2.2]
        exact ⟨this.1, this.2, rfl⟩
    clear hready hok hset
    induction hsince with
    | start =>
      have hset := (fit_est (h.ok hn).1 hf).1.settings
      refine ⟨⟨hc1.inv, (congrArg FCM.debug hset :).trans hd, ?_⟩, rfl, rfl⟩
      intro c hc
      obtain ⟨v, rest, hv⟩ := hc1.exe c hc
      have := fit_zeroed (h.ok hn).1 hf c _ hv
      cases this
      exact ⟨_, _, hv, by norm_num [lit]⟩
    | predict _ x rows ih => exact step x rows _ ih
    | score _ x rows y ih => rw [score_snd]; exact step x rows _ ih
  exact fit_again hn hok (hready.priv hn) key.1.2.started x' xs' ys'

/-- C66 for an estimator in use: every complete table can be learned again. -/
theorem C66_refits {env : ClusterEnv ℝ} (he : Spec.Env env) {s : String} (hs : Spec.Strategy s) {cfg : GenConf ℝ}
    (hi : cfg.inferType = true) (hcfg : Spec.Safe cfg) {x x' : Ext ℝ} (hx : ∀ l, (x.order l).Perm l)
    (hx' : ∀ l, (x'.order l).Perm l) {maxIt extra : Int} {stab : Bool} {diff : ℝ} {dc : String} {mem : Bool} {act : String}
    {kwargs : Args ℝ} {exc : String} {vec fit : Bool} {e0 e e1 e2 : Estimator ℝ} {b : Bool} {xs ys : List (String × Column ℝ)}
    (h0 : Estimator.new (FCM.new maxIt extra stab diff dc mem act kwargs) exc vec fit = .ok e0)
    (hk : ∃ v, processFunctionArgs kwargs = .ok v) (hfn : act ≠ "fuzzy") (h : Spec.Hist cfg e0 b e)
    (hr : Spec.Readable cfg (x.standard env s) (xs ++ ys))
    (hf : Estimator.fit cfg (x.standard env s) xs ys e = (.ok (), e1)) (hsince : Spec.Since cfg e1 e2)
    {xs' ys' : List (String × Column ℝ)} {n : Nat} (hl : ∀ p ∈ xs' ++ ys', (Spec.cells p.2).length = n) :
    ∃ e3, Estimator.fit cfg (x'.standard env s) xs' ys' e2 = (.ok (), e3) := by
  have hn : Spec.New e0 := ⟨_, _, _, _, _, _, _, _, _, _, _, h0⟩
  obtain ⟨e3, h3⟩ := C66_fits he hs hi hcfg hx' h0 hk hl
  obtain ⟨_, _, _, -, -, -, -, -, -, -, -, -, -, -, -, -, -, h15⟩ := new_settings h0
  have := C102_own_partial he hs hi hn h hx hr hf hsince (by rw [h15]; exact hfn) (x'.standard env s) xs' ys'
  rw [h3] at this
  exact ⟨(Estimator.fit cfg (x'.standard env s) xs' ys' e2).2, Prod.ext this rfl⟩

/-! ### Examples -/

/-- Fitting again after predictions. -/
theorem Ex.est2_went : ∃ ps, Estimator.predict Ex.conf Ex.ext Ex.rows Ex.est1 = (.ok ps, Ex.est2) := by
  have h : (Estimator.predict Ex.conf Ex.ext Ex.rows Ex.est1).1.toOption ≠ none := by decide +kernel
  unfold Ex.est2
  revert h
  rcases Estimator.predict Ex.conf Ex.ext Ex.rows Ex.est1 with ⟨_ | ps, e⟩
  · exact fun h => absurd rfl h
  · exact fun _ => ⟨ps, rfl⟩

example : (Estimator.fit Ex.conf Ex.ext Ex.xs Ex.ys2 Ex.est2).1 = (Estimator.fit Ex.conf Ex.ext Ex.xs Ex.ys2 Ex.est0).1 := by
  obtain ⟨ps, h⟩ := Ex.est2_went
  exact C102_returned_partial Ex.est0_new .start Ex.est1_fit (.predict .start _ _ h) Ex.ext Ex.xs Ex.ys2

/-- The same with `vectorized_run=False`, after a prediction that raises. -/
def Ex.slow0 : Estimator ℚ :=
  match Estimator.new (FCM.new (activation := "saturation")) "KOSKO" false true with
  | .ok e => e
  | .error _ => Ex.est0
theorem Ex.slow0_new : Spec.New Ex.slow0 :=
  ⟨200, 5, true, dec 1 1000, "MEAN", true, "saturation", [], "KOSKO", false, true, rfl⟩
def Ex.slow1 : Estimator ℚ := (Estimator.fit Ex.conf Ex.ext Ex.xs Ex.ys Ex.slow0).2
theorem Ex.slow1_fit : Estimator.fit Ex.conf Ex.ext Ex.xs Ex.ys Ex.slow0 = (.ok (), Ex.slow1) :=
  Ex.pair_of _ (by decide +kernel)
def Ex.slow2 : Estimator ℚ := (Estimator.predict Ex.conf Ex.ext [[("height", .str "red")]] Ex.slow1).2
example : (Estimator.predict Ex.conf Ex.ext [[("height", .str "red")]] Ex.slow1).1.toOption = none := by decide +kernel
example := C102_iterative_partial Ex.slow0_new (.predict (.fit .start _ _ _ Ex.slow1_fit) Ex.ext [[("height", .str "red")]]) rfl
  Ex.ext Ex.xs Ex.ys2

/-- Over the reals. -/
example {e1 : Estimator ℝ}
    (hf : Estimator.fit Ex.realConf (Ex.realExt.standard exEnv "cmeans-gap") Ex.xsn Ex.ysn Ex.est0r = (.ok (), e1)) :
    ∃ e3, Estimator.fit Ex.realConf (Ex.realExt.standard exEnv "cmeans-gap") Ex.xsr Ex.ysr
      (Estimator.predict Ex.realConf Ex.realExt [[("size", .int 2)], [("weight", .int 3)]] e1).2 = (.ok (), e3) :=
  C66_refits exEnv_ok (.inl rfl) rfl (safe_default rfl rfl rfl) (x := Ex.realExt) (fun l => .refl _) (fun l => .refl _) Ex.est0r_new
    ⟨[], rfl⟩ (by decide) .start Ex.n_readable hf (.predict .start _ _) (n := 3) (by
      intro p hp
      simp only [Ex.xsr, Ex.ysr, List.cons_append, List.nil_append, List.mem_cons, List.not_mem_nil, or_false] at hp
      rcases hp with rfl | rfl <;> rfl)

/-- Cluster 0 of "b___a" and the value "0___b" of "a" share a concept, which then takes the number 2 as it is; the
vectorised engine stores empty trajectories. -/
def Ex.colX : List (String × Column ℚ) := [("b___a", .floats Ex.tens), ("a", .strs (List.replicate 10 "0___b"))]
def Ex.mixed1 : Estimator ℚ := (Estimator.fit Ex.conf Ex.extF Ex.colX Ex.ysF Ex.est0).2
theorem Ex.mixed1_fit : Estimator.fit Ex.conf Ex.extF Ex.colX Ex.ysF Ex.est0 = (.ok (), Ex.mixed1) :=
  Ex.pair_of _ (by decide +kernel)
def Ex.mixed2 : Estimator ℚ := (Estimator.predict Ex.conf Ex.extF [[("b___a", .float 2)]] Ex.mixed1).2

theorem C102_counterexample : ¬ C102_full ℚ := by
  intro h
  have := h Ex.conf Ex.est0 Ex.mixed2 Ex.est0_new (.predict (.fit .start _ _ _ Ex.mixed1_fit) Ex.extF _) Ex.extF Ex.xsF Ex.ysF
  have h1 : (Estimator.fit Ex.conf Ex.extF Ex.xsF Ex.ysF Ex.mixed2).1.toOption = none := by decide +kernel
  rw [this, Ex.estF_fit] at h1
  cases h1

end PyFCM
