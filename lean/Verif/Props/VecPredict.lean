import Verif.Props.VecNet
import Verif.Props.Reorder
/-
C106: when `predict` returns with the vectorised engine.
-/
namespace PyFCM
open Arith Spec

set_option linter.unusedSectionVars false

/-- The states follow the recurrence from `A` and their sum changes by less than `d` in `extra` consecutive steps, within the first
`bound` states. -/
def Spec.Settles (N : Net ℝ) (cs : List String) (A : String → ℝ) (d : ℝ) (extra : Nat) (bound : Int) : Prop :=
  ∃ x, (∀ c ∈ cs, x 0 c = A c) ∧ Orbit N cs x ∧ ∃ l : Nat, (l : Int) ≤ bound ∧ extra < l ∧
    ∀ s, l - extra ≤ s → s < l → |(cs.map (x s)).sum - (cs.map (x (s - 1))).sum| < d

/-- The activations of the estimator's map once it has been cleared and the row has been entered. -/
def Spec.RowStart {α : Type} [Arith α] (cfg : GenConf α) (x : Ext α) (e : Estimator α) (row : List (String × Cell α))
    (A : String → α) : Prop :=
  ∃ m1 m2, FCM.clearExecution e.fcm = (.ok (), m1) ∧ initRow cfg x e.features row m1 = (.ok (), m2) ∧
    ∀ c ∈ e.fcm.topology.keys, A c = at' m2.traj 0 c

/-- All recorded activations start in [-1,1]. -/
def Mild (m : FCM ℝ) : Prop := ∀ c a as, m.execution.get? c = some (a :: as) → -1 ≤ a ∧ a ≤ 1

theorem Mild.set {m : FCM ℝ} (h : Mild m) (c : String) {a : ℝ} (h1 : -1 ≤ a) (h2 : a ≤ 1) (t : Dict (Node ℝ)) :
    Mild { m with topology := t, execution := m.execution.set c [a] } := by
  intro d b bs hb
  change (m.execution.set c [a]).get? d = _ at hb
  by_cases e : c = d
  · subst e
    rw [Dict.get?_set_self] at hb
    cases hb
    exact ⟨h1, h2⟩
  · rw [Dict.get?_set_ne _ _ e] at hb
    exact h d b bs hb

theorem net_of_view {α : Type} [Arith α] {m n : FCM α} (h : m.view = n.view) : m.net = n.net := by
  unfold FCM.net
  congr 1
  · funext c
    have := view_get h c
    cases ha : m.topology.get? c with
    | none =>
      rw [ha] at this
      cases hb : n.topology.get? c with
      | none => rfl
      | some b => rw [hb] at this; cases this
    | some a =>
      rw [ha] at this
      cases hb : n.topology.get? c with
      | none => rw [hb] at this; cases this
      | some b =>
        rw [hb] at this
        have e : a.static = b.static := Option.some.inj this
        show a.static.toSpec = b.static.toSpec
        rw [e]
  · rw [view_arcs h]

theorem clear_mild {m m1 : FCM ℝ} (hm : Inv m) (h : FCM.clearExecution m = (.ok (), m1)) : Mild m1 := by
  have i1 : Inv m1 := by have := Op.clearExecution.pres m hm; simp only [Op.run] at this; rwa [h] at this
  obtain ⟨-, kt, -, -, hin⟩ := forEach_touch ClearRel clearOne_touch hm.tnd h
  intro c a as hc
  have hk : c ∈ m.topology.keys := by rw [← kt]; exact i1.sub c (Dict.mem_keys_of_get? hc)
  obtain ⟨n, hn⟩ := Dict.exists_get?_of_mem hk
  have := hin c hk
  rw [hn] at this
  rw [this.2] at hc
  cases hc
  norm_num [Arith.lit]

section fitted

variable {env : ClusterEnv ℝ} {s : String} {cfg : GenConf ℝ} {x x' : Ext ℝ} {xs ys : List (String × Column ℝ)}
  {e0 e e1 : Estimator ℝ} {b : Bool}

theorem initByFeature_mild (he : Spec.Env env) (hs : Spec.Strategy s) (hi : cfg.inferType = true)
    (hn : Spec.New e0) (h : Spec.Hist cfg e0 b e) (hx : ∀ l, (x.order l).Perm l)
    (hr : Spec.Readable cfg (x.standard env s) (xs ++ ys))
    (hf : Estimator.fit cfg (x.standard env s) xs ys e = (.ok (), e1)) (hfn : e0.fcm.default.fn.name ≠ "fuzzy")
    {q : String × Column ℝ} (hq : q ∈ xs ++ ys) (u : Cell ℝ) :
    Pres (fun m : FCM ℝ => m.view = e1.fcm.view ∧ Mild m) (initByFeature cfg x' e1.features q.1 u) := by
  have hj := joinColumns_disjoint hr.columns
  obtain ⟨-, -, hk, hfit⟩ := fit_fitted (x := x.standard env s) hn h hx (hj ▸ hr) hf
  rw [hj] at hk hfit
  obtain ⟨F, cs, hF⟩ := hfit q hq
  have hfo := hF.feat
  have hone : ∀ (c : String) (v : ℝ), (-1 ≤ v ∧ v ≤ 1 ∨ ∃ q ∈ xs ++ ys, q.2.isDiscrete cfg = false ∧
        Spec.ConceptOf cfg (x.standard env s) q c) →
      Pres (fun m : FCM ℝ => m.view = e1.fcm.view ∧ Mild m) (FCM.initConcept c v false) := by
    intro c v hv m ⟨h1, h2⟩
    have hq' := initConcept_quiet m c v false m (.refl m)
    refine ⟨hq'.view.trans h1, ?_⟩
    by_cases hc : c ∈ m.topology.keys
    · obtain ⟨n, hcn⟩ := Dict.exists_get?_of_mem hc
      have hck : c ∈ e1.fcm.topology.keys := by rw [← view_keys h1]; exact hc
      have hvw := view_get h1 c
      rw [hcn] at hvw
      by_cases hcont : ∃ q ∈ xs ++ ys, q.2.isDiscrete cfg = false ∧ Spec.ConceptOf cfg (x.standard env s) q c
      · obtain ⟨q, hq, hd, hqc⟩ := hcont
        obtain ⟨n1, f, g1, g2, g3⟩ := fitted_of he hs hi hn h hx hr hf hq hqc
        rcases g3 with ⟨g3, -⟩ | ⟨-, g4, -, -, fa, g5, g6⟩
        · rw [hd] at g3; cases g3
        obtain ⟨a, ha, ha1, ha2⟩ := g6 v
        rw [g1] at hvw
        have e := Option.some.inj hvw
        rw [initConcept_fuzzy hcn ((congrArg Node.fn e :).trans g2) g4 ((congrArg Node.fuzzyAct e :).trans g5) ha]
        exact h2.set c ha1 ha2 _
      · rcases hv with hv | hv
        · obtain ⟨n1, f, g1, g2, g3⟩ := fitted_range he hs hi hn h hx hr hf hck
          rcases g3 with rfl | ⟨g3, -⟩
          · rw [g1] at hvw
            have e := Option.some.inj hvw
            rw [initConcept_plain v hcn ((congrArg Node.fn e :).trans g2) hfn]
            exact h2.set c hv.1 hv.2 _
          · exact absurd g3 hcont
        · exact absurd hv hcont
    · unfold FCM.initConcept
      rw [(Dict.get?_eq_none_iff _ _).2 hc]
      exact h2
  have hbody : Pres (fun m : FCM ℝ => m.view = e1.fcm.view ∧ Mild m) (initByFeatureBody cfg x' e1.features q.1 u) := by
    intro m hm
    unfold initByFeatureBody
    rw [PyM.run_bind, hF.get]
    simp only [need, PyM.run_lift]
    unfold FeatureOf at hfo
    split at hfo
    · obtain ⟨ht, -⟩ := hfo
      rw [if_neg (by rw [ht]; split <;> decide)]
      exact Pres.bind (Pres.lift _) (fun k => hone _ _ (.inl ⟨by norm_num [Arith.lit], by norm_num [Arith.lit]⟩)) m hm
    · rename_i hd
      have hd : q.2.isDiscrete cfg = false := by simpa using hd
      obtain ⟨n, vl, memb, -, -, ht, -⟩ := hfo
      rw [if_pos (by rw [ht]; split <;> decide)]
      have : ∀ v, ∀ cs : List String, (∀ c ∈ cs, c ∈ F.names) →
          Pres (fun m : FCM ℝ => m.view = e1.fcm.view ∧ Mild m) (initAll v cs) := by
        intro v cs
        induction cs with
        | nil => exact fun _ => Pres.pure _
        | cons c cs ih =>
          intro hc
          unfold initAll
          exact Pres.bind (hone c v (.inr ⟨q, hq, hd, (mem_names hF.feat c).1 (hc c (by simp))⟩))
            fun _ => ih fun d hd => hc d (by simp [hd])
      exact Pres.bind (Pres.lift _) (fun v => this v _ fun _ h => h) m hm
  intro m hm
  have := hbody m hm
  unfold initByFeature
  rcases hc : initByFeatureBody cfg x' e1.features q.1 u m with ⟨er | ⟨⟩, m1⟩ <;> rw [hc] at this <;> exact this

/-- Entering a usable row. -/
theorem started (he : Spec.Env env) (hs : Spec.Strategy s) (hi : cfg.inferType = true)
    (hn : Spec.New e0) (h : Spec.Hist cfg e0 b e) (hx : ∀ l, (x.order l).Perm l)
    (hr : Spec.Readable cfg (x.standard env s) (xs ++ ys))
    (hf : Estimator.fit cfg (x.standard env s) xs ys e = (.ok (), e1)) (hfn : e0.fcm.default.fn.name ≠ "fuzzy")
    {m : FCM ℝ} (hm : Sound m) (hv : m.view = e1.fcm.view) {row : List (String × Cell ℝ)}
    (hrow : Spec.UsableRow cfg x' (xs ++ ys) row) :
    ∃ m1 m2, FCM.clearExecution m = (.ok (), m1) ∧ initRow cfg x' e1.features row m1 = (.ok (), m2) ∧ Calm m m2 ∧
      CleanInv m2 ∧ Mild m2 := by
  have hj := joinColumns_disjoint hr.columns
  obtain ⟨hc1, -, hk, hfit⟩ := fit_fitted (x := x.standard env s) hn h hx (hj ▸ hr) hf
  obtain ⟨m1, h1⟩ := clear_total m
  have qk : Quiet m m1 := by have := clear_quiet m; rwa [h1] at this
  have ik : Inv m1 := by have := Op.clearExecution.pres m hm.inv; simp only [Op.run] at this; rwa [h1] at this
  have ck : Calm m m1 := ⟨hm.quiet ik qk (clear_ekeys hm h1), qk, clear_ekeys hm h1⟩
  have hinit : ∀ (row : List (String × Cell ℝ)) (k : FCM ℝ), k.view = e1.fcm.view → Mild k →
      Spec.UsableRow cfg x' (xs ++ ys) row → ∃ k', initRow cfg x' e1.features row k = (.ok (), k') ∧ Mild k' := by
    intro row
    induction row with
    | nil => exact fun k _ hk _ => ⟨k, rfl, hk⟩
    | cons p row ih =>
      intro k hkv hkm hp
      obtain ⟨q, hq, eq, hu⟩ := hp p (by simp)
      obtain ⟨k1, hk1⟩ := initByFeature_fits he hs hi hn h hx hr hf hfn hq hu hkv
      have hpr := initByFeature_mild (x' := x') he hs hi hn h hx hr hf hfn hq p.2 k ⟨hkv, hkm⟩
      rw [hk1] at hpr
      obtain ⟨k2, hk2, hk3⟩ := ih k1 hpr.1 hpr.2 fun p hp' => hp p (by simp [hp'])
      refine ⟨k2, ?_, hk3⟩
      unfold initRow
      simp only [PyM.forEach]
      rw [← eq, hk1]
      exact hk2
  obtain ⟨m2, h2, h3⟩ := hinit row m1 (qk.view.trans hv) (clear_mild hm.inv h1) hrow
  have ck2 := ck.trans (initRow_calm ck.sound h2)
  have hv2 : m2.view = e1.fcm.view := ck2.quiet.view.trans hv
  have hrec : Recorded m2 := by
    have : Pres Recorded (initRow cfg x' e1.features row) := Pres.forEach fun p _ =>
      initByFeature_pres initConcept_recorded cfg x' e1.features p.1 p.2
    have := this m1 (clear_recorded hm.inv h1)
    rwa [h2] at this
  exact ⟨m1, m2, h1, h2, ck2, ⟨ck2.sound.inv, good_view hc1.good hv2, hrec⟩, h3⟩

/-- One row: `predict` returns exactly if the run from the state set by the row settles. -/
theorem predictRow_vec (he : Spec.Env env) (hs : Spec.Strategy s) (hi : cfg.inferType = true)
    (hn : Spec.New e0) (h : Spec.Hist cfg e0 b e) (hx : ∀ l, (x.order l).Perm l)
    (hr : Spec.Readable cfg (x.standard env s) (xs ++ ys))
    (hf : Estimator.fit cfg (x.standard env s) xs ys e = (.ok (), e1)) (hfn : e0.fcm.default.fn.name ≠ "fuzzy")
    (hargs : ProperArgs e0.fcm.default.fn) (htame : TameArgs e0.fcm.default.fn) (hdbg : e0.fcm.debug = false)
    (hdec : e0.fcm.decisionName ≠ "EXITED") (hne : e1.fcm.topology ≠ [])
    {m : FCM ℝ} (hm : Sound m) (hv : m.view = e1.fcm.view) (hb : m.bare = e0.fcm.bare) {row : List (String × Cell ℝ)}
    (hrow : Spec.UsableRow cfg x' (xs ++ ys) row) :
    (∃ p m', predictRow cfg x' e1.features row m = (.ok p, m')) ↔ ∃ A, RowStart cfg x' e1 row A ∧
      Settles e1.fcm.net.vector e1.fcm.topology.keys A e0.fcm.stabilityDiff e0.fcm.extraSteps e0.fcm.maxIter := by
  have hj := joinColumns_disjoint hr.columns
  obtain ⟨hc1, hs1, hk, hfit⟩ := fit_fitted (x := x.standard env s) hn h hx (hj ▸ hr) hf
  rw [hj] at hk hfit
  have hb1 : e1.fcm.bare = e0.fcm.bare := ((h.fit (x.standard env s) xs ys hf).ok hn).1.settings
  obtain ⟨m1, m2, h1, h2, hcalm, hclean, hmild⟩ := started (x' := x') he hs hi hn h hx hr hf hfn hm hv hrow
  obtain ⟨k1, k2, g1, g2, gcalm, -, -⟩ := started (x' := x') he hs hi hn h hx hr hf hfn hs1 rfl hrow
  have hv2 : m2.view = e1.fcm.view := hcalm.quiet.view.trans hv
  have hkeys := view_keys hv2
  have hb2 : m2.bare = e0.fcm.bare := by
    have := hcalm.quiet.eq
    rw [this]
    exact hb
  have hrecs : Recs m2 k2 := by
    have hmir : Mirror m e1.fcm :=
      (⟨rfl, .refl _, fun _ => rfl⟩ : Mirror m m).of rfl rfl hv.symm (hb1.trans hb.symm)
    obtain ⟨mk, rk⟩ := clear_mirror hmir hm.inv hs1.inv h1 g1
    obtain ⟨-, -, rk2⟩ := initRow_side cfg x' (fun f => rfl) row m1 k1 mk rk
    rw [h2, g2] at rk2
    exact rk2
  have hat : ∀ c, at' k2.traj 0 c = at' m2.traj 0 c := by
    intro c
    unfold at' FCM.traj
    rw [hrecs c]
  have hnode : ∀ c n f, m2.topology.get? c = some n → n.fn = some f → ProperArgs f ∧ TameArgs f := by
    intro c n f hc hfc
    have hck : c ∈ e1.fcm.topology.keys := by rw [← hkeys]; exact Dict.mem_keys_of_get? hc
    obtain ⟨q, hq, hqc⟩ := hk c hck
    obtain ⟨n1, f1, g1, g2, g3⟩ := fitted_of he hs hi hn h hx hr hf hq hqc
    have := view_get hv2 c
    rw [hc, g1] at this
    have e := (congrArg Node.fn (Option.some.inj this) :).trans g2
    have e : n.fn = some f1 := e
    rw [hfc] at e
    cases e
    rcases g3 with ⟨-, rfl⟩ | ⟨-, -, g4, g5, -⟩
    · exact ⟨hargs, htame⟩
    · exact ⟨g4, g5⟩
  have hkw : KwArgs m2 := fun c n f a b => (hnode c n f a b).1.kw
  have hstart : ∀ c ∈ m2.topology.keys, -1 ≤ at' m2.traj 0 c ∧ at' m2.traj 0 c ≤ 1 := by
    intro c hc
    obtain ⟨a, as, ha⟩ := hclean.exe c hc
    have := hmild c a as ha
    unfold at' FCM.traj
    rw [ha]
    exact this
  obtain ⟨z, z0, zo, zr⟩ := vec_orbit hclean hnode hstart
  have hne2 : m2.topology ≠ [] := fun e => hne (by
    have := hkeys
    rw [e] at this
    cases ht : e1.fcm.topology with
    | nil => rfl
    | cons p t => rw [ht] at this; cases this)
  have hret : ∀ z, (∀ k ∈ m2.topology.keys, z 0 k = at' m2.traj 0 k) → Orbit m2.net.vector m2.topology.keys z →
      ((FCM.runInference true m2).1 = .ok () ↔ ∃ l : Nat, (l : Int) ≤ e0.fcm.maxIter ∧ e0.fcm.extraSteps < l ∧
        ∀ s, l - e0.fcm.extraSteps ≤ s → s < l →
          |(m2.topology.keys.map (z s)).sum - (m2.topology.keys.map (z (s - 1))).sum| < e0.fcm.stabilityDiff) := by
    intro z z0 zo
    have zr : ∀ t, ∀ k ∈ m2.topology.keys, -1 ≤ z t k ∧ z t k ≤ 1 := by
      intro t k hk
      cases t with
      | zero => rw [z0 k hk]; exact hstart k hk
      | succ t =>
        obtain ⟨v, hv, hv'⟩ := next_vector_real hclean hnode (z t) hk
        rw [zo t k hk] at hv
        cases hv
        exact hv'
    have hret := vec_returns hclean hcalm.sound.coherent ((congrArg FCM.debug hb2 :).trans hdbg) hne2 hkw
      (by rw [show m2.decisionName = _ from (congrArg FCM.decisionName hb2 :)]; exact hdec) z0 zo (not_two zr)
    rw [show m2.maxIter = e0.fcm.maxIter from (congrArg FCM.maxIter hb2 :),
      show m2.extraSteps = e0.fcm.extraSteps from (congrArg FCM.extraSteps hb2 :),
      show m2.stabilityDiff = e0.fcm.stabilityDiff from (congrArg FCM.stabilityDiff hb2 :)] at hret
    simpa only [level_real] using hret
  have hrun : (∃ p m', predictRow cfg x' e1.features row m = (.ok p, m')) ↔ (FCM.runInference true m2).1 = .ok () := by
    constructor
    · rintro ⟨p, m', hp⟩
      obtain ⟨k, k2, a1, a2, a3⟩ := predictRow_ok hp
      rw [h1] at a1
      cases a1
      rw [h2] at a2
      cases a2
      rw [(inferenceResult_ok a3).1]
    · intro hok
      rcases h3 : FCM.runInference true m2 with ⟨r, m3⟩
      rw [h3] at hok
      cases (hok : r = _)
      have hv3 : m3.view = e1.fcm.view := by have := run_view true m2; rw [h3] at this; exact this.trans hv2
      have hcl3 : CleanInv m3 := (Op.runInference true).clean hclean h3
      obtain ⟨st, hst, -, hmem⟩ := final_state_of hcl3.inv hcl3.sameKeys (fun c n hn => (hcl3.good c n hn).full.type) "target" []
      obtain ⟨gr, hgr⟩ := groupResult_total (cfg := cfg) (fs := e1.features) st [] (by
        intro c v hcv
        obtain ⟨n, ty, hn', -⟩ := (hmem c v).1 hcv
        have hck : c ∈ e1.fcm.topology.keys := by rw [← view_keys hv3]; exact Dict.mem_keys_of_get? hn'
        obtain ⟨q, hq, hqc⟩ := hk c hck
        obtain ⟨i, hi⟩ := hqc.parse hr hq
        obtain ⟨F, cs, hF⟩ := hfit q hq
        exact ⟨q.1, i, F, hi, hF.get⟩)
      obtain ⟨p, hp⟩ := discreteResult_total gr (groupResult_nonempty st [] gr hgr (by simp))
      refine ⟨p, m3, ?_⟩
      unfold predictRow
      rw [PyM.run_bind, h1]
      dsimp only
      rw [PyM.run_bind, h2]
      dsimp only
      unfold inferenceResult
      rw [PyM.run_bind, h3]
      dsimp only
      rw [PyM.run_bind, PyM.run_get]
      dsimp only
      rw [PyM.run_bind, PyM.run_lift, hst]
      dsimp only
      rw [PyM.run_bind, PyM.run_lift, hgr]
      dsimp only
      rw [PyM.run_lift, hp]
  rw [hrun]
  rw [net_of_view hv2, hkeys] at hret zo
  rw [hkeys] at z0
  constructor
  · intro hok
    exact ⟨at' k2.traj 0, ⟨k1, k2, g1, g2, fun _ _ => rfl⟩, z, fun c hc => (z0 c hc).trans (hat c).symm, zo, (hret z z0 zo).1 hok⟩
  · rintro ⟨A, ⟨j1, j2, f1, f2, hA⟩, w, w0, wo, hw⟩
    rw [g1] at f1
    cases f1
    rw [g2] at f2
    cases f2
    exact (hret w (fun c hc => (w0 c hc).trans ((hA c hc).trans (hat c))) wo).2 hw

end fitted

/-- C106: with the vectorised engine `predict` returns exactly if every value of every row can be used for a column of the training
data and, for every row, the recurrence started from the activations set by the row settles within `max_iter` states. -/
theorem C106_predicts {env : ClusterEnv ℝ} (he : Spec.Env env) {s : String} (hs : Spec.Strategy s) {cfg : GenConf ℝ}
    (hi : cfg.inferType = true) {x x' : Ext ℝ} {xs ys : List (String × Column ℝ)} {maxIt extra : Int} {stab : Bool} {diff : ℝ}
    {dc : String} {mem : Bool} {act : String} {kwargs : Args ℝ} {exc : String} {fit : Bool} {e0 e e1 e2 : Estimator ℝ} {b : Bool}
    (h0 : Estimator.new (FCM.new maxIt extra stab diff dc mem act kwargs) exc true fit = .ok e0)
    (h : Spec.Hist cfg e0 b e) (hx : ∀ l, (x.order l).Perm l) (hr : Spec.Readable cfg (x.standard env s) (xs ++ ys))
    (hf : Estimator.fit cfg (x.standard env s) xs ys e = (.ok (), e1)) (hsince : Spec.Since cfg e1 e2)
    (hfn : act ≠ "fuzzy") (hargs : ∀ f, Activation.getFunctionByName act = some f →
      ProperArgs ⟨f, act, kwargs⟩ ∧ TameArgs ⟨f, act, kwargs⟩)
    (hdec : dc ≠ "EXITED") (hne : e1.fcm.topology ≠ []) (rows : List (List (String × Cell ℝ))) :
    (∃ ps e3, Estimator.predict cfg x' rows e2 = (.ok ps, e3)) ↔
      ∀ r ∈ rows, Spec.UsableRow cfg x' (xs ++ ys) r ∧ ∃ A, RowStart cfg x' e1 r A ∧
        Settles e1.fcm.net.vector e1.fcm.topology.keys A diff (if extra > 0 then extra.toNat else 1) maxIt := by
  have hn : Spec.New e0 := ⟨_, _, _, _, _, _, _, _, _, _, _, h0⟩
  obtain ⟨d, f, g, h1, h2, h3, h4, h5, -, h7, -, h9, -, h11, -, -, -, h15⟩ := new_settings h0
  obtain ⟨hok, hgen⟩ := (hsince.hist h hf).ok hn
  have hj := joinColumns_disjoint hr.columns
  obtain ⟨-, hs1, -⟩ := fit_fitted (x := x.standard env s) hn h hx (hj ▸ hr) hf
  have hs2 := hsince.sound hs1
  obtain ⟨hfe, hv⟩ := hsince.same
  have key : ∀ (rows : List (List (String × Cell ℝ))) (m : FCM ℝ), Sound m → m.view = e1.fcm.view → m.bare = e0.fcm.bare →
      ((∃ ps m', predictRows cfg x' e1.features rows m = (.ok ps, m')) ↔
      ∀ r ∈ rows, Spec.UsableRow cfg x' (xs ++ ys) r ∧ ∃ A, RowStart cfg x' e1 r A ∧
        Settles e1.fcm.net.vector e1.fcm.topology.keys A e0.fcm.stabilityDiff e0.fcm.extraSteps e0.fcm.maxIter) := by
    intro rows
    induction rows with
    | nil => exact fun m _ _ _ => ⟨fun _ => by simp, fun _ => ⟨[], m, rfl⟩⟩
    | cons r rows ih =>
      intro m hm hmv hmb
      have hone := fun hru : Spec.UsableRow cfg x' (xs ++ ys) r =>
        predictRow_vec (x' := x') he hs hi hn h hx hr hf (by rw [h15]; exact hfn) (by rw [h15]; exact (hargs f h2).1)
          (by rw [h15]; exact (hargs f h2).2) (by rw [h11]; rfl) (by rw [h9]; exact hdec) hne hm hmv hmb hru
      have hnext : ∀ p m1, predictRow cfg x' e1.features r m = (.ok p, m1) →
          Sound m1 ∧ m1.view = e1.fcm.view ∧ m1.bare = e0.fcm.bare := by
        intro p m1 hp
        obtain ⟨hs', ht', -⟩ := predictRow_calm hm hp
        refine ⟨hs', ht'.view.trans hmv, ?_⟩
        have := predictRow_pres (initConcept_bare e0.fcm) (clear_bare e0.fcm) (run_bare e0.fcm true) cfg x' e1.features r m hmb
        rwa [hp] at this
      constructor
      · rintro ⟨ps, m', hps⟩
        unfold predictRows at hps
        obtain ⟨p, m1, hp, hps⟩ := bind_okP hps
        obtain ⟨ps', m2, hps', hps⟩ := bind_okP hps
        obtain ⟨a1, a2, a3⟩ := hnext p m1 hp
        have hrest := (ih m1 a1 a2 a3).1 ⟨ps', m2, hps'⟩
        have hru : Spec.UsableRow cfg x' (xs ++ ys) r := by
          by_contra hru
          obtain ⟨m', hp'⟩ := predictRow_refused (x := x.standard env s) hn h hx hr hf hru m
          rw [hp'] at hp
          cases hp
        intro r' hr'
        rcases List.mem_cons.1 hr' with rfl | hr'
        · exact ⟨hru, (hone hru).1 ⟨p, m1, hp⟩⟩
        · exact hrest r' hr'
      · intro hall
        obtain ⟨hru, hset⟩ := hall r (by simp)
        obtain ⟨p, m1, hp⟩ := (hone hru).2 hset
        obtain ⟨a1, a2, a3⟩ := hnext p m1 hp
        obtain ⟨ps, m', hps⟩ := (ih m1 a1 a2 a3).2 fun r' hr' => hall r' (by simp [hr'])
        refine ⟨p :: ps, m', ?_⟩
        unfold predictRows
        rw [PyM.run_bind, hp]
        dsimp only
        rw [PyM.run_bind, hps]
        rfl
  rw [← h5, ← h4, ← h7, ← key rows e2.fcm hs2 hv hok.settings]
  constructor
  · rintro ⟨ps, e3, hp⟩
    unfold Estimator.predict at hp
    rw [if_pos hgen, hfe] at hp
    rcases hc : predictRows cfg x' e1.features rows e2.fcm with ⟨er | ps', m'⟩ <;> rw [hc] at hp <;> cases hp
    exact ⟨_, _, rfl⟩
  · rintro ⟨ps, m', hps⟩
    refine ⟨ps, { e2 with fcm := m' }, ?_⟩
    unfold Estimator.predict
    rw [if_pos hgen, hfe, hps]

/-- Every usable row sets activations in [-1,1] and the recurrence can be followed from them forever, within [-1,1]. -/
theorem C106_orbit {env : ClusterEnv ℝ} (he : Spec.Env env) {s : String} (hs : Spec.Strategy s) {cfg : GenConf ℝ}
    (hi : cfg.inferType = true) {x x' : Ext ℝ} {xs ys : List (String × Column ℝ)} {maxIt extra : Int} {stab : Bool} {diff : ℝ}
    {dc : String} {mem : Bool} {act : String} {kwargs : Args ℝ} {exc : String} {vec fit : Bool} {e0 e e1 : Estimator ℝ} {b : Bool}
    (h0 : Estimator.new (FCM.new maxIt extra stab diff dc mem act kwargs) exc vec fit = .ok e0)
    (h : Spec.Hist cfg e0 b e) (hx : ∀ l, (x.order l).Perm l) (hr : Spec.Readable cfg (x.standard env s) (xs ++ ys))
    (hf : Estimator.fit cfg (x.standard env s) xs ys e = (.ok (), e1))
    (hfn : act ≠ "fuzzy") (hargs : ∀ f, Activation.getFunctionByName act = some f →
      ProperArgs ⟨f, act, kwargs⟩ ∧ TameArgs ⟨f, act, kwargs⟩)
    {row : List (String × Cell ℝ)} (hrow : Spec.UsableRow cfg x' (xs ++ ys) row) :
    ∃ A z, RowStart cfg x' e1 row A ∧ (∀ c ∈ e1.fcm.topology.keys, z 0 c = A c) ∧
      Orbit e1.fcm.net.vector e1.fcm.topology.keys z ∧ ∀ t, ∀ c ∈ e1.fcm.topology.keys, -1 ≤ z t c ∧ z t c ≤ 1 := by
  have hn : Spec.New e0 := ⟨_, _, _, _, _, _, _, _, _, _, _, h0⟩
  obtain ⟨d, f, g, -, h2, -, -, -, -, -, -, -, -, -, -, -, -, h15⟩ := new_settings h0
  have hj := joinColumns_disjoint hr.columns
  obtain ⟨-, hs1, hk, -⟩ := fit_fitted (x := x.standard env s) hn h hx (hj ▸ hr) hf
  rw [hj] at hk
  obtain ⟨m1, m2, c1, c2, hcalm, hclean, hmild⟩ := started (x' := x') he hs hi hn h hx hr hf (by rw [h15]; exact hfn) hs1 rfl hrow
  have hv2 : m2.view = e1.fcm.view := hcalm.quiet.view
  have hnode : ∀ c n f, m2.topology.get? c = some n → n.fn = some f → ProperArgs f ∧ TameArgs f := by
    intro c n f' hc hfc
    have hck : c ∈ e1.fcm.topology.keys := by rw [← view_keys hv2]; exact Dict.mem_keys_of_get? hc
    obtain ⟨q, hq, hqc⟩ := hk c hck
    obtain ⟨n1, f1, g1, g2, g3⟩ := fitted_of he hs hi hn h hx hr hf hq hqc
    have := view_get hv2 c
    rw [hc, g1] at this
    have e : n.fn = some f1 := (congrArg Node.fn (Option.some.inj this) :).trans g2
    rw [hfc] at e
    cases e
    rcases g3 with ⟨-, rfl⟩ | ⟨-, -, g4, g5, -⟩
    · rw [h15]; exact hargs f h2
    · exact ⟨g4, g5⟩
  have hstart : ∀ c ∈ m2.topology.keys, -1 ≤ at' m2.traj 0 c ∧ at' m2.traj 0 c ≤ 1 := by
    intro c hc
    obtain ⟨a, as, ha⟩ := hclean.exe c hc
    have := hmild c a as ha
    unfold at' FCM.traj
    rw [ha]
    exact this
  obtain ⟨z, z0, zo, zr⟩ := vec_orbit hclean hnode hstart
  rw [view_keys hv2] at z0 zo zr
  rw [net_of_view hv2] at zo
  exact ⟨at' m2.traj 0, z, ⟨m1, m2, c1, c2, fun _ _ => rfl⟩, z0, zo, zr⟩

theorem sum_within (f g : String → ℝ) : ∀ cs : List String, (∀ c ∈ cs, -1 ≤ f c ∧ f c ≤ 1) → (∀ c ∈ cs, -1 ≤ g c ∧ g c ≤ 1) →
    |(cs.map f).sum - (cs.map g).sum| ≤ 2 * cs.length
  | [], _, _ => by simp
  | c :: cs, hf, hg => by
    have ih := sum_within f g cs (fun c h => hf c (by simp [h])) (fun c h => hg c (by simp [h]))
    obtain ⟨a1, a2⟩ := hf c (by simp)
    obtain ⟨b1, b2⟩ := hg c (by simp)
    rw [abs_le] at ih ⊢
    simp only [List.map_cons, List.sum_cons, List.length_cons]
    push_cast
    constructor <;> linarith [ih.1, ih.2]

/-- With a coarse `stability_diff` and enough iterations `predict` returns for all usable rows. -/
theorem C106_coarse {env : ClusterEnv ℝ} (he : Spec.Env env) {s : String} (hs : Spec.Strategy s) {cfg : GenConf ℝ}
    (hi : cfg.inferType = true) {x x' : Ext ℝ} {xs ys : List (String × Column ℝ)} {maxIt extra : Int} {stab : Bool} {diff : ℝ}
    {dc : String} {mem : Bool} {act : String} {kwargs : Args ℝ} {exc : String} {fit : Bool} {e0 e e1 e2 : Estimator ℝ} {b : Bool}
    (h0 : Estimator.new (FCM.new maxIt extra stab diff dc mem act kwargs) exc true fit = .ok e0)
    (h : Spec.Hist cfg e0 b e) (hx : ∀ l, (x.order l).Perm l) (hr : Spec.Readable cfg (x.standard env s) (xs ++ ys))
    (hf : Estimator.fit cfg (x.standard env s) xs ys e = (.ok (), e1)) (hsince : Spec.Since cfg e1 e2)
    (hfn : act ≠ "fuzzy") (hargs : ∀ f, Activation.getFunctionByName act = some f →
      ProperArgs ⟨f, act, kwargs⟩ ∧ TameArgs ⟨f, act, kwargs⟩)
    (hdec : dc ≠ "EXITED") (hne : e1.fcm.topology ≠ []) (hdiff : 2 * (e1.fcm.topology.length : ℝ) < diff) (h1 : 1 < maxIt)
    (h2 : extra < maxIt) {rows : List (List (String × Cell ℝ))} (hrows : ∀ r ∈ rows, Spec.UsableRow cfg x' (xs ++ ys) r) :
    ∃ ps e3, Estimator.predict cfg x' rows e2 = (.ok ps, e3) := by
  rw [C106_predicts (x' := x') he hs hi h0 h hx hr hf hsince hfn hargs hdec hne rows]
  intro r hru
  obtain ⟨A, z, hA, z0, zo, zr⟩ := C106_orbit (x' := x') he hs hi h0 h hx hr hf hfn hargs (hrows r hru)
  refine ⟨hrows r hru, A, hA, z, z0, zo, (if extra > 0 then extra.toNat else 1) + 1, ?_, by omega, fun s _ _ => ?_⟩
  · split <;> omega
  · refine (sum_within _ _ _ (zr s) (zr (s - 1))).trans_lt ?_
    rw [Dict.keys, List.length_map]
    exact hdiff

/-! ### Examples -/

/-- A vectorised estimator with a coarse `stability_diff`. -/
noncomputable def Ex.est0v : Estimator ℝ :=
  match Estimator.new (FCM.new (stabilityDiff := 20) (activation := "sigmoid_hip")) "KOSKO" true false with
  | .ok e => e
  | .error _ => ⟨false, default, none, [], []⟩

theorem Ex.est0v_new : Estimator.new (FCM.new 200 5 true 20 "MEAN" true "sigmoid_hip" []) "KOSKO" true false =
    .ok Ex.est0v := rfl

theorem Ex.v_fits : ∃ e1, Estimator.fit Ex.realConf (Ex.realExt.standard exEnv "cmeans-gap") Ex.xsr Ex.ysr Ex.est0v = (.ok (), e1) :=
  C66_fits exEnv_ok (.inl rfl) rfl (safe_default rfl rfl rfl) (fun l => .refl _) Ex.est0v_new ⟨[], rfl⟩ (n := 3) (by
    intro p hp
    simp only [Ex.xsr, Ex.ysr, List.cons_append, List.nil_append, List.mem_cons, List.not_mem_nil, or_false] at hp
    rcases hp with rfl | rfl <;> rfl)

theorem Ex.v_names {e1 : Estimator ℝ}
    (hf : Estimator.fit Ex.realConf (Ex.realExt.standard exEnv "cmeans-gap") Ex.xsr Ex.ysr Ex.est0v = (.ok (), e1)) :
    e1.fcm.topology ≠ [] ∧ e1.fcm.topology.length ≤ 4 := by
  have hn : Spec.New Ex.est0v := ⟨_, _, _, _, _, _, _, _, _, _, _, Ex.est0v_new⟩
  have hj := joinColumns_disjoint Ex.r_readable.columns
  obtain ⟨hc, -, hk, -⟩ := fit_fitted (x := Ex.realExt.standard exEnv "cmeans-gap") hn .start (fun l => .refl _) (hj ▸ Ex.r_readable) hf
  rw [hj] at hk
  constructor
  · intro e
    obtain ⟨n, f, g, -⟩ := fitted_of exEnv_ok (.inl rfl) rfl hn .start (fun l => .refl _) Ex.r_readable hf
      (q := ("color", .strs ["red", "blue", "red"])) (c := "red___color") (by simp [Ex.xsr])
      (show if true = true then _ else _ from by
        rw [if_pos rfl]; exact ⟨.str "red", by simp [Spec.cells], rfl⟩)
    rw [e] at g
    cases g
  · have hsub : e1.fcm.topology.keys ⊆ ["red___color", "blue___color", "yes___class", "no___class"] := by
      intro c hcm
      obtain ⟨q, hq, hqc⟩ := hk c hcm
      simp only [Ex.xsr, Ex.ysr, List.cons_append, List.nil_append, List.mem_cons, List.not_mem_nil, or_false] at hq
      rcases hq with rfl | rfl
      · obtain ⟨v, hv, rfl⟩ : ∃ v ∈ Spec.cells (Column.strs ["red", "blue", "red"] : Column ℝ), c = _ := by
          unfold Spec.ConceptOf at hqc
          exact hqc
        simp only [Spec.cells, List.map_cons, List.map_nil, List.mem_cons, List.not_mem_nil, or_false] at hv
        rcases hv with rfl | rfl | rfl <;> simp only [Cell.text] <;> decide
      · obtain ⟨v, hv, rfl⟩ : ∃ v ∈ Spec.cells (Column.strs ["yes", "no", "yes"] : Column ℝ), c = _ := by
          unfold Spec.ConceptOf at hqc
          exact hqc
        simp only [Spec.cells, List.map_cons, List.map_nil, List.mem_cons, List.not_mem_nil, or_false] at hv
        rcases hv with rfl | rfl | rfl <;> simp only [Cell.text] <;> decide
    have := (List.subperm_of_subset hc.inv.tnd hsub).length_le
    simpa [Dict.keys] using this

/-- It predicts for every row over "color" … -/
example {e1 : Estimator ℝ}
    (hf : Estimator.fit Ex.realConf (Ex.realExt.standard exEnv "cmeans-gap") Ex.xsr Ex.ysr Ex.est0v = (.ok (), e1)) :
    ∃ ps e3, Estimator.predict Ex.realConf Ex.realExt [[("color", .str "red")], [("color", .str "green")], []] e1 = (.ok ps, e3) := by
  obtain ⟨hne, hlen⟩ := Ex.v_names hf
  refine C106_coarse (x' := Ex.realExt) exEnv_ok (.inl rfl) rfl Ex.est0v_new .start (fun l => .refl _) Ex.r_readable hf .start (by decide)
    (fun f h => by cases h; exact ⟨.inl rfl, trivial⟩) (by decide) hne ?_ (by decide) (by decide) ?_
  · have : (e1.fcm.topology.length : ℝ) ≤ 4 := by exact_mod_cast hlen
    linarith
  · intro r hr p hp
    simp only [List.mem_cons, List.not_mem_nil, or_false] at hr
    rcases hr with rfl | rfl | rfl
    · obtain rfl := List.mem_singleton.1 hp
      exact ⟨("color", .strs ["red", "blue", "red"]), by simp [Ex.xsr], rfl, rfl⟩
    · obtain rfl := List.mem_singleton.1 hp
      exact ⟨("color", .strs ["red", "blue", "red"]), by simp [Ex.xsr], rfl, rfl⟩
    · cases hp

/-- … but not with a single iteration. -/
example {e0 e1 : Estimator ℝ} (h0 : Estimator.new (FCM.new 1 5 true 20 "MEAN" true "sigmoid_hip" []) "KOSKO" true false = .ok e0)
    (hf : Estimator.fit Ex.realConf (Ex.realExt.standard exEnv "cmeans-gap") Ex.xsr Ex.ysr e0 = (.ok (), e1))
    (hne : e1.fcm.topology ≠ []) :
    ¬ ∃ ps e3, Estimator.predict Ex.realConf Ex.realExt [[("color", .str "red")]] e1 = (.ok ps, e3) := by
  rw [C106_predicts (x' := Ex.realExt) exEnv_ok (.inl rfl) rfl h0 .start (fun l => .refl _) Ex.r_readable hf .start (by decide)
    (fun f h => by cases h; exact ⟨.inl rfl, trivial⟩) (by decide) hne]
  intro hall
  obtain ⟨-, A, -, z, -, -, l, l1, l2, -⟩ := hall _ (List.mem_singleton.2 rfl)
  rw [if_pos (by decide)] at l2
  have : (5 : Int).toNat = 5 := rfl
  omega

end PyFCM
