import Verif.Lemmas.History
import Verif.Props.Build
/-
Properties of `FcmEstimator` (fcm_estimator.py): C43, C44, C55, C61.
-/
namespace PyFCM
open Arith

set_option linter.unusedSectionVars false

variable {α : Type} [Arith α]

/-! ### Histories of calls -/

/-- The estimator `e` results from `e0` by calls of `fit`, `predict` and `score`, some of which may have raised; the
flag tells whether some call of `fit` has returned. -/
inductive Spec.Hist (cfg : GenConf α) (e0 : Estimator α) : Bool → Estimator α → Prop
  | start : Spec.Hist cfg e0 false e0
  | fit {b e e'} (h : Spec.Hist cfg e0 b e) (x : Ext α) (xs ys : List (String × Column α))
      (hf : Estimator.fit cfg x xs ys e = (.ok (), e')) : Spec.Hist cfg e0 true e'
  | fitRaises {b e e' err} (h : Spec.Hist cfg e0 b e) (x : Ext α) (xs ys : List (String × Column α))
      (hf : Estimator.fit cfg x xs ys e = (.error err, e')) : Spec.Hist cfg e0 b e'
  | predict {b e} (h : Spec.Hist cfg e0 b e) (x : Ext α) (rows : List (List (String × Cell α))) :
      Spec.Hist cfg e0 b (Estimator.predict cfg x rows e).2
  | score {b e} (h : Spec.Hist cfg e0 b e) (x : Ext α) (rows : List (List (String × Cell α)))
      (y : List (String × List (Cell α))) : Spec.Hist cfg e0 b (Estimator.score cfg x rows y e).2

/-- The last call of `fit` has returned; calls of `predict` and `score` may have followed, and raised. -/
inductive Spec.Ready (cfg : GenConf α) (e0 : Estimator α) : Estimator α → Prop
  | fit {b e e'} (h : Spec.Hist cfg e0 b e) (x : Ext α) (xs ys : List (String × Column α))
      (hf : Estimator.fit cfg x xs ys e = (.ok (), e')) : Spec.Ready cfg e0 e'
  | predict {e} (h : Spec.Ready cfg e0 e) (x : Ext α) (rows : List (List (String × Cell α))) :
      Spec.Ready cfg e0 (Estimator.predict cfg x rows e).2
  | score {e} (h : Spec.Ready cfg e0 e) (x : Ext α) (rows : List (List (String × Cell α)))
      (y : List (String × List (Cell α))) : Spec.Ready cfg e0 (Estimator.score cfg x rows y e).2

/-- A new estimator: any settings of its map. -/
def Spec.New (e0 : Estimator α) : Prop :=
  ∃ maxIt extra stab diff dec mem act kwargs exc vec fit,
    Estimator.new (FCM.new maxIt extra stab diff dec mem act kwargs) exc vec fit = .ok e0

theorem score_unfold (cfg : GenConf α) (x : Ext α) (rows : List (List (String × Cell α)))
    (y : List (String × List (Cell α))) (e : Estimator α) : Estimator.score cfg x rows y e =
      if e.generated then
        match Estimator.predict cfg x rows e with
        | (.ok ps, e') => (do
            let r ← scoreColumns ps y (0, 0)
            if r.2 = 0 then .error .zeroDivision else .ok (lit (r.1 : Int) / lit (r.2 : Int)), e')
        | (.error err, e') => (.error err, e')
      else (.error notFitted, e) := by
  unfold Estimator.score
  simp only [PyM.run_bind, PyM.run_get]
  split
  · rw [PyM.run_bind]
    rcases Estimator.predict cfg x rows e with ⟨_ | ps, e'⟩
    · rfl
    · dsimp only
      simp only [PyM.run_bind, PyM.run_lift]
      cases scoreColumns ps y (0, 0) with
      | error _ => rfl
      | ok r => rfl
  · rfl

/-- What holds of every estimator. -/
structure EstOk (e0 e : Estimator α) : Prop where
  inv : Inv e.fcm
  coherent : Coherent e.fcm
  settings : e.fcm.bare = e0.fcm.bare
  fresh : ∀ p, e.priv = some p → e.fcm.topology = [] ∧ e.fcm.arcList = [] ∧ e.fcm.execution = [] ∧
    e.generated = false

theorem predict_snd (cfg : GenConf α) (x : Ext α) (rows : List (List (String × Cell α))) (e : Estimator α) :
    (Estimator.predict cfg x rows e).2 = e ∨
      (Estimator.predict cfg x rows e).2 = { e with fcm := (predictRows cfg x e.features rows e.fcm).2 } ∧
        e.generated = true := by
  unfold Estimator.predict
  split
  · exact .inr ⟨rfl, ‹_›⟩
  · exact .inl rfl

theorem score_snd (cfg : GenConf α) (x : Ext α) (rows : List (List (String × Cell α)))
    (y : List (String × List (Cell α))) (e : Estimator α) :
    (Estimator.score cfg x rows y e).2 = (Estimator.predict cfg x rows e).2 := by
  rw [score_unfold]
  split
  · rcases h : Estimator.predict cfg x rows e with ⟨_ | ps, e'⟩ <;> rfl
  · rename_i hg
    unfold Estimator.predict
    rw [if_neg hg]

/-- The map on which `build_fcm` works after `generator.reset()`. -/
structure Emptied (e0 : Estimator α) (m : FCM α) : Prop where
  inv : Inv m
  coherent : Coherent m
  settings : m.bare = e0.fcm.bare
  topology : m.topology = []
  arcs : m.arcList = []
  execution : m.execution = []

theorem clearAll_ok {m m' : FCM α} (h : FCM.clearAll m = (.ok (), m')) :
    m'.topology = [] ∧ m'.arcList = [] ∧ m'.execution = [] := by
  unfold FCM.clearAll at h
  rw [PyM.run_bind] at h
  split at h
  · cases h; exact ⟨rfl, rfl, rfl⟩
  · cases h

theorem reset_est {e0 e e' : Estimator α} {r : Except Err Unit} (he : EstOk e0 e) (h : Estimator.reset e = (r, e')) :
    e'.features = [] ∧ e'.processed = [] ∧ e'.generated = e.generated ∧ EstOk e0 e' ∧
      (r = .ok () → Emptied e0 e'.fcm) := by
  unfold Estimator.reset at h
  dsimp only at h
  cases hp : e.priv with
  | some p =>
    rw [hp] at h
    dsimp only at h
    cases h
    obtain ⟨h1, h2, h3, h4⟩ := he.fresh p hp
    exact ⟨rfl, rfl, rfl, ⟨he.inv, he.coherent, he.settings, fun _ _ => ⟨h1, h2, h3, h4⟩⟩,
      fun _ => ⟨he.inv, he.coherent, he.settings, h1, h2, h3⟩⟩
  | none =>
    rw [hp] at h
    dsimp only at h
    have hi : Inv (FCM.clearAll e.fcm).2 := Op.clearAll.pres _ he.inv
    have hc : Coherent (FCM.clearAll e.fcm).2 := Op.clearAll.coherent _ he.coherent
    have hb := clearAll_bare e0.fcm _ he.settings
    rcases hr : FCM.clearAll e.fcm with ⟨r', m⟩
    rw [hr] at h hi hc hb
    cases h
    refine ⟨rfl, rfl, rfl, ⟨hi, hc, hb, fun q hq => by cases hq⟩, ?_⟩
    intro hok
    subst hok
    obtain ⟨h1, h2, h3⟩ := clearAll_ok hr
    exact ⟨hi, hc, hb, h1, h2, h3⟩

theorem fit_built {cfg : GenConf α} {x : Ext α} {xs ys : List (String × Column α)} {e0 e e1 e' : Estimator α}
    {r : Except Err Unit} (he : EstOk e0 e) (h : Estimator.fit cfg x xs ys e = (r, e'))
    (hr : Estimator.reset e = (.ok (), e1)) :
    ∃ m0 g, Emptied e0 m0 ∧ buildFcm cfg x (ys.map (·.1)) (joinColumns xs ys) ⟨[], [], m0⟩ = (r, g) ∧
      e' = ⟨e.generated || r.toBool, g.fcm, none, g.features, g.processed⟩ := by
  unfold Estimator.fit at h
  obtain ⟨h1, h2, h3, h4, h5⟩ := reset_est he hr
  rw [hr] at h
  dsimp only at h
  rw [h1, h2] at h
  rcases hb : buildFcm cfg x (ys.map (·.1)) (joinColumns xs ys) ⟨[], [], e1.fcm⟩ with ⟨r2, g⟩
  rw [hb] at h
  refine ⟨e1.fcm, g, h5 rfl, ?_⟩
  dsimp only at h
  cases r2 with
  | error err => cases h; exact ⟨hb, by rw [← h3]; simp [Except.toBool]⟩
  | ok u => cases u; cases h; exact ⟨hb, by simp [Except.toBool]⟩

theorem fit_cases {cfg : GenConf α} {x : Ext α} {xs ys : List (String × Column α)} {e0 e e' : Estimator α}
    {r : Except Err Unit} (he : EstOk e0 e) (h : Estimator.fit cfg x xs ys e = (r, e')) :
    (∃ err, r = .error err ∧ e'.generated = e.generated ∧ EstOk e0 e') ∨
    ∃ m0 g, Emptied e0 m0 ∧ buildFcm cfg x (ys.map (·.1)) (joinColumns xs ys) ⟨[], [], m0⟩ = (r, g) ∧
      e' = ⟨e.generated || r.toBool, g.fcm, none, g.features, g.processed⟩ := by
  rcases hr : Estimator.reset e with ⟨r1, e1⟩
  cases r1 with
  | error err =>
    obtain ⟨h1, h2, h3, h4, h5⟩ := reset_est he hr
    unfold Estimator.fit at h
    rw [hr] at h
    cases h
    exact .inl ⟨err, rfl, h3, h4⟩
  | ok u => exact .inr (fit_built he h hr)

/-- Resetting a new estimator succeeds. -/
theorem Spec.New.reset {e0 : Estimator α} (h : Spec.New e0) : ∃ e1, Estimator.reset e0 = (.ok (), e1) := by
  obtain ⟨maxIt, extra, stab, diff, dec, mem, act, kwargs, exc, vec, fit, h⟩ := h
  unfold Estimator.new at h
  obtain ⟨m, hm, h⟩ := exc_bind_ok h
  obtain ⟨m1, hm1, h⟩ := exc_bind_ok h
  obtain ⟨p, hp, h⟩ := exc_bind_ok h
  cases h
  have : p.topology = [] := by
    unfold FCM.new at hp
    split at hp
    · cases hp
    · split at hp
      · cases hp
      · rw [← Except.ok.inj hp]
  have h2 : ∀ q : FCM α, q.topology = [] → ∃ q', FCM.clearAll q = (.ok (), q') := by
    intro q hq
    refine ⟨{ q with topology := [], arcList := [], execution := [] }, ?_⟩
    unfold FCM.clearAll
    rw [PyM.run_bind]
    unfold FCM.resetExecution
    rw [hq]
    rfl
  unfold Estimator.reset
  dsimp only
  generalize hg : (if fit = true then _ else p) = g
  obtain ⟨q', hq'⟩ := h2 g (by subst hg; split <;> exact this)
  rw [hq']
  exact ⟨_, rfl⟩

theorem Spec.New.ok {e0 : Estimator α} (h : Spec.New e0) : EstOk e0 e0 ∧ e0.generated = false ∧ e0.priv ≠ none := by
  obtain ⟨maxIt, extra, stab, diff, dec, mem, act, kwargs, exc, vec, fit, h⟩ := h
  unfold Estimator.new at h
  obtain ⟨m, hm, h⟩ := exc_bind_ok h
  obtain ⟨m1, hm1, h⟩ := exc_bind_ok h
  obtain ⟨p, -, h⟩ := exc_bind_ok h
  cases h
  have hr : CleanReachable m := .new hm
  have hempty : m.topology = [] ∧ m.arcList = [] ∧ m.execution = [] := by
    unfold FCM.new at hm
    split at hm
    · cases hm
    · split at hm
      · cases hm
      · rw [← Except.ok.inj hm]; exact ⟨rfl, rfl, rfl⟩
  have h0 : ∃ a : ConceptArgs α, FCM.setDefaultConceptProperties a m = (.ok (), m1) := by
    unfold PyM.exec at hm1
    split at hm1
    · rename_i hx; cases hm1; exact ⟨_, hx⟩
    · cases hm1
  obtain ⟨a, ha⟩ := h0
  have h1 : m1 = { m with default := m1.default } := by
    unfold FCM.setDefaultConceptProperties at ha
    rw [← (Prod.mk.inj ha).2]
  have h2 : CleanReachable m1 := .step (.setDefaultConceptProperties a) hr ha
  have h3 : CleanReachable { m1 with debug := !vec } := .step (.assignDebug (!vec)) h2 rfl
  refine ⟨⟨h3.clean.inv, h3.reachable.coherent, rfl, ?_⟩, rfl, by simp⟩
  intro _ _
  rw [h1]
  exact ⟨hempty.1, hempty.2.1, hempty.2.2, rfl⟩

theorem inv_ops : OpPres (Inv : FCM α → Prop) := ⟨fun o => o.pres⟩
theorem coherent_ops : OpPres (Coherent : FCM α → Prop) := ⟨fun o => o.coherent⟩

theorem predict_est {cfg : GenConf α} {e0 e : Estimator α} (h : EstOk e0 e) (x : Ext α)
    (rows : List (List (String × Cell α))) : EstOk e0 (Estimator.predict cfg x rows e).2 ∧
      (Estimator.predict cfg x rows e).2.generated = e.generated := by
  rcases predict_snd cfg x rows e with h1 | ⟨h1, hg⟩
  · rw [h1]; exact ⟨h, rfl⟩
  · rw [h1]
    refine ⟨⟨inv_ops.predictRows cfg x _ rows _ h.inv, coherent_ops.predictRows cfg x _ rows _ h.coherent, ?_, ?_⟩, rfl⟩
    · exact predictRows_pres (initConcept_bare e0.fcm) (clear_bare e0.fcm) (run_bare e0.fcm true) cfg x _ rows _ h.settings
    · intro p hp
      have := (h.fresh p hp).2.2.2
      rw [hg] at this; cases this

theorem fit_est {cfg : GenConf α} {x : Ext α} {xs ys : List (String × Column α)} {e0 e e' : Estimator α}
    {r : Except Err Unit} (he : EstOk e0 e) (h : Estimator.fit cfg x xs ys e = (r, e')) :
    EstOk e0 e' ∧ e'.generated = (e.generated || r.toBool) := by
  rcases fit_cases he h with ⟨err, rfl, h1, h2⟩ | ⟨m0, g, hm, hb, rfl⟩
  · exact ⟨h2, by simp [h1, Except.toBool]⟩
  · have h1 := buildFcm_pres inv_ops.gen cfg x (ys.map (·.1)) (joinColumns xs ys) ⟨[], [], m0⟩ hm.inv
    have h2 := buildFcm_pres coherent_ops.gen cfg x (ys.map (·.1)) (joinColumns xs ys) ⟨[], [], m0⟩ hm.coherent
    have h3 := buildFcm_pres (bare_gen e0.fcm) cfg x (ys.map (·.1)) (joinColumns xs ys) ⟨[], [], m0⟩ hm.settings
    rw [hb] at h1 h2 h3
    exact ⟨⟨h1, h2, h3, fun p hp => by cases hp⟩, rfl⟩

theorem Spec.Hist.ok {cfg : GenConf α} {e0 e : Estimator α} {b : Bool} (hn : Spec.New e0) (h : Spec.Hist cfg e0 b e) :
    EstOk e0 e ∧ e.generated = b := by
  induction h with
  | start => exact ⟨hn.ok.1, hn.ok.2.1⟩
  | fit h x xs ys hf ih =>
    have := fit_est ih.1 hf
    exact ⟨this.1, by rw [this.2]; simp [Except.toBool]⟩
  | fitRaises h x xs ys hf ih =>
    have := fit_est ih.1 hf
    exact ⟨this.1, by rw [this.2, ih.2]; simp [Except.toBool]⟩
  | predict h x rows ih =>
    have := predict_est (cfg := cfg) ih.1 x rows
    exact ⟨this.1, by rw [this.2, ih.2]⟩
  | score h x rows y ih =>
    rw [score_snd]
    have := predict_est (cfg := cfg) ih.1 x rows
    exact ⟨this.1, by rw [this.2, ih.2]⟩

theorem emptied_clean {e0 : Estimator α} {m : FCM α} (h : Emptied e0 m) : CleanInv m :=
  ⟨h.inv, (fun c n hn => by rw [h.topology] at hn; cases hn), (fun c hc => by rw [h.topology] at hc; cases hc)⟩

theorem fit_sound {cfg : GenConf α} {x : Ext α} {xs ys : List (String × Column α)} {e0 e e' : Estimator α}
    (he : EstOk e0 e) (h : Estimator.fit cfg x xs ys e = (.ok (), e')) : Sound e'.fcm := by
  have h0 := (fit_est he h).1
  rcases fit_cases he h with ⟨err, h1, -⟩ | ⟨m0, g, hm, hb, rfl⟩
  · cases h1
  · have hc := buildFcm_clean (emptied_clean hm) hb
    exact ⟨h0.inv, hc.sameKeys, h0.coherent⟩

theorem predict_sound {cfg : GenConf α} {e : Estimator α} (h : Sound e.fcm) (x : Ext α)
    (rows : List (List (String × Cell α))) : Sound (Estimator.predict cfg x rows e).2.fcm := by
  rcases predict_snd cfg x rows e with h1 | ⟨h1, -⟩
  · rw [h1]; exact h
  · rw [h1]; exact predictRows_pres initConcept_sound clear_sound run_sound cfg x _ rows _ h

theorem Spec.Ready.hist {cfg : GenConf α} {e0 e : Estimator α} (h : Spec.Ready cfg e0 e) : Spec.Hist cfg e0 true e := by
  induction h with
  | fit h x xs ys hf => exact .fit h x xs ys hf
  | predict h x rows ih => exact .predict ih x rows
  | score h x rows y ih => exact .score ih x rows y

theorem Spec.Ready.sound {cfg : GenConf α} {e0 e : Estimator α} (hn : Spec.New e0) (h : Spec.Ready cfg e0 e) :
    Sound e.fcm := by
  induction h with
  | fit h x xs ys hf => exact fit_sound (h.ok hn).1 hf
  | predict h x rows ih => exact predict_sound ih x rows
  | score h x rows y ih => rw [score_snd]; exact predict_sound ih x rows

/-! ### C55 -/

/-- C55: as long as no call of `fit` has returned, `predict` and `score` raise and change nothing. -/
theorem C55_unfitted {cfg : GenConf α} {e0 e : Estimator α} (hn : Spec.New e0) (h : Spec.Hist cfg e0 false e)
    (x : Ext α) (rows : List (List (String × Cell α))) (y : List (String × List (Cell α))) :
    Estimator.predict cfg x rows e = (.error notFitted, e) ∧ Estimator.score cfg x rows y e = (.error notFitted, e) := by
  have hg := (h.ok hn).2
  constructor
  · unfold Estimator.predict; rw [hg]; rfl
  · rw [score_unfold, hg]; rfl

/-- C55: once a call of `fit` has returned, `predict` works on the rows. -/
theorem C55_fitted {cfg : GenConf α} {e0 e : Estimator α} (hn : Spec.New e0) (h : Spec.Hist cfg e0 true e)
    (x : Ext α) (rows : List (List (String × Cell α))) :
    (Estimator.predict cfg x rows e).1 = (predictRows cfg x e.features rows e.fcm).1 := by
  have hg := (h.ok hn).2
  unfold Estimator.predict; rw [hg]; rfl

/-- C55: whatever happened before, after a call of `fit` that returns, the concepts of the map are those of the columns
given to that call, its relations join such concepts, and the features are those columns. -/
theorem C55_refit [Ordered α] {cfg : GenConf α} {e0 e e' : Estimator α} {b : Bool} (hn : Spec.New e0)
    (h : Spec.Hist cfg e0 b e) {x : Ext α} {xs ys : List (String × Column α)} (hx : ∀ l, (x.order l).Perm l)
    (hc : ((joinColumns xs ys).map (·.1)).Nodup) (hf : Estimator.fit cfg x xs ys e = (.ok (), e')) :
    (∀ c, c ∈ e'.fcm.topology.keys ↔ ∃ p ∈ joinColumns xs ys, Spec.ConceptOf cfg x p c) ∧
    (∀ r ∈ e'.fcm.arcList, r.origin ∈ e'.fcm.topology.keys ∧ r.dest ∈ e'.fcm.topology.keys) ∧
    e'.features.keys = (joinColumns xs ys).map (·.1) := by
  obtain ⟨he, -⟩ := h.ok hn
  have hi := (fit_est he hf).1.inv
  rcases fit_cases he hf with ⟨err, h1, -⟩ | ⟨m0, g, hm, hb, rfl⟩
  · cases h1
  obtain ⟨W, L, hB⟩ := buildFcm_built hx hc hb
  refine ⟨fun c => ?_, hi.ends, ?_⟩
  · show c ∈ g.fcm.topology.keys ↔ _
    rw [hB.keys, hm.topology]
    constructor
    · rintro (h | ⟨w, hw, hcw⟩)
      · cases h
      · obtain ⟨p, hp, -, hF⟩ := hB.of_work hw
        exact ⟨p, hp, (mem_names hF c).1 hcw⟩
    · rintro ⟨p, hp, hcp⟩
      obtain ⟨w, hw, -, hF⟩ := hB.of_col hp
      exact .inr ⟨w, hw, (mem_names hF c).2 hcp⟩
  · show g.features.keys = _
    rw [hB.features, ← hB.wnames]
    simp [Dict.keys]

/-! ### C61: a refit forgets the past -/

theorem Emptied.remade {e0 : Estimator α} {m m' : FCM α} (h : Emptied e0 m) (h' : Emptied e0 m') : Remade m m' := by
  constructor
  · have hs : m'.bare = m.bare := h'.settings.trans h.settings.symm
    obtain ⟨t, a, ex, st, mi, es, sd, df, dn, mem, mf, it, w, de, db, fi, p, c, sv⟩ := m
    obtain ⟨t', a', ex', st', mi', es', sd', df', dn', mem', mf', it', w', de', db', fi', p', c', sv'⟩ := m'
    have h1 := h.topology
    have h2 := h.arcs
    have h3 := h.execution
    have h1' := h'.topology
    have h2' := h'.arcs
    have h3' := h'.execution
    dsimp only at h1 h2 h3 h1' h2' h3'
    subst h1 h2 h3 h1' h2' h3'
    unfold FCM.bare at hs
    dsimp only at hs
    unfold FCM.withEng
    dsimp only
    injection hs
    simp_all
  · intro hne; exact absurd h.topology hne

theorem EngOk.trans {a b c : FCM α} (ht : Twin a b) (h : EngOk a b) (h' : EngOk b c) : EngOk a c := by
  have hp : b.prepare = a.prepare := prepare_view ht.view
  have hl : b.topology.length = a.topology.length := view_length ht.view
  have hd : b.debug = a.debug := by rw [ht.eq]
  rcases h with h | ⟨k, h1, h2, h3⟩ | ⟨h1, h2, h3, h4, h5⟩ | ⟨h1, h2, err, h3⟩
  · exact .inl h
  · rcases h' with h' | ⟨k', h1', h2', h3'⟩ | ⟨h1', h2', h3', h4', h5'⟩ | ⟨h1', h2', err, h3'⟩
    · exact .inl (hd ▸ h')
    · rw [hp, h1] at h1'
      cases h1'
      exact .inr (.inl ⟨k, h1, h2, hl ▸ h3'⟩)
    · obtain ⟨h6, h7⟩ := h3 h2'
      exact .inr (.inl ⟨k, h1, h2, fun _ => ⟨by rw [← h5', h6], by rw [← h4', h7]⟩⟩)
    · rw [hp, h1] at h3'; cases h3'
  · rcases h' with h' | ⟨k', h1', h2', h3'⟩ | ⟨h1', h2', h3', h4', h5'⟩ | ⟨h1', h2', err, h3'⟩
    · exact .inl (hd ▸ h')
    · rw [hp] at h1'
      rw [hl] at h2' h3'
      exact .inr (.inl ⟨k', h1', fun _ => (by rw [h4, h5]; exact h2' h3), h3'⟩)
    · exact .inr (.inr (.inl ⟨h1, h2, h3', h4.trans h4', h5.trans h5'⟩))
    · rw [h3] at h1'; cases h1'
  · rcases h' with h' | ⟨k', h1', h2', h3'⟩ | ⟨h1', h2', h3', h4', h5'⟩ | ⟨h1', h2', err', h3'⟩
    · exact .inl (hd ▸ h')
    · rw [hp, h3] at h1'; cases h1'
    · rw [h2] at h2'; cases h2'
    · exact .inr (.inr (.inr ⟨h1, h2', err, h3⟩))

/-- On a map that predicts like `m`, each row gets the prediction it gets on `m`. -/
theorem predictRows_like (cfg : GenConf α) (x : Ext α) (fs : Dict (Feature α)) {m : FCM α} (hm : Sound m) :
    ∀ (rows : List (List (String × Cell α))) {k : FCM α}, Sound k → Twin m k → EngOk m k →
    (predictRows cfg x fs rows k).1 = rows.mapM (fun r => (predictRow cfg x fs r m).1) ∧
    ∀ ps, (predictRows cfg x fs rows k).1 = .ok ps → Sound (predictRows cfg x fs rows k).2 ∧
      Twin m (predictRows cfg x fs rows k).2 ∧ EngOk m (predictRows cfg x fs rows k).2
  | [], k, hk, ht, he => ⟨rfl, fun _ _ => ⟨hk, ht, he⟩⟩
  | r :: rs, k, hk, ht, he => by
    have h1 := predictRow_twin cfg x fs r hm hk ht he
    rw [List.mapM_cons, ← h1]
    unfold predictRows
    rw [PyM.run_bind]
    rcases hr : predictRow cfg x fs r k with ⟨_ | p, k1⟩
    · exact ⟨rfl, fun _ h => by cases h⟩
    · obtain ⟨hk1, ht1, he1⟩ := predictRow_calm hk hr
      obtain ⟨ih1, ih2⟩ := predictRows_like cfg x fs hm rs hk1 (ht.trans ht1) (EngOk.trans ht he he1)
      dsimp only
      rw [PyM.run_bind]
      rcases hrs : predictRows cfg x fs rs k1 with ⟨_ | ps, k2⟩
      · rw [hrs] at ih1
        refine ⟨?_, fun _ h => by cases h⟩
        show _ = List.mapM _ rs >>= _
        rw [← ih1]; rfl
      · rw [hrs] at ih1 ih2
        refine ⟨?_, fun _ _ => ih2 ps rfl⟩
        show _ = List.mapM _ rs >>= _
        rw [← ih1]; rfl

theorem predictRows_alone (cfg : GenConf α) (x : Ext α) (fs : Dict (Feature α)) {m : FCM α} (hm : Sound m)
    (rows : List (List (String × Cell α))) :
    (predictRows cfg x fs rows m).1 = rows.mapM (fun r => (predictRow cfg x fs r m).1) ∧
    ∀ ps, (predictRows cfg x fs rows m).1 = .ok ps → rows ≠ [] → Sound (predictRows cfg x fs rows m).2 ∧
      Twin m (predictRows cfg x fs rows m).2 ∧ EngOk m (predictRows cfg x fs rows m).2 := by
  cases rows with
  | nil => exact ⟨rfl, fun _ _ h => absurd rfl h⟩
  | cons r rs =>
    rw [List.mapM_cons]
    unfold predictRows
    rw [PyM.run_bind]
    rcases hr : predictRow cfg x fs r m with ⟨_ | p, k1⟩
    · exact ⟨rfl, fun _ h => by cases h⟩
    · obtain ⟨hk1, ht1, he1⟩ := predictRow_calm hm hr
      obtain ⟨ih1, ih2⟩ := predictRows_like cfg x fs hm rs hk1 ht1 he1
      dsimp only
      rw [PyM.run_bind]
      rcases hrs : predictRows cfg x fs rs k1 with ⟨_ | ps, k2⟩
      · rw [hrs] at ih1
        refine ⟨?_, fun _ h => by cases h⟩
        show _ = List.mapM _ rs >>= _
        rw [← ih1]; rfl
      · rw [hrs] at ih1 ih2
        refine ⟨?_, fun _ _ _ => ih2 ps rfl⟩
        show _ = List.mapM _ rs >>= _
        rw [← ih1]; rfl

/-- C61: whatever happened before, `fit` gives the map and the features that a new estimator with the same settings gets
from the same data, except for the engine's private data; if there are concepts, every later prediction is the same. -/
theorem C61_refit {cfg : GenConf α} {e0 e e' : Estimator α} {b : Bool} (hn : Spec.New e0)
    (h : Spec.Hist cfg e0 b e) {x : Ext α} {xs ys : List (String × Column α)}
    (hf : Estimator.fit cfg x xs ys e = (.ok (), e')) :
    ∃ f, Estimator.fit cfg x xs ys e0 = (.ok (), f) ∧ e'.features = f.features ∧ e'.generated = f.generated ∧
      e'.fcm = { f.fcm with iterations := e'.fcm.iterations, prepared := e'.fcm.prepared, cache := e'.fcm.cache
                            stateVector := e'.fcm.stateVector } ∧
      (f.fcm.topology ≠ [] → ∀ (x' : Ext α) rows, (Estimator.predict cfg x' rows e').1 = (Estimator.predict cfg x' rows f).1) := by
  obtain ⟨he, -⟩ := h.ok hn
  obtain ⟨h0, h0g, h0p⟩ := hn.ok
  have hs' := fit_sound he hf
  rcases fit_cases he hf with ⟨err, h1, -⟩ | ⟨m0, g, hm, hb, rfl⟩
  · cases h1
  rcases hff : Estimator.fit cfg x xs ys e0 with ⟨r, f⟩
  have hm1 : ∃ m1 g1, Emptied e0 m1 ∧ buildFcm cfg x (ys.map (·.1)) (joinColumns xs ys) ⟨[], [], m1⟩ = (r, g1) ∧
      f = ⟨e0.generated || r.toBool, g1.fcm, none, g1.features, g1.processed⟩ := by
    obtain ⟨e1, he1⟩ := hn.reset
    exact fit_built h0 hff he1
  obtain ⟨m1, g1, hm1, hb1, rfl⟩ := hm1
  obtain ⟨k1, k2⟩ := buildFcm_rel remade_rel cfg x (ys.map (·.1)) (joinColumns xs ys) ⟨[], [], m1⟩ ⟨[], [], m0⟩
    ⟨rfl, rfl, hm1.remade hm⟩
  rw [hb, hb1] at k1
  dsimp only at k1
  subst k1
  have k2 := k2 () (by rw [hb1])
  rw [hb, hb1] at k2
  obtain ⟨e1, e2, e3, e4⟩ := k2
  dsimp only at e1 e2 e3 e4
  have hs := fit_sound h0 hff
  refine ⟨_, rfl, e1, by simp [Except.toBool], e3, fun hne x' rows => ?_⟩
  obtain ⟨p1, p2⟩ := e4 hne
  have ht : Twin g1.fcm g.fcm := by
    refine ⟨?_, ?_, ?_⟩
    · conv_lhs => rw [e3]
      unfold FCM.withEng
      conv_rhs => rw [e3]
      rfl
    · rw [e3]; rfl
    · rw [e3]; rfl
  have hen : EngOk g1.fcm g.fcm := by
    cases hp : g1.fcm.prepare with
    | ok c => exact .inr (.inl ⟨c, hp, (fun h => by rw [p1] at h; cases h), (fun h => by rw [p2] at h; cases h)⟩)
    | error err => exact .inr (.inr (.inr ⟨p1, p2, err, hp⟩))
  have := (predictRows_like cfg x' g1.features hs rows hs' ht hen).1
  unfold Estimator.predict
  simp only [Except.toBool, Bool.or_true, if_true]
  rw [e1, this, (predictRows_alone cfg x' g1.features hs rows).1]

/-! ### C43 -/

/-- C43: on a fitted estimator, whatever predictions came before, the rows of one call get the predictions each would
get alone; if a row raises, the call raises what the first such row would. -/
theorem C43_rows {cfg : GenConf α} {e0 e : Estimator α} (hn : Spec.New e0) (h : Spec.Ready cfg e0 e) (x : Ext α)
    (rows : List (List (String × Cell α))) :
    (Estimator.predict cfg x rows e).1 =
      (rows.mapM fun r => (Estimator.predict cfg x [r] e).1).map List.flatten := by
  have hg := (h.hist.ok hn).2
  have hs := h.sound hn
  unfold Estimator.predict
  rw [if_pos hg]
  dsimp only
  rw [(predictRows_alone cfg x e.features hs rows).1]
  have : ∀ r, (if e.generated = true then ((predictRows cfg x e.features [r] e.fcm).1,
      ({ e with fcm := (predictRows cfg x e.features [r] e.fcm).2 } : Estimator α)) else (.error notFitted, e)).1 =
      (predictRow cfg x e.features r e.fcm).1.map fun p => [p] := by
    intro r
    rw [if_pos hg]
    dsimp only
    rw [(predictRows_alone cfg x e.features hs [r]).1]
    rw [List.mapM_cons]
    cases (predictRow cfg x e.features r e.fcm).1 <;> rfl
  simp only [this]
  clear this
  induction rows with
  | nil => rfl
  | cons r rs ih =>
    rw [List.mapM_cons, List.mapM_cons, ih]
    cases (predictRow cfg x e.features r e.fcm).1 with
    | error _ => rfl
    | ok p =>
      show (_ : Except Err _) = _
      cases (rs.mapM fun r => (predictRow cfg x e.features r e.fcm).1.map fun p => [p]) with
      | error _ => rfl
      | ok ps => rfl

/-- C43: a call of `predict` that returns does not change later predictions. -/
theorem C43_history {cfg : GenConf α} {e0 e e' : Estimator α} (hn : Spec.New e0) (h : Spec.Ready cfg e0 e) {x : Ext α}
    {rows : List (List (String × Cell α))} {ps : List (Dict Label)}
    (hp : Estimator.predict cfg x rows e = (.ok ps, e')) (x' : Ext α) (rows' : List (List (String × Cell α))) :
    (Estimator.predict cfg x' rows' e').1 = (Estimator.predict cfg x' rows' e).1 := by
  have hg := (h.hist.ok hn).2
  have hs := h.sound hn
  cases rows with
  | nil =>
    unfold Estimator.predict at hp
    rw [if_pos hg] at hp
    cases hp
    rfl
  | cons r rs =>
    unfold Estimator.predict at hp
    rw [if_pos hg] at hp
    have h0 := (predictRows_alone cfg x e.features hs (r :: rs)).2
    rcases hq : predictRows cfg x e.features (r :: rs) e.fcm with ⟨q, m1⟩
    rw [hq] at hp h0
    cases hp
    obtain ⟨h1, h2, h3⟩ := h0 ps rfl (by simp)
    unfold Estimator.predict
    rw [if_pos hg]
    dsimp only
    rw [if_pos hg]
    dsimp only
    rw [(predictRows_alone cfg x' e.features hs rows').1,
      (predictRows_like cfg x' e.features hs rows' h1 h2 h3).1]

/-! ### C44 -/

/-- Python's `==` between a true value and a predicted label: numbers compare by value, whatever their type. -/
def Spec.Same : Cell α → Label → Prop
  | .str s, l => l = .str s
  | .bool b, l => l = .int (if b then 1 else 0)
  | .int i, l => ∃ n, l = .int n ∧ i = n
  | .float v, l => ∃ n, l = .int n ∧ v = lit (n : Int)

/-- Each true value beside what was predicted for its row and feature. -/
def Spec.compared (y : List (String × List (Cell α))) (ps : List (Dict Label)) : List (Cell α × Option Label) :=
  y.flatMap fun c => c.2.zip (ps.map (List.lookup c.1))

/-- Fractions of naturals are between 0 and 1 when they should be. -/
class Fractions (α : Type) [Arith α] : Prop where
  nonneg : ∀ a b : Nat, 0 < b → (lit 0 ≤? (lit (a : Int) / lit (b : Int) : α)) = true
  le_one : ∀ a b : Nat, 0 < b → a ≤ b → ((lit (a : Int) / lit (b : Int) : α) ≤? lit 1) = true

instance : Fractions ℝ where
  nonneg a b _ := by simp; positivity
  le_one a b hb h := by
    simp only [real_lit, real_le, Int.cast_natCast, Int.cast_one]
    exact (div_le_one (by exact_mod_cast hb)).2 (by exact_mod_cast h)

instance : Fractions ℚ where
  nonneg a b _ := by
    simp only [Arith.le, Arith.lit, decide_eq_true_eq, Int.cast_natCast, Int.cast_zero]
    positivity
  le_one a b hb h := by
    simp only [Arith.le, Arith.lit, decide_eq_true_eq, Int.cast_natCast, Int.cast_one]
    exact (div_le_one (by exact_mod_cast hb)).2 (by exact_mod_cast h)

theorem get?_lookup {β : Type} (k : String) : ∀ d : Dict β, d.get? k = List.lookup k d
  | [] => rfl
  | (k', v) :: d => by
    unfold Dict.get?
    by_cases h : k' = k
    · subst h; simp
    · have h2 : (k == k') = false := by simp [Ne.symm h]
      rw [if_neg h, get?_lookup k d, List.lookup_cons, h2]

theorem cellEq_same [Ordered α] (c : Cell α) (l : Label) : cellEqLabel c l = true ↔ Spec.Same c l := by
  cases c <;> cases l <;> simp [cellEqLabel, Spec.Same, Ordered.eq]
  all_goals exact eq_comm

open Classical in
/-- The number of true values that were predicted. -/
noncomputable def Spec.hits (ps : List (Cell α × Option Label)) : Nat :=
  (ps.filter fun p => decide (∃ l, p.2 = some l ∧ Spec.Same p.1 l)).length

theorem hits_append (a b : List (Cell α × Option Label)) : Spec.hits (a ++ b) = Spec.hits a + Spec.hits b := by
  unfold Spec.hits
  rw [List.filter_append, List.length_append]

theorem hits_le (a : List (Cell α × Option Label)) : Spec.hits a ≤ a.length := List.length_filter_le _ _

theorem hits_cons [Ordered α] (v : Cell α) (l : Label) (ps : List (Cell α × Option Label)) (n : Nat) :
    (if cellEqLabel v l = true then n + 1 else n) + Spec.hits ps = n + Spec.hits ((v, some l) :: ps) := by
  unfold Spec.hits
  by_cases h : Spec.Same v l
  · rw [if_pos ((cellEq_same v l).2 h), List.filter_cons_of_pos (by simpa using h), List.length_cons]; omega
  · rw [if_neg (mt (cellEq_same v l).1 h), List.filter_cons_of_neg (by simpa using h)]

theorem scoreColumn_ok [Ordered α] (f : String) : ∀ (vs : List (Cell α)) (ps : List (Dict Label)) (a r : Nat × Nat),
    scoreColumn f vs ps a = .ok r ↔
      (vs.length ≤ ps.length ∧ (∀ q ∈ vs.zip (ps.map (List.lookup f)), q.2 ≠ none) ∧
        r = (a.1 + Spec.hits (vs.zip (ps.map (List.lookup f))), a.2 + vs.length))
  | [], ps, a, r => by
    unfold scoreColumn
    simp [Spec.hits, eq_comm]
  | v :: vs, [], a, r => by
    unfold scoreColumn
    simp
  | v :: vs, p :: ps, (a, b), r => by
    unfold scoreColumn
    rw [get?_lookup]
    cases hl : List.lookup f p with
    | none =>
      constructor
      · intro h; cases h
      · rintro ⟨-, h, -⟩
        exact absurd hl (h (v, List.lookup f p) (by simp))
    | some l =>
      show scoreColumn f vs ps _ = .ok r ↔ _
      rw [scoreColumn_ok f vs ps]
      simp only [List.length_cons, List.map_cons, List.zip_cons_cons, List.mem_cons, forall_eq_or_imp, hl]
      rw [hits_cons, Nat.add_le_add_iff_right]
      constructor
      · rintro ⟨h1, h2, h3⟩; exact ⟨h1, ⟨by simp, h2⟩, by rw [h3]; congr 1; omega⟩
      · rintro ⟨h1, h2, h3⟩; exact ⟨h1, h2.2, by rw [h3]; congr 1; omega⟩

theorem scoreColumns_ok [Ordered α] (ps : List (Dict Label)) : ∀ (y : List (String × List (Cell α))) (a r : Nat × Nat),
    scoreColumns ps y a = .ok r ↔
      ((∀ c ∈ y, c.2.length ≤ ps.length) ∧ (∀ q ∈ Spec.compared y ps, q.2 ≠ none) ∧
        r = (a.1 + Spec.hits (Spec.compared y ps), a.2 + (Spec.compared y ps).length))
  | [], a, r => by
    unfold scoreColumns
    simp [Spec.hits, Spec.compared, eq_comm]
  | (f, vs) :: y, a, r => by
    have hc : Spec.compared ((f, vs) :: y) ps = vs.zip (ps.map (List.lookup f)) ++ Spec.compared y ps := rfl
    unfold scoreColumns
    rw [hc, hits_append]
    simp only [List.mem_cons, forall_eq_or_imp, List.mem_append, List.length_append, List.length_zip, List.length_map]
    constructor
    · intro h
      obtain ⟨b, hb, h⟩ := exc_bind_ok h
      obtain ⟨h1, h2, rfl⟩ := (scoreColumn_ok f vs ps a b).1 hb
      obtain ⟨h3, h4, rfl⟩ := (scoreColumns_ok ps y _ r).1 h
      refine ⟨⟨h1, h3⟩, fun q hq => hq.elim (h2 q) (h4 q), ?_⟩
      rw [Nat.min_eq_left h1]
      dsimp only
      congr 1 <;> omega
    · rintro ⟨⟨h1, h3⟩, h2, rfl⟩
      have := (scoreColumn_ok f vs ps a _).2 ⟨h1, fun q hq => h2 q (.inl hq), rfl⟩
      rw [this]
      show scoreColumns ps y _ = _
      refine (scoreColumns_ok ps y _ _).2 ⟨h3, fun q hq => h2 q (.inr hq), ?_⟩
      rw [Nat.min_eq_left h1]
      dsimp only
      congr 1 <;> omega

/-- C44: a score is the fraction of the true values that were predicted (every true value has a prediction), and it lies
between 0 and 1. -/
theorem C44_accuracy [Ordered α] [Fractions α] {cfg : GenConf α} {x : Ext α} {rows : List (List (String × Cell α))}
    {y : List (String × List (Cell α))} {e e' : Estimator α} {r : α}
    (h : Estimator.score cfg x rows y e = (.ok r, e')) :
    ∃ ps, Estimator.predict cfg x rows e = (.ok ps, e') ∧
      (∀ c ∈ y, c.2.length ≤ ps.length) ∧ (∀ q ∈ Spec.compared y ps, q.2 ≠ none) ∧
      0 < (Spec.compared y ps).length ∧
      r = lit (Spec.hits (Spec.compared y ps) : Int) / lit ((Spec.compared y ps).length : Int) ∧
      (lit 0 ≤? r) = true ∧ (r ≤? lit 1) = true := by
  rw [score_unfold] at h
  split at h
  · rcases hp : Estimator.predict cfg x rows e with ⟨err | ps, e1⟩
    · rw [hp] at h; cases h
    · rw [hp] at h
      dsimp only at h
      obtain ⟨h1, rfl⟩ := Prod.mk.inj h
      obtain ⟨c, hc, h1⟩ := exc_bind_ok h1
      obtain ⟨k1, k2, rfl⟩ := (scoreColumns_ok ps y _ c).1 hc
      simp only [Nat.zero_add] at h1
      split at h1
      · cases h1
      · rename_i hne
        cases h1
        have hpos : 0 < (Spec.compared y ps).length := Nat.pos_of_ne_zero hne
        exact ⟨ps, rfl, k1, k2, hpos, rfl, Fractions.nonneg _ _ hpos, Fractions.le_one _ _ hpos (hits_le _)⟩
  · cases h

/-- C44: if the rows can be predicted, the true values belong to predicted features and to given rows, and there is at
least one, then there is a score. -/
theorem C44_scores [Ordered α] {cfg : GenConf α} {x : Ext α} {rows : List (List (String × Cell α))}
    {y : List (String × List (Cell α))} {e e' : Estimator α} {ps : List (Dict Label)}
    (hp : Estimator.predict cfg x rows e = (.ok ps, e')) (h1 : ∀ c ∈ y, c.2.length ≤ ps.length)
    (h2 : ∀ q ∈ Spec.compared y ps, q.2 ≠ none) (h3 : Spec.compared y ps ≠ []) :
    ∃ r, Estimator.score cfg x rows y e = (.ok r, e') := by
  have hg : e.generated = true := by
    unfold Estimator.predict at hp
    split at hp
    · assumption
    · cases hp
  rw [score_unfold, if_pos hg, hp]
  dsimp only
  rw [(scoreColumns_ok ps y _ _).2 ⟨h1, h2, rfl⟩]
  refine ⟨lit (Spec.hits (Spec.compared y ps) : Int) / lit ((Spec.compared y ps).length : Int), ?_⟩
  simp only [Nat.zero_add]
  show ((if (Spec.compared y ps).length = 0 then _ else _ : Except Err α), e') = _
  rw [if_neg (by simpa using h3)]

/-! ### Examples -/

theorem Ex.pair_of {σ : Type} (x : Except Err Unit × σ) (h : x.1.toOption = some ()) : x = (.ok (), x.2) := by
  rcases x with ⟨_ | u, s⟩
  · cases h
  · rfl

/-- A new estimator. -/
def Ex.est0 : Estimator ℚ :=
  match Estimator.new (FCM.new (activation := "saturation")) "KOSKO" true true with
  | .ok e => e
  | .error _ => ⟨false, Ex.sat0, none, [], []⟩

theorem Ex.est0_new : Spec.New Ex.est0 :=
  ⟨200, 5, true, dec 1 1000, "MEAN", true, "saturation", [], "KOSKO", true, true, rfl⟩

def Ex.xs : List (String × Column ℚ) := [("color", .strs ["red", "blue", "red"])]
def Ex.ys : List (String × Column ℚ) := [("class", .strs ["yes", "no", "yes"])]
def Ex.rows : List (List (String × Cell ℚ)) := [[("color", .str "red")], [("color", .str "blue")]]

/-- A fitted estimator. -/
def Ex.est1 : Estimator ℚ := (Estimator.fit Ex.conf Ex.ext Ex.xs Ex.ys Ex.est0).2

theorem Ex.est1_fit : Estimator.fit Ex.conf Ex.ext Ex.xs Ex.ys Ex.est0 = (.ok (), Ex.est1) :=
  Ex.pair_of _ (by decide +kernel)

theorem Ex.est1_ready : Spec.Ready Ex.conf Ex.est0 Ex.est1 := .fit .start _ _ _ Ex.est1_fit

example : ((Estimator.predict Ex.conf Ex.ext Ex.rows Ex.est1).1.toOption =
    some [[("class", .str "yes")], [("class", .str "no")]]) := by decide +kernel

/-- C43 on it. -/
example := C43_rows Ex.est0_new Ex.est1_ready Ex.ext Ex.rows

/-- Predicting twice. -/
example {ps : List (Dict Label)} {e : Estimator ℚ} (h : Estimator.predict Ex.conf Ex.ext Ex.rows Ex.est1 = (.ok ps, e)) :=
  C43_history Ex.est0_new Ex.est1_ready h Ex.ext Ex.rows
example : (Estimator.predict Ex.conf Ex.ext Ex.rows Ex.est1).1.toOption ≠ none := by decide +kernel

/-- C44: one of two labels is right. -/
example {r : ℚ} {e : Estimator ℚ}
    (h : Estimator.score Ex.conf Ex.ext Ex.rows [("class", [.str "yes", .str "yes"])] Ex.est1 = (.ok r, e)) := C44_accuracy h
example : (Estimator.score Ex.conf Ex.ext Ex.rows [("class", [.str "yes", .str "yes"])] Ex.est1).1.toOption = some (1/2) := by
  decide +kernel

/-- C55: before fitting, nothing can be predicted; after a fit, other data can be learned and only its concepts remain. -/
example := C55_unfitted Ex.est0_new (.start : Spec.Hist Ex.conf Ex.est0 false Ex.est0) Ex.ext Ex.rows

/-- C55: on the fitted estimator. -/
example := C55_refit Ex.est0_new (.start : Spec.Hist Ex.conf Ex.est0 false Ex.est0) (fun _ => .refl _) (by decide) Ex.est1_fit

/-- C61: fitting again, on other data, after predictions. -/
def Ex.ys2 : List (String × Column ℚ) := [("size", .strs ["big", "small", "small"])]
def Ex.est2 : Estimator ℚ := (Estimator.predict Ex.conf Ex.ext Ex.rows Ex.est1).2
def Ex.est3 : Estimator ℚ := (Estimator.fit Ex.conf Ex.ext Ex.xs Ex.ys2 Ex.est2).2
theorem Ex.est3_fit : Estimator.fit Ex.conf Ex.ext Ex.xs Ex.ys2 Ex.est2 = (.ok (), Ex.est3) :=
  Ex.pair_of _ (by decide +kernel)
example := C61_refit Ex.est0_new (.predict (.fit .start _ _ _ Ex.est1_fit) Ex.ext Ex.rows) Ex.est3_fit
example : Ex.est3.fcm.topology.keys = ["blue___color", "red___color", "big___size", "small___size"] := by decide +kernel
example : Ex.est2.fcm.prepared = true := by decide +kernel

end PyFCM
