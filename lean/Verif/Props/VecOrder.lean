import Verif.Props.VecPredict
/-
C103 with the vectorised engine: the order of the columns does not change which rows can be predicted, nor the labels.
-/
namespace PyFCM
open Arith Spec

theorem pairwise_perm {β : Type} {R : β → β → Prop} (hs : ∀ a b, R a b → R b a) {l l' : List β} (h : l.Perm l')
    (hp : l.Pairwise R) : l'.Pairwise R := (h.pairwise_iff (fun {a b} h => hs a b h)).1 hp

theorem NoParallel.perm {α : Type} {l l' : List (Arc α)} (h : NoParallel l) (hp : l.Perm l') : NoParallel l' :=
  pairwise_perm (fun _ _ h e => h ⟨e.1.symm, e.2.symm⟩) hp h

/-- Without repeated relations the order does not matter to the vectorised engine either. -/
theorem Mirror.next_vector {α : Type} [Arith α] [Exact α] {m n : FCM α} (h : Mirror m n) (hp : NoParallel m.arcList)
    (A : String → α) (c : String) : Spec.next n.net.vector A c = Spec.next m.net.vector A c := by
  have hcon : n.net.vector.concept = m.net.vector.concept := by
    funext e
    show ((n.topology.get? e).bind _).map _ = ((m.topology.get? e).bind _).map _
    cases ha : m.topology.get? e with
    | none => rw [h.get_none ha]
    | some a =>
      obtain ⟨b, hb, e⟩ := h.get ha
      rw [hb]
      show b.plain.toSpec.map _ = a.plain.toSpec.map _
      rw [e]
  have hrel : n.net.vector.rels.Perm m.net.vector.rels := by
    show (latest (n.arcList.map Arc.toSpec)).Perm (latest (m.arcList.map Arc.toSpec))
    rw [latest_map, latest_map, latestArcs_eq hp, latestArcs_eq (hp.perm h.arcs.symm)]
    exact h.arcs.map _
  have hin : total (inputs n.net.vector A c) = total (inputs m.net.vector A c) := by
    apply total_perm
    unfold inputs
    have : along n.net.vector A c = along m.net.vector A c := by
      funext r; unfold along; rw [hcon]
    rw [this]
    exact hrel.filterMap _
  unfold Spec.next
  rw [hcon, hin]

/-- Two runs of the vectorised engine on such maps. -/
theorem vec_akin {m n m' n' : FCM ℝ} (h : Mirror m n) (hrec : Recs m n) (hp : NoParallel m.arcList) (cm : CleanInv m)
    (cn : CleanInv n) (om : Coherent m) (on : Coherent n) (hd : m.debug = false) (hne : m.topology ≠ [])
    (hnode : ∀ c n f, m.topology.get? c = some n → n.fn = some f → ProperArgs f ∧ TameArgs f)
    (hstart : ∀ c ∈ m.topology.keys, -1 ≤ at' m.traj 0 c ∧ at' m.traj 0 c ≤ 1)
    (hm : FCM.runInference true m = (.ok (), m')) (hn : FCM.runInference true n = (.ok (), n')) :
    ∀ c, n'.traj c = m'.traj c ∧ n'.getConceptValue c = m'.getConceptValue c := by
  obtain ⟨z, z0, zo, zr⟩ := vec_orbit cm hnode hstart
  have hkw : KwArgs m := fun c n f a b => (hnode c n f a b).1.kw
  have hkn : KwArgs n := fun c b f hb hf => by
    obtain ⟨a, ha, e⟩ := h.symm.get hb
    exact hkw c a f ha ((congrArg Node.fn e :).trans hf)
  have hperm : n.topology.keys.Perm m.topology.keys := (List.perm_ext_iff_of_nodup cn.inv.tnd cm.inv.tnd).2 h.keys
  have z0' : ∀ k ∈ n.topology.keys, z 0 k = at' n.traj 0 k := by
    intro k hk
    rw [z0 k ((h.keys k).1 hk)]
    unfold at' FCM.traj
    rw [hrec k]
  have zo' : Orbit n.net.vector n.topology.keys z := fun t c hc => by
    rw [h.next_vector hp]; exact zo t c ((h.keys c).1 hc)
  have hne' : n.topology ≠ [] := fun e => hne (by
    have := hperm.length_eq
    rw [e] at this
    exact List.eq_nil_of_length_eq_zero (by simpa [Dict.keys, eq_comm] using this))
  obtain ⟨l, l1, l2, l3⟩ := vec_records cm om hd hne hkw z0 zo (not_two zr) hm
  obtain ⟨l', k1, k2, k3⟩ := vec_records cn on ((congrArg FCM.debug h.settings :).trans hd) hne' hkn z0' zo'
    (fun t k hk => not_two zr t k ((h.keys k).1 hk)) hn
  have hlev : Level n.topology.keys z n.stabilityDiff = Level m.topology.keys z m.stabilityDiff := by
    funext s
    unfold Level
    rw [show n.stabilityDiff = m.stabilityDiff from (congrArg FCM.stabilityDiff h.settings :), total_perm (hperm.map (z s)),
      total_perm (hperm.map (z (s - 1)))]
  rw [hlev, show n.extraSteps = m.extraSteps from (congrArg FCM.extraSteps h.settings :)] at k2
  have hl := StopsAt.unique l2 k2
  subst hl
  have hmx : n.maxIter = m.maxIter := (congrArg FCM.maxIter h.settings :)
  have im' : CleanInv m' := (Op.runInference true).clean cm hm
  have in' : CleanInv n' := (Op.runInference true).clean cn hn
  have vm : m'.view = m.view := by have := run_view true m; rwa [hm] at this
  have vn : n'.view = n.view := by have := run_view true n; rwa [hn] at this
  have htr : ∀ c, n'.traj c = m'.traj c := by
    intro c
    by_cases hc : c ∈ m.topology.keys
    · rw [l3 c hc, k3 c ((h.keys c).2 hc), hmx]
    · rw [im'.inv.traj_nil (by rw [view_keys vm]; exact hc), in'.inv.traj_nil (by rw [view_keys vn, h.keys]; exact hc)]
  intro c
  refine ⟨htr c, ?_⟩
  by_cases hc : c ∈ m.topology.keys
  · obtain ⟨v, hv, dv⟩ := final_value_of cm.inv hm hc
    obtain ⟨w, hw, dw⟩ := final_value_of cn.inv hn ((h.keys c).2 hc)
    rw [show n.decisionName = m.decisionName from (congrArg FCM.decisionName h.settings :),
      show n.extraSteps = m.extraSteps from (congrArg FCM.extraSteps h.settings :), htr c, dv] at dw
    rw [hv, hw, ← dw]
  · have e1 : m'.topology.get? c = none := (Dict.get?_eq_none_iff _ _).2 (by rw [view_keys vm]; exact hc)
    have e2 : n'.topology.get? c = none := (Dict.get?_eq_none_iff _ _).2 (by rw [view_keys vn, h.keys]; exact hc)
    simp [FCM.getConceptValue, e1, e2]

theorem settles_mirror {m n : FCM ℝ} (h : Mirror m n) (hp : NoParallel m.arcList) (im : Inv m) (in' : Inv n) {A B : String → ℝ}
    (hA : ∀ c ∈ m.topology.keys, B c = A c) {d : ℝ} {extra : Nat} {bound : Int}
    (hs : Settles m.net.vector m.topology.keys A d extra bound) : Settles n.net.vector n.topology.keys B d extra bound := by
  obtain ⟨x, x0, xo, l, l1, l2, l3⟩ := hs
  have hperm : n.topology.keys.Perm m.topology.keys := (List.perm_ext_iff_of_nodup in'.tnd im.tnd).2 h.keys
  refine ⟨x, fun c hc => ?_, fun t c hc => ?_, l, l1, l2, fun s a b => ?_⟩
  · have hc := (h.keys c).1 hc
    rw [x0 c hc, hA c hc]
  · rw [h.next_vector hp]
    exact xo t c ((h.keys c).1 hc)
  · rw [(hperm.map (x s)).sum_eq, (hperm.map (x (s - 1))).sum_eq]
    exact l3 s a b

/-- A fitted map has no repeated relations. -/
theorem fit_single {α : Type} [Arith α] [Ordered α] {cfg : GenConf α} {x : Ext α} (hx : ∀ l, (x.order l).Perm l)
    {xs ys : List (String × Column α)} (hr : Readable cfg x (xs ++ ys)) {e0 e e1 : Estimator α} {b : Bool} (hn : New e0)
    (h : Hist cfg e0 b e) (hf : Estimator.fit cfg x xs ys e = (.ok (), e1)) : NoParallel e1.fcm.arcList := by
  obtain ⟨he, -⟩ := h.ok hn
  rcases fit_cases he hf with ⟨err, h1, -⟩ | ⟨m0, g, hm, hb, rfl⟩
  · cases h1
  rw [joinColumns_disjoint hr.columns] at hb
  obtain ⟨W, L, hB⟩ := buildFcm_built hx hr.columns hb
  have hnd := hB.nodup (hB.names_nodup hr)
  have a0 := inv_noarcs (emptied_clean hm) hm.topology
  show NoParallel g.fcm.arcList
  rw [hB.arcs, a0, List.nil_append]
  unfold NoParallel
  rw [List.Nodup, List.pairwise_map] at hnd
  exact hnd.imp fun h e => h (Prod.ext e.1 e.2)

section fitted

variable {env : ClusterEnv ℝ} {s : String} {cfg : GenConf ℝ} {x x' : Ext ℝ} {o : List String → List String}
  {xs ys xs' ys' : List (String × Column ℝ)} {e0 e e' e1 e1' : Estimator ℝ} {b b' : Bool}

/-- One row. -/
theorem predictRow_reordered (he : Spec.Env env) (hs : Spec.Strategy s) (hi : cfg.inferType = true)
    (hn : Spec.New e0) (h : Spec.Hist cfg e0 b e) (h' : Spec.Hist cfg e0 b' e') (hx : ∀ l, (x.order l).Perm l)
    (ho : ∀ l, (o l).Perm l) (hr : Spec.Readable cfg (x.standard env s) (xs ++ ys)) (hxs : xs'.Perm xs) (hys : ys'.Perm ys)
    (hf : Estimator.fit cfg (x.standard env s) xs ys e = (.ok (), e1))
    (hf' : Estimator.fit cfg (Ext.standard env s { x with order := o }) xs' ys' e' = (.ok (), e1'))
    (hfn : e0.fcm.default.fn.name ≠ "fuzzy")
    (hargs : ProperArgs e0.fcm.default.fn) (htame : TameArgs e0.fcm.default.fn) (hdbg : e0.fcm.debug = false)
    (hne : e1.fcm.topology ≠ [])
    {m n : FCM ℝ} (hm : Sound m) (hm' : Sound n) (hv : m.view = e1.fcm.view) (hv' : n.view = e1'.fcm.view)
    (hb : m.bare = e0.fcm.bare) (hb' : n.bare = e0.fcm.bare)
    (hord : ∀ f, n.execution.keys.filter (belongs cfg f) = m.execution.keys.filter (belongs cfg f))
    {row : List (String × Cell ℝ)} (hrow : Spec.UsableRow cfg x' (xs ++ ys) row) {p p' : Dict Label} {m' n' : FCM ℝ}
    (hp : predictRow cfg x' e1.features row m = (.ok p, m')) (hp' : predictRow cfg x' e1'.features row n = (.ok p', n')) :
    (∀ f, p'.get? f = p.get? f) ∧
      ∀ f, n'.execution.keys.filter (belongs cfg f) = m'.execution.keys.filter (belongs cfg f) := by
  have hf'' : Estimator.fit cfg { x.standard env s with order := o } xs' ys' e' = (.ok (), e1') := hf'
  obtain ⟨hR, hfe, -⟩ := fit_reordered (mul_comm : ∀ a b : ℝ, a * b = b * a) (x := x.standard env s) hx ho hr hxs hys hn h h' hf hf''
  have hperm : (xs' ++ ys').Perm (xs ++ ys) := hxs.append hys
  have hr' : Readable cfg (Ext.standard env s { x with order := o }) (xs' ++ ys') := hr.perm (o := o) hperm
  have hj := joinColumns_disjoint hr.columns
  obtain ⟨-, -, hk, -⟩ := fit_fitted (x := x.standard env s) hn h hx (hj ▸ hr) hf
  rw [hj] at hk
  have hrow' : Spec.UsableRow cfg x' (xs' ++ ys') row := fun p hp => by
    obtain ⟨q, hq, hqe⟩ := hrow p hp
    exact ⟨q, hperm.mem_iff.2 hq, hqe⟩
  have hb1 : e1.fcm.bare = e0.fcm.bare := ((h.fit (x.standard env s) xs ys hf).ok hn).1.settings
  have hb1' : e1'.fcm.bare = e0.fcm.bare := ((h'.fit _ xs' ys' hf').ok hn).1.settings
  have hmir : Mirror m n := hR.mirror.of hv (hb.trans hb1.symm) hv' (hb'.trans hb1'.symm)
  obtain ⟨m1, m2, c1, c2, c3, c4, c5⟩ := started (x' := x') he hs hi hn h hx hr hf hfn hm hv hrow
  obtain ⟨n1, n2, d1, d2, d3, d4, d5⟩ := started (x := { x with order := o }) (x' := x') he hs hi hn h' ho hr' hf' hfn hm' hv' hrow'
  obtain ⟨mk, rk⟩ := clear_mirror hmir hm.inv hm'.inv c1 d1
  obtain ⟨-, mk2, rk2⟩ := initRow_side cfg x' hfe row m1 n1 mk rk
  rw [c2, d2] at mk2 rk2
  obtain ⟨a, a2, a3, a4, a5⟩ := predictRow_ok hp
  rw [c1] at a3
  cases a3
  rw [c2] at a4
  cases a4
  obtain ⟨w, w2, w3, w4, w5⟩ := predictRow_ok hp'
  rw [d1] at w3
  cases w3
  rw [d2] at w4
  cases w4
  obtain ⟨ra, st, gr, f1, f2, f3⟩ := inferenceResult_ok a5
  obtain ⟨rb, st', gr', g1, g2, g3⟩ := inferenceResult_ok w5
  have hv2 : m2.view = e1.fcm.view := c3.quiet.view.trans hv
  have hb2 : m2.bare = e0.fcm.bare := by rw [c3.quiet.eq]; exact hb
  have hnode : ∀ c n f, m2.topology.get? c = some n → n.fn = some f → ProperArgs f ∧ TameArgs f := by
    intro c n f hc hfc
    have hck : c ∈ e1.fcm.topology.keys := by rw [← view_keys hv2]; exact Dict.mem_keys_of_get? hc
    obtain ⟨q, hq, hqc⟩ := hk c hck
    obtain ⟨n1, f1, g1, g2, g3⟩ := fitted_of he hs hi hn h hx hr hf hq hqc
    have := view_get hv2 c
    rw [hc, g1] at this
    have e : n.fn = some f1 := (congrArg Node.fn (Option.some.inj this) :).trans g2
    rw [hfc] at e
    cases e
    rcases g3 with ⟨-, rfl⟩ | ⟨-, -, g4, g5, -⟩
    · exact ⟨hargs, htame⟩
    · exact ⟨g4, g5⟩
  have hstart : ∀ c ∈ m2.topology.keys, -1 ≤ at' m2.traj 0 c ∧ at' m2.traj 0 c ≤ 1 := by
    intro c hc
    obtain ⟨a, as, ha⟩ := c4.exe c hc
    have := c5 c a as ha
    unfold at' FCM.traj
    rw [ha]
    exact this
  have hne2 : m2.topology ≠ [] := fun e => hne (by
    have := view_keys hv2
    rw [e] at this
    cases ht : e1.fcm.topology with
    | nil => rfl
    | cons p t => rw [ht] at this; cases this)
  have hsingle : NoParallel m2.arcList := by
    rw [view_arcs hv2]
    exact fit_single (x := x.standard env s) hx hr hn h hf
  have hval := vec_akin mk2 rk2 hsingle c4 d4 c3.sound.coherent d3.sound.coherent
    ((congrArg FCM.debug hb2 :).trans hdbg) hne2 hnode hstart ra rb
  obtain ⟨s1, t1, -⟩ := predictRow_calm hm hp
  obtain ⟨s2, t2, -⟩ := predictRow_calm hm' hp'
  have hmir' : Mirror m' n' := hmir.of t1.view (by rw [t1.eq]; rfl) t2.view (by rw [t2.eq]; rfl)
  have ho' : ∀ f, n'.execution.keys.filter (belongs cfg f) = m'.execution.keys.filter (belongs cfg f) := by
    intro f; rw [t1.ekeys, t2.ekeys]; exact hord f
  exact ⟨labels_mirror hfe hmir' (fun c => (hval c).2) ho' f1 f2 f3 g1 g2 g3, ho'⟩

/-- Several rows. -/
theorem predictRows_reordered (he : Spec.Env env) (hs : Spec.Strategy s) (hi : cfg.inferType = true)
    (hn : Spec.New e0) (h : Spec.Hist cfg e0 b e) (h' : Spec.Hist cfg e0 b' e') (hx : ∀ l, (x.order l).Perm l)
    (ho : ∀ l, (o l).Perm l) (hr : Spec.Readable cfg (x.standard env s) (xs ++ ys)) (hxs : xs'.Perm xs) (hys : ys'.Perm ys)
    (hf : Estimator.fit cfg (x.standard env s) xs ys e = (.ok (), e1))
    (hf' : Estimator.fit cfg (Ext.standard env s { x with order := o }) xs' ys' e' = (.ok (), e1'))
    (hfn : e0.fcm.default.fn.name ≠ "fuzzy")
    (hargs : ProperArgs e0.fcm.default.fn) (htame : TameArgs e0.fcm.default.fn) (hdbg : e0.fcm.debug = false)
    (hne : e1.fcm.topology ≠ []) : ∀ {rows : List (List (String × Cell ℝ))} {m n : FCM ℝ}, Sound m → Sound n →
    m.view = e1.fcm.view → n.view = e1'.fcm.view → m.bare = e0.fcm.bare → n.bare = e0.fcm.bare →
    (∀ f, n.execution.keys.filter (belongs cfg f) = m.execution.keys.filter (belongs cfg f)) →
    (∀ r ∈ rows, Spec.UsableRow cfg x' (xs ++ ys) r) → ∀ {ps ps' : List (Dict Label)} {m' n' : FCM ℝ},
    predictRows cfg x' e1.features rows m = (.ok ps, m') → predictRows cfg x' e1'.features rows n = (.ok ps', n') →
    List.Forall₂ (fun p p' => ∀ f, p'.get? f = p.get? f) ps ps'
  | [], m, n, _, _, _, _, _, _, _, _, ps, ps', m', n', hm, hn => by cases hm; cases hn; exact .nil
  | r :: rs, m, n, sm, sn, vm, vn, bm, bn, hord, hall, ps, ps', m', n', hp, hp' => by
    unfold predictRows at hp hp'
    obtain ⟨p, m1, h1, hp⟩ := bind_okP hp
    obtain ⟨ps1, m2, h2, hp⟩ := bind_okP hp
    obtain ⟨q, n1, h1', hp'⟩ := bind_okP hp'
    obtain ⟨qs1, n2, h2', hp'⟩ := bind_okP hp'
    obtain ⟨rfl, -⟩ := pure_okP hp
    obtain ⟨rfl, -⟩ := pure_okP hp'
    obtain ⟨hl, ho1⟩ := predictRow_reordered (x' := x') he hs hi hn h h' hx ho hr hxs hys hf hf' hfn hargs htame hdbg hne sm sn vm vn
      bm bn hord (hall r (by simp)) h1 h1'
    obtain ⟨s1, t1, -⟩ := predictRow_calm sm h1
    obtain ⟨s2, t2, -⟩ := predictRow_calm sn h1'
    exact .cons hl (predictRows_reordered he hs hi hn h h' hx ho hr hxs hys hf hf' hfn hargs htame hdbg hne s1 s2
      (t1.view.trans vm) (t2.view.trans vn) (by rw [t1.eq]; exact bm) (by rw [t2.eq]; exact bn) ho1
      (fun r' hr' => hall r' (by simp [hr'])) h2 h2')

end fitted

/-- C103, real arithmetic, with the vectorised engine: both calls of `fit` return, the learned maps differ only in their order, and the
two estimators predict the same labels for the same rows; in particular one returns whenever the other does. -/
theorem C103_vectorised {env : ClusterEnv ℝ} (he : Spec.Env env) {s : String} (hs : Spec.Strategy s) {cfg : GenConf ℝ}
    (hi : cfg.inferType = true) (hcfg : Spec.Safe cfg) {x x' : Ext ℝ} (hx : ∀ l, (x.order l).Perm l)
    {o : List String → List String} (ho : ∀ l, (o l).Perm l) {maxIt extra : Int} {stab : Bool} {diff : ℝ} {dc : String}
    {mem : Bool} {act : String} {kwargs : Args ℝ} {exc : String} {fit : Bool} {e0 : Estimator ℝ}
    (h0 : Estimator.new (FCM.new maxIt extra stab diff dc mem act kwargs) exc true fit = .ok e0)
    (hk : ∃ v, processFunctionArgs kwargs = .ok v) {xs ys xs' ys' : List (String × Column ℝ)} {n : Nat}
    (hl : ∀ p ∈ xs ++ ys, (Spec.cells p.2).length = n) (hr : Readable cfg (x.standard env s) (xs ++ ys))
    (hxs : xs'.Perm xs) (hys : ys'.Perm ys) (hfn : act ≠ "fuzzy")
    (hargs : ∀ f, Activation.getFunctionByName act = some f → ProperArgs ⟨f, act, kwargs⟩ ∧ TameArgs ⟨f, act, kwargs⟩)
    (hdec : dc ≠ "EXITED") :
    ∃ e1 e1', Estimator.fit cfg (x.standard env s) xs ys e0 = (.ok (), e1) ∧
      Estimator.fit cfg (Ext.standard env s { x with order := o }) xs' ys' e0 = (.ok (), e1') ∧ Reordered e1.fcm e1'.fcm ∧
      (e1.fcm.topology ≠ [] → ∀ e2 e2', Since cfg e1 e2 → Since cfg e1' e2' → ∀ rows,
        ((∃ ps e3, Estimator.predict cfg x' rows e2 = (.ok ps, e3)) ↔
          ∃ ps' e3', Estimator.predict cfg x' rows e2' = (.ok ps', e3')) ∧
        ∀ ps ps' e3 e3', Estimator.predict cfg x' rows e2 = (.ok ps, e3) → Estimator.predict cfg x' rows e2' = (.ok ps', e3') →
          List.Forall₂ (fun p p' => ∀ f, p'.get? f = p.get? f) ps ps') := by
  have hmul : ∀ a b : ℝ, a * b = b * a := mul_comm
  have hn : New e0 := ⟨_, _, _, _, _, _, _, _, _, _, _, h0⟩
  have hp : (xs' ++ ys').Perm (xs ++ ys) := hxs.append hys
  obtain ⟨e1, hf⟩ := C66_fits he hs hi hcfg hx h0 hk hl
  obtain ⟨e1', hf'⟩ := C66_fits (x := { x with order := o }) he hs hi hcfg ho h0 hk (xs := xs') (ys := ys')
    fun p hm => hl p (hp.mem_iff.1 hm)
  have hf'' : Estimator.fit cfg { x.standard env s with order := o } xs' ys' e0 = (.ok (), e1') := hf'
  obtain ⟨hR, hfe, hord⟩ := fit_reordered hmul (x := x.standard env s) hx ho hr hxs hys hn .start .start hf hf''
  refine ⟨e1, e1', hf, hf', hR, fun hne e2 e2' hs2 hs2' rows => ?_⟩
  have hr' : Readable cfg (Ext.standard env s { x with order := o }) (xs' ++ ys') := hr.perm (o := o) hp
  have hne' : e1'.fcm.topology ≠ [] := fun e => hne (by
    have := hR.concepts.length_eq
    rw [e] at this
    exact List.eq_nil_of_length_eq_zero (by simpa [Dict.keys, eq_comm] using this))
  have s1 : Sound e1.fcm := fit_sound (Hist.start (cfg := cfg).ok hn).1 hf
  have s1' : Sound e1'.fcm := fit_sound (Hist.start (cfg := cfg).ok hn).1 hf'
  have hb1 : e1.fcm.bare = e0.fcm.bare := ((Hist.start.fit (x.standard env s) xs ys hf).ok hn).1.settings
  have hb1' : e1'.fcm.bare = e0.fcm.bare := ((Hist.start.fit _ xs' ys' hf').ok hn).1.settings
  have p1 := C106_predicts (x' := x') he hs hi h0 .start hx hr hf hs2 hfn hargs hdec hne rows
  have p2 := C106_predicts (x := { x with order := o }) (x' := x') he hs hi h0 .start ho hr' hf' hs2' hfn hargs hdec hne' rows
  have hu : ∀ r, UsableRow cfg x' (xs' ++ ys') r ↔ UsableRow cfg x' (xs ++ ys) r := by
    intro r
    unfold UsableRow
    simp only [hp.mem_iff]
  have hsingle := fit_single (x := x.standard env s) hx hr hn .start hf
  obtain ⟨d, f, g, g1, g2, g3, g4, g5, -, g7, -, g9, -, g11, -, -, -, g15⟩ := new_settings h0
  have hfn0 : e0.fcm.default.fn.name ≠ "fuzzy" := by rw [g15]; exact hfn
  -- a row sets the same activations
  have hst : ∀ r, UsableRow cfg x' (xs ++ ys) r → ∃ A : String → ℝ, (∀ B, RowStart cfg x' e1 r B ↔ ∀ c ∈ e1.fcm.topology.keys, B c = A c) ∧
      ∀ B, RowStart cfg x' e1' r B ↔ ∀ c ∈ e1'.fcm.topology.keys, B c = A c := by
    intro r hru
    obtain ⟨m1, m2, c1, c2, -⟩ := started (x' := x') he hs hi hn .start hx hr hf hfn0 s1 rfl hru
    obtain ⟨n1, n2, d1, d2, -⟩ := started (x := { x with order := o }) (x' := x') he hs hi hn .start ho hr' hf' hfn0 s1' rfl
      ((hu r).2 hru)
    obtain ⟨mk, rk⟩ := clear_mirror hR.mirror s1.inv s1'.inv c1 d1
    obtain ⟨-, -, rk2⟩ := initRow_side cfg x' hfe r m1 n1 mk rk
    rw [c2, d2] at rk2
    refine ⟨fun c => at' m2.traj 0 c, fun B => ⟨?_, fun hB => ⟨m1, m2, c1, c2, hB⟩⟩, fun B => ⟨?_, fun hB => ⟨n1, n2, d1, d2, ?_⟩⟩⟩
    · rintro ⟨a, a2, b1, b2, b3⟩
      rw [c1] at b1
      cases b1
      rw [c2] at b2
      cases b2
      exact b3
    · rintro ⟨a, a2, b1, b2, b3⟩ c hc
      rw [d1] at b1
      cases b1
      rw [d2] at b2
      cases b2
      rw [b3 c hc]
      unfold at' FCM.traj
      rw [rk2 c]
    · intro c hc
      rw [hB c hc]
      unfold at' FCM.traj
      rw [rk2 c]
  constructor
  · rw [p1, p2]
    refine forall_congr' fun r => forall_congr' fun _ => ?_
    rw [hu r]
    refine and_congr_right fun hru => ?_
    obtain ⟨A, hA, hA'⟩ := hst r hru
    constructor
    · rintro ⟨B, hB, hS⟩
      exact ⟨A, (hA' A).2 fun _ _ => rfl, settles_mirror hR.mirror hsingle s1.inv s1'.inv
        (fun c hc => ((hA B).1 hB c hc).symm) hS⟩
    · rintro ⟨B, hB, hS⟩
      exact ⟨A, (hA A).2 fun _ _ => rfl, settles_mirror hR.mirror.symm (hsingle.perm hR.relations.symm) s1'.inv s1.inv
        (fun c hc => ((hA' B).1 hB c hc).symm) hS⟩
  · intro ps ps' e3 e3' hp1 hp2
    have hall : ∀ r ∈ rows, UsableRow cfg x' (xs ++ ys) r := fun r hr => ((p1.1 ⟨_, _, hp1⟩) r hr).1
    obtain ⟨hok, -⟩ := (hs2.hist .start hf).ok hn
    obtain ⟨hok', -⟩ := (hs2'.hist .start hf').ok hn
    obtain ⟨m, hm⟩ := predict_ok hp1
    obtain ⟨m', hm'⟩ := predict_ok hp2
    rw [hs2.same.1] at hm
    rw [hs2'.same.1] at hm'
    exact predictRows_reordered he hs hi hn .start .start hx ho hr hxs hys hf hf' hfn0 (by rw [g15]; exact (hargs f g2).1)
      (by rw [g15]; exact (hargs f g2).2) (by rw [g11]; rfl) hne (hs2.sound s1) (hs2'.sound s1') hs2.same.2 hs2'.same.2
      hok.settings hok'.settings (fun f => by rw [hs2.order s1, hs2'.order s1', hord]) hall hm hm'

/-- A categorical and a numeric column, in both orders of the set of features. -/
example := C103_vectorised (x' := Ex.realExt) exEnv_ok (.inl rfl) rfl (safe_default rfl rfl rfl) (x := Ex.realExt) (fun l => .refl _)
  (o := List.reverse) (fun _ => List.reverse_perm _) Ex.est0v_new ⟨[], rfl⟩ (n := 11) (by
    intro p hp
    simp only [Ex.xsn, Ex.ysn, List.cons_append, List.nil_append, List.mem_cons, List.not_mem_nil, or_false] at hp
    rcases hp with rfl | rfl <;> rfl) Ex.n_readable (.refl _) (.refl _) (by decide)
  (fun f h => by cases h; exact ⟨.inl rfl, trivial⟩) (by decide)

end PyFCM
