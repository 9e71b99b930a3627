import Verif.Lemmas.Permuted
import Verif.Lemmas.Heads
import Verif.Props.Predicts
/-
C103: what is learned, predicted and scored does not depend on the order of the columns of the table, nor on the order in
which Python iterates the set of features already processed.
-/
namespace PyFCM
open Arith Spec

set_option linter.unusedSectionVars false

variable {α : Type} [Arith α]

/-- The maps have the same settings, the same concepts and the same relations; only the orders in which these are stored
differ. -/
structure Spec.Reordered (m n : FCM α) : Prop where
  settings : n.bare = m.bare
  concepts : n.topology.keys.Perm m.topology.keys
  relations : n.arcList.Perm m.arcList
  /-- every concept has the same type, functions, weight sum …, and the same relations -/
  node : ∀ c a, m.topology.get? c = some a →
    ∃ b, n.topology.get? c = some b ∧ b.arcs.Perm a.arcs ∧ b = { a with arcs := b.arcs }

section built
variable {cfg : GenConf α} {x : Ext α} {o : List String → List String} {ts ts' : List String}
  {cols cols' : List (String × Column α)} {m0 m0' : FCM α} {W W' : List (Work α)} {L L' : List (Arc α)} {g g' : Gen α}

theorem inv_noarcs {m : FCM α} (h : CleanInv m) (ht : m.topology = []) : m.arcList = [] := by
  rw [List.eq_nil_iff_forall_not_mem]
  intro a ha
  have := (h.inv.ends a ha).1
  rw [ht] at this
  cases this

theorem inv_noexec {m : FCM α} (h : CleanInv m) (ht : m.topology = []) : m.execution.keys = [] := by
  rw [List.eq_nil_iff_forall_not_mem]
  intro a ha
  have := h.inv.sub a ha
  rw [ht] at this
  cases this

theorem Built.reordered [Ordered α] [Exact α] (hmul : ∀ a b : α, a * b = b * a) (hr : Readable cfg x cols)
    (hp : cols'.Perm cols) (ht : ∀ q ∈ cols, q.1 ∈ ts' ↔ q.1 ∈ ts) (c0 : CleanInv m0) (c0' : CleanInv m0')
    (hb : m0'.bare = m0.bare) (t0 : m0.topology = []) (t0' : m0'.topology = []) (hfit : m0.fitInclination = none)
    (bg : g.fcm.bare = m0.bare) (bg' : g'.fcm.bare = m0'.bare)
    (hB : Built cfg x ts cols m0 W L g) (hB' : Built cfg { x with order := o } ts' cols' m0' W' L' g') :
    Reordered g.fcm g'.fcm ∧ ∀ f, g'.features.get? f = g.features.get? f := by
  have a0 := inv_noarcs c0 t0
  have a0' := inv_noarcs c0' t0'
  obtain ⟨hw, hL⟩ := Built.permuted hmul hr hp ht hB hB'
  have hk : ∀ c, c ∈ g'.fcm.topology.keys ↔ c ∈ g.fcm.topology.keys := by
    intro c
    rw [hB.keys, hB'.keys, t0, t0']
    simp only [hw.mem_iff]
  refine ⟨⟨by rw [bg', bg, hb], ?_, by rw [hB.arcs, hB'.arcs, a0, a0']; simpa using hL,
    fun c a ha => Built.nodes hmul hr hp ht c0 c0' hb t0 t0' a0 a0' hfit hB hB' ha⟩, ?_⟩
  · exact (List.perm_ext_iff_of_nodup (hB'.clean c0').inv.tnd (hB.clean c0).inv.tnd).2 hk
  · intro f
    have key : ∀ {A B : List (Work α)}, A.Perm B → (A.map (·.1)).Nodup → ∀ F,
        Dict.get? (A.map fun w => (w.1, w.2.1)) f = some F → Dict.get? (B.map fun w => (w.1, w.2.1)) f = some F := by
      intro A B hAB hn F hF
      have hkn : Dict.keys (B.map fun w => (w.1, w.2.1)) = B.map (·.1) := by simp [Dict.keys]
      exact Dict.get?_of_mem (by rw [hkn]; exact (hAB.map _).nodup_iff.1 hn) ((hAB.map _).mem_iff.1 (Dict.get?_mem hF))
    have n1 : (W.map (·.1)).Nodup := by rw [hB.wnames]; exact hr.columns
    have n2 : (W'.map (·.1)).Nodup := (hw.map _).nodup_iff.2 n1
    rw [hB.features, hB'.features]
    cases h1 : Dict.get? (W.map fun w => (w.1, w.2.1)) f with
    | some F => exact key hw.symm n1 F h1
    | none =>
      cases h2 : Dict.get? (W'.map fun w => (w.1, w.2.1)) f with
      | none => rfl
      | some F => rw [key hw n2 F h2] at h1; cases h1

theorem Built.belongs [Ordered α] (hr : Readable cfg x cols) (hB : Built cfg x ts cols m0 W L g) {w : Work α} (hw : w ∈ W)
    (f : String) {c : String} (hc : c ∈ w.names) : belongs cfg f c = decide (w.1 = f) := by
  obtain ⟨p, hp, e, hF⟩ := hB.of_work hw
  obtain ⟨s, hs⟩ := ((mem_names hF c).1 hc).parse hr hp
  unfold PyFCM.belongs
  rw [hs, e]

/-- The concepts of a feature are listed in the same order. -/
theorem Built.same_order [Ordered α] (hr : Readable cfg x cols) (hw : W'.Perm W) (c0 : CleanInv m0)
    (c0' : CleanInv m0') (t0 : m0.topology = []) (t0' : m0'.topology = []) (hB : Built cfg x ts cols m0 W L g)
    (hB' : Built cfg { x with order := o } ts' cols' m0' W' L' g') (f : String) :
    g'.fcm.execution.keys.filter (PyFCM.belongs cfg f) = g.fcm.execution.keys.filter (PyFCM.belongs cfg f) := by
  have hnd := hB.names_nodup hr
  have hnd' : (W'.flatMap Work.names).Nodup := (hw.flatMap_right _).nodup_iff.2 hnd
  rw [hB.order, hB'.order, inv_noexec c0 t0, inv_noexec c0' t0', setAdd_foldl (W.flatMap Work.names) [] (by simpa using hnd),
    setAdd_foldl (W'.flatMap Work.names) [] (by simpa using hnd'), List.nil_append, List.nil_append]
  have key : ∀ A : List (Work α), (∀ w ∈ A, w ∈ W) → (A.flatMap Work.names).filter (PyFCM.belongs cfg f) =
      (A.filter fun w => decide (w.1 = f)).flatMap Work.names := by
    intro A
    induction A with
    | nil => intro _; rfl
    | cons w A ih =>
      intro hA
      have ih := ih fun v hv => hA v (by simp [hv])
      rw [List.flatMap_cons, List.filter_append, ih, List.filter_cons]
      by_cases hf : w.1 = f
      · rw [if_pos (by simpa using hf), List.flatMap_cons, List.filter_eq_self.2]
        intro c hc
        rw [hB.belongs hr (hA w (by simp)) f hc]
        simpa using hf
      · rw [if_neg (by simpa using hf), List.filter_eq_nil_iff.2, List.nil_append]
        intro c hc
        rw [hB.belongs hr (hA w (by simp)) f hc]
        simpa using hf
  rw [key W fun _ h => h, key W' fun _ h => hw.mem_iff.1 h]
  have hpf : (W'.filter fun w => decide (w.1 = f)).Perm (W.filter fun w => decide (w.1 = f)) := hw.filter _
  have hle : (W.filter fun w => decide (w.1 = f)).length ≤ 1 := by
    have n1 : (W.map (·.1)).Nodup := by rw [hB.wnames]; exact hr.columns
    match hl : W.filter fun w => decide (w.1 = f) with
    | [] => rw [hl]; simp
    | [a] => rw [hl]; simp
    | a :: b :: l =>
      exfalso
      have hs : [a, b].Sublist W := by
        refine .trans ?_ (List.filter_sublist (p := fun w : Work α => decide (w.1 = f)))
        rw [hl]
        simp
      have ha : a.1 = f := by
        have : a ∈ W.filter fun w => decide (w.1 = f) := by rw [hl]; simp
        simpa using (List.mem_filter.1 this).2
      have hb : b.1 = f := by
        have : b ∈ W.filter fun w => decide (w.1 = f) := by rw [hl]; simp
        simpa using (List.mem_filter.1 this).2
      have := n1.sublist (hs.map _)
      simp [ha, hb] at this
  match hl : W.filter fun w => decide (w.1 = f) with
  | [] => rw [hl] at hpf; rw [hpf.eq_nil, hl]
  | [a] => rw [hl] at hpf; rw [List.perm_singleton.1 hpf, hl]
  | a :: b :: l => rw [hl] at hle; simp at hle

end built

theorem Spec.Reordered.mirror {m n : FCM α} (h : Reordered m n) : Mirror m n := by
  refine ⟨h.settings, h.relations, fun c => ?_⟩
  cases ha : m.topology.get? c with
  | none =>
    cases hb : n.topology.get? c with
    | none => rfl
    | some b =>
      exact absurd (h.concepts.mem_iff.1 (Dict.mem_keys_of_get? hb)) ((Dict.get?_eq_none_iff _ _).1 ha)
  | some a =>
    obtain ⟨b, hb, -, e⟩ := h.node c a ha
    rw [hb]
    show some b.plain = some a.plain
    rw [e]
    rfl

/-! ### Learning -/

/-- C103: `build_fcm` of the columns in another order learns the same map. -/
theorem C103_learn [Ordered α] [Exact α] (hmul : ∀ a b : α, a * b = b * a) {cfg : GenConf α} {x : Ext α}
    {o : List String → List String} (hx : ∀ l, (x.order l).Perm l) (ho : ∀ l, (o l).Perm l) {ts ts' : List String}
    {cols cols' : List (String × Column α)} (hr : Readable cfg x cols) (hp : cols'.Perm cols)
    (ht : ∀ c, c ∈ ts' ↔ c ∈ ts) {given : Option (FCM α)}
    (hg : ∀ m, given = some m → CleanReachable m ∧ m.topology = [] ∧ m.fitInclination = none)
    {fit fit' : Bool} {g0 g0' g g' : Gen α} (h0 : Gen.new fit = .ok g0) (h0' : Gen.new fit' = .ok g0')
    (h : Gen.build cfg x ts cols given g0 = (.ok (), g))
    (h' : Gen.build cfg { x with order := o } ts' cols' given g0' = (.ok (), g')) :
    Reordered g.fcm g'.fcm ∧ ∀ f, g'.features.get? f = g.features.get? f := by
  obtain ⟨m0, hb, hm⟩ := build_from h0 h
  obtain ⟨m0', hb', hm'⟩ := build_from h0' h'
  have e : m0' = m0 := by
    rcases hm with hm | ⟨h1, hm⟩ <;> rcases hm' with hm' | ⟨h2, hm'⟩
    · rw [hm] at hm'; exact (Option.some.inj hm').symm
    · rw [hm] at h2; cases h2
    · rw [hm'] at h1; cases h1
    · rw [hm] at hm'; exact (Except.ok.inj hm').symm
  subst e
  have hc : CleanInv m0' ∧ m0'.topology = [] ∧ m0'.fitInclination = none := by
    rcases hm with hm | ⟨-, hm⟩
    · obtain ⟨a, b, c⟩ := hg _ hm
      exact ⟨a.clean, b, c⟩
    · exact ⟨(CleanReachable.new hm).clean, by unfold FCM.new at hm; split at hm <;> [cases hm; (split at hm <;> cases hm; rfl)],
        by unfold FCM.new at hm; split at hm <;> [cases hm; (split at hm <;> cases hm; rfl)]⟩
  obtain ⟨W, L, hB⟩ := buildFcm_built hx hr.columns hb
  obtain ⟨W', L', hB'⟩ := buildFcm_built (x := { x with order := o }) ho ((hp.map _).nodup_iff.2 hr.columns) hb'
  have b1 := buildFcm_pres (bare_gen m0') cfg x ts cols ⟨[], [], m0'⟩ rfl
  have b2 := buildFcm_pres (bare_gen m0') cfg { x with order := o } ts' cols' ⟨[], [], m0'⟩ rfl
  rw [hb] at b1
  rw [hb'] at b2
  exact Built.reordered hmul hr hp (fun q _ => ht q.1) hc.1 hc.1 rfl hc.2.1 hc.2.1 hc.2.2 b1 b2 hB hB'

theorem new_fit {e0 : Estimator α} (hn : New e0) : e0.fcm.fitInclination = none := by
  obtain ⟨_, _, _, _, _, _, _, _, _, _, _, h⟩ := hn
  obtain ⟨_, _, _, -, -, -, -, -, -, -, -, -, -, -, h12, -⟩ := new_settings h
  exact h12

/-- What two fits on the same columns have in common. -/
theorem fit_reordered [Ordered α] [Exact α] (hmul : ∀ a b : α, a * b = b * a) {cfg : GenConf α} {x : Ext α}
    {o : List String → List String} (hx : ∀ l, (x.order l).Perm l) (ho : ∀ l, (o l).Perm l)
    {xs ys xs' ys' : List (String × Column α)} (hr : Readable cfg x (xs ++ ys)) (hxs : xs'.Perm xs) (hys : ys'.Perm ys)
    {e0 e e' e1 e1' : Estimator α} {b b' : Bool} (hn : New e0) (h : Hist cfg e0 b e) (h' : Hist cfg e0 b' e')
    (hf : Estimator.fit cfg x xs ys e = (.ok (), e1))
    (hf' : Estimator.fit cfg { x with order := o } xs' ys' e' = (.ok (), e1')) :
    Reordered e1.fcm e1'.fcm ∧ (∀ f, e1'.features.get? f = e1.features.get? f) ∧
      ∀ f, e1'.fcm.execution.keys.filter (belongs cfg f) = e1.fcm.execution.keys.filter (belongs cfg f) := by
  obtain ⟨he, -⟩ := h.ok hn
  obtain ⟨he', -⟩ := h'.ok hn
  have hp : (xs' ++ ys').Perm (xs ++ ys) := hxs.append hys
  have hnd' : ((xs' ++ ys').map (·.1)).Nodup := (hp.map _).nodup_iff.2 hr.columns
  rcases fit_cases he hf with ⟨err, h1, -⟩ | ⟨m0, g, hm, hb, rfl⟩
  · cases h1
  rcases fit_cases he' hf' with ⟨err, h1, -⟩ | ⟨m0', g', hm', hb', rfl⟩
  · cases h1
  rw [joinColumns_disjoint hr.columns] at hb
  rw [joinColumns_disjoint hnd'] at hb'
  obtain ⟨W, L, hB⟩ := buildFcm_built hx hr.columns hb
  obtain ⟨W', L', hB'⟩ := buildFcm_built (x := { x with order := o }) ho hnd' hb'
  have b1 := buildFcm_pres (bare_gen m0) cfg x (ys.map (·.1)) (xs ++ ys) ⟨[], [], m0⟩ rfl
  have b2 := buildFcm_pres (bare_gen m0') cfg { x with order := o } (ys'.map (·.1)) (xs' ++ ys') ⟨[], [], m0'⟩ rfl
  rw [hb] at b1
  rw [hb'] at b2
  have ht : ∀ q ∈ xs ++ ys, q.1 ∈ ys'.map (·.1) ↔ q.1 ∈ ys.map (·.1) := fun q _ => (hys.map _).mem_iff
  have hfit : m0.fitInclination = none :=
    ((congrArg FCM.fitInclination hm.settings :) : m0.fitInclination = e0.fcm.fitInclination).trans (new_fit hn)
  have c0 := emptied_clean hm
  have c0' := emptied_clean hm'
  obtain ⟨r1, r2⟩ := Built.reordered hmul hr hp ht c0 c0' (hm'.settings.trans hm.settings.symm) hm.topology hm'.topology hfit
    b1 b2 hB hB'
  exact ⟨r1, r2, fun f => Built.same_order hr (Built.works_perm hr.columns hp ht hB hB') c0 c0' hm.topology hm'.topology hB hB' f⟩

/-- C103: so does `fit`, on the same estimator, whatever happened to it before. -/
theorem C103_fit [Ordered α] [Exact α] (hmul : ∀ a b : α, a * b = b * a) {cfg : GenConf α} {x : Ext α}
    {o : List String → List String} (hx : ∀ l, (x.order l).Perm l) (ho : ∀ l, (o l).Perm l)
    {xs ys xs' ys' : List (String × Column α)} (hr : Readable cfg x (xs ++ ys)) (hxs : xs'.Perm xs) (hys : ys'.Perm ys)
    {e0 e e' e1 e1' : Estimator α} {b b' : Bool} (hn : New e0) (h : Hist cfg e0 b e) (h' : Hist cfg e0 b' e')
    (hf : Estimator.fit cfg x xs ys e = (.ok (), e1))
    (hf' : Estimator.fit cfg { x with order := o } xs' ys' e' = (.ok (), e1')) :
    Reordered e1.fcm e1'.fcm :=
  (fit_reordered hmul hx ho hr hxs hys hn h h' hf hf').1

/-! ### Predicting -/

theorem predictRow_mirror [Exact α] {cfg : GenConf α} {x : Ext α} {fs gs : Dict (Feature α)}
    (he : ∀ f, gs.get? f = fs.get? f) {m n m' n' : FCM α} (h : Mirror m n) (sm : Sound m) (sn : Sound n)
    (hd : m.debug = true)
    (ho : ∀ f, n.execution.keys.filter (belongs cfg f) = m.execution.keys.filter (belongs cfg f))
    {row : List (String × Cell α)} {p q : Dict Label} (hm : predictRow cfg x fs row m = (.ok p, m'))
    (hn : predictRow cfg x gs row n = (.ok q, n')) :
    (∀ f, q.get? f = p.get? f) ∧ Mirror m' n' ∧ Sound m' ∧ Sound n' ∧ m'.debug = true ∧
      ∀ f, n'.execution.keys.filter (belongs cfg f) = m'.execution.keys.filter (belongs cfg f) := by
  obtain ⟨s1, t1, -⟩ := predictRow_calm sm hm
  obtain ⟨s2, t2, -⟩ := predictRow_calm sn hn
  obtain ⟨k, k2, a1, a2, a3⟩ := predictRow_ok hm
  obtain ⟨l, l2, b1, b2, b3⟩ := predictRow_ok hn
  obtain ⟨mk, rk⟩ := clear_mirror h sm.inv sn.inv a1 b1
  obtain ⟨-, mk2, rk2⟩ := initRow_side cfg x he row k l mk rk
  rw [a2, b2] at mk2 rk2
  obtain ⟨ra, st, gr, c1, c2, c3⟩ := inferenceResult_ok a3
  obtain ⟨rb, st', gr', d1, d2, d3⟩ := inferenceResult_ok b3
  have ik : Inv k := by have := clear_sound m sm; rw [a1] at this; exact this.inv
  have il : Inv l := by have := clear_sound n sn; rw [b1] at this; exact this.inv
  have ik2 : Inv k2 := by
    have := Pres.forEach (fun p _ => initByFeature_pres (fun c v r => (Op.initConcept c v r).pres) cfg x fs p.1 p.2) (xs := row) k ik
    unfold initRow at a2
    rw [a2] at this; exact this
  have il2 : Inv l2 := by
    have := Pres.forEach (fun p _ => initByFeature_pres (fun c v r => (Op.initConcept c v r).pres) cfg x gs p.1 p.2) (xs := row) l il
    unfold initRow at b2
    rw [b2] at this; exact this
  have hdk : k2.debug = true := by
    have e1 : k.bare = m.bare := by have := clear_bare m m rfl; rwa [a1] at this
    have e2 : k2.bare = k.bare := by
      have := Pres.forEach (fun p _ => initByFeature_pres (initConcept_bare k) cfg x fs p.1 p.2) (xs := row) k rfl
      unfold initRow at a2
      rw [a2] at this; exact this
    exact ((congrArg FCM.debug (e2.trans e1) :) : k2.debug = m.debug).trans hd
  have hdl : l2.debug = true := ((congrArg FCM.debug mk2.settings :) : l2.debug = k2.debug).trans hdk
  obtain ⟨la, ia⟩ := run_iter ik2 hdk ra
  obtain ⟨lb, ib⟩ := run_iter il2 hdl rb
  have hv := iter_akin (mk2.akin rk2) ia ib
  have hmir : Mirror m' n' := h.of t1.view (by rw [t1.eq]; rfl) t2.view (by rw [t2.eq]; rfl)
  have ho' : ∀ f, n'.execution.keys.filter (belongs cfg f) = m'.execution.keys.filter (belongs cfg f) := by
    intro f; rw [t1.ekeys, t2.ekeys]; exact ho f
  exact ⟨labels_mirror he hmir (fun c => (hv c).2) ho' c1 c2 c3 d1 d2 d3, hmir, s1, s2, by rw [t1.eq]; exact hd, ho'⟩

theorem predictRows_mirror [Exact α] {cfg : GenConf α} {x : Ext α} {fs gs : Dict (Feature α)}
    (he : ∀ f, gs.get? f = fs.get? f) : ∀ {rows : List (List (String × Cell α))} {m n m' n' : FCM α}, Mirror m n → Sound m →
    Sound n → m.debug = true →
    (∀ f, n.execution.keys.filter (belongs cfg f) = m.execution.keys.filter (belongs cfg f)) →
    ∀ {ps qs : List (Dict Label)}, predictRows cfg x fs rows m = (.ok ps, m') → predictRows cfg x gs rows n = (.ok qs, n') →
    List.Forall₂ (fun p q => ∀ f, q.get? f = p.get? f) ps qs
  | [], m, n, m', n', _, _, _, _, _, ps, qs, hm, hn => by cases hm; cases hn; exact .nil
  | r :: rs, m, n, m', n', h, sm, sn, hd, ho, ps, qs, hm, hn => by
    unfold predictRows at hm hn
    obtain ⟨p, m1, h1, hm⟩ := bind_okP hm
    obtain ⟨ps', m2, h2, hm⟩ := bind_okP hm
    obtain ⟨q, n1, h1', hn⟩ := bind_okP hn
    obtain ⟨qs', n2, h2', hn⟩ := bind_okP hn
    obtain ⟨rfl, -⟩ := pure_okP hm
    obtain ⟨rfl, -⟩ := pure_okP hn
    obtain ⟨a, b, c, d, e, f⟩ := predictRow_mirror he h sm sn hd ho h1 h1'
    exact .cons a (predictRows_mirror he b c d e f h2 h2')

theorem Spec.Since.order {cfg : GenConf α} {e1 e2 : Estimator α} (h : Since cfg e1 e2) (h1 : Sound e1.fcm) :
    e2.fcm.execution.keys = e1.fcm.execution.keys := by
  have hh : Heads e1.fcm.execution.keys e2.fcm := by
    have key : ∀ {e : Estimator α} (x : Ext α) rows, Heads e1.fcm.execution.keys e.fcm →
        Heads e1.fcm.execution.keys (Estimator.predict cfg x rows e).2.fcm := by
      intro e x rows he
      rcases predict_snd cfg x rows e with h1 | ⟨h1, -⟩
      · rw [h1]; exact he
      · rw [h1]; exact predictRows_heads _ cfg x _ rows _ he
    induction h with
    | start => exact List.prefix_refl _
    | predict _ x rows ih => exact key x rows ih
    | score _ x rows y ih => rw [score_snd]; exact key x rows ih
  exact Heads.keys h1 (h.sound h1) (fun c => by rw [view_keys h.same.2]) hh

theorem predict_ok {cfg : GenConf α} {x : Ext α} {rows : List (List (String × Cell α))} {e e' : Estimator α}
    {ps : List (Dict Label)} (h : Estimator.predict cfg x rows e = (.ok ps, e')) :
    ∃ m, predictRows cfg x e.features rows e.fcm = (.ok ps, m) := by
  unfold Estimator.predict at h
  split at h
  · rcases hp : predictRows cfg x e.features rows e.fcm with ⟨r, m⟩
    rw [hp] at h
    dsimp only at h
    obtain ⟨rfl, -⟩ := Prod.mk.inj h
    exact ⟨m, rfl⟩
  · cases h

/-- C103: the two fitted estimators predict the same labels. -/
theorem C103_predict [Ordered α] [Exact α] (hmul : ∀ a b : α, a * b = b * a) {cfg : GenConf α} {x x' : Ext α}
    {o : List String → List String} (hx : ∀ l, (x.order l).Perm l) (ho : ∀ l, (o l).Perm l)
    {xs ys xs' ys' : List (String × Column α)} (hr : Readable cfg x (xs ++ ys)) (hxs : xs'.Perm xs) (hys : ys'.Perm ys)
    {e0 e e' e1 e1' e2 e2' e3 e3' : Estimator α} {b b' : Bool} (hn : New e0) (hd : e0.fcm.debug = true)
    (h : Hist cfg e0 b e) (h' : Hist cfg e0 b' e') (hf : Estimator.fit cfg x xs ys e = (.ok (), e1))
    (hf' : Estimator.fit cfg { x with order := o } xs' ys' e' = (.ok (), e1')) (hs : Since cfg e1 e2)
    (hs' : Since cfg e1' e2') {rows : List (List (String × Cell α))} {ps ps' : List (Dict Label)}
    (hp : Estimator.predict cfg x' rows e2 = (.ok ps, e3)) (hp' : Estimator.predict cfg x' rows e2' = (.ok ps', e3')) :
    List.Forall₂ (fun p p' => ∀ f, p'.get? f = p.get? f) ps ps' := by
  obtain ⟨r1, r2, r3⟩ := fit_reordered hmul hx ho hr hxs hys hn h h' hf hf'
  have s1 := fit_sound (h.ok hn).1 hf
  have s1' := fit_sound (h'.ok hn).1 hf'
  obtain ⟨hok, -⟩ := (hs.hist h hf).ok hn
  obtain ⟨hok', -⟩ := (hs'.hist h' hf').ok hn
  obtain ⟨hok1, -⟩ := (Hist.fit h x xs ys hf).ok hn
  obtain ⟨hok1', -⟩ := (Hist.fit h' _ xs' ys' hf').ok hn
  obtain ⟨m, hm⟩ := predict_ok hp
  obtain ⟨m', hm'⟩ := predict_ok hp'
  rw [hs.same.1] at hm
  rw [hs'.same.1] at hm'
  refine predictRows_mirror r2 (r1.mirror.of hs.same.2 (hok.settings.trans hok1.settings.symm) hs'.same.2
    (hok'.settings.trans hok1'.settings.symm)) (hs.sound s1) (hs'.sound s1') ?_ (fun f => ?_) hm hm'
  · exact ((congrArg FCM.debug hok.settings :) : e2.fcm.debug = e0.fcm.debug).trans hd
  · rw [hs.order s1, hs'.order s1', r3]

theorem scoreColumn_get {f : String} : ∀ (vs : List (Cell α)) {ps qs : List (Dict Label)} (acc : Nat × Nat),
    List.Forall₂ (fun p q => ∀ f, q.get? f = p.get? f) ps qs → scoreColumn f vs qs acc = scoreColumn f vs ps acc
  | [], ps, qs, acc, h => by unfold scoreColumn; rfl
  | v :: vs, _, _, acc, .nil => rfl
  | v :: vs, _, _, (r, t), .cons (a := p) (b := q) h1 h2 => by
    unfold scoreColumn
    rw [h1 f]
    cases need f (p.get? f) with
    | error e => rfl
    | ok l => exact scoreColumn_get vs _ h2

theorem scoreColumns_get {ps qs : List (Dict Label)} (h : List.Forall₂ (fun p q => ∀ f, q.get? f = p.get? f) ps qs) :
    ∀ (y : List (String × List (Cell α))) (acc : Nat × Nat), scoreColumns qs y acc = scoreColumns ps y acc
  | [], acc => rfl
  | (f, vs) :: y, acc => by
    unfold scoreColumns
    rw [scoreColumn_get vs acc h]
    cases scoreColumn f vs ps acc with
    | error e => rfl
    | ok acc' => exact scoreColumns_get h y acc'

/-- C103: and have the same score. -/
theorem C103_score [Ordered α] [Exact α] (hmul : ∀ a b : α, a * b = b * a) {cfg : GenConf α} {x x' : Ext α}
    {o : List String → List String} (hx : ∀ l, (x.order l).Perm l) (ho : ∀ l, (o l).Perm l)
    {xs ys xs' ys' : List (String × Column α)} (hr : Readable cfg x (xs ++ ys)) (hxs : xs'.Perm xs) (hys : ys'.Perm ys)
    {e0 e e' e1 e1' e2 e2' e3 e3' : Estimator α} {b b' : Bool} (hn : New e0) (hd : e0.fcm.debug = true)
    (h : Hist cfg e0 b e) (h' : Hist cfg e0 b' e') (hf : Estimator.fit cfg x xs ys e = (.ok (), e1))
    (hf' : Estimator.fit cfg { x with order := o } xs' ys' e' = (.ok (), e1')) (hs : Since cfg e1 e2)
    (hs' : Since cfg e1' e2') {rows : List (List (String × Cell α))} {y : List (String × List (Cell α))} {s s' : α}
    (hp : Estimator.score cfg x' rows y e2 = (.ok s, e3)) (hp' : Estimator.score cfg x' rows y e2' = (.ok s', e3')) :
    s' = s := by
  rw [score_unfold] at hp hp'
  split at hp
  · split at hp'
    · rcases h1 : Estimator.predict cfg x' rows e2 with ⟨er | ps, e4⟩
      · rw [h1] at hp; cases hp
      rcases h2 : Estimator.predict cfg x' rows e2' with ⟨er | ps', e4'⟩
      · rw [h2] at hp'; cases hp'
      have := C103_predict hmul hx ho hr hxs hys hn hd h h' hf hf' hs hs' h1 h2
      rw [h1] at hp
      rw [h2] at hp'
      dsimp only at hp hp'
      rw [scoreColumns_get this] at hp'
      have e1 := (Prod.mk.inj hp).1
      have e2 := (Prod.mk.inj hp').1
      rw [e1] at e2
      exact (Except.ok.inj e2).symm
    · cases hp'
  · cases hp

/-! ### Real arithmetic -/

theorem Spec.Readable.perm {cfg : GenConf α} {x : Ext α} {o : List String → List String} {cols cols' : List (String × Column α)}
    (h : Readable cfg x cols) (hp : cols'.Perm cols) : Readable cfg { x with order := o } cols' :=
  ⟨(hp.map _).nodup_iff.2 h.columns, h.sep, fun p hm => h.feats p (hp.mem_iff.1 hm),
    fun p hm => h.values p (hp.mem_iff.1 hm), fun p hm => h.floats p (hp.mem_iff.1 hm), fun p hm => h.clusters p (hp.mem_iff.1 hm)⟩

/-- C103, real arithmetic: with inferred types and safe measures both calls of `fit` return, and the two estimators accept the
same rows and predict the same labels. -/
theorem C103_real {env : ClusterEnv ℝ} (he : Spec.Env env) {s : String} (hs : Spec.Strategy s) {cfg : GenConf ℝ}
    (hi : cfg.inferType = true) (hcfg : Spec.Safe cfg) {x x' : Ext ℝ} (hx : ∀ l, (x.order l).Perm l)
    {o : List String → List String} (ho : ∀ l, (o l).Perm l) {maxIt extra : Int} {stab : Bool} {diff : ℝ} {dc : String}
    {mem : Bool} {act : String} {kwargs : Args ℝ} {exc : String} {fit : Bool} {e0 : Estimator ℝ}
    (h0 : Estimator.new (FCM.new maxIt extra stab diff dc mem act kwargs) exc false fit = .ok e0)
    (hk : ∃ v, processFunctionArgs kwargs = .ok v) {xs ys xs' ys' : List (String × Column ℝ)} {n : Nat}
    (hl : ∀ p ∈ xs ++ ys, (Spec.cells p.2).length = n) (hr : Readable cfg (x.standard env s) (xs ++ ys))
    (hxs : xs'.Perm xs) (hys : ys'.Perm ys) (hfn : act ≠ "fuzzy")
    (hargs : ∀ f, Activation.getFunctionByName act = some f → ProperArgs ⟨f, act, kwargs⟩) (hdec : dc ≠ "EXITED") :
    ∃ e1 e1', Estimator.fit cfg (x.standard env s) xs ys e0 = (.ok (), e1) ∧
      Estimator.fit cfg (Ext.standard env s { x with order := o }) xs' ys' e0 = (.ok (), e1') ∧ Reordered e1.fcm e1'.fcm ∧
      ((∀ q ∈ xs ++ ys, q.2.isDiscrete cfg = false → ∀ c, ConceptOf cfg (x.standard env s) q c → ∀ n,
          e1.fcm.topology.get? c = some n → n.actvSum ≠ 0) →
        ∀ rows,
          (∃ ps ps' e2 e2', Estimator.predict cfg x' rows e1 = (.ok ps, e2) ∧ Estimator.predict cfg x' rows e1' = (.ok ps', e2') ∧
            List.Forall₂ (fun p p' => ∀ f, p'.get? f = p.get? f) ps ps') ∨
          ∃ e2 e2', Estimator.predict cfg x' rows e1 = (.error (.exc "Cannot init concept"), e2) ∧
            Estimator.predict cfg x' rows e1' = (.error (.exc "Cannot init concept"), e2')) := by
  have hmul : ∀ a b : ℝ, a * b = b * a := mul_comm
  have hn : New e0 := ⟨_, _, _, _, _, _, _, _, _, _, _, h0⟩
  have hp : (xs' ++ ys').Perm (xs ++ ys) := hxs.append hys
  obtain ⟨e1, hf⟩ := C66_fits he hs hi hcfg hx h0 hk hl
  obtain ⟨e1', hf'⟩ := C66_fits (x := { x with order := o }) he hs hi hcfg ho h0 hk (xs := xs') (ys := ys')
    fun p hm => hl p (hp.mem_iff.1 hm)
  have hf'' : Estimator.fit cfg { x.standard env s with order := o } xs' ys' e0 = (.ok (), e1') := hf'
  have hR := C103_fit hmul (x := x.standard env s) hx ho hr hxs hys hn .start .start hf hf''
  refine ⟨e1, e1', hf, hf', hR, fun hsum rows => ?_⟩
  have hr' : Readable cfg (Ext.standard env s { x with order := o }) (xs' ++ ys') := hr.perm (o := o) hp
  have p1 := C97_predicts (x' := x') he hs hi h0 .start hx hr hf .start hfn hargs hdec hsum rows
  have p2 := C97_predicts (x := { x with order := o }) (x' := x') he hs hi h0 .start ho hr' hf' .start hfn hargs hdec (by
    intro q hq hd c hc n' hn'
    have hc' : ConceptOf cfg (x.standard env s) q c := hc
    have hck := hR.concepts.mem_iff.1 (Dict.mem_keys_of_get? hn')
    obtain ⟨a, ha⟩ := Dict.exists_get?_of_mem hck
    obtain ⟨b, hb, -, e⟩ := hR.node c a ha
    rw [hn'] at hb
    cases hb
    rw [e]
    exact hsum q (hp.mem_iff.1 hq) hd c hc' a ha) rows
  have hu : (∀ r ∈ rows, UsableRow cfg x' (xs' ++ ys') r) ↔ ∀ r ∈ rows, UsableRow cfg x' (xs ++ ys) r := by
    unfold UsableRow
    simp only [hp.mem_iff]
  obtain ⟨_, _, _, -, -, -, -, -, -, -, -, -, -, hd, -⟩ := new_settings h0
  by_cases h : ∀ r ∈ rows, UsableRow cfg x' (xs ++ ys) r
  · obtain ⟨ps, e2, q1⟩ := p1.1 h
    obtain ⟨ps', e2', q2⟩ := p2.1 (hu.2 h)
    exact .inl ⟨ps, ps', e2, e2', q1, q2, C103_predict hmul (x := x.standard env s) hx ho hr hxs hys hn hd .start .start hf hf''
      .start .start q1 q2⟩
  · obtain ⟨e2, q1⟩ := p1.2 h
    obtain ⟨e2', q2⟩ := p2.2 (fun hh => h (hu.1 hh))
    exact .inr ⟨e2, e2', q1, q2⟩

/-! ### Examples -/

/-- A new estimator with the iterative engine. -/
def Ex.estI : Estimator ℚ :=
  match Estimator.new (FCM.new (activation := "saturation")) "KOSKO" false true with
  | .ok e => e
  | .error _ => ⟨false, Ex.sat0, none, [], []⟩

theorem Ex.estI_new : Spec.New Ex.estI :=
  ⟨200, 5, true, dec 1 1000, "MEAN", true, "saturation", [], "KOSKO", false, true, rfl⟩

def Ex.xsA : List (String × Column ℚ) := [("color", .strs ["red", "blue", "red"]), ("size", .ints [1, 2, 2])]
def Ex.xsB : List (String × Column ℚ) := [("size", .ints [1, 2, 2]), ("color", .strs ["red", "blue", "red"])]
def Ex.estA : Estimator ℚ := (Estimator.fit Ex.conf Ex.ext Ex.xsA Ex.ys Ex.estI).2
def Ex.estBr : Estimator ℚ := (Estimator.fit Ex.conf { Ex.ext with order := List.reverse } Ex.xsB Ex.ys Ex.estI).2
theorem Ex.estA_fit : Estimator.fit Ex.conf Ex.ext Ex.xsA Ex.ys Ex.estI = (.ok (), Ex.estA) := Ex.pair_of _ (by decide +kernel)
theorem Ex.estBr_fit : Estimator.fit Ex.conf { Ex.ext with order := List.reverse } Ex.xsB Ex.ys Ex.estI = (.ok (), Ex.estBr) :=
  Ex.pair_of _ (by decide +kernel)

theorem Ex.A_readable : Spec.Readable Ex.conf Ex.ext (Ex.xsA ++ Ex.ys) := by
  refine readable_default rfl (by decide) (by decide) ?_ ?_
  · intro p hp _ c hc
    simp only [Ex.xsA, Ex.ys, List.cons_append, List.nil_append, List.mem_cons, List.not_mem_nil, or_false] at hp
    rcases hp with rfl | rfl | rfl <;> simp only [Spec.cells, List.map_cons, List.map_nil, List.mem_cons, List.not_mem_nil,
      or_false] at hc <;> rcases hc with rfl | rfl | rfl <;> simp only [Cell.text] <;> decide
  · intro p hp _ a b ha
    simp only [Ex.xsA, Ex.ys, List.cons_append, List.nil_append, List.mem_cons, List.not_mem_nil, or_false] at hp
    rcases hp with rfl | rfl | rfl <;> simp [Spec.cells] at ha

theorem Ex.AB_perm : Ex.xsB.Perm Ex.xsA := .swap _ _ _

/-- "color" before "size" and "size" before "color"; the set of features is iterated backwards the second time.  The concepts
and relations are stored in other orders … -/
example : Spec.Reordered Ex.estA.fcm Ex.estBr.fcm :=
  C103_fit mul_comm (fun _ => .refl _) (fun _ => List.reverse_perm _) Ex.A_readable Ex.AB_perm (.refl _) Ex.estI_new .start .start
    Ex.estA_fit Ex.estBr_fit
example : Ex.estA.fcm.topology.keys = ["blue___color", "red___color", "1___size", "2___size", "no___class", "yes___class"] ∧
    Ex.estBr.fcm.topology.keys = ["1___size", "2___size", "blue___color", "red___color", "no___class", "yes___class"] ∧
    Ex.estA.fcm.arcList.length = 22 ∧ Ex.estA.fcm.arcList ≠ Ex.estBr.fcm.arcList := by decide +kernel

def Ex.rowsA : List (List (String × Cell ℚ)) := [[("color", .str "red"), ("size", .int 2)], [("color", .str "blue")]]

/-- … but the predictions are the same. -/
example {ps ps' : List (Dict Label)} {e3 e3' : Estimator ℚ} (h : Estimator.predict Ex.conf Ex.ext Ex.rowsA Ex.estA = (.ok ps, e3))
    (h' : Estimator.predict Ex.conf Ex.ext Ex.rowsA Ex.estBr = (.ok ps', e3')) :=
  C103_predict mul_comm (fun _ => .refl _) (fun _ => List.reverse_perm _) Ex.A_readable Ex.AB_perm (.refl _) Ex.estI_new rfl .start
    .start Ex.estA_fit Ex.estBr_fit .start .start h h'
example : (Estimator.predict Ex.conf Ex.ext Ex.rowsA Ex.estA).1.toOption =
      some [[("class", .str "yes")], [("class", .str "no")]] ∧
    (Estimator.predict Ex.conf Ex.ext Ex.rowsA Ex.estBr).1.toOption =
      some [[("class", .str "yes")], [("class", .str "no")]] := by decide +kernel

/-- And so is the score. -/
example {s s' : ℚ} {e3 e3' : Estimator ℚ}
    (h : Estimator.score Ex.conf Ex.ext Ex.rowsA [("class", [.str "yes", .str "yes"])] Ex.estA = (.ok s, e3))
    (h' : Estimator.score Ex.conf Ex.ext Ex.rowsA [("class", [.str "yes", .str "yes"])] Ex.estBr = (.ok s', e3')) : s' = s :=
  C103_score mul_comm (fun _ => .refl _) (fun _ => List.reverse_perm _) Ex.A_readable Ex.AB_perm (.refl _) Ex.estI_new rfl .start
    .start Ex.estA_fit Ex.estBr_fit .start .start h h'
example : (Estimator.score Ex.conf Ex.ext Ex.rowsA [("class", [.str "yes", .str "yes"])] Ex.estBr).1.toOption = some (1/2) := by
  decide +kernel

/-- `build_fcm` of the three columns, the target first. -/
def Ex.colsA : List (String × Column ℚ) := Ex.xsA ++ Ex.ys
def Ex.colsB : List (String × Column ℚ) := Ex.ys ++ Ex.xsB
def Ex.gen0 : Gen ℚ :=
  match Gen.new true with
  | .ok g => g
  | .error _ => ⟨[], [], Ex.sat0⟩
theorem Ex.gen0_new : Gen.new true = .ok Ex.gen0 := rfl
def Ex.genA : Gen ℚ := (Gen.build Ex.conf Ex.ext ["class"] Ex.colsA none Ex.gen0).2
def Ex.genB : Gen ℚ := (Gen.build Ex.conf { Ex.ext with order := List.reverse } ["class"] Ex.colsB none Ex.gen0).2
theorem Ex.genA_fit : Gen.build Ex.conf Ex.ext ["class"] Ex.colsA none Ex.gen0 = (.ok (), Ex.genA) :=
  Ex.pair_of _ (by decide +kernel)
theorem Ex.genB_fit : Gen.build Ex.conf { Ex.ext with order := List.reverse } ["class"] Ex.colsB none Ex.gen0 =
    (.ok (), Ex.genB) := Ex.pair_of _ (by decide +kernel)
theorem Ex.colsAB_perm : Ex.colsB.Perm Ex.colsA := List.perm_append_comm.trans (Ex.AB_perm.append_right _)
example : Spec.Reordered Ex.genA.fcm Ex.genB.fcm :=
  (C103_learn mul_comm (x := Ex.ext) (o := List.reverse) (fun _ => .refl _) (fun _ => List.reverse_perm _) Ex.A_readable
    Ex.colsAB_perm (fun _ => .rfl) (given := none) (fun _ h => by cases h) Ex.gen0_new Ex.gen0_new
    Ex.genA_fit Ex.genB_fit).1
example : Ex.genB.fcm.topology.keys.head? = some "no___class" := by decide +kernel

/-- Real arithmetic: a table with a categorical and a numeric column. -/
example := C103_real (x' := Ex.realExt) exEnv_ok (.inl rfl) rfl (safe_default rfl rfl rfl) (x := Ex.realExt) (fun l => .refl _)
  (o := List.reverse) (fun _ => List.reverse_perm _) Ex.est0r_new ⟨[], rfl⟩ (n := 11) (by
    intro p hp
    simp only [Ex.xsn, Ex.ysn, List.cons_append, List.nil_append, List.mem_cons, List.not_mem_nil, or_false] at hp
    rcases hp with rfl | rfl <;> rfl) Ex.n_readable (.refl _) (.refl _) (by decide) (fun f h => by cases h; exact .inl rfl) (by decide)

end PyFCM
