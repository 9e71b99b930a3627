import Verif.Props.Accept
/-
C97: when `predict` returns.
-/
namespace PyFCM
open Arith

set_option linter.unusedSectionVars false

section any
variable {α : Type} [Arith α]

/-- Every concept has recorded a value. -/
def Recorded (m : FCM α) : Prop := ∀ c ∈ m.topology.keys, ∃ x xs, m.execution.get? c = some (x :: xs)

theorem initConcept_recorded (c : String) (v : α) (r : Bool) : Pres Recorded (FCM.initConcept c v r) := by
  intro m hm
  have key : ∀ (n n' : Node α) (a : α), m.topology.get? c = some n → Recorded { m with
      topology := m.topology.set c n', execution := m.execution.set c [a] } := by
    intro n n' a hn d hd
    have hk : (m.topology.set c n').keys = m.topology.keys := Dict.keys_set_of_mem _ _ _ (Dict.mem_keys_of_get? hn)
    have hd : d ∈ m.topology.keys := by rw [← hk]; exact hd
    by_cases e : c = d
    · subst e; exact ⟨a, [], Dict.get?_set_self _ _ _⟩
    · obtain ⟨x, xs, hx⟩ := hm d hd
      exact ⟨x, xs, (Dict.get?_set_ne _ _ e).trans hx⟩
  unfold FCM.initConcept
  split
  · split <;> exact hm
  rename_i n hn
  repeat' split
  all_goals first | exact hm | exact key n _ _ hn

theorem clear_total (m : FCM α) : ∃ m', FCM.clearExecution m = (.ok (), m') := by
  have : ∀ (cs : List String) (m : FCM α), ∃ m', PyM.forEach cs clearOne m = (.ok (), m') := by
    intro cs
    induction cs with
    | nil => exact fun m => ⟨m, rfl⟩
    | cons c cs ih =>
      intro m
      have : ∃ m1, clearOne c m = (.ok (), m1) := by
        unfold clearOne
        cases m.topology.get? c with
        | none => exact ⟨_, rfl⟩
        | some n => exact ⟨_, rfl⟩
      obtain ⟨m1, h1⟩ := this
      obtain ⟨m2, h2⟩ := ih m1
      refine ⟨m2, ?_⟩
      simp only [PyM.forEach]
      rw [h1]
      exact h2
  exact this _ m

theorem clear_recorded {m m' : FCM α} (hm : Inv m) (h : FCM.clearExecution m = (.ok (), m')) : Recorded m' := by
  obtain ⟨-, kt, -, -, hin⟩ := forEach_touch ClearRel clearOne_touch hm.tnd h
  intro c hc
  rw [kt] at hc
  obtain ⟨n, hn⟩ := Dict.exists_get?_of_mem hc
  have := hin c hc
  rw [hn] at this
  exact ⟨lit 0, [], this.2⟩

/-- Reading the labels off a final state succeeds if the names of its concepts can be read. -/
theorem groupResult_total {cfg : GenConf α} {fs : Dict (Feature α)} : ∀ (st : Dict α) (acc : Dict (List (String × α))),
    (∀ c v, (c, v) ∈ st → ∃ f i F, featureAndInfo cfg c = .ok (f, i) ∧ fs.get? f = some F) →
      ∃ gr, groupResult cfg fs st acc = .ok gr
  | [], acc, _ => ⟨acc, rfl⟩
  | (c, v) :: rest, acc, h => by
    obtain ⟨f, i, F, h1, h2⟩ := h c v (by simp)
    unfold groupResult
    rw [h1]
    change ∃ gr, ((need f (fs.get? f)) >>= fun F => _) = _
    rw [h2]
    change ∃ gr, (if isFuzzyType F.type then groupResult cfg fs rest acc else groupResult cfg fs rest _) = .ok gr
    split <;> exact groupResult_total rest _ fun c v hc => h c v (by simp [hc])

theorem bestLabel_total [Ordered α] {outs : List (String × α)} (h : outs ≠ []) : ∃ l, bestLabel outs = .ok l := by
  have hi : ∃ p, outs[argmaxLoop outs 0 (lit (-1)) 0]? = some p := by
    have hp : 0 < outs.length := List.length_pos_of_ne_nil h
    rcases argmaxLoop_spec outs 0 (lit (-1)) 0 with ⟨h1, -⟩ | ⟨i, hi, h1, -⟩
    · rw [h1]; exact ⟨_, List.getElem?_eq_getElem hp⟩
    · rw [h1, Nat.zero_add]; exact ⟨_, List.getElem?_eq_getElem hi⟩
  obtain ⟨p, hp⟩ := hi
  refine ⟨toLabel p.1, ?_⟩
  unfold bestLabel pyIdx
  rw [hp]
  rfl

theorem discreteResult_total [Ordered α] : ∀ gr : Dict (List (String × α)), (∀ p ∈ gr, p.2 ≠ []) →
    ∃ p, discreteResult gr = .ok p
  | [], _ => ⟨[], rfl⟩
  | (f, outs) :: rest, h => by
    obtain ⟨l, hl⟩ := bestLabel_total (h (f, outs) (by simp))
    obtain ⟨p, hp⟩ := discreteResult_total rest fun q hq => h q (by simp [hq])
    refine ⟨(f, l) :: p, ?_⟩
    unfold discreteResult
    rw [hl, hp]
    rfl

theorem mem_of_set {β : Type} {d : Dict β} {k : String} {v : β} {p : String × β} (h : p ∈ d.set k v) : p = (k, v) ∨ p ∈ d := by
  induction d with
  | nil => simpa [Dict.set] using h
  | cons q d ih =>
    unfold Dict.set at h
    split at h
    · rcases List.mem_cons.1 h with h | h
      · exact .inl h
      · exact .inr (by simp [h])
    · rcases List.mem_cons.1 h with h | h
      · exact .inr (by simp [h])
      · rcases ih h with h | h
        · exact .inl h
        · exact .inr (by simp [h])

theorem groupResult_nonempty {cfg : GenConf α} {fs : Dict (Feature α)} : ∀ (st : Dict α) (acc gr : Dict (List (String × α))),
    groupResult cfg fs st acc = .ok gr → (∀ p ∈ acc, p.2 ≠ []) → ∀ p ∈ gr, p.2 ≠ []
  | [], acc, gr, h, ha => by
    unfold groupResult at h
    cases h
    exact ha
  | (c, v) :: rest, acc, gr, h, ha => by
    unfold groupResult at h
    obtain ⟨⟨g, i⟩, h1, h⟩ := exc_bind_ok h
    obtain ⟨F, h2, h⟩ := exc_bind_ok h
    split at h
    · exact groupResult_nonempty rest acc gr h ha
    · refine groupResult_nonempty rest _ gr h ?_
      intro p hp
      split at hp <;> rcases mem_of_set hp with rfl | hp
      · simp
      · exact ha p hp
      · simp
      · exact ha p hp

theorem Spec.Since.hist {cfg : GenConf α} {x : Ext α} {xs ys : List (String × Column α)} {e0 e e1 e2 : Estimator α} {b : Bool}
    (h : Spec.Hist cfg e0 b e) (hf : Estimator.fit cfg x xs ys e = (.ok (), e1)) (hs : Spec.Since cfg e1 e2) :
    Spec.Hist cfg e0 true e2 := by
  induction hs with
  | start => exact .fit h x xs ys hf
  | predict _ x rows ih => exact .predict ih x rows
  | score _ x rows y ih => exact .score ih x rows y

end any

/-- One row. -/
theorem predictRow_fits {env : ClusterEnv ℝ} (he : Spec.Env env) {s : String} (hs : Spec.Strategy s) {cfg : GenConf ℝ}
    (hi : cfg.inferType = true) {x x' : Ext ℝ} {xs ys : List (String × Column ℝ)} {e0 e e1 : Estimator ℝ} {b : Bool}
    (hn : Spec.New e0) (h : Spec.Hist cfg e0 b e) (hx : ∀ l, (x.order l).Perm l)
    (hr : Spec.Readable cfg (x.standard env s) (xs ++ ys))
    (hf : Estimator.fit cfg (x.standard env s) xs ys e = (.ok (), e1)) (hfn : e0.fcm.default.fn.name ≠ "fuzzy")
    (hargs : ProperArgs e0.fcm.default.fn) (hdbg : e0.fcm.debug = true) (hdec : e0.fcm.decisionName ≠ "EXITED")
    (hsum : ∀ q ∈ xs ++ ys, q.2.isDiscrete cfg = false → ∀ c, Spec.ConceptOf cfg (x.standard env s) q c → ∀ n,
      e1.fcm.topology.get? c = some n → n.actvSum ≠ 0)
    {m : FCM ℝ} (hm : Sound m) (hv : m.view = e1.fcm.view) (hb : m.bare = e0.fcm.bare) {row : List (String × Cell ℝ)}
    (hrow : ∀ p ∈ row, ∃ q ∈ xs ++ ys, q.1 = p.1 ∧ Spec.Usable x' (q.2.isDiscrete cfg) p.2) :
    ∃ p m', predictRow cfg x' e1.features row m = (.ok p, m') := by
  have hj := joinColumns_disjoint hr.columns
  obtain ⟨hc1, -, hk, hfit⟩ := fit_fitted (x := x.standard env s) hn h hx (hj ▸ hr) hf
  rw [hj] at hk hfit
  obtain ⟨m1, h1⟩ := clear_total m
  have qk : Quiet m m1 := by have := clear_quiet m; rwa [h1] at this
  have ik : Inv m1 := by have := Op.clearExecution.pres m hm.inv; simp only [Op.run] at this; rwa [h1] at this
  have ck : Calm m m1 := ⟨hm.quiet ik qk (clear_ekeys hm h1), qk, clear_ekeys hm h1⟩
  have hinit : ∀ (row : List (String × Cell ℝ)) (k : FCM ℝ), k.view = e1.fcm.view →
      (∀ p ∈ row, ∃ q ∈ xs ++ ys, q.1 = p.1 ∧ Spec.Usable x' (q.2.isDiscrete cfg) p.2) →
      ∃ k', initRow cfg x' e1.features row k = (.ok (), k') := by
    intro row
    induction row with
    | nil => exact fun k _ _ => ⟨k, rfl⟩
    | cons p row ih =>
      intro k hkv hp
      obtain ⟨q, hq, eq, hu⟩ := hp p (by simp)
      obtain ⟨k1, hk1⟩ := initByFeature_fits he hs hi hn h hx hr hf hfn hq hu hkv
      have hqt := initByFeature_quiet k cfg x' e1.features q.1 p.2 k (.refl k)
      rw [hk1] at hqt
      obtain ⟨k2, hk2⟩ := ih k1 (hqt.view.trans hkv) fun p hp' => hp p (by simp [hp'])
      refine ⟨k2, ?_⟩
      unfold initRow
      simp only [PyM.forEach]
      rw [← eq, hk1]
      exact hk2
  obtain ⟨m2, h2⟩ := hinit row m1 (qk.view.trans hv) hrow
  have ck2 := ck.trans (initRow_calm ck.sound h2)
  have hv2 : m2.view = e1.fcm.view := ck2.quiet.view.trans hv
  have hrec : Recorded m2 := by
    have : Pres Recorded (initRow cfg x' e1.features row) := Pres.forEach fun p _ =>
      initByFeature_pres initConcept_recorded cfg x' e1.features p.1 p.2
    have := this m1 (clear_recorded hm.inv h1)
    rwa [h2] at this
  have hclean : CleanInv m2 := ⟨ck2.sound.inv, good_view hc1.good hv2, hrec⟩
  have hb2 : m2.bare = e0.fcm.bare := by
    have := ck2.quiet.eq
    rw [this]
    exact hb
  have hd2 : m2.debug = true := (congrArg FCM.debug hb2 :).trans hdbg
  have hn2 : m2.decisionName = e0.fcm.decisionName := (congrArg FCM.decisionName hb2 :)
  have hnode : ∀ c n f, m2.topology.get? c = some n → n.fn = some f →
      (f.name = "fuzzy" → (n.actvSum =? lit 0) = false) ∧ ∀ x, ∃ v, callActv f.fn x f.args = .ok v := by
    intro c n f hc hfc
    have hck : c ∈ e1.fcm.topology.keys := by rw [← view_keys hv2]; exact Dict.mem_keys_of_get? hc
    obtain ⟨n1, f1, g1, g2, g3⟩ := fitted_node he hs hi hn h hx hr hf hck
    have := view_get hv2 c
    rw [hc, g1] at this
    have this := Option.some.inj this
    have e1' : n.fn = n1.fn := (congrArg Node.fn this :)
    have e2' : n.actvSum = n1.actvSum := (congrArg Node.actvSum this :)
    rw [hfc, g2] at e1'
    cases e1'
    rcases g3 with rfl | ⟨⟨q, hq, hqd, hqc⟩, g4, g5, -⟩
    · exact ⟨fun hz => absurd hz hfn, callActv_total hargs⟩
    · refine ⟨fun _ => ?_, callActv_total g5⟩
      rw [e2']
      simpa using hsum q hq hqd c hqc n1 g1
  obtain ⟨m3, h3⟩ := run_live hclean hd2 hnode (by rw [hn2]; exact hdec)
  have hv3 : m3.view = e1.fcm.view := by have := run_view true m2; rw [h3] at this; exact this.trans hv2
  have hcl3 : CleanInv m3 := (Op.runInference true).clean hclean h3
  obtain ⟨st, hst, -, hmem⟩ := final_state_of hcl3.inv hcl3.sameKeys (fun c n hn => (hcl3.good c n hn).full.type) "target" []
  obtain ⟨gr, hgr⟩ := groupResult_total (cfg := cfg) (fs := e1.features) st [] (by
    intro c v hcv
    obtain ⟨n, ty, hn', -⟩ := (hmem c v).1 hcv
    have hck : c ∈ e1.fcm.topology.keys := by rw [← view_keys hv3]; exact Dict.mem_keys_of_get? hn'
    obtain ⟨q, hq, hqc⟩ := hk c hck
    obtain ⟨i, hi⟩ := hqc.parse hr hq
    obtain ⟨F, cs, hF⟩ := hfit q hq
    exact ⟨q.1, i, F, hi, hF.get⟩)
  obtain ⟨p, hp⟩ := discreteResult_total gr (groupResult_nonempty st [] gr hgr (by simp))
  refine ⟨p, m3, ?_⟩
  unfold predictRow
  rw [PyM.run_bind, h1]
  dsimp only
  rw [PyM.run_bind, h2]
  dsimp only
  unfold inferenceResult
  rw [PyM.run_bind, h3]
  dsimp only
  rw [PyM.run_bind, PyM.run_get]
  dsimp only
  rw [PyM.run_bind, PyM.run_lift, hst]
  dsimp only
  rw [PyM.run_bind, PyM.run_lift, hgr]
  dsimp only
  rw [PyM.run_lift, hp]

/-- The values of a row can be used. -/
def Spec.UsableRow {α : Type} [Arith α] (cfg : GenConf α) (x : Ext α) (cols : List (String × Column α))
    (row : List (String × Cell α)) : Prop :=
  ∀ p ∈ row, ∃ q ∈ cols, q.1 = p.1 ∧ Spec.Usable x (q.2.isDiscrete cfg) p.2

theorem predictRow_refused {α : Type} [Arith α] [Ordered α] {cfg : GenConf α} {x x' : Ext α} {xs ys : List (String × Column α)}
    {e0 e e1 : Estimator α} {b : Bool} (hn : Spec.New e0) (h : Spec.Hist cfg e0 b e)
    (hx : ∀ l, (x.order l).Perm l) (hr : Spec.Readable cfg x (xs ++ ys))
    (hf : Estimator.fit cfg x xs ys e = (.ok (), e1)) {row : List (String × Cell α)}
    (hrow : ¬ Spec.UsableRow cfg x' (xs ++ ys) row) (m : FCM α) :
    ∃ m', predictRow cfg x' e1.features row m = (.error (.exc "Cannot init concept"), m') := by
  obtain ⟨m1, h1⟩ := clear_total m
  have hinit : ∀ (row : List (String × Cell α)) (k : FCM α), ¬ Spec.UsableRow cfg x' (xs ++ ys) row →
      ∃ k', initRow cfg x' e1.features row k = (.error (.exc "Cannot init concept"), k') := by
    intro row
    induction row with
    | nil => exact fun k h => absurd (fun p hp => by cases hp) h
    | cons p row ih =>
      intro k hp
      rcases hb : initByFeature cfg x' e1.features p.1 p.2 k with ⟨er | u, k1⟩
      · have : er = .exc "Cannot init concept" := by
          unfold initByFeature at hb
          split at hb <;> cases hb
          rfl
        subst this
        refine ⟨k1, ?_⟩
        unfold initRow
        simp only [PyM.forEach]
        rw [hb]
      · have hu : ∃ q ∈ xs ++ ys, q.1 = p.1 ∧ Spec.Usable x' (q.2.isDiscrete cfg) p.2 := by
          by_contra hc
          push Not at hc
          have := initByFeature_refused (x' := x') hn h hx hr hf hc k
          rw [this] at hb
          cases hb
        obtain ⟨k2, h2⟩ := ih k1 fun hr => hp fun p' hp' => by
          rcases List.mem_cons.1 hp' with rfl | hp'
          · exact hu
          · exact hr p' hp'
        refine ⟨k2, ?_⟩
        unfold initRow
        simp only [PyM.forEach]
        rw [hb]
        exact h2
  obtain ⟨m2, h2⟩ := hinit row m1 hrow
  refine ⟨m2, ?_⟩
  unfold predictRow
  rw [PyM.run_bind, h1]
  dsimp only
  rw [PyM.run_bind, h2]

/-- C97: with the iterative engine, `predict` returns exactly when every value of every row can be used for a column of the
training data; otherwise it raises "Cannot init concept". -/
theorem C97_predicts {env : ClusterEnv ℝ} (he : Spec.Env env) {s : String} (hs : Spec.Strategy s) {cfg : GenConf ℝ}
    (hi : cfg.inferType = true) {x x' : Ext ℝ} {xs ys : List (String × Column ℝ)} {maxIt extra : Int} {stab : Bool} {diff : ℝ}
    {dc : String} {mem : Bool} {act : String} {kwargs : Args ℝ} {exc : String} {fit : Bool} {e0 e e1 e2 : Estimator ℝ} {b : Bool}
    (h0 : Estimator.new (FCM.new maxIt extra stab diff dc mem act kwargs) exc false fit = .ok e0)
    (h : Spec.Hist cfg e0 b e) (hx : ∀ l, (x.order l).Perm l) (hr : Spec.Readable cfg (x.standard env s) (xs ++ ys))
    (hf : Estimator.fit cfg (x.standard env s) xs ys e = (.ok (), e1)) (hsince : Spec.Since cfg e1 e2)
    (hfn : act ≠ "fuzzy") (hargs : ∀ f, Activation.getFunctionByName act = some f → ProperArgs ⟨f, act, kwargs⟩)
    (hdec : dc ≠ "EXITED")
    (hsum : ∀ q ∈ xs ++ ys, q.2.isDiscrete cfg = false → ∀ c, Spec.ConceptOf cfg (x.standard env s) q c → ∀ n,
      e1.fcm.topology.get? c = some n → n.actvSum ≠ 0)
    (rows : List (List (String × Cell ℝ))) :
    ((∀ r ∈ rows, Spec.UsableRow cfg x' (xs ++ ys) r) → ∃ ps e3, Estimator.predict cfg x' rows e2 = (.ok ps, e3)) ∧
    (¬ (∀ r ∈ rows, Spec.UsableRow cfg x' (xs ++ ys) r) →
      ∃ e3, Estimator.predict cfg x' rows e2 = (.error (.exc "Cannot init concept"), e3)) := by
  have hn : Spec.New e0 := ⟨_, _, _, _, _, _, _, _, _, _, _, h0⟩
  obtain ⟨d, f, g, h1, h2, h3, -, -, -, -, -, h9, -, h11, -, -, -, h15⟩ := new_settings h0
  obtain ⟨hok, hgen⟩ := (hsince.hist h hf).ok hn
  have hj := joinColumns_disjoint hr.columns
  obtain ⟨-, hs1, -⟩ := fit_fitted (x := x.standard env s) hn h hx (hj ▸ hr) hf
  have hs2 := hsince.sound hs1
  obtain ⟨hfe, hv⟩ := hsince.same
  have key : ∀ (rows : List (List (String × Cell ℝ))) (m : FCM ℝ), Sound m → m.view = e1.fcm.view → m.bare = e0.fcm.bare →
      ((∀ r ∈ rows, Spec.UsableRow cfg x' (xs ++ ys) r) → ∃ ps m', predictRows cfg x' e1.features rows m = (.ok ps, m')) ∧
      (¬ (∀ r ∈ rows, Spec.UsableRow cfg x' (xs ++ ys) r) →
        ∃ m', predictRows cfg x' e1.features rows m = (.error (.exc "Cannot init concept"), m')) := by
    intro rows
    induction rows with
    | nil => exact fun m _ _ _ => ⟨fun _ => ⟨[], m, rfl⟩, fun h => absurd (fun r hr => by cases hr) h⟩
    | cons r rows ih =>
      intro m hm hmv hmb
      by_cases hru : Spec.UsableRow cfg x' (xs ++ ys) r
      · obtain ⟨p, m1, hp⟩ := predictRow_fits he hs hi hn h hx hr hf (by rw [h15]; exact hfn) (by rw [h15]; exact hargs f h2)
          (by rw [h11]; rfl) (by rw [h9]; exact hdec) hsum hm hmv hmb hru
        obtain ⟨hs', ht', -⟩ := predictRow_calm hm hp
        have hmb' : m1.bare = e0.fcm.bare := by
          have := predictRow_pres (initConcept_bare e0.fcm) (clear_bare e0.fcm) (run_bare e0.fcm true) cfg x' e1.features r m hmb
          rwa [hp] at this
        obtain ⟨k1, k2⟩ := ih m1 hs' (ht'.view.trans hmv) hmb'
        constructor
        · intro hall
          obtain ⟨ps, m', hps⟩ := k1 fun r hr => hall r (by simp [hr])
          refine ⟨p :: ps, m', ?_⟩
          unfold predictRows
          rw [PyM.run_bind, hp]
          dsimp only
          rw [PyM.run_bind, hps]
          rfl
        · intro hno
          obtain ⟨m', hps⟩ := k2 fun hall => hno fun r' hr' => by
            rcases List.mem_cons.1 hr' with rfl | hr'
            · exact hru
            · exact hall r' hr'
          refine ⟨m', ?_⟩
          unfold predictRows
          rw [PyM.run_bind, hp]
          dsimp only
          rw [PyM.run_bind, hps]
      · refine ⟨fun hall => absurd (hall r (by simp)) hru, fun _ => ?_⟩
        obtain ⟨m', hp⟩ := predictRow_refused (x := x.standard env s) hn h hx hr hf hru m
        refine ⟨m', ?_⟩
        unfold predictRows
        rw [PyM.run_bind, hp]
  obtain ⟨k1, k2⟩ := key rows e2.fcm hs2 hv hok.settings
  constructor
  · intro hall
    obtain ⟨ps, m', hps⟩ := k1 hall
    refine ⟨ps, { e2 with fcm := m' }, ?_⟩
    unfold Estimator.predict
    rw [if_pos hgen, hfe, hps]
  · intro hno
    obtain ⟨m', hps⟩ := k2 hno
    refine ⟨{ e2 with fcm := m' }, ?_⟩
    unfold Estimator.predict
    rw [if_pos hgen, hfe, hps]

/-! ### C66, for the estimator -/

/-- C66: so does the first call of `fit` of an estimator, if its activation function has numbers (or lists of numbers) as
arguments. -/
theorem C66_fits {env : ClusterEnv ℝ} (he : Spec.Env env) {s : String} (hs : Spec.Strategy s) {cfg : GenConf ℝ}
    (hi : cfg.inferType = true) (hcfg : Spec.Safe cfg) {x : Ext ℝ} (hx : ∀ l, (x.order l).Perm l)
    {maxIt extra : Int} {stab : Bool} {diff : ℝ} {dc : String} {mem : Bool} {act : String} {kwargs : Args ℝ} {exc : String}
    {vec fit : Bool} {e0 : Estimator ℝ}
    (h0 : Estimator.new (FCM.new maxIt extra stab diff dc mem act kwargs) exc vec fit = .ok e0)
    (hk : ∃ v, processFunctionArgs kwargs = .ok v) {xs ys : List (String × Column ℝ)} {n : Nat}
    (hl : ∀ p ∈ xs ++ ys, (Spec.cells p.2).length = n) :
    ∃ e1, Estimator.fit cfg (x.standard env s) xs ys e0 = (.ok (), e1) := by
  have hn : Spec.New e0 := ⟨_, _, _, _, _, _, _, _, _, _, _, h0⟩
  obtain ⟨_, _, _, -, -, -, -, -, -, -, -, -, -, -, h12, -, -, h15⟩ := new_settings h0
  obtain ⟨v, hv⟩ := hk
  have hl' : ∀ p ∈ joinColumns xs ys, (Spec.cells p.2).length = n := by
    intro p hp
    unfold joinColumns at hp
    rcases List.mem_append.1 hp with hp | hp
    · exact hl p (by simp [hp])
    · obtain ⟨q, hq, rfl⟩ := List.mem_map.1 hp
      have := hl q (by simp [hq])
      split <;> exact this
  have all : ∀ l : List (String × Column ℝ), (∀ p ∈ l, p ∈ joinColumns xs ys) →
      Succ (Able n e0.fcm.default []) (buildFcm cfg (x.standard env s) (ys.map (·.1)) l) := by
    intro l
    induction l with
    | nil => intro _; exact Succ.pure _
    | cons p l ih =>
      intro h
      unfold buildFcm
      exact Succ.bind (able_feature (x := x.standard env s) hcfg hx (v := v) (by rw [h15]; exact hv) (hl' p (h p (by simp)))
        (standard_disc he hs x p.1 hi)) fun _ => ih fun q hq => h q (by simp [hq])
  obtain ⟨e', hr⟩ := hn.reset
  rcases hfit : Estimator.fit cfg (x.standard env s) xs ys e0 with ⟨r, e1⟩
  obtain ⟨m0, g, hm, hb, he1⟩ := fit_built hn.ok.1 hfit hr
  have hd : m0.default = e0.fcm.default := (congrArg FCM.default hm.settings :)
  have hfi : m0.fitInclination = e0.fcm.fitInclination := (congrArg FCM.fitInclination hm.settings :)
  obtain ⟨_, g', hg, -⟩ := all _ (fun _ h => h) ⟨[], [], m0⟩ ⟨hfi.trans h12, hd, fun f F hF => (by cases hF), by simp, by simp⟩
  rw [hb] at hg
  cases hg
  exact ⟨e1, rfl⟩

/-! ### Examples -/

/-- An estimator with the iterative engine. -/
noncomputable def Ex.est0r : Estimator ℝ :=
  match Estimator.new (FCM.new (activation := "sigmoid_hip")) "KOSKO" false false with
  | .ok e => e
  | .error _ => ⟨false, default, none, [], []⟩

theorem Ex.est0r_new : Estimator.new (FCM.new 200 5 true (dec 1 1000) "MEAN" true "sigmoid_hip" []) "KOSKO" false false =
    .ok Ex.est0r := rfl

noncomputable def Ex.xsr : List (String × Column ℝ) := [("color", .strs ["red", "blue", "red"])]
noncomputable def Ex.ysr : List (String × Column ℝ) := [("class", .strs ["yes", "no", "yes"])]

theorem Ex.r_fits : ∃ e1, Estimator.fit Ex.realConf (Ex.realExt.standard exEnv "cmeans-gap") Ex.xsr Ex.ysr Ex.est0r = (.ok (), e1) :=
  C66_fits exEnv_ok (.inl rfl) rfl (safe_default rfl rfl rfl) (fun l => .refl _) Ex.est0r_new ⟨[], rfl⟩ (n := 3) (by
    intro p hp
    simp only [Ex.xsr, Ex.ysr, List.cons_append, List.nil_append, List.mem_cons, List.not_mem_nil, or_false] at hp
    rcases hp with rfl | rfl <;> rfl)

theorem Ex.r_readable : Spec.Readable Ex.realConf (Ex.realExt.standard exEnv "cmeans-gap") (Ex.xsr ++ Ex.ysr) := by
  refine readable_default rfl (by decide) (by decide) ?_ ?_
  · intro p hp _ c hc
    simp only [Ex.xsr, Ex.ysr, List.cons_append, List.nil_append, List.mem_cons, List.not_mem_nil, or_false] at hp
    rcases hp with rfl | rfl <;> simp only [Spec.cells, List.map_cons, List.map_nil, List.mem_cons, List.not_mem_nil,
      or_false] at hc <;> rcases hc with rfl | rfl | rfl <;> simp only [Cell.text] <;> decide
  · intro p hp _ a b ha
    simp only [Ex.xsr, Ex.ysr, List.cons_append, List.nil_append, List.mem_cons, List.not_mem_nil, or_false] at hp
    rcases hp with rfl | rfl <;> simp [Spec.cells] at ha

/-- It predicts for the values of "color" it has seen and for others, and refuses unknown columns. -/
example {e1 : Estimator ℝ} (hf : Estimator.fit Ex.realConf (Ex.realExt.standard exEnv "cmeans-gap") Ex.xsr Ex.ysr Ex.est0r = (.ok (), e1)) :
    (∃ ps e3, Estimator.predict Ex.realConf Ex.realExt [[("color", .str "red")], [("color", .str "green")], []] e1 = (.ok ps, e3)) ∧
    ∃ e3, Estimator.predict Ex.realConf Ex.realExt [[("color", .str "red")], [("size", .int 1)]] e1 =
      (.error (.exc "Cannot init concept"), e3) := by
  have main := fun rows => C97_predicts (x' := Ex.realExt) exEnv_ok (.inl rfl) rfl Ex.est0r_new .start (fun l => .refl _)
    Ex.r_readable hf .start (by decide) (fun f h => by cases h; exact .inl rfl) (by decide) (by
      intro q hq hd
      simp only [Ex.xsr, Ex.ysr, List.cons_append, List.nil_append, List.mem_cons, List.not_mem_nil, or_false] at hq
      rcases hq with rfl | rfl <;> cases hd) rows
  refine ⟨(main _).1 ?_, (main _).2 ?_⟩
  · intro r hr p hp
    simp only [List.mem_cons, List.not_mem_nil, or_false] at hr
    rcases hr with rfl | rfl | rfl
    · obtain rfl := List.mem_singleton.1 hp
      exact ⟨("color", .strs ["red", "blue", "red"]), by simp [Ex.xsr], rfl, rfl⟩
    · obtain rfl := List.mem_singleton.1 hp
      exact ⟨("color", .strs ["red", "blue", "red"]), by simp [Ex.xsr], rfl, rfl⟩
    · cases hp
  · intro h
    obtain ⟨q, hq, hn, -⟩ := h [("size", .int 1)] (by simp) ("size", .int 1) (by simp)
    simp only [Ex.xsr, Ex.ysr, List.cons_append, List.nil_append, List.mem_cons, List.not_mem_nil, or_false] at hq
    rcases hq with rfl | rfl <;> exact absurd hn (by decide)

/-- C96: a value that was never seen is ignored, an unknown column is refused. -/
example {e1 : Estimator ℝ} (hf : Estimator.fit Ex.realConf (Ex.realExt.standard exEnv "cmeans-gap") Ex.xsr Ex.ysr Ex.est0r = (.ok (), e1)) :=
  (C96_accepts (x' := Ex.realExt) exEnv_ok (.inl rfl) rfl ⟨_, _, _, _, _, _, _, _, _, _, _, Ex.est0r_new⟩ .start (fun l => .refl _)
    Ex.r_readable hf .start (by decide) "color" (.int 3)).2 ⟨("color", .strs ["red", "blue", "red"]), by simp [Ex.xsr], rfl, trivial⟩

/-- A table with a numeric column. -/
noncomputable def Ex.xsn : List (String × Column ℝ) := [("size", .floats [10, 1, 2, 3, 4, 5, 6, 7, 8, 9, 1])]
noncomputable def Ex.ysn : List (String × Column ℝ) :=
  [("class", .strs ["yes", "no", "yes", "no", "yes", "no", "yes", "no", "yes", "no", "no"])]

theorem Ex.n_fits : ∃ e1, Estimator.fit Ex.realConf (Ex.realExt.standard exEnv "cmeans-gap") Ex.xsn Ex.ysn Ex.est0r = (.ok (), e1) :=
  C66_fits exEnv_ok (.inl rfl) rfl (safe_default rfl rfl rfl) (fun l => .refl _) Ex.est0r_new ⟨[], rfl⟩ (n := 11) (by
    intro p hp
    simp only [Ex.xsn, Ex.ysn, List.cons_append, List.nil_append, List.mem_cons, List.not_mem_nil, or_false] at hp
    rcases hp with rfl | rfl <;> rfl)

theorem Ex.n_readable : Spec.Readable Ex.realConf (Ex.realExt.standard exEnv "cmeans-gap") (Ex.xsn ++ Ex.ysn) := by
  refine readable_default rfl (by decide) (by decide) ?_ ?_
  · intro p hp hd c hc
    simp only [Ex.xsn, Ex.ysn, List.cons_append, List.nil_append, List.mem_cons, List.not_mem_nil, or_false] at hp
    rcases hp with rfl | rfl
    · rw [Ex.mixed_numeric] at hd; cases hd
    · simp only [Spec.cells, List.map_cons, List.map_nil, List.mem_cons, List.not_mem_nil, or_false] at hc
      have : c = .str "yes" ∨ c = .str "no" := by tauto
      rcases this with rfl | rfl <;> simp only [Cell.text] <;> decide
  · intro p hp hd a b ha
    simp only [Ex.xsn, Ex.ysn, List.cons_append, List.nil_append, List.mem_cons, List.not_mem_nil, or_false] at hp
    rcases hp with rfl | rfl
    · rw [Ex.mixed_numeric] at hd; cases hd
    · simp [Spec.cells] at ha

/-- C96: the memberships of the unseen number 5/2. -/
example {e1 : Estimator ℝ} (hf : Estimator.fit Ex.realConf (Ex.realExt.standard exEnv "cmeans-gap") Ex.xsn Ex.ysn Ex.est0r = (.ok (), e1)) :=
  C96_number (x' := Ex.realExt) exEnv_ok (.inl rfl) rfl ⟨_, _, _, _, _, _, _, _, _, _, _, Ex.est0r_new⟩ .start (fun l => .refl _)
    Ex.n_readable hf .start (q := ("size", .floats [10, 1, 2, 3, 4, 5, 6, 7, 8, 9, 1])) (by simp [Ex.xsn]) Ex.mixed_numeric
    (u := .float (5 / 2)) (v := 5 / 2) (.inl rfl)

end PyFCM
