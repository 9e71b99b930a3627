import Verif.Model.Learn
import Verif.Props.Discretize
import Verif.Props.Predict
/-
Learning from tables with numeric columns, with the library's own discretization (C66, C67, C68).
-/
namespace PyFCM
open Arith

/-! ### The memberships of the training values -/

theorem fuzzySet_listed {vl mb : List ℝ} (hs : vl.Pairwise (· < ·)) (hlen : mb.length = vl.length) {i : Nat} (hi : i < vl.length) :
    fuzzySet vl[i] mb vl = .ok (mb[i]'(hlen ▸ hi)) := by
  unfold fuzzySet
  have hne : vl ≠ [] := fun e => by rw [e] at hi; simp at hi
  obtain ⟨x0, rest, hx⟩ := List.exists_cons_of_ne_nil hne
  obtain ⟨mn, e1⟩ : ∃ mn, pymin vl = .ok mn := by rw [hx]; exact ⟨_, rfl⟩
  obtain ⟨mx, e2⟩ : ∃ mx, pymax vl = .ok mx := by rw [hx]; exact ⟨_, rfl⟩
  simp only [e1, e2, bind, Except.bind]
  have hneg := mirrored_iff (v := vl[i]) e1 e2
  have hf : ((lit 0 ≤? mn) && (mn ≤? lit 1) && ((lit 0 ≤? mx) && (mx ≤? lit 1)) && (vl[i] <? lit 0)) = false := by
    rw [Bool.eq_false_iff]
    intro h
    obtain ⟨h1, h2⟩ := hneg.1 h
    have := (h2 vl[i] (List.getElem_mem _)).1
    linarith
  rw [hf]
  simp only [Bool.false_eq_true, if_false]
  obtain ⟨s1, s2, s3⟩ := searchSorted_spec (v := vl[i]) (hs.imp fun h => h.le)
  have hi0 : searchSorted vl vl[i] = i := by
    rcases Nat.lt_trichotomy (searchSorted vl vl[i]) i with h | h | h
    · have h1 := s3 (searchSorted vl vl[i]) (by omega) (le_refl _)
      have h2 := List.pairwise_iff_getElem.1 hs _ _ (by omega) hi h
      linarith
    · exact h
    · exact absurd (s2 i hi h) (lt_irrefl _)
  rw [hi0, if_neg (by omega), njIdx_ok (List.getElem?_eq_getElem hi),
    njIdx_ok (List.getElem?_eq_getElem (hlen ▸ hi : i < mb.length))]
  simp only [pure, Except.pure, fuzzyAt]
  rw [if_pos (by simp)]
  simp

/-- The membership of the value `t` in a cluster with memberships `mb` for the values `v`. -/
noncomputable def Spec.memberOf (v mb : List ℝ) (t : ℝ) : ℝ := mb.getD (v.idxOf t) 0

theorem fuzzySet_mem {vl mb : List ℝ} (hs : vl.Pairwise (· < ·)) (hlen : mb.length = vl.length) {t : ℝ} (ht : t ∈ vl) :
    fuzzySet t mb vl = .ok (Spec.memberOf vl mb t) := by
  have hi := List.idxOf_lt_length_of_mem ht
  have := fuzzySet_listed hs hlen hi
  rw [List.getElem_idxOf] at this
  rw [this]
  unfold Spec.memberOf
  rw [List.getD_eq_getElem?_getD, List.getElem?_eq_getElem (hlen ▸ hi : vl.idxOf t < mb.length)]
  rfl

theorem mapM_fuzzySet {vl mb : List ℝ} (hs : vl.Pairwise (· < ·)) (hlen : mb.length = vl.length) : ∀ {data : List ℝ},
    (∀ t ∈ data, t ∈ vl) → (data.mapM fun t => fuzzySet t mb vl) = .ok (data.map (Spec.memberOf vl mb))
  | [], _ => rfl
  | t :: data, h => by
    rw [List.mapM_cons, fuzzySet_mem hs hlen (h t (by simp)), mapM_fuzzySet hs hlen fun u hu => h u (by simp [hu])]
    rfl

/-! ### The discretization as called by the generator -/

/-- What the discretization of a column must provide. -/
structure Spec.DiscOf (vals : List ℝ) (k : Nat) (v : List ℝ) (u : List (List ℝ)) : Prop where
  two : 2 ≤ k
  sorted : v.Pairwise (· < ·)
  covers : ∀ t ∈ vals, t ∈ v
  desc : Spec.Described k v u

theorem withDisc_ok {env : ClusterEnv ℝ} (he : Spec.Env env) {maxc maxiter d : Nat} {strategy : String} (x : Ext ℝ) (name : String)
    {vals : List ℝ} (hd : Spec.Distinct vals d) (h10 : 10 ≤ d) (hs : Spec.ClusterSettings strategy maxc maxiter d) :
    ∃ k v u, (x.withDisc env maxc maxiter strategy).disc name vals = .ok (k, v, u) ∧ Spec.DiscOf vals k v u := by
  obtain ⟨k, v, u, h1, h2, h3, h4, -, h6⟩ := C51_returns he name hd h10 hs
  refine ⟨k, v, u, ?_, ⟨h2, h3, h4, h6⟩⟩
  show (discretize env maxc maxiter strategy name vals >>= _) = _
  rw [h1]
  rfl

/-- The numbers of a column of numbers. -/
def Spec.numbers : Column ℝ → List ℝ
  | .ints xs => xs.map fun i : Int => (i : ℝ)
  | .floats xs => xs
  | _ => []

theorem asFloats_numbers (c : Column ℝ) : c.asFloats = Spec.numbers c := by
  cases c <;> simp [Column.asFloats, Spec.numbers]

theorem distinct_map {β γ : Type} {f : β → γ} (hf : Function.Injective f) {l : List β} {n : Nat} (h : Spec.Distinct l n) :
    Spec.Distinct (l.map f) n := by
  obtain ⟨k, h1, h2, h3⟩ := h
  refine ⟨k.map f, h1.map hf, ?_, by simpa using h3⟩
  intro x
  simp only [List.mem_map, h2]

/-- A numeric column has more than nine distinct values when types are inferred. -/
theorem numeric_distinct {cfg : GenConf ℝ} (hi : cfg.inferType = true) {c : Column ℝ} (h : c.isDiscrete cfg = false) :
    ∃ d, 10 ≤ d ∧ Spec.Distinct (Spec.numbers c) d := by
  cases c with
  | strs xs => cases h
  | bools xs => cases h
  | ints xs =>
    simp only [Column.isDiscrete, hi, Bool.true_and, decide_eq_false_iff_not, Column.uniqCells, List.length_map, not_lt] at h
    exact ⟨_, h, distinct_map (fun a b => by simp) (distinct_uniq strictOrder_int xs)⟩
  | floats xs =>
    simp only [Column.isDiscrete, hi, Bool.true_and, decide_eq_false_iff_not, Column.uniqCells, List.length_map, not_lt] at h
    exact ⟨_, h, distinct_uniq strictOrder_real xs⟩


/-! ### C66: learning does not fail -/

/-- The measures of a configuration return on every table of non-negative counts that are not all zero. -/
structure Spec.Safe (cfg : GenConf ℝ) : Prop where
  evaluation : ∀ a b c d : ℝ, 0 ≤ a → 0 ≤ b → 0 ≤ c → 0 ≤ d → 0 < a + b + c + d → ∃ r, cfg.evaluation a b c d = .ok r
  causality : ∀ a b c d : ℝ, 0 ≤ a → 0 ≤ b → 0 ≤ c → 0 ≤ d → 0 < a + b + c + d → ∃ r, cfg.causality a b c d = .ok r
  sign : ∀ f, cfg.sign = some f → ∀ a b c d : ℝ, 0 ≤ a → 0 ≤ b → 0 ≤ c → 0 ≤ d → 0 < a + b + c + d → ∃ r, f a b c d = .ok r

/-- Non-negative counts, not all zero. -/
structure Counts (c : Coef ℝ) : Prop where
  pq : 0 ≤ c.pq
  pnq : 0 ≤ c.pnq
  npq : 0 ≤ c.npq
  npnq : 0 ≤ c.npnq
  pos : 0 < c.pq + c.pnq + c.npq + c.npnq

/-- Memberships of `n` samples. -/
def Spec.Members (n : Nat) (r : List ℝ) : Prop := 0 < n ∧ r.length = n ∧ ∀ x ∈ r, 0 ≤ x ∧ x ≤ 1

theorem calcCoef_members {n : Nat} {a b : List ℝ} (ha : Spec.Members n a) (hb : Spec.Members n b) :
    ∃ p q, calcCoef a b = some (p, q) ∧ Counts p ∧ Counts q := by
  have hl : a.length = b.length := ha.2.1.trans hb.2.1.symm
  cases hc : calcCoef a b with
  | none => exact absurd hl ((C36_none a b).1 hc)
  | some pq =>
    obtain ⟨p, q⟩ := pq
    have h1 := (C36_table a b p q hc).1
    obtain ⟨h2, h3, h4, h5⟩ := C36_nonneg a b p q hc ha.2.2 hb.2.2
    have hn : (0 : ℝ) < a.length := by rw [ha.2.1]; exact_mod_cast ha.1
    have hq : q = ⟨p.pq, p.npq, p.pnq, p.npnq⟩ := by
      unfold calcCoef at hc
      rw [if_pos hl] at hc
      cases hc
      rfl
    subst hq
    exact ⟨_, _, rfl, ⟨h2, h3, h4, h5, by linarith⟩, ⟨h2, h4, h3, h5, by dsimp only; linarith⟩⟩

/-- The generator's state while it works on a table of `n` rows. -/
structure Able (n : Nat) (d0 : DefaultConcept ℝ) (K : List String) (g : Gen ℝ) : Prop where
  fit : g.fcm.fitInclination = none
  dflt : g.fcm.default = d0
  feats : ∀ f F, g.features.get? f = some F → ∀ r ∈ F.rows, Spec.Members n r.2
  proc : ∀ f ∈ g.processed, f ∈ g.features.keys
  keys : ∀ f ∈ K, f ∈ g.features.keys

variable {n : Nat} {d0 : DefaultConcept ℝ} {K : List String}

theorem able_relation (o d : String) (w : ℝ) : Succ (Able n d0 K) (Gen.onFcm (FCM.addRelation o d w)) := by
  intro g hg
  have h1 : (FCM.addRelation o d w g.fcm).1 = .ok () := by
    unfold FCM.addRelation
    dsimp only
    split
    · rw [hg.fit]
    · rfl
  have h2 : (FCM.addRelation o d w g.fcm).2.fitInclination = none := by rw [addRelation_fit]; exact hg.fit
  have h3 : (FCM.addRelation o d w g.fcm).2.default = d0 := by
    rw [← hg.dflt]
    unfold FCM.addRelation
    dsimp only
    repeat' split
    all_goals rfl
  refine ⟨(), { g with fcm := (FCM.addRelation o d w g.fcm).2 }, ?_, ⟨h2, h3, hg.feats, hg.proc, hg.keys⟩⟩
  unfold Gen.onFcm
  rw [← h1]

/-- Adding a concept keeps the settings of the map. -/
theorem able_concept {c : String} {a : ConceptArgs ℝ} (h : ∀ g : Gen ℝ, Able n d0 K g → ∃ m, FCM.addConcept c a g.fcm = (.ok (), m)) :
    Succ (Able n d0 K) (Gen.onFcm (FCM.addConcept c a)) := by
  intro g hg
  obtain ⟨m, hm⟩ := h g hg
  refine ⟨(), { g with fcm := m }, ?_, ?_⟩
  · unfold Gen.onFcm
    rw [hm]
  · have hG := gens_concept (g := g) (g' := { g with fcm := m }) (c := c) (a := a) (by unfold Gen.onFcm; rw [hm])
    exact ⟨hG.fit.trans hg.fit, hG.default.trans hg.dflt, hg.feats, hg.proc, hg.keys⟩

theorem able_discrete (c ty : String) {v : List ℝ} (hv : processFunctionArgs d0.fn.args = .ok v)
    (hty : isValidType ty = true) (hnf : isFuzzyType ty = false) :
    Succ (Able n d0 K) (Gen.onFcm (FCM.addConcept c (discArgs ty))) := by
  refine able_concept fun g hg => ?_
  have hd := hg.dflt
  subst hd
  have key : (buildNode g.fcm.default (discArgs ty) (freshNode true : Node ℝ)).1 = .ok () := by
    unfold buildNode buildExec buildFuzzy buildRest buildFn buildType discArgs
    simp only [hty, hnf, if_true, PyM.run_bind, PyM.run_modify, Bool.false_eq_true, if_false, PyM.run_pure, hv,
      PyM.run_lift]
  unfold FCM.addConcept
  have e : (discArgs ty : ConceptArgs ℝ).isActive.getD g.fcm.default.active = true := rfl
  rw [e]
  dsimp only
  rw [key]
  exact ⟨_, rfl⟩

theorem able_weight {cfg : GenConf ℝ} (hcfg : Spec.Safe cfg) (a b : String) (s : ℝ) {c : Coef ℝ} (hc : Counts c) :
    Succ (Able n d0 K) (defWeight cfg a b s c) := by
  obtain ⟨e, he⟩ := hcfg.evaluation _ _ _ _ hc.pq hc.pnq hc.npq hc.npnq hc.pos
  obtain ⟨v, hv⟩ := hcfg.causality _ _ _ _ hc.pq hc.pnq hc.npq hc.npnq hc.pos
  unfold defWeight
  refine Succ.bindLift he ?_
  split
  · refine Succ.bindLift hv ?_
    dsimp only
    split
    · exact Succ.pure _
    · exact able_relation _ _ _
  · exact Succ.pure _

theorem safe_sign {cfg : GenConf ℝ} (hcfg : Spec.Safe cfg) {c : Coef ℝ} (hc : Counts c) : ∃ s, relSign cfg c = .ok s := by
  unfold relSign
  cases hs : cfg.sign with
  | none => exact ⟨_, rfl⟩
  | some f =>
    obtain ⟨d, hd⟩ := hcfg.sign f hs _ _ _ _ hc.pq hc.pnq hc.npq hc.npnq hc.pos
    refine ⟨if d <? cfg.signCut then lit (-1) else lit 1, ?_⟩
    dsimp only
    rw [hd]
    rfl

theorem able_pair {cfg : GenConf ℝ} (hcfg : Spec.Safe cfg) {fa fb : Feature ℝ} {pa pb : String × List ℝ}
    (ha : Spec.Members n pa.2) (hb : Spec.Members n pb.2) : Succ (Able n d0 K) (pairRelation cfg fa fb pa pb) := by
  obtain ⟨p, q, hc, hp, hq⟩ := calcCoef_members ha hb
  unfold pairRelation
  rw [hc]
  dsimp only
  obtain ⟨s, hs⟩ := safe_sign hcfg hp
  obtain ⟨t, ht⟩ := safe_sign hcfg hq
  refine Succ.bindLift hs (Succ.bindLift ht ?_)
  split
  · exact Succ.bind (able_weight hcfg _ _ _ hp) fun _ => able_weight hcfg _ _ _ hq
  · split
    · obtain ⟨c, hc⟩ := hcfg.causality _ _ _ _ hp.pq hp.pnq hp.npq hp.npnq hp.pos
      obtain ⟨d, hd⟩ := hcfg.causality _ _ _ _ hq.pq hq.pnq hq.npq hq.npnq hq.pos
      exact Succ.bindLift hc (Succ.bindLift hd
        (Succ.bind (succ_runIf (able_weight hcfg _ _ _ hp)) fun _ => succ_runIf (able_weight hcfg _ _ _ hq)))
    · split
      · exact able_weight hcfg _ _ _ hq
      · exact able_weight hcfg _ _ _ hp

theorem able_relate {cfg : GenConf ℝ} (hcfg : Spec.Safe cfg) {feat other : String} (hf : feat ∈ K) (ho : other ∈ K) :
    Succ (Able n d0 K) (relateWith cfg feat other) := by
  unfold relateWith
  split
  · exact Succ.pure _
  · intro g hg
    obtain ⟨fa, hfa⟩ := Dict.some_of_mem_keys (hg.keys _ hf)
    obtain ⟨fb, hfb⟩ := Dict.some_of_mem_keys (hg.keys _ ho)
    have two : Succ (Able n d0 K) (twoFeat cfg fa fb) := by
      unfold twoFeat
      exact Succ.forEach fun pa hpa => Succ.forEach fun pb hpb =>
        able_pair hcfg (hg.feats feat fa hfa pa hpa) (hg.feats other fb hfb pb hpb)
    have body : Succ (Able n d0 K) (if cfg.featuresRelation then twoFeat cfg fa fb
        else if sameGroup fa fb then pure () else twoFeat cfg fa fb) := by
      split
      · exact two
      · split
        · exact Succ.pure _
        · exact two
    obtain ⟨b, g', h1, h2⟩ := body g hg
    refine ⟨b, g', ?_, h2⟩
    rw [PyM.run_bind, PyM.run_get]
    dsimp only
    rw [PyM.run_bind, hfa]
    show (PyM.lift (need other (g.features.get? other)) >>= _) g = _
    rw [PyM.run_bind, hfb]
    exact h1

theorem able_innerRelations {cfg : GenConf ℝ} {feat : String} (hf : feat ∈ K) :
    Succ (Able n d0 K) (innerRelations cfg feat) := by
  have row : ∀ (a : String) (bs : List String), Succ (Able n d0 K) (innerRow cfg.exclusion a bs) := by
    intro a bs
    induction bs with
    | nil => exact Succ.pure _
    | cons b bs ih =>
      unfold innerRow
      exact Succ.bind (able_relation _ _ _) fun _ => Succ.bind (able_relation _ _ _) fun _ => ih
  have loop : ∀ ns : List String, Succ (Able n d0 K) (innerLoop cfg.exclusion ns) := by
    intro ns
    induction ns with
    | nil => exact Succ.pure _
    | cons a ns ih =>
      unfold innerLoop
      exact Succ.bind (row a ns) fun _ => ih
  unfold innerRelations
  split
  · exact Succ.pure _
  · intro g hg
    obtain ⟨fa, hfa⟩ := Dict.some_of_mem_keys (hg.keys _ hf)
    obtain ⟨b, g', h1, h2⟩ := loop fa.names g hg
    refine ⟨b, g', ?_, h2⟩
    rw [PyM.run_bind, PyM.run_get]
    dsimp only
    rw [PyM.run_bind, hfa]
    exact h1

/-- Storing a feature whose rows are memberships. -/
theorem able_store {feat : String} {F : Feature ℝ} (hF : ∀ r ∈ F.rows, Spec.Members n r.2) :
    Succ (Able n d0 []) (PyM.modify fun g : Gen ℝ => { g with features := g.features.set feat F }) := by
  intro g hg
  refine ⟨(), _, rfl, ⟨hg.fit, hg.dflt, ?_, ?_, by simp⟩⟩
  · intro f F' hF'
    rw [Dict.get?_set] at hF'
    split at hF'
    · cases hF'
      exact hF
    · exact hg.feats f F' hF'
  · intro f hf
    dsimp only
    rw [Dict.mem_keys_set]
    exact .inl (hg.proc f hf)

theorem able_genDiscrete {cfg : GenConf ℝ} {x : Ext ℝ} {ts : List String} {v : List ℝ} (hv : processFunctionArgs d0.fn.args = .ok v)
    (feat : String) {col : Column ℝ} (hl : (Spec.cells col).length = n) : Succ (Able n d0 []) (genDiscrete cfg x ts feat col) := by
  have loop : ∀ (ty : String) (ns : List String), isValidType ty = true → isFuzzyType ty = false →
      Succ (Able n d0 []) (genDiscreteLoop ty ns : PyM (Gen ℝ) Unit) := by
    intro ty ns h1 h2
    induction ns with
    | nil => exact Succ.pure _
    | cons m ns ih =>
      unfold genDiscreteLoop
      exact Succ.bind (able_discrete m ty hv h1 h2) fun _ => ih
  unfold genDiscrete
  refine Succ.bind (loop _ _ ?_ ?_) fun _ => able_store ?_
  · split <;> decide
  · split <;> decide
  · intro r hr
    unfold Feature.rows at hr
    dsimp only at hr
    rw [oneHot_eq, List.zip_map', List.mem_map] at hr
    obtain ⟨u, hu, rfl⟩ := hr
    have hu' := ((C35_values col).2 u).1 hu
    refine ⟨hl ▸ List.length_pos_of_mem hu', by simpa [indic] using hl, ?_⟩
    intro y hy
    obtain ⟨c, -, rfl⟩ := List.mem_map.1 hy
    split <;> norm_num

theorem able_continuous {cfg : GenConf ℝ} {feat ty : String} {data vl : List ℝ} (hty : ty = TYPE_FUZZY ∨ ty = TYPE_REGRESOR)
    (hs : vl.Pairwise (· < ·)) (hc : ∀ t ∈ data, t ∈ vl) (hne : vl ≠ []) : ∀ (k i : Nat) (ms : List (List ℝ)), k ≤ ms.length →
      (∀ mb ∈ ms, mb.length = vl.length) → ∀ g, Able n d0 [] g → ∃ rs g', genContinuousLoop cfg feat ty data vl k i ms g = (.ok rs, g') ∧
        Able n d0 [] g' ∧ rs.map (·.2) = (ms.take k).map fun mb => data.map (Spec.memberOf vl mb)
  | 0, _, ms, _, _, g, hg => ⟨[], g, rfl, hg, by simp⟩
  | k + 1, i, [], h, _, _, _ => by simp at h
  | k + 1, i, mb :: ms, h, hl, g, hg => by
    have one : Succ (Able n d0 []) (Gen.onFcm (FCM.addConcept (nameConcept cfg feat (toString i)) (contArgs ty mb vl))) := by
      refine able_concept fun g _ => ?_
      exact addConcept_fuzzy_ok (a := .arr vl) (b := .arr mb) (vl := vl) (mb := mb) g.fcm rfl hty rfl (by simp [contArgs]) rfl rfl rfl rfl
        (hl mb (by simp)).symm hne
    obtain ⟨_, g1, h1, p1⟩ := one g hg
    obtain ⟨rs, g2, h2, p2, e2⟩ := able_continuous hty hs hc hne k (i + 1) ms (by simpa using h) (fun m hm => hl m (by simp [hm])) g1 p1
    refine ⟨(nameConcept cfg feat (toString i), data.map (Spec.memberOf vl mb)) :: rs, g2, ?_, p2, by simp [e2]⟩
    unfold genContinuousLoop
    dsimp only
    rw [PyM.run_bind]
    have : genContinuousOne cfg feat ty data vl i mb g = (.ok (nameConcept cfg feat (toString i), data.map (Spec.memberOf vl mb)), g1) := by
      unfold genContinuousOne
      rw [PyM.run_bind]
      have h1' : Gen.onFcm (FCM.addConcept (nameConcept cfg feat (toString i)) (contArgs ty mb vl)) g = (.ok (), g1) := h1
      unfold contArgs at h1'
      rw [h1']
      dsimp only
      rw [mapM_fuzzySet hs (hl mb (by simp)) hc]
      rfl
    rw [this]
    dsimp only
    rw [PyM.run_bind, h2]
    rfl

theorem memberOf_unit {k : Nat} {v : List ℝ} {u : List (List ℝ)} (h : Spec.Described k v u) {mb : List ℝ} (hm : mb ∈ u) (t : ℝ) :
    0 ≤ Spec.memberOf v mb t ∧ Spec.memberOf v mb t ≤ 1 := by
  unfold Spec.memberOf
  rw [List.getD_eq_getElem?_getD]
  cases hg : mb[v.idxOf t]? with
  | none => simp
  | some y => exact h.unit mb hm y (List.mem_of_getElem? hg)

theorem able_genContinuous {cfg : GenConf ℝ} {x : Ext ℝ} {ts : List String} (feat : String) {data : List ℝ} (hn : 0 < n)
    (hl : data.length = n) {k : Nat} {v : List ℝ} {u : List (List ℝ)} (hx : x.disc feat data = .ok (k, v, u))
    (hd : Spec.DiscOf data k v u) : Succ (Able n d0 []) (genContinuous cfg x ts feat data) := by
  intro g hg
  have hne : v ≠ [] := by
    rintro rfl
    obtain ⟨t, ht⟩ : ∃ t, t ∈ data := List.exists_mem_of_length_pos (hl ▸ hn)
    exact absurd (hd.covers t ht) (by simp)
  obtain ⟨rs, g1, h1, p1, e1⟩ := able_continuous (n := n) (d0 := d0) (cfg := cfg) (feat := feat)
    (ty := if feat ∈ ts then TYPE_REGRESOR else TYPE_FUZZY) (by split <;> simp) hd.sorted hd.covers hne k 0 u
    hd.desc.shape.1.ge hd.desc.shape.2 g hg
  have store := able_store (n := n) (d0 := d0) (feat := feat)
    (F := ⟨if feat ∈ ts then TYPE_REGRESOR else TYPE_FUZZY, rs.map (·.1), rs.map (·.2)⟩) (by
      intro r hr
      have hr2 : r.2 ∈ rs.map (·.2) := (List.of_mem_zip hr).2
      rw [e1] at hr2
      obtain ⟨mb, hmb, e⟩ := List.mem_map.1 hr2
      rw [← e]
      refine ⟨hn, by simpa using hl, ?_⟩
      intro y hy
      obtain ⟨t, -, rfl⟩ := List.mem_map.1 hy
      exact memberOf_unit hd.desc (List.mem_of_mem_take hmb) t)
  obtain ⟨_, g2, h2, p2⟩ := store g1 p1
  refine ⟨(), g2, ?_, p2⟩
  unfold genContinuous
  dsimp only
  rw [PyM.run_bind, hx]
  show (genContinuousLoop cfg feat _ data v k 0 u >>= _) g = _
  rw [PyM.run_bind, h1]
  exact h2

theorem able_feature {cfg : GenConf ℝ} (hcfg : Spec.Safe cfg) {x : Ext ℝ} {ts : List String} (hx : ∀ l, (x.order l).Perm l)
    {v : List ℝ} (hv : processFunctionArgs d0.fn.args = .ok v) {feat : String} {col : Column ℝ} (hl : (Spec.cells col).length = n)
    (hd : col.isDiscrete cfg = false → ∃ k v u, x.disc feat (Spec.numbers col) = .ok (k, v, u) ∧ Spec.DiscOf (Spec.numbers col) k v u ∧
      Spec.numbers col ≠ []) :
    Succ (Able n d0 []) (buildFeature cfg x ts feat col) := by
  have whole : ∀ gen : PyM (Gen ℝ) Unit, Succ (Able n d0 []) gen → (∀ g g', gen g = (.ok (), g') → feat ∈ g'.features.keys) →
      Succ (Able n d0 []) (do
        gen
        innerRelations cfg feat
        PyM.modify fun g => { g with processed := setAdd feat g.processed }
        let g ← PyM.get
        PyM.forEach (x.order g.processed) (relateWith cfg feat)) := by
    intro gen hgen has g hg
    obtain ⟨_, g1, h1, p1⟩ := hgen g hg
    have k1 : Able n d0 [feat] g1 := ⟨p1.fit, p1.dflt, p1.feats, p1.proc, by simpa using has g g1 h1⟩
    obtain ⟨_, g2, h2, p2⟩ := able_innerRelations (K := [feat]) (cfg := cfg) (List.mem_singleton.2 rfl) g1 k1
    set g3 : Gen ℝ := { g2 with processed := setAdd feat g2.processed } with e3
    have p3 : Able n d0 (x.order g3.processed ++ [feat]) g3 := by
      have sub : ∀ f ∈ g3.processed, f ∈ g3.features.keys := by
        intro f hf
        have hf' : f ∈ setAdd feat g2.processed := hf
        unfold setAdd at hf'
        split at hf'
        · exact p2.proc f hf'
        · rcases List.mem_append.1 hf' with h | h
          · exact p2.proc f h
          · rw [List.mem_singleton] at h; subst h
            exact p2.keys _ (List.mem_singleton.2 rfl)
      refine ⟨p2.fit, p2.dflt, p2.feats, sub, ?_⟩
      intro f hf
      rcases List.mem_append.1 hf with h | h
      · exact sub f ((hx _).mem_iff.1 h)
      · rw [List.mem_singleton] at h; subst h
        exact p2.keys _ (List.mem_singleton.2 rfl)
    obtain ⟨_, g4, h4, p4⟩ := Succ.forEach (P := Able n d0 (x.order g3.processed ++ [feat]))
      (f := relateWith cfg feat) (xs := x.order g3.processed)
      (fun o ho => able_relate hcfg (List.mem_append_right _ (List.mem_singleton.2 rfl)) (List.mem_append_left _ ho)) g3 p3
    refine ⟨(), g4, ?_, ⟨p4.fit, p4.dflt, p4.feats, p4.proc, by simp⟩⟩
    rw [PyM.run_bind, h1]
    dsimp only
    rw [PyM.run_bind, h2]
    exact h4
  have disc := whole (genDiscrete cfg x ts feat col) (able_genDiscrete hv feat hl) fun g g' h => by
    unfold genDiscrete at h
    obtain ⟨_, g1, -, h⟩ := bind_okP h
    obtain rfl := modify_okP h
    dsimp only
    rw [Dict.mem_keys_set]
    exact .inr rfl
  have cont : col.isDiscrete cfg = false → (Spec.numbers col).length = n → Succ (Able n d0 []) (do
        genContinuous cfg x ts feat col.asFloats
        innerRelations cfg feat
        PyM.modify fun g => { g with processed := setAdd feat g.processed }
        let g ← PyM.get
        PyM.forEach (x.order g.processed) (relateWith cfg feat)) := by
    intro hc hln
    obtain ⟨k, v, u, h1, h2, h3⟩ := hd hc
    rw [asFloats_numbers]
    refine whole _ (able_genContinuous feat (hln ▸ List.length_pos_iff.2 h3) hln h1 h2) fun g g' h => ?_
    unfold genContinuous at h
    obtain ⟨_, g1, -, h⟩ := bind_okP h
    obtain ⟨_, g2, -, h⟩ := bind_okP h
    obtain rfl := modify_okP h
    dsimp only
    rw [Dict.mem_keys_set]
    exact .inr rfl
  unfold buildFeature
  cases col with
  | strs xs => exact disc
  | bools xs => exact disc
  | ints xs =>
    by_cases hc : (Column.ints xs).isDiscrete cfg = true
    · have hc' := hc
      simp only [Column.isDiscrete, Bool.and_eq_true, decide_eq_true_eq] at hc'
      dsimp only
      rw [if_pos hc']
      exact disc
    · have hc' := hc
      simp only [Column.isDiscrete, Bool.and_eq_true, decide_eq_true_eq] at hc'
      dsimp only
      rw [if_neg hc']
      exact cont (by simpa using hc) (by simpa [Spec.cells, Spec.numbers] using hl)
  | floats xs =>
    by_cases hc : (Column.floats xs).isDiscrete cfg = true
    · have hc' := hc
      simp only [Column.isDiscrete, Bool.and_eq_true, decide_eq_true_eq] at hc'
      dsimp only
      rw [if_pos hc']
      exact disc
    · have hc' := hc
      simp only [Column.isDiscrete, Bool.and_eq_true, decide_eq_true_eq] at hc'
      dsimp only
      rw [if_neg hc']
      exact cont (by simpa using hc) (by simpa [Spec.cells, Spec.numbers] using hl)

/-- The strategies of the generator. -/
def Spec.Strategy (s : String) : Prop := s = "cmeans-gap" ∨ s = "cmeans-sil" ∨ s = "cmeans-cfe" ∨ s = "rl-cmeans"

theorem standard_settings {s : String} (h : Spec.Strategy s) {d : Nat} (hd : 10 ≤ d) : Spec.ClusterSettings s 7 200 d := by
  refine ⟨by decide, ?_⟩
  rcases h with h | h | h | h
  · exact .inl ⟨h, by decide⟩
  · exact .inr (.inl ⟨.inl h, by omega⟩)
  · exact .inr (.inl ⟨.inr h, by omega⟩)
  · exact .inr (.inr h)

theorem standard_disc {env : ClusterEnv ℝ} (he : Spec.Env env) {s : String} (hs : Spec.Strategy s) (x : Ext ℝ) (name : String)
    {cfg : GenConf ℝ} (hi : cfg.inferType = true) {c : Column ℝ} (h : c.isDiscrete cfg = false) :
    ∃ k v u, (x.standard env s).disc name (Spec.numbers c) = .ok (k, v, u) ∧ Spec.DiscOf (Spec.numbers c) k v u ∧ Spec.numbers c ≠ [] := by
  obtain ⟨d, h10, hd⟩ := numeric_distinct hi h
  obtain ⟨k, v, u, h1, h2⟩ := withDisc_ok he x name hd h10 (standard_settings hs h10)
  refine ⟨k, v, u, h1, h2, ?_⟩
  intro e
  rw [e] at hd
  obtain ⟨l, -, h4, h5⟩ := hd
  have : l = [] := List.eq_nil_iff_forall_not_mem.2 fun y hy => by simpa using (h4 y).1 hy
  subst this
  simp at h5
  omega

/-- C66: with inferred types, `build_fcm` returns a map for every rectangular table of texts, truth values, integers and
numbers, with each of the four discretization strategies, if the measures of the configuration return. -/
theorem C66_learns {env : ClusterEnv ℝ} (he : Spec.Env env) {s : String} (hs : Spec.Strategy s) {cfg : GenConf ℝ}
    (hi : cfg.inferType = true) (hcfg : Spec.Safe cfg) {x : Ext ℝ} (hx : ∀ l, (x.order l).Perm l) {ts : List String}
    {cols : List (String × Column ℝ)} (hl : ∀ p ∈ cols, (Spec.cells p.2).length = n) {fit : Bool} {g0 : Gen ℝ}
    (h0 : Gen.new fit = .ok g0) : ∃ g, Gen.build cfg (x.standard env s) ts cols none g0 = (.ok (), g) := by
  have hnew : ∃ m, (FCM.new : Except Err (FCM ℝ)) = .ok m ∧ m.fitInclination = none ∧ m.default.fn.args = [] := ⟨_, rfl, rfl, rfl⟩
  obtain ⟨m, hm, hf, ha⟩ := hnew
  have all : ∀ l : List (String × Column ℝ), (∀ p ∈ l, p ∈ cols) →
      Succ (Able n m.default []) (buildFcm cfg (x.standard env s) ts l) := by
    intro l
    induction l with
    | nil => intro _; exact Succ.pure _
    | cons p l ih =>
      intro h
      unfold buildFcm
      exact Succ.bind (able_feature (x := x.standard env s) hcfg hx (v := []) (by rw [ha]; rfl) (hl p (h p (by simp)))
        (standard_disc he hs x p.1 hi)) fun _ => ih fun q hq => h q (by simp [hq])
  obtain ⟨_, g, hg, -⟩ := all cols (fun _ h => h) ⟨[], [], m⟩ ⟨hf, rfl, fun f F hF => (by cases hF), by simp, by simp⟩
  refine ⟨g, ?_⟩
  have hg0 : g0.features = [] ∧ g0.processed = [] := by
    unfold Gen.new at h0
    obtain ⟨p, -, h1⟩ := exc_bind_ok h0
    cases h1
    exact ⟨rfl, rfl⟩
  unfold Gen.build
  rw [hg0.1, hg0.2, hm]
  exact hg

/-- The default measures return. -/
theorem safe_default {cfg : GenConf ℝ} (he : cfg.evaluation = Relation.supp) (hc : cfg.causality = Relation.conf)
    (hs : cfg.sign = none) : Spec.Safe cfg := by
  refine ⟨fun a b c d _ _ _ _ h => ?_, fun a b c d h1 h2 _ _ _ => ?_, fun f hf => by rw [hs] at hf; cases hf⟩
  · rw [he]
    exact ⟨_, pdiv_real (by linarith)⟩
  · rw [hc]
    obtain ⟨r, hr, -⟩ := C37_conf h1 h2
    exact ⟨r, hr⟩


/-! ### C67: the memberships of the samples -/

/-- Memberships `rows` (one list per cluster, one entry per sample) of samples with the numbers `vals`. -/
structure Spec.NumericFeature (vals : List ℝ) (rows : List (List ℝ)) : Prop where
  two : 2 ≤ rows.length
  length : ∀ r ∈ rows, r.length = vals.length
  unit : ∀ r ∈ rows, ∀ y ∈ r, 0 ≤ y ∧ y ≤ 1
  /-- equal numbers have equal memberships -/
  same : ∀ r ∈ rows, ∀ i j, i < vals.length → j < vals.length → vals.getD i 0 = vals.getD j 0 → r.getD i 0 = r.getD j 0
  /-- the memberships of a sample add up to 1, or to 5/6 and more for samples with one particular number -/
  sum : ∃ t, ∀ i < vals.length, ((rows.map fun r => r.getD i 0).sum = 1) ∨
    (vals.getD i 0 = t ∧ 5 / 6 ≤ (rows.map fun r => r.getD i 0).sum ∧ (rows.map fun r => r.getD i 0).sum < 1)

theorem numericFeature_of {vals : List ℝ} {k d : Nat} {v : List ℝ} {u : List (List ℝ)} (h : Spec.DiscOf vals k v u)
    (hd : Spec.Distinct vals d) (h10 : 10 ≤ d) : Spec.NumericFeature vals (u.map fun mb => vals.map (Spec.memberOf v mb)) := by
  have hlen : 10 ≤ v.length := by
    obtain ⟨l, h1, h2, h3⟩ := hd
    have := (List.subperm_of_subset h1 fun y hy => h.covers y ((h2 y).1 hy)).length_le
    omega
  have get : ∀ mb : List ℝ, ∀ i (hi : i < vals.length), (vals.map (Spec.memberOf v mb)).getD i 0 = mb.getD (v.idxOf vals[i]) 0 := by
    intro mb i hi
    rw [List.getD_eq_getElem?_getD, List.getElem?_map, List.getElem?_eq_getElem hi]
    rfl
  refine ⟨by simpa [h.desc.shape.1] using h.two, ?_, ?_, ?_, v.getD (v.length / 2) 0, ?_⟩
  · intro r hr
    obtain ⟨mb, -, rfl⟩ := List.mem_map.1 hr
    simp
  · intro r hr y hy
    obtain ⟨mb, hm, rfl⟩ := List.mem_map.1 hr
    obtain ⟨t, -, rfl⟩ := List.mem_map.1 hy
    exact memberOf_unit h.desc hm t
  · intro r hr i j hi hj e
    obtain ⟨mb, -, rfl⟩ := List.mem_map.1 hr
    rw [get mb i hi, get mb j hj]
    rw [List.getD_eq_getElem?_getD, List.getElem?_eq_getElem hi, List.getD_eq_getElem?_getD, List.getElem?_eq_getElem hj] at e
    have e : vals[i] = vals[j] := e
    rw [e]
  · intro i hi
    have hm : vals[i] ∈ v := h.covers _ (List.getElem_mem hi)
    have hj := List.idxOf_lt_length_of_mem hm
    have hs := h.desc.sum _ hj
    have e : ((u.map fun mb => vals.map (Spec.memberOf v mb)).map fun r => r.getD i 0) = u.map fun r => r.getD (v.idxOf vals[i]) 0 := by
      rw [List.map_map]
      exact List.map_congr_left fun mb _ => get mb i hi
    rw [e]
    rcases hs with hs | ⟨-, h1, h2⟩
    · exact .inl hs
    · right
      have h5 : (5 : ℝ) ≤ (v.idxOf vals[i] : ℝ) := by
        have : 5 ≤ v.idxOf vals[i] := by omega
        exact_mod_cast this
      refine ⟨?_, ?_, ?_⟩
      · have e1 : v[v.idxOf vals[i]]? = some vals[i] := by rw [List.getElem?_eq_getElem hj, List.getElem_idxOf]
        have e2 : vals[i]? = some vals[i] := List.getElem?_eq_getElem hi
        rw [← h1, List.getD_eq_getElem?_getD, List.getD_eq_getElem?_getD, e1, e2]
      · rw [h2, div_le_div_iff₀ (by norm_num) (by linarith)]
        linarith
      · rw [h2, div_lt_one (by linarith)]
        linarith

theorem forall₂_rows {vals v : List ℝ} (hs : v.Pairwise (· < ·)) (hc : ∀ t ∈ vals, t ∈ v) {us rows : List (List ℝ)}
    (h : List.Forall₂ (fun mb row => vals.mapM (fun t => fuzzySet t mb v) = .ok row) us rows) (hl : ∀ mb ∈ us, mb.length = v.length) :
    rows = us.map fun mb => vals.map (Spec.memberOf v mb) := by
  induction h with
  | nil => rfl
  | cons h1 _ ih =>
    rw [mapM_fuzzySet hs (hl _ (by simp)) hc] at h1
    cases h1
    rw [ih fun m hm => hl m (by simp [hm])]
    rfl

/-- The feature of a numeric column. -/
theorem numeric_featureOf {env : ClusterEnv ℝ} (he : Spec.Env env) {s : String} (hs : Spec.Strategy s) {cfg : GenConf ℝ}
    (hi : cfg.inferType = true) {x : Ext ℝ} {ts : List String} {p : String × Column ℝ} {F : Feature ℝ}
    {cs : List (String × ConceptArgs ℝ)} (hd : p.2.isDiscrete cfg = false)
    (hF : FeatureOf cfg (x.standard env s) ts p.1 p.2 F cs) :
    Spec.NumericFeature (Spec.numbers p.2) F.desc ∧
      F.names = (List.range F.desc.length).map fun i => nameConcept cfg p.1 (toString i) := by
  unfold FeatureOf at hF
  rw [if_neg (by simp [hd])] at hF
  obtain ⟨k, v, u, h1, h2, h3, h4, h5, -⟩ := hF
  obtain ⟨k', v', u', e1, e2, -⟩ := standard_disc he hs x p.1 hi hd
  rw [asFloats_numbers, e1] at h1
  cases h1
  rw [asFloats_numbers] at h5
  have hu : u.take k = u := List.take_of_length_le e2.desc.shape.1.le
  rw [hu] at h5
  have hr := forall₂_rows e2.sorted e2.covers h5 e2.desc.shape.2
  obtain ⟨d, h10, hdist⟩ := numeric_distinct hi hd
  have hN := numericFeature_of e2 hdist h10
  rw [← hr] at hN
  refine ⟨hN, ?_⟩
  have : F.desc.length = k := by rw [hr]; simpa using e2.desc.shape.1
  rw [this, h4]

/-- C67: after learning, a numeric column is described by at least two clusters, and the memberships of the samples in
them are numbers in [0, 1] that depend only on the sample's number and add up to 1 — except that the samples with one
particular number may fall short, but not below 5/6. -/
theorem C67_memberships {env : ClusterEnv ℝ} (he : Spec.Env env) {s : String} (hs : Spec.Strategy s) {cfg : GenConf ℝ}
    (hi : cfg.inferType = true) {x : Ext ℝ} (hx : ∀ l, (x.order l).Perm l) {ts : List String}
    {cols : List (String × Column ℝ)} (hn : (cols.map (·.1)).Nodup) {given : Option (FCM ℝ)} {fit : Bool} {g0 g : Gen ℝ}
    (h0 : Gen.new fit = .ok g0) (h : Gen.build cfg (x.standard env s) ts cols given g0 = (.ok (), g))
    {p : String × Column ℝ} (hp : p ∈ cols) (hd : p.2.isDiscrete cfg = false) :
    ∃ F, g.features.get? p.1 = some F ∧ Spec.NumericFeature (Spec.numbers p.2) F.desc ∧
      F.names = (List.range F.desc.length).map fun i => nameConcept cfg p.1 (toString i) := by
  obtain ⟨m0, hb, -⟩ := build_from h0 h
  obtain ⟨W, L, hB⟩ := buildFcm_built (x := x.standard env s) hx hn hb
  obtain ⟨w, hw, e, hF⟩ := hB.of_col hp
  refine ⟨w.2.1, ?_, numeric_featureOf he hs hi hd hF⟩
  have hgn : g.features.keys.Nodup := by
    have : g.features.keys = W.map (·.1) := by
      rw [hB.features]; simp [Dict.keys, Function.comp_def]
    rw [this, hB.wnames]; exact hn
  refine Dict.get?_of_mem hgn ?_
  rw [hB.features, List.mem_map]
  exact ⟨w, hw, by rw [e]⟩

/-! ### C68: the weights of a learned map -/

theorem innerArcs_ends {e : ℝ} {ns : List String} {r : Arc ℝ} (h : r ∈ innerArcs e ns) :
    r.weight = e ∧ r.origin ∈ ns ∧ r.dest ∈ ns := by
  induction ns with
  | nil => simp [innerArcs] at h
  | cons a as ih =>
    simp only [innerArcs, List.mem_append, mem_bothWays] at h
    rcases h with ⟨h1, ⟨h2, h3⟩ | ⟨h2, h3⟩⟩ | h
    · exact ⟨h1, by simp [h2], by simp [h3]⟩
    · exact ⟨h1, by simp [h3], by simp [h2]⟩
    · obtain ⟨h1, h2, h3⟩ := ih h
      exact ⟨h1, by simp [h2], by simp [h3]⟩

theorem rows_unit {env : ClusterEnv ℝ} (he : Spec.Env env) {s : String} (hs : Spec.Strategy s) {cfg : GenConf ℝ}
    (hi : cfg.inferType = true) {x : Ext ℝ} {ts : List String} {p : String × Column ℝ} {F : Feature ℝ}
    {cs : List (String × ConceptArgs ℝ)} (hF : FeatureOf cfg (x.standard env s) ts p.1 p.2 F cs) :
    ∀ r ∈ F.rows, ∀ y ∈ r.2, 0 ≤ y ∧ y ≤ 1 := by
  intro r hr y hy
  have hr2 : r.2 ∈ F.desc := (List.of_mem_zip hr).2
  by_cases hd : p.2.isDiscrete cfg = true
  · unfold FeatureOf at hF
    rw [if_pos hd] at hF
    rw [hF.2.2.1, oneHot_eq] at hr2
    obtain ⟨u, -, e⟩ := List.mem_map.1 hr2
    rw [← e] at hy
    obtain ⟨c, -, rfl⟩ := List.mem_map.1 hy
    split <;> norm_num
  · exact (numeric_featureOf he hs hi (by simpa using hd) hF).1.unit _ hr2 y hy

/-- C68: if the weight of a relation is a confidence (the default), then in every learned map each relation has either
the weight of mutual exclusion and joins two values of one column, or a weight between -1 and 1, which is positive if no
sign function is configured. -/
theorem C68_weights {env : ClusterEnv ℝ} (he : Spec.Env env) {s : String} (hs : Spec.Strategy s) {cfg : GenConf ℝ}
    (hi : cfg.inferType = true) (hc : cfg.causality = Relation.conf) {x : Ext ℝ}
    (hx : ∀ l, (x.order l).Perm l) {ts : List String} {cols : List (String × Column ℝ)} (hn : (cols.map (·.1)).Nodup)
    {fit : Bool} {g0 g : Gen ℝ} (h0 : Gen.new fit = .ok g0)
    (h : Gen.build cfg (x.standard env s) ts cols none g0 = (.ok (), g)) {r : Arc ℝ} (hr : r ∈ g.fcm.arcList) :
    (r.weight = cfg.exclusion ∧ ∃ p ∈ cols, Spec.ConceptOf cfg (x.standard env s) p r.origin ∧
        Spec.ConceptOf cfg (x.standard env s) p r.dest) ∨
      (-1 ≤ r.weight ∧ r.weight ≤ 1 ∧ r.weight ≠ 0 ∧ (cfg.sign = none → 0 < r.weight)) := by
  obtain ⟨m0, hb, hgv⟩ := build_from h0 h
  have hm0 : m0.arcList = [] := by
    rcases hgv with hgv | ⟨-, hnew⟩
    · cases hgv
    · have e : (FCM.new : Except Err (FCM ℝ)) = .ok m0 := hnew
      cases e
      rfl
  obtain ⟨W, L, hB⟩ := buildFcm_built (x := x.standard env s) hx hn hb
  rw [hB.arcs, hm0] at hr
  have ofW : ∀ w ∈ W, ∃ p ∈ cols, FeatureOf cfg (x.standard env s) ts p.1 p.2 w.2.1 w.2.2 := by
    intro w hw
    obtain ⟨i, hi, rfl⟩ := List.mem_iff_getElem.1 hw
    have hh := List.forall₂_iff_get.1 hB.feats
    have hi' : i < cols.length := by rw [hh.1]; exact hi
    exact ⟨cols[i], List.getElem_mem hi', (hh.2 i hi' hi).2⟩
  rcases (hB.mem r).1 hr with ⟨w, hw, hm⟩ | ⟨v, w, hsub, hm⟩
  · left
    obtain ⟨p, hp, hF⟩ := ofW w hw
    unfold exclArcs at hm
    split at hm
    · cases hm
    obtain ⟨e1, e2, e3⟩ := innerArcs_ends hm
    exact ⟨e1, p, hp, (mem_names hF _).1 e2, (mem_names hF _).1 e3⟩
  · right
    obtain ⟨p, hp, hFp⟩ := ofW v (hsub.subset (by simp))
    obtain ⟨q, hq, hFq⟩ := ofW w (hsub.subset (by simp))
    obtain ⟨-, pa, ha, pb, hb, c, c', hcc, hr⟩ := hm
    have ua := rows_unit he hs hi hFq pa ha
    have ub := rows_unit he hs hi hFp pb hb
    obtain ⟨n1, n2, n3, n4⟩ := C36_nonneg _ _ _ _ hcc ua ub
    have hc' : c' = ⟨c.pq, c.npq, c.pnq, c.npnq⟩ := by
      unfold calcCoef at hcc
      split at hcc
      · cases hcc; rfl
      · cases hcc
    have weigh : ∀ (c : Coef ℝ) (t w : ℝ), 0 ≤ c.pq → 0 ≤ c.pnq → relSign cfg c = .ok t → Weighs cfg t c w →
        -1 ≤ w ∧ w ≤ 1 ∧ w ≠ 0 ∧ (cfg.sign = none → 0 < w) := by
      rintro c t w h1 h2 ht ⟨e, v, -, -, hv, rfl, hz⟩
      rw [hc] at hv
      obtain ⟨y, hy, b1, b2⟩ := C37_conf h1 h2
      have hv : Relation.conf c.pq c.pnq c.npq c.npnq = .ok v := hv
      rw [hy] at hv
      rw [Except.ok.inj hv] at b1 b2
      have hz' : t * v ≠ 0 := by
        intro hh
        rw [hh] at hz
        simp at hz
      have tt : (t = 1 ∨ t = -1) ∧ (cfg.sign = none → t = 1) := by
        unfold relSign at ht
        cases hsg : cfg.sign with
        | none =>
          rw [hsg] at ht
          cases ht
          exact ⟨.inl (by simp), fun _ => by simp⟩
        | some f =>
          rw [hsg] at ht
          obtain ⟨y, -, ht⟩ := exc_bind_ok ht
          have ht := Except.ok.inj ht
          refine ⟨?_, fun hh => by cases hh⟩
          rw [← ht]
          split
          · right; simp
          · left; simp
      refine ⟨?_, ?_, hz', ?_⟩
      · rcases tt.1 with rfl | rfl <;> linarith
      · rcases tt.1 with rfl | rfl <;> linarith
      · intro hn
        rw [tt.2 hn] at hz' ⊢
        rw [one_mul] at hz' ⊢
        exact lt_of_le_of_ne b1 (Ne.symm hz')
    rcases hr with ⟨t, w, rfl, ht, -, hw⟩ | ⟨t, w, rfl, ht, -, hw⟩
    · exact weigh c t w n1 n2 ht hw
    · subst hc'
      exact weigh ⟨c.pq, c.npq, c.pnq, c.npnq⟩ t w n1 n3 ht hw

/-! ### C45: numbers seen in training -/

/-- C45 with the library's own discretization: when a row is predicted, the number of a training sample sets every
cluster of its column to the membership the sample has in the trained features. -/
theorem C45_trained {env : ClusterEnv ℝ} (he : Spec.Env env) {s : String} (hs : Spec.Strategy s) {cfg : GenConf ℝ}
    (hi : cfg.inferType = true) {x x' : Ext ℝ} {xs ys : List (String × Column ℝ)} {e0 e e1 e2 : Estimator ℝ} {b : Bool}
    (hn : Spec.New e0) (h : Spec.Hist cfg e0 b e) (hx : ∀ l, (x.order l).Perm l)
    (hr : Spec.Readable cfg (x.standard env s) (xs ++ ys))
    (hf : Estimator.fit cfg (x.standard env s) xs ys e = (.ok (), e1)) (hsince : Spec.Since cfg e1 e2) {q : String × Column ℝ}
    (hq : q ∈ xs ++ ys) (hd : q.2.isDiscrete cfg = false) {j : Nat} (hj : j < (Spec.numbers q.2).length) :
    ∃ F m', e2.features.get? q.1 = some F ∧ Spec.NumericFeature (Spec.numbers q.2) F.desc ∧
      initByFeature cfg x' e2.features q.1 (.float (Spec.numbers q.2)[j]) e2.fcm = (.ok (), m') ∧
      ∀ i (hi : i < F.desc.length), ∃ nd, m'.topology.get? (toString i ++ cfg.separator ++ q.1) = some nd ∧
        nd.value = F.desc[i].getD j 0 := by
  have hjn := joinColumns_disjoint hr.columns
  obtain ⟨-, -, -, hfit⟩ := fit_fitted (x := x.standard env s) hn h hx (hjn ▸ hr) hf
  rw [hjn] at hfit
  obtain ⟨hfe, -⟩ := hsince.same
  obtain ⟨F, cs, hF⟩ := hfit q hq
  obtain ⟨k, v, u, h1, h2, -⟩ := standard_disc he hs x q.1 hi hd
  have hget : e2.features.get? q.1 = some F := by rw [hfe]; exact hF.get
  have hfo := hF.feat
  unfold FeatureOf at hfo
  rw [if_neg (by simp [hd])] at hfo
  obtain ⟨k', v', u', e1', -, -, -, e5, -⟩ := hfo
  rw [asFloats_numbers, h1] at e1'
  cases e1'
  rw [asFloats_numbers, List.take_of_length_le h2.desc.shape.1.le] at e5
  have hrows := forall₂_rows h2.sorted h2.covers e5 h2.desc.shape.2
  have hk : F.desc.length = k := by rw [hrows]; simpa using h2.desc.shape.1
  obtain ⟨m', i1, i2, -⟩ := C45_number_partial (x := x.standard env s) (x' := x') hn h hx hr hf hsince hq hd (n := k) (vl := v) (memb := u)
    (by rw [asFloats_numbers]; exact h1) (h2.sorted.imp fun h => by simpa using h) h2.desc.shape.2 (u := .float (Spec.numbers q.2)[j])
    (v := (Spec.numbers q.2)[j]) (.inl rfl) (A := fun i => Spec.memberOf v (u.getD i []) (Spec.numbers q.2)[j]) (by
      intro i mb _ hmb
      rw [List.getD_eq_getElem?_getD, hmb]
      exact fuzzySet_mem h2.sorted (h2.desc.shape.2 mb (List.mem_of_getElem? hmb)) (h2.covers _ (List.getElem_mem hj)))
  refine ⟨F, m', hget, (numeric_featureOf he hs hi hd hF.feat).1, i1, ?_⟩
  intro i hi'
  obtain ⟨⟨nd, n1, n2⟩, -⟩ := i2 i (hk ▸ hi')
  refine ⟨nd, n1, ?_⟩
  have hiu : i < u.length := by rw [h2.desc.shape.1, ← hk]; exact hi'
  have hrow : F.desc[i] = (Spec.numbers q.2).map (Spec.memberOf v u[i]) := by
    simp only [hrows, List.getElem_map]
  rw [n2, hrow, List.getD_eq_getElem?_getD, List.getD_eq_getElem?_getD, List.getElem?_eq_getElem hiu, List.getElem?_map,
    List.getElem?_eq_getElem hj]
  rfl

/-! ### Examples -/

/-- A table with a numeric column, a column of texts and a column of few integers. -/
noncomputable def Ex.mixed : List (String × Column ℝ) :=
  [("size", .floats [10, 1, 2, 3, 4, 5, 6, 7, 8, 9, 1]),
   ("color", .strs ["red", "blue", "red", "red", "blue", "red", "red", "blue", "red", "blue", "blue"]),
   ("class", .ints [1, 0, 1, 0, 1, 0, 1, 0, 1, 0, 1])]

theorem Ex.mixed_builds {s : String} (hs : Spec.Strategy s) {g0 : Gen ℝ} (h0 : Gen.new true = .ok g0) :
    ∃ g, Gen.build Ex.realConf (Ex.realExt.standard exEnv s) ["class"] Ex.mixed none g0 = (.ok (), g) := by
  refine C66_learns (n := 11) exEnv_ok hs rfl (safe_default rfl rfl rfl) (fun l => .refl _) ?_ h0
  intro p hp
  simp only [Ex.mixed, List.mem_cons, List.not_mem_nil, or_false] at hp
  rcases hp with rfl | rfl | rfl <;> rfl

theorem Ex.mixed_numeric : (Column.floats [10, 1, 2, 3, 4, 5, 6, 7, 8, 9, 1] : Column ℝ).isDiscrete Ex.realConf = false := by
  have h := distinct_unique (distinct_uniq strictOrder_real Ex.ten) Ex.ten_distinct
  simp only [Column.isDiscrete, decide_eq_false_iff_not, Column.uniqCells, List.length_map, not_lt, Bool.and_eq_false_iff]
  right
  have : (uniq Arith.lt Ex.ten).length = 10 := h
  exact this.ge

example {g0 g : Gen ℝ} (h0 : Gen.new true = .ok g0)
    (h : Gen.build Ex.realConf (Ex.realExt.standard exEnv "cmeans-gap") ["class"] Ex.mixed none g0 = (.ok (), g)) :
    ∃ F, g.features.get? "size" = some F ∧ Spec.NumericFeature [10, 1, 2, 3, 4, 5, 6, 7, 8, 9, 1] F.desc ∧
      F.names = (List.range F.desc.length).map fun i => nameConcept Ex.realConf "size" (toString i) :=
  C67_memberships exEnv_ok (.inl rfl) rfl (fun l => .refl _) (cols := Ex.mixed) (by decide) h0 h
    (p := ("size", .floats [10, 1, 2, 3, 4, 5, 6, 7, 8, 9, 1])) (by simp [Ex.mixed]) Ex.mixed_numeric

/-- The weights of the example's map. -/
example {g0 g : Gen ℝ} (h0 : Gen.new true = .ok g0)
    (h : Gen.build Ex.realConf (Ex.realExt.standard exEnv "cmeans-gap") ["class"] Ex.mixed none g0 = (.ok (), g)) :
    ∀ r ∈ g.fcm.arcList, r.weight = -1 ∨ (0 < r.weight ∧ r.weight ≤ 1) := by
  intro r hr
  rcases C68_weights exEnv_ok (.inl rfl) rfl rfl (fun l => .refl _) (cols := Ex.mixed) (by decide) h0 h hr with h | h
  · exact .inl h.1
  · exact .inr ⟨h.2.2.2 rfl, h.2.1⟩

end PyFCM
