import Verif.Lemmas.Learned
/-
The map and the features after `build_fcm`.
-/
namespace PyFCM
open Arith

set_option linter.unusedSectionVars false

variable {α : Type} [Arith α]

/-! ### Adding concepts -/

/-- The arguments `__gen_discrete_concepts` and `__gen_continuous_concepts` pass to `add_concept`. -/
def discArgs (ty : String) : ConceptArgs α := { type := some ty, isActive := some true }
def contArgs (ty : String) (memb vl : List α) : ConceptArgs α :=
  { type := some ty, isActive := some true, activationDict := some [("membership", .arr memb), ("val_list", .arr vl)] }

/-- A node just added by a successful `add_concept`. -/
def Born (d : DefaultConcept α) (a : ConceptArgs α) (n : Node α) : Prop :=
  ∃ n0, buildNode d a (freshNode (a.isActive.getD d.active)) = (.ok (), n0) ∧ n = { n0 with value := lit 0 }

/-- `g'` is `g` with the concepts `cs` added to its map. -/
structure Gens (g : Gen α) (cs : List (String × ConceptArgs α)) (g' : Gen α) : Prop where
  features : g'.features = g.features
  processed : g'.processed = g.processed
  clean : CleanInv g.fcm → CleanInv g'.fcm
  keys : ∀ c, c ∈ g'.fcm.topology.keys ↔ c ∈ g.fcm.topology.keys ∨ c ∈ cs.map (·.1)
  arcs : g'.fcm.arcList = g.fcm.arcList
  fit : g'.fcm.fitInclination = g.fcm.fitInclination
  default : g'.fcm.default = g.fcm.default
  born : (cs.map (·.1)).Nodup → ∀ p ∈ cs, ∃ n, g'.fcm.topology.get? p.1 = some n ∧ Born g.fcm.default p.2 n
  other : ∀ c, c ∉ cs.map (·.1) → g'.fcm.topology.get? c = g.fcm.topology.get? c
  linked : CleanInv g.fcm → Linked g.fcm → (cs.map (·.1)).Nodup → (∀ c ∈ cs.map (·.1), c ∉ g.fcm.topology.keys) →
    Linked g'.fcm
  order : g'.fcm.execution.keys = (cs.map (·.1)).foldl (fun ks c => setAdd c ks) g.fcm.execution.keys

/-- Concepts that no relation leads to can be added freely. -/
theorem Gens.slope {g g' : Gen α} {cs : List (String × ConceptArgs α)} (h : Gens g cs g') {t : α}
    (hn : ∀ a ∈ g.fcm.arcList, a.dest ∉ cs.map (·.1)) (hs : SlopeOk t g.fcm) : SlopeOk t g'.fcm := by
  intro a ha n hn'
  rw [h.arcs] at ha
  rw [h.other _ (hn a ha)] at hn'
  exact hs a ha n hn'

theorem Gens.refl (g : Gen α) : Gens g [] g :=
  ⟨rfl, rfl, id, by simp, rfl, rfl, rfl, by simp, fun _ _ => rfl, fun _ h _ _ => h, rfl⟩

theorem Gens.trans {g g1 g2 : Gen α} {cs ds : List (String × ConceptArgs α)} (h : Gens g cs g1) (h' : Gens g1 ds g2) :
    Gens g (cs ++ ds) g2 := by
  refine ⟨h'.features.trans h.features, h'.processed.trans h.processed, fun c => h'.clean (h.clean c), ?_,
    h'.arcs.trans h.arcs, h'.fit.trans h.fit, h'.default.trans h.default, ?_, ?_, ?_,
    by rw [h'.order, h.order, List.map_append, List.foldl_append]⟩
  · intro c
    rw [h'.keys, h.keys, List.map_append, List.mem_append, or_assoc]
  · intro hn p hp
    rw [List.map_append, List.nodup_append] at hn
    rcases List.mem_append.1 hp with hp | hp
    · obtain ⟨n, h1, h2⟩ := h.born hn.1 p hp
      refine ⟨n, ?_, h2⟩
      rw [h'.other p.1 fun hq => hn.2.2 _ (List.mem_map_of_mem hp) _ hq rfl]
      exact h1
    · obtain ⟨n, h1, h2⟩ := h'.born hn.2.1 p hp
      rw [h.default] at h2
      exact ⟨n, h1, h2⟩
  · intro c hc
    rw [List.map_append, List.mem_append, not_or] at hc
    rw [h'.other c hc.2, h.other c hc.1]
  · intro hc hl hn hk
    rw [List.map_append] at hn hk
    rw [List.nodup_append] at hn
    refine h'.linked (h.clean hc) (h.linked hc hl hn.1 fun c hm => hk c (List.mem_append_left _ hm)) hn.2.1 ?_
    intro c hm hm'
    rcases (h.keys c).1 hm' with h1 | h1
    · exact hk c (List.mem_append_right _ hm) h1
    · exact hn.2.2 c h1 c hm rfl

theorem keys_set {β : Type} (d : Dict β) (k : String) (v : β) : (d.set k v).keys = setAdd k d.keys := by
  unfold setAdd
  split
  · rename_i h; exact Dict.keys_set_of_mem _ _ _ h
  · rename_i h; exact Dict.keys_set_of_not_mem _ _ _ h

theorem gens_concept {g g' : Gen α} {c : String} {a : ConceptArgs α}
    (h : Gen.onFcm (FCM.addConcept c a) g = (.ok (), g')) : Gens g [(c, a)] g' := by
  obtain ⟨m, hm, rfl⟩ := onFcm_ok h
  have hclean : CleanInv g.fcm → CleanInv m := fun hc => Op.clean (op := .addConcept c a) hc hm
  have hlinked : CleanInv g.fcm → Linked g.fcm → c ∉ g.fcm.topology.keys → Linked m := by
    intro hc hl hk
    have := addConcept_linked hc.inv hl hk a
    rw [hm] at this
    exact this
  unfold FCM.addConcept at hm
  dsimp only at hm
  split at hm
  · cases hm
  · rename_i hb
    obtain ⟨n0, hn0⟩ : ∃ n0, buildNode g.fcm.default a (freshNode (a.isActive.getD g.fcm.default.active)) = (.ok (), n0) :=
      ⟨_, Prod.ext hb rfl⟩
    cases hm
    refine ⟨rfl, rfl, hclean, ?_, rfl, rfl, rfl, ?_, ?_, fun hc hl _ hk => hlinked hc hl (hk c (by simp)), ?_⟩
    · intro k
      dsimp only
      rw [Dict.mem_keys_set]
      simp [eq_comm]
    · intro _ p hp
      rw [List.mem_singleton] at hp
      subst hp
      refine ⟨_, Dict.get?_set_self _ _ _, n0, hn0, ?_⟩
      rw [hn0]
    · intro k hk
      dsimp only
      rw [Dict.get?_set_ne]
      rintro rfl
      simp at hk
    · exact keys_set _ _ _

theorem genDiscreteLoop_gens {ty : String} : ∀ {ns : List String} {g g' : Gen α},
    genDiscreteLoop ty ns g = (.ok (), g') → Gens g (ns.map fun n => (n, discArgs ty)) g'
  | [], g, g', h => by cases h; exact Gens.refl _
  | n :: ns, g, g', h => by
    unfold genDiscreteLoop at h
    obtain ⟨_, g1, h1, h⟩ := bind_okP h
    exact (gens_concept h1).trans (genDiscreteLoop_gens h)

theorem genContinuousLoop_gens {cfg : GenConf α} {feat ty : String} {data vl : List α} :
    ∀ {n k : Nat} {ms : List (List α)} {rs : List (String × List α)} {g g' : Gen α},
    genContinuousLoop cfg feat ty data vl n k ms g = (.ok rs, g') →
    n ≤ ms.length ∧ rs.map (·.1) = (List.range' k n).map (fun i => nameConcept cfg feat (toString i)) ∧
    List.Forall₂ (fun mb row => data.mapM (fun v => fuzzySet v mb vl) = .ok row) (ms.take n) (rs.map (·.2)) ∧
    Gens g (((rs.map (·.1)).zip ms).map fun p => (p.1, contArgs ty p.2 vl)) g'
  | 0, k, ms, rs, g, g', h => by
    cases h
    exact ⟨by simp, rfl, by simp, Gens.refl _⟩
  | n + 1, k, [], rs, g, g', h => by
    unfold genContinuousLoop at h; cases h
  | n + 1, k, m :: ms, rs, g, g', h => by
    unfold genContinuousLoop at h
    obtain ⟨r, g1, h1, h⟩ := bind_okP h
    obtain ⟨rs', g2, h2, h⟩ := bind_okP h
    obtain ⟨rfl, rfl⟩ := pure_okP h
    unfold genContinuousOne at h1
    obtain ⟨_, g3, h3, h1⟩ := bind_okP h1
    obtain ⟨row, g4, h4, h1⟩ := bind_okP h1
    obtain ⟨hrow, eg⟩ := lift_okP h4; rw [eg] at h1
    obtain ⟨er, eg1⟩ := pure_okP h1; subst er; subst eg1
    obtain ⟨i1, i2, i3, i4⟩ := genContinuousLoop_gens h2
    refine ⟨by simpa using i1, ?_, ?_, ?_⟩
    · rw [List.map_cons, i2]; rfl
    · simp only [List.take_succ_cons, List.map_cons]
      exact .cons hrow i3
    · have := (gens_concept h3).trans i4
      simpa [contArgs] using this

/-! ### One feature -/

/-- Is the column turned into one concept per value (association.py:205-229)? -/
def Column.isDiscrete (cfg : GenConf α) : Column α → Bool
  | .strs _ => true
  | .bools _ => true
  | .ints xs => cfg.inferType && decide ((Column.ints xs : Column α).uniqCells.length < 10)
  | .floats xs => cfg.inferType && decide ((Column.floats xs).uniqCells.length < 10)

/-- `F` is the feature built from a column, with the arguments of its concepts. -/
def FeatureOf (cfg : GenConf α) (x : Ext α) (ts : List String) (feat : String) (col : Column α) (F : Feature α)
    (cs : List (String × ConceptArgs α)) : Prop :=
  if col.isDiscrete cfg then
    F.type = (if feat ∈ ts then TYPE_DECISION else TYPE_SIMPLE) ∧
    F.names = col.uniqCells.map (fun c => nameConcept cfg feat (c.text x)) ∧ F.desc = col.oneHot ∧
    cs = F.names.map fun n => (n, discArgs F.type)
  else
    ∃ n vl memb, x.disc feat col.asFloats = .ok (n, vl, memb) ∧ n ≤ memb.length ∧
      F.type = (if feat ∈ ts then TYPE_REGRESOR else TYPE_FUZZY) ∧
      F.names = (List.range n).map (fun i => nameConcept cfg feat (toString i)) ∧
      List.Forall₂ (fun mb row => col.asFloats.mapM (fun v => fuzzySet v mb vl) = .ok row) (memb.take n) F.desc ∧
      cs = (F.names.zip memb).map fun p => (p.1, contArgs F.type p.2 vl)

theorem oneHot_length (col : Column α) : col.oneHot.length = col.uniqCells.length := by
  cases col <;> simp [Column.oneHot, Column.uniqCells, genDiscreteMatrix]

theorem FeatureOf.length {cfg : GenConf α} {x : Ext α} {ts : List String} {feat : String} {col : Column α}
    {F : Feature α} {cs : List (String × ConceptArgs α)} (h : FeatureOf cfg x ts feat col F cs) :
    F.names.length = F.desc.length := by
  unfold FeatureOf at h
  split at h
  · rw [h.2.1, h.2.2.1, oneHot_length]; simp
  · obtain ⟨n, vl, memb, -, hn, -, h1, h2, -⟩ := h
    rw [h1, ← h2.length_eq]
    simp [hn]

theorem FeatureOf.args {cfg : GenConf α} {x : Ext α} {ts : List String} {feat : String} {col : Column α}
    {F : Feature α} {cs : List (String × ConceptArgs α)} (h : FeatureOf cfg x ts feat col F cs) :
    cs.map (·.1) = F.names := by
  unfold FeatureOf at h
  split at h
  · rw [h.2.2.2]; simp [List.map_map, Function.comp_def]
  · obtain ⟨n, vl, memb, -, hn, -, h1, h2, h3⟩ := h
    rw [h3, List.map_map]
    have : (fun p : String × List α => (p.1, contArgs F.type p.2 vl).1) = Prod.fst := rfl
    simp only [Function.comp_def]
    rw [this, List.map_fst_zip]
    rw [h1]; simpa using hn

theorem genDiscrete_ok {cfg : GenConf α} {x : Ext α} {ts : List String} {feat : String} {col : Column α} {g g' : Gen α}
    (hd : col.isDiscrete cfg = true) (h : genDiscrete cfg x ts feat col g = (.ok (), g')) :
    ∃ F cs g1, FeatureOf cfg x ts feat col F cs ∧ Gens g cs g1 ∧ g' = { g1 with features := g1.features.set feat F } := by
  unfold genDiscrete at h
  obtain ⟨_, g1, h1, h⟩ := bind_okP h
  obtain rfl := modify_okP h
  refine ⟨_, _, g1, ?_, genDiscreteLoop_gens h1, rfl⟩
  unfold FeatureOf
  rw [if_pos hd]
  exact ⟨rfl, rfl, rfl, rfl⟩

theorem genContinuous_ok {cfg : GenConf α} {x : Ext α} {ts : List String} {feat : String} {col : Column α} {g g' : Gen α}
    (hd : col.isDiscrete cfg = false) (h : genContinuous cfg x ts feat col.asFloats g = (.ok (), g')) :
    ∃ F cs g1, FeatureOf cfg x ts feat col F cs ∧ Gens g cs g1 ∧ g' = { g1 with features := g1.features.set feat F } := by
  unfold genContinuous at h
  obtain ⟨⟨n, vl, memb⟩, g1, h1, h⟩ := bind_okP h
  obtain ⟨hdisc, eg⟩ := lift_okP h1; rw [eg] at h; dsimp only at h
  obtain ⟨rs, g2, h2, h⟩ := bind_okP h
  obtain rfl := modify_okP h
  obtain ⟨i1, i2, i3, i4⟩ := genContinuousLoop_gens h2
  refine ⟨_, _, g2, ?_, i4, rfl⟩
  unfold FeatureOf
  rw [if_neg (by rw [hd]; decide)]
  refine ⟨n, vl, memb, hdisc, i1, rfl, ?_, i3, rfl⟩
  dsimp only
  rw [i2, List.range_eq_range']

/-- Exclusion relations of a feature. -/
def exclArcs (cfg : GenConf α) (F : Feature α) : List (Arc α) :=
  if cfg.exclusion =? lit 0 then [] else innerArcs cfg.exclusion F.names

theorem innerRelations_adds {cfg : GenConf α} {feat : String} {F : Feature α} {g g' : Gen α}
    (hF : g.features.get? feat = some F) (hk : ∀ c ∈ F.names, c ∈ g.fcm.topology.keys)
    (h : innerRelations cfg feat g = (.ok (), g')) : Adds g (exclArcs cfg F) g' := by
  unfold innerRelations at h
  unfold exclArcs
  split at h
  · rename_i he
    rw [if_pos he]
    cases h
    exact Adds.refl _
  · rename_i he
    rw [if_neg he]
    obtain ⟨g0, g1, h1, h⟩ := bind_okP h
    cases h1
    obtain ⟨f, g2, h2, h⟩ := bind_okP h
    obtain ⟨hf, eg⟩ := lift_okP h2; rw [eg] at h
    rw [hF] at hf
    cases hf
    exact innerLoop_adds hk h

/-- The features of the generator other than `feat` that were processed before. -/
def namesOf (fs : Dict (Feature α)) (f : String) : List String := ((fs.get? f).map (·.names)).getD []

theorem buildFeature_ok {cfg : GenConf α} {x : Ext α} {ts : List String} {feat : String} {col : Column α} {g g' : Gen α}
    (hk : FeatOk g) (h : buildFeature cfg x ts feat col g = (.ok (), g')) :
    ∃ F cs g1 Ls, FeatureOf cfg x ts feat col F cs ∧ Gens g cs g1 ∧
      Adds { g1 with features := g.features.set feat F, processed := setAdd feat g.processed }
        (exclArcs cfg F ++ Ls.flatten) g' ∧
      List.Forall₂ (fun other L => (∀ r, r ∈ L ↔ other ≠ feat ∧ ∃ fb, (g.features.set feat F).get? other = some fb ∧
          CrossArc cfg F fb r) ∧
        (L.map Arc.ends).Sublist (if other = feat then [] else crossPairs F.names (namesOf (g.features.set feat F) other)))
        (x.order (setAdd feat g.processed)) Ls := by
  have tail : ∀ {F : Feature α} {cs g1 g2}, FeatureOf cfg x ts feat col F cs → Gens g cs g1 →
      g2 = { g1 with features := g1.features.set feat F } → (do
        innerRelations cfg feat
        PyM.modify fun g => { g with processed := setAdd feat g.processed }
        let g ← PyM.get
        PyM.forEach (x.order g.processed) (relateWith cfg feat) : PyM (Gen α) Unit) g2 = (.ok (), g') →
      ∃ F cs g1 Ls, FeatureOf cfg x ts feat col F cs ∧ Gens g cs g1 ∧
      Adds { g1 with features := g.features.set feat F, processed := setAdd feat g.processed }
        (exclArcs cfg F ++ Ls.flatten) g' ∧
      List.Forall₂ (fun other L => (∀ r, r ∈ L ↔ other ≠ feat ∧ ∃ fb, (g.features.set feat F).get? other = some fb ∧
          CrossArc cfg F fb r) ∧
        (L.map Arc.ends).Sublist (if other = feat then [] else crossPairs F.names (namesOf (g.features.set feat F) other)))
        (x.order (setAdd feat g.processed)) Ls := by
    intro F cs g1 g2 hF hG e h
    obtain ⟨_, g3, h3, h⟩ := bind_okP h
    obtain ⟨_, g4, h4, h⟩ := bind_okP h
    obtain rfl := modify_okP h4
    obtain ⟨_, g5, h5, h⟩ := bind_okP h
    cases h5
    have hkeys : ∀ c ∈ F.names, c ∈ g2.fcm.topology.keys := by
      intro c hc
      rw [e]; dsimp only
      rw [hG.keys, hF.args]; exact .inr hc
    have hget : g2.features.get? feat = some F := by rw [e]; exact Dict.get?_set_self _ _ _
    have a3 := innerRelations_adds hget hkeys h3
    have e3p : g3.processed = g.processed := by rw [a3.processed, e]; exact hG.processed
    have e3f : g3.features = g.features.set feat F := by rw [a3.features, e]; dsimp only; rw [hG.features]
    dsimp only at h
    rw [e3p] at h
    have hok : FeatOk { g3 with processed := setAdd feat g.processed } := by
      intro f F' hf'
      dsimp only at hf' ⊢
      rw [e3f, Dict.get?_set] at hf'
      rw [a3.keys]
      split at hf'
      · cases hf'
        exact ⟨hF.length, hkeys⟩
      · obtain ⟨l1, l2⟩ := hk f F' hf'
        refine ⟨l1, fun c hc => ?_⟩
        rw [e]; dsimp only
        rw [hG.keys]; exact .inl (l2 c hc)
    obtain ⟨Ls, hLs, hA⟩ := forEach_adds (Q := fun other L =>
        (∀ r, r ∈ L ↔ other ≠ feat ∧ ∃ fb, (g.features.set feat F).get? other = some fb ∧ CrossArc cfg F fb r) ∧
        (L.map Arc.ends).Sublist (if other = feat then [] else crossPairs F.names (namesOf (g.features.set feat F) other)))
      (fun other _ k1 k2 ef ek hr => by
        have hk1 : FeatOk k1 := by
          intro f F' hf'
          rw [ef] at hf'
          rw [ek]; exact hok f F' hf'
        obtain ⟨L, hL, hm, hs⟩ := relateWith_adds hk1 hr
        have ef' : k1.features = g.features.set feat F := ef.trans e3f
        rw [ef'] at hm hs
        rw [Dict.get?_set_self] at hs
        refine ⟨L, hL, fun r => ?_, hs⟩
        rw [hm]
        constructor
        · rintro ⟨hne, fa, fb, e1, e2, hc⟩
          rw [Dict.get?_set_self] at e1; cases e1
          exact ⟨hne, fb, e2, hc⟩
        · rintro ⟨hne, fb, e2, hc⟩
          exact ⟨hne, F, fb, Dict.get?_set_self _ _ _, e2, hc⟩) h
    refine ⟨F, cs, g1, Ls, hF, hG, ?_, hLs⟩
    have a3' : Adds { g1 with features := g.features.set feat F, processed := setAdd feat g.processed } (exclArcs cfg F)
        { g3 with processed := setAdd feat g.processed } := by
      subst e
      exact ⟨e3f, rfl, a3.clean, a3.keys, a3.arcs, a3.fit, a3.default, a3.nodes, a3.slope, a3.linked, a3.ekeys⟩
    exact a3'.trans hA
  unfold buildFeature at h
  cases col with
  | strs xs =>
    obtain ⟨_, g2, h2, h⟩ := bind_okP h
    obtain ⟨F, cs, g1, hF, hG, e⟩ := genDiscrete_ok rfl h2
    exact tail hF hG e h
  | bools xs =>
    obtain ⟨_, g2, h2, h⟩ := bind_okP h
    obtain ⟨F, cs, g1, hF, hG, e⟩ := genDiscrete_ok rfl h2
    exact tail hF hG e h
  | ints xs =>
    dsimp only at h
    split at h
    · rename_i hc
      obtain ⟨_, g2, h2, h⟩ := bind_okP h
      obtain ⟨F, cs, g1, hF, hG, e⟩ := genDiscrete_ok (by simp only [Column.isDiscrete, hc.1, hc.2]; rfl) h2
      exact tail hF hG e h
    · rename_i hc
      obtain ⟨_, g2, h2, h⟩ := bind_okP h
      obtain ⟨F, cs, g1, hF, hG, e⟩ := genContinuous_ok (by
        simp only [Column.isDiscrete, Bool.and_eq_false_iff, decide_eq_false_iff_not]
        by_cases hi : cfg.inferType = true
        · exact .inr fun hl => hc ⟨hi, hl⟩
        · exact .inl (by simpa using hi)) h2
      exact tail hF hG e h
  | floats xs =>
    dsimp only at h
    split at h
    · rename_i hc
      obtain ⟨_, g2, h2, h⟩ := bind_okP h
      obtain ⟨F, cs, g1, hF, hG, e⟩ := genDiscrete_ok (by simp only [Column.isDiscrete, hc.1, hc.2]; rfl) h2
      exact tail hF hG e h
    · rename_i hc
      obtain ⟨_, g2, h2, h⟩ := bind_okP h
      obtain ⟨F, cs, g1, hF, hG, e⟩ := genContinuous_ok (by
        simp only [Column.isDiscrete, Bool.and_eq_false_iff, decide_eq_false_iff_not]
        by_cases hi : cfg.inferType = true
        · exact .inr fun hl => hc ⟨hi, hl⟩
        · exact .inl (by simpa using hi)) h2
      exact tail hF hG e h

/-! ### The whole dataset -/

theorem buildFcm_append (cfg : GenConf α) (x : Ext α) (ts : List String) (a b : List (String × Column α)) :
    buildFcm cfg x ts (a ++ b) = (do buildFcm cfg x ts a; buildFcm cfg x ts b) := by
  induction a with
  | nil => rfl
  | cons c a ih =>
    obtain ⟨f, c⟩ := c
    funext g
    simp only [List.cons_append, buildFcm, ih, PyM.run_bind]
    rcases buildFeature cfg x ts f c g with ⟨r, g1⟩
    cases r <;> rfl

theorem sublist_snoc {β : Type} {p q r : β} {l : List β} : [p, q].Sublist (l ++ [r]) ↔ [p, q].Sublist l ∨ (p ∈ l ∧ q = r) := by
  constructor
  · intro h
    obtain ⟨l1, l2, he, h1, h2⟩ := List.sublist_append_iff.1 h
    rcases l1 with _ | ⟨a, _ | ⟨b, _ | ⟨c, l1⟩⟩⟩
    · have := h2.length_le
      rw [List.nil_append] at he
      rw [← he] at this
      simp at this
    · simp only [List.singleton_append, List.cons.injEq] at he
      obtain ⟨rfl, rfl⟩ := he
      exact .inr ⟨List.singleton_sublist.1 h1, by simpa using h2⟩
    · simp only [List.cons_append, List.cons.injEq, List.nil_append] at he
      obtain ⟨rfl, rfl, -⟩ := he
      exact .inl h1
    · have := congrArg List.length he
      simp at this
  · rintro (h | ⟨h, rfl⟩)
    · exact h.trans (List.sublist_append_left _ _)
    · exact (List.singleton_sublist.2 h).append (List.Sublist.refl [q])

/-- A feature as built: its name, the feature and the arguments of its concepts. -/
abbrev Work (α : Type) := String × Feature α × List (String × ConceptArgs α)

def Work.names (w : Work α) : List String := w.2.1.names

/-- The generator after `build_fcm` of `cols` into the map `m0`. -/
structure Built (cfg : GenConf α) (x : Ext α) (ts : List String) (cols : List (String × Column α)) (m0 : FCM α)
    (W : List (Work α)) (L : List (Arc α)) (g : Gen α) : Prop where
  feats : List.Forall₂ (fun col w => w.1 = col.1 ∧ FeatureOf cfg x ts col.1 col.2 w.2.1 w.2.2) cols W
  features : g.features = W.map fun w => (w.1, w.2.1)
  processed : g.processed = cols.map (·.1)
  clean : CleanInv m0 → CleanInv g.fcm
  keys : ∀ c, c ∈ g.fcm.topology.keys ↔ c ∈ m0.topology.keys ∨ ∃ w ∈ W, c ∈ w.names
  fit : g.fcm.fitInclination = m0.fitInclination
  default : g.fcm.default = m0.default
  born : (W.flatMap Work.names).Nodup → ∀ w ∈ W, ∀ p ∈ w.2.2, ∃ n0 n, Born m0.default p.2 n0 ∧
    g.fcm.topology.get? p.1 = some n ∧ Kin m0.fitInclination n0 n
  arcs : g.fcm.arcList = m0.arcList ++ L
  mem : ∀ r, r ∈ L ↔ (∃ w ∈ W, r ∈ exclArcs cfg w.2.1) ∨ ∃ v w, [v, w].Sublist W ∧ CrossArc cfg w.2.1 v.2.1 r
  nodup : (W.flatMap Work.names).Nodup → (L.map Arc.ends).Nodup
  slope : (W.flatMap Work.names).Nodup → m0.arcList = [] → ∀ t, m0.fitInclination = some t → SlopeOk t g.fcm
  linked : (W.flatMap Work.names).Nodup → (∀ c ∈ W.flatMap Work.names, c ∉ m0.topology.keys) → CleanInv m0 → Linked m0 →
    Linked g.fcm
  order : g.fcm.execution.keys = (W.flatMap Work.names).foldl (fun ks c => setAdd c ks) m0.execution.keys

theorem Built.wnames {cfg : GenConf α} {x : Ext α} {ts : List String} {cols : List (String × Column α)} {m0 : FCM α}
    {W : List (Work α)} {L : List (Arc α)} {g : Gen α} (h : Built cfg x ts cols m0 W L g) :
    W.map (·.1) = cols.map (·.1) := by
  have := h.feats
  clear h
  induction this with
  | nil => rfl
  | cons h1 _ ih => rw [List.map_cons, List.map_cons, h1.1, ih]

theorem crossArc_ends {cfg : GenConf α} {fa fb : Feature α} {r : Arc α} (h : CrossArc cfg fa fb r) :
    (r.origin ∈ fa.names ∧ r.dest ∈ fb.names) ∨ (r.origin ∈ fb.names ∧ r.dest ∈ fa.names) := by
  obtain ⟨-, pa, ha, pb, hb, pq, qp, -, ⟨s, w, rfl, -⟩ | ⟨s, w, rfl, -⟩⟩ := h
  · exact .inl ⟨mem_names_of_rows ha, mem_names_of_rows hb⟩
  · exact .inr ⟨mem_names_of_rows hb, mem_names_of_rows ha⟩

theorem disjoint_names {W : List (Work α)} (h : (W.flatMap Work.names).Nodup) {v w : Work α}
    (hv : v ∈ W) (hw : w ∈ W) (hne : v.1 ≠ w.1) : ∀ c, c ∈ v.names → c ∉ w.names := by
  rw [List.nodup_flatMap] at h
  intro c hc hc'
  have : ∀ {l : List (Work α)}, l.Pairwise (fun a b : Work α => List.Disjoint a.names b.names) → v ∈ l → w ∈ l →
      List.Disjoint v.names w.names := by
    intro l hl
    induction hl with
    | nil => simp
    | cons h1 _ ih =>
      intro h2 h3
      rcases List.mem_cons.1 h2 with rfl | h4
      · rcases List.mem_cons.1 h3 with rfl | h5
        · exact absurd rfl hne
        · exact h1 _ h5
      · rcases List.mem_cons.1 h3 with rfl | h5
        · exact (h1 _ h4).symm
        · exact ih h4 h5
  exact this h.2 hv hw hc hc'

/-- Relations end in concepts of the features. -/
theorem Built.ends {cfg : GenConf α} {x : Ext α} {ts : List String} {cols : List (String × Column α)} {m0 : FCM α}
    {W : List (Work α)} {L : List (Arc α)} {g : Gen α} (hB : Built cfg x ts cols m0 W L g)
    (hnd : (W.flatMap Work.names).Nodup) :
    ∀ p ∈ L.map Arc.ends, p.1 ∈ W.flatMap Work.names ∧ p.2 ∈ W.flatMap Work.names := by
  have hWn : ∀ v ∈ W, v.names.Nodup := (List.nodup_flatMap.1 hnd).1
  intro p hp
  obtain ⟨r, hr, rfl⟩ := List.mem_map.1 hp
  rcases (hB.mem r).1 hr with ⟨w, hw, hr⟩ | ⟨v, w, hs, hr⟩
  · unfold exclArcs at hr
    split at hr
    · cases hr
    · obtain ⟨-, h1, h2, -⟩ := (mem_innerArcs (hWn w hw)).1 hr
      exact ⟨List.mem_flatMap.2 ⟨w, hw, h1⟩, List.mem_flatMap.2 ⟨w, hw, h2⟩⟩
  · have hv : v ∈ W := hs.subset (by simp)
    have hw : w ∈ W := hs.subset (by simp)
    rcases crossArc_ends hr with ⟨h1, h2⟩ | ⟨h1, h2⟩
    · exact ⟨List.mem_flatMap.2 ⟨w, hw, h1⟩, List.mem_flatMap.2 ⟨v, hv, h2⟩⟩
    · exact ⟨List.mem_flatMap.2 ⟨v, hv, h1⟩, List.mem_flatMap.2 ⟨w, hw, h2⟩⟩

theorem nodup_cross {as bs : List String} (ha : as.Nodup) (hb : bs.Nodup) (hd : ∀ c, c ∈ as → c ∉ bs) :
    (crossPairs as bs).Nodup := by
  unfold crossPairs
  rw [List.nodup_flatMap]
  constructor
  · intro a haa
    rw [List.nodup_flatMap]
    constructor
    · intro b hbb
      have : a ≠ b := fun e => hd a haa (e ▸ hbb)
      simp [this]
    · refine hb.imp_of_mem ?_
      intro b b' hb1 hb2 hne p hp hp'
      simp only [List.mem_cons, List.not_mem_nil, or_false] at hp hp'
      rcases hp with rfl | rfl <;> rcases hp' with hp' | hp'
      · exact hne (Prod.mk.inj hp').2
      · exact hd a haa ((Prod.mk.inj hp').1 ▸ hb2)
      · exact hd a haa ((Prod.mk.inj hp').1 ▸ hb1)
      · exact hne (Prod.mk.inj hp').1
  · refine ha.imp_of_mem ?_
    intro a a' ha1 ha2 hne p hp hp'
    rw [List.mem_flatMap] at hp hp'
    obtain ⟨b, hb1, hp⟩ := hp
    obtain ⟨b', hb2, hp'⟩ := hp'
    simp only [List.mem_cons, List.not_mem_nil, or_false] at hp hp'
    rcases hp with rfl | rfl <;> rcases hp' with hp' | hp'
    · exact hne (Prod.mk.inj hp').1
    · exact hd a ha1 ((Prod.mk.inj hp').1 ▸ hb2)
    · exact hd a' ha2 ((Prod.mk.inj hp').1 ▸ hb1)
    · exact hne (Prod.mk.inj hp').2

theorem mem_crossPairs {as bs : List String} {p : String × String} :
    p ∈ crossPairs as bs → (p.1 ∈ as ∧ p.2 ∈ bs) ∨ (p.1 ∈ bs ∧ p.2 ∈ as) := by
  unfold crossPairs
  simp only [List.mem_flatMap, List.mem_cons, List.not_mem_nil, or_false]
  rintro ⟨a, ha, b, hb, rfl | rfl⟩
  · exact .inl ⟨ha, hb⟩
  · exact .inr ⟨hb, ha⟩

theorem buildFcm_snoc {cfg : GenConf α} {x : Ext α} {ts : List String} {cols : List (String × Column α)} {m0 : FCM α}
    {W : List (Work α)} {L : List (Arc α)} {g g' : Gen α} {feat : String} {col : Column α}
    (hx : ∀ l, (x.order l).Perm l) (hn : (cols.map (·.1)).Nodup) (hfeat : feat ∉ cols.map (·.1))
    (hB : Built cfg x ts cols m0 W L g) (h : buildFeature cfg x ts feat col g = (.ok (), g')) :
    ∃ w M, Built cfg x ts (cols ++ [(feat, col)]) m0 (W ++ [w]) (L ++ M) g' := by
  have hw := hB.wnames
  have hfk : g.features.keys = W.map (·.1) := by
    rw [hB.features]; simp [Dict.keys]
  have hfnew : feat ∉ g.features.keys := by rw [hfk, hw]; exact hfeat
  have hfn : g.features.keys.Nodup := by rw [hfk, hw]; exact hn
  have hok : FeatOk g := by
    intro f F hf
    have hm := Dict.get?_mem hf
    rw [hB.features, List.mem_map] at hm
    obtain ⟨w, hwm, he⟩ := hm
    obtain ⟨rfl, rfl⟩ := Prod.mk.inj he
    refine ⟨?_, fun c hc => (hB.keys c).2 (.inr ⟨w, hwm, hc⟩)⟩
    obtain ⟨i, hi, rfl⟩ := List.mem_iff_getElem.1 hwm
    have hh := List.forall₂_iff_get.1 hB.feats
    exact (hh.2 i (by rw [hh.1]; exact hi) hi).2.length
  obtain ⟨F, cs, g1, Ls, hF, hG, hA, hLs⟩ := buildFeature_ok hok h
  have hproc : setAdd feat g.processed = cols.map (·.1) ++ [feat] := by
    unfold setAdd; rw [hB.processed, if_neg hfeat]
  have hset : g.features.set feat F = g.features ++ [(feat, F)] := by
    have : ∀ (d : Dict (Feature α)), feat ∉ d.keys → d.set feat F = d ++ [(feat, F)] := by
      intro d hd
      induction d with
      | nil => rfl
      | cons p d ih =>
        rw [Dict.keys_cons, List.mem_cons, not_or] at hd
        obtain ⟨k, v⟩ := p
        simp only [Dict.set, List.cons_append]
        rw [if_neg (Ne.symm hd.1)]
        rw [ih hd.2]
    exact this _ hfnew
  have hother : ∀ other fb, other ≠ feat → ((g.features.set feat F).get? other = some fb ↔ ∃ v ∈ W, v.1 = other ∧ v.2.1 = fb) := by
    intro other fb hne
    rw [Dict.get?_set_ne _ _ (Ne.symm hne)]
    constructor
    · intro hg
      have hm := Dict.get?_mem hg
      rw [hB.features, List.mem_map] at hm
      obtain ⟨v, hv, he⟩ := hm
      exact ⟨v, hv, (Prod.mk.inj he).1, (Prod.mk.inj he).2⟩
    · rintro ⟨v, hv, rfl, rfl⟩
      refine Dict.get?_of_mem hfn ?_
      rw [hB.features]
      exact List.mem_map_of_mem (f := fun w : Work α => (w.1, w.2.1)) hv
  have hperm : (x.order (setAdd feat g.processed)).Perm (cols.map (·.1) ++ [feat]) := by
    rw [hproc]; exact hx _
  refine ⟨(feat, F, cs), exclArcs cfg F ++ Ls.flatten, ?_⟩
  constructor
  · exact List.rel_append hB.feats (.cons ⟨rfl, hF⟩ .nil)
  · rw [hA.features]
    dsimp only
    rw [hset, hB.features, List.map_append]; rfl
  · rw [hA.processed]
    dsimp only
    rw [hproc, List.map_append]; rfl
  · exact fun hc => hA.clean (hG.clean (hB.clean hc))
  · intro c
    rw [hA.keys]
    dsimp only
    rw [hG.keys, hB.keys, hF.args]
    simp only [List.mem_append, List.mem_singleton]
    constructor
    · rintro ((h | ⟨w, hw, hc⟩) | h)
      · exact .inl h
      · exact .inr ⟨w, .inl hw, hc⟩
      · exact .inr ⟨_, .inr rfl, h⟩
    · rintro (h | ⟨w, hw | rfl, hc⟩)
      · exact .inl (.inl h)
      · exact .inl (.inr ⟨w, hw, hc⟩)
      · exact .inr hc
  · exact hA.fit.trans (hG.fit.trans hB.fit)
  · exact hA.default.trans (hG.default.trans hB.default)
  · intro hnd w hwm p hp
    rw [List.flatMap_append, List.nodup_append] at hnd
    have hdisj : ∀ c, c ∈ W.flatMap Work.names → c ∉ F.names := by
      intro c h1 h2
      exact hnd.2.2 c h1 c (by simpa [Work.names] using h2) rfl
    have hfit : g1.fcm.fitInclination = m0.fitInclination := hG.fit.trans hB.fit
    rcases List.mem_append.1 hwm with hwm | hwm
    · obtain ⟨n0, n, h1, h2, h3⟩ := hB.born hnd.1 w hwm p hp
      have hpn : p.1 ∈ w.names := by
        obtain ⟨i, hi, rfl⟩ := List.mem_iff_getElem.1 hwm
        have hh := (List.forall₂_iff_get.1 hB.feats)
        have := (hh.2 i (by rw [hh.1]; exact hi) hi).2.args
        simp only [List.get_eq_getElem] at this
        unfold Work.names
        rw [← this]
        exact List.mem_map_of_mem hp
      have h4 : g1.fcm.topology.get? p.1 = some n := by
        rw [hG.other p.1]
        · exact h2
        · rw [hF.args]
          exact hdisj p.1 (List.mem_flatMap.2 ⟨w, hwm, hpn⟩)
      obtain ⟨n', h5, h6⟩ := hA.nodes p.1 n h4
      dsimp only at h6
      rw [hfit] at h6
      exact ⟨n0, n', h1, h5, h3.trans h6⟩
    · rw [List.mem_singleton] at hwm
      subst hwm
      obtain ⟨n, h4, h5⟩ := hG.born (by rw [hF.args]; simpa [Work.names] using hnd.2.1) p hp
      obtain ⟨n', h6, h7⟩ := hA.nodes p.1 n h4
      dsimp only at h7
      rw [hfit] at h7
      rw [hB.default] at h5
      exact ⟨n, n', h5, h6, h7⟩
  · rw [hA.arcs]
    dsimp only
    rw [hG.arcs, hB.arcs, List.append_assoc]
  · intro r
    rw [List.mem_append, hB.mem, List.mem_append]
    rw [mem_flatten_forall₂ hLs (P := fun other r => other ≠ feat ∧ ∃ fb, (g.features.set feat F).get? other = some fb ∧
          CrossArc cfg F fb r) (fun _ _ L hQ b => hQ.1 b)]
    constructor
    · rintro ((⟨w, hw, hr⟩ | ⟨v, w, hs, hr⟩) | hr | ⟨o, ho, hne, fb, hfb, hr⟩)
      · exact .inl ⟨w, List.mem_append_left _ hw, hr⟩
      · exact .inr ⟨v, w, sublist_snoc.2 (.inl hs), hr⟩
      · exact .inl ⟨_, List.mem_append_right _ (List.mem_singleton.2 rfl), hr⟩
      · obtain ⟨v, hv, rfl, rfl⟩ := (hother o fb hne).1 hfb
        exact .inr ⟨v, _, sublist_snoc.2 (.inr ⟨hv, rfl⟩), hr⟩
    · rintro (⟨w, hw, hr⟩ | ⟨v, w, hs, hr⟩)
      · rcases List.mem_append.1 hw with hw | hw
        · exact .inl (.inl ⟨w, hw, hr⟩)
        · rw [List.mem_singleton] at hw
          subst hw
          exact .inr (.inl hr)
      · rcases sublist_snoc.1 hs with hs | ⟨hv, rfl⟩
        · exact .inl (.inr ⟨v, w, hs, hr⟩)
        · have hvc : v.1 ∈ cols.map (·.1) := by rw [← hw]; exact List.mem_map_of_mem (f := fun w : Work α => w.1) hv
          have hne : v.1 ≠ feat := fun e => hfeat (e ▸ hvc)
          exact .inr (.inr ⟨v.1, hperm.mem_iff.2 (List.mem_append_left _ hvc), hne, v.2.1, (hother _ _ hne).2 ⟨v, hv, rfl, rfl⟩, hr⟩)
  · intro hnd
    have hkn : ((W ++ [(feat, F, cs)]).map (·.1)).Nodup := by
      rw [List.map_append, hw]
      rw [List.nodup_append]
      refine ⟨hn, by simp, ?_⟩
      intro a ha b hb
      simp only [List.map_cons, List.map_nil, List.mem_singleton] at hb
      subst hb
      exact fun e => hfeat (e ▸ ha)
    have hdis : ∀ v ∈ W, ∀ c, c ∈ F.names → c ∉ v.names := fun v hv c hc =>
      disjoint_names hnd (List.mem_append_right _ (List.mem_singleton.2 rfl) : (feat, F, cs) ∈ W ++ [(feat, F, cs)])
        (List.mem_append_left _ hv) (by
          have hvc : v.1 ∈ cols.map (·.1) := by rw [← hw]; exact List.mem_map_of_mem (f := fun w : Work α => w.1) hv
          exact fun e => hfeat (by rw [show feat = v.1 from e]; exact hvc)) c hc
    have hnd0 := hnd
    rw [List.flatMap_append, List.nodup_append] at hnd
    have hFn : F.names.Nodup := by simpa [Work.names] using hnd.2.1
    have hWn : ∀ v ∈ W, v.names.Nodup := (List.nodup_flatMap.1 hnd.1).1
    have hnot : ∀ c, c ∈ W.flatMap Work.names → c ∉ F.names := by
      intro c h1 h2
      exact hnd.2.2 c h1 c (by simpa [Work.names] using h2) rfl
    have hexcl : ∀ p ∈ (exclArcs cfg F).map Arc.ends, p.1 ∈ F.names ∧ p.2 ∈ F.names := by
      intro p hp
      obtain ⟨r, hr, rfl⟩ := List.mem_map.1 hp
      unfold exclArcs at hr
      split at hr
      · cases hr
      · obtain ⟨-, h1, h2, -⟩ := (mem_innerArcs hFn).1 hr
        exact ⟨h1, h2⟩
    have hnames : ∀ other, other ∈ cols.map (·.1) → ∃ v ∈ W, v.1 = other ∧ namesOf (g.features.set feat F) other = v.names := by
      intro other ho
      rw [← hw] at ho
      obtain ⟨v, hv, rfl⟩ := List.mem_map.1 ho
      have hne : v.1 ≠ feat := by
        intro e
        apply hfeat
        rw [← hw, ← e]; exact List.mem_map_of_mem (f := fun w : Work α => w.1) hv
      refine ⟨v, hv, rfl, ?_⟩
      unfold namesOf
      rw [(hother v.1 v.2.1 hne).2 ⟨v, hv, rfl, rfl⟩]
      rfl
    have hsub := flatten_sublist (e := Arc.ends)
      (u := fun other => if other = feat then [] else crossPairs F.names (namesOf (g.features.set feat F) other)) hLs
      (fun _ _ L hQ => hQ.2)
    have hmemo : ∀ other, other ∈ x.order (setAdd feat g.processed) → other ≠ feat → other ∈ cols.map (·.1) := by
      intro other ho hne
      rcases List.mem_append.1 (hperm.mem_iff.1 ho) with h | h
      · exact h
      · exact absurd (List.mem_singleton.1 h) hne
    have hcross : ∀ p ∈ Ls.flatten.map Arc.ends, (p.1 ∈ F.names ∧ p.2 ∈ W.flatMap Work.names) ∨
        (p.1 ∈ W.flatMap Work.names ∧ p.2 ∈ F.names) := by
      intro p hp
      obtain ⟨other, ho, hp⟩ := List.mem_flatMap.1 (hsub.subset hp)
      split at hp
      · cases hp
      · rename_i hne
        obtain ⟨v, hv, -, hvn⟩ := hnames other (hmemo other ho hne)
        rw [hvn] at hp
        rcases mem_crossPairs hp with ⟨h1, h2⟩ | ⟨h1, h2⟩
        · exact .inl ⟨h1, List.mem_flatMap.2 ⟨v, hv, h2⟩⟩
        · exact .inr ⟨List.mem_flatMap.2 ⟨v, hv, h1⟩, h2⟩
    have hexn : ((exclArcs cfg F).map Arc.ends).Nodup := by
      unfold exclArcs
      split
      · simp
      · exact nodup_innerArcs _ hFn
    have hcrn : (Ls.flatten.map Arc.ends).Nodup := by
      refine hsub.nodup ?_
      rw [List.nodup_flatMap]
      constructor
      · intro other ho
        split
        · simp
        · rename_i hne
          obtain ⟨v, hv, -, hvn⟩ := hnames other (hmemo other ho hne)
          rw [hvn]
          exact nodup_cross hFn (hWn v hv) (hdis v hv)
      · have hon : (x.order (setAdd feat g.processed)).Nodup := by
          rw [hperm.nodup_iff, List.nodup_append]
          refine ⟨hn, by simp, ?_⟩
          intro a ha b hb
          rw [List.mem_singleton] at hb
          subst hb
          exact fun e => hfeat (e ▸ ha)
        refine hon.imp_of_mem ?_
        intro o o' ho ho' hne p hp hp'
        dsimp only at hp hp'
        split at hp
        · cases hp
        · rename_i hof
          split at hp'
          · cases hp'
          · rename_i hof'
            obtain ⟨v, hv, hvo, hvn⟩ := hnames o (hmemo o ho hof)
            obtain ⟨v', hv', hvo', hvn'⟩ := hnames o' (hmemo o' ho' hof')
            rw [hvn] at hp
            rw [hvn'] at hp'
            have hd : ∀ c, c ∈ v.names → c ∉ v'.names := disjoint_names hnd0 (List.mem_append_left _ hv)
              (List.mem_append_left _ hv') (by rw [hvo, hvo']; exact hne)
            rcases mem_crossPairs hp with ⟨h1, h2⟩ | ⟨h1, h2⟩ <;>
              rcases mem_crossPairs hp' with ⟨h3, h4⟩ | ⟨h3, h4⟩
            · exact hd _ h2 h4
            · exact hdis v hv _ h4 h2
            · exact hdis v hv _ h3 h1
            · exact hd _ h1 h3
    rw [List.map_append, List.map_append, List.nodup_append, List.nodup_append]
    refine ⟨hB.nodup hnd.1, ⟨hexn, hcrn, ?_⟩, ?_⟩
    · rintro p hp q hq rfl
      obtain ⟨h1, h2⟩ := hexcl p hp
      rcases hcross p hq with ⟨-, h⟩ | ⟨h, -⟩
      · exact hnot _ h h2
      · exact hnot _ h h1
    · rintro p hp q hq rfl
      obtain ⟨h1, h2⟩ := hB.ends hnd.1 p hp
      rcases List.mem_append.1 hq with hq | hq
      · exact hnot _ h1 (hexcl p hq).1
      · rcases hcross p hq with ⟨h, -⟩ | ⟨-, h⟩
        · exact hnot _ h1 h
        · exact hnot _ h2 h
  · intro hnd ha t hft
    have hnd0 := hnd
    rw [List.flatMap_append, List.nodup_append] at hnd
    refine hA.slope t (hG.fit.trans (hB.fit.trans hft)) (hG.slope (fun a hm => ?_) (hB.slope hnd.1 ha t hft))
    rw [hF.args]
    rw [hB.arcs, ha, List.nil_append] at hm
    have : a.dest ∈ W.flatMap Work.names := (hB.ends hnd.1 _ (List.mem_map_of_mem hm)).2
    exact fun h2 => hnd.2.2 _ this _ (by simpa [Work.names] using h2) rfl
  · intro hnd hk hc hl
    rw [List.flatMap_append] at hk
    rw [List.flatMap_append, List.nodup_append] at hnd
    have e : [((feat, F, cs) : Work α)].flatMap Work.names = F.names := by simp [Work.names]
    rw [e] at hnd hk
    refine hA.linked (hG.linked (hB.clean hc)
      (hB.linked hnd.1 (fun c hm => hk c (List.mem_append_left _ hm)) hc hl) ?_ ?_)
    · rw [hF.args]; exact hnd.2.1
    · intro c hm hm'
      rw [hF.args] at hm
      rcases (hB.keys c).1 hm' with h1 | ⟨w, hwm, h1⟩
      · exact hk c (List.mem_append_right _ hm) h1
      · exact hnd.2.2 c (List.mem_flatMap.2 ⟨w, hwm, h1⟩) c hm rfl
  · rw [hA.ekeys]
    dsimp only
    rw [hG.order, hB.order, hF.args, List.flatMap_append, List.foldl_append]
    simp [Work.names]

/-- What `build_fcm` leaves behind. -/
theorem buildFcm_built {cfg : GenConf α} {x : Ext α} {ts : List String} {m0 : FCM α} {g' : Gen α}
    (hx : ∀ l, (x.order l).Perm l) {cols : List (String × Column α)} (hn : (cols.map (·.1)).Nodup)
    (h : buildFcm cfg x ts cols ⟨[], [], m0⟩ = (.ok (), g')) : ∃ W L, Built cfg x ts cols m0 W L g' := by
  induction cols using List.reverseRecOn generalizing g' with
  | nil =>
    cases h
    exact ⟨[], [], ⟨.nil, rfl, rfl, id, by simp, rfl, rfl, by simp, by simp, by simp, by simp,
      fun _ ha _ _ a hm => (by rw [ha] at hm; cases hm), fun _ _ _ h => h, rfl⟩⟩
  | append_singleton cols c ih =>
    obtain ⟨feat, col⟩ := c
    rw [buildFcm_append] at h
    obtain ⟨_, g1, h1, h⟩ := bind_okP h
    rw [List.map_append, List.nodup_append] at hn
    obtain ⟨W, L, hB⟩ := ih hn.1 h1
    unfold buildFcm at h
    obtain ⟨_, g2, h2, h⟩ := bind_okP h
    obtain ⟨-, rfl⟩ := pure_okP h
    obtain ⟨w, M, hB'⟩ := buildFcm_snoc hx hn.1 (fun hm => hn.2.2 feat hm feat (by simp) rfl) hB h2
    exact ⟨_, _, hB'⟩

end PyFCM
