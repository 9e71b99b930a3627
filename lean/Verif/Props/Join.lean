import Verif.Lemmas.Split
import Verif.Lemmas.RealList
import Verif.Spec.Join
import Verif.Props.Json
import Verif.Props.Dynamics
/-
C30-C34: joining maps.
-/
namespace PyFCM
open Arith Spec

set_option linter.unusedSectionVars false

section
variable {α : Type} [Arith α]

/-! ### C34 -/

theorem C34_concept (maps : List (FCM α)) {cs : String} (vs rs : String) (iz : Bool) (h : cs ∉ ["union", "intersection"]) :
    joinMaps maps cs vs rs iz = .error (.exc ("Unknown concept strategy: " ++ cs)) := by
  simp only [List.mem_cons, List.not_mem_nil, or_false, not_or] at h
  unfold joinMaps
  rw [if_pos h]

theorem byName_iff (s : String) : Aggr.byName s = none ↔ s ∉ ["highest", "lowest", "average"] := by
  unfold Aggr.byName
  simp only [List.mem_cons, List.not_mem_nil, or_false, not_or]
  split
  · simp_all
  · split
    · simp_all
    · split <;> simp_all

theorem C34_value (maps : List (FCM α)) {cs vs : String} (rs : String) (iz : Bool) (hc : cs ∈ ["union", "intersection"])
    (h : vs ∉ ["highest", "lowest", "average"]) :
    joinMaps maps cs vs rs iz = .error (.exc ("Unknown value strategy: " ++ vs)) := by
  simp only [List.mem_cons, List.not_mem_nil, or_false] at hc
  unfold joinMaps
  rw [if_neg (by rcases hc with rfl | rfl <;> simp), (byName_iff vs).2 h]

theorem byName_some {s : String} (h : s ∈ ["highest", "lowest", "average"]) : ∃ a, Aggr.byName s = some a := by
  cases e : Aggr.byName s with
  | some a => exact ⟨a, rfl⟩
  | none => exact absurd h ((byName_iff s).1 e)

theorem C34_relation (maps : List (FCM α)) {cs vs rs : String} (iz : Bool) (hc : cs ∈ ["union", "intersection"])
    (hv : vs ∈ ["highest", "lowest", "average"]) (h : rs ∉ ["highest", "lowest", "average"]) :
    joinMaps maps cs vs rs iz = .error (.exc ("Unknown relation strategy: " ++ rs)) := by
  simp only [List.mem_cons, List.not_mem_nil, or_false] at hc
  obtain ⟨a, ha⟩ := byName_some hv
  unfold joinMaps
  rw [if_neg (by rcases hc with rfl | rfl <;> simp), ha, (byName_iff rs).2 h]

/-- The empty sequence yields the map `FuzzyCognitiveMap()`. -/
theorem C34_empty {cs vs rs : String} (iz : Bool) (hc : cs ∈ ["union", "intersection"])
    (hv : vs ∈ ["highest", "lowest", "average"]) (hr : rs ∈ ["highest", "lowest", "average"]) :
    joinMaps (α := α) [] cs vs rs iz = FCM.new := by
  simp only [List.mem_cons, List.not_mem_nil, or_false] at hc
  obtain ⟨a, ha⟩ := byName_some hv
  obtain ⟨b, hb⟩ := byName_some hr
  unfold joinMaps
  rw [if_neg (by rcases hc with rfl | rfl <;> simp), ha, hb]
  rfl

/-! ### The documents of the maps -/

theorem toJson_values {m : FCM α} {d : MapDesc α} (h : m.toJson = .ok d) :
    Valued (d.concepts.getD []) ∧ ∀ k, lookVal (d.concepts.getD []) k = (m.topology.get? k).map (·.value) := by
  obtain ⟨cs, h1, rfl, -⟩ := toJson_ok h
  show Valued cs ∧ ∀ k, lookVal cs k = _
  clear h
  generalize m.topology = t at h1
  induction t generalizing cs with
  | nil => cases h1; exact ⟨(fun _ h => nomatch h), fun k => rfl⟩
  | cons p t ih =>
    obtain ⟨y, ys, hy, hys, rfl⟩ := mapM_ok_cons h1
    obtain ⟨_, _, _, _, _, _, _, _, _, e, -⟩ := conceptToJson_ok hy
    obtain ⟨i1, i2⟩ := ih ys hys
    refine ⟨?_, fun k => ?_⟩
    · intro c hc
      rcases List.mem_cons.1 hc with rfl | hc
      · exact ⟨p.2.value, by rw [e]⟩
      · exact i1 c hc
    · obtain ⟨k', n⟩ := p
      have := i2 k
      unfold lookVal at this ⊢
      rw [look_cons, Dict.get?_cons]
      have hid : y.id = k' := by rw [e]
      by_cases hk : k' = k
      · simp [hk, e]
      · simp only [hid, hk, if_false]; exact this

/-- The documents say about concepts and relations what the maps say. -/
structure SameDocs (maps : List (FCM α)) (ds : List (MapDesc α)) : Prop where
  valued : ∀ d ∈ ds, Valued (d.concepts.getD [])
  nodup : (∀ m ∈ maps, m.topology.keys.Nodup) → ∀ d ∈ ds, ((d.concepts.getD []).map (·.id)).Nodup
  some_ : ∀ k, (∃ cs ∈ ds.map (·.concepts.getD []), k ∈ cs.map (·.id)) ↔ ∃ m ∈ maps, k ∈ m.topology.keys
  all : ∀ k, (∀ cs ∈ ds.map (·.concepts.getD []), k ∈ cs.map (·.id)) ↔ ∀ m ∈ maps, k ∈ m.topology.keys
  values : ∀ k, (ds.map (·.concepts.getD [])).filterMap (lookVal · k) = valuesOf maps k
  rels : ds.flatMap (fun d => d.relations.getD []) =
    maps.flatMap fun m => m.arcList.map fun a => ⟨a.origin, a.dest, a.weight⟩
  empty : ds = [] ↔ maps = []

theorem sameDocs {maps : List (FCM α)} {ds : List (MapDesc α)} (h : maps.mapM FCM.toJson = .ok ds) :
    SameDocs maps ds := by
  induction maps generalizing ds with
  | nil =>
    cases h
    exact ⟨(fun _ h => nomatch h), (fun _ _ h => nomatch h), by simp, by simp, fun _ => rfl, rfl, by simp⟩
  | cons m maps ih =>
    obtain ⟨d, ds', h1, h2, rfl⟩ := mapM_ok_cons h
    obtain ⟨i1, i2, i3, i4, i5, i6, -⟩ := ih h2
    obtain ⟨v1, v2⟩ := toJson_values h1
    obtain ⟨cs, c1, c2⟩ := toJson_concepts h1
    have hr := toJson_relations h1
    have hids : (d.concepts.getD []).map (·.id) = m.topology.keys := by rw [c1]; exact c2
    refine ⟨?_, ?_, ?_, ?_, ?_, ?_, by simp⟩
    · intro x hx
      rcases List.mem_cons.1 hx with rfl | hx
      · exact v1
      · exact i1 x hx
    · intro hn x hx
      rcases List.mem_cons.1 hx with rfl | hx
      · rw [hids]; exact hn m (by simp)
      · exact i2 (fun y hy => hn y (by simp [hy])) x hx
    · intro k
      rw [List.map_cons, List.exists_mem_cons_iff, List.exists_mem_cons_iff, i3 k, hids]
    · intro k
      rw [List.map_cons, List.forall_mem_cons, List.forall_mem_cons, i4 k, hids]
    · intro k
      have := i5 k
      unfold valuesOf at this ⊢
      rw [List.map_cons, List.filterMap_cons, List.filterMap_cons, v2, this]
    · rw [List.flatMap_cons, List.flatMap_cons, i6, hr]
      rfl

theorem eraseDups_nodup {l : List String} (h : l.Nodup) : l.eraseDups = l := by
  induction l with
  | nil => rfl
  | cons x l ih =>
    rw [List.nodup_cons] at h
    rw [List.eraseDups_cons, List.filter_eq_self.2, ih h.2]
    intro y hy
    have : y ≠ x := fun e => h.1 (e ▸ hy)
    simpa using this

/-- What is known about a joined map. -/
structure JoinedMap (cstrat : String) (vs rs : Aggr) (iz : Bool) (maps : List (FCM α)) (m' : FCM α)
    (ids : List String) : Prop where
  nd : ids.Nodup
  keys : m'.topology.keys.Nodup
  mem : ∀ k, k ∈ ids ↔ Joins cstrat maps k
  vals : ∀ k ∈ ids, valuesOf maps k ≠ []
  conc : ∀ k, k ∈ m'.topology.keys ↔ k ∈ ids ∧ ∀ v, vs.run (valuesOf maps k) = .ok v → (v =? lit 0) = true → iz = false
  value : ∀ k n, m'.topology.get? k = some n → vs.run (valuesOf maps k) = .ok n.value
  arcs : m'.arcList = (((collectRel (maps.flatMap fun m => m.arcList.map fun a => ⟨a.origin, a.dest, a.weight⟩)
      []).filterMap (relOf rs (decide <| · ∈ ids))).filter
      fun r => r.origin ∈ m'.topology.keys ∧ r.destiny ∈ m'.topology.keys).map fun r => ⟨r.destiny, r.weight, r.origin⟩

theorem member_joins {maps : List (FCM α)} {ds : List (MapDesc α)} (hs : SameDocs maps ds) {cstrat : String}
    (hc : cstrat = "union" ∨ cstrat = "intersection") (k : String) :
    Member (decide (cstrat = "union")) (ds.map (·.concepts.getD [])) k ↔ Joins cstrat maps k := by
  unfold Member Joins
  rcases hc with rfl | rfl
  · simp only [decide_true, if_true, hs.some_, true_implies]
    simp
  · simp only [show ("intersection" = "union") = False by decide, decide_false, Bool.false_eq_true, if_false, hs.all]
    simp

theorem join_ok {maps : List (FCM α)} {cstrat vstrat rstrat : String} {iz : Bool} {m' : FCM α}
    (hne : maps ≠ []) (hinv : ∀ m ∈ maps, Inv m) (h : joinMaps maps cstrat vstrat rstrat iz = .ok m') :
    ∃ vs rs ids, (cstrat = "union" ∨ cstrat = "intersection") ∧ Aggr.byName vstrat = some vs ∧
      Aggr.byName rstrat = some rs ∧ JoinedMap cstrat vs rs iz maps m' ids := by
  unfold joinMaps at h
  split at h
  · cases h
  rename_i hc
  have hc : cstrat = "union" ∨ cstrat = "intersection" := by
    by_cases h1 : cstrat = "union"
    · exact .inl h1
    · by_cases h2 : cstrat = "intersection"
      · exact .inr h2
      · exact absurd ⟨h1, h2⟩ hc
  split at h
  · cases h
  rename_i vs hvs
  split at h
  · cases h
  rename_i rs hrs
  obtain ⟨ds, hds, h⟩ := exc_bind h
  have hs := sameDocs hds
  split at h
  · exact absurd (hs.empty.1 rfl) hne
  rename_i first rest
  obtain ⟨d, hd, h⟩ := exc_bind h
  obtain ⟨J, cs, hJ, hsub, hcs, e⟩ := joinDescs_ok (decide (cstrat = "union")) vs rs iz first rest
    fun x hx => ⟨hs.valued x hx, hs.nodup (fun m hm => (hinv m hm).tnd) x hx⟩
  rw [e] at hd
  cases hd
  obtain ⟨cs', rels, h1, h2, -, hkeys, harcs, hsays, -⟩ := C29_built h
  cases h1
  cases h2
  refine ⟨vs, rs, J.keys, hc, hvs, hrs, ?_⟩
  have hidnd : (cs.map (·.id)).Nodup := hJ.nd.sublist hsub
  have hk' : m'.topology.keys = cs.map (·.id) := by
    rw [hkeys]
    exact eraseDups_nodup hidnd
  have hmemJ : ∀ k, k ∈ J.keys ↔ Joins cstrat maps k := by
    intro k
    rw [← member_joins hs hc, ← Dict.get?_isSome_iff, hJ.get]
    by_cases hm : Member (decide (cstrat = "union")) ((first :: rest).map (·.concepts.getD [])) k
    · obtain ⟨c, hc'⟩ := findSome_some (by simp) hm
      simp only [hm, if_true, hc']
      simp
    · simp only [hm, if_false]
      simp
  have hJval : ∀ k c acc, (k, (c, acc)) ∈ J → acc = valuesOf maps k ∧ c.id = k := by
    intro k c acc hm
    have hg := Dict.get?_of_mem hJ.nd hm
    rw [hJ.get] at hg
    split at hg
    · obtain ⟨c', hc', e'⟩ := Option.map_eq_some_iff.1 hg
      cases e'
      obtain ⟨l, hl, hlook⟩ := List.exists_of_findSome?_eq_some hc'
      exact ⟨hs.values k, (look_some hlook).2⟩
    · cases hg
  have hin : ∀ c ∈ cs, ∃ v, c.activation = some v ∧ vs.run (valuesOf maps c.id) = .ok v ∧ c.id ∈ J.keys ∧
      ¬ ((v =? lit 0) = true ∧ iz = true) := by
    intro c hc
    obtain ⟨k, c0, acc, v, h1, h2, h3, rfl⟩ := (hcs c).1 hc
    obtain ⟨rfl, rfl⟩ := hJval _ _ _ h1
    exact ⟨v, rfl, h2, List.mem_map_of_mem (f := (·.1)) h1, h3⟩
  have hvals : ∀ k ∈ J.keys, valuesOf maps k ≠ [] := by
    intro k hk
    obtain ⟨m, hm, hkm⟩ : ∃ m ∈ maps, k ∈ m.topology.keys := by
      have hj := (hmemJ k).1 hk
      rcases hc with e | e
      · exact hj.1 e
      · obtain ⟨m, hm⟩ := List.exists_mem_of_ne_nil _ hne
        exact ⟨m, hm, hj.2 e m hm⟩
    intro hnil
    unfold valuesOf at hnil
    rw [List.filterMap_eq_nil_iff] at hnil
    have := hnil m hm
    rw [Option.map_eq_none_iff, Dict.get?_eq_none_iff] at this
    exact this hkm
  refine ⟨hJ.nd, by rw [hk']; exact hidnd, hmemJ, hvals, ?_, ?_, ?_⟩
  · intro k
    rw [hk']
    constructor
    · intro hk
      obtain ⟨c, hc, rfl⟩ := List.mem_map.1 hk
      obtain ⟨v, -, h2, h3, h4⟩ := hin c hc
      refine ⟨h3, fun v' hv' hz => ?_⟩
      rw [h2] at hv'
      cases hv'
      cases iz with
      | false => rfl
      | true => exact absurd ⟨hz, rfl⟩ h4
    · rintro ⟨hk, hz⟩
      obtain ⟨⟨c, acc⟩, hg⟩ := Dict.exists_get?_of_mem hk
      have hm := Dict.get?_mem hg
      obtain ⟨rfl, hid⟩ := hJval _ _ _ hm
      obtain ⟨v, hv⟩ := aggr_ok vs (hvals k hk)
      refine List.mem_map.2 ⟨{ c with activation := some v }, (hcs _).2 ⟨k, c, _, v, hm, hv, ?_, rfl⟩, hid⟩
      rintro ⟨h1, h2⟩
      rw [hz v hv h1] at h2
      cases h2
  · intro k n hn
    have hk : k ∈ cs.map (·.id) := by rw [← hk']; exact Dict.mem_keys_of_get? hn
    obtain ⟨c, hc, rfl⟩ := List.mem_map.1 hk
    obtain ⟨v, h1, h2, -⟩ := hin c hc
    obtain ⟨pre, post, e'⟩ := List.append_of_mem hc
    have hpost : ∀ y ∈ post, y.id ≠ c.id := by
      intro y hy he
      rw [e', List.map_append, List.map_cons, List.nodup_append, List.nodup_cons] at hidnd
      exact hidnd.2.1.1 (by rw [← he]; exact List.mem_map_of_mem hy)
    obtain ⟨n', hn', hs', -⟩ := hsays pre c post e' hpost
    rw [hn] at hn'
    cases hn'
    rw [hs'.value, h1]
    exact h2
  · rw [harcs, hk', hs.rels]
    have : J.has = fun x => decide (x ∈ J.keys) := by
      funext x
      rw [Bool.eq_iff_iff, Dict.has_iff, decide_eq_true_iff]
    rw [this]

/-! ### Joining plain maps succeeds -/

theorem loadConcepts_all (cs : List (ConceptDesc α)) {m : FCM α} (hd : m.default = stdDefault m.memInfluence m.mapFn)
    (h : ∀ c ∈ cs, ∃ ty g f custom vect, Accepts m.mapFn c ty g f custom vect) :
    ∃ m', loadConcepts cs m = .ok m' ∧ m'.fitInclination = m.fitInclination := by
  induction cs generalizing m with
  | nil => exact ⟨m, rfl, rfl⟩
  | cons c cs ih =>
    obtain ⟨ty, g, f, custom, vect, hacc⟩ := h c (by simp)
    obtain ⟨m', h1, h2⟩ := ih (m := m.withNode c.id (loadedNode m.memInfluence c ty g f custom vect)) hd
      fun x hx => h x (by simp [hx])
    refine ⟨m', ?_, h2⟩
    simp only [loadConcepts, loadConcept_eq hd hacc, bind, Except.bind]
    exact h1

/-- A map that can take part in a join: built without errors, all concepts plain, and with an activation function
that can be written to JSON and read back. -/
structure Joinable (m : FCM α) : Prop where
  clean : CleanReachable m
  plain : ∀ c n, m.topology.get? c = some n → Plain m n
  args : Writable m.mapFn.args
  vect : ∃ v, processFunctionArgs m.mapFn.args = .ok v
  name : m.mapFn.name ≠ "fuzzy"

theorem Joinable.desc {m : FCM α} (h : Joinable m) : ∃ d, m.toJson = .ok d := by
  have : ∀ t : List (String × Node α), (∀ p ∈ t, p ∈ m.topology) →
      ∃ cs, t.mapM (fun p => conceptToJson m p.1 p.2) = .ok cs := by
    intro t
    induction t with
    | nil => intro _; exact ⟨[], rfl⟩
    | cons p t ih =>
      intro ht
      obtain ⟨cs, hcs⟩ := ih fun q hq => ht q (by simp [hq])
      have hg := Dict.get?_of_mem h.clean.clean.inv.tnd (k := p.1) (v := p.2) (ht p (by simp))
      obtain ⟨c, hc, -⟩ := plain_desc (name := p.1) (h.plain _ _ hg) (h.clean.clean.good _ _ hg)
        (h.clean.clean.inv.nodes _ _ hg)
      exact ⟨c :: cs, by rw [List.mapM_cons, hc, hcs]; rfl⟩
  obtain ⟨cs, hcs⟩ := this m.topology fun _ h => h
  exact ⟨_, toJson_eq hcs h.args.json⟩

theorem Joinable.accepts {m : FCM α} (h : Joinable m) {d : MapDesc α} (hd : m.toJson = .ok d) {c : ConceptDesc α}
    (hc : c ∈ d.concepts.getD []) {fn : FnInfo α} (hn : fn.name ≠ "fuzzy") {v : List α}
    (hv : processFunctionArgs fn.args = .ok v) (x : α) :
    ∃ ty g f custom vect, Accepts fn { c with activation := some x } ty g f custom vect := by
  obtain ⟨cs, hcs, rfl, -⟩ := toJson_ok hd
  obtain ⟨p, hp, hpc⟩ := mapM_ok_mem hcs (show c ∈ cs from hc)
  have hg := Dict.get?_of_mem h.clean.clean.inv.tnd (k := p.1) (v := p.2) hp
  obtain ⟨c', hc', -, ty, f, custom, vect, hacc, -⟩ := plain_desc (name := p.1) (h.plain _ _ hg)
    (h.clean.clean.good _ _ hg) (h.clean.clean.inv.nodes _ _ hg)
  rw [hpc] at hc'
  cases hc'
  obtain ⟨_, _, _, _, _, _, _, _, _, e, -⟩ := conceptToJson_ok hpc
  have hfz : f.name ≠ "fuzzy" := by
    rcases hacc.value with h | h
    · rw [e] at h; cases h
    · exact h
  have had : c.activationDict = none := by
    cases hx : c.activationDict with
    | none => rfl
    | some a => exact absurd (by rw [(hacc.chosen.dict a hx).1]) hfz
  by_cases hcf : c.customFunction = none
  · refine ⟨ty, .kosko, fn, false, v, hacc.type, hacc.exec, ⟨?_, ?_, fun _ _ => ⟨rfl, rfl⟩, hv⟩, .inr hn⟩
    · intro a ha; simp only [had] at ha; cases ha
    · intro _ g hg
      rw [show c.customFunction = some g from hg] at hcf
      cases hcf
  · refine ⟨ty, .kosko, f, custom, vect, hacc.type, hacc.exec, ⟨hacc.chosen.dict, hacc.chosen.named, ?_,
      hacc.chosen.vect⟩, .inr hfz⟩
    intro _ hg
    exact absurd hg hcf

/-- Joining plain maps succeeds. -/
theorem join_returns {maps : List (FCM α)} {cs vs rs : String} (iz : Bool) (hc : cs ∈ ["union", "intersection"])
    (hv : vs ∈ ["highest", "lowest", "average"]) (hr : rs ∈ ["highest", "lowest", "average"])
    (hm : ∀ m ∈ maps, Joinable m) : ∃ m', joinMaps maps cs vs rs iz = .ok m' := by
  cases maps with
  | nil =>
    rw [C34_empty iz hc hv hr]
    exact ⟨_, rfl⟩
  | cons m0 maps =>
  simp only [List.mem_cons, List.not_mem_nil, or_false] at hc
  obtain ⟨a, ha⟩ := byName_some hv
  obtain ⟨b, hb⟩ := byName_some hr
  have hall : ∀ ms : List (FCM α), (∀ m ∈ ms, Joinable m) → ∃ ds, ms.mapM FCM.toJson = .ok ds := by
    intro ms
    induction ms with
    | nil => intro _; exact ⟨[], rfl⟩
    | cons m ms ih =>
      intro h
      obtain ⟨ds, hds⟩ := ih fun x hx => h x (by simp [hx])
      obtain ⟨d, hd⟩ := (h m (by simp)).desc
      exact ⟨d :: ds, by rw [List.mapM_cons, hd, hds]; rfl⟩
  obtain ⟨ds, hds⟩ := hall _ hm
  obtain ⟨first, rest, hfirst, -, e⟩ := mapM_ok_cons hds
  have hs := sameDocs hds
  subst e
  obtain ⟨J, cl, hJ, hsub, hcl, e⟩ := joinDescs_ok (decide (cs = "union")) a b iz first rest
    fun x hx => ⟨hs.valued x hx, hs.nodup (fun m hm' => (hm m hm').clean.clean.inv.tnd) x hx⟩
  have h0 := hm m0 (by simp)
  obtain ⟨cs0, hcs0, ef, -⟩ := toJson_ok hfirst
  have hinv0 := h0.clean.clean.inv
  obtain ⟨mn, hnew⟩ : ∃ mn, FCM.new (maxIt := m0.maxIter) (extraSteps := (m0.extraSteps : Int))
      (stabilize := m0.stopAtStabilize) (stabilityDiff := m0.stabilityDiff) (decision := m0.decisionName)
      (memInfluence := m0.memInfluence) (activation := m0.mapFn.name) (kwargs := m0.mapFn.args) = .ok mn := by
    unfold FCM.new
    rw [hinv0.dec]
    have := hinv0.mapFn
    unfold FnInfo.Ok at this
    rw [this]
    exact ⟨_, rfl⟩
  obtain ⟨df, af, hdf, haf, e0⟩ := new_ok hnew
  have haf' := hinv0.mapFn
  unfold FnInfo.Ok at haf'
  rw [haf'] at haf
  cases haf
  have hargs : (if m0.mapFn.args = [] then (none : Option (Args α)) else some m0.mapFn.args).getD [] = m0.mapFn.args := by
    by_cases h : m0.mapFn.args = []
    · rw [if_pos h, h]; rfl
    · rw [if_neg h]; rfl
  have emf : mn.mapFn = m0.mapFn := by rw [e0]
  obtain ⟨vect, hvect⟩ := h0.vect
  obtain ⟨m1, hm1, hf1⟩ := loadConcepts_all cl (m := { mn with weight := m0.weight }) (by rw [e0]) (by
    intro c hc'
    obtain ⟨k, c0, acc, v, h1, h2, h3, rfl⟩ := (hcl c).1 hc'
    have hg := Dict.get?_of_mem hJ.nd h1
    rw [hJ.get] at hg
    split at hg
    case isFalse => cases hg
    obtain ⟨c1, hc1, e1⟩ := Option.map_eq_some_iff.1 hg
    cases e1
    obtain ⟨l, hl, hlook⟩ := List.exists_of_findSome?_eq_some hc1
    obtain ⟨d, hd, rfl⟩ := List.mem_map.1 hl
    obtain ⟨m, hmm, hmd⟩ := mapM_ok_mem hds hd
    exact (hm m hmm).accepts hmd (look_some hlook).1 (by show mn.mapFn.name ≠ _; rw [emf]; exact h0.name)
      (by show processFunctionArgs mn.mapFn.args = _; rw [emf]; exact hvect) v)
  unfold joinMaps
  rw [if_neg (by rcases hc with rfl | rfl <;> simp), ha, hb]
  simp only [hds, bind, Except.bind, e]
  exact ⟨_, fromJson_eq (m0 := mn) (by rw [ef]; rfl) (by rw [ef]; rfl) (by rw [ef]; rfl) (by rw [ef]; rfl)
    (by rw [ef]; simp only [docOf, Option.getD_some, hargs]; exact hnew) rfl rfl
    (by rw [ef]; exact hm1) (by rw [hf1, e0])⟩

end

/-! ### C30, C31 -/

theorem aggr_aggregated {s : String} {a : Aggr} (hs : Aggr.byName s = some a) {xs : List ℝ} (hx : xs ≠ []) {v : ℝ} :
    a.run xs = .ok v ↔ Aggregated s xs v := by
  have key : ∀ w, a.run xs = .ok w → Aggregated s xs w := by
    intro w hw
    unfold Aggr.byName at hs
    have n1 : ("lowest" : String) ≠ "highest" := by decide
    have n2 : ("average" : String) ≠ "highest" := by decide
    have n3 : ("average" : String) ≠ "lowest" := by decide
    split at hs
    · cases hs
      subst s
      exact ⟨hx, fun _ => pymax_real hw, fun e => absurd e.symm n1, fun e => absurd e.symm n2⟩
    · split at hs
      · cases hs
        subst s
        exact ⟨hx, fun e => absurd e n1, fun _ => pymin_real hw, fun e => absurd e.symm n3⟩
      · split at hs
        · cases hs
          subst s
          refine ⟨hx, fun e => absurd e n2, fun e => absurd e n3, fun _ => ?_⟩
          have hl : (xs.length : ℝ) ≠ 0 := by simpa using hx
          simp only [Aggr.run, pyavg] at hw
          rw [if_neg (by simpa using hx)] at hw
          cases hw
          rw [pysum_real, real_lit]
          show xs.sum / ((xs.length : ℤ) : ℝ) * _ = _
          rw [Int.cast_natCast, div_mul_cancel₀ _ hl]
        · cases hs
  constructor
  · exact key v
  · intro h
    obtain ⟨w, hw⟩ := aggr_ok a hx
    have k := key w hw
    rw [hw]
    congr 1
    unfold Aggr.byName at hs
    split at hs
    · rename_i e
      exact le_antisymm ((h.highest e).2 w (k.highest e).1) ((k.highest e).2 v (h.highest e).1)
    · split at hs
      · rename_i e
        exact le_antisymm ((k.lowest e).2 v (h.lowest e).1) ((h.lowest e).2 w (k.lowest e).1)
      · split at hs
        · rename_i e
          have hl : (xs.length : ℝ) ≠ 0 := by simpa using hx
          exact mul_right_cancel₀ hl ((k.average e).trans (h.average e).symm)
        · cases hs

/-- The joined concepts, whenever the join returns. -/
theorem C30_concepts_partial {maps : List (FCM ℝ)} {cs vs rs : String} {iz : Bool} {m' : FCM ℝ} (hne : maps ≠ [])
    (hm : ∀ m ∈ maps, Reachable m) (h : joinMaps maps cs vs rs iz = .ok m') (c : String) :
    c ∈ m'.topology.keys ↔ Joins cs maps c ∧ ¬ (iz = true ∧ Aggregated vs (valuesOf maps c) 0) := by
  obtain ⟨a, b, ids, -, ha, -, hj⟩ := join_ok hne (fun m hmm => (hm m hmm).inv) h
  rw [hj.conc, hj.mem]
  refine and_congr_right fun hc => ?_
  have hx := hj.vals c ((hj.mem c).2 hc)
  rw [← aggr_aggregated ha hx]
  constructor
  · rintro h1 ⟨rfl, h2⟩
    have := h1 0 h2 (by simp [real_eq, real_lit])
    cases this
  · intro h1 v hv hz
    cases iz with
    | false => rfl
    | true =>
      rw [real_eq, real_lit] at hz
      have : v = 0 := by simpa using hz
      subst this
      exact absurd ⟨rfl, hv⟩ h1

/-- Plain maps can always be joined. -/
theorem C30_returns {maps : List (FCM ℝ)} {cs vs rs : String} (iz : Bool) (hc : cs ∈ ["union", "intersection"])
    (hv : vs ∈ ["highest", "lowest", "average"]) (hr : rs ∈ ["highest", "lowest", "average"])
    (hm : ∀ m ∈ maps, Joinable m) : ∃ m', joinMaps maps cs vs rs iz = .ok m' :=
  join_returns iz hc hv hr hm

theorem C31_values {maps : List (FCM ℝ)} {cs vs rs : String} {iz : Bool} {m' : FCM ℝ} (hne : maps ≠ [])
    (hm : ∀ m ∈ maps, Reachable m) (h : joinMaps maps cs vs rs iz = .ok m') {c : String} {v : ℝ}
    (hv : m'.getConceptValue c = some v) : Aggregated vs (valuesOf maps c) v := by
  obtain ⟨a, b, ids, -, ha, -, hj⟩ := join_ok hne (fun m hmm => (hm m hmm).inv) h
  unfold FCM.getConceptValue at hv
  obtain ⟨n, hn, rfl⟩ := Option.map_eq_some_iff.1 hv
  have hx := hj.vals c ((hj.conc c).1 (Dict.mem_keys_of_get? hn)).1
  exact (aggr_aggregated ha hx).1 (hj.value c n hn)

theorem C31_order {xs : List ℝ} {lo av hi : ℝ} (h1 : Aggregated "lowest" xs lo) (h2 : Aggregated "average" xs av)
    (h3 : Aggregated "highest" xs hi) : lo ≤ av ∧ av ≤ hi := by
  have hs := sum_between (xs := xs) (lo := lo) (hi := hi) fun x hx => ⟨(h1.lowest rfl).2 x hx, (h3.highest rfl).2 x hx⟩
  have ha := h2.average rfl
  have hl : (0 : ℝ) < xs.length := by
    have := List.length_pos_iff.2 h2.nonempty
    exact_mod_cast this
  constructor
  · exact le_of_mul_le_mul_right (by rw [ha]; exact hs.1) hl
  · exact le_of_mul_le_mul_right (by rw [ha]; exact hs.2) hl

/-! ### C32 -/

theorem relName_inj {o d o' d' : String} (h1 : Separable o) (h2 : Separable d) (h3 : Separable o') (h4 : Separable d')
    (h : o ++ relSeparator ++ d = o' ++ relSeparator ++ d') : o = o' ∧ d = d' := by
  have e1 := pySplit_separable h1 h2
  rw [h, pySplit_separable h3 h4] at e1
  cases e1
  exact ⟨rfl, rfl⟩

/-- All relations of the maps, as listed in their documents. -/
def relsOf {α : Type} (maps : List (FCM α)) : List (RelDesc α) :=
  maps.flatMap fun m => m.arcList.map fun a => ⟨a.origin, a.dest, a.weight⟩

theorem mem_relsOf {α : Type} {maps : List (FCM α)} {r : RelDesc α} (h : r ∈ relsOf maps) :
    ∃ m ∈ maps, ∃ a ∈ m.arcList, r = ⟨a.origin, a.dest, a.weight⟩ := by
  unfold relsOf at h
  obtain ⟨m, hm, hr⟩ := List.mem_flatMap.1 h
  obtain ⟨a, ha, rfl⟩ := List.mem_map.1 hr
  exact ⟨m, hm, a, ha, rfl⟩

theorem weightsOf_rels {α : Type} (maps : List (FCM α)) (o d : String) :
    weightsOf maps o d = ((relsOf maps).filter fun r => r.origin = o ∧ r.destiny = d).map (·.weight) := by
  induction maps with
  | nil => rfl
  | cons m maps ih =>
    unfold weightsOf relsOf at ih ⊢
    rw [List.flatMap_cons, List.flatMap_cons, List.filter_append, List.map_append, ← ih, List.filter_map, List.map_map]
    rfl

theorem collected {α : Type} [Arith α] {rels : List (RelDesc α)} {p : String × List α}
    (hp : p ∈ collectRel rels []) : p.2 = named rels p.1 ∧ named rels p.1 ≠ [] := by
  have hg := Dict.get?_of_mem (collectRel_nodup rels [] List.nodup_nil) (k := p.1) (v := p.2) hp
  rw [collectRel_get, Dict.get?_nil] at hg
  split at hg
  case isTrue => cases hg
  case isFalse hne => exact ⟨(Option.some.inj hg).symm, hne⟩

theorem filter_key {β : Type} {W : Dict β} (hn : W.keys.Nodup) (k : String) :
    W.filter (fun p => p.1 = k) = ((W.get? k).map fun v => (k, v)).toList := by
  induction W with
  | nil => rfl
  | cons p W ih =>
    obtain ⟨k', v⟩ := p
    simp only [Dict.keys_cons, List.nodup_cons] at hn
    rw [Dict.get?_cons]
    by_cases h : k' = k
    · subst h
      have : Dict.get? W k' = none := (Dict.get?_eq_none_iff _ _).2 hn.1
      have ih := ih hn.2
      rw [this] at ih
      simp [ih]
    · simp only [List.filter_cons, h, decide_false, if_false, Bool.false_eq_true]
      exact ih hn.2

theorem filterMap_filter_of {β γ : Type} {f : β → Option γ} {p : β → Bool} {q : γ → Bool} {l : List β}
    (h : ∀ x ∈ l, ∀ y, f x = some y → q y = p x) : (l.filterMap f).filter q = (l.filter p).filterMap f := by
  induction l with
  | nil => rfl
  | cons x l ih =>
    have ih := ih fun y hy => h y (by simp [hy])
    cases hf : f x with
    | none =>
      rw [List.filterMap_cons_none hf, ih]
      by_cases hp : p x = true
      · rw [List.filter_cons_of_pos hp, List.filterMap_cons_none hf]
      · rw [List.filter_cons_of_neg hp]
    | some y =>
      rw [List.filterMap_cons_some hf]
      have := h x (by simp) y hf
      by_cases hp : p x = true
      · rw [List.filter_cons_of_pos (by rw [this]; exact hp), List.filter_cons_of_pos hp, List.filterMap_cons_some hf, ih]
      · rw [List.filter_cons_of_neg (by rw [this]; exact hp), List.filter_cons_of_neg hp, ih]

theorem getD_filter_nil {β γ : Type} {l : List β} {p : β → Bool} {f : β → γ} (h : ∀ x ∈ l, p x = false) :
    (l.filter p).map f = [] := by
  rw [List.filter_eq_nil_iff.2 fun x hx => by simp [h x hx]]
  rfl

/-- The joined relations, if no name can be confused with the separator. -/
theorem C32_relations_partial {maps : List (FCM ℝ)} {cs vs rs : String} {iz : Bool} {m' : FCM ℝ} (hne : maps ≠ [])
    (hm : ∀ m ∈ maps, Reachable m) (hsep : ∀ m ∈ maps, ∀ c ∈ m.topology.keys, Separable c)
    (h : joinMaps maps cs vs rs iz = .ok m') (o d : String) :
    (weightsOf maps o d ≠ [] → o ∈ m'.topology.keys → d ∈ m'.topology.keys →
      ∃ w, Aggregated rs (weightsOf maps o d) w ∧
        m'.arcList.filter (fun a => a.origin = o ∧ a.dest = d) = [⟨d, w, o⟩]) ∧
    (weightsOf maps o d = [] ∨ o ∉ m'.topology.keys ∨ d ∉ m'.topology.keys →
      m'.arcList.filter (fun a => a.origin = o ∧ a.dest = d) = []) := by
  obtain ⟨a, b, ids, -, -, hb, hj⟩ := join_ok hne (fun m hmm => (hm m hmm).inv) h
  have hrsep : ∀ r ∈ relsOf maps, Separable r.origin ∧ Separable r.destiny := by
    intro r hr
    obtain ⟨m, hmm, arc, harc, rfl⟩ := mem_relsOf hr
    have := (hm m hmm).inv.ends arc harc
    exact ⟨hsep m hmm _ this.1, hsep m hmm _ this.2⟩
  have harcs := hj.arcs
  rw [show (maps.flatMap fun m => m.arcList.map fun a => (⟨a.origin, a.dest, a.weight⟩ : RelDesc ℝ)) = relsOf maps
    from rfl] at harcs
  -- every collected name belongs to one pair
  have hof : ∀ p ∈ collectRel (relsOf maps) [], ∃ r ∈ relsOf maps, p.1 = relName r ∧
      pySplit relSeparator p.1 = [r.origin, r.destiny] := by
    intro p hp
    obtain ⟨-, hne⟩ := collected hp
    obtain ⟨w, hw⟩ := List.exists_mem_of_ne_nil _ hne
    unfold named at hw
    obtain ⟨r, hr, -⟩ := List.mem_map.1 hw
    obtain ⟨hr1, hr2⟩ := List.mem_filter.1 hr
    rw [decide_eq_true_eq] at hr2
    refine ⟨r, hr1, hr2.symm, ?_⟩
    rw [← hr2]
    exact pySplit_separable (hrsep r hr1).1 (hrsep r hr1).2
  have hrel : ∀ p ∈ collectRel (relsOf maps) [], ∀ r, relOf b (fun x => decide (x ∈ ids)) p = some r →
      ∃ r' ∈ relsOf maps, p.1 = relName r' ∧ r'.origin = r.origin ∧ r'.destiny = r.destiny := by
    intro p hp r hr
    obtain ⟨r', h1, h2, h3⟩ := hof p hp
    refine ⟨r', h1, h2, ?_⟩
    unfold relOf at hr
    rw [h3] at hr
    simp only at hr
    split at hr
    · obtain ⟨w, -, rfl⟩ := Option.map_eq_some_iff.1 hr
      exact ⟨rfl, rfl⟩
    · cases hr
  constructor
  · intro hw ho hd
    have hods : Separable o ∧ Separable d := by
      obtain ⟨w, hw⟩ := List.exists_mem_of_ne_nil _ hw
      rw [weightsOf_rels] at hw
      obtain ⟨r, hr, -⟩ := List.mem_map.1 hw
      obtain ⟨hr1, hr2⟩ := List.mem_filter.1 hr
      rw [decide_eq_true_eq] at hr2
      rw [← hr2.1, ← hr2.2]
      exact hrsep r hr1
    have hnamed : named (relsOf maps) (o ++ relSeparator ++ d) = weightsOf maps o d := by
      rw [weightsOf_rels, named]
      congr 1
      apply List.filter_congr
      intro r hr
      rw [decide_eq_decide]
      constructor
      · intro e
        exact relName_inj (hrsep r hr).1 (hrsep r hr).2 hods.1 hods.2 e
      · rintro ⟨rfl, rfl⟩; rfl
    obtain ⟨w, hrun⟩ := aggr_ok b hw
    refine ⟨w, (aggr_aggregated hb hw).1 hrun, ?_⟩
    have hfm := filterMap_filter_of (f := relOf b (fun x => decide (x ∈ ids)))
      (p := fun p => decide (p.1 = o ++ relSeparator ++ d))
      (q := fun r : RelDesc ℝ => decide (r.origin = o ∧ r.destiny = d)) (l := collectRel (relsOf maps) []) (by
        intro p hp r hr
        obtain ⟨r', h1, h2, h3, h4⟩ := hrel p hp r hr
        rw [decide_eq_decide, h2]
        constructor
        · rintro ⟨e1, e2⟩
          unfold relName
          rw [h3, h4, e1, e2]
        · intro e
          obtain ⟨e1, e2⟩ := relName_inj (hrsep r' h1).1 (hrsep r' h1).2 hods.1 hods.2 e
          exact ⟨h3.symm.trans e1, h4.symm.trans e2⟩)
    rw [harcs, List.filter_map, List.filter_filter]
    have : ((collectRel (relsOf maps) []).filterMap (relOf b fun x => decide (x ∈ ids))).filter
        (fun r => ((fun a : Arc ℝ => decide (a.origin = o ∧ a.dest = d)) ∘
          fun r : RelDesc ℝ => (⟨r.destiny, r.weight, r.origin⟩ : Arc ℝ)) r &&
          decide (r.origin ∈ m'.topology.keys ∧ r.destiny ∈ m'.topology.keys)) =
        ((collectRel (relsOf maps) []).filterMap (relOf b fun x => decide (x ∈ ids))).filter
          fun r => decide (r.origin = o ∧ r.destiny = d) := by
      apply List.filter_congr
      intro r _
      rw [Bool.eq_iff_iff]
      simp only [Function.comp_apply, Bool.and_eq_true, decide_eq_true_iff]
      constructor
      · rintro ⟨h1, -⟩; exact h1
      · rintro ⟨rfl, rfl⟩; exact ⟨⟨rfl, rfl⟩, ho, hd⟩
    rw [this, hfm, filter_key (collectRel_nodup _ [] List.nodup_nil), collectRel_get, hnamed, if_neg hw]
    have hoi := ((hj.conc o).1 ho).1
    have hdi := ((hj.conc d).1 hd).1
    simp [relOf, pySplit_separable hods.1 hods.2, hoi, hdi, hrun, Except.toOption]
  · intro hcase
    rw [harcs, List.filter_map, List.filter_filter]
    apply getD_filter_nil
    intro r hr
    rw [Bool.eq_false_iff]
    intro hcon
    simp only [Function.comp_apply, Bool.and_eq_true, decide_eq_true_iff] at hcon
    obtain ⟨⟨rfl, rfl⟩, ho, hd⟩ := hcon
    rcases hcase with hw | hno | hnd
    · obtain ⟨p, hp, hpr⟩ := List.mem_filterMap.1 hr
      obtain ⟨r', h1, -, h3, h4⟩ := hrel p hp r hpr
      rw [weightsOf_rels] at hw
      have : r'.weight ∈ ((relsOf maps).filter fun x => x.origin = r.origin ∧ x.destiny = r.destiny).map (·.weight) :=
        List.mem_map_of_mem (List.mem_filter.2 ⟨h1, by simp [h3, h4]⟩)
      rw [hw] at this
      cases this
    · exact hno ho
    · exact hnd hd

/-! ### C33 -/

theorem aggregated_perm {s : String} {xs ys : List ℝ} {v : ℝ} (h : Aggregated s xs v) (hp : xs.Perm ys) :
    Aggregated s ys v := by
  refine ⟨fun e => h.nonempty (by rw [e] at hp; exact hp.eq_nil), fun e => ?_, fun e => ?_, fun e => ?_⟩
  · exact ⟨hp.mem_iff.1 (h.highest e).1, fun x hx => (h.highest e).2 x (hp.mem_iff.2 hx)⟩
  · exact ⟨hp.mem_iff.1 (h.lowest e).1, fun x hx => (h.lowest e).2 x (hp.mem_iff.2 hx)⟩
  · rw [← hp.length_eq, ← hp.sum_eq]; exact h.average e

theorem aggr_perm {s : String} {a : Aggr} (hs : Aggr.byName s = some a) {xs ys : List ℝ} (hp : xs.Perm ys) :
    a.run xs = a.run ys := by
  by_cases hx : xs = []
  · subst hx
    rw [hp.nil_eq]
  · obtain ⟨v, hv⟩ := aggr_ok a hx
    have hy : ys ≠ [] := fun e => hx (by rw [e] at hp; exact hp.eq_nil)
    rw [hv, (aggr_aggregated hs hy).2 (aggregated_perm ((aggr_aggregated hs hx).1 hv) hp)]

theorem joins_perm {α : Type} {maps maps' : List (FCM α)} (hp : maps.Perm maps') (s c : String) :
    Joins s maps c ↔ Joins s maps' c := by
  unfold Joins
  simp only [hp.mem_iff]

/-- If the join returns for both orders, concepts, values and weighted relations agree. -/
theorem C33_order_partial {maps maps' : List (FCM ℝ)} (hp : maps.Perm maps') {cs vs rs : String} {iz : Bool}
    {m1 m2 : FCM ℝ} (hm : ∀ m ∈ maps, Reachable m) (h1 : joinMaps maps cs vs rs iz = .ok m1)
    (h2 : joinMaps maps' cs vs rs iz = .ok m2) :
    (∀ c, m1.getConceptValue c = m2.getConceptValue c) ∧ m1.arcList.Perm m2.arcList := by
  by_cases hne : maps = []
  · subst hne
    rw [← hp.nil_eq, h1] at h2
    cases h2
    exact ⟨fun _ => rfl, List.Perm.refl _⟩
  have hne' : maps' ≠ [] := fun e => hne (by rw [e] at hp; exact hp.eq_nil)
  obtain ⟨a, b, ids1, -, ha, hb, j1⟩ := join_ok hne (fun m hmm => (hm m hmm).inv) h1
  obtain ⟨a', b', ids2, -, ha', hb', j2⟩ := join_ok hne' (fun m hmm => (hm m (hp.mem_iff.2 hmm)).inv) h2
  rw [ha] at ha'; cases ha'
  rw [hb] at hb'; cases hb'
  have hvals : ∀ k, a.run (valuesOf maps k) = a.run (valuesOf maps' k) := fun k =>
    aggr_perm ha (by unfold valuesOf; exact hp.filterMap _)
  have hids : ∀ k, k ∈ ids1 ↔ k ∈ ids2 := fun k => by rw [j1.mem, j2.mem, joins_perm hp]
  have hkeys : ∀ k, k ∈ m1.topology.keys ↔ k ∈ m2.topology.keys := fun k => by
    rw [j1.conc, j2.conc, hids, hvals]
  refine ⟨fun c => ?_, ?_⟩
  · unfold FCM.getConceptValue
    by_cases hc : c ∈ m1.topology.keys
    · obtain ⟨n1, e1⟩ := Dict.exists_get?_of_mem hc
      obtain ⟨n2, e2⟩ := Dict.exists_get?_of_mem ((hkeys c).1 hc)
      have k1 := j1.value c n1 e1
      have k2 := j2.value c n2 e2
      rw [hvals, k2] at k1
      rw [e1, e2, Option.map_some, Option.map_some, Except.ok.inj k1]
    · rw [(Dict.get?_eq_none_iff _ _).2 hc, (Dict.get?_eq_none_iff _ _).2 fun h => hc ((hkeys c).2 h)]
  · rw [j1.arcs, j2.arcs]
    apply List.Perm.map
    have hf : (fun r : RelDesc ℝ => decide (r.origin ∈ m1.topology.keys ∧ r.destiny ∈ m1.topology.keys)) =
        fun r => decide (r.origin ∈ m2.topology.keys ∧ r.destiny ∈ m2.topology.keys) := by
      funext r
      rw [decide_eq_decide, hkeys, hkeys]
    rw [hf]
    apply List.Perm.filter
    have hhas : (fun x => decide (x ∈ ids1)) = fun x => decide (x ∈ ids2) := by
      funext x
      rw [decide_eq_decide, hids]
    rw [hhas]
    have hrels : (relsOf maps).Perm (relsOf maps') := by
      unfold relsOf
      exact hp.flatMap_right _
    show ((collectRel (relsOf maps) []).filterMap _).Perm ((collectRel (relsOf maps') []).filterMap _)
    have hnamed : ∀ k, (named (relsOf maps) k).Perm (named (relsOf maps') k) := fun k =>
      (hrels.filter _).map _
    have hform : ∀ rels : List (RelDesc ℝ), (collectRel rels []).filterMap (relOf b fun x => decide (x ∈ ids2)) =
        (collectRel rels []).keys.filterMap fun k => relOf b (fun x => decide (x ∈ ids2)) (k, named rels k) := by
      intro rels
      unfold Dict.keys
      rw [List.filterMap_map]
      apply List.filterMap_congr
      intro p hp
      obtain ⟨e, -⟩ := collected hp
      obtain ⟨k, ws⟩ := p
      simp only at e
      rw [e]
      rfl
    rw [hform, hform]
    have hfun : (fun k => relOf b (fun x => decide (x ∈ ids2)) (k, named (relsOf maps) k)) =
        fun k => relOf b (fun x => decide (x ∈ ids2)) (k, named (relsOf maps') k) := by
      funext k
      unfold relOf
      simp only
      rw [aggr_perm hb (hnamed k)]
    rw [hfun]
    apply List.Perm.filterMap
    rw [List.perm_ext_iff_of_nodup (collectRel_nodup _ [] List.nodup_nil) (collectRel_nodup _ [] List.nodup_nil)]
    intro k
    rw [← Dict.get?_isSome_iff, ← Dict.get?_isSome_iff, collectRel_get, collectRel_get, Dict.get?_nil]
    have : named (relsOf maps) k = [] ↔ named (relsOf maps') k = [] :=
      ⟨fun e => by have := hnamed k; rw [e] at this; exact this.nil_eq.symm,
       fun e => by have := hnamed k; rw [e] at this; exact this.eq_nil⟩
    by_cases hx : named (relsOf maps) k = []
    · rw [if_pos hx, if_pos (this.1 hx)]
    · rw [if_neg hx, if_neg (fun e => hx (this.2 e))]
      simp

/-- Plain maps can be joined in any order, with the same result. -/
theorem C33_plain_partial {maps maps' : List (FCM ℝ)} (hp : maps.Perm maps') {cs vs rs : String} (iz : Bool)
    (hc : cs ∈ ["union", "intersection"]) (hv : vs ∈ ["highest", "lowest", "average"])
    (hr : rs ∈ ["highest", "lowest", "average"]) (hm : ∀ m ∈ maps, Joinable m) :
    ∃ m1 m2, joinMaps maps cs vs rs iz = .ok m1 ∧ joinMaps maps' cs vs rs iz = .ok m2 ∧
      (∀ c, m1.getConceptValue c = m2.getConceptValue c) ∧ m1.arcList.Perm m2.arcList := by
  obtain ⟨m1, h1⟩ := join_returns iz hc hv hr hm
  obtain ⟨m2, h2⟩ := join_returns iz hc hv hr fun m hmm => hm m (hp.mem_iff.2 hmm)
  exact ⟨m1, m2, h1, h2, C33_order_partial hp (fun m hmm => (hm m hmm).clean.reachable) h1 h2⟩

/-! ### Concrete cases -/

namespace Ex

theorem real1_clean (x : ℝ) : CleanReachable (real1 x) := cleanReachable_of (.new real0_new) _ rfl

/-- b and c with one relation, and the relation a -> b once more. -/
noncomputable def real2 (y : ℝ) : FCM ℝ :=
  runOps [.addConcept "b" {}, .addConcept "a" {}, .addConcept "c" { type := some TYPE_DECISION },
    .addRelation "b" "c" (1 / 2), .addRelation "a" "b" 5, .initConcept "b" y true] real0

theorem real2_clean (y : ℝ) : CleanReachable (real2 y) := cleanReachable_of (.new real0_new) _ rfl

theorem real1_joinable (x : ℝ) : Joinable (real1 x) where
  clean := real1_clean x
  args := fun _ h => nomatch h
  vect := ⟨[], rfl⟩
  name := show "saturation" ≠ "fuzzy" by decide
  plain := by
    intro c n h
    have hk : c ∈ (real1 x).topology.keys := Dict.mem_keys_of_get? h
    rw [real1_keys] at hk
    simp only [List.mem_cons, List.not_mem_nil, or_false] at hk
    rcases hk with rfl | rfl
    · cases h
      exact ⟨rfl, rfl, .inl rfl, ⟨rfl, rfl, rfl⟩, rfl, _, rfl, by decide, (fun _ h => nomatch h), .inl ⟨rfl, rfl⟩⟩
    · cases h
      exact ⟨rfl, rfl, .inl rfl, ⟨rfl, rfl, rfl⟩, rfl, _, rfl, by decide, (fun _ h => nomatch h),
        .inr ⟨show "gceq" ≠ "saturation" by decide, rfl⟩⟩

theorem real2_joinable (y : ℝ) : Joinable (real2 y) where
  clean := real2_clean y
  args := fun _ h => nomatch h
  vect := ⟨[], rfl⟩
  name := show "saturation" ≠ "fuzzy" by decide
  plain := by
    intro c n h
    have hk : c ∈ (real2 y).topology.keys := Dict.mem_keys_of_get? h
    rw [show (real2 y).topology.keys = ["b", "a", "c"] from rfl] at hk
    simp only [List.mem_cons, List.not_mem_nil, or_false] at hk
    rcases hk with rfl | rfl | rfl
    · cases h
      exact ⟨rfl, rfl, .inl rfl, ⟨rfl, rfl, rfl⟩, rfl, _, rfl, by decide, (fun _ h => nomatch h), .inl ⟨rfl, rfl⟩⟩
    · cases h
      exact ⟨rfl, rfl, .inl rfl, ⟨rfl, rfl, rfl⟩, rfl, _, rfl, by decide, (fun _ h => nomatch h), .inl ⟨rfl, rfl⟩⟩
    · cases h
      exact ⟨rfl, rfl, .inr rfl, ⟨rfl, rfl, rfl⟩, rfl, _, rfl, by decide, (fun _ h => nomatch h), .inl ⟨rfl, rfl⟩⟩

theorem real12_joinable (x y : ℝ) : ∀ m ∈ [real1 x, real2 y], Joinable m := by
  intro m hm
  simp only [List.mem_cons, List.not_mem_nil, or_false] at hm
  rcases hm with rfl | rfl
  · exact real1_joinable x
  · exact real2_joinable y

theorem real12_separable (x y : ℝ) : ∀ m ∈ [real1 x, real2 y], ∀ c ∈ m.topology.keys, Separable c := by
  intro m hm c hc
  simp only [List.mem_cons, List.not_mem_nil, or_false] at hm
  rcases hm with rfl | rfl
  · rw [real1_keys] at hc
    simp only [List.mem_cons, List.not_mem_nil, or_false] at hc
    rcases hc with rfl | rfl <;> decide
  · rw [show (real2 y).topology.keys = ["b", "a", "c"] from rfl] at hc
    simp only [List.mem_cons, List.not_mem_nil, or_false] at hc
    rcases hc with rfl | rfl | rfl <;> decide

end Ex

/-- Two maps with different, overlapping concept sets: they can be joined, and C30, C31, C32 apply to the result, in
which a -> b is given twice, with weights 7 and 5. -/
example (x y : ℝ) : ∃ m', joinMaps [Ex.real1 x, Ex.real2 y] "union" "average" "average" false = .ok m' ∧
    m'.getConceptValue "b" = some (y / 2) ∧
    m'.arcList.filter (fun a => a.origin = "a" ∧ a.dest = "b") = [⟨"b", 6, "a"⟩] := by
  obtain ⟨m', h⟩ := C30_returns (cs := "union") (vs := "average") (rs := "average") false (by decide) (by decide)
    (by decide) (Ex.real12_joinable x y)
  have hr : ∀ m ∈ [Ex.real1 x, Ex.real2 y], Reachable m := fun m hm => (Ex.real12_joinable x y m hm).clean.reachable
  have hkeys : ∀ c, c ∈ ["a", "b"] → c ∈ m'.topology.keys := by
    intro c hc
    rw [C30_concepts_partial (by simp) hr h]
    refine ⟨⟨fun _ => ⟨Ex.real1 x, by simp, hc⟩, fun e => absurd e (by decide)⟩, fun h => by simp at h⟩
  refine ⟨m', h, ?_, ?_⟩
  · obtain ⟨n, hn⟩ := Dict.exists_get?_of_mem (hkeys "b" (by simp))
    have hv : m'.getConceptValue "b" = some n.value := by unfold FCM.getConceptValue; rw [hn]; rfl
    have := (C31_values (by simp) hr h hv).average rfl
    rw [show valuesOf [Ex.real1 x, Ex.real2 y] "b" = [lit 0, y] from rfl] at this
    rw [hv]
    norm_num [real_lit] at this
    rw [← this]
    congr 1
    ring
  · obtain ⟨w, h1, h2⟩ := (C32_relations_partial (by simp) hr (Ex.real12_separable x y) h "a" "b").1
      (by rw [show weightsOf [Ex.real1 x, Ex.real2 y] "a" "b" = [7, 5] from rfl]; simp) (hkeys _ (by simp))
      (hkeys _ (by simp))
    have := h1.average rfl
    rw [show weightsOf [Ex.real1 x, Ex.real2 y] "a" "b" = [7, 5] from rfl] at this
    norm_num at this
    rw [h2, show w = 6 by linarith]

example (x y : ℝ) := C33_plain_partial (List.Perm.swap (Ex.real1 x) (Ex.real2 y) []) (cs := "intersection")
  (vs := "highest") (rs := "lowest") true (by decide) (by decide) (by decide)
  (fun m hm => Ex.real12_joinable x y m (by simpa [or_comm] using hm))

example : Aggregated "lowest" [1, 3, 2] 1 ∧ Aggregated "average" [1, 3, 2] 2 ∧ Aggregated "highest" [1, 3, 2] 3 := by
  refine ⟨⟨by simp, ?_, ?_, ?_⟩, ⟨by simp, ?_, ?_, ?_⟩, ⟨by simp, ?_, ?_, ?_⟩⟩ <;> first | (intro h; exact absurd h (by decide)) | norm_num

/-- The strategies are tried on rational maps, too: `mapJ` (a, b, c) and `map1` (a, b, c, other functions). -/
example : (joinMaps [Ex.mapJ, Ex.map1] "union" "highest" "lowest").toOption.map (fun m =>
    (m.topology.keys, m.topology.map (·.2.value), m.arcList.map fun a => (a.origin, a.dest, a.weight))) =
    some (["a", "b", "c"], [1, 3/4, 0], [("a", "b", 3/4), ("b", "a", -1/2), ("b", "c", 1), ("a", "c", 1/2)]) := by
  decide +kernel
example : (joinMaps [Ex.mapJ, Ex.map1] "intersection" "average" "average" true).toOption.map (fun m =>
    (m.topology.keys, m.arcList.map fun a => (a.origin, a.dest, a.weight))) =
    some (["a", "b"], [("a", "b", 3/4), ("b", "a", -1/2)]) := by
  decide +kernel

example : joinMaps [Ex.mapJ] "symmetric" "median" "mode" = .error (.exc "Unknown concept strategy: symmetric") :=
  C34_concept _ _ _ _ (by decide)
example : joinMaps [Ex.mapJ] "union" "median" "mode" = .error (.exc "Unknown value strategy: median") :=
  C34_value _ _ _ (by decide) (by decide)
example : joinMaps [Ex.mapJ] "union" "lowest" "mode" = .error (.exc "Unknown relation strategy: mode") :=
  C34_relation _ _ (by decide) (by decide) (by decide)

/-- The full claim (without `ignore_zeros`). -/
def C30_full (α : Type) [Arith α] : Prop :=
  ∀ (maps : List (FCM α)) (cs vs rs : String), maps ≠ [] → (∀ m ∈ maps, CleanReachable m) →
    cs ∈ ["union", "intersection"] → vs ∈ ["highest", "lowest", "average"] → rs ∈ ["highest", "lowest", "average"] →
    ∃ m', joinMaps maps cs vs rs false = .ok m' ∧ ∀ c, c ∈ m'.topology.keys ↔ Joins cs maps c

theorem Ex.mapFz_clean : CleanReachable Ex.mapFz :=
  Ex.cleanReachable_of (.new Ex.sat0_new) [.addConcept "f" Ex.fuzzyJ] (by decide +kernel)

/-- Maps with fuzzy concepts cannot be joined: the joined document cannot be imported. -/
theorem C30_counterexample : ¬ C30_full ℚ := by
  intro h
  obtain ⟨m', h1, -⟩ := h [Ex.mapFz] "union" "average" "average" (by simp)
    (by intro m hm; rw [List.mem_singleton.1 hm]; exact Ex.mapFz_clean) (by decide) (by decide) (by decide)
  have : (joinMaps [Ex.mapFz] "union" "average" "average" false).toOption.isSome = false := by decide +kernel
  rw [h1] at this
  cases this

/-- The full claim (the number of relations). -/
def C32_full (α : Type) [Arith α] : Prop :=
  ∀ (maps : List (FCM α)) (cs vs rs : String) (iz : Bool) (m' : FCM α), maps ≠ [] → (∀ m ∈ maps, CleanReachable m) →
    joinMaps maps cs vs rs iz = .ok m' → ∀ o d, weightsOf maps o d ≠ [] → o ∈ m'.topology.keys →
    d ∈ m'.topology.keys → (m'.arcList.filter fun a => a.origin = o ∧ a.dest = d).length = 1

/-- A concept whose name contains the separator. -/
def Ex.opsSep : List (Op ℚ) :=
  [.addConcept "x |=====> y" {}, .addConcept "z" {}, .addConcept "x" {}, .addConcept "y" {},
   .addRelation "x |=====> y" "z" 1]
def Ex.mapSep : FCM ℚ := runOps Ex.opsSep Ex.sat0
theorem Ex.mapSep_clean : CleanReachable Ex.mapSep :=
  Ex.cleanReachable_of (.new Ex.sat0_new) Ex.opsSep (by decide +kernel)

/-- Its relation is replaced by another one, between x and y. -/
example : (joinMaps [Ex.mapSep]).toOption.map (fun m => m.arcList.map fun a => (a.origin, a.dest, a.weight)) =
    some [("x", "y", 1)] := by decide +kernel

theorem C32_counterexample : ¬ C32_full ℚ := by
  intro h
  have hok : ((joinMaps [Ex.mapSep]).toOption.map fun m => (m.topology.keys.length,
      (m.arcList.filter fun a => a.origin = "x |=====> y" ∧ a.dest = "z").length,
      m.topology.keys.contains "x |=====> y", m.topology.keys.contains "z")) = some (4, 0, true, true) := by
    decide +kernel
  cases hj : joinMaps [Ex.mapSep] with
  | error e => rw [hj] at hok; cases hok
  | ok m' =>
    rw [hj] at hok
    simp only [Except.toOption, Option.map_some, Option.some.injEq, Prod.mk.injEq, List.contains_iff_mem] at hok
    have := h [Ex.mapSep] _ _ _ _ m' (by simp)
      (by intro m hm; rw [List.mem_singleton.1 hm]; exact Ex.mapSep_clean) hj "x |=====> y" "z"
      (by decide +kernel) hok.2.2.1 hok.2.2.2
    rw [hok.2.1] at this
    cases this

/-- The full claim (about returning). -/
def C33_full (α : Type) [Arith α] : Prop :=
  ∀ (maps maps' : List (FCM α)) (cs vs rs : String) (iz : Bool) (m1 : FCM α), maps.Perm maps' →
    (∀ m ∈ maps, CleanReachable m) → joinMaps maps cs vs rs iz = .ok m1 → ∃ m2, joinMaps maps' cs vs rs iz = .ok m2

def Ex.mapF1 : FCM ℚ := runOps [.addConcept "f" {}] Ex.sat0
theorem Ex.mapF1_clean : CleanReachable Ex.mapF1 :=
  Ex.cleanReachable_of (.new Ex.sat0_new) [.addConcept "f" {}] (by decide +kernel)

/-- The description of a concept is taken from the first map: a fuzzy concept is harmless in the second one. -/
theorem C33_counterexample : ¬ C33_full ℚ := by
  intro h
  have hok : (joinMaps [Ex.mapF1, Ex.mapFz]).toOption.isSome = true := by decide +kernel
  cases hj : joinMaps [Ex.mapF1, Ex.mapFz] with
  | error e => rw [hj] at hok; cases hok
  | ok m1 =>
    obtain ⟨m2, h2⟩ := h [Ex.mapF1, Ex.mapFz] [Ex.mapFz, Ex.mapF1] _ _ _ _ m1 (List.Perm.swap _ _ _) (by
      intro m hm
      simp only [List.mem_cons, List.not_mem_nil, or_false] at hm
      rcases hm with rfl | rfl
      · exact Ex.mapF1_clean
      · exact Ex.mapFz_clean) hj
    have : (joinMaps [Ex.mapFz, Ex.mapF1]).toOption.isSome = false := by decide +kernel
    rw [h2] at this
    cases this

end PyFCM
