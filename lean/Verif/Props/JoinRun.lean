import Verif.Props.Join
import Verif.Props.Reload
import Verif.Props.Influence
import Verif.Props.IterReturns
/-
C118: what a joined map is, and how it runs.
-/
namespace PyFCM
open Arith Spec

set_option linter.unusedSectionVars false

section
variable {α : Type} [Arith α]

/-! ### Where a joined concept comes from -/

theorem toJson_look {m : FCM α} {d : MapDesc α} (h : m.toJson = .ok d) (k : String) :
    match m.topology.get? k with
    | some n => ∃ c, look (d.concepts.getD []) k = some c ∧ conceptToJson m k n = .ok c
    | none => look (d.concepts.getD []) k = none := by
  obtain ⟨cs, h1, rfl, -⟩ := toJson_ok h
  show match m.topology.get? k with
    | some n => ∃ c, look cs k = some c ∧ conceptToJson m k n = .ok c
    | none => look cs k = none
  clear h
  have key : ∀ t : List (String × Node α), t.mapM (fun p => conceptToJson m p.1 p.2) = .ok cs →
      match Dict.get? t k with
      | some n => ∃ c, look cs k = some c ∧ conceptToJson m k n = .ok c
      | none => look cs k = none := by
    clear h1
    intro t h1
    induction t generalizing cs with
    | nil => cases h1; rfl
    | cons p t ih =>
      obtain ⟨y, ys, hy, hys, rfl⟩ := mapM_ok_cons h1
      obtain ⟨_, _, _, _, _, _, _, _, _, e, -⟩ := conceptToJson_ok hy
      have hid : y.id = p.1 := by rw [e]
      obtain ⟨k', n⟩ := p
      have := ih ys hys
      rw [look_cons, Dict.get?_cons]
      by_cases hk : k' = k
      · subst hk
        simp only [hid, if_true]
        exact ⟨y, rfl, hy⟩
      · simp only [hid, hk, if_false]
        exact this
  exact key _ h1

/-- `m` is the first of the maps that contains `c`. -/
def Spec.Home (maps : List (FCM α)) (c : String) (m : FCM α) : Prop :=
  ∃ pre post, maps = pre ++ m :: post ∧ c ∈ m.topology.keys ∧ ∀ x ∈ pre, c ∉ x.topology.keys

theorem home_of {maps : List (FCM α)} {ds : List (MapDesc α)} (h : maps.mapM FCM.toJson = .ok ds) {k : String}
    {c : ConceptDesc α} (hf : (ds.map (·.concepts.getD [])).findSome? (look · k) = some c) :
    ∃ m nd, Home maps k m ∧ m.topology.get? k = some nd ∧ conceptToJson m k nd = .ok c := by
  induction maps generalizing ds with
  | nil => cases h; cases hf
  | cons m maps ih =>
    obtain ⟨d, ds', h1, h2, rfl⟩ := mapM_ok_cons h
    have hl := toJson_look h1 k
    rw [List.map_cons, List.findSome?_cons] at hf
    cases hg : m.topology.get? k with
    | some nd =>
      rw [hg] at hl
      obtain ⟨c', e1, e2⟩ := hl
      rw [e1] at hf
      cases hf
      exact ⟨m, nd, ⟨[], maps, rfl, Dict.mem_keys_of_get? hg, fun _ h => nomatch h⟩, hg, e2⟩
    | none =>
      rw [hg] at hl
      rw [show look (d.concepts.getD []) k = none from hl] at hf
      obtain ⟨m1, nd, ⟨pre, post, e, hk, hpre⟩, h4, h5⟩ := ih h2 hf
      refine ⟨m1, nd, ⟨m :: pre, post, by rw [e]; rfl, hk, ?_⟩, h4, h5⟩
      intro x hx
      rcases List.mem_cons.1 hx with rfl | hx
      · exact (Dict.get?_eq_none_iff _ _).1 hg
      · exact hpre x hx

/-- `k` has the settings of `m`. -/
structure Spec.Configured (m k : FCM α) : Prop where
  maxIter : k.maxIter = m.maxIter
  extra : k.extraSteps = m.extraSteps
  stop : k.stopAtStabilize = m.stopAtStabilize
  diff : k.stabilityDiff = m.stabilityDiff
  decision : k.decisionName = m.decisionName
  memory : k.memInfluence = m.memInfluence
  function : k.mapFn = m.mapFn
  weight : k.weight = m.weight

/-- `n` is the joined concept that `nd`, concept of the map `m`, becomes when `m0` is the first map. -/
structure Spec.Becomes (m0 m : FCM α) (nd n : Node α) : Prop where
  active : n.active = true
  exec : n.exec.map (·.2) = some "KOSKO"
  memory : n.useMem = some m0.memInfluence
  decision : n.type = some TYPE_DECISION ↔ nd.type = some TYPE_DECISION
  simple : n.type = some TYPE_SIMPLE ↔ nd.type ≠ some TYPE_DECISION
  function : ∃ f, nd.fn = some f ∧ n.fn = some (if f.name = m.mapFn.name then m0.mapFn else f)
  notFuzzy : ∀ f, n.fn = some f → f.name ≠ "fuzzy"

theorem typeName_decision (t : String) : typeName t = "DECISION" ↔ t = TYPE_DECISION := by
  unfold typeName
  by_cases h1 : t = TYPE_REGRESOR
  · rw [if_pos h1, h1]; decide
  · rw [if_neg h1]
    by_cases h2 : t = TYPE_FUZZY
    · rw [if_pos h2, h2]; decide
    · rw [if_neg h2]
      by_cases h3 : t = TYPE_DECISION
      · rw [if_pos h3]; simp [h3]
      · rw [if_neg h3]; simp [h3]

theorem fnInfo_ext {f g : FnInfo α} (hf : f.Ok) (hg : g.Ok) (h1 : f.name = g.name) (h2 : f.args = g.args) : f = g := by
  unfold FnInfo.Ok at hf hg
  rw [h1, hg] at hf
  obtain ⟨a, b, c⟩ := f
  obtain ⟨a', b', c'⟩ := g
  simp only at h1 h2 hf
  cases hf
  rw [h1, h2]

/-- In a loaded document no concept with an initial value is fuzzy. -/
theorem loaded_notFuzzy {d : MapDesc α} {m : FCM α} (h : fromJson d = .ok m) {cs : List (ConceptDesc α)}
    (hc : d.concepts = some cs) (hn : (cs.map (·.id)).Nodup) {c : ConceptDesc α} (hm : c ∈ cs) {v : α}
    (hv : c.activation = some v) {n : Node α} (hg : m.topology.get? c.id = some n) {f : FnInfo α} (hf : n.fn = some f) :
    f.name ≠ "fuzzy" := by
  obtain ⟨mi, df, mem, af, m0, cs', rs, m1, h1, h2, h3, h4, h5, h6, h7, h8, h9⟩ := fromJson_ok h
  rw [hc] at h6
  cases h6
  obtain ⟨df', af', hdf, haf, e0⟩ := new_ok h5
  have hL := loadConcepts_ok (by rw [e0]) (by rw [e0]) h8
  have hf1 : m1.fitInclination = none := by rw [hL.eq, e0]
  rw [loadRelations_ok hf1] at h9
  cases h9
  have hA := addAll_added hf1 (rs.map fun r => (r.origin, r.destiny, r.weight))
  obtain ⟨pre, post, e⟩ := List.append_of_mem hm
  have hpost : ∀ y ∈ post, y.id ≠ c.id := by
    intro y hy he
    rw [e, List.map_append, List.map_cons, List.nodup_append, List.nodup_cons] at hn
    exact hn.2.1.1 (by rw [← he]; exact List.mem_map_of_mem hy)
  obtain ⟨ty, g, f', custom, vect, hacc, hget, -⟩ := hL.node pre c post e hpost
  obtain ⟨n', hn', en⟩ := hA.node _ _ hget
  rw [hg] at hn'
  cases hn'
  rw [en] at hf
  cases hf
  rcases hacc.value with h | h
  · rw [hv] at h; cases h
  · exact h

/-- Everything about the joined map that the single concepts of the maps determine. -/
theorem join_shape {m0 : FCM α} {rest : List (FCM α)} {cstrat vstrat rstrat : String} {iz : Bool} {m' : FCM α}
    (hinv : ∀ m ∈ m0 :: rest, Inv m) (h : joinMaps (m0 :: rest) cstrat vstrat rstrat iz = .ok m') :
    CleanReachable m' ∧ m'.debug = true ∧ Configured m0 m' ∧ ∀ c n, m'.topology.get? c = some n →
      m'.traj c = [n.value] ∧ ∃ m nd, Home (m0 :: rest) c m ∧ m.topology.get? c = some nd ∧ Becomes m0 m nd n := by
  unfold joinMaps at h
  split at h
  · cases h
  split at h
  · cases h
  rename_i vs hvs
  split at h
  · cases h
  rename_i rs hrs
  obtain ⟨ds, hds, h⟩ := exc_bind h
  have hs := sameDocs hds
  obtain ⟨first, rest', hfirst, -, rfl⟩ := mapM_ok_cons hds
  obtain ⟨d, hd, h⟩ := exc_bind h
  obtain ⟨J, cs, hJ, hsub, hcs, e⟩ := joinDescs_ok (decide (cstrat = "union")) vs rs iz first rest'
    fun x hx => ⟨hs.valued x hx, hs.nodup (fun m hm => (hinv m hm).tnd) x hx⟩
  rw [e] at hd
  cases hd
  have hcl := C83_api h
  have hdb : m'.debug = true := by
    obtain ⟨mi, df, mem, af, m1, cs', rs, m2, -, -, -, -, h5, -, -, h8, h9⟩ := fromJson_ok h
    obtain ⟨df', af', -, -, e0⟩ := new_ok h5
    have hL := loadConcepts_ok (by rw [e0]) (by rw [e0]) h8
    have hf1 : m2.fitInclination = none := by rw [hL.eq, e0]
    rw [loadRelations_ok hf1] at h9
    cases h9
    rw [(addAll_added hf1 _).eq, hL.eq, e0]
  obtain ⟨cs', rels, h1, h2, hset, hkeys, harcs, hsays, -⟩ := C29_built h
  cases h1
  cases h2
  obtain ⟨cs0, -, ef, -⟩ := toJson_ok hfirst
  have hargs : (if m0.mapFn.args = [] then (none : Option (Args α)) else some m0.mapFn.args).getD [] = m0.mapFn.args := by
    by_cases h : m0.mapFn.args = []
    · rw [if_pos h, h]; rfl
    · rw [if_neg h]; rfl
  have hi0 := hinv m0 (by simp)
  obtain ⟨s1, s2, s3, s4, s5, s6, s7, s8, s9⟩ := hset
  rw [ef] at s1 s2 s3 s4 s5 s6 s7 s8 s9
  simp only [docOf, Option.some.injEq, Option.getD_some, hargs] at s1 s2 s3 s4 s5 s6 s7 s8 s9
  have hconf : Configured m0 m' := by
    refine ⟨s1.symm, ?_, s7, s6, s2.symm, s5.symm, fnInfo_ext hcl.clean.inv.mapFn hi0.mapFn s3.symm s4, s9⟩
    have := hi0.extra
    omega
  refine ⟨hcl, hdb, hconf, fun c n hn => ?_⟩
  have hidnd : (cs.map (·.id)).Nodup := hJ.nd.sublist hsub
  have hk : c ∈ cs.map (·.id) := by
    rw [← eraseDups_nodup hidnd, ← hkeys]
    exact Dict.mem_keys_of_get? hn
  obtain ⟨x, hx, rfl⟩ := List.mem_map.1 hk
  obtain ⟨pre, post, e'⟩ := List.append_of_mem hx
  have hpost : ∀ y ∈ post, y.id ≠ x.id := by
    intro y hy he
    have hidnd' := hidnd
    rw [e', List.map_append, List.map_cons, List.nodup_append, List.nodup_cons] at hidnd'
    exact hidnd'.2.1.1 (by rw [← he]; exact List.mem_map_of_mem hy)
  obtain ⟨n', hn', hs', hexe⟩ := hsays pre x post e' hpost
  rw [hn] at hn'
  cases hn'
  refine ⟨by unfold FCM.traj; rw [hexe]; rfl, ?_⟩
  obtain ⟨k, c0, acc, v, k1, k2, -, ex⟩ := (hcs x).1 hx
  have hg := Dict.get?_of_mem hJ.nd k1
  rw [hJ.get] at hg
  split at hg
  case isFalse => cases hg
  obtain ⟨c1, hc1, ee⟩ := Option.map_eq_some_iff.1 hg
  cases ee
  obtain ⟨m, nd, hhome, hget, hj⟩ := home_of hds hc1
  obtain ⟨ty, um, f, t1, t2, t3, cf, ca, ad, e0, hcase⟩ := conceptToJson_ok hj
  have hxid : x.id = k := by rw [ex, e0]
  have hnf := fun g hg => loaded_notFuzzy h rfl hidnd hx (v := v) (by rw [ex]) hn (f := g) hg
  rw [hxid] at hn ⊢
  have hxty : x.type = some (typeName ty) := by rw [ex, e0]
  refine ⟨m, nd, hhome, hget, by rw [hs'.active, ex, e0]; rfl, by rw [hs'.exec, ex, e0]; rfl, ?_, ?_, ?_, ?_, hnf⟩
  · rw [hs'.memory, ex, e0, hconf.memory]; rfl
  · rw [hs'.decision, hxty, t1, Option.some.injEq, Option.some.injEq, typeName_decision]
  · rw [hs'.simple, hxty, t1, ne_eq, ne_eq, Option.some.injEq, Option.some.injEq, typeName_decision]
  · refine ⟨f, t3, ?_⟩
    rcases hcase with ⟨hne, rfl, rfl, rfl⟩ | ⟨hne, rfl, hfz, rfl, fa, -, rfl⟩ | ⟨hne, rfl, -, rfl, rfl, hw⟩
    · rw [if_pos hne, hs'.plain (by rw [ex, e0]) (by rw [ex, e0]), hconf.function]
    · exact absurd rfl (hnf _ (hs'.dict _ (by rw [ex, e0])))
    · rw [if_neg hne]
      obtain ⟨g, g1, g2, g3⟩ := hs'.custom f.name (by rw [ex, e0]) (by rw [ex, e0])
      rw [g1]
      congr 1
      have hm : m ∈ m0 :: rest := by
        obtain ⟨pre, post, e, -⟩ := hhome
        rw [e]; simp
      refine fnInfo_ext ((hcl.clean.inv.nodes _ _ hn).fn g g1) (((hinv m hm).nodes _ _ hget).fn f t3) g2 ?_
      rw [g3, ex, e0]
      show (if f.args = [] then (none : Option (Args α)) else some f.args).getD [] = f.args
      by_cases h : f.args = []
      · rw [if_pos h, h]; rfl
      · rw [if_neg h]; rfl

/-! ### C118 -/

/-- A joined map could be built by a client through the API without any exception, and has the settings of the first
map. -/
theorem C118_settings {m0 : FCM α} {rest : List (FCM α)} {cs vs rs : String} {iz : Bool} {m' : FCM α}
    (hm : ∀ m ∈ m0 :: rest, Reachable m) (h : joinMaps (m0 :: rest) cs vs rs iz = .ok m') :
    CleanReachable m' ∧ Configured m0 m' ∧ m'.debug = true := by
  obtain ⟨h1, h2, h3, -⟩ := join_shape (fun m hmm => (hm m hmm).inv) h
  exact ⟨h1, h3, h2⟩

/-- A joined concept is the one of the first map that contains it, but active, excited by Kosko's rule, with the memory
setting of the very first map; it keeps its function only if that is not the one of its map, and gets the function of
the very first map otherwise. -/
theorem C118_concepts {m0 : FCM α} {rest : List (FCM α)} {cs vs rs : String} {iz : Bool} {m' : FCM α}
    (hm : ∀ m ∈ m0 :: rest, Reachable m) (h : joinMaps (m0 :: rest) cs vs rs iz = .ok m') {c : String} {n : Node α}
    (hn : m'.topology.get? c = some n) :
    m'.traj c = [n.value] ∧ ∃ m nd, Home (m0 :: rest) c m ∧ m.topology.get? c = some nd ∧ Becomes m0 m nd n :=
  (join_shape (fun m hmm => (hm m hmm).inv) h).2.2.2 c n hn

/-! ### Disjoint maps -/

/-- Maps that can be joined side by side: no concept in common, no pair of concepts related twice. -/
structure Spec.Disjoint (maps : List (FCM α)) : Prop where
  concepts : maps.Pairwise fun m k => ∀ c ∈ m.topology.keys, c ∉ k.topology.keys
  relations : ∀ m ∈ maps, (m.arcList.map fun a => (a.origin, a.dest)).Nodup

theorem collectRel_cons (r : RelDesc α) (rs : List (RelDesc α)) (d : Dict (List α)) :
    collectRel (r :: rs) d = collectRel rs (d.set (relName r) ((d.get? (relName r)).getD [] ++ [r.weight])) := by
  simp only [collectRel]
  unfold relName
  cases d.get? (r.origin ++ relSeparator ++ r.destiny) <;> rfl

theorem collectRel_nodup_names {rels : List (RelDesc α)} {d : Dict (List α)} (hn : (rels.map relName).Nodup)
    (hd : ∀ r ∈ rels, relName r ∉ d.keys) : collectRel rels d = d ++ rels.map fun r => (relName r, [r.weight]) := by
  induction rels generalizing d with
  | nil => simp [collectRel]
  | cons r rels ih =>
    rw [List.map_cons, List.nodup_cons] at hn
    have h0 := hd r (by simp)
    rw [collectRel_cons, (Dict.get?_eq_none_iff _ _).2 h0, Option.getD_none, List.nil_append, Dict.set_new h0, ih hn.2]
    · simp
    · intro x hx hk
      rw [Dict.keys, List.map_append, List.mem_append] at hk
      rcases hk with hk | hk
      · exact hd x (by simp [hx]) hk
      · simp only [List.map_cons, List.map_nil, List.mem_singleton] at hk
        exact hn.1 (by rw [← hk]; exact List.mem_map_of_mem hx)

theorem run_single (h1 : ∀ v : α, (lit 0 + v) / lit 1 = v) (a : Aggr) (v : α) : a.run [v] = .ok v := by
  cases a with
  | highest => rfl
  | lowest => rfl
  | average =>
    show pyavg [v] = _
    unfold pyavg
    rw [if_neg (by simp)]
    exact congrArg _ (h1 v)

/-- The relations of disjoint maps are joined side by side. -/
theorem join_arcs (h1 : ∀ v : α, (lit 0 + v) / lit 1 = v) {maps : List (FCM α)} {vs rs : Aggr} {iz : Bool} {m' : FCM α}
    {ids : List String} (hm : ∀ m ∈ maps, Inv m) (hd : Spec.Disjoint maps)
    (hsep : ∀ m ∈ maps, ∀ c ∈ m.topology.keys, Separable c) {cs : String} (hj : JoinedMap cs vs rs iz maps m' ids)
    (hall : ∀ m ∈ maps, ∀ c ∈ m.topology.keys, c ∈ m'.topology.keys) :
    m'.arcList = maps.flatMap (·.arcList) := by
  have hrsep : ∀ r ∈ relsOf maps, Separable r.origin ∧ Separable r.destiny ∧ r.origin ∈ m'.topology.keys ∧
      r.destiny ∈ m'.topology.keys := by
    intro r hr
    obtain ⟨m, hmm, arc, harc, rfl⟩ := mem_relsOf hr
    have := (hm m hmm).ends arc harc
    exact ⟨hsep m hmm _ this.1, hsep m hmm _ this.2, hall m hmm _ this.1, hall m hmm _ this.2⟩
  have hpairs : ((relsOf maps).map fun r => (r.origin, r.destiny)).Nodup := by
    obtain ⟨d1, d2⟩ := hd
    clear hj hall hsep hrsep
    induction maps with
    | nil => exact List.nodup_nil
    | cons m maps ih =>
      rw [List.pairwise_cons] at d1
      have e : relsOf (m :: maps) = (m.arcList.map fun a => ⟨a.origin, a.dest, a.weight⟩) ++ relsOf maps := rfl
      rw [e, List.map_append, List.map_map, List.nodup_append]
      refine ⟨d2 m (by simp), ih (fun x hx => hm x (by simp [hx])) d1.2 (fun x hx => d2 x (by simp [hx])), ?_⟩
      intro p hp q hq epq
      obtain ⟨a, ha, rfl⟩ := List.mem_map.1 hp
      obtain ⟨r, hr, rfl⟩ := List.mem_map.1 hq
      obtain ⟨k, hk, arc, harc, rfl⟩ := mem_relsOf hr
      simp only [Function.comp_apply, Prod.mk.injEq] at epq
      have e1 := ((hm m (by simp)).ends a ha).1
      have e2 := ((hm k (by simp [hk])).ends arc harc).1
      rw [← epq.1] at e2
      exact d1.1 k hk _ e1 e2
  have hnames : ((relsOf maps).map relName).Nodup := by
    rw [List.Nodup, List.pairwise_map] at hpairs ⊢
    refine hpairs.imp_of_mem fun {a b} ha hb hab e => hab ?_
    obtain ⟨e1, e2⟩ := relName_inj (hrsep a ha).1 (hrsep a ha).2.1 (hrsep b hb).1 (hrsep b hb).2.1 e
    rw [e1, e2]
  have harcs := hj.arcs
  rw [show (maps.flatMap fun m => m.arcList.map fun a => (⟨a.origin, a.dest, a.weight⟩ : RelDesc α)) = relsOf maps
    from rfl, collectRel_nodup_names hnames (by simp [Dict.keys]), List.nil_append, List.filterMap_map] at harcs
  have hid : (relsOf maps).filterMap (relOf rs (fun x => decide (x ∈ ids)) ∘ fun r => (relName r, [r.weight])) =
      relsOf maps := by
    conv => rhs; rw [← List.filterMap_some (l := relsOf maps)]
    apply List.filterMap_congr
    intro r hr
    obtain ⟨a, b, c, d⟩ := hrsep r hr
    have c' := ((hj.conc _).1 c).1
    have d' := ((hj.conc _).1 d).1
    simp [relOf, relName, pySplit_separable a b, c', d', run_single h1, Except.toOption]
  rw [hid, List.filter_eq_self.2 (fun r hr => by simpa using (hrsep r hr).2.2)] at harcs
  rw [harcs]
  unfold relsOf
  rw [List.map_flatMap]
  congr 1
  funext m
  rw [List.map_map]
  conv => rhs; rw [← List.map_id m.arcList]
  rfl

theorem filter_dest_other {m : FCM α} (hi : Inv m) {c : String} (hc : c ∉ m.topology.keys) :
    m.arcList.filter (fun a => a.dest == c) = [] := by
  rw [List.filter_eq_nil_iff]
  intro a ha h
  have := (hi.ends a ha).2
  rw [show a.dest = c by simpa using h] at this
  exact hc this

/-- The concepts of `m` are written and run in the joined map as in `m` itself. -/
structure Spec.Kept (m0 m : FCM α) : Prop where
  active : ∀ c n, m.topology.get? c = some n → n.active = true
  exec : ∀ c n, m.topology.get? c = some n → n.exec.map (·.2) = some "KOSKO"
  memory : ∀ c n, m.topology.get? c = some n → n.useMem = some m0.memInfluence
  function : ∀ c n f, m.topology.get? c = some n → n.fn = some f → f.name = m.mapFn.name → f = m0.mapFn
  notRun : ∀ c n, m.topology.get? c = some n → at' m.traj 0 c = n.value

theorem toSpec_becomes {m0 m : FCM α} {nd n : Node α} (hb : Becomes m0 m nd n) (ha : nd.active = true)
    (he : nd.exec.map (·.2) = some "KOSKO") (hu : nd.useMem = some m0.memInfluence)
    (hf : ∀ f, nd.fn = some f → f.name = m.mapFn.name → f = m0.mapFn) : nd.toSpec = n.toSpec := by
  obtain ⟨b1, b2, b3, -, -, ⟨f, b4, b5⟩, b6⟩ := hb
  have hff : n.fn = some f := by
    rw [b5]
    split
    · rename_i e; rw [hf f b4 e]
    · rfl
  obtain ⟨ex, x1, x2⟩ := Option.map_eq_some_iff.1 he
  obtain ⟨ey, y1, y2⟩ := Option.map_eq_some_iff.1 b2
  unfold Node.toSpec
  rw [x1, y1, hu, b3, b4, hff]
  simp only [ha, b1, x2, y2, if_neg (b6 f hff)]

/-- How the joined map contains each of the maps. -/
theorem join_beside (h1 : ∀ v : α, (lit 0 + v) / lit 1 = v) {m0 : FCM α} {rest : List (FCM α)} {vs rs : String}
    {m' : FCM α} (hm : ∀ m ∈ m0 :: rest, Inv m) (hd : Spec.Disjoint (m0 :: rest))
    (hsep : ∀ m ∈ m0 :: rest, ∀ c ∈ m.topology.keys, Separable c) (hk : ∀ m ∈ m0 :: rest, Kept m0 m)
    (h : joinMaps (m0 :: rest) "union" vs rs false = .ok m') :
    (∀ c, c ∈ m'.topology.keys ↔ ∃ m ∈ m0 :: rest, c ∈ m.topology.keys) ∧
    ∀ m ∈ m0 :: rest, Upstream m.net (· ∈ m.topology.keys) ∧ AgreeOn (· ∈ m.topology.keys) m.net m'.net ∧
      ∀ c ∈ m.topology.keys, at' m.traj 0 c = at' m'.traj 0 c := by
  obtain ⟨hcl, hdb, hconf, hnodes⟩ := join_shape hm h
  obtain ⟨a, b, ids, -, ha, hb, hj⟩ := join_ok (by simp) hm h
  have hkeys : ∀ c, c ∈ m'.topology.keys ↔ ∃ m ∈ m0 :: rest, c ∈ m.topology.keys := by
    intro c
    rw [hj.conc, hj.mem]
    unfold Joins
    simp
  have harcs := join_arcs h1 hm hd hsep hj fun m hmm c hc => (hkeys c).2 ⟨m, hmm, hc⟩
  refine ⟨hkeys, fun m hmm => ?_⟩
  have hi := hm m hmm
  obtain ⟨pre, post, e⟩ := List.append_of_mem hmm
  have hdis := hd.concepts
  rw [e, List.pairwise_append] at hdis
  obtain ⟨-, hdis2, hdis3⟩ := hdis
  rw [List.pairwise_cons] at hdis2
  have hother : ∀ x ∈ pre ++ post, ∀ c ∈ m.topology.keys, c ∉ x.topology.keys := by
    intro x hx c hc hcx
    rcases List.mem_append.1 hx with hx | hx
    · exact hdis3 x hx m (by simp) c hcx hc
    · exact hdis2.1 x hx c hc hcx
  have hhome : ∀ c ∈ m.topology.keys, ∀ k, Home (m0 :: rest) c k → k = m := by
    rintro c hc k ⟨p, q, e', hck, -⟩
    have : k ∈ pre ++ m :: post := by rw [← e, e']; simp
    rcases List.mem_append.1 this with hx | hx
    · exact absurd hck (hother k (by simp [hx]) c hc)
    · rcases List.mem_cons.1 hx with hx | hx
      · exact hx
      · exact absurd hck (hother k (by simp [hx]) c hc)
  have hmem : ∀ x ∈ pre ++ post, x ∈ m0 :: rest := by
    intro x hx
    rw [e]
    rcases List.mem_append.1 hx with hx | hx <;> simp [hx]
  have hboth : ∀ c ∈ m.topology.keys, ∃ nd n, m.topology.get? c = some nd ∧ m'.topology.get? c = some n ∧
      Becomes m0 m nd n ∧ m'.traj c = [n.value] ∧ n.value = nd.value := by
    intro c hc
    obtain ⟨n, hn⟩ := Dict.exists_get?_of_mem ((hkeys c).2 ⟨m, hmm, hc⟩)
    obtain ⟨ht, k, nd, hh, hg, hbec⟩ := hnodes c n hn
    cases hhome c hc k hh
    refine ⟨nd, n, hg, hn, hbec, ht, ?_⟩
    have hv := hj.value c n hn
    have : valuesOf (m0 :: rest) c = [nd.value] := by
      unfold valuesOf
      have none_of : ∀ l : List (FCM α), (∀ x ∈ l, c ∉ x.topology.keys) →
          l.filterMap (fun m => (m.topology.get? c).map (·.value)) = [] := by
        intro l hl
        rw [List.filterMap_eq_nil_iff]
        intro x hx
        rw [(Dict.get?_eq_none_iff _ _).2 (hl x hx)]
        rfl
      rw [e, List.filterMap_append, List.filterMap_cons, hg, none_of pre fun x hx => hother x (by simp [hx]) c hc,
        none_of post fun x hx => hother x (by simp [hx]) c hc]
      rfl
    rw [this, run_single h1] at hv
    exact (Except.ok.inj hv).symm
  refine ⟨?_, ⟨?_, ?_⟩, ?_⟩
  · intro r hr _
    obtain ⟨arc, harc, rfl⟩ := List.mem_map.1 hr
    exact (hi.ends arc harc).1
  · intro c hc
    obtain ⟨nd, n, hg, hn, hbec, -⟩ := hboth c hc
    show (m.topology.get? c).bind Node.toSpec = (m'.topology.get? c).bind Node.toSpec
    rw [hg, hn]
    exact toSpec_becomes hbec ((hk m hmm).active c nd hg) ((hk m hmm).exec c nd hg) ((hk m hmm).memory c nd hg)
      fun f hf => (hk m hmm).function c nd f hg hf
  · intro c hc
    show (m.arcList.map Arc.toSpec).filter _ = (m'.arcList.map Arc.toSpec).filter _
    have e1 : ∀ l : List (Arc α), (l.map Arc.toSpec).filter (fun r => r.dest == c) =
        (l.filter fun a => a.dest == c).map Arc.toSpec := by
      intro l; rw [List.filter_map]; rfl
    rw [e1, e1, harcs, e, List.flatMap_append, List.flatMap_cons, List.filter_append, List.filter_append]
    have none_of : ∀ l : List (FCM α), (∀ x ∈ l, Inv x ∧ c ∉ x.topology.keys) →
        (l.flatMap (·.arcList)).filter (fun a => a.dest == c) = [] := by
      intro l hl
      induction l with
      | nil => rfl
      | cons x l ih =>
        obtain ⟨i, j⟩ := hl x (by simp)
        rw [List.flatMap_cons, List.filter_append, filter_dest_other i j, ih fun y hy => hl y (by simp [hy])]
        rfl
    rw [none_of pre fun x hx => ⟨hm x (hmem x (by simp [hx])), hother x (by simp [hx]) c hc⟩,
      none_of post fun x hx => ⟨hm x (hmem x (by simp [hx])), hother x (by simp [hx]) c hc⟩]
    simp
  · intro c hc
    obtain ⟨nd, n, hg, hn, -, ht, hv⟩ := hboth c hc
    rw [(hk m hmm).notRun c nd hg]
    unfold at'
    rw [ht, ← hv]
    rfl

/-- `k` runs as long as `m` and reads the result off in the same way. -/
structure Spec.SamePace (m k : FCM α) : Prop where
  maxIter : k.maxIter = m.maxIter
  extra : k.extraSteps = m.extraSteps
  stop : k.stopAtStabilize = m.stopAtStabilize
  diff : k.stabilityDiff = m.stabilityDiff
  decision : k.decisionName = m.decisionName

/-- What a union of disjoint maps needs in order to be run side by side. -/
structure Spec.Beside (m0 : FCM α) (maps : List (FCM α)) : Prop where
  clean : ∀ m ∈ maps, CleanReachable m
  iterative : ∀ m ∈ maps, m.debug = true
  disjoint : Spec.Disjoint maps
  names : ∀ m ∈ maps, ∀ c ∈ m.topology.keys, Separable c
  kept : ∀ m ∈ maps, Kept m0 m
  pace : ∀ m ∈ maps, SamePace m0 m

/-- The values of each of the disjoint maps are those of the joined map as long as it runs alone, and the joined map
runs at least as long. -/
theorem C118_prefix (h1 : ∀ v : α, (lit 0 + v) / lit 1 = v) {m0 : FCM α} {rest : List (FCM α)} {vs rs : String}
    {k k' : FCM α} (hb : Beside m0 (m0 :: rest)) (h : joinMaps (m0 :: rest) "union" vs rs false = .ok k)
    (rk : FCM.runInference true k = (.ok (), k')) {m m' : FCM α} (hm : m ∈ m0 :: rest)
    (rm : FCM.runInference true m = (.ok (), m')) {c : String} (hc : c ∈ m.topology.keys) :
    m'.traj c <+: k'.traj c := by
  have hinv : ∀ m ∈ m0 :: rest, Inv m := fun m hm => (hb.clean m hm).clean.inv
  obtain ⟨hcl, hdb, hconf, -⟩ := join_shape hinv h
  obtain ⟨hkeys, hagree⟩ := join_beside h1 hinv hb.disjoint hb.names hb.kept h
  obtain ⟨hup, hag, h0⟩ := hagree m hm
  obtain ⟨a, ia⟩ := run_iter (hinv m hm) (hb.iterative m hm) rm
  obtain ⟨b, ib⟩ := run_iter hcl.clean.inv hdb rk
  have hsub : ∀ d, d ∈ m.topology.keys → d ∈ m.topology.keys ∧ d ∈ k.topology.keys :=
    fun d hd => ⟨hd, (hkeys d).2 ⟨m, hm, hd⟩⟩
  have heq : ∀ t, t < a → t < b → ∀ d, d ∈ m.topology.keys → at' m'.traj t d = at' k'.traj t d :=
    run_agree hup hag ia.run ib.run hsub fun d hd => by
      rw [(ia.init d hd).2, (ib.init d (hsub d hd).2).2, h0 d hd]
  have hp := hb.pace m hm
  have hle : a ≤ b := by
    by_contra hlt
    have hba : b < a := by omega
    have hw : k.extraSteps - 1 = m.extraSteps - 1 := by rw [hconf.extra, hp.extra]
    obtain ⟨s, s1, s2, s3⟩ := ia.stops.least b (by rw [← hw]; exact ib.stops.above) hba
    refine s3 ?_
    rcases ib.stops.window s (by rw [hw]; exact s1) s2 with hq | ⟨q1, q2, q3⟩
    · exact .inl (by rw [hp.maxIter, ← hconf.maxIter]; exact hq)
    · refine .inr ⟨by rw [hp.stop, ← hconf.stop]; exact q1, q2, fun d hd => ?_⟩
      rw [heq _ (by omega) (by omega) d hd, heq _ (by omega) (by omega) d hd, hp.diff, ← hconf.diff]
      exact q3 d (hsub d hd).2
  have l1 := (ia.run c hc).1
  have l2 := (ib.run c (hsub c hc).2).1
  rw [List.prefix_iff_eq_take]
  apply List.ext_getElem
  · rw [List.length_take]; omega
  · intro i i1 i2
    have := heq i (by omega) (by omega) c hc
    unfold at' at this
    rw [List.getElem_take]
    rw [List.getD_eq_getElem?_getD, List.getD_eq_getElem?_getD, List.getElem?_eq_getElem i1,
      List.getElem?_eq_getElem (by omega)] at this
    exact this

theorem quiet_fixed {x : String → List α} {cs : List String} {n : Int} {diff : α} :
    Quiet x cs n false diff = fun s : Nat => n ≤ (s : Int) := by
  funext s
  unfold Quiet
  simp

theorem find_home {maps : List (FCM α)} (hd : maps.Pairwise fun m k => ∀ c ∈ m.topology.keys, c ∉ k.topology.keys)
    {m : FCM α} (hm : m ∈ maps) {c : String} (hc : c ∈ m.topology.keys) :
    maps.find? (fun x => decide (c ∈ x.topology.keys)) = some m := by
  induction maps with
  | nil => cases hm
  | cons x maps ih =>
    rw [List.pairwise_cons] at hd
    rcases List.mem_cons.1 hm with rfl | hm
    · rw [List.find?_cons_of_pos (by simpa using hc)]
    · rw [List.find?_cons_of_neg (by simpa using fun h => hd.1 m hm c h hc)]
      exact ih hd.2 hm

/-- With a fixed number of steps the joined map returns exactly if all of the disjoint maps do. -/
theorem C118_returns (h1 : ∀ v : α, (lit 0 + v) / lit 1 = v) {m0 : FCM α} {rest : List (FCM α)} {vs rs : String}
    {k : FCM α} (hb : Beside m0 (m0 :: rest)) (hs : m0.stopAtStabilize = false)
    (h : joinMaps (m0 :: rest) "union" vs rs false = .ok k) :
    (∃ k', FCM.runInference true k = (.ok (), k')) ↔ ∀ m ∈ m0 :: rest, ∃ m', FCM.runInference true m = (.ok (), m') := by
  have hinv : ∀ m ∈ m0 :: rest, Inv m := fun m hm => (hb.clean m hm).clean.inv
  obtain ⟨hcl, hdb, hconf, -⟩ := join_shape hinv h
  obtain ⟨hkeys, hagree⟩ := join_beside h1 hinv hb.disjoint hb.names hb.kept h
  constructor
  · rintro ⟨k', rk⟩ m hm
    obtain ⟨b, ib⟩ := run_iter hcl.clean.inv hdb rk
    obtain ⟨hup, hag, h0⟩ := hagree m hm
    have hp := hb.pace m hm
    have hsub : ∀ d ∈ m.topology.keys, d ∈ k.topology.keys := fun d hd => (hkeys d).2 ⟨m, hm, hd⟩
    refine run_returns (hb.clean m hm).clean (hb.iterative m hm) (x := k'.traj) (len := b) (fun c hc => ?_)
      (fun c hc => ⟨(ib.run c (hsub c hc)).1, fun t ht => ?_⟩) ?_ fun c hc => ?_
    · rw [(ib.init c (hsub c hc)).2, h0 c hc]
    · rw [next_agree hup hag (B := at' k'.traj t) (fun _ _ => rfl) hc]
      exact (ib.run c (hsub c hc)).2 t ht
    · have := ib.stops
      rw [hconf.stop, hs, quiet_fixed, hconf.maxIter, hconf.extra] at this
      rw [hp.stop, hs, quiet_fixed, hp.maxIter, hp.extra]
      exact this
    · obtain ⟨n, v, -, -, hv⟩ := ib.final c (hsub c hc)
      have hl := (ib.run c (hsub c hc)).1
      refine ⟨v, ?_⟩
      have := (decFn_eq hcl.clean.inv.dec (k'.traj c) k.extraSteps v).1 (by rw [hl]; exact hv)
      rw [hp.decision, hp.extra, ← hconf.decision, ← hconf.extra]
      exact this
  · intro hall
    obtain ⟨m0', r0⟩ := hall m0 (by simp)
    obtain ⟨len, i0⟩ := run_iter (hinv m0 (by simp)) (hb.iterative m0 (by simp)) r0
    have st0 := i0.stops
    rw [hs, quiet_fixed] at st0
    have hit : ∀ m ∈ m0 :: rest, IterRun m (FCM.runInference true m).2 len := by
      intro m hm
      obtain ⟨m', rm⟩ := hall m hm
      obtain ⟨l, il⟩ := run_iter (hinv m hm) (hb.iterative m hm) rm
      have hp := hb.pace m hm
      have st := il.stops
      rw [hp.stop, hs, quiet_fixed, hp.maxIter, hp.extra] at st
      rw [rm, ← st.unique st0]
      exact il
    let x : String → List α := fun c => match (m0 :: rest).find? fun m => decide (c ∈ m.topology.keys) with
      | some m => (FCM.runInference true m).2.traj c
      | none => []
    have hx : ∀ m ∈ m0 :: rest, ∀ c ∈ m.topology.keys, x c = (FCM.runInference true m).2.traj c := by
      intro m hm c hc
      show (match (m0 :: rest).find? _ with
        | some m => (FCM.runInference true m).2.traj c
        | none => []) = _
      rw [find_home hb.disjoint.concepts hm hc]
    have hat : ∀ m ∈ m0 :: rest, ∀ t c, c ∈ m.topology.keys → at' (FCM.runInference true m).2.traj t c = at' x t c :=
      fun m hm t c hc => by unfold at'; rw [hx m hm c hc]
    refine run_returns hcl.clean hdb (x := x) (len := len) (fun c hc => ?_) (fun c hc => ?_) ?_ fun c hc => ?_
    · obtain ⟨m, hm, hcm⟩ := (hkeys c).1 hc
      rw [← hat m hm 0 c hcm, ((hit m hm).init c hcm).2, (hagree m hm).2.2 c hcm]
    · obtain ⟨m, hm, hcm⟩ := (hkeys c).1 hc
      obtain ⟨hup, hag, -⟩ := hagree m hm
      obtain ⟨l1, l2⟩ := (hit m hm).run c hcm
      refine ⟨by rw [hx m hm c hcm]; exact l1, fun t ht => ?_⟩
      rw [← hat m hm (t + 1) c hcm, ← l2 t ht]
      exact (next_agree hup hag (fun d hd => hat m hm t d hd) hcm).symm
    · rw [hconf.stop, hs, quiet_fixed, hconf.maxIter, hconf.extra]
      exact st0
    · obtain ⟨m, hm, hcm⟩ := (hkeys c).1 hc
      have hp := hb.pace m hm
      obtain ⟨n, v, -, -, hv⟩ := (hit m hm).final c hcm
      have hl := ((hit m hm).run c hcm).1
      refine ⟨v, ?_⟩
      have := (decFn_eq (hinv m hm).dec ((FCM.runInference true m).2.traj c) m.extraSteps v).1 (by rw [hl]; exact hv)
      rw [hx m hm c hcm, hconf.decision, hconf.extra, ← hp.decision, ← hp.extra]
      exact this

/-- With a fixed number of steps the disjoint maps run in the joined map just as they run alone. -/
theorem C118_beside (h1 : ∀ v : α, (lit 0 + v) / lit 1 = v) {m0 : FCM α} {rest : List (FCM α)} {vs rs : String}
    {k k' : FCM α} (hb : Beside m0 (m0 :: rest)) (hs : m0.stopAtStabilize = false)
    (h : joinMaps (m0 :: rest) "union" vs rs false = .ok k)
    (rk : FCM.runInference true k = (.ok (), k')) {m m' : FCM α} (hm : m ∈ m0 :: rest)
    (rm : FCM.runInference true m = (.ok (), m')) {c : String} (hc : c ∈ m.topology.keys) :
    k'.traj c = m'.traj c ∧ k'.getConceptValue c = m'.getConceptValue c := by
  have hinv : ∀ m ∈ m0 :: rest, Inv m := fun m hm => (hb.clean m hm).clean.inv
  obtain ⟨hcl, hdb, hconf, -⟩ := join_shape hinv h
  obtain ⟨hkeys, hagree⟩ := join_beside h1 hinv hb.disjoint hb.names hb.kept h
  obtain ⟨hup, hag, h0⟩ := hagree m hm
  have hp := hb.pace m hm
  exact C76_final (hb.clean m hm).reachable hcl.reachable (hb.iterative m hm) hdb rm rk hup hag
    (fun d hd => ⟨hd, (hkeys d).2 ⟨m, hm, hd⟩⟩) (fun d hd => h0 d hd) (by rw [hp.stop, hs]) (by rw [hconf.stop, hs])
    (by rw [hconf.extra, hp.extra]) (by rw [hconf.maxIter, hp.maxIter]) (by rw [hconf.decision, hp.decision]) hc

theorem accFirst_eq {cs : List (ConceptDesc α)} {d : Dict (Acc α)} {val : ConceptDesc α → α}
    (hv : ∀ c ∈ cs, c.activation = some (val c)) (hn : (cs.map (·.id)).Nodup) (hd : ∀ c ∈ cs, c.id ∉ d.keys) :
    accFirst cs d = .ok (d ++ cs.map fun c => (c.id, (c, [val c]))) := by
  induction cs generalizing d with
  | nil => simp [accFirst]
  | cons c cs ih =>
    rw [List.map_cons, List.nodup_cons] at hn
    simp only [accFirst, hv c (by simp), need, bind, Except.bind]
    rw [Dict.set_new (hd c (by simp)), ih (fun x hx => hv x (by simp [hx])) hn.2]
    · simp
    · intro x hx hk
      rw [Dict.keys, List.map_append, List.mem_append] at hk
      rcases hk with hk | hk
      · exact hd x (by simp [hx]) hk
      · simp only [List.map_cons, List.map_nil, List.mem_singleton] at hk
        exact hn.1 (by rw [← hk]; exact List.mem_map_of_mem hx)

theorem finalConcepts_eq (h1 : ∀ v : α, (lit 0 + v) / lit 1 = v) (a : Aggr) {cs : List (ConceptDesc α)}
    {val : ConceptDesc α → α} (hv : ∀ c ∈ cs, c.activation = some (val c)) :
    finalConcepts a false (cs.map fun c => (c.id, (c, [val c]))) = .ok cs := by
  induction cs with
  | nil => rfl
  | cons c cs ih =>
    have hc : ({ c with activation := some (val c) } : ConceptDesc α) = c := by rw [← hv c (by simp)]
    rw [List.map_cons, finalConcepts, run_single h1]
    simp only [bind, Except.bind, ih fun x hx => hv x (by simp [hx]), hc, Bool.false_eq_true, if_false, ite_self, pure,
      Except.pure]

theorem Inv.pairs_separable {m : FCM α} (hi : Inv m) (hs : ∀ c ∈ m.topology.keys, Separable c) {r : RelDesc α}
    (hr : r ∈ relsOf [m]) : Separable r.origin ∧ Separable r.destiny ∧ r.origin ∈ m.topology.keys ∧
      r.destiny ∈ m.topology.keys := by
  obtain ⟨k, hk, arc, harc, rfl⟩ := mem_relsOf hr
  cases List.mem_singleton.1 hk
  have := hi.ends arc harc
  exact ⟨hs _ this.1, hs _ this.2, this.1, this.2⟩

/-- Joining a single map whose relations are not repeated is exporting and importing it. -/
theorem C118_single (h1 : ∀ v : α, (lit 0 + v) / lit 1 = v) {m : FCM α} (hm : Reachable m) {d : MapDesc α}
    (hd : m.toJson = .ok d) (hp : (m.arcList.map fun a => (a.origin, a.dest)).Nodup)
    (hsep : ∀ c ∈ m.topology.keys, Separable c) {cs vs rs : String} (hc : cs ∈ ["union", "intersection"])
    (hv : vs ∈ ["highest", "lowest", "average"]) (hr : rs ∈ ["highest", "lowest", "average"]) :
    joinMaps [m] cs vs rs false = fromJson d := by
  simp only [List.mem_cons, List.not_mem_nil, or_false] at hc
  obtain ⟨a, ha⟩ := byName_some hv
  obtain ⟨b, hb⟩ := byName_some hr
  obtain ⟨cl, hcl, hids⟩ := toJson_concepts hd
  have hrel := toJson_relations hd
  obtain ⟨hval, -⟩ := toJson_values hd
  rw [hcl] at hval
  have hval' : ∀ c ∈ cl, c.activation = some (c.activation.getD (lit 0)) := by
    intro c hc'
    obtain ⟨v, hv⟩ := hval c hc'
    rw [hv]; rfl
  have hrels : relsOf [m] = m.arcList.map fun a => ⟨a.origin, a.dest, a.weight⟩ := by simp [relsOf]
  have hnames : ((relsOf [m]).map relName).Nodup := by
    have hpairs : ((relsOf [m]).map fun r => (r.origin, r.destiny)).Nodup := by
      rw [hrels, List.map_map]; exact hp
    rw [List.Nodup, List.pairwise_map] at hpairs ⊢
    refine hpairs.imp_of_mem fun {x y} hx hy hxy e => hxy ?_
    obtain ⟨x1, x2, -⟩ := hm.inv.pairs_separable hsep hx
    obtain ⟨y1, y2, -⟩ := hm.inv.pairs_separable hsep hy
    obtain ⟨e1, e2⟩ := relName_inj x1 x2 y1 y2 e
    rw [e1, e2]
  have hfin : finalRelations b (cl.map fun c => (c.id, (c, [c.activation.getD (lit 0)]))) (collectRel (relsOf [m]) []) =
      .ok (relsOf [m]) := by
    rw [collectRel_nodup_names hnames (by simp [Dict.keys]), List.nil_append]
    rw [finalRelations_ok, List.filterMap_map]
    · conv => rhs; rw [← List.filterMap_some (l := relsOf [m])]
      refine congrArg _ (List.filterMap_congr fun r hr => ?_)
      obtain ⟨x1, x2, x3, x4⟩ := hm.inv.pairs_separable hsep hr
      have hhas : ∀ k, k ∈ m.topology.keys →
          Dict.has (cl.map fun c => (c.id, (c, [c.activation.getD (lit 0)]))) k = true := by
        intro k hk
        rw [Dict.has_iff, Dict.keys, List.map_map]
        rw [← hids] at hk
        exact hk
      simp [relOf, relName, pySplit_separable x1 x2, hhas _ x3, hhas _ x4, run_single h1, Except.toOption]
    · intro p hp
      obtain ⟨r, hr, rfl⟩ := List.mem_map.1 hp
      obtain ⟨x1, x2, -⟩ := hm.inv.pairs_separable hsep hr
      exact ⟨_, _, _, pySplit_separable x1 x2⟩
    · intro p hp
      obtain ⟨r, -, rfl⟩ := List.mem_map.1 hp
      simp
  have hjd : joinDescs (decide (cs = "union")) a b false d [] = .ok d := by
    unfold joinDescs
    rw [hcl, Option.getD_some, accFirst_eq hval' (by rw [hids]; exact hm.inv.tnd) (by simp [Dict.keys])]
    simp only [List.nil_append, bind, Except.bind, accMaps, finalConcepts_eq h1 a hval']
    have : [d].flatMap (fun m => m.relations.getD []) = relsOf [m] := by simp [hrel, hrels]
    rw [this, hfin]
    simp only [pure, Except.pure]
    rw [hrels, ← hrel, ← hcl]
  unfold joinMaps
  rw [if_neg (by rcases hc with rfl | rfl <;> simp), ha, hb]
  simp only [List.mapM_cons, List.mapM_nil, hd, bind, Except.bind, pure, Except.pure]
  rw [hjd]

end

/-! ### Concrete cases -/

/-- That a map is kept can be checked concept by concept. -/
theorem kept_of {α : Type} [Arith α] {m0 m : FCM α}
    (h : ∀ p ∈ m.topology, p.2.active = true ∧ p.2.exec.map (·.2) = some "KOSKO" ∧ p.2.useMem = some m0.memInfluence ∧
      at' m.traj 0 p.1 = p.2.value)
    (hf : ∀ p ∈ m.topology, ∀ f, p.2.fn = some f → f.name = m.mapFn.name → f = m0.mapFn) : Kept m0 m :=
  ⟨fun c n hn => (h (c, n) (Dict.get?_mem hn)).1, fun c n hn => (h (c, n) (Dict.get?_mem hn)).2.1,
    fun c n hn => (h (c, n) (Dict.get?_mem hn)).2.2.1, fun c n f hn e => hf (c, n) (Dict.get?_mem hn) f e,
    fun c n hn => (h (c, n) (Dict.get?_mem hn)).2.2.2⟩

theorem rat_single : ∀ v : ℚ, (lit 0 + v) / lit 1 = v := by
  intro v
  show ((0 : ℤ) + v : ℚ) / ((1 : ℤ) : ℚ) = v
  simp

theorem real_single : ∀ v : ℝ, (lit 0 + v) / lit 1 = v := by
  intro v
  rw [real_lit, real_lit]
  simp

namespace Ex

def side0 (f : String) : Except Err (FCM ℚ) := FCM.new (maxIt := 4) (stabilize := false) (activation := f)

/-- a and b with one relation; four iterations. -/
def side1 : FCM ℚ :=
  match side0 "saturation" with
  | .ok m => runOps [.addConcept "a" {}, .addConcept "b" { type := some TYPE_DECISION }, .addRelation "a" "b" (1/2),
      .initConcept "a" (1/2) true] m
  | .error _ => default

/-- c, excited by itself and by d. -/
def side2 : FCM ℚ :=
  match side0 "saturation" with
  | .ok m => runOps [.addConcept "c" {}, .addConcept "d" { activation := some "biestate" }, .addRelation "d" "c" (1/3),
      .addRelation "c" "c" (1/4), .initConcept "d" 1 true] m
  | .error _ => default

/-- The same with a map function of its own. -/
def side3 : FCM ℚ :=
  match side0 "biestate" with
  | .ok m => runOps [.addConcept "c" {}, .addConcept "d" {}, .addRelation "d" "c" (1/3),
      .addRelation "c" "c" (1/4), .initConcept "d" 1 true] m
  | .error _ => default

theorem side_new (f : String) {m : FCM ℚ} (h : side0 f = .ok m) : CleanReachable m := .new h

theorem side1_clean : CleanReachable side1 := cleanReachable_of (side_new "saturation" rfl) _ (by decide +kernel)
theorem side2_clean : CleanReachable side2 := cleanReachable_of (side_new "saturation" rfl) _ (by decide +kernel)
theorem side3_clean : CleanReachable side3 := cleanReachable_of (side_new "biestate" rfl) _ (by decide +kernel)

theorem side_beside : Beside side1 [side1, side2] where
  clean := by
    intro m hm
    simp only [List.mem_cons, List.not_mem_nil, or_false] at hm
    rcases hm with rfl | rfl
    · exact side1_clean
    · exact side2_clean
  iterative := by decide +kernel
  disjoint := ⟨by decide +kernel, by decide +kernel⟩
  names := by
    intro m hm c hc
    simp only [List.mem_cons, List.not_mem_nil, or_false] at hm
    have hk : c ∈ ["a", "b", "c", "d"] := by
      rcases hm with rfl | rfl
      · exact (by decide +kernel : ∀ c ∈ side1.topology.keys, c ∈ ["a", "b", "c", "d"]) c hc
      · exact (by decide +kernel : ∀ c ∈ side2.topology.keys, c ∈ ["a", "b", "c", "d"]) c hc
    exact (by decide +kernel : ∀ c ∈ ["a", "b", "c", "d"], Separable c) c hk
  kept := by
    intro m hm
    simp only [List.mem_cons, List.not_mem_nil, or_false] at hm
    rcases hm with rfl | rfl
    · refine kept_of (by decide +kernel) fun p hp f hf => ?_
      have : ∀ p ∈ side1.topology, p.2.fn = some side1.mapFn := by decide +kernel
      rw [this p hp] at hf
      cases hf
      exact fun _ => rfl
    · refine kept_of (by decide +kernel) fun p hp f hf hn => ?_
      have : ∀ p ∈ side2.topology, p.2.fn.map (·.name) = some side2.mapFn.name → p.2.fn = some side1.mapFn := by
        decide +kernel
      have := this p hp (by rw [hf, ← hn]; rfl)
      rw [hf] at this
      exact Option.some.inj this
  pace := by
    intro m hm
    simp only [List.mem_cons, List.not_mem_nil, or_false] at hm
    rcases hm with rfl | rfl
    · exact ⟨rfl, rfl, rfl, rfl, rfl⟩
    · exact ⟨by decide +kernel, by decide +kernel, by decide +kernel, by decide +kernel, by decide +kernel⟩

def joined (ms : List (FCM ℚ)) : FCM ℚ :=
  match joinMaps ms with
  | .ok m => m
  | .error _ => default

theorem joined_eq {ms : List (FCM ℚ)} (h : (joinMaps ms).toOption.isSome = true) : joinMaps ms = .ok (joined ms) := by
  unfold joined
  cases e : joinMaps ms with
  | ok m => rfl
  | error e' => rw [e] at h; cases h

theorem side_join : joinMaps [side1, side2] = .ok (joined [side1, side2]) := joined_eq (by decide +kernel)

example : CleanReachable (joined [side1, side2]) ∧ Configured side1 (joined [side1, side2]) ∧
    (joined [side1, side2]).debug = true :=
  C118_settings (fun m hm => (side_beside.clean m hm).reachable) side_join

/-- d keeps its own function in the joined map. -/
example : ∃ n, (joined [side1, side2]).topology.get? "d" = some n ∧ n.fn.map (·.name) = some "biestate" ∧
    ∃ m nd, Home [side1, side2] "d" m ∧ m.topology.get? "d" = some nd ∧ Becomes side1 m nd n := by
  obtain ⟨n, hn⟩ := Dict.exists_get?_of_mem (show "d" ∈ (joined [side1, side2]).topology.keys by decide +kernel)
  refine ⟨n, hn, ?_, (C118_concepts (fun m hm => (side_beside.clean m hm).reachable) side_join hn).2⟩
  have : ((joined [side1, side2]).topology.get? "d").map (fun n => n.fn.map (·.name)) = some (some "biestate") := by
    decide +kernel
  rw [hn] at this
  exact Option.some.inj this

theorem side_run : ∃ k', FCM.runInference true (joined [side1, side2]) = (.ok (), k') :=
  (C118_returns rat_single side_beside (by decide +kernel) side_join).2 (by
    intro m hm
    simp only [List.mem_cons, List.not_mem_nil, or_false] at hm
    rcases hm with rfl | rfl
    · exact ⟨_, run_eq (by decide +kernel)⟩
    · exact ⟨_, run_eq (by decide +kernel)⟩)

example : ∃ k', FCM.runInference true (joined [side1, side2]) = (.ok (), k') ∧
    k'.traj "c" = (FCM.runInference true side2).2.traj "c" := by
  obtain ⟨k', rk⟩ := side_run
  exact ⟨k', rk, (C118_beside rat_single side_beside (by decide +kernel) side_join rk (m := side2) (by simp)
    (run_eq (by decide +kernel)) (by decide +kernel)).1⟩

example : (FCM.runInference true side1).2.traj "b" <+: (FCM.runInference true (joined [side1, side2])).2.traj "b" :=
  C118_prefix rat_single side_beside side_join (run_eq (by decide +kernel)) (m := side1) (by simp)
    (run_eq (by decide +kernel)) (by decide +kernel)

example : (FCM.runInference true (joined [side1, side2])).2.traj "c" = [0, 1/3, 3/4, 1, 1, 1, 1, 1] := by
  decide +kernel

/-- A single map is just exported and imported. -/
example : ∃ d, side2.toJson = .ok d ∧ joinMaps [side2] = fromJson d ∧ ∃ m, fromJson d = .ok m := by
  have hj : (side2.toJson.toOption.bind fun d => (fromJson d).toOption).isSome = true := by decide +kernel
  cases e : side2.toJson with
  | error x => rw [e] at hj; cases hj
  | ok d =>
    refine ⟨d, rfl, C118_single rat_single side2_clean.reachable e (by decide +kernel)
      (side_beside.names side2 (by simp)) (by simp) (by simp) (by simp), ?_⟩
    cases e2 : fromJson d with
    | error x =>
      rw [e] at hj
      simp only [Except.toOption, Option.bind_some, e2] at hj
      cases hj
    | ok m => exact ⟨m, rfl⟩

end Ex

/-- The condition on the functions is needed: `side3` uses its own map function for all its concepts, and every one of
them silently gets the function of the first map when the two are joined, so that it runs differently. -/
theorem C118_switch : ∃ (m0 m k : FCM ℚ) (c : String), CleanReachable m0 ∧ CleanReachable m ∧ Spec.Disjoint [m0, m] ∧
    SamePace m0 m ∧ joinMaps [m0, m] = .ok k ∧ c ∈ m.topology.keys ∧
    (∃ n, m.topology.get? c = some n ∧ n.fn = some m.mapFn) ∧ (∃ n, k.topology.get? c = some n ∧ n.fn = some m0.mapFn) ∧
    m.mapFn ≠ m0.mapFn ∧ (FCM.runInference true m).1 = .ok () ∧ (FCM.runInference true k).1 = .ok () ∧
    (FCM.runInference true k).2.traj c ≠ (FCM.runInference true m).2.traj c := by
  have h1 : (Ex.side3.topology.get? "c").bind (·.fn) = some Ex.side3.mapFn := by decide +kernel
  have h2 : ((Ex.joined [Ex.side1, Ex.side3]).topology.get? "c").bind (·.fn) = some Ex.side1.mapFn := by decide +kernel
  obtain ⟨n1, a1, b1⟩ := Option.bind_eq_some_iff.1 h1
  obtain ⟨n2, a2, b2⟩ := Option.bind_eq_some_iff.1 h2
  exact ⟨Ex.side1, Ex.side3, Ex.joined [Ex.side1, Ex.side3], "c", Ex.side1_clean, Ex.side3_clean,
    ⟨by decide +kernel, by decide +kernel⟩,
    ⟨by decide +kernel, by decide +kernel, by decide +kernel, by decide +kernel, by decide +kernel⟩,
    Ex.joined_eq (by decide +kernel), by decide +kernel, ⟨n1, a1, b1⟩, ⟨n2, a2, b2⟩, by decide +kernel, by decide +kernel,
    by decide +kernel, by decide +kernel⟩

end PyFCM
