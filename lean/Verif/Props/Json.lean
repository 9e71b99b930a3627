import Verif.Lemmas.Load
import Verif.Lemmas.Dress
import Verif.Spec.Document
import Verif.Props.State
import Verif.Examples
/-
C28, C29: the JSON form of a map.
-/
namespace PyFCM
open Arith Spec

set_option linter.unusedSectionVars false

section
variable {α : Type} [Arith α]

/-! ### C29 -/

/-- Every error of `from_json` carries the prefix. -/
theorem C29_error {d : MapDesc α} {e : Err} (h : fromJson d = .error e) :
    ∃ s, e = .exc ("Cannot load json data due: " ++ s) := by
  unfold fromJson at h
  split at h
  · cases h
  · cases h; exact ⟨_, rfl⟩

theorem fromJson_ok {d : MapDesc α} {m : FCM α} (h : fromJson d = .ok m) :
    ∃ mi df mem af m0 cs rs m1, d.maxIter = some mi ∧ d.decisionFunction = some df ∧ d.memoryInfluence = some mem ∧
      d.activationFunction = some af ∧
      FCM.new (maxIt := mi) (extraSteps := d.extraSteps.getD 5) (stabilize := d.stopAtStabilize.getD true)
        (stabilityDiff := d.stabilityDiff.getD (dec 1 1000)) (decision := df) (memInfluence := mem)
        (activation := af) (kwargs := d.activationFunctionArgs.getD []) = .ok m0 ∧
      d.concepts = some cs ∧ d.relations = some rs ∧
      loadConcepts cs { m0 with weight := d.weight.getD (lit 1) } = .ok m1 ∧ loadRelations rs m1 = .ok m := by
  unfold fromJson at h
  split at h
  · rename_i m' hb
    cases h
    unfold fromJsonBody at hb
    obtain ⟨mi, h1, hb⟩ := exc_bind hb
    obtain ⟨df, h2, hb⟩ := exc_bind hb
    obtain ⟨mem, h3, hb⟩ := exc_bind hb
    obtain ⟨af, h4, hb⟩ := exc_bind hb
    obtain ⟨m0, h5, hb⟩ := exc_bind hb
    obtain ⟨cs, h6, hb⟩ := exc_bind hb
    obtain ⟨m1, h7, hb⟩ := exc_bind hb
    obtain ⟨rs, h8, hb⟩ := exc_bind hb
    exact ⟨mi, df, mem, af, m0, cs, rs, m1, need_some h1, need_some h2, need_some h3, need_some h4, h5, need_some h6,
      need_some h8, h7, hb⟩
  · cases h

theorem new_ok {maxIt extra : Int} {stab : Bool} {diff : α} {dec : String} {mem : Bool} {act : String} {kwargs : Args α}
    {m : FCM α} (h : FCM.new maxIt extra stab diff dec mem act kwargs = .ok m) :
    ∃ df af, Decision.getByName dec = some df ∧ Activation.getFunctionByName act = some af ∧
      m = { topology := [], arcList := [], execution := [], stopAtStabilize := stab, maxIter := maxIt,
            extraSteps := if extra > 0 then extra.toNat else 1, stabilityDiff := diff, decisionFn := df,
            decisionName := dec, memInfluence := mem, mapFn := ⟨af, act, kwargs⟩, iterations := 1, weight := lit 1,
            default := stdDefault mem ⟨af, act, kwargs⟩, debug := true, fitInclination := none, prepared := false,
            cache := ⟨[], [], [], [], [], []⟩, stateVector := [] } := by
  unfold FCM.new at h
  split at h
  · cases h
  · rename_i df hdf
    split at h
    · cases h
    · rename_i af haf
      cases h
      exact ⟨df, af, hdf, haf, rfl⟩

/-- A loaded map has the documented concepts in order (the last description of an id counts), the listed relations
between known concepts in order, and the given or default settings. -/
theorem C29_built {d : MapDesc α} {m : FCM α} (h : fromJson d = .ok m) :
    ∃ cs rs, d.concepts = some cs ∧ d.relations = some rs ∧ Settings d m ∧
      m.topology.keys = (cs.map (·.id)).eraseDups ∧
      m.arcList = (rs.filter fun r => r.origin ∈ cs.map (·.id) ∧ r.destiny ∈ cs.map (·.id)).map
        (fun r => ⟨r.destiny, r.weight, r.origin⟩) ∧
      (∀ pre c post, cs = pre ++ c :: post → (∀ x ∈ post, x.id ≠ c.id) → ∃ n, m.topology.get? c.id = some n ∧
        Says m.memInfluence m.mapFn c n ∧ m.execution.get? c.id = some [n.value]) ∧
      ∀ c ∈ cs, m.outgoingRelations c.id =
        (rs.filter fun r => r.origin = c.id ∧ r.destiny ∈ cs.map (·.id)).map fun r => (r.destiny, r.weight) := by
  obtain ⟨mi, df, mem, af, m0, cs, rs, m1, h1, h2, h3, h4, h5, h6, h7, h8, h9⟩ := fromJson_ok h
  obtain ⟨df', af', hdf, haf, e0⟩ := new_ok h5
  have hd0 : ({ m0 with weight := d.weight.getD (lit 1) } : FCM α).default =
      stdDefault m0.memInfluence m0.mapFn := by rw [e0]
  have ht0 : ({ m0 with weight := d.weight.getD (lit 1) } : FCM α).topology = [] := by rw [e0]
  have hL := loadConcepts_ok hd0 ht0 h8
  have hf1 : m1.fitInclination = none := by rw [hL.eq, e0]
  rw [loadRelations_ok hf1] at h9
  cases h9
  have hA := addAll_added hf1 (rs.map fun r => (r.origin, r.destiny, r.weight))
  have harc1 : m1.arcList = [] := by rw [hL.eq, e0]
  have hLk1 : Linked m1 := by
    intro c n hn
    obtain ⟨k1, k2⟩ := hL.plain c n hn
    rw [harc1]
    exact ⟨k1, k2⟩
  have hLk := addAll_linked hf1 hLk1 (rs.map fun r => (r.origin, r.destiny, r.weight))
  generalize addAll (rs.map fun r => (r.origin, r.destiny, r.weight)) m1 = m at h hA hLk ⊢
  have hknow : ∀ r : RelDesc α, m1.knows (r.origin, r.destiny, r.weight) =
      decide (r.origin ∈ cs.map (·.id) ∧ r.destiny ∈ cs.map (·.id)) := by
    intro r
    rw [Bool.eq_iff_iff, FCM.knows, Bool.and_eq_true, Dict.has_iff, Dict.has_iff, hL.keys, List.mem_eraseDups,
      List.mem_eraseDups, decide_eq_true_iff]
    exact And.comm
  have harcs : m.arcList = (rs.filter fun r => r.origin ∈ cs.map (·.id) ∧ r.destiny ∈ cs.map (·.id)).map
        (fun r => ⟨r.destiny, r.weight, r.origin⟩) := by
    rw [hA.arcs, harc1, List.nil_append, List.filter_map, List.map_map]
    congr 1
    apply List.filter_congr
    intro r _
    exact hknow r
  have hkeys : m.topology.keys = (cs.map (·.id)).eraseDups := by rw [hA.keys, hL.keys]
  have em : m.memInfluence = m0.memInfluence := by rw [hA.eq, hL.eq]
  have ef : m.mapFn = m0.mapFn := by rw [hA.eq, hL.eq]
  refine ⟨cs, rs, h6, h7, ?_, hkeys, harcs, ?_, ?_⟩
  · constructor
    · rw [h1, hA.eq, hL.eq, e0]
    · rw [h2, hA.eq, hL.eq, e0]
    · rw [h4, hA.eq, hL.eq, e0]
    · rw [hA.eq, hL.eq, e0]
    · rw [h3, hA.eq, hL.eq, e0]
    · rw [hA.eq, hL.eq, e0]
    · rw [hA.eq, hL.eq, e0]
    · rw [hA.eq, hL.eq, e0]
      dsimp only
      split <;> omega
    · rw [hA.eq, hL.eq]
  · intro pre c post e hpost
    obtain ⟨ty, g, f, custom, vect, hacc, hget, hexe⟩ := hL.node pre c post e hpost
    obtain ⟨n', hn', en⟩ := hA.node _ _ hget
    refine ⟨n', hn', ?_, ?_⟩
    · rw [em, ef]
      have hty : n'.type = some (if ty = "DECISION" then TYPE_DECISION else TYPE_SIMPLE) := by rw [en]; rfl
      have hne : TYPE_DECISION ≠ TYPE_SIMPLE := by decide
      have hfn : n'.fn = some f := by rw [en]; rfl
      have hch := hacc.chosen
      constructor
      · rw [en]; rfl
      · rw [en]; rfl
      · rw [hty, hacc.type]
        by_cases hx : ty = "DECISION" <;> simp [hx, hne.symm]
      · rw [hty, hacc.type]
        by_cases hx : ty = "DECISION" <;> simp [hx, hne]
      · rw [en]; rfl
      · rw [en]; rfl
      · intro g hd hg
        obtain ⟨-, k2, k3, -⟩ := hch.named hd g hg
        exact ⟨f, hfn, k2, k3⟩
      · intro hd hg
        rw [hfn, (hch.other hd hg).1]
      · intro a ha
        rw [hfn, (hch.dict a ha).1]
    · have : m.execution = m1.execution := by rw [hA.eq]
      rw [this, hexe]
      rw [en]; rfl
  · intro c hc
    have hmem : c.id ∈ m.topology.keys := by
      rw [hkeys, List.mem_eraseDups]; exact List.mem_map_of_mem hc
    obtain ⟨n, hn⟩ := Dict.exists_get?_of_mem hmem
    have := (hLk c.id n hn).1
    unfold FCM.outgoingRelations
    rw [hn]
    simp only
    rw [this, harcs, outOf, List.filter_map, List.map_map, List.filter_filter]
    have hcid : c.id ∈ cs.map (·.id) := List.mem_map_of_mem hc
    congr 1
    apply List.filter_congr
    intro r _
    simp only [Function.comp_apply]
    rw [Bool.eq_iff_iff]
    simp only [Bool.and_eq_true, decide_eq_true_iff]
    constructor
    · rintro ⟨k1, k2, k3⟩; exact ⟨k1, k3⟩
    · rintro ⟨k1, k3⟩; exact ⟨k1, by rw [k1]; exact hcid, k3⟩

/-- Which documents are accepted. -/
theorem fromJson_eq {d : MapDesc α} {mi : Int} {df : String} {mem : Bool} {af : String} {m0 : FCM α}
    {cs : List (ConceptDesc α)} {rs : List (RelDesc α)} {m1 : FCM α} (h1 : d.maxIter = some mi)
    (h2 : d.decisionFunction = some df) (h3 : d.memoryInfluence = some mem) (h4 : d.activationFunction = some af)
    (h5 : FCM.new (maxIt := mi) (extraSteps := d.extraSteps.getD 5) (stabilize := d.stopAtStabilize.getD true)
        (stabilityDiff := d.stabilityDiff.getD (dec 1 1000)) (decision := df) (memInfluence := mem)
        (activation := af) (kwargs := d.activationFunctionArgs.getD []) = .ok m0)
    (h6 : d.concepts = some cs) (h7 : d.relations = some rs)
    (h8 : loadConcepts cs { m0 with weight := d.weight.getD (lit 1) } = .ok m1) (hf : m1.fitInclination = none) :
    fromJson d = .ok (addAll (rs.map fun r => (r.origin, r.destiny, r.weight)) m1) := by
  unfold fromJson
  have : fromJsonBody d = .ok (addAll (rs.map fun r => (r.origin, r.destiny, r.weight)) m1) := by
    unfold fromJsonBody
    simp only [h1, h2, h3, h4, h6, h7, need, bind, Except.bind]
    rw [h5]
    simp only [h8]
    exact loadRelations_ok hf rs
  rw [this]

/-! ### C28 -/

/-- JSON can express the arguments: no numpy arrays. -/
def Writable (a : Args α) : Prop := ∀ p ∈ a, ∀ xs, p.2 ≠ .arr xs

theorem Writable.json {a : Args α} (h : Writable a) : jsonArgs a = .ok a := by
  unfold jsonArgs
  rw [if_neg]
  simp only [List.any_eq_true, not_exists, not_and]
  intro p hp
  have := h p hp
  rcases hx : p.2 with x | x | x | x
  · simp
  · exact absurd hx (this x)
  · simp
  · simp

/-- The concepts for which the round trip works: active, simple or decision, KOSKO excitation, the map's memory flag,
and the map's activation function or another non-fuzzy one (with a different name). -/
structure Plain (m : FCM α) (n : Node α) : Prop where
  active : n.active = true
  exec : n.exec = some (.kosko, "KOSKO")
  type : n.type = some TYPE_SIMPLE ∨ n.type = some TYPE_DECISION
  notFuzzy : n.fuzzyAct = none ∧ n.fuzzyMin = none ∧ n.fuzzyMax = none
  memory : n.useMem = some m.memInfluence
  fn : ∃ f, n.fn = some f ∧ f.name ≠ "fuzzy" ∧ Writable f.args ∧
    ((f = m.mapFn ∧ n.useMapFunc = some true) ∨ (f.name ≠ m.mapFn.name ∧ n.useMapFunc = some false))

/-- What remains of a map after export and import: everything but the running state (trajectories, caches) and the
settings that the document does not contain. -/
def FCM.reloaded (m : FCM α) : FCM α :=
  { m with
    topology := m.topology.map fun p => (p.1, { p.2 with aux := [] })
    execution := m.topology.map fun p => (p.1, [p.2.value])
    iterations := 1, prepared := false, cache := ⟨[], [], [], [], [], []⟩, stateVector := []
    default := stdDefault m.memInfluence m.mapFn, debug := true, fitInclination := none }

/-- A plain concept is described and read back as it was. -/
theorem plain_desc {m : FCM α} {name : String} {n : Node α} (hp : Plain m n) (hg : n.Good) (hok : n.Ok) :
    ∃ c, conceptToJson m name n = .ok c ∧ c.id = name ∧ ∃ ty f custom vect,
      Accepts m.mapFn c ty .kosko f custom vect ∧
      loadedNode m.memInfluence c ty .kosko f custom vect = { n with arcs := [], aux := [], actvSum := lit 0 } := by
  obtain ⟨h1, h2, h3, ⟨h4, h5, h6⟩, h7, f, h8, h9, h10, h11⟩ := hp
  obtain ⟨ty, hty, htn⟩ : ∃ ty, n.type = some ty ∧
      (if typeName ty = "DECISION" then TYPE_DECISION else TYPE_SIMPLE) = ty := by
    rcases h3 with h | h
    · exact ⟨_, h, by decide⟩
    · exact ⟨_, h, by decide⟩
  obtain ⟨vect, hv⟩ : ∃ v, n.argsVect = some v := Option.isSome_iff_exists.1 hg.full.argsVect
  have hvect := hg.vect f vect h8 hv
  have hfok := hok.fn f h8
  by_cases hn : f.name = m.mapFn.name
  · have hf : f = m.mapFn ∧ n.useMapFunc = some true := by
      rcases h11 with h | h
      · exact h
      · exact absurd hn h.1
    refine ⟨{ id := name, isActive := some n.active, type := some (typeName ty), activation := some n.value }, ?_, rfl,
      typeName ty, f, false, vect, ⟨rfl, rfl, ⟨(fun _ h => nomatch h), (fun _ _ h => nomatch h), fun _ _ => ⟨hf.1, rfl⟩, hvect⟩, .inr h9⟩, ?_⟩
    · unfold conceptToJson
      simp only [hty, h7, h8, need, bind, Except.bind, hn, ne_eq, not_true_eq_false, if_false, pure, Except.pure]
    · obtain ⟨a1, a2, a3, a4, a5, a6, a7, a8, a9, a10, a11, a12, a13, a14⟩ := n
      simp only at *
      subst h1 h2 h4 h5 h6 h7 h8 hv hty
      simp [loadedNode, htn, hf.2]
  · have hf : n.useMapFunc = some false := by
      rcases h11 with h | h
      · exact absurd (by rw [h.1]) hn
      · exact h.2
    refine ⟨{ id := name, isActive := some n.active, type := some (typeName ty), activation := some n.value,
              customFunction := some f.name, customFunctionArgs := if f.args = [] then none else some f.args }, ?_, rfl,
      typeName ty, f, true, vect, ⟨rfl, rfl, ⟨(fun _ h => nomatch h), ?_, (fun _ h => nomatch h), hvect⟩, .inr h9⟩, ?_⟩
    · unfold conceptToJson
      simp only [hty, h7, h8, need, bind, Except.bind, hn, h9, ne_eq, not_true_eq_false, not_false_eq_true, if_true,
        if_false, pure, Except.pure]
      by_cases hl : f.args = []
      · simp [hl]
      · simp [List.length_pos_iff.2 hl, h10.json, hl]
    · intro _ g hg
      cases hg
      refine ⟨hfok, rfl, ?_, rfl⟩
      simp only [ConceptDesc.toArgs]
      by_cases hl : f.args = []
      · simp [hl]
      · simp [hl]
    · obtain ⟨a1, a2, a3, a4, a5, a6, a7, a8, a9, a10, a11, a12, a13, a14⟩ := n
      simp only at *
      subst h1 h2 h4 h5 h6 h7 h8 hv hty
      simp [loadedNode, htn, hf]

theorem Dict.set_new {β : Type} {d : Dict β} {k : String} {v : β} (h : k ∉ d.keys) : d.set k v = d ++ [(k, v)] := by
  induction d with
  | nil => rfl
  | cons p d ih =>
    obtain ⟨k', v'⟩ := p
    simp only [Dict.keys_cons, List.mem_cons, not_or] at h
    simp only [Dict.set, if_neg (Ne.symm h.1), List.cons_append]
    rw [ih h.2]

/-- A list of plain concepts read into an empty map. -/
theorem load_plain {m : FCM α} (hm : CleanInv m) (hp : ∀ c n, m.topology.get? c = some n → Plain m n) {m0 : FCM α}
    (e1 : m0.memInfluence = m.memInfluence) (e2 : m0.mapFn = m.mapFn)
    (e3 : m0.default = stdDefault m.memInfluence m.mapFn) (e4 : m0.prepared = false) :
    ∀ (rest pre : List (String × Node α)), m.topology = pre ++ rest →
      ∃ cs, rest.mapM (fun p => conceptToJson m p.1 p.2) = .ok cs ∧
        loadConcepts cs { m0 with
            topology := pre.map fun p => (p.1, { p.2 with arcs := [], aux := [], actvSum := lit 0 })
            execution := pre.map fun p => (p.1, [p.2.value]) } =
          .ok { m0 with
            topology := m.topology.map fun p => (p.1, { p.2 with arcs := [], aux := [], actvSum := lit 0 })
            execution := m.topology.map fun p => (p.1, [p.2.value]) } := by
  intro rest
  induction rest with
  | nil =>
    intro pre h
    rw [List.append_nil] at h
    rw [← h]
    exact ⟨[], rfl, rfl⟩
  | cons p rest ih =>
    intro pre h
    obtain ⟨name, n⟩ := p
    have hmem : (name, n) ∈ m.topology := by rw [h]; simp
    have hget := Dict.get?_of_mem hm.inv.tnd hmem
    obtain ⟨c, h1, rfl, ty, f, custom, vect, hacc, hnode⟩ :=
      plain_desc (name := name) (hp _ _ hget) (hm.good _ _ hget) (hm.inv.nodes _ _ hget)
    obtain ⟨cs, h2, h3⟩ := ih (pre ++ [(c.id, n)]) (by rw [h]; simp)
    refine ⟨c :: cs, by rw [List.mapM_cons, h1, h2]; rfl, ?_⟩
    have hnew : c.id ∉ pre.map (·.1) := by
      have := hm.inv.tnd
      rw [h, Dict.keys, List.map_append, List.nodup_append] at this
      exact fun hin => this.2.2 _ hin c.id (by simp) rfl
    have hl := loadConcept_eq (m := { m0 with
            topology := pre.map fun p => (p.1, { p.2 with arcs := [], aux := [], actvSum := lit 0 })
            execution := pre.map fun p => (p.1, [p.2.value]) }) (c := c) (ty := ty) (g := .kosko) (f := f)
            (custom := custom) (vect := vect) (by rw [e1, e2]; exact e3) (by rw [e2]; exact hacc)
    simp only [loadConcepts, hl, bind, Except.bind]
    rw [← h3]
    congr 1
    simp only [FCM.withNode, e1, hnode]
    rw [Dict.set_new, Dict.set_new]
    · simp [e4]
    · simpa [Dict.keys, Function.comp_def] using hnew
    · simpa [Dict.keys, Function.comp_def] using hnew

theorem addRelation_prepared (m : FCM α) (o d : String) (w : α) : (FCM.addRelation o d w m).2.prepared = false := by
  unfold FCM.addRelation
  dsimp only
  split
  · split
    · rfl
    · split
      · rfl
      · split <;> rfl
  · rfl

theorem addAll_prepared {m : FCM α} (h : m.prepared = false) (rs : List (String × String × α)) :
    (addAll rs m).prepared = false := by
  induction rs generalizing m with
  | nil => exact h
  | cons r rs ih => exact ih (addRelation_prepared m r.1 r.2.1 r.2.2)

/-- The round trip for maps of plain concepts whose history neither raised nor re-added a concept. -/
theorem C28_roundtrip_partial {m : FCM α} (hr : CleanReachable m) (hc : CarefulReachable m)
    (hw : Writable m.mapFn.args) (hp : ∀ c n, m.topology.get? c = some n → Plain m n) :
    ∃ d, m.toJson = .ok d ∧ fromJson d = .ok m.reloaded := by
  have hm := hr.clean
  have hl := hc.linked.2
  obtain ⟨m0, hnew⟩ : ∃ m0, FCM.new (maxIt := m.maxIter) (extraSteps := (m.extraSteps : Int))
      (stabilize := m.stopAtStabilize) (stabilityDiff := m.stabilityDiff) (decision := m.decisionName)
      (memInfluence := m.memInfluence) (activation := m.mapFn.name) (kwargs := m.mapFn.args) = .ok m0 := by
    unfold FCM.new
    rw [hm.inv.dec]
    have := hm.inv.mapFn
    unfold FnInfo.Ok at this
    rw [this]
    exact ⟨_, rfl⟩
  obtain ⟨df, af, hdf, haf, e0⟩ := new_ok hnew
  rw [hm.inv.dec] at hdf
  cases hdf
  have haf' := hm.inv.mapFn
  unfold FnInfo.Ok at haf'
  rw [haf'] at haf
  cases haf
  have hex : (if (m.extraSteps : Int) > 0 then (m.extraSteps : Int).toNat else 1) = m.extraSteps := by
    have := hm.inv.extra
    rw [if_pos (by omega)]
    omega
  rw [hex] at e0
  obtain ⟨cs, hcs, hload⟩ := load_plain hm hp (m0 := { m0 with weight := m.weight }) (by rw [e0]) (by rw [e0])
    (by rw [e0]) (by rw [e0]) m.topology [] rfl
  have hj := toJson_eq hcs hw.json
  refine ⟨_, hj, ?_⟩
  have hargs : (if m.mapFn.args = [] then (none : Option (Args α)) else some m.mapFn.args).getD [] = m.mapFn.args := by
    by_cases h : m.mapFn.args = []
    · rw [if_pos h, h]; rfl
    · rw [if_neg h]; rfl
  have hbase : ({ m0 with weight := m.weight, topology := [], execution := [] } : FCM α) = { m0 with weight := m.weight } := by
    rw [e0]
  simp only [List.map_nil] at hload
  rw [hbase] at hload
  generalize hm1 : ({ m0 with
            weight := m.weight
            topology := m.topology.map fun p => (p.1, { p.2 with arcs := [], aux := [], actvSum := lit 0 })
            execution := m.topology.map fun p => (p.1, [p.2.value]) } : FCM α) = m1 at hload
  have hf1 : m1.fitInclination = none := by rw [← hm1, e0]
  rw [fromJson_eq (d := docOf m cs (if m.mapFn.args = [] then none else some m.mapFn.args)) (m0 := m0) rfl rfl rfl rfl
    (by simp only [docOf, Option.getD_some, hargs]; exact hnew) rfl rfl (by simp only [docOf, Option.getD_some]; exact hload)
    hf1]
  congr 1
  rw [List.map_map]
  have harc1 : m1.arcList = [] := by rw [← hm1, e0]
  have hkeys1 : m1.topology.keys = m.topology.keys := by
    rw [← hm1]; simp [Dict.keys, Function.comp_def]
  have hget1 : ∀ c, m1.topology.get? c =
      (m.topology.get? c).map fun n => { n with arcs := [], aux := [], actvSum := lit 0 } := by
    intro c
    rw [← hm1]
    dsimp only
    generalize m.topology = t
    induction t with
    | nil => rfl
    | cons p t ih =>
      obtain ⟨k, n⟩ := p
      simp only [List.map_cons, Dict.get?_cons, ih]
      split <;> rfl
  have hLk1 : Linked m1 := by
    intro c n hn
    rw [hget1] at hn
    obtain ⟨n0, -, rfl⟩ := Option.map_eq_some_iff.1 hn
    rw [harc1]
    exact ⟨rfl, rfl⟩
  have hA := addAll_added hf1 (m.arcList.map ((fun r : RelDesc α => (r.origin, r.destiny, r.weight)) ∘
    fun a => ⟨a.origin, a.dest, a.weight⟩))
  have hLk := addAll_linked hf1 hLk1 (m.arcList.map ((fun r : RelDesc α => (r.origin, r.destiny, r.weight)) ∘
    fun a => ⟨a.origin, a.dest, a.weight⟩))
  have hprep := addAll_prepared (by rw [← hm1, e0]) (m.arcList.map
    ((fun r : RelDesc α => (r.origin, r.destiny, r.weight)) ∘ fun a => ⟨a.origin, a.dest, a.weight⟩)) (m := m1)
  generalize addAll (m.arcList.map ((fun r : RelDesc α => (r.origin, r.destiny, r.weight)) ∘
    fun a => ⟨a.origin, a.dest, a.weight⟩)) m1 = m2 at hA hLk hprep ⊢
  have harcs : m2.arcList = m.arcList := by
    rw [hA.arcs, harc1, List.nil_append, List.filter_eq_self.2, List.map_map]
    · simp [Function.comp_def]
    · intro r hr
      obtain ⟨a, ha, rfl⟩ := List.mem_map.1 hr
      have := hm.inv.ends a ha
      simp only [FCM.knows, Function.comp_apply, Bool.and_eq_true, Dict.has_iff, hkeys1]
      exact ⟨this.2, this.1⟩
  have htop : m2.topology = m.topology.map fun p => (p.1, { p.2 with aux := [] }) := by
    have hkk : Dict.keys (m.topology.map fun p => (p.1, ({ p.2 with aux := [] } : Node α))) = m.topology.keys := by
      simp [Dict.keys, Function.comp_def]
    apply Dict.ext_get?
    · rw [hA.keys, hkeys1, hkk]
    · rw [hA.keys, hkeys1]; exact hm.inv.tnd
    · intro c
      by_cases hcm : c ∈ m.topology.keys
      case neg =>
        rw [(Dict.get?_eq_none_iff _ _).2 (by rw [hA.keys, hkeys1]; exact hcm),
          (Dict.get?_eq_none_iff _ _).2 (by rw [hkk]; exact hcm)]
      obtain ⟨n, hn⟩ := Dict.exists_get?_of_mem hcm
      have h1 : m1.topology.get? c = some { n with arcs := [], aux := [], actvSum := lit 0 } := by
        rw [hget1, hn]; rfl
      obtain ⟨n', hn', en⟩ := hA.node c _ h1
      have h2 := hLk c n' hn'
      have h3 := hl c n hn
      rw [harcs] at h2
      have h4 : Dict.get? (m.topology.map fun p => (p.1, ({ p.2 with aux := [] } : Node α))) c =
          some { n with aux := [] } := by
        have : ∀ t : Dict (Node α), Dict.get? (t.map fun p => (p.1, ({ p.2 with aux := [] } : Node α))) c =
            (t.get? c).map fun n => { n with aux := [] } := by
          intro t
          induction t with
          | nil => rfl
          | cons p t ih =>
            obtain ⟨k, n⟩ := p
            simp only [List.map_cons, Dict.get?_cons, ih]
            split <;> rfl
        rw [this, hn]; rfl
      rw [hn', h4]
      congr 1
      have e1 : n'.actvSum = n.actvSum := by rw [h2.2, h3.2]
      have e2 : n'.arcs = n.arcs := by rw [h2.1, h3.1]
      cases n
      cases n'
      simp only [Node.mk.injEq] at en e1 e2 ⊢
      simp_all
  have he := hA.eq
  rw [htop, harcs, hprep] at he
  rw [he, ← hm1, e0]
  rfl

/-- A map that has not run since its concepts were initialised runs to the same result before and after the round
trip, with either engine (`debug`, not part of the document, being set alike). -/
theorem C28_runs_partial {m : FCM α} (hr : CleanReachable m) (hc : CarefulReachable m)
    (hw : Writable m.mapFn.args) (hp : ∀ c n, m.topology.get? c = some n → Plain m n)
    (haux : ∀ p ∈ m.topology, p.2.aux = []) (hexe : m.execution = m.topology.map fun p => (p.1, [p.2.value]))
    (hprep : m.debug = true ∨ m.prepared = false) (r : Bool) :
    ∃ d m', m.toJson = .ok d ∧ fromJson d = .ok m' ∧
      SameResult (FCM.runInference r m) (FCM.runInference r { m' with debug := m.debug }) := by
  obtain ⟨d, h1, h2⟩ := C28_roundtrip_partial hr hc hw hp
  refine ⟨d, m.reloaded, h1, h2, run_same ?_ ?_ r⟩
  · refine ⟨?_, rfl, hexe.symm, rfl, rfl, rfl, rfl, rfl, rfl⟩
    show m.topology.map _ = m.topology
    conv => rhs; rw [← List.map_id m.topology]
    apply List.map_congr_left
    intro p hpm
    have := haux p hpm
    obtain ⟨k, n⟩ := p
    simp only at this ⊢
    rw [← this]
    rfl
  · rcases hprep with h | h
    · exact .inl h
    · exact .inr ⟨h, rfl⟩

theorem mapM_ok_mem {β γ : Type} {f : β → Except Err γ} {xs : List β} {ys : List γ} (h : xs.mapM f = .ok ys) {y : γ}
    (hy : y ∈ ys) : ∃ x ∈ xs, f x = .ok y := by
  induction xs generalizing ys with
  | nil => cases h; cases hy
  | cons x xs ih =>
    obtain ⟨z, zs, h1, h2, rfl⟩ := mapM_ok_cons h
    rcases List.mem_cons.1 hy with rfl | hy
    · exact ⟨x, by simp, h1⟩
    · obtain ⟨x', hx', e⟩ := ih h2 hy
      exact ⟨x', by simp [hx'], e⟩

theorem mapM_ok_image {β γ : Type} {f : β → Except Err γ} {xs : List β} {ys : List γ} (h : xs.mapM f = .ok ys) {x : β}
    (hx : x ∈ xs) : ∃ y ∈ ys, f x = .ok y := by
  induction xs generalizing ys with
  | nil => cases hx
  | cons x' xs ih =>
    obtain ⟨z, zs, h1, h2, rfl⟩ := mapM_ok_cons h
    rcases List.mem_cons.1 hx with rfl | hx
    · exact ⟨z, by simp, h1⟩
    · obtain ⟨y, hy, e⟩ := ih h2 hx
      exact ⟨y, by simp [hy], e⟩

/-- What every round trip forgets: inactivity, excitation, memory flags and fuzzy / regression types. -/
theorem C28_forgets {m m' : FCM α} {d : MapDesc α} (h : m.toJson = .ok d) (h' : fromJson d = .ok m') {c : String}
    {n' : Node α} (hn : m'.topology.get? c = some n') :
    n'.active = true ∧ n'.exec.map (·.2) = some "KOSKO" ∧ n'.useMem = some m.memInfluence ∧
      (n'.type = some TYPE_SIMPLE ∨ n'.type = some TYPE_DECISION) := by
  obtain ⟨cs, hcs, rfl, -⟩ := toJson_ok h
  obtain ⟨cs', rs, h1, h2, hset, hkeys, -, hsays, -⟩ := C29_built h'
  cases h1
  have hmem : c ∈ (cs.map (·.id)).eraseDups := by rw [← hkeys]; exact Dict.mem_keys_of_get? hn
  rw [List.mem_eraseDups] at hmem
  obtain ⟨pre, x, post, e, rfl, hpost⟩ : ∃ pre x post, cs = pre ++ x :: post ∧ x.id = c ∧ ∀ y ∈ post, y.id ≠ x.id := by
    clear hcs hsays hkeys hset h' h h2
    induction cs with
    | nil => cases hmem
    | cons y cs ih =>
      by_cases hin : c ∈ cs.map (·.id)
      · obtain ⟨pre, x, post, e1, e2, e3⟩ := ih hin
        exact ⟨y :: pre, x, post, by rw [e1]; rfl, e2, e3⟩
      · simp only [List.map_cons, List.mem_cons] at hmem
        rcases hmem with rfl | hmem
        · exact ⟨[], y, cs, rfl, rfl, fun z hz e => hin (by rw [← e]; exact List.mem_map_of_mem hz)⟩
        · exact absurd hmem hin
  obtain ⟨n, hn2, hs, -⟩ := hsays pre x post e hpost
  rw [hn] at hn2
  cases hn2
  have hdesc : x.active = none ∧ x.exitationFunction = none ∧ x.memoryInfluence = none := by
    obtain ⟨p, -, hy⟩ := mapM_ok_mem hcs (show x ∈ cs by rw [e]; simp)
    obtain ⟨_, _, _, -, -, -, _, _, _, e, -⟩ := conceptToJson_ok hy
    rw [e]
    exact ⟨rfl, rfl, rfl⟩
  obtain ⟨d1, d2, d3⟩ := hdesc
  have hmemI : m'.memInfluence = m.memInfluence := by
    have : some m.memInfluence = some m'.memInfluence := hset.memory
    exact (Option.some.inj this).symm
  refine ⟨by rw [hs.active, d1]; rfl, by rw [hs.exec, d2]; rfl, by rw [hs.memory, d3, hmemI]; rfl, ?_⟩
  by_cases hd : x.type = some "DECISION"
  · exact .inr (hs.decision.2 hd)
  · exact .inl (hs.simple.2 hd)

/-- The export of a map with a fuzzy concept cannot be imported. -/
theorem C28_fuzzy {m : FCM α} {d : MapDesc α} (h : m.toJson = .ok d) {p : String × Node α} (hp : p ∈ m.topology)
    {f : FnInfo α} (hf : p.2.fn = some f) (hfz : f.name = "fuzzy") (hi : Inv m) : ∃ e, fromJson d = .error e := by
  cases hj : fromJson d with
  | error e => exact ⟨e, rfl⟩
  | ok m' =>
    exfalso
    obtain ⟨cs, hcs, rfl, -⟩ := toJson_ok h
    obtain ⟨mi, df, mem, af, m0, cs', rs, m1, h1, h2, h3, h4, h5, h6, h7, h8, -⟩ := fromJson_ok hj
    cases h6
    obtain ⟨df', af', hdf, haf, e0⟩ := new_ok h5
    have hL := loadConcepts_ok (by rw [e0]) (by rw [e0]) h8
    have hkeys : cs.map (·.id) = m.topology.keys := by
      obtain ⟨cs2, e1, e2⟩ := toJson_concepts h
      cases e1; exact e2
    have hnd : (cs.map (·.id)).Nodup := by rw [hkeys]; exact hi.tnd
    obtain ⟨x, hx, hxj⟩ := mapM_ok_image hcs hp
    obtain ⟨pre, post, e⟩ := List.append_of_mem hx
    have hpost : ∀ y ∈ post, y.id ≠ x.id := by
      intro y hy he
      rw [e, List.map_append, List.map_cons, List.nodup_append, List.nodup_cons] at hnd
      exact hnd.2.1.1 (by rw [← he]; exact List.mem_map_of_mem hy)
    obtain ⟨ty, g, f', custom, vect, hacc, -, -⟩ := hL.node pre x post e hpost
    obtain ⟨_, _, f2, -, -, hf2, cf, ca, ad, ex, hcase⟩ := conceptToJson_ok hxj
    rw [hf] at hf2
    cases hf2
    have hval := hacc.value
    rw [ex] at hval
    rcases hval with hval | hval
    · cases hval
    rcases hcase with ⟨hn, rfl, rfl, rfl⟩ | ⟨-, rfl, -, rfl, fa, -, rfl⟩ | ⟨-, -, hnf, -⟩
    · have hch := hacc.chosen.other (by rw [ex]) (by rw [ex]; rfl)
      apply hval
      rw [hch.1, e0]
      show af = "fuzzy"
      rw [← hfz, hn]
      have : some m.mapFn.name = some af := h4
      cases this; rfl
    · have hch := hacc.chosen.dict _ (by rw [ex])
      exact hval (by rw [hch.1])
    · exact hnf hfz

end

/-- The full claim (about the properties of concepts). -/
def C28_full (α : Type) [Arith α] : Prop :=
  ∀ (m : FCM α) (d : MapDesc α), CleanReachable m → m.toJson = .ok d → ∃ m', fromJson d = .ok m' ∧
    ∀ c n, m.topology.get? c = some n → ∃ n', m'.topology.get? c = some n' ∧ n'.active = n.active ∧ n'.type = n.type ∧
      n'.exec = n.exec ∧ n'.useMem = n.useMem ∧ n'.fn = n.fn

namespace Ex

def plainB (m : FCM ℚ) (n : Node ℚ) : Bool :=
  n.active && n.exec = some (.kosko, "KOSKO") && (n.type = some TYPE_SIMPLE || n.type = some TYPE_DECISION) &&
  n.fuzzyAct = none && n.fuzzyMin = none && n.fuzzyMax = none && n.useMem = some m.memInfluence &&
  (match n.fn with
   | none => false
   | some f => f.name ≠ "fuzzy" && f.args.all (fun p => match p.2 with | .arr _ => false | _ => true) &&
     ((f = m.mapFn && n.useMapFunc = some true) || (f.name ≠ m.mapFn.name && n.useMapFunc = some false)))

theorem plain_of {m : FCM ℚ} (h : m.topology.all (fun p => plainB m p.2) = true) {c : String} {n : Node ℚ}
    (hn : m.topology.get? c = some n) : Plain m n := by
  have := List.all_eq_true.1 h _ (Dict.get?_mem hn)
  unfold plainB at this
  simp only [Bool.and_eq_true, Bool.or_eq_true, decide_eq_true_eq] at this
  obtain ⟨⟨⟨⟨⟨⟨⟨h1, h2⟩, h3⟩, h4⟩, h5⟩, h6⟩, h7⟩, h8⟩ := this
  refine ⟨h1, h2, h3, ⟨h4, h5, h6⟩, h7, ?_⟩
  split at h8
  · cases h8
  · rename_i f hf
    simp only [Bool.and_eq_true, Bool.or_eq_true, decide_eq_true_eq] at h8
    refine ⟨f, hf, h8.1.1, ?_, h8.2⟩
    intro p hp xs e
    have := List.all_eq_true.1 h8.1.2 p hp
    rw [e] at this
    cases this

/-- a -(3/4)-> b, b -(-1/2)-> a, b -(1)-> c, a -(1/2)-> c; b is a decision, c filters values below 1/4. -/
def opsJ : List (Op ℚ) :=
  [.addConcept "a" {}, .addConcept "b" { type := some TYPE_DECISION },
   .addConcept "c" { activation := some "gceq", kwargs := [("weight", .num (1/4))] },
   .addRelation "a" "b" (3/4), .addRelation "b" "a" (-1/2), .addRelation "b" "c" 1, .addRelation "a" "c" (1/2),
   .initConcept "a" 1 true, .initConcept "b" (3/4) true]

def mapJ : FCM ℚ := runOps opsJ sat0
theorem mapJ_clean : CleanReachable mapJ := cleanReachable_of (.new sat0_new) opsJ (by decide +kernel)
theorem mapJ_careful : CarefulReachable mapJ := careful_of (.new sat0_new) opsJ (by decide +kernel)

end Ex

/-- The hypotheses are met by a map with cycles, a decision concept and a custom function. -/
example := C28_roundtrip_partial Ex.mapJ_clean Ex.mapJ_careful (fun _ h => nomatch h)
  (fun _ _ => Ex.plain_of (by decide +kernel))

example := C28_runs_partial Ex.mapJ_clean Ex.mapJ_careful (fun _ h => nomatch h)
  (fun _ _ => Ex.plain_of (by decide +kernel)) (by decide +kernel) (by decide +kernel) (.inl (by decide +kernel)) true

/-- `map1` has a Papageorgius concept and one without memory; both properties are lost. -/
theorem C28_counterexample : ¬ C28_full ℚ := by
  intro h
  have hj : ∃ d, Ex.map1.toJson = .ok d := by
    cases hx : Ex.map1.toJson with
    | ok d => exact ⟨d, rfl⟩
    | error e =>
      exfalso
      have : (Ex.map1.toJson.toOption).isSome = true := by decide +kernel
      rw [hx] at this
      cases this
  obtain ⟨d, hd⟩ := hj
  obtain ⟨m', h1, h2⟩ := h _ d Ex.map1_clean hd
  obtain ⟨n, hn, he⟩ : ∃ n, Ex.map1.topology.get? "b" = some n ∧ n.exec.map (·.2) = some "PAPAGEORGIUS" := by
    have : (Ex.map1.topology.get? "b").bind (fun n => n.exec.map (·.2)) = some "PAPAGEORGIUS" := by decide +kernel
    exact Option.bind_eq_some_iff.1 this
  obtain ⟨n', hn', -, -, e, -⟩ := h2 "b" n hn
  have := (C28_forgets hd h1 hn').2.1
  rw [e, he] at this
  revert this
  decide

/-- A document with a repeated concept, an unknown relation end, a custom function and default settings. -/
def Ex.doc : MapDesc ℚ :=
  { maxIter := some 7, decisionFunction := some "MEAN", activationFunction := some "saturation",
    memoryInfluence := some false,
    concepts := some [{ id := "x", type := some "SIMPLE", activation := some 1 },
                      { id := "y", type := some "DECISION", memoryInfluence := some true, active := some false },
                      { id := "x", type := some "SIMPLE", customFunction := some "biestate" }],
    relations := some [⟨"x", "y", 1/2⟩, ⟨"x", "z", 1⟩, ⟨"y", "x", -1⟩] }

example : (fromJson Ex.doc).toOption.map (fun m => (m.topology.keys, m.arcList.length, m.extraSteps)) =
    some (["x", "y"], 2, 5) := by decide +kernel

/-- Missing type, unknown function, fuzzy export: three ways to fail. -/
example : (fromJson { Ex.doc with concepts := some [{ id := "x" }] }).toOption.isNone = true := by decide +kernel
example : fromJson { Ex.doc with decisionFunction := some "BEST" } =
    .error (.exc "Cannot load json data due: Unknown decision function 'BEST'") := by decide +kernel

/-- A map with a fuzzy concept. -/
def Ex.fuzzyJ : ConceptArgs ℚ where
  type := some TYPE_FUZZY
  activationDict := some [("membership", .list [0, 1, 0]), ("val_list", .list [0, 1/2, 1])]

def Ex.mapFz : FCM ℚ := runOps [.addConcept "f" Ex.fuzzyJ] Ex.sat0
theorem Ex.mapFz_reachable : Reachable Ex.mapFz := Ex.reachable_made _ Ex.sat0_new

example : (Ex.mapFz.toJson.toOption.map fun d => (fromJson d).toOption.isNone) = some true := by decide +kernel

end PyFCM
