import Verif.Lemmas.Json
import Verif.Lemmas.NodeFrame
import Verif.Lemmas.Clean
import Verif.Lemmas.Congr
/-
What `from_json` builds.
-/
namespace PyFCM
open Arith

set_option linter.unusedSectionVars false

variable {α : Type} [Arith α]

theorem exc_bind {β γ : Type} {x : Except Err β} {f : β → Except Err γ} {c : γ} (h : x >>= f = .ok c) :
    ∃ b, x = .ok b ∧ f b = .ok c := by
  cases x with
  | error e => cases h
  | ok b => exact ⟨b, rfl, h⟩

theorem need_some {β : Type} {k : String} {o : Option β} {b : β} (h : need k o = .ok b) : o = some b := by
  cases o with
  | none => cases h
  | some x => cases h; rfl

/-- The default concept of a freshly constructed map. -/
def stdDefault (mem : Bool) (f : FnInfo α) : DefaultConcept α :=
  { active := true, exec := (.kosko, "KOSKO"), type := TYPE_SIMPLE, fuzzyAct := none, fuzzyMin := none,
    fuzzyMax := none, useMem := mem, useMapFunc := true, fn := f }

/-- The node that `add_concept` followed by `init_concept` leaves for a concept description. -/
def loadedNode (mem : Bool) (c : ConceptDesc α) (ty : String) (g : ExcFn) (f : FnInfo α) (custom : Bool)
    (vect : List α) : Node α :=
  { arcs := [], aux := [], value := c.activation.getD (lit 0), actvSum := lit 0, active := c.active.getD true,
    exec := some (g, c.exitationFunction.getD "KOSKO"),
    type := some (if ty = "DECISION" then TYPE_DECISION else TYPE_SIMPLE),
    fuzzyAct := none, fuzzyMin := none, fuzzyMax := none, useMem := some (c.memoryInfluence.getD mem),
    useMapFunc := some (!custom), fn := some f, argsVect := some vect }

/-- When and how a concept description is accepted. -/
structure Accepts (mapFn : FnInfo α) (c : ConceptDesc α) (ty : String) (g : ExcFn) (f : FnInfo α) (custom : Bool)
    (vect : List α) : Prop where
  type : c.type = some ty
  exec : Excitation.getByName (c.exitationFunction.getD "KOSKO") = some g
  chosen : Chosen mapFn (c.toArgs ty) c.activationDict f custom vect
  value : c.activation = none ∨ f.name ≠ "fuzzy"

def FCM.withNode (m : FCM α) (c : String) (n : Node α) : FCM α :=
  { m with prepared := false, topology := m.topology.set c n, execution := m.execution.set c [n.value] }

theorem buildType_load (d : DefaultConcept α) (c : ConceptDesc α) (ty : String) :
    buildType d (c.toArgs ty) = (if ty = "DECISION" then TYPE_DECISION else TYPE_SIMPLE) := by
  unfold buildType ConceptDesc.toArgs
  by_cases h : ty = "DECISION"
  · simp only [h, if_true]; rfl
  · simp only [h, if_false]; rfl

theorem notFuzzy_load (ty : String) : isFuzzyType (if ty = "DECISION" then TYPE_DECISION else TYPE_SIMPLE) = false := by
  by_cases h : ty = "DECISION"
  · rw [if_pos h]; rfl
  · rw [if_neg h]; rfl

theorem buildRest_eq {b : Bool} {fb f : FnInfo α} {a : ConceptArgs α} {adict : Option (Args α)} {custom : Bool}
    {vect : List α} (h : Chosen fb a adict f custom vect) (n : Node α) :
    buildRest b fb a adict n =
      (.ok (), { n with useMem := some b, useMapFunc := some (!custom), fn := some f, argsVect := some vect }) := by
  rcases adict with _ | d
  · rcases hg : a.activation with _ | g
    · obtain ⟨rfl, rfl⟩ := h.other rfl hg
      simp only [buildRest, buildFn, hg, bind, PyM.bind', PyM.modify, PyM.lift, h.vect, pure, PyM.pure']
      rfl
    · obtain ⟨h1, h2, h3, rfl⟩ := h.named rfl g hg
      have hv := h.vect
      rw [h3] at hv
      have he : f = ⟨f.fn, g, a.kwargs⟩ := by rw [← h2, ← h3]
      simp only [buildRest, buildFn, hg, h1, bind, PyM.bind', PyM.modify, PyM.lift, hv]
      rw [he]
      rfl
  · obtain ⟨rfl, rfl⟩ := h.dict d rfl
    have hv := h.vect
    simp only at hv
    simp only [buildRest, buildFn, bind, PyM.bind', PyM.modify, PyM.lift, hv]
    rfl

theorem loadConcept_eq {m : FCM α} (hd : m.default = stdDefault m.memInfluence m.mapFn) {c : ConceptDesc α} {ty : String}
    {g : ExcFn} {f : FnInfo α} {custom : Bool} {vect : List α} (h : Accepts m.mapFn c ty g f custom vect) :
    loadConcept c m = .ok (m.withNode c.id (loadedNode m.memInfluence c ty g f custom vect)) := by
  have hb : buildNode m.default (c.toArgs ty) (freshNode ((c.toArgs ty).isActive.getD m.default.active)) =
      (.ok (), { loadedNode m.memInfluence c ty g f custom vect with value := lit 0 }) := by
    have h1 : ∀ n : Node α, buildExec m.default (c.toArgs ty) n =
        (.ok (), { n with exec := some (g, c.exitationFunction.getD "KOSKO") }) := by
      intro n
      simp only [buildExec, ConceptDesc.toArgs, h.exec, PyM.modify]
    have hch := h.chosen
    have h2 : m.default.fn = m.mapFn := by rw [hd]; rfl
    have h3 : m.default.useMem = m.memInfluence := by rw [hd]; rfl
    rw [← h2] at hch
    have h4 : (c.toArgs ty).activationDict = c.activationDict := rfl
    have h5 : (c.toArgs ty).useMemory = c.memoryInfluence := rfl
    simp only [buildNode, bind, PyM.bind', h1, PyM.modify, buildFuzzy, buildType_load, notFuzzy_load, pure, PyM.pure',
      h4, buildRest_eq hch, Bool.false_eq_true, if_false, h5, h3]
    rfl
  have ha : FCM.addConcept c.id (c.toArgs ty) m =
      (.ok (), m.withNode c.id { loadedNode m.memInfluence c ty g f custom vect with value := lit 0 }) := by
    unfold FCM.addConcept
    dsimp only
    rw [hb]
    rfl
  unfold loadConcept
  rw [h.type]
  simp only [need, bind, Except.bind, PyM.exec, ha]
  rcases hv : c.activation with _ | v
  · simp only [pure, Except.pure, loadedNode, hv, Option.getD_none]
  · have hn : f.name ≠ "fuzzy" := by
      rcases h.value with h | h
      · rw [hv] at h; cases h
      · exact h
    have hget : (m.withNode c.id { loadedNode m.memInfluence c ty g f custom vect with value := lit 0 }).topology.get?
        c.id = some { loadedNode m.memInfluence c ty g f custom vect with value := lit 0 } := Dict.get?_set_self _ _ _
    unfold FCM.initConcept
    rw [hget]
    simp only [loadedNode, if_neg hn]
    simp only [FCM.withNode, Dict.set_set, hv, Option.getD_some]

theorem loadConcept_ok {m m' : FCM α} (hd : m.default = stdDefault m.memInfluence m.mapFn) {c : ConceptDesc α}
    (h : loadConcept c m = .ok m') : ∃ ty g f custom vect, Accepts m.mapFn c ty g f custom vect ∧
      m' = m.withNode c.id (loadedNode m.memInfluence c ty g f custom vect) := by
  have key : ∃ ty g f custom vect, Accepts m.mapFn c ty g f custom vect := by
    unfold loadConcept at h
    obtain ⟨ty, hty, h⟩ := exc_bind h
    obtain ⟨m1, h1, h⟩ := exc_bind h
    have hty := need_some hty
    unfold PyM.exec at h1
    split at h1
    case h_2 => cases h1
    case h_1 u s' hadd =>
      cases h1
      unfold FCM.addConcept at hadd
      dsimp only at hadd
      rcases hb : buildNode m.default (c.toArgs ty) (freshNode ((c.toArgs ty).isActive.getD m.default.active)) with
        ⟨r, node⟩
      rw [hb] at hadd
      cases r with
      | error e => cases hadd
      | ok u =>
        cases hadd
        obtain ⟨ex, adict, f, custom, vect, hex, -, -, -⟩ := buildNode_ok hb
        unfold buildNode at hb
        obtain ⟨_, s1, h1, g1⟩ := bind_okP hb
        obtain ⟨_, s2, h2, g2⟩ := bind_okP g1
        obtain ⟨adict, s3, h3, g3⟩ := bind_okP g2
        rw [buildFuzzy, buildType_load, notFuzzy_load, if_neg (by simp)] at h3
        obtain ⟨rfl, rfl⟩ := pure_okP h3
        obtain ⟨f, custom, vect, hch, e⟩ := buildRest_ok g3
        obtain ⟨g, hg, -⟩ : ∃ g, Excitation.getByName (c.exitationFunction.getD "KOSKO") = some g ∧ _ := hex
        rw [hd] at hch
        refine ⟨ty, g, f, custom, vect, hty, hg, hch, ?_⟩
        rcases hv : c.activation with _ | v
        · exact .inl rfl
        · right
          intro hf
          rw [hv] at h
          dsimp only at h
          unfold PyM.exec at h
          split at h
          case h_2 => cases h
          case h_1 u' s'' hinit =>
            obtain rfl := modify_okP h2
            have hfz : node.fuzzyAct = none := by
              rw [e]
              have : s1.fuzzyAct = none := by
                unfold buildExec at h1
                have he : (c.toArgs ty).excitation = some (c.exitationFunction.getD "KOSKO") := rfl
                simp only [he, hg] at h1
                obtain rfl := modify_okP h1
                rfl
              exact this
            have hfn : node.fn = some f := by rw [e]
            unfold FCM.initConcept at hinit
            simp only [Dict.get?_set_self, hfn, hf, if_true, hfz] at hinit
            cases hinit
  obtain ⟨ty, g, f, custom, vect, hacc⟩ := key
  refine ⟨ty, g, f, custom, vect, hacc, ?_⟩
  rw [loadConcept_eq hd hacc] at h
  cases h
  rfl

theorem loadConcepts_append (xs ys : List (ConceptDesc α)) (m : FCM α) :
    loadConcepts (xs ++ ys) m = loadConcepts xs m >>= loadConcepts ys := by
  induction xs generalizing m with
  | nil => rfl
  | cons x xs ih =>
    simp only [List.cons_append, loadConcepts]
    cases loadConcept x m with
    | error e => rfl
    | ok m1 => exact ih m1

theorem eraseDups_snoc (l : List String) (x : String) :
    (l ++ [x]).eraseDups = if x ∈ l.eraseDups then l.eraseDups else l.eraseDups ++ [x] := by
  rw [List.eraseDups_append]
  by_cases hc : x ∈ l
  · rw [if_pos (by rwa [List.mem_eraseDups])]
    simp [List.removeAll, hc]
  · rw [if_neg (by rwa [List.mem_eraseDups])]
    simp [List.removeAll, hc, List.eraseDups_cons]

/-- What is known after loading a list of concepts into `m0`. -/
structure LoadedC (m0 m : FCM α) (cs : List (ConceptDesc α)) : Prop where
  eq : m = { m0 with topology := m.topology, execution := m.execution, prepared := m.prepared }
  keys : m.topology.keys = (cs.map (·.id)).eraseDups
  node : ∀ pre c post, cs = pre ++ c :: post → (∀ x ∈ post, x.id ≠ c.id) → ∃ ty g f custom vect,
    Accepts m0.mapFn c ty g f custom vect ∧
    m.topology.get? c.id = some (loadedNode m0.memInfluence c ty g f custom vect) ∧
    m.execution.get? c.id = some [c.activation.getD (lit 0)]
  plain : ∀ c n, m.topology.get? c = some n → n.arcs = [] ∧ n.actvSum = lit 0

theorem loadConcepts_ok {m0 m : FCM α} (hd : m0.default = stdDefault m0.memInfluence m0.mapFn) (ht : m0.topology = [])
    {cs : List (ConceptDesc α)} (h : loadConcepts cs m0 = .ok m) : LoadedC m0 m cs := by
  induction cs using List.reverseRecOn generalizing m with
  | nil =>
    cases h
    exact ⟨rfl, by rw [ht]; rfl, fun pre c post e => by simp at e, fun c n hn => by rw [ht] at hn; cases hn⟩
  | append_singleton cs c ih =>
    rw [loadConcepts_append] at h
    obtain ⟨m1, h1, h⟩ := exc_bind h
    simp only [loadConcepts] at h
    obtain ⟨m2, h2, h⟩ := exc_bind h
    cases h
    have hL := ih h1
    have hd1 : m1.default = stdDefault m1.memInfluence m1.mapFn := by
      rw [hL.eq]; exact hd
    obtain ⟨ty, g, f, custom, vect, hacc, rfl⟩ := loadConcept_ok hd1 h2
    have e1 : m1.memInfluence = m0.memInfluence := by rw [hL.eq]
    have e2 : m1.mapFn = m0.mapFn := by rw [hL.eq]
    rw [e2] at hacc
    rw [e1]
    refine ⟨?_, ?_, ?_, ?_⟩
    · have := hL.eq
      unfold FCM.withNode
      rw [this]
    · unfold FCM.withNode
      simp only [List.map_append, List.map_cons, List.map_nil]
      rw [Dict.keys_set, hL.keys, eraseDups_snoc]
    · intro pre x post e hpost
      rcases List.eq_nil_or_concat post with rfl | ⟨post', y, rfl⟩
      · have := List.append_inj' e rfl
        obtain ⟨rfl, e2⟩ := this
        cases e2
        refine ⟨ty, g, f, custom, vect, hacc, Dict.get?_set_self _ _ _, Dict.get?_set_self _ _ _⟩
      · rw [List.concat_eq_append, ← List.cons_append, ← List.append_assoc] at e
        obtain ⟨e3, e'⟩ := List.append_inj' e rfl
        cases e'
        obtain ⟨ty', g', f', custom', vect', k1, k2, k3⟩ :=
          hL.node pre x post' e3 fun z hz => hpost z (by simp [hz])
        have hne : c.id ≠ x.id := hpost c (by simp)
        refine ⟨ty', g', f', custom', vect', k1, ?_, ?_⟩
        · unfold FCM.withNode
          rw [Dict.get?_set_ne _ _ hne]; exact k2
        · unfold FCM.withNode
          rw [Dict.get?_set_ne _ _ hne]; exact k3
    · intro d n hn
      unfold FCM.withNode at hn
      rw [Dict.get?_set] at hn
      split at hn
      · cases hn; exact ⟨rfl, rfl⟩
      · exact hL.plain d n hn

theorem loadRelations_ok {m : FCM α} (hf : m.fitInclination = none) (rs : List (RelDesc α)) :
    loadRelations rs m = .ok (addAll (rs.map fun r => (r.origin, r.destiny, r.weight)) m) := by
  induction rs generalizing m with
  | nil => rfl
  | cons r rs ih =>
    obtain ⟨m1, h1, a1⟩ := addRelation_added hf (r.origin, r.destiny, r.weight)
    have h1' : FCM.addRelation r.origin r.destiny r.weight m = (.ok (), m1) := h1
    have e : addAll ((r :: rs).map fun r => (r.origin, r.destiny, r.weight)) m =
        addAll (rs.map fun r => (r.origin, r.destiny, r.weight)) m1 := by
      show runOps _ (FCM.addRelation r.origin r.destiny r.weight m).2 = _
      rw [h1']
      rfl
    rw [e, ← ih (by rw [a1.eq]; exact hf)]
    simp only [loadRelations, PyM.exec, h1', bind, Except.bind]

theorem addAll_linked {m : FCM α} (hf : m.fitInclination = none) (hl : Linked m) (rs : List (String × String × α)) :
    Linked (addAll rs m) := by
  induction rs generalizing m with
  | nil => exact hl
  | cons r rs ih =>
    obtain ⟨m1, h1, a1⟩ := addRelation_added hf r
    have : addAll (r :: rs) m = addAll rs m1 := by
      show runOps _ (FCM.addRelation r.1 r.2.1 r.2.2 m).2 = _
      rw [h1]
      rfl
    rw [this]
    exact ih (by rw [a1.eq]; exact hf) (addRelation_linked hl h1)

end PyFCM
