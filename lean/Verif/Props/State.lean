import Verif.Lemmas.Clean
import Verif.Lemmas.RunTop
import Verif.Lemmas.Json
import Verif.Examples
/-
C14, C16 - C22, C56: concepts, relations and settings of a map under the public operations.  All statements hold in
every arithmetic.
-/
namespace PyFCM
open Arith Spec

set_option linter.unusedSectionVars false

variable {α : Type} [Arith α]

/-- One more call, whether it raises or not. -/
theorem Reachable.after {m : FCM α} (h : Reachable m) (op : Op α) : Reachable (op.run m).2 := by
  obtain ⟨_, _, _, _, _, _, _, _, m0, ops, h0, rfl⟩ := h
  exact ⟨_, _, _, _, _, _, _, _, m0, ops ++ [op], h0, by simp [runOps]⟩

/-! ### C14: the data prepared for the vectorised engine -/

/-- The full claim: whenever the prepared flag is set, the cached data is what rebuilding would give. -/
def C14_full (α : Type) [Arith α] : Prop :=
  ∀ m : FCM α, Reachable m → m.prepared = true → m.prepare = .ok m.cache

/-- It holds for every reachable map that has a concept and whose concepts are complete enough for the data to be
built at all; the state vector has one entry per concept. -/
theorem C14_coherent_partial {m : FCM α} (hr : Reachable m) (hp : m.prepared = true) (hne : m.topology ≠ [])
    {c : Cache α} (hc : m.prepare = .ok c) : m.cache = c ∧ m.stateVector.length = m.topology.length := by
  rcases hr.coherent hp with h | ⟨h1, h | ⟨⟨e, h⟩, _⟩⟩
  · exact absurd h hne
  · rw [h] at hc; cases hc; exact ⟨rfl, h1⟩
  · rw [h] at hc; cases hc

/-- `map2` after a run with the vectorised engine. -/
example :=
  C14_coherent_partial (m := Ex.map2') (c := Ex.map2'.cache)
    (Ex.map2_reachable.after (.runInference true))
    (by decide +kernel) (by decide +kernel) (by decide +kernel)

/-- After `clear_all()` the prepared flag is still set. -/
def Ex.cleared : FCM ℚ :=
  runOps (Ex.ops1 ++ [.assignMaxIter 9, .assignDebug false, .runInference true, .clearAll]) Ex.sat0

/-- `clear_all` forgets to reset the flag: the cached matrix still describes the removed concepts. -/
theorem C14_counterexample : ¬ C14_full ℚ := by
  intro h
  have := h Ex.cleared (Ex.reachable_made _ Ex.sat0_new) (by decide +kernel)
  exact absurd this (by decide +kernel)

/-! ### C16: outgoing relations -/

/-- A call that neither adds a concept twice nor is an `add_relation` that raises.  Every other call may raise. -/
def Op.Careful (m : FCM α) : Op α → Prop
  | .addConcept c _ => c ∉ m.topology.keys
  | .addRelation o d w => (FCM.addRelation o d w m).1 = .ok ()
  | _ => True

/-- The states reached by careful calls. -/
inductive CarefulReachable : FCM α → Prop
  | new {maxIt extra stab diff dec mem act kwargs m}
      (h : FCM.new maxIt extra stab diff dec mem act kwargs = .ok m) : CarefulReachable m
  | step {m : FCM α} (op : Op α) (h : CarefulReachable m) (hop : op.Careful m) : CarefulReachable (op.run m).2

theorem new_empty {maxIt extra stab diff dec mem act kwargs} {m : FCM α}
    (h : FCM.new maxIt extra stab diff dec mem act kwargs = .ok m) : m.topology = [] ∧ m.arcList = [] ∧ m.execution = [] := by
  unfold FCM.new at h
  split at h
  · cases h
  · split at h
    · cases h
    · cases h; exact ⟨rfl, rfl, rfl⟩

theorem CarefulReachable.linked {m : FCM α} (h : CarefulReachable m) : Inv m ∧ Linked m := by
  induction h with
  | new h =>
    refine ⟨new_inv h, ?_⟩
    intro c n hn
    rw [(new_empty h).1] at hn
    cases hn
  | @step m op _ hop ih =>
    refine ⟨op.pres m ih.1, ?_⟩
    by_cases hs : op.soft = true
    · exact ih.2.view (op.soft_view hs m)
    · cases op
      case addConcept c a => exact addConcept_linked ih.1 ih.2 hop a
      case setConceptProperties c a => exact setConceptProperties_linked ih.2 c a
      case setMapActivationFunction f k => exact setMapActivation_linked ih.2 f k
      case addRelation o d w =>
        have e : FCM.addRelation o d w m = (.ok (), (FCM.addRelation o d w m).2) := by
          have : (FCM.addRelation o d w m).1 = .ok () := hop
          rw [← this]
        exact addRelation_linked ih.2 e
      case clearAll => exact clearAll_linked ih.2
      all_goals exact absurd rfl hs

/-- The full claim. -/
def C16_full (α : Type) [Arith α] : Prop :=
  ∀ (m : FCM α) (d : MapDesc α) (rs : List (RelDesc α)), Reachable m → m.toJson = .ok d → d.relations = some rs →
    ∀ c, m.outgoingRelations c = (rs.filter fun r => r.origin = c).map fun r => (r.destiny, r.weight)

/-- It holds if no concept is added twice and no `add_relation` call raises (see the counterexamples). -/
theorem C16_outgoing_partial {m : FCM α} {d : MapDesc α} {rs : List (RelDesc α)} (hr : CarefulReachable m)
    (h : m.toJson = .ok d) (hrs : d.relations = some rs) (c : String) :
    m.outgoingRelations c = (rs.filter fun r => r.origin = c).map fun r => (r.destiny, r.weight) := by
  obtain ⟨hi, hl⟩ := hr.linked
  rw [toJson_relations h] at hrs
  cases hrs
  have key : ∀ arcs : List (Arc α), ((arcs.map fun a => (⟨a.origin, a.dest, a.weight⟩ : RelDesc α)).filter
      fun r => r.origin = c).map (fun r => (r.destiny, r.weight)) = outOf arcs c := by
    intro arcs
    induction arcs with
    | nil => rfl
    | cons a arcs ih =>
      unfold outOf at *
      by_cases ha : a.origin = c <;> simp [ha, ih]
  rw [key]
  unfold FCM.outgoingRelations
  cases hn : m.topology.get? c with
  | some n => exact (hl c n hn).1
  | none => exact (outOf_new hi.ends ((Dict.get?_eq_none_iff _ _).1 hn)).1.symm

/-- Executable test that every call of a sequence is careful. -/
def Ex.careful (ops : List (Op ℚ)) (m : FCM ℚ) : Bool := match ops with
  | [] => true
  | .addConcept c a :: ops => !(m.topology.has c) && careful ops ((Op.addConcept c a).run m).2
  | .addRelation o d w :: ops => (FCM.addRelation o d w m).1 == .ok () && careful ops ((Op.addRelation o d w).run m).2
  | op :: ops => careful ops (op.run m).2

theorem Ex.careful_of {m : FCM ℚ} (h : CarefulReachable m) (ops : List (Op ℚ)) (hc : Ex.careful ops m = true) :
    CarefulReachable (runOps ops m) := by
  induction ops generalizing m with
  | nil => exact h
  | cons op ops ih =>
    cases op
    case addConcept c a =>
      simp only [Ex.careful, Bool.and_eq_true, Bool.not_eq_true'] at hc
      refine ih (.step (.addConcept c a) h ?_) hc.2
      intro hm
      have := (Dict.has_iff m.topology c).2 hm
      rw [this] at hc; cases hc.1
    case addRelation o d w =>
      simp only [Ex.careful, Bool.and_eq_true, beq_iff_eq] at hc
      exact ih (.step (.addRelation o d w) h hc.1) hc.2
    all_goals exact ih (.step _ h trivial) hc

/-- `map1` with one call that raises in between. -/
def Ex.map3 : FCM ℚ := runOps (Ex.ops1 ++ [.setConceptProperties "b" { activation := some "nothing" },
  .addRelation "b" "b" (1/8), .runInference true]) Ex.sat0
example {d : MapDesc ℚ} {rs : List (RelDesc ℚ)} (h : Ex.map3.toJson = .ok d) (hrs : d.relations = some rs) :
    Ex.map3.outgoingRelations "b" = (rs.filter fun r => r.origin = "b").map fun r => (r.destiny, r.weight) :=
  C16_outgoing_partial (Ex.careful_of (.new Ex.sat0_new) _ (by decide +kernel)) h hrs "b"
example : Ex.map3.outgoingRelations "b" = [("a", -1/2), ("c", 1), ("b", 1/8)] := by decide +kernel

/-- Adding concept `a` again empties its outgoing relations, but the exported relation list keeps them. -/
def Ex.readded : FCM ℚ := runOps (Ex.ops1 ++ [.addConcept "a" {}]) Ex.sat0

/-- The document of a map (an empty one if `to_json` raises). -/
def Ex.json (m : FCM ℚ) : MapDesc ℚ := match m.toJson with
  | .ok d => d
  | .error _ => {}

theorem C16_counterexample : ¬ C16_full ℚ := by
  intro h
  have := h Ex.readded (Ex.json Ex.readded) _ (Ex.reachable_made _ Ex.sat0_new) (by decide +kernel)
    (toJson_relations (m := Ex.readded) (by decide +kernel)) "a"
  exact absurd this (by decide +kernel)

/-- An `add_relation` that raises while fitting the slope (weights adding up to 0) records the relation with its
origin only. -/
def Ex.fitted : FCM ℚ := runOps [.addConcept "a" {}, .addConcept "b" { activation := some "sigmoid" },
  .assignFitInclination (some (1/2)), .addRelation "a" "b" 0] Ex.sat0

theorem C16_counterexample_raise : Ex.fitted.outgoingRelations "a" = [("b", 0)] ∧
    (Ex.json Ex.fitted).relations = some [] ∧ Ex.fitted.toJson = .ok (Ex.json Ex.fitted) := by decide +kernel

/-! ### C56: the normaliser of a fuzzy concept -/

/-- C56 as stated. -/
def C56_full (α : Type) [Arith α] : Prop := ∀ (m : FCM α) (c : String) (n : Node α), Reachable m →
  m.topology.get? c = some n →
  n.actvSum = ((m.arcList.filter fun a => a.dest = c).map (·.weight)).foldl (· + ·) (lit 0)

/-- The sum of the incoming weights used to normalise fuzzy concepts is the sum over the relation list. -/
theorem C56_sum_partial {m : FCM α} (hr : CarefulReachable m) {c : String} {n : Node α}
    (hn : m.topology.get? c = some n) :
    n.actvSum = ((m.arcList.filter fun a => a.dest = c).map (·.weight)).foldl (· + ·) (lit 0) := by
  rw [(hr.linked.2 c n hn).2]
  unfold inSum
  rw [List.foldl_map]

example {n : Node ℚ} (hn : Ex.map3.topology.get? "b" = some n) :
    n.actvSum = ((Ex.map3.arcList.filter fun a => a.dest = "b").map (·.weight)).foldl (· + ·) (lit 0) :=
  C56_sum_partial (Ex.careful_of (.new Ex.sat0_new) _ (by decide +kernel)) hn

/-- Adding the concept again resets the sum, while its incoming relations stay in force. -/
theorem C56_counterexample : ∃ m : FCM ℚ, Reachable m ∧ (m.topology.get? "b").map (·.actvSum) = some 0 ∧
    (m.arcList.filter fun a => a.dest = "b").map (·.weight) = [3/4] :=
  ⟨runOps (Ex.ops1 ++ [.addConcept "b" {}]) Ex.sat0, Ex.reachable_made _ Ex.sat0_new, by decide +kernel,
    by decide +kernel⟩

theorem C56_false : ¬ C56_full ℚ := by
  intro h
  obtain ⟨m, hr, h1, h2⟩ := C56_counterexample
  rcases hn : m.topology.get? "b" with _ | n
  · rw [hn] at h1; cases h1
  · rw [hn] at h1
    have := h m "b" n hr hn
    rw [h2] at this
    rw [Option.map_some, this] at h1
    exact absurd h1 (by decide +kernel)

/-! ### C17: relations join existing concepts -/

/-- `add_relation` with an unknown end returns normally and changes nothing, except that the data prepared for the
vectorised engine will be rebuilt. -/
theorem C17_unknown (m : FCM α) {o d : String} (w : α) (h : ¬ (o ∈ m.topology.keys ∧ d ∈ m.topology.keys)) :
    FCM.addRelation o d w m = (.ok (), { m with prepared := false }) := addRelation_unknown w h

example : FCM.addRelation "a" "unknown" 1 Ex.map1 = (.ok (), { Ex.map1 with prepared := false }) :=
  C17_unknown _ _ (by decide +kernel)

/-- In every reachable map - whichever calls raised on the way - both ends of every relation are concepts. -/
theorem C17_ends {m : FCM α} (hr : Reachable m) :
    ∀ a ∈ m.arcList, a.origin ∈ m.topology.keys ∧ a.dest ∈ m.topology.keys := hr.inv.ends

/-- The same for the exported document: every relation's ends are ids of exported concepts. -/
theorem C17_exported {m : FCM α} (hr : Reachable m) {d : MapDesc α} (h : m.toJson = .ok d) :
    ∃ cs rs, d.concepts = some cs ∧ d.relations = some rs ∧
      ∀ r ∈ rs, r.origin ∈ cs.map (·.id) ∧ r.destiny ∈ cs.map (·.id) := by
  obtain ⟨cs, hc, hk⟩ := toJson_concepts h
  refine ⟨cs, _, hc, toJson_relations h, ?_⟩
  intro r hmem
  obtain ⟨a, ha, rfl⟩ := List.mem_map.1 hmem
  rw [hk]
  exact hr.inv.ends a ha

example : ∀ a ∈ Ex.map1.arcList, a.origin ∈ Ex.map1.topology.keys ∧ a.dest ∈ Ex.map1.topology.keys :=
  C17_ends Ex.map1_reachable
example := C17_exported Ex.map1_reachable (d := Ex.json Ex.map1) (by decide +kernel)

/-! ### C18: a rejected `add_concept` -/

/-- The full claim. -/
def C18_full (α : Type) [Arith α] : Prop :=
  ∀ (m m' : FCM α) (c : String) (a : ConceptArgs α) (e : Err), Reachable m → FCM.addConcept c a m = (.error e, m') →
    m'.topology = m.topology

/-- What is true: relations, recorded trajectories, settings and every *other* concept are unchanged. -/
theorem C18_rejected_partial {m m' : FCM α} {c : String} {a : ConceptArgs α} {e : Err}
    (h : FCM.addConcept c a m = (.error e, m')) :
    m' = { m with prepared := false, topology := m'.topology } ∧
    ∀ c', c' ≠ c → m'.topology.get? c' = m.topology.get? c' := by
  unfold FCM.addConcept at h
  dsimp only at h
  split at h
  · cases h
    exact ⟨rfl, fun c' hc => Dict.get?_set_ne _ _ (Ne.symm hc)⟩
  · cases h

/-- What happens instead: the half-built concept stays, and if its name was new *every* following `run_inference()`
raises. -/
theorem C18_unusable {m m' : FCM α} {c : String} {a : ConceptArgs α} {e : Err} (hr : Reachable m)
    (hc : c ∉ m.topology.keys) (h : FCM.addConcept c a m = (.error e, m')) :
    c ∈ m'.topology.keys ∧ ∃ e', (FCM.runInference true m').1 = .error e' := by
  have hi : Inv m' := by
    have := (Op.addConcept c a).pres m hr.inv
    simp only [Op.run] at this
    rwa [h] at this
  obtain ⟨h1, -⟩ := C18_rejected_partial h
  have hin : c ∈ m'.topology.keys := by
    unfold FCM.addConcept at h
    dsimp only at h
    split at h
    · cases h
      exact (Dict.mem_keys_set _ _ _ _).2 (.inr rfl)
    · cases h
  refine ⟨hin, ?_⟩
  rcases hrun : FCM.runInference true m' with ⟨_ | ⟨⟩, m''⟩
  · exact ⟨_, rfl⟩
  · exfalso
    obtain ⟨m1, m2, hreset, -, -⟩ := runInference_ok hrun
    obtain ⟨-, -, -, hsame, -⟩ := reset_spec hi hreset
    have : c ∈ m'.execution.keys := (hsame c).1 hin
    have he : m'.execution = m.execution := by rw [h1]
    rw [he] at this
    exact hc (hr.inv.sub c this)

/-- A later accepted `add_concept` of the same name makes the map good again. -/
theorem C18_repair {m m1 m2 : FCM α} {c : String} {a b : ConceptArgs α} {e : Err} (hr : CleanReachable m)
    (h1 : FCM.addConcept c a m = (.error e, m1)) (h2 : FCM.addConcept c b m1 = (.ok (), m2)) : CleanInv m2 := by
  have hm := hr.clean
  have hi1 : Inv m1 := by
    have := (Op.addConcept c a).pres m hm.inv
    simp only [Op.run] at this
    rwa [h1] at this
  have hi2 : Inv m2 := by
    have := (Op.addConcept c b).pres m1 hi1
    simp only [Op.run] at this
    rwa [h2] at this
  obtain ⟨e1, hk⟩ := C18_rejected_partial h1
  have ex1 : m1.execution = m.execution := by rw [e1]
  unfold FCM.addConcept at h2
  dsimp only at h2
  split at h2
  · cases h2
  · rename_i hb
    cases h2
    have hb : buildNode m1.default b (freshNode (b.isActive.getD m1.default.active)) = (.ok (),
        (buildNode m1.default b (freshNode (b.isActive.getD m1.default.active))).2) := by rw [← hb]
    refine ⟨hi2, ?_, ?_⟩
    · intro c' n hn
      dsimp only at hn
      rw [Dict.get?_set] at hn
      split at hn
      · cases hn
        exact (buildNode_good hb).static rfl
      · rename_i hne
        rw [hk c' (Ne.symm hne)] at hn
        exact hm.good c' n hn
    · intro c' hc'
      refine exe_set rfl (fun hne => ?_)
      rw [ex1]
      apply hm.exe
      have hmem := ((Dict.mem_keys_set _ _ _ _).1 hc').resolve_right hne
      obtain ⟨n, hn⟩ := Dict.exists_get?_of_mem hmem
      rw [hk c' hne] at hn
      exact Dict.mem_keys_of_get? hn

theorem Ex.pair_eq {σ β : Type} {x : β × σ} {r : β} (h : x.1 = r) : x = (r, x.2) := by rw [← h]

/-- `map1.add_concept('d', activation_function='nothing')`, which raises. -/
def Ex.rejected : FCM ℚ := (FCM.addConcept "d" { activation := some "nothing" } Ex.map1).2

theorem Ex.rejected_eq : FCM.addConcept "d" { activation := some "nothing" } Ex.map1 =
    (.error (.exc "Unknown activation function: nothing"), Ex.rejected) := Ex.pair_eq (by decide +kernel)

example := C18_rejected_partial Ex.rejected_eq
example := C18_unusable Ex.map1_reachable (by decide +kernel) Ex.rejected_eq
example := C18_repair Ex.map1_clean Ex.rejected_eq (b := {}) (Ex.run_eq (by decide +kernel))

theorem C18_counterexample : ¬ C18_full ℚ := by
  intro h
  have := h _ _ _ _ _ Ex.map1_reachable Ex.rejected_eq
  exact absurd this (by decide +kernel)

/-! ### C19: `set_concept_properties` -/

/-- On an unknown concept it raises and changes nothing at all. -/
theorem C19_unknown {m : FCM α} {c : String} (hc : c ∉ m.topology.keys) (a : ConceptArgs α) :
    FCM.setConceptProperties c a m = (.error (.exc ("Concept " ++ c ++ " not found")), m) := by
  unfold FCM.setConceptProperties
  rw [(Dict.get?_eq_none_iff _ _).2 hc]

example : FCM.setConceptProperties "z" { isActive := some false } Ex.map1 =
    (.error (.exc "Concept z not found"), Ex.map1) := C19_unknown (by decide +kernel) _

theorem fuzzyPart_kept {k : Option (FuzzyDesc α) × Option α × Option α} (b : Bool) (f : FnInfo α) (a : ConceptArgs α)
    (ha : a.activationDict = none) :
    Pres (fun n : Node α => (n.fuzzyAct, n.fuzzyMin, n.fuzzyMax) = k) (updateNode b f a) := by
  unfold updateNode updateActive updateExec updateType updateFuzzy buildRest buildFn
  rw [ha]
  refine Pres.bind ?_ fun _ => Pres.bind ?_ fun _ => Pres.bind ?_ fun _ => Pres.bind ?_ fun ad => ?_
  · split
    · exact Pres.modify fun _ h => h
    · exact Pres.pure _
  · split
    · split
      · exact Pres.modify fun _ h => h
      · exact Pres.raise _
    · exact Pres.pure _
  · split
    · exact Pres.ite (fun _ => Pres.modify fun _ h => h) (fun _ => Pres.raise _)
    · exact Pres.pure _
  · exact Pres.pure _
  · refine Pres.bind (Pres.modify fun _ h => h) fun _ => Pres.bind ?_ fun _ => Pres.modify fun _ h => h
    split
    · exact Pres.bind (Pres.modify fun _ h => h) fun _ => Pres.lift _
    · split
      · split
        · exact Pres.bind (Pres.modify fun _ h => h) fun _ => Pres.lift _
        · exact Pres.raise _
      · exact Pres.bind (Pres.modify fun _ h => h) fun _ => Pres.bind (Pres.lift _) fun _ =>
          Pres.bind (Pres.modify fun _ h => h) fun _ => Pres.pure _

/-- Whether it raises or not: no other concept, no relation, no setting, no trajectory and no value changes; of the
named concept, its relations, its pending inputs, its value, and (unless a dictionary is passed) its fuzzy
description stay. -/
theorem C19_frame {m m' : FCM α} {c : String} {a : ConceptArgs α} {r : Except Err Unit} {n : Node α}
    (hn : m.topology.get? c = some n) (h : FCM.setConceptProperties c a m = (r, m')) :
    m' = { m with prepared := false, topology := m'.topology } ∧ m'.topology.keys = m.topology.keys ∧
    (∀ c', c' ≠ c → m'.topology.get? c' = m.topology.get? c') ∧
    ∃ n', m'.topology.get? c = some n' ∧ n'.arcs = n.arcs ∧ n'.aux = n.aux ∧ n'.value = n.value ∧
      n'.actvSum = n.actvSum ∧ (a.activationDict = none →
        n'.fuzzyAct = n.fuzzyAct ∧ n'.fuzzyMin = n.fuzzyMin ∧ n'.fuzzyMax = n.fuzzyMax) := by
  have hk := updateNode_kept (k := n.kept) m.memInfluence m.mapFn a n rfl
  have hf := fun ha => fuzzyPart_kept (k := (n.fuzzyAct, n.fuzzyMin, n.fuzzyMax)) m.memInfluence m.mapFn a ha n rfl
  unfold FCM.setConceptProperties at h
  rw [hn] at h
  rcases hb : updateNode m.memInfluence m.mapFn a n with ⟨r', n'⟩
  rw [hb] at hk hf
  simp only [hb] at h
  cases h
  simp only [Node.kept, Prod.mk.injEq] at hk hf
  exact ⟨rfl, Dict.keys_set_of_mem _ _ _ (Dict.mem_keys_of_get? hn), fun c' hc => Dict.get?_set_ne _ _ (Ne.symm hc),
    n', by simp, hk.1, hk.2.1, hk.2.2.1, hk.2.2.2, hf⟩

/-- The full claim for the named concept: a property not passed keeps its value. -/
def C19_full (α : Type) [Arith α] : Prop :=
  ∀ (m m' : FCM α) (c : String) (a : ConceptArgs α) (n n' : Node α), Reachable m → m.topology.get? c = some n →
    FCM.setConceptProperties c a m = (.ok (), m') → m'.topology.get? c = some n' →
    (a.isActive = none → n'.active = n.active) ∧ (a.excitation = none → n'.exec = n.exec) ∧
    (a.type = none → n'.type = n.type) ∧ (a.useMemory = none → n'.useMem = n.useMem) ∧
    (a.activation = none → a.activationDict = none → n'.fn = n.fn)

/-- What is true of the named concept when the call returns: activity, excitation and type change only if passed
(and then to what was passed); but the memory flag and the activation function, when not passed, are set to the
*map's*. -/
theorem C19_named_partial {m m' : FCM α} {c : String} {a : ConceptArgs α} {n : Node α}
    (hn : m.topology.get? c = some n) (h : FCM.setConceptProperties c a m = (.ok (), m')) :
    ∃ n', m'.topology.get? c = some n' ∧
      n'.active = a.isActive.getD n.active ∧
      (a.excitation = none → n'.exec = n.exec) ∧
      (∀ e, a.excitation = some e → ∃ g, Excitation.getByName e = some g ∧ n'.exec = some (g, e)) ∧
      (a.type = none → n'.type = n.type) ∧ (∀ t, a.type = some t → n'.type = some t) ∧
      n'.useMem = some (a.useMemory.getD m.memInfluence) ∧
      (∀ g, a.activationDict = none → a.activation = some g →
        ∃ fn, Activation.getFunctionByName g = some fn ∧ n'.fn = some ⟨fn, g, a.kwargs⟩ ∧ n'.useMapFunc = some false) ∧
      (a.activationDict = none → a.activation = none → n'.fn = some m.mapFn ∧ n'.useMapFunc = some true) ∧
      (∀ d, a.activationDict = some d → ∃ args, n'.fn = some ⟨.fuzzy, "fuzzy", args⟩ ∧ n'.useMapFunc = some false) := by
  unfold FCM.setConceptProperties at h
  rw [hn] at h
  rcases hb : updateNode m.memInfluence m.mapFn a n with ⟨r', n'⟩
  simp only [hb] at h
  cases h
  obtain ⟨ex, ty, adict, f, custom, vect, hex, hty, had, hch, e⟩ := updateNode_ok hb
  have e1 : n'.active = _ := (congrArg Node.active e :)
  have e2 : n'.exec = _ := (congrArg Node.exec e :)
  have e3 : n'.type = _ := (congrArg Node.type e :)
  have e4 : n'.useMem = _ := (congrArg Node.useMem e :)
  have e5 : n'.useMapFunc = _ := (congrArg Node.useMapFunc e :)
  have e6 : n'.fn = _ := (congrArg Node.fn e :)
  dsimp only at e1 e2 e3 e4 e5 e6
  have hnone : a.activationDict = none → adict = none := by
    intro h
    rw [h] at had
    cases adict with
    | none => rfl
    | some _ => cases had
  refine ⟨n', by simp, e1, ?_, ?_, ?_, ?_, e4, ?_, ?_, ?_⟩
  · intro hx; rw [hx] at hex; rw [e2, hex]
  · intro x hx; rw [hx] at hex; obtain ⟨g, h1, h2⟩ := hex; exact ⟨g, h1, by rw [e2, h2]⟩
  · intro hx; rw [hx] at hty; rw [e3, hty]
  · intro x hx; rw [hx] at hty; rw [e3, hty.2]
  · intro g hd hg
    obtain ⟨h1, h2, h3, h4⟩ := hch.named (hnone hd) g hg
    refine ⟨f.fn, h1, ?_, ?_⟩
    · rw [e6, ← h2, ← h3]
    · rw [e5, h4]; rfl
  · intro hd hg
    obtain ⟨h1, h2⟩ := hch.other (hnone hd) hg
    exact ⟨by rw [e6, h1], by rw [e5, h2]; rfl⟩
  · intro d hd
    rw [hd] at had
    obtain ⟨x, hx⟩ := Option.isSome_iff_exists.1 had
    obtain ⟨h1, h2⟩ := hch.dict x hx
    exact ⟨x, by rw [e6, h1], by rw [e5, h2]; rfl⟩

/-- `set_concept_properties('c', is_active=False)` on `map1`, where `c` does not use its memory. -/
theorem C19_counterexample : ¬ C19_full ℚ := by
  intro h
  have key : ∀ n n', Ex.map1.topology.get? "c" = some n →
      (FCM.setConceptProperties "c" { isActive := some false } Ex.map1).2.topology.get? "c" = some n' →
      n'.useMem = n.useMem := fun n n' hn hn' =>
    (h Ex.map1 _ "c" { isActive := some false } n n' Ex.map1_reachable hn (Ex.run_eq (by decide +kernel)) hn').2.2.2.1 rfl
  have e : ((FCM.setConceptProperties "c" { isActive := some false } Ex.map1).2.topology.get? "c").map (·.useMem) =
      some (some true) := by decide +kernel
  have e0 : (Ex.map1.topology.get? "c").map (·.useMem) = some (some false) := by decide +kernel
  rw [Option.map_eq_some_iff] at e e0
  obtain ⟨n', hn', e⟩ := e
  obtain ⟨n, hn, e0⟩ := e0
  have := key n n' hn hn'
  rw [e, e0] at this
  cases this

example {n : Node ℚ} (hn : Ex.map1.topology.get? "b" = some n) :=
  C19_frame hn (Ex.run_eq (x := FCM.setConceptProperties "b" { isActive := some false } Ex.map1) (by decide +kernel))
example {n : Node ℚ} (hn : Ex.map1.topology.get? "b" = some n) :=
  C19_named_partial hn
    (Ex.run_eq (x := FCM.setConceptProperties "b" { isActive := some false } Ex.map1) (by decide +kernel))

/-! ### C20: `set_map_activation_function` -/

/-- When it returns, every existing concept without a custom function has the new function, and every concept with a
custom function is untouched; no other part of the map changes. -/
theorem C20_existing {m m' : FCM α} {f : String} {k : Args α} (hr : Reachable m)
    (h : FCM.setMapActivationFunction f k m = (.ok (), m')) :
    ∃ g, Activation.getFunctionByName f = some g ∧ m'.mapFn = ⟨g, f, k⟩ ∧
      m' = { m with prepared := false, mapFn := m'.mapFn, topology := m'.topology } ∧
      m'.topology.keys = m.topology.keys ∧
      ∀ c n, m.topology.get? c = some n →
        (n.useMapFunc = some true ∧ ∃ v, processFunctionArgs k = .ok v ∧
          m'.topology.get? c = some { n with fn := some ⟨g, f, k⟩, argsVect := some v }) ∨
        (n.useMapFunc = some false ∧ m'.topology.get? c = some n) := by
  simp only [FCM.setMapActivationFunction, PyM.run_bind, PyM.run_modify] at h
  cases hf : Activation.getFunctionByName f with
  | none => simp only [hf] at h; cases h
  | some g =>
    simp only [hf, PyM.run_bind, PyM.run_modify, PyM.run_get] at h
    obtain ⟨e, hk, -, -, hin⟩ := forEach_touch
      (fun c n x n' x' => x' = x ∧ ∀ n0, n = some n0 →
        (n0.useMapFunc = some true ∧ ∃ v, processFunctionArgs k = .ok v ∧
          n' = some { n0 with fn := some ⟨g, f, k⟩, argsVect := some v }) ∨ (n0.useMapFunc = some false ∧ n' = some n0))
      (by
        intro c s s' hs
        unfold applyMapFn at hs
        split at hs
        · cases hs
        · rename_i n hn
          have hmem := Dict.mem_keys_of_get? hn
          split at hs
          · cases hs
          · rename_i hu
            cases hs
            refine ⟨Touch.refl _ _, rfl, ?_⟩
            intro n0 h0
            rw [hn] at h0; cases h0
            exact .inr ⟨hu, hn⟩
          · rename_i hu
            split at hs
            · cases hs
            · rename_i v hv
              cases hs
              refine ⟨Touch.setNode hmem _, rfl, ?_⟩
              intro n0 h0
              rw [hn] at h0; cases h0
              exact .inl ⟨hu, v, hv, by simp⟩) (by exact hr.inv.tnd) h
    have hexe : m'.execution = m.execution := by
      have := PyM.forEach_ok (fun x : FCM α => x.execution = m.execution)
        (by
          intro c _ s s' hs hstep
          unfold applyMapFn at hstep
          split at hstep
          · cases hstep
          · split at hstep
            · cases hstep
            · cases hstep; exact hs
            · split at hstep
              · cases hstep
              · cases hstep; exact hs) (by rfl) h
      exact this
    refine ⟨g, rfl, by rw [e], ?_, hk, ?_⟩
    · rw [hexe] at e
      rw [e]
    · intro c n hn
      exact (hin c (Dict.mem_keys_of_get? hn)).2 n hn

/-- Calls that redefine concept `c` itself, or remove it. -/
def Op.Redefines (c : String) : Op α → Prop
  | .addConcept c' _ => c' = c
  | .setConceptProperties c' _ => c' = c
  | .clearAll => True
  | _ => False

/-- Concept `c` has the custom function `(fn, name)`. -/
def HasCustom (m : FCM α) (c : String) (fn : ActFn) (name : String) : Prop :=
  ∃ n f, m.topology.get? c = some n ∧ n.useMapFunc = some false ∧ n.fn = some f ∧ f.fn = fn ∧ f.name = name

theorem HasCustom.of_get {m m' : FCM α} {c : String} {fn : ActFn} {name : String} (h : HasCustom m c fn name)
    (e : m'.topology.get? c = m.topology.get? c) : HasCustom m' c fn name := by
  obtain ⟨n, f, hn, r⟩ := h
  exact ⟨n, f, e.trans hn, r⟩

theorem addRelation_custom {m : FCM α} {c : String} {fn : ActFn} {name : String} (h : HasCustom m c fn name)
    (o d : String) (w : α) : HasCustom (FCM.addRelation o d w m).2 c fn name := by
  unfold FCM.addRelation
  dsimp only
  split
  · obtain ⟨n, f, hn, hu, hf, h1, h2⟩ := h
    have key : ∃ n', Dict.get? ((m.topology.modify o fun n => { n with arcs := n.arcs ++ [(d, w)] }).modify d
        fun n => { n with actvSum := n.actvSum + w }) c = some n' ∧ n'.useMapFunc = some false ∧ n'.fn = some f := by
      rw [Dict.get?_modify, Dict.get?_modify, hn]
      split <;> split <;> exact ⟨_, rfl, hu, hf⟩
    obtain ⟨n', hn', hu', hf'⟩ := key
    generalize (m.topology.modify o fun n => { n with arcs := n.arcs ++ [(d, w)] }).modify d
        (fun n => { n with actvSum := n.actvSum + w }) = t at *
    split
    · exact ⟨n', f, hn', hu', hf', h1, h2⟩
    · split
      · exact ⟨n', f, hn', hu', hf', h1, h2⟩
      · rename_i nd hnd
        split
        · exact ⟨n', f, hn', hu', hf', h1, h2⟩
        · rename_i nd' hfit
          show ∃ n f, Dict.get? (t.set d nd') c = some n ∧ _
          by_cases hdc : d = c
          · subst hdc
            rw [hn'] at hnd
            cases hnd
            obtain ⟨f', e1, ⟨f0, e2, e3, e4⟩, e5⟩ := fitSlope_kept hfit
            rw [hf'] at e2
            cases e2
            refine ⟨nd', f', by simp, ?_, e1, e4.trans h1, e3.trans h2⟩
            rw [e5]; exact hu'
          · exact ⟨n', f, by rw [Dict.get?_set_ne _ _ hdc]; exact hn', hu', hf', h1, h2⟩
  · exact h

/-- A custom function survives every call - including `set_map_activation_function` and calls that raise - except
those that redefine or remove the concept itself. -/
theorem C20_custom_kept {m : FCM α} {c : String} {fn : ActFn} {name : String} (h : HasCustom m c fn name)
    (ops : List (Op α)) (hops : ∀ op ∈ ops, ¬ op.Redefines c) : HasCustom (runOps ops m) c fn name := by
  induction ops generalizing m with
  | nil => exact h
  | cons op ops ih =>
    refine ih ?_ (fun op' h' => hops op' (by simp [h']))
    have hop := hops op (by simp)
    by_cases hs : op.soft = true
    · have := view_get (op.soft_view hs m) c
      obtain ⟨n, f, hn, hu, hf, h1, h2⟩ := h
      rw [hn] at this
      cases hn' : (op.run m).2.topology.get? c with
      | none => rw [hn'] at this; cases this
      | some n' =>
        rw [hn'] at this
        have e : n'.static = n.static := by simpa using this
        have e1 : n'.useMapFunc = n.useMapFunc := (congrArg Node.useMapFunc e :)
        have e2 : n'.fn = n.fn := (congrArg Node.fn e :)
        exact ⟨n', f, hn', e1.trans hu, e2.trans hf, h1, h2⟩
    · cases op
      case addConcept c' a =>
        refine h.of_get ?_
        have hne : c' ≠ c := hop
        simp only [Op.run, FCM.addConcept]
        split <;> exact Dict.get?_set_ne _ _ hne
      case setConceptProperties c' a =>
        refine h.of_get ?_
        have hne : c' ≠ c := hop
        simp only [Op.run, FCM.setConceptProperties]
        split
        · rfl
        · exact Dict.get?_set_ne _ _ hne
      case setMapActivationFunction f k =>
        simp only [Op.run, FCM.setMapActivationFunction, PyM.run_bind, PyM.run_modify]
        cases hf : Activation.getFunctionByName f with
        | none => exact h.of_get rfl
        | some g =>
          simp only [PyM.run_bind, PyM.run_modify, PyM.run_get]
          refine Pres.forEach (P := fun x => HasCustom x c fn name) ?_ _ (h.of_get rfl)
          intro c' _ s hs
          unfold applyMapFn
          split
          · exact hs
          · rename_i n hn
            split
            · exact hs
            · exact hs
            · rename_i hu
              have hne : c' ≠ c := by
                rintro rfl
                obtain ⟨n0, f0, hn0, hu0, -⟩ := hs
                rw [hn] at hn0; cases hn0
                rw [hu] at hu0; cases hu0
              split
              · exact hs.of_get (Dict.get?_set_ne _ _ hne)
              · exact hs.of_get (Dict.get?_set_ne _ _ hne)
      case addRelation o d w => exact addRelation_custom h o d w
      case clearAll => exact absurd trivial hop
      all_goals exact absurd rfl hs

/-- A concept added without a function of its own gets the function of the *default concept*, which
`set_map_activation_function` does not update, though it is marked as following the map. -/
theorem C20_added {m m' : FCM α} {c : String} {a : ConceptArgs α} (h : FCM.addConcept c a m = (.ok (), m'))
    (h1 : a.activation = none) (h2 : a.activationDict = none) :
    ∃ n, m'.topology.get? c = some n ∧ n.useMapFunc = some true ∧ n.fn = some m.default.fn := by
  rcases hb : buildNode m.default a (freshNode (a.isActive.getD m.default.active)) with ⟨r, node⟩
  simp only [FCM.addConcept, hb] at h
  cases r with
  | error e => cases h
  | ok u =>
    cases h
    obtain ⟨ex, adict, f, custom, vect, -, had, hch, e⟩ := buildNode_ok hb
    have hnone : adict = none := by
      rw [h2] at had
      cases adict with
      | none => rfl
      | some _ => cases had
    obtain ⟨e1, e2⟩ := hch.other hnone h1
    have e5 : node.useMapFunc = _ := (congrArg Node.useMapFunc e :)
    have e6 : node.fn = _ := (congrArg Node.fn e :)
    refine ⟨_, Dict.get?_set_self _ _ _, ?_, ?_⟩
    · exact e5.trans (by rw [e2]; rfl)
    · exact e6.trans (by rw [e1])

theorem setMap_default {m : FCM α} (f : String) (k : Args α) :
    (FCM.setMapActivationFunction f k m).2.default = m.default := by
  simp only [FCM.setMapActivationFunction, PyM.run_bind, PyM.run_modify]
  cases hf : Activation.getFunctionByName f with
  | none => rfl
  | some g =>
    simp only [PyM.run_bind, PyM.run_modify, PyM.run_get]
    refine Pres.forEach (P := fun x : FCM α => x.default = m.default) ?_ _ rfl
    intro c' _ s hs
    unfold applyMapFn
    split
    · exact hs
    · split
      · exact hs
      · exact hs
      · split <;> exact hs

/-- The full claim for concepts added later. -/
def C20_full (α : Type) [Arith α] : Prop :=
  ∀ (m m1 m2 : FCM α) (f c : String) (k : Args α) (a : ConceptArgs α) (n : Node α), Reachable m →
    FCM.setMapActivationFunction f k m = (.ok (), m1) → FCM.addConcept c a m1 = (.ok (), m2) →
    a.activation = none → a.activationDict = none → m2.topology.get? c = some n → n.fn = some m1.mapFn

/-- It is true exactly when the default concept's function happens to be the new one already. -/
theorem C20_later_partial {m m1 m2 : FCM α} {f c : String} {k : Args α} {a : ConceptArgs α} {n : Node α}
    (h1 : FCM.setMapActivationFunction f k m = (.ok (), m1)) (h2 : FCM.addConcept c a m1 = (.ok (), m2))
    (ha : a.activation = none) (hd : a.activationDict = none) (hn : m2.topology.get? c = some n) :
    n.fn = some m1.mapFn ↔ m.default.fn = m1.mapFn := by
  obtain ⟨n', hn', -, hf⟩ := C20_added h2 ha hd
  rw [hn] at hn'; cases hn'
  have : m1.default = m.default := by have := setMap_default (m := m) f k; rwa [h1] at this
  rw [hf, this]
  simp

theorem C20_counterexample : ¬ C20_full ℚ := by
  intro h
  obtain ⟨n, hn, -⟩ := C20_added (m := (FCM.setMapActivationFunction "sigmoid" [] Ex.map1).2) (c := "d") (a := {})
    (Ex.run_eq (by decide +kernel)) rfl rfl
  have h1 := (C20_later_partial (m := Ex.map1) (f := "sigmoid") (k := []) (c := "d") (a := {})
    (Ex.run_eq (by decide +kernel)) (Ex.run_eq (by decide +kernel)) rfl rfl hn).1 (h Ex.map1 _ _ "sigmoid" "d" [] {} n Ex.map1_reachable (Ex.run_eq (by decide +kernel))
    (Ex.run_eq (by decide +kernel)) rfl rfl hn)
  exact absurd h1 (by decide +kernel)

example := C20_existing Ex.map1_reachable
  (Ex.run_eq (x := FCM.setMapActivationFunction "sigmoid" [] Ex.map1) (by decide +kernel))
/-- A map with a custom concept keeps it through a change of the map function, a new relation, and a run. -/
example : HasCustom (runOps (Ex.ops1 ++ [.addConcept "k" { activation := some "gceq" }] ++
    [.setMapActivationFunction "relm" [], .addRelation "a" "k" 1, .runInference true]) Ex.sat0) "k" .gceq "gceq" := by
  rw [runOps, List.foldl_append]
  refine C20_custom_kept ?_ _ (by intro op h; simp at h; rcases h with rfl | rfl | rfl <;> exact id)
  have : ((runOps (Ex.ops1 ++ [.addConcept "k" { activation := some "gceq" }]) Ex.sat0).topology.get? "k").map
      (fun n => (n.useMapFunc, n.fn)) = some (some false, some ⟨.gceq, "gceq", []⟩) := by decide +kernel
  obtain ⟨n, hn, e⟩ := Option.map_eq_some_iff.1 this
  obtain ⟨e1, e2⟩ := Prod.mk.inj e
  exact ⟨n, _, hn, e1, e2, rfl, rfl⟩

/-! ### C21: `get_final_state` -/

/-- What `get_final_state` is asked for: a list of names, or (if that is empty) a type. -/
def Spec.Wanted (ctype : String) (names : List String) (c : String) (type : String) : Prop :=
  if names ≠ [] then c ∈ names
  else ctype = "any" ∨ (ctype = "target" ∧ (type = TYPE_DECISION ∨ type = TYPE_REGRESOR)) ∨
    (ctype ≠ "any" ∧ ctype ≠ "target" ∧ type = ctype)

theorem finalState_pick {m : FCM α} {ctype : String} {names : List String} {c : String} {cs : List String}
    {n : Node α} {ty : String} (hn : m.topology.get? c = some n) (hty : n.type = some ty) {rest : Dict α}
    (hrest : finalStateLoop m ctype names cs = .ok rest) :
    ∃ r, finalStateLoop m ctype names (c :: cs) = .ok r ∧
      ((Spec.Wanted ctype names c ty ∧ r = (c, n.value) :: rest) ∨ (¬ Spec.Wanted ctype names c ty ∧ r = rest)) := by
  unfold finalStateLoop Spec.Wanted
  rw [hrest, hn]
  by_cases hl : names = []
  · subst hl
    by_cases h1 : ctype = "any"
    · subst h1
      exact ⟨_, by simp [need, hty, bind, Except.bind, pure, Except.pure], .inl ⟨by simp, rfl⟩⟩
    · by_cases h2 : ctype = "target"
      · subst h2
        by_cases h3 : ty = TYPE_DECISION ∨ ty = TYPE_REGRESOR
        · exact ⟨_, by simp [need, hty, bind, Except.bind, pure, Except.pure, h3], .inl ⟨by simp [h3], rfl⟩⟩
        · exact ⟨_, by simp [need, hty, bind, Except.bind, pure, Except.pure, h3], .inr ⟨by simp [h3], rfl⟩⟩
      · by_cases h3 : ty = ctype
        · exact ⟨_, by simp [need, hty, bind, Except.bind, pure, Except.pure, h1, h2, h3],
            .inl ⟨by simp [h1, h2, h3], rfl⟩⟩
        · exact ⟨_, by simp [need, hty, bind, Except.bind, pure, Except.pure, h1, h2, h3],
            .inr ⟨by simp [h1, h2, h3], rfl⟩⟩
  · have hp := List.length_pos_iff.2 hl
    by_cases hc : c ∈ names
    · exact ⟨_, by simp [need, hc, hp, bind, Except.bind, pure, Except.pure], .inl ⟨by simp [hl, hc], rfl⟩⟩
    · exact ⟨_, by simp [hc, hp, bind, Except.bind, pure, Except.pure], .inr ⟨by simp [hl, hc], rfl⟩⟩

/-- The full claim: the result holds exactly the wanted concepts, each once, with their current values. -/
def C21_full (α : Type) [Arith α] : Prop :=
  ∀ (m : FCM α) (ctype : String) (names : List String), Reachable m → ∃ r, m.getFinalState ctype names = .ok r ∧
    r.keys.Nodup ∧ ∀ c v, (c, v) ∈ r ↔ ∃ n ty, m.topology.get? c = some n ∧ n.type = some ty ∧
      Spec.Wanted ctype names c ty ∧ v = n.value

theorem final_state_of {m : FCM α} (hi : Inv m) (hs : SameKeys m)
    (ht : ∀ c n, m.topology.get? c = some n → n.type.isSome = true) (ctype : String) (names : List String) :
    ∃ r, m.getFinalState ctype names = .ok r ∧ r.keys.Nodup ∧
      ∀ c v, (c, v) ∈ r ↔ ∃ n ty, m.topology.get? c = some n ∧ n.type = some ty ∧
        Spec.Wanted ctype names c ty ∧ v = n.value := by
  have key : ∀ ks : List String, ks.Nodup → (∀ c ∈ ks, c ∈ m.topology.keys) →
      ∃ r, finalStateLoop m ctype names ks = .ok r ∧ r.keys.Nodup ∧ (∀ c ∈ r.keys, c ∈ ks) ∧
        ∀ c v, (c, v) ∈ r ↔ c ∈ ks ∧ ∃ n ty, m.topology.get? c = some n ∧ n.type = some ty ∧
          Spec.Wanted ctype names c ty ∧ v = n.value := by
    intro ks
    induction ks with
    | nil => intro _ _; exact ⟨[], rfl, by simp, by simp, by simp⟩
    | cons c ks ih =>
      intro hnd hsub
      obtain ⟨rest, h1, h2, h3, h4⟩ := ih (List.nodup_cons.1 hnd).2 fun c' h => hsub c' (by simp [h])
      obtain ⟨n, hn⟩ := Dict.exists_get?_of_mem (hsub c (by simp))
      obtain ⟨ty, hty⟩ := Option.isSome_iff_exists.1 (ht c n hn)
      obtain ⟨r, hr, hcase⟩ := finalState_pick (ctype := ctype) (names := names) hn hty h1
      have hcn : c ∉ rest.keys := fun h => (List.nodup_cons.1 hnd).1 (h3 c h)
      refine ⟨r, hr, ?_⟩
      rcases hcase with ⟨hw, rfl⟩ | ⟨hw, rfl⟩
      · refine ⟨List.nodup_cons.2 ⟨hcn, h2⟩, ?_, ?_⟩
        · intro c' h'
          rcases List.mem_cons.1 h' with rfl | h'
          · simp
          · exact List.mem_cons_of_mem _ (h3 c' h')
        · intro c' v
          rw [List.mem_cons, h4, Prod.mk.injEq]
          constructor
          · rintro (⟨rfl, rfl⟩ | ⟨hk, hx⟩)
            · exact ⟨by simp, n, ty, hn, hty, hw, rfl⟩
            · exact ⟨by simp [hk], hx⟩
          · rintro ⟨hk, n', ty', hn', hty', hw', hv⟩
            rcases List.mem_cons.1 hk with rfl | hk
            · rw [hn] at hn'; cases hn'
              exact .inl ⟨rfl, hv⟩
            · exact .inr ⟨hk, n', ty', hn', hty', hw', hv⟩
      · refine ⟨h2, fun c' h' => List.mem_cons_of_mem _ (h3 c' h'), ?_⟩
        intro c' v
        rw [h4]
        constructor
        · rintro ⟨hk, hx⟩
          exact ⟨by simp [hk], hx⟩
        · rintro ⟨hk, n', ty', hn', hty', hw', hv⟩
          rcases List.mem_cons.1 hk with rfl | hk
          · rw [hn] at hn'; cases hn'
            rw [hty] at hty'; cases hty'
            exact absurd hw' hw
          · exact ⟨hk, n', ty', hn', hty', hw', hv⟩
  obtain ⟨r, h1, h2, -, h4⟩ := key m.execution.keys hi.xnd hi.sub
  refine ⟨r, h1, h2, ?_⟩
  intro c v
  rw [h4]
  constructor
  · exact fun h => h.2
  · rintro ⟨n, ty, hn, h⟩
    exact ⟨(hs c).1 (Dict.mem_keys_of_get? hn), n, ty, hn, h⟩

/-- It holds for maps built without exceptions (a rejected `add_concept` leaves a concept without a recorded
trajectory, which `get_final_state` then does not see). -/
theorem C21_final_state_partial {m : FCM α} (hr : CleanReachable m) (ctype : String) (names : List String) :
    ∃ r, m.getFinalState ctype names = .ok r ∧ r.keys.Nodup ∧
      ∀ c v, (c, v) ∈ r ↔ ∃ n ty, m.topology.get? c = some n ∧ n.type = some ty ∧
        Spec.Wanted ctype names c ty ∧ v = n.value :=
  final_state_of hr.clean.inv hr.clean.sameKeys (fun c n hn => (hr.clean.good c n hn).full.type) ctype names

example := C21_final_state_partial Ex.map1_clean "target" []
example : Ex.map1.getFinalState "target" [] = .ok [("c", 0)] ∧
    Ex.map1.getFinalState "any" ["b", "zz", "a"] = .ok [("a", 1), ("b", 3/4)] := by decide +kernel

/-- `add_concept('d', concept_type=DECISION, activation_function='nothing')` raises but leaves a decision concept that
`get_final_state()` does not report. -/
theorem C21_counterexample : ¬ C21_full ℚ := by
  intro h
  obtain ⟨r, h1, -, h3⟩ := h (runOps [.addConcept "d" { type := some TYPE_DECISION, activation := some "nothing" }] Ex.sat0)
    "target" [] (Ex.reachable_made _ Ex.sat0_new)
  have e : FCM.getFinalState (runOps [.addConcept "d" { type := some TYPE_DECISION, activation := some "nothing" }] Ex.sat0)
    "target" [] = .ok [] := by decide +kernel
  rw [e] at h1
  cases h1
  have hn : ((runOps [.addConcept "d" { type := some TYPE_DECISION, activation := some "nothing" }] Ex.sat0).topology.get?
    "d").map (·.type) = some (some TYPE_DECISION) := by decide +kernel
  obtain ⟨n, hn, hty⟩ := Option.map_eq_some_iff.1 hn
  have := (h3 "d" n.value).2 ⟨n, _, hn, hty, by simp [Spec.Wanted], rfl⟩
  cases this

/-! ### C22: `is_stable` -/

/-- No concept moved by more than the threshold between its last two recorded values. -/
def Spec.AtRest (m : FCM α) : Prop :=
  ∀ c ∈ m.topology.keys, (m.stabilityDiff <? abs ((m.traj c).getD ((m.traj c).length - 1) (lit 0) -
    (m.traj c).getD ((m.traj c).length - 2) (lit 0))) = false

/-- The full claim: `is_stable()` never raises, and is True exactly if a step was run (every trajectory has two
entries) and no concept moved. -/
def C22_full (α : Type) [Arith α] : Prop :=
  ∀ m : FCM α, CleanReachable m → ∃ b, m.isStable = .ok b ∧
    (b = true ↔ (∀ c ∈ m.topology.keys, 2 ≤ (m.traj c).length) ∧ Spec.AtRest m)

/-- Right after `run_inference()` with the iterative engine (on a map with a concept) it holds. -/
theorem C22_after_run_partial {m m' : FCM α} (hr : Reachable m) (hd : m.debug = true) (hne : m.topology ≠ [])
    (h : FCM.runInference true m = (.ok (), m')) :
    ∃ b, m'.isStable = .ok b ∧
      (b = true ↔ (∀ c ∈ m'.topology.keys, 2 ≤ (m'.traj c).length) ∧ Spec.AtRest m') := by
  obtain ⟨len, r⟩ := run_iter hr.inv hd h
  have hlen : ∀ c ∈ m'.topology.keys, (m'.traj c).length = len := fun c hc => (r.run c (by rwa [← r.keys])).1
  have hsame : ∀ c, c ∈ m'.execution.keys → c ∈ m'.topology.keys := r.inv.sub
  obtain ⟨c0, hc0⟩ : ∃ c, c ∈ m'.topology.keys := by
    rw [r.keys]
    cases ht : m.topology with
    | nil => exact absurd ht hne
    | cons p t => exact ⟨p.1, by simp⟩
  unfold FCM.isStable
  rw [r.iters]
  by_cases h1 : len > 1
  · rw [if_pos h1]
    have hx : ∀ p ∈ m'.execution, p.2 = m'.traj p.1 ∧ p.1 ∈ m'.topology.keys := by
      intro p hp
      have := Dict.get?_of_mem r.inv.xnd (k := p.1) (v := p.2) hp
      exact ⟨by simp [FCM.traj, this], hsame _ (Dict.mem_keys_of_get? this)⟩
    refine ⟨_, stableLoop_eq ?_, ?_⟩
    · intro p hp
      obtain ⟨e, hk⟩ := hx p hp
      rw [e, hlen _ hk]; omega
    · rw [List.all_eq_true]
      constructor
      · intro hall
        refine ⟨fun c hc => by rw [hlen c hc]; omega, ?_⟩
        intro c hc
        have hce : c ∈ m'.execution.keys := by
          rw [r.ekeys]; exact (r.same c).1 (by rwa [← r.keys])
        obtain ⟨xs, hxs⟩ := Dict.exists_get?_of_mem hce
        have := hall (c, xs) (Dict.get?_mem hxs)
        simp only [Bool.not_eq_true'] at this
        simpa [FCM.traj, hxs] using this
      · rintro ⟨-, hrest⟩ p hp
        obtain ⟨e, hk⟩ := hx p hp
        have := hrest _ hk
        rw [← e] at this
        simpa using this
  · rw [if_neg h1]
    refine ⟨false, rfl, ?_⟩
    constructor
    · intro h; cases h
    · rintro ⟨h, -⟩
      have := h c0 hc0
      rw [hlen c0 hc0] at this
      omega

/-- Before any run it is False. -/
theorem C22_before (m : FCM α) (h : m.iterations ≤ 1) : m.isStable = .ok false := by
  unfold FCM.isStable
  rw [if_neg (by omega)]

example := C22_after_run_partial Ex.map1_reachable rfl (by decide +kernel) Ex.map1_run
example : Ex.map1'.isStable = .ok true := by decide +kernel
example := C22_before Ex.map1 (by decide +kernel)

/-- After a run followed by `init_concept`, `is_stable()` raises IndexError. -/
theorem C22_counterexample : ¬ C22_full ℚ := by
  intro h
  obtain ⟨b, hb, -⟩ := h (runOps (Ex.ops1 ++ [.runInference true, .initConcept "a" 1 true]) Ex.sat0)
    (Ex.cleanReachable_of (.new Ex.sat0_new) _ (by decide +kernel))
  have e : (runOps (Ex.ops1 ++ [.runInference true, .initConcept "a" 1 true]) Ex.sat0).isStable = .error .indexError := by
    decide +kernel
  rw [e] at hb
  cases hb

/-- The vectorised engine does not count its steps: on a fresh map `is_stable()` is False after it, although every
trajectory has come to rest. -/
theorem C22_counterexample_vector : Ex.map2'.isStable = .ok false ∧
    Ex.map2'.execution.all (fun p => p.2.getD (p.2.length - 1) 0 == p.2.getD (p.2.length - 2) 1) = true := by
  decide +kernel

end PyFCM
