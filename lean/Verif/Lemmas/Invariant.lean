import Verif.Model.Api
import Verif.Lemmas.Engine
import Verif.Lemmas.Pres
/-
The representation invariant of the map object, preserved by every public operation (also when it raises).
-/
namespace PyFCM
open Arith

set_option linter.unusedSectionVars false

variable {α : Type} [Arith α]

def FnInfo.Ok (f : FnInfo α) : Prop := Activation.getFunctionByName f.name = some f.fn
def ExecOk (ex : ExcFn × String) : Prop := Excitation.getByName ex.2 = some ex.1

/-- The stored callables are the ones named by the stored names. -/
structure Node.Ok (n : Node α) : Prop where
  exec : ∀ ex, n.exec = some ex → ExecOk ex
  fn : ∀ f, n.fn = some f → f.Ok
  type : ∀ t, n.type = some t → isValidType t = true

structure DefaultConcept.Ok (d : DefaultConcept α) : Prop where
  exec : ExecOk d.exec
  fn : d.fn.Ok
  type : isValidType d.type = true

structure Inv (m : FCM α) : Prop where
  tnd : m.topology.keys.Nodup
  xnd : m.execution.keys.Nodup
  sub : ∀ c ∈ m.execution.keys, c ∈ m.topology.keys
  ends : ∀ a ∈ m.arcList, a.origin ∈ m.topology.keys ∧ a.dest ∈ m.topology.keys
  nodes : ∀ c n, m.topology.get? c = some n → n.Ok
  dflt : m.default.Ok
  mapFn : m.mapFn.Ok
  dec : Decision.getByName m.decisionName = some m.decisionFn
  extra : 1 ≤ m.extraSteps

/-! ### Nodes -/

theorem fuzzyInfoOk (d : Args α) : (⟨.fuzzy, "fuzzy", d⟩ : FnInfo α).Ok := rfl

theorem Node.Ok.setExec {n : Node α} (h : n.Ok) {ex : ExcFn × String} (hex : ExecOk ex) :
    ({ n with exec := some ex } : Node α).Ok :=
  ⟨fun _ he => by cases he; exact hex, h.fn, h.type⟩
theorem Node.Ok.setFn {n : Node α} (h : n.Ok) {f : FnInfo α} (hf : f.Ok) : ({ n with fn := some f } : Node α).Ok :=
  ⟨h.exec, fun _ he => by cases he; exact hf, h.type⟩
theorem Node.Ok.setType {n : Node α} (h : n.Ok) {t : String} (hf : isValidType t = true) :
    ({ n with type := some t } : Node α).Ok :=
  ⟨h.exec, h.fn, fun _ he => by cases he; exact hf⟩

theorem Node.Ok.of_same {n n' : Node α} (h : n.Ok) (he : n'.exec = n.exec) (hf : n'.fn = n.fn) (ht : n'.type = n.type) :
    n'.Ok :=
  ⟨by rw [he]; exact h.exec, by rw [hf]; exact h.fn, by rw [ht]; exact h.type⟩

theorem freshNode_ok (b : Bool) : (freshNode b : Node α).Ok :=
  ⟨fun _ h => (nomatch h), fun _ h => (nomatch h), fun _ h => (nomatch h)⟩

/-- Sets of parts of a node that its well-formedness does not depend on. -/
macro "node_same" : tactic => `(tactic| (intro n hn; exact hn.of_same rfl rfl rfl))

theorem storeFuzzy_pres (d : Args α) : Pres Node.Ok (storeFuzzy d) := by
  unfold storeFuzzy
  refine Pres.bind (Pres.lift _) fun p => Pres.bind (Pres.modify ?_) fun _ => Pres.pure _
  node_same

theorem copyFuzzy_pres (d : DefaultConcept α) : Pres Node.Ok (copyFuzzy d) := by
  unfold copyFuzzy
  refine Pres.bind (Pres.lift _) fun _ => Pres.bind (Pres.modify ?_) fun _ => Pres.bind (Pres.lift _) fun _ =>
    Pres.bind (Pres.lift _) fun _ => Pres.bind (Pres.modify ?_) fun _ => Pres.pure _
  all_goals node_same

theorem buildRest_pres (b : Bool) {f : FnInfo α} (hf : f.Ok) (a : ConceptArgs α) (adict : Option (Args α)) :
    Pres Node.Ok (buildRest b f a adict) := by
  unfold buildRest
  refine Pres.bind (Pres.modify ?_) fun _ => ?_
  · node_same
  refine Pres.bind ?_ fun v => Pres.modify ?_
  · unfold buildFn
    split
    · exact Pres.bind (Pres.modify fun n hn => hn.setFn (fuzzyInfoOk _)) fun _ => Pres.lift _
    · split
      · split
        · exact Pres.bind (Pres.modify fun n hn => hn.setFn ‹_›) fun _ => Pres.lift _
        · exact Pres.raise _
      · refine Pres.bind (Pres.modify fun n hn => hn.setFn hf) fun _ => Pres.bind (Pres.lift _) fun _ =>
          Pres.bind (Pres.modify ?_) fun _ => Pres.pure _
        node_same
  · node_same

theorem buildNode_pres {d : DefaultConcept α} (hd : d.Ok) (a : ConceptArgs α) :
    Pres Node.Ok (buildNode d a) := by
  unfold buildNode
  refine Pres.bind ?_ fun _ => ?_
  · unfold buildExec
    split
    · split
      · exact Pres.modify fun n hn => hn.setExec ‹_›
      · exact Pres.raise _
    · exact Pres.modify fun n hn => hn.setExec hd.exec
  refine Pres.bind (Pres.modify fun n hn => hn.setType ?_) fun _ => ?_
  · unfold buildType
    split
    · split
      · assumption
      · exact hd.type
    · exact hd.type
  refine Pres.bind ?_ fun adict => buildRest_pres _ hd.fn _ _
  unfold buildFuzzy
  refine Pres.ite (fun _ => ?_) (fun _ => Pres.pure _)
  split
  · exact storeFuzzy_pres _
  · exact Pres.ite (fun _ => copyFuzzy_pres _) (fun _ => Pres.pure _)

theorem updateNode_pres (mem : Bool) {f : FnInfo α} (hf : f.Ok) (a : ConceptArgs α) :
    Pres Node.Ok (updateNode mem f a) := by
  unfold updateNode
  refine Pres.bind ?_ fun _ => ?_
  · unfold updateActive
    split
    · refine Pres.modify ?_; node_same
    · exact Pres.pure _
  refine Pres.bind ?_ fun _ => ?_
  · unfold updateExec
    split
    · split
      · exact Pres.modify fun n hn => hn.setExec ‹_›
      · exact Pres.raise _
    · exact Pres.pure _
  refine Pres.bind ?_ fun _ => ?_
  · unfold updateType
    split
    · exact Pres.ite (fun h => Pres.modify fun n hn => hn.setType h) (fun _ => Pres.raise _)
    · exact Pres.pure _
  refine Pres.bind ?_ fun adict => buildRest_pres _ hf _ _
  unfold updateFuzzy
  split
  · exact Pres.ite (fun _ => storeFuzzy_pres _) (fun _ => Pres.pure _)
  · exact Pres.pure _

theorem updateDefault_pres (mem : Bool) {f : FnInfo α} (hf : f.Ok) (a : ConceptArgs α) :
    Pres DefaultConcept.Ok (updateDefault mem f a) := by
  unfold updateDefault
  refine Pres.bind ?_ fun _ => ?_
  · unfold defaultActive
    split
    · exact Pres.modify fun n hn => ⟨hn.exec, hn.fn, hn.type⟩
    · exact Pres.pure _
  refine Pres.bind ?_ fun _ => ?_
  · unfold defaultExec
    split
    · split
      · exact Pres.modify fun n hn => ⟨‹_›, hn.fn, hn.type⟩
      · exact Pres.raise _
    · exact Pres.raise _
  refine Pres.bind ?_ fun _ => ?_
  · unfold defaultType
    split
    · exact Pres.ite (fun h => Pres.modify fun n hn => ⟨hn.exec, hn.fn, h⟩) (fun _ => Pres.raise _)
    · exact Pres.raise _
  refine Pres.bind ?_ fun adict => ?_
  · unfold defaultFuzzy
    refine Pres.ite (fun _ => ?_) (fun _ => Pres.pure _)
    split
    · refine Pres.bind (Pres.lift _) fun p => ?_
      exact Pres.bind (Pres.modify fun n hn => ⟨hn.exec, hn.fn, hn.type⟩) fun _ => Pres.pure _
    · exact Pres.raise _
  refine Pres.bind (Pres.modify fun n hn => ⟨hn.exec, hn.fn, hn.type⟩) fun _ => ?_
  unfold defaultFn
  split
  · exact Pres.modify fun n hn => ⟨hn.exec, fuzzyInfoOk _, hn.type⟩
  · split
    · split
      · exact Pres.modify fun n hn => ⟨hn.exec, ‹_›, hn.type⟩
      · exact Pres.raise _
    · exact Pres.modify fun n hn => ⟨hn.exec, hf, hn.type⟩

/-! ### Maps -/

theorem Inv.congr {m m' : FCM α} (h : Inv m) (ht : m'.topology = m.topology) (hx : m'.execution = m.execution)
    (ha : m'.arcList = m.arcList) (hd : m'.default = m.default) (hm : m'.mapFn = m.mapFn)
    (hn : m'.decisionName = m.decisionName) (hf : m'.decisionFn = m.decisionFn)
    (he : m'.extraSteps = m.extraSteps) : Inv m' := by
  constructor
  · rw [ht]; exact h.tnd
  · rw [hx]; exact h.xnd
  · rw [hx, ht]; exact h.sub
  · rw [ha, ht]; exact h.ends
  · rw [ht]; exact h.nodes
  · rw [hd]; exact h.dflt
  · rw [hm]; exact h.mapFn
  · rw [hn, hf]; exact h.dec
  · rw [he]; exact h.extra

/-- Replacing a concept by a well-formed one. -/
theorem Inv.setNode {m : FCM α} (h : Inv m) (c : String) {n : Node α} (hn : n.Ok) :
    Inv { m with topology := m.topology.set c n } := by
  constructor
  · exact Dict.nodup_keys_set _ _ _ h.tnd
  · exact h.xnd
  · intro x hx; exact (Dict.mem_keys_set _ _ _ _).2 (Or.inl (h.sub x hx))
  · intro a ha
    obtain ⟨h1, h2⟩ := h.ends a ha
    exact ⟨(Dict.mem_keys_set _ _ _ _).2 (Or.inl h1), (Dict.mem_keys_set _ _ _ _).2 (Or.inl h2)⟩
  · intro x k hk
    simp only [Dict.get?_set] at hk
    split at hk
    · cases hk; exact hn
    · exact h.nodes x k hk
  · exact h.dflt
  · exact h.mapFn
  · exact h.dec
  · exact h.extra

theorem Inv.setExecution {m : FCM α} (h : Inv m) {c : String} (hc : c ∈ m.topology.keys) (xs : List α) :
    Inv { m with execution := m.execution.set c xs } := by
  constructor
  · exact h.tnd
  · exact Dict.nodup_keys_set _ _ _ h.xnd
  · intro x hx
    rcases (Dict.mem_keys_set _ _ _ _).1 hx with hx | rfl
    · exact h.sub x hx
    · exact hc
  · exact h.ends
  · exact h.nodes
  · exact h.dflt
  · exact h.mapFn
  · exact h.dec
  · exact h.extra

theorem Inv.setBoth {m : FCM α} (h : Inv m) (c : String) {n : Node α} (hn : n.Ok) (xs : List α) :
    Inv { m with topology := m.topology.set c n, execution := m.execution.set c xs } :=
  (h.setNode c hn).setExecution (by simp [Dict.mem_keys_set]) xs

theorem addConcept_pres (c : String) (a : ConceptArgs α) : Pres Inv (FCM.addConcept c a : PyM (FCM α) Unit) := by
  intro m hm
  have hn := buildNode_pres hm.dflt a (freshNode (a.isActive.getD m.default.active)) (freshNode_ok _)
  unfold FCM.addConcept
  dsimp only
  generalize buildNode m.default a (freshNode (a.isActive.getD m.default.active)) = p at hn ⊢
  obtain ⟨r, node⟩ := p
  have hm' : Inv { m with prepared := false } := hm.congr rfl rfl rfl rfl rfl rfl rfl rfl
  cases r
  · exact hm'.setNode c hn
  · exact hm'.setBoth c (n := { node with value := lit 0 }) (hn.of_same rfl rfl rfl) _

theorem setConceptProperties_pres (c : String) (a : ConceptArgs α) :
    Pres Inv (FCM.setConceptProperties c a : PyM (FCM α) Unit) := by
  intro m hm
  unfold FCM.setConceptProperties
  split
  · exact hm
  · rename_i node hnode
    have hn := updateNode_pres m.memInfluence hm.mapFn a node (hm.nodes c node hnode)
    generalize updateNode m.memInfluence m.mapFn a node = p at hn ⊢
    have hm' : Inv { m with prepared := false } := hm.congr rfl rfl rfl rfl rfl rfl rfl rfl
    exact hm'.setNode c hn

theorem setDefault_pres (a : ConceptArgs α) :
    Pres Inv (FCM.setDefaultConceptProperties a : PyM (FCM α) Unit) := by
  intro m hm
  unfold FCM.setDefaultConceptProperties
  have hd := updateDefault_pres m.memInfluence hm.mapFn a m.default hm.dflt
  exact ⟨hm.tnd, hm.xnd, hm.sub, hm.ends, hm.nodes, hd, hm.mapFn, hm.dec, hm.extra⟩

theorem setMapDecision_pres (f : String) : Pres Inv (FCM.setMapDecisionFunction f : PyM (FCM α) Unit) := by
  intro m hm
  unfold FCM.setMapDecisionFunction
  split
  · exact hm
  · exact ⟨hm.tnd, hm.xnd, hm.sub, hm.ends, hm.nodes, hm.dflt, hm.mapFn, ‹_›, hm.extra⟩

theorem applyMapFn_pres {f : FnInfo α} (hf : f.Ok) (c : String) : Pres Inv (applyMapFn f c) := by
  intro m hm
  unfold applyMapFn
  split
  · exact hm
  · rename_i n hn
    have hno := hm.nodes c n hn
    split
    · exact hm
    · exact hm
    · split
      · exact hm.setNode c (hno.setFn hf)
      · exact hm.setNode c ((hno.setFn hf).of_same rfl rfl rfl)

theorem setMapActivation_pres (f : String) (k : Args α) :
    Pres Inv (FCM.setMapActivationFunction f k : PyM (FCM α) Unit) := by
  intro m hm
  have hm' : Inv { m with prepared := false } := hm.congr rfl rfl rfl rfl rfl rfl rfl rfl
  simp only [FCM.setMapActivationFunction, PyM.run_bind, PyM.run_modify]
  cases hf : Activation.getFunctionByName f with
  | none => exact hm'
  | some g =>
    simp only [PyM.run_bind, PyM.run_modify, PyM.run_get]
    refine Pres.forEach (P := Inv) (fun c _ => applyMapFn_pres (f := ⟨g, f, k⟩) hf c) _ ?_
    exact ⟨hm.tnd, hm.xnd, hm.sub, hm.ends, hm.nodes, hm.dflt, hf, hm.dec, hm.extra⟩

theorem fitSlope_ok {fit : α} {n n' : Node α} (hn : n.Ok) (h : fitSlope fit n = .ok n') : n'.Ok := by
  unfold fitSlope at h
  split at h
  · cases h
  · rename_i f hf
    have hfo := hn.fn f hf
    split at h
    · cases h
    · cases h
      exact ⟨hn.exec, fun g hg => by cases hg; exact hfo, hn.type⟩
    · cases h; exact hn

theorem Inv.modifyNode {m : FCM α} (h : Inv m) (c : String) (f : Node α → Node α) (hf : ∀ n, n.Ok → (f n).Ok) :
    Inv { m with topology := m.topology.modify c f } := by
  unfold Dict.modify
  split
  · rename_i v hv
    exact h.setNode c (hf v (h.nodes c v hv))
  · exact h

theorem addRelation_pres (o d : String) (w : α) : Pres Inv (FCM.addRelation o d w : PyM (FCM α) Unit) := by
  intro m hm
  have hm0 : Inv { m with prepared := false } := hm.congr rfl rfl rfl rfl rfl rfl rfl rfl
  unfold FCM.addRelation
  dsimp only
  split
  · rename_i hmem
    rw [Bool.and_eq_true, Dict.has_iff, Dict.has_iff] at hmem
    have hm1 := (hm0.modifyNode o (fun n => { n with arcs := n.arcs ++ [(d, w)] })
      (fun n hn => hn.of_same rfl rfl rfl)).modifyNode d (fun n => { n with actvSum := n.actvSum + w })
      (fun n hn => hn.of_same rfl rfl rfl)
    dsimp only at hm1
    have hk : ∀ x, x ∈ ((m.topology.modify o (fun n => { n with arcs := n.arcs ++ [(d, w)] })).modify d
        (fun n => { n with actvSum := n.actvSum + w })).keys ↔ x ∈ m.topology.keys := by
      intro x; rw [Dict.keys_modify, Dict.keys_modify]
    have addArc : ∀ m' : FCM α, Inv m' → o ∈ m'.topology.keys → d ∈ m'.topology.keys →
        Inv { m' with arcList := m'.arcList ++ [⟨d, w, o⟩] } := by
      intro m' h ho hd
      refine ⟨h.tnd, h.xnd, h.sub, ?_, h.nodes, h.dflt, h.mapFn, h.dec, h.extra⟩
      intro a ha
      rcases List.mem_append.1 ha with ha | ha
      · exact h.ends a ha
      · rw [List.mem_singleton] at ha; subst ha; exact ⟨ho, hd⟩
    split
    · exact addArc _ hm1 ((hk o).2 hmem.2) ((hk d).2 hmem.1)
    · split
      · exact hm1
      · rename_i n hn
        split
        · exact hm1
        · rename_i n' hn'
          have := hm1.setNode d (fitSlope_ok (hm1.nodes d n hn) hn')
          exact addArc _ this ((Dict.mem_keys_set _ _ _ _).2 (Or.inl ((hk o).2 hmem.2)))
            ((Dict.mem_keys_set _ _ _ _).2 (Or.inl ((hk d).2 hmem.1)))
  · exact hm0

theorem initConcept_pres (c : String) (v : α) (r : Bool) : Pres Inv (FCM.initConcept c v r : PyM (FCM α) Unit) := by
  intro m hm
  unfold FCM.initConcept
  split
  · split <;> exact hm
  · rename_i n hn
    have hno := hm.nodes c n hn
    split
    · exact hm
    · split
      · split
        · exact hm
        · split
          · exact hm
          · exact hm.setBoth c (n := { n with value := _, aux := [] }) (hno.of_same rfl rfl rfl) _
      · exact hm.setBoth c (n := { n with value := _, aux := [] }) (hno.of_same rfl rfl rfl) _

theorem resetOne_pres (c : String) : Pres Inv (resetOne c : PyM (FCM α) Unit) := by
  intro m hm
  unfold resetOne
  split
  · exact hm
  · rename_i n hn
    have hno := hm.nodes c n hn
    have h1 := hm.setNode c (n := { n with aux := [] }) (hno.of_same rfl rfl rfl)
    dsimp only
    split
    · exact h1
    · exact h1
    · exact (h1.setBoth c (n := { n with aux := [], value := _ }) (hno.of_same rfl rfl rfl) _)

theorem reset_pres : Pres Inv (FCM.resetExecution : PyM (FCM α) Unit) := by
  intro m hm
  exact Pres.forEach (P := Inv) (fun c _ => resetOne_pres c) m hm

theorem clear_pres : Pres Inv (FCM.clearExecution : PyM (FCM α) Unit) := by
  intro m hm
  refine Pres.forEach (P := Inv) (fun c _ => ?_) m hm
  intro m hm
  unfold clearOne
  split
  · exact hm
  · rename_i n hn
    exact hm.setBoth c (n := { n with aux := [], value := _ }) ((hm.nodes c n hn).of_same rfl rfl rfl) _

theorem clearAll_pres : Pres Inv (FCM.clearAll : PyM (FCM α) Unit) := by
  unfold FCM.clearAll
  refine Pres.bind reset_pres fun _ => Pres.modify fun m hm => ?_
  refine ⟨by simp, by simp, by simp, by simp, by simp, hm.dflt, hm.mapFn, hm.dec, hm.extra⟩

theorem gatherArc_pres (a : Arc α) : Pres Inv (gatherArc a) := by
  intro m hm
  unfold gatherArc
  split
  · exact hm
  · split
    · split
      · exact hm
      · split
        · exact hm
        · rename_i d hd
          exact hm.setNode _ ((hm.nodes _ d hd).of_same rfl rfl rfl)
    · exact hm

theorem stepNode_pres (c : String) : Pres Inv (stepNode c : PyM (FCM α) Unit) := by
  intro m hm
  unfold stepNode
  split
  · exact hm
  · rename_i n hn
    have hno := hm.nodes c n hn
    split
    · exact hm
    · split
      · exact hm
      · have h1 := hm.setNode c (n := { n with aux := [] }) (hno.of_same rfl rfl rfl)
        dsimp only
        split
        · exact h1
        · split
          · exact h1
          · split
            · exact h1
            · rename_i r _
              have h2 := h1.setNode c (n := { n with aux := [], value := r }) (hno.of_same rfl rfl rfl)
              split
              · exact h2
              · exact h2.setExecution (by simp [Dict.mem_keys_set]) _

theorem stepOnce_pres : Pres Inv (FCM.stepOnce : PyM (FCM α) Unit) := by
  intro m hm
  unfold FCM.stepOnce
  have h1 := Pres.forEach (P := Inv) (xs := m.arcList) (fun a _ => gatherArc_pres a) m hm
  split <;> rename_i h <;> rw [h] at h1
  · exact h1
  · rename_i m1
    have h2 := Pres.forEach (P := Inv) (xs := m1.execution.keys) (fun a _ => stepNode_pres a) m1 h1
    split <;> rename_i h' <;> rw [h'] at h2
    · exact h2
    · exact h2.congr rfl rfl rfl rfl rfl rfl rfl rfl

theorem iterLoop_pres (fuel extra : Nat) : Pres Inv (FCM.iterLoop fuel extra : PyM (FCM α) Unit) := by
  induction fuel generalizing extra with
  | zero => intro m hm; unfold FCM.iterLoop; split <;> exact hm
  | succ f ih =>
    intro m hm
    unfold FCM.iterLoop
    split
    · split
      · exact hm
      · have h1 := stepOnce_pres m hm
        dsimp only
        split <;> rename_i h <;> rw [h] at h1
        · exact h1
        · exact ih _ _ h1
    · exact hm

theorem iterative_pres : Pres Inv (FCM.iterativeInference : PyM (FCM α) Unit) := by
  intro m hm
  exact iterLoop_pres _ _ _ (hm.congr rfl rfl rfl rfl rfl rfl rfl rfl)

theorem storeRows_pres (k : Nat) (cs : List String) (rs : List (List α)) (m : FCM α) (h : Inv m)
    (hc : ∀ c ∈ cs, c ∈ m.topology.keys) : Inv { m with execution := storeRows k cs rs m.execution } := by
  induction cs generalizing rs m with
  | nil => cases rs <;> exact h
  | cons c cs ih =>
    cases rs with
    | nil => exact h
    | cons r rs =>
      have h1 := h.setExecution (hc c (by simp)) (r.take k)
      exact ih rs _ h1 (fun x hx => hc x (by simp [hx]))

theorem vectorRunStore_inv (m : FCM α) (hm : Inv m) : Inv m.vectorRunStore.2 := by
  unfold FCM.vectorRunStore
  split
  · exact hm
  · split
    · exact hm
    · rename_i result _
      have := storeRows_pres (colIndex (result.headD []) m.maxIter.toNat) m.topology.keys result m hm (fun _ h => h)
      exact this.congr rfl rfl rfl rfl rfl rfl rfl rfl

theorem vectorized_pres : Pres Inv (FCM.vectorizedInference : PyM (FCM α) Unit) := by
  intro m hm
  unfold FCM.vectorizedInference
  dsimp only
  split
  · exact vectorRunStore_inv _ (hm.congr rfl rfl rfl rfl rfl rfl rfl rfl)
  · split
    · exact hm.congr rfl rfl rfl rfl rfl rfl rfl rfl
    · exact vectorRunStore_inv _ (hm.congr rfl rfl rfl rfl rfl rfl rfl rfl)

theorem decideNode_pres (c : String) : Pres Inv (decideNode c : PyM (FCM α) Unit) := by
  intro m hm
  unfold decideNode
  split
  · exact hm
  · rename_i n hn
    split
    · exact hm
    · split
      · exact hm
      · exact hm.setNode c ((hm.nodes c n hn).of_same rfl rfl rfl)

theorem engine_pres : Pres Inv (FCM.engine : PyM (FCM α) Unit) := by
  intro m hm
  unfold FCM.engine
  split
  · exact iterative_pres m hm
  · exact vectorized_pres m hm

theorem decideAll_pres : Pres Inv (FCM.decideAll : PyM (FCM α) Unit) := by
  intro m hm
  exact Pres.forEach (P := Inv) (fun c _ => decideNode_pres c) m hm

theorem runInference_pres (r : Bool) : Pres Inv (FCM.runInference r : PyM (FCM α) Unit) := by
  intro m hm
  unfold FCM.runInference
  have h1 : Inv (if r then FCM.resetExecution m else (.ok (), m)).2 := by
    split
    · exact reset_pres m hm
    · exact hm
  split <;> rename_i h <;> rw [h] at h1
  · exact h1
  · have h2 := engine_pres _ h1
    split <;> rename_i h <;> rw [h] at h2
    · exact h2
    · exact decideAll_pres _ h2

theorem Op.pres (op : Op α) : Pres Inv op.run := by
  cases op
  case addConcept => exact addConcept_pres _ _
  case setConceptProperties => exact setConceptProperties_pres _ _
  case setDefaultConceptProperties => exact setDefault_pres _
  case setMapDecisionFunction => exact setMapDecision_pres _
  case setMapActivationFunction => exact setMapActivation_pres _ _
  case addRelation => exact addRelation_pres _ _ _
  case initConcept => exact initConcept_pres _ _ _
  case resetExecution => exact reset_pres
  case clearExecution => exact clear_pres
  case clearAll => exact clearAll_pres
  case runInference => exact runInference_pres _
  all_goals exact Pres.modify fun m hm => hm.congr rfl rfl rfl rfl rfl rfl rfl rfl

theorem new_inv {maxIt extra stab diff dec mem act kwargs} {m : FCM α}
    (h : FCM.new maxIt extra stab diff dec mem act kwargs = .ok m) : Inv m := by
  unfold FCM.new at h
  split at h
  · cases h
  · split at h
    · cases h
    · cases h
      refine ⟨by simp, by simp, by simp, by simp, by simp, ⟨rfl, ‹_›, rfl⟩, ‹_›, ‹_›, ?_⟩
      dsimp only
      split
      · omega
      · omega

theorem runOps_inv (ops : List (Op α)) (m : FCM α) (h : Inv m) : Inv (runOps ops m) := by
  induction ops generalizing m with
  | nil => exact h
  | cons op ops ih => exact ih _ (op.pres m h)

/-- Every reachable map satisfies the representation invariant. -/
theorem Reachable.inv {m : FCM α} (h : Reachable m) : Inv m := by
  obtain ⟨_, _, _, _, _, _, _, _, m0, ops, hnew, rfl⟩ := h
  exact runOps_inv ops m0 (new_inv hnew)

theorem CleanReachable.reachable {m : FCM α} (h : CleanReachable m) : Reachable m := by
  induction h with
  | new h => exact ⟨_, _, _, _, _, _, _, _, _, [], h, rfl⟩
  | @step m m' op _ hop ih =>
    obtain ⟨a1, a2, a3, a4, a5, a6, a7, a8, m0, ops, hnew, rfl⟩ := ih
    refine ⟨a1, a2, a3, a4, a5, a6, a7, a8, m0, ops ++ [op], hnew, ?_⟩
    simp [runOps, List.foldl_append] at hop ⊢
    rw [hop]

end PyFCM
