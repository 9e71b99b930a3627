import Verif.Lemmas.Rename
import Verif.Examples
/-
C82: the names of the concepts carry no meaning.

Two clients make the same calls on two freshly constructed maps, the second one under other names for the concepts
(no two concepts sharing a new name).  At every moment the two objects agree on everything the API returns - with the
names exchanged - and a call raises for one client exactly when it raises for the other.  Both engines, every
arithmetic, every sequence of calls, also after calls that raised.
-/
namespace PyFCM
open Arith

variable {α : Type} [Arith α] {ρ : String → String}

/-- The final state of a renamed map is the renamed final state; it raises for both or for none. -/
theorem finalStateLoop_rename (hρ : Function.Injective ρ) (m : FCM α) (t : String) (names cs : List String) :
    (finalStateLoop (m.rename ρ) t (names.map ρ) (cs.map ρ)).toOption =
      (finalStateLoop m t names cs).toOption.map (Dict.rename ρ) := by
  induction cs with
  | nil => rfl
  | cons c cs ih =>
    have hc : (names.map ρ).contains (ρ c) = names.contains c := by
      simp only [List.contains_eq_mem]
      exact decide_eq_decide.mpr (mem_rename hρ names c)
    have hl : (names.map ρ).length = names.length := List.length_map _
    simp only [List.map_cons, finalStateLoop, hc, hl, rename_get? hρ]
    revert ih
    generalize finalStateLoop (m.rename ρ) t (names.map ρ) (cs.map ρ) = r'
    generalize finalStateLoop m t names cs = r
    intro ih
    have hr : (∃ e e', r = .error e ∧ r' = .error e') ∨ ∃ d, r = .ok d ∧ r' = .ok (Dict.rename ρ d) := by
      rcases r with e | d <;> rcases r' with e' | d' <;> simp_all [Except.toOption]
    rcases m.topology.get? c with _ | ⟨arcs, aux, value, sum, active, exec, type, fa, fmin, fmax, um, umf, fn, av⟩
    · by_cases h1 : names.length > 0
      · rcases names.contains c with _ | _ <;> obtain ⟨e, e', rfl, rfl⟩ | ⟨d, rfl, rfl⟩ := hr <;>
          simp [h1, need, bind, Except.bind, pure, Except.pure, Except.toOption]
      · simp [h1, need, bind, Except.bind, Except.toOption]
    · by_cases h1 : names.length > 0
      · rcases names.contains c with _ | _ <;> obtain ⟨e, e', rfl, rfl⟩ | ⟨d, rfl, rfl⟩ := hr <;>
          simp [h1, need, bind, Except.bind, pure, Except.pure, Except.toOption, Node.rename, Dict.rename]
      · rcases type with _ | ty
        · by_cases h2 : t = "any" <;> by_cases h3 : t = "target" <;>
            simp [h1, h2, h3, need, bind, Except.bind, Except.toOption, Node.rename]
        · obtain ⟨e, e', rfl, rfl⟩ | ⟨d, rfl, rfl⟩ := hr <;>
          · by_cases h2 : t = "any"
            · simp [h1, h2, need, bind, Except.bind, pure, Except.pure, Except.toOption, Node.rename, Dict.rename]
            · by_cases h3 : t = "target"
              · by_cases h4 : ty = TYPE_DECISION ∨ ty = TYPE_REGRESOR <;>
                  simp [h1, h3, h4, need, bind, Except.bind, pure, Except.pure, Except.toOption, Node.rename, Dict.rename]
              · by_cases h4 : ty = t <;>
                  simp [h1, h2, h3, h4, need, bind, Except.bind, pure, Except.pure, Except.toOption, Node.rename, Dict.rename]

/-- C82 (what is observed).  After the same calls under other names the second map reports, for the renamed concept,
the same value, the same recorded trajectory and the same (renamed) outgoing relations, lists its concepts in the same
order, and returns the same (renamed) final state. -/
theorem C82_observed (hρ : Function.Injective ρ) {maxIt extra stab diff dec mem act kwargs} {m0 : FCM α}
    (h0 : FCM.new maxIt extra stab diff dec mem act kwargs = .ok m0) (ops : List (Op α)) :
    let m := runOps ops m0
    let m' := runOps (ops.map (Op.rename ρ)) m0
    (∀ c, m'.getConceptValue (ρ c) = m.getConceptValue c) ∧
    (∀ c, m'.execution.get? (ρ c) = m.execution.get? c) ∧
    (∀ c, m'.outgoingRelations (ρ c) = (m.outgoingRelations c).map fun p => (ρ p.1, p.2)) ∧
    m'.topology.keys = m.topology.keys.map ρ ∧
    (∀ t names, (m'.getFinalState t (names.map ρ)).toOption =
      (m.getFinalState t names).toOption.map fun d => d.map fun p => (ρ p.1, p.2)) ∧
    m'.isStable = m.isStable := by
  have hm0 : m0.rename ρ = m0 := by
    unfold FCM.new at h0
    split at h0
    · cases h0
    · split at h0
      · cases h0
      · injection h0 with h0
        subst h0
        rfl
  intro m m'
  have hm : m' = m.rename ρ := by
    have := runOps_rename hρ ops m0
    rwa [hm0] at this
  rw [hm]
  refine ⟨fun c => ?_, fun c => rename_xget? hρ m c, fun c => ?_, rename_keys m, fun t names => ?_, ?_⟩
  · unfold FCM.getConceptValue
    rw [rename_get? hρ]
    cases m.topology.get? c <;> rfl
  · unfold FCM.outgoingRelations
    rw [rename_get? hρ]
    cases m.topology.get? c <;> rfl
  · unfold FCM.getFinalState
    rw [rename_xkeys]
    exact finalStateLoop_rename hρ m t names _
  · show (if m.iterations > 1 then stableLoop m.stabilityDiff (m.execution.rename ρ) else .ok false) = _
    rw [stableLoop_rename]
    rfl

/-- C82 (exceptions).  The next call raises for one client exactly when it raises for the other. -/
theorem C82_raises (hρ : Function.Injective ρ) {maxIt extra stab diff dec mem act kwargs} {m0 : FCM α}
    (h0 : FCM.new maxIt extra stab diff dec mem act kwargs = .ok m0) (ops : List (Op α)) (op : Op α) :
    ((op.rename ρ).run (runOps (ops.map (Op.rename ρ)) m0)).1.isOk = (op.run (runOps ops m0)).1.isOk := by
  have hm0 : m0.rename ρ = m0 := by
    unfold FCM.new at h0
    split at h0
    · cases h0
    · split at h0
      · cases h0
      · injection h0 with h0
        subst h0
        rfl
  have hm := runOps_rename hρ ops m0
  rw [hm0] at hm
  rw [hm]
  exact congrArg Prod.fst (Op.run_rename hρ op (runOps ops m0))

namespace Ex

/-- Two concepts, a relation, a run of the chosen engine. -/
def namedOps (debug : Bool) : List (Op ℚ) :=
  [.assignDebug debug, .assignMaxIter 9, .addConcept "a" { type := some TYPE_DECISION }, .addConcept "b" { useMemory := some false },
   .addRelation "a" "b" (1/2), .initConcept "a" (1/4) true, .runInference true]

/-- The new names: the old ones in German quotes. -/
def quote (s : String) : String := "„" ++ s ++ "“"
theorem quote_inj : Function.Injective quote := by
  intro s t h
  have := congrArg String.toList h
  simp only [quote, String.toList_append] at this
  exact String.toList_inj.mp (List.append_cancel_left (List.append_cancel_right this))

end Ex

/-! Non-trivial cases: the run ends with different values of the two concepts, in both engines. -/
example := C82_observed Ex.quote_inj Ex.sat0_new (Ex.namedOps true)
example := C82_raises Ex.quote_inj Ex.sat0_new (Ex.namedOps false) (.initConcept "c" 1 true)
example : (runOps (Ex.namedOps true) Ex.sat0).getConceptValue "a" = some (1/4) ∧
    (runOps (Ex.namedOps true) Ex.sat0).getConceptValue "b" = some (1/8) ∧
    (runOps ((Ex.namedOps true).map (Op.rename Ex.quote)) Ex.sat0).getConceptValue "„b“" = some (1/8) := by decide +kernel
example : (runOps (Ex.namedOps false) Ex.sat0).getConceptValue "b" =
    (runOps ((Ex.namedOps false).map (Op.rename Ex.quote)) Ex.sat0).getConceptValue "„b“" ∧
    (runOps (Ex.namedOps false) Ex.sat0).getConceptValue "b" ≠ some 0 := by decide +kernel

/-- Distinct concepts need distinct new names: with one name for all, the first concept of the example is lost. -/
theorem C82_collision : ¬ ∀ c, (runOps ((Ex.namedOps true).map (Op.rename fun _ => "x")) Ex.sat0).getConceptValue "x" =
    (runOps (Ex.namedOps true) Ex.sat0).getConceptValue c := by
  intro h
  exact absurd ((h "a").symm.trans (h "b")) (by decide +kernel)

end PyFCM
