import Verif.Model.Json
import Verif.Lemmas.Dict
/-
What `to_json` writes.
-/
namespace PyFCM
open Arith

variable {α : Type} [Arith α]

/-- The document written for a map whose concepts are described by `cs`. -/
def docOf (m : FCM α) (cs : List (ConceptDesc α)) (args : Option (Args α)) : MapDesc α :=
  { maxIter := some m.maxIter, decisionFunction := some m.decisionName,
    activationFunction := some m.mapFn.name, memoryInfluence := some m.memInfluence,
    stabilityDiff := some m.stabilityDiff, stopAtStabilize := some m.stopAtStabilize,
    extraSteps := some (m.extraSteps : Int), weight := some m.weight,
    activationFunctionArgs := args, concepts := some cs,
    relations := some (m.arcList.map fun a => ⟨a.origin, a.dest, a.weight⟩) }

theorem jsonArgs_ok {a b : Args α} (h : jsonArgs a = .ok b) : b = a := by
  unfold jsonArgs at h
  split at h <;> cases h
  rfl

theorem toJson_ok {m : FCM α} {d : MapDesc α} (h : m.toJson = .ok d) :
    ∃ cs, m.topology.mapM (fun p => conceptToJson m p.1 p.2) = .ok cs ∧
      d = docOf m cs (if m.mapFn.args = [] then none else some m.mapFn.args) ∧
      jsonArgs m.mapFn.args = .ok m.mapFn.args := by
  unfold FCM.toJson at h
  rcases h1 : m.topology.mapM (fun p => conceptToJson m p.1 p.2) with e | cs
  · rw [h1] at h; cases h
  · rw [h1] at h
    simp only [bind, Except.bind] at h
    by_cases hl : m.mapFn.args = []
    · simp [hl, pure, Except.pure] at h
      exact ⟨cs, h1, by simp [hl, ← h, docOf], by rw [hl]; rfl⟩
    · rw [if_pos (List.length_pos_iff.2 hl)] at h
      rcases h2 : jsonArgs m.mapFn.args with e | a
      · rw [h2] at h; cases h
      · rw [h2] at h
        cases h
        have := jsonArgs_ok h2
        subst this
        exact ⟨cs, h1, by simp [hl, docOf], rfl⟩

theorem toJson_eq {m : FCM α} {cs : List (ConceptDesc α)}
    (h : m.topology.mapM (fun p => conceptToJson m p.1 p.2) = .ok cs)
    (hj : jsonArgs m.mapFn.args = .ok m.mapFn.args) :
    m.toJson = .ok (docOf m cs (if m.mapFn.args = [] then none else some m.mapFn.args)) := by
  unfold FCM.toJson
  rw [h]
  simp only [bind, Except.bind]
  by_cases hl : m.mapFn.args = []
  · simp [hl, pure, Except.pure, docOf]
  · rw [if_pos (List.length_pos_iff.2 hl), hj]
    simp [hl, docOf, pure, Except.pure]

theorem toJson_relations {m : FCM α} {d : MapDesc α} (h : m.toJson = .ok d) :
    d.relations = some (m.arcList.map fun a => ⟨a.origin, a.dest, a.weight⟩) := by
  obtain ⟨cs, -, rfl, -⟩ := toJson_ok h
  rfl

/-- The description of a complete concept. -/
theorem conceptToJson_ok {m : FCM α} {name : String} {n : Node α} {c : ConceptDesc α}
    (h : conceptToJson m name n = .ok c) :
    ∃ ty um f, n.type = some ty ∧ n.useMem = some um ∧ n.fn = some f ∧
      ∃ cf ca ad, c = {
        id := name, isActive := some n.active, type := some (typeName ty), activation := some n.value,
        useMemory := if um ≠ m.memInfluence then some um else none, customFunction := cf, customFunctionArgs := ca,
        activationDict := ad } ∧
      ((f.name = m.mapFn.name ∧ cf = none ∧ ca = none ∧ ad = none) ∨
       (f.name ≠ m.mapFn.name ∧ cf = some f.name ∧ f.name = "fuzzy" ∧ ca = none ∧ ∃ fa, n.fuzzyAct = some fa ∧
         ad = some [("membership", .list fa.membership), ("val_list", .list fa.valList)]) ∨
       (f.name ≠ m.mapFn.name ∧ cf = some f.name ∧ f.name ≠ "fuzzy" ∧ ad = none ∧
         ca = (if f.args = [] then none else some f.args) ∧ jsonArgs f.args = .ok f.args)) := by
  unfold conceptToJson at h
  rcases h1 : n.type with _ | ty
  · rw [h1] at h; cases h
  rcases h2 : n.useMem with _ | um
  · rw [h1, h2] at h; cases h
  rcases h3 : n.fn with _ | f
  · rw [h1, h2, h3] at h; cases h
  rw [h1, h2, h3] at h
  refine ⟨ty, um, f, rfl, rfl, rfl, ?_⟩
  simp only [need, bind, Except.bind] at h
  by_cases hn : f.name = m.mapFn.name
  · rw [if_neg (by simpa using hn)] at h
    cases h
    exact ⟨none, none, none, rfl, .inl ⟨hn, rfl, rfl, rfl⟩⟩
  · rw [if_pos hn] at h
    by_cases hf : f.name = "fuzzy"
    · rw [if_pos hf] at h
      rcases h4 : n.fuzzyAct with _ | fa
      · rw [h4] at h; cases h
      · rw [h4] at h
        cases h
        exact ⟨_, none, _, rfl, .inr (.inl ⟨hn, rfl, hf, rfl, fa, rfl, rfl⟩)⟩
    · rw [if_neg hf] at h
      by_cases hl : f.args = []
      · rw [if_neg (by simp [hl])] at h
        cases h
        exact ⟨_, none, none, rfl, .inr (.inr ⟨hn, rfl, hf, rfl, by simp [hl], by rw [hl]; rfl⟩)⟩
      · rw [if_pos (List.length_pos_iff.2 hl)] at h
        rcases h5 : jsonArgs f.args with e | a
        · rw [h5] at h; cases h
        · rw [h5] at h
          cases h
          have := jsonArgs_ok h5
          subst this
          exact ⟨_, _, none, rfl, .inr (.inr ⟨hn, rfl, hf, rfl, by simp [hl], rfl⟩)⟩

theorem mapM_ok_cons {β γ : Type} {f : β → Except Err γ} {x : β} {xs : List β} {ys : List γ}
    (h : (x :: xs).mapM f = .ok ys) : ∃ y ys', f x = .ok y ∧ xs.mapM f = .ok ys' ∧ ys = y :: ys' := by
  rw [List.mapM_cons] at h
  rcases h1 : f x with e | y
  · rw [h1] at h; cases h
  · rw [h1] at h
    rcases h2 : xs.mapM f with e | ys'
    · rw [h2] at h; cases h
    · rw [h2] at h
      cases h
      exact ⟨y, ys', rfl, rfl, rfl⟩

theorem toJson_concepts {m : FCM α} {d : MapDesc α} (h : m.toJson = .ok d) :
    ∃ cs, d.concepts = some cs ∧ cs.map (·.id) = m.topology.keys := by
  obtain ⟨cs, h1, rfl, -⟩ := toJson_ok h
  refine ⟨cs, rfl, ?_⟩
  clear h
  generalize m.topology = t at h1
  induction t generalizing cs with
  | nil => cases h1; rfl
  | cons p t ih =>
    obtain ⟨y, ys, hy, hys, rfl⟩ := mapM_ok_cons h1
    obtain ⟨_, _, _, _, _, _, _, _, _, e, -⟩ := conceptToJson_ok hy
    simp [ih ys hys, e, Dict.keys]

end PyFCM
