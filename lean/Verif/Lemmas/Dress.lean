import Verif.Model.Api
/-
Runs do not look at the default concept, names, the slope fitting and similar settings.
-/
namespace PyFCM
open Arith

set_option linter.unusedSectionVars false

variable {α : Type} [Arith α]

/-- The parts of the object that a run does not read (the cache only in the vectorised engine). -/
structure Extra (α : Type) where
  decisionName : String
  memInfluence : Bool
  mapFn : FnInfo α
  weight : α
  default : DefaultConcept α
  fit : Option α
  prepared : Bool
  cache : Cache α
  stateVector : List α
  iterations : Option Nat

def FCM.dress (x : Extra α) (m : FCM α) : FCM α :=
  { m with decisionName := x.decisionName, memInfluence := x.memInfluence, mapFn := x.mapFn, weight := x.weight,
           default := x.default, fitInclination := x.fit, prepared := x.prepared, cache := x.cache,
           stateVector := x.stateVector, iterations := x.iterations.getD m.iterations }

/-- The call has the same effect on the dressed object. -/
def Dressed (x : Extra α) (g : PyM (FCM α) Unit) : Prop := ∀ m, g (m.dress x) = ((g m).1, (g m).2.dress x)

variable {x : Extra α}

theorem Dressed.forEach {ι : Type} {f : ι → PyM (FCM α) Unit} (h : ∀ i, Dressed x (f i)) (xs : List ι) :
    Dressed x (PyM.forEach xs f) := by
  induction xs with
  | nil => exact fun m => rfl
  | cons i xs ih =>
    intro m
    have := h i m
    rcases hf : f i m with ⟨r, m1⟩
    rw [hf] at this
    unfold PyM.forEach
    rw [this, hf]
    cases r with
    | error e => rfl
    | ok u => exact ih m1

theorem gatherArc_dressed (a : Arc α) : Dressed x (gatherArc a) := by
  intro m
  unfold gatherArc
  simp only [FCM.dress]
  cases m.topology.get? a.origin with
  | none => rfl
  | some o =>
    by_cases ha : o.active = true
    · cases he : o.exec with
      | none => simp only [ha, he, if_true]
      | some ex => cases hd : m.topology.get? a.dest <;> simp only [ha, he, if_true]
    · simp only [ha, if_false]
      rfl

theorem stepNode_dressed (c : String) : Dressed x (stepNode c) := by
  intro m
  unfold stepNode
  simp only [FCM.dress]
  cases m.topology.get? c with
  | none => rfl
  | some n =>
    cases h1 : n.exec with
    | none => simp only [h1]
    | some ex =>
      cases h2 : n.useMem with
      | none => simp only [h1, h2]
      | some um =>
        cases h3 : n.fn with
        | none => simp only [h1, h2, h3]
        | some f =>
          simp only [h1, h2, h3]
          cases (if f.name = "fuzzy" then pdiv (ex.1.run n.aux n.value um) n.actvSum
              else .ok (ex.1.run n.aux n.value um)) with
          | error e => rfl
          | ok v =>
            dsimp only
            cases callActv f.fn v f.args with
            | error e => rfl
            | ok r =>
              dsimp only
              cases m.execution.get? c <;> rfl

theorem stepOnce_dressed (hx : x.iterations = none) : Dressed x (FCM.stepOnce : PyM (FCM α) Unit) := by
  intro m
  unfold FCM.stepOnce
  have e1 : (m.dress x).arcList = m.arcList := rfl
  rw [e1, Dressed.forEach gatherArc_dressed m.arcList m]
  rcases PyM.forEach m.arcList gatherArc m with ⟨r, m1⟩
  cases r with
  | error e => rfl
  | ok u =>
    dsimp only
    have e2 : (m1.dress x).execution = m1.execution := rfl
    rw [e2, Dressed.forEach stepNode_dressed m1.execution.keys m1]
    rcases PyM.forEach m1.execution.keys stepNode m1 with ⟨r, m2⟩
    cases r <;> simp only [FCM.dress, hx, Option.getD_none]

theorem iterLoop_dressed (hx : x.iterations = none) (fuel : Nat) : ∀ extra, Dressed x (FCM.iterLoop fuel extra : PyM (FCM α) Unit) := by
  induction fuel with
  | zero =>
    intro extra m
    unfold FCM.iterLoop
    by_cases h : extra > 0 <;> simp only [h, if_true, if_false]
  | succ fuel ih =>
    intro extra m
    unfold FCM.iterLoop
    by_cases h : extra > 0
    · simp only [h, if_true]
      have e1 : (m.dress x).keepExecution = m.keepExecution := by
        simp only [FCM.keepExecution, FCM.isStable, FCM.dress, hx, Option.getD_none]
      rw [e1]
      cases m.keepExecution with
      | error e => rfl
      | ok keep =>
        dsimp only
        rw [stepOnce_dressed hx m]
        rcases FCM.stepOnce m with ⟨r, m1⟩
        cases r with
        | error e => rfl
        | ok u => exact ih _ m1
    · simp only [h, if_false]

theorem resetOne_dressed (c : String) : Dressed x (resetOne c) := by
  intro m
  unfold resetOne
  simp only [FCM.dress]
  cases m.topology.get? c with
  | none => rfl
  | some n =>
    dsimp only
    cases m.execution.get? c with
    | none => rfl
    | some xs => cases xs <;> rfl

theorem decideNode_dressed (c : String) : Dressed x (decideNode c) := by
  intro m
  unfold decideNode
  simp only [FCM.dress]
  cases m.topology.get? c with
  | none => rfl
  | some n =>
    dsimp only
    cases m.execution.get? c with
    | none => rfl
    | some xs =>
      dsimp only
      cases m.decisionFn.run xs ((xs.length : Int) - m.extraSteps - 1) <;> rfl

theorem decideAll_dressed : Dressed x (FCM.decideAll : PyM (FCM α) Unit) := fun m =>
  Dressed.forEach decideNode_dressed m.topology.keys m

theorem reset_dressed : Dressed x (FCM.resetExecution : PyM (FCM α) Unit) := fun m =>
  Dressed.forEach resetOne_dressed m.topology.keys m

theorem vectorRunStore_dress (m : FCM α) (hs : x.stateVector = m.stateVector) (hc : x.cache = m.cache) :
    ∃ x' : Extra α, (m.dress x).vectorRunStore = (m.vectorRunStore.1, m.vectorRunStore.2.dress x') := by
  have e1 : (m.dress x).stateVector = m.stateVector := hs
  have e2 : (m.dress x).cache = m.cache := hc
  unfold FCM.vectorRunStore
  rw [e1, e2]
  rcases hv : m.stateVector with _ | ⟨v, vs⟩
  · exact ⟨x, rfl⟩
  · dsimp only
    have e3 : vectorizedRun m.cache (v :: vs) (m.dress x).maxIter (m.dress x).stabilityDiff (m.dress x).extraSteps =
        vectorizedRun m.cache (v :: vs) m.maxIter m.stabilityDiff m.extraSteps := rfl
    rw [e3]
    cases vectorizedRun m.cache (v :: vs) m.maxIter m.stabilityDiff m.extraSteps with
    | error e => exact ⟨x, rfl⟩
    | ok res => exact ⟨{ x with stateVector := res.map fun r => r.headD (lit 2), cache := m.cache }, rfl⟩

theorem vectorized_dress (m : FCM α) (hm : m.prepared = false) (hx : x.prepared = false) :
    ∃ x' : Extra α, FCM.vectorizedInference (m.dress x) =
      ((FCM.vectorizedInference m).1, (FCM.vectorizedInference m).2.dress x') := by
  unfold FCM.vectorizedInference
  have e1 : (m.dress x).prepared = false := hx
  have e2 : (m.dress x).prepare = m.prepare := rfl
  simp only [e1, hm, e2, Bool.false_eq_true, if_false]
  cases m.prepare with
  | error e =>
    exact ⟨{ x with prepared := true, stateVector := m.topology.map fun p => p.2.value,
                    cache := ⟨[], [], [], [], [], []⟩ }, rfl⟩
  | ok c =>
    exact vectorRunStore_dress
      (x := { x with prepared := true, stateVector := m.topology.map fun p => p.2.value, cache := c })
      { m with prepared := true, stateVector := m.topology.map fun p => p.2.value, cache := c } rfl rfl

theorem engine_dress (m : FCM α) (h : m.debug = true ∨ (m.prepared = false ∧ x.prepared = false)) :
    ∃ x' : Extra α, FCM.engine (m.dress x) = ((FCM.engine m).1, (FCM.engine m).2.dress x') := by
  unfold FCM.engine
  have e1 : (m.dress x).debug = m.debug := rfl
  rw [e1]
  cases hd : m.debug with
  | true =>
    exact ⟨{ x with iterations := none }, iterLoop_dressed (x := { x with iterations := none }) rfl _ _
      { m with iterations := 1 }⟩
  | false =>
    rw [hd] at h
    rcases h with h | h
    · cases h
    · exact vectorized_dress m h.1 h.2

theorem reset_flags (m : FCM α) :
    (FCM.resetExecution m).2.debug = m.debug ∧ (FCM.resetExecution m).2.prepared = m.prepared := by
  have : ∀ (xs : List String) (m : FCM α), (PyM.forEach xs resetOne m).2.debug = m.debug ∧
      (PyM.forEach xs resetOne m).2.prepared = m.prepared := by
    intro xs
    induction xs with
    | nil => exact fun m => ⟨rfl, rfl⟩
    | cons c xs ih =>
      intro m
      have h1 : (resetOne c m).2.debug = m.debug ∧ (resetOne c m).2.prepared = m.prepared := by
        unfold resetOne
        cases m.topology.get? c with
        | none => exact ⟨rfl, rfl⟩
        | some n =>
          dsimp only
          cases m.execution.get? c with
          | none => exact ⟨rfl, rfl⟩
          | some xs => cases xs <;> exact ⟨rfl, rfl⟩
      unfold PyM.forEach
      rcases hq : resetOne c m with ⟨r, m1⟩
      rw [hq] at h1
      cases r with
      | error e => exact h1
      | ok u => rw [← h1.1, ← h1.2]; exact ih m1
  exact this _ m

/-- Agreement in all that a run reads. -/
structure SameRun (m n : FCM α) : Prop where
  topology : n.topology = m.topology
  arcs : n.arcList = m.arcList
  execution : n.execution = m.execution
  stop : n.stopAtStabilize = m.stopAtStabilize
  maxIter : n.maxIter = m.maxIter
  extra : n.extraSteps = m.extraSteps
  diff : n.stabilityDiff = m.stabilityDiff
  dec : n.decisionFn = m.decisionFn
  debug : n.debug = m.debug

/-- What a client sees of a run. -/
structure SameResult (p q : Except Err Unit × FCM α) : Prop where
  result : q.1 = p.1
  topology : q.2.topology = p.2.topology
  execution : q.2.execution = p.2.execution

/-- The dressing that turns a map into one that agrees with it. -/
def FCM.extras (n : FCM α) : Extra α :=
  { decisionName := n.decisionName, memInfluence := n.memInfluence, mapFn := n.mapFn, weight := n.weight,
    default := n.default, fit := n.fitInclination, prepared := n.prepared, cache := n.cache,
    stateVector := n.stateVector, iterations := some n.iterations }

theorem SameRun.eq {m n : FCM α} (h : SameRun m n) : n = m.dress n.extras := by
  obtain ⟨h1, h2, h3, h4, h5, h6, h7, h8, h9⟩ := h
  unfold FCM.dress FCM.extras
  cases m; cases n
  simp only at *
  subst h1 h2 h3 h4 h5 h6 h7 h8 h9
  rfl

/-- The run and its result depend only on what `SameRun` compares (a vectorised run may also reuse the cache of an
earlier one). -/
theorem run_same {m n : FCM α} (h : SameRun m n) (hd : m.debug = true ∨ (m.prepared = false ∧ n.prepared = false))
    (r : Bool) : SameResult (FCM.runInference r m) (FCM.runInference r n) := by
  have hc : ∃ x', FCM.runInference r n = ((FCM.runInference r m).1, (FCM.runInference r m).2.dress x') := by
    rw [h.eq]
    unfold FCM.runInference
    have e1 : (if r = true then FCM.resetExecution (m.dress n.extras) else (.ok (), m.dress n.extras)) =
        ((if r = true then FCM.resetExecution m else (.ok (), m)).1,
         (if r = true then FCM.resetExecution m else (.ok (), m)).2.dress n.extras) := by
      split
      · exact reset_dressed m
      · rfl
    have e2 : (if r = true then FCM.resetExecution m else (.ok (), m)).2.debug = m.debug ∧
        (if r = true then FCM.resetExecution m else (.ok (), m)).2.prepared = m.prepared := by
      split
      · exact reset_flags m
      · exact ⟨rfl, rfl⟩
    rw [e1]
    generalize (if r = true then FCM.resetExecution m else (.ok (), m)) = p at e2 ⊢
    obtain ⟨q, m1⟩ := p
    cases q with
    | error e => exact ⟨_, rfl⟩
    | ok u =>
      dsimp only at e2 ⊢
      obtain ⟨x', e3⟩ := engine_dress (x := n.extras) m1 (by rw [e2.1, e2.2]; exact hd)
      rw [e3]
      rcases FCM.engine m1 with ⟨q, m2⟩
      cases q with
      | error e => exact ⟨_, rfl⟩
      | ok u => exact ⟨_, decideAll_dressed m2⟩
  obtain ⟨x', e⟩ := hc
  rw [e]
  exact ⟨rfl, rfl, rfl⟩

end PyFCM
