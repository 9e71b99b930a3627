import Verif.Lemmas.Clean
import Verif.Model.Association
/-
Two maps that differ only in values, trajectories and the engine's private data behave alike once their execution has
been cleared.
-/
namespace PyFCM
open Arith

set_option linter.unusedSectionVars false

variable {α : Type} [Arith α]

/-! ### Operations that do not look at the engine's private data -/

/-- `m` with the engine data of `e`. -/
def FCM.withEng (m e : FCM α) : FCM α :=
  { m with iterations := e.iterations, prepared := e.prepared, cache := e.cache, stateVector := e.stateVector }

/-- `m` with the cached data of `e`. -/
def FCM.withCache (m e : FCM α) : FCM α :=
  { m with prepared := e.prepared, cache := e.cache, stateVector := e.stateVector }

/-- The operation neither reads nor writes the engine data. -/
def Ignores {β : Type} (x : PyM (FCM α) β) : Prop := ∀ m e, x (m.withEng e) = ((x m).1, (x m).2.withEng e)

/-- The operation neither reads nor writes the cached data. -/
def IgnoresC {β : Type} (x : PyM (FCM α) β) : Prop := ∀ m e, x (m.withCache e) = ((x m).1, (x m).2.withCache e)

theorem Ignores.forEach {ι : Type} {xs : List ι} {f : ι → PyM (FCM α) Unit} (h : ∀ x ∈ xs, Ignores (f x)) :
    Ignores (PyM.forEach xs f) := by
  induction xs with
  | nil => intro m e; rfl
  | cons x xs ih =>
    intro m e
    simp only [PyM.forEach]
    rw [h x (by simp)]
    rcases f x m with ⟨_ | ⟨⟩, m'⟩
    · rfl
    · exact ih (fun y hy => h y (by simp [hy])) m' e

theorem IgnoresC.forEach {ι : Type} {xs : List ι} {f : ι → PyM (FCM α) Unit} (h : ∀ x ∈ xs, IgnoresC (f x)) :
    IgnoresC (PyM.forEach xs f) := by
  induction xs with
  | nil => intro m e; rfl
  | cons x xs ih =>
    intro m e
    simp only [PyM.forEach]
    rw [h x (by simp)]
    rcases f x m with ⟨_ | ⟨⟩, m'⟩
    · rfl
    · exact ih (fun y hy => h y (by simp [hy])) m' e

theorem Ignores.bind {β γ : Type} {x : PyM (FCM α) β} {f : β → PyM (FCM α) γ} (hx : Ignores x) (hf : ∀ b, Ignores (f b)) :
    Ignores (x >>= f) := by
  intro m e
  rw [PyM.run_bind, PyM.run_bind, hx]
  rcases x m with ⟨_ | b, m'⟩
  · rfl
  · exact hf b m' e

theorem Ignores.lift {β : Type} (x : Except Err β) : Ignores (PyM.lift x : PyM (FCM α) β) := fun _ _ => rfl

theorem Ignores.pure {β : Type} (x : β) : Ignores (Pure.pure x : PyM (FCM α) β) := fun _ _ => rfl

theorem clearOne_ignores (c : String) : Ignores (clearOne c : PyM (FCM α) Unit) := by
  intro m e
  unfold clearOne
  show (match m.topology.get? c with | none => _ | some n => _) = _
  cases m.topology.get? c <;> rfl

theorem resetOne_ignores (c : String) : Ignores (resetOne c : PyM (FCM α) Unit) := by
  intro m e
  unfold resetOne
  show (match m.topology.get? c with | none => _ | some n => _) = _
  cases m.topology.get? c with
  | none => rfl
  | some n =>
    show (match m.execution.get? c with | none => _ | some [] => _ | some (v :: rest) => _) = _
    dsimp only
    rcases m.execution.get? c with _ | _ | ⟨v, rest⟩ <;> rfl

theorem decideNode_ignores (c : String) : Ignores (decideNode c : PyM (FCM α) Unit) := by
  intro m e
  unfold decideNode
  show (match m.topology.get? c with | none => _ | some n => _) = _
  cases m.topology.get? c with
  | none => rfl
  | some n =>
    dsimp only
    show (match m.execution.get? c with | none => _ | some xs => _) = _
    cases m.execution.get? c with
    | none => rfl
    | some xs =>
      dsimp only
      show (match m.decisionFn.run xs ((xs.length : Int) - m.extraSteps - 1) with | .error e => _ | .ok v => _) = _
      cases m.decisionFn.run xs ((xs.length : Int) - m.extraSteps - 1) <;> rfl

theorem initConcept_ignores (c : String) (v : α) (r : Bool) : Ignores (FCM.initConcept c v r) := by
  intro m e
  unfold FCM.initConcept
  show (match m.topology.get? c with | none => _ | some n => _) = _
  cases m.topology.get? c with
  | none => cases r <;> rfl
  | some n =>
    dsimp only
    cases n.fn with
    | none => rfl
    | some f =>
      dsimp only
      split
      · cases n.fuzzyAct with
        | none => rfl
        | some fa =>
          dsimp only
          cases fuzzySet v fa.membership fa.valList <;> rfl
      · rfl

theorem gatherArc_ignores (a : Arc α) : IgnoresC (gatherArc a) := by
  intro m e
  unfold gatherArc
  show (match m.topology.get? a.origin with | none => _ | some n => _) = _
  cases m.topology.get? a.origin with
  | none => rfl
  | some n =>
    dsimp only
    split
    · cases n.exec with
      | none => rfl
      | some ex =>
        dsimp only
        show (match m.topology.get? a.dest with | none => _ | some n => _) = _
        cases m.topology.get? a.dest <;> rfl
    · rfl

theorem stepNode_ignores (c : String) : IgnoresC (stepNode c : PyM (FCM α) Unit) := by
  intro m e
  unfold stepNode
  show (match m.topology.get? c with | none => _ | some n => _) = _
  cases m.topology.get? c with
  | none => rfl
  | some n =>
    dsimp only
    cases n.exec with
    | none => rfl
    | some ex =>
      dsimp only
      cases n.useMem with
      | none => rfl
      | some um =>
        dsimp only
        cases n.fn with
        | none => rfl
        | some f =>
          dsimp only
          cases (if f.name = "fuzzy" then pdiv (ex.1.run n.aux n.value um) n.actvSum
            else Except.ok (ex.1.run n.aux n.value um)) with
          | error e => rfl
          | ok ev =>
            dsimp only
            cases callActv f.fn ev f.args with
            | error e => rfl
            | ok result =>
              dsimp only
              show (match m.execution.get? c with | none => _ | some n => _) = _
              cases m.execution.get? c <;> rfl

theorem stepOnce_ignores : IgnoresC (FCM.stepOnce : PyM (FCM α) Unit) := by
  intro m e
  unfold FCM.stepOnce
  show (match PyM.forEach m.arcList gatherArc (m.withCache e) with | (.error e, m1) => _ | (.ok (), m1) => _) = _
  rw [IgnoresC.forEach (fun a _ => gatherArc_ignores a)]
  rcases PyM.forEach m.arcList gatherArc m with ⟨_ | ⟨⟩, m1⟩
  · rfl
  · dsimp only
    show (match PyM.forEach m1.execution.keys stepNode (m1.withCache e) with | (.error e, m1) => _ | (.ok (), m1) => _) = _
    rw [IgnoresC.forEach (fun a _ => stepNode_ignores a)]
    rcases PyM.forEach m1.execution.keys stepNode m1 with ⟨_ | ⟨⟩, m2⟩ <;> rfl

theorem iterLoop_ignores (fuel extra : Nat) : IgnoresC (FCM.iterLoop fuel extra : PyM (FCM α) Unit) := by
  induction fuel generalizing extra with
  | zero => intro m e; unfold FCM.iterLoop; split <;> rfl
  | succ f ih =>
    intro m e
    unfold FCM.iterLoop
    split
    · show (match m.keepExecution with | .error e => _ | .ok k => _) = _
      cases m.keepExecution with
      | error e => rfl
      | ok k =>
        dsimp only
        rw [stepOnce_ignores]
        rcases FCM.stepOnce m with ⟨_ | ⟨⟩, m1⟩
        · rfl
        · exact ih _ m1 e
    · rfl

theorem clear_ignores : Ignores (FCM.clearExecution : PyM (FCM α) Unit) := fun m e =>
  Ignores.forEach (fun c _ => clearOne_ignores c) m e

theorem reset_ignores : Ignores (FCM.resetExecution : PyM (FCM α) Unit) := fun m e =>
  Ignores.forEach (fun c _ => resetOne_ignores c) m e

theorem decideAll_ignores : Ignores (FCM.decideAll : PyM (FCM α) Unit) := fun m e =>
  Ignores.forEach (fun c _ => decideNode_ignores c) m e

theorem initAll_ignores (v : α) : ∀ cs : List String, Ignores (initAll v cs)
  | [] => Ignores.pure ()
  | c :: cs => Ignores.bind (initConcept_ignores c v false) fun _ => initAll_ignores v cs

theorem initByFeature_ignores (cfg : GenConf α) (x : Ext α) (fs : Dict (Feature α)) (feat : String) (v : Cell α) :
    Ignores (initByFeature cfg x fs feat v) := by
  have hb : Ignores (initByFeatureBody cfg x fs feat v) := by
    unfold initByFeatureBody
    refine Ignores.bind (Ignores.lift _) fun f => ?_
    split
    · exact Ignores.bind (Ignores.lift _) fun w => initAll_ignores w _
    · exact Ignores.bind (Ignores.lift _) fun k => initConcept_ignores _ _ _
  intro m e
  unfold initByFeature
  rw [hb]
  rcases initByFeatureBody cfg x fs feat v m with ⟨_ | ⟨⟩, m'⟩ <;> rfl

theorem initRow_ignores (cfg : GenConf α) (x : Ext α) (fs : Dict (Feature α)) (row : List (String × Cell α)) :
    Ignores (initRow cfg x fs row) :=
  Ignores.forEach fun p _ => initByFeature_ignores cfg x fs p.1 p.2

/-! ### What they leave alone -/

/-- Only values and trajectories may differ. -/
structure Quiet (m0 m : FCM α) : Prop where
  eq : m = { m0 with topology := m.topology, execution := m.execution }
  view : m.view = m0.view

theorem Quiet.refl (m : FCM α) : Quiet m m := ⟨rfl, rfl⟩

theorem Quiet.still {m0 m : FCM α} (h : Quiet m0 m) : Still m0 m :=
  ⟨h.view, by rw [h.eq], by rw [h.eq], by rw [h.eq]⟩

theorem Quiet.of {m0 m : FCM α} (h : Quiet m0 m) {m' : FCM α}
    (he : m' = { m with topology := m'.topology, execution := m'.execution }) (hv : Still m m') : Quiet m0 m' := by
  refine ⟨?_, hv.view.trans h.view⟩
  rw [he, h.eq]

theorem clearOne_quiet (m0 : FCM α) (c : String) : Pres (Quiet m0) (clearOne c) := by
  intro m hm
  refine hm.of ?_ (clearOne_still m c m (Still.refl m))
  unfold clearOne
  split <;> rfl

theorem resetOne_quiet (m0 : FCM α) (c : String) : Pres (Quiet m0) (resetOne c) := by
  intro m hm
  refine hm.of ?_ (resetOne_still m c m (Still.refl m))
  unfold resetOne
  split
  · rfl
  · dsimp only
    split <;> rfl

theorem initConcept_quiet (m0 : FCM α) (c : String) (v : α) (r : Bool) : Pres (Quiet m0) (FCM.initConcept c v r) := by
  intro m hm
  refine hm.of ?_ (initConcept_still m c v r m (Still.refl m))
  unfold FCM.initConcept
  repeat' split
  all_goals rfl

theorem initAll_quiet (m0 : FCM α) (v : α) : ∀ cs : List String, Pres (Quiet m0) (initAll v cs)
  | [] => Pres.pure ()
  | c :: cs => Pres.bind (initConcept_quiet m0 c v false) fun _ => initAll_quiet m0 v cs

theorem initByFeature_quiet (m0 : FCM α) (cfg : GenConf α) (x : Ext α) (fs : Dict (Feature α)) (feat : String)
    (v : Cell α) : Pres (Quiet m0) (initByFeature cfg x fs feat v) := by
  have hb : Pres (Quiet m0) (initByFeatureBody cfg x fs feat v) := by
    unfold initByFeatureBody
    refine Pres.bind (Pres.lift _) fun f => ?_
    split
    · exact Pres.bind (Pres.lift _) fun w => initAll_quiet m0 w _
    · exact Pres.bind (Pres.lift _) fun k => initConcept_quiet m0 _ _ _
  intro m hm
  have := hb m hm
  unfold initByFeature
  rcases hb' : initByFeatureBody cfg x fs feat v m with ⟨_ | ⟨⟩, m'⟩ <;> rw [hb'] at this <;> exact this

theorem initRow_quiet (m0 : FCM α) (cfg : GenConf α) (x : Ext α) (fs : Dict (Feature α)) (row : List (String × Cell α)) :
    Pres (Quiet m0) (initRow cfg x fs row) :=
  Pres.forEach fun p _ => initByFeature_quiet m0 cfg x fs p.1 p.2

theorem clear_quiet (m : FCM α) : Quiet m (FCM.clearExecution m).2 :=
  Pres.forEach (fun c _ => clearOne_quiet m c) m (Quiet.refl m)

theorem reset_quiet (m : FCM α) : Quiet m (FCM.resetExecution m).2 :=
  Pres.forEach (fun c _ => resetOne_quiet m c) m (Quiet.refl m)

/-! ### The engines -/

/-- The cached data is absent or what the map `m` gives. -/
def Rdy (n : Nat) (c : Cache α) (e : FCM α) : Prop :=
  e.prepared = true → e.stateVector.length = n ∧ e.cache = c

/-- The engine data of `e` serves the map `m` as well as its own. -/
def EngOk (m e : FCM α) : Prop :=
  m.debug = true ∨ (∃ c, m.prepare = .ok c ∧ Rdy m.topology.length c m ∧ Rdy m.topology.length c e) ∨
    (m.topology = [] ∧ m.prepared = true ∧ e.prepared = true ∧ m.cache = e.cache ∧ m.stateVector = e.stateVector) ∨
    (m.prepared = false ∧ e.prepared = false ∧ ∃ err, m.prepare = .error err)

theorem view_length {m m' : FCM α} (h : m'.view = m.view) : m'.topology.length = m.topology.length := by
  have := congrArg (fun v => v.1.length) h
  simpa [FCM.view] using this

theorem EngOk.quiet {m m' e : FCM α} (h : EngOk m e) (hq : Quiet m m') : EngOk m' e := by
  have hs := hq.still
  rcases h with h | ⟨c, h1, h2, h3⟩ | ⟨h1, h2, h3, h4, h5⟩ | ⟨h1, h2, err, h3⟩
  · left; rw [hq.eq]; exact h
  · refine .inr (.inl ⟨c, by rw [prepare_view hq.view, h1], ?_, ?_⟩)
    · intro hp
      rw [hs.prepared] at hp
      rw [hs.state, hs.cache, view_length hq.view]
      exact h2 hp
    · rw [view_length hq.view]; exact h3
  · refine .inr (.inr (.inl ⟨?_, by rw [hs.prepared, h2], h3, by rw [hs.cache, h4], by rw [hs.state, h5]⟩))
    have := view_length hq.view
    rw [h1] at this
    exact List.length_eq_zero_iff.1 this
  · exact .inr (.inr (.inr ⟨by rw [hs.prepared, h1], h2, err, by rw [prepare_view hq.view, h3]⟩))

theorem store_ignores (m : FCM α) (i : Nat) :
    FCM.vectorRunStore { m with iterations := i } =
      ((FCM.vectorRunStore m).1, { (FCM.vectorRunStore m).2 with iterations := i }) := by
  obtain ⟨t, a, ex, st, mi, es, sd, df, dn, mem, mf, it, w, de, db, fi, p, c, sv⟩ := m
  unfold FCM.vectorRunStore
  cases sv with
  | nil => rfl
  | cons x xs =>
    dsimp only
    cases vectorizedRun c (x :: xs) mi sd es <;> rfl

theorem vectorized_with {m e : FCM α} (hd : m.debug = false) (h : EngOk m e) :
    ∃ e', FCM.vectorizedInference (m.withEng e) =
      ((FCM.vectorizedInference m).1, (FCM.vectorizedInference m).2.withEng e') := by
  by_cases h4 : m.prepared = false ∧ e.prepared = false ∧ ∃ err, m.prepare = .error err
  · obtain ⟨hp, hp', err, he⟩ := h4
    have he' : (m.withEng e).prepare = .error err := by rw [← he]; exact prepare_view rfl
    refine ⟨{ (FCM.vectorizedInference m).2 with iterations := e.iterations }, ?_⟩
    unfold FCM.vectorizedInference
    dsimp only
    rw [he, he', if_neg (by show ¬ e.prepared = true; rw [hp']; decide), if_neg (by rw [hp]; decide)]
    rfl
  suffices hh : ∃ S C, FCM.vectorizedInference m = FCM.vectorRunStore { m with prepared := true, stateVector := S, cache := C } ∧
      FCM.vectorizedInference (m.withEng e) =
        FCM.vectorRunStore { (m.withEng e) with prepared := true, stateVector := S, cache := C } by
    obtain ⟨S, C, h1, h2⟩ := hh
    rw [h1, h2]
    have := store_ignores ({ m with prepared := true, stateVector := S, cache := C } : FCM α) e.iterations
    refine ⟨{ (FCM.vectorRunStore { m with prepared := true, stateVector := S, cache := C }).2 with
      iterations := e.iterations }, ?_⟩
    exact this
  rcases h with h | ⟨c, h1, h2, h3⟩ | ⟨h1, h2, h3, h4, h5⟩ | h
  rotate_right
  · exact absurd h h4
  · rw [hd] at h; cases h
  · refine ⟨m.topology.map fun p => p.2.value, c, ?_, ?_⟩
    · unfold FCM.vectorizedInference
      dsimp only
      cases hp : m.prepared with
      | true =>
        rw [if_pos rfl]
        obtain ⟨h4, h5⟩ := h2 hp
        rw [List.drop_eq_nil_of_le (by simp [h4]), List.append_nil, ← h5, ← hp]
      | false =>
        rw [if_neg (by decide), h1]
    · unfold FCM.vectorizedInference
      have hprep : (m.withEng e).prepare = .ok c := by rw [← h1]; exact prepare_view rfl
      dsimp only
      show (if e.prepared = true then _ else _) = _
      cases hp : e.prepared with
      | true =>
        rw [if_pos rfl]
        obtain ⟨h4, h5⟩ := h3 hp
        show FCM.vectorRunStore { (m.withEng e) with
          stateVector := (m.topology.map fun p => p.2.value) ++ e.stateVector.drop _ } = _
        rw [List.drop_eq_nil_of_le (by show _ ≤ (List.map _ m.topology).length; simp [h4]), List.append_nil, ← h5]
        show FCM.vectorRunStore { m with iterations := e.iterations, prepared := e.prepared, cache := e.cache, stateVector := _ } = _
        rw [hp]
        rfl
      | false =>
        rw [if_neg (by decide), hprep]
        rfl
  · refine ⟨m.stateVector, m.cache, ?_, ?_⟩
    · unfold FCM.vectorizedInference
      dsimp only
      rw [if_pos h2, h1, ← h2]
      simp
    · unfold FCM.vectorizedInference
      dsimp only
      show (if e.prepared = true then _ else _) = _
      rw [if_pos h3]
      show FCM.vectorRunStore { m with iterations := e.iterations, prepared := e.prepared, cache := e.cache, stateVector := (m.topology.map fun p => p.2.value) ++ e.stateVector.drop _ } = FCM.vectorRunStore { m with iterations := e.iterations, prepared := true, cache := m.cache, stateVector := m.stateVector }
      have : (m.topology.map fun p => p.2.value) ++ e.stateVector.drop (m.topology.map fun p => p.2.value).length = m.stateVector := by
        rw [h1, h5]; simp
      rw [h3, h4]
      exact congrArg (fun s => FCM.vectorRunStore { m with iterations := e.iterations, prepared := true, cache := e.cache, stateVector := s }) this

theorem engine_with {m e : FCM α} (h : EngOk m e) :
    ∃ e', FCM.engine (m.withEng e) = ((FCM.engine m).1, (FCM.engine m).2.withEng e') := by
  unfold FCM.engine
  show ∃ e', (if m.debug = true then _ else _) = _
  cases hd : m.debug with
  | true =>
    rw [if_pos rfl]
    unfold FCM.iterativeInference
    have := iterLoop_ignores (m.maxIter.toNat + m.extraSteps) (m.extraSteps - 1) { m with iterations := 1 } e
    refine ⟨((FCM.iterLoop (m.maxIter.toNat + m.extraSteps) (m.extraSteps - 1) { m with iterations := 1 }).2).withCache e, ?_⟩
    exact this
  | false =>
    rw [if_neg (by decide)]
    obtain ⟨e', he⟩ := vectorized_with hd h
    exact ⟨e', he⟩

theorem run_with {m e : FCM α} (h : EngOk m e) :
    ∃ e', FCM.runInference true (m.withEng e) = ((FCM.runInference true m).1, (FCM.runInference true m).2.withEng e') := by
  unfold FCM.runInference
  rw [if_pos rfl, if_pos rfl, reset_ignores]
  have hq := reset_quiet m
  rcases hr : FCM.resetExecution m with ⟨_ | ⟨⟩, m1⟩
  · exact ⟨e, rfl⟩
  · rw [hr] at hq
    obtain ⟨e', he⟩ := engine_with (h.quiet hq)
    dsimp only
    rw [he]
    rcases FCM.engine m1 with ⟨_ | ⟨⟩, m2⟩
    · exact ⟨e', rfl⟩
    · exact ⟨e', decideAll_ignores m2 e'⟩

/-- The results of an inference do not depend on the engine data. -/
theorem inference_with (cfg : GenConf α) (fs : Dict (Feature α)) {m e : FCM α} (h : EngOk m e) :
    (inferenceResult cfg fs (m.withEng e)).1 = (inferenceResult cfg fs m).1 := by
  obtain ⟨e', he⟩ := run_with h
  unfold inferenceResult
  rw [PyM.run_bind, PyM.run_bind, he]
  rcases FCM.runInference true m with ⟨_ | ⟨⟩, m1⟩
  · rfl
  · simp only [PyM.run_bind, PyM.run_get, PyM.run_lift]
    have : (m1.withEng e').getFinalState = m1.getFinalState := by
      have key : ∀ cs, finalStateLoop (m1.withEng e') "target" [] cs = finalStateLoop m1 "target" [] cs := by
        intro cs
        induction cs with
        | nil => rfl
        | cons c cs ih =>
          unfold finalStateLoop
          rw [ih]
          rfl
      exact key _
    rw [this]
    cases m1.getFinalState with
    | error _ => rfl
    | ok st =>
      dsimp only
      cases groupResult cfg fs st [] <;> rfl

/-! ### Maps that clear to the same map -/

/-- The two maps have the same concepts and relations and differ only in values, trajectories and engine data. -/
structure Twin (m m' : FCM α) : Prop where
  eq : m' = { m with topology := m'.topology, execution := m'.execution, iterations := m'.iterations,
                     prepared := m'.prepared, cache := m'.cache, stateVector := m'.stateVector }
  view : m'.view = m.view
  ekeys : m'.execution.keys = m.execution.keys

theorem Twin.refl (m : FCM α) : Twin m m := ⟨rfl, rfl, rfl⟩

theorem Twin.trans {a b c : FCM α} (h : Twin a b) (h' : Twin b c) : Twin a c :=
  ⟨by rw [h'.eq, h.eq], h'.view.trans h.view, h'.ekeys.trans h.ekeys⟩

theorem Quiet.twin {m m' : FCM α} (h : Quiet m m') (hk : m'.execution.keys = m.execution.keys) : Twin m m' :=
  ⟨by rw [h.eq], h.view, hk⟩

/-- What is needed of a map to predict with it: consistent dictionaries and cached data. -/
structure Sound (m : FCM α) : Prop where
  inv : Inv m
  sameKeys : SameKeys m
  coherent : Coherent m

theorem CleanReachable.sound {m : FCM α} (h : CleanReachable m) : Sound m :=
  ⟨h.clean.inv, h.clean.sameKeys, h.reachable.coherent⟩

theorem clear_ekeys {m m' : FCM α} (hm : Sound m) (h : FCM.clearExecution m = (.ok (), m')) :
    m'.execution.keys = m.execution.keys := by
  obtain ⟨_, _, ke, _, _⟩ := forEach_touch ClearRel clearOne_touch hm.inv.tnd h
  exact ke fun c hc => (hm.sameKeys c).1 hc

theorem twin_clear {m m' : FCM α} (hm : Sound m) (hm' : Sound m') (ht : Twin m m') :
    ∃ k, FCM.clearExecution m = (.ok (), k) ∧ FCM.clearExecution m' = (.ok (), k.withEng m') := by
  obtain ⟨k, h1, e1, k1, a1⟩ := clear_spec hm.inv
  obtain ⟨k', h2, e2, k2, a2⟩ := clear_spec hm'.inv
  refine ⟨k, h1, ?_⟩
  rw [h2]
  have kk : m'.topology.keys = m.topology.keys := view_keys ht.view
  have htop : k'.topology = k.topology := by
    refine Dict.ext_get? _ _ (by rw [k2, k1, kk]) (by rw [k2]; exact hm'.inv.tnd) fun c => ?_
    by_cases hc : c ∈ m.topology.keys
    · obtain ⟨n, hn⟩ := Dict.exists_get?_of_mem hc
      obtain ⟨n', hn'⟩ := Dict.exists_get?_of_mem (d := m'.topology) (k := c) (by rw [kk]; exact hc)
      have hs := view_get ht.view c
      rw [hn, hn', Option.map_some, Option.map_some, Option.some.injEq] at hs
      rw [(a1 c n hn).1, (a2 c n' hn').1, setVal_of_static hs]
    · rw [(Dict.get?_eq_none_iff _ _).2 (by rw [k2, kk]; exact hc), (Dict.get?_eq_none_iff _ _).2 (by rw [k1]; exact hc)]
  have ek1 := clear_ekeys hm h1
  have ek2 := clear_ekeys hm' h2
  have hexe : k'.execution = k.execution := by
    refine Dict.ext_get? _ _ (by rw [ek1, ek2, ht.ekeys]) (by rw [ek2]; exact hm'.inv.xnd) fun c => ?_
    by_cases hc : c ∈ m.topology.keys
    · obtain ⟨n, hn⟩ := Dict.exists_get?_of_mem hc
      obtain ⟨n', hn'⟩ := Dict.exists_get?_of_mem (d := m'.topology) (k := c) (by rw [kk]; exact hc)
      rw [(a1 c n hn).2, (a2 c n' hn').2]
    · have : c ∉ m.execution.keys := fun h => hc ((hm.sameKeys c).2 h)
      rw [(Dict.get?_eq_none_iff _ _).2 (by rw [ek2, ht.ekeys]; exact this),
        (Dict.get?_eq_none_iff _ _).2 (by rw [ek1]; exact this)]
  congr 1
  rw [e2, e1, htop, hexe, ht.eq]
  rfl

/-- A row gets the same prediction on both maps. -/
theorem predictRow_twin (cfg : GenConf α) (x : Ext α) (fs : Dict (Feature α)) (row : List (String × Cell α))
    {m m' : FCM α} (hm : Sound m) (hm' : Sound m') (ht : Twin m m') (he : EngOk m m') :
    (predictRow cfg x fs row m').1 = (predictRow cfg x fs row m).1 := by
  obtain ⟨k, h1, h2⟩ := twin_clear hm hm' ht
  have hq := clear_quiet m
  rw [h1] at hq
  unfold predictRow
  rw [PyM.run_bind, PyM.run_bind, h1, h2]
  dsimp only
  rw [PyM.run_bind, PyM.run_bind, initRow_ignores]
  have hq2 := initRow_quiet k cfg x fs row k (Quiet.refl k)
  rcases hr : initRow cfg x fs row k with ⟨_ | ⟨⟩, k2⟩
  · rfl
  · rw [hr] at hq2
    exact inference_with cfg fs ((he.quiet hq).quiet hq2)

/-! ### After a successful prediction -/

theorem vectorizedRun_empty {sv : List α} (hne : sv ≠ []) (M : Int) (d : α) (e : Nat) (out : List (List α)) :
    vectorizedRun ⟨[], [], [], [], [], []⟩ sv M d e ≠ .ok out := by
  unfold vectorizedRun
  intro h
  split at h
  · cases h
  · split at h
    · cases h
    · dsimp only at h
      cases hM : M.toNat with
      | zero => rw [hM] at h; simp only [vecLoop] at h; cases h
      | succ n =>
        rw [hM] at h
        obtain ⟨x, xs, rfl⟩ := List.exists_cons_of_ne_nil hne
        simp only [vecLoop, List.length_cons, List.range_succ_eq_map, List.mapM_cons] at h
        cases h

theorem Sound.quiet {m m' : FCM α} (hm : Sound m) (hi : Inv m') (hq : Quiet m m')
    (hk : m'.execution.keys = m.execution.keys) : Sound m' := by
  refine ⟨hi, ?_, hm.coherent.still hq.still⟩
  intro c
  rw [view_keys hq.view, hk]
  exact hm.sameKeys c

theorem step_init {m m' : FCM α} (hc : Sound m) {c : String} {v : α} {r : Bool}
    (h : FCM.initConcept c v r m = (.ok (), m')) : Sound m' ∧ Quiet m m' ∧ m'.execution.keys = m.execution.keys := by
  suffices hh : Quiet m m' ∧ m'.execution.keys = m.execution.keys by
    refine ⟨hc.quiet ?_ hh.1 hh.2, hh⟩
    have := (Op.initConcept c v r).pres m hc.inv
    simp only [Op.run] at this
    rwa [h] at this
  constructor
  · have := initConcept_quiet m c v r m (Quiet.refl m)
    rwa [h] at this
  · have hin : ∀ n, m.topology.get? c = some n → c ∈ m.execution.keys := fun n hn =>
      (hc.sameKeys c).1 (Dict.mem_keys_of_get? hn)
    unfold FCM.initConcept at h
    split at h
    · split at h <;> cases h
      rfl
    · rename_i n hn
      split at h
      · cases h
      · split at h
        · split at h
          · cases h
          · split at h
            · cases h
            · cases h
              exact Dict.keys_set_of_mem _ _ _ (hin n hn)
        · cases h
          exact Dict.keys_set_of_mem _ _ _ (hin n hn)

/-- Clean, and differing from `m0` in values and trajectories only. -/
structure Calm (m0 m : FCM α) : Prop where
  sound : Sound m
  quiet : Quiet m0 m
  ekeys : m.execution.keys = m0.execution.keys

theorem Calm.refl {m : FCM α} (h : Sound m) : Calm m m := ⟨h, Quiet.refl m, rfl⟩

theorem Quiet.trans {a b c : FCM α} (h : Quiet a b) (h' : Quiet b c) : Quiet a c :=
  h.of h'.eq h'.still

theorem Calm.trans {a b c : FCM α} (h : Calm a b) (h' : Calm b c) : Calm a c :=
  ⟨h'.sound, h.quiet.trans h'.quiet, h'.ekeys.trans h.ekeys⟩

theorem initAll_calm {v : α} : ∀ {cs : List String} {m m' : FCM α}, Sound m → initAll v cs m = (.ok (), m') →
    Calm m m'
  | [], m, m', hc, h => by cases h; exact Calm.refl hc
  | c :: cs, m, m', hc, h => by
    unfold initAll at h
    rw [PyM.run_bind] at h
    split at h
    · rename_i m1 h1
      obtain ⟨c1, q1, k1⟩ := step_init hc h1
      exact Calm.trans ⟨c1, q1, k1⟩ (initAll_calm c1 h)
    · cases h

theorem initByFeature_calm {cfg : GenConf α} {x : Ext α} {fs : Dict (Feature α)} {feat : String} {v : Cell α}
    {m m' : FCM α} (hc : Sound m) (h : initByFeature cfg x fs feat v m = (.ok (), m')) : Calm m m' := by
  unfold initByFeature at h
  split at h
  · rename_i m1 hb
    cases h
    unfold initByFeatureBody at hb
    simp only [PyM.run_bind, PyM.run_lift] at hb
    cases hf : need feat (fs.get? feat) with
    | error _ => rw [hf] at hb; cases hb
    | ok f =>
      rw [hf] at hb
      dsimp only at hb
      split at hb
      · rw [PyM.run_bind, PyM.run_lift] at hb
        cases hv : v.num with
        | error _ => rw [hv] at hb; cases hb
        | ok w => rw [hv] at hb; exact initAll_calm hc hb
      · rw [PyM.run_bind, PyM.run_lift] at hb
        cases hv : v.key x with
        | error _ => rw [hv] at hb; cases hb
        | ok w =>
          rw [hv] at hb
          obtain ⟨a, b, c⟩ := step_init hc hb
          exact ⟨a, b, c⟩
  · cases h

theorem initRow_calm {cfg : GenConf α} {x : Ext α} {fs : Dict (Feature α)} : ∀ {row : List (String × Cell α)}
    {m m' : FCM α}, Sound m → initRow cfg x fs row m = (.ok (), m') → Calm m m'
  | [], m, m', hc, h => by cases h; exact Calm.refl hc
  | p :: ps, m, m', hc, h => by
    unfold initRow at h
    simp only [PyM.forEach] at h
    split at h
    · rename_i m1 h1
      have c1 := initByFeature_calm hc h1
      exact c1.trans (initRow_calm c1.sound h)
    · cases h

theorem inferenceResult_ok {cfg : GenConf α} {fs : Dict (Feature α)} {m m' : FCM α} {p : Dict Label}
    (h : inferenceResult cfg fs m = (.ok p, m')) : FCM.runInference true m = (.ok (), m') ∧
      ∃ st gr, m'.getFinalState = .ok st ∧ groupResult cfg fs st [] = .ok gr ∧ discreteResult gr = .ok p := by
  unfold inferenceResult at h
  simp only [PyM.run_bind] at h
  split at h
  · rename_i m1 h1
    simp only [PyM.run_get, PyM.run_lift] at h
    cases hs : m1.getFinalState with
    | error _ => rw [hs] at h; cases h
    | ok st =>
      rw [hs] at h
      dsimp only at h
      cases hg : groupResult cfg fs st [] with
      | error _ => rw [hg] at h; cases h
      | ok gr =>
        rw [hg] at h
        dsimp only at h
        have e2 : m1 = m' := (Prod.mk.inj h).2
        subst e2
        exact ⟨h1, st, gr, hs, hg, (Prod.mk.inj h).1⟩
  · cases h

theorem predictRow_ok {cfg : GenConf α} {x : Ext α} {fs : Dict (Feature α)} {row : List (String × Cell α)}
    {m m' : FCM α} {p : Dict Label} (h : predictRow cfg x fs row m = (.ok p, m')) :
    ∃ k k2, FCM.clearExecution m = (.ok (), k) ∧ initRow cfg x fs row k = (.ok (), k2) ∧
      inferenceResult cfg fs k2 = (.ok p, m') := by
  unfold predictRow at h
  rw [PyM.run_bind] at h
  split at h
  · rename_i k hk
    rw [PyM.run_bind] at h
    split at h
    · rename_i k2 hk2
      exact ⟨k, k2, hk, hk2, h⟩
    · cases h
  · cases h

/-- A successful prediction leaves a map that predicts alike. -/
theorem predictRow_calm {cfg : GenConf α} {x : Ext α} {fs : Dict (Feature α)} {row : List (String × Cell α)}
    {m m' : FCM α} {p : Dict Label} (hc : Sound m) (h : predictRow cfg x fs row m = (.ok p, m')) :
    Sound m' ∧ Twin m m' ∧ EngOk m m' := by
  obtain ⟨k, k2, h1, h2, h3⟩ := predictRow_ok h
  have ek := clear_ekeys hc h1
  have qk : Quiet m k := by have := clear_quiet m; rwa [h1] at this
  have ik : Inv k := by have := Op.clearExecution.pres m hc.inv; simp only [Op.run] at this; rwa [h1] at this
  have ck : Calm m k := ⟨hc.quiet ik qk ek, qk, ek⟩
  have ck2 := ck.trans (initRow_calm ck.sound h2)
  obtain ⟨hr, -⟩ := inferenceResult_ok h3
  obtain ⟨k3, k4, r1, r2, r3, hf, ha, i4⟩ := run_after ck2.sound.inv hr
  have q3 := reset_quiet k2
  rw [r1] at q3
  have q : Quiet m k3 := ck2.quiet.trans q3
  obtain ⟨-, -, ek3, -, -⟩ := reset_spec ck2.sound.inv r1
  have hview : m'.view = m.view := by
    have := run_view true k2
    rw [hr] at this
    exact this.trans ck2.quiet.view
  have hek : m'.execution.keys = m.execution.keys := by rw [ha.ekeys, ek3, ck2.ekeys]
  have im' : Inv m' := by
    have := (Op.runInference true).pres k2 ck2.sound.inv; simp only [Op.run] at this; rwa [hr] at this
  have hco' : Coherent m' := by
    have := (Op.runInference true).coherent k2 ck2.sound.coherent; simp only [Op.run] at this; rwa [hr] at this
  refine ⟨⟨im', ?_, hco'⟩, ⟨?_, hview, hek⟩, ?_⟩
  · intro c
    rw [view_keys hview, hek]
    exact hc.sameKeys c
  · rw [ha.eq, q.eq]
  · cases hd : m.debug with
    | true => exact .inl hd
    | false =>
      have hd3 : k3.debug = false := by rw [q.eq]; exact hd
      have s := q.still
      unfold FCM.engine at r2
      rw [hd3, if_neg (by decide)] at r2
      obtain ⟨cache, sv, result, hcase, hne, hres, e4⟩ := vectorized_ok r2
      obtain ⟨e5, -, -⟩ := decideAll_spec i4 r3
      have hp' : m'.prepared = true := by rw [e5, e4]
      have hc' : m'.cache = cache := by rw [e5, e4]
      have hs' : m'.stateVector = sv := by rw [e5, e4]
      have hlen : k3.topology.length = m.topology.length := view_length q.view
      have hprep : k3.prepare = m.prepare := prepare_view q.view
      rcases hcase with ⟨hp, rfl, hsv⟩ | ⟨hp, hpr, hsv⟩
      · have hco : Coherent k3 := hc.coherent.still s
        have hpm : m.prepared = true := by rw [← s.prepared, hp]
        rcases hco hp with ht | ⟨hl, hcc⟩
        · refine .inr (.inr (.inl ⟨?_, hpm, hp', by rw [hc', s.cache], ?_⟩))
          · rw [ht] at hlen; exact List.length_eq_zero_iff.1 hlen.symm
          · rw [hs', hsv, ht, s.state]; simp
        · have hsl : sv.length = m.topology.length := by
            rw [hsv, List.drop_eq_nil_of_le (by omega)]
            simp [hlen]
          rcases hcc with hcc | ⟨_, hcc⟩
          · refine .inr (.inl ⟨k3.cache, by rw [← hprep, hcc], ?_, ?_⟩)
            · intro _; exact ⟨by rw [← s.state, hl, hlen], s.cache.symm⟩
            · intro _; exact ⟨by rw [hs', hsl], hc'⟩
          · rw [hcc] at hres
            exact absurd hres (vectorizedRun_empty hne _ _ _ _)
      · refine .inr (.inl ⟨cache, by rw [← hprep, hpr], ?_, ?_⟩)
        · intro hpm; rw [← s.prepared, hp] at hpm; cases hpm
        · intro _; exact ⟨by rw [hs', hsv]; simp [hlen], hc'⟩

end PyFCM
