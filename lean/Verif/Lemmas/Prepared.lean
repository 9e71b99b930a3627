import Verif.Lemmas.VectorTerm
/-
The data cached by the vectorised engine against the current map.
-/
namespace PyFCM
open Arith

set_option linter.unusedSectionVars false

variable {α : Type} [Arith α]

/-- What the cached data is computed from. -/
def FCM.view (m : FCM α) : List (String × Node α) × List (Arc α) :=
  (m.topology.map (fun p => (p.1, p.2.static)), m.arcList)

theorem prepRow_static (n : Node α) : prepRow n.static = prepRow n := rfl

theorem mapM_map {β γ δ : Type} (g : β → γ) (f : γ → Except Err δ) (xs : List β) :
    (xs.map g).mapM f = xs.mapM (fun x => f (g x)) := by
  induction xs with
  | nil => rfl
  | cons x xs ih => simp only [List.map_cons, List.mapM_cons, ih]

theorem prepare_view {m m' : FCM α} (h : m'.view = m.view) : m'.prepare = m.prepare := by
  unfold FCM.view at h
  obtain ⟨h1, h2⟩ := Prod.mk.inj h
  have e : ∀ d : Dict (Node α), d.mapM (fun p => prepRow p.2) =
      (d.map (fun p => (p.1, p.2.static))).mapM (fun p => prepRow p.2) := by
    intro d
    rw [mapM_map]
    rfl
  have hk : ∀ d : Dict (Node α), d.keys = (d.map (fun p => (p.1, p.2.static))).map (·.1) := by
    intro d; simp [Dict.keys]
  have hl : ∀ d : Dict (Node α), d.length = (d.map (fun p => (p.1, p.2.static))).length := by
    intro d; simp
  unfold FCM.prepare
  rw [e m'.topology, e m.topology, hk m'.topology, hk m.topology, hl m'.topology, hl m.topology, h1, h2]

theorem map_set_same {β γ : Type} (g : β → γ) (d : Dict β) (k : String) (n n' : β) (h : d.get? k = some n)
    (hg : g n' = g n) : (d.set k n').map (fun p => (p.1, g p.2)) = d.map (fun p => (p.1, g p.2)) := by
  induction d with
  | nil => simp [Dict.get?] at h
  | cons p d ih =>
    obtain ⟨k', v⟩ := p
    rw [Dict.get?_cons] at h
    unfold Dict.set
    by_cases hk : k' = k
    · subst hk
      rw [if_pos rfl] at h
      cases h
      simp [hg]
    · rw [if_neg hk] at h
      rw [if_neg hk]
      simp [ih h]

/-- `m` and `m'` have the same engine data, computed from the same map. -/
structure Still (m0 m : FCM α) : Prop where
  view : m.view = m0.view
  prepared : m.prepared = m0.prepared
  cache : m.cache = m0.cache
  state : m.stateVector = m0.stateVector

theorem Still.refl (m : FCM α) : Still m m := ⟨rfl, rfl, rfl, rfl⟩

theorem Still.set {m0 m : FCM α} (h : Still m0 m) {c : String} {n n' : Node α} (hn : m.topology.get? c = some n)
    (hs : n'.static = n.static) {m' : FCM α} (ht : m'.topology = m.topology.set c n') (ha : m'.arcList = m.arcList)
    (hp : m'.prepared = m.prepared) (hc : m'.cache = m.cache) (hv : m'.stateVector = m.stateVector) : Still m0 m' := by
  refine ⟨?_, hp.trans h.prepared, hc.trans h.cache, hv.trans h.state⟩
  rw [← h.view]
  unfold FCM.view
  rw [ht, ha, map_set_same Node.static _ _ n n' hn hs]

theorem Still.same {m0 m m' : FCM α} (h : Still m0 m) (ht : m'.topology = m.topology) (ha : m'.arcList = m.arcList)
    (hp : m'.prepared = m.prepared) (hc : m'.cache = m.cache) (hv : m'.stateVector = m.stateVector) : Still m0 m' := by
  refine ⟨?_, hp.trans h.prepared, hc.trans h.cache, hv.trans h.state⟩
  rw [← h.view]
  unfold FCM.view
  rw [ht, ha]

theorem resetOne_still (m0 : FCM α) (c : String) : Pres (Still m0) (resetOne c) := by
  intro m hm
  unfold resetOne
  cases hn : m.topology.get? c with
  | none => exact hm
  | some n =>
    dsimp only
    split
    · exact hm.set hn (n' := { n with aux := [] }) rfl rfl rfl rfl rfl rfl
    · exact hm.set hn (n' := { n with aux := [] }) rfl rfl rfl rfl rfl rfl
    · rename_i v _ _
      refine Still.set (m := m) (n := n) (n' := { n with aux := [], value := v }) hm hn rfl ?_ rfl rfl rfl rfl
      show (m.topology.set c { n with aux := [] }).set c { n with aux := [], value := v } = _
      exact Dict.set_set _ _ _ _

theorem clearOne_still (m0 : FCM α) (c : String) : Pres (Still m0) (clearOne c) := by
  intro m hm
  unfold clearOne
  cases hn : m.topology.get? c with
  | none => exact hm
  | some n => exact hm.set hn (n' := { n with aux := [], value := lit 0 }) rfl rfl rfl rfl rfl rfl

theorem decideNode_still (m0 : FCM α) (c : String) : Pres (Still m0) (decideNode c) := by
  intro m hm
  unfold decideNode
  cases hn : m.topology.get? c with
  | none => exact hm
  | some n =>
    dsimp only
    split
    · exact hm
    · split
      · exact hm
      · rename_i v _
        exact hm.set hn (n' := { n with value := v }) rfl rfl rfl rfl rfl rfl

theorem gatherArc_still (m0 : FCM α) (a : Arc α) : Pres (Still m0) (gatherArc a) := by
  intro m hm
  unfold gatherArc
  cases ho : m.topology.get? a.origin with
  | none => exact hm
  | some o =>
    dsimp only
    split
    · cases hx : o.exec with
      | none => exact hm
      | some ex =>
        dsimp only
        cases hd : m.topology.get? a.dest with
        | none => exact hm
        | some d =>
          exact hm.set hd (n' := { d with aux := d.aux ++ [arcInput ex.2 o.value a.weight] }) rfl rfl rfl rfl rfl rfl
    · exact hm

/-- Writing twice to the same node, both times leaving its static part alone. -/
theorem Still.set2 {m0 m m' : FCM α} (h : Still m0 m) {c : String} {n n1 n2 : Node α}
    (hn : m.topology.get? c = some n) (hs : n2.static = n.static)
    (ht : m'.topology = (m.topology.set c n1).set c n2) (ha : m'.arcList = m.arcList)
    (hp : m'.prepared = m.prepared) (hc : m'.cache = m.cache) (hv : m'.stateVector = m.stateVector) : Still m0 m' :=
  h.set hn hs (ht.trans (Dict.set_set _ _ _ _)) ha hp hc hv

theorem stepNode_still (m0 : FCM α) (c : String) : Pres (Still m0) (stepNode c) := by
  intro m hm
  unfold stepNode
  cases hn : m.topology.get? c with
  | none => exact hm
  | some n =>
    dsimp only
    split
    · exact hm
    · split
      · exact hm
      · have h1 : Still m0 { m with topology := m.topology.set c { n with aux := [] } } :=
          hm.set hn (n' := { n with aux := [] }) rfl rfl rfl rfl rfl rfl
        split
        · exact h1
        · split
          · exact h1
          · split
            · exact h1
            · rename_i r _
              split
              · exact hm.set2 hn (n1 := { n with aux := [] }) (n2 := { n with aux := [], value := r }) rfl rfl rfl rfl
                  rfl rfl
              · exact hm.set2 hn (n1 := { n with aux := [] }) (n2 := { n with aux := [], value := r }) rfl rfl rfl rfl
                  rfl rfl

theorem stepOnce_still (m0 : FCM α) : Pres (Still m0) FCM.stepOnce := by
  intro m hm
  unfold FCM.stepOnce
  have h1 := Pres.forEach (P := Still m0) (xs := m.arcList) (fun a _ => gatherArc_still m0 a) m hm
  split <;> rename_i h <;> rw [h] at h1
  · exact h1
  · rename_i m1
    have h2 := Pres.forEach (P := Still m0) (xs := m1.execution.keys) (fun a _ => stepNode_still m0 a) m1 h1
    split <;> rename_i h <;> rw [h] at h2
    · exact h2
    · exact h2.same rfl rfl rfl rfl rfl

theorem iterLoop_still (m0 : FCM α) (fuel extra : Nat) : Pres (Still m0) (FCM.iterLoop fuel extra) := by
  induction fuel generalizing extra with
  | zero => intro m hm; unfold FCM.iterLoop; split <;> exact hm
  | succ f ih =>
    intro m hm
    unfold FCM.iterLoop
    split
    · split
      · exact hm
      · dsimp only
        have h1 := stepOnce_still m0 m hm
        split <;> rename_i h <;> rw [h] at h1
        · exact h1
        · exact ih _ _ h1
    · exact hm

theorem initConcept_still (m0 : FCM α) (c : String) (v : α) (r : Bool) : Pres (Still m0) (FCM.initConcept c v r) := by
  intro m hm
  unfold FCM.initConcept
  cases hn : m.topology.get? c with
  | none => dsimp only; split <;> exact hm
  | some n =>
    dsimp only
    split
    · exact hm
    · split
      · split
        · exact hm
        · split
          · exact hm
          · rename_i v' _
            exact hm.set hn (n' := { n with value := v', aux := [] }) rfl rfl rfl rfl rfl rfl
      · exact hm.set hn (n' := { n with value := v, aux := [] }) rfl rfl rfl rfl rfl rfl

/-- Cache coherence: a set flag means that the data is what the current map gives, unless the map is empty or its
data cannot be computed. -/
def Coherent (m : FCM α) : Prop :=
  m.prepared = true → m.topology = [] ∨
    (m.stateVector.length = m.topology.length ∧
      (m.prepare = .ok m.cache ∨ (∃ e, m.prepare = .error e) ∧ m.cache = ⟨[], [], [], [], [], []⟩))

theorem Coherent.still {m m' : FCM α} (h : Coherent m) (hs : Still m m') : Coherent m' := by
  intro hp
  have hlen : m'.topology.length = m.topology.length := by
    have := congrArg (fun v => v.1.length) hs.view
    simpa [FCM.view] using this
  rcases h (by rw [← hs.prepared, hp]) with ht | ⟨hl, hc⟩
  · left
    rw [ht] at hlen
    exact List.length_eq_zero_iff.1 hlen
  · right
    refine ⟨by rw [hs.state, hlen, hl], ?_⟩
    rw [prepare_view hs.view, hs.cache]
    exact hc

theorem Coherent.of_false {m : FCM α} (h : m.prepared = false) : Coherent m := by
  intro hp; rw [h] at hp; cases hp

theorem Pres.coherent {β : Type} {x : PyM (FCM α) β} (h : ∀ m0, Pres (Still m0) x) : Pres Coherent x :=
  fun m hm => hm.still (h m m (Still.refl m))

theorem vecLoop_length {c : Cache α} {n M : Nat} {d : α} {e fuel : Nat} {state : List α} {out out' : List (List α)}
    {cur it ctr : Nat} (hc : 1 ≤ cur) (ho : out.length = n)
    (h : vecLoop c n M d e fuel state out cur it ctr = .ok out') : out'.length = n := (vecLoop_heads hc ho h).1

theorem vectorRunStore_coherent (m : FCM α) (h : Coherent m) : Coherent m.vectorRunStore.2 := by
  unfold FCM.vectorRunStore
  split
  · exact h
  · split
    · exact h
    · rename_i result hres
      intro hp
      rcases h hp with ht | ⟨hl, hc⟩
      · exact .inl ht
      · refine .inr ⟨?_, hc⟩
        show (result.map _).length = m.topology.length
        rw [List.length_map, (vectorizedRun_heads hres).1, hl]

theorem vectorized_coherent : Pres Coherent (FCM.vectorizedInference : PyM (FCM α) Unit) := by
  intro m hm
  unfold FCM.vectorizedInference
  dsimp only
  split
  · rename_i hp
    apply vectorRunStore_coherent
    intro _
    rcases hm hp with ht | ⟨hl, hc⟩
    · exact .inl ht
    · refine .inr ⟨?_, hc⟩
      simp [hl]
  · split
    · rename_i e he
      intro _
      refine .inr ⟨by simp, .inr ⟨⟨e, ?_⟩, rfl⟩⟩
      rw [← he]
      exact prepare_view rfl
    · rename_i c hc
      apply vectorRunStore_coherent
      intro _
      refine .inr ⟨by simp, .inl ?_⟩
      show FCM.prepare _ = _
      rw [← hc]
      exact prepare_view rfl

theorem runInference_coherent (r : Bool) : Pres Coherent (FCM.runInference r : PyM (FCM α) Unit) := by
  intro m hm
  unfold FCM.runInference
  have h1 : Coherent (if r then FCM.resetExecution m else (.ok (), m)).2 := by
    split
    · exact Pres.coherent (x := FCM.resetExecution)
        (fun m0 s hs => Pres.forEach (P := Still m0) (fun c _ => resetOne_still m0 c) s hs) m hm
    · exact hm
  split <;> rename_i h <;> rw [h] at h1
  · exact h1
  · rename_i m1
    have h2 : Coherent (FCM.engine m1).2 := by
      unfold FCM.engine
      split
      · refine Coherent.still h1 ?_
        exact iterLoop_still m1 _ _ _ ((Still.refl m1).same rfl rfl rfl rfl rfl)
      · exact vectorized_coherent m1 h1
    split <;> rename_i h <;> rw [h] at h2
    · exact h2
    · rename_i m2
      exact h2.still (Pres.forEach (P := Still m2) (fun c _ => decideNode_still m2 c) m2 (Still.refl m2))

theorem applyMapFn_flag (f : FnInfo α) (c : String) : Pres (fun m : FCM α => m.prepared = false) (applyMapFn f c) := by
  intro m hm
  unfold applyMapFn
  repeat' split
  all_goals exact hm

theorem Op.coherent (op : Op α) : Pres Coherent op.run := by
  cases op
  case addConcept c a =>
    intro m hm
    apply Coherent.of_false
    simp only [Op.run, FCM.addConcept]
    split <;> rfl
  case setConceptProperties c a =>
    intro m hm
    simp only [Op.run, FCM.setConceptProperties]
    split
    · exact hm
    · exact Coherent.of_false rfl
  case setDefaultConceptProperties a =>
    intro m hm
    exact hm.still ((Still.refl m).same rfl rfl rfl rfl rfl)
  case setMapDecisionFunction f =>
    intro m hm
    simp only [Op.run, FCM.setMapDecisionFunction]
    split
    · exact hm
    · exact hm.still ((Still.refl m).same rfl rfl rfl rfl rfl)
  case setMapActivationFunction f k =>
    intro m hm
    apply Coherent.of_false
    simp only [Op.run, FCM.setMapActivationFunction, PyM.run_bind, PyM.run_modify]
    cases Activation.getFunctionByName f with
    | none => rfl
    | some g =>
      simp only [PyM.run_bind, PyM.run_modify, PyM.run_get]
      exact Pres.forEach (P := fun m : FCM α => m.prepared = false) (fun c _ => applyMapFn_flag _ c) _ rfl
  case addRelation o d w =>
    intro m hm
    apply Coherent.of_false
    simp only [Op.run, FCM.addRelation]
    repeat' split
    all_goals rfl
  case initConcept c v r => exact Pres.coherent fun m0 => initConcept_still m0 c v r
  case resetExecution =>
    exact Pres.coherent (x := FCM.resetExecution)
      (fun m0 s hs => Pres.forEach (P := Still m0) (fun c _ => resetOne_still m0 c) s hs)
  case clearExecution =>
    exact Pres.coherent (x := FCM.clearExecution)
      (fun m0 s hs => Pres.forEach (P := Still m0) (fun c _ => clearOne_still m0 c) s hs)
  case clearAll =>
    refine Pres.bind (Pres.coherent (x := FCM.resetExecution)
      (fun m0 s hs => Pres.forEach (P := Still m0) (fun c _ => resetOne_still m0 c) s hs)) fun _ => ?_
    intro m hm hp
    exact .inl rfl
  case runInference r => exact runInference_coherent r
  all_goals exact Pres.modify fun m hm => hm.still ((Still.refl m).same rfl rfl rfl rfl rfl)

theorem Reachable.coherent {m : FCM α} (h : Reachable m) : Coherent m := by
  obtain ⟨_, _, _, _, _, _, _, _, m0, ops, hnew, rfl⟩ := h
  have h0 : Coherent m0 := by
    apply Coherent.of_false
    unfold FCM.new at hnew
    split at hnew
    · cases hnew
    · split at hnew
      · cases hnew
      · cases hnew; rfl
  clear hnew
  induction ops generalizing m0 with
  | nil => exact h0
  | cons op ops ih => exact ih _ (op.coherent m0 h0)

end PyFCM
