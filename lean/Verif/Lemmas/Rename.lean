import Verif.Model.Api
/-
Renaming concepts commutes with every operation of the API.
-/
namespace PyFCM
open Arith

set_option linter.unusedSectionVars false

variable {α : Type} [Arith α] {ρ : String → String}

/-! ### Renaming -/

/-- The same dictionary under new keys. -/
def Dict.rename {β : Type} (ρ : String → String) (d : Dict β) : Dict β := d.map fun p => (ρ p.1, p.2)

/-- The same concept, its outgoing relations naming the renamed concepts. -/
def Node.rename (ρ : String → String) (n : Node α) : Node α := { n with arcs := n.arcs.map fun p => (ρ p.1, p.2) }

def Arc.rename (ρ : String → String) (a : Arc α) : Arc α := ⟨ρ a.dest, a.weight, ρ a.origin⟩

/-- The same map with every concept `c` called `ρ c`. -/
def FCM.rename (ρ : String → String) (m : FCM α) : FCM α :=
  { m with
    topology := m.topology.map fun p => (ρ p.1, p.2.rename ρ)
    arcList := m.arcList.map (Arc.rename ρ)
    execution := m.execution.rename ρ }

/-- The same call for the renamed concepts. -/
def Op.rename (ρ : String → String) : Op α → Op α
  | .addConcept n a => .addConcept (ρ n) a
  | .setConceptProperties n a => .setConceptProperties (ρ n) a
  | .addRelation o d w => .addRelation (ρ o) (ρ d) w
  | .initConcept n v r => .initConcept (ρ n) v r
  | op => op

/-! ### Dictionaries -/

section
variable {β γ : Type} (f : β → γ)

omit [Arith α] in
theorem get?_map_inj (hρ : Function.Injective ρ) (d : Dict β) (k : String) :
    Dict.get? (d.map fun p => (ρ p.1, f p.2)) (ρ k) = (d.get? k).map f := by
  induction d with
  | nil => rfl
  | cons p d ih =>
    obtain ⟨k', v⟩ := p
    simp only [List.map_cons, Dict.get?]
    by_cases h : k' = k
    · rw [if_pos h, if_pos (congrArg ρ h)]; rfl
    · rw [if_neg h, if_neg (fun e => h (hρ e)), ih]

theorem set_map_inj (hρ : Function.Injective ρ) (d : Dict β) (k : String) (v : β) :
    Dict.set (d.map fun p => (ρ p.1, f p.2)) (ρ k) (f v) = (d.set k v).map fun p => (ρ p.1, f p.2) := by
  induction d with
  | nil => rfl
  | cons p d ih =>
    obtain ⟨k', v'⟩ := p
    simp only [List.map_cons, Dict.set]
    by_cases h : k' = k
    · rw [if_pos h, if_pos (congrArg ρ h)]; rfl
    · rw [if_neg h, if_neg (fun e => h (hρ e)), ih]; rfl

theorem keys_map_inj (d : Dict β) : Dict.keys (d.map fun p => (ρ p.1, f p.2)) = d.keys.map ρ := by
  simp [Dict.keys]

end

theorem rename_get? (hρ : Function.Injective ρ) (m : FCM α) (c : String) :
    (m.rename ρ).topology.get? (ρ c) = (m.topology.get? c).map (Node.rename ρ) := get?_map_inj _ hρ _ _

theorem rename_set (hρ : Function.Injective ρ) (m : FCM α) (c : String) (n : Node α) :
    (m.rename ρ).topology.set (ρ c) (n.rename ρ) = (m.topology.set c n).map fun p => (ρ p.1, p.2.rename ρ) :=
  set_map_inj _ hρ _ _ _

theorem rename_xget? (hρ : Function.Injective ρ) (m : FCM α) (c : String) :
    (m.rename ρ).execution.get? (ρ c) = m.execution.get? c := by
  have := get?_map_inj (ρ := ρ) (fun x : List α => x) hρ m.execution c
  rw [Option.map_id'] at this
  exact this

theorem rename_xset (hρ : Function.Injective ρ) (m : FCM α) (c : String) (xs : List α) :
    (m.rename ρ).execution.set (ρ c) xs = (m.execution.set c xs).rename ρ := set_map_inj (fun x => x) hρ _ _ _

/-- Storing under a renamed key (the form used below). -/
theorem rename_put (hρ : Function.Injective ρ) (t : Dict (Node α)) (c : String) (n : Node α) :
    ((t.set c n).map fun p => (ρ p.1, p.2.rename ρ)) = Dict.set (t.map fun p => (ρ p.1, p.2.rename ρ)) (ρ c) (n.rename ρ) :=
  (set_map_inj _ hρ _ _ _).symm

theorem rename_xput (hρ : Function.Injective ρ) (d : Dict (List α)) (c : String) (xs : List α) :
    Dict.rename ρ (d.set c xs) = Dict.set (Dict.rename ρ d) (ρ c) xs := (set_map_inj (fun x => x) hρ _ _ _).symm

theorem rename_keys (m : FCM α) : (m.rename ρ).topology.keys = m.topology.keys.map ρ := keys_map_inj _ _
theorem rename_xkeys (m : FCM α) : (m.rename ρ).execution.keys = m.execution.keys.map ρ := keys_map_inj (fun x => x) _

/-! ### Programs -/

/-- What a caller sees of a call, apart from the text of an exception: whether it raised, and the object. -/
def seen {σ : Type} (p : Except Err Unit × σ) : Bool × σ := (p.1.isOk, p.2)

/-- `y` on the renamed map does what `x` does on the map. -/
def Eqv (ρ : String → String) (x y : PyM (FCM α) Unit) : Prop :=
  ∀ m, seen (y (m.rename ρ)) = ((x m).1.isOk, (x m).2.rename ρ)

theorem Eqv.ok {x y : PyM (FCM α) Unit} (h : Eqv ρ x y) {m m' : FCM α} (hx : x m = (.ok (), m')) :
    y (m.rename ρ) = (.ok (), m'.rename ρ) := by
  have := h m
  rw [hx] at this
  rcases hy : y (m.rename ρ) with ⟨_ | _, s⟩ <;> rw [hy] at this <;> simp [seen, Except.isOk, Except.toBool] at this
  rw [this]

theorem Eqv.err {x y : PyM (FCM α) Unit} (h : Eqv ρ x y) {m m' : FCM α} {e : Err} (hx : x m = (.error e, m')) :
    ∃ e', y (m.rename ρ) = (.error e', m'.rename ρ) := by
  have := h m
  rw [hx] at this
  rcases hy : y (m.rename ρ) with ⟨e' | _, s⟩ <;> rw [hy] at this <;> simp [seen, Except.isOk, Except.toBool] at this
  exact ⟨e', by rw [this]⟩

theorem Eqv.forEach {ι κ : Type} (h : ι → κ) {f : ι → PyM (FCM α) Unit} {g : κ → PyM (FCM α) Unit} (xs : List ι)
    (hfg : ∀ x ∈ xs, Eqv ρ (f x) (g (h x))) : Eqv ρ (PyM.forEach xs f) (PyM.forEach (xs.map h) g) := by
  induction xs with
  | nil => intro m; rfl
  | cons x xs ih =>
    intro m
    have hx := hfg x (by simp)
    have ih := ih fun y hy => hfg y (List.mem_cons_of_mem _ hy)
    simp only [List.map_cons, PyM.forEach]
    rcases hr : f x m with ⟨e | u, m1⟩
    · obtain ⟨e', he⟩ := hx.err hr
      rw [he]
      rfl
    · rw [hx.ok hr]
      exact ih m1

/-- Two programs one after the other. -/
theorem Eqv.seq {x y : PyM (FCM α) Unit} {x' y' : PyM (FCM α) Unit} (h1 : Eqv ρ x y) (h2 : Eqv ρ x' y') :
    Eqv ρ (fun m => match x m with
      | (.error e, m) => (.error e, m)
      | (.ok (), m) => x' m) (fun m => match y m with
      | (.error e, m) => (.error e, m)
      | (.ok (), m) => y' m) := by
  intro m
  rcases hr : x m with ⟨e | u, m1⟩
  · obtain ⟨e', he⟩ := h1.err hr
    simp only [hr, he]
    rfl
  · simp only [hr, h1.ok hr]
    exact h2 m1

/-- A program over a concept that does not look at its outgoing relations. -/
def NodeNat {β : Type} (ρ : String → String) (x : PyM (Node α) β) : Prop := ∀ n, x (n.rename ρ) = ((x n).1, (x n).2.rename ρ)

theorem NodeNat.pure {β : Type} (b : β) : NodeNat (α := α) ρ (Pure.pure b : PyM (Node α) β) := fun _ => rfl
theorem NodeNat.raise {β : Type} (e : Err) : NodeNat (α := α) ρ (PyM.raise e : PyM (Node α) β) := fun _ => rfl
theorem NodeNat.lift {β : Type} (x : Except Err β) : NodeNat (α := α) ρ (PyM.lift x : PyM (Node α) β) := fun _ => rfl
theorem NodeNat.modify {f : Node α → Node α} (h : ∀ n, f (n.rename ρ) = (f n).rename ρ) : NodeNat ρ (PyM.modify f) := fun n => by
  show (Except.ok (), f (n.rename ρ)) = _
  rw [h]
  rfl
theorem NodeNat.bind {β γ : Type} {x : PyM (Node α) β} {f : β → PyM (Node α) γ} (hx : NodeNat ρ x) (hf : ∀ b, NodeNat ρ (f b)) :
    NodeNat ρ (x >>= f) := by
  intro n
  simp only [PyM.run_bind]
  rw [hx n]
  rcases x n with ⟨e | b, n'⟩
  · rfl
  · exact hf b n'

theorem buildExec_nat (d : DefaultConcept α) (a : ConceptArgs α) : NodeNat ρ (buildExec d a) := by
  unfold buildExec
  split
  · split
    · exact .modify fun _ => rfl
    · exact .raise _
  · exact .modify fun _ => rfl

theorem storeFuzzy_nat (d : Args α) : NodeNat ρ (storeFuzzy d) :=
  .bind (.lift _) fun _ => .bind (.modify fun _ => rfl) fun _ => .pure _

theorem copyFuzzy_nat (d : DefaultConcept α) : NodeNat ρ (copyFuzzy d) :=
  .bind (.lift _) fun _ => .bind (.modify fun _ => rfl) fun _ => .bind (.lift _) fun _ => .bind (.lift _) fun _ =>
    .bind (.modify fun _ => rfl) fun _ => .pure _

theorem buildFuzzy_nat (d : DefaultConcept α) (a : ConceptArgs α) (t : String) : NodeNat ρ (buildFuzzy d a t) := by
  unfold buildFuzzy
  split
  · split
    · exact storeFuzzy_nat _
    · split
      · exact copyFuzzy_nat _
      · exact .pure _
  · exact .pure _

theorem buildFn_nat (f : FnInfo α) (a : ConceptArgs α) (d : Option (Args α)) : NodeNat ρ (buildFn f a d) := by
  unfold buildFn
  split
  · exact .bind (.modify fun _ => rfl) fun _ => .lift _
  · split
    · split
      · exact .bind (.modify fun _ => rfl) fun _ => .lift _
      · exact .raise _
    · exact .bind (.modify fun _ => rfl) fun _ => .bind (.lift _) fun _ => .bind (.modify fun _ => rfl) fun _ => .pure _

theorem buildRest_nat (b : Bool) (f : FnInfo α) (a : ConceptArgs α) (d : Option (Args α)) : NodeNat ρ (buildRest b f a d) :=
  .bind (.modify fun _ => rfl) fun _ => .bind (buildFn_nat _ _ _) fun _ => .modify fun _ => rfl

theorem buildNode_nat (d : DefaultConcept α) (a : ConceptArgs α) : NodeNat ρ (buildNode d a) :=
  .bind (buildExec_nat _ _) fun _ => .bind (.modify fun _ => rfl) fun _ => .bind (buildFuzzy_nat _ _ _) fun _ => buildRest_nat _ _ _ _

theorem updateNode_nat (b : Bool) (f : FnInfo α) (a : ConceptArgs α) : NodeNat ρ (updateNode b f a) := by
  refine .bind ?_ fun _ => .bind ?_ fun _ => .bind ?_ fun _ => .bind ?_ fun _ => buildRest_nat _ _ _ _
  · unfold updateActive
    split
    · exact .modify fun _ => rfl
    · exact .pure _
  · unfold updateExec
    split
    · split
      · exact .modify fun _ => rfl
      · exact .raise _
    · exact .pure _
  · unfold updateType
    split
    · split
      · exact .modify fun _ => rfl
      · exact .raise _
    · exact .pure _
  · unfold updateFuzzy
    split
    · split
      · exact storeFuzzy_nat _
      · exact .pure _
    · exact .pure _

/-! ### The methods -/

theorem addConcept_eqv (hρ : Function.Injective ρ) (name : String) (a : ConceptArgs α) :
    Eqv ρ (FCM.addConcept name a) (FCM.addConcept (ρ name) a) := by
  intro m
  have hb := buildNode_nat (ρ := ρ) m.default a (freshNode (a.isActive.getD m.default.active))
  have hf : (freshNode (α := α) (a.isActive.getD m.default.active)).rename ρ = freshNode (a.isActive.getD m.default.active) := rfl
  rw [hf] at hb
  have hd : (m.rename ρ).default = m.default := rfl
  unfold FCM.addConcept
  simp only [hd]
  rcases h : buildNode m.default a (freshNode (a.isActive.getD m.default.active)) with ⟨e | u, n⟩
  · rw [h] at hb
    have hn : n = n.rename ρ := congrArg Prod.snd hb
    have hs := rename_put hρ m.topology name n
    rw [← hn] at hs
    simp only [seen, FCM.rename, hs]
  · rw [h] at hb
    have hn : n = n.rename ρ := congrArg Prod.snd hb
    have hs := rename_put hρ m.topology name { n with value := lit 0 }
    have hn' : ({ n with value := lit 0 } : Node α).rename ρ = { n with value := lit 0 } := by
      have ha : n.arcs = n.arcs.map fun p => (ρ p.1, p.2) := congrArg Node.arcs hn
      simp only [Node.rename, ← ha]
    rw [hn'] at hs
    simp only [seen, FCM.rename, hs, rename_xput hρ]

theorem setConceptProperties_eqv (hρ : Function.Injective ρ) (name : String) (a : ConceptArgs α) :
    Eqv ρ (FCM.setConceptProperties name a) (FCM.setConceptProperties (ρ name) a) := by
  intro m
  unfold FCM.setConceptProperties
  rw [rename_get? hρ]
  rcases h : m.topology.get? name with _ | n
  · rfl
  · simp only [Option.map_some]
    have hd : (m.rename ρ).memInfluence = m.memInfluence := rfl
    have hf : (m.rename ρ).mapFn = m.mapFn := rfl
    rw [hd, hf, updateNode_nat]
    simp only [seen, FCM.rename]
    congr 2
    exact rename_set hρ m name _

theorem applyMapFn_eqv (hρ : Function.Injective ρ) (f : FnInfo α) (c : String) : Eqv ρ (applyMapFn f c) (applyMapFn f (ρ c)) := by
  intro m
  unfold applyMapFn
  rw [rename_get? hρ]
  rcases h : m.topology.get? c with _ | ⟨arcs, aux, value, sum, active, exec, type, fa, fmin, fmax, um, umf, fn, av⟩
  · rfl
  · rcases umf with _ | _ | _
    · rfl
    · rfl
    · rcases processFunctionArgs f.args with e | v <;>
        (simp only [Option.map_some, seen, FCM.rename, rename_put hρ]; rfl)

theorem setMapActivationFunction_eqv (hρ : Function.Injective ρ) (f : String) (kw : Args α) :
    Eqv ρ (FCM.setMapActivationFunction f kw) (FCM.setMapActivationFunction f kw) := by
  intro m
  unfold FCM.setMapActivationFunction
  simp only [PyM.run_bind, PyM.run_modify]
  cases Activation.getFunctionByName f with
  | none => rfl
  | some g =>
    simp only [PyM.run_bind, PyM.run_modify, PyM.run_get]
    have := Eqv.forEach (ρ := ρ) ρ m.topology.keys (fun c _ => applyMapFn_eqv hρ ⟨g, f, kw⟩ c)
      { m with prepared := false, mapFn := ⟨g, f, kw⟩ }
    rw [← rename_keys] at this
    exact this

theorem setDefault_eqv (a : ConceptArgs α) : Eqv ρ (FCM.setDefaultConceptProperties a) (FCM.setDefaultConceptProperties a) :=
  fun _ => rfl

theorem setDecision_eqv (f : String) : Eqv (α := α) ρ (FCM.setMapDecisionFunction f) (FCM.setMapDecisionFunction f) := by
  intro m
  unfold FCM.setMapDecisionFunction
  cases Decision.getByName f <;> rfl

theorem rename_modify (hρ : Function.Injective ρ) (t : Dict (Node α)) (c : String) {f g : Node α → Node α}
    (hfg : ∀ n, g (n.rename ρ) = (f n).rename ρ) :
    Dict.modify (t.map fun p => (ρ p.1, p.2.rename ρ)) (ρ c) g = (t.modify c f).map fun p => (ρ p.1, p.2.rename ρ) := by
  unfold Dict.modify
  rw [get?_map_inj (Node.rename ρ) hρ]
  rcases t.get? c with _ | n
  · rfl
  · simp only [Option.map_some, hfg]
    exact set_map_inj _ hρ _ _ _

theorem fitSlope_nat (x : α) (n : Node α) : fitSlope x (n.rename ρ) = (fitSlope x n).map (Node.rename ρ) := by
  unfold fitSlope
  have h1 : (n.rename ρ).fn = n.fn := rfl
  have h2 : (n.rename ρ).actvSum = n.actvSum := rfl
  rw [h1, h2]
  rcases n.fn with _ | f
  · rfl
  · simp only
    rcases slopeFor f.name n.actvSum x with e | _ | l <;> rfl

theorem addRelation_eqv (hρ : Function.Injective ρ) (o d : String) (w : α) :
    Eqv ρ (FCM.addRelation o d w) (FCM.addRelation (ρ o) (ρ d) w) := by
  intro m
  unfold FCM.addRelation
  have hh : ∀ c, Dict.has (m.rename ρ).topology (ρ c) = m.topology.has c := fun c => by
    unfold Dict.has
    rw [rename_get? hρ]
    cases m.topology.get? c <;> rfl
  have ht : ((m.rename ρ).topology.modify (ρ o) fun n => { n with arcs := n.arcs ++ [(ρ d, w)] }).modify (ρ d)
      (fun n => { n with actvSum := n.actvSum + w }) =
      ((m.topology.modify o fun n => { n with arcs := n.arcs ++ [(d, w)] }).modify d
        fun n => { n with actvSum := n.actvSum + w }).map fun p => (ρ p.1, p.2.rename ρ) := by
    have e1 := rename_modify hρ m.topology o (f := fun n => { n with arcs := n.arcs ++ [(d, w)] })
      (g := fun n => { n with arcs := n.arcs ++ [(ρ d, w)] }) (fun n => by simp [Node.rename])
    show Dict.modify (Dict.modify (m.topology.map fun p => (ρ p.1, p.2.rename ρ)) (ρ o) _) (ρ d) _ = _
    rw [e1]
    exact rename_modify hρ _ d fun n => rfl
  simp only [hh]
  split
  · have hfi : (m.rename ρ).fitInclination = m.fitInclination := rfl
    rw [hfi, ht]
    generalize (m.topology.modify o fun n => { n with arcs := n.arcs ++ [(d, w)] }).modify d
      (fun n => { n with actvSum := n.actvSum + w }) = t
    rcases m.fitInclination with _ | x
    · simp [seen, FCM.rename, Arc.rename, Except.isOk, Except.toBool]
    · simp only
      rw [get?_map_inj (Node.rename ρ) hρ]
      rcases ht' : t.get? d with _ | n
      · simp [seen, FCM.rename, Except.isOk, Except.toBool]
      · simp only [Option.map_some, fitSlope_nat]
        rcases fitSlope x n with e | n'
        · simp [seen, FCM.rename, Except.isOk, Except.toBool, Except.map]
        · simp only [Except.map]
          rw [set_map_inj (Node.rename ρ) hρ]
          simp [seen, FCM.rename, Arc.rename, Except.isOk, Except.toBool]
  · rfl

theorem initConcept_eqv (hρ : Function.Injective ρ) (c : String) (v : α) (r : Bool) :
    Eqv ρ (FCM.initConcept c v r) (FCM.initConcept (ρ c) v r) := by
  intro m
  unfold FCM.initConcept
  rw [rename_get? hρ]
  rcases h : m.topology.get? c with _ | ⟨arcs, aux, value, sum, active, exec, type, fa, fmin, fmax, um, umf, fn, av⟩
  · cases r <;> rfl
  · rcases fn with _ | f
    · rfl
    · simp only [Option.map_some, Node.rename]
      split
      · rcases fa with _ | fa
        · rfl
        · rcases hf : fuzzySet v fa.membership fa.valList with e | x
          · simp only [hf]; rfl
          · simp only [hf, seen, FCM.rename, rename_put hρ, rename_xput hρ]
            rfl
      · simp only [seen, FCM.rename, rename_put hρ, rename_xput hρ]
        rfl

theorem resetOne_eqv (hρ : Function.Injective ρ) (c : String) : Eqv (α := α) ρ (resetOne c) (resetOne (ρ c)) := by
  intro m
  unfold resetOne
  rw [rename_get? hρ]
  rcases h : m.topology.get? c with _ | n
  · rfl
  · simp only [Option.map_some]
    rw [rename_xget? hρ]
    rcases m.execution.get? c with _ | _ | ⟨v, vs⟩ <;>
      (simp only [seen, FCM.rename, rename_put hρ, rename_xput hρ]; rfl)

theorem clearOne_eqv (hρ : Function.Injective ρ) (c : String) : Eqv (α := α) ρ (clearOne c) (clearOne (ρ c)) := by
  intro m
  unfold clearOne
  rw [rename_get? hρ]
  rcases h : m.topology.get? c with _ | n
  · rfl
  · simp only [Option.map_some, seen, FCM.rename, rename_put hρ, rename_xput hρ]
    rfl

theorem resetExecution_eqv (hρ : Function.Injective ρ) : Eqv (α := α) ρ FCM.resetExecution FCM.resetExecution := by
  intro m
  unfold FCM.resetExecution
  rw [rename_keys]
  exact Eqv.forEach ρ _ (fun c _ => resetOne_eqv hρ c) m

theorem clearExecution_eqv (hρ : Function.Injective ρ) : Eqv (α := α) ρ FCM.clearExecution FCM.clearExecution := by
  intro m
  unfold FCM.clearExecution
  rw [rename_keys]
  exact Eqv.forEach ρ _ (fun c _ => clearOne_eqv hρ c) m

theorem clearAll_eqv (hρ : Function.Injective ρ) : Eqv (α := α) ρ FCM.clearAll FCM.clearAll := by
  intro m
  unfold FCM.clearAll
  simp only [PyM.run_bind]
  rcases hr : FCM.resetExecution m with ⟨e | u, m1⟩
  · obtain ⟨e', he⟩ := (resetExecution_eqv hρ).err hr
    rw [he]
    rfl
  · rw [(resetExecution_eqv hρ).ok hr]
    rfl

/-! ### The iterative engine -/

theorem stableLoop_rename (diff : α) (d : Dict (List α)) : stableLoop diff (d.rename ρ) = stableLoop diff d := by
  induction d with
  | nil => rfl
  | cons p d ih =>
    show (do
      let a ← pyIdxBack p.2 1
      let b ← pyIdxBack p.2 2
      let r ← stableLoop diff (Dict.rename ρ d)
      return (if diff <? abs (a - b) then false else r)) = _
    rw [ih]
    rfl

theorem keepExecution_rename (m : FCM α) : (m.rename ρ).keepExecution = m.keepExecution := by
  have : (m.rename ρ).isStable = m.isStable := by
    show (if m.iterations > 1 then stableLoop m.stabilityDiff (m.execution.rename ρ) else .ok false) = _
    rw [stableLoop_rename]
    rfl
  unfold FCM.keepExecution
  rw [this]
  rfl

theorem gatherArc_eqv (hρ : Function.Injective ρ) (a : Arc α) : Eqv ρ (gatherArc a) (gatherArc (a.rename ρ)) := by
  intro m
  unfold gatherArc
  have ho : (a.rename ρ).origin = ρ a.origin := rfl
  have hd : (a.rename ρ).dest = ρ a.dest := rfl
  have hw : (a.rename ρ).weight = a.weight := rfl
  rw [ho, hd, hw, rename_get? hρ, rename_get? hρ]
  rcases m.topology.get? a.origin with _ | ⟨arcs, aux, value, sum, active, exec, type, fa, fmin, fmax, um, umf, fn, av⟩
  · rfl
  · rcases active with _ | _
    · rfl
    · rcases exec with _ | ex
      · rfl
      · rcases m.topology.get? a.dest with _ | d
        · rfl
        · simp only [Option.map_some, if_true, seen, FCM.rename, rename_put hρ]
          rfl

theorem stepNode_eqv (hρ : Function.Injective ρ) (c : String) : Eqv (α := α) ρ (stepNode c) (stepNode (ρ c)) := by
  intro m
  unfold stepNode
  rw [rename_get? hρ]
  rcases m.topology.get? c with _ | ⟨arcs, aux, value, sum, active, exec, type, fa, fmin, fmax, um, umf, fn, av⟩
  · rfl
  · rcases exec with _ | ex
    · rfl
    · rcases um with _ | um
      · rfl
      · rcases fn with _ | f
        · simp only [Option.map_some, seen, FCM.rename, rename_put hρ]
          rfl
        · simp only [Option.map_some, Node.rename]
          generalize (if f.name = "fuzzy" then pdiv (ex.1.run aux value um) sum else .ok (ex.1.run aux value um)) = q
          rcases q with e | x
          · simp only [seen, FCM.rename, rename_put hρ]
            rfl
          · simp only
            rcases callActv f.fn x f.args with e | y
            · simp only [seen, FCM.rename, rename_put hρ]
              rfl
            · simp only
              rw [rename_xget? hρ]
              rcases m.execution.get? c with _ | xs <;>
                (simp only [seen, FCM.rename, rename_put hρ, rename_xput hρ]; rfl)

theorem stepOnce_eqv (hρ : Function.Injective ρ) : Eqv (α := α) ρ FCM.stepOnce FCM.stepOnce := by
  intro m
  unfold FCM.stepOnce
  have h1 := Eqv.forEach (ρ := ρ) (Arc.rename ρ) m.arcList (fun a _ => gatherArc_eqv hρ a)
  have ha : (m.rename ρ).arcList = m.arcList.map (Arc.rename ρ) := rfl
  rw [ha]
  rcases hr : PyM.forEach m.arcList gatherArc m with ⟨e | u, m1⟩
  · obtain ⟨e', he⟩ := h1.err hr
    rw [he]
    rfl
  · rw [h1.ok hr]
    simp only
    rw [rename_xkeys]
    have h2 := Eqv.forEach (ρ := ρ) ρ m1.execution.keys (fun c _ => stepNode_eqv (α := α) hρ c)
    rcases hr2 : PyM.forEach m1.execution.keys stepNode m1 with ⟨e | u, m2⟩
    · obtain ⟨e', he⟩ := h2.err hr2
      rw [he]
      rfl
    · rw [h2.ok hr2]
      rfl

theorem iterLoop_eqv (hρ : Function.Injective ρ) (fuel : Nat) : ∀ extra, Eqv (α := α) ρ (FCM.iterLoop fuel extra) (FCM.iterLoop fuel extra) := by
  induction fuel with
  | zero =>
    intro extra m
    simp only [FCM.iterLoop]
    split <;> rfl
  | succ fuel ih =>
    intro extra m
    simp only [FCM.iterLoop]
    rw [keepExecution_rename]
    split
    · rcases m.keepExecution with e | k
      · rfl
      · simp only
        rcases hr : FCM.stepOnce m with ⟨e | u, m1⟩
        · obtain ⟨e', he⟩ := (stepOnce_eqv hρ).err hr
          rw [he]
          rfl
        · rw [(stepOnce_eqv hρ).ok hr]
          exact ih _ m1
    · rfl

theorem iterative_eqv (hρ : Function.Injective ρ) : Eqv (α := α) ρ FCM.iterativeInference FCM.iterativeInference := fun m =>
  iterLoop_eqv hρ _ _ { m with iterations := 1 }

/-! ### The vectorised engine -/

theorem idxOf_rename (hρ : Function.Injective ρ) (l : List String) (c : String) : (l.map ρ).idxOf (ρ c) = l.idxOf c := by
  induction l with
  | nil => rfl
  | cons x l ih =>
    simp only [List.map_cons, List.idxOf_cons, ih]
    by_cases h : x = c
    · rw [h]; simp
    · have h' : ρ x ≠ ρ c := fun e => h (hρ e)
      rw [beq_false_of_ne h, beq_false_of_ne h']

theorem mem_rename (hρ : Function.Injective ρ) (l : List String) (c : String) : ρ c ∈ l.map ρ ↔ c ∈ l := by
  rw [List.mem_map]
  exact ⟨fun ⟨x, hx, e⟩ => hρ e ▸ hx, fun h => ⟨c, h, rfl⟩⟩

theorem fillMatrix_rename (hρ : Function.Injective ρ) (l : List String) (as : List (Arc α)) :
    ∀ mat, fillMatrix (l.map ρ) (as.map (Arc.rename ρ)) mat = fillMatrix l as mat := by
  induction as with
  | nil => intro mat; rfl
  | cons a as ih =>
    intro mat
    have ho : (a.rename ρ).origin = ρ a.origin := rfl
    have hd : (a.rename ρ).dest = ρ a.dest := rfl
    have hw : (a.rename ρ).weight = a.weight := rfl
    simp only [List.map_cons, fillMatrix, ho, hd, hw, mem_rename hρ, idxOf_rename hρ, ih]

theorem prepRow_rename (n : Node α) : prepRow (n.rename ρ) = prepRow n := rfl

theorem prepare_rename (hρ : Function.Injective ρ) (m : FCM α) : (m.rename ρ).prepare = m.prepare := by
  have h1 : (m.rename ρ).topology.mapM (fun p => prepRow p.2) = m.topology.mapM fun p => prepRow p.2 := by
    show (m.topology.map fun p => (ρ p.1, p.2.rename ρ)).mapM (fun p => prepRow p.2) = _
    rw [List.mapM_map]
    rfl
  have h2 : (m.rename ρ).topology.length = m.topology.length := List.length_map _
  have h3 : (m.rename ρ).arcList = m.arcList.map (Arc.rename ρ) := rfl
  unfold FCM.prepare
  rw [h1, h2, rename_keys, h3]
  simp only [fillMatrix_rename hρ]

theorem storeRows_rename (hρ : Function.Injective ρ) (k : Nat) (cs : List String) :
    ∀ (rs : List (List α)) d, storeRows k (cs.map ρ) rs (Dict.rename ρ d) = Dict.rename ρ (storeRows k cs rs d) := by
  induction cs with
  | nil => intro rs d; rfl
  | cons c cs ih =>
    intro rs d
    rcases rs with _ | ⟨r, rs⟩
    · rfl
    · simp only [List.map_cons, storeRows]
      rw [← rename_xput hρ]
      exact ih rs _

theorem vectorRunStore_eqv (hρ : Function.Injective ρ) : Eqv (α := α) ρ FCM.vectorRunStore FCM.vectorRunStore := by
  intro m
  unfold FCM.vectorRunStore
  have h1 : (m.rename ρ).stateVector = m.stateVector := rfl
  have h2 : (m.rename ρ).cache = m.cache := rfl
  have h3 : (m.rename ρ).maxIter = m.maxIter := rfl
  have h4 : (m.rename ρ).stabilityDiff = m.stabilityDiff := rfl
  have h5 : (m.rename ρ).extraSteps = m.extraSteps := rfl
  rw [h1, h2, h3, h4, h5]
  split
  · rfl
  · rcases vectorizedRun m.cache m.stateVector m.maxIter m.stabilityDiff m.extraSteps with e | res
    · rfl
    · simp only [rename_keys]
      simp only [seen, FCM.rename, storeRows_rename hρ]

theorem vectorized_eqv (hρ : Function.Injective ρ) : Eqv (α := α) ρ FCM.vectorizedInference FCM.vectorizedInference := by
  intro m
  unfold FCM.vectorizedInference
  have h1 : ((m.rename ρ).topology.map fun p => p.2.value) = m.topology.map fun p => p.2.value := by
    simp [FCM.rename, Node.rename]
  have h2 : (m.rename ρ).prepared = m.prepared := rfl
  have h3 : (m.rename ρ).stateVector = m.stateVector := rfl
  rw [h1, h2, h3, prepare_rename hρ]
  split
  · exact vectorRunStore_eqv hρ { m with stateVector := _ }
  · rcases m.prepare with e | c
    · rfl
    · exact vectorRunStore_eqv hρ { m with prepared := true, stateVector := _, cache := c }

theorem decideNode_eqv (hρ : Function.Injective ρ) (c : String) : Eqv (α := α) ρ (decideNode c) (decideNode (ρ c)) := by
  intro m
  unfold decideNode
  rw [rename_get? hρ, rename_xget? hρ]
  rcases m.topology.get? c with _ | n
  · rfl
  · rcases m.execution.get? c with _ | xs
    · rfl
    · have h1 : (m.rename ρ).decisionFn = m.decisionFn := rfl
      have h2 : (m.rename ρ).extraSteps = m.extraSteps := rfl
      simp only [Option.map_some, h1, h2]
      rcases m.decisionFn.run xs ((xs.length : Int) - m.extraSteps - 1) with e | v
      · rfl
      · simp only [seen, FCM.rename, rename_put hρ]
        rfl

theorem decideAll_eqv (hρ : Function.Injective ρ) : Eqv (α := α) ρ FCM.decideAll FCM.decideAll := by
  intro m
  unfold FCM.decideAll
  rw [rename_keys]
  exact Eqv.forEach ρ _ (fun c _ => decideNode_eqv hρ c) m

theorem engine_eqv (hρ : Function.Injective ρ) : Eqv (α := α) ρ FCM.engine FCM.engine := by
  intro m
  unfold FCM.engine
  have h1 : (m.rename ρ).debug = m.debug := rfl
  rw [h1]
  split
  · exact iterative_eqv hρ m
  · exact vectorized_eqv hρ m

theorem runInference_eqv (hρ : Function.Injective ρ) (r : Bool) : Eqv (α := α) ρ (FCM.runInference r) (FCM.runInference r) := by
  have h0 : Eqv (α := α) ρ (fun m => if r then FCM.resetExecution m else (.ok (), m))
      (fun m => if r then FCM.resetExecution m else (.ok (), m)) := by
    cases r
    · exact fun _ => rfl
    · exact resetExecution_eqv hρ
  exact Eqv.seq h0 (Eqv.seq (engine_eqv hρ) (decideAll_eqv hρ))

/-! ### All operations -/

theorem Op.run_rename (hρ : Function.Injective ρ) (op : Op α) : Eqv ρ op.run (op.rename ρ).run := by
  cases op with
  | addConcept n a => exact addConcept_eqv hρ n a
  | setConceptProperties n a => exact setConceptProperties_eqv hρ n a
  | setDefaultConceptProperties a => exact setDefault_eqv a
  | setMapDecisionFunction f => exact setDecision_eqv f
  | setMapActivationFunction f k => exact setMapActivationFunction_eqv hρ f k
  | addRelation o d w => exact addRelation_eqv hρ o d w
  | initConcept n v r => exact initConcept_eqv hρ n v r
  | resetExecution => exact resetExecution_eqv hρ
  | clearExecution => exact clearExecution_eqv hρ
  | clearAll => exact clearAll_eqv hρ
  | runInference r => exact runInference_eqv hρ r
  | assignMaxIter n => exact fun _ => rfl
  | assignStop b => exact fun _ => rfl
  | assignStabilityDiff d => exact fun _ => rfl
  | assignMemInfluence b => exact fun _ => rfl
  | assignWeight w => exact fun _ => rfl
  | assignDebug b => exact fun _ => rfl
  | assignFitInclination x => exact fun _ => rfl

theorem runOps_rename (hρ : Function.Injective ρ) (ops : List (Op α)) :
    ∀ m, runOps (ops.map (Op.rename ρ)) (m.rename ρ) = (runOps ops m).rename ρ := by
  induction ops with
  | nil => intro m; rfl
  | cons op ops ih =>
    intro m
    show runOps (ops.map (Op.rename ρ)) (((op.rename ρ).run (m.rename ρ)).2) = _
    have h : ((op.rename ρ).run (m.rename ρ)).2 = (op.run m).2.rename ρ := congrArg Prod.snd (Op.run_rename hρ op m)
    rw [h]
    exact ih _

end PyFCM
