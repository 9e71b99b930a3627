import Verif.Lemmas.NodeFrame
import Verif.Lemmas.Repeat
import Verif.Lemmas.Args
/-
Facts about the states reached by histories in which no call raises, and about the two stores of the relations.
-/
namespace PyFCM
open Arith

set_option linter.unusedSectionVars false

variable {α : Type} [Arith α]

/-! ### Operations that leave concepts and relations alone -/

theorem view_get {m m' : FCM α} (h : m'.view = m.view) (c : String) :
    (m'.topology.get? c).map Node.static = (m.topology.get? c).map Node.static := by
  have e : ∀ d : Dict (Node α), (d.get? c).map Node.static = Dict.get? (d.map fun p => (p.1, p.2.static)) c := by
    intro d
    induction d with
    | nil => rfl
    | cons p d ih =>
      obtain ⟨k, v⟩ := p
      simp only [List.map_cons, Dict.get?_cons]
      split
      · rfl
      · exact ih
  rw [e, e]
  rw [(Prod.mk.inj h).1]

theorem view_keys {m m' : FCM α} (h : m'.view = m.view) : m'.topology.keys = m.topology.keys := by
  have e : ∀ d : Dict (Node α), d.keys = (d.map (fun p => (p.1, p.2.static))).map (·.1) := by
    intro d; simp [Dict.keys]
  rw [e, e, (Prod.mk.inj h).1]

theorem view_arcs {m m' : FCM α} (h : m'.view = m.view) : m'.arcList = m.arcList := (Prod.mk.inj h).2

theorem engine_view (m : FCM α) : (FCM.engine m).2.view = m.view := by
  unfold FCM.engine
  split
  · unfold FCM.iterativeInference
    exact (iterLoop_still m _ _ _ (Still.same (m' := { m with iterations := 1 }) (Still.refl m) rfl rfl rfl rfl rfl)).view
  · unfold FCM.vectorizedInference
    dsimp only
    have key : ∀ x : FCM α, x.view = m.view → x.vectorRunStore.2.view = m.view := by
      intro x hx
      unfold FCM.vectorRunStore
      split
      · exact hx
      · split
        · exact hx
        · exact hx
    split
    · exact key _ rfl
    · split
      · rfl
      · exact key _ rfl

theorem reset_still (m : FCM α) : Still m (FCM.resetExecution m).2 :=
  Pres.forEach (P := Still m) (fun c _ => resetOne_still m c) m (Still.refl m)

theorem decideAll_still (m : FCM α) : Still m (FCM.decideAll m).2 :=
  Pres.forEach (P := Still m) (fun c _ => decideNode_still m c) m (Still.refl m)

theorem run_view (r : Bool) (m : FCM α) : (FCM.runInference r m).2.view = m.view := by
  unfold FCM.runInference
  have h1 : (if r then FCM.resetExecution m else (.ok (), m)).2.view = m.view := by
    split
    · exact (reset_still m).view
    · rfl
  split <;> rename_i h <;> rw [h] at h1
  · exact h1
  · rename_i m1
    have h2 := engine_view m1
    split <;> rename_i h <;> rw [h] at h2
    · exact h2.trans h1
    · rename_i m2
      exact ((decideAll_still m2).view.trans h2).trans h1

/-- Operations that change neither the concepts (except their values) nor the relations, even if they raise. -/
def Op.soft : Op α → Bool
  | .addConcept .. | .setConceptProperties .. | .setMapActivationFunction .. | .addRelation .. | .clearAll => false
  | _ => true

theorem Op.soft_view {op : Op α} (h : op.soft = true) (m : FCM α) : (op.run m).2.view = m.view := by
  cases op
  case addConcept => cases h
  case setConceptProperties => cases h
  case setMapActivationFunction => cases h
  case addRelation => cases h
  case clearAll => cases h
  case setDefaultConceptProperties a => rfl
  case setMapDecisionFunction f =>
    simp only [Op.run, FCM.setMapDecisionFunction]
    split <;> rfl
  case initConcept c v r => exact (initConcept_still m c v r m (Still.refl m)).view
  case resetExecution => exact (reset_still m).view
  case clearExecution =>
    exact (Pres.forEach (P := Still m) (fun c _ => clearOne_still m c) m (Still.refl m)).view
  case runInference r => exact run_view r m
  all_goals rfl

/-! ### The two stores of the relations -/

/-- The relations leaving `c`, read off the relation list. -/
def outOf (arcs : List (Arc α)) (c : String) : List (String × α) :=
  (arcs.filter fun a => a.origin = c).map fun a => (a.dest, a.weight)

/-- The sum of the weights of the relations entering `c`. -/
def inSum (arcs : List (Arc α)) (c : String) : α :=
  (arcs.filter fun a => a.dest = c).foldl (fun s a => s + a.weight) (lit 0)

/-- Every concept's own list of relations and its weight sum agree with the relation list. -/
def Linked (m : FCM α) : Prop :=
  ∀ c n, m.topology.get? c = some n → n.arcs = outOf m.arcList c ∧ n.actvSum = inSum m.arcList c

theorem Linked.view {m m' : FCM α} (h : Linked m) (hv : m'.view = m.view) : Linked m' := by
  intro c n hn
  have := view_get hv c
  rw [hn] at this
  cases hm : m.topology.get? c with
  | none => rw [hm] at this; cases this
  | some n0 =>
    rw [hm] at this
    have e : n.static = n0.static := by simpa using this
    have e1 : n.arcs = n0.arcs := (congrArg Node.arcs e :)
    have e2 : n.actvSum = n0.actvSum := (congrArg Node.actvSum e :)
    rw [e1, e2, view_arcs hv]
    exact h c n0 hm

theorem outOf_new {arcs : List (Arc α)} {ks : List String} (h : ∀ a ∈ arcs, a.origin ∈ ks ∧ a.dest ∈ ks) {c : String}
    (hc : c ∉ ks) : outOf arcs c = [] ∧ inSum arcs c = lit 0 := by
  have h1 : arcs.filter (fun a => decide (a.origin = c)) = [] := by
    rw [List.filter_eq_nil_iff]
    intro a ha he
    have he : a.origin = c := by simpa using he
    exact hc (he ▸ (h a ha).1)
  have h2 : arcs.filter (fun a => decide (a.dest = c)) = [] := by
    rw [List.filter_eq_nil_iff]
    intro a ha he
    have he : a.dest = c := by simpa using he
    exact hc (he ▸ (h a ha).2)
  unfold outOf inSum
  rw [h1, h2]
  exact ⟨rfl, rfl⟩

theorem addConcept_linked {m : FCM α} (hi : Inv m) (hl : Linked m) {c : String} (hc : c ∉ m.topology.keys)
    (a : ConceptArgs α) : Linked (FCM.addConcept c a m).2 := by
  have hk := buildNode_kept (k := ([], [], lit 0, lit 0)) m.default a (freshNode (a.isActive.getD m.default.active)) rfl
  obtain ⟨e1, e2⟩ := outOf_new hi.ends hc
  rcases hb : buildNode m.default a (freshNode (a.isActive.getD m.default.active)) with ⟨r, node⟩
  rw [hb] at hk
  simp only [FCM.addConcept, hb]
  simp only [Node.kept, Prod.mk.injEq] at hk
  have key : ∀ n' : Node α, n'.arcs = node.arcs → n'.actvSum = node.actvSum →
      ∀ c' n, (m.topology.set c n').get? c' = some n → n.arcs = outOf m.arcList c' ∧ n.actvSum = inSum m.arcList c' := by
    intro n' h1 h2 c' n hn
    rw [Dict.get?_set] at hn
    split at hn
    · rename_i hcc
      cases hn
      subst hcc
      rw [h1, h2, hk.1, hk.2.2.2, e1, e2]
      exact ⟨rfl, rfl⟩
    · exact hl c' n hn
  cases r with
  | error e => exact key node rfl rfl
  | ok u => exact key { node with value := lit 0 } rfl rfl

theorem Linked.modify {m : FCM α} (hl : Linked m) {c : String} {n n' : Node α} (hn : m.topology.get? c = some n)
    (ha : n'.arcs = n.arcs) (hs : n'.actvSum = n.actvSum) {m' : FCM α} (ht : m'.topology = m.topology.set c n')
    (hr : m'.arcList = m.arcList) : Linked m' := by
  intro c' x hx
  rw [ht, Dict.get?_set] at hx
  rw [hr]
  split at hx
  · rename_i hcc
    cases hx; subst hcc
    rw [ha, hs]
    exact hl c n hn
  · exact hl c' x hx

theorem fitSlope_kept {fit : α} {n n' : Node α} (h : fitSlope fit n = .ok n') :
    ∃ f', n'.fn = some f' ∧ (∃ f, n.fn = some f ∧ f'.name = f.name ∧ f'.fn = f.fn) ∧
      n' = { n with fn := some f', argsVect := n'.argsVect } := by
  unfold fitSlope at h
  split at h
  · cases h
  · rename_i f hf
    split at h
    · cases h
    · cases h
      exact ⟨_, rfl, ⟨f, hf, rfl, rfl⟩, rfl⟩
    · cases h
      refine ⟨f, hf, ⟨f, hf, rfl, rfl⟩, ?_⟩
      obtain ⟨⟩ := n
      simp_all

/-- What a successful `add_relation` between existing concepts does. -/
theorem addRelation_ok {m m' : FCM α} {o d : String} {w : α} (ho : o ∈ m.topology.keys) (hd : d ∈ m.topology.keys)
    (h : FCM.addRelation o d w m = (.ok (), m')) :
    m'.topology.keys = m.topology.keys ∧ m'.execution = m.execution ∧ m'.arcList = m.arcList ++ [⟨d, w, o⟩] ∧
    m'.default = m.default ∧ m'.mapFn = m.mapFn ∧
    ∀ c n, m.topology.get? c = some n → ∃ n' f' v', m'.topology.get? c = some n' ∧
      n' = { n with arcs := if c = o then n.arcs ++ [(d, w)] else n.arcs,
                    actvSum := if c = d then n.actvSum + w else n.actvSum, fn := f', argsVect := v' } ∧
      (f' = n.fn ∧ v' = n.argsVect ∨ c = d ∧ m.fitInclination ≠ none ∧ ∃ f l, n.fn = some f ∧
        f' = some { f with args := [("lambda_val", .num l)] } ∧ v' = some [l]) := by
  unfold FCM.addRelation at h
  rw [if_pos (by simp [Dict.has_iff, ho, hd])] at h
  dsimp only at h
  have hget : ∀ c n, m.topology.get? c = some n →
      Dict.get? ((m.topology.modify o fun n => { n with arcs := n.arcs ++ [(d, w)] }).modify d
        fun n => { n with actvSum := n.actvSum + w }) c =
      some { n with arcs := if c = o then n.arcs ++ [(d, w)] else n.arcs,
                    actvSum := if c = d then n.actvSum + w else n.actvSum } := by
    intro c n hn
    rw [Dict.get?_modify, Dict.get?_modify, hn]
    by_cases h1 : o = c <;> by_cases h2 : d = c
    · simp [h1, h2]
    · simp [h1, h2, Ne.symm h2]
    · simp [h1, h2, Ne.symm h1]
    · simp [h1, h2, Ne.symm h1, Ne.symm h2]
  generalize ht : (m.topology.modify o fun n => { n with arcs := n.arcs ++ [(d, w)] }).modify d
        (fun n => { n with actvSum := n.actvSum + w }) = t at *
  have hk : t.keys = m.topology.keys := by rw [← ht, Dict.keys_modify, Dict.keys_modify]
  cases hfit : m.fitInclination with
  | none =>
    simp only [hfit] at h
    cases h
    refine ⟨hk, rfl, rfl, rfl, rfl, fun c n hn => ⟨_, _, _, hget c n hn, ?_, .inl ⟨rfl, rfl⟩⟩⟩
    rfl
  | some fit =>
    simp only [hfit] at h
    obtain ⟨nd, hnd⟩ := Dict.exists_get?_of_mem hd
    rw [hget d nd hnd] at h
    dsimp only at h
    split at h
    · cases h
    · rename_i n' hn'
      cases h
      refine ⟨?_, rfl, rfl, rfl, rfl, ?_⟩
      · show Dict.keys (t.set d n') = _
        rw [Dict.keys_set_of_mem _ _ _ (by rw [hk]; exact hd), hk]
      · intro c n hn
        show ∃ n'' f' v', Dict.get? (t.set d n') c = some n'' ∧ _
        rw [Dict.get?_set]
        by_cases hdc : d = c
        · subst hdc
          rw [if_pos rfl]
          rw [hnd] at hn; cases hn
          unfold fitSlope at hn'
          split at hn'
          · cases hn'
          · rename_i f hf
            split at hn'
            · cases hn'
            · rename_i l _
              cases hn'
              exact ⟨_, _, _, rfl, rfl, .inr ⟨rfl, by simp, f, l, hf, rfl, rfl⟩⟩
            · cases hn'
              exact ⟨_, _, _, rfl, rfl, .inl ⟨rfl, rfl⟩⟩
        · rw [if_neg hdc]
          exact ⟨_, _, _, hget c n hn, rfl, .inl ⟨rfl, rfl⟩⟩

theorem addRelation_unknown {m : FCM α} {o d : String} (w : α) (h : ¬ (o ∈ m.topology.keys ∧ d ∈ m.topology.keys)) :
    FCM.addRelation o d w m = (.ok (), { m with prepared := false }) := by
  unfold FCM.addRelation
  rw [if_neg]
  simp only [Bool.and_eq_true, Dict.has_iff]
  exact fun hh => h ⟨hh.2, hh.1⟩

theorem addRelation_linked {m m' : FCM α} (hl : Linked m) {o d : String} {w : α}
    (h : FCM.addRelation o d w m = (.ok (), m')) : Linked m' := by
  by_cases hk : o ∈ m.topology.keys ∧ d ∈ m.topology.keys
  · obtain ⟨k1, -, k3, -, -, hall⟩ := addRelation_ok hk.1 hk.2 h
    intro c n' hn'
    have hc : c ∈ m.topology.keys := by rw [← k1]; exact Dict.mem_keys_of_get? hn'
    obtain ⟨n, hn⟩ := Dict.exists_get?_of_mem hc
    obtain ⟨n'', f', v', hn'', e, -⟩ := hall c n hn
    rw [hn'] at hn''; cases hn''
    obtain ⟨l1, l2⟩ := hl c n hn
    rw [e, k3]
    dsimp only
    unfold outOf inSum
    constructor
    · rw [l1, List.filter_append, List.map_append]
      by_cases hco : c = o
      · subst hco; simp [outOf]
      · simp [outOf, hco, Ne.symm hco]
    · rw [l2, List.filter_append, List.foldl_append]
      by_cases hcd : c = d
      · subst hcd; simp [inSum]
      · simp [inSum, hcd, Ne.symm hcd]
  · rw [addRelation_unknown w hk] at h
    cases h
    exact hl.view rfl

theorem setConceptProperties_linked {m : FCM α} (hl : Linked m) (c : String) (a : ConceptArgs α) :
    Linked (FCM.setConceptProperties c a m).2 := by
  unfold FCM.setConceptProperties
  split
  · exact hl
  · rename_i n hn
    have hk := updateNode_kept (k := n.kept) m.memInfluence m.mapFn a n rfl
    generalize updateNode m.memInfluence m.mapFn a n = r at *
    obtain ⟨r, n'⟩ := r
    simp only [Node.kept, Prod.mk.injEq] at hk
    exact hl.modify hn hk.1 hk.2.2.2 rfl rfl

theorem applyMapFn_linked (f : FnInfo α) (c : String) : Pres Linked (applyMapFn f c) := by
  intro m hl
  unfold applyMapFn
  split
  · exact hl
  · rename_i n hn
    split
    · exact hl
    · exact hl
    · split
      · exact hl.modify hn (n' := { n with fn := some f }) rfl rfl rfl rfl
      · rename_i v _
        exact hl.modify hn (n' := { n with fn := some f, argsVect := some v }) rfl rfl rfl rfl

theorem setMapActivation_linked {m : FCM α} (hl : Linked m) (f : String) (k : Args α) :
    Linked (FCM.setMapActivationFunction f k m).2 := by
  simp only [FCM.setMapActivationFunction, PyM.run_bind, PyM.run_modify]
  cases hf : Activation.getFunctionByName f with
  | none => exact hl.view rfl
  | some g =>
    simp only [PyM.run_bind, PyM.run_modify, PyM.run_get]
    exact Pres.forEach (P := Linked) (fun c _ => applyMapFn_linked _ c) _ (hl.view rfl)

theorem clearAll_linked {m : FCM α} (hl : Linked m) : Linked (FCM.clearAll m).2 := by
  simp only [FCM.clearAll, PyM.run_bind, PyM.run_modify]
  have := hl.view (reset_still m).view
  split <;> rename_i h <;> rw [h] at this
  · intro c n hn; cases hn
  · exact this

/-! ### Histories without exceptions -/

/-- A node as a successful call leaves it: complete, with the argument vector of its function. -/
structure Node.Good (n : Node α) : Prop where
  full : n.Full
  vect : ∀ f v, n.fn = some f → n.argsVect = some v → processFunctionArgs f.args = .ok v

theorem Node.Good.static {n n' : Node α} (h : n.Good) (e : n'.static = n.static) : n'.Good := by
  have e1 : n'.exec = n.exec := (congrArg Node.exec e :)
  have e2 : n'.type = n.type := (congrArg Node.type e :)
  have e3 : n'.useMem = n.useMem := (congrArg Node.useMem e :)
  have e4 : n'.useMapFunc = n.useMapFunc := (congrArg Node.useMapFunc e :)
  have e5 : n'.fn = n.fn := (congrArg Node.fn e :)
  have e6 : n'.argsVect = n.argsVect := (congrArg Node.argsVect e :)
  refine ⟨⟨?_, ?_, ?_, ?_, ?_, ?_⟩, ?_⟩
  · rw [e1]; exact h.full.exec
  · rw [e2]; exact h.full.type
  · rw [e3]; exact h.full.useMem
  · rw [e4]; exact h.full.useMapFunc
  · rw [e5]; exact h.full.fn
  · rw [e6]; exact h.full.argsVect
  · rw [e5, e6]; exact h.vect

structure CleanInv (m : FCM α) : Prop where
  inv : Inv m
  good : ∀ c n, m.topology.get? c = some n → n.Good
  exe : ∀ c ∈ m.topology.keys, ∃ x xs, m.execution.get? c = some (x :: xs)

theorem CleanInv.sameKeys {m : FCM α} (h : CleanInv m) : SameKeys m := by
  intro c
  constructor
  · intro hc
    obtain ⟨x, xs, hx⟩ := h.exe c hc
    exact Dict.mem_keys_of_get? hx
  · exact h.inv.sub c

theorem good_view {m m' : FCM α} (h : ∀ c n, m.topology.get? c = some n → n.Good) (hv : m'.view = m.view) :
    ∀ c n, m'.topology.get? c = some n → n.Good := by
  intro c n hn
  have := view_get hv c
  rw [hn] at this
  cases hm : m.topology.get? c with
  | none => rw [hm] at this; cases this
  | some n0 =>
    rw [hm] at this
    exact (h c n0 hm).static (by simpa using this)

theorem exe_set {d : Dict (List α)} {e : Dict (List α)} {c : String} {x : α} {xs : List α} (he : e = d.set c (x :: xs))
    {c' : String} (h : c' ≠ c → ∃ y ys, d.get? c' = some (y :: ys)) : ∃ y ys, e.get? c' = some (y :: ys) := by
  rw [he, Dict.get?_set]
  split
  · exact ⟨x, xs, rfl⟩
  · rename_i hne
    exact h (Ne.symm hne)

theorem noFuzzy_good {n n' : Node α} (e : n'.noFuzzy = n.noFuzzy) (h : n.Good) : n'.Good := by
  have e1 : n'.exec = n.exec := (congrArg Node.exec e :)
  have e2 : n'.type = n.type := (congrArg Node.type e :)
  have e3 : n'.useMem = n.useMem := (congrArg Node.useMem e :)
  have e4 : n'.useMapFunc = n.useMapFunc := (congrArg Node.useMapFunc e :)
  have e5 : n'.fn = n.fn := (congrArg Node.fn e :)
  have e6 : n'.argsVect = n.argsVect := (congrArg Node.argsVect e :)
  refine ⟨⟨?_, ?_, ?_, ?_, ?_, ?_⟩, ?_⟩
  · rw [e1]; exact h.full.exec
  · rw [e2]; exact h.full.type
  · rw [e3]; exact h.full.useMem
  · rw [e4]; exact h.full.useMapFunc
  · rw [e5]; exact h.full.fn
  · rw [e6]; exact h.full.argsVect
  · rw [e5, e6]; exact h.vect

theorem buildNode_good {d : DefaultConcept α} {a : ConceptArgs α} {n n' : Node α}
    (h : buildNode d a n = (.ok (), n')) : n'.Good := by
  obtain ⟨ex, adict, f, custom, vect, -, -, hch, e⟩ := buildNode_ok h
  refine noFuzzy_good (n := { n with
    exec := some ex, type := some (buildType d a),
    useMem := some (a.useMemory.getD d.useMem), useMapFunc := some (!custom), fn := some f, argsVect := some vect }) e ?_
  refine ⟨⟨rfl, rfl, rfl, rfl, rfl, rfl⟩, ?_⟩
  intro f' v hf hv
  cases hf; cases hv
  exact hch.vect

theorem updateNode_good {b : Bool} {fb : FnInfo α} {a : ConceptArgs α} {n n' : Node α} (hn : n.Good)
    (h : updateNode b fb a n = (.ok (), n')) : n'.Good := by
  obtain ⟨ex, ty, adict, f, custom, vect, hex, hty, -, hch, e⟩ := updateNode_ok h
  refine noFuzzy_good (n := { n with
    active := a.isActive.getD n.active, exec := ex, type := ty,
    useMem := some (a.useMemory.getD b), useMapFunc := some (!custom), fn := some f, argsVect := some vect }) e ?_
  refine ⟨⟨?_, ?_, rfl, rfl, rfl, rfl⟩, ?_⟩
  · dsimp only
    split at hex
    · obtain ⟨g, -, rfl⟩ := hex; rfl
    · rw [hex]; exact hn.full.exec
  · dsimp only
    split at hty
    · rw [hty.2]; rfl
    · rw [hty]; exact hn.full.type
  · intro f' v hf hv
    cases hf; cases hv
    exact hch.vect

theorem good_set {m m' : FCM α} (h : ∀ c n, m.topology.get? c = some n → n.Good) {c : String} {n' : Node α}
    (hg : n'.Good) (ht : m'.topology = m.topology.set c n') : ∀ c n, m'.topology.get? c = some n → n.Good := by
  intro c' n hn
  rw [ht, Dict.get?_set] at hn
  split at hn
  · cases hn; exact hg
  · exact h c' n hn

theorem applyMapFn_good {f : FnInfo α} {c : String} {m m' : FCM α} (h : ∀ c n, m.topology.get? c = some n → n.Good)
    (hop : applyMapFn f c m = (.ok (), m')) :
    (∀ c n, m'.topology.get? c = some n → n.Good) ∧ m'.execution = m.execution ∧
      m'.topology.keys = m.topology.keys := by
  unfold applyMapFn at hop
  split at hop
  · cases hop
  · rename_i n hn
    split at hop
    · cases hop
    · cases hop; exact ⟨h, rfl, rfl⟩
    · split at hop
      · cases hop
      · rename_i v hv
        cases hop
        have hg := h c n hn
        refine ⟨good_set h (n' := { n with fn := some f, argsVect := some v }) ?_ rfl, rfl,
          Dict.keys_set_of_mem _ _ _ (Dict.mem_keys_of_get? hn)⟩
        refine ⟨⟨hg.full.exec, hg.full.type, hg.full.useMem, hg.full.useMapFunc, rfl, rfl⟩, ?_⟩
        intro f' v' hf hv'
        cases hf; cases hv'
        exact hv

theorem Op.clean {op : Op α} {m m' : FCM α} (h : CleanInv m) (hop : op.run m = (.ok (), m')) : CleanInv m' := by
  have hinv : Inv m' := by have := op.pres m h.inv; rwa [hop] at this
  have soft : op.soft = true → (∀ c n, m'.topology.get? c = some n → n.Good) := by
    intro hs
    have := op.soft_view hs m
    rw [hop] at this
    exact good_view h.good this
  have softk : op.soft = true → m'.topology.keys = m.topology.keys := by
    intro hs
    have := op.soft_view hs m
    rw [hop] at this
    exact view_keys this
  cases op
  case addConcept c a =>
    simp only [Op.run, FCM.addConcept] at hop
    split at hop
    · cases hop
    · rename_i hb
      cases hop
      have hb : buildNode m.default a (freshNode (a.isActive.getD m.default.active)) = (.ok (),
          (buildNode m.default a (freshNode (a.isActive.getD m.default.active))).2) := by
        rw [← hb]
      refine ⟨hinv, good_set h.good ((buildNode_good hb).static (by rfl)) rfl, ?_⟩
      intro c' hc'
      refine exe_set rfl (fun hne => h.exe c' ?_)
      have := (Dict.mem_keys_set _ _ _ _).1 hc'
      exact this.resolve_right hne
  case setConceptProperties c a =>
    simp only [Op.run, FCM.setConceptProperties] at hop
    split at hop
    · cases hop
    · rename_i n hn
      obtain ⟨h1, h2⟩ := Prod.mk.inj hop
      subst h2
      have hb : updateNode m.memInfluence m.mapFn a n = (.ok (), (updateNode m.memInfluence m.mapFn a n).2) := by
        rw [← h1]
      refine ⟨hinv, good_set h.good (updateNode_good (h.good c n hn) hb) rfl, ?_⟩
      intro c' hc'
      refine h.exe c' ?_
      rwa [Dict.keys_set_of_mem _ _ _ (Dict.mem_keys_of_get? hn)] at hc'
  case setMapActivationFunction f k =>
    simp only [Op.run, FCM.setMapActivationFunction, PyM.run_bind, PyM.run_modify] at hop
    cases hf : Activation.getFunctionByName f with
    | none => simp only [hf] at hop; cases hop
    | some g =>
      simp only [hf, PyM.run_bind, PyM.run_modify, PyM.run_get] at hop
      have := PyM.forEach_ok (fun x : FCM α => (∀ c n, x.topology.get? c = some n → n.Good) ∧
        x.execution = m.execution ∧ x.topology.keys = m.topology.keys)
        (by
          intro c _ s s' hs hstep
          obtain ⟨a, b, d⟩ := applyMapFn_good hs.1 hstep
          exact ⟨a, b.trans hs.2.1, d.trans hs.2.2⟩) (by exact ⟨h.good, rfl, rfl⟩) hop
      refine ⟨hinv, this.1, ?_⟩
      rw [this.2.1, this.2.2]
      exact h.exe
  case addRelation o d w =>
    by_cases hk : o ∈ m.topology.keys ∧ d ∈ m.topology.keys
    · obtain ⟨k1, k2, k3, -, -, hall⟩ := addRelation_ok hk.1 hk.2 hop
      refine ⟨hinv, ?_, by rw [k1, k2]; exact h.exe⟩
      intro c n' hn'
      have hc : c ∈ m.topology.keys := by rw [← k1]; exact Dict.mem_keys_of_get? hn'
      obtain ⟨n, hn⟩ := Dict.exists_get?_of_mem hc
      obtain ⟨n'', f', v', hn'', e, hcase⟩ := hall c n hn
      rw [hn'] at hn''; cases hn''
      have hg := h.good c n hn
      rw [e]
      rcases hcase with ⟨rfl, rfl⟩ | ⟨-, -, f, l, hf, rfl, rfl⟩
      · exact ⟨⟨hg.full.exec, hg.full.type, hg.full.useMem, hg.full.useMapFunc, hg.full.fn, hg.full.argsVect⟩, hg.vect⟩
      · refine ⟨⟨hg.full.exec, hg.full.type, hg.full.useMem, hg.full.useMapFunc, rfl, rfl⟩, ?_⟩
        intro f' v hf' hv
        cases hf'; cases hv
        exact vect_num _ _
    · have := addRelation_unknown w hk
      have hop' : FCM.addRelation o d w m = (.ok (), m') := hop
      rw [this] at hop'
      cases hop'
      exact ⟨hinv, h.good, h.exe⟩
  case clearAll =>
    simp only [Op.run, FCM.clearAll, PyM.run_bind, PyM.run_modify] at hop
    split at hop
    · cases hop
      exact ⟨hinv, fun c n hn => (nomatch hn), fun c hc => by simp at hc⟩
    · cases hop
  case setDefaultConceptProperties a =>
    refine ⟨hinv, soft rfl, ?_⟩
    simp only [Op.run, FCM.setDefaultConceptProperties] at hop
    obtain ⟨-, h2⟩ := Prod.mk.inj hop
    rw [← h2]
    exact h.exe
  case setMapDecisionFunction f =>
    refine ⟨hinv, soft rfl, ?_⟩
    simp only [Op.run, FCM.setMapDecisionFunction] at hop
    split at hop
    · cases hop
    · cases hop
      exact h.exe
  case initConcept c v r =>
    refine ⟨hinv, soft rfl, ?_⟩
    have hk := softk rfl
    rw [hk]
    simp only [Op.run, FCM.initConcept] at hop
    split at hop
    · split at hop
      · cases hop
      · cases hop; exact h.exe
    · split at hop
      · cases hop
      · split at hop
        · split at hop
          · cases hop
          · split at hop
            · cases hop
            · cases hop
              exact fun c' hc' => exe_set rfl fun _ => h.exe c' hc'
        · cases hop
          exact fun c' hc' => exe_set rfl fun _ => h.exe c' hc'
  case resetExecution =>
    refine ⟨hinv, soft rfl, ?_⟩
    rw [softk rfl]
    obtain ⟨_, _, _, _, hall⟩ := reset_spec h.inv hop
    intro c hc
    obtain ⟨n, v, rest, _, _, _, hx⟩ := hall c hc
    exact ⟨v, [], hx⟩
  case clearExecution =>
    refine ⟨hinv, soft rfl, ?_⟩
    rw [softk rfl]
    obtain ⟨m'', h1, _, _, hall⟩ := clear_spec h.inv
    have hop' : FCM.clearExecution m = (.ok (), m') := hop
    rw [h1] at hop'
    cases hop'
    intro c hc
    obtain ⟨n, hn⟩ := Dict.exists_get?_of_mem hc
    exact ⟨lit 0, [], (hall c n hn).2⟩
  case runInference r =>
    refine ⟨hinv, soft rfl, ?_⟩
    obtain ⟨m1, m2, h1, h2, h3⟩ := runInference_ok hop
    have i1 : Inv m1 := by
      have : Inv (if r then FCM.resetExecution m else (.ok (), m)).2 := by
        split
        · exact reset_pres m h.inv
        · exact h.inv
      rwa [h1] at this
    have i2 : Inv m2 := by have := engine_pres m1 i1; rwa [h2] at this
    obtain ⟨e3, k3, hall⟩ := decideAll_spec i2 h3
    intro c hc
    rw [k3] at hc
    obtain ⟨n, hn⟩ := Dict.exists_get?_of_mem hc
    obtain ⟨xs, v, hx, hv, -⟩ := hall c n hn
    rw [e3]
    cases xs with
    | nil => exact absurd hv (decFn_nil _ _ (by have := i2.extra; simp; omega) v)
    | cons x xs => exact ⟨x, xs, hx⟩
  all_goals
    cases hop
    exact ⟨hinv, h.good, h.exe⟩

theorem CleanReachable.clean {m : FCM α} (h : CleanReachable m) : CleanInv m := by
  induction h with
  | new h =>
    refine ⟨new_inv h, ?_, ?_⟩
    all_goals
      unfold FCM.new at h
      split at h
      · cases h
      · split at h
        · cases h
        · cases h
          simp [Dict.get?]
  | step op _ hop ih => exact op.clean ih hop

end PyFCM
