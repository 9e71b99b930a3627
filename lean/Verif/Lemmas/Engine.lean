import Verif.Model.Engine
import Verif.Lemmas.Dict
import Verif.Spec.Recurrence
/-
Lemmas about the iterative engine.
-/
namespace PyFCM
open Arith

set_option linter.unusedSectionVars false

variable {α : Type} [Arith α]

/-! ### Frames -/

/-- The part of a node that inference does not change. -/
def Node.static (n : Node α) : Node α := { n with value := lit 0, aux := [] }

/-- `m'` is `m` up to values, auxiliary lists, trajectories and the iteration counter. -/
structure SameMap (m m' : FCM α) : Prop where
  eq : m' = { m with topology := m'.topology, execution := m'.execution, iterations := m'.iterations }
  keys : m'.topology.keys = m.topology.keys
  ekeys : m'.execution.keys = m.execution.keys
  static : ∀ c, (m'.topology.get? c).map Node.static = (m.topology.get? c).map Node.static

theorem SameMap.refl (m : FCM α) : SameMap m m := ⟨rfl, rfl, rfl, fun _ => rfl⟩

theorem SameMap.trans {a b c : FCM α} (h : SameMap a b) (k : SameMap b c) : SameMap a c := by
  refine ⟨?_, k.keys.trans h.keys, k.ekeys.trans h.ekeys, fun x => (k.static x).trans (h.static x)⟩
  rw [k.eq, h.eq]

theorem SameMap.arcList {a b : FCM α} (h : SameMap a b) : b.arcList = a.arcList := by rw [h.eq]
theorem SameMap.maxIter {a b : FCM α} (h : SameMap a b) : b.maxIter = a.maxIter := by rw [h.eq]
theorem SameMap.extraSteps {a b : FCM α} (h : SameMap a b) : b.extraSteps = a.extraSteps := by rw [h.eq]
theorem SameMap.stop {a b : FCM α} (h : SameMap a b) : b.stopAtStabilize = a.stopAtStabilize := by rw [h.eq]
theorem SameMap.diff {a b : FCM α} (h : SameMap a b) : b.stabilityDiff = a.stabilityDiff := by rw [h.eq]

theorem Node.static_eq_iff (n n' : Node α) :
    n'.static = n.static ↔ n' = { n with value := n'.value, aux := n'.aux } := by
  constructor
  · intro h
    cases n; cases n'
    simp only [Node.static, Node.mk.injEq] at h
    simp only [Node.mk.injEq]
    simp_all
  · intro h; rw [h]; rfl

/-! ### One round of the relation loop -/

/-- The data of a concept the relation loop reads. -/
def Node.core (n : Node α) : Bool × Option (ExcFn × String) × α := (n.active, n.exec, n.value)

def addAux (xs : List α) (n : Node α) : Node α := { n with aux := n.aux ++ xs }

@[simp] theorem addAux_nil (n : Node α) : addAux [] n = n := by simp [addAux]
theorem addAux_addAux (xs ys : List α) (n : Node α) : addAux ys (addAux xs n) = addAux (xs ++ ys) n := by
  simp [addAux]
@[simp] theorem core_addAux (xs : List α) (n : Node α) : (addAux xs n).core = n.core := rfl
@[simp] theorem static_addAux (xs : List α) (n : Node α) : (addAux xs n).static = n.static := rfl

theorem gatherArc_ok {arc : Arc α} {m m' : FCM α} (h : gatherArc arc m = (.ok (), m')) :
    ∃ o, m.topology.get? arc.origin = some o ∧
      ((o.active = false ∧ m' = m) ∨
       (o.active = true ∧ ∃ ex d, o.exec = some ex ∧ m.topology.get? arc.dest = some d ∧
         m' = { m with topology :=
                  m.topology.set arc.dest (addAux [arcInput ex.2 o.value arc.weight] d) })) := by
  unfold gatherArc at h
  split at h
  · cases h
  · rename_i o ho
    refine ⟨o, ho, ?_⟩
    split at h
    · rename_i ha
      split at h
      · cases h
      · rename_i ex hex
        split at h
        · cases h
        · rename_i d hd
          cases h
          exact Or.inr ⟨ha, ex, d, hex, hd, rfl⟩
    · rename_i ha
      cases h
      exact Or.inl ⟨by simpa using ha, rfl⟩

/-- What concept `c` receives from relation `a` when the concepts are `T`. -/
def arcContrib (T : Dict (Node α)) (c : String) (a : Arc α) : Option α :=
  if a.dest = c then
    match T.get? a.origin with
    | some o => if o.active then o.exec.map fun ex => arcInput ex.2 o.value a.weight else none
    | none => none
  else none

def contribs (T : Dict (Node α)) (c : String) (arcs : List (Arc α)) : List α := arcs.filterMap (arcContrib T c)

theorem arcContrib_congr {T T' : Dict (Node α)} (h : ∀ c, (T'.get? c).map Node.core = (T.get? c).map Node.core)
    (c : String) (a : Arc α) : arcContrib T' c a = arcContrib T c a := by
  unfold arcContrib
  have := h a.origin
  split
  · cases h1 : T'.get? a.origin <;> cases h2 : T.get? a.origin <;> simp_all [Node.core]
  · rfl

theorem contribs_congr {T T' : Dict (Node α)} (h : ∀ c, (T'.get? c).map Node.core = (T.get? c).map Node.core)
    (c : String) (arcs : List (Arc α)) : contribs T' c arcs = contribs T c arcs := by
  unfold contribs
  congr 1
  funext a
  exact arcContrib_congr h c a

theorem gatherArc_spec {arc : Arc α} {m m' : FCM α} (h : gatherArc arc m = (.ok (), m')) :
    m' = { m with topology := m'.topology } ∧ m'.topology.keys = m.topology.keys ∧
    ∀ c, m'.topology.get? c = (m.topology.get? c).map (addAux (contribs m.topology c [arc])) := by
  obtain ⟨o, ho, ⟨ha, e⟩ | ⟨ha, ex, d, hex, hd, rfl⟩⟩ := gatherArc_ok h
  · subst e
    refine ⟨rfl, rfl, fun c => ?_⟩
    have : contribs m'.topology c [arc] = [] := by
      simp [contribs, arcContrib, ho, ha]
    rw [this]; cases m'.topology.get? c <;> simp
  · refine ⟨rfl, Dict.keys_set_of_mem _ _ _ (Dict.mem_keys_of_get? hd), fun c => ?_⟩
    simp only [Dict.get?_set]
    by_cases hc : arc.dest = c
    · subst hc
      simp [hd, contribs, arcContrib, ho, ha, hex]
    · rw [if_neg hc]
      have : contribs m.topology c [arc] = [] := by simp [contribs, arcContrib, hc]
      rw [this]; cases m.topology.get? c <;> simp

theorem core_congr_of_addAux {T T' : Dict (Node α)} {g : String → List α}
    (h : ∀ c, T'.get? c = (T.get? c).map (addAux (g c))) (c : String) :
    (T'.get? c).map Node.core = (T.get? c).map Node.core := by
  rw [h]; cases T.get? c <;> simp

theorem gather_spec {arcs : List (Arc α)} {m m' : FCM α} (h : PyM.forEach arcs gatherArc m = (.ok (), m')) :
    m' = { m with topology := m'.topology } ∧ m'.topology.keys = m.topology.keys ∧
    ∀ c, m'.topology.get? c = (m.topology.get? c).map (addAux (contribs m.topology c arcs)) := by
  induction arcs generalizing m with
  | nil =>
    simp only [PyM.forEach] at h; cases h
    refine ⟨rfl, rfl, fun c => ?_⟩
    cases m'.topology.get? c <;> simp [contribs]
  | cons a arcs ih =>
    simp only [PyM.forEach] at h
    split at h
    · rename_i m1 h1
      obtain ⟨e1, k1, g1⟩ := gatherArc_spec h1
      obtain ⟨e2, k2, g2⟩ := ih h
      refine ⟨by rw [e2, e1], k2.trans k1, fun c => ?_⟩
      rw [g2, g1, contribs_congr (core_congr_of_addAux g1)]
      cases m.topology.get? c
      · rfl
      · simp only [Option.map_some, Option.some.injEq, addAux_addAux]
        congr 1
        simp only [contribs, List.filterMap_cons, List.filterMap_nil]
        cases arcContrib m.topology c a <;> rfl
    · cases h

/-! ### One round of the concept loop -/

/-- The value computed for a concept from its inputs (`aux`) and previous value. -/
def evalNode (n : Node α) : Except Err α :=
  match n.exec, n.useMem, n.fn with
  | some ex, some um, some f =>
    match (if f.name = "fuzzy" then pdiv (ex.1.run n.aux n.value um) n.actvSum
           else .ok (ex.1.run n.aux n.value um)) with
    | .error e => .error e
    | .ok v => callActv f.fn v f.args
  | _, _, _ => .error (.keyError "")

def setVal (r : α) (n : Node α) : Node α := { n with aux := [], value := r }

@[simp] theorem static_setVal (r : α) (n : Node α) : (setVal r n).static = n.static := rfl

theorem Dict.set_set {β : Type} (d : Dict β) (k : String) (v w : β) : (d.set k v).set k w = d.set k w := by
  induction d with
  | nil => simp [Dict.set]
  | cons p d ih =>
    obtain ⟨k0, v0⟩ := p
    by_cases h : k0 = k
    · simp [Dict.set, h]
    · simp [Dict.set, h, ih]

theorem stepNode_ok {c : String} {m m' : FCM α} (h : stepNode c m = (.ok (), m')) :
    ∃ n r xs, m.topology.get? c = some n ∧ evalNode n = .ok r ∧ m.execution.get? c = some xs ∧
      m' = { m with topology := m.topology.set c (setVal r n), execution := m.execution.set c (xs ++ [r]) } := by
  unfold stepNode at h
  split at h
  · cases h
  · rename_i n hn
    split at h
    · cases h
    · rename_i ex hex
      split at h
      · cases h
      · rename_i um hum
        dsimp only at h
        split at h
        · cases h
        · rename_i f hf
          split at h
          · cases h
          · rename_i v hv
            split at h
            · cases h
            · rename_i r hr
              split at h
              · cases h
              · rename_i xs hxs
                cases h
                refine ⟨n, r, xs, hn, ?_, hxs, ?_⟩
                · unfold evalNode
                  simp only [hex, hum, hf]
                  rw [hv]
                  exact hr
                · simp only [Dict.set_set]; rfl

theorem stepNodes_spec {ks : List String} {m m' : FCM α} (hnd : ks.Nodup)
    (h : PyM.forEach ks stepNode m = (.ok (), m')) :
    m' = { m with topology := m'.topology, execution := m'.execution } ∧
    m'.topology.keys = m.topology.keys ∧ m'.execution.keys = m.execution.keys ∧
    (∀ c, c ∉ ks → m'.topology.get? c = m.topology.get? c ∧ m'.execution.get? c = m.execution.get? c) ∧
    (∀ c ∈ ks, ∃ n r xs, m.topology.get? c = some n ∧ evalNode n = .ok r ∧ m.execution.get? c = some xs ∧
      m'.topology.get? c = some (setVal r n) ∧ m'.execution.get? c = some (xs ++ [r])) := by
  induction ks generalizing m with
  | nil =>
    simp only [PyM.forEach] at h; cases h
    exact ⟨rfl, rfl, rfl, fun _ _ => ⟨rfl, rfl⟩, fun c hc => by simp at hc⟩
  | cons k ks ih =>
    simp only [PyM.forEach] at h
    rw [List.nodup_cons] at hnd
    split at h
    · rename_i m1 h1
      obtain ⟨n, r, xs, hn, hr, hxs, rfl⟩ := stepNode_ok h1
      obtain ⟨e, kt, ke, hout, hin⟩ := ih hnd.2 h
      refine ⟨by rw [e], ?_, ?_, ?_, ?_⟩
      · rw [kt]; exact Dict.keys_set_of_mem _ _ _ (Dict.mem_keys_of_get? hn)
      · rw [ke]; exact Dict.keys_set_of_mem _ _ _ (Dict.mem_keys_of_get? hxs)
      · intro c hc
        rw [List.mem_cons, not_or] at hc
        obtain ⟨a, b⟩ := hout c hc.2
        rw [a, b]
        exact ⟨Dict.get?_set_ne _ _ (Ne.symm hc.1), Dict.get?_set_ne _ _ (Ne.symm hc.1)⟩
      · intro c hc
        rw [List.mem_cons] at hc
        rcases hc with rfl | hc
        · obtain ⟨a, b⟩ := hout c hnd.1
          refine ⟨n, r, xs, hn, hr, hxs, ?_, ?_⟩
          · rw [a]; simp
          · rw [b]; simp
        · have hne : k ≠ c := by rintro rfl; exact hnd.1 hc
          obtain ⟨n', r', xs', a1, a2, a3, a4, a5⟩ := hin c hc
          refine ⟨n', r', xs', ?_, a2, ?_, a4, a5⟩
          · rw [← a1]; exact (Dict.get?_set_ne _ _ hne).symm
          · rw [← a3]; exact (Dict.get?_set_ne _ _ hne).symm
    · cases h

/-! ### One step -/

/-- No pending inputs. -/
def AuxEmpty (m : FCM α) : Prop := ∀ c n, m.topology.get? c = some n → n.aux = []

/-- Every concept has a trajectory and vice versa. -/
def SameKeys (m : FCM α) : Prop := ∀ c, c ∈ m.topology.keys ↔ c ∈ m.execution.keys

theorem stepOnce_spec {m m' : FCM α} (hnd : m.execution.keys.Nodup) (haux : AuxEmpty m)
    (hk : SameKeys m) (h : FCM.stepOnce m = (.ok (), m')) :
    SameMap m m' ∧ m'.iterations = m.iterations + 1 ∧ AuxEmpty m' ∧
    ∀ c ∈ m.execution.keys, ∃ n r xs, m.topology.get? c = some n ∧ m.execution.get? c = some xs ∧
      evalNode { n with aux := contribs m.topology c m.arcList } = .ok r ∧
      m'.topology.get? c = some (setVal r n) ∧ m'.execution.get? c = some (xs ++ [r]) := by
  unfold FCM.stepOnce at h
  split at h
  · cases h
  · rename_i m1 h1
    obtain ⟨e1, k1, g1⟩ := gather_spec h1
    split at h
    · cases h
    · rename_i m2 h2
      cases h
      have hex : m1.execution = m.execution := by rw [e1]
      rw [hex] at h2
      obtain ⟨e2, kt, ke, hout, hin⟩ := stepNodes_spec hnd h2
      rw [hex] at ke
      have key : ∀ c ∈ m.execution.keys, ∃ n r xs, m.topology.get? c = some n ∧ m.execution.get? c = some xs ∧
          evalNode { n with aux := contribs m.topology c m.arcList } = .ok r ∧
          m2.topology.get? c = some (setVal r n) ∧ m2.execution.get? c = some (xs ++ [r]) := by
        intro c hc
        obtain ⟨n1, r, xs, a1, a2, a3, a4, a5⟩ := hin c hc
        rw [g1] at a1
        cases hn : m.topology.get? c with
        | none => rw [hn] at a1; cases a1
        | some n =>
          rw [hn, Option.map_some, Option.some.injEq] at a1
          subst a1
          have hna := haux c n hn
          refine ⟨n, r, xs, rfl, by rw [← hex]; exact a3, ?_, ?_, a5⟩
          · rw [← a2]; simp [addAux, hna]
          · rw [a4]; rfl
      refine ⟨⟨?_, ?_, ke, ?_⟩, ?_, ?_, key⟩
      · simp only []
        rw [e2, e1]
      · exact kt.trans k1
      · intro c
        by_cases hc : c ∈ m.execution.keys
        · obtain ⟨n, r, xs, b1, _, _, b4, _⟩ := key c hc
          simp [b1, b4]
        · have : c ∉ m.topology.keys := fun h => hc ((hk c).1 h)
          have h2' : m2.topology.get? c = none := by
            rw [Dict.get?_eq_none_iff, kt, k1]; exact this
          simp [h2', (Dict.get?_eq_none_iff _ _).2 this]
      · simp only []
        rw [e2, e1]
      · intro c n hn
        simp only [] at hn
        have hc : c ∈ m.execution.keys := by
          rw [← hk c, ← k1, ← kt]; exact Dict.mem_keys_of_get? hn
        obtain ⟨n', r, xs, _, _, _, b4, _⟩ := key c hc
        rw [b4] at hn; cases hn; rfl

end PyFCM
