import Verif.Model.Plot
import Verif.Props.State
/-
What is drawn: the curves of `plot_execution` (C87) and the graph of `plot_topology` (C88).
-/
namespace PyFCM
open Arith Spec

set_option linter.unusedSectionVars false

variable {α : Type} [Arith α]

/-! ### C87 -/

/-- The part of a trajectory that is shown: all of it, or the first `limit` values. -/
def Spec.shown (limit : Int) (xs : List α) : List α := if limit ≤ 0 then xs else xs.take limit.toNat

/-- The concepts whose type is asked for. -/
def Spec.Shown (nodeType : String) (ty : String) : Prop :=
  (nodeType = "target" ∧ (ty = TYPE_DECISION ∨ ty = TYPE_REGRESOR)) ∨ (nodeType ≠ "target" ∧ (nodeType = "all" ∨ ty = nodeType))

instance (nodeType ty : String) : Decidable (Spec.Shown nodeType ty) := by unfold Spec.Shown; infer_instance

theorem mapM_range {xs : List α} : ∀ {k : Nat}, k ≤ xs.length → (List.range k).mapM (fun i => pyIdx xs i) = .ok (xs.take k)
  | 0, _ => rfl
  | k + 1, h => by
    rw [List.range_succ, List.mapM_append, mapM_range (by omega)]
    have : pyIdx xs k = .ok xs[k] := by unfold pyIdx; rw [List.getElem?_eq_getElem (by omega)]
    simp only [List.mapM_cons, List.mapM_nil, this]
    show Except.ok (xs.take k ++ [xs[k]]) = _
    rw [List.take_concat_get' _ _ (by omega)]

theorem curve_eq (limit : Int) (xs : List α) : curve limit xs = .ok (Spec.shown limit xs) := by
  unfold curve Spec.shown
  simp only
  split
  · rename_i h
    rw [mapM_range (by omega), if_neg (by omega)]
  · rename_i h
    rw [mapM_range (by simp)]
    split
    · simp
    · rw [List.take_of_length_le (by omega), List.take_of_length_le (by omega)]

theorem isDrawn_eq {nodeType ty : String} {n : Node α} (h : n.type = some ty) :
    isDrawn nodeType n = .ok (decide (Spec.Shown nodeType ty)) := by
  unfold isDrawn Spec.Shown
  rw [h]
  by_cases h1 : nodeType = "target"
  · simp only [h1, if_pos]
    show Except.ok (ty == TYPE_DECISION || ty == TYPE_REGRESOR) = _
    congr 1
    rw [Bool.eq_iff_iff]
    simp
  · rw [if_neg h1]
    by_cases h2 : nodeType = "all"
    · simp [h2]
    · rw [if_neg h2]
      show Except.ok (ty == nodeType) = _
      congr 1
      rw [Bool.eq_iff_iff]
      simp [h1, h2]

theorem curves_eq {m : FCM α} {ty : String → String} (limit : Int) (nodeType : String) : ∀ (ex : List (String × List α)),
    (∀ p ∈ ex, ∃ n, m.topology.get? p.1 = some n ∧ n.type = some (ty p.1)) →
    curves m limit nodeType ex =
      .ok ((ex.filter fun p => decide (Spec.Shown nodeType (ty p.1))).map fun p => Spec.shown limit p.2)
  | [], _ => rfl
  | (c, xs) :: rest, h => by
    obtain ⟨n, h1, h2⟩ := h (c, xs) (by simp)
    have ih := curves_eq limit nodeType rest fun p hp => h p (by simp [hp])
    unfold curves
    rw [curve_eq, h1, ih]
    show (do
      let b ← isDrawn nodeType n
      return if b then Spec.shown limit xs :: _ else _) = _
    rw [isDrawn_eq h2]
    by_cases hs : Spec.Shown nodeType (ty c)
    · simp only [hs, decide_true, List.filter_cons]
      rfl
    · simp only [hs, decide_false, List.filter_cons]
      rfl

/-- C87 in full: after any history one curve is drawn per concept of the requested type, showing its recorded trajectory
(or the beginning of it). -/
def C87_full (α : Type) [Arith α] : Prop :=
  ∀ (m : FCM α) (limit : Int) (nodeType : String), Reachable m →
    ∃ cs : List String, m.plotExecution limit nodeType = .ok (cs.map fun c => Spec.shown limit (m.traj c)) ∧ cs.Nodup ∧
      ∀ c, c ∈ cs ↔ ∃ n ty, m.topology.get? c = some n ∧ n.type = some ty ∧ Spec.Shown nodeType ty

/-- C87: it holds for histories without exceptions. -/
theorem C87_curves_partial {m : FCM α} (hr : CleanReachable m) (limit : Int) (nodeType : String) :
    ∃ cs : List String, m.plotExecution limit nodeType = .ok (cs.map fun c => Spec.shown limit (m.traj c)) ∧ cs.Nodup ∧
      ∀ c, c ∈ cs ↔ ∃ n ty, m.topology.get? c = some n ∧ n.type = some ty ∧ Spec.Shown nodeType ty := by
  have hk := hr.clean.sameKeys
  have hi := hr.clean.inv
  let ty : String → String := fun c => ((m.topology.get? c).bind (·.type)).getD ""
  have hty : ∀ c n, m.topology.get? c = some n → n.type = some (ty c) := by
    intro c n hn
    obtain ⟨t, ht⟩ := Option.isSome_iff_exists.1 (hr.clean.good c n hn).full.type
    simp only [ty, hn, Option.bind_some, ht, Option.getD_some]
  have hnode : ∀ p ∈ m.execution, ∃ n, m.topology.get? p.1 = some n ∧ n.type = some (ty p.1) := by
    intro p hp
    obtain ⟨n, hn⟩ := Dict.exists_get?_of_mem ((hk p.1).2 (List.mem_map_of_mem hp))
    exact ⟨n, hn, hty _ _ hn⟩
  refine ⟨(m.execution.filter fun p => decide (Spec.Shown nodeType (ty p.1))).map (·.1), ?_, ?_, ?_⟩
  · show curves m limit nodeType m.execution = _
    rw [curves_eq limit nodeType m.execution hnode, List.map_map]
    congr 1
    refine List.map_congr_left fun p hp => ?_
    have hp' := List.mem_of_mem_filter hp
    simp only [Function.comp, FCM.traj, Dict.get?_of_mem hi.xnd hp', Option.getD_some]
  · exact List.Nodup.sublist (List.filter_sublist.map _) hi.xnd
  · intro c
    simp only [List.mem_map, List.mem_filter, decide_eq_true_eq]
    constructor
    · rintro ⟨p, ⟨hp, hs⟩, rfl⟩
      obtain ⟨n, hn, ht⟩ := hnode p hp
      exact ⟨n, _, hn, ht, hs⟩
    · rintro ⟨n, t, hn, ht, hs⟩
      have := (hty c n hn).symm.trans ht
      cases this
      obtain ⟨xs, hx⟩ := Dict.exists_get?_of_mem ((hk c).1 (Dict.mem_keys_of_get? hn))
      exact ⟨(c, xs), ⟨Dict.get?_mem hx, hs⟩, rfl⟩

/-- After the run of `map1`: the decision concept `c`; the first three values of all concepts. -/
example : Ex.map1'.plotExecution = .ok [[0, 1/2, 1, 1, 1, 1]] ∧
    Ex.map1'.plotExecution 3 "all" = .ok [[1, 3/4, 1/4], [3/4, 1, 1], [0, 1/2, 1]] := by decide +kernel
example := C87_curves_partial Ex.map1_clean 3 "all"

/-- The half-built decision concept that a rejected `add_concept` leaves is not drawn. -/
theorem C87_counterexample : ¬ C87_full ℚ := by
  intro h
  obtain ⟨cs, h1, -, h3⟩ := h (runOps [.addConcept "d" { type := some TYPE_DECISION, activation := some "nothing" }] Ex.sat0)
    0 "target" (Ex.reachable_made _ Ex.sat0_new)
  have e : FCM.plotExecution (runOps [.addConcept "d" { type := some TYPE_DECISION, activation := some "nothing" }] Ex.sat0)
    0 "target" = .ok [] := by decide +kernel
  rw [e] at h1
  cases cs with
  | cons c cs => cases h1
  | nil =>
    have hn : ((runOps [.addConcept "d" { type := some TYPE_DECISION, activation := some "nothing" }] Ex.sat0).topology.get?
      "d").map (·.type) = some (some TYPE_DECISION) := by decide +kernel
    obtain ⟨n, hn, hty⟩ := Option.map_eq_some_iff.1 hn
    have := (h3 "d").2 ⟨n, _, hn, hty, .inl ⟨rfl, .inl rfl⟩⟩
    cases this

/-! ### C88 -/

/-- `a` and `b` are joined in the drawn graph. -/
def Graph.Joined (g : Graph) (a b : String) : Prop := (a, b) ∈ g.edges ∨ (b, a) ∈ g.edges

/-- C88 in full: the graph has the concepts as nodes and joins two of them iff there is a relation between them. -/
def C88_full (α : Type) [Arith α] : Prop :=
  ∀ m : FCM α, Reachable m → m.plotTopology.nodes = m.topology.keys ∧
    ∀ a b, m.plotTopology.Joined a b ↔ ∃ r ∈ m.arcList, (r.origin = a ∧ r.dest = b) ∨ (r.origin = b ∧ r.dest = a)

theorem addNode_mem (g : Graph) (a : String) (h : a ∈ g.nodes) : g.addNode a = g := if_pos h

theorem addNodes_nodes : ∀ (l : List String) (g : Graph), (g.nodes ++ l).Nodup →
    (l.foldl Graph.addNode g).nodes = g.nodes ++ l ∧ (l.foldl Graph.addNode g).edges = g.edges
  | [], g, _ => by simp
  | a :: l, g, h => by
    have ha : a ∉ g.nodes := fun hm => (List.nodup_append.1 h).2.2 a hm a (by simp) rfl
    have e : g.addNode a = { g with nodes := g.nodes ++ [a] } := if_neg ha
    have := addNodes_nodes l (g.addNode a) (by rw [e]; simpa using h)
    rw [List.foldl_cons, this.1, this.2, e]
    simp

theorem addEdge_spec (g : Graph) (a b : String) (ha : a ∈ g.nodes) (hb : b ∈ g.nodes) :
    (g.addEdge a b).nodes = g.nodes ∧
    ∀ x y, (g.addEdge a b).Joined x y ↔ g.Joined x y ∨ (a = x ∧ b = y) ∨ (a = y ∧ b = x) := by
  unfold Graph.addEdge
  rw [addNode_mem g a ha, addNode_mem g b hb]
  simp only
  split
  · rename_i h
    refine ⟨rfl, fun x y => ⟨.inl, ?_⟩⟩
    rintro (h' | ⟨rfl, rfl⟩ | ⟨rfl, rfl⟩)
    · exact h'
    · exact h
    · exact h.symm
  · refine ⟨rfl, fun x y => ?_⟩
    simp only [Graph.Joined, List.mem_append, List.mem_singleton, Prod.mk.injEq]
    constructor
    · rintro ((h | ⟨rfl, rfl⟩) | (h | ⟨rfl, rfl⟩))
      · exact .inl (.inl h)
      · exact .inr (.inl ⟨rfl, rfl⟩)
      · exact .inl (.inr h)
      · exact .inr (.inr ⟨rfl, rfl⟩)
    · rintro ((h | h) | ⟨rfl, rfl⟩ | ⟨rfl, rfl⟩)
      · exact .inl (.inl h)
      · exact .inr (.inl h)
      · exact .inl (.inr ⟨rfl, rfl⟩)
      · exact .inr (.inr ⟨rfl, rfl⟩)

theorem addArcs_spec (a : String) : ∀ (l : List (String × α)) (g : Graph), a ∈ g.nodes → (∀ p ∈ l, p.1 ∈ g.nodes) →
    (l.foldl (fun g p => g.addEdge a p.1) g).nodes = g.nodes ∧
    ∀ x y, (l.foldl (fun g p => g.addEdge a p.1) g).Joined x y ↔
      g.Joined x y ∨ ∃ p ∈ l, (a = x ∧ p.1 = y) ∨ (a = y ∧ p.1 = x)
  | [], g, _, _ => by simp
  | p :: l, g, ha, hl => by
    obtain ⟨h1, h2⟩ := addEdge_spec g a p.1 ha (hl p (by simp))
    obtain ⟨h3, h4⟩ := addArcs_spec a l (g.addEdge a p.1) (h1 ▸ ha) (fun q hq => h1 ▸ hl q (by simp [hq]))
    refine ⟨h3.trans h1, fun x y => ?_⟩
    rw [List.foldl_cons, h4, h2]
    simp [or_assoc]

theorem addAllArcs_spec : ∀ (t : List (String × Node α)) (g : Graph),
    (∀ p ∈ t, p.1 ∈ g.nodes ∧ ∀ a ∈ p.2.arcs, a.1 ∈ g.nodes) →
    (t.foldl (fun g p => p.2.arcs.foldl (fun g a => g.addEdge p.1 a.1) g) g).nodes = g.nodes ∧
    ∀ x y, (t.foldl (fun g p => p.2.arcs.foldl (fun g a => g.addEdge p.1 a.1) g) g).Joined x y ↔
      g.Joined x y ∨ ∃ p ∈ t, ∃ a ∈ p.2.arcs, (p.1 = x ∧ a.1 = y) ∨ (p.1 = y ∧ a.1 = x)
  | [], g, _ => by simp
  | p :: t, g, h => by
    obtain ⟨hp, hl⟩ := h p (by simp)
    obtain ⟨h1, h2⟩ := addArcs_spec p.1 p.2.arcs g hp hl
    obtain ⟨h3, h4⟩ := addAllArcs_spec t _ (fun q hq => by rw [h1]; exact h q (by simp [hq]))
    refine ⟨h3.trans h1, fun x y => ?_⟩
    rw [List.foldl_cons, h4, h2]
    simp [or_assoc]

/-- C88: it holds if no concept is added twice and no `add_relation` call raises. -/
theorem C88_graph_partial {m : FCM α} (hr : CarefulReachable m) : m.plotTopology.nodes = m.topology.keys ∧
    ∀ a b, m.plotTopology.Joined a b ↔ ∃ r ∈ m.arcList, (r.origin = a ∧ r.dest = b) ∨ (r.origin = b ∧ r.dest = a) := by
  obtain ⟨hi, hl⟩ := hr.linked
  obtain ⟨h1, h2⟩ := addNodes_nodes m.topology.keys ⟨[], []⟩ (by simpa using hi.tnd)
  have hout : ∀ p ∈ m.topology, ∀ d, (∃ w, (d, w) ∈ p.2.arcs) ↔ ∃ r ∈ m.arcList, r.origin = p.1 ∧ r.dest = d := by
    intro p hp d
    rw [(hl p.1 p.2 (Dict.get?_of_mem hi.tnd hp)).1]
    unfold outOf
    simp only [List.mem_map, List.mem_filter, decide_eq_true_eq, Prod.mk.injEq]
    constructor
    · rintro ⟨w, r, ⟨hr, ho⟩, hd, -⟩; exact ⟨r, hr, ho, hd⟩
    · rintro ⟨r, hr, ho, hd⟩; exact ⟨_, r, ⟨hr, ho⟩, hd, rfl⟩
  obtain ⟨h3, h4⟩ := addAllArcs_spec m.topology (m.topology.keys.foldl Graph.addNode ⟨[], []⟩) (by
    intro p hp
    rw [h1]
    simp only [List.nil_append]
    refine ⟨List.mem_map_of_mem hp, fun a ha => ?_⟩
    obtain ⟨r, hr, -, hd⟩ := (hout p hp a.1).1 ⟨a.2, ha⟩
    rw [← hd]
    exact (hi.ends r hr).2)
  refine ⟨h3.trans (by rw [h1]; rfl), fun a b => ?_⟩
  show (FCM.plotTopology m).Joined a b ↔ _
  unfold FCM.plotTopology
  rw [h4]
  have hno : ¬ (m.topology.keys.foldl Graph.addNode ⟨[], []⟩).Joined a b := by
    unfold Graph.Joined; rw [h2]; simp
  constructor
  · rintro (h | ⟨p, hp, q, hq, h⟩)
    · exact absurd h hno
    · obtain ⟨r, hr, ho, hd⟩ := (hout p hp q.1).1 ⟨q.2, hq⟩
      refine ⟨r, hr, ?_⟩
      rw [ho, hd]; exact h
  · rintro ⟨r, hr, h⟩
    obtain ⟨n, hn⟩ := Dict.exists_get?_of_mem (hi.ends r hr).1
    have hp := Dict.get?_mem hn
    obtain ⟨w, hw⟩ := (hout _ hp r.dest).2 ⟨r, hr, rfl, rfl⟩
    exact .inr ⟨_, hp, _, hw, h⟩

example : Ex.map3.plotTopology = ⟨["a", "b", "c"], [("a", "b"), ("b", "c"), ("b", "b")]⟩ := by decide +kernel
example := C88_graph_partial (Ex.careful_of (.new Ex.sat0_new) Ex.ops1 (by decide +kernel))

/-- Adding concept `b` again hides the relation b -> c from the drawing. -/
theorem C88_counterexample : ¬ C88_full ℚ := by
  intro h
  have h := ((h (runOps (Ex.ops1 ++ [.addConcept "b" {}]) Ex.sat0) (Ex.reachable_made _ Ex.sat0_new)).2 "b" "c").2
    ⟨⟨"c", 1, "b"⟩, by decide +kernel, .inl ⟨rfl, rfl⟩⟩
  have e : (runOps (Ex.ops1 ++ [.addConcept "b" {}]) Ex.sat0).plotTopology.edges = [("a", "b")] := by decide +kernel
  unfold Graph.Joined at h
  rw [e] at h
  revert h
  decide

end PyFCM
