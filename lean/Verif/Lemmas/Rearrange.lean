import Mathlib.Data.Multiset.AddSub
import Verif.Lemmas.Mirror
/-
What a map holds, whatever the order in which it was put there, and what the building calls do to it.
-/
namespace PyFCM
open Arith Spec

set_option linter.unusedSectionVars false

variable {α : Type} [Arith α]

/-- A node without the list of its relations, and these as a multiset. -/
def Node.gist (n : Node α) : Node α × Multiset (String × α) := ({ n with arcs := [] }, (n.arcs : Multiset (String × α)))

/-- The content of a map. -/
@[ext] structure Gist (α : Type) where
  settings : FCM α
  rels : Multiset (Arc α)
  node : String → Option (Node α × Multiset (String × α))
  record : String → Option (List α)

def FCM.gist (m : FCM α) : Gist α :=
  ⟨m.bare, (m.arcList : Multiset (Arc α)), fun c => (m.topology.get? c).map Node.gist, fun c => m.execution.get? c⟩

def put {β : Type} (f : String → Option β) (c : String) (v : Option β) (e : String) : Option β :=
  match v with
  | none => f e
  | some x => if c = e then some x else f e

/-! ### The three kinds of calls -/

/-- What a call about one concept yields: the outcome, the new node, the new trajectory. -/
abbrev Local (α : Type) := FCM α → Option (Node α × Multiset (String × α)) →
  Except Err Unit × Option (Node α × Multiset (String × α)) × Option (List α)

def localAct (c : String) (f : Local α) (g : Gist α) : Except Err Unit × Gist α :=
  ((f g.settings (g.node c)).1,
    { g with node := put g.node c (f g.settings (g.node c)).2.1, record := put g.record c (f g.settings (g.node c)).2.2 })

/-- What add_relation does to the node of concept `e`. -/
def link (o d : String) (w : α) (e : String) (n : Node α × Multiset (String × α)) : Node α × Multiset (String × α) :=
  ({ n.1 with actvSum := if e = d then n.1.actvSum + w else n.1.actvSum }, if e = o then n.2 + {(d, w)} else n.2)

def relAct (o d : String) (w : α) (g : Gist α) : Except Err Unit × Gist α :=
  (.ok (), if (g.node d).isSome && (g.node o).isSome then
    { g with rels := g.rels + {⟨d, w, o⟩}, node := fun e => (g.node e).map (link o d w e) } else g)

def settingAct (r : Except Err Unit) (k : FCM α → FCM α) (g : Gist α) : Except Err Unit × Gist α :=
  (r, { g with settings := k g.settings })

/-- The calls have the same outcomes and leave the same content in either order. -/
def Commute2 (p q : Gist α → Except Err Unit × Gist α) : Prop :=
  ∀ g, (q (p g).2).1 = (q g).1 ∧ (p (q g).2).1 = (p g).1 ∧ (q (p g).2).2 = (p (q g).2).2

theorem Commute2.symm {p q : Gist α → Except Err Unit × Gist α} (h : Commute2 p q) : Commute2 q p :=
  fun g => ⟨(h g).2.1, (h g).1, (h g).2.2.symm⟩

theorem put_self {β : Type} (f : String → Option β) (c : String) (v : Option β) : put f c v c = v.or (f c) := by
  unfold put; cases v <;> simp
theorem put_ne {β : Type} (f : String → Option β) {c e : String} (h : c ≠ e) (v : Option β) : put f c v e = f e := by
  unfold put; cases v <;> simp [h]

theorem put_comm {β : Type} (f : String → Option β) {c e : String} (h : c ≠ e) (v w : Option β) :
    put (put f c v) e w = put (put f e w) c v := by
  funext x
  unfold put
  cases v <;> cases w <;> simp only
  split <;> split <;> simp_all

theorem map_put {β : Type} (k : String → β → β) (f : String → Option β) (c : String) (v : Option β) :
    (fun e => (put f c v e).map (k e)) = put (fun e => (f e).map (k e)) c (v.map (k c)) := by
  funext e
  cases v with
  | none => rfl
  | some x =>
    unfold put
    simp only [Option.map_some]
    split
    · rename_i he
      subst he
      rfl
    · rfl

theorem local_local {c e : String} (h : c ≠ e) (f g : Local α) : Commute2 (localAct c f) (localAct e g) := by
  intro x
  refine ⟨?_, ?_, ?_⟩
  · unfold localAct; simp only [put_ne _ h]
  · unfold localAct; simp only [put_ne _ (Ne.symm h)]
  · unfold localAct
    simp only [put_ne _ h, put_ne _ (Ne.symm h)]
    rw [put_comm _ h, put_comm x.record h]

theorem local_setting {c : String} {f : Local α} {r : Except Err Unit} {k : FCM α → FCM α} (h : ∀ s n, f (k s) n = f s n) :
    Commute2 (localAct c f) (settingAct r k) := by
  intro x
  refine ⟨rfl, ?_, ?_⟩
  · unfold localAct settingAct; simp only [h]
  · unfold localAct settingAct; simp only [h]

theorem rel_setting {o d : String} {w : α} {r : Except Err Unit} {k : FCM α → FCM α} :
    Commute2 (relAct o d w) (settingAct r k) := by
  intro x
  refine ⟨rfl, rfl, ?_⟩
  unfold relAct settingAct
  simp only
  split <;> rfl

theorem setting_setting {r r' : Except Err Unit} {k k' : FCM α → FCM α} (h : ∀ s, k' (k s) = k (k' s)) :
    Commute2 (settingAct r k) (settingAct r' k') := by
  intro x
  refine ⟨rfl, rfl, ?_⟩
  unfold settingAct
  simp only [h]

theorem rel_rel [Exact α] (o d o' d' : String) (w w' : α) : Commute2 (relAct o d w) (relAct o' d' w') := by
  intro x
  refine ⟨rfl, rfl, ?_⟩
  unfold relAct
  simp only
  by_cases h : ((x.node d).isSome && (x.node o).isSome) = true <;>
    by_cases h' : ((x.node d').isSome && (x.node o').isSome) = true <;>
    simp only [h, h', if_true, if_false, Option.isSome_map, Bool.false_eq_true]
  refine Gist.ext rfl ?_ ?_ rfl
  · show x.rels + _ + _ = x.rels + _ + _
    rw [add_assoc, add_assoc, add_comm {_} {_}]
  · funext e
    show Option.map _ (Option.map _ _) = Option.map _ (Option.map _ _)
    rw [Option.map_map, Option.map_map]
    congr 1
    funext n
    show link o' d' w' e (link o d w e n) = link o d w e (link o' d' w' e n)
    unfold link
    simp only [Prod.mk.injEq]
    refine ⟨?_, ?_⟩
    · congr 1
      split <;> split <;> try rfl
      rw [Exact.add_assoc, Exact.add_assoc, Exact.add_comm w w']
    · split <;> split <;> try rfl
      rw [add_assoc, add_assoc, add_comm {_} {_}]

/-- The call does not look at relations and does not create concepts. -/
def Framed (f : Local α) : Prop := ∀ s, (f s none).2.1 = none ∧ ∀ (n : Node α) (as : Multiset (String × α)) (u : α) (x : Multiset (String × α)),
  f s (some ({ n with actvSum := u }, x)) =
    ((f s (some (n, as))).1, ((f s (some (n, as))).2.1).map (fun p => ({ p.1 with actvSum := u }, x)), (f s (some (n, as))).2.2) ∧
  ∀ p, (f s (some (n, as))).2.1 = some p → p.1.actvSum = n.actvSum ∧ p.2 = as

theorem local_rel_apart {c o d : String} (ho : c ≠ o) (hd : c ≠ d) (f : Local α) (w : α) :
    Commute2 (localAct c f) (relAct o d w) := by
  intro x
  have hl : ∀ n, link o d w c n = n := fun n => by unfold link; rw [if_neg hd, if_neg ho]
  have hm : ∀ t : Option (Node α × Multiset (String × α)), t.map (link o d w c) = t := fun t => by
    cases t with
    | none => rfl
    | some n => rw [Option.map_some, hl]
  refine ⟨rfl, ?_, ?_⟩
  · unfold localAct relAct
    simp only
    split
    · simp only [hm]
    · rfl
  · unfold localAct relAct
    simp only [put_ne _ ho, put_ne _ hd]
    split
    · simp only [hm]
      rw [map_put (link o d w), hm]
    · rfl

theorem local_rel_framed {c : String} {f : Local α} (hf : Framed f) (o d : String) (w : α) :
    Commute2 (localAct c f) (relAct o d w) := by
  intro x
  have some_put : ∀ e, (put x.node c (f x.settings (x.node c)).2.1 e).isSome = (x.node e).isSome := by
    intro e
    by_cases he : c = e
    · subst he
      rw [put_self]
      cases hn : x.node c with
      | none => rw [(hf x.settings).1]; rfl
      | some n => simp
    · rw [put_ne _ he]
  have hl : ∀ n : Node α × Multiset (String × α), f x.settings (some (link o d w c n)) =
      ((f x.settings (some n)).1, ((f x.settings (some n)).2.1).map (link o d w c), (f x.settings (some n)).2.2) := by
    intro n
    obtain ⟨h1, h2⟩ := (hf x.settings).2 n.1 n.2 (if c = d then n.1.actvSum + w else n.1.actvSum)
      (if c = o then n.2 + {(d, w)} else n.2)
    refine h1.trans ?_
    have : Option.map (fun p : Node α × Multiset (String × α) =>
        (({ p.1 with actvSum := if c = d then n.1.actvSum + w else n.1.actvSum } : Node α),
          if c = o then n.2 + {(d, w)} else n.2)) (f x.settings (some (n.1, n.2))).2.1 =
        Option.map (link o d w c) (f x.settings (some n)).2.1 := by
      show _ = Option.map (link o d w c) (f x.settings (some (n.1, n.2))).2.1
      cases hp : (f x.settings (some (n.1, n.2))).2.1 with
      | none => rfl
      | some p =>
        obtain ⟨e1, e2⟩ := h2 p hp
        simp only [Option.map_some, Option.some.injEq]
        unfold link
        rw [e1, e2]
    rw [this]
  refine ⟨rfl, ?_, ?_⟩
  · unfold localAct relAct
    simp only
    split
    · simp only
      cases hn : x.node c with
      | none => rfl
      | some n => rw [Option.map_some, hl]
    · rfl
  · unfold localAct relAct
    simp only [some_put]
    split
    · simp only
      cases hn : x.node c with
      | none =>
        simp only [Option.map_none]
        refine Gist.ext rfl rfl ?_ rfl
        funext e
        rw [(hf x.settings).1]
        rfl
      | some n =>
        rw [Option.map_some, hl]
        dsimp only
        rw [map_put (link o d w)]
    · rfl

/-! ### The calls -/

/-- A program over a concept that looks neither at its outgoing relations nor at the sum of its weights. -/
def NodeFrame {β : Type} (x : PyM (Node α) β) : Prop := ∀ (n : Node α) as u,
  x { n with arcs := as, actvSum := u } = ((x n).1, { (x n).2 with arcs := as, actvSum := u }) ∧
    (x n).2.arcs = n.arcs ∧ (x n).2.actvSum = n.actvSum

theorem NodeFrame.pure {β : Type} (b : β) : NodeFrame (α := α) (Pure.pure b : PyM (Node α) β) := fun _ _ _ => ⟨rfl, rfl, rfl⟩
theorem NodeFrame.raise {β : Type} (e : Err) : NodeFrame (α := α) (PyM.raise e : PyM (Node α) β) := fun _ _ _ => ⟨rfl, rfl, rfl⟩
theorem NodeFrame.lift {β : Type} (x : Except Err β) : NodeFrame (α := α) (PyM.lift x : PyM (Node α) β) := fun _ _ _ => ⟨rfl, rfl, rfl⟩
theorem NodeFrame.modify {f : Node α → Node α} (h : ∀ n as u, f { n with arcs := as, actvSum := u } = { f n with arcs := as, actvSum := u } ∧
    (f n).arcs = n.arcs ∧ (f n).actvSum = n.actvSum) : NodeFrame (PyM.modify f) := fun n as u =>
  ⟨by
    show (Except.ok (), f { n with arcs := as, actvSum := u }) = _
    rw [(h n as u).1]
    rfl, (h n as u).2⟩
theorem NodeFrame.bind {β γ : Type} {x : PyM (Node α) β} {f : β → PyM (Node α) γ} (hx : NodeFrame x) (hf : ∀ b, NodeFrame (f b)) :
    NodeFrame (x >>= f) := by
  intro n as u
  simp only [PyM.run_bind]
  obtain ⟨h1, h2, h3⟩ := hx n as u
  rw [h1]
  rcases hr : x n with ⟨e | b, n'⟩ <;> rw [hr] at h2 h3
  · exact ⟨rfl, h2, h3⟩
  · obtain ⟨k1, k2, k3⟩ := hf b n' as u
    exact ⟨k1, k2.trans h2, k3.trans h3⟩

theorem storeFuzzy_frame (d : Args α) : NodeFrame (storeFuzzy d) :=
  .bind (.lift _) fun _ => .bind (.modify fun _ _ _ => ⟨rfl, rfl, rfl⟩) fun _ => .pure _

theorem buildFn_frame (f : FnInfo α) (a : ConceptArgs α) (d : Option (Args α)) : NodeFrame (buildFn f a d) := by
  unfold buildFn
  split
  · exact .bind (.modify fun _ _ _ => ⟨rfl, rfl, rfl⟩) fun _ => .lift _
  · split
    · split
      · exact .bind (.modify fun _ _ _ => ⟨rfl, rfl, rfl⟩) fun _ => .lift _
      · exact .raise _
    · exact .bind (.modify fun _ _ _ => ⟨rfl, rfl, rfl⟩) fun _ => .bind (.lift _) fun _ =>
        .bind (.modify fun _ _ _ => ⟨rfl, rfl, rfl⟩) fun _ => .pure _

theorem buildRest_frame (b : Bool) (f : FnInfo α) (a : ConceptArgs α) (d : Option (Args α)) : NodeFrame (buildRest b f a d) :=
  .bind (.modify fun _ _ _ => ⟨rfl, rfl, rfl⟩) fun _ => .bind (buildFn_frame _ _ _) fun _ => .modify fun _ _ _ => ⟨rfl, rfl, rfl⟩

theorem updateNode_frame (b : Bool) (f : FnInfo α) (a : ConceptArgs α) : NodeFrame (updateNode b f a) := by
  refine .bind ?_ fun _ => .bind ?_ fun _ => .bind ?_ fun _ => .bind ?_ fun _ => buildRest_frame _ _ _ _
  · unfold updateActive
    split
    · exact .modify fun _ _ _ => ⟨rfl, rfl, rfl⟩
    · exact .pure _
  · unfold updateExec
    split
    · split
      · exact .modify fun _ _ _ => ⟨rfl, rfl, rfl⟩
      · exact .raise _
    · exact .pure _
  · unfold updateType
    split
    · split
      · exact .modify fun _ _ _ => ⟨rfl, rfl, rfl⟩
      · exact .raise _
    · exact .pure _
  · unfold updateFuzzy
    split
    · split
      · exact storeFuzzy_frame _
      · exact .pure _
    · exact .pure _

def addLocal (a : ConceptArgs α) : Local α := fun s _ =>
  match buildNode s.default a (freshNode (a.isActive.getD s.default.active)) with
  | (.error e, n) => (.error e, some n.gist, none)
  | (.ok (), n) => (.ok (), some ({ n with value := lit 0 } : Node α).gist, some [lit 0])

def propLocal (c : String) (a : ConceptArgs α) : Local α := fun s n =>
  match n with
  | none => (.error (.exc ("Concept " ++ c ++ " not found")), none, none)
  | some (n, as) => ((updateNode s.memInfluence s.mapFn a n).1,
      some ({ (updateNode s.memInfluence s.mapFn a n).2 with arcs := [] }, as), none)

/-- The value init_concept stores. -/
def initValue (v : α) (n : Node α) : Except Err α :=
  match n.fn with
  | none => .error (.keyError "custom activation function name")
  | some f =>
    if f.name = "fuzzy" then
      match n.fuzzyAct with
      | none => .error (.keyError "activation relation for continuous values")
      | some fa => fuzzySet v fa.membership fa.valList
    else .ok v

def initLocal (c : String) (v : α) (req : Bool) : Local α := fun _ n =>
  match n with
  | none => (if req then .error (.exc ("Missing concept " ++ c)) else .ok (), none, none)
  | some (n, as) =>
    match initValue v n with
    | .error e => (.error e, none, none)
    | .ok u => (.ok (), some ({ n with value := u, aux := [], arcs := [] }, as), some [u])

theorem propLocal_framed (c : String) (a : ConceptArgs α) : Framed (propLocal c a) := by
  intro s
  refine ⟨rfl, fun n as u x => ?_⟩
  obtain ⟨h1, h2, h3⟩ := updateNode_frame s.memInfluence s.mapFn a n n.arcs u
  refine ⟨?_, ?_⟩
  · unfold propLocal
    simp only
    rw [h1]
    rfl
  · intro p hp
    unfold propLocal at hp
    simp only [Option.some.injEq] at hp
    subst hp
    exact ⟨h3, rfl⟩

theorem initLocal_framed (c : String) (v : α) (req : Bool) : Framed (initLocal c v req) := by
  intro s
  refine ⟨rfl, fun n as u x => ?_⟩
  unfold initLocal
  simp only
  rw [show initValue v { n with actvSum := u } = initValue v n from rfl]
  cases initValue v n with
  | error e => exact ⟨rfl, fun p hp => by cases hp⟩
  | ok y =>
    refine ⟨rfl, fun p hp => ?_⟩
    simp only [Option.some.injEq] at hp
    subst hp
    exact ⟨rfl, rfl⟩

theorem gist_set_node {m : FCM α} (c : String) (n : Node α) : (fun e => ((m.topology.set c n).get? e).map Node.gist) =
    put (fun e => (m.topology.get? e).map Node.gist) c (some n.gist) := by
  funext e
  rw [Dict.get?_set]
  unfold put
  simp only
  split <;> rfl

theorem gist_set_record {m : FCM α} (c : String) (v : List α) : (fun e => (m.execution.set c v).get? e) =
    put (fun e => m.execution.get? e) c (some v) := by
  funext e
  rw [Dict.get?_set]
  rfl

theorem addConcept_gist (c : String) (a : ConceptArgs α) (m : FCM α) :
    ((FCM.addConcept c a m).1, (FCM.addConcept c a m).2.gist) = localAct c (addLocal a) m.gist := by
  unfold FCM.addConcept localAct addLocal
  have hd : m.gist.settings.default = m.default := rfl
  rw [hd]
  simp only
  rcases hb : buildNode m.default a (freshNode (a.isActive.getD m.default.active)) with ⟨e | ⟨⟩, n⟩
  · simp only [Prod.mk.injEq, true_and]
    exact Gist.ext rfl rfl (gist_set_node c n) rfl
  · simp only [Prod.mk.injEq, true_and]
    exact Gist.ext rfl rfl (gist_set_node c _) (gist_set_record c _)

theorem setProps_gist (c : String) (a : ConceptArgs α) (m : FCM α) :
    ((FCM.setConceptProperties c a m).1, (FCM.setConceptProperties c a m).2.gist) = localAct c (propLocal c a) m.gist := by
  unfold FCM.setConceptProperties localAct propLocal
  have hn : m.gist.node c = (m.topology.get? c).map Node.gist := rfl
  rw [hn]
  cases hc : m.topology.get? c with
  | none => rfl
  | some n =>
    simp only [Option.map_some, Node.gist]
    have h1 := (updateNode_frame m.memInfluence m.mapFn a n [] n.actvSum).1
    have h2 := (updateNode_frame m.memInfluence m.mapFn a n [] n.actvSum).2
    have e : updateNode m.gist.settings.memInfluence m.gist.settings.mapFn a { n with arcs := [] } = _ := h1
    rw [e]
    simp only [Prod.mk.injEq, true_and]
    refine Gist.ext rfl rfl ?_ rfl
    refine (gist_set_node c _).trans ?_
    unfold Node.gist
    rw [h2.1]
    rw [show n.actvSum = _ from h2.2.symm]
    rfl

theorem initConcept_gist (c : String) (v : α) (req : Bool) (m : FCM α) :
    ((FCM.initConcept c v req m).1, (FCM.initConcept c v req m).2.gist) = localAct c (initLocal c v req) m.gist := by
  unfold localAct initLocal
  have hn : m.gist.node c = (m.topology.get? c).map Node.gist := rfl
  rw [hn]
  cases hc : m.topology.get? c with
  | none =>
    unfold FCM.initConcept
    rw [hc]
    cases req <;> rfl
  | some n =>
    have key : FCM.initConcept c v req m = (match initValue v n with
      | .error e => (.error e, m)
      | .ok u => (.ok (), { m with topology := m.topology.set c { n with value := u, aux := [] }
                                   execution := m.execution.set c [u] })) := by
      unfold FCM.initConcept initValue
      rw [hc]
      dsimp only
      cases n.fn with
      | none => rfl
      | some f =>
        simp only
        split
        · cases n.fuzzyAct <;> rfl
        · rfl
    rw [key]
    simp only [Option.map_some]
    have hi : initValue v n.gist.1 = initValue v n := rfl
    have hg : n.gist = (n.gist.1, n.gist.2) := rfl
    rw [hg]
    simp only [hi]
    cases initValue v n with
    | error e => rfl
    | ok u =>
      simp only [Prod.mk.injEq, true_and]
      exact Gist.ext rfl rfl (gist_set_node c _) (gist_set_record c _)

theorem addRelation_gist (o d : String) (w : α) {m : FCM α} (hf : m.fitInclination = none) :
    ((FCM.addRelation o d w m).1, (FCM.addRelation o d w m).2.gist) = relAct o d w m.gist := by
  unfold relAct
  have hs : ∀ c, (m.gist.node c).isSome = m.topology.has c := fun c => by
    show ((m.topology.get? c).map Node.gist).isSome = _
    rw [Option.isSome_map]; rfl
  have key : FCM.addRelation o d w m = if m.topology.has d && m.topology.has o then
      (.ok (), { m with prepared := false, arcList := m.arcList ++ [⟨d, w, o⟩], topology :=
        (m.topology.modify o fun n => { n with arcs := n.arcs ++ [(d, w)] }).modify d fun n => { n with actvSum := n.actvSum + w } })
      else (.ok (), { m with prepared := false }) := by
    cases m
    simp only at hf
    subst hf
    rfl
  rw [key]
  simp only [hs]
  split
  · simp only [Prod.mk.injEq, true_and]
    refine Gist.ext rfl ?_ ?_ rfl
    · show ((m.arcList ++ [(⟨d, w, o⟩ : Arc α)] : List (Arc α)) : Multiset (Arc α)) = _
      rw [← Multiset.coe_add]
      rfl
    · funext e
      show ((Dict.get? _ e).map Node.gist) = ((m.topology.get? e).map Node.gist).map _
      rw [Dict.get?_modify, Dict.get?_modify]
      cases he : m.topology.get? e with
      | none => split <;> split <;> rfl
      | some n =>
        by_cases h1 : d = e <;> by_cases h2 : o = e
        · subst h1; subst h2
          simp only [if_true, Option.map_some, Node.gist, link, ← Multiset.coe_add]
          rfl
        · subst h1
          have h3 : ¬ d = o := fun h => h2 h.symm
          simp only [if_true, if_neg h2, if_neg h3, Option.map_some, Node.gist, link]
        · subst h2
          have h3 : ¬ o = d := fun h => h1 h.symm
          simp only [if_true, if_neg h1, if_neg h3, Option.map_some, Node.gist, link, ← Multiset.coe_add]
          rfl
        · have h3 : ¬ e = d := fun h => h1 h.symm
          have h4 : ¬ e = o := fun h => h2 h.symm
          simp only [if_neg h1, if_neg h2, if_neg h3, if_neg h4, Option.map_some, Node.gist, link]
  · rfl

/-! ### Operations -/

def decisionOutcome (f : String) : Except Err Unit :=
  match Decision.getByName f with
  | none => .error (.exc ("Unknown decision function '" ++ f ++ "'"))
  | some _ => .ok ()

def decisionSet (f : String) (s : FCM α) : FCM α :=
  match Decision.getByName f with
  | none => s
  | some k => { s with decisionName := f, decisionFn := k }

/-- What a building call does to the content of a map. -/
def Op.act : Op α → Gist α → Except Err Unit × Gist α
  | .addConcept c a => localAct c (addLocal a)
  | .setConceptProperties c a => localAct c (propLocal c a)
  | .initConcept c v req => localAct c (initLocal c v req)
  | .addRelation o d w => relAct o d w
  | .assignMaxIter n => settingAct (.ok ()) fun s => { s with maxIter := n }
  | .assignStop b => settingAct (.ok ()) fun s => { s with stopAtStabilize := b }
  | .assignStabilityDiff d => settingAct (.ok ()) fun s => { s with stabilityDiff := d }
  | .assignDebug b => settingAct (.ok ()) fun s => { s with debug := b }
  | .setMapDecisionFunction f => settingAct (decisionOutcome f) (decisionSet f)
  | _ => fun g => (.ok (), g)

/-- The calls in question. -/
def Op.building : Op α → Bool
  | .addConcept .. | .setConceptProperties .. | .initConcept .. | .addRelation .. | .assignMaxIter _ | .assignStop _
  | .assignStabilityDiff _ | .assignDebug _ | .setMapDecisionFunction _ => true
  | _ => false

theorem Op.run_gist {op : Op α} (hb : op.building = true) {m : FCM α} (hf : m.fitInclination = none) :
    ((op.run m).1, (op.run m).2.gist) = op.act m.gist := by
  cases op <;> try cases hb
  case addConcept c a => exact addConcept_gist c a m
  case setConceptProperties c a => exact setProps_gist c a m
  case initConcept c v r => exact initConcept_gist c v r m
  case addRelation o d w => exact addRelation_gist o d w hf
  case assignMaxIter n => rfl
  case assignStop b => rfl
  case assignStabilityDiff d => rfl
  case assignDebug b => rfl
  case setMapDecisionFunction f =>
    show ((FCM.setMapDecisionFunction f m).1, (FCM.setMapDecisionFunction f m).2.gist) = _
    show _ = settingAct (decisionOutcome f) (decisionSet f) m.gist
    unfold FCM.setMapDecisionFunction settingAct decisionOutcome decisionSet
    cases Decision.getByName f <;> rfl

/-- Building calls leave the settings they depend on. -/
theorem Op.building_fit {op : Op α} (hb : op.building = true) {m : FCM α} (hf : m.fitInclination = none) :
    (op.run m).2.fitInclination = none := by
  have h1 : (op.run m).2.gist.settings.fitInclination = (op.run m).2.fitInclination := rfl
  have h2 := congrArg (fun p => p.2.settings.fitInclination) (op.run_gist hb hf)
  have h3 : (op.act m.gist).2.settings.fitInclination = m.gist.settings.fitInclination := by
    cases op <;> try cases hb
    case addConcept c a => rfl
    case setConceptProperties c a => rfl
    case initConcept c v r => rfl
    case addRelation o d w => unfold Op.act relAct; simp only; split <;> rfl
    case assignMaxIter n => rfl
    case assignStop b => rfl
    case assignStabilityDiff d => rfl
    case assignDebug b => rfl
    case setMapDecisionFunction f => 
      show (decisionSet f m.gist.settings).fitInclination = _
      unfold decisionSet
      cases Decision.getByName f <;> rfl
  rw [← h1, h2, h3]
  exact hf

end PyFCM
