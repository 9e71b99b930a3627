import Verif.Model.Fcm
/-
Model of what fcm.py draws: `plot_execution` and `plot_topology`.  Colours, axes and file names are left out; matplotlib
is reduced to the list of curves, networkx to its undirected graph.
-/
namespace PyFCM
open Arith

variable {α : Type} [Arith α]

/-- fcm.py:633-638: the values of one curve. -/
def curve (limit : Int) (xs : List α) : Except Err (List α) :=
  let stop : Int := if (xs.length : Int) > limit ∧ limit > 0 then limit else xs.length
  (List.range stop.toNat).mapM fun i => pyIdx xs i

/-- fcm.py:639-652: whether the curve of a concept is drawn.  `"all"` does not look at the type. -/
def isDrawn (nodeType : String) (n : Node α) : Except Err Bool :=
  if nodeType = "target" then do
    let t ← need "type" n.type
    return t == TYPE_DECISION || t == TYPE_REGRESOR
  else if nodeType = "all" then .ok true
  else do
    let t ← need "type" n.type
    return t == nodeType

/-- fcm.py:632-652: the loop over the recorded trajectories. -/
def curves (m : FCM α) (limit : Int) (nodeType : String) : List (String × List α) → Except Err (List (List α))
  | [] => .ok []
  | (c, xs) :: rest => do
    let v ← curve limit xs
    let n ← need c (m.topology.get? c)
    let b ← isDrawn nodeType n
    let vs ← curves m limit nodeType rest
    return if b then v :: vs else vs

/-- fcm.py:630-655 `plot_execution`: the curves in the order they are drawn. -/
def FCM.plotExecution (m : FCM α) (limit : Int := 0) (nodeType : String := "target") : Except Err (List (List α)) :=
  curves m limit nodeType m.execution

/-- networkx `Graph`: undirected, without parallel edges. -/
structure Graph where
  nodes : List String
  edges : List (String × String)
  deriving DecidableEq, Repr

def Graph.addNode (g : Graph) (a : String) : Graph := if a ∈ g.nodes then g else { g with nodes := g.nodes ++ [a] }

/-- `Graph.add_edge`: unknown ends are added; joining two joined nodes again changes nothing. -/
def Graph.addEdge (g : Graph) (a b : String) : Graph :=
  let g := (g.addNode a).addNode b
  if (a, b) ∈ g.edges ∨ (b, a) ∈ g.edges then g else { g with edges := g.edges ++ [(a, b)] }

/-- fcm.py:657-664 `plot_topology`: the graph that is drawn. -/
def FCM.plotTopology (m : FCM α) : Graph :=
  m.topology.foldl (fun g p => p.2.arcs.foldl (fun g a => g.addEdge p.1 a.1) g)
    (m.topology.keys.foldl Graph.addNode ⟨[], []⟩)

end PyFCM
