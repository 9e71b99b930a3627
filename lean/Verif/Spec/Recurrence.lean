import Verif.Model.Arith
/-
Specification: the synchronous FCM recurrence, independent of how the library stores or loops over a map.
-/
namespace PyFCM.Spec
open PyFCM

variable {α : Type} [Arith α]

/-- What the recurrence needs to know about a concept. -/
structure Concept (α : Type) where
  /-- does it influence its neighbours? -/
  active : Bool
  /-- is its value rescaled from [0,1] to [-1,1] (Papageorgiou)? -/
  rescale : Bool
  /-- does it remember its previous value? -/
  memory : Bool
  /-- its input is divided by this (fuzzy concepts) -/
  divisor : Option α
  /-- its activation function (which may reject an input) -/
  act : α → Except Err α

/-- A relation. -/
structure Rel (α : Type) where
  origin : String
  dest : String
  weight : α

/-- A map: concepts by name, and relations. -/
structure Net (α : Type) where
  concept : String → Option (Concept α)
  rels : List (Rel α)

/-- The value a concept contributes: `A`, or `2A - 1` when rescaled. -/
def source (k : Concept α) (a : α) : α := if k.rescale then lit 2 * a - lit 1 else a

/-- What concept `c` receives along one relation, if anything. -/
def along (N : Net α) (A : String → α) (c : String) (r : Rel α) : Option α :=
  if r.dest = c then
    match N.concept r.origin with
    | some o => if o.active then some (source o (A r.origin) * r.weight) else none
    | none => none
  else none

/-- The list of inputs of `c`. -/
def inputs (N : Net α) (A : String → α) (c : String) : List α := N.rels.filterMap (along N A c)

/-- Left-to-right sum. -/
def total (xs : List α) : α := xs.foldl (· + ·) (lit 0)

/-- The next value of `c` when the activations are `A`; `none` if `c` is unknown. -/
def next (N : Net α) (A : String → α) (c : String) : Option (Except Err α) :=
  (N.concept c).map fun k =>
    let s := total (inputs N A c)
    let s := if k.memory then s + source k (A c) else s
    match k.divisor with
    | none => k.act s
    | some d => if Arith.eq d (lit 0) then .error .zeroDivision else k.act (s / d)

/-- Activation of `d` at step `t` of the trajectories `traj`. -/
def at' (traj : String → List α) (t : Nat) (d : String) : α := (traj d).getD t (lit 0)

/-- `traj` is a run of the recurrence of length `len` for the concepts `cs`. -/
def IsRun (N : Net α) (cs : List String) (traj : String → List α) (len : Nat) : Prop :=
  ∀ c ∈ cs, (traj c).length = len ∧
    ∀ t, t + 1 < len → next N (at' traj t) c = some (.ok (at' traj (t + 1) c))

end PyFCM.Spec
