import Verif.Model.Association
import Verif.Model.Clustering
/-
The generator with the library's own discretization.
-/
namespace PyFCM
open Arith

variable {α : Type} [Arith α]

/-- association.py:63-66: the discretization as the generator calls it.  Memberships that are None cannot be indexed
(line 72). -/
def Ext.withDisc (env : ClusterEnv α) (maxClusters maxiter : Nat) (strategy : String) (x : Ext α) : Ext α :=
  { x with disc := fun feat vals => do
      let r ← discretize env maxClusters maxiter strategy feat vals
      match r.2.2 with
      | some u => .ok (r.1, r.2.1, u)
      | none => .error .typeError }

/-- discretization/__init__.py:49: the default limits, which the generator does not change. -/
def Ext.standard (env : ClusterEnv α) (strategy : String) (x : Ext α) : Ext α := x.withDisc env 7 200 strategy

end PyFCM
