import Verif.Model.Functions
/-
Model of py_fcm/learning/utils.py:1-30 (the clustering helpers of that file are in Model/Clustering).
-/
namespace PyFCM
open Arith

variable {α : Type} [Arith α]

/-! ### learning/utils.py -/

/-- utils.py:6-14 `gen_discrete_feature_matrix`: row per distinct value, column per sample. -/
def genDiscreteMatrix {β : Type} (eq : β → β → Bool) (vals uniq : List β) : List (List α) :=
  uniq.map fun u => vals.map fun v => if eq v u then lit 1 else lit 0

/-- The four coefficients `(a_b, a_nb, na_b, na_nb)`. -/
structure Coef (α : Type) where
  pq : α
  pnq : α
  npq : α
  npnq : α
  deriving Repr, DecidableEq

/-- utils.py:20-28: the accumulation loop. -/
def coefLoop : List α → List α → Coef α → Coef α
  | x :: xs, y :: ys, c =>
    coefLoop xs ys ⟨c.pq + x * y, c.pnq + x * (lit 1 - y), c.npq + (lit 1 - x) * y,
      c.npnq + (lit 1 - x) * (lit 1 - y)⟩
  | _, _, c => c

/-- utils.py:18-30 `calc_concepts_coefficient`: `None` for different lengths. -/
def calcCoef (a b : List α) : Option (Coef α × Coef α) :=
  if a.length = b.length then
    let c := coefLoop a b ⟨lit 0, lit 0, lit 0, lit 0⟩
    some (c, ⟨c.pq, c.npq, c.pnq, c.npnq⟩)
  else none

/-- `np.unique`: sorted distinct values for the strict order `lt`. -/
def insertUniq {β : Type} (lt : β → β → Bool) (x : β) : List β → List β
  | [] => [x]
  | y :: ys => if lt x y then x :: y :: ys else if lt y x then y :: insertUniq lt x ys else y :: ys
def uniq {β : Type} (lt : β → β → Bool) : List β → List β
  | [] => []
  | x :: xs => insertUniq lt x (uniq lt xs)

/-- Keep the entries at the marked positions: rl_fuzzy_cmeans.py:71-76, and pandas' `drop_duplicates`
(load_dataset.py, see `Model/Datasets`). -/
def keepAt {β : Type} : List Bool → List β → List β
  | b :: bs, x :: xs => if b then x :: keepAt bs xs else keepAt bs xs
  | _, _ => []

end PyFCM
