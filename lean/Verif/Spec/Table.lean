import Verif.Model.Datasets
/-
Small specification of tables read from comma-separated text.
-/
namespace PyFCM.Spec

/-- The fields of a line are the texts between its commas. -/
def Fields (line : String) (fields : List String) : Prop :=
  fields ≠ [] ∧ (∀ f ∈ fields, ',' ∉ f.toList) ∧ ",".intercalate fields = line

/-- `d` has one column per name of `atts`, and the column of name `j` lists field `j` of the rows, in order. -/
def Table {β : Type} (atts : List String) (rows : List (List β)) (d : Dict (List β)) : Prop :=
  d.map (·.1) = atts ∧ ∀ (j : Nat) (a : String), atts[j]? = some a →
    ∃ c, Dict.get? d a = some c ∧ c.map some = rows.map (·[j]?)

end PyFCM.Spec
