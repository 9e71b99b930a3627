import Verif.Model.LoadDataset
/-
Small specification of what `load_dataset` makes of the rows of a file.
-/
namespace PyFCM.Spec
open Arith

variable {α β : Type} [Arith α] [DecidableEq β]

/-- Column `j` of a list of rows. -/
def column (rows : List (List β)) (j : Nat) : List β := rows.filterMap (·[j]?)

/-- The number of different values that are present. -/
def distinct (missing : β → Bool) (c : List β) : Nat := (c.filter fun v => !missing v).eraseDups.length

/-- The code of a value: how many different values occur in the column before it does; -1 for a missing value. -/
def code (missing : β → Bool) (c : List β) (v : β) : Int :=
  if missing v then -1 else (distinct missing (c.takeWhile fun u => u ≠ v) : Int)

/-- Is the column recoded?  Its first value is a text, or an integer and there are few different values. -/
def coded (kind : β → ValueKind) (missing : β → Bool) (maxInt : Nat) (factor : α) (c : List β) : Bool :=
  match c.head? with
  | none => false
  | some v => kind v = .text || (kind v = .int &&
      (decide (distinct missing c ≤ maxInt) || (lit (distinct missing c : Int) : α) / lit (c.length : Int) <? factor))

/-- The rows with the recoded columns replaced. -/
def recoded (kind : β → ValueKind) (missing : β → Bool) (maxInt : Nat) (factor : α) (rows : List (List β)) :
    List (List (Entry β)) :=
  rows.map fun r => r.mapIdx fun j v =>
    if coded kind missing maxInt factor (column rows j) then .code (code missing (column rows j) v) else .val v

/-- The rows of the frame before repeated rows are dropped. -/
def entries (kind : β → ValueKind) (missing : β → Bool) (recode : Bool) (maxInt : Nat) (factor : α) (rows : List (List β)) :
    List (List (Entry β)) :=
  if recode then recoded kind missing maxInt factor rows else rows.map (List.map .val)

/-- The extension of a path is what follows its last `.` or `/` (the whole path if it has neither). -/
def Extension (path e : String) : Prop :=
  ('.' ∉ e.toList ∧ '/' ∉ e.toList) ∧ (path = e ∨ ∃ a, path = a ++ "." ++ e ∨ path = a ++ "/" ++ e)

end PyFCM.Spec
