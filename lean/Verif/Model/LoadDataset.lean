import Verif.Model.Datasets
/-
Model of `load_dataset` (py_fcm/utils/__init__.py:8-89) for both file formats and with recoding.  A value of a column
is of an arbitrary type `β`; `kind` is what `type(v)` says about it, `missing` whether pandas takes it for a missing value
(`None`).  Not modelled: printing, values that cannot be hashed (`[1]`), index labels, dtype inference.
-/
namespace PyFCM
open Arith

/-- utils/__init__.py:74, 77: `type(v) == str`, `type(v) == int`, anything else (a `bool` is not an `int` here). -/
inductive ValueKind where
  | text
  | int
  | other
  deriving DecidableEq, Repr

/-- A cell of the loaded frame: the value that was read or the code that replaced it. -/
inductive Entry (β : Type) where
  | val (v : β)
  | code (n : Int)
  deriving DecidableEq, Repr

/-- `pandas.factorize`: a missing value gets the code -1 and is not listed among the distinct values. -/
def factorizeNa {β : Type} [DecidableEq β] (missing : β → Bool) (c : List β) : List Int × List β :=
  let us := (factorize (c.filter fun v => !missing v)).2
  (c.map fun v => if missing v then -1 else (us.idxOf v : Int), us)

/-- utils/__init__.py:74-80: one column; the type of its first value decides (an empty column raises `IndexError`). -/
def recodeColumn {α β : Type} [Arith α] [DecidableEq β] (kind : β → ValueKind) (missing : β → Bool) (maxInt : Nat)
    (factor : α) (c : List β) : Except Err (List (Entry β)) :=
  match c with
  | [] => .error .indexError
  | v :: _ =>
    match kind v with
    | .text => .ok ((factorizeNa missing c).1.map .code)
    | .int =>
      let r := factorizeNa missing c
      if r.2.length ≤ maxInt || (lit (r.2.length : Int) : α) / lit (r.1.length : Int) <? factor then .ok (r.1.map .code)
      else .ok (c.map .val)
    | .other => .ok (c.map .val)

/-- utils/__init__.py:73-80 -/
def recodeAll {α β : Type} [Arith α] [DecidableEq β] (kind : β → ValueKind) (missing : β → Bool) (maxInt : Nat) (factor : α) :
    Dict (List β) → Except Err (Dict (List (Entry β)))
  | [] => .ok []
  | (k, c) :: rest => do
    let c' ← recodeColumn kind missing maxInt factor c
    let rest' ← recodeAll kind missing maxInt factor rest
    return (k, c') :: rest'

/-- utils/__init__.py:23-28: one row of an arff file.  `eval` is `ast.literal_eval` of a decoded value (`none` when it
raises, as it does for numbers).  A row that is too short raises `IndexError`. -/
def arffRow {β : Type} (eval : β → Option β) :
    List String → List β → Dict (List β) → String → Except Err (Dict (List β) × String)
  | [], _, d, last => .ok (d, last)
  | _ :: _, [], _, _ => .error .indexError
  | a :: as, v :: vs, d, last =>
    match eval v with
    | some w => arffRow eval as vs (d.modify a (· ++ [w])) a
    | none => arffRow eval as vs (d.modify a (· ++ [v])) last

/-- utils/__init__.py:22-28 -/
def arffRows {β : Type} (eval : β → Option β) (atts : List String) :
    List (List β) → Dict (List β) → String → Except Err (Dict (List β) × String)
  | [], d, last => .ok (d, last)
  | r :: rs, d, last => do
    let (d, last) ← arffRow eval atts r d last
    arffRows eval atts rs d last

/-- What can be read from a path: the lines of the file (`none`: it cannot be opened) and what `arff.loads` makes of its
text (names and rows; `none`: it raises). -/
structure DataFile (β : Type) where
  lines : Option (List String)
  arff : Option (List String × List (List β))

/-- utils/__init__.py:11-12 `path.split(sep)[-1]` -/
def lastPart (sep s : String) : String := (pySplit sep s).getLastD ""

/-- utils/__init__.py:16-54: the columns and the name of the last column with a literal. -/
def readColumns {β : Type} (parse : String → Option β) (text : String → β) (eval : β → Option β) (ext : String)
    (file : DataFile β) : Except Err (Dict (List β) × String) :=
  if ext = "arff" then
    match file.lines, file.arff with
    | some _, some (atts, rows) => arffRows eval atts rows (emptyCols atts []) ""
    | _, _ => .error (.exc "cannot be read")
  else if ext = "csv" then
    match file.lines.map (List.map pyStrip) with
    | some (header :: rows) =>
      let atts := pySplit "," header
      csvRowsStrict parse text atts rows (emptyCols atts []) ""
    | _ => .error .indexError
  else .error (.exc "no known extension")

/-- utils/__init__.py:72-87: recoding and the data frame; errors are reported with the name of the file. -/
def finishLoad {α β : Type} [Arith α] [DecidableEq β] (kind : β → ValueKind) (missing : β → Bool) (recode : Bool) (maxInt : Nat)
    (factor : α) (name : String) (d : Dict (List β)) : Except Err (Dict (List (Entry β))) :=
  let cols := if recode then recodeAll kind missing maxInt factor d else .ok (d.map fun p => (p.1, p.2.map .val))
  match cols with
  | .error _ => .error (.exc (name ++ " list index out of range"))
  | .ok d => do
    let f ← dataFrame name d
    return dropDuplicates f

/-- utils/__init__.py:8-89 `load_dataset`. -/
def loadDataset {α β : Type} [Arith α] [DecidableEq β] (parse : String → Option β) (text : String → β)
    (eval : β → Option β) (kind : β → ValueKind) (missing : β → Bool) (recode : Bool) (maxInt : Nat) (factor : α)
    (path : String) (file : DataFile β) : Except Err (Dict (List (Entry β))) :=
  let name := lastPart "/" path
  match readColumns parse text eval (lastPart "." name) file with
  | .error _ => .error (.exc "Unknown dataset format")
  | .ok (d, last) => do
    let _ ← summaryColumn d last
    finishLoad kind missing recode maxInt factor name d

end PyFCM
