import Verif.Model.Join
import Verif.Model.LearnUtils
/-
Model of `load_csv_dataset` (py_fcm/__init__.py:7-46) and of the csv branch of `load_dataset`
(py_fcm/utils/__init__.py:8-89).  The file is the list of its lines.  A data frame is the ordered dictionary of its
columns.  The other branches of `load_dataset` are in
LoadDataset.lean.  Not modelled: printing, the index labels of a data frame, dtype inference.
-/
namespace PyFCM
open Arith

/-- `line.strip()` on the whitespace characters of a text line (ASCII). -/
def isPySpace (c : Char) : Bool := c = ' ' || c = '\t' || c = '\n' || c = '\r' || c = '\x0b' || c = '\x0c'
def pyStrip (s : String) : String :=
  String.ofList ((s.toList.dropWhile isPySpace).reverse.dropWhile isPySpace).reverse

/-- `data_dict[att].append(v)` for every field of a row (__init__.py:26-29). -/
def appendRow {β : Type} : List String → List β → Dict (List β) → Dict (List β)
  | a :: as, v :: vs, d => appendRow as vs (d.modify a (· ++ [v]))
  | _, _, d => d

/-- __init__.py:17-18 -/
def emptyCols {β : Type} : List String → Dict (List β) → Dict (List β)
  | [], d => d
  | a :: as, d => emptyCols as (d.set a [])

/-- __init__.py:21-32: rows with another number of fields are skipped. -/
def csvRows (atts : List String) : List String → Dict (List String) → Dict (List String)
  | [], d => d
  | l :: ls, d =>
    let fields := pySplit "," l
    csvRows atts ls (if fields.length = atts.length then appendRow atts fields d else d)

/-- __init__.py:35-41: `pandas.DataFrame` of a dict of lists requires equal lengths. -/
def dataFrame {β : Type} (name : String) (d : Dict (List β)) : Except Err (Dict (List β)) :=
  match d with
  | [] => .ok []
  | (_, c) :: rest =>
    if rest.all (fun p => p.2.length == c.length) then .ok d
    else .error (.exc (name ++ " All arrays must be of the same length"))

/-- Row `i` of a data frame. -/
def rowAt {β : Type} (d : Dict (List β)) (i : Nat) : List (Option β) := d.map fun p => p.2[i]?

/-- Number of rows of a data frame. -/
def frameLen {β : Type} : Dict (List β) → Nat
  | [] => 0
  | (_, c) :: _ => c.length

/-- __init__.py:36, utils/__init__.py:81 `DataFrame.drop_duplicates()`: of equal rows the first is kept (equality of
cells as Lean equality; the result keeps the original index labels, which are not modelled). -/
def dropDuplicates {β : Type} [DecidableEq β] (d : Dict (List β)) : Dict (List β) :=
  let keep := (List.range (frameLen d)).map fun i => decide (rowAt d i ∉ (List.range i).map (rowAt d))
  d.map fun p => (p.1, keepAt keep p.2)

/-- `pandas.factorize`: codes in order of first appearance and the distinct values; `us` are the values seen so far. -/
def factorizeLoop {β : Type} [DecidableEq β] : List β → List β → List Nat × List β
  | [], us => ([], us)
  | x :: xs, us =>
    if x ∈ us then
      let r := factorizeLoop xs us
      (us.idxOf x :: r.1, r.2)
    else
      let r := factorizeLoop xs (us ++ [x])
      (us.length :: r.1, r.2)
def factorize {β : Type} [DecidableEq β] (xs : List β) : List Nat × List β := factorizeLoop xs []

/-- __init__.py:7-37 `load_csv_dataset` up to the data frame (factorize=False). -/
def loadCsv (name : String) (lines : List String) : Except Err (Dict (List String)) :=
  match lines.map pyStrip with
  | [] => .error .indexError
  | header :: rows => do
    let atts := pySplit "," header
    let d ← dataFrame name (csvRows atts rows (emptyCols atts []))
    return dropDuplicates d

/-- __init__.py:43-46 `load_csv_dataset` with factorize=True: the columns are replaced by their codes. -/
def loadCsvCodes (name : String) (lines : List String) : Except Err (Dict (List Nat)) := do
  let d ← loadCsv name lines
  return d.map fun p => (p.1, (factorize p.2).1)

/-- utils/__init__.py:43-50: one row.  `parse` is `ast.literal_eval` (`none` when it raises), `text` keeps the field
as a string.  `last` is the variable `last_feat`: the last column whose field was a literal. -/
def strictRow {β : Type} (parse : String → Option β) (text : String → β) :
    List String → List String → Dict (List β) → String → Dict (List β) × String
  | a :: as, f :: fs, d, last =>
    match parse f with
    | some v => strictRow parse text as fs (d.modify a (· ++ [v])) a
    | none => strictRow parse text as fs (d.modify a (· ++ [text f])) last
  | _, _, d, last => (d, last)

/-- utils/__init__.py:38-53: a row with another number of fields aborts. -/
def csvRowsStrict {β : Type} (parse : String → Option β) (text : String → β) (atts : List String) :
    List String → Dict (List β) → String → Except Err (Dict (List β) × String)
  | [], d, last => .ok (d, last)
  | l :: ls, d, last =>
    let fields := pySplit "," l
    if fields.length = atts.length then
      let r := strictRow parse text atts fields d last
      csvRowsStrict parse text atts ls r.1 r.2
    else .error (.exc "Errors in line")

/-- utils/__init__.py:59-66: the class column (only for the printed summary), else the column `last_feat`; a missing
column raises `KeyError`. -/
def summaryColumn {β : Type} (d : Dict (List β)) (last : String) : Except Err (List β) :=
  match d.get? "class" with
  | some c => .ok c
  | none => need last (d.get? last)

/-- utils/__init__.py:8-89 `load_dataset` for a csv file with factorize=False: any error while reading ends in "Unknown
dataset format". -/
def loadDatasetCsv {β : Type} [DecidableEq β] (parse : String → Option β) (text : String → β) (name : String)
    (lines : List String) : Except Err (Dict (List β)) :=
  match lines.map pyStrip with
  | [] => .error (.exc "Unknown dataset format")
  | header :: rows =>
    let atts := pySplit "," header
    match csvRowsStrict parse text atts rows (emptyCols atts []) "" with
    | .error _ => .error (.exc "Unknown dataset format")
    | .ok (d, last) => do
      let _ ← summaryColumn d last
      let f ← dataFrame name d
      return dropDuplicates f

end PyFCM
