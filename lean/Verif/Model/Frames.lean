import Verif.Model.Association
/-
Model of the input layer of py_fcm/fcm_estimator.py: `__to_data_frame`, `__validate_dual_input` and the tables that
`fit`, `predict` and `score` accept.

pandas and numpy are reduced to what these functions use: a data frame is a list of named typed columns with the index
0..n-1, a numpy array is a typed buffer of one or two dimensions.  Not modelled: frames with another index, series
without a name, arrays of more dimensions or of dtype object, an `x` and a `y` of different lengths (`join` would fill
up with NaN).
-/
namespace PyFCM
open Arith

variable {α : Type} [Arith α]

/-- A numpy array: one dimension, or two dimensions as a buffer in row order. -/
inductive NdArray (α : Type) where
  | one (buf : Column α)
  | two (width : Nat) (buf : Column α)
  deriving Repr

/-- fcm_estimator.py:42-56, 58-68: what a client may pass as a table. -/
inductive Table (α : Type) where
  /-- pandas `DataFrame` -/
  | frame (cols : List (String × Column α))
  /-- `dict` of columns -/
  | dict (cols : List (String × Column α))
  /-- list of rows -/
  | rows (rs : List (List (Cell α)))
  /-- list of scalars -/
  | flat (cells : List (Cell α))
  | array (a : NdArray α)
  /-- pandas `Series` -/
  | series (name : String) (col : Column α)
  /-- any other object; `some n`: it has an attribute `shape` with `shape[1] = n` -/
  | other (shape : Option Nat)
  deriving Repr

/-- The cells of a column. -/
def Column.cells : Column α → List (Cell α)
  | .strs xs => xs.map .str
  | .bools xs => xs.map .bool
  | .ints xs => xs.map .int
  | .floats xs => xs.map .float

def Cell.isStr : Cell α → Bool
  | .str _ => true
  | _ => false
def Cell.isFloat : Cell α → Bool
  | .float _ => true
  | _ => false
def Cell.isInt : Cell α → Bool
  | .int _ => true
  | _ => false

/-- numpy conversion of a scalar that is not a text to int64 (only called on truth values and integers). -/
def Cell.toInt : Cell α → Int
  | .bool b => if b then 1 else 0
  | .int i => i
  | _ => 0
/-- numpy conversion of a scalar that is not a text to float64. -/
def Cell.toFloat : Cell α → α
  | .bool b => lit (if b then 1 else 0)
  | .int i => lit i
  | .float v => v
  | .str _ => lit 0
/-- Only called on truth values. -/
def Cell.toBool : Cell α → Bool
  | .bool b => b
  | _ => false

/-- `np.array(cells)`, fcm_estimator.py:46, 60: one dtype for all cells, text before float before int before bool; the
empty array is float64. -/
def npArray (x : Ext α) (cells : List (Cell α)) : Column α :=
  if cells.any Cell.isStr then .strs (cells.map (Cell.text x))
  else if cells.any Cell.isFloat || cells.isEmpty then .floats (cells.map Cell.toFloat)
  else if cells.any Cell.isInt then .ints (cells.map Cell.toInt)
  else .bools (cells.map Cell.toBool)

/-- `np.array(rows)`, fcm_estimator.py:46, 60: rows of different lengths are refused; the empty list has one dimension. -/
def npMatrix (x : Ext α) : List (List (Cell α)) → Except Err (NdArray α)
  | [] => .ok (.one (npArray x []))
  | r :: rs =>
    if rs.all (fun r' => r'.length == r.length) then .ok (.two r.length (npArray x (r :: rs).flatten))
    else .error .valueError

/-- The entries at the given positions. -/
def pickAt {β : Type} (idx : List Nat) (xs : List β) : List β := idx.filterMap fun i => xs[i]?
def Column.pickAt (idx : List Nat) : Column α → Column α
  | .strs xs => .strs (PyFCM.pickAt idx xs)
  | .bools xs => .bools (PyFCM.pickAt idx xs)
  | .ints xs => .ints (PyFCM.pickAt idx xs)
  | .floats xs => .floats (PyFCM.pickAt idx xs)
def Column.size : Column α → Nat
  | .strs xs => xs.length
  | .bools xs => xs.length
  | .ints xs => xs.length
  | .floats xs => xs.length

/-- Column `j` of a two-dimensional array with `w` columns. -/
def Column.stride (w j : Nat) (buf : Column α) : Column α :=
  buf.pickAt ((List.range (buf.size / w)).map fun i => i * w + j)

/-- fcm_estimator.py:48-53: the columns of an array are named by their positions, counted from `start`. -/
def NdArray.toFrame (start : Nat) : NdArray α → List (String × Column α)
  | .one buf => [(toString start, buf)]
  | .two w buf => (List.range w).map fun i => (toString (i + start), buf.stride w i)

/-- fcm_estimator.py:59-60, 45-46: lists become arrays. -/
def Table.listToArray (x : Ext α) : Table α → Except Err (Table α)
  | .rows rs => do
    let a ← npMatrix x rs
    return .array a
  | .flat cs => .ok (.array (.one (npArray x cs)))
  | t => .ok t

/-- Python's `AttributeError`. -/
def attributeError : Err := .exc "AttributeError"

/-- fcm_estimator.py:61 `x.shape[1]`. -/
def Table.width : Table α → Except Err Nat
  | .frame cols => .ok cols.length
  | .array (.two w _) => .ok w
  | .array (.one _) => .error .indexError
  | .series _ _ => .error .indexError
  | .other (some n) => .ok n
  | .other none => .error attributeError
  | .dict _ => .error attributeError
  | .rows _ => .error attributeError
  | .flat _ => .error attributeError

/-- fcm_estimator.py:42-56 `__to_data_frame`; `none`: the object is passed on as it is. -/
def Table.toFrame (x : Ext α) (start : Nat) (t : Table α) : Except Err (Option (List (String × Column α))) :=
  match t with
  | .frame cols => .ok (some cols)
  | .dict cols => .ok (some cols)
  | .rows rs => do
    let a ← npMatrix x rs
    return some (a.toFrame start)
  | .flat cs => .ok (some ((NdArray.one (npArray x cs)).toFrame start))
  | .array a => .ok (some (a.toFrame start))
  | .series name col => .ok (some [(name, col)])
  | .other _ => .ok none

def notFrame (v : String) : Err :=
  .exc ("Cannot load provided " ++ v ++ " structure, please use a pandas DataFrame like object.")

def asFrame (v : String) : Option (List (String × Column α)) → Except Err (List (String × Column α))
  | some cols => .ok cols
  | none => .error (notFrame v)

/-- fcm_estimator.py:58-68 `__validate_dual_input`. -/
def validateDual (ext : Ext α) (x y : Table α) :
    Except Err (List (String × Column α) × List (String × Column α)) := do
  let x ← x.listToArray ext
  let maxCol ← x.width
  let x ← x.toFrame ext 0
  let y ← y.toFrame ext maxCol
  let x ← asFrame "x" x
  let y ← asFrame "y" y
  return (x, y)

/-- fcm_estimator.py:70-80 `fit`. -/
def Estimator.fitTable (cfg : GenConf α) (ext : Ext α) (x y : Table α) : PyM (Estimator α) Unit := fun e =>
  match validateDual ext x y with
  | .error err => (.error err, e)
  | .ok (x, y) => Estimator.fit cfg ext x y e

/-- A column without texts and truth values. -/
def Column.isNumber : Column α → Bool
  | .ints _ => true
  | .floats _ => true
  | _ => false
def Column.isFloats : Column α → Bool
  | .floats _ => true
  | _ => false

/-- `x.iterrows()`, fcm_estimator.py:89: a row is a series, so integers become floats when all columns are numbers and
one of them is a float column. -/
def Column.rowCells (cols : List (String × Column α)) (c : Column α) : List (Cell α) :=
  if cols.all (fun p => p.2.isNumber) && cols.any (fun p => p.2.isFloats) then c.cells.map (fun v => .float v.toFloat)
  else c.cells

/-- fcm_estimator.py:89-92: the rows of a frame with the name of the column beside each cell. -/
def frameRows (cols : List (String × Column α)) : List (List (String × Cell α)) :=
  match cols with
  | [] => []
  | p :: _ => (List.range p.2.size).map fun i =>
    cols.filterMap fun q => (Column.rowCells cols q.2)[i]?.map fun v => (q.1, v)

/-- fcm_estimator.py:82-99 `predict`. -/
def Estimator.predictTable (cfg : GenConf α) (ext : Ext α) (x : Table α) : PyM (Estimator α) (List (Dict Label)) := fun e =>
  match x.toFrame ext 0 with
  | .error err => (.error err, e)
  | .ok none => (.error (notFrame "x"), e)
  | .ok (some cols) => Estimator.predict cfg ext (frameRows cols) e

/-- fcm_estimator.py:101-117 `score`. -/
def Estimator.scoreTable (cfg : GenConf α) (ext : Ext α) (x y : Table α) : PyM (Estimator α) α := fun e =>
  if e.generated then
    match validateDual ext x y with
    | .error err => (.error err, e)
    | .ok (x, y) => Estimator.score cfg ext (frameRows x) (y.map fun p => (p.1, p.2.cells)) e
  else (.error notFitted, e)

end PyFCM
