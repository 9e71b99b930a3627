import Verif.Model.Py
/-
Model of py_fcm/utils/functions.py and py_fcm/utils/__const.py (everything except the vectorised engine and
the sort, which have their own files).
-/
namespace PyFCM
open Arith

variable {α : Type} [Arith α]

/-! ### py_fcm/utils/__const.py -/

/-- __const.py:45 -/
def TYPE_SIMPLE := "default node type"
/-- __const.py:46 -/
def TYPE_DECISION := "node type for classification problems"
/-- __const.py:47 -/
def TYPE_FUZZY := "node type for fuzzy treatment of continuous values"
/-- __const.py:48 -/
def TYPE_REGRESOR := "node type for regression problems"
/-- __const.py:49 -/
def TYPE_MUTI := "node type for multivalues fields"
/-- __const.py:50 -/
def TYPE_MUTI_DESC := "node type for multivalues fields in decision nodes"

/-- __const.py:53-61 `is_valid_type`. -/
def isValidType (t : String) : Bool :=
  [TYPE_SIMPLE, TYPE_DECISION, TYPE_FUZZY, TYPE_REGRESOR, TYPE_MUTI, TYPE_MUTI_DESC].contains t

/-- __const.py:2-18: the function ids. -/
def FUNC_SATURATION : Nat := 0
def FUNC_BISTATE : Nat := 1
def FUNC_THREESTATE : Nat := 2
def FUNC_SIGMOID : Nat := 3
def FUNC_SIGMOID_HIP : Nat := 4
def FUNC_FUZZY : Nat := 5
def FUNC_GCEQ : Nat := 6
def FUNC_LCEQ : Nat := 7
def FUNC_RELM : Nat := 8

/-! ### activation functions (functions.py:132-287)

All are `@njit`, so scalar division by zero raises. -/

/-- functions.py:133-134 -/
def sigmoid (val lambda : α) : Except Err α :=
  pdiv (lit 1) (lit 1 + exp (lit (-1) * lambda * val))

/-- functions.py:138-140 -/
def sigmoidLambda (x y : α) : Except Err α := do
  let q ← pdiv (lit 1) y
  let r ← pdiv (log (q - lit 1)) x
  return -r

/-- functions.py:144-149 -/
def sigmoidHip (val lambda : α) : Except Err α :=
  if lit 500 <? lit (-1) * lambda * val then
    pdiv (lit 1 - exp (lit 500)) (lit 1 + exp (lit 500))
  else
    pdiv (lit 1 - exp (lit (-1) * lambda * val)) (lit 1 + exp (lit (-1) * lambda * val))

/-- functions.py:153-155 -/
def sigmoidHipLambda (x y : α) : Except Err α := do
  let q ← pdiv (lit 1 - y) (lit 1 + y)
  let r ← pdiv (log q) x
  return -r

/-- functions.py:159-165 -/
def relm (val lambda : α) : Except Err α :=
  if val <? lit 0 then .ok (lit 0)
  else do
    let res ← pdiv val lambda
    if lit 1 <? res then return lit 1
    return res

/-- functions.py:169-175 -/
def saturation (val : α) : α :=
  if val <? lit 0 then lit 0
  else if lit 1 <? val then lit 1
  else val

/-- functions.py:179-182 -/
def bistate (val : α) : α :=
  if val ≤? lit 0 then lit 0 else lit 1

/-- functions.py:186-191 -/
def threestate (val : α) : α :=
  if val ≤? lit 1 / lit 3 then lit 0
  else if val ≤? lit 2 / lit 3 then dec 1 2
  else lit 1

/-- functions.py:195-202 -/
def gceq (val weight : α) : α :=
  if weight ≤? val then
    if lit 1 <? val then lit 1
    else if val <? lit (-1) then lit (-1)
    else val
  else lit 0

/-- functions.py:206-213 -/
def lceq (val weight : α) : α :=
  if val ≤? weight then
    if lit 1 <? val then lit 1
    else if val <? lit (-1) then lit (-1)
    else val
  else lit 0

/-- The binary search of numba's `np.searchsorted(a, v)` (side='left'), used at functions.py:230: the loop over
`lo`, `hi`.  `fuel` bounds the number of rounds (`a.size` rounds always suffice).  Simplification: numba treats
`v = NaN` separately. -/
def searchLoop (a : List α) (v : α) : Nat → Nat → Nat → Nat
  | 0, lo, _ => lo
  | fuel + 1, lo, hi =>
    if lo < hi then
      let mid := (lo + hi) / 2
      match a[mid]? with
      | some x => if x <? v then searchLoop a v fuel (mid + 1) hi else searchLoop a v fuel lo mid
      | none => lo
    else lo

def searchSorted (a : List α) (v : α) : Nat := searchLoop a v a.length 0 a.length

/-- functions.py:263-266: `1` for `0`, else `value / abs(value)`. -/
def signOf (value : α) : Except Err α :=
  if value =? lit 0 then .ok (lit 1) else pdiv value (abs value)

/-- functions.py:263-287: the interpolation between positions `prev` and `next`. -/
def fuzzyInterp (neg : Bool) (value : α) (membership valList : List α) (prev next : Nat) : Except Err α := do
  let sign ← signOf value
  let value := abs value
  let infE ← njIdx membership prev
  let supE ← njIdx membership next
  let vp ← njIdx valList prev
  let vn ← njIdx valList next
  let diff := vn - vp
  let a ← pdiv (value - vp) diff
  let infC := lit 1 - a
  let b ← pdiv (vn - value) diff
  let supC := lit 1 - b
  let est := sign * ((infC * infE) + (supC * supE))
  if neg then
    return lit (-1) * (lit 1 - est)
  else
    let est := if lit 1 <? est then lit 1 else est
    let est := if est <? lit (-1) then lit (-1) else est
    return est

/-- functions.py:235, 237: value returned at a listed point. -/
def fuzzyAt (neg : Bool) (m : α) : α := if neg then lit (-1) * (lit 1 - m) else m

/-- functions.py:217-287 `fuzzy_set`. -/
def fuzzySet (value0 : α) (membership valList : List α) : Except Err α := do
  let mn ← pymin valList
  let mx ← pymax valList
  let neg := (lit 0 ≤? mn) && (mn ≤? lit 1) && ((lit 0 ≤? mx) && (mx ≤? lit 1)) && (value0 <? lit 0)
  let value := if neg then abs value0 else value0
  let i0 := searchSorted valList value
  let index := if i0 = valList.length then i0 - 1 else i0
  let vi ← njIdx valList index
  if vi =? value then
    let m ← njIdx membership index
    return fuzzyAt neg m
  else if index = 0 then
    if value <? vi then
      let m ← njIdx membership index
      return fuzzyAt neg m
    else fuzzyInterp neg value membership valList 0 1
  else if index = valList.length - 1 then
    if vi <? value then
      let m ← njIdx membership index
      return fuzzyAt neg m
    else fuzzyInterp neg value membership valList (index - 1) index
  else if lit 0 <? value - vi then fuzzyInterp neg value membership valList index (index + 1)
  else fuzzyInterp neg value membership valList (index - 1) index

/-! ### name tables -/

/-- The activation callables. -/
inductive ActFn where
  | bistate | threestate | saturation | sigmoid | sigmoidHip | fuzzy | gceq | lceq | relm
  deriving DecidableEq, Repr, Inhabited

/-- functions.py:322-351 `Activation.get_function_by_name`. -/
def Activation.getFunctionByName (n : String) : Option ActFn :=
  if n = "biestate" then some .bistate
  else if n = "threestate" then some .threestate
  else if n = "saturation" then some .saturation
  else if n = "tan_hip" then some .sigmoidHip
  else if n = "sigmoid" then some .sigmoid
  else if n = "sigmoid_hip" then some .sigmoidHip
  else if n = "fuzzy" then some .fuzzy
  else if n = "gceq" then some .gceq
  else if n = "lceq" then some .lceq
  else if n = "relm" then some .relm
  else none

/-- functions.py:354-383 `Activation.get_const_by_name`. -/
def Activation.getConstByName (n : String) : Option Nat :=
  if n = "biestate" then some FUNC_BISTATE
  else if n = "threestate" then some FUNC_THREESTATE
  else if n = "saturation" then some FUNC_SATURATION
  else if n = "tan_hip" then some FUNC_SIGMOID_HIP
  else if n = "sigmoid" then some FUNC_SIGMOID
  else if n = "sigmoid_hip" then some FUNC_SIGMOID_HIP
  else if n = "relm" then some FUNC_RELM
  else if n = "fuzzy" then some FUNC_FUZZY
  else if n = "gceq" then some FUNC_GCEQ
  else if n = "lceq" then some FUNC_LCEQ
  else none

/-- functions.py:386-403 `Activation.get_function_names`. -/
def Activation.functionNames : List String :=
  ["biestate", "threestate", "saturation", "tan_hip", "sigmoid", "sigmoid_hip", "relm", "gceq", "lceq",
    "proportion"]

/-- functions.py:45-80 `__exec_actv_function`: dispatch on the function id, with the argument *vector*
(`args[0]` is the slope / threshold; for `fuzzy` the first half is the membership, the second the values).
`none` of the branches: Python returns `None`, which numba could not store; modelled as `typeError`. -/
def execActvFunction (id : Nat) (val : α) (args : List α) : Except Err α :=
  if id = FUNC_SATURATION then .ok (saturation val)
  else if id = FUNC_BISTATE then .ok (bistate val)
  else if id = FUNC_THREESTATE then .ok (threestate val)
  else if id = FUNC_GCEQ then
    match args with
    | [] => .ok (gceq val (lit (-1)))
    | a :: _ => .ok (gceq val a)
  else if id = FUNC_LCEQ then
    match args with
    | [] => .ok (lceq val (lit 1))
    | a :: _ => .ok (lceq val a)
  else if id = FUNC_SIGMOID then
    match args with
    | [] => sigmoid val (lit 1)
    | a :: _ => sigmoid val a
  else if id = FUNC_SIGMOID_HIP then
    match args with
    | [] => sigmoidHip val (lit 2)
    | a :: _ => sigmoidHip val a
  else if id = FUNC_RELM then
    match args with
    | [] => relm val (lit 1)
    | a :: _ => relm val a
  else if id = FUNC_FUZZY then
    fuzzySet val (args.take (args.length / 2)) (args.drop (args.length / 2))
  else .error .typeError

/-! ### keyword arguments -/

/-- A keyword-argument value: a number, a numpy array, a Python list or a string. -/
inductive ArgVal (α : Type) where
  | num (x : α)
  | arr (xs : List α)
  | list (xs : List α)
  | str (s : String)
  deriving Repr, Inhabited, DecidableEq

abbrev Args (α : Type) := Dict (ArgVal α)

/-- Keyword call `f(val, **args)` of a function with one optional numeric parameter `p` (default `d`):
an unexpected keyword or a non-numeric value is a `TypeError`. -/
def kw1 (p : String) (d : α) (args : Args α) : Except Err α :=
  match args with
  | [] => .ok d
  | [(k, .num x)] => if k = p then .ok x else .error .typeError
  | _ => .error .typeError

/-- Keyword call of `fuzzy_set`: keywords `membership` and `val_list` must be numpy arrays (numba cannot call
`.min()` on a reflected list).  Simplification: omitting one of them (default `np.empty(1)`, i.e. garbage)
is modelled as `TypeError`. -/
def kwFuzzy (args : Args α) : Except Err (List α × List α) :=
  if args.length = 2 then
    match args.get? "membership", args.get? "val_list" with
    | some (.arr m), some (.arr v) => .ok (m, v)
    | _, _ => .error .typeError
  else .error .typeError

/-- fcm.py:525 `NODE_ACTV_FUNC(exec_val, **NODE_ACTV_FUNC_ARGS)`. -/
def callActv (f : ActFn) (val : α) (args : Args α) : Except Err α :=
  match f with
  | .bistate => match args with
    | [] => .ok (bistate val)
    | _ => .error .typeError
  | .threestate => match args with
    | [] => .ok (threestate val)
    | _ => .error .typeError
  | .saturation => match args with
    | [] => .ok (saturation val)
    | _ => .error .typeError
  | .sigmoid => do let l ← kw1 "lambda_val" (lit 1) args; sigmoid val l
  | .sigmoidHip => do let l ← kw1 "lambda_val" (lit 2) args; sigmoidHip val l
  | .relm => do let l ← kw1 "lambda_val" (lit 1) args; relm val l
  | .gceq => do let w ← kw1 "weight" (lit (-1)) args; return gceq val w
  | .lceq => do let w ← kw1 "weight" (lit 1) args; return lceq val w
  | .fuzzy => do
    let (m, v) ← kwFuzzy args
    fuzzySet val m v

/-! ### Excitation (functions.py:406-464) -/

inductive ExcFn where
  | kosko | papageorgius
  deriving DecidableEq, Repr, Inhabited

/-- functions.py:413-424 `Excitation.kosko`. -/
def Excitation.kosko (aux : List α) (value : α) (useMem : Bool) : α :=
  if useMem then pysum aux + value else pysum aux

/-- functions.py:427-435 `Excitation.papageorgius`. -/
def Excitation.papageorgius (aux : List α) (value : α) (useMem : Bool) : α :=
  if useMem then pysum aux + ((lit 2 * value) - lit 1) else pysum aux

def ExcFn.run : ExcFn → List α → α → Bool → α
  | .kosko => Excitation.kosko
  | .papageorgius => Excitation.papageorgius

/-- functions.py:438-451 -/
def Excitation.getByName (n : String) : Option ExcFn :=
  if n = "KOSKO" then some .kosko
  else if n = "PAPAGEORGIUS" then some .papageorgius
  else none

/-- functions.py:454-464 -/
def Excitation.functionNames : List String := ["KOSKO", "PAPAGEORGIUS", "MEAN"]

/-! ### Decision (functions.py:467-523) -/

/-- functions.py:469-473 `Decision.last`. -/
def Decision.last (vals : List α) (lastPos : Int) : Except Err α :=
  if lastPos > 0 then pyIdx vals lastPos.toNat else pyIdxBack vals 1

/-- functions.py:476-483: the accumulation loop of `Decision.mean`. -/
def Decision.meanSum (vals : List α) : Nat → Except Err α
  | 0 => .ok (lit 0)
  | n + 1 => do
    let acc ← Decision.meanSum vals n
    let x ← pyIdx vals n
    return acc + x

/-- functions.py:476-483 `Decision.mean`. -/
def Decision.mean (vals : List α) (lastPos0 : Int) : Except Err α := do
  let lastPos : Int := if lastPos0 ≤ 0 then (vals.length : Int) - 1 else lastPos0
  let s ← Decision.meanSum vals (lastPos + 1).toNat
  if lastPos + 1 = 0 then .error .zeroDivision else return s / lit (lastPos + 1)

/-- functions.py:486-492 `Decision.exited`. -/
def Decision.exited (vals : List α) (lastPos : Int) : Except Err α :=
  if lastPos ≥ 0 then pymax (vals.take lastPos.toNat) else pymax vals

inductive DecFn where
  | last | mean | exited
  deriving DecidableEq, Repr, Inhabited

def DecFn.run : DecFn → List α → Int → Except Err α
  | .last => Decision.last
  | .mean => Decision.mean
  | .exited => Decision.exited

/-- functions.py:495-510 -/
def Decision.getByName (n : String) : Option DecFn :=
  if n = "LAST" then some .last
  else if n = "MEAN" then some .mean
  else if n = "EXITED" then some .exited
  else none

/-- functions.py:513-523 -/
def Decision.functionNames : List String := ["LAST", "MEAN", "EXITED"]

/-! ### Fuzzy.fuzzyfication (functions.py:544-603) -/

/-- State of the search loop functions.py:560-580. -/
structure FzState (α : Type) where
  prevValue : α
  nextValue : α
  prevPos : Nat
  nextPos : Nat

/-- functions.py:568-580: the loop; `Sum.inl m` is the early `return membership[elem_pos]`. -/
def fuzzyfLoop (value : α) (membership : List α) :
    List α → Nat → FzState α → Except Err (α ⊕ FzState α)
  | [], _, st => .ok (.inr st)
  | x :: xs, pos, st =>
    if value =? x then do
      let m ← pyIdx membership pos
      return .inl m
    else
      let diff := value - x
      let st' :=
        if lit 0 <? diff then
          if diff <? st.prevValue then { st with prevValue := diff, prevPos := pos } else st
        else
          if st.nextValue <? diff then { st with nextValue := diff, nextPos := pos } else st
      fuzzyfLoop value membership xs (pos + 1) st'

/-- functions.py:544-603 `Fuzzy.fuzzyfication`. -/
def fuzzyfication (value0 minScale normVal : α) (membership valList : List α) : Except Err α := do
  let value ← pdiv (value0 + minScale) normVal
  match ← fuzzyfLoop value membership valList 0 ⟨lit 1, lit (-1), 0, 0⟩ with
  | .inl m => return m
  | .inr st =>
    if st.prevValue =? lit 1 then pymin membership
    else if st.nextValue =? lit (-1) then pymax membership
    else do
      let infE ← pyIdx membership st.prevPos
      let supE ← pyIdx membership st.nextPos
      let vn ← pyIdx valList st.nextPos
      let vp ← pyIdx valList st.prevPos
      let diff := vn - vp
      if diff =? lit 0 then pyIdx membership st.nextPos
      else do
        let a ← pdiv (value - vp) diff
        let b ← pdiv (vn - value) diff
        let est := ((lit 1 - a) * infE) + ((lit 1 - b) * supE)
        let est := if lit 1 <? est then lit 1 else est
        let est := if est <? lit (-1) then lit (-1) else est
        return est

/-! ### Relation (functions.py:606-685) -/

namespace Relation
variable (p_q p_nq np_q np_nq : α)

/-- functions.py:613-614 -/
def supp : Except Err α := pdiv p_q (p_q + p_nq + np_q + np_nq)

/-- functions.py:618-621 -/
def conf (p_q p_nq _np_q _np_nq : α) : Except Err α :=
  if (p_q + p_nq) =? lit 0 then .ok (lit 0) else pdiv p_q (p_q + p_nq)

/-- functions.py:625-626 -/
def lift : Except Err α := do
  let a ← pdiv p_q (p_q + p_nq)
  let b ← pdiv (p_q + np_q) (p_q + p_nq + np_q + np_nq)
  pdiv a b

/-- functions.py:630-635 -/
def rodr : Except Err α :=
  if (p_nq + np_q) =? lit 0 then .ok (p_q + np_nq) else pdiv (p_q + np_nq) (p_nq + np_q)

/-- functions.py:639-644 -/
def odr : Except Err α :=
  if (p_nq * np_q) =? lit 0 then .ok (p_q * np_nq) else pdiv (p_q * np_nq) (p_nq * np_q)

/-- functions.py:650-654 (with `x = p_q`, `e = p_nq + np_q`) and 656-660 (with `x = p_nq`, `e = p_q + np_nq`):
one side of `pos_inf`; `t = p_q + p_nq`. -/
def posInfSide (x e t : α) : Except Err α :=
  if e =? lit 0 then pdiv x t
  else do
    let a ← pdiv x e
    pdiv a t

/-- functions.py:648-665 -/
def posInf : Except Err α := do
  let pos ← posInfSide p_q (p_nq + np_q) (p_q + p_nq)
  let neg ← posInfSide p_nq (p_q + np_nq) (p_q + p_nq)
  if neg <? pos then return pos
  else if pos <? neg then return lit (-1) * neg
  else return lit 0

/-- functions.py:668-674 -/
def bayes : Except Err α := do
  let total := p_q + p_nq + np_q + np_nq
  let probP ← pdiv (p_q + p_nq) total
  let probQ ← pdiv (p_q + np_q) total
  if np_q <? p_q then do
    let a ← pdiv (p_q - np_q) total
    pdiv (a * probQ) probP
  else return lit 0

/-- functions.py:677-685 -/
def simple : Except Err α :=
  let total := p_q + p_nq + np_q + np_nq
  if p_q =? p_nq then .ok (lit 0)
  else if (p_q - p_nq) =? lit 0 then pdiv ((p_q - p_nq) - (np_nq + np_q)) total
  else pdiv ((p_q - p_nq) + (np_nq + np_q)) total

end Relation

end PyFCM
