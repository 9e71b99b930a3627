import Verif.Model.Functions
/-
Model of `__partition` and `dual_quick_sort` (py_fcm/utils/functions.py:11-41): in-place sorting of two arrays.
Arrays are lists with index access; `@njit` does not check bounds, so an access outside is `oob`.
The code's inclusive `end` is represented by the exclusive bound `stop = end + 1` (so that the call on an empty
array, `end = -1`, stays in `Nat`); inside `partition` the inclusive `high` is kept (it is always ≥ `start`).
Loops take fuel; running out of fuel is the error `diverge` (which the real code exhibits as an endless loop,
e.g. on NaN).
-/
namespace PyFCM
open Arith

variable {α β : Type} [Arith α]

/-- `a[i], a[j] = a[j], a[i]` -/
def swapIdx {β : Type} (a : List β) (i j : Nat) : Except Err (List β) :=
  match a[i]?, a[j]? with
  | some x, some y => .ok ((a.set i y).set j x)
  | _, _ => .error .oob

/-- functions.py:18-19: `while low <= high and array[high] >= pivot: high = high - 1`. -/
def scanHigh (a : List α) (pivot : α) (low : Nat) : Nat → Except Err Nat
  | 0 => .ok 0
  | h + 1 =>
    if low ≤ h + 1 then
      match a[h + 1]? with
      | some x => if pivot ≤? x then scanHigh a pivot low h else .ok (h + 1)
      | none => .error .oob
    else .ok (h + 1)

/-- functions.py:21-22: `while low <= high and array[low] <= pivot: low = low + 1`
(`fuel` is the number of positions left, `high + 1 - low`). -/
def scanLow (a : List α) (pivot : α) (high : Nat) : Nat → Nat → Except Err Nat
  | 0, low => .ok low
  | fuel + 1, low =>
    if low ≤ high then
      match a[low]? with
      | some x => if x ≤? pivot then scanLow a pivot high fuel (low + 1) else .ok low
      | none => .error .oob
    else .ok low

/-- functions.py:17-27: the outer loop of `__partition`; returns the arrays and the final `high`. -/
def partitionLoop (pivot : α) : Nat → List α → List β → Nat → Nat → Except Err (List α × List β × Nat)
  | 0, _, _, _, _ => .error .diverge
  | fuel + 1, a, m, low, high => do
    let high ← scanHigh a pivot low high
    let low ← scanLow a pivot high (high + 1 - low) low
    if low ≤ high then
      let a' ← swapIdx a low high
      let m' ← swapIdx m low high
      partitionLoop pivot fuel a' m' low high
    else
      return (a, m, high)

/-- functions.py:12-32 `__partition(array, start, end, mirrored_array)` with `end = stop - 1`. -/
def partition (a : List α) (start stop : Nat) (m : List β) : Except Err (List α × List β × Nat) := do
  let pivot ← njIdx a start
  let (a, m, high) ← partitionLoop pivot (stop - start) a m (start + 1) (stop - 1)
  let a' ← swapIdx a start high
  let m' ← swapIdx m start high
  return (a', m', high)

/-- functions.py:36-41 `dual_quick_sort` with `end = stop - 1`; `fuel` bounds the recursion depth. -/
def dualQuickSortAux : Nat → List α → Nat → Nat → List β → Except Err (List α × List β)
  | 0, a, start, stop, m => if stop ≤ start + 1 then .ok (a, m) else .error .diverge
  | fuel + 1, a, start, stop, m =>
    if stop ≤ start + 1 then .ok (a, m)
    else do
      let (a1, m1, p) ← partition a start stop m
      let (a2, m2) ← dualQuickSortAux fuel a1 start p m1
      dualQuickSortAux fuel a2 (p + 1) stop m2

/-- `dual_quick_sort(a, 0, len(a) - 1, m)`, the only way the library calls it (fcm.py:144). -/
def dualQuickSort (a : List α) (m : List β) : Except Err (List α × List β) :=
  dualQuickSortAux a.length a 0 a.length m

end PyFCM
