import Verif.Model.ArithInst
/-
Specification of piecewise linear interpolation, independent of the model.
-/
namespace PyFCM.Spec

/-- `y` is the value at `x` of the piecewise linear function through the points `(xs[i], ys[i])`, continued
by its first and last value outside the described range. -/
inductive Interp (xs ys : List ℝ) (x y : ℝ) : Prop
  | listed (i : Nat) (hx : xs[i]? = some x) (hy : ys[i]? = some y) : Interp xs ys x y
  | below (h : ∀ v ∈ xs, x < v) (hy : ys[0]? = some y) : Interp xs ys x y
  | above (h : ∀ v ∈ xs, v < x) (hy : ys[xs.length - 1]? = some y) : Interp xs ys x y
  | between (i : Nat) (x0 x1 y0 y1 : ℝ) (h0 : xs[i]? = some x0) (h1 : xs[i + 1]? = some x1)
      (k0 : ys[i]? = some y0) (k1 : ys[i + 1]? = some y1) (l0 : x0 < x) (l1 : x < x1)
      (hy : y = y0 + (y1 - y0) * ((x - x0) / (x1 - x0))) : Interp xs ys x y

end PyFCM.Spec
