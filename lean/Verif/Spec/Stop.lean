import Verif.Spec.Recurrence
/-
Specification: when the iterative engine stops, and what the decision functions return.
-/
namespace PyFCM.Spec
open PyFCM

variable {α : Type} [Arith α]

/-- Did no concept move by more than `diff` between entries `s - 2` and `s - 1` of its trajectory? -/
def Calm (traj : String → List α) (cs : List String) (diff : α) (s : Nat) : Prop :=
  ∀ c ∈ cs, Arith.lt diff (Arith.abs (at' traj (s - 1) c - at' traj (s - 2) c)) = false

/-- A trajectory prefix of length `s` gives no reason to go on. -/
def Quiet (traj : String → List α) (cs : List String) (maxIter : Int) (stop : Bool) (diff : α) (s : Nat) : Prop :=
  maxIter ≤ (s : Int) ∨ (stop = true ∧ 1 < s ∧ Calm traj cs diff s)

/-- `len` is the least length above `w` whose last `w` proper prefixes are all quiet. -/
structure StopsAt (quiet : Nat → Prop) (w len : Nat) : Prop where
  above : w < len
  window : ∀ s, len - w ≤ s → s < len → quiet s
  least : ∀ l, w < l → l < len → ∃ s, l - w ≤ s ∧ s < l ∧ ¬ quiet s

theorem StopsAt.unique {q : Nat → Prop} {w a b : Nat} (ha : StopsAt q w a) (hb : StopsAt q w b) : a = b := by
  rcases Nat.lt_trichotomy a b with h | h | h
  · obtain ⟨s, h1, h2, h3⟩ := hb.least a ha.above h
    exact absurd (ha.window s h1 h2) h3
  · exact h
  · obtain ⟨s, h1, h2, h3⟩ := ha.least b hb.above h
    exact absurd (hb.window s h1 h2) h3

/-- The trajectories of a deterministic recurrence are determined by their first entries. -/
theorem IsRun.unique {N : Net α} {cs : List String} {f g : String → List α} {len : Nat}
    (hf : IsRun N cs f len) (hg : IsRun N cs g len)
    (hout : ∀ c, c ∉ cs → f c = g c)
    (h0 : ∀ c ∈ cs, at' f 0 c = at' g 0 c) : ∀ c, f c = g c := by
  have key : ∀ t, t < len → at' f t = at' g t := by
    intro t
    induction t with
    | zero =>
      intro _
      funext c
      by_cases hc : c ∈ cs
      · exact h0 c hc
      · unfold at'; rw [hout c hc]
    | succ t ih =>
      intro ht
      funext c
      by_cases hc : c ∈ cs
      · have e1 := (hf c hc).2 t ht
        have e2 := (hg c hc).2 t ht
        rw [ih (by omega)] at e1
        rw [e1] at e2
        simpa using e2
      · unfold at'; rw [hout c hc]
  intro c
  by_cases hc : c ∈ cs
  · have l1 := (hf c hc).1
    have l2 := (hg c hc).1
    apply List.ext_getElem (by rw [l1, l2])
    intro i h1 h2
    have := congrFun (key i (by omega)) c
    unfold at' at this
    simpa [List.getD_eq_getElem?_getD, h1, h2] using this
  · exact hout c hc

/-- Greatest element of a non-empty list, the first one among equals. -/
def maxOf : List α → Option α
  | [] => none
  | x :: xs => some (xs.foldl (fun m y => if Arith.lt m y then y else m) x)

/-- LAST: the value before the extra steps, or the very last one when there is no such value. -/
def decideLast (xs : List α) (extra : Nat) : Option α :=
  if extra + 1 < xs.length then xs[xs.length - extra - 1]? else xs[xs.length - 1]?

/-- MEAN: the mean of the values up to and including the one before the extra steps, or of all of them. -/
def decideMean (xs : List α) (extra : Nat) : Option α :=
  let ys := if extra + 1 < xs.length then xs.take (xs.length - extra) else xs
  if ys = [] then none else some (total ys / Arith.lit ys.length)

/-- EXITED: the greatest value strictly before the extra steps; of all values if there are too few. -/
def decideExited (xs : List α) (extra : Nat) : Option α :=
  if extra + 1 ≤ xs.length then maxOf (xs.take (xs.length - extra - 1)) else maxOf xs

/-- The value decided by the function of that name. -/
def decideBy (name : String) (xs : List α) (extra : Nat) : Option α :=
  if name = "LAST" then decideLast xs extra
  else if name = "MEAN" then decideMean xs extra
  else if name = "EXITED" then decideExited xs extra
  else none

end PyFCM.Spec
