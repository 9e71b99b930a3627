/-
Numbers.  Python / numpy / numba floats are modelled by an abstract carrier with *no laws*:
every theorem stated for `[Arith α]` holds for IEEE doubles (NaN, signed zeros, rounding) as well as
for exact real arithmetic.
-/
namespace PyFCM

/-- Python exceptions that the modelled code can raise.  `exc` is `raise Exception(msg)`; `oob` stands for
an out-of-bounds access in `@njit` code, which numba does not check (undefined behaviour in the real code);
`diverge` marks a loop that does not terminate. -/
inductive Err where
  | keyError (k : String)
  | indexError
  | zeroDivision
  | typeError
  | valueError
  | notImplemented
  | oob
  | diverge
  | exc (msg : String)
  deriving DecidableEq, Repr, Inhabited

/-- The arithmetic the code uses, without laws.  Comparisons are Boolean (a float comparison with NaN is just
`false`), `lit` gives integer literals. -/
class Arith (α : Type) extends Add α, Sub α, Mul α, Neg α, Div α where
  lit : Int → α
  le : α → α → Bool
  lt : α → α → Bool
  eq : α → α → Bool
  abs : α → α
  exp : α → α
  log : α → α
  log2 : α → α
  sqrt : α → α
  pow : α → α → α

scoped infix:50 " ≤? " => Arith.le
scoped infix:50 " <? " => Arith.lt
scoped infix:50 " =? " => Arith.eq

export Arith (lit)

variable {α : Type} [Arith α]

/-- `0.5`, `0.75`, ...: decimal literals as a correctly rounded quotient. -/
def dec (n d : Int) : α := lit n / lit d

/-- Scalar division in Python and in `@njit` code: raises `ZeroDivisionError`. -/
def pdiv (a b : α) : Except Err α :=
  if b =? lit 0 then .error .zeroDivision else .ok (a / b)

/-- Python's builtin `sum` (start value `0`, left to right). -/
def pysum (xs : List α) : α := xs.foldl (· + ·) (lit 0)

/-- Python's builtin `max` on a list: keeps the first largest element; `ValueError` on an empty list. -/
def pymax : List α → Except Err α
  | [] => .error .valueError
  | x :: xs => .ok (xs.foldl (fun m y => if m <? y then y else m) x)

/-- Python's builtin `min`. -/
def pymin : List α → Except Err α
  | [] => .error .valueError
  | x :: xs => .ok (xs.foldl (fun m y => if y <? m then y else m) x)

/-- IEEE doubles: used only for running the model on the repository's unit-test inputs. -/
instance : Arith Float where
  lit n := Float.ofInt n
  le a b := a ≤ b
  lt a b := a < b
  eq a b := a == b
  abs := Float.abs
  exp := Float.exp
  log := Float.log
  log2 := Float.log2
  sqrt := Float.sqrt
  pow := Float.pow

end PyFCM
