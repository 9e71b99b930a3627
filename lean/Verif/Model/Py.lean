import Verif.Model.Arith
/-
Python run-time pieces: insertion-ordered dictionaries, methods that may raise after having mutated their object.
-/
namespace PyFCM

/-- A Python `dict` with `str` keys: insertion-ordered association list. -/
abbrev Dict (β : Type) := List (String × β)

namespace Dict
variable {β : Type}

/-- `d.get(k)` / `k in d`. -/
def get? : Dict β → String → Option β
  | [], _ => none
  | (k', v) :: d, k => if k' = k then some v else get? d k

/-- `d[k] = v`: an existing key keeps its position, a new key is appended. -/
def set : Dict β → String → β → Dict β
  | [], k, v => [(k, v)]
  | (k', v') :: d, k, v => if k' = k then (k, v) :: d else (k', v') :: set d k v

/-- `d.keys()` in iteration order. -/
def keys (d : Dict β) : List String := d.map (·.1)

/-- `k in d`. -/
def has (d : Dict β) (k : String) : Bool := (d.get? k).isSome

/-- `d[k] = f(d[k])` for an existing key; no effect when the key is absent. -/
def modify (d : Dict β) (k : String) (f : β → β) : Dict β :=
  match d.get? k with
  | some v => d.set k (f v)
  | none => d

end Dict

/-- A Python method: it may raise, and the object's state *at the raise point* is kept. -/
def PyM (σ β : Type) : Type := σ → Except Err β × σ

namespace PyM
variable {σ β γ : Type}

def pure' (b : β) : PyM σ β := fun s => (.ok b, s)

def bind' (x : PyM σ β) (f : β → PyM σ γ) : PyM σ γ := fun s =>
  match x s with
  | (.ok b, s') => f b s'
  | (.error e, s') => (.error e, s')

instance : Monad (PyM σ) where
  pure := pure'
  bind := bind'

def raise (e : Err) : PyM σ β := fun s => (.error e, s)
def get : PyM σ σ := fun s => (.ok s, s)
def modify (f : σ → σ) : PyM σ Unit := fun s => (.ok (), f s)
/-- A computation that does not touch the state. -/
def lift (x : Except Err β) : PyM σ β := fun s => (x, s)

/-- `for x in xs: body(x)`; stops at the first exception. -/
def forEach {ι : Type} : List ι → (ι → PyM σ Unit) → PyM σ Unit
  | [], _ => fun s => (.ok (), s)
  | x :: xs, f => fun s =>
    match f x s with
    | (.ok (), s') => forEach xs f s'
    | (.error e, s') => (.error e, s')

@[simp] theorem run_pure (b : β) (s : σ) : (pure b : PyM σ β) s = (.ok b, s) := rfl
@[simp] theorem run_bind (x : PyM σ β) (f : β → PyM σ γ) (s : σ) :
    (x >>= f) s = match x s with
      | (.ok b, s') => f b s'
      | (.error e, s') => (.error e, s') := rfl
@[simp] theorem run_raise (e : Err) (s : σ) : (raise e : PyM σ β) s = (.error e, s) := rfl
@[simp] theorem run_get (s : σ) : (get : PyM σ σ) s = (.ok s, s) := rfl
@[simp] theorem run_modify (f : σ → σ) (s : σ) : (modify f) s = (.ok (), f s) := rfl
@[simp] theorem run_lift (x : Except Err β) (s : σ) : (lift x : PyM σ β) s = (x, s) := rfl

end PyM

/-- `d[k]` on a missing key raises `KeyError`. -/
def need {β : Type} (k : String) : Option β → Except Err β
  | some b => .ok b
  | none => .error (.keyError k)

/-- Unchecked array access in `@njit` code. -/
def njIdx {β : Type} (xs : List β) (i : Nat) : Except Err β :=
  match xs[i]? with
  | some x => .ok x
  | none => .error .oob

/-- Checked Python list access `xs[i]` with a non-negative index. -/
def pyIdx {β : Type} (xs : List β) (i : Nat) : Except Err β :=
  match xs[i]? with
  | some x => .ok x
  | none => .error .indexError

/-- `xs[-k]`, `k ≥ 1`. -/
def pyIdxBack {β : Type} (xs : List β) (k : Nat) : Except Err β :=
  if k ≤ xs.length then pyIdx xs (xs.length - k) else .error .indexError

end PyFCM
