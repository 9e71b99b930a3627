import Verif.Model.Py
/-
A small Hoare logic: a method preserves a property of the object whether or not it raises.
-/
namespace PyFCM

/-- `x` keeps `P` true, also when it raises. -/
def Pres {σ β : Type} (P : σ → Prop) (x : PyM σ β) : Prop := ∀ s, P s → P (x s).2

namespace Pres
variable {σ β γ ι : Type} {P : σ → Prop}

theorem pure (b : β) : Pres P (Pure.pure b : PyM σ β) := fun _ h => h
theorem raise (e : Err) : Pres P (PyM.raise e : PyM σ β) := fun _ h => h
theorem lift (x : Except Err β) : Pres P (PyM.lift x : PyM σ β) := fun _ h => h
theorem get : Pres P (PyM.get : PyM σ σ) := fun _ h => h
theorem modify {f : σ → σ} (hf : ∀ s, P s → P (f s)) : Pres P (PyM.modify f) := hf

theorem bind {x : PyM σ β} {f : β → PyM σ γ} (hx : Pres P x) (hf : ∀ b, Pres P (f b)) : Pres P (x >>= f) := by
  intro s hs
  rw [PyM.run_bind]
  have := hx s hs
  split <;> rename_i h <;> rw [h] at this
  · exact hf _ _ this
  · exact this

theorem ite {c : Prop} [Decidable c] {x y : PyM σ β} (hx : c → Pres P x) (hy : ¬ c → Pres P y) :
    Pres P (if c then x else y) := by
  split
  · exact hx ‹_›
  · exact hy ‹_›

theorem forEach {xs : List ι} {f : ι → PyM σ Unit} (h : ∀ x ∈ xs, Pres P (f x)) : Pres P (PyM.forEach xs f) := by
  intro s hs
  induction xs generalizing s with
  | nil => exact hs
  | cons x xs ih =>
    simp only [PyM.forEach]
    have := h x (by simp) s hs
    split <;> rename_i h' <;> rw [h'] at this
    · exact ih (fun y hy => h y (by simp [hy])) _ this
    · exact this

end Pres
end PyFCM
