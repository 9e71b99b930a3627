import Verif.Model.Association
import Verif.Model.ArithInst
/-
`np.unique`: the distinct values in increasing order.
-/
namespace PyFCM

/-- A Boolean strict total order. -/
structure StrictOrder {β : Type} (lt : β → β → Bool) : Prop where
  irrefl : ∀ a, lt a a = false
  trans : ∀ a b c, lt a b = true → lt b c = true → lt a c = true
  tri : ∀ a b, lt a b = false → lt b a = false → a = b

variable {β : Type} {lt : β → β → Bool}

theorem mem_insertUniq (h : StrictOrder lt) (x : β) : ∀ (l : List β) (y : β),
    y ∈ insertUniq lt x l ↔ y = x ∨ y ∈ l := by
  intro l
  induction l with
  | nil => intro y; simp [insertUniq]
  | cons a l ih =>
    intro y
    simp only [insertUniq]
    by_cases h1 : lt x a = true
    · simp [h1]
    · rw [if_neg h1]
      by_cases h2 : lt a x = true
      · rw [if_pos h2]
        simp only [List.mem_cons, ih y]
        tauto
      · rw [if_neg h2]
        have := h.tri x a (by simpa using h1) (by simpa using h2)
        subst this
        simp

theorem mem_uniq (h : StrictOrder lt) : ∀ (l : List β) (y : β), y ∈ uniq lt l ↔ y ∈ l := by
  intro l
  induction l with
  | nil => intro y; simp [uniq]
  | cons a l ih => intro y; simp only [uniq, mem_insertUniq h, ih y, List.mem_cons]

theorem insertUniq_sorted (h : StrictOrder lt) (x : β) : ∀ (l : List β),
    l.Pairwise (fun a b => lt a b = true) → (insertUniq lt x l).Pairwise (fun a b => lt a b = true) := by
  intro l
  induction l with
  | nil => intro _; simp [insertUniq]
  | cons a l ih =>
    intro hp
    rw [List.pairwise_cons] at hp
    simp only [insertUniq]
    by_cases h1 : lt x a = true
    · rw [if_pos h1, List.pairwise_cons]
      refine ⟨?_, List.pairwise_cons.2 hp⟩
      intro b hb
      rcases List.mem_cons.1 hb with rfl | hb
      · exact h1
      · exact h.trans _ _ _ h1 (hp.1 b hb)
    · rw [if_neg h1]
      by_cases h2 : lt a x = true
      · rw [if_pos h2, List.pairwise_cons]
        refine ⟨?_, ih hp.2⟩
        intro b hb
        rcases (mem_insertUniq h x l b).1 hb with rfl | hb
        · exact h2
        · exact hp.1 b hb
      · rw [if_neg h2]; exact List.pairwise_cons.2 hp

theorem uniq_sorted (h : StrictOrder lt) : ∀ (l : List β),
    (uniq lt l).Pairwise (fun a b => lt a b = true) := by
  intro l
  induction l with
  | nil => exact List.Pairwise.nil
  | cons a l ih => exact insertUniq_sorted h a _ ih

theorem uniq_nodup (h : StrictOrder lt) (l : List β) : (uniq lt l).Nodup := by
  refine (uniq_sorted h l).imp ?_
  rintro a b hab rfl
  rw [h.irrefl] at hab
  exact absurd hab (by decide)

theorem strictOrder_of_linear {β : Type} [LinearOrder β] : StrictOrder (fun a b : β => decide (a < b)) where
  irrefl a := by simp
  trans a b c h1 h2 := by simp at *; exact lt_trans h1 h2
  tri a b h1 h2 := by simp at *; exact le_antisymm h2 h1

theorem strictOrder_string : StrictOrder (fun a b : String => decide (a < b)) where
  irrefl a := by simp
  trans a b c h1 h2 := by simp at *; exact String.lt_trans h1 h2
  tri a b h1 h2 := by simp at *; exact String.le_antisymm h2 h1
theorem strictOrder_int : StrictOrder (fun a b : Int => decide (a < b)) := strictOrder_of_linear
theorem strictOrder_bool : StrictOrder (fun a b : Bool => !a && b) where
  irrefl := by decide
  trans := by decide
  tri := by decide
theorem strictOrder_real : StrictOrder (Arith.lt : ℝ → ℝ → Bool) := by
  have : (Arith.lt : ℝ → ℝ → Bool) = fun a b => decide (a < b) := by
    funext a b
    rw [Bool.eq_iff_iff]; simp
  rw [this]; exact strictOrder_of_linear
theorem strictOrder_rat : StrictOrder (Arith.lt : ℚ → ℚ → Bool) := by
  have : (Arith.lt : ℚ → ℚ → Bool) = fun a b => decide (a < b) := rfl
  rw [this]; exact strictOrder_of_linear

/-- A carrier whose comparisons are those of a linear order (exact reals or rationals; IEEE doubles without NaN). -/
class Ordered (α : Type) [Arith α] : Prop where
  lt : StrictOrder (Arith.lt : α → α → Bool)
  eq : ∀ a b : α, Arith.eq a b = true ↔ a = b
  one : (lit 1 : α) ≠ lit 0

instance : Ordered ℝ := ⟨strictOrder_real, by simp, by simp⟩
instance : Ordered ℚ := ⟨strictOrder_rat, fun a b => by simp [Arith.eq], by decide⟩

end PyFCM
