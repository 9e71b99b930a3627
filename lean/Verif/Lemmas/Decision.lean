import Verif.Spec.Stop
import Verif.Model.Functions
/-
The decision functions against their specification.
-/
namespace PyFCM
open Arith Spec

set_option linter.unusedSectionVars false

variable {α : Type} [Arith α]

/-- The outcome of a computation that fails with `e` where the specification gives nothing. -/
def orErr {β : Type} (e : Err) : Option β → Except Err β
  | some b => .ok b
  | none => .error e

theorem pyIdx_eq {β : Type} (xs : List β) (i : Nat) : pyIdx xs i = orErr .indexError xs[i]? := by
  unfold pyIdx orErr; cases xs[i]? <;> rfl

theorem last_eq (xs : List α) (extra : Nat) :
    Decision.last xs ((xs.length : Int) - extra - 1) = orErr .indexError (decideLast xs extra) := by
  unfold Decision.last decideLast
  by_cases h : extra + 1 < xs.length
  · rw [if_pos (by omega), if_pos h, pyIdx_eq]
    congr 2
    omega
  · rw [if_neg (by omega), if_neg h]
    unfold pyIdxBack
    split
    · rw [pyIdx_eq]
    · rename_i h1
      have : xs = [] := by cases xs <;> simp_all
      subst this; rfl

theorem meanSum_eq (xs : List α) (n : Nat) (h : n ≤ xs.length) : Decision.meanSum xs n = .ok (total (xs.take n)) := by
  induction n with
  | zero => rfl
  | succ n ih =>
    have hn : n < xs.length := by omega
    unfold Decision.meanSum
    rw [ih (by omega)]
    unfold pyIdx
    simp only [List.getElem?_eq_getElem hn, bind, Except.bind, pure, Except.pure]
    congr 1
    unfold total
    rw [← List.take_append_getElem hn, List.foldl_append]
    rfl

theorem mean_eq (xs : List α) (extra : Nat) :
    Decision.mean xs ((xs.length : Int) - extra - 1) = orErr .zeroDivision (decideMean xs extra) := by
  unfold Decision.mean decideMean
  by_cases h : extra + 1 < xs.length
  · rw [if_neg (by omega), if_pos h]
    have e : ((xs.length : Int) - extra - 1 + 1).toNat = xs.length - extra := by omega
    dsimp only
    rw [e, meanSum_eq _ _ (by omega)]
    have hne : xs.take (xs.length - extra) ≠ [] := by
      intro h0
      have := congrArg List.length h0
      simp at this
      omega
    simp only [bind, Except.bind, if_neg hne]
    rw [if_neg (by omega)]
    simp only [orErr, pure, Except.pure]
    congr 3
    simp
    omega
  · rw [if_pos (by omega), if_neg h]
    have e : ((xs.length : Int) - 1 + 1).toNat = xs.length := by omega
    dsimp only
    rw [e, meanSum_eq _ _ (Nat.le_refl _), List.take_length]
    simp only [bind, Except.bind]
    by_cases hx : xs = []
    · subst hx; rfl
    · have : 0 < xs.length := List.length_pos_iff.2 hx
      rw [if_neg (by omega), if_neg hx]
      simp only [orErr, pure, Except.pure]
      congr 3
      omega

theorem pymax_eq (xs : List α) : pymax xs = orErr .valueError (maxOf xs) := by
  cases xs <;> rfl

theorem exited_eq (xs : List α) (extra : Nat) :
    Decision.exited xs ((xs.length : Int) - extra - 1) = orErr .valueError (decideExited xs extra) := by
  unfold Decision.exited decideExited
  by_cases h : extra + 1 ≤ xs.length
  · rw [if_pos (by omega), if_pos h, pymax_eq]
    congr 3
    omega
  · rw [if_neg (by omega), if_neg h, pymax_eq]

theorem orErr_ok {β : Type} {e : Err} {o : Option β} {b : β} : orErr e o = .ok b ↔ o = some b := by
  cases o <;> simp [orErr]

theorem decFn_eq {nm : String} {f : DecFn} (h : Decision.getByName nm = some f) (xs : List α) (extra : Nat) (v : α) :
    f.run xs ((xs.length : Int) - extra - 1) = .ok v ↔ decideBy nm xs extra = some v := by
  unfold Decision.getByName at h
  unfold decideBy
  by_cases h1 : nm = "LAST"
  · rw [if_pos h1] at h ⊢; cases h
    show Decision.last _ _ = _ ↔ _
    rw [last_eq, orErr_ok]
  · rw [if_neg h1] at h ⊢
    by_cases h2 : nm = "MEAN"
    · rw [if_pos h2] at h ⊢; cases h
      show Decision.mean _ _ = _ ↔ _
      rw [mean_eq, orErr_ok]
    · rw [if_neg h2] at h ⊢
      by_cases h3 : nm = "EXITED"
      · rw [if_pos h3] at h ⊢; cases h
        show Decision.exited _ _ = _ ↔ _
        rw [exited_eq, orErr_ok]
      · rw [if_neg h3] at h; cases h

theorem maxOf_eq_none {xs : List α} : maxOf xs = none ↔ xs = [] := by
  cases xs <;> simp [maxOf]

theorem decideExited_eq_none {xs : List α} {extra : Nat} :
    decideExited xs extra = none ↔ xs = [] ∨ xs.length = extra + 1 := by
  unfold decideExited
  split
  · rename_i h
    rw [maxOf_eq_none, List.take_eq_nil_iff]
    have : xs ≠ [] := by intro h0; subst h0; simp at h
    constructor
    · rintro (h1 | h1)
      · right; omega
      · exact absurd h1 this
    · rintro (h1 | h1)
      · exact absurd h1 this
      · left; omega
  · rename_i h
    rw [maxOf_eq_none]
    constructor
    · exact Or.inl
    · rintro (h1 | h1)
      · exact h1
      · omega

end PyFCM
