import Verif.Model.Py
/-
Lemmas about insertion-ordered dictionaries.
-/
namespace PyFCM.Dict

variable {β : Type}

@[simp] theorem get?_nil (k : String) : get? ([] : Dict β) k = none := rfl

theorem get?_cons (k' k : String) (v : β) (d : Dict β) :
    get? ((k', v) :: d) k = if k' = k then some v else get? d k := rfl

@[simp] theorem keys_nil : keys ([] : Dict β) = [] := rfl
@[simp] theorem keys_cons (p : String × β) (d : Dict β) : keys (p :: d) = p.1 :: keys d := rfl

theorem get?_isSome_iff (d : Dict β) (k : String) : (get? d k).isSome ↔ k ∈ keys d := by
  induction d with
  | nil => simp
  | cons p d ih =>
    obtain ⟨k', v⟩ := p
    simp only [get?_cons, keys_cons, List.mem_cons]
    split <;> rename_i h
    · simp [h]
    · simp [ih, Ne.symm h]

theorem get?_eq_none_iff (d : Dict β) (k : String) : get? d k = none ↔ k ∉ keys d := by
  rw [← get?_isSome_iff]; simp

theorem mem_keys_of_get? {d : Dict β} {k : String} {v : β} (h : get? d k = some v) : k ∈ keys d := by
  rw [← get?_isSome_iff, h]; rfl

theorem exists_get?_of_mem {d : Dict β} {k : String} (h : k ∈ keys d) : ∃ v, get? d k = some v := by
  rw [← get?_isSome_iff] at h
  exact Option.isSome_iff_exists.mp h

theorem has_iff (d : Dict β) (k : String) : has d k = true ↔ k ∈ keys d := by
  unfold has; exact get?_isSome_iff d k

theorem get?_set (d : Dict β) (k k' : String) (v : β) :
    get? (set d k v) k' = if k = k' then some v else get? d k' := by
  induction d with
  | nil => simp [set, get?_cons]
  | cons p d ih =>
    obtain ⟨k0, v0⟩ := p
    unfold set
    split <;> rename_i h
    · subst h; simp only [get?_cons]; split <;> simp_all
    · simp only [get?_cons, ih]
      split <;> split <;> simp_all

@[simp] theorem get?_set_self (d : Dict β) (k : String) (v : β) : get? (set d k v) k = some v := by
  simp [get?_set]

theorem get?_set_ne (d : Dict β) {k k' : String} (v : β) (h : k ≠ k') : get? (set d k v) k' = get? d k' := by
  simp [get?_set, h]

theorem keys_set_of_mem (d : Dict β) (k : String) (v : β) (h : k ∈ keys d) : keys (set d k v) = keys d := by
  induction d with
  | nil => simp at h
  | cons p d ih =>
    obtain ⟨k0, v0⟩ := p
    unfold set
    split <;> rename_i h0
    · simp [h0]
    · simp only [keys_cons, List.mem_cons] at h ⊢
      rw [ih (h.resolve_left (Ne.symm h0))]

theorem keys_set_of_not_mem (d : Dict β) (k : String) (v : β) (h : k ∉ keys d) :
    keys (set d k v) = keys d ++ [k] := by
  induction d with
  | nil => rfl
  | cons p d ih =>
    obtain ⟨k0, v0⟩ := p
    simp only [keys_cons, List.mem_cons, not_or] at h
    unfold set
    rw [if_neg (Ne.symm h.1)]
    simp [ih h.2]

theorem keys_set (d : Dict β) (k : String) (v : β) :
    keys (set d k v) = if k ∈ keys d then keys d else keys d ++ [k] := by
  split <;> rename_i h
  · exact keys_set_of_mem d k v h
  · exact keys_set_of_not_mem d k v h

theorem mem_keys_set (d : Dict β) (k k' : String) (v : β) :
    k' ∈ keys (set d k v) ↔ k' ∈ keys d ∨ k' = k := by
  rw [keys_set]; split <;> rename_i h
  · constructor
    · exact Or.inl
    · rintro (h' | rfl) <;> assumption
  · simp

theorem nodup_keys_set (d : Dict β) (k : String) (v : β) (h : (keys d).Nodup) : (keys (set d k v)).Nodup := by
  rw [keys_set]; split <;> rename_i hk
  · exact h
  · rw [List.nodup_append]
    refine ⟨h, by simp, ?_⟩
    intro a ha b hb
    simp at hb; subst hb
    intro e; subst e; exact hk ha

theorem set_get_same (d : Dict β) (k : String) (v : β) (h : get? d k = some v) : set d k v = d := by
  induction d with
  | nil => simp at h
  | cons p d ih =>
    obtain ⟨k0, v0⟩ := p
    unfold set
    rw [get?_cons] at h
    split <;> rename_i h0
    · rw [if_pos h0] at h; cases h; rw [h0]
    · rw [if_neg h0] at h; rw [ih h]

theorem keys_modify (d : Dict β) (k : String) (f : β → β) : keys (modify d k f) = keys d := by
  unfold modify
  cases h : get? d k with
  | none => rfl
  | some v => exact keys_set_of_mem _ _ _ (mem_keys_of_get? h)

theorem get?_modify (d : Dict β) (k k' : String) (f : β → β) :
    get? (modify d k f) k' = if k = k' then (get? d k').map f else get? d k' := by
  unfold modify
  by_cases hk : k = k'
  · subst hk
    cases h : get? d k <;> simp [h]
  · cases h : get? d k <;> simp [hk, get?_set]

/-- Two dictionaries with the same (duplicate-free) key sequence and the same lookups are equal. -/
theorem ext_get? (d e : Dict β) (hk : keys d = keys e) (hn : (keys d).Nodup)
    (h : ∀ k, get? d k = get? e k) : d = e := by
  induction d generalizing e with
  | nil => cases e with
    | nil => rfl
    | cons p e => simp at hk
  | cons p d ih =>
    obtain ⟨k0, v0⟩ := p
    cases e with
    | nil => simp at hk
    | cons q e =>
      obtain ⟨k1, v1⟩ := q
      simp only [keys_cons, List.cons.injEq] at hk
      obtain ⟨rfl, hk⟩ := hk
      have h0 := h k0
      simp only [get?_cons, if_true, Option.some.injEq] at h0
      subst h0
      simp only [keys_cons, List.nodup_cons] at hn
      congr 1
      refine ih e hk hn.2 fun k => ?_
      have h1 := h k
      simp only [get?_cons] at h1
      by_cases hkk : k0 = k
      · subst hkk
        rw [(get?_eq_none_iff d k0).2 hn.1, (get?_eq_none_iff e k0).2 (hk ▸ hn.1)]
      · simpa [hkk] using h1

theorem get?_mem {d : Dict β} {k : String} {v : β} (h : get? d k = some v) : (k, v) ∈ d := by
  induction d with
  | nil => simp at h
  | cons p d ih =>
    obtain ⟨k0, v0⟩ := p
    rw [get?_cons] at h
    split at h <;> rename_i h0
    · cases h; subst h0; simp
    · exact List.mem_cons_of_mem _ (ih h)

theorem get?_of_mem {d : Dict β} {k : String} {v : β} (hn : (keys d).Nodup) (h : (k, v) ∈ d) :
    get? d k = some v := by
  induction d with
  | nil => simp at h
  | cons p d ih =>
    obtain ⟨k0, v0⟩ := p
    simp only [keys_cons, List.nodup_cons] at hn
    rw [List.mem_cons] at h
    rw [get?_cons]
    rcases h with h | h
    · cases h; simp
    · rw [if_neg]
      · exact ih hn.2 h
      · rintro rfl
        exact hn.1 (List.mem_map.2 ⟨_, h, rfl⟩)

end PyFCM.Dict

namespace PyFCM
/-- `forEach` over a list of keys: an invariant preserved by every successful round. -/
theorem PyM.forEach_ok {σ ι : Type} {f : ι → PyM σ Unit} (P : σ → Prop) {xs : List ι} {s s' : σ}
    (hs : ∀ x ∈ xs, ∀ s s', P s → f x s = (.ok (), s') → P s') (h0 : P s)
    (h : PyM.forEach xs f s = (.ok (), s')) : P s' := by
  induction xs generalizing s with
  | nil => simp only [PyM.forEach] at h; cases h; exact h0
  | cons x xs ih =>
    simp only [PyM.forEach] at h
    split at h
    · rename_i s1 h1
      exact ih (fun y hy => hs y (List.mem_cons_of_mem _ hy)) (hs x (List.mem_cons_self ..) _ _ h0 h1) h
    · cases h

/-- Same for the state left by any outcome. -/
theorem PyM.forEach_any {σ ι : Type} {f : ι → PyM σ Unit} (P : σ → Prop) {xs : List ι} {s : σ}
    (hs : ∀ x ∈ xs, ∀ s, P s → P (f x s).2) (h0 : P s) : P (PyM.forEach xs f s).2 := by
  induction xs generalizing s with
  | nil => exact h0
  | cons x xs ih =>
    simp only [PyM.forEach]
    have h1 := hs x (List.mem_cons_self ..) s h0
    split
    · rename_i s1 h2
      rw [h2] at h1
      exact ih (fun y hy => hs y (List.mem_cons_of_mem _ hy)) h1
    · rename_i h2
      rw [h2] at h1
      exact h1
end PyFCM
