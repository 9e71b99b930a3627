import Verif.Model.QuickSort
/-
`dual_quick_sort` sorts and permutes both arrays alike, for every total preorder.
-/
namespace PyFCM
open Arith

set_option linter.unusedSectionVars false

/-- `<=` of the carrier is a total preorder (true of the reals, the rationals and of floats other than NaN). -/
class TotalLe (α : Type) [Arith α] : Prop where
  total : ∀ a b : α, (a ≤? b) = true ∨ (b ≤? a) = true
  trans : ∀ a b c : α, (a ≤? b) = true → (b ≤? c) = true → (a ≤? c) = true

variable {α β : Type} [Arith α]

/-- `a'`, `m'` arise from `a`, `m` by one permutation of the positions `s..e-1`. -/
structure Mix (s e : Nat) (a : List α) (m : List β) (a' : List α) (m' : List β) : Prop where
  len : a'.length = a.length
  mlen : m'.length = m.length
  out : ∀ i, (i < s ∨ e ≤ i) → a'[i]? = a[i]?
  src : ∀ i x, s ≤ i → i < e → a'[i]? = some x → ∃ j, s ≤ j ∧ j < e ∧ a[j]? = some x
  perm : (a'.zip m').Perm (a.zip m)
  mout : ∀ i, (i < s ∨ e ≤ i) → m'[i]? = m[i]?

theorem Mix.refl (s e : Nat) (a : List α) (m : List β) : Mix s e a m a m :=
  ⟨rfl, rfl, fun _ _ => rfl, fun i x h1 h2 h => ⟨i, h1, h2, h⟩, .refl _, fun _ _ => rfl⟩

theorem Mix.trans {s e : Nat} {a a1 a2 : List α} {m m1 m2 : List β} (h1 : Mix s e a m a1 m1)
    (h2 : Mix s e a1 m1 a2 m2) : Mix s e a m a2 m2 := by
  refine ⟨by rw [h2.len, h1.len], by rw [h2.mlen, h1.mlen], fun i hi => by rw [h2.out i hi, h1.out i hi], ?_,
    h2.perm.trans h1.perm, fun i hi => by rw [h2.mout i hi, h1.mout i hi]⟩
  intro i x hs he hx
  obtain ⟨j, a1, a2, a3⟩ := h2.src i x hs he hx
  exact h1.src j x a1 a2 a3

theorem Mix.wider {s e s' e' : Nat} {a a' : List α} {m m' : List β} (h : Mix s e a m a' m') (hs : s' ≤ s) (he : e ≤ e') :
    Mix s' e' a m a' m' := by
  refine ⟨h.len, h.mlen, fun i hi => h.out i (by omega), ?_, h.perm, fun i hi => h.mout i (by omega)⟩
  intro i x h1 h2 hx
  by_cases hin : s ≤ i ∧ i < e
  · obtain ⟨j, a1, a2, a3⟩ := h.src i x hin.1 hin.2 hx
    exact ⟨j, by omega, by omega, a3⟩
  · exact ⟨i, h1, h2, by rw [← h.out i (by omega)]; exact hx⟩

theorem swapIdx_eq {γ : Type} {a : List γ} {i j : Nat} (hi : i < a.length) (hj : j < a.length) :
    swapIdx a i j = .ok ((a.set i a[j]).set j a[i]) := by
  unfold swapIdx
  rw [List.getElem?_eq_getElem hi, List.getElem?_eq_getElem hj]

theorem swap_get {γ : Type} {a : List γ} {i j : Nat} (hi : i < a.length) (hj : j < a.length) (k : Nat) :
    ((a.set i a[j]).set j a[i])[k]? = if k = j then some a[i] else if k = i then some a[j] else a[k]? := by
  by_cases h1 : k = j
  · subst h1
    rw [if_pos rfl, List.getElem?_set_self (by simpa using hj)]
  · rw [if_neg h1, List.getElem?_set_ne (Ne.symm h1)]
    by_cases h2 : k = i
    · subst h2
      rw [if_pos rfl, List.getElem?_set_self (by simpa using hi)]
    · rw [if_neg h2, List.getElem?_set_ne (Ne.symm h2)]

theorem swap_mix {s e i j : Nat} {a : List α} {m : List β} (hi : s ≤ i ∧ i < e) (hj : s ≤ j ∧ j < e)
    (he : e ≤ a.length) (hm : a.length ≤ m.length) :
    ∃ a' m', swapIdx a i j = .ok a' ∧ swapIdx m i j = .ok m' ∧ Mix s e a m a' m' ∧
      ∀ k, a'[k]? = if k = j then a[i]? else if k = i then a[j]? else a[k]? := by
  have ai : i < a.length := by omega
  have aj : j < a.length := by omega
  have mi : i < m.length := by omega
  have mj : j < m.length := by omega
  refine ⟨_, _, swapIdx_eq ai aj, swapIdx_eq mi mj, ⟨by simp, by simp, ?_, ?_, ?_, ?_⟩, ?_⟩
  · intro k hk
    rw [swap_get ai aj, if_neg (by omega), if_neg (by omega)]
  · intro k x h1 h2 hx
    rw [swap_get ai aj] at hx
    split at hx
    · exact ⟨i, hi.1, hi.2, by rw [List.getElem?_eq_getElem ai]; exact hx⟩
    · split at hx
      · exact ⟨j, hj.1, hj.2, by rw [List.getElem?_eq_getElem aj]; exact hx⟩
      · exact ⟨k, h1, h2, hx⟩
  · have zi : i < (a.zip m).length := by simp; omega
    have zj : j < (a.zip m).length := by simp; omega
    have e1 : ((a.set i a[j]).set j a[i]).zip ((m.set i m[j]).set j m[i]) =
        ((a.zip m).set i (a.zip m)[j]).set j (a.zip m)[i] := by
      apply List.ext_getElem (by simp)
      intro k h1 h2
      simp only [List.getElem_zip, List.getElem_set]
      split
      · rfl
      · split <;> rfl
    rw [e1]
    exact List.set_set_perm zi zj
  · intro k hk
    rw [swap_get mi mj, if_neg (by omega), if_neg (by omega)]
  · intro k
    rw [swap_get ai aj, List.getElem?_eq_getElem ai, List.getElem?_eq_getElem aj]

/-! ### The scans -/

theorem scanHigh_spec {a : List α} {pivot : α} {low : Nat} (hl : 1 ≤ low) (high : Nat) (hh : high < a.length)
    (hle : low ≤ high + 1) : ∃ h, scanHigh a pivot low high = .ok h ∧ h ≤ high ∧ low ≤ h + 1 ∧
      (∀ k x, h < k → k ≤ high → a[k]? = some x → (pivot ≤? x) = true) ∧
      (low ≤ h → ∃ x, a[h]? = some x ∧ (pivot ≤? x) = false) := by
  induction high with
  | zero =>
    exact ⟨0, rfl, by omega, by omega, fun k x h1 h2 => by omega, fun h => by omega⟩
  | succ n ih =>
    unfold scanHigh
    by_cases hlow : low ≤ n + 1
    · rw [if_pos hlow, List.getElem?_eq_getElem hh]
      dsimp only
      by_cases hp : (pivot ≤? a[n + 1]) = true
      · rw [if_pos hp]
        obtain ⟨h, e, h1, h2, h3, h4⟩ := ih (by omega) (by omega)
        refine ⟨h, e, by omega, h2, ?_, h4⟩
        intro k x hk1 hk2 hx
        by_cases hkn : k = n + 1
        · subst hkn
          rw [List.getElem?_eq_getElem hh] at hx
          rw [← Option.some.inj hx]; exact hp
        · exact h3 k x hk1 (by omega) hx
      · rw [if_neg hp]
        exact ⟨n + 1, rfl, Nat.le_refl _, by omega, fun k x h1 h2 => by omega,
          fun _ => ⟨_, List.getElem?_eq_getElem hh, by simpa using hp⟩⟩
    · rw [if_neg hlow]
      exact ⟨n + 1, rfl, Nat.le_refl _, by omega, fun k x h1 h2 => by omega, fun h => absurd h hlow⟩

theorem scanLow_spec {a : List α} {pivot : α} {high : Nat} (hh : high < a.length) (fuel low : Nat)
    (hf : high + 1 - low ≤ fuel) (hle : low ≤ high + 1) : ∃ l, scanLow a pivot high fuel low = .ok l ∧ low ≤ l ∧
      l ≤ high + 1 ∧ (∀ k x, low ≤ k → k < l → a[k]? = some x → (x ≤? pivot) = true) ∧
      (l ≤ high → ∃ x, a[l]? = some x ∧ (x ≤? pivot) = false) := by
  induction fuel generalizing low with
  | zero => exact ⟨low, rfl, Nat.le_refl _, hle, fun k x h1 h2 => by omega, fun h => by omega⟩
  | succ n ih =>
    unfold scanLow
    by_cases hlow : low ≤ high
    · have hlt : low < a.length := by omega
      rw [if_pos hlow, List.getElem?_eq_getElem hlt]
      dsimp only
      by_cases hp : (a[low] ≤? pivot) = true
      · rw [if_pos hp]
        obtain ⟨l, e, h1, h2, h3, h4⟩ := ih (low + 1) (by omega) (by omega)
        refine ⟨l, e, by omega, h2, ?_, h4⟩
        intro k x hk1 hk2 hx
        by_cases hkn : k = low
        · subst hkn
          rw [List.getElem?_eq_getElem hlt] at hx
          rw [← Option.some.inj hx]; exact hp
        · exact h3 k x (by omega) hk2 hx
      · rw [if_neg hp]
        exact ⟨low, rfl, Nat.le_refl _, hle, fun k x h1 h2 => by omega,
          fun _ => ⟨_, List.getElem?_eq_getElem hlt, by simpa using hp⟩⟩
    · rw [if_neg hlow]
      exact ⟨low, rfl, Nat.le_refl _, hle, fun k x h1 h2 => by omega, fun h => absurd h hlow⟩

/-! ### Partition -/

section
variable [TotalLe α]

/-- `go`: the elements at both ends were just swapped, so both scans will advance. -/
theorem partitionLoop_spec {pivot : α} {s e : Nat} (fuel : Nat) {a : List α} {m : List β} {low high : Nat}
    (he : e ≤ a.length) (hm : a.length ≤ m.length) (hs : s + 1 ≤ low) (hle : low ≤ high + 1) (hh : high < e)
    (hlo : ∀ k x, s < k → k < low → a[k]? = some x → (x ≤? pivot) = true)
    (hhi : ∀ k x, high < k → k < e → a[k]? = some x → (pivot ≤? x) = true)
    (go : Bool)
    (hgo : go = true → low ≤ high ∧ (∃ x, a[low]? = some x ∧ (x ≤? pivot) = true) ∧
      ∃ x, a[high]? = some x ∧ (pivot ≤? x) = true)
    (hf : high + 1 - low + (if go then 0 else 1) ≤ fuel) :
    ∃ a' m' h, partitionLoop pivot fuel a m low high = .ok (a', m', h) ∧ Mix (s + 1) e a m a' m' ∧ s ≤ h ∧ h < e ∧
      (∀ k x, s < k → k ≤ h → a'[k]? = some x → (x ≤? pivot) = true) ∧
      (∀ k x, h < k → k < e → a'[k]? = some x → (pivot ≤? x) = true) := by
  induction fuel generalizing a m low high go with
  | zero =>
    cases go with
    | false => simp at hf
    | true => have := (hgo rfl).1; simp at hf; omega
  | succ n ih =>
    obtain ⟨h, e1, h1, h2, h3, h4⟩ := scanHigh_spec (a := a) (pivot := pivot) (by omega : 1 ≤ low) high (by omega) hle
    obtain ⟨l, e2, l1, l2, l3, l4⟩ := scanLow_spec (a := a) (pivot := pivot) (high := h) (by omega) (h + 1 - low) low
      (Nat.le_refl _) h2
    have hlo' : ∀ k x, s < k → k < l → a[k]? = some x → (x ≤? pivot) = true := by
      intro k x k1 k2 hx
      by_cases hk : k < low
      · exact hlo k x k1 hk hx
      · exact l3 k x (by omega) k2 hx
    have hhi' : ∀ k x, h < k → k < e → a[k]? = some x → (pivot ≤? x) = true := by
      intro k x k1 k2 hx
      by_cases hk : high < k
      · exact hhi k x hk k2 hx
      · exact h3 k x k1 (by omega) hx
    unfold partitionLoop
    simp only [e1, e2, bind, Except.bind]
    by_cases hlh : l ≤ h
    · rw [if_pos hlh]
      obtain ⟨xh, hxh, hxh'⟩ := h4 (by omega)
      obtain ⟨xl, hxl, hxl'⟩ := l4 hlh
      have hne : l ≠ h := by
        intro e'
        subst e'
        rw [hxh] at hxl
        cases hxl
        rcases TotalLe.total pivot xh with t | t
        · rw [hxh'] at t; cases t
        · rw [hxl'] at t; cases t
      obtain ⟨a', m', s1, s2, hmix, hget⟩ := swap_mix (s := s + 1) (e := e) (i := l) (j := h) (a := a) (m := m)
        (by omega) (by omega) he hm
      simp only [s1, s2]
      have hxh2 : (xh ≤? pivot) = true := by
        rcases TotalLe.total pivot xh with t | t
        · rw [hxh'] at t; cases t
        · exact t
      have hxl2 : (pivot ≤? xl) = true := by
        rcases TotalLe.total pivot xl with t | t
        · exact t
        · rw [hxl'] at t; cases t
      have hal : a'[l]? = some xh := by rw [hget, if_neg hne, if_pos rfl, hxh]
      have hah : a'[h]? = some xl := by rw [hget, if_pos rfl, hxl]
      obtain ⟨a2, m2, p, e3, hmix2, p1, p2, p3, p4⟩ := ih (a := a') (m := m') (low := l) (high := h)
        (by rw [hmix.len]; exact he) (by rw [hmix.len, hmix.mlen]; exact hm) (by omega) (by omega) (by omega)
        (fun k x k1 k2 hx => by
          rw [hget, if_neg (by omega), if_neg (by omega)] at hx
          exact hlo' k x k1 k2 hx)
        (fun k x k1 k2 hx => by
          rw [hget, if_neg (by omega), if_neg (by omega)] at hx
          exact hhi' k x k1 k2 hx)
        true (fun _ => ⟨hlh, ⟨xh, hal, hxh2⟩, ⟨xl, hah, hxl2⟩⟩)
        (by
          simp only [if_true]
          cases go with
          | false => simp at hf; omega
          | true =>
            obtain ⟨g1, ⟨y1, gy1, gy2⟩, ⟨z1, gz1, gz2⟩⟩ := hgo rfl
            have : h ≠ high := by
              intro e'
              subst e'
              rw [hxh] at gz1
              cases gz1
              rw [hxh'] at gz2; cases gz2
            simp at hf
            omega)
      exact ⟨a2, m2, p, e3, hmix.trans hmix2, p1, p2, p3, p4⟩
    · rw [if_neg hlh]
      exact ⟨a, m, h, rfl, Mix.refl _ _ _ _, by omega, by omega, fun k x k1 k2 hx => hlo' k x k1 (by omega) hx, hhi'⟩

theorem partition_spec {a : List α} {m : List β} {s e : Nat} (hse : s + 1 < e) (he : e ≤ a.length)
    (hm : a.length ≤ m.length) : ∃ a' m' p pivot, partition a s e m = .ok (a', m', p) ∧ Mix s e a m a' m' ∧ s ≤ p ∧ p < e ∧
      a'[p]? = some pivot ∧ (∀ k x, s ≤ k → k < p → a'[k]? = some x → (x ≤? pivot) = true) ∧
      (∀ k x, p < k → k < e → a'[k]? = some x → (pivot ≤? x) = true) := by
  have hs : s < a.length := by omega
  obtain ⟨a1, m1, h, e1, hmix, h1, h2, h3, h4⟩ := partitionLoop_spec (pivot := a[s]) (s := s) (e := e) (e - s)
    (a := a) (m := m) (low := s + 1) (high := e - 1) he hm (Nat.le_refl _) (by omega) (by omega)
    (fun k x k1 k2 => by omega) (fun k x k1 k2 => by omega) false (fun h => by cases h) (by simp; omega)
  obtain ⟨a2, m2, s1, s2, hmix2, hget⟩ := swap_mix (s := s) (e := e) (i := s) (j := h) (a := a1) (m := m1)
    (by omega) (by omega) (by rw [hmix.len]; exact he) (by rw [hmix.len, hmix.mlen]; exact hm)
  have hpiv : a1[s]? = some a[s] := by rw [hmix.out s (by omega), List.getElem?_eq_getElem hs]
  refine ⟨a2, m2, h, a[s], ?_, (hmix.wider (by omega) (Nat.le_refl _)).trans hmix2, h1, h2, ?_, ?_, ?_⟩
  · unfold partition
    simp only [njIdx, List.getElem?_eq_getElem hs, e1, s1, s2, bind, Except.bind, pure, Except.pure]
  · rw [hget, if_pos rfl, hpiv]
  · intro k x k1 k2 hx
    rw [hget, if_neg (by omega)] at hx
    split at hx
    · exact h3 h x (by omega) (Nat.le_refl _) hx
    · exact h3 k x (by omega) (by omega) hx
  · intro k x k1 k2 hx
    rw [hget, if_neg (by omega), if_neg (by omega)] at hx
    exact h4 k x k1 k2 hx

/-! ### The sort -/

theorem dualQuickSortAux_spec (fuel : Nat) {a : List α} {m : List β} {s e : Nat} (he : e ≤ a.length)
    (hm : a.length ≤ m.length) (hf : e - s ≤ fuel) : ∃ a' m', dualQuickSortAux fuel a s e m = .ok (a', m') ∧
      Mix s e a m a' m' ∧ ∀ i j x y, s ≤ i → i < j → j < e → a'[i]? = some x → a'[j]? = some y → (x ≤? y) = true := by
  induction fuel generalizing a m s e with
  | zero =>
    unfold dualQuickSortAux
    rw [if_pos (by omega)]
    exact ⟨a, m, rfl, Mix.refl _ _ _ _, fun i j x y h1 h2 h3 => by omega⟩
  | succ n ih =>
    unfold dualQuickSortAux
    by_cases hse : e ≤ s + 1
    · rw [if_pos hse]
      exact ⟨a, m, rfl, Mix.refl _ _ _ _, fun i j x y h1 h2 h3 => by omega⟩
    · rw [if_neg hse]
      obtain ⟨a1, m1, p, pivot, e1, x1, p1, p2, p3, p4, p5⟩ := partition_spec (a := a) (m := m) (s := s) (e := e)
        (by omega) he hm
      obtain ⟨a2, m2, e2, x2, s2⟩ := ih (a := a1) (m := m1) (s := s) (e := p) (by rw [x1.len]; omega)
        (by rw [x1.len, x1.mlen]; exact hm) (by omega)
      obtain ⟨a3, m3, e3, x3, s3⟩ := ih (a := a2) (m := m2) (s := p + 1) (e := e) (by rw [x2.len, x1.len]; omega)
        (by rw [x2.len, x2.mlen, x1.len, x1.mlen]; exact hm) (by omega)
      simp only [e1, e2, bind, Except.bind]
      refine ⟨a3, m3, e3, x1.trans ((x2.wider (Nat.le_refl _) (by omega)).trans (x3.wider (by omega) (Nat.le_refl _))), ?_⟩
      have hp3 : a3[p]? = some pivot := by rw [x3.out p (by omega), x2.out p (by omega), p3]
      have hlow : ∀ k x, s ≤ k → k < p → a3[k]? = some x → (x ≤? pivot) = true := by
        intro k x k1 k2 hx
        rw [x3.out k (by omega)] at hx
        obtain ⟨j, j1, j2, hj⟩ := x2.src k x k1 k2 hx
        exact p4 j x j1 j2 hj
      have hhigh : ∀ k x, p < k → k < e → a3[k]? = some x → (pivot ≤? x) = true := by
        intro k x k1 k2 hx
        obtain ⟨j, j1, j2, hj⟩ := x3.src k x (by omega) k2 hx
        rw [x2.out j (by omega)] at hj
        exact p5 j x (by omega) j2 hj
      intro i j x y h1 h2 h3 hx hy
      rcases Nat.lt_trichotomy i p with hi | hi | hi
      · rcases Nat.lt_trichotomy j p with hj | hj | hj
        · rw [x3.out i (by omega)] at hx
          rw [x3.out j (by omega)] at hy
          exact s2 i j x y h1 h2 hj hx hy
        · subst hj
          rw [hp3] at hy
          cases hy
          exact hlow i x h1 hi hx
        · exact TotalLe.trans _ _ _ (hlow i x h1 hi hx) (hhigh j y hj h3 hy)
      · subst hi
        rw [hp3] at hx
        cases hx
        exact hhigh j y h2 h3 hy
      · exact s3 i j x y (by omega) h2 h3 hx hy

end

end PyFCM
