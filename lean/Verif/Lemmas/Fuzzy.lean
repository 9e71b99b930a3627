import Verif.Lemmas.RealFn
import Verif.Spec.Fuzzy
import Mathlib.Tactic.Positivity
/-
`fuzzy_set` over the reals.
-/
namespace PyFCM
open Arith

theorem njIdx_ok {β} {xs : List β} {i : Nat} {x : β} (h : xs[i]? = some x) : njIdx xs i = .ok x := by
  unfold njIdx; rw [h]

theorem njIdx_some {β} {xs : List β} {i : Nat} {x : β} (h : njIdx xs i = .ok x) : xs[i]? = some x := by
  unfold njIdx at h
  cases hx : xs[i]? with
  | none => rw [hx] at h; cases h
  | some y => rw [hx] at h; cases h; rfl

/-- Points in the hull of `[lo, hi]` stay there. -/
theorem lerp_mem {a b t lo hi : ℝ} (ha : lo ≤ a ∧ a ≤ hi) (hb : lo ≤ b ∧ b ≤ hi) (h0 : 0 ≤ t) (h1 : t ≤ 1) :
    lo ≤ a + (b - a) * t ∧ a + (b - a) * t ≤ hi := by
  constructor <;> nlinarith [ha.1, ha.2, hb.1, hb.2]

theorem frac_mem {x x0 x1 : ℝ} (l0 : x0 < x) (l1 : x < x1) :
    0 ≤ (x - x0) / (x1 - x0) ∧ (x - x0) / (x1 - x0) ≤ 1 := by
  have h : 0 < x1 - x0 := by linarith
  constructor
  · exact div_nonneg (by linarith) h.le
  · rw [div_le_one h]; linarith

theorem Spec.Interp.mem {xs ys : List ℝ} {x y lo hi : ℝ} (h : Spec.Interp xs ys x y)
    (hm : ∀ m ∈ ys, lo ≤ m ∧ m ≤ hi) : lo ≤ y ∧ y ≤ hi := by
  cases h with
  | listed i hx hy => exact hm _ (List.mem_of_getElem? hy)
  | below h hy => exact hm _ (List.mem_of_getElem? hy)
  | above h hy => exact hm _ (List.mem_of_getElem? hy)
  | between i x0 x1 y0 y1 h0 h1 k0 k1 l0 l1 hy =>
    subst hy
    exact lerp_mem (hm _ (List.mem_of_getElem? k0)) (hm _ (List.mem_of_getElem? k1)) (frac_mem l0 l1).1
      (frac_mem l0 l1).2

theorem signOf_nonneg {v : ℝ} (h : 0 ≤ v) : signOf v = .ok 1 := by
  unfold signOf
  by_cases h0 : v = 0
  · rw [if_pos (by simpa using h0)]; simp
  · rw [if_neg (by simpa using h0)]
    have e : (Arith.abs v : ℝ) = v := by simp [abs_of_nonneg h]
    rw [e, pdiv_real h0, div_self h0]

theorem clamp_real (t : ℝ) :
    (let e := if lit 1 <? t then lit 1 else t; if e <? lit (-1) then lit (-1) else e) = max (-1) (min 1 t) := by
  have h1 : (lit 1 : ℝ) = 1 := by simp
  have h2 : (lit (-1) : ℝ) = -1 := by simp
  simp only [real_lt, h1, h2]
  rcases lt_or_ge 1 t with c1 | c1
  · rw [if_pos c1, if_neg (by norm_num), min_eq_left c1.le, max_eq_right (by norm_num)]
  · rw [if_neg (not_lt.2 c1), min_eq_right c1]
    rcases lt_or_ge t (-1) with c2 | c2
    · rw [if_pos c2, max_eq_left c2.le]
    · rw [if_neg (not_lt.2 c2), max_eq_right c2]

theorem fuzzyInterp_real {neg : Bool} {v : ℝ} {mb vl : List ℝ} {p n : Nat} {x0 x1 y0 y1 : ℝ} (hv : 0 ≤ v)
    (h0 : vl[p]? = some x0) (h1 : vl[n]? = some x1) (k0 : mb[p]? = some y0) (k1 : mb[n]? = some y1)
    (hne : x1 - x0 ≠ 0) :
    fuzzyInterp neg v mb vl p n =
      .ok (let e := y0 + (y1 - y0) * ((v - x0) / (x1 - x0)); if neg then -(1 - e) else max (-1) (min 1 e)) := by
  unfold fuzzyInterp
  have e : (Arith.abs v : ℝ) = v := by simp [abs_of_nonneg hv]
  simp only [signOf_nonneg hv, njIdx_ok h0, njIdx_ok h1, njIdx_ok k0, njIdx_ok k1, bind, Except.bind, e,
    pdiv_real hne]
  have hest : (1 : ℝ) * ((lit 1 - (v - x0) / (x1 - x0)) * y0 + (lit 1 - (x1 - v) / (x1 - x0)) * y1) =
      y0 + (y1 - y0) * ((v - x0) / (x1 - x0)) := by
    simp only [real_lit]
    field_simp
    push_cast
    ring
  rw [hest]
  generalize y0 + (y1 - y0) * ((v - x0) / (x1 - x0)) = t
  cases neg with
  | true => simp [pure, Except.pure]
  | false =>
    simp only [pure, Except.pure, Bool.false_eq_true, if_false]
    congr 1
    exact clamp_real t

/-- Whether `fuzzy_set` mirrors the value: a negative value on a description inside `[0,1]`. -/
def Mirrored (vl : List ℝ) (v : ℝ) : Prop := v < 0 ∧ ∀ x ∈ vl, 0 ≤ x ∧ x ≤ 1

theorem mirrored_iff {vl : List ℝ} {v mn mx : ℝ} (h1 : pymin vl = .ok mn) (h2 : pymax vl = .ok mx) :
    ((lit 0 ≤? mn) && (mn ≤? lit 1) && ((lit 0 ≤? mx) && (mx ≤? lit 1)) && (v <? lit 0)) = true ↔
      Mirrored vl v := by
  obtain ⟨m1, l1⟩ := pymin_real h1
  obtain ⟨m2, l2⟩ := pymax_real h2
  simp only [Bool.and_eq_true, real_le, real_lt, real_lit, Mirrored]
  constructor
  · rintro ⟨⟨⟨a, b⟩, c, d⟩, e⟩
    push_cast at *
    exact ⟨e, fun x hx => ⟨a.trans (l1 x hx), (l2 x hx).trans d⟩⟩
  · rintro ⟨e, h⟩
    push_cast
    exact ⟨⟨⟨(h _ m1).1, (h _ m1).2⟩, (h _ m2).1, (h _ m2).2⟩, e⟩

/-- What `fuzzy_set` does with the interpolated value. -/
noncomputable def mirror (b : Bool) (y : ℝ) : ℝ := if b then -(1 - y) else y

theorem fuzzyAt_real (b : Bool) (y : ℝ) : fuzzyAt b y = mirror b y := by
  unfold fuzzyAt mirror
  cases b <;> simp

/-- The main case: the looked-up value `v` is not negative. -/
theorem fuzzySet_interp {value : ℝ} {mb vl : List ℝ} (hs : vl.Pairwise (· ≤ ·)) (hlen : mb.length = vl.length)
    (h2 : 2 ≤ vl.length) (hm : ∀ m ∈ mb, -1 ≤ m ∧ m ≤ 1) {b : Bool} (hb : b = true ↔ Mirrored vl value)
    (hv : 0 ≤ value ∨ b = true) :
    ∃ y, Spec.Interp vl mb (if b then -value else value) y ∧ fuzzySet value mb vl = .ok (mirror b y) := by
  unfold fuzzySet
  have hne : vl ≠ [] := by intro h; rw [h] at h2; simp at h2
  obtain ⟨x0, rest, rfl⟩ := List.exists_cons_of_ne_nil hne
  obtain ⟨mn, e1⟩ : ∃ mn, pymin (x0 :: rest) = .ok mn := ⟨_, rfl⟩
  obtain ⟨mx, e2⟩ : ∃ mx, pymax (x0 :: rest) = .ok mx := ⟨_, rfl⟩
  generalize hvl : x0 :: rest = vl at *
  simp only [e1, e2, bind, Except.bind]
  have hneg := mirrored_iff (v := value) e1 e2
  generalize ((lit 0 ≤? mn) && (mn ≤? lit 1) && ((lit 0 ≤? mx) && (mx ≤? lit 1)) && (value <? lit 0)) = neg at *
  have hbn : neg = b := by
    rw [Bool.eq_iff_iff, hneg, hb]
  subst hbn
  have hval : (if neg = true then Arith.abs value else value) = if neg = true then -value else value := by
    cases neg with
    | false => rfl
    | true =>
      have : value < 0 := (hb.1 rfl).1
      simp [abs_of_neg this]
  rw [hval]
  have hv0 : 0 ≤ (if neg = true then -value else value) := by
    cases neg with
    | false => simpa using hv
    | true =>
      have : value < 0 := (hb.1 rfl).1
      simp only [if_true]; linarith
  generalize (if neg = true then -value else value) = v at hv0 ⊢
  obtain ⟨s1, s2, s3⟩ := searchSorted_spec (v := v) hs
  generalize searchSorted vl v = i0 at *
  obtain ⟨idx, hidx⟩ : ∃ idx, idx = if i0 = vl.length then i0 - 1 else i0 := ⟨_, rfl⟩
  rw [← hidx]
  have hil : idx < vl.length := by split at hidx <;> omega
  have him : idx < mb.length := by omega
  have gv : vl[idx]? = some vl[idx] := List.getElem?_eq_getElem hil
  have gm : mb[idx]? = some mb[idx] := List.getElem?_eq_getElem him
  rw [njIdx_ok gv, njIdx_ok gm]
  simp only [real_eq, real_lt, pure, Except.pure]
  by_cases c1 : vl[idx] = v
  · rw [if_pos c1]
    exact ⟨mb[idx], .listed idx (by rw [gv, c1]) gm, by rw [fuzzyAt_real]⟩
  rw [if_neg c1]
  have hinterp : ∀ (_ : idx ≠ 0) (_ : v < vl[idx]), i0 = idx →
      ∃ y, Spec.Interp vl mb v y ∧ fuzzyInterp neg v mb vl (idx - 1) idx = .ok (mirror neg y) := by
    intro hz hlt hi
    have hp : idx - 1 < vl.length := by omega
    have hpm : idx - 1 < mb.length := by omega
    have l0 : vl[idx - 1] < v := s2 _ hp (by omega)
    have gp : vl[idx - 1]? = some vl[idx - 1] := List.getElem?_eq_getElem hp
    have gpm : mb[idx - 1]? = some mb[idx - 1] := List.getElem?_eq_getElem hpm
    have hidx1 : idx - 1 + 1 = idx := by omega
    refine ⟨_, .between (idx - 1) vl[idx - 1] vl[idx] mb[idx - 1] mb[idx] gp (by rw [hidx1]; exact gv) gpm
      (by rw [hidx1]; exact gm) l0 hlt rfl, ?_⟩
    rw [fuzzyInterp_real hv0 gp gv gpm gm (by linarith)]
    have hr := lerp_mem (hm _ (List.getElem_mem hpm)) (hm _ (List.getElem_mem him)) (frac_mem l0 hlt).1
      (frac_mem l0 hlt).2
    generalize mb[idx - 1] + (mb[idx] - mb[idx - 1]) * ((v - vl[idx - 1]) / (vl[idx] - vl[idx - 1])) = e at hr
    dsimp only
    unfold mirror
    cases neg with
    | true => rfl
    | false => simp [min_eq_right hr.2, max_eq_right hr.1]
  by_cases c2 : idx = 0
  · rw [if_pos c2]
    have hi : i0 = 0 := by split at hidx <;> omega
    have hle : v ≤ vl[idx] := s3 _ hil (by omega)
    have hlt : v < vl[idx] := lt_of_le_of_ne hle (Ne.symm c1)
    rw [if_pos hlt]
    refine ⟨mb[idx], .below ?_ (by rw [← c2]; exact gm), by rw [fuzzyAt_real]⟩
    intro x hx
    obtain ⟨j, hj, rfl⟩ := List.getElem_of_mem hx
    rcases Nat.eq_zero_or_pos j with h | h
    · subst h; subst c2; exact hlt
    · refine lt_of_lt_of_le hlt ?_
      exact List.pairwise_iff_getElem.1 hs _ _ _ _ (by omega)
  rw [if_neg c2]
  by_cases c3 : idx = vl.length - 1
  · rw [if_pos c3]
    by_cases c4 : vl[idx] < v
    · rw [if_pos c4]
      refine ⟨mb[idx], .above ?_ (by rw [← c3]; exact gm), by rw [fuzzyAt_real]⟩
      intro x hx
      obtain ⟨j, hj, rfl⟩ := List.getElem_of_mem hx
      rcases Nat.lt_or_ge j idx with h | h
      · exact lt_of_le_of_lt (List.pairwise_iff_getElem.1 hs _ _ _ _ h) c4
      · have : j = idx := by omega
        subst this; exact c4
    · rw [if_neg c4]
      have hlt : v < vl[idx] := lt_of_le_of_ne (not_lt.1 c4) (Ne.symm c1)
      refine hinterp c2 hlt ?_
      split at hidx
      · exact absurd (s2 idx hil (by omega)) c4
      · exact hidx.symm
  · rw [if_neg c3]
    have hi : i0 = idx := by split at hidx <;> omega
    have hle : v ≤ vl[idx] := s3 _ hil (by omega)
    rw [if_neg (by simpa using hle)]
    exact hinterp c2 (lt_of_le_of_ne hle (Ne.symm c1)) hi

theorem ebind_ok {β γ : Type} {x : Except Err β} {f : β → Except Err γ} {c : γ} (h : (x >>= f) = .ok c) :
    ∃ b, x = .ok b ∧ f b = .ok c := by
  cases x with
  | error e => cases h
  | ok b => exact ⟨b, rfl, h⟩

theorem fuzzyInterp_range {v r : ℝ} {mb vl : List ℝ} {p n : Nat} (h : fuzzyInterp false v mb vl p n = .ok r) :
    -1 ≤ r ∧ r ≤ 1 := by
  unfold fuzzyInterp at h
  obtain ⟨sg, -, h⟩ := ebind_ok h
  obtain ⟨y0, -, h⟩ := ebind_ok h
  obtain ⟨y1, -, h⟩ := ebind_ok h
  obtain ⟨x0, -, h⟩ := ebind_ok h
  obtain ⟨x1, -, h⟩ := ebind_ok h
  obtain ⟨a, -, h⟩ := ebind_ok h
  obtain ⟨b, -, h⟩ := ebind_ok h
  simp only [Bool.false_eq_true, if_false, pure, Except.pure, Except.ok.injEq] at h
  rw [clamp_real] at h
  subst h
  exact ⟨le_max_left _ _, max_le (by norm_num) (min_le_left _ _)⟩

theorem fuzzyInterp_short {neg : Bool} {v r : ℝ} {mb vl : List ℝ} (h : fuzzyInterp neg v mb vl 0 1 = .ok r) :
    2 ≤ mb.length := by
  unfold fuzzyInterp at h
  obtain ⟨sg, -, h⟩ := ebind_ok h
  obtain ⟨y0, -, h⟩ := ebind_ok h
  obtain ⟨y1, hy, h⟩ := ebind_ok h
  have := njIdx_some hy
  obtain ⟨h', -⟩ := List.getElem?_eq_some_iff.1 this
  omega

/-- Whatever branch is taken, the result is a listed membership (possibly mirrored) or an interpolation. -/
theorem fuzzySet_cases {value r : ℝ} {mb vl : List ℝ} (h : fuzzySet value mb vl = .ok r) :
    ∃ b : Bool, (b = true ↔ Mirrored vl value) ∧ ((∃ m ∈ mb, r = mirror b m) ∨
      ∃ v p n, fuzzyInterp b v mb vl p n = .ok r ∧ (vl.length < 2 → p = 0 ∧ n = 1)) := by
  unfold fuzzySet at h
  obtain ⟨mn, e1, h⟩ := ebind_ok h
  obtain ⟨mx, e2, h⟩ := ebind_ok h
  refine ⟨_, mirrored_iff (v := value) e1 e2, ?_⟩
  dsimp only at h
  generalize ((lit 0 ≤? mn) && (mn ≤? lit 1) && ((lit 0 ≤? mx) && (mx ≤? lit 1)) && (value <? lit 0)) = neg at *
  generalize (if neg = true then Arith.abs value else value) = v at *
  generalize hidx : (if searchSorted vl v = vl.length then searchSorted vl v - 1 else searchSorted vl v) = idx at *
  obtain ⟨vi, hvi, h⟩ := ebind_ok h
  have hil : idx < vl.length := (List.getElem?_eq_some_iff.1 (njIdx_some hvi)).1
  have hm : ∀ {i : Nat}, (do let m ← njIdx mb i; return fuzzyAt neg m : Except Err ℝ) = .ok r →
      ∃ m ∈ mb, r = mirror neg m := by
    intro i h
    obtain ⟨m, hm, h⟩ := ebind_ok h
    refine ⟨m, List.mem_of_getElem? (njIdx_some hm), ?_⟩
    rw [← fuzzyAt_real]
    simpa [pure, Except.pure] using h.symm
  split at h
  · exact .inl (hm h)
  split at h
  · split at h
    · exact .inl (hm h)
    · exact .inr ⟨_, _, _, h, fun _ => ⟨rfl, rfl⟩⟩
  split at h
  · split at h
    · exact .inl (hm h)
    · exact .inr ⟨_, _, _, h, fun _ => by omega⟩
  split at h
  · exact .inr ⟨_, _, _, h, fun _ => by omega⟩
  · exact .inr ⟨_, _, _, h, fun _ => by omega⟩

theorem fuzzySet_range {value r : ℝ} {mb vl : List ℝ} (hs : vl.Pairwise (· ≤ ·)) (hlen : mb.length = vl.length)
    (hm : ∀ m ∈ mb, 0 ≤ m ∧ m ≤ 1) (h : fuzzySet value mb vl = .ok r) : -1 ≤ r ∧ r ≤ 1 := by
  obtain ⟨b, hb, ⟨m, hmem, rfl⟩ | ⟨v, p, n, hi, hshort⟩⟩ := fuzzySet_cases h
  · have := hm m hmem
    cases b <;> simp only [mirror, Bool.false_eq_true, if_false, if_true] <;> constructor <;> linarith
  · cases b with
    | false => exact fuzzyInterp_range hi
    | true =>
      have h2 : 2 ≤ vl.length := by
        rcases Nat.lt_or_ge vl.length 2 with c | c
        · obtain ⟨rfl, rfl⟩ := hshort c
          have := fuzzyInterp_short hi
          omega
        · exact c
      obtain ⟨y, hy, he⟩ := fuzzySet_interp hs hlen h2 (fun m hmm => ⟨by linarith [(hm m hmm).1], (hm m hmm).2⟩) hb
        (.inr rfl)
      rw [h] at he
      obtain rfl := Except.ok.inj he
      have := hy.mem hm
      simp only [mirror, if_true]
      constructor <;> linarith

end PyFCM
