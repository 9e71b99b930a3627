import Verif.Lemmas.VectorTerm
/-
What the vectorised loop computes: a list of columns, and the matrix that holds them.
-/
namespace PyFCM
open Arith Spec

set_option linter.unusedSectionVars false

variable {α : Type} [Arith α]

/-- The output matrix after the columns `xs` have been written. -/
def rowsOf (xs : List (List α)) (n M : Nat) : List (List α) :=
  (List.range n).map fun i => xs.map (fun x => x.getD i (lit 0)) ++ List.replicate (M - xs.length) (lit 2)

/-- The step producing column `s` moved the sum over all concepts by less than `d`. -/
def Near (d : α) (xs : List (List α)) (s : Nat) : Prop :=
  (abs (pysum (xs.getD s []) - pysum (xs.getD (s - 1) [])) <? d) = true

/-- `xs` are the columns of a run of the prepared data `c` from `x0`. -/
structure Cols (c : Cache α) (x0 : List α) (xs : List (List α)) : Prop where
  head : xs[0]? = some x0
  len : ∀ x ∈ xs, x.length = x0.length
  step : ∀ t x y, xs[t]? = some x → xs[t + 1]? = some y →
    (List.range x0.length).mapM (vecNode c (List.zipWith desat c.avoidSaturation x)) = .ok y

theorem Cols.pos {c : Cache α} {x0 : List α} {xs : List (List α)} (h : Cols c x0 xs) : 0 < xs.length := by
  have := h.head
  cases xs with
  | nil => simp at this
  | cons => simp

theorem Cols.single (c : Cache α) (x0 : List α) : Cols c x0 [x0] :=
  ⟨rfl, by simp, by intro t x y h1 h2; simp at h2⟩

theorem Cols.snoc {c : Cache α} {x0 : List α} {xs : List (List α)} (h : Cols c x0 xs) {x y : List α}
    (hx : xs[xs.length - 1]? = some x)
    (hy : (List.range x0.length).mapM (vecNode c (List.zipWith desat c.avoidSaturation x)) = .ok y) :
    Cols c x0 (xs ++ [y]) := by
  have hp := h.pos
  refine ⟨?_, ?_, ?_⟩
  · rw [List.getElem?_append_left hp]; exact h.head
  · intro z hz
    rw [List.mem_append] at hz
    rcases hz with hz | hz
    · exact h.len z hz
    · rw [List.mem_singleton] at hz; subst hz
      simpa using mapM_length hy
  · intro t a b ha hb
    rcases Nat.lt_trichotomy (t + 1) xs.length with hlt | heq | hgt
    · rw [List.getElem?_append_left (by omega)] at ha hb
      exact h.step t a b ha hb
    · rw [List.getElem?_append_left (by omega)] at ha
      rw [heq, List.getElem?_append_right (Nat.le_refl _)] at hb
      have ht : t = xs.length - 1 := by omega
      subst ht
      rw [hx] at ha
      cases ha
      simp at hb
      subst hb
      exact hy
    · rw [List.getElem?_eq_none (by simp; omega)] at hb; cases hb

theorem row_set {xs : List (List α)} {i M : Nat} {v : α} (hlt : xs.length < M) :
    (xs.map (fun x : List α => x.getD i (lit 0)) ++ List.replicate (M - xs.length) (lit 2)).set xs.length v
      = xs.map (fun x => x.getD i (lit 0)) ++ [v] ++ List.replicate (M - (xs.length + 1)) (lit 2) := by
  obtain ⟨k, hk⟩ : ∃ k, M - xs.length = k + 1 := ⟨M - xs.length - 1, by omega⟩
  have hk' : M - (xs.length + 1) = k := by omega
  rw [hk, hk', List.replicate_succ, List.set_append_right _ _ (by simp)]
  simp

theorem rowsOf_set {xs : List (List α)} {n M : Nat} {new : List α} (hn : new.length = n) (hlt : xs.length < M) :
    List.zipWith (fun r v => r.set xs.length v) (rowsOf xs n M) new = rowsOf (xs ++ [new]) n M := by
  apply List.ext_getElem
  · simp [rowsOf, hn]
  · intro i h1 h2
    have h3 : i < new.length := by
      rw [List.length_zipWith] at h1; omega
    have hg : new.getD i (lit 0) = new[i] := by simp [List.getD_eq_getElem?_getD, h3]
    simp only [rowsOf, List.getElem_zipWith, List.getElem_map, List.getElem_range]
    rw [row_set hlt, List.map_append, List.map_cons, List.map_nil, hg, List.length_append]
    rfl

theorem rowsOf_init {x0 : List α} {M : Nat} (hM : 0 < M) :
    x0.map (fun v => (List.replicate M (lit 2)).set 0 v) = rowsOf [x0] x0.length M := by
  apply List.ext_getElem
  · simp [rowsOf]
  · intro i h1 h2
    have h1' : i < x0.length := by simpa using h1
    obtain ⟨k, rfl⟩ : ∃ k, M = k + 1 := ⟨M - 1, by omega⟩
    simp [rowsOf, List.replicate_succ, List.getD_eq_getElem?_getD, h1']

theorem colSum_rowsOf {xs : List (List α)} {n M k : Nat} {x : List α} (hx : xs[k]? = some x) (hl : x.length = n) :
    colSum (rowsOf xs n M) k = pysum x := by
  unfold colSum
  congr 1
  apply List.ext_getElem
  · simp [rowsOf, hl]
  · intro i h1 h2
    obtain ⟨hk, rfl⟩ := List.getElem?_eq_some_iff.1 hx
    simp [rowsOf, List.getD_eq_getElem?_getD, List.getElem?_append_left, hk, h2]

theorem Near.snoc {d : α} {xs : List (List α)} {y : List α} {s : Nat} (hs : s < xs.length) :
    Near d (xs ++ [y]) s ↔ Near d xs s := by
  unfold Near
  have h1 : (xs ++ [y]).getD s [] = xs.getD s [] := by
    simp [List.getD_eq_getElem?_getD, List.getElem?_append_left hs]
  have h2 : (xs ++ [y]).getD (s - 1) [] = xs.getD (s - 1) [] := by
    simp [List.getD_eq_getElem?_getD, List.getElem?_append_left (show s - 1 < xs.length by omega)]
  rw [h1, h2]

/-- What is known before a round: `ctr` of the required quiet steps are still missing. -/
structure Waiting (q : Nat → Prop) (extra k ctr : Nat) : Prop where
  pos : 1 ≤ ctr
  le : ctr ≤ extra
  lt : extra - ctr < k
  quiet : ∀ s, k - (extra - ctr) ≤ s → s < k → q s
  before : extra - ctr + 1 = k ∨ ¬ q (k - (extra - ctr) - 1)
  least : ∀ l, extra < l → l ≤ k → ∃ s, l - extra ≤ s ∧ s < l ∧ ¬ q s

theorem Waiting.start (q : Nat → Prop) {extra : Nat} (h : 1 ≤ extra) : Waiting q extra 1 extra :=
  ⟨h, Nat.le_refl _, by omega, fun s h1 h2 => by omega, .inl (by omega), fun l h1 h2 => by omega⟩

theorem Waiting.congr {q q' : Nat → Prop} {extra k ctr : Nat} (h : Waiting q extra k ctr)
    (he : ∀ s, s < k → (q' s ↔ q s)) : Waiting q' extra k ctr := by
  refine ⟨h.pos, h.le, h.lt, fun s h1 h2 => (he s h2).2 (h.quiet s h1 h2), ?_, ?_⟩
  · rcases h.before with hb | hb
    · exact .inl hb
    · have := h.lt
      exact .inr fun hq => hb ((he _ (by omega)).1 hq)
  · intro l h1 h2
    obtain ⟨s, a, b, c⟩ := h.least l h1 h2
    exact ⟨s, a, b, fun hq => c ((he s (by omega)).1 hq)⟩

theorem Waiting.no {q : Nat → Prop} {extra k ctr : Nat} (h : Waiting q extra k ctr) (hq : ¬ q k) :
    Waiting q extra (k + 1) extra := by
  have := h.pos; have := h.le; have := h.lt
  refine ⟨by omega, Nat.le_refl _, by omega, fun s h1 h2 => by omega, .inr ?_, ?_⟩
  · have : k + 1 - (extra - extra) - 1 = k := by omega
    rw [this]; exact hq
  · intro l h1 h2
    by_cases hl : l = k + 1
    · subst hl; exact ⟨k, by omega, by omega, hq⟩
    · exact h.least l h1 (by omega)

theorem Waiting.yes {q : Nat → Prop} {extra k ctr : Nat} (h : Waiting q extra k ctr) (hq : q k) (hc : ctr - 1 ≠ 0) :
    Waiting q extra (k + 1) (ctr - 1) := by
  have := h.pos; have := h.le; have := h.lt
  refine ⟨by omega, by omega, by omega, ?_, ?_, ?_⟩
  · intro s h1 h2
    by_cases hs : s = k
    · subst hs; exact hq
    · exact h.quiet s (by omega) (by omega)
  · rcases h.before with hb | hb
    · exact .inl (by omega)
    · have : k + 1 - (extra - (ctr - 1)) - 1 = k - (extra - ctr) - 1 := by omega
      rw [this]; exact .inr hb
  · intro l h1 h2
    by_cases hl : l = k + 1
    · subst hl
      rcases h.before with hb | hb
      · omega
      · exact ⟨_, by omega, by omega, hb⟩
    · exact h.least l h1 (by omega)

theorem Waiting.done {q : Nat → Prop} {extra k ctr : Nat} (h : Waiting q extra k ctr) (hq : q k) (hc : ctr - 1 = 0) :
    StopsAt q extra (k + 1) := by
  have := h.pos; have := h.le; have := h.lt
  refine ⟨by omega, ?_, ?_⟩
  · intro s h1 h2
    by_cases hs : s = k
    · subst hs; exact hq
    · exact h.quiet s (by omega) (by omega)
  · intro l h1 h2
    exact h.least l h1 (by omega)

/-- One round, unfolded. -/
theorem vecLoop_succ {c : Cache α} {n M : Nat} {d : α} {extra fuel : Nat} {state : List α} {out : List (List α)}
    {cur it ctr : Nat} {new : List α} (hnew : (List.range n).mapM (vecNode c state) = .ok new) (hcur : cur < M) :
    vecLoop c n M d extra (fuel + 1) state out cur it ctr =
      (let out' := List.zipWith (fun r v => r.set cur v) out new
       let below := abs (colSum out' cur - colSum out' (cur - 1)) <? d
       let ctr' := if below then ctr - 1 else extra
       if it - 1 = 0 ∨ (below = true ∧ ctr' = 0) then .ok out'
       else vecLoop c n M d extra fuel (List.zipWith desat c.avoidSaturation new) out' (cur + 1) (it - 1) ctr') := by
  simp only [vecLoop, hnew, bind, Except.bind, if_pos hcur]
  have e1 : cur + 1 - 1 = cur := by omega
  have e2 : cur + 1 - 2 = cur - 1 := by omega
  simp only [e1, e2]
  rfl

/-- The loop either fails in a concept, runs over the edge of the matrix, or stops after the least number of steps
whose last `extra` ones moved the sum by less than `d`. -/
theorem vecLoop_spec {c : Cache α} {x0 : List α} {M : Nat} {d : α} {extra fuel : Nat} {xs : List (List α)} {x : List α}
    {ctr : Nat} {r : Except Err (List (List α))} (hc : Cols c x0 xs) (hx : xs[xs.length - 1]? = some x)
    (hw : Waiting (Near d xs) extra xs.length ctr) (hM : xs.length ≤ M) (hf : M + 1 ≤ fuel + xs.length)
    (h : vecLoop c x0.length M d extra fuel (List.zipWith desat c.avoidSaturation x) (rowsOf xs x0.length M) xs.length
      (M + 1 - xs.length) ctr = r) :
    ∃ ys, Cols c x0 ys ∧ ys.length ≤ M ∧ xs <+: ys ∧
      ((r = .ok (rowsOf ys x0.length M) ∧ StopsAt (Near d ys) extra ys.length) ∨
       (r = .error .oob ∧ ys.length = M ∧ ∀ l, extra < l → l ≤ M → ∃ s, l - extra ≤ s ∧ s < l ∧ ¬ Near d ys s) ∨
       (∃ e y, r = .error e ∧ ys[ys.length - 1]? = some y ∧
         (List.range x0.length).mapM (vecNode c (List.zipWith desat c.avoidSaturation y)) = .error e ∧
         ∀ l, extra < l → l ≤ ys.length → ∃ s, l - extra ≤ s ∧ s < l ∧ ¬ Near d ys s)) := by
  induction fuel generalizing xs x ctr with
  | zero => omega
  | succ fuel ih =>
    have hp := hc.pos
    cases hnew : (List.range x0.length).mapM (vecNode c (List.zipWith desat c.avoidSaturation x)) with
    | error e =>
      simp only [vecLoop, hnew, bind, Except.bind] at h
      exact ⟨xs, hc, hM, List.prefix_refl _, .inr (.inr ⟨e, x, h.symm, hx, hnew, hw.least⟩)⟩
    | ok new =>
      by_cases hcur : xs.length < M
      · rw [vecLoop_succ hnew hcur] at h
        have hnl : new.length = x0.length := by simpa using mapM_length hnew
        have hc' := hc.snoc hx hnew
        rw [rowsOf_set hnl hcur] at h
        have g1 : (xs ++ [new])[xs.length]? = some new := by simp
        have g0 : (xs ++ [new])[xs.length - 1]? = some x := by rw [List.getElem?_append_left (by omega)]; exact hx
        have hxl : x.length = x0.length := hc.len x (List.mem_of_getElem? hx)
        dsimp only at h
        rw [colSum_rowsOf g1 hnl, colSum_rowsOf g0 hxl] at h
        have hnear : Near d (xs ++ [new]) xs.length ↔ (abs (pysum new - pysum x) <? d) = true := by
          unfold Near
          rw [List.getD_eq_getElem?_getD, List.getD_eq_getElem?_getD, g1, g0]; rfl
        have hw' := hw.congr (q' := Near d (xs ++ [new])) fun s hs => Near.snoc hs
        have hit : M + 1 - xs.length - 1 ≠ 0 := by omega
        have hlen : (xs ++ [new]).length = xs.length + 1 := by simp
        have hx' : (xs ++ [new])[(xs ++ [new]).length - 1]? = some new := by rw [hlen]; simp
        have hit' : M + 1 - xs.length - 1 = M + 1 - (xs ++ [new]).length := by rw [hlen]; omega
        cases hb : abs (pysum new - pysum x) <? d with
        | false =>
          rw [hb] at h
          simp only [Bool.false_eq_true, if_false, false_and, or_false, if_neg hit] at h
          rw [hit', ← hlen] at h
          have hnq : ¬ Near d (xs ++ [new]) xs.length := by rw [hnear, hb]; simp
          obtain ⟨ys, a, b, p, cc⟩ := ih hc' hx' (by rw [hlen]; exact hw'.no hnq) (by omega) (by omega) h
          exact ⟨ys, a, b, (List.prefix_append _ _).trans p, cc⟩
        | true =>
          rw [hb] at h
          have hq : Near d (xs ++ [new]) xs.length := hnear.2 hb
          by_cases hz : ctr - 1 = 0
          · simp only [if_true, true_and, hz, or_true] at h
            exact ⟨xs ++ [new], hc', by omega, List.prefix_append _ _, .inl ⟨h.symm, by rw [hlen]; exact hw'.done hq hz⟩⟩
          · simp only [if_true, true_and, hz, or_false, if_neg hit] at h
            rw [hit', ← hlen] at h
            obtain ⟨ys, a, b, p, cc⟩ := ih hc' hx' (by rw [hlen]; exact hw'.yes hq hz) (by omega) (by omega) h
            exact ⟨ys, a, b, (List.prefix_append _ _).trans p, cc⟩
      · simp only [vecLoop, hnew, bind, Except.bind, if_neg hcur] at h
        have : xs.length = M := by omega
        exact ⟨xs, hc, hM, List.prefix_refl _, .inr (.inl ⟨h.symm, this, by rw [← this]; exact hw.least⟩)⟩

/-- What `vectorized_run` computes. -/
theorem vectorizedRun_spec {c : Cache α} {x0 : List α} {M : Int} {d : α} {extra : Nat} (hM : 0 < M) (he : 1 ≤ extra) :
    ∃ ys, Cols c x0 ys ∧ ys.length ≤ M.toNat ∧
      ((vectorizedRun c x0 M d extra = .ok (rowsOf ys x0.length M.toNat) ∧ StopsAt (Near d ys) extra ys.length) ∨
       (vectorizedRun c x0 M d extra = .error .oob ∧ ys.length = M.toNat ∧
         ∀ l, extra < l → l ≤ M.toNat → ∃ s, l - extra ≤ s ∧ s < l ∧ ¬ Near d ys s) ∨
       (∃ e y, vectorizedRun c x0 M d extra = .error e ∧ ys[ys.length - 1]? = some y ∧
         (List.range x0.length).mapM (vecNode c (List.zipWith desat c.avoidSaturation y)) = .error e ∧
         ∀ l, extra < l → l ≤ ys.length → ∃ s, l - extra ≤ s ∧ s < l ∧ ¬ Near d ys s)) := by
  have hM' : 0 < M.toNat := by omega
  have e : vectorizedRun c x0 M d extra = vecLoop c x0.length M.toNat d extra M.toNat
      (List.zipWith desat c.avoidSaturation x0) (rowsOf [x0] x0.length M.toNat) [x0].length (M.toNat + 1 - [x0].length)
      extra := by
    unfold vectorizedRun
    rw [if_neg (by omega), if_neg (by omega)]
    dsimp only
    rw [rowsOf_init hM']
    simp
  obtain ⟨ys, a, b, -, cc⟩ := vecLoop_spec (Cols.single c x0) (x := x0) rfl (Waiting.start _ he)
    hM' (by simp) e.symm
  exact ⟨ys, a, b, cc⟩

theorem vectorizedRun_pos {c : Cache α} {x0 : List α} {M : Int} {d : α} {extra : Nat} {out : List (List α)}
    (h : vectorizedRun c x0 M d extra = .ok out) : 0 < M := (vectorizedRun_rows h).1

theorem vectorizedRun_cols {c : Cache α} {x0 : List α} {M : Int} {d : α} {extra : Nat} (he : 1 ≤ extra)
    {out : List (List α)} (h : vectorizedRun c x0 M d extra = .ok out) :
    ∃ ys, Cols c x0 ys ∧ ys.length ≤ M.toNat ∧ out = rowsOf ys x0.length M.toNat ∧
      StopsAt (Near d ys) extra ys.length := by
  obtain ⟨ys, a, b, cc⟩ := vectorizedRun_spec (c := c) (x0 := x0) (d := d) (vectorizedRun_pos h) he
  rcases cc with ⟨h1, h2⟩ | ⟨h1, -⟩ | ⟨e, y, h1, -⟩
  · rw [h] at h1; cases h1
    exact ⟨ys, a, b, rfl, h2⟩
  · rw [h] at h1; cases h1
  · rw [h] at h1; cases h1

/-! ### Determinism -/

theorem Cols.get_unique {c : Cache α} {x0 : List α} {xs ys : List (List α)} (hx : Cols c x0 xs) (hy : Cols c x0 ys)
    (t : Nat) (h1 : t < xs.length) (h2 : t < ys.length) : xs[t] = ys[t] := by
  induction t with
  | zero =>
    have a := hx.head
    have b := hy.head
    rw [List.getElem?_eq_getElem h1] at a
    rw [List.getElem?_eq_getElem h2] at b
    rw [Option.some.inj a, Option.some.inj b]
  | succ t ih =>
    have e := ih (by omega) (by omega)
    have a := hx.step t xs[t] xs[t + 1] (List.getElem?_eq_getElem (by omega)) (List.getElem?_eq_getElem h1)
    have b := hy.step t ys[t] ys[t + 1] (List.getElem?_eq_getElem (by omega)) (List.getElem?_eq_getElem h2)
    rw [e, b] at a
    exact (Except.ok.inj a).symm

theorem Cols.near_iff {c : Cache α} {x0 : List α} {xs ys : List (List α)} (hx : Cols c x0 xs) (hy : Cols c x0 ys)
    (d : α) (s : Nat) (h1 : s < xs.length) (h2 : s < ys.length) : Near d xs s ↔ Near d ys s := by
  have e : ∀ t, t ≤ s → xs.getD t [] = ys.getD t [] := by
    intro t ht
    rw [List.getD_eq_getElem?_getD, List.getD_eq_getElem?_getD, List.getElem?_eq_getElem (by omega),
      List.getElem?_eq_getElem (by omega), hx.get_unique hy t (by omega) (by omega)]
  unfold Near
  rw [e s (Nat.le_refl _), e (s - 1) (by omega)]

theorem Cols.stop_le {c : Cache α} {x0 : List α} {xs ys : List (List α)} {d : α} {e : Nat} (hx : Cols c x0 xs)
    (hy : Cols c x0 ys) (sx : StopsAt (Near d xs) e xs.length)
    (hy' : ∀ l, e < l → l < ys.length → ∃ s, l - e ≤ s ∧ s < l ∧ ¬ Near d ys s) : ys.length ≤ xs.length := by
  apply Classical.byContradiction
  intro hlt
  obtain ⟨s, h1, h2, h3⟩ := hy' xs.length sx.above (by omega)
  exact h3 ((hx.near_iff hy d s h2 (by omega)).1 (sx.window s h1 h2))

theorem Cols.unique {c : Cache α} {x0 : List α} {xs ys : List (List α)} {d : α} {e : Nat} (hx : Cols c x0 xs)
    (hy : Cols c x0 ys) (sx : StopsAt (Near d xs) e xs.length) (sy : StopsAt (Near d ys) e ys.length) : xs = ys := by
  have h1 := hx.stop_le hy sx sy.least
  have h2 := hy.stop_le hx sy sx.least
  apply List.ext_getElem (by omega)
  intro i a b
  exact hx.get_unique hy i a b

end PyFCM
