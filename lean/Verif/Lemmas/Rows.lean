import Verif.Lemmas.Uniq
import Verif.Lemmas.RealList
import Verif.Lemmas.NodeFrame
import Verif.Lemmas.Learned
import Verif.Model.Learn
import Verif.Spec.Learn
import Mathlib.Data.List.Count
import Mathlib.Data.List.Perm.Basic
import Mathlib.Tactic.Ring
/-
Learning from the same rows in another order, or from several copies of every row.
-/
namespace PyFCM

namespace Spec

/-- The entries at the given positions, in this order. -/
def pick {β : Type} (is : List Nat) (xs : List β) : List β := is.filterMap fun i => xs[i]?

/-- The column with the rows of the given numbers. -/
def pickCol {α : Type} (is : List Nat) : Column α → Column α
  | .strs xs => .strs (pick is xs)
  | .bools xs => .bools (pick is xs)
  | .ints xs => .ints (pick is xs)
  | .floats xs => .floats (pick is xs)

/-- The table with the rows of the given numbers. -/
def pickRows {α : Type} (is : List Nat) (cols : List (String × Column α)) : List (String × Column α) :=
  cols.map fun p => (p.1, pickCol is p.2)

/-- Every row number below `n` occurs `k` times, and nothing else occurs. -/
def Copies (k n : Nat) (is : List Nat) : Prop := ∀ i, is.count i = if i < n then k else 0

/-- A feature's description with the rows of the given numbers. -/
def pickFeature {α : Type} (is : List Nat) (f : Feature α) : Feature α := { f with desc := f.desc.map (pick is) }

end Spec

open Spec

section lists
variable {β γ : Type}

theorem pick_map (f : β → γ) (is : List Nat) (xs : List β) : pick is (xs.map f) = (pick is xs).map f := by
  induction is with
  | nil => rfl
  | cons i is ih =>
    simp only [pick, List.filterMap_cons, List.getElem?_map] at ih ⊢
    cases xs[i]? <;> simp [ih]

theorem pick_zipWith {δ : Type} (f : β → γ → δ) (is : List Nat) (xs : List β) (ys : List γ) (h : xs.length = ys.length) :
    pick is (List.zipWith f xs ys) = List.zipWith f (pick is xs) (pick is ys) := by
  induction is with
  | nil => rfl
  | cons i is ih =>
    simp only [pick, List.filterMap_cons, List.getElem?_zipWith] at ih ⊢
    by_cases hi : i < xs.length
    · rw [List.getElem?_eq_getElem hi, List.getElem?_eq_getElem (h ▸ hi)]
      simp [ih]
    · rw [List.getElem?_eq_none (by omega), List.getElem?_eq_none (by omega)]
      simp [ih]

theorem pick_length (is : List Nat) (xs : List β) (ys : List γ) (h : xs.length = ys.length) :
    (pick is xs).length = (pick is ys).length := by
  induction is with
  | nil => rfl
  | cons i is ih =>
    simp only [pick, List.filterMap_cons] at ih ⊢
    by_cases hi : i < xs.length
    · rw [List.getElem?_eq_getElem hi, List.getElem?_eq_getElem (h ▸ hi)]
      simp [ih]
    · rw [List.getElem?_eq_none (by omega), List.getElem?_eq_none (by omega)]
      simp [ih]

variable {k n : Nat} {is : List Nat}

theorem Spec.Copies.mem (h : Copies k n is) (hk : 1 ≤ k) (i : Nat) : i ∈ is ↔ i < n := by
  rw [← List.count_pos_iff, h i]
  split <;> omega

theorem mem_pick (h : Copies k n is) (hk : 1 ≤ k) {xs : List β} (hx : xs.length = n) (y : β) :
    y ∈ pick is xs ↔ y ∈ xs := by
  simp only [pick, List.mem_filterMap]
  constructor
  · rintro ⟨i, -, hi⟩
    exact List.mem_of_getElem? hi
  · intro hy
    obtain ⟨i, hi, rfl⟩ := List.getElem_of_mem hy
    exact ⟨i, (h.mem hk i).2 (hx ▸ hi), List.getElem?_eq_getElem hi⟩

theorem pick_range (xs : List β) : pick (List.range xs.length) xs = xs := by
  have : ∀ (m : Nat), m ≤ xs.length → pick (List.range m) xs = xs.take m := by
    intro m
    induction m with
    | zero => intro _; rfl
    | succ m ih =>
      intro hm
      rw [List.range_succ, pick, List.filterMap_append, ← pick, ih (by omega), List.take_add_one]
      simp only [List.filterMap_cons, List.filterMap_nil]
      rw [List.getElem?_eq_getElem (by omega)]
      rfl
  rw [this _ (le_refl _), List.take_length]

theorem Spec.Copies.perm (h : Copies k n is) : is.Perm (List.replicate k (List.range n)).flatten := by
  rw [List.perm_iff_count]
  intro i
  rw [h i, List.count_flatten, List.map_replicate, List.sum_replicate]
  split
  · rw [List.count_eq_one_of_mem List.nodup_range (List.mem_range.2 ‹_›)]; simp
  · rw [List.count_eq_zero_of_not_mem (by rw [List.mem_range]; assumption)]; simp

theorem pick_perm (h : Copies k n is) {xs : List β} (hx : xs.length = n) :
    (pick is xs).Perm (List.replicate k xs).flatten := by
  refine (h.perm.filterMap _).trans ?_
  rw [List.filterMap_flatten, List.map_replicate]
  have := pick_range xs
  rw [hx] at this
  unfold pick at this
  rw [this]

theorem sum_pick (h : Copies k n is) {xs : List ℝ} (hx : xs.length = n) : (pick is xs).sum = k * xs.sum := by
  rw [(pick_perm h hx).sum_eq]
  induction k with
  | zero => simp
  | succ k ih =>
    have : (List.replicate k xs).flatten.sum = k * xs.sum := by
      clear ih h
      induction k with
      | zero => simp
      | succ k ih => rw [List.replicate_succ, List.flatten_cons, List.sum_append, ih]; push_cast; ring
    rw [List.replicate_succ, List.flatten_cons, List.sum_append, this]; push_cast; ring

theorem sorted_ext {lt : β → β → Bool} (h : StrictOrder lt) : ∀ {xs ys : List β},
    xs.Pairwise (fun a b => lt a b = true) → ys.Pairwise (fun a b => lt a b = true) → (∀ y, y ∈ xs ↔ y ∈ ys) → xs = ys := by
  intro xs
  induction xs with
  | nil =>
    intro ys _ _ hm
    exact (List.eq_nil_iff_forall_not_mem.2 fun y hy => by simpa using (hm y).2 hy).symm
  | cons x xs ih =>
    intro ys hx hy hm
    cases ys with
    | nil => exact absurd ((hm x).1 (by simp)) (by simp)
    | cons y ys =>
      rw [List.pairwise_cons] at hx hy
      have e : x = y := by
        rcases List.mem_cons.1 ((hm x).1 (by simp)) with e | h1
        · exact e
        · rcases List.mem_cons.1 ((hm y).2 (by simp)) with e | h2
          · exact e.symm
          · have := h.trans _ _ _ (hx.1 y h2) (hy.1 x h1)
            rw [h.irrefl] at this
            exact absurd this (by decide)
      subst e
      refine congrArg (x :: ·) (ih hx.2 hy.2 fun z => ?_)
      have nx : ∀ {l : List β}, (∀ b ∈ l, lt x b = true) → x ∉ l := fun hl hmem => by
        have := hl x hmem
        rw [h.irrefl] at this
        exact absurd this (by decide)
      constructor
      · intro hz
        rcases List.mem_cons.1 ((hm z).1 (List.mem_cons_of_mem _ hz)) with e | h1
        · subst e; exact absurd hz (nx hx.1)
        · exact h1
      · intro hz
        rcases List.mem_cons.1 ((hm z).2 (List.mem_cons_of_mem _ hz)) with e | h1
        · subst e; exact absurd hz (nx hy.1)
        · exact h1

/-- `np.unique` depends on the set of values only. -/
theorem uniq_ext {lt : β → β → Bool} (h : StrictOrder lt) {xs ys : List β} (hm : ∀ y, y ∈ xs ↔ y ∈ ys) :
    uniq lt xs = uniq lt ys :=
  sorted_ext h (uniq_sorted h _) (uniq_sorted h _) fun y => by rw [mem_uniq h, mem_uniq h, hm]

theorem mapM_pick {f : β → Except Err γ} (xs : List β) (ys : List γ) (h : xs.mapM f = .ok ys) (is : List Nat) :
    (pick is xs).mapM f = .ok (pick is ys) := by
  have hrel : List.Forall₂ (fun x y => f x = .ok y) xs ys := by
    induction xs generalizing ys with
    | nil => cases h; exact .nil
    | cons x xs ih =>
      rw [List.mapM_cons] at h
      cases hx : f x with
      | error e => rw [hx] at h; cases h
      | ok y =>
        rw [hx] at h
        cases hr : xs.mapM f with
        | error e => rw [hr] at h; cases h
        | ok ys' =>
          rw [hr] at h
          cases h
          exact .cons hx (ih _ hr)
  have hget : ∀ i : Nat, (∃ x y, xs[i]? = some x ∧ ys[i]? = some y ∧ f x = .ok y) ∨ (xs[i]? = none ∧ ys[i]? = none) := by
    intro i
    clear h
    induction hrel generalizing i with
    | nil => right; simp
    | cons hxy _ ih =>
      cases i with
      | zero => left; exact ⟨_, _, rfl, rfl, hxy⟩
      | succ i => simpa using ih i
  clear h hrel
  induction is with
  | nil => rfl
  | cons i is ih =>
    simp only [pick, List.filterMap_cons] at ih ⊢
    rcases hget i with ⟨x, y, h1, h2, h3⟩ | ⟨h1, h2⟩
    · rw [h1, h2]
      simp only [List.mapM_cons, h3, ih]
      rfl
    · rw [h1, h2]
      exact ih

theorem mapM_error {f : β → Except Err γ} (xs : List β) : (∃ e, xs.mapM f = .error e) ↔ ∃ x ∈ xs, ∃ e, f x = .error e := by
  induction xs with
  | nil => simp [pure, Except.pure]
  | cons x xs ih =>
    rw [List.mapM_cons]
    cases hx : f x with
    | error e => exact ⟨fun _ => ⟨x, by simp, e, hx⟩, fun _ => ⟨e, rfl⟩⟩
    | ok y =>
      constructor
      · rintro ⟨e, he⟩
        cases hr : xs.mapM f with
        | error e' =>
          obtain ⟨z, hz, h⟩ := ih.1 ⟨e', hr⟩
          exact ⟨z, by simp [hz], h⟩
        | ok ys => rw [hr] at he; cases he
      · rintro ⟨z, hz, e, he⟩
        rcases List.mem_cons.1 hz with rfl | hz
        · rw [hx] at he; cases he
        · obtain ⟨e', h⟩ := ih.2 ⟨z, hz, e, he⟩
          rw [h]
          exact ⟨e', rfl⟩

end lists

/-! ### Two programs side by side -/

/-- From related states: if the first returns, so does the second, with related results and states; if the first
raises, so does the second. -/
def Sim {σ β γ : Type} (R : σ → σ → Prop) (Q : β → γ → Prop) (x : PyM σ β) (y : PyM σ γ) : Prop :=
  ∀ s s', R s s' → (∀ b s1, x s = (.ok b, s1) → ∃ c s1', y s' = (.ok c, s1') ∧ Q b c ∧ R s1 s1') ∧
    (∀ e s1, x s = (.error e, s1) → ∃ e' s1', y s' = (.error e', s1'))

namespace Sim
variable {σ β γ β' γ' ι : Type} {R : σ → σ → Prop} {Q : β → γ → Prop} {Q' : β' → γ' → Prop}

theorem pure {b : β} {c : γ} (h : Q b c) : Sim R Q (Pure.pure b : PyM σ β) (Pure.pure c : PyM σ γ) := by
  intro s s' hs
  exact ⟨fun _ _ e => by cases e; exact ⟨_, _, rfl, h, hs⟩, fun _ _ e => by cases e⟩

theorem raise (e e' : Err) : Sim R Q (PyM.raise e : PyM σ β) (PyM.raise e' : PyM σ γ) := by
  intro s s' _
  exact ⟨fun _ _ h => (by cases h), fun _ _ _ => ⟨_, _, rfl⟩⟩

theorem lift {x : Except Err β} {y : Except Err γ} (h1 : ∀ b, x = .ok b → ∃ c, y = .ok c ∧ Q b c)
    (h2 : ∀ e, x = .error e → ∃ e', y = .error e') : Sim R Q (PyM.lift x : PyM σ β) (PyM.lift y : PyM σ γ) := by
  intro s s' hs
  constructor
  · intro b s1 h
    obtain ⟨h3, rfl⟩ := lift_okP h
    obtain ⟨c, rfl, hq⟩ := h1 b h3
    exact ⟨c, s', rfl, hq, hs⟩
  · intro e s1 h
    have h3 : x = .error e := congrArg Prod.fst h
    obtain ⟨e', rfl⟩ := h2 e h3
    exact ⟨e', s', rfl⟩

theorem lift_eq (x : Except Err β) : Sim R Eq (PyM.lift x : PyM σ β) (PyM.lift x) :=
  lift (fun b h => ⟨b, h, rfl⟩) fun e h => ⟨e, h⟩

theorem get : Sim R R (PyM.get : PyM σ σ) PyM.get := by
  intro s s' hs
  exact ⟨fun _ _ h => by cases h; exact ⟨_, _, rfl, hs, hs⟩, fun _ _ h => by cases h⟩

theorem modify {f f' : σ → σ} (h : ∀ s s', R s s' → R (f s) (f' s')) :
    Sim R (fun _ _ => True) (PyM.modify f) (PyM.modify f') := by
  intro s s' hs
  exact ⟨fun _ _ e => by cases e; exact ⟨_, _, rfl, trivial, h _ _ hs⟩, fun _ _ h => by cases h⟩

theorem bind {x : PyM σ β} {y : PyM σ γ} {f : β → PyM σ β'} {g : γ → PyM σ γ'} (h : Sim R Q x y)
    (hf : ∀ b c, Q b c → Sim R Q' (f b) (g c)) : Sim R Q' (x >>= f) (y >>= g) := by
  intro s s' hs
  obtain ⟨h1, h2⟩ := h s s' hs
  rw [PyM.run_bind, PyM.run_bind]
  rcases hx : x s with ⟨e | b, s1⟩
  · obtain ⟨e', s1', hy⟩ := h2 e s1 hx
    rw [hy]
    exact ⟨fun _ _ h => (by cases h), fun _ _ _ => ⟨_, _, rfl⟩⟩
  · obtain ⟨c, s1', hy, hq, hr⟩ := h1 b s1 hx
    rw [hy]
    exact hf b c hq s1 s1' hr

theorem forEach₂ {κ : Type} {xs : List ι} {ys : List κ} {f : ι → PyM σ Unit} {g : κ → PyM σ Unit} {P : ι → κ → Prop}
    (h : List.Forall₂ P xs ys) (hf : ∀ x y, P x y → Sim R (fun _ _ => True) (f x) (g y)) :
    Sim R (fun _ _ => True) (PyM.forEach xs f) (PyM.forEach ys g) := by
  induction h with
  | nil => exact pure (Q := fun _ _ => True) (b := ()) (c := ()) trivial
  | cons hxy _ ih =>
    rename_i x y xs ys _
    intro s s' hs
    obtain ⟨h1, h2⟩ := hf x y hxy s s' hs
    simp only [PyM.forEach]
    rcases hx : f x s with ⟨e | b, s1⟩
    · obtain ⟨e', s1', hy⟩ := h2 e s1 hx
      rw [hy]
      exact ⟨fun _ _ h => (by cases h), fun _ _ _ => ⟨_, _, rfl⟩⟩
    · obtain ⟨c, s1', hy, -, hr⟩ := h1 b s1 hx
      rw [hy]
      exact ih s1 s1' hr

theorem forEach {xs : List ι} {f g : ι → PyM σ Unit} (hf : ∀ x ∈ xs, Sim R (fun _ _ => True) (f x) (g x)) :
    Sim R (fun _ _ => True) (PyM.forEach xs f) (PyM.forEach xs g) :=
  forEach₂ (P := fun x y => x = y ∧ x ∈ xs)
    (by
      have : ∀ l : List ι, (∀ x ∈ l, x ∈ xs) → List.Forall₂ (fun x y => x = y ∧ x ∈ xs) l l := by
        intro l
        induction l with
        | nil => intro _; exact .nil
        | cons a l ih => intro h; exact .cons ⟨rfl, h a (by simp)⟩ (ih fun x hx => h x (by simp [hx]))
      exact this xs fun _ h => h)
    fun x y h => h.1 ▸ hf x h.2

end Sim

/-! ### The generator on picked rows -/

section gen
open Arith
variable {k n : Nat} {is : List Nat}

/-- The generators differ only in that the second describes its features on the picked rows. -/
structure OnRows (n : Nat) (is : List Nat) (g g' : Gen ℝ) : Prop where
  fcm : g'.fcm = g.fcm
  processed : g'.processed = g.processed
  features : g'.features = g.features.map fun p => (p.1, pickFeature is p.2)
  rows : ∀ p ∈ g.features, ∀ r ∈ p.2.desc, r.length = n

abbrev Any {β γ : Type} : β → γ → Prop := fun _ _ => True

theorem get?_mapVals {β γ : Type} (f : β → γ) (d : Dict β) (key : String) :
    Dict.get? (d.map fun p => (p.1, f p.2)) key = (d.get? key).map f := by
  induction d with
  | nil => rfl
  | cons p d ih =>
    obtain ⟨a, b⟩ := p
    simp only [List.map_cons, Dict.get?]
    split
    · rfl
    · exact ih

theorem set_mapVals {β γ : Type} (f : β → γ) (d : Dict β) (key : String) (v : β) :
    Dict.set (d.map fun p => (p.1, f p.2)) key (f v) = (d.set key v).map fun p => (p.1, f p.2) := by
  induction d with
  | nil => rfl
  | cons p d ih =>
    obtain ⟨a, b⟩ := p
    simp only [List.map_cons, Dict.set]
    split
    · rfl
    · rw [ih]; rfl

theorem mem_set {β : Type} {d : Dict β} {key : String} {v : β} {p : String × β} (h : p ∈ d.set key v) :
    p ∈ d ∨ p = (key, v) := by
  induction d with
  | nil => right; simpa [Dict.set] using h
  | cons q d ih =>
    obtain ⟨a, b⟩ := q
    simp only [Dict.set] at h
    split at h
    · rcases List.mem_cons.1 h with rfl | h
      · right; rfl
      · left; simp [h]
    · rcases List.mem_cons.1 h with rfl | h
      · left; simp
      · rcases ih h with h | h
        · left; simp [h]
        · right; exact h

theorem onFcm_sim (p : PyM (FCM ℝ) Unit) : Sim (OnRows n is) Any (Gen.onFcm p) (Gen.onFcm p) := by
  intro g g' h
  unfold Gen.onFcm
  rw [h.fcm]
  rcases p g.fcm with ⟨_ | ⟨⟩, m⟩
  · exact ⟨fun _ _ e => (by cases e), fun _ _ _ => ⟨_, _, rfl⟩⟩
  · exact ⟨fun _ _ e => by cases e; exact ⟨_, _, rfl, trivial, rfl, h.processed, h.features, h.rows⟩, fun _ _ e => by cases e⟩

theorem setFeature_sim (feat : String) (F F' : Feature ℝ) (hF : F' = pickFeature is F) (hr : ∀ r ∈ F.desc, r.length = n) :
    Sim (OnRows n is) Any (PyM.modify fun g => { g with features := g.features.set feat F })
      (PyM.modify fun g => { g with features := g.features.set feat F' }) := by
  refine Sim.modify fun g g' h => ⟨h.fcm, h.processed, ?_, ?_⟩
  · dsimp only
    rw [h.features, hF, set_mapVals]
  · intro p hp
    rcases mem_set hp with hp | rfl
    · exact h.rows p hp
    · exact hr

/-! The counts -/

/-- All four counts multiplied by `k`. -/
def Coef.times (k : Nat) (c : Coef ℝ) : Coef ℝ := ⟨k * c.pq, k * c.pnq, k * c.npq, k * c.npnq⟩

theorem coefLoop_sums : ∀ (a b : List ℝ) (c : Coef ℝ), coefLoop a b c =
    ⟨c.pq + (List.zipWith (fun x y => x * y) a b).sum, c.pnq + (List.zipWith (fun x y => x * (1 - y)) a b).sum,
     c.npq + (List.zipWith (fun x y => (1 - x) * y) a b).sum,
     c.npnq + (List.zipWith (fun x y => (1 - x) * (1 - y)) a b).sum⟩
  | x :: a, y :: b, c => by
    rw [coefLoop, coefLoop_sums a b]
    simp only [List.zipWith_cons_cons, List.sum_cons, Coef.mk.injEq]
    have e1 : (lit 1 : ℝ) = 1 := by simp
    rw [e1]
    refine ⟨?_, ?_, ?_, ?_⟩ <;> exact add_assoc _ _ _
  | [], _, c => by simp [coefLoop]
  | _ :: _, [], c => by simp [coefLoop]

theorem calcCoef_pick (h : Copies k n is) {a b : List ℝ} (ha : a.length = n) (hb : b.length = n) :
    calcCoef (pick is a) (pick is b) = (calcCoef a b).map fun p => (p.1.times k, p.2.times k) := by
  have hl : a.length = b.length := ha.trans hb.symm
  unfold calcCoef
  rw [if_pos hl, if_pos (pick_length is a b hl)]
  dsimp only
  rw [coefLoop_sums, coefLoop_sums, ← pick_zipWith _ _ _ _ hl, ← pick_zipWith _ _ _ _ hl, ← pick_zipWith _ _ _ _ hl,
    ← pick_zipWith _ _ _ _ hl, sum_pick h (by simp [ha, hb]), sum_pick h (by simp [ha, hb]),
    sum_pick h (by simp [ha, hb]), sum_pick h (by simp [ha, hb])]
  have e0 : (lit 0 : ℝ) = 0 := by simp
  simp only [Option.map, Coef.times, e0, zero_add]

/-- The measures of the configuration do not change when all four counts are multiplied by `k`. -/
structure Spec.Proportional (k : Nat) (cfg : GenConf ℝ) : Prop where
  causality : ∀ a b c d : ℝ, cfg.causality (k * a) (k * b) (k * c) (k * d) = cfg.causality a b c d
  evaluation : ∀ a b c d : ℝ, cfg.evaluation (k * a) (k * b) (k * c) (k * d) = cfg.evaluation a b c d
  sign : ∀ f, cfg.sign = some f → ∀ a b c d : ℝ, f (k * a) (k * b) (k * c) (k * d) = f a b c d

/-! The steps of the generator -/

variable {cfg : GenConf ℝ}

theorem defWeight_times (hp : Proportional k cfg) (a b : String) (s : ℝ) (c : Coef ℝ) :
    defWeight cfg a b s (c.times k) = defWeight cfg a b s c := by
  unfold defWeight Coef.times
  dsimp only
  rw [hp.evaluation, hp.causality]

theorem relSign_times (hp : Proportional k cfg) (c : Coef ℝ) : relSign cfg (c.times k) = relSign cfg c := by
  unfold relSign
  cases hs : cfg.sign with
  | none => rfl
  | some f =>
    dsimp only
    unfold Coef.times
    dsimp only
    rw [hp.sign f hs]

theorem defWeight_sim (a b : String) (s : ℝ) (c : Coef ℝ) :
    Sim (OnRows n is) Any (defWeight cfg a b s c) (defWeight cfg a b s c) := by
  unfold defWeight
  refine Sim.bind (Sim.lift_eq _) ?_
  rintro e _ rfl
  split
  · refine Sim.bind (Sim.lift_eq _) ?_
    rintro v _ rfl
    dsimp only
    split
    · exact Sim.pure trivial
    · exact onFcm_sim _
  · exact Sim.pure trivial

theorem runIf_sim {R : Gen ℝ → Gen ℝ → Prop} {x y : PyM (Gen ℝ) Unit} (b : Bool) (h : Sim R Any x y) :
    Sim R Any (runIf b x) (runIf b y) := by
  unfold runIf
  split
  · exact h
  · exact Sim.pure trivial

theorem pairRelation_sim (h : Copies k n is) (hp : Proportional k cfg) (fa fb : Feature ℝ) (pa pb : String × List ℝ)
    (ha : pa.2.length = n) (hb : pb.2.length = n) :
    Sim (OnRows n is) Any (pairRelation cfg fa fb pa pb)
      (pairRelation cfg (pickFeature is fa) (pickFeature is fb) (pa.1, pick is pa.2) (pb.1, pick is pb.2)) := by
  unfold pairRelation
  dsimp only
  rw [calcCoef_pick h ha hb]
  cases calcCoef pa.2 pb.2 with
  | none => exact Sim.raise _ _
  | some q =>
    obtain ⟨pq, qp⟩ := q
    simp only [Option.map_some, relSign_times hp, defWeight_times hp]
    refine Sim.bind (Sim.lift_eq _) ?_
    rintro spq _ rfl
    refine Sim.bind (Sim.lift_eq _) ?_
    rintro sqp _ rfl
    have e1 : sameGroup (pickFeature is fa) (pickFeature is fb) = sameGroup fa fb := rfl
    have e2 : isTarget (pickFeature is fa) = isTarget fa := rfl
    rw [e1, e2]
    split
    · exact Sim.bind (defWeight_sim _ _ _ _) fun _ _ _ => defWeight_sim _ _ _ _
    · split
      · have e3 : cfg.causality (pq.times k).pq (pq.times k).pnq (pq.times k).npq (pq.times k).npnq
            = cfg.causality pq.pq pq.pnq pq.npq pq.npnq := hp.causality _ _ _ _
        have e4 : cfg.causality (qp.times k).pq (qp.times k).pnq (qp.times k).npq (qp.times k).npnq
            = cfg.causality qp.pq qp.pnq qp.npq qp.npnq := hp.causality _ _ _ _
        rw [e3, e4]
        refine Sim.bind (Sim.lift_eq _) ?_
        rintro p _ rfl
        refine Sim.bind (Sim.lift_eq _) ?_
        rintro q _ rfl
        exact Sim.bind (runIf_sim _ (defWeight_sim _ _ _ _)) fun _ _ _ => runIf_sim _ (defWeight_sim _ _ _ _)
      · split
        · exact defWeight_sim _ _ _ _
        · exact defWeight_sim _ _ _ _

theorem zip_pick (F : Feature ℝ) (hF : ∀ r ∈ F.desc, r.length = n) :
    List.Forall₂ (fun (p q : String × List ℝ) => q = (p.1, pick is p.2) ∧ p.2.length = n) (F.names.zip F.desc)
      ((pickFeature is F).names.zip (pickFeature is F).desc) := by
  obtain ⟨t, names, desc⟩ := F
  simp only [pickFeature]
  induction desc generalizing names with
  | nil => simp
  | cons r desc ih =>
    cases names with
    | nil => simp
    | cons a names =>
      simp only [List.map_cons, List.zip_cons_cons]
      exact .cons ⟨rfl, hF r (by simp)⟩ (ih names fun q hq => hF q (by simp [hq]))

theorem twoFeat_sim (h : Copies k n is) (hp : Proportional k cfg) {fa fb : Feature ℝ}
    (ha : ∀ r ∈ fa.desc, r.length = n) (hb : ∀ r ∈ fb.desc, r.length = n) :
    Sim (OnRows n is) Any (twoFeat cfg fa fb) (twoFeat cfg (pickFeature is fa) (pickFeature is fb)) := by
  unfold twoFeat
  refine Sim.forEach₂ (zip_pick fa ha) ?_
  rintro pa _ ⟨rfl, h1⟩
  refine Sim.forEach₂ (zip_pick fb hb) ?_
  rintro pb _ ⟨rfl, h2⟩
  exact pairRelation_sim h hp fa fb pa pb h1 h2

theorem feature_sim {g g' : Gen ℝ} (h : OnRows n is g g') (feat : String) :
    Sim (OnRows n is) (fun F F' => F' = pickFeature is F ∧ ∀ r ∈ F.desc, r.length = n)
      (PyM.lift (need feat (g.features.get? feat))) (PyM.lift (need feat (g'.features.get? feat))) := by
  rw [h.features, get?_mapVals]
  cases hg : g.features.get? feat with
  | none => exact Sim.lift (fun _ e => by cases e) fun _ _ => ⟨_, rfl⟩
  | some F =>
    refine Sim.lift (fun b e => ?_) fun _ e => by cases e
    cases e
    exact ⟨_, rfl, rfl, h.rows _ (Dict.get?_mem hg)⟩

theorem relateWith_sim (h : Copies k n is) (hp : Proportional k cfg) (feat other : String) :
    Sim (OnRows n is) Any (relateWith cfg feat other) (relateWith cfg feat other) := by
  unfold relateWith
  split
  · exact Sim.pure trivial
  · refine Sim.bind Sim.get fun g g' hg => ?_
    refine Sim.bind (feature_sim hg feat) ?_
    rintro fa _ ⟨rfl, ha⟩
    refine Sim.bind (feature_sim hg other) ?_
    rintro fb _ ⟨rfl, hb⟩
    have e1 : sameGroup (pickFeature is fa) (pickFeature is fb) = sameGroup fa fb := rfl
    rw [e1]
    split
    · exact twoFeat_sim h hp ha hb
    · split
      · exact Sim.pure trivial
      · exact twoFeat_sim h hp ha hb

theorem innerRow_sim (e : ℝ) (a : String) : ∀ bs, Sim (OnRows n is) Any (innerRow e a bs) (innerRow e a bs)
  | [] => Sim.pure trivial
  | _ :: bs => Sim.bind (onFcm_sim _) fun _ _ _ => Sim.bind (onFcm_sim _) fun _ _ _ => innerRow_sim e a bs

theorem innerLoop_sim (e : ℝ) : ∀ as, Sim (OnRows n is) Any (innerLoop e as) (innerLoop e as)
  | [] => Sim.pure trivial
  | a :: as => Sim.bind (innerRow_sim e a as) fun _ _ _ => innerLoop_sim e as

theorem innerRelations_sim (feat : String) : Sim (OnRows n is) Any (innerRelations cfg feat) (innerRelations cfg feat) := by
  unfold innerRelations
  split
  · exact Sim.pure trivial
  · refine Sim.bind Sim.get fun g g' hg => ?_
    refine Sim.bind (feature_sim hg feat) ?_
    rintro fa _ ⟨rfl, -⟩
    exact innerLoop_sim _ _

theorem genDiscreteLoop_sim (type : String) : ∀ ns, Sim (OnRows n is) Any (genDiscreteLoop type ns) (genDiscreteLoop type ns)
  | [] => Sim.pure trivial
  | _ :: ns => Sim.bind (onFcm_sim _) fun _ _ _ => genDiscreteLoop_sim type ns

theorem uniqCells_pick (h : Copies k n is) (hk : 1 ≤ k) (col : Column ℝ) (hl : (cells col).length = n) :
    (pickCol is col).uniqCells = col.uniqCells := by
  cases col with
  | strs xs => exact congrArg (List.map Cell.str) (uniq_ext strictOrder_string (mem_pick h hk (by simpa [cells] using hl)))
  | bools xs => exact congrArg (List.map Cell.bool) (uniq_ext strictOrder_bool (mem_pick h hk (by simpa [cells] using hl)))
  | ints xs => exact congrArg (List.map Cell.int) (uniq_ext strictOrder_int (mem_pick h hk (by simpa [cells] using hl)))
  | floats xs => exact congrArg (List.map Cell.float) (uniq_ext strictOrder_real (mem_pick h hk (by simpa [cells] using hl)))

theorem matrix_pick {β : Type} (eq : β → β → Bool) (vals u : List β) :
    (genDiscreteMatrix eq (pick is vals) u : List (List ℝ)) = (genDiscreteMatrix eq vals u).map (pick is) := by
  unfold genDiscreteMatrix
  rw [List.map_map]
  exact List.map_congr_left fun v _ => (pick_map _ is vals).symm

theorem oneHot_pick (h : Copies k n is) (hk : 1 ≤ k) (col : Column ℝ) (hl : (cells col).length = n) :
    (pickCol is col).oneHot = col.oneHot.map (pick is) := by
  cases col with
  | strs xs =>
    simp only [pickCol, Column.oneHot, matrix_pick,
      uniq_ext strictOrder_string (mem_pick h hk (xs := xs) (by simpa [cells] using hl))]
  | bools xs =>
    simp only [pickCol, Column.oneHot, matrix_pick,
      uniq_ext strictOrder_bool (mem_pick h hk (xs := xs) (by simpa [cells] using hl))]
  | ints xs =>
    simp only [pickCol, Column.oneHot, matrix_pick,
      uniq_ext strictOrder_int (mem_pick h hk (xs := xs) (by simpa [cells] using hl))]
  | floats xs =>
    simp only [pickCol, Column.oneHot, matrix_pick,
      uniq_ext strictOrder_real (mem_pick h hk (xs := xs) (by simpa [cells] using hl))]

theorem oneHot_rows (col : Column ℝ) (hl : (cells col).length = n) : ∀ r ∈ col.oneHot, r.length = n := by
  intro r hr
  cases col <;> simp only [Column.oneHot, genDiscreteMatrix, List.mem_map] at hr <;> obtain ⟨_, -, rfl⟩ := hr <;>
    simpa [cells] using hl

variable {x : Ext ℝ} {ts : List String}

theorem genDiscrete_sim (h : Copies k n is) (hk : 1 ≤ k) (feat : String) (col : Column ℝ) (hl : (cells col).length = n) :
    Sim (OnRows n is) Any (genDiscrete cfg x ts feat col) (genDiscrete cfg x ts feat (pickCol is col)) := by
  unfold genDiscrete
  rw [uniqCells_pick h hk col hl, oneHot_pick h hk col hl]
  exact Sim.bind (genDiscreteLoop_sim _ _) fun _ _ _ => setFeature_sim feat _ _ rfl (oneHot_rows col hl)

/-- Concepts with their rows, and the same concepts with the picked rows. -/
def SameRows (n : Nat) (is : List Nat) (p q : String × List ℝ) : Prop := q = (p.1, pick is p.2) ∧ p.2.length = n

theorem genContinuousOne_sim (h : Copies k n is) (hk : 1 ≤ k) (feat type : String) (data vl : List ℝ)
    (hd : data.length = n) (j : Nat) (memb : List ℝ) : Sim (OnRows n is) (SameRows n is)
      (genContinuousOne cfg feat type data vl j memb) (genContinuousOne cfg feat type (pick is data) vl j memb) := by
  unfold genContinuousOne
  refine Sim.bind (onFcm_sim _) fun _ _ _ => ?_
  refine Sim.bind (Q := fun r r' => r' = pick is r ∧ r.length = n) (Sim.lift ?_ ?_) ?_
  · intro r hr
    exact ⟨_, mapM_pick _ _ hr is, rfl, (mapM_length hr).trans hd⟩
  · intro e he
    obtain ⟨v, hv, e', h'⟩ := (mapM_error _).1 ⟨e, he⟩
    exact (mapM_error _).2 ⟨v, (mem_pick h hk hd v).2 hv, e', h'⟩
  · rintro r _ ⟨rfl, hr⟩
    exact Sim.pure ⟨rfl, hr⟩

theorem genContinuousLoop_sim (h : Copies k n is) (hk : 1 ≤ k) (feat type : String) (data vl : List ℝ)
    (hd : data.length = n) : ∀ m j ms, Sim (OnRows n is) (List.Forall₂ (SameRows n is))
      (genContinuousLoop cfg feat type data vl m j ms) (genContinuousLoop cfg feat type (pick is data) vl m j ms)
  | 0, _, _ => Sim.pure .nil
  | m + 1, j, [] => Sim.raise _ _
  | m + 1, j, memb :: ms => by
    unfold genContinuousLoop
    refine Sim.bind (genContinuousOne_sim h hk feat type data vl hd j memb) fun r r' hr => ?_
    refine Sim.bind (genContinuousLoop_sim h hk feat type data vl hd m (j + 1) ms) fun rs rs' hrs => ?_
    exact Sim.pure (.cons hr hrs)

/-- The discretization depends on the set of the values only. -/
def Spec.OnValues (x : Ext ℝ) : Prop :=
  ∀ feat v w, (∀ y : ℝ, y ∈ v ↔ y ∈ w) → x.disc feat v = x.disc feat w

theorem genContinuous_sim (h : Copies k n is) (hk : 1 ≤ k) (hx : OnValues x) (feat : String) (data : List ℝ)
    (hd : data.length = n) :
    Sim (OnRows n is) Any (genContinuous cfg x ts feat data) (genContinuous cfg x ts feat (pick is data)) := by
  unfold genContinuous
  rw [hx feat (pick is data) data (mem_pick h hk hd)]
  refine Sim.bind (Sim.lift_eq _) ?_
  rintro ⟨m, vl, memb⟩ _ rfl
  refine Sim.bind (genContinuousLoop_sim h hk feat _ data vl hd m 0 memb) fun rs rs' hrs => ?_
  refine setFeature_sim feat _ _ ?_ ?_
  · have e1 : rs'.map (·.1) = rs.map (·.1) := by
      induction hrs with
      | nil => rfl
      | cons hr _ ih => rw [List.map_cons, List.map_cons, ih, hr.1]
    have e2 : rs'.map (·.2) = (rs.map (·.2)).map (pick is) := by
      induction hrs with
      | nil => rfl
      | cons hr _ ih =>
        simp only [List.map_cons]
        rw [ih (by rw [List.map_cons, List.map_cons] at e1; exact (List.cons.inj e1).2), hr.1]
    simp only [pickFeature, e1, e2]
  · intro r hr
    simp only [List.mem_map] at hr
    obtain ⟨p, hp, rfl⟩ := hr
    have : ∀ p ∈ rs, p.2.length = n := by
      clear hp
      induction hrs with
      | nil => simp
      | cons hr _ ih => intro p hp; rcases List.mem_cons.1 hp with rfl | hp; exacts [hr.2, ih p hp]
    exact this p hp

theorem asFloats_pick (col : Column ℝ) : (pickCol is col).asFloats = pick is col.asFloats := by
  cases col with
  | strs xs => simp [pickCol, Column.asFloats, pick]
  | bools xs => simp [pickCol, Column.asFloats, pick]
  | ints xs => exact (pick_map _ is xs).symm
  | floats xs => rfl

/-- What `buildFeature` does after the concepts of the feature have been made. -/
noncomputable def learnTail (cfg : GenConf ℝ) (x : Ext ℝ) (feat : String) : PyM (Gen ℝ) Unit := do
  innerRelations cfg feat
  PyM.modify fun g => { g with processed := setAdd feat g.processed }
  let g ← PyM.get
  PyM.forEach (x.order g.processed) (relateWith cfg feat)

theorem buildFeature_sim (h : Copies k n is) (hk : 1 ≤ k) (hp : Proportional k cfg) (hx : OnValues x) (feat : String)
    (col : Column ℝ) (hl : (cells col).length = n) :
    Sim (OnRows n is) Any (buildFeature cfg x ts feat col) (buildFeature cfg x ts feat (pickCol is col)) := by
  have tail : Sim (OnRows n is) Any (learnTail cfg x feat) (learnTail cfg x feat) := by
    refine Sim.bind (innerRelations_sim feat) fun _ _ _ => ?_
    refine Sim.bind (Q := Any) (Sim.modify fun g g' hg => ⟨hg.fcm, by dsimp only; rw [hg.processed], hg.features, hg.rows⟩)
      fun _ _ _ => ?_
    refine Sim.bind Sim.get fun g g' hg => ?_
    rw [hg.processed]
    exact Sim.forEach fun _ _ => relateWith_sim h hp _ _
  have hu := uniqCells_pick h hk col hl
  cases col with
  | strs xs => exact Sim.bind (genDiscrete_sim h hk feat _ hl) fun _ _ _ => tail
  | bools xs => exact Sim.bind (genDiscrete_sim h hk feat _ hl) fun _ _ _ => tail
  | ints xs =>
    have e : ∀ c : Column ℝ, c = .ints xs ∨ c = .ints (pick is xs) → buildFeature cfg x ts feat c =
        if cfg.inferType = true ∧ c.uniqCells.length < 10 then
          genDiscrete cfg x ts feat c >>= fun _ => learnTail cfg x feat
        else genContinuous cfg x ts feat c.asFloats >>= fun _ => learnTail cfg x feat := by
      rintro c (rfl | rfl) <;> rfl
    rw [e _ (Or.inl rfl), e (pickCol is _) (Or.inr rfl)]
    by_cases hc : cfg.inferType = true ∧ (Column.ints xs : Column ℝ).uniqCells.length < 10
    · rw [if_pos hc, if_pos (by rw [hu]; exact hc)]
      exact Sim.bind (genDiscrete_sim h hk feat (.ints xs) hl) fun _ _ _ => tail
    · rw [if_neg hc, if_neg (by rw [hu]; exact hc)]
      have := genContinuous_sim (ts := ts) (cfg := cfg) h hk hx feat (Column.asFloats (.ints xs))
        (by simpa [cells, Column.asFloats] using hl)
      rw [← asFloats_pick] at this
      exact Sim.bind this fun _ _ _ => tail
  | floats xs =>
    have e : ∀ c : Column ℝ, c = .floats xs ∨ c = .floats (pick is xs) → buildFeature cfg x ts feat c =
        if cfg.inferType = true ∧ c.uniqCells.length < 10 then
          genDiscrete cfg x ts feat c >>= fun _ => learnTail cfg x feat
        else genContinuous cfg x ts feat c.asFloats >>= fun _ => learnTail cfg x feat := by
      rintro c (rfl | rfl) <;> rfl
    rw [e _ (Or.inl rfl), e (pickCol is _) (Or.inr rfl)]
    by_cases hc : cfg.inferType = true ∧ (Column.floats xs).uniqCells.length < 10
    · rw [if_pos hc, if_pos (by rw [hu]; exact hc)]
      exact Sim.bind (genDiscrete_sim h hk feat (.floats xs) hl) fun _ _ _ => tail
    · rw [if_neg hc, if_neg (by rw [hu]; exact hc)]
      have := genContinuous_sim (ts := ts) (cfg := cfg) h hk hx feat (Column.asFloats (.floats xs))
        (by simpa [cells, Column.asFloats] using hl)
      rw [← asFloats_pick] at this
      exact Sim.bind this fun _ _ _ => tail

theorem buildFcm_sim (h : Copies k n is) (hk : 1 ≤ k) (hp : Proportional k cfg) (hx : OnValues x) :
    ∀ (cols : List (String × Column ℝ)), (∀ p ∈ cols, (cells p.2).length = n) →
      Sim (OnRows n is) Any (buildFcm cfg x ts cols) (buildFcm cfg x ts (pickRows is cols))
  | [], _ => Sim.pure trivial
  | (feat, col) :: rest, hl => by
    unfold buildFcm
    exact Sim.bind (buildFeature_sim h hk hp hx feat col (hl (feat, col) List.mem_cons_self)) fun _ _ _ =>
      buildFcm_sim h hk hp hx rest fun p hm => hl p (List.mem_cons_of_mem _ hm)

theorem discretize_onValues (env : ClusterEnv ℝ) (s : String) (x : Ext ℝ) : OnValues (x.standard env s) := by
  intro feat v w hvw
  unfold Ext.standard Ext.withDisc discretize
  dsimp only
  rw [uniq_ext strictOrder_real hvw]

end gen
end PyFCM
