import Verif.Lemmas.Rounding
import Verif.Props.Floating
import Verif.Props.Contract
/-
C115: rounding errors stay small.
-/
namespace PyFCM
open Arith Spec Ieee

set_option linter.unusedSectionVars false

variable [F : Format]

/-! ### Specification -/

/-- The same function over the floating-point numbers and over the reals, one of those with bounded slope: no parameter, or the same one, which is a
number of the format; `Λ` bounds the parameter (and for relm its inverse). -/
def Spec.SameFn (Λ : ℝ) (f : FnInfo Ieee) (g : FnInfo ℝ) : Prop :=
  f.fn = g.fn ∧ (f.fn = .saturation ∨ f.fn = .sigmoid ∨ f.fn = .sigmoidHip ∨ f.fn = .relm) ∧
    ((f.args = [] ∧ g.args = []) ∨ ∃ l, f.fn ≠ .saturation ∧ f.args = [("lambda_val", .num (fin l))] ∧ g.args = [("lambda_val", .num l)] ∧
      F.rd l = fin l ∧ |l| ≤ Λ ∧ (f.fn = .relm → 0 < l ∧ 1 / l ≤ Λ))

/-- The map `m` over the floating-point numbers is the map `r` over the reals: the same concepts, functions, relations and initial values (in
[-1,1]); `W` bounds the weights. -/
structure Spec.Represents (Λ : ℝ) (W : Nat) (m : FCM Ieee) (r : FCM ℝ) : Prop where
  keys : m.topology.keys = r.topology.keys
  nodes : ∀ c n k, m.topology.get? c = some n → r.topology.get? c = some k → n.active = k.active ∧ n.exec = k.exec ∧ n.useMem = k.useMem ∧
    ∃ f g, n.fn = some f ∧ k.fn = some g ∧ SameFn Λ f g
  arcs : List.Forall₂ (fun a b => a.origin = b.origin ∧ a.dest = b.dest ∧ a.weight = fin b.weight ∧ |b.weight| ≤ (W : ℝ)) m.arcList r.arcList
  start : ∀ c ∈ r.topology.keys, at' m.traj 0 c = fin (at' r.traj 0 c) ∧ |at' r.traj 0 c| ≤ 1

/-- The rounding error of one step: `K` exceeds the number of relations into a concept. -/
noncomputable def Spec.stepError (ε Λ : ℝ) (W K : Nat) : ℝ := (14 + 18 * Λ * W * K ^ 2) * ε

/-! ### Functions -/

theorem fn_slope {Λ : ℝ} (h2 : 2 ≤ Λ) {f : FnInfo Ieee} {g : FnInfo ℝ} (h : SameFn Λ f g) : ∃ L, L ≤ Λ ∧ SlopeArgs g L := by
  obtain ⟨h1, hf, ha⟩ := h
  rw [h1] at hf ha
  unfold SlopeArgs
  rcases hf with e | e | e | e <;> rw [e] at ha ⊢ <;> simp only <;>
    rcases ha with ⟨-, ha⟩ | ⟨l, hs, -, ha, -, hl, hr⟩
  · exact ⟨1, by linarith, ha, rfl⟩
  · exact absurd rfl hs
  · exact ⟨1 / 4, by linarith, .inl ⟨ha, rfl⟩⟩
  · exact ⟨|l| / 4, by linarith [abs_nonneg l], .inr ⟨l, ha, rfl⟩⟩
  · exact ⟨1, by linarith, .inl ⟨ha, rfl⟩⟩
  · exact ⟨|l| / 2, by linarith [abs_nonneg l], .inr ⟨l, ha, rfl⟩⟩
  · exact ⟨1, by linarith, .inl ⟨ha, rfl⟩⟩
  · exact ⟨1 / l, (hr rfl).2, .inr ⟨l, (hr rfl).1, ha, rfl⟩⟩

theorem rd_two : F.rd 2 = fin 2 := by simpa using F.ints 2 (big_of (by decide))

/-- The function at a number: the computed value is near the real one. -/
theorem fn_near {ε Λ : ℝ} (A : Accurate ε) (h2 : 2 ≤ Λ) {f : FnInfo Ieee} {g : FnInfo ℝ} (h : SameFn Λ f g) {x : ℝ} (hx : Λ * |x| ≤ Real.exp 500) :
    ∃ z v, callActv f.fn (fin x) f.args = .ok (fin z) ∧ callActv g.fn x g.args = .ok v ∧ |z - v| ≤ ε * (14 + Λ * |x|) := by
  obtain ⟨h1, hf, ha⟩ := h
  have hA := A.nonneg
  have hx0 := abs_nonneg x
  have small : ∀ {l : ℝ}, |l| ≤ Λ → |l * x| ≤ Λ * |x| := fun h => by rw [abs_mul]; exact mul_le_mul_of_nonneg_right h hx0
  have lits1 : (lit 1 : ℝ) = 1 := by simp
  have lits2 : (lit 2 : ℝ) = 2 := by simp
  have b1 : |(1 : ℝ)| ≤ Λ := by rw [abs_one]; linarith
  have b2 : |(2 : ℝ)| ≤ Λ := by rw [abs_two]; exact h2
  have up : ∀ {d n : ℝ}, n ≤ 14 → d ≤ ε * (n + Λ * |x|) → d ≤ ε * (14 + Λ * |x|) := fun hn h => h.trans (mul_le_mul_of_nonneg_left (by linarith) hA)
  have sig : ∀ {l : ℝ}, |l| ≤ Λ → F.rd l = fin l → ∃ z v, sigmoid (fin x : Ieee) (fin l) = .ok (fin z) ∧ sigmoid x l = .ok v ∧ |z - v| ≤ ε * (14 + Λ * |x|) := by
    intro l hl hr
    obtain ⟨z, hz, hd⟩ := sigmoid_near A hr ((small hl).trans hx)
    exact ⟨z, _, hz, sigmoid_real x l, up (n := 6) (by norm_num) (hd.trans (mul_le_mul_of_nonneg_left (by linarith [small hl]) hA))⟩
  have hip : ∀ {l : ℝ}, |l| ≤ Λ → F.rd l = fin l → ∃ z v, sigmoidHip (fin x : Ieee) (fin l) = .ok (fin z) ∧ sigmoidHip x l = .ok v ∧
      |z - v| ≤ ε * (14 + Λ * |x|) := by
    intro l hl hr
    obtain ⟨z, hz, hd⟩ := sigmoidHip_near A hr ((small hl).trans hx)
    exact ⟨z, _, hz, sigmoidHip_real x l, hd.trans (mul_le_mul_of_nonneg_left (by linarith [small hl]) hA)⟩
  have rel : ∀ {l : ℝ}, 0 < l → ∃ z v, relm (fin x : Ieee) (fin l) = .ok (fin z) ∧ relm x l = .ok v ∧ |z - v| ≤ ε * (14 + Λ * |x|) := by
    intro l hl
    obtain ⟨z, hz, hd⟩ := relm_near A (x := x) hl
    refine ⟨z, _, hz, relm_real hl.ne', hd.trans ?_⟩
    nlinarith [mul_nonneg hA (mul_nonneg (by linarith : 0 ≤ Λ) hx0)]
  rw [← h1]
  rcases hf with e | e | e | e <;> rw [e] at ha ⊢ <;>
    rcases ha with ⟨ha, ha'⟩ | ⟨l, hs, ha, ha', hr, hl, hp⟩ <;> rw [ha, ha']
  · refine ⟨saturation x, saturation x, ?_, rfl, by rw [sub_self, abs_zero]; positivity⟩
    show Except.ok (saturation (fin x)) = _
    rw [saturation_near]
  · exact absurd rfl hs
  · obtain ⟨z, v, h1, h2, h3⟩ := sig b1 rd_one
    rw [← lit1] at h1; rw [← lits1] at h2
    exact ⟨z, v, h1, h2, h3⟩
  · exact sig hl hr
  · obtain ⟨z, v, h1, h2, h3⟩ := hip b2 rd_two
    rw [← lit2] at h1; rw [← lits2] at h2
    exact ⟨z, v, h1, h2, h3⟩
  · exact hip hl hr
  · obtain ⟨z, v, h1, h2, h3⟩ := rel one_pos
    rw [← lit1] at h1; rw [← lits1] at h2
    exact ⟨z, v, h1, h2, h3⟩
  · exact rel (hp rfl).1

theorem same_sound {Λ : ℝ} {f : FnInfo Ieee} {g : FnInfo ℝ} (h : SameFn Λ f g) : SoundArgs f := by
  obtain ⟨h1, hf, ha⟩ := h
  unfold SoundArgs
  rcases hf with e | e | e | e <;> rw [e] <;> simp only
  rw [e] at ha
  intro l hl
  rcases ha with ⟨ha, -⟩ | ⟨l', -, ha, -, -, -, hp⟩ <;> rw [ha] at hl
  · cases hl
  · have : l = fin l' := by simpa using hl
    rw [this]
    exact (hp rfl).1

/-! ### The input of a concept -/

theorem source_near {ε : ℝ} (A : Accurate ε) {K : Concept Ieee} {k : Concept ℝ} (hk : K.rescale = k.rescale) {a : ℝ} (ha : |a| ≤ 1) :
    ∃ s, source K (fin a) = fin s ∧ |s| ≤ 3 ∧ |s - source k a| ≤ 7 * ε := by
  have hA := A.nonneg
  have ha' := abs_le.1 ha
  have hs := source_among (F := F) (k := K) (a := fin a) ⟨a, rfl, ha'.1, ha'.2⟩
  obtain ⟨s, e, h1, h2⟩ := hs
  refine ⟨s, e, abs_le.2 ⟨h1, h2⟩, ?_⟩
  unfold source at e ⊢
  rw [hk] at e
  split at e
  · rename_i hr
    rw [if_pos hr]
    have he : (500 : ℝ) ≤ Real.exp 500 := by linarith [Real.add_one_le_exp (500 : ℝ)]
    obtain ⟨p, hp, hpd⟩ := A.near (2 * a) (by rw [abs_mul, abs_two]; linarith)
    have h2a : |2 * a| ≤ 2 := by rw [abs_mul, abs_two]; linarith
    have hpd' : |p - 2 * a| ≤ 3 * ε := hpd.trans (by nlinarith)
    have hp2 := Format.rd_among (F := F) (lo := -2) (hi := 2) (x := 2 * a) (big_of (by decide)) (big_of (by decide))
      (by push_cast; linarith) (by push_cast; linarith)
    obtain ⟨p', hp', h3, h4⟩ := hp2
    rw [hp] at hp'
    cases hp'
    have h5 : |p - 1| ≤ 3 := by push_cast at h3 h4; rw [abs_le]; constructor <;> linarith
    obtain ⟨y, hy, hyd⟩ := A.near (p - 1) (by linarith)
    have e1 : (lit 2 * fin a - lit 1 : Ieee) = fin y := by
      rw [lit2, lit1]
      show Ieee.add (F.rd (2 * a)) (Ieee.neg (fin 1)) = _
      rw [hp]
      exact hy
    rw [e1] at e
    cases e
    have hyd : |s - (p - 1)| ≤ 4 * ε := hyd.trans (by nlinarith)
    have e2 : (lit 2 * a - lit 1 : ℝ) = 2 * a - 1 := by simp
    rw [e2]
    have := abs_add_le (s - (p - 1)) (p - 2 * a)
    rw [show s - (p - 1) + (p - 2 * a) = s - (2 * a - 1) by ring] at this
    linarith
  · rename_i hr
    rw [if_neg hr]
    cases e
    rw [sub_self, abs_zero]
    linarith

/-- What is computed along a relation. -/
def Close (W : Nat) (ε : ℝ) (y : Ieee) (x : ℝ) : Prop := ∃ z, y = fin z ∧ |z| ≤ 3 * W ∧ |z - x| ≤ 11 * W * ε

theorem abs_int {n : Nat} (h : n ≤ F.big) : |(n : Int)| ≤ F.big := by rw [Nat.abs_cast]; exact_mod_cast h

theorem product_near {ε : ℝ} (A : Accurate ε) {W : Nat} (hW : 1 ≤ W) (hb : 3 * W ≤ F.big) (he : (3 * W : ℝ) ≤ Real.exp 500) {s x w : ℝ}
    (hs : |s| ≤ 3) (hd : |s - x| ≤ 7 * ε) (hw : |w| ≤ W) : Close W ε (fin s * fin w : Ieee) (x * w) := by
  have hA := A.nonneg
  have hW' : (1 : ℝ) ≤ W := by exact_mod_cast hW
  have hsw : |s * w| ≤ 3 * W := by rw [abs_mul]; exact mul_le_mul hs hw (abs_nonneg _) (by norm_num)
  obtain ⟨z, hz, hzd⟩ := A.near (s * w) (by linarith [Real.exp_pos 500])
  obtain ⟨z', hz', h1, h2⟩ := Format.rd_among (F := F) (lo := -(3 * W : Nat)) (hi := (3 * W : Nat)) (x := s * w)
    (by rw [abs_neg]; exact abs_int hb) (abs_int hb) (by push_cast; linarith [(abs_le.1 hsw).1]) (by push_cast; exact (abs_le.1 hsw).2)
  rw [hz] at hz'
  cases hz'
  refine ⟨z, hz, by push_cast at h1 h2; exact abs_le.2 ⟨by linarith, by linarith⟩, ?_⟩
  have h3 := abs_add_le (z - s * w) ((s - x) * w)
  rw [show z - s * w + (s - x) * w = z - x * w by ring] at h3
  have h4 : |(s - x) * w| ≤ 7 * ε * W := by rw [abs_mul]; exact mul_le_mul hd hw (abs_nonneg _) (by linarith)
  have h5 : |z - s * w| ≤ ε * (1 + 3 * W) := hzd.trans (mul_le_mul_of_nonneg_left (by linarith) hA)
  nlinarith

/-- One addition. -/
theorem add_near {ε : ℝ} (A : Accurate ε) {W J j : Nat} (hb : 3 * W * J ≤ F.big) (he : (3 * W * J : ℝ) ≤ Real.exp 500) (hj : j + 1 ≤ J)
    {s z : ℝ} (hs : |s| ≤ 3 * W * j) (hz : |z| ≤ 3 * W) :
    ∃ s', (fin s + fin z : Ieee) = fin s' ∧ |s'| ≤ 3 * W * (j + 1 : Nat) ∧ |s' - (s + z)| ≤ ε * (1 + 3 * W * J) := by
  have hsz : |s + z| ≤ 3 * W * (j + 1 : Nat) := (abs_add_le _ _).trans (by push_cast; linarith)
  have hJ : ((3 * W * (j + 1 : Nat) : ℕ) : ℝ) ≤ 3 * W * J := by exact_mod_cast Nat.mul_le_mul_left (3 * W) hj
  have hJ' : (3 * W * (j + 1 : Nat) : ℝ) ≤ 3 * W * J := by exact_mod_cast Nat.mul_le_mul_left (3 * W) hj
  obtain ⟨y, hy, hyd⟩ := A.near (s + z) (by linarith [Real.exp_pos 500])
  have hb' := (Nat.mul_le_mul_left (3 * W) hj).trans hb
  obtain ⟨y', hy', h1, h2⟩ := Format.rd_among (F := F) (lo := -(3 * W * (j + 1) : Nat)) (hi := (3 * W * (j + 1) : Nat)) (x := s + z)
    (by rw [abs_neg]; exact abs_int hb') (abs_int hb') (by push_cast at hsz ⊢; linarith [(abs_le.1 hsz).1])
    (by push_cast at hsz ⊢; exact (abs_le.1 hsz).2)
  rw [hy] at hy'
  cases hy'
  refine ⟨y, hy, by push_cast at h1 h2 ⊢; exact abs_le.2 ⟨by linarith, by linarith⟩, hyd.trans ?_⟩
  exact mul_le_mul_of_nonneg_left (by linarith) A.nonneg

theorem fold_near {ε : ℝ} (A : Accurate ε) {W J : Nat} (hb : 3 * W * J ≤ F.big) (he : (3 * W * J : ℝ) ≤ Real.exp 500) {ys : List Ieee}
    {xs : List ℝ} (h : List.Forall₂ (Close W ε) ys xs) : ∀ {j : Nat} {s r E : ℝ}, j + ys.length ≤ J → |s| ≤ 3 * W * j → |s - r| ≤ E →
    ∃ s', ys.foldl (· + ·) (fin s : Ieee) = fin s' ∧ |s'| ≤ 3 * W * (j + ys.length : Nat) ∧
      |s' - xs.foldl (· + ·) r| ≤ E + ys.length * (11 * W * ε + ε * (1 + 3 * W * J)) := by
  induction h with
  | nil => intro j s r E _ h1 h2; exact ⟨s, rfl, by simpa using h1, by simpa using h2⟩
  | @cons y x ys xs hyx _ ih =>
    intro j s r E hj h1 h2
    obtain ⟨z, rfl, hz, hzd⟩ := hyx
    rw [List.length_cons] at hj
    obtain ⟨s1, e1, b1, d1⟩ := add_near A hb he (by omega) h1 hz
    have h3 : |s1 - (r + x)| ≤ E + (11 * W * ε + ε * (1 + 3 * W * J)) := by
      have := abs_add_three (s1 - (s + z)) (s - r) (z - x)
      rw [show s1 - (s + z) + (s - r) + (z - x) = s1 - (r + x) by ring] at this
      linarith
    obtain ⟨s2, e2, b2, d2⟩ := ih (j := j + 1) (s := s1) (r := r + x) (by omega) b1 h3
    refine ⟨s2, ?_, ?_, ?_⟩
    · rw [List.foldl_cons]
      show List.foldl _ (fin s + fin z : Ieee) ys = _
      rw [e1]
      exact e2
    · rw [List.length_cons, show j + (ys.length + 1) = j + 1 + ys.length by omega]
      exact b2
    · rw [List.foldl_cons, List.length_cons]
      refine d2.trans (le_of_eq ?_)
      push_cast
      ring

/-- The same network. -/
structure NetNear (Λ : ℝ) (W : Nat) (N : Net Ieee) (R : Net ℝ) (cs : List String) : Prop where
  rels : List.Forall₂ (fun a b => a.origin = b.origin ∧ a.dest = b.dest ∧ a.weight = fin b.weight ∧ |b.weight| ≤ (W : ℝ)) N.rels R.rels
  origins : ∀ r ∈ R.rels, r.origin ∈ cs
  concept : ∀ c ∈ cs, ∃ K k f g, N.concept c = some K ∧ R.concept c = some k ∧ K.active = k.active ∧ K.rescale = k.rescale ∧
    K.memory = k.memory ∧ K.divisor = none ∧ k.divisor = none ∧ K.act = (fun x => callActv f.fn x f.args) ∧
    k.act = (fun x => callActv g.fn x g.args) ∧ SameFn Λ f g

theorem inputs_near {ε Λ : ℝ} (A : Accurate ε) {W : Nat} (hW : 1 ≤ W) (hb : 3 * W ≤ F.big) (he : (3 * W : ℝ) ≤ Real.exp 500) {N : Net Ieee}
    {R : Net ℝ} {cs : List String} (hN : NetNear Λ W N R cs) {a : String → Ieee} {z : String → ℝ} (hz : ∀ d ∈ cs, a d = fin (z d) ∧ |z d| ≤ 1)
    (c : String) : List.Forall₂ (Close W ε) (inputs N a c) (inputs R z c) ∧
      (inputs N a c).length ≤ (R.rels.filter fun r => r.dest = c).length := by
  unfold inputs
  have key : ∀ {xs : List (Rel Ieee)} {ys : List (Rel ℝ)},
      List.Forall₂ (fun a b => a.origin = b.origin ∧ a.dest = b.dest ∧ a.weight = fin b.weight ∧ |b.weight| ≤ (W : ℝ)) xs ys →
      (∀ r ∈ ys, r.origin ∈ cs) → List.Forall₂ (Close W ε) (xs.filterMap (along N a c)) (ys.filterMap (along R z c)) ∧
        (xs.filterMap (along N a c)).length ≤ (ys.filter fun r => r.dest = c).length := by
    intro xs ys h
    induction h with
    | nil => intro _; exact ⟨.nil, le_rfl⟩
    | @cons x y xs ys hxy _ ih =>
      intro ho
      obtain ⟨ih, il⟩ := ih fun r hr => ho r (.tail _ hr)
      obtain ⟨o1, o2, o3, o4⟩ := hxy
      obtain ⟨K, k, f, g, c1, c2, c3, c4, -⟩ := hN.concept _ (ho y (.head _))
      have az := hz _ (ho y (.head _))
      have ex : along N a c x = if y.dest = c then (if k.active = true then some (source K (a y.origin) * x.weight) else none) else none := by
        unfold along
        rw [o1, o2, c1, ← c3]
      have ey : along R z c y = if y.dest = c then (if k.active = true then some (source k (z y.origin) * y.weight) else none) else none := by
        unfold along
        rw [c2]
      rw [List.filterMap_cons, List.filterMap_cons, List.filter_cons, ex, ey]
      by_cases hd : y.dest = c
      · rw [if_pos hd, if_pos hd, if_pos (show decide (y.dest = c) = true by simpa using hd)]
        by_cases ha : k.active = true
        · rw [if_pos ha, if_pos ha]
          refine ⟨.cons ?_ ih, by simpa using il⟩
          obtain ⟨s, hs, s1, s2⟩ := source_near A c4 az.2
          rw [az.1, hs, o3]
          exact product_near A hW hb he s1 s2 o4
        · rw [if_neg ha, if_neg ha]
          exact ⟨ih, il.trans (Nat.le_succ _)⟩
      · rw [if_neg hd, if_neg hd, if_neg (show ¬ decide (y.dest = c) = true by simpa using hd)]
        exact ⟨ih, il⟩
  exact key hN.rels hN.origins

/-- One step from numbers in [-1,1]: the computed values are numbers in [-1,1] near the values over the reals. -/
theorem step_near {ε Λ : ℝ} (A : Accurate ε) (h2 : 2 ≤ Λ) {W K : Nat} (hW : 1 ≤ W) (hb : 3 * W * K ≤ F.big) (he : Λ * (3 * W * K) ≤ Real.exp 500)
    {N : Net Ieee} {R : Net ℝ} {cs : List String} (hN : NetNear Λ W N R cs) {a : String → Ieee} {z : String → ℝ}
    (hz : ∀ d ∈ cs, a d = fin (z d) ∧ |z d| ≤ 1) {c : String} (hc : c ∈ cs) (hK : (R.rels.filter fun r => r.dest = c).length < K) :
    ∃ u v, next N a c = some (.ok (fin u)) ∧ next R z c = some (.ok v) ∧ |u| ≤ 1 ∧ |u - v| ≤ stepError ε Λ W K := by
  have hA := A.nonneg
  have hW' : (1 : ℝ) ≤ W := by exact_mod_cast hW
  have hK' : (1 : ℝ) ≤ K := by exact_mod_cast (by omega : 1 ≤ K)
  have hWK : (3 * W : ℝ) ≤ 3 * W * K := by nlinarith
  have heK : (3 * W * K : ℝ) ≤ Real.exp 500 := by nlinarith
  have hb' : 3 * W ≤ F.big := le_trans (Nat.le_mul_of_pos_right _ (by omega)) hb
  obtain ⟨hin, hlen⟩ := inputs_near A hW hb' (hWK.trans heK) hN hz c
  obtain ⟨k1, k, f, g, c1, c2, c3, c4, c5, c6, c7, c8, c9, c10⟩ := hN.concept c hc
  have az := hz c hc
  set n := (inputs N a c).length with hn
  have hnK : (n : ℝ) + 1 ≤ K := by exact_mod_cast (by omega : n + 1 ≤ K)
  obtain ⟨s, hs, sb, sd⟩ := fold_near A hb heK hin (j := 0) (s := 0) (r := lit 0) (E := 0) (by omega) (by simp) (by simp)
  rw [zero_add, ← hn] at sd
  rw [Nat.zero_add, ← hn] at sb
  have hsum : total (inputs N a c) = fin s := by unfold total; rw [lit0]; exact hs
  obtain ⟨x, y, hx, hy, xb, xd⟩ : ∃ x y, (if k1.memory = true then total (inputs N a c) + source k1 (a c) else total (inputs N a c)) = (fin x : Ieee) ∧
      (if k.memory = true then total (inputs R z c) + source k (z c) else total (inputs R z c)) = y ∧ |x| ≤ 3 * W * K ∧
      |x - y| ≤ 15 * W * K ^ 2 * ε := by
    rw [c5]
    have hE : 0 ≤ 11 * W * ε + ε * (1 + 3 * W * K) := by positivity
    have hfin : K * (11 * W * ε + ε * (1 + 3 * W * K)) ≤ 15 * W * K ^ 2 * ε := by
      have h1 : (K : ℝ) ≤ K ^ 2 := by nlinarith
      have h2 : (W : ℝ) * K ≤ W * K ^ 2 := mul_le_mul_of_nonneg_left h1 (by linarith)
      have h3 : (K : ℝ) ≤ W * K := by nlinarith
      have h4 : ε * (11 * (W * K) + K + 3 * (W * K ^ 2)) ≤ ε * (15 * (W * K ^ 2)) := mul_le_mul_of_nonneg_left (by linarith) hA
      nlinarith
    by_cases hm : k.memory = true
    · rw [if_pos hm, if_pos hm, hsum]
      obtain ⟨p, hp, pb, pd⟩ := source_near A c4 az.2
      rw [az.1, hp]
      obtain ⟨s', e', b', d'⟩ := add_near A hb heK (j := n) (by omega) sb (by linarith : |p| ≤ 3 * W)
      refine ⟨s', _, e', rfl, b'.trans ?_, ?_⟩
      · push_cast
        exact mul_le_mul_of_nonneg_left hnK (by positivity)
      · have h1 := abs_add_three (s' - (s + p)) (s - total (inputs R z c)) (p - source k (z c))
        rw [show s' - (s + p) + (s - total (inputs R z c)) + (p - source k (z c)) = s' - (total (inputs R z c) + source k (z c)) by ring] at h1
        refine le_trans ?_ hfin
        have sd : |s - total (inputs R z c)| ≤ n * (11 * W * ε + ε * (1 + 3 * W * K)) := sd
        have h3 : 7 * ε ≤ 11 * W * ε := mul_le_mul_of_nonneg_right (by linarith) hA
        have h4 := mul_le_mul_of_nonneg_right hnK hE
        linarith
    · rw [if_neg hm, if_neg hm, hsum]
      refine ⟨s, _, rfl, rfl, sb.trans (mul_le_mul_of_nonneg_left (by linarith) (by positivity)), ?_⟩
      refine le_trans ?_ hfin
      have sd : |s - total (inputs R z c)| ≤ n * (11 * W * ε + ε * (1 + 3 * W * K)) := sd
      have h4 := mul_le_mul_of_nonneg_right hnK hE
      linarith
  have hΛx : Λ * |x| ≤ Λ * (3 * W * K) := mul_le_mul_of_nonneg_left xb (by linarith)
  obtain ⟨u, w, hu, hw, huw⟩ := fn_near A h2 c10 (hΛx.trans he)
  obtain ⟨L, hL, hsl⟩ := fn_slope h2 c10
  obtain ⟨hL0, hlip⟩ := callActv_slope hsl
  obtain ⟨v, hv⟩ := callActv_total hsl.proper.1 y
  have h3 := hlip _ _ _ _ hw hv
  refine ⟨u, v, ?_, ?_, ?_, ?_⟩
  · unfold next
    rw [c1]
    simp only [Option.map_some, c6, c8, hx, hu]
  · unfold next
    rw [c2]
    simp only [Option.map_some, c7, c9, hy, hv]
  · rcases callActv_within (same_sound c10) hu with e | ⟨u', e, h1, h2⟩ <;> cases e
    exact abs_le.2 ⟨h1, h2⟩
  · have h4 := abs_add_le (u - w) (w - v)
    rw [sub_add_sub_cancel] at h4
    have h5 : L * |x - y| ≤ Λ * (15 * W * K ^ 2 * ε) := mul_le_mul hL xd (abs_nonneg _) (by linarith)
    have h6 : ε * (14 + Λ * |x|) ≤ ε * (14 + Λ * (3 * W * K)) := mul_le_mul_of_nonneg_left (by linarith) hA
    have h7 : ε * (Λ * (3 * W * K)) ≤ ε * (Λ * (3 * W * K ^ 2)) := by
      refine mul_le_mul_of_nonneg_left (mul_le_mul_of_nonneg_left (mul_le_mul_of_nonneg_left ?_ (by positivity)) (by linarith)) hA
      nlinarith
    unfold stepError
    nlinarith

theorem toSpec_at {n : Node Ieee} {f : FnInfo Ieee} {ex : ExcFn × String} {um : Bool} (h1 : n.fn = some f) (h2 : n.exec = some ex)
    (h3 : n.useMem = some um) : n.toSpec = some ⟨n.active, ex.2 == "PAPAGEORGIUS", um,
      if f.name = "fuzzy" then some n.actvSum else none, fun x => callActv f.fn x f.args⟩ := by
  unfold Node.toSpec
  rw [h1, h2, h3]

theorem netNear {Λ : ℝ} {W : Nat} {m : FCM Ieee} {r : FCM ℝ} (hm : Reachable m) (hr : Reachable r) (h : Represents Λ W m r)
    {q : ℝ} (hq : Flat r q) : NetNear Λ W m.net r.net r.topology.keys where
  rels := by
    have h1 := h.arcs
    show List.Forall₂ _ (m.arcList.map Arc.toSpec) (r.arcList.map Arc.toSpec)
    rw [List.forall₂_map_left_iff, List.forall₂_map_right_iff]
    exact h1
  origins := origins hr
  concept c hc := by
    have hc' := hc
    rw [← h.keys] at hc'
    obtain ⟨n, hn⟩ := Dict.exists_get?_of_mem hc'
    obtain ⟨k, hk⟩ := Dict.exists_get?_of_mem hc
    obtain ⟨h1, h2, h3, f, g, h4, h5, h6⟩ := h.nodes c n k hn hk
    obtain ⟨-, ex, um, -, -, k2, k3, -⟩ := hq c k hk
    have cm : m.net.concept c = n.toSpec := by show (m.topology.get? c).bind _ = _; rw [hn]; rfl
    have cr : r.net.concept c = k.toSpec := by show (r.topology.get? c).bind _ = _; rw [hk]; rfl
    have nf : f.fn ≠ .fuzzy := by rcases h6.2.1 with e | e | e | e <;> rw [e] <;> simp
    have o1 : Activation.getFunctionByName f.name = some f.fn := (hm.inv.nodes c n hn).fn f h4
    have o2 : Activation.getFunctionByName g.name = some g.fn := (hr.inv.nodes c k hk).fn g h5
    have n1 : f.name ≠ "fuzzy" := fun e => by rw [e] at o1; exact nf (Option.some.inj o1).symm
    have n2 : g.name ≠ "fuzzy" := fun e => by rw [e] at o2; exact nf (h6.1.trans (Option.some.inj o2).symm)
    have dm := cm.trans (toSpec_at h4 (h2.trans k2) (h3.trans k3))
    have dr := cr.trans (toSpec_of h5 k2 k3)
    exact ⟨_, _, f, g, dm, dr, h1, rfl, rfl, if_neg n1, if_neg n2, rfl, rfl, h6⟩

/-- A computed run against a sequence of states of the map over the reals that starts at a distance of at most `D`. -/
theorem run_near {ε Λ : ℝ} (A : Accurate ε) (h2 : 2 ≤ Λ) {W K : Nat} (hW : 1 ≤ W) (hb : 3 * W * K ≤ F.big) (he : Λ * (3 * W * K) ≤ Real.exp 500)
    {m m' : FCM Ieee} {r : FCM ℝ} (hm : Reachable m) (hr : Reachable r) (dm : m.debug = true)
    (h : Represents Λ W m r) {q : ℝ} (hq : Flat r q) (hK : ∀ c ∈ r.topology.keys, (r.arcList.filter fun a => a.dest = c).length < K)
    (rm : FCM.runInference true m = (.ok (), m')) {Y : Nat → String → ℝ} {len' : Nat} {D : ℝ}
    (h0 : ∀ c ∈ r.topology.keys, |at' r.traj 0 c - Y 0 c| ≤ D)
    (hY : ∀ c ∈ r.topology.keys, ∀ t, t + 1 < len' → next r.net (Y t) c = some (.ok (Y (t + 1) c)))
    {t : Nat} (tr : t < len') {c : String} (hc : c ∈ r.topology.keys) (tm : t < (m'.traj c).length) :
    ∃ z, at' m'.traj t c = fin z ∧ |z| ≤ 1 ∧ |z - Y t c| ≤ q ^ t * D + stepError ε Λ W K * ∑ i ∈ Finset.range t, q ^ i := by
  obtain ⟨len, hi⟩ := run_iter hm.inv dm rm
  have hN := netNear hm hr h hq
  have hcon := contracting_of hr hq
  rw [(hi.run c (by rw [h.keys]; exact hc)).1] at tm
  have hK' : ∀ c ∈ r.topology.keys, (r.net.rels.filter fun a => a.dest = c).length < K := by
    intro c hc
    have e : (r.net.rels.filter fun a => a.dest = c) = (r.arcList.filter fun a => a.dest = c).map Arc.toSpec := by
      show (r.arcList.map Arc.toSpec).filter _ = _
      rw [List.filter_map]
      rfl
    rw [e, List.length_map]
    exact hK c hc
  have key : ∀ t, t < len → t < len' → ∀ c ∈ r.topology.keys, ∃ z, at' m'.traj t c = fin z ∧ |z| ≤ 1 ∧
      |z - Y t c| ≤ q ^ t * D + stepError ε Λ W K * ∑ i ∈ Finset.range t, q ^ i := by
    intro t
    induction t with
    | zero =>
      intro _ _ c hc
      have s := h.start c hc
      refine ⟨at' r.traj 0 c, ?_, s.2, ?_⟩
      · rw [(hi.init c (by rw [h.keys]; exact hc)).2, s.1]
      · simpa using h0 c hc
    | succ t ih =>
      intro h1 h2' c hc
      have ih := ih (by omega) (by omega)
      have hch : ∀ d, ∃ z : ℝ, d ∈ r.topology.keys → at' m'.traj t d = fin z ∧ |z| ≤ 1 ∧
          |z - Y t d| ≤ q ^ t * D + stepError ε Λ W K * ∑ i ∈ Finset.range t, q ^ i := by
        intro d
        by_cases hd : d ∈ r.topology.keys
        · obtain ⟨z, hz⟩ := ih d hd
          exact ⟨z, fun _ => hz⟩
        · exact ⟨0, fun h => absurd h hd⟩
      choose z hz using hch
      obtain ⟨u, v, hu, hv, hu1, huv⟩ := step_near A h2 hW hb he hN (fun d hd => ⟨(hz d hd).1, (hz d hd).2.1⟩) hc (hK' c hc)
      have e1 := (hi.run c (by rw [h.keys]; exact hc)).2 t h1
      rw [hu] at e1
      have e1 : fin u = at' m'.traj (t + 1) c := by simpa using e1
      have h3 := next_diff hcon hN.origins (fun d hd => (hz d hd).2.2) hc hv (hY c hc t h2')
      refine ⟨u, e1.symm, hu1, ?_⟩
      have h4 := abs_add_le (u - v) (v - Y (t + 1) c)
      rw [sub_add_sub_cancel] at h4
      have e3 : ∑ i ∈ Finset.range (t + 1), q ^ i = 1 + q * ∑ i ∈ Finset.range t, q ^ i := by
        rw [Finset.sum_range_succ', Finset.mul_sum, add_comm]
        simp [pow_succ, mul_comm]
      rw [e3, pow_succ]
      linarith
  exact key t tm tr c hc

theorem stepError_nonneg {ε Λ : ℝ} (A : Accurate ε) (h2 : 2 ≤ Λ) (W K : Nat) : 0 ≤ stepError ε Λ W K := by
  unfold stepError
  have := A.nonneg
  positivity

theorem geometric_le {q : ℝ} (q0 : 0 ≤ q) (q1 : q < 1) (t : Nat) : ∑ i ∈ Finset.range t, q ^ i ≤ (1 - q)⁻¹ := by
  rw [← tsum_geometric_of_lt_one q0 q1]
  exact Summable.sum_le_tsum _ (fun i _ => pow_nonneg q0 i) (summable_geometric_of_lt_one q0 q1)

/-! ### C115 -/

/-- C115: the iterative engine, whatever the map does with differences (`q` may be at least 1).  After `t` steps the recorded value is a number whose
distance to the value over the reals is at most the rounding error of one step times 1 + q + … + q^(t-1). -/
theorem C115_error {ε Λ : ℝ} (A : Accurate ε) (h2 : 2 ≤ Λ) {W K : Nat} (hW : 1 ≤ W) (hb : 3 * W * K ≤ F.big) (he : Λ * (3 * W * K) ≤ Real.exp 500)
    {m m' : FCM Ieee} {r r' : FCM ℝ} (hm : Reachable m) (hr : Reachable r) (dm : m.debug = true) (dr : r.debug = true)
    (h : Represents Λ W m r) {q : ℝ} (hq : Flat r q) (hK : ∀ c ∈ r.topology.keys, (r.arcList.filter fun a => a.dest = c).length < K)
    (rm : FCM.runInference true m = (.ok (), m')) (rr : FCM.runInference true r = (.ok (), r')) {c : String} (hc : c ∈ r.topology.keys) {t : Nat}
    (tm : t < (m'.traj c).length) (tr : t < (r'.traj c).length) :
    ∃ z, at' m'.traj t c = fin z ∧ |z| ≤ 1 ∧ |z - at' r'.traj t c| ≤ stepError ε Λ W K * ∑ i ∈ Finset.range t, q ^ i := by
  obtain ⟨len', hi'⟩ := run_iter hr.inv dr rr
  rw [(hi'.run c hc).1] at tr
  obtain ⟨z, h1, h3, h4⟩ := run_near A h2 hW hb he hm hr dm h hq hK rm (Y := fun t => at' r'.traj t) (D := 0)
    (fun d hd => by rw [(hi'.init d hd).2]; simp) (fun d hd => (hi'.run d hd).2) tr hc tm
  exact ⟨z, h1, h3, by simpa using h4⟩

/-- C115: when the map contracts the error does not grow with the number of steps. -/
theorem C115_bounded {ε Λ : ℝ} (A : Accurate ε) (h2 : 2 ≤ Λ) {W K : Nat} (hW : 1 ≤ W) (hb : 3 * W * K ≤ F.big) (he : Λ * (3 * W * K) ≤ Real.exp 500)
    {m m' : FCM Ieee} {r r' : FCM ℝ} (hm : Reachable m) (hr : Reachable r) (dm : m.debug = true) (dr : r.debug = true)
    (h : Represents Λ W m r) {q : ℝ} (hq : Flat r q) (q0 : 0 ≤ q) (q1 : q < 1)
    (hK : ∀ c ∈ r.topology.keys, (r.arcList.filter fun a => a.dest = c).length < K)
    (rm : FCM.runInference true m = (.ok (), m')) (rr : FCM.runInference true r = (.ok (), r')) {c : String} (hc : c ∈ r.topology.keys) {t : Nat}
    (tm : t < (m'.traj c).length) (tr : t < (r'.traj c).length) :
    ∃ z, at' m'.traj t c = fin z ∧ |z| ≤ 1 ∧ |z - at' r'.traj t c| ≤ stepError ε Λ W K / (1 - q) := by
  obtain ⟨z, h1, h3, h4⟩ := C115_error A h2 hW hb he hm hr dm dr h hq hK rm rr hc tm tr
  refine ⟨z, h1, h3, h4.trans ?_⟩
  rw [div_eq_mul_inv]
  exact mul_le_mul_of_nonneg_left (geometric_le q0 q1 t) (stepError_nonneg A h2 W K)

/-- C115: and the computed run comes as near to the equilibrium of the map over the reals. -/
theorem C115_equilibrium {ε Λ : ℝ} (A : Accurate ε) (h2 : 2 ≤ Λ) {W K : Nat} (hW : 1 ≤ W) (hb : 3 * W * K ≤ F.big)
    (he : Λ * (3 * W * K) ≤ Real.exp 500) {m m' : FCM Ieee} {r : FCM ℝ} (hm : Reachable m) (hr : Reachable r) (dm : m.debug = true)
    (h : Represents Λ W m r) {q : ℝ} (hq : Flat r q) (q0 : 0 ≤ q) (q1 : q < 1)
    (hK : ∀ c ∈ r.topology.keys, (r.arcList.filter fun a => a.dest = c).length < K) {X : String → ℝ} (hX : Equilibrium r.net r.topology.keys X)
    (rm : FCM.runInference true m = (.ok (), m')) {c : String} (hc : c ∈ r.topology.keys) {t : Nat} (tm : t < (m'.traj c).length) :
    ∃ z, at' m'.traj t c = fin z ∧ |z| ≤ 1 ∧ |z - X c| ≤ q ^ t * 2 + stepError ε Λ W K / (1 - q) := by
  have hX1 : ∀ c ∈ r.topology.keys, |X c| ≤ 1 := by
    intro c hc
    obtain ⟨n, hn⟩ := Dict.exists_get?_of_mem hc
    obtain ⟨f, ex, um, L, g1, g2, g3, g4, -⟩ := hq c n hn
    obtain ⟨k, -, hk, hd, -⟩ := contracting_of hr hq c hc
    have h1 := hX c hc
    have cr : r.net.concept c = n.toSpec := by show (r.topology.get? c).bind _ = _; rw [hn]; rfl
    rw [cr, toSpec_of g1 g2 g3] at hk
    cases hk
    unfold next at h1
    rw [cr, toSpec_of g1 g2 g3] at h1
    simp only [Option.map_some, Option.some.injEq] at h1
    simp only at hd
    rw [hd] at h1
    exact abs_le.2 (callActv_range g4.proper.2 h1)
  obtain ⟨z, h1, h3, h4⟩ := run_near A h2 hW hb he hm hr dm h hq hK rm (Y := fun _ => X) (D := 2) (len' := t + 1)
    (fun d hd => (abs_sub _ _).trans (by linarith [(h.start d hd).2, hX1 d hd])) (fun d hd t _ => hX d hd) (by omega) hc tm
  refine ⟨z, h1, h3, h4.trans ?_⟩
  rw [div_eq_mul_inv]
  have := mul_le_mul_of_nonneg_left (geometric_le q0 q1 t) (stepError_nonneg A h2 W K)
  linarith

/-- C115: two runs for the full number of iterations (`stop_at_stabilize` off) record the same number of values. -/
theorem C115_length {m m' : FCM Ieee} {r r' : FCM ℝ} (hm : Reachable m) (hr : Reachable r) (dm : m.debug = true) (dr : r.debug = true)
    (sm : m.stopAtStabilize = false) (sr : r.stopAtStabilize = false) (hi : m.maxIter = r.maxIter) (hx : m.extraSteps = r.extraSteps)
    (rm : FCM.runInference true m = (.ok (), m')) (rr : FCM.runInference true r = (.ok (), r')) {c : String} (hcm : c ∈ m.topology.keys)
    (hc : c ∈ r.topology.keys) : (m'.traj c).length = (r'.traj c).length := by
  obtain ⟨len, hl⟩ := run_iter hm.inv dm rm
  obtain ⟨len', hl'⟩ := run_iter hr.inv dr rr
  rw [(hl.run c hcm).1, (hl'.run c hc).1]
  have h1 := hl.stops
  have h2 := hl'.stops
  have e1 : Quiet m'.traj m.topology.keys m.maxIter m.stopAtStabilize m.stabilityDiff = fun (s : Nat) => r.maxIter ≤ (s : Int) := by
    funext s
    unfold Quiet
    rw [sm, hi]
    simp
  have e2 : Quiet r'.traj r.topology.keys r.maxIter r.stopAtStabilize r.stabilityDiff = fun (s : Nat) => r.maxIter ≤ (s : Int) := by
    funext s
    unfold Quiet
    rw [sr]
    simp
  rw [e1, hx] at h1
  rw [e2] at h2
  exact h1.unique h2

/-- C115: then the final values decided by LAST are as near. -/
theorem C115_last {ε Λ : ℝ} (A : Accurate ε) (h2 : 2 ≤ Λ) {W K : Nat} (hW : 1 ≤ W) (hb : 3 * W * K ≤ F.big) (he : Λ * (3 * W * K) ≤ Real.exp 500)
    {m m' : FCM Ieee} {r r' : FCM ℝ} (hm : Reachable m) (hr : Reachable r) (dm : m.debug = true) (dr : r.debug = true)
    (h : Represents Λ W m r) {q : ℝ} (hq : Flat r q) (q0 : 0 ≤ q) (q1 : q < 1)
    (hK : ∀ c ∈ r.topology.keys, (r.arcList.filter fun a => a.dest = c).length < K)
    (sm : m.stopAtStabilize = false) (sr : r.stopAtStabilize = false) (hi : m.maxIter = r.maxIter) (hx : m.extraSteps = r.extraSteps)
    (lm : m.decisionName = "LAST") (lr : r.decisionName = "LAST")
    (rm : FCM.runInference true m = (.ok (), m')) (rr : FCM.runInference true r = (.ok (), r')) {c : String} (hc : c ∈ r.topology.keys) :
    ∃ z v, m'.getConceptValue c = some (fin z) ∧ r'.getConceptValue c = some v ∧ |z - v| ≤ stepError ε Λ W K / (1 - q) := by
  have hcm : c ∈ m.topology.keys := by rw [h.keys]; exact hc
  have hlen := C115_length hm hr dm dr sm sr hi hx rm rr hcm hc
  obtain ⟨u, hu, du⟩ := C08_final_value hm rm hcm
  obtain ⟨v, hv, dv⟩ := C08_final_value hr rr hc
  rw [lm, decideBy, if_pos rfl] at du
  rw [lr, decideBy, if_pos rfl] at dv
  obtain ⟨i, e1, e2⟩ : ∃ i, (m'.traj c)[i]? = some u ∧ (r'.traj c)[i]? = some v := by
    unfold decideLast at du dv
    rw [hlen, hx] at du
    split at du
    · rename_i g
      rw [if_pos g] at dv
      exact ⟨_, du, dv⟩
    · rename_i g
      rw [if_neg g] at dv
      exact ⟨_, du, dv⟩
  have l1 := (List.getElem?_eq_some_iff.1 e1).1
  have l2 := (List.getElem?_eq_some_iff.1 e2).1
  obtain ⟨z, h1, -, h4⟩ := C115_bounded A h2 hW hb he hm hr dm dr h hq q0 q1 hK rm rr hc l1 l2
  have a1 : at' m'.traj i c = u := by unfold at'; rw [List.getD_eq_getElem?_getD, e1]; rfl
  have a2 : at' r'.traj i c = v := by unfold at'; rw [List.getD_eq_getElem?_getD, e2]; rfl
  rw [a1] at h1
  rw [a2] at h4
  exact ⟨z, v, by rw [hu, h1], hv, h4⟩

end PyFCM
