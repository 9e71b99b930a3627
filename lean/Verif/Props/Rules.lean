import Verif.Props.Recode
import Verif.Props.Even
import Mathlib.Algebra.BigOperators.Group.List.Lemmas
import Mathlib.Data.Real.Basic
/-
C131: with the default measures the relations learned between categorical columns are the conditional frequencies of the table.
-/
namespace PyFCM
open Arith Spec

set_option linter.unusedSectionVars false

/-- The measures `AssociationBasedFCM` uses if it is given no others. -/
structure Spec.Standard (cfg : GenConf ℝ) : Prop where
  causality : cfg.causality = Relation.conf
  evaluation : cfg.evaluation = Relation.supp
  threshold : cfg.threshold = 0
  sign : cfg.sign = none
  double : cfg.double = true
  all : cfg.featuresRelation = true

/-- The number of rows with `u` in the first column and `v` in the second. -/
noncomputable def Spec.together (rows : List (Cell ℝ × Cell ℝ)) (u v : Cell ℝ) : ℕ := by
  classical exact rows.countP fun r => decide (r.1 = u ∧ r.2 = v)
/-- The number of rows with `u` in the first column. -/
noncomputable def Spec.alone (rows : List (Cell ℝ × Cell ℝ)) (u : Cell ℝ) : ℕ := by
  classical exact rows.countP fun r => decide (r.1 = u)

/-- The rows of a table, reduced to two columns. -/
def Spec.sideBySide (p q : Column ℝ) : List (Cell ℝ × Cell ℝ) := (cells p).zip (cells q)

open Classical in
theorem tally_alone (f g : List (Cell ℝ)) (u v : Cell ℝ) :
    tally f g (fun a b => a = u ∧ b = v) + tally f g (fun a b => a = u ∧ b ≠ v) = alone (f.zip g) u := by
  unfold tally alone
  induction f.zip g with
  | nil => rfl
  | cons r l ih =>
    simp only [List.countP_cons]
    by_cases h1 : r.1 = u <;> by_cases h2 : r.2 = v <;> simp [h1, h2] at ih ⊢ <;> omega

open Classical in
theorem tally_all (f g : List (Cell ℝ)) (u v : Cell ℝ) :
    tally f g (fun a b => a = u ∧ b = v) + tally f g (fun a b => a = u ∧ b ≠ v) + tally f g (fun a b => a ≠ u ∧ b = v) +
      tally f g (fun a b => a ≠ u ∧ b ≠ v) = (f.zip g).length := by
  unfold tally
  induction f.zip g with
  | nil => rfl
  | cons r l ih =>
    simp only [List.countP_cons, List.length_cons]
    by_cases h1 : r.1 = u <;> by_cases h2 : r.2 = v <;> simp [h1, h2] at ih ⊢ <;> omega

open Classical in
theorem together_tally (p q : Column ℝ) (u v : Cell ℝ) :
    tally (cells p) (cells q) (fun a b => a = u ∧ b = v) = together (sideBySide p q) u v := by
  unfold tally together sideBySide
  exact List.countP_congr fun r _ => by simp

theorem together_le (rows : List (Cell ℝ × Cell ℝ)) (u v : Cell ℝ) : together rows u v ≤ alone rows u := by
  classical
  unfold together alone
  refine List.countP_mono_left fun r _ h => ?_
  simp only [decide_eq_true_eq] at h ⊢
  exact h.1

/-- With the default measures a relation from `u` to `v` is wanted if and only if they occur together, with the share of `v` among
the rows with `u`. -/
theorem learns_standard {cfg : GenConf ℝ} (hc : Standard cfg) {ts : List String} {p q : String × Column ℝ} {u v : Cell ℝ} {w : ℝ} :
    Learns cfg ts p q u v w ↔ 0 < together (sideBySide p.2 q.2) u v ∧
      w = together (sideBySide p.2 q.2) u v / alone (sideBySide p.2 q.2) u := by
  have e1 := tally_alone (cells p.2) (cells q.2) u v
  have e2 := tally_all (cells p.2) (cells q.2) u v
  have e3 := together_tally p.2 q.2 u v
  have e4 := together_le (sideBySide p.2 q.2) u v
  change _ = alone (sideBySide p.2 q.2) u at e1
  generalize hn : together (sideBySide p.2 q.2) u v = n at *
  generalize hm : alone (sideBySide p.2 q.2) u = m at *
  unfold Learns Spec.measure
  rw [hc.causality, hc.evaluation, hc.threshold, hc.sign, hc.double, hc.all]
  generalize tally (cells p.2) (cells q.2) (fun a b => a = u ∧ b = v) = a at *
  generalize tally (cells p.2) (cells q.2) (fun a b => a = u ∧ b ≠ v) = b at *
  generalize tally (cells p.2) (cells q.2) (fun a b => a ≠ u ∧ b = v) = c at *
  generalize tally (cells p.2) (cells q.2) (fun a b => a ≠ u ∧ b ≠ v) = d at *
  subst e3 e1
  simp only [real_lit, Int.cast_natCast, Int.cast_one, Int.cast_zero]
  have hA : (0 : ℝ) ≤ a := Nat.cast_nonneg a
  have hB : (0 : ℝ) ≤ b := Nat.cast_nonneg b
  have hC : (0 : ℝ) ≤ c := Nat.cast_nonneg c
  have hD : (0 : ℝ) ≤ d := Nat.cast_nonneg d
  constructor
  · rintro ⟨-, -, e, k, s, h1, h2, h3, h4, -, h6, h7⟩
    have ha : 0 < a := by
      rcases Nat.eq_zero_or_pos a with h | h
      · exfalso
        subst h
        unfold Relation.supp at h1
        rw [real_pdiv] at h1
        split at h1
        · cases h1
        · cases h1
          rw [real_lt, real_abs, Nat.cast_zero, zero_div, abs_zero] at h2
          exact lt_irrefl _ h2
      · exact h
    have ha' : (0 : ℝ) < a := by exact_mod_cast ha
    refine ⟨ha, ?_⟩
    rw [h6, h4 trivial, one_mul]
    unfold Relation.conf at h3
    rw [if_neg (by rw [real_eq, real_lit, Int.cast_zero]; positivity), real_pdiv, if_neg (by positivity)] at h3
    cases h3
    rw [Nat.cast_add]
  · rintro ⟨ha, rfl⟩
    have ha' : (0 : ℝ) < a := by exact_mod_cast ha
    refine ⟨.inl trivial, .inl trivial, (a : ℝ) / (a + b + c + d), (a : ℝ) / (a + b), 1, ?_, ?_, ?_, fun _ => rfl, ?_, ?_, ?_⟩
    · unfold Relation.supp
      rw [real_pdiv, if_neg (by positivity)]
    · rw [real_lt, real_abs]
      positivity
    · unfold Relation.conf
      rw [if_neg (by rw [real_eq, real_lit, Int.cast_zero]; positivity), real_pdiv, if_neg (by positivity)]
    · intro f hf
      cases hf
    · rw [one_mul, Nat.cast_add]
    · positivity

section learned
variable {cfg : GenConf ℝ} {x : Ext ℝ} {ts : List String} {cols : List (String × Column ℝ)} {given : Option (FCM ℝ)} {fit : Bool}
  {g0 g : Gen ℝ}

/-- C131: a value `u` of a categorical column is related to a value `v` of another one if and only if some row has both, and the
weight is the share of the rows with `v` among those with `u`. -/
theorem C131_weight (hc : Standard cfg) (hx : ∀ l, (x.order l).Perm l) (hr : Readable cfg x cols)
    (hg : ∀ m, given = some m → m.arcList = []) (h0 : Gen.new fit = .ok g0) (h : Gen.build cfg x ts cols given g0 = (.ok (), g))
    {p q : String × Column ℝ} (hp : p ∈ cols) (hq : q ∈ cols) (hpq : p.1 ≠ q.1) (hdp : p.2.isDiscrete cfg = true)
    (hdq : q.2.isDiscrete cfg = true) (hl : (cells p.2).length = (cells q.2).length) {u v : Cell ℝ} (hu : u ∈ cells p.2)
    (hv : v ∈ cells q.2) (w : ℝ) :
    (⟨v.text x ++ cfg.separator ++ q.1, w, u.text x ++ cfg.separator ++ p.1⟩ : Arc ℝ) ∈ g.fcm.arcList ↔
      0 < together (sideBySide p.2 q.2) u v ∧ w = together (sideBySide p.2 q.2) u v / alone (sideBySide p.2 q.2) u := by
  rw [C59_learned hx hr hg h0 h hp hq hpq hdp hdq hl hu hv w, learns_standard hc]

theorem alone_pos {p q : Column ℝ} (hl : (cells p).length = (cells q).length) {u : Cell ℝ} (hu : u ∈ cells p) :
    0 < alone (sideBySide p q) u := by
  classical
  unfold alone
  rw [List.countP_pos_iff]
  obtain ⟨i, hi, rfl⟩ := List.mem_iff_getElem.1 hu
  refine ⟨((cells p)[i], (cells q)[i]), ?_, by simp⟩
  unfold sideBySide
  rw [List.mem_iff_getElem]
  exact ⟨i, by simp [← hl, hi], by simp⟩

theorem together_eq_alone {rows : List (Cell ℝ × Cell ℝ)} {u v : Cell ℝ} :
    together rows u v = alone rows u ↔ ∀ r ∈ rows, r.1 = u → r.2 = v := by
  classical
  unfold together alone
  induction rows with
  | nil => simp
  | cons r l ih =>
    have hle : List.countP (fun r : Cell ℝ × Cell ℝ => decide (r.1 = u ∧ r.2 = v)) l ≤ List.countP (fun r => decide (r.1 = u)) l :=
      together_le l u v
    rw [List.countP_cons, List.countP_cons, List.forall_mem_cons, ← ih]
    by_cases h1 : r.1 = u <;> by_cases h2 : r.2 = v <;> simp [h1, h2] at hle ⊢
    omega

/-- C131: a weight of 1 is a rule that holds in the table: every row with `u` has `v`. -/
theorem C131_rule (hc : Standard cfg) (hx : ∀ l, (x.order l).Perm l) (hr : Readable cfg x cols)
    (hg : ∀ m, given = some m → m.arcList = []) (h0 : Gen.new fit = .ok g0) (h : Gen.build cfg x ts cols given g0 = (.ok (), g))
    {p q : String × Column ℝ} (hp : p ∈ cols) (hq : q ∈ cols) (hpq : p.1 ≠ q.1) (hdp : p.2.isDiscrete cfg = true)
    (hdq : q.2.isDiscrete cfg = true) (hl : (cells p.2).length = (cells q.2).length) {u v : Cell ℝ} (hu : u ∈ cells p.2)
    (hv : v ∈ cells q.2) :
    (⟨v.text x ++ cfg.separator ++ q.1, 1, u.text x ++ cfg.separator ++ p.1⟩ : Arc ℝ) ∈ g.fcm.arcList ↔
      ∀ r ∈ sideBySide p.2 q.2, r.1 = u → r.2 = v := by
  rw [C131_weight hc hx hr hg h0 h hp hq hpq hdp hdq hl hu hv, ← together_eq_alone]
  have hpos := alone_pos hl hu
  have hpos' : (0 : ℝ) < alone (sideBySide p.2 q.2) u := by exact_mod_cast hpos
  constructor
  · rintro ⟨-, h⟩
    rw [eq_div_iff hpos'.ne', one_mul] at h
    exact_mod_cast h.symm
  · intro h
    rw [h]
    exact ⟨hpos, (div_self hpos'.ne').symm⟩

/-- C131: there is no relation if and only if no row has both values. -/
theorem C131_none (hc : Standard cfg) (hx : ∀ l, (x.order l).Perm l) (hr : Readable cfg x cols)
    (hg : ∀ m, given = some m → m.arcList = []) (h0 : Gen.new fit = .ok g0) (h : Gen.build cfg x ts cols given g0 = (.ok (), g))
    {p q : String × Column ℝ} (hp : p ∈ cols) (hq : q ∈ cols) (hpq : p.1 ≠ q.1) (hdp : p.2.isDiscrete cfg = true)
    (hdq : q.2.isDiscrete cfg = true) (hl : (cells p.2).length = (cells q.2).length) {u v : Cell ℝ} (hu : u ∈ cells p.2)
    (hv : v ∈ cells q.2) :
    (∀ w, (⟨v.text x ++ cfg.separator ++ q.1, w, u.text x ++ cfg.separator ++ p.1⟩ : Arc ℝ) ∉ g.fcm.arcList) ↔
      (u, v) ∉ sideBySide p.2 q.2 := by
  simp only [C131_weight hc hx hr hg h0 h hp hq hpq hdp hdq hl hu hv]
  have : 0 < together (sideBySide p.2 q.2) u v ↔ (u, v) ∈ sideBySide p.2 q.2 := by
    classical
    unfold together
    rw [List.countP_pos_iff]
    constructor
    · rintro ⟨⟨a, b⟩, hm, e⟩
      simp only [decide_eq_true_eq] at e
      rw [← e.1, ← e.2]
      exact hm
    · exact fun hm => ⟨_, hm, by simp⟩
  rw [← this]
  constructor
  · intro h h1
    exact h _ ⟨h1, rfl⟩
  · intro h w h1
    exact h h1.1

theorem sum_together (rows : List (Cell ℝ × Cell ℝ)) {us : List (Cell ℝ)} (hn : us.Nodup) (hm : ∀ r ∈ rows, r.2 ∈ us) (u : Cell ℝ) :
    (us.map fun v => (together rows u v : ℝ)).sum = alone rows u := by
  classical
  induction rows with
  | nil => simp [together, alone]
  | cons r l ih =>
    have e : ∀ v, (together (r :: l) u v : ℝ) = together l u v + if v = r.2 then (if r.1 = u then 1 else 0) else 0 := by
      intro v
      unfold together
      rw [List.countP_cons]
      by_cases h1 : r.1 = u <;> by_cases h2 : v = r.2 <;> simp [h1, h2, eq_comm]
    simp only [e]
    rw [List.sum_map_add, ih fun r hr => hm r (by simp [hr])]
    have : (us.map fun v => if v = r.2 then (if r.1 = u then (1 : ℝ) else 0) else 0).sum = if r.1 = u then 1 else 0 := by
      rw [List.sum_map_ite_eq, List.count_eq_one_of_mem hn (hm r (by simp))]
      simp
    rw [this]
    unfold alone
    rw [List.countP_cons]
    by_cases h1 : r.1 = u <;> simp [h1]

/-- C131: the relations from a value of a categorical column to the values of another one are a probability distribution. -/
theorem C131_total (hc : Standard cfg) (hx : ∀ l, (x.order l).Perm l) (hr : Readable cfg x cols)
    (hg : ∀ m, given = some m → m.arcList = []) (h0 : Gen.new fit = .ok g0) (h : Gen.build cfg x ts cols given g0 = (.ok (), g))
    {p q : String × Column ℝ} (hp : p ∈ cols) (hq : q ∈ cols) (hpq : p.1 ≠ q.1) (hdp : p.2.isDiscrete cfg = true)
    (hdq : q.2.isDiscrete cfg = true) (hl : (cells p.2).length = (cells q.2).length) {u : Cell ℝ} (hu : u ∈ cells p.2)
    {L : List (Arc ℝ)} (hL : L.Nodup) (hmem : ∀ r, r ∈ L ↔ r ∈ g.fcm.arcList ∧ r.origin = u.text x ++ cfg.separator ++ p.1 ∧
      ConceptOf cfg x q r.dest) :
    (∀ r ∈ L, 0 < r.weight) ∧ (L.map Arc.weight).sum = 1 := by
  classical
  obtain ⟨hn, hu2⟩ := C35_values q.2
  have hw := fun v (hv : v ∈ cells q.2) w => C131_weight hc hx hr hg h0 h hp hq hpq hdp hdq hl hu hv w
  have hpos := alone_pos hl hu
  have hpos' : (0 : ℝ) < alone (sideBySide p.2 q.2) u := by exact_mod_cast hpos
  generalize hR : sideBySide p.2 q.2 = R at *
  let M : List (Arc ℝ) := (q.2.uniqCells.filter fun v => decide (0 < together R u v)).map fun v =>
    ⟨v.text x ++ cfg.separator ++ q.1, together R u v / alone R u, u.text x ++ cfg.separator ++ p.1⟩
  have hMn : M.Nodup := by
    refine List.Nodup.map_on ?_ (hn.filter _)
    intro a ha b hb e
    rw [Arc.mk.injEq] at e
    exact text_inj (hr.floats q hq hdq) ((hu2 a).1 (List.mem_filter.1 ha).1) ((hu2 b).1 (List.mem_filter.1 hb).1) (name_inj e.1)
  have hperm : L.Perm M := by
    refine (List.perm_ext_iff_of_nodup hL hMn).2 fun r => ?_
    rw [hmem, List.mem_map]
    constructor
    · rintro ⟨h1, h2, h3⟩
      unfold ConceptOf at h3
      rw [if_pos hdq] at h3
      obtain ⟨v, hv, e⟩ := h3
      obtain ⟨d, w, o⟩ := r
      dsimp only at h2 e
      subst h2 e
      obtain ⟨k1, k2⟩ := (hw v hv w).1 h1
      exact ⟨v, List.mem_filter.2 ⟨(hu2 v).2 hv, by simpa using k1⟩, by rw [k2]⟩
    · rintro ⟨v, hv, rfl⟩
      obtain ⟨k1, k2⟩ := List.mem_filter.1 hv
      have hvc := (hu2 v).1 k1
      refine ⟨(hw v hvc _).2 ⟨by simpa using k2, rfl⟩, rfl, ?_⟩
      unfold ConceptOf
      rw [if_pos hdq]
      exact ⟨v, hvc, rfl⟩
  constructor
  · intro r hrL
    have := hperm.mem_iff.1 hrL
    obtain ⟨v, hv, rfl⟩ := List.mem_map.1 this
    have k2 : 0 < together R u v := by simpa using (List.mem_filter.1 hv).2
    have k3 : (0 : ℝ) < together R u v := by exact_mod_cast k2
    exact div_pos k3 hpos'
  · rw [(hperm.map _).sum_eq, List.map_map]
    have e1 : ∀ us : List (Cell ℝ), ((us.filter fun v => decide (0 < together R u v)).map
        fun v => (together R u v : ℝ) / alone R u).sum = (us.map fun v => (together R u v : ℝ)).sum / alone R u := by
      intro us
      induction us with
      | nil => simp
      | cons v l ih =>
        rw [List.filter_cons, List.map_cons, List.sum_cons, add_div, ← ih]
        split
        · rw [List.map_cons, List.sum_cons]
        · rename_i k
          have : together R u v = 0 := by simpa using k
          rw [this]
          simp
    refine (e1 q.2.uniqCells).trans ?_
    rw [sum_together R hn (fun r hr => (hu2 _).2 ?_) u, div_self hpos'.ne']
    rw [← hR] at hr
    exact (List.of_mem_zip hr).2

theorem together_swap (p q : Column ℝ) (u v : Cell ℝ) : together (sideBySide q p) v u = together (sideBySide p q) u v := by
  classical
  unfold together sideBySide
  rw [← List.zip_swap (cells p) (cells q), List.countP_map]
  refine List.countP_congr fun r _ => ?_
  simp only [Function.comp, Prod.fst_swap, Prod.snd_swap, decide_eq_true_eq]
  exact and_comm

/-- C131: relations come in pairs, and the two weights are tied by Bayes' rule. -/
theorem C131_bayes (hc : Standard cfg) (hx : ∀ l, (x.order l).Perm l) (hr : Readable cfg x cols)
    (hg : ∀ m, given = some m → m.arcList = []) (h0 : Gen.new fit = .ok g0) (h : Gen.build cfg x ts cols given g0 = (.ok (), g))
    {p q : String × Column ℝ} (hp : p ∈ cols) (hq : q ∈ cols) (hpq : p.1 ≠ q.1) (hdp : p.2.isDiscrete cfg = true)
    (hdq : q.2.isDiscrete cfg = true) (hl : (cells p.2).length = (cells q.2).length) {u v : Cell ℝ} (hu : u ∈ cells p.2)
    (hv : v ∈ cells q.2) {w : ℝ}
    (hm : (⟨v.text x ++ cfg.separator ++ q.1, w, u.text x ++ cfg.separator ++ p.1⟩ : Arc ℝ) ∈ g.fcm.arcList) :
    ∃ w', (⟨u.text x ++ cfg.separator ++ p.1, w', v.text x ++ cfg.separator ++ q.1⟩ : Arc ℝ) ∈ g.fcm.arcList ∧
      alone (sideBySide p.2 q.2) u * w = alone (sideBySide q.2 p.2) v * w' := by
  obtain ⟨h1, rfl⟩ := (C131_weight hc hx hr hg h0 h hp hq hpq hdp hdq hl hu hv w).1 hm
  refine ⟨_, (C131_weight hc hx hr hg h0 h hq hp (Ne.symm hpq) hdq hdp hl.symm hv hu _).2 ⟨by rwa [together_swap], rfl⟩, ?_⟩
  have e1 : (0 : ℝ) < alone (sideBySide p.2 q.2) u := by exact_mod_cast alone_pos hl hu
  have e2 : (0 : ℝ) < alone (sideBySide q.2 p.2) v := by exact_mod_cast alone_pos hl.symm hv
  rw [together_swap, mul_div_cancel₀ _ e1.ne', mul_div_cancel₀ _ e2.ne']

end learned

/-! ### Examples -/

namespace Ex

theorem realConf_standard : Standard realConf := ⟨rfl, rfl, rfl, rfl, rfl, rfl⟩

/-- Four rows: two of the three red ones are of class "True". -/
def cars : List (String × Column ℝ) :=
  [("color", .strs ["red", "blue", "red", "red"]), ("class", .bools [true, false, true, false])]

theorem cars_readable : Readable realConf realExt cars := by
  refine readable_default rfl (by decide) (by decide) ?_ ?_
  · intro p hp _ c hc
    simp only [cars, List.mem_cons, List.not_mem_nil, or_false] at hp
    rcases hp with rfl | rfl <;> simp only [Spec.cells, List.map_cons, List.map_nil, List.mem_cons, List.not_mem_nil,
      or_false] at hc <;> rcases hc with rfl | rfl | rfl | rfl <;> simp only [Cell.text] <;> decide
  · intro p hp _ a b ha
    simp only [cars, List.mem_cons, List.not_mem_nil, or_false] at hp
    rcases hp with rfl | rfl <;> simp [Spec.cells] at ha

theorem cars_builds {g0 : Gen ℝ} (h0 : Gen.new true = .ok g0) :
    ∃ g, Gen.build realConf realExt ["class"] cars none g0 = (.ok (), g) := by
  refine C60_default (fun l => .refl _) rfl rfl rfl ?_ ?_ h0
  · intro p hp
    simp only [cars, List.mem_cons, List.not_mem_nil, or_false] at hp
    rcases hp with rfl | rfl <;> rfl
  · intro p hp q hq
    simp only [cars, List.mem_cons, List.not_mem_nil, or_false] at hp hq
    rcases hp with rfl | rfl <;> rcases hq with rfl | rfl <;> rfl

/-- Two of three red cars are of class "True"; both cars of class "True" are red; no blue car is of class "True". -/
example {g0 g : Gen ℝ} (h0 : Gen.new true = .ok g0) (h : Gen.build realConf realExt ["class"] cars none g0 = (.ok (), g)) :
    (⟨"True___class", 2 / 3, "red___color"⟩ : Arc ℝ) ∈ g.fcm.arcList ∧
    (⟨"red___color", 1, "True___class"⟩ : Arc ℝ) ∈ g.fcm.arcList ∧
    ∀ w, (⟨"True___class", w, "blue___color"⟩ : Arc ℝ) ∉ g.fcm.arcList := by
  have hp : (("color", .strs ["red", "blue", "red", "red"]) : String × Column ℝ) ∈ cars := by simp [cars]
  have hq : (("class", .bools [true, false, true, false]) : String × Column ℝ) ∈ cars := by simp [cars]
  refine ⟨(C131_weight realConf_standard (fun l => .refl _) cars_readable none_arcs h0 h hp hq (by decide) rfl rfl rfl
      (u := .str "red") (v := .bool true) (by simp [Spec.cells]) (by simp [Spec.cells]) _).2 ?_,
    (C131_rule realConf_standard (fun l => .refl _) cars_readable none_arcs h0 h hq hp (by decide) rfl rfl rfl
      (u := .bool true) (v := .str "red") (by simp [Spec.cells]) (by simp [Spec.cells])).2 ?_,
    (C131_none realConf_standard (fun l => .refl _) cars_readable none_arcs h0 h hp hq (by decide) rfl rfl rfl
      (u := .str "blue") (v := .bool true) (by simp [Spec.cells]) (by simp [Spec.cells])).2 ?_⟩
  · simp [together, alone, sideBySide, Spec.cells]
  · simp [sideBySide, Spec.cells]
  · simp [sideBySide, Spec.cells]

/-- The relations from "red" to the classes add up to 1. -/
example {g0 g : Gen ℝ} (h0 : Gen.new true = .ok g0) (h : Gen.build realConf realExt ["class"] cars none g0 = (.ok (), g))
    {L : List (Arc ℝ)} (hL : L.Nodup) (hmem : ∀ r, r ∈ L ↔ r ∈ g.fcm.arcList ∧ r.origin = "red___color" ∧
      ConceptOf realConf realExt ("class", .bools [true, false, true, false]) r.dest) :
    (L.map Arc.weight).sum = 1 :=
  (C131_total realConf_standard (fun l => .refl _) cars_readable none_arcs h0 h (p := ("color", .strs ["red", "blue", "red", "red"]))
    (by simp [cars]) (q := ("class", .bools [true, false, true, false])) (by simp [cars]) (by decide) rfl rfl rfl
    (u := .str "red") (by simp [Spec.cells]) hL hmem).2

end Ex

end PyFCM
