import Verif.Lemmas.Named
import Verif.Props.State
import Verif.Props.Names
import Verif.Props.Functions
import Verif.Lemmas.VecTop
import Mathlib.Analysis.Complex.ExponentialBounds
/-
Properties of the maps built by `AssociationBasedFCM.build_fcm` (association.py:193-235): C38, C39, C40, C59, C60.
-/
namespace PyFCM
open Arith

variable {α : Type} [Arith α]

/-- `build_fcm` starts from the given map or from a new one. -/
theorem build_from {cfg : GenConf α} {x : Ext α} {ts : List String} {cols : List (String × Column α)}
    {given : Option (FCM α)} {fit : Bool} {g0 g : Gen α} (h0 : Gen.new fit = .ok g0)
    (h : Gen.build cfg x ts cols given g0 = (.ok (), g)) :
    ∃ m0, buildFcm cfg x ts cols ⟨[], [], m0⟩ = (.ok (), g) ∧
      (given = some m0 ∨ given = none ∧ FCM.new = .ok m0) := by
  have hg : g0.features = [] ∧ g0.processed = [] := by
    unfold Gen.new at h0
    obtain ⟨p, -, h1⟩ := exc_bind_ok h0
    cases h1
    exact ⟨rfl, rfl⟩
  unfold Gen.build at h
  rw [hg.1, hg.2] at h
  cases given with
  | some m => exact ⟨m, h, .inl rfl⟩
  | none =>
    dsimp only at h
    split at h
    · cases h
    · rename_i m hm
      exact ⟨m, h, .inr ⟨rfl, hm⟩⟩

/-- The starting map has no relations. -/
theorem start_arcs {given : Option (FCM α)} {m0 : FCM α} (hg : ∀ m, given = some m → m.arcList = [])
    (h : given = some m0 ∨ given = none ∧ FCM.new = .ok m0) : m0.arcList = [] := by
  rcases h with h | ⟨-, h⟩
  · exact hg m0 h
  · exact (new_empty h).2.1

/-! ### C38: no self relation, no parallel relations -/

/-- C38 in full. -/
def C38_full (α : Type) [Arith α] : Prop :=
  ∀ (cfg : GenConf α) (x : Ext α) (ts : List String) (cols : List (String × Column α)) (g0 g : Gen α),
    (∀ l, (x.order l).Perm l) → (cols.map (·.1)).Nodup → Gen.new true = .ok g0 →
    Gen.build cfg x ts cols none g0 = (.ok (), g) →
    (∀ r ∈ g.fcm.arcList, r.origin ≠ r.dest) ∧ (g.fcm.arcList.map fun r => (r.origin, r.dest)).Nodup

/-- C38 (what holds): if the concept names can be told apart, no concept of the built map is related to itself and no
ordered pair of concepts carries two relations. -/
theorem C38_simple_partial [Ordered α] {cfg : GenConf α} {x : Ext α} {ts : List String}
    {cols : List (String × Column α)} {given : Option (FCM α)} {fit : Bool} {g0 g : Gen α}
    (hx : ∀ l, (x.order l).Perm l) (hr : Spec.Readable cfg x cols) (hg : ∀ m, given = some m → m.arcList = [])
    (h0 : Gen.new fit = .ok g0) (h : Gen.build cfg x ts cols given g0 = (.ok (), g)) :
    (∀ r ∈ g.fcm.arcList, r.origin ≠ r.dest) ∧ (g.fcm.arcList.map fun r => (r.origin, r.dest)).Nodup := by
  obtain ⟨m0, h1, h2⟩ := build_from h0 h
  obtain ⟨W, L, hB⟩ := buildFcm_built hx hr.columns h1
  have hnd := hB.names_nodup hr
  have ha : g.fcm.arcList = L := by rw [hB.arcs, start_arcs hg h2]; rfl
  rw [ha]
  refine ⟨fun r hm => ?_, hB.nodup hnd⟩
  rcases (hB.mem r).1 hm with ⟨w, hw, hm⟩ | ⟨v, w, hs, hm⟩
  · unfold exclArcs at hm
    split at hm
    · cases hm
    · exact ((mem_innerArcs ((List.nodup_flatMap.1 hnd).1 w hw)).1 hm).2.2.2
  · have hv : v ∈ W := hs.subset (by simp)
    have hw : w ∈ W := hs.subset (by simp)
    have hne : v.1 ≠ w.1 := by
      have hn : (W.map (·.1)).Nodup := by rw [hB.wnames]; exact hr.columns
      have := (hs.map (·.1)).nodup hn
      simpa using this
    have hd := disjoint_names hnd hv hw hne
    intro e
    rcases crossArc_ends hm with ⟨h3, h4⟩ | ⟨h3, h4⟩
    · exact hd _ h4 (e ▸ h3)
    · exact hd _ h3 (e ▸ h4)

/-! ### C39: exclusion and restrictions -/

/-- With one relation per pair of ends, the relations of a pair are that one. -/
theorem filter_ends {L : List (Arc α)} (hn : (L.map Arc.ends).Nodup) {r : Arc α} (hr : r ∈ L) :
    (L.filter fun a => a.origin = r.origin ∧ a.dest = r.dest) = [r] := by
  induction L with
  | nil => cases hr
  | cons a L ih =>
    rw [List.map_cons, List.nodup_cons] at hn
    rcases List.mem_cons.1 hr with rfl | hr
    · rw [List.filter_cons_of_pos (by simp)]
      congr 1
      rw [List.filter_eq_nil_iff]
      intro b hb hbe
      simp only [decide_eq_true_eq] at hbe
      exact hn.1 (List.mem_map.2 ⟨b, hb, by simp [Arc.ends, hbe.1, hbe.2]⟩)
    · rw [List.filter_cons_of_neg, ih hn.2 hr]
      simp only [decide_eq_true_eq]
      intro hbe
      exact hn.1 (List.mem_map.2 ⟨r, hr, by simp [Arc.ends, hbe.1, hbe.2]⟩)

/-- C39 in full (the exclusion part), without restrictions on the names. -/
def C39_full (α : Type) [Arith α] : Prop :=
  ∀ (cfg : GenConf α) (x : Ext α) (ts : List String) (cols : List (String × Column α)) (g0 g : Gen α),
    (∀ l, (x.order l).Perm l) → (cols.map (·.1)).Nodup → Gen.new true = .ok g0 →
    Gen.build cfg x ts cols none g0 = (.ok (), g) → ∀ p ∈ cols, ∀ a b, Spec.ConceptOf cfg x p a →
    Spec.ConceptOf cfg x p b → a ≠ b → cfg.exclusion ≠ lit 0 →
    (g.fcm.arcList.filter fun r => r.origin = a ∧ r.dest = b) = [⟨b, cfg.exclusion, a⟩]

/-- C39: two different concepts made from one column are related, in each direction, by exactly one relation whose
weight is the exclusion value (by none if that is 0). -/
theorem C39_exclusion_partial [Ordered α] {cfg : GenConf α} {x : Ext α} {ts : List String} {cols : List (String × Column α)}
    {given : Option (FCM α)} {fit : Bool} {g0 g : Gen α}
    (hx : ∀ l, (x.order l).Perm l) (hr : Spec.Readable cfg x cols) (hg : ∀ m, given = some m → m.arcList = [])
    (h0 : Gen.new fit = .ok g0) (h : Gen.build cfg x ts cols given g0 = (.ok (), g))
    {p : String × Column α} (hp : p ∈ cols) {a b : String} (ha : Spec.ConceptOf cfg x p a)
    (hb : Spec.ConceptOf cfg x p b) (hab : a ≠ b) :
    (cfg.exclusion ≠ lit 0 → (g.fcm.arcList.filter fun r => r.origin = a ∧ r.dest = b) = [⟨b, cfg.exclusion, a⟩]) ∧
    (cfg.exclusion = lit 0 → (g.fcm.arcList.filter fun r => r.origin = a ∧ r.dest = b) = []) := by
  obtain ⟨m0, h1, h2⟩ := build_from h0 h
  obtain ⟨W, L, hB⟩ := buildFcm_built hx hr.columns h1
  have hnd := hB.names_nodup hr
  have he : g.fcm.arcList = L := by rw [hB.arcs, start_arcs hg h2]; rfl
  rw [he]
  obtain ⟨w, hw, ew, hF⟩ := hB.of_col hp
  have ha' := (mem_names hF a).2 ha
  have hb' := (mem_names hF b).2 hb
  have hWn := (List.nodup_flatMap.1 hnd).1
  have hWk : (W.map (·.1)).Nodup := by rw [hB.wnames]; exact hr.columns
  have key : ∀ r ∈ L, r.origin = a → r.dest = b → r ∈ exclArcs cfg w.2.1 := by
    intro r hm e1 e2
    rcases (hB.mem r).1 hm with ⟨v, hv, hm⟩ | ⟨v, u, hs, hm⟩
    · by_cases hvw : v.1 = w.1
      · have : v = w := List.inj_on_of_nodup_map hWk hv hw hvw
        rw [← this]; exact hm
      · exfalso
        unfold exclArcs at hm
        split at hm
        · cases hm
        · obtain ⟨-, h3, -, -⟩ := (mem_innerArcs (hWn v hv)).1 hm
          rw [e1] at h3
          exact disjoint_names hnd hv hw hvw a h3 ha'
    · exfalso
      have hv : v ∈ W := hs.subset (by simp)
      have hu : u ∈ W := hs.subset (by simp)
      have hne : v.1 ≠ u.1 := by simpa using (hs.map (·.1)).nodup hWk
      have both : ∀ t ∈ W, (a ∈ t.names ∨ b ∈ t.names) → t.1 = w.1 := by
        intro t ht hor
        by_contra hcon
        rcases hor with h | h
        · exact disjoint_names hnd ht hw hcon a h ha'
        · exact disjoint_names hnd ht hw hcon b h hb'
      rcases crossArc_ends hm with ⟨h3, h4⟩ | ⟨h3, h4⟩
      · exact hne ((both v hv (.inr (e2 ▸ h4))).trans (both u hu (.inl (e1 ▸ h3))).symm)
      · exact hne ((both v hv (.inl (e1 ▸ h3))).trans (both u hu (.inr (e2 ▸ h4))).symm)
  refine ⟨fun hz => ?_, fun hz => ?_⟩
  case refine_2 =>
    rw [List.filter_eq_nil_iff]
    intro r hm hre
    simp only [decide_eq_true_eq] at hre
    have := key r hm hre.1 hre.2
    unfold exclArcs at this
    rw [if_pos ((Ordered.eq _ _).2 hz)] at this
    cases this
  case refine_1 =>
    have hm : (⟨b, cfg.exclusion, a⟩ : Arc α) ∈ L := by
      refine (hB.mem _).2 (.inl ⟨w, hw, ?_⟩)
      unfold exclArcs
      rw [if_neg (fun h => hz ((Ordered.eq _ _).1 h))]
      exact (mem_innerArcs (hWn w hw)).2 ⟨rfl, ha', hb', hab⟩
    exact filter_ends (hB.nodup hnd) hm

theorem isTarget_iff {cfg : GenConf α} {x : Ext α} {ts : List String} {feat : String} {col : Column α} {F : Feature α}
    {cs : List (String × ConceptArgs α)} (h : FeatureOf cfg x ts feat col F cs) : isTarget F = true ↔ feat ∈ ts := by
  unfold FeatureOf at h
  unfold isTarget
  split at h
  · rw [h.1]
    split <;> rename_i ht <;> simp [ht, TYPE_REGRESOR, TYPE_DECISION, TYPE_SIMPLE]
  · obtain ⟨n, vl, memb, -, -, ht, -⟩ := h
    rw [ht]
    split <;> rename_i ht <;> simp [ht, TYPE_REGRESOR, TYPE_DECISION, TYPE_FUZZY]

theorem sameGroup_iff {cfg : GenConf α} {x : Ext α} {ts : List String} {f f' : String} {col col' : Column α}
    {F F' : Feature α} {cs cs' : List (String × ConceptArgs α)} (h : FeatureOf cfg x ts f col F cs)
    (h' : FeatureOf cfg x ts f' col' F' cs') : sameGroup F F' = true ↔ (f ∈ ts ↔ f' ∈ ts) := by
  rw [← isTarget_iff h, ← isTarget_iff h']
  unfold sameGroup
  cases isTarget F <;> cases isTarget F' <;> simp

/-- C39: every relation joins concepts made from the columns; if relations inside a group are not requested, one of the
two columns is a target and the other is not; if double relations are not requested, no relation leads from a target to
another column. -/
theorem C39_restriction_partial [Ordered α] {cfg : GenConf α} {x : Ext α} {ts : List String} {cols : List (String × Column α)}
    {given : Option (FCM α)} {fit : Bool} {g0 g : Gen α}
    (hx : ∀ l, (x.order l).Perm l) (hr : Spec.Readable cfg x cols) (hg : ∀ m, given = some m → m.arcList = [])
    (h0 : Gen.new fit = .ok g0) (h : Gen.build cfg x ts cols given g0 = (.ok (), g))
    {r : Arc α} (hm : r ∈ g.fcm.arcList) :
    ∃ p ∈ cols, ∃ q ∈ cols, Spec.ConceptOf cfg x p r.origin ∧ Spec.ConceptOf cfg x q r.dest ∧
      (p.1 ≠ q.1 → cfg.featuresRelation = false → ¬ (p.1 ∈ ts ↔ q.1 ∈ ts)) ∧
      (p.1 ≠ q.1 → cfg.double = false → p.1 ∈ ts → q.1 ∈ ts) := by
  obtain ⟨m0, h1, h2⟩ := build_from h0 h
  obtain ⟨W, L, hB⟩ := buildFcm_built hx hr.columns h1
  have hnd := hB.names_nodup hr
  have hWn := (List.nodup_flatMap.1 hnd).1
  have he : g.fcm.arcList = L := by rw [hB.arcs, start_arcs hg h2]; rfl
  rw [he] at hm
  rcases (hB.mem r).1 hm with ⟨w, hw, hm⟩ | ⟨v, w, hs, hm⟩
  · obtain ⟨p, hp, -, hF⟩ := hB.of_work hw
    unfold exclArcs at hm
    split at hm
    · cases hm
    · obtain ⟨-, h3, h4, -⟩ := (mem_innerArcs (hWn w hw)).1 hm
      exact ⟨p, hp, p, hp, (mem_names hF _).1 h3, (mem_names hF _).1 h4, fun hh => absurd rfl hh, fun hh => absurd rfl hh⟩
  · have hv : v ∈ W := hs.subset (by simp)
    have hw : w ∈ W := hs.subset (by simp)
    obtain ⟨p, hp, -, hF⟩ := hB.of_work hv
    obtain ⟨q, hq, -, hG⟩ := hB.of_work hw
    have goes : ∀ {p q : String × Column α} {F G : Feature α} {cs ds pq qp}, FeatureOf cfg x ts p.1 p.2 F cs →
        FeatureOf cfg x ts q.1 q.2 G ds → Goes cfg F G pq qp → cfg.double = false → p.1 ∈ ts → q.1 ∈ ts := by
      intro p q F G cs ds pq qp hF hG hgo hd hp
      unfold Goes at hgo
      rw [hd] at hgo
      simp only [Bool.false_eq_true, if_false] at hgo
      split at hgo
      · rename_i hsg
        exact ((sameGroup_iff hF hG).1 hsg).1 hp
      · rw [(isTarget_iff hF).2 hp] at hgo
        cases hgo
    obtain ⟨hgrp, pa, hpa, pb, hpb, pq, qp, -, ⟨s, w', rfl, -, hgo, -⟩ | ⟨s, w', rfl, -, hgo, -⟩⟩ := hm
    · refine ⟨q, hq, p, hp, (mem_names hG _).1 (mem_names_of_rows hpa), (mem_names hF _).1 (mem_names_of_rows hpb),
        fun _ hfr hiff => ?_, fun _ hd => goes hG hF hgo hd⟩
      rcases hgrp with hh | hh
      · rw [hfr] at hh; cases hh
      · rw [(sameGroup_iff hG hF).2 hiff] at hh; cases hh
    · refine ⟨p, hp, q, hq, (mem_names hF _).1 (mem_names_of_rows hpb), (mem_names hG _).1 (mem_names_of_rows hpa),
        fun _ hfr hiff => ?_, fun _ hd => goes hF hG hgo hd⟩
      rcases hgrp with hh | hh
      · rw [hfr] at hh; cases hh
      · rw [(sameGroup_iff hG hF).2 hiff.symm] at hh; cases hh


/-! ### C59: learned relations follow the counts -/

/-- The laws needed to count with `0`s and `1`s. -/
class Tallying (α : Type) [Arith α] : Prop where
  succ : ∀ n : Nat, (lit (n : Int) + lit 1 : α) = lit ((n + 1 : Nat) : Int)
  zero : ∀ n : Nat, (lit (n : Int) + lit 0 : α) = lit (n : Int)
  mul11 : (lit 1 * lit 1 : α) = lit 1
  mul10 : (lit 1 * lit 0 : α) = lit 0
  mul01 : (lit 0 * lit 1 : α) = lit 0
  mul00 : (lit 0 * lit 0 : α) = lit 0
  sub1 : (lit 1 - lit 1 : α) = lit 0
  sub0 : (lit 1 - lit 0 : α) = lit 1

instance : Tallying ℝ where
  succ n := by simp
  zero n := by simp
  mul11 := by simp
  mul10 := by simp
  mul01 := by simp
  mul00 := by simp
  sub1 := by simp
  sub0 := by simp

theorem rat_lit (n : Int) : (lit n : ℚ) = (n : ℚ) := rfl

instance : Tallying ℚ where
  succ n := by simp only [rat_lit]; push_cast; rfl
  zero n := by simp only [rat_lit]; simp
  mul11 := by simp only [rat_lit]; simp
  mul10 := by simp only [rat_lit]; simp
  mul01 := by simp only [rat_lit]; simp
  mul00 := by simp only [rat_lit]; simp
  sub1 := by simp only [rat_lit]; simp
  sub0 := by simp only [rat_lit]; simp

open Classical in
/-- In how many rows the two columns satisfy `P`. -/
noncomputable def Spec.tally (f g : List (Cell α)) (P : Cell α → Cell α → Prop) : Nat :=
  (f.zip g).countP fun p => decide (P p.1 p.2)

/-- A measure of the contingency table of the value `u` of column `f` against the value `v` of column `g`. -/
noncomputable def Spec.measure (m : α → α → α → α → Except Err α) (f g : Column α) (u v : Cell α) : Except Err α :=
  m (lit (Spec.tally (Spec.cells f) (Spec.cells g) fun a b => a = u ∧ b = v))
    (lit (Spec.tally (Spec.cells f) (Spec.cells g) fun a b => a = u ∧ b ≠ v))
    (lit (Spec.tally (Spec.cells f) (Spec.cells g) fun a b => a ≠ u ∧ b = v))
    (lit (Spec.tally (Spec.cells f) (Spec.cells g) fun a b => a ≠ u ∧ b ≠ v))

/-- The configuration asks for a relation of weight `w` from the value `u` of column `p` to the value `v` of column
`q`. -/
def Spec.Learns (cfg : GenConf α) (ts : List String) (p q : String × Column α) (u v : Cell α) (w : α) : Prop :=
  (cfg.featuresRelation = true ∨ ¬ (p.1 ∈ ts ↔ q.1 ∈ ts)) ∧
  (cfg.double = true ∨
    (p.1 ∈ ts ↔ q.1 ∈ ts) ∧ (∃ c d, Spec.measure cfg.causality p.2 q.2 u v = .ok c ∧
      Spec.measure cfg.causality q.2 p.2 v u = .ok d ∧ (abs d <? abs c) = true) ∨
    ¬ (p.1 ∈ ts ↔ q.1 ∈ ts) ∧ p.1 ∉ ts) ∧
  ∃ e c s, Spec.measure cfg.evaluation p.2 q.2 u v = .ok e ∧ (cfg.threshold <? abs e) = true ∧
    Spec.measure cfg.causality p.2 q.2 u v = .ok c ∧
    (cfg.sign = none → s = lit 1) ∧
    (∀ f, cfg.sign = some f → ∃ d, Spec.measure f p.2 q.2 u v = .ok d ∧
      s = if d <? cfg.signCut then lit (-1) else lit 1) ∧
    w = s * c ∧ w ≠ lit 0

open Classical in
noncomputable def indic (u : Cell α) (f : List (Cell α)) : List α := f.map fun a => if a = u then lit 1 else lit 0

noncomputable def tableOf (f g : List (Cell α)) (u v : Cell α) : Coef α :=
  ⟨lit (Spec.tally f g fun a b => a = u ∧ b = v), lit (Spec.tally f g fun a b => a = u ∧ b ≠ v),
   lit (Spec.tally f g fun a b => a ≠ u ∧ b = v), lit (Spec.tally f g fun a b => a ≠ u ∧ b ≠ v)⟩

theorem coefLoop_counts [Tallying α] (u v : Cell α) : ∀ (f g : List (Cell α)) (a b c d : Nat), f.length = g.length →
    coefLoop (indic u f) (indic v g) (⟨lit a, lit b, lit c, lit d⟩ : Coef α) =
      ⟨lit ((a + Spec.tally f g fun s t => s = u ∧ t = v : Nat) : Int),
       lit ((b + Spec.tally f g fun s t => s = u ∧ t ≠ v : Nat) : Int),
       lit ((c + Spec.tally f g fun s t => s ≠ u ∧ t = v : Nat) : Int),
       lit ((d + Spec.tally f g fun s t => s ≠ u ∧ t ≠ v : Nat) : Int)⟩
  | [], [], a, b, c, d, _ => by simp [coefLoop, indic, Spec.tally]
  | s :: f, t :: g, a, b, c, d, h => by
    have ih := coefLoop_counts u v f g
    have hl : f.length = g.length := by simpa using h
    classical
    have step : ∀ (P : Cell α → Cell α → Prop), Spec.tally (s :: f) (t :: g) P =
        Spec.tally f g P + if P s t then 1 else 0 := by
      intro P
      unfold Spec.tally
      rw [List.zip_cons_cons, List.countP_cons]
      by_cases hP : P s t <;> simp [hP]
    have unf : ∀ (w : Cell α) (k : List (Cell α)) (e : Cell α), indic w (e :: k) =
        (if e = w then (lit 1 : α) else lit 0) :: indic w k := by
      intro w k e
      unfold indic
      rw [List.map_cons]
    rw [unf, unf, coefLoop]
    simp only [step]
    by_cases h1 : s = u <;> by_cases h2 : t = v <;>
      simp only [h1, h2, if_true, if_false, Tallying.mul11, Tallying.mul10, Tallying.mul01, Tallying.mul00,
        Tallying.sub1, Tallying.sub0, Tallying.succ, Tallying.zero, and_self, true_and, and_true, not_true_eq_false,
        false_and, and_false, ne_eq, not_false_eq_true, Nat.add_zero] <;>
      rw [ih _ _ _ _ hl] <;> simp only [Nat.add_right_comm, Nat.add_assoc, Nat.add_comm 1, ne_eq]
  | [], _ :: _, _, _, _, _, h => by simp at h
  | _ :: _, [], _, _, _, _, h => by simp at h

theorem tally_swap (f g : List (Cell α)) (P : Cell α → Cell α → Prop) :
    Spec.tally g f (fun b a => P a b) = Spec.tally f g P := by
  unfold Spec.tally
  rw [← List.zip_swap, List.countP_map]
  rfl

theorem calcCoef_counts [Tallying α] {f g : List (Cell α)} (h : f.length = g.length) (u v : Cell α) :
    calcCoef (indic u f) (indic v g) = some ((tableOf f g u v : Coef α), tableOf g f v u) := by
  unfold calcCoef
  have hl : (indic u f).length = (indic v g).length := by simp [indic, h]
  rw [if_pos hl]
  have := coefLoop_counts u v f g 0 0 0 0 h
  simp only [Int.natCast_zero, Nat.zero_add] at this
  dsimp only
  rw [this]
  unfold tableOf
  have e1 := tally_swap f g fun a b => a = u ∧ b = v
  have e2 := tally_swap f g fun a b => a = u ∧ b ≠ v
  have e3 := tally_swap f g fun a b => a ≠ u ∧ b = v
  have e4 := tally_swap f g fun a b => a ≠ u ∧ b ≠ v
  rw [← e1, ← e2, ← e3, ← e4]
  simp only [and_comm]

/-- The rows of a categorical feature. -/
theorem rows_discrete [Ordered α] {cfg : GenConf α} {x : Ext α} {ts : List String} {p : String × Column α}
    {F : Feature α} {cs : List (String × ConceptArgs α)} (h : FeatureOf cfg x ts p.1 p.2 F cs)
    (hd : p.2.isDiscrete cfg = true) (r : String × List α) :
    r ∈ F.rows ↔ ∃ u ∈ Spec.cells p.2, r = (u.text x ++ cfg.separator ++ p.1, indic u (Spec.cells p.2)) := by
  unfold FeatureOf at h
  rw [if_pos hd] at h
  unfold Feature.rows
  rw [h.2.1, h.2.2.1, oneHot_eq, List.zip_map', List.mem_map]
  simp only [(C35_values p.2).2, nameConcept]
  constructor
  · rintro ⟨u, hu, rfl⟩
    exact ⟨u, hu, rfl⟩
  · rintro ⟨u, hu, rfl⟩
    exact ⟨u, hu, rfl⟩

theorem pair_sublist {β : Type} {l : List β} {a b : β} (ha : a ∈ l) (hb : b ∈ l) (hne : a ≠ b) :
    [a, b].Sublist l ∨ [b, a].Sublist l := by
  induction l with
  | nil => cases ha
  | cons c l ih =>
    rcases List.mem_cons.1 ha with rfl | ha'
    · rcases List.mem_cons.1 hb with rfl | hb'
      · exact absurd rfl hne
      · exact .inl ((List.singleton_sublist.2 hb').cons_cons _)
    · rcases List.mem_cons.1 hb with rfl | hb'
      · exact .inr ((List.singleton_sublist.2 ha').cons_cons _)
      · rcases ih ha' hb' with h | h
        · exact .inl (h.cons _)
        · exact .inr (h.cons _)

/-- What the generator decides for a pair of concepts, in terms of the counts. -/
theorem learns_iff [Ordered α] [Tallying α] {cfg : GenConf α} {x : Ext α} {ts : List String} {p q : String × Column α}
    {F G : Feature α} {cs ds : List (String × ConceptArgs α)} (hF : FeatureOf cfg x ts p.1 p.2 F cs)
    (hG : FeatureOf cfg x ts q.1 q.2 G ds) (u v : Cell α) (w : α) :
    Spec.Learns cfg ts p q u v w ↔ (cfg.featuresRelation = true ∨ sameGroup F G = false) ∧
      ∃ s, relSign cfg (tableOf (Spec.cells p.2) (Spec.cells q.2) u v) = .ok s ∧
        Goes cfg F G (tableOf (Spec.cells p.2) (Spec.cells q.2) u v) (tableOf (Spec.cells q.2) (Spec.cells p.2) v u) ∧
        Weighs cfg s (tableOf (Spec.cells p.2) (Spec.cells q.2) u v) w := by
  have hsg := sameGroup_iff hF hG
  have hsg' : sameGroup F G = false ↔ ¬ (p.1 ∈ ts ↔ q.1 ∈ ts) := by rw [← hsg]; simp
  have htg : isTarget F = false ↔ p.1 ∉ ts := by rw [← isTarget_iff hF]; simp
  have hgo : Goes cfg F G (tableOf (Spec.cells p.2) (Spec.cells q.2) u v)
      (tableOf (Spec.cells q.2) (Spec.cells p.2) v u) ↔ (cfg.double = true ∨
    (p.1 ∈ ts ↔ q.1 ∈ ts) ∧ (∃ c d, Spec.measure cfg.causality p.2 q.2 u v = .ok c ∧
      Spec.measure cfg.causality q.2 p.2 v u = .ok d ∧ (abs d <? abs c) = true) ∨
    ¬ (p.1 ∈ ts ↔ q.1 ∈ ts) ∧ p.1 ∉ ts) := by
    unfold Goes
    by_cases hd : cfg.double = true
    · simp [hd]
    · rw [if_neg hd]
      by_cases hs : sameGroup F G = true
      · have hs' := hsg.1 hs
        rw [if_pos hs]
        constructor
        · exact fun h => .inr (.inl ⟨hs', h⟩)
        · rintro (h | ⟨-, h⟩ | ⟨h, -⟩)
          · exact absurd h hd
          · exact h
          · exact absurd hs' h
      · have hs' : ¬ (p.1 ∈ ts ↔ q.1 ∈ ts) := fun h => hs (hsg.2 h)
        rw [if_neg hs, htg]
        constructor
        · exact fun h => .inr (.inr ⟨hs', h⟩)
        · rintro (h | ⟨h, -⟩ | ⟨-, h⟩)
          · exact absurd h hd
          · exact absurd h hs'
          · exact h
  have hne : ∀ w : α, (w =? lit 0) = false ↔ w ≠ lit 0 := by
    intro w
    rw [← Bool.not_eq_true, Ordered.eq]
  have hsign : ∀ s : α, relSign cfg (tableOf (Spec.cells p.2) (Spec.cells q.2) u v) = .ok s ↔
      (cfg.sign = none → s = lit 1) ∧ (∀ f, cfg.sign = some f → ∃ d, Spec.measure f p.2 q.2 u v = .ok d ∧
      s = if d <? cfg.signCut then lit (-1) else lit 1) := by
    intro s
    unfold relSign
    cases hsg : cfg.sign with
    | none =>
      constructor
      · intro h; cases h; exact ⟨fun _ => rfl, by simp⟩
      · rintro ⟨h, -⟩; rw [h rfl]
    | some f =>
      constructor
      · intro h
        obtain ⟨d, h1, h2⟩ := exc_bind_ok h
        refine ⟨by simp, ?_⟩
        rintro f' hf'
        cases hf'
        exact ⟨d, h1, by cases h2; rfl⟩
      · rintro ⟨-, h⟩
        obtain ⟨d, h1, rfl⟩ := h f rfl
        show (Spec.measure f p.2 q.2 u v >>= _) = _
        rw [h1]; rfl
  unfold Spec.Learns
  rw [hsg', ← hgo]
  constructor
  · rintro ⟨h1, h2, e, c, s, h3, h4, h5, h6, h7, h8, h9⟩
    exact ⟨h1, s, (hsign s).2 ⟨h6, h7⟩, h2, e, c, h3, h4, h5, h8, (hne w).2 h9⟩
  · rintro ⟨h1, s, h2, h3, e, c, h4, h5, h6, h7, h8⟩
    obtain ⟨h9, h10⟩ := (hsign s).1 h2
    exact ⟨h1, h3, e, c, s, h4, h5, h6, h9, h10, h7, (hne w).1 h8⟩

/-- C59: for values `u`, `v` of two categorical columns of a rectangular dataset, the built map has a relation of
weight `w` from the concept of `u` to that of `v` exactly if the counts of the two values and the configuration ask for
it. -/
theorem C59_learned [Ordered α] [Tallying α] {cfg : GenConf α} {x : Ext α} {ts : List String}
    {cols : List (String × Column α)} {given : Option (FCM α)} {fit : Bool} {g0 g : Gen α}
    (hx : ∀ l, (x.order l).Perm l) (hr : Spec.Readable cfg x cols) (hg : ∀ m, given = some m → m.arcList = [])
    (h0 : Gen.new fit = .ok g0) (h : Gen.build cfg x ts cols given g0 = (.ok (), g))
    {p q : String × Column α} (hp : p ∈ cols) (hq : q ∈ cols) (hpq : p.1 ≠ q.1)
    (hdp : p.2.isDiscrete cfg = true) (hdq : q.2.isDiscrete cfg = true)
    (hl : (Spec.cells p.2).length = (Spec.cells q.2).length)
    {u v : Cell α} (hu : u ∈ Spec.cells p.2) (hv : v ∈ Spec.cells q.2) (w : α) :
    (⟨v.text x ++ cfg.separator ++ q.1, w, u.text x ++ cfg.separator ++ p.1⟩ : Arc α) ∈ g.fcm.arcList ↔
      Spec.Learns cfg ts p q u v w := by
  obtain ⟨m0, h1, h2⟩ := build_from h0 h
  obtain ⟨W, L, hB⟩ := buildFcm_built hx hr.columns h1
  have hnd := hB.names_nodup hr
  have hWn := (List.nodup_flatMap.1 hnd).1
  have hWk : (W.map (·.1)).Nodup := by rw [hB.wnames]; exact hr.columns
  have he : g.fcm.arcList = L := by rw [hB.arcs, start_arcs hg h2]; rfl
  rw [he]
  obtain ⟨wp, hwp, ewp, hF⟩ := hB.of_col hp
  obtain ⟨wq, hwq, ewq, hG⟩ := hB.of_col hq
  rw [learns_iff hF hG u v w]
  set a := u.text x ++ cfg.separator ++ p.1 with ea
  set b := v.text x ++ cfg.separator ++ q.1 with eb
  have ha : Spec.ConceptOf cfg x p a := by unfold Spec.ConceptOf; rw [if_pos hdp]; exact ⟨u, hu, ea⟩
  have hb : Spec.ConceptOf cfg x q b := by unfold Spec.ConceptOf; rw [if_pos hdq]; exact ⟨v, hv, eb⟩
  have ha' : a ∈ wp.names := (mem_names hF a).2 ha
  have hb' : b ∈ wq.names := (mem_names hG b).2 hb
  have hne : wp ≠ wq := fun e => hpq (by rw [← ewp, ← ewq, e])
  have uniqp : ∀ t ∈ W, a ∈ t.names → t = wp := by
    intro t ht hat
    refine List.inj_on_of_nodup_map hWk ht hwp ?_
    by_contra hcon
    exact disjoint_names hnd ht hwp hcon a hat ha'
  have uniqq : ∀ t ∈ W, b ∈ t.names → t = wq := by
    intro t ht hat
    refine List.inj_on_of_nodup_map hWk ht hwq ?_
    by_contra hcon
    exact disjoint_names hnd ht hwq hcon b hat hb'
  -- the row of a value is the row of the concept of that name
  have namep : ∀ s ∈ Spec.cells p.2, s.text x ++ cfg.separator ++ p.1 = a → s = u := by
    intro s hs e
    have ps := (C41_parse_partial cfg p.1 (s.text x)).2 ⟨hr.sep, hr.values p hp hdp s hs, hr.feats p hp⟩
    have pu := (C41_parse_partial cfg p.1 (u.text x)).2 ⟨hr.sep, hr.values p hp hdp u hu, hr.feats p hp⟩
    exact text_inj (hr.floats p hp hdp) hs hu (C41_injective cfg _ _ _ _ ps pu e).2
  have nameq : ∀ s ∈ Spec.cells q.2, s.text x ++ cfg.separator ++ q.1 = b → s = v := by
    intro s hs e
    have ps := (C41_parse_partial cfg q.1 (s.text x)).2 ⟨hr.sep, hr.values q hq hdq s hs, hr.feats q hq⟩
    have pu := (C41_parse_partial cfg q.1 (v.text x)).2 ⟨hr.sep, hr.values q hq hdq v hv, hr.feats q hq⟩
    exact text_inj (hr.floats q hq hdq) hs hv (C41_injective cfg _ _ _ _ ps pu e).2
  have hcpq := calcCoef_counts (α := α) hl u v
  have hcqp := calcCoef_counts (α := α) hl.symm v u
  have hra : (a, indic u (Spec.cells p.2)) ∈ wp.2.1.rows := (rows_discrete hF hdp _).2 ⟨u, hu, rfl⟩
  have hrb : (b, indic v (Spec.cells q.2)) ∈ wq.2.1.rows := (rows_discrete hG hdq _).2 ⟨v, hv, rfl⟩
  have rowp : ∀ r ∈ wp.2.1.rows, r.1 = a → r = (a, indic u (Spec.cells p.2)) := by
    intro r hr' e
    obtain ⟨s, hs, rfl⟩ := (rows_discrete hF hdp r).1 hr'
    rw [namep s hs e]
  have rowq : ∀ r ∈ wq.2.1.rows, r.1 = b → r = (b, indic v (Spec.cells q.2)) := by
    intro r hr' e
    obtain ⟨s, hs, rfl⟩ := (rows_discrete hG hdq r).1 hr'
    rw [nameq s hs e]
  have hab : a ≠ b := fun e => hne (uniqq wp hwp (e ▸ ha'))
  rw [hB.mem]
  constructor
  · rintro (⟨t, ht, hm⟩ | ⟨s, t, hs, hm⟩)
    · exfalso
      unfold exclArcs at hm
      split at hm
      · cases hm
      · obtain ⟨-, h3, h4, -⟩ := (mem_innerArcs (hWn t ht)).1 hm
        exact hne ((uniqp t ht h3).symm.trans (uniqq t ht h4))
    · have hsW : s ∈ W := hs.subset (by simp)
      have htW : t ∈ W := hs.subset (by simp)
      obtain ⟨hgrp, pa, hpa, pb, hpb, pq, qp, hc, ⟨sg, w', hrr, h3, h4, h5⟩ | ⟨sg, w', hrr, h3, h4, h5⟩⟩ := hm
      · obtain ⟨e1, e2, e3⟩ := Arc.mk.inj hrr
        subst e2
        have et := uniqp t htW (by rw [e3]; exact mem_names_of_rows hpa)
        have es := uniqq s hsW (by rw [e1]; exact mem_names_of_rows hpb)
        subst et; subst es
        rw [rowp pa hpa e3.symm, rowq pb hpb e1.symm, hcpq] at hc
        obtain ⟨rfl, rfl⟩ := Prod.mk.inj (Option.some.inj hc)
        exact ⟨hgrp, sg, h3, h4, h5⟩
      · obtain ⟨e1, e2, e3⟩ := Arc.mk.inj hrr
        subst e2
        have et := uniqp s hsW (by rw [e3]; exact mem_names_of_rows hpb)
        have es := uniqq t htW (by rw [e1]; exact mem_names_of_rows hpa)
        subst et; subst es
        rw [rowp pb hpb e3.symm, rowq pa hpa e1.symm, hcqp] at hc
        obtain ⟨rfl, rfl⟩ := Prod.mk.inj (Option.some.inj hc)
        rw [sameGroup_comm] at hgrp
        exact ⟨hgrp, sg, h3, h4, h5⟩
  · rintro ⟨hgrp, s, h3, h4, h5⟩
    right
    rcases pair_sublist hwp hwq hne with hs | hs
    · refine ⟨wp, wq, hs, by rw [sameGroup_comm]; exact hgrp, _, hrb, _, hra, _, _, hcqp, .inr ⟨s, w, rfl, h3, h4, h5⟩⟩
    · exact ⟨wq, wp, hs, hgrp, _, hra, _, hrb, _, _, hcpq, .inl ⟨s, w, rfl, h3, h4, h5⟩⟩


/-! ### C40: `fit_inclination` -/

/-- The activation function of the concept takes the value `t` at the absolute sum of its incoming weights. -/
def Spec.Fitted (t : α) (m : FCM α) (c : String) : Prop :=
  ∀ n f s, m.topology.get? c = some n → n.fn = some f → (f.name = "sigmoid" ∨ f.name = "sigmoid_hip") →
    s = ((m.arcList.filter fun a => a.dest = c).map (·.weight)).foldl (· + ·) (lit 0) → s ≠ lit 0 →
    callActv f.fn (Arith.abs s) f.args = .ok t

/-- C40 in full (real arithmetic, the inclination 0.75 of association.py:51). -/
def C40_full : Prop :=
  ∀ (cfg : GenConf ℝ) (x : Ext ℝ) (ts : List String) (cols : List (String × Column ℝ)) (g0 g : Gen ℝ),
    (∀ l, (x.order l).Perm l) → Spec.Readable cfg x cols → Gen.new true = .ok g0 →
    Gen.build cfg x ts cols none g0 = (.ok (), g) → ∀ r ∈ g.fcm.arcList, Spec.Fitted (3 / 4) g.fcm r.dest

/-- The argument has no effect at all on `build_fcm`. -/
theorem C40_no_effect (cfg : GenConf α) (x : Ext α) (ts : List String) (cols : List (String × Column α))
    (given : Option (FCM α)) {g1 g2 : Gen α} (h1 : Gen.new true = .ok g1) (h2 : Gen.new false = .ok g2) :
    Gen.build cfg x ts cols given g1 = Gen.build cfg x ts cols given g2 := by
  unfold Gen.new at h1 h2
  obtain ⟨p, -, h1⟩ := exc_bind_ok h1
  obtain ⟨q, -, h2⟩ := exc_bind_ok h2
  cases h1
  cases h2
  unfold Gen.build
  cases given with
  | some m => rfl
  | none => rfl

/-- What holds: the slopes are fitted if the inclination is set on the map that is passed to `build_fcm`. -/
theorem C40_given_partial {cfg : GenConf ℝ} {x : Ext ℝ} {ts : List String} {cols : List (String × Column ℝ)}
    {m0 : FCM ℝ} {fit : Bool} {g0 g : Gen ℝ} {t : ℝ}
    (hx : ∀ l, (x.order l).Perm l) (hr : Spec.Readable cfg x cols) (hc : CleanReachable m0) (ht : m0.topology = [])
    (hfit : m0.fitInclination = some t) (h0 : 0 < t) (h1 : t < 1)
    (hn : Gen.new fit = .ok g0) (h : Gen.build cfg x ts cols (some m0) g0 = (.ok (), g))
    {r : Arc ℝ} (hm : r ∈ g.fcm.arcList) : Spec.Fitted t g.fcm r.dest := by
  obtain ⟨m0', hb, hgv⟩ := build_from hn h
  rcases hgv with hgv | ⟨hgv, -⟩
  case inr => cases hgv
  cases hgv
  obtain ⟨W, L, hB⟩ := buildFcm_built hx hr.columns hb
  have hnd := hB.names_nodup hr
  have hI := hc.clean
  have harcs : m0.arcList = [] := by
    rw [List.eq_nil_iff_forall_not_mem]
    intro a ha
    have := (hI.inv.ends a ha).1
    rw [ht] at this
    cases this
  have hlink : Linked g.fcm := hB.linked hnd (by rw [ht]; intro c _ h; cases h) hI (by
    intro c n hcn; rw [ht] at hcn; cases hcn)
  have hslope := hB.slope hnd harcs t hfit
  intro n f s hnode hf hname hs hsne
  have e1 := hslope r hm n hnode
  have hsum : n.actvSum = s := by
    rw [hs, (hlink _ n hnode).2]
    unfold inSum
    rw [List.foldl_map]
  have hfok := ((hB.clean hI).inv.nodes _ n hnode).fn f hf
  unfold fitSlope at e1
  subst hsum
  rw [hf] at e1
  dsimp only at e1
  have hpos : 0 < (Arith.abs n.actvSum : ℝ) := by
    rw [real_abs]; exact _root_.abs_pos.2 (by simpa using hsne)
  unfold slopeFor at e1
  have hfin : ∀ l, (Except.ok { n with fn := some { f with args := [("lambda_val", .num l)] }, argsVect := some [l] } :
      Except Err (Node ℝ)) = .ok n → f.args = [("lambda_val", .num l)] := by
    intro l hl
    have : n.fn = some { f with args := [("lambda_val", .num l)] } := by
      have := Except.ok.inj hl
      exact (congrArg Node.fn this).symm
    rw [hf] at this
    exact congrArg FnInfo.args (Option.some.inj this)
  unfold FnInfo.Ok at hfok
  rcases hname with hname | hname
  · rw [if_pos hname] at e1
    obtain ⟨l, hl1, hl2⟩ := C26_sigmoid_fit hpos.ne' h0 h1
    rw [hl1] at e1
    rw [hname] at hfok
    have hfn : f.fn = .sigmoid := by
      have : Activation.getFunctionByName "sigmoid" = some .sigmoid := by decide
      rw [this] at hfok; exact (Option.some.inj hfok).symm
    rw [hfin l e1, hfn]
    exact hl2
  · rw [if_neg (by rw [hname]; decide), if_pos hname] at e1
    obtain ⟨l, hl1, hl2⟩ := C26_sigmoid_hip_fit_nonneg hpos h0.le h1
    rw [hl1] at e1
    rw [hname] at hfok
    have hfn : f.fn = .sigmoidHip := by
      have : Activation.getFunctionByName "sigmoid_hip" = some .sigmoidHip := by decide
      rw [this] at hfok; exact (Option.some.inj hfok).symm
    rw [hfin l e1, hfn]
    exact hl2

/-! ### C60: learning from categorical columns does not fail -/

theorem Dict.some_of_mem_keys {β : Type} {d : Dict β} {k : String} (h : k ∈ d.keys) : ∃ v, d.get? k = some v := by
  cases hd : d.get? k with
  | some v => exact ⟨v, rfl⟩
  | none => exact absurd h ((Dict.get?_eq_none_iff _ _).1 hd)

/-- From every state in `P` the program returns, in a state in `P`. -/
def Succ {σ β : Type} (P : σ → Prop) (x : PyM σ β) : Prop := ∀ s, P s → ∃ b s', x s = (.ok b, s') ∧ P s'

theorem Succ.bind {σ β γ : Type} {P : σ → Prop} {x : PyM σ β} {f : β → PyM σ γ} (hx : Succ P x)
    (hf : ∀ b, Succ P (f b)) : Succ P (x >>= f) := by
  intro s hs
  obtain ⟨b, s1, h1, p1⟩ := hx s hs
  obtain ⟨c, s2, h2, p2⟩ := hf b s1 p1
  refine ⟨c, s2, ?_, p2⟩
  rw [PyM.run_bind, h1]
  exact h2

theorem Succ.pure {σ β : Type} {P : σ → Prop} (b : β) : Succ P (pure b : PyM σ β) := fun s hs => ⟨b, s, rfl, hs⟩

theorem Succ.bindLift {σ β γ : Type} {P : σ → Prop} {e : Except Err β} {f : β → PyM σ γ} {b : β} (he : e = .ok b)
    (hf : Succ P (f b)) : Succ P (PyM.lift e >>= f) := by
  subst he
  exact hf

theorem Succ.forEach {σ ι : Type} {P : σ → Prop} {f : ι → PyM σ Unit} : ∀ {xs : List ι}, (∀ i ∈ xs, Succ P (f i)) →
    Succ P (PyM.forEach xs f)
  | [], _ => fun s hs => ⟨(), s, rfl, hs⟩
  | i :: xs, h => fun s hs => by
    obtain ⟨b, s1, h1, p1⟩ := h i (by simp) s hs
    obtain ⟨c, s2, h2, p2⟩ := Succ.forEach (xs := xs) (fun j hj => h j (List.mem_cons_of_mem _ hj)) s1 p1
    refine ⟨c, s2, ?_, p2⟩
    simp only [PyM.forEach, h1]
    exact h2

/-- The generator's state while it works on categorical columns. -/
structure Working (cols : List (String × Column α)) (d0 : DefaultConcept α) (K : List String) (g : Gen α) : Prop where
  fit : g.fcm.fitInclination = none
  dflt : g.fcm.default = d0
  feats : ∀ f F, g.features.get? f = some F → ∃ p ∈ cols, p.1 = f ∧
    ∀ r ∈ F.rows, ∃ u ∈ Spec.cells p.2, r.2 = indic u (Spec.cells p.2)
  proc : ∀ f ∈ g.processed, f ∈ g.features.keys
  keys : ∀ f ∈ K, f ∈ g.features.keys

variable {cols : List (String × Column α)} {d0 : DefaultConcept α} {K : List String}

theorem succ_relation (o d : String) (w : α) : Succ (Working cols d0 K) (Gen.onFcm (FCM.addRelation o d w)) := by
  intro g hg
  have h1 : (FCM.addRelation o d w g.fcm).1 = .ok () := by
    unfold FCM.addRelation
    dsimp only
    split
    · rw [hg.fit]
    · rfl
  have h2 : (FCM.addRelation o d w g.fcm).2.fitInclination = none := by rw [addRelation_fit]; exact hg.fit
  have h3 : (FCM.addRelation o d w g.fcm).2.default = d0 := by
    rw [← hg.dflt]
    unfold FCM.addRelation
    dsimp only
    repeat' split
    all_goals rfl
  refine ⟨(), { g with fcm := (FCM.addRelation o d w g.fcm).2 }, ?_, ⟨h2, h3, hg.feats, hg.proc, hg.keys⟩⟩
  unfold Gen.onFcm
  rw [← h1]

theorem succ_concept (c ty : String) {v : List α} (hv : processFunctionArgs d0.fn.args = .ok v)
    (hty : isValidType ty = true) (hnf : isFuzzyType ty = false) :
    Succ (Working cols d0 K) (Gen.onFcm (FCM.addConcept c (discArgs ty))) := by
  intro g hg
  have hd := hg.dflt
  subst hd
  have key : (buildNode g.fcm.default (discArgs ty) (freshNode true : Node α)).1 = .ok () := by
    unfold buildNode buildExec buildFuzzy buildRest buildFn buildType discArgs
    simp only [hty, hnf, if_true, PyM.run_bind, PyM.run_modify, Bool.false_eq_true, if_false, PyM.run_pure, hv,
      PyM.run_lift]
  unfold Gen.onFcm FCM.addConcept
  have e : (discArgs ty : ConceptArgs α).isActive.getD g.fcm.default.active = true := rfl
  rw [e]
  dsimp only
  rw [key]
  exact ⟨(), _, rfl, ⟨hg.fit, hg.dflt, hg.feats, hg.proc, hg.keys⟩⟩

/-- No measure of the configuration raises on the counts of the two values. -/
structure Spec.Measured (cfg : GenConf α) (f g : Column α) (u v : Cell α) : Prop where
  evaluation : ∃ e, Spec.measure cfg.evaluation f g u v = .ok e
  causality : ∃ c, Spec.measure cfg.causality f g u v = .ok c
  sign : ∀ m, cfg.sign = some m → ∃ d, Spec.measure m f g u v = .ok d

theorem succ_weight {cfg : GenConf α} (a b : String) (s : α) {p q : Column α} {u v : Cell α}
    (hm : Spec.Measured cfg p q u v) : Succ (Working cols d0 K)
      (defWeight cfg a b s (tableOf (Spec.cells p) (Spec.cells q) u v)) := by
  obtain ⟨e, he⟩ := hm.evaluation
  obtain ⟨c, hc⟩ := hm.causality
  unfold defWeight
  refine Succ.bindLift he ?_
  split
  · refine Succ.bindLift hc ?_
    dsimp only
    split
    · exact Succ.pure _
    · exact succ_relation _ _ _
  · exact Succ.pure _

theorem sign_ok {cfg : GenConf α} {p q : Column α} {u v : Cell α} (hm : Spec.Measured cfg p q u v) :
    ∃ s, relSign cfg (tableOf (Spec.cells p) (Spec.cells q) u v) = .ok s := by
  unfold relSign
  cases hs : cfg.sign with
  | none => exact ⟨_, rfl⟩
  | some f =>
    obtain ⟨d, hd⟩ := hm.sign f hs
    refine ⟨if d <? cfg.signCut then lit (-1) else lit 1, ?_⟩
    show (Spec.measure f p q u v >>= _) = _
    rw [hd]; rfl

theorem succ_runIf {b : Bool} {x : PyM (Gen α) Unit} {P : Gen α → Prop} (h : Succ P x) : Succ P (runIf b x) := by
  unfold runIf
  split
  · exact h
  · exact Succ.pure _

theorem succ_pair [Tallying α] {cfg : GenConf α} {fa fb : Feature α} (a b : String) {p q : Column α} {u v : Cell α}
    (hl : (Spec.cells p).length = (Spec.cells q).length) (hm : Spec.Measured cfg p q u v)
    (hm' : Spec.Measured cfg q p v u) : Succ (Working cols d0 K)
      (pairRelation cfg fa fb (a, indic u (Spec.cells p)) (b, indic v (Spec.cells q))) := by
  unfold pairRelation
  dsimp only
  rw [calcCoef_counts hl u v]
  dsimp only
  obtain ⟨s, hs⟩ := sign_ok hm
  obtain ⟨t, ht⟩ := sign_ok hm'
  refine Succ.bindLift hs (Succ.bindLift ht ?_)
  split
  · exact Succ.bind (succ_weight _ _ _ hm) fun _ => succ_weight _ _ _ hm'
  · split
    · obtain ⟨c, hc⟩ := hm.causality
      obtain ⟨d, hd⟩ := hm'.causality
      exact Succ.bindLift hc (Succ.bindLift hd
        (Succ.bind (succ_runIf (succ_weight _ _ _ hm)) fun _ => succ_runIf (succ_weight _ _ _ hm')))
    · split
      · exact succ_weight _ _ _ hm'
      · exact succ_weight _ _ _ hm

theorem succ_relate [Tallying α] {cfg : GenConf α}
    (hl : ∀ p ∈ cols, ∀ q ∈ cols, (Spec.cells p.2).length = (Spec.cells q.2).length)
    (hm : ∀ p ∈ cols, ∀ q ∈ cols, p.1 ≠ q.1 → ∀ u ∈ Spec.cells p.2, ∀ v ∈ Spec.cells q.2, Spec.Measured cfg p.2 q.2 u v)
    {feat other : String} (hf : feat ∈ K) (ho : other ∈ K) : Succ (Working cols d0 K) (relateWith cfg feat other) := by
  unfold relateWith
  split
  · exact Succ.pure _
  · rename_i hne
    intro g hg
    obtain ⟨fa, hfa⟩ := Dict.some_of_mem_keys (hg.keys _ hf)
    obtain ⟨fb, hfb⟩ := Dict.some_of_mem_keys (hg.keys _ ho)
    obtain ⟨p, hp, ep, rp⟩ := hg.feats feat fa hfa
    obtain ⟨q, hq, eq, rq⟩ := hg.feats other fb hfb
    have two : Succ (Working cols d0 K) (twoFeat cfg fa fb) := by
      unfold twoFeat
      refine Succ.forEach fun pa hpa => Succ.forEach fun pb hpb => ?_
      obtain ⟨u, hu, eu⟩ := rp pa hpa
      obtain ⟨v, hv, ev⟩ := rq pb hpb
      obtain ⟨a, ra⟩ := pa
      obtain ⟨b, rb⟩ := pb
      dsimp only at eu ev
      subst eu; subst ev
      have hne' : p.1 ≠ q.1 := by rw [ep, eq]; exact Ne.symm hne
      exact succ_pair a b (hl p hp q hq) (hm p hp q hq hne' u hu v hv) (hm q hq p hp (Ne.symm hne') v hv u hu)
    have body : Succ (Working cols d0 K) (if cfg.featuresRelation then twoFeat cfg fa fb
        else if sameGroup fa fb then pure () else twoFeat cfg fa fb) := by
      split
      · exact two
      · split
        · exact Succ.pure _
        · exact two
    obtain ⟨b, g', h1, h2⟩ := body g hg
    refine ⟨b, g', ?_, h2⟩
    rw [PyM.run_bind, PyM.run_get]
    dsimp only
    rw [PyM.run_bind, hfa]
    show (PyM.lift (need other (g.features.get? other)) >>= _) g = _
    rw [PyM.run_bind, hfb]
    exact h1

theorem succ_inner {e : α} : ∀ (ns : List String), Succ (Working cols d0 K) (innerLoop e ns)
  | [] => Succ.pure _
  | a :: ns => by
    have row : ∀ bs : List String, Succ (Working cols d0 K) (innerRow e a bs) := by
      intro bs
      induction bs with
      | nil => exact Succ.pure _
      | cons b bs ih =>
        unfold innerRow
        exact Succ.bind (succ_relation _ _ _) fun _ => Succ.bind (succ_relation _ _ _) fun _ => ih
    unfold innerLoop
    exact Succ.bind (row ns) fun _ => succ_inner ns

theorem succ_innerRelations {cfg : GenConf α} {feat : String} (hf : feat ∈ K) :
    Succ (Working cols d0 K) (innerRelations cfg feat) := by
  unfold innerRelations
  split
  · exact Succ.pure _
  · intro g hg
    obtain ⟨fa, hfa⟩ := Dict.some_of_mem_keys (hg.keys _ hf)
    obtain ⟨b, g', h1, h2⟩ := succ_inner (e := cfg.exclusion) fa.names g hg
    refine ⟨b, g', ?_, h2⟩
    rw [PyM.run_bind, PyM.run_get]
    dsimp only
    rw [PyM.run_bind, hfa]
    exact h1

theorem succ_feature [Ordered α] [Tallying α] {cfg : GenConf α} {x : Ext α} {ts : List String}
    (hx : ∀ l, (x.order l).Perm l)
    (hl : ∀ p ∈ cols, ∀ q ∈ cols, (Spec.cells p.2).length = (Spec.cells q.2).length)
    (hm : ∀ p ∈ cols, ∀ q ∈ cols, p.1 ≠ q.1 → ∀ u ∈ Spec.cells p.2, ∀ v ∈ Spec.cells q.2, Spec.Measured cfg p.2 q.2 u v)
    {v : List α} (hv : processFunctionArgs d0.fn.args = .ok v) {p : String × Column α} (hp : p ∈ cols)
    (hd : p.2.isDiscrete cfg = true) : Succ (Working cols d0 []) (buildFeature cfg x ts p.1 p.2) := by
  obtain ⟨feat, col⟩ := p
  have gen : Succ (Working cols d0 []) (genDiscrete cfg x ts feat col) := by
    have loop : ∀ (ty : String) (ns : List String), isValidType ty = true → isFuzzyType ty = false →
        Succ (Working cols d0 []) (genDiscreteLoop ty ns : PyM (Gen α) Unit) := by
      intro ty ns h1 h2
      induction ns with
      | nil => exact Succ.pure _
      | cons n ns ih =>
        unfold genDiscreteLoop
        exact Succ.bind (succ_concept n ty hv h1 h2) fun _ => ih
    unfold genDiscrete
    refine Succ.bind (loop _ _ ?_ ?_) fun _ => ?_
    · split <;> decide
    · split <;> decide
    · intro g hg
      refine ⟨(), _, rfl, ⟨hg.fit, hg.dflt, ?_, ?_, by simp⟩⟩
      · intro f F hF
        rw [Dict.get?_set] at hF
        split at hF
        · rename_i e
          cases hF
          refine ⟨(feat, col), hp, e, ?_⟩
          intro r hr
          unfold Feature.rows at hr
          dsimp only at hr
          rw [oneHot_eq, List.zip_map', List.mem_map] at hr
          obtain ⟨u, hu, rfl⟩ := hr
          exact ⟨u, ((C35_values col).2 u).1 hu, rfl⟩
        · exact hg.feats f F hF
      · intro f hf
        dsimp only
        rw [Dict.mem_keys_set]
        exact .inl (hg.proc f hf)
  have has : ∀ g g', genDiscrete cfg x ts feat col g = (.ok (), g') → feat ∈ g'.features.keys := by
    intro g g' h
    unfold genDiscrete at h
    obtain ⟨_, g1, -, h⟩ := bind_okP h
    obtain rfl := modify_okP h
    dsimp only
    rw [Dict.mem_keys_set]
    exact .inr rfl
  have whole : Succ (Working cols d0 []) (do
      genDiscrete cfg x ts feat col
      innerRelations cfg feat
      PyM.modify fun g => { g with processed := setAdd feat g.processed }
      let g ← PyM.get
      PyM.forEach (x.order g.processed) (relateWith cfg feat)) := by
    intro g hg
    obtain ⟨_, g1, h1, p1⟩ := gen g hg
    have k1 : Working cols d0 [feat] g1 := ⟨p1.fit, p1.dflt, p1.feats, p1.proc, by simpa using has g g1 h1⟩
    obtain ⟨_, g2, h2, p2⟩ := succ_innerRelations (K := [feat]) (cfg := cfg) (List.mem_singleton.2 rfl) g1 k1
    set g3 : Gen α := { g2 with processed := setAdd feat g2.processed } with e3
    have p3 : Working cols d0 (x.order g3.processed ++ [feat]) g3 := by
      have sub : ∀ f ∈ g3.processed, f ∈ g3.features.keys := by
        intro f hf
        have hf' : f ∈ setAdd feat g2.processed := hf
        unfold setAdd at hf'
        split at hf'
        · exact p2.proc f hf'
        · rcases List.mem_append.1 hf' with h | h
          · exact p2.proc f h
          · rw [List.mem_singleton] at h; subst h
            exact p2.keys _ (List.mem_singleton.2 rfl)
      refine ⟨p2.fit, p2.dflt, p2.feats, sub, ?_⟩
      intro f hf
      rcases List.mem_append.1 hf with h | h
      · exact sub f ((hx _).mem_iff.1 h)
      · rw [List.mem_singleton] at h; subst h
        exact p2.keys _ (List.mem_singleton.2 rfl)
    obtain ⟨_, g4, h4, p4⟩ := Succ.forEach (P := Working cols d0 (x.order g3.processed ++ [feat]))
      (f := relateWith cfg feat) (xs := x.order g3.processed)
      (fun o ho => succ_relate hl hm (List.mem_append_right _ (List.mem_singleton.2 rfl)) (List.mem_append_left _ ho)) g3 p3
    refine ⟨(), g4, ?_, ⟨p4.fit, p4.dflt, p4.feats, p4.proc, by simp⟩⟩
    rw [PyM.run_bind, h1]
    dsimp only
    rw [PyM.run_bind, h2]
    exact h4
  unfold buildFeature
  cases col with
  | strs xs => exact whole
  | bools xs => exact whole
  | ints xs =>
    simp only [Column.isDiscrete, Bool.and_eq_true, decide_eq_true_eq] at hd
    dsimp only
    rw [if_pos hd]
    exact whole
  | floats xs =>
    simp only [Column.isDiscrete, Bool.and_eq_true, decide_eq_true_eq] at hd
    dsimp only
    rw [if_pos hd]
    exact whole

/-- C60: `build_fcm` on a rectangular dataset of categorical columns returns, unless a measure raises on some table of
counts. -/
theorem C60_builds [Ordered α] [Tallying α] {cfg : GenConf α} {x : Ext α} {ts : List String} {m0 : FCM α}
    (hx : ∀ l, (x.order l).Perm l) (hfit : m0.fitInclination = none)
    (hd : ∀ p ∈ cols, p.2.isDiscrete cfg = true)
    (hl : ∀ p ∈ cols, ∀ q ∈ cols, (Spec.cells p.2).length = (Spec.cells q.2).length)
    (hm : ∀ p ∈ cols, ∀ q ∈ cols, p.1 ≠ q.1 → ∀ u ∈ Spec.cells p.2, ∀ v ∈ Spec.cells q.2,
      Spec.Measured cfg p.2 q.2 u v) {v : List α} (hv : processFunctionArgs m0.default.fn.args = .ok v) :
    ∃ g, buildFcm cfg x ts cols ⟨[], [], m0⟩ = (.ok (), g) := by
  have all : ∀ l : List (String × Column α), (∀ p ∈ l, p ∈ cols) →
      Succ (Working cols m0.default []) (buildFcm cfg x ts l) := by
    intro l
    induction l with
    | nil => intro _; exact Succ.pure _
    | cons p l ih =>
      intro h
      unfold buildFcm
      exact Succ.bind (succ_feature hx hl hm hv (h p (by simp)) (hd p (h p (by simp)))) fun _ =>
        ih fun q hq => h q (by simp [hq])
  obtain ⟨_, g, h, -⟩ := all cols (fun _ h => h) ⟨[], [], m0⟩
    ⟨hfit, rfl, fun f F hF => (by cases hF), by simp, by simp⟩
  exact ⟨g, h⟩

theorem tally_total (f g : List (Cell α)) (u v : Cell α) :
    (Spec.tally f g fun a b => a = u ∧ b = v) + (Spec.tally f g fun a b => a = u ∧ b ≠ v) +
      (Spec.tally f g fun a b => a ≠ u ∧ b = v) + (Spec.tally f g fun a b => a ≠ u ∧ b ≠ v) = (f.zip g).length := by
  classical
  unfold Spec.tally
  induction f.zip g with
  | nil => rfl
  | cons p l ih =>
    simp only [List.countP_cons, List.length_cons, ← ih]
    by_cases h1 : p.1 = u <;> by_cases h2 : p.2 = v <;> simp [h1, h2] <;> omega

/-- With the default measures (`supp`, `conf`, no sign function) nothing raises on non-empty columns. -/
theorem measured_default {cfg : GenConf ℝ} (he : cfg.evaluation = Relation.supp) (hc : cfg.causality = Relation.conf)
    (hs : cfg.sign = none) {f g : Column ℝ} (hl : (Spec.cells f).length = (Spec.cells g).length) {u v : Cell ℝ}
    (hu : u ∈ Spec.cells f) : Spec.Measured cfg f g u v := by
  refine ⟨?_, ?_, ?_⟩
  · rw [he]
    unfold Spec.measure Relation.supp
    have hpos : 0 < ((Spec.cells f).zip (Spec.cells g)).length := by
      rw [List.length_zip, ← hl, Nat.min_self]
      exact List.length_pos_of_mem hu
    have := tally_total (Spec.cells f) (Spec.cells g) u v
    refine ⟨_, pdiv_real ?_⟩
    rw [← this] at hpos
    have hpos' : (0 : ℝ) < (((Spec.tally (Spec.cells f) (Spec.cells g) fun a b => a = u ∧ b = v) +
      (Spec.tally (Spec.cells f) (Spec.cells g) fun a b => a = u ∧ b ≠ v) +
      (Spec.tally (Spec.cells f) (Spec.cells g) fun a b => a ≠ u ∧ b = v) +
      (Spec.tally (Spec.cells f) (Spec.cells g) fun a b => a ≠ u ∧ b ≠ v) : Nat) : ℝ) := by exact_mod_cast hpos
    push_cast at hpos'
    simpa using hpos'.ne'
  · rw [hc]
    unfold Spec.measure Relation.conf
    split
    · exact ⟨_, rfl⟩
    · rename_i h
      exact ⟨_, pdiv_real (by simpa using h)⟩
  · intro m hm
    rw [hs] at hm; cases hm

/-- C60 for the default configuration: `build_fcm` returns on every rectangular dataset of categorical columns. -/
theorem C60_default {cfg : GenConf ℝ} {x : Ext ℝ} {ts : List String} {cols : List (String × Column ℝ)} {g0 : Gen ℝ}
    {fit : Bool} (hx : ∀ l, (x.order l).Perm l) (he : cfg.evaluation = Relation.supp)
    (hc : cfg.causality = Relation.conf) (hs : cfg.sign = none) (hd : ∀ p ∈ cols, p.2.isDiscrete cfg = true)
    (hl : ∀ p ∈ cols, ∀ q ∈ cols, (Spec.cells p.2).length = (Spec.cells q.2).length) (h0 : Gen.new fit = .ok g0) :
    ∃ g, Gen.build cfg x ts cols none g0 = (.ok (), g) := by
  have hnew : ∃ m, (FCM.new : Except Err (FCM ℝ)) = .ok m ∧ m.fitInclination = none ∧ m.default.fn.args = [] :=
    ⟨_, rfl, rfl, rfl⟩
  obtain ⟨m, hm, hf, ha⟩ := hnew
  obtain ⟨g, hg⟩ := C60_builds (m0 := m) (ts := ts) (cfg := cfg) (cols := cols) hx hf hd hl
    (fun p hp q hq _ u hu v _ => measured_default he hc hs (hl p hp q hq) hu) (v := []) (by rw [ha]; rfl)
  refine ⟨g, ?_⟩
  have hg0 : g0.features = [] ∧ g0.processed = [] := by
    unfold Gen.new at h0
    obtain ⟨p, -, h1⟩ := exc_bind_ok h0
    cases h1
    exact ⟨rfl, rfl⟩
  unfold Gen.build
  rw [hg0.1, hg0.2, hm]
  exact hg

/-! ### Examples -/

/-- The default configuration of association.py:30-33 over the reals. -/
noncomputable def Ex.realConf : GenConf ℝ :=
  { exclusion := -1, causality := Relation.conf, evaluation := Relation.supp, threshold := 0, signCut := 0 }
noncomputable def Ex.realExt : Ext ℝ :=
  { disc := fun _ _ => .error .valueError, fmt := fun _ => "", trunc := fun _ => .error .valueError, order := id }

/-- Two columns. -/
def Ex.table : List (String × Column ℝ) :=
  [("color", .strs ["red", "blue", "red"]), ("class", .bools [true, false, true])]

theorem Ex.table_readable : Spec.Readable Ex.realConf Ex.realExt Ex.table := by
  refine readable_default rfl (by decide) (by decide) ?_ ?_
  · intro p hp _ c hc
    simp only [Ex.table, List.mem_cons, List.not_mem_nil, or_false] at hp
    rcases hp with rfl | rfl <;> simp only [Spec.cells, List.map_cons, List.map_nil, List.mem_cons, List.not_mem_nil,
      or_false] at hc <;> rcases hc with rfl | rfl | rfl <;> simp only [Cell.text] <;> decide
  · intro p hp _ a b ha
    simp only [Ex.table, List.mem_cons, List.not_mem_nil, or_false] at hp
    rcases hp with rfl | rfl <;> simp [Spec.cells] at ha

theorem Ex.gen_new (fit : Bool) : ∃ g0, (Gen.new fit : Except Err (Gen ℝ)) = .ok g0 := ⟨_, rfl⟩

theorem Ex.table_builds {g0 : Gen ℝ} (h0 : Gen.new true = .ok g0) :
    ∃ g, Gen.build Ex.realConf Ex.realExt ["class"] Ex.table none g0 = (.ok (), g) := by
  refine C60_default (fun l => .refl _) rfl rfl rfl ?_ ?_ h0
  · intro p hp
    simp only [Ex.table, List.mem_cons, List.not_mem_nil, or_false] at hp
    rcases hp with rfl | rfl <;> rfl
  · intro p hp q hq
    simp only [Ex.table, List.mem_cons, List.not_mem_nil, or_false] at hp hq
    rcases hp with rfl | rfl <;> rcases hq with rfl | rfl <;> rfl

theorem Ex.none_arcs : ∀ m : FCM ℝ, none = some m → m.arcList = [] := by intro m h; cases h

/-- C38 on the example. -/
example {g0 g : Gen ℝ} (h0 : Gen.new true = .ok g0)
    (h : Gen.build Ex.realConf Ex.realExt ["class"] Ex.table none g0 = (.ok (), g)) :
    (∀ r ∈ g.fcm.arcList, r.origin ≠ r.dest) ∧ (g.fcm.arcList.map fun r => (r.origin, r.dest)).Nodup :=
  C38_simple_partial (fun l => .refl _) Ex.table_readable Ex.none_arcs h0 h

/-- C39 on the example: "red" and "blue" exclude each other. -/
example {g0 g : Gen ℝ} (h0 : Gen.new true = .ok g0)
    (h : Gen.build Ex.realConf Ex.realExt ["class"] Ex.table none g0 = (.ok (), g)) :
    (g.fcm.arcList.filter fun r => r.origin = "red___color" ∧ r.dest = "blue___color") =
      [⟨"blue___color", -1, "red___color"⟩] :=
  (C39_exclusion_partial (fun l => .refl _) Ex.table_readable Ex.none_arcs h0 h
    (p := ("color", .strs ["red", "blue", "red"])) (by simp [Ex.table])
    ⟨.str "red", by simp [Spec.cells], rfl⟩ ⟨.str "blue", by simp [Spec.cells], rfl⟩ (by decide)).1
    (by simp [Ex.realConf])

/-- C59 on the example: "red" implies "True" with confidence 1. -/
example {g0 g : Gen ℝ} (h0 : Gen.new true = .ok g0)
    (h : Gen.build Ex.realConf Ex.realExt ["class"] Ex.table none g0 = (.ok (), g)) :
    (⟨"True___class", 1, "red___color"⟩ : Arc ℝ) ∈ g.fcm.arcList := by
  refine (C59_learned (fun l => .refl _) Ex.table_readable Ex.none_arcs h0 h
    (p := ("color", .strs ["red", "blue", "red"])) (q := ("class", .bools [true, false, true]))
    (by simp [Ex.table]) (by simp [Ex.table]) (by decide) rfl rfl rfl (u := .str "red") (v := .bool true)
    (by simp [Spec.cells]) (by simp [Spec.cells]) 1).2 ?_
  refine ⟨.inl rfl, .inl rfl, 2 / 3, 1, 1, ?_, ?_, ?_, fun _ => by simp, ?_, by simp, by simp⟩
  · simp [Spec.measure, Ex.realConf, Relation.supp, Spec.cells, Spec.tally, pdiv]
    norm_num
  · simp [Ex.realConf]
  · simp [Spec.measure, Ex.realConf, Relation.conf, Spec.cells, Spec.tally, pdiv]
  · intro f hf; cases hf

/-- Two values of one feature. -/
def Ex.two : List (String × Column ℝ) := [("f", .strs ["a", "b"])]

theorem Ex.two_readable : Spec.Readable Ex.realConf Ex.realExt Ex.two := by
  refine readable_default rfl (by decide) (by decide) ?_ ?_
  · intro p hp _ c hc
    simp only [Ex.two, List.mem_singleton] at hp
    subst hp
    simp only [Spec.cells, List.map_cons, List.map_nil, List.mem_cons, List.not_mem_nil, or_false] at hc
    rcases hc with rfl | rfl <;> simp only [Cell.text] <;> decide
  · intro p hp _ a b ha
    simp only [Ex.two, List.mem_singleton] at hp
    subst hp
    simp [Spec.cells] at ha

theorem Ex.two_builds {g0 : Gen ℝ} (h0 : Gen.new true = .ok g0) :
    ∃ g, Gen.build Ex.realConf Ex.realExt [] Ex.two none g0 = (.ok (), g) := by
  refine C60_default (fun l => .refl _) rfl rfl rfl ?_ ?_ h0
  · intro p hp
    simp only [Ex.two, List.mem_singleton] at hp
    subst hp; rfl
  · intro p hp q hq
    simp only [Ex.two, List.mem_singleton] at hp hq
    subst hp; subst hq; rfl

/-- A concept made from a value of a categorical column uses the activation function of the map as it is: its slope is
never fitted when no map is passed to `build_fcm`. -/
theorem C40_unfitted [Ordered α] {cfg : GenConf α} {x : Ext α} {ts : List String} {cols : List (String × Column α)}
    {fit : Bool} {g0 g : Gen α} (hx : ∀ l, (x.order l).Perm l) (hr : Spec.Readable cfg x cols)
    (h0 : Gen.new fit = .ok g0) (h : Gen.build cfg x ts cols none g0 = (.ok (), g))
    {p : String × Column α} (hp : p ∈ cols) (hd : p.2.isDiscrete cfg = true) {c : String}
    (hc : Spec.ConceptOf cfg x p c) :
    ∃ n, g.fcm.topology.get? c = some n ∧ n.fn = some ⟨.sigmoidHip, "sigmoid_hip", []⟩ := by
  obtain ⟨m0, hb, hgv⟩ := build_from h0 h
  rcases hgv with hgv | ⟨-, hnew⟩
  · cases hgv
  obtain ⟨W, L, hB⟩ := buildFcm_built hx hr.columns hb
  have hnd := hB.names_nodup hr
  obtain ⟨w, hw, -, hF⟩ := hB.of_col hp
  have hcn := (mem_names hF c).2 hc
  unfold FeatureOf at hF
  rw [if_pos hd] at hF
  obtain ⟨n0, n, ⟨n1, hb1, rfl⟩, hn, hk⟩ := hB.born hnd w hw (c, discArgs w.2.1.type)
    (by rw [hF.2.2.2]; exact List.mem_map_of_mem (f := fun n => (n, discArgs w.2.1.type)) hcn)
  refine ⟨n, hn, ?_⟩
  have hm0 : m0.fitInclination = none ∧ m0.default.fn = ⟨.sigmoidHip, "sigmoid_hip", []⟩ := by
    have e : (FCM.new : Except Err (FCM α)) = .ok m0 := hnew
    cases e
    exact ⟨rfl, rfl⟩
  rw [show n.fn = _ from congrArg Node.fn (hk.2.2.2.2.1 hm0.1)]
  obtain ⟨ex, adict, f, custom, vect, -, hdict, hch, e⟩ := buildNode_ok hb1
  have hdn : adict = none := by
    cases adict with
    | none => rfl
    | some d => cases hdict
  have := hch.other hdn rfl
  have e' : n1.fn = some f := (congrArg Node.fn e :)
  show n1.fn = _
  rw [e', this.1, hm0.2]

/-- C40 is false: the argument of the constructor is set on a map that `build_fcm` throws away. -/
theorem C40_counterexample : ¬ C40_full := by
  intro hfull
  obtain ⟨g0, h0⟩ := Ex.gen_new true
  obtain ⟨g, h⟩ := Ex.two_builds h0
  have hp : (("f", .strs ["a", "b"]) : String × Column ℝ) ∈ Ex.two := List.mem_singleton.2 rfl
  have ca : Spec.ConceptOf Ex.realConf Ex.realExt ("f", .strs ["a", "b"]) "a___f" :=
    ⟨.str "a", by simp [Spec.cells], rfl⟩
  have cb : Spec.ConceptOf Ex.realConf Ex.realExt ("f", .strs ["a", "b"]) "b___f" :=
    ⟨.str "b", by simp [Spec.cells], rfl⟩
  have hx : ∀ l, (Ex.realExt.order l).Perm l := fun l => .refl _
  have hab := (C39_exclusion_partial hx Ex.two_readable Ex.none_arcs h0 h hp ca cb (by decide)).1 (by simp [Ex.realConf])
  have hm : (⟨"b___f", -1, "a___f"⟩ : Arc ℝ) ∈ g.fcm.arcList := by
    have : (⟨"b___f", Ex.realConf.exclusion, "a___f"⟩ : Arc ℝ) ∈
        g.fcm.arcList.filter (fun r => r.origin = "a___f" ∧ r.dest = "b___f") := by rw [hab]; exact List.mem_singleton.2 rfl
    exact List.mem_of_mem_filter this
  obtain ⟨n, hn, hf⟩ := C40_unfitted hx Ex.two_readable h0 h hp rfl cb
  -- all relations into "b" come from "a"
  have hin : (g.fcm.arcList.filter fun a => a.dest = "b___f") = [⟨"b___f", -1, "a___f"⟩] := by
    have : (g.fcm.arcList.filter fun a => a.dest = "b___f") =
        g.fcm.arcList.filter fun r => r.origin = "a___f" ∧ r.dest = "b___f" := by
      refine List.filter_congr fun r hr => ?_
      obtain ⟨p, hp1, q, hq1, hpo, -⟩ := C39_restriction_partial hx Ex.two_readable Ex.none_arcs h0 h hr
      have hne := (C38_simple_partial hx Ex.two_readable Ex.none_arcs h0 h).1 r hr
      simp only [Ex.two, List.mem_singleton] at hp1
      subst hp1
      obtain ⟨v, hv, hvo⟩ := hpo
      have hv' : v = .str "a" ∨ v = .str "b" := by simpa [Spec.cells] using hv
      by_cases hdst : r.dest = "b___f"
      · rcases hv' with rfl | rfl
        · have : r.origin = "a___f" := hvo
          simp [this, hdst]
        · have : r.origin = "b___f" := hvo
          exact absurd (this.trans hdst.symm) hne
      · simp [hdst]
    rw [this, hab]
    simp [Ex.realConf]
  have hfit := hfull Ex.realConf Ex.realExt [] Ex.two g0 g hx Ex.two_readable h0 h _ hm n _ (-1) hn hf (.inr rfl)
    (by rw [hin]; simp) (by simp)
  have hval : callActv ActFn.sigmoidHip (Arith.abs (-1 : ℝ)) [] = sigmoidHip 1 2 := by
    simp [callActv, kw1, bind, Except.bind]
  rw [hval, sigmoidHip_real] at hfit
  have hfit := Except.ok.inj hfit
  have hexp : Real.exp (min 500 (-(2 * 1))) = (Real.exp 2)⁻¹ := by
    rw [← Real.exp_neg]; congr 1; norm_num
  rw [hexp] at hfit
  have h7 : 7 < Real.exp 2 := by
    have h1 : (2.7 : ℝ) < Real.exp 1 := by have := Real.exp_one_gt_d9; linarith
    have h2 : Real.exp 2 = Real.exp 1 * Real.exp 1 := by rw [← Real.exp_add]; norm_num
    rw [h2]; nlinarith
  have hpos := Real.exp_pos 2
  generalize Real.exp 2 = E at *
  field_simp at hfit
  linarith

/-- A new map with an inclination. -/
noncomputable def Ex.fitted0 (m : FCM ℝ) : FCM ℝ := { m with fitInclination := some (3/4) }
/-- Learning into it succeeds. -/
theorem Ex.two_fits {g0 : Gen ℝ} (h0 : Gen.new true = .ok g0) (m : FCM ℝ) (hm : FCM.new = .ok m) :
    ∃ g, Gen.build Ex.realConf Ex.realExt [] Ex.two (some (Ex.fitted0 m)) g0 = (.ok (), g) := by
  cases h0
  have : m = _ := (Except.ok.inj hm).symm
  subst this
  obtain ⟨l, hl, -⟩ := C26_sigmoid_hip_fit_nonneg (x := 1) (y := 3 / 4) (by norm_num) (by norm_num) (by norm_num)
  have n1 : nameConcept Ex.realConf "f" "a" = "a___f" := by rfl
  have n2 : nameConcept Ex.realConf "f" "b" = "b___f" := by rfl
  have hexc : Ex.realConf.exclusion = -1 := rfl
  have u : (Column.strs (α := ℝ) ["a", "b"]).uniqCells = [.str "a", .str "b"] := by rfl
  refine ⟨_, Prod.ext ?_ rfl⟩
  unfold Gen.build Ex.two Ex.realExt
  simp [buildFcm, buildFeature, genDiscrete, genDiscreteLoop, u, Cell.text, n1, n2, Gen.onFcm, FCM.addConcept, Ex.fitted0,
    buildNode, buildExec, buildFuzzy, buildRest, buildFn, buildType, freshNode, TYPE_SIMPLE, isValidType, isFuzzyType,
    Dict.set, processFunctionArgs, innerRelations, innerLoop, innerRow, Dict.get?, need, Dict.has, Dict.modify, FCM.addRelation,
    PyM.forEach, setAdd, relateWith, fitSlope, slopeFor, hl, hexc, Except.map, TYPE_FUZZY, TYPE_REGRESOR, concatArgs, sortNames]


/-- C40 on the example: both concepts are fitted. -/
example {g0 g : Gen ℝ} {m : FCM ℝ} (hm : FCM.new = .ok m) (h0 : Gen.new true = .ok g0)
    (h : Gen.build Ex.realConf Ex.realExt [] Ex.two (some (Ex.fitted0 m)) g0 = (.ok (), g)) :
    ∀ r ∈ g.fcm.arcList, Spec.Fitted (3 / 4) g.fcm r.dest := by
  have hc : CleanReachable (Ex.fitted0 m) := by
    have := CleanReachable.step (.new hm) (op := .assignFitInclination (some (3 / 4))) (m' := Ex.fitted0 m) rfl
    exact this
  have ht : (Ex.fitted0 m).topology = [] := by cases hm; rfl
  intro r hr
  exact C40_given_partial (fun l => .refl _) Ex.two_readable hc ht rfl (by norm_num) (by norm_num) h0 h hr

/-! ### C38: the full claim is false -/

/-- Over ℚ: a run-time environment without floating point columns. -/
def Ex.ext : Ext ℚ :=
  { disc := fun _ _ => .error .valueError, fmt := fun _ => "", trunc := fun _ => .error .valueError, order := id }

/-- The value "a___g" of "f" and the value "a" of "g___f" give the same concept. -/
def Ex.clash : List (String × Column ℚ) := [("f", .strs ["a___g", "b"]), ("g___f", .strs ["a", "c"])]

def Ex.clashRun : Except Err Unit × Gen ℚ :=
  match (Gen.new true : Except Err (Gen ℚ)) with
  | .ok g0 => Gen.build Ex.conf Ex.ext [] Ex.clash none g0
  | .error e => (.error e, ⟨[], [], Ex.sat0⟩)

theorem C38_counterexample : ¬ C38_full ℚ := by
  intro hfull
  have hrun : Ex.clashRun.1.toOption = some () := by decide +kernel
  have hself : (Ex.clashRun.2.fcm.arcList.any fun r => decide (r.origin = r.dest)) = true := by decide +kernel
  obtain ⟨g0, h0⟩ : ∃ g0, (Gen.new true : Except Err (Gen ℚ)) = .ok g0 := ⟨_, rfl⟩
  unfold Ex.clashRun at hrun hself
  rw [h0] at hrun hself
  dsimp only at hrun hself
  obtain ⟨r, hr, he⟩ := List.any_eq_true.1 hself
  refine (hfull Ex.conf Ex.ext [] Ex.clash g0 (Gen.build Ex.conf Ex.ext [] Ex.clash none g0).2
    (fun l => .refl _) (by decide) h0 ?_).1 r hr (of_decide_eq_true he)
  refine Prod.ext ?_ rfl
  generalize (Gen.build Ex.conf Ex.ext [] Ex.clash none g0).1 = e at hrun
  cases e with
  | error e => cases hrun
  | ok u => rfl

/-! ### C39: the full claim is false -/

/-- The features "f" and "_f" share their two concepts. -/
def Ex.shared : List (String × Column ℚ) := [("f", .strs ["a_", "b_"]), ("_f", .strs ["a", "b"])]

def Ex.sharedRun : Except Err Unit × Gen ℚ :=
  match (Gen.new true : Except Err (Gen ℚ)) with
  | .ok g0 => Gen.build Ex.conf Ex.ext [] Ex.shared none g0
  | .error e => (.error e, ⟨[], [], Ex.sat0⟩)

/-- Their exclusion relation is stored twice. -/
theorem C39_counterexample : ¬ C39_full ℚ := by
  intro hfull
  have hrun : Ex.sharedRun.1.toOption = some () := by decide +kernel
  have hlen : 2 ≤ (Ex.sharedRun.2.fcm.arcList.filter fun r => r.origin = "a____f" ∧ r.dest = "b____f").length := by
    decide +kernel
  obtain ⟨g0, h0⟩ : ∃ g0, (Gen.new true : Except Err (Gen ℚ)) = .ok g0 := ⟨_, rfl⟩
  unfold Ex.sharedRun at hrun hlen
  rw [h0] at hrun hlen
  dsimp only at hrun hlen
  have := hfull Ex.conf Ex.ext [] Ex.shared g0 (Gen.build Ex.conf Ex.ext [] Ex.shared none g0).2
    (fun l => .refl _) (by decide) h0 (by
      refine Prod.ext ?_ rfl
      generalize (Gen.build Ex.conf Ex.ext [] Ex.shared none g0).1 = e at hrun
      cases e with
      | error e => cases hrun
      | ok u => rfl) ("f", .strs ["a_", "b_"]) (by simp [Ex.shared]) "a____f" "b____f"
    ⟨.str "a_", by simp [Spec.cells], rfl⟩ ⟨.str "b_", by simp [Spec.cells], rfl⟩ (by decide) (by decide +kernel)
  rw [this] at hlen
  exact absurd hlen (by decide)

end PyFCM
