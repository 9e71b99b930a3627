import Verif.Props.Local
import Verif.Props.Rules
/-
C132: stricter options only leave relations out.
-/
namespace PyFCM
open Arith Spec

set_option linter.unusedSectionVars false

variable {α : Type} [Arith α]

/-- The same configuration with another `causal_threshold`, `double_relation` and `features_relation`. -/
def Spec.limited (cfg : GenConf α) (t : α) (d f : Bool) : GenConf α := { cfg with threshold := t, double := d, featuresRelation := f }

theorem Spec.Readable.limited {cfg : GenConf α} {x : Ext α} {cols : List (String × Column α)} {t : α} {d f : Bool}
    (h : Readable cfg x cols) : Readable (limited cfg t d f) x cols := ⟨h.1, h.2, h.3, h.4, h.5, h.6⟩

/-- A relation that starts in the first feature. -/
def CrossFrom (cfg : GenConf α) (fa fb : Feature α) (r : Arc α) : Prop :=
  (cfg.featuresRelation = true ∨ sameGroup fa fb = false) ∧ ∃ pa ∈ fa.rows, ∃ pb ∈ fb.rows, ∃ pq qp, calcCoef pa.2 pb.2 = some (pq, qp) ∧
    ∃ s w, r = ⟨pb.1, w, pa.1⟩ ∧ relSign cfg pq = .ok s ∧ Goes cfg fa fb pq qp ∧ Weighs cfg s pq w

theorem crossArc_from {cfg : GenConf α} {fa fb : Feature α} {r : Arc α} (hdj : ∀ c, c ∈ fa.names → c ∉ fb.names) (ho : r.origin ∈ fa.names) :
    CrossArc cfg fa fb r ↔ CrossFrom cfg fa fb r := by
  constructor
  · rintro ⟨h1, pa, ha, pb, hb, pq, qp, hc, h2 | ⟨s, w, rfl, -⟩⟩
    · exact ⟨h1, pa, ha, pb, hb, pq, qp, hc, h2⟩
    · exact absurd (mem_names_of_rows hb) (hdj _ ho)
  · rintro ⟨h1, pa, ha, pb, hb, pq, qp, hc, h2⟩
    exact ⟨h1, pa, ha, pb, hb, pq, qp, hc, .inl h2⟩

theorem FeatureOf.unique {cfg : GenConf α} {x : Ext α} {ts : List String} {f : String} {col : Column α} {F F' : Feature α}
    {cs cs' : List (String × ConceptArgs α)} (h : FeatureOf cfg x ts f col F cs) (h' : FeatureOf cfg x ts f col F' cs') :
    F'.type = F.type ∧ F'.desc = F.desc ∧ F'.names = F.names := by
  have k := FeatureOf.kindred (p := (f, col)) (p' := (f, col)) (x' := x) (ts' := ts) rfl (.refl rfl .rfl) h h'
  obtain ⟨ls, e1, e2⟩ := k.labels
  exact ⟨k.type, k.desc, e2.trans e1.symm⟩

section
variable {cfg : GenConf α} {x : Ext α} {ts : List String} {cols : List (String × Column α)} {m0 m0' : FCM α}
  {W W' : List (Work α)} {L L' : List (Arc α)} {g g' : Gen α} {t : α} {d f : Bool}

/-- Both maps relate two columns by the same features. -/
theorem Built.limited [Ordered α] (hmul : ∀ a b : α, a * b = b * a) (hr : Readable cfg x cols) (hB : Built cfg x ts cols m0 W L g)
    (hB' : Built (limited cfg t d f) x ts cols m0' W' L' g') {p q : String × Column α} (hp : p ∈ cols) (hq : q ∈ cols)
    (hne : p.1 ≠ q.1) {r : Arc α} (ho : ConceptOf cfg x p r.origin) (hd : ConceptOf cfg x q r.dest) :
    ∃ F G cs ds, FeatureOf cfg x ts p.1 p.2 F cs ∧ FeatureOf cfg x ts q.1 q.2 G ds ∧ (r ∈ L ↔ CrossFrom cfg F G r) ∧
      (r ∈ L' ↔ CrossFrom (Spec.limited cfg t d f) F G r) := by
  obtain ⟨wp, hwp, ep, hFp⟩ := hB.of_col hp
  obtain ⟨wq, hwq, eq1, hFq⟩ := hB.of_col hq
  obtain ⟨wp', hwp', ep', hFp'⟩ := hB'.of_col hp
  obtain ⟨wq', hwq', eq1', hFq'⟩ := hB'.of_col hq
  have hn : wp.1 ≠ wq.1 := by rw [ep, eq1]; exact hne
  have hn' : wp'.1 ≠ wq'.1 := by rw [ep', eq1']; exact hne
  obtain ⟨a1, a2, a3⟩ := FeatureOf.unique (cfg := cfg) hFp hFp'
  obtain ⟨b1, b2, b3⟩ := FeatureOf.unique (cfg := cfg) hFq hFq'
  have ho1 := (mem_names hFp _).2 ho
  have hd1 := (mem_names hFq _).2 hd
  have hdj := disjoint_names (hB.names_nodup hr) hwp hwq hn
  refine ⟨_, _, _, _, hFp, hFq, ?_, ?_⟩
  · rw [hB.between hmul hr hwp hwq hn ho1 hd1, crossArc_from hdj ho1]
  · rw [hB'.between hmul hr.limited hwp' hwq' hn' (by rw [Work.names, a3]; exact ho1) (by rw [Work.names, b3]; exact hd1)]
    have e1 : wp'.2.1 = wp.2.1 := by
      generalize wp'.2.1 = F' at *
      generalize wp.2.1 = F at *
      cases F; cases F'
      simp_all
    have e2 : wq'.2.1 = wq.2.1 := by
      generalize wq'.2.1 = F' at *
      generalize wq.2.1 = F at *
      cases F; cases F'
      simp_all
    rw [e1, e2, crossArc_from hdj ho1]

end

section learned
variable {cfg : GenConf α} {x : Ext α} {ts : List String} {cols : List (String × Column α)} {given given' : Option (FCM α)}
  {fit fit' : Bool} {g0 g0' g g' : Gen α} {t : α} {d f : Bool}

/-- Between the concepts of two columns. -/
theorem limited_between [Ordered α] (hmul : ∀ a b : α, a * b = b * a) (hx : ∀ l, (x.order l).Perm l) (hr : Readable cfg x cols)
    (hg : ∀ m, given = some m → m.arcList = []) (hg' : ∀ m, given' = some m → m.arcList = []) (h0 : Gen.new fit = .ok g0)
    (h0' : Gen.new fit' = .ok g0') (h : Gen.build cfg x ts cols given g0 = (.ok (), g))
    (h' : Gen.build (limited cfg t d f) x ts cols given' g0' = (.ok (), g')) {p q : String × Column α} (hp : p ∈ cols) (hq : q ∈ cols)
    (hne : p.1 ≠ q.1) {r : Arc α} (ho : ConceptOf cfg x p r.origin) (hd : ConceptOf cfg x q r.dest) :
    ∃ F G cs ds, FeatureOf cfg x ts p.1 p.2 F cs ∧ FeatureOf cfg x ts q.1 q.2 G ds ∧ (r ∈ g.fcm.arcList ↔ CrossFrom cfg F G r) ∧
      (r ∈ g'.fcm.arcList ↔ CrossFrom (limited cfg t d f) F G r) := by
  obtain ⟨m0, h1, h2⟩ := build_from h0 h
  obtain ⟨W, L, hB⟩ := buildFcm_built hx hr.columns h1
  obtain ⟨m0', h1', h2'⟩ := build_from h0' h'
  obtain ⟨W', L', hB'⟩ := buildFcm_built hx hr.columns h1'
  have e : g.fcm.arcList = L := by rw [hB.arcs, start_arcs hg h2]; rfl
  have e' : g'.fcm.arcList = L' := by rw [hB'.arcs, start_arcs hg' h2']; rfl
  rw [e, e']
  exact hB.limited hmul hr hB' hp hq hne ho hd

/-- Inside a column. -/
theorem limited_inside [Ordered α] (hx : ∀ l, (x.order l).Perm l) (hr : Readable cfg x cols)
    (hg : ∀ m, given = some m → m.arcList = []) (h0 : Gen.new fit = .ok g0) (h : Gen.build cfg x ts cols given g0 = (.ok (), g))
    {p : String × Column α} (hp : p ∈ cols) {r : Arc α} (ho : ConceptOf cfg x p r.origin) (hd : ConceptOf cfg x p r.dest) :
    r ∈ g.fcm.arcList ↔ (cfg.exclusion =? lit 0) = false ∧ r.weight = cfg.exclusion ∧ r.origin ≠ r.dest := by
  obtain ⟨m0, h1, h2⟩ := build_from h0 h
  obtain ⟨W, L, hB⟩ := buildFcm_built hx hr.columns h1
  have e : g.fcm.arcList = L := by rw [hB.arcs, start_arcs hg h2]; rfl
  obtain ⟨w, hw, -, hF⟩ := hB.of_col hp
  rw [e]
  exact hB.inside hr hw ((mem_names hF _).2 ho) ((mem_names hF _).2 hd)

theorem learned_ends [Ordered α] (hmul : ∀ a b : α, a * b = b * a) (hx : ∀ l, (x.order l).Perm l) (hr : Readable cfg x cols)
    (hg : ∀ m, given = some m → m.arcList = []) (h0 : Gen.new fit = .ok g0) (h : Gen.build cfg x ts cols given g0 = (.ok (), g))
    {r : Arc α} (hm : r ∈ g.fcm.arcList) : (∃ p ∈ cols, ConceptOf cfg x p r.origin) ∧ ∃ q ∈ cols, ConceptOf cfg x q r.dest :=
  ((C129_drop hmul hx hr (fun _ h => h) hr.columns (fun _ _ => .rfl) hg h0 h0 h h r).1 hm).2

/-- C132: a higher threshold, only one direction or only relations with the targets: relations are left out, the others keep their
weights. -/
theorem C132_fewer [Ordered α] (hmul : ∀ a b : α, a * b = b * a) (hx : ∀ l, (x.order l).Perm l) (hr : Readable cfg x cols)
    (hg : ∀ m, given = some m → m.arcList = []) (hg' : ∀ m, given' = some m → m.arcList = []) (h0 : Gen.new fit = .ok g0)
    (h0' : Gen.new fit' = .ok g0') (h : Gen.build cfg x ts cols given g0 = (.ok (), g))
    (h' : Gen.build (limited cfg t d f) x ts cols given' g0' = (.ok (), g')) (ht : cfg.threshold = t ∨ (cfg.threshold <? t) = true)
    (hd : d = true → cfg.double = true) (hf : f = true → cfg.featuresRelation = true) : ∀ r ∈ g'.fcm.arcList, r ∈ g.fcm.arcList := by
  intro r hm
  obtain ⟨⟨p, hp, ho⟩, q, hq, hq'⟩ := learned_ends hmul hx hr.limited hg' h0' h' hm
  by_cases he : p.1 = q.1
  · have e : q = p := List.inj_on_of_nodup_map hr.columns hq hp he.symm
    subst e
    rw [limited_inside hx hr hg h0 h hp ho hq']
    exact (limited_inside hx hr.limited hg' h0' h' hp ho hq').1 hm
  · obtain ⟨F, G, cs, ds, -, -, e1, e2⟩ := limited_between hmul hx hr hg hg' h0 h0' h h' hp hq he ho hq'
    obtain ⟨k1, pa, ha, pb, hb, pq, qp, hc, s, w, k2, k3, k4, e, v, k5, k6, k7, k8⟩ := e2.1 hm
    refine e1.2 ⟨k1.imp_left hf, pa, ha, pb, hb, pq, qp, hc, s, w, k2, k3, ?_, e, v, k5, ?_, k7, k8⟩
    · unfold Goes at k4 ⊢
      split
      · trivial
      · rename_i hd'
        have : d = false := by
          cases d
          · rfl
          · exact absurd (hd rfl) hd'
        subst this
        exact k4
    · have k6 : (t <? abs e) = true := k6
      rcases ht with rfl | ht
      · exact k6
      · exact (Ordered.lt (α := α)).trans _ _ _ ht k6

/-- C132: without `features_relation` exactly the relations between two inputs or two targets are missing. -/
theorem C132_targets [Ordered α] (hmul : ∀ a b : α, a * b = b * a) (hx : ∀ l, (x.order l).Perm l) (hr : Readable cfg x cols)
    (hg : ∀ m, given = some m → m.arcList = []) (hg' : ∀ m, given' = some m → m.arcList = []) (h0 : Gen.new fit = .ok g0)
    (h0' : Gen.new fit' = .ok g0') (h : Gen.build cfg x ts cols given g0 = (.ok (), g))
    (h' : Gen.build (limited cfg cfg.threshold cfg.double false) x ts cols given' g0' = (.ok (), g')) (r : Arc α) :
    r ∈ g'.fcm.arcList ↔ r ∈ g.fcm.arcList ∧ ∀ p ∈ cols, ∀ q ∈ cols, ConceptOf cfg x p r.origin → ConceptOf cfg x q r.dest →
      p.1 = q.1 ∨ ¬ (p.1 ∈ ts ↔ q.1 ∈ ts) := by
  constructor
  · intro hm
    refine ⟨C132_fewer hmul hx hr hg hg' h0 h0' h h' (.inl rfl) id (fun h => by cases h) r hm, ?_⟩
    intro p hp q hq ho hd
    by_cases he : p.1 = q.1
    · exact .inl he
    · obtain ⟨F, G, cs, ds, hF, hG, -, e2⟩ := limited_between hmul hx hr hg hg' h0 h0' h h' hp hq he ho hd
      rcases (e2.1 hm).1 with k | k
      · cases k
      · rw [← sameGroup_iff hF hG, k]
        exact .inr (by decide)
  · rintro ⟨hm, hs⟩
    obtain ⟨⟨p, hp, ho⟩, q, hq, hd⟩ := learned_ends hmul hx hr hg h0 h hm
    by_cases he : p.1 = q.1
    · have e : q = p := List.inj_on_of_nodup_map hr.columns hq hp he.symm
      subst e
      exact (limited_inside hx hr.limited hg' h0' h' hp ho hd).2 ((limited_inside hx hr hg h0 h hp ho hd).1 hm)
    · obtain ⟨F, G, cs, ds, hF, hG, e1, e2⟩ := limited_between hmul hx hr hg hg' h0 h0' h h' hp hq he ho hd
      refine e2.2 ⟨.inr ?_, (e1.1 hm).2⟩
      have := (hs p hp q hq ho hd).resolve_left he
      rw [← sameGroup_iff hF hG] at this
      simpa using this

/-- C132: with one direction only, between an input and a target exactly the relations towards the target are left. -/
theorem C132_towards [Ordered α] (hmul : ∀ a b : α, a * b = b * a) (hx : ∀ l, (x.order l).Perm l) (hr : Readable cfg x cols)
    (hg : ∀ m, given = some m → m.arcList = []) (hg' : ∀ m, given' = some m → m.arcList = []) (h0 : Gen.new fit = .ok g0)
    (h0' : Gen.new fit' = .ok g0') (hdb : cfg.double = true) (h : Gen.build cfg x ts cols given g0 = (.ok (), g))
    (h' : Gen.build (limited cfg cfg.threshold false cfg.featuresRelation) x ts cols given' g0' = (.ok (), g'))
    {p q : String × Column α} (hp : p ∈ cols) (hq : q ∈ cols) (hpq : ¬ (p.1 ∈ ts ↔ q.1 ∈ ts)) {r : Arc α}
    (ho : ConceptOf cfg x p r.origin) (hd : ConceptOf cfg x q r.dest) :
    r ∈ g'.fcm.arcList ↔ r ∈ g.fcm.arcList ∧ q.1 ∈ ts := by
  have hne : p.1 ≠ q.1 := fun e => hpq (by rw [e])
  obtain ⟨F, G, cs, ds, hF, hG, e1, e2⟩ := limited_between hmul hx hr hg hg' h0 h0' h h' hp hq hne ho hd
  have hs : sameGroup F G = false := by
    rw [← sameGroup_iff hF hG] at hpq
    simpa using hpq
  have hT := isTarget_iff hF
  have goes : ∀ pq qp, Goes (limited cfg cfg.threshold false cfg.featuresRelation) F G pq qp ↔ q.1 ∈ ts := by
    intro pq qp
    unfold Goes
    rw [if_neg (show ¬ (limited cfg cfg.threshold false cfg.featuresRelation).double = true from Bool.false_ne_true), hs,
      if_neg Bool.false_ne_true]
    have : isTarget F = false ↔ p.1 ∉ ts := by rw [← hT]; simp
    rw [this]
    tauto
  rw [e1, e2]
  constructor
  · rintro ⟨k1, pa, ha, pb, hb, pq, qp, hc, s, w, k2, k3, k4, k5⟩
    exact ⟨⟨k1, pa, ha, pb, hb, pq, qp, hc, s, w, k2, k3, by unfold Goes; rw [if_pos hdb]; trivial, k5⟩, (goes pq qp).1 k4⟩
  · rintro ⟨⟨k1, pa, ha, pb, hb, pq, qp, hc, s, w, k2, k3, k4, k5⟩, hq'⟩
    exact ⟨k1, pa, ha, pb, hb, pq, qp, hc, s, w, k2, k3, (goes pq qp).2 hq', k5⟩

/-- C132: a higher threshold leaves out exactly the relations whose evaluation does not exceed it. -/
theorem C132_threshold [Ordered α] [Tallying α] (hx : ∀ l, (x.order l).Perm l) (hr : Readable cfg x cols)
    (hg : ∀ m, given = some m → m.arcList = []) (hg' : ∀ m, given' = some m → m.arcList = []) (h0 : Gen.new fit = .ok g0)
    (h0' : Gen.new fit' = .ok g0') (h : Gen.build cfg x ts cols given g0 = (.ok (), g))
    (h' : Gen.build (limited cfg t d f) x ts cols given' g0' = (.ok (), g')) (ht : cfg.threshold = t ∨ (cfg.threshold <? t) = true)
    (hd : d = cfg.double) (hf : f = cfg.featuresRelation) {p q : String × Column α} (hp : p ∈ cols) (hq : q ∈ cols) (hpq : p.1 ≠ q.1)
    (hdp : p.2.isDiscrete cfg = true) (hdq : q.2.isDiscrete cfg = true) (hl : (cells p.2).length = (cells q.2).length) {u v : Cell α}
    (hu : u ∈ cells p.2) (hv : v ∈ cells q.2) (w : α) :
    (⟨v.text x ++ cfg.separator ++ q.1, w, u.text x ++ cfg.separator ++ p.1⟩ : Arc α) ∈ g'.fcm.arcList ↔
      (⟨v.text x ++ cfg.separator ++ q.1, w, u.text x ++ cfg.separator ++ p.1⟩ : Arc α) ∈ g.fcm.arcList ∧
      ∃ e, Spec.measure cfg.evaluation p.2 q.2 u v = .ok e ∧ (t <? abs e) = true := by
  subst hd hf
  rw [C59_learned hx hr hg h0 h hp hq hpq hdp hdq hl hu hv w]
  refine (C59_learned hx hr.limited hg' h0' h' hp hq hpq hdp hdq hl hu hv w).trans ?_
  constructor
  · rintro ⟨k1, k2, e, c, s, k3, k4, k5⟩
    have k4 : (t <? abs e) = true := k4
    refine ⟨⟨k1, k2, e, c, s, k3, ?_, k5⟩, e, k3, k4⟩
    rcases ht with rfl | ht
    · exact k4
    · exact (Ordered.lt (α := α)).trans _ _ _ ht k4
  · rintro ⟨⟨k1, k2, e, c, s, k3, k4, k5⟩, e', k6, k7⟩
    rw [k3] at k6
    cases k6
    exact ⟨k1, k2, e, c, s, k3, k7, k5⟩

end learned

/-- C132: with the default measures and a minimum support the relations between categorical columns are the association rules of
the table: the share of the rows with both values exceeds the threshold, and the weight is the confidence. -/
theorem C132_support {cfg : GenConf ℝ} {x : Ext ℝ} {ts : List String} {cols : List (String × Column ℝ)} {given : Option (FCM ℝ)}
    {fit : Bool} {g0 g : Gen ℝ} {t : ℝ} (hc : Standard cfg) (ht : 0 ≤ t) (hx : ∀ l, (x.order l).Perm l) (hr : Readable cfg x cols)
    (hg : ∀ m, given = some m → m.arcList = []) (h0 : Gen.new fit = .ok g0)
    (h : Gen.build (limited cfg t true true) x ts cols given g0 = (.ok (), g))
    {p q : String × Column ℝ} (hp : p ∈ cols) (hq : q ∈ cols) (hpq : p.1 ≠ q.1) (hdp : p.2.isDiscrete cfg = true)
    (hdq : q.2.isDiscrete cfg = true) (hl : (cells p.2).length = (cells q.2).length) {u v : Cell ℝ} (hu : u ∈ cells p.2)
    (hv : v ∈ cells q.2) (w : ℝ) :
    (⟨v.text x ++ cfg.separator ++ q.1, w, u.text x ++ cfg.separator ++ p.1⟩ : Arc ℝ) ∈ g.fcm.arcList ↔
      t < together (sideBySide p.2 q.2) u v / (sideBySide p.2 q.2).length ∧
      w = together (sideBySide p.2 q.2) u v / alone (sideBySide p.2 q.2) u := by
  have hN : (0 : ℝ) < (sideBySide p.2 q.2).length := by
    have : alone (sideBySide p.2 q.2) u ≤ (sideBySide p.2 q.2).length := by
      unfold alone
      exact List.countP_le_length
    exact_mod_cast (alone_pos hl hu).trans_le this
  have hs : Spec.measure cfg.evaluation p.2 q.2 u v = .ok ((together (sideBySide p.2 q.2) u v : ℝ) / (sideBySide p.2 q.2).length) := by
    have e2 := tally_all (cells p.2) (cells q.2) u v
    have e3 := together_tally p.2 q.2 u v
    change _ = (sideBySide p.2 q.2).length at e2
    rw [hc.evaluation]
    unfold Spec.measure Relation.supp
    rw [← e2] at hN ⊢
    rw [← e3]
    simp only [real_lit, Int.cast_natCast]
    push_cast at hN ⊢
    rw [real_pdiv, if_neg hN.ne']
  refine (C59_learned hx hr.limited hg h0 h hp hq hpq hdp hdq hl hu hv w).trans ?_
  have key : Learns (limited cfg t true true) ts p q u v w ↔ Learns cfg ts p q u v w ∧
      t < together (sideBySide p.2 q.2) u v / (sideBySide p.2 q.2).length := by
    constructor
    · rintro ⟨k1, k2, e, c, s, k3, k4, k5⟩
      have k4 : (t <? Arith.abs e) = true := k4
      have k3' := k3
      rw [show (limited cfg t true true).evaluation = cfg.evaluation from rfl, hs] at k3'
      cases k3'
      rw [real_lt, real_abs, abs_of_nonneg (by positivity)] at k4
      refine ⟨⟨.inl hc.all, .inl hc.double, _, c, s, hs, ?_, k5⟩, k4⟩
      rw [hc.threshold, real_lt, real_abs, abs_of_nonneg (by positivity)]
      exact ht.trans_lt k4
    · rintro ⟨⟨k1, k2, e, c, s, k3, k4, k5⟩, k6⟩
      rw [hs] at k3
      cases k3
      refine ⟨.inl rfl, .inl rfl, _, c, s, hs, ?_, k5⟩
      show (t <? _) = true
      rw [real_lt, real_abs, abs_of_nonneg (by positivity)]
      exact k6
  rw [key, learns_standard hc]
  constructor
  · rintro ⟨⟨-, k2⟩, k3⟩
    exact ⟨k3, k2⟩
  · rintro ⟨k1, k2⟩
    refine ⟨⟨?_, k2⟩, k1⟩
    rcases Nat.eq_zero_or_pos (together (sideBySide p.2 q.2) u v) with e | e
    · rw [e, Nat.cast_zero, zero_div] at k1
      exact absurd k1 (not_lt.2 ht)
    · exact e

/-! ### Concrete cases -/

namespace Ex

/-- The table of C103, learned with support above 1/2, in one direction, and with relations to the targets only. -/
def genT : Gen ℚ := (Gen.build (limited conf (1/2) true true) ext ["class"] colsA none gen0).2
def genS : Gen ℚ := (Gen.build (limited conf conf.threshold false conf.featuresRelation) ext ["class"] colsA none gen0).2
def genO : Gen ℚ := (Gen.build (limited conf conf.threshold conf.double false) ext ["class"] colsA none gen0).2
theorem genT_fit : Gen.build (limited conf (1/2) true true) ext ["class"] colsA none gen0 = (.ok (), genT) := pair_of _ (by decide +kernel)
theorem genS_fit : Gen.build (limited conf conf.threshold false conf.featuresRelation) ext ["class"] colsA none gen0 = (.ok (), genS) :=
  pair_of _ (by decide +kernel)
theorem genO_fit : Gen.build (limited conf conf.threshold conf.double false) ext ["class"] colsA none gen0 = (.ok (), genO) :=
  pair_of _ (by decide +kernel)

example : ∀ r ∈ genT.fcm.arcList, r ∈ genA.fcm.arcList :=
  C132_fewer mul_comm (fun _ => .refl _) A_readable (given := none) (given' := none) (fun _ h => by cases h) (fun _ h => by cases h)
    gen0_new gen0_new genA_fit genT_fit (.inr (by decide +kernel)) (fun _ => rfl) (fun _ => rfl)
example (r : Arc ℚ) : r ∈ genO.fcm.arcList ↔ r ∈ genA.fcm.arcList ∧ ∀ p ∈ colsA, ∀ q ∈ colsA, ConceptOf conf ext p r.origin →
    ConceptOf conf ext q r.dest → p.1 = q.1 ∨ ¬ (p.1 ∈ ["class"] ↔ q.1 ∈ ["class"]) :=
  C132_targets mul_comm (fun _ => .refl _) A_readable (given := none) (given' := none) (fun _ h => by cases h) (fun _ h => by cases h)
    gen0_new gen0_new genA_fit genO_fit r
example : (⟨"yes___class", 1, "red___color"⟩ : Arc ℚ) ∈ genS.fcm.arcList :=
  (C132_towards mul_comm (fun _ => .refl _) A_readable (given := none) (given' := none) (fun _ h => by cases h) (fun _ h => by cases h)
    gen0_new gen0_new rfl genA_fit genS_fit (p := ("color", .strs ["red", "blue", "red"])) (q := ("class", .strs ["yes", "no", "yes"]))
    (.head _) (.tail _ (.tail _ (.head _))) (by decide) (by unfold ConceptOf; exact ⟨.str "red", by decide, rfl⟩)
    (by unfold ConceptOf; exact ⟨.str "yes", by decide, rfl⟩)).2 ⟨by decide +kernel, by decide⟩

/-- How many relations are left. -/
theorem C132_compare : genA.fcm.arcList.length = 22 ∧ genT.fcm.arcList.length = 8 ∧ genS.fcm.arcList.length = 13 ∧
    genO.fcm.arcList.length = 16 := by
  decide +kernel

/-- "red" and size 1 occur together in one of three rows: related without a threshold, not with 1/2. -/
theorem C132_rare : (⟨"1___size", 1/2, "red___color"⟩ : Arc ℚ) ∈ genA.fcm.arcList ∧
    (⟨"1___size", 1/2, "red___color"⟩ : Arc ℚ) ∉ genT.fcm.arcList ∧ (⟨"yes___class", 1, "red___color"⟩ : Arc ℚ) ∈ genT.fcm.arcList := by
  decide +kernel

example (w : ℚ) : (⟨"1" ++ "___" ++ "size", w, "red" ++ "___" ++ "color"⟩ : Arc ℚ) ∈ genT.fcm.arcList ↔
    (⟨"1" ++ "___" ++ "size", w, "red" ++ "___" ++ "color"⟩ : Arc ℚ) ∈ genA.fcm.arcList ∧
    ∃ e, Spec.measure conf.evaluation (.strs ["red", "blue", "red"]) (.ints [1, 2, 2]) (.str "red") (.int 1) = .ok e ∧
      (1/2 <? Arith.abs e) = true :=
  C132_threshold (fun _ => .refl _) A_readable (given := none) (given' := none) (fun _ h => by cases h) (fun _ h => by cases h)
    gen0_new gen0_new genA_fit genT_fit (.inr (by decide +kernel)) rfl rfl (p := ("color", .strs ["red", "blue", "red"]))
    (.head _) (q := ("size", .ints [1, 2, 2])) (.tail _ (.head _)) (by decide) (by decide +kernel) (by decide +kernel) rfl
    (u := .str "red") (v := .int 1) (by simp [Spec.cells]) (by simp [Spec.cells]) w

/-- The cars of C131 with a minimum support of 1/3: the map is learned; half of the cars are red and of class "True", a quarter are
red and not. -/
example {g0 : Gen ℝ} (h0 : Gen.new true = .ok g0) :
    ∃ g, Gen.build (limited realConf (1/3) true true) realExt ["class"] cars none g0 = (.ok (), g) ∧
    (⟨"True___class", 2 / 3, "red___color"⟩ : Arc ℝ) ∈ g.fcm.arcList ∧ ∀ w, (⟨"False___class", w, "red___color"⟩ : Arc ℝ) ∉ g.fcm.arcList := by
  have hb : ∃ g, Gen.build (limited realConf (1/3) true true) realExt ["class"] cars none g0 = (.ok (), g) := by
    refine C60_default (fun l => .refl _) rfl rfl rfl ?_ ?_ h0
    · intro p hp
      simp only [cars, List.mem_cons, List.not_mem_nil, or_false] at hp
      rcases hp with rfl | rfl <;> rfl
    · intro p hp q hq
      simp only [cars, List.mem_cons, List.not_mem_nil, or_false] at hp hq
      rcases hp with rfl | rfl <;> rcases hq with rfl | rfl <;> rfl
  obtain ⟨g, h⟩ := hb
  have hp : (("color", .strs ["red", "blue", "red", "red"]) : String × Column ℝ) ∈ cars := by simp [cars]
  have hq : (("class", .bools [true, false, true, false]) : String × Column ℝ) ∈ cars := by simp [cars]
  refine ⟨g, h, (C132_support realConf_standard (by norm_num) (fun l => .refl _) cars_readable none_arcs h0 h hp hq (by decide) rfl rfl rfl
      (u := .str "red") (v := .bool true) (by simp [Spec.cells]) (by simp [Spec.cells]) _).2 ?_, fun w hw => ?_⟩
  · simp [together, alone, sideBySide, Spec.cells]
    norm_num
  · have := (C132_support realConf_standard (by norm_num) (fun l => .refl _) cars_readable none_arcs h0 h hp hq (by decide) rfl rfl rfl
      (u := .str "red") (v := .bool false) (by simp [Spec.cells]) (by simp [Spec.cells]) w).1 hw
    simp [together, alone, sideBySide, Spec.cells] at this
    norm_num at this

end Ex

end PyFCM
