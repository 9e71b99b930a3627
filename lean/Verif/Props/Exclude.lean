import Verif.Props.Options
/-
C133: the exclusion weight concerns only the values of one column.
-/
namespace PyFCM
open Arith Spec

set_option linter.unusedSectionVars false

variable {α : Type} [Arith α]

/-- The same configuration with another `exclusion_val` (association.py:30). -/
def Spec.excluding (cfg : GenConf α) (e : α) : GenConf α := { cfg with exclusion := e }

theorem Spec.Readable.excluding {cfg : GenConf α} {x : Ext α} {cols : List (String × Column α)} {e : α}
    (h : Readable cfg x cols) : Readable (excluding cfg e) x cols := ⟨h.1, h.2, h.3, h.4, h.5, h.6⟩

section learned
variable {cfg : GenConf α} {x : Ext α} {ts : List String} {cols : List (String × Column α)} {given given' : Option (FCM α)}
  {fit fit' : Bool} {g0 g0' g g' : Gen α} {e : α}

/-- C133: the relations between the values of different columns do not depend on the exclusion weight. -/
theorem C133_between [Ordered α] (hmul : ∀ a b : α, a * b = b * a) (hx : ∀ l, (x.order l).Perm l) (hr : Readable cfg x cols)
    (hg : ∀ m, given = some m → m.arcList = []) (hg' : ∀ m, given' = some m → m.arcList = []) (h0 : Gen.new fit = .ok g0)
    (h0' : Gen.new fit' = .ok g0') (h : Gen.build cfg x ts cols given g0 = (.ok (), g))
    (h' : Gen.build (excluding cfg e) x ts cols given' g0' = (.ok (), g')) {p q : String × Column α} (hp : p ∈ cols) (hq : q ∈ cols)
    (hne : p.1 ≠ q.1) {r : Arc α} (ho : ConceptOf cfg x p r.origin) (hd : ConceptOf cfg x q r.dest) :
    r ∈ g'.fcm.arcList ↔ r ∈ g.fcm.arcList := by
  obtain ⟨m0, h1, h2⟩ := build_from h0 h
  obtain ⟨W, L, hB⟩ := buildFcm_built hx hr.columns h1
  obtain ⟨m0', h1', h2'⟩ := build_from h0' h'
  obtain ⟨W', L', hB'⟩ := buildFcm_built hx hr.columns h1'
  have el : g.fcm.arcList = L := by rw [hB.arcs, start_arcs hg h2]; rfl
  have el' : g'.fcm.arcList = L' := by rw [hB'.arcs, start_arcs hg' h2']; rfl
  rw [el, el']
  obtain ⟨wp, hwp, ep, hFp⟩ := hB.of_col hp
  obtain ⟨wq, hwq, eq1, hFq⟩ := hB.of_col hq
  obtain ⟨wp', hwp', ep', hFp'⟩ := hB'.of_col hp
  obtain ⟨wq', hwq', eq1', hFq'⟩ := hB'.of_col hq
  have hn : wp.1 ≠ wq.1 := by rw [ep, eq1]; exact hne
  have hn' : wp'.1 ≠ wq'.1 := by rw [ep', eq1']; exact hne
  obtain ⟨a1, a2, a3⟩ := FeatureOf.unique (cfg := cfg) hFp hFp'
  obtain ⟨b1, b2, b3⟩ := FeatureOf.unique (cfg := cfg) hFq hFq'
  have ho1 := (mem_names hFp _).2 ho
  have hd1 := (mem_names hFq _).2 hd
  rw [hB.between hmul hr hwp hwq hn ho1 hd1,
    hB'.between hmul hr.excluding hwp' hwq' hn' (by rw [Work.names, a3]; exact ho1) (by rw [Work.names, b3]; exact hd1)]
  have e1 : wp'.2.1 = wp.2.1 := by
    generalize wp'.2.1 = F' at *
    generalize wp.2.1 = F at *
    cases F; cases F'
    simp_all
  have e2 : wq'.2.1 = wq.2.1 := by
    generalize wq'.2.1 = F' at *
    generalize wq.2.1 = F at *
    cases F; cases F'
    simp_all
  rw [e1, e2]
  exact Iff.rfl

/-- C133: any two values of a column exclude each other with the given weight; with weight 0 there is no relation. -/
theorem C133_inside [Ordered α] (hx : ∀ l, (x.order l).Perm l) (hr : Readable cfg x cols)
    (hg' : ∀ m, given' = some m → m.arcList = []) (h0' : Gen.new fit' = .ok g0')
    (h' : Gen.build (excluding cfg e) x ts cols given' g0' = (.ok (), g')) {p : String × Column α} (hp : p ∈ cols) {r : Arc α}
    (ho : ConceptOf cfg x p r.origin) (hd : ConceptOf cfg x p r.dest) :
    r ∈ g'.fcm.arcList ↔ e ≠ lit 0 ∧ r.weight = e ∧ r.origin ≠ r.dest := by
  rw [limited_inside hx hr.excluding hg' h0' h' hp ho hd]
  have : (e =? lit 0) = false ↔ e ≠ lit 0 := by
    rw [Ne, ← (Ordered.eq (α := α) e (lit 0)), Bool.not_eq_true]
  exact and_congr_left fun _ => this

/-- C133: weight 0 takes away exactly the relations inside the columns. -/
theorem C133_zero [Ordered α] (hmul : ∀ a b : α, a * b = b * a) (hx : ∀ l, (x.order l).Perm l) (hr : Readable cfg x cols)
    (hg : ∀ m, given = some m → m.arcList = []) (hg' : ∀ m, given' = some m → m.arcList = []) (h0 : Gen.new fit = .ok g0)
    (h0' : Gen.new fit' = .ok g0') (h : Gen.build cfg x ts cols given g0 = (.ok (), g))
    (h' : Gen.build (excluding cfg (lit 0)) x ts cols given' g0' = (.ok (), g')) (r : Arc α) :
    r ∈ g'.fcm.arcList ↔ r ∈ g.fcm.arcList ∧ ¬ ∃ p ∈ cols, ConceptOf cfg x p r.origin ∧ ConceptOf cfg x p r.dest := by
  constructor
  · intro hm
    have hno : ¬ ∃ p ∈ cols, ConceptOf cfg x p r.origin ∧ ConceptOf cfg x p r.dest := by
      rintro ⟨p, hp, ho, hd⟩
      exact ((C133_inside hx hr hg' h0' h' hp ho hd).1 hm).1 rfl
    obtain ⟨⟨p, hp, ho⟩, q, hq, hd⟩ := learned_ends hmul hx hr.excluding hg' h0' h' hm
    have he : p.1 ≠ q.1 := by
      intro e
      have e : q = p := List.inj_on_of_nodup_map hr.columns hq hp e.symm
      subst e
      exact hno ⟨q, hp, ho, hd⟩
    exact ⟨(C133_between hmul hx hr hg hg' h0 h0' h h' hp hq he ho hd).1 hm, hno⟩
  · rintro ⟨hm, hno⟩
    obtain ⟨⟨p, hp, ho⟩, q, hq, hd⟩ := learned_ends hmul hx hr hg h0 h hm
    have he : p.1 ≠ q.1 := by
      intro e
      have e : q = p := List.inj_on_of_nodup_map hr.columns hq hp e.symm
      subst e
      exact hno ⟨q, hp, ho, hd⟩
    exact (C133_between hmul hx hr hg hg' h0 h0' h h' hp hq he ho hd).2 hm

end learned

/-! ### Concrete cases -/

namespace Ex

/-- The table of C103 learned without exclusion. -/
def genN : Gen ℚ := (Gen.build (excluding conf (lit 0)) ext ["class"] colsA none gen0).2
theorem genN_fit : Gen.build (excluding conf (lit 0)) ext ["class"] colsA none gen0 = (.ok (), genN) := pair_of _ (by decide +kernel)

example (r : Arc ℚ) : r ∈ genN.fcm.arcList ↔
    r ∈ genA.fcm.arcList ∧ ¬ ∃ p ∈ colsA, ConceptOf conf ext p r.origin ∧ ConceptOf conf ext p r.dest :=
  C133_zero mul_comm (fun _ => .refl _) A_readable (given := none) (given' := none) (fun _ h => by cases h) (fun _ h => by cases h)
    gen0_new gen0_new genA_fit genN_fit r

/-- Six exclusions are gone: two for each of the three columns. -/
theorem C133_compare : genA.fcm.arcList.length = 22 ∧ genN.fcm.arcList.length = 16 ∧
    (⟨"blue___color", -1, "red___color"⟩ : Arc ℚ) ∈ genA.fcm.arcList ∧ (⟨"blue___color", -1, "red___color"⟩ : Arc ℚ) ∉ genN.fcm.arcList ∧
    (⟨"yes___class", 1, "red___color"⟩ : Arc ℚ) ∈ genN.fcm.arcList := by
  decide +kernel

end Ex

end PyFCM
