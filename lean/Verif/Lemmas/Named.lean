import Verif.Lemmas.Built
import Verif.Props.Counts
import Verif.Props.Names
import Std.Data.String.ToNat
import Std.Data.String.ToInt
/-
When the concept names of a learned map are pairwise different.
-/
namespace PyFCM
open Arith

variable {α : Type} [Arith α]

/-- Feature names and values that can be told apart in a concept name `value ++ separator ++ feature`. -/
structure Spec.Readable (cfg : GenConf α) (x : Ext α) (cols : List (String × Column α)) : Prop where
  /-- no two columns have the same name -/
  columns : (cols.map (·.1)).Nodup
  sep : cfg.separator ≠ ""
  feats : ∀ p ∈ cols, ¬ cfg.separator.toList <:+: p.1.toList
  /-- the separator does not occur too early in the name of a value -/
  values : ∀ p ∈ cols, p.2.isDiscrete cfg = true → ∀ c ∈ Spec.cells p.2,
    ¬ cfg.separator.toList <:+: (c.text x).toList ++ cfg.separator.toList.dropLast
  /-- different numbers of a column are printed differently -/
  floats : ∀ p ∈ cols, p.2.isDiscrete cfg = true → ∀ a b, .float a ∈ Spec.cells p.2 → .float b ∈ Spec.cells p.2 →
    x.fmt a = x.fmt b → a = b
  /-- nor in the name of a cluster -/
  clusters : ∀ p ∈ cols, p.2.isDiscrete cfg = false → ∀ i : Nat,
    ¬ cfg.separator.toList <:+: (toString i).toList ++ cfg.separator.toList.dropLast

/-- The text of a value determines the value within a column. -/
theorem text_inj {x : Ext α} {col : Column α}
    (hf : ∀ a b, .float a ∈ Spec.cells col → .float b ∈ Spec.cells col → x.fmt a = x.fmt b → a = b) {u v : Cell α}
    (hu : u ∈ Spec.cells col) (hv : v ∈ Spec.cells col) (e : u.text x = v.text x) : u = v := by
  cases col with
  | strs xs =>
    obtain ⟨a, -, rfl⟩ := List.mem_map.1 hu
    obtain ⟨b, -, rfl⟩ := List.mem_map.1 hv
    exact congrArg _ e
  | bools xs =>
    obtain ⟨a, -, rfl⟩ := List.mem_map.1 hu
    obtain ⟨b, -, rfl⟩ := List.mem_map.1 hv
    cases a <;> cases b <;> first | rfl | (simp only [Cell.text] at e; exact absurd e (by decide))
  | ints xs =>
    obtain ⟨a, -, rfl⟩ := List.mem_map.1 hu
    obtain ⟨b, -, rfl⟩ := List.mem_map.1 hv
    exact congrArg _ (Int.repr_inj.1 e)
  | floats xs =>
    obtain ⟨a, -, rfl⟩ := List.mem_map.1 hu
    obtain ⟨b, -, rfl⟩ := List.mem_map.1 hv
    exact congrArg _ (hf a b hu hv e)

/-- `c` is the name of a concept made from the column: a value of a categorical column, a cluster of another. -/
def Spec.ConceptOf (cfg : GenConf α) (x : Ext α) (p : String × Column α) (c : String) : Prop :=
  if p.2.isDiscrete cfg then ∃ v ∈ Spec.cells p.2, c = v.text x ++ cfg.separator ++ p.1
  else ∃ n vl memb, x.disc p.1 p.2.asFloats = .ok (n, vl, memb) ∧ ∃ i < n, c = toString i ++ cfg.separator ++ p.1

theorem mem_names [Ordered α] {cfg : GenConf α} {x : Ext α} {ts : List String} {p : String × Column α} {F : Feature α}
    {cs : List (String × ConceptArgs α)} (h : FeatureOf cfg x ts p.1 p.2 F cs) (c : String) :
    c ∈ F.names ↔ Spec.ConceptOf cfg x p c := by
  unfold FeatureOf at h
  unfold Spec.ConceptOf
  split at h
  · rename_i hd
    rw [if_pos hd, h.2.1, List.mem_map]
    simp only [(C35_values p.2).2, nameConcept]
    exact ⟨fun ⟨v, h1, h2⟩ => ⟨v, h1, h2.symm⟩, fun ⟨v, h1, h2⟩ => ⟨v, h1, h2.symm⟩⟩
  · rename_i hd
    obtain ⟨n, vl, memb, hdisc, -, -, hn, -⟩ := h
    rw [if_neg hd, hn, List.mem_map]
    constructor
    · rintro ⟨i, hi, rfl⟩
      exact ⟨n, vl, memb, hdisc, i, List.mem_range.1 hi, rfl⟩
    · rintro ⟨n', vl', memb', hdisc', i, hi, rfl⟩
      rw [hdisc] at hdisc'
      cases hdisc'
      exact ⟨i, List.mem_range.2 hi, rfl⟩

/-- A concept name of a readable column is parsed back. -/
theorem Spec.ConceptOf.parse {cfg : GenConf α} {x : Ext α} {cols : List (String × Column α)}
    (hr : Spec.Readable cfg x cols) {p : String × Column α} (hp : p ∈ cols) {c : String}
    (h : Spec.ConceptOf cfg x p c) : ∃ s, featureAndInfo cfg c = .ok (p.1, s) := by
  unfold Spec.ConceptOf at h
  split at h
  · rename_i hd
    obtain ⟨v, hv, rfl⟩ := h
    exact ⟨_, (C41_parse_partial cfg p.1 (v.text x)).2 ⟨hr.sep, hr.values p hp hd v hv, hr.feats p hp⟩⟩
  · rename_i hd
    obtain ⟨n, vl, memb, -, i, -, rfl⟩ := h
    exact ⟨_, (C41_parse_partial cfg p.1 (toString i)).2
      ⟨hr.sep, hr.clusters p hp (by simpa using hd) i, hr.feats p hp⟩⟩

theorem FeatureOf.nodup [Ordered α] {cfg : GenConf α} {x : Ext α} {ts : List String} {cols : List (String × Column α)}
    (hr : Spec.Readable cfg x cols) {p : String × Column α} (hp : p ∈ cols) {F : Feature α}
    {cs : List (String × ConceptArgs α)} (h : FeatureOf cfg x ts p.1 p.2 F cs) : F.names.Nodup := by
  unfold FeatureOf at h
  split at h
  · rename_i hd
    rw [h.2.1]
    refine List.Nodup.map_on ?_ (C35_values p.2).1
    intro u hu v hv e
    rw [(C35_values p.2).2] at hu hv
    have pu := (C41_parse_partial cfg p.1 (u.text x)).2 ⟨hr.sep, hr.values p hp hd u hu, hr.feats p hp⟩
    have pv := (C41_parse_partial cfg p.1 (v.text x)).2 ⟨hr.sep, hr.values p hp hd v hv, hr.feats p hp⟩
    exact text_inj (hr.floats p hp hd) hu hv (C41_injective cfg _ _ _ _ pu pv e).2
  · rename_i hd
    obtain ⟨n, vl, memb, -, -, -, hn, -⟩ := h
    rw [hn]
    refine List.Nodup.map_on ?_ List.nodup_range
    intro i _ j _ e
    have pi := (C41_parse_partial cfg p.1 (toString i)).2
      ⟨hr.sep, hr.clusters p hp (by simpa using hd) i, hr.feats p hp⟩
    have pj := (C41_parse_partial cfg p.1 (toString j)).2
      ⟨hr.sep, hr.clusters p hp (by simpa using hd) j, hr.feats p hp⟩
    exact Nat.repr_inj.1 (C41_injective cfg _ _ _ _ pi pj e).2

theorem Built.of_work {cfg : GenConf α} {x : Ext α} {ts : List String} {cols : List (String × Column α)} {m0 : FCM α}
    {W : List (Work α)} {L : List (Arc α)} {g : Gen α} (hB : Built cfg x ts cols m0 W L g) {w : Work α} (hw : w ∈ W) :
    ∃ p ∈ cols, w.1 = p.1 ∧ FeatureOf cfg x ts p.1 p.2 w.2.1 w.2.2 := by
  obtain ⟨i, hi, rfl⟩ := List.mem_iff_getElem.1 hw
  have hh := List.forall₂_iff_get.1 hB.feats
  have hi' : i < cols.length := by rw [hh.1]; exact hi
  exact ⟨cols[i], List.getElem_mem hi', hh.2 i hi' hi⟩

theorem Built.of_col {cfg : GenConf α} {x : Ext α} {ts : List String} {cols : List (String × Column α)} {m0 : FCM α}
    {W : List (Work α)} {L : List (Arc α)} {g : Gen α} (hB : Built cfg x ts cols m0 W L g) {p : String × Column α}
    (hp : p ∈ cols) : ∃ w ∈ W, w.1 = p.1 ∧ FeatureOf cfg x ts p.1 p.2 w.2.1 w.2.2 := by
  obtain ⟨i, hi, rfl⟩ := List.mem_iff_getElem.1 hp
  have hh := List.forall₂_iff_get.1 hB.feats
  have hi' : i < W.length := by rw [← hh.1]; exact hi
  exact ⟨W[i], List.getElem_mem hi', hh.2 i hi hi'⟩

/-- The concept names of readable columns are pairwise different. -/
theorem Built.names_nodup [Ordered α] {cfg : GenConf α} {x : Ext α} {ts : List String} {cols : List (String × Column α)}
    {m0 : FCM α} {W : List (Work α)} {L : List (Arc α)} {g : Gen α} (hB : Built cfg x ts cols m0 W L g)
    (hr : Spec.Readable cfg x cols) : (W.flatMap Work.names).Nodup := by
  rw [List.nodup_flatMap]
  constructor
  · intro w hw
    obtain ⟨p, hp, -, hF⟩ := hB.of_work hw
    exact hF.nodup hr hp
  · have hn : (W.map (·.1)).Nodup := by rw [hB.wnames]; exact hr.columns
    rw [List.Nodup, List.pairwise_map] at hn
    refine hn.imp_of_mem ?_
    intro v w hv hw hne c hc hc'
    obtain ⟨p, hp, e, hF⟩ := hB.of_work hv
    obtain ⟨q, hq, e', hF'⟩ := hB.of_work hw
    obtain ⟨s, h1⟩ := ((mem_names hF c).1 hc).parse hr hp
    obtain ⟨t, h2⟩ := ((mem_names hF' c).1 hc').parse hr hq
    rw [h1] at h2
    have := (Prod.mk.inj (Except.ok.inj h2)).1
    exact hne (by rw [e, e', this])

/-- Different columns name different concepts. -/
theorem Built.apart [Ordered α] {cfg : GenConf α} {x : Ext α} {cols : List (String × Column α)}
    (hr : Spec.Readable cfg x cols) {p q : String × Column α} (hp : p ∈ cols) (hq : q ∈ cols) {c : String}
    (h : Spec.ConceptOf cfg x p c) (h' : Spec.ConceptOf cfg x q c) : p.1 = q.1 := by
  obtain ⟨s, h1⟩ := h.parse hr hp
  obtain ⟨t, h2⟩ := h'.parse hr hq
  rw [h1] at h2
  exact (Prod.mk.inj (Except.ok.inj h2)).1

/-- For the default separator it is enough that no column name and no value contains `___` and no value ends in an
underscore. -/
theorem readable_default {cfg : GenConf α} {x : Ext α} {cols : List (String × Column α)} (hs : cfg.separator = "___")
    (hc : (cols.map (·.1)).Nodup) (hf : ∀ p ∈ cols, ¬ "___".toList <:+: p.1.toList)
    (hv : ∀ p ∈ cols, p.2.isDiscrete cfg = true → ∀ c ∈ Spec.cells p.2,
      ¬ "___".toList <:+: (c.text x).toList ∧ (c.text x).toList.getLast? ≠ some '_')
    (hfl : ∀ p ∈ cols, p.2.isDiscrete cfg = true → ∀ a b, .float a ∈ Spec.cells p.2 → .float b ∈ Spec.cells p.2 →
      x.fmt a = x.fmt b → a = b) : Spec.Readable cfg x cols := by
  have conv : ∀ s : String, ¬ "___".toList <:+: s.toList → s.toList.getLast? ≠ some '_' →
      ¬ cfg.separator.toList <:+: s.toList ++ cfg.separator.toList.dropLast := by
    intro s h1 h2
    have := (C41_default_partial cfg hs "" s).2 ⟨h1, h2, by decide⟩
    exact ((C41_parse_partial cfg "" s).1 this).2.1
  refine ⟨hc, by rw [hs]; decide, by rw [hs]; exact hf, fun p hp hd c hm => ?_, hfl, fun p _ _ i => ?_⟩
  · exact conv _ (hv p hp hd c hm).1 (hv p hp hd c hm).2
  · have hdig : '_' ∉ (toString i).toList := by
      rw [show toString i = Nat.repr i from rfl, Nat.toList_repr]
      exact Nat.underscore_not_in_toDigits
    refine conv _ (fun h => hdig (h.subset (by decide))) (fun h => hdig (List.mem_of_getLast? h))

end PyFCM
