import Verif.Lemmas.Csv
import Verif.Model.Association
import Verif.Model.ArithInst
/-
Properties of the concept names a learned map uses (association.py:54-55, 249-251).
-/
namespace PyFCM
open Arith

variable {α : Type} [Arith α]

/-! ### Where a split cuts -/

/-- The first piece of a split: either the separator does not occur, or the piece ends where the separator occurs
first. -/
theorem splitAux_head {sep : List Char} (hs : sep ≠ []) : ∀ (s acc p : List Char) (rest : List (List Char)),
    splitAux sep s 0 acc = p :: rest → ∃ q, p = acc.reverse ++ q ∧
      ((rest = [] ∧ s = q ∧ Free sep s) ∨
        ∃ d, s = q ++ (sep ++ d) ∧ rest = splitAux sep d 0 [] ∧
          ∀ r, r ≠ [] → r <:+ q → ¬ sep <+: r ++ (sep ++ d)) := by
  intro s
  induction s with
  | nil =>
    intro acc p rest h
    rw [splitAux, List.cons.injEq] at h
    refine ⟨[], by simp [← h.1], .inl ⟨h.2.symm, rfl, ?_⟩⟩
    intro hi
    exact hs (List.infix_nil.1 hi)
  | cons c s ih =>
    intro acc p rest h
    by_cases hp : sep <+: c :: s
    · obtain ⟨d, hd⟩ := hp
      rw [← hd, splitAux_step hs, List.cons.injEq] at h
      refine ⟨[], by simp [← h.1], .inr ⟨d, by simp [hd], h.2.symm, ?_⟩⟩
      intro r hr hsuf
      exact absurd (List.suffix_nil.1 hsuf) hr
    · have hp' : sep.isPrefixOf (c :: s) = false := by
        rw [Bool.eq_false_iff]; intro hh; exact hp (List.isPrefixOf_iff_prefix.1 hh)
      simp only [splitAux, gt_iff_lt, Nat.lt_irrefl, if_false, hp', Bool.false_eq_true] at h
      obtain ⟨q, hq, hcase⟩ := ih (c :: acc) p rest h
      refine ⟨c :: q, by simp [hq], ?_⟩
      rcases hcase with ⟨h1, h2, h3⟩ | ⟨d, h1, h2, h3⟩
      · refine .inl ⟨h1, by rw [h2], ?_⟩
        intro hi
        rcases List.infix_cons_iff.1 hi with h | h
        · exact hp h
        · exact h3 h
      · refine .inr ⟨d, by rw [h1]; rfl, h2, ?_⟩
        intro r hr hsuf
        rcases List.suffix_cons_iff.1 hsuf with h | h
        · rw [h, List.cons_append, ← h1]; exact hp
        · exact h3 r hr h

/-- The separator does not occur before its own place exactly if the text in front, extended by all but the last
character of the separator, is free of it. -/
theorem early_iff {sep : List Char} (hs : sep ≠ []) (q d : List Char) :
    (∀ r, r ≠ [] → r <:+ q → ¬ sep <+: r ++ (sep ++ d)) ↔ ¬ sep <:+: q ++ sep.dropLast := by
  have hl : 0 < sep.length := List.length_pos_iff.2 hs
  constructor
  · rintro h ⟨s, t, e⟩
    have hlen := congrArg List.length e
    simp only [List.length_append, List.length_dropLast] at hlen
    have hlt : s.length < q.length := by omega
    refine h (q.drop s.length) ?_ (List.drop_suffix _ _) ?_
    · intro h0
      have := congrArg List.length h0
      simp only [List.length_drop, List.length_nil] at this
      omega
    · have e' := congrArg (List.drop s.length) e
      rw [List.append_assoc, List.drop_left, List.drop_append_of_le_length (by omega)] at e'
      refine ⟨t ++ ([sep.getLast hs] ++ d), ?_⟩
      rw [← List.append_assoc, e', List.append_assoc, ← List.append_assoc sep.dropLast,
        List.dropLast_append_getLast]
  · rintro h r hr ⟨w, rfl⟩ hp
    have h0 : 0 < r.length := List.length_pos_iff.2 hr
    have : sep <+: r ++ sep.dropLast := by
      refine List.prefix_of_prefix_length_le hp (l₃ := r ++ (sep ++ d)) ?_ ?_
      · rw [List.prefix_append_right_inj]
        exact (List.dropLast_prefix sep).trans (List.prefix_append _ _)
      · simp only [List.length_append, List.length_dropLast]; omega
    rw [List.append_assoc] at h
    exact h (this.isInfix.trans (List.suffix_append _ _).isInfix)

/-- A text splits into exactly two given pieces. -/
theorem pySplit_two_iff {sep : String} (hs : sep.toList ≠ []) (s v f : String) :
    (∃ rest, pySplit sep s = v :: f :: rest) ∧ s = v ++ sep ++ f ↔
      s = v ++ sep ++ f ∧ ¬ sep.toList <:+: v.toList ++ sep.toList.dropLast ∧ ¬ sep.toList <:+: f.toList := by
  constructor
  · rintro ⟨⟨rest, h⟩, e⟩
    refine ⟨e, ?_⟩
    unfold pySplit at h
    obtain ⟨p, ps, hp⟩ := List.exists_cons_of_ne_nil (splitAux_ne sep.toList s.toList 0 [])
    rw [hp, List.map_cons, List.cons.injEq] at h
    obtain ⟨q, hq, hcase⟩ := splitAux_head hs _ _ _ _ hp
    have hqv : q = v.toList := by rw [← h.1, hq]; simp
    rcases hcase with ⟨h1, _, _⟩ | ⟨d, h1, h2, h3⟩
    · rw [h1] at h; simp at h
    · rw [h2] at h
      rw [hqv] at h1 h3
      rw [e, String.toList_append, String.toList_append, List.append_assoc] at h1
      have hd : d = f.toList := by
        have := List.append_cancel_left h1
        exact (List.append_cancel_left this).symm
      refine ⟨(early_iff hs _ _).1 h3, ?_⟩
      obtain ⟨p2, ps2, hp2⟩ := List.exists_cons_of_ne_nil (splitAux_ne sep.toList d 0 [])
      rw [hp2, List.map_cons, List.cons.injEq] at h
      obtain ⟨q2, hq2, hcase2⟩ := splitAux_head hs _ _ _ _ hp2
      have hqf : q2 = f.toList := by rw [← h.2.1, hq2]; simp
      rcases hcase2 with ⟨_, h2', h3'⟩ | ⟨d2, h1', _, _⟩
      · rw [h2', hqf] at h3'; exact h3'
      · have := congrArg List.length h1'
        rw [hqf, hd] at this
        have hl : 0 < sep.toList.length := List.length_pos_iff.2 hs
        simp only [List.length_append] at this
        omega
  · rintro ⟨e, h1, h2⟩
    refine ⟨⟨[], ?_⟩, e⟩
    unfold pySplit
    rw [e, String.toList_append, String.toList_append, List.append_assoc,
      splitAux_first hs _ _ _ ((early_iff hs v.toList f.toList).2 h1), splitAux_free _ _ h2]
    simp

theorem featureAndInfo_ok {cfg : GenConf α} {c f v : String} (h : featureAndInfo cfg c = .ok (f, v)) :
    cfg.separator.toList ≠ [] ∧ ∃ rest, pySplit cfg.separator c = v :: f :: rest := by
  unfold featureAndInfo at h
  by_cases hs : cfg.separator.toList = []
  · rw [if_pos hs] at h; cases h
  · rw [if_neg hs] at h
    refine ⟨hs, ?_⟩
    rcases hp : pySplit cfg.separator c with _ | ⟨a, _ | ⟨b, rest⟩⟩
    · rw [hp] at h; cases h
    · rw [hp] at h; cases h
    · rw [hp] at h
      have := Except.ok.inj h
      rw [Prod.mk.injEq] at this
      exact ⟨rest, by rw [← this.1, ← this.2]⟩

theorem featureAndInfo_of {cfg : GenConf α} {c f v : String} {rest : List String} (hs : cfg.separator.toList ≠ [])
    (h : pySplit cfg.separator c = v :: f :: rest) : featureAndInfo cfg c = .ok (f, v) := by
  unfold featureAndInfo
  rw [if_neg hs, h]
  rfl

/-! ### C41: names can be parsed back -/

/-- C41 in full: the name of every learned concept gives its feature and value back. -/
def C41_full (α : Type) [Arith α] : Prop :=
  ∀ (cfg : GenConf α) (feat value : String),
    featureAndInfo cfg (nameConcept cfg feat value) = .ok (feat, value)

/-- C41 (what holds): exactly the names in which the separator is not empty, does not occur before its place and does
not occur in the feature name, give feature and value back. -/
theorem C41_parse_partial (cfg : GenConf α) (feat value : String) :
    featureAndInfo cfg (nameConcept cfg feat value) = .ok (feat, value) ↔
      cfg.separator ≠ "" ∧ ¬ cfg.separator.toList <:+: value.toList ++ cfg.separator.toList.dropLast ∧
        ¬ cfg.separator.toList <:+: feat.toList := by
  have hne : cfg.separator ≠ "" ↔ cfg.separator.toList ≠ [] := by
    rw [Ne, Ne, String.toList_eq_nil_iff]
  rw [hne]
  constructor
  · intro h
    obtain ⟨hs, rest, hp⟩ := featureAndInfo_ok h
    exact ⟨hs, ((pySplit_two_iff hs _ value feat).1 ⟨⟨rest, hp⟩, rfl⟩).2⟩
  · rintro ⟨hs, h1, h2⟩
    obtain ⟨⟨rest, hp⟩, _⟩ := (pySplit_two_iff hs _ value feat).2 ⟨rfl, h1, h2⟩
    exact featureAndInfo_of hs hp

/-- C41 for the default separator `___`: the value must not contain it nor end in an underscore, and the feature
name must not contain it. -/
theorem C41_default_partial (cfg : GenConf α) (hsep : cfg.separator = "___") (feat value : String) :
    featureAndInfo cfg (nameConcept cfg feat value) = .ok (feat, value) ↔
      ¬ "___".toList <:+: value.toList ∧ value.toList.getLast? ≠ some '_' ∧ ¬ "___".toList <:+: feat.toList := by
  rw [C41_parse_partial, hsep, show ("___".toList : List Char) = ['_', '_', '_'] by decide]
  have key : ∀ v : List Char, ¬ ['_', '_', '_'] <:+: v ++ ['_', '_', '_'].dropLast ↔
      ¬ ['_', '_', '_'] <:+: v ∧ v.getLast? ≠ some '_' := by
    intro v
    constructor
    · intro h
      refine ⟨fun hi => h (hi.trans (List.prefix_append _ _).isInfix), fun hl => h ?_⟩
      obtain ⟨w, rfl⟩ := List.getLast?_eq_some_iff.1 hl
      exact ⟨w, [], by simp⟩
    · rintro ⟨h1, h2⟩
      rw [← early_iff (by simp) v []]
      rintro r hr ⟨w, rfl⟩ hp
      match r, hr with
      | [a], _ =>
        simp only [List.cons_append, List.nil_append, List.cons_prefix_cons] at hp
        exact h2 (by simp [← hp.1])
      | [a, b], _ =>
        simp only [List.cons_append, List.nil_append, List.cons_prefix_cons] at hp
        exact h2 (by simp [← hp.2.1])
      | a :: b :: c :: r, _ =>
        simp only [List.cons_append, List.cons_prefix_cons] at hp
        obtain ⟨rfl, rfl, rfl, _⟩ := hp
        exact h1 ⟨w, r, by simp⟩
  rw [key]
  simp [and_assoc]

/-- Under the same condition different feature/value pairs have different names. -/
theorem C41_injective (cfg : GenConf α) (f g v w : String)
    (h : featureAndInfo cfg (nameConcept cfg f v) = .ok (f, v))
    (h' : featureAndInfo cfg (nameConcept cfg g w) = .ok (g, w))
    (e : nameConcept cfg f v = nameConcept cfg g w) : f = g ∧ v = w := by
  rw [e, h'] at h
  have := Except.ok.inj h
  rw [Prod.mk.injEq] at this
  exact ⟨this.1.symm, this.2.symm⟩

/-- A generator configuration with the defaults of association.py:30-33. -/
def Ex.conf : GenConf ℚ :=
  { exclusion := -1, causality := fun a b _ _ => pdiv a (a + b), evaluation := fun a b c d => pdiv a (a + b + c + d)
    threshold := 0, signCut := 0 }

/-- Names with underscores inside are fine. -/
example : featureAndInfo Ex.conf (nameConcept Ex.conf "petal_width" "rather__small") =
    .ok ("petal_width", "rather__small") :=
  (C41_default_partial Ex.conf rfl _ _).2 (by decide)

/-- C41 fails for a value that ends in an underscore: the underscore moves to the feature name. -/
theorem C41_counterexample : ¬ C41_full ℚ := by
  intro h
  have := (C41_default_partial Ex.conf rfl "color" "red_").1 (h Ex.conf "color" "red_")
  exact this.2.1 (by decide)

end PyFCM
