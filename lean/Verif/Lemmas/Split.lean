import Verif.Lemmas.JoinDocs
/-
When the name of a relation splits into its two concepts again.
-/
namespace PyFCM

/-- `sep` does not occur in `s`. -/
def Free (sep s : List Char) : Prop := ¬ sep <:+: s

theorem splitAux_skip (sep d : List Char) : ∀ (t : List Char) (acc : List Char),
    splitAux sep (t ++ d) t.length acc = splitAux sep d 0 acc := by
  intro t
  induction t with
  | nil => intro acc; rfl
  | cons c t ih =>
    intro acc
    rw [List.cons_append]
    simp only [splitAux, List.length_cons, gt_iff_lt, Nat.zero_lt_succ, if_true, Nat.add_sub_cancel]
    exact ih acc

theorem splitAux_free {sep : List Char} : ∀ (d acc : List Char), Free sep d →
    splitAux sep d 0 acc = [acc.reverse ++ d] := by
  intro d
  induction d with
  | nil => intro acc _; simp [splitAux]
  | cons c d ih =>
    intro acc h
    have hp : sep.isPrefixOf (c :: d) = false := by
      rw [Bool.eq_false_iff]
      intro hp
      exact h (List.isPrefixOf_iff_prefix.1 hp).isInfix
    simp only [splitAux, gt_iff_lt, Nat.lt_irrefl, if_false, hp, Bool.false_eq_true]
    rw [ih (c :: acc) fun hi => h (hi.trans (List.suffix_cons c d).isInfix)]
    simp

theorem splitAux_first {sep : List Char} (hs : sep ≠ []) (d : List Char) : ∀ (o acc : List Char),
    (∀ r, r ≠ [] → r <:+ o → ¬ sep <+: r ++ (sep ++ d)) →
    splitAux sep (o ++ (sep ++ d)) 0 acc = (acc.reverse ++ o) :: splitAux sep d 0 [] := by
  intro o
  induction o with
  | nil =>
    intro acc _
    obtain ⟨c, sep', rfl⟩ := List.exists_cons_of_ne_nil hs
    rw [List.nil_append, List.cons_append]
    simp only [splitAux, gt_iff_lt, Nat.lt_irrefl, if_false]
    rw [if_pos (by rw [List.isPrefixOf_iff_prefix, ← List.cons_append]; exact List.prefix_append _ _)]
    simp only [List.length_cons, Nat.add_sub_cancel, List.append_nil]
    rw [splitAux_skip]
  | cons c o ih =>
    intro acc h
    rw [List.cons_append]
    have hp : sep.isPrefixOf (c :: (o ++ (sep ++ d))) = false := by
      rw [Bool.eq_false_iff]
      intro hp
      exact h (c :: o) (by simp) (List.suffix_refl _) (List.isPrefixOf_iff_prefix.1 hp)
    simp only [splitAux, gt_iff_lt, Nat.lt_irrefl, if_false, hp, Bool.false_eq_true]
    rw [ih (c :: acc) fun r hr hs => h r hr (hs.trans (List.suffix_cons c o))]
    simp

/-- A name that the separator cannot be confused with: it does not contain the separator and does not end like the
separator without its last blank. -/
structure Separable (s : String) : Prop where
  free : ¬ relSeparator.toList <:+: s.toList
  tail : ¬ relSeparator.toList.dropLast <:+ s.toList

instance (s : String) : Decidable (Separable s) :=
  decidable_of_iff (¬ relSeparator.toList <:+: s.toList ∧ ¬ relSeparator.toList.dropLast <:+ s.toList)
    ⟨fun h => ⟨h.1, h.2⟩, fun h => ⟨h.1, h.2⟩⟩

theorem sep_border : ∀ k : Fin 9, 0 < k.1 →
    relSeparator.toList.drop k.1 = relSeparator.toList.take (9 - k.1) → k.1 = 8 := by decide

theorem separable_early {o : List Char} (h1 : ¬ relSeparator.toList <:+: o)
    (h2 : ¬ relSeparator.toList.dropLast <:+ o) (d r : List Char) (hr : r ≠ []) (hs : r <:+ o) :
    ¬ relSeparator.toList <+: r ++ (relSeparator.toList ++ d) := by
  intro hp
  have hlen : relSeparator.toList.length = 9 := by decide
  by_cases hl : 9 ≤ r.length
  · have : relSeparator.toList <+: r :=
      List.prefix_of_prefix_length_le hp (List.prefix_append _ _) (by omega)
    exact h1 (this.isInfix.trans hs.isInfix)
  · have hpos : 0 < r.length := List.length_pos_iff.2 hr
    obtain ⟨t, ht⟩ := hp
    have e1 : relSeparator.toList.take r.length = r := by
      have := congrArg (List.take r.length) ht
      rw [List.take_left, List.take_append_of_le_length (by omega)] at this
      exact this
    have e2 : relSeparator.toList.drop r.length = relSeparator.toList.take (9 - r.length) := by
      have := congrArg (fun l => (l.drop r.length).take (9 - r.length)) ht
      simp only [List.drop_left] at this
      rw [List.drop_append_of_le_length (by omega), List.take_append_of_le_length (by simp [hlen])] at this
      rw [List.take_append_of_le_length (by omega)] at this
      rw [← this, List.take_of_length_le (by simp [hlen])]
    have := sep_border ⟨r.length, by omega⟩ hpos e2
    simp only at this
    apply h2
    rw [show relSeparator.toList.dropLast = relSeparator.toList.take 8 by decide, ← this, e1]
    exact hs

/-- Names of separable concepts split into the two concepts. -/
theorem pySplit_separable {o d : String} (ho : Separable o) (hd : Separable d) :
    pySplit relSeparator (o ++ relSeparator ++ d) = [o, d] := by
  unfold pySplit
  rw [String.toList_append, String.toList_append, List.append_assoc,
    splitAux_first (by decide) d.toList o.toList [] (separable_early ho.free ho.tail d.toList),
    splitAux_free d.toList [] hd.free]
  simp

end PyFCM
