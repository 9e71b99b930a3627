import Verif.Model.Join
import Verif.Lemmas.Dict
/-
What `join_maps` computes on the documents of the maps.
-/
namespace PyFCM
open Arith

set_option linter.unusedSectionVars false

variable {α : Type} [Arith α]

/-! ### Concepts -/

/-- The description of concept `k`. -/
def look (cs : List (ConceptDesc α)) (k : String) : Option (ConceptDesc α) := cs.find? (·.id = k)

theorem look_cons (c : ConceptDesc α) (cs : List (ConceptDesc α)) (k : String) :
    look (c :: cs) k = if c.id = k then some c else look cs k := by
  unfold look
  rw [List.find?_cons]
  by_cases h : c.id = k <;> simp [h]

theorem look_none {cs : List (ConceptDesc α)} {k : String} : look cs k = none ↔ k ∉ cs.map (·.id) := by
  induction cs with
  | nil => simp [look]
  | cons c cs ih =>
    rw [look_cons]
    by_cases h : c.id = k
    · simp [h]
    · simp only [h, if_false, ih, List.map_cons, List.mem_cons, not_or]
      exact ⟨fun x => ⟨Ne.symm h, x⟩, fun x => x.2⟩

theorem look_some {cs : List (ConceptDesc α)} {k : String} {c : ConceptDesc α} (h : look cs k = some c) :
    c ∈ cs ∧ c.id = k := by
  unfold look at h
  exact ⟨List.mem_of_find?_eq_some h, by simpa using List.find?_some h⟩

theorem look_isSome {cs : List (ConceptDesc α)} {k : String} : (look cs k).isSome ↔ k ∈ cs.map (·.id) := by
  have := look_none (cs := cs) (k := k)
  cases h : look cs k with
  | none => simp only [h, true_iff] at this; simp [this]
  | some c => simp only [h, reduceCtorEq, false_iff, Classical.not_not] at this; simp only [Option.isSome_some, true_iff]; exact this

/-- The value of concept `k` in a document. -/
def lookVal (cs : List (ConceptDesc α)) (k : String) : Option α := (look cs k).bind (·.activation)

/-- All concepts are given with their value. -/
def Valued (cs : List (ConceptDesc α)) : Prop := ∀ c ∈ cs, ∃ v, c.activation = some v

theorem nodeSet_get (cs : List (ConceptDesc α)) (d : Dict (ConceptDesc α)) (hn : (cs.map (·.id)).Nodup) (k : String) :
    (nodeSet cs d).get? k = (look cs k).or (d.get? k) := by
  induction cs generalizing d with
  | nil => simp [nodeSet, look]
  | cons c cs ih =>
    simp only [List.map_cons, List.nodup_cons] at hn
    rw [nodeSet, ih _ hn.2, look_cons, Dict.get?_set]
    by_cases h : c.id = k
    · have : look cs k = none := look_none.2 (by rw [← h]; exact hn.1)
      simp [h, this]
    · simp [h]

theorem nodeSet_nodup (cs : List (ConceptDesc α)) (d : Dict (ConceptDesc α)) (hd : d.keys.Nodup) :
    (nodeSet cs d).keys.Nodup := by
  induction cs generalizing d with
  | nil => exact hd
  | cons c cs ih => exact ih _ (Dict.nodup_keys_set _ _ _ hd)

theorem accFirst_ok (cs : List (ConceptDesc α)) (d0 : Dict (Acc α)) (hv : Valued cs) (hn : (cs.map (·.id)).Nodup)
    (hd : d0.keys.Nodup) : ∃ d, accFirst cs d0 = .ok d ∧ d.keys.Nodup ∧
      ∀ k, d.get? k = ((look cs k).bind fun c => c.activation.map fun v => (c, [v])).or (d0.get? k) := by
  induction cs generalizing d0 with
  | nil => exact ⟨d0, rfl, hd, fun k => by simp [look]⟩
  | cons c cs ih =>
    simp only [List.map_cons, List.nodup_cons] at hn
    obtain ⟨v, ev⟩ := hv c (by simp)
    obtain ⟨d, h1, h2, h3⟩ := ih (d0.set c.id (c, [v])) (fun x hx => hv x (by simp [hx])) hn.2
      (Dict.nodup_keys_set _ _ _ hd)
    refine ⟨d, ?_, h2, fun k => ?_⟩
    · simp only [accFirst, ev, need, bind, Except.bind]; exact h1
    · rw [h3, look_cons, Dict.get?_set]
      by_cases h : c.id = k
      · have : look cs k = none := look_none.2 (by rw [← h]; exact hn.1)
        simp [h, this, ev]
      · simp [h]

theorem accUnion_ok (new : Dict (ConceptDesc α)) (d0 : Dict (Acc α)) (hv : ∀ p ∈ new, ∃ v, p.2.activation = some v)
    (hn : new.keys.Nodup) (hd : d0.keys.Nodup) : ∃ d, accUnion new d0 = .ok d ∧ d.keys.Nodup ∧
      ∀ k, d.get? k = ((new.get? k).bind fun c => c.activation.map fun v =>
        match d0.get? k with
        | some (c0, acc) => (c0, acc ++ [v])
        | none => (c, [v])).or (d0.get? k) := by
  induction new generalizing d0 with
  | nil => exact ⟨d0, rfl, hd, fun k => by simp⟩
  | cons p new ih =>
    obtain ⟨k', c⟩ := p
    simp only [Dict.keys_cons, List.nodup_cons] at hn
    obtain ⟨v, ev⟩ := hv (k', c) (by simp)
    simp only at ev
    have hnone : Dict.get? new k' = none := (Dict.get?_eq_none_iff _ _).2 hn.1
    have hstep : ∃ x : Acc α, (match d0.get? k' with
        | some (c0, acc) => d0.set k' (c0, acc ++ [v])
        | none => d0.set k' (c, [v])) = d0.set k' x ∧ x = (match d0.get? k' with
        | some (c0, acc) => (c0, acc ++ [v])
        | none => (c, [v])) := by
      cases d0.get? k' with
      | none => exact ⟨_, rfl, rfl⟩
      | some x => exact ⟨_, rfl, rfl⟩
    obtain ⟨x, e1, e2⟩ := hstep
    obtain ⟨d, h1, h2, h3⟩ := ih (d0.set k' x) (fun p hp => hv p (by simp [hp])) hn.2 (Dict.nodup_keys_set _ _ _ hd)
    refine ⟨d, ?_, h2, fun k => ?_⟩
    · simp only [accUnion, ev, need, bind, Except.bind]
      rw [← h1, ← e1]
      cases d0.get? k' <;> rfl
    · rw [h3, Dict.get?_cons, Dict.get?_set]
      by_cases h : k' = k
      · subst h
        simp [hnone, ev, e2]
      · simp [h]

theorem accInter_ok (new : Dict (ConceptDesc α)) (d0 : Dict (Acc α)) (hv : ∀ p ∈ new, ∃ v, p.2.activation = some v)
    (hd : d0.keys.Nodup) : ∃ d, accInter new d0 = .ok d ∧ d.keys.Sublist d0.keys ∧
      ∀ k, d.get? k = (new.get? k).bind fun c => c.activation.bind fun v =>
        (d0.get? k).map fun x => (x.1, x.2 ++ [v]) := by
  induction d0 with
  | nil => exact ⟨[], rfl, List.Sublist.refl _, fun k => by cases new.get? k <;> simp⟩
  | cons p d0 ih =>
    obtain ⟨k', c0, acc⟩ := p
    simp only [Dict.keys_cons, List.nodup_cons] at hd
    obtain ⟨d, h1, h2, h3⟩ := ih hd.2
    have hnone : d.get? k' = none := (Dict.get?_eq_none_iff _ _).2 fun h => hd.1 (h2.subset h)
    have hnone0 : Dict.get? d0 k' = none := (Dict.get?_eq_none_iff _ _).2 hd.1
    cases hg : new.get? k' with
    | none =>
      refine ⟨d, ?_, h2.cons _, fun k => ?_⟩
      · simp only [accInter, h1, hg, bind, Except.bind, pure, Except.pure]
      · rw [h3, Dict.get?_cons]
        by_cases h : k' = k
        · subst h; simp [hg]
        · simp [h]
    | some c =>
      obtain ⟨v, ev⟩ := hv _ (Dict.get?_mem hg)
      simp only at ev
      refine ⟨(k', (c0, acc ++ [v])) :: d, ?_, ?_, fun k => ?_⟩
      · simp only [accInter, h1, hg, bind, Except.bind, pure, Except.pure, ev, need]
      · exact h2.cons_cons _
      · rw [Dict.get?_cons, h3, Dict.get?_cons]
        by_cases h : k' = k
        · subst h; simp [hg, ev]
        · simp [h]

/-- Concept `k` belongs to the joined concepts. -/
def Member (union : Bool) (D : List (List (ConceptDesc α))) (k : String) : Prop :=
  if union then ∃ cs ∈ D, k ∈ cs.map (·.id) else ∀ cs ∈ D, k ∈ cs.map (·.id)

instance (union : Bool) (D : List (List (ConceptDesc α))) (k : String) : Decidable (Member union D k) := by
  unfold Member; infer_instance

/-- The dictionary accumulated from the documents `D`. -/
structure Joined (union : Bool) (D : List (List (ConceptDesc α))) (J : Dict (Acc α)) : Prop where
  nd : J.keys.Nodup
  get : ∀ k, J.get? k = if Member union D k then (D.findSome? (look · k)).map fun c => (c, D.filterMap (lookVal · k))
    else none

theorem joined_first {cs : List (ConceptDesc α)} (union : Bool) (hv : Valued cs) (hn : (cs.map (·.id)).Nodup) :
    ∃ J, accFirst cs [] = .ok J ∧ Joined union [cs] J := by
  obtain ⟨J, h1, h2, h3⟩ := accFirst_ok cs [] hv hn List.nodup_nil
  refine ⟨J, h1, h2, fun k => ?_⟩
  have hm : Member union [cs] k ↔ k ∈ cs.map (·.id) := by
    unfold Member; cases union <;> simp
  rw [h3]
  cases hl : look cs k with
  | none =>
    have : k ∉ cs.map (·.id) := look_none.1 hl
    simp [hm, this]
  | some c =>
    obtain ⟨hc, rfl⟩ := look_some hl
    obtain ⟨v, ev⟩ := hv c hc
    have : c.id ∈ cs.map (·.id) := List.mem_map_of_mem hc
    rw [if_pos (hm.2 this)]
    simp [hl, ev, lookVal]

theorem member_snoc (union : Bool) (D : List (List (ConceptDesc α))) (cs : List (ConceptDesc α)) (k : String) :
    Member union (D ++ [cs]) k ↔
      if union then Member union D k ∨ k ∈ cs.map (·.id) else Member union D k ∧ k ∈ cs.map (·.id) := by
  unfold Member
  cases union
  · simp only [Bool.false_eq_true, if_false, List.mem_append, List.mem_singleton]
    exact ⟨fun h => ⟨fun c hc => h c (.inl hc), h cs (.inr rfl)⟩,
      fun h c hc => hc.elim (fun hc => h.1 c hc) (fun hc => by rw [hc]; exact h.2)⟩
  · simp only [if_true, List.mem_append, List.mem_singleton]
    constructor
    · rintro ⟨c, hc | rfl, hk⟩
      · exact .inl ⟨c, hc, hk⟩
      · exact .inr hk
    · rintro (⟨c, hc, hk⟩ | hk)
      · exact ⟨c, .inl hc, hk⟩
      · exact ⟨cs, .inr rfl, hk⟩

theorem findSome_none {D : List (List (ConceptDesc α))} {k : String} (h : ¬ Member true D k) :
    D.findSome? (look · k) = none := by
  rw [List.findSome?_eq_none_iff]
  intro cs hcs
  exact look_none.2 fun hk => h (by unfold Member; simp only [if_true]; exact ⟨cs, hcs, hk⟩)

theorem filterMap_none {D : List (List (ConceptDesc α))} {k : String} (h : ¬ Member true D k) :
    D.filterMap (lookVal · k) = [] := by
  rw [List.filterMap_eq_nil_iff]
  intro cs hcs
  unfold lookVal
  rw [look_none.2 fun hk => h (by unfold Member; simp only [if_true]; exact ⟨cs, hcs, hk⟩)]
  rfl

theorem findSome_some {union : Bool} {D : List (List (ConceptDesc α))} {k : String} (hD : D ≠ [])
    (h : Member union D k) : ∃ c, D.findSome? (look · k) = some c := by
  have : ∃ cs ∈ D, k ∈ cs.map (·.id) := by
    unfold Member at h
    cases union
    · obtain ⟨cs, hcs⟩ := List.exists_mem_of_ne_nil D hD
      exact ⟨cs, hcs, by simpa using h cs hcs⟩
    · simpa using h
  obtain ⟨cs, hcs, hk⟩ := this
  have := look_isSome.2 hk
  rw [← Option.isSome_iff_exists, List.findSome?_isSome_iff]
  exact ⟨cs, hcs, this⟩

theorem nodeSet_valued {cs : List (ConceptDesc α)} (hv : Valued cs) (hn : (cs.map (·.id)).Nodup) :
    ∀ p ∈ nodeSet cs [], ∃ v, p.2.activation = some v := by
  intro p hp
  have h := Dict.get?_of_mem (nodeSet_nodup cs [] List.nodup_nil) (k := p.1) (v := p.2) hp
  rw [nodeSet_get cs [] hn, Dict.get?_nil, Option.or_none] at h
  exact hv _ (look_some h).1

theorem joined_step {D : List (List (ConceptDesc α))} {J : Dict (Acc α)} {union : Bool} (hD : D ≠ [])
    (hJ : Joined union D J) {cs : List (ConceptDesc α)} (hv : Valued cs) (hn : (cs.map (·.id)).Nodup) :
    ∃ J', (if union then accUnion (nodeSet cs []) J else accInter (nodeSet cs []) J) = .ok J' ∧
      Joined union (D ++ [cs]) J' := by
  have hnew : ∀ k, (nodeSet cs []).get? k = look cs k := by
    intro k; rw [nodeSet_get cs [] hn, Dict.get?_nil, Option.or_none]
  cases union with
  | true =>
    obtain ⟨J', h1, h2, h3⟩ := accUnion_ok (nodeSet cs []) J (nodeSet_valued hv hn)
      (nodeSet_nodup cs [] List.nodup_nil) hJ.nd
    refine ⟨J', by simpa using h1, h2, fun k => ?_⟩
    rw [h3, hnew, hJ.get]
    simp only [member_snoc, if_true]
    cases hl : look cs k with
    | none =>
      have hk : k ∉ cs.map (·.id) := look_none.1 hl
      simp [hk, List.findSome?_append, List.filterMap_append, lookVal, hl]
    | some c =>
      obtain ⟨hc, rfl⟩ := look_some hl
      obtain ⟨v, ev⟩ := hv c hc
      have hk : c.id ∈ cs.map (·.id) := List.mem_map_of_mem hc
      by_cases hm : Member true D c.id
      · obtain ⟨c0, e0⟩ := findSome_some hD hm
        simp [hm, List.findSome?_append, List.filterMap_append, lookVal, hl, ev, e0]
      · have e1 := findSome_none hm
        have e2 := filterMap_none hm
        rw [if_pos (Or.inr hk), List.filterMap_append, e2]
        simp [hm, List.findSome?_append, lookVal, hl, ev, e1]
  | false =>
    obtain ⟨J', h1, h2, h3⟩ := accInter_ok (nodeSet cs []) J (nodeSet_valued hv hn) hJ.nd
    refine ⟨J', by simpa using h1, hJ.nd.sublist h2, fun k => ?_⟩
    rw [h3, hnew, hJ.get]
    simp only [member_snoc, Bool.false_eq_true, if_false]
    cases hl : look cs k with
    | none =>
      have hk : k ∉ cs.map (·.id) := look_none.1 hl
      simp [hk]
    | some c =>
      obtain ⟨hc, rfl⟩ := look_some hl
      obtain ⟨v, ev⟩ := hv c hc
      have hk : c.id ∈ cs.map (·.id) := List.mem_map_of_mem hc
      by_cases hm : Member false D c.id
      · obtain ⟨c0, e0⟩ := findSome_some hD hm
        rw [if_pos hm, if_pos ⟨hm, hk⟩]
        simp [List.findSome?_append, List.filterMap_append, lookVal, hl, ev, e0]
      · rw [if_neg hm, if_neg (fun h => hm h.1)]
        simp

theorem joined_maps {union : Bool} (ms : List (MapDesc α)) {D : List (List (ConceptDesc α))} {J : Dict (Acc α)}
    (hD : D ≠ []) (hJ : Joined union D J)
    (hms : ∀ m ∈ ms, Valued (m.concepts.getD []) ∧ ((m.concepts.getD []).map (·.id)).Nodup) :
    ∃ J', accMaps union ms J = .ok J' ∧ Joined union (D ++ ms.map (·.concepts.getD [])) J' := by
  induction ms generalizing D J with
  | nil => exact ⟨J, rfl, by simpa using hJ⟩
  | cons m ms ih =>
    obtain ⟨h1, h2⟩ := hms m (by simp)
    obtain ⟨J1, e1, hJ1⟩ := joined_step hD hJ h1 h2
    obtain ⟨J2, e2, hJ2⟩ := ih (by simp) hJ1 fun x hx => hms x (by simp [hx])
    refine ⟨J2, ?_, by simpa using hJ2⟩
    simp only [accMaps]
    rw [← e2]
    cases union
    · simp only [Bool.false_eq_true, if_false] at e1 ⊢
      rw [e1]; rfl
    · simp only [if_true] at e1 ⊢
      rw [e1]; rfl

theorem aggr_ok (a : Aggr) {xs : List α} (h : xs ≠ []) : ∃ v, a.run xs = .ok v := by
  cases xs with
  | nil => exact absurd rfl h
  | cons x xs => cases a <;> exact ⟨_, rfl⟩

/-- The concepts of the joined document. -/
theorem finalConcepts_ok (vs : Aggr) (iz : Bool) (J : Dict (Acc α)) (hne : ∀ p ∈ J, p.2.2 ≠ [])
    (hid : ∀ p ∈ J, p.2.1.id = p.1) :
    ∃ cs, finalConcepts vs iz J = .ok cs ∧ (cs.map (·.id)).Sublist J.keys ∧
      ∀ c', c' ∈ cs ↔ ∃ k c acc v, (k, (c, acc)) ∈ J ∧ vs.run acc = .ok v ∧ ¬ ((v =? lit 0) = true ∧ iz = true) ∧
        c' = { c with activation := some v } := by
  induction J with
  | nil => exact ⟨[], rfl, List.Sublist.refl _, fun c' => by simp⟩
  | cons p J ih =>
    obtain ⟨k, c, acc⟩ := p
    obtain ⟨cs, h1, h2, h3⟩ := ih (fun p hp => hne p (by simp [hp])) fun p hp => hid p (by simp [hp])
    obtain ⟨v, hv⟩ := aggr_ok vs (hne (k, (c, acc)) (by simp))
    have hk : c.id = k := hid (k, (c, acc)) (by simp)
    simp only at hv
    by_cases hz : (v =? lit 0) = true ∧ iz = true
    · refine ⟨cs, ?_, h2.cons _, fun c' => ?_⟩
      · obtain ⟨hz1, rfl⟩ := hz
        simp only [finalConcepts, hv, h1, bind, Except.bind, hz1, if_true, pure, Except.pure]
      · rw [h3]
        constructor
        · rintro ⟨k', c', acc', v', a, b⟩; exact ⟨k', c', acc', v', by simp [a], b⟩
        · rintro ⟨k', c', acc', v', a, b, b', b''⟩
          rcases List.mem_cons.1 a with e | a
          · cases e
            rw [hv] at b; cases b
            exact absurd hz b'
          · exact ⟨k', c', acc', v', a, b, b', b''⟩
    · refine ⟨{ c with activation := some v } :: cs, ?_, ?_, fun c' => ?_⟩
      · simp only [finalConcepts, hv, h1, bind, Except.bind, pure, Except.pure]
        by_cases hv0 : (v =? lit 0) = true
        · have : iz = false := by
            cases iz with
            | false => rfl
            | true => exact absurd ⟨hv0, rfl⟩ hz
          simp [hv0, this]
        · simp [hv0]
      · simp only [List.map_cons, Dict.keys_cons, hk]
        exact h2.cons_cons _
      · rw [List.mem_cons, h3]
        constructor
        · rintro (rfl | ⟨k', c', acc', v', a, b⟩)
          · exact ⟨k, c, acc, v, by simp, hv, hz, rfl⟩
          · exact ⟨k', c', acc', v', by simp [a], b⟩
        · rintro ⟨k', c', acc', v', a, b, b', b''⟩
          rcases List.mem_cons.1 a with e | a
          · cases e
            rw [hv] at b; cases b
            exact .inl b''
          · exact .inr ⟨k', c', acc', v', a, b, b', b''⟩

/-! ### Relations -/

def relName (r : RelDesc α) : String := r.origin ++ relSeparator ++ r.destiny

/-- The weights collected for a name. -/
def named (rs : List (RelDesc α)) (name : String) : List α := (rs.filter (relName · = name)).map (·.weight)

theorem collectRel_nodup (rs : List (RelDesc α)) (d : Dict (List α)) (h : d.keys.Nodup) :
    (collectRel rs d).keys.Nodup := by
  induction rs generalizing d with
  | nil => exact h
  | cons r rs ih =>
    simp only [collectRel]
    apply ih
    split <;> exact Dict.nodup_keys_set _ _ _ h

theorem collectRel_get (rs : List (RelDesc α)) (d : Dict (List α)) (name : String) :
    (collectRel rs d).get? name =
      if named rs name = [] then d.get? name else some ((d.get? name).getD [] ++ named rs name) := by
  induction rs generalizing d with
  | nil => simp [collectRel, named]
  | cons r rs ih =>
    have e : collectRel (r :: rs) d = collectRel rs (d.set (relName r) ((d.get? (relName r)).getD [] ++ [r.weight])) := by
      simp only [collectRel]
      unfold relName
      cases d.get? (r.origin ++ relSeparator ++ r.destiny) <;> rfl
    rw [e, ih, Dict.get?_set]
    by_cases h : relName r = name
    · have h2 : named (r :: rs) name = r.weight :: named rs name := by simp [named, h]
      rw [h2]
      subst h
      by_cases h3 : named rs (relName r) = []
      · simp [h3]
      · simp [h3]
    · have h2 : named (r :: rs) name = named rs name := by simp [named, h]
      rw [h2]
      simp [h]

theorem splitAux_ne (sep s : List Char) (n : Nat) (acc : List Char) : splitAux sep s n acc ≠ [] := by
  induction s generalizing n acc with
  | nil => simp [splitAux]
  | cons c s ih =>
    simp only [splitAux]
    split
    · exact ih _ _
    · split
      · simp
      · exact ih _ _

theorem splitAux_two {sep : List Char} (hs : sep ≠ []) (o d acc : List Char) :
    ∃ x y l, splitAux sep (o ++ (sep ++ d)) 0 acc = x :: y :: l := by
  induction o generalizing acc with
  | nil =>
    obtain ⟨c, sep', rfl⟩ := List.exists_cons_of_ne_nil hs
    rw [List.nil_append, List.cons_append]
    simp only [splitAux, gt_iff_lt, Nat.lt_irrefl, if_false]
    rw [if_pos (by rw [List.isPrefixOf_iff_prefix, ← List.cons_append]; exact List.prefix_append _ _)]
    obtain ⟨y, l, e⟩ := List.exists_cons_of_ne_nil
      (splitAux_ne (c :: sep') (sep' ++ d) ((c :: sep').length - 1) [])
    exact ⟨_, y, l, by rw [e]⟩
  | cons c o ih =>
    rw [List.cons_append]
    simp only [splitAux, gt_iff_lt, Nat.lt_irrefl, if_false]
    split
    · obtain ⟨y, l, e⟩ := List.exists_cons_of_ne_nil (splitAux_ne sep (o ++ (sep ++ d)) (sep.length - 1) [])
      exact ⟨_, y, l, by rw [e]⟩
    · exact ih _

theorem pySplit_two (o d : String) : ∃ x y l, pySplit relSeparator (o ++ relSeparator ++ d) = x :: y :: l := by
  obtain ⟨x, y, l, e⟩ := splitAux_two (sep := relSeparator.toList) (by decide) o.toList d.toList []
  refine ⟨String.ofList x, String.ofList y, l.map String.ofList, ?_⟩
  unfold pySplit
  rw [String.toList_append, String.toList_append, List.append_assoc, e]
  rfl

/-- The relation written for one collected name. -/
def relOf (a : Aggr) (has : String → Bool) (p : String × List α) : Option (RelDesc α) :=
  match pySplit relSeparator p.1 with
  | o :: d :: _ => if has o && has d then (a.run p.2).toOption.map fun w => ⟨o, d, w⟩ else none
  | _ => none

theorem finalRelations_ok (a : Aggr) (J : Dict (Acc α)) (W : Dict (List α))
    (hs : ∀ p ∈ W, ∃ x y l, pySplit relSeparator p.1 = x :: y :: l) (hne : ∀ p ∈ W, p.2 ≠ []) :
    finalRelations a J W = .ok (W.filterMap (relOf a J.has)) := by
  induction W with
  | nil => rfl
  | cons p W ih =>
    obtain ⟨name, ws⟩ := p
    obtain ⟨x, y, l, e⟩ := hs (name, ws) (by simp)
    obtain ⟨w, hw⟩ := aggr_ok a (hne (name, ws) (by simp))
    simp only at e hw
    have ih := ih (fun p hp => hs p (by simp [hp])) fun p hp => hne p (by simp [hp])
    simp only [finalRelations, e, pyIdx, bind, Except.bind]
    by_cases hh : (J.has x && J.has y) = true
    · simp [relOf, e, hh, hw, ih, Except.toOption, pure, Except.pure]
    · simp [relOf, e, hh, ih]

/-- The joined document. -/
theorem joinDescs_ok (union : Bool) (vs rs : Aggr) (iz : Bool) (first : MapDesc α) (rest : List (MapDesc α))
    (hms : ∀ m ∈ first :: rest, Valued (m.concepts.getD []) ∧ ((m.concepts.getD []).map (·.id)).Nodup) :
    ∃ J cs, Joined union ((first :: rest).map (·.concepts.getD [])) J ∧
      (cs.map (·.id)).Sublist J.keys ∧
      (∀ c', c' ∈ cs ↔ ∃ k c acc v, (k, (c, acc)) ∈ J ∧ vs.run acc = .ok v ∧ ¬ ((v =? lit 0) = true ∧ iz = true) ∧
        c' = { c with activation := some v }) ∧
      joinDescs union vs rs iz first rest = .ok { first with
        concepts := some cs
        relations := some ((collectRel ((first :: rest).flatMap fun m => m.relations.getD []) []).filterMap
          (relOf rs J.has)) } := by
  obtain ⟨h1, h2⟩ := hms first (by simp)
  obtain ⟨J1, e1, hJ1⟩ := joined_first union h1 h2
  obtain ⟨J, e2, hJ⟩ := joined_maps rest (by simp) hJ1 fun m hm => hms m (by simp [hm])
  have hJ : Joined union ((first :: rest).map (·.concepts.getD [])) J := hJ
  have hprop : ∀ p ∈ J, p.2.2 ≠ [] ∧ p.2.1.id = p.1 := by
    intro p hp
    have hg := Dict.get?_of_mem hJ.nd (k := p.1) (v := p.2) hp
    rw [hJ.get] at hg
    split at hg
    case isFalse => cases hg
    case isTrue hmem =>
      obtain ⟨c, hc, e⟩ := Option.map_eq_some_iff.1 hg
      rw [← e]
      obtain ⟨cs, hcs, hl⟩ := List.exists_of_findSome?_eq_some hc
      obtain ⟨hc2, hid⟩ := look_some hl
      obtain ⟨m, hm, rfl⟩ := List.mem_map.1 hcs
      obtain ⟨v, hv⟩ := (hms m hm).1 c hc2
      refine ⟨?_, hid⟩
      intro he
      rw [List.filterMap_eq_nil_iff] at he
      have := he _ hcs
      simp [lookVal, hl, hv] at this
  obtain ⟨cs, e3, hsub, hcs⟩ := finalConcepts_ok vs iz J (fun p hp => (hprop p hp).1) fun p hp => (hprop p hp).2
  refine ⟨J, cs, hJ, hsub, hcs, ?_⟩
  generalize hrels : (first :: rest).flatMap (fun m => m.relations.getD []) = rels
  have hW : ∀ p ∈ collectRel rels [], p.2 ≠ [] ∧ ∃ x y l, pySplit relSeparator p.1 = x :: y :: l := by
    intro p hp
    have hg := Dict.get?_of_mem (collectRel_nodup rels [] List.nodup_nil) (k := p.1) (v := p.2) hp
    rw [collectRel_get, Dict.get?_nil] at hg
    split at hg
    case isTrue => cases hg
    case isFalse hne =>
      rw [← Option.some.inj hg]
      simp only [Option.getD_none, List.nil_append]
      refine ⟨hne, ?_⟩
      obtain ⟨w, hw⟩ := List.exists_mem_of_ne_nil _ hne
      unfold named at hw
      obtain ⟨r, hr, -⟩ := List.mem_map.1 hw
      have hr := (List.mem_filter.1 hr).2
      rw [decide_eq_true_eq] at hr
      rw [← hr]
      exact pySplit_two _ _
  have e4 := finalRelations_ok rs J (collectRel rels []) (fun p hp => (hW p hp).2) fun p hp => (hW p hp).1
  unfold joinDescs
  rw [hrels]
  simp only [e1, e2, e3, e4, bind, Except.bind, pure, Except.pure]

end PyFCM
