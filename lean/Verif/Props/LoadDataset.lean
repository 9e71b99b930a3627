import Verif.Props.Dataset
import Verif.Spec.Recode
import Verif.Model.ArithInst
/-
C98 (recoding by `load_dataset`), C99 (arff files).
-/
namespace PyFCM
open Arith

set_option linter.unusedSectionVars false

variable {α β : Type} [Arith α] [DecidableEq β]

/-! ### Codes -/

theorem factorizeLoop_snd (xs : List β) : ∀ us : List β,
    (factorizeLoop xs us).2 = us ++ (xs.filter fun v => !us.contains v).eraseDups := by
  induction xs with
  | nil => intro us; simp [factorizeLoop]
  | cons x xs ih =>
    intro us
    simp only [factorizeLoop]
    by_cases hx : x ∈ us
    · rw [if_pos hx, List.filter_cons, if_neg (by simp [hx])]
      exact ih us
    · rw [if_neg hx, List.filter_cons, if_pos (by simp [hx])]
      simp only
      rw [ih, List.eraseDups_cons, List.append_assoc, List.singleton_append, List.filter_filter]
      congr 3
      refine List.filter_congr fun y _ => ?_
      by_cases h1 : y ∈ us <;> by_cases h2 : y = x <;> simp [h1, h2]

theorem factorize_snd (xs : List β) : (factorize xs).2 = xs.eraseDups := by
  unfold factorize
  rw [factorizeLoop_snd]
  simp

theorem takeWhile_filter {p : β → Bool} {v : β} (hv : p v = true) (xs : List β) :
    (xs.filter p).takeWhile (fun u => u ≠ v) = (xs.takeWhile fun u => u ≠ v).filter p := by
  induction xs with
  | nil => rfl
  | cons x xs ih =>
    by_cases hx : x = v
    · subst hx
      simp [hv]
    · rw [List.takeWhile_cons, if_pos (by simpa using hx), List.filter_cons, List.filter_cons]
      split
      · rw [List.takeWhile_cons, if_pos (by simpa using hx), ih]
      · exact ih

theorem idxOf_eraseDups (v : β) : ∀ (n : Nat) (xs : List β), xs.length ≤ n → v ∈ xs →
    xs.eraseDups.idxOf v = (xs.takeWhile fun u => u ≠ v).eraseDups.length := by
  intro n
  induction n with
  | zero =>
    intro xs hn hv
    have : xs = [] := List.eq_nil_of_length_eq_zero (by omega)
    subst this
    cases hv
  | succ n ih =>
    intro xs hn hv
    cases xs with
    | nil => cases hv
    | cons x xs =>
      rw [List.eraseDups_cons]
      by_cases hx : x = v
      · subst hx
        simp
      · have hv' : v ∈ xs.filter fun b => !b == x := by
          rw [List.mem_filter]
          refine ⟨(List.mem_cons.1 hv).resolve_left (Ne.symm hx), ?_⟩
          simpa using Ne.symm hx
        have hp : (!v == x) = true := by simpa using Ne.symm hx
        rw [List.idxOf_cons_ne _ hx, ih _ (Nat.le_trans (List.length_filter_le _ _) (by simpa using hn)) hv',
          List.takeWhile_cons, if_pos (by simpa using hx), List.eraseDups_cons, List.length_cons,
          takeWhile_filter (p := fun b => !b == x) hp]

theorem factorizeNa_eq (missing : β → Bool) (c : List β) :
    factorizeNa missing c = (c.map (Spec.code missing c), (c.filter fun v => !missing v).eraseDups) := by
  unfold factorizeNa
  simp only [factorize_snd]
  congr 1
  refine List.map_congr_left fun v hv => ?_
  unfold Spec.code
  split
  · rfl
  · rename_i hm
    have hp : (fun v => !missing v) v = true := by simpa using hm
    rw [idxOf_eraseDups v _ _ (Nat.le_refl _) (List.mem_filter.2 ⟨hv, hp⟩), takeWhile_filter (p := fun v => !missing v) hp]
    rfl

/-- The entries of a column. -/
def recodedColumn (kind : β → ValueKind) (missing : β → Bool) (maxInt : Nat) (factor : α) (c : List β) : List (Entry β) :=
  c.map fun v => if Spec.coded kind missing maxInt factor c then .code (Spec.code missing c v) else .val v

theorem recodeColumn_eq (kind : β → ValueKind) (missing : β → Bool) (maxInt : Nat) (factor : α) {c : List β} (hc : c ≠ []) :
    recodeColumn kind missing maxInt factor c = .ok (recodedColumn kind missing maxInt factor c) := by
  obtain ⟨v, vs, rfl⟩ := List.exists_cons_of_ne_nil hc
  unfold recodeColumn recodedColumn Spec.coded
  simp only [factorizeNa_eq, List.head?_cons, List.length_map]
  have hk : kind v = .text ∨ kind v = .int ∨ kind v = .other := by cases kind v <;> simp
  rcases hk with hk | hk | hk
  · simp [hk, Function.comp_def]
  · simp only [hk, reduceCtorEq, decide_false, decide_true, Bool.false_or, Bool.true_and]
    have hd : ((v :: vs).filter fun v => !missing v).eraseDups.length = Spec.distinct missing (v :: vs) := rfl
    simp only [hd]
    split
    · simp only [List.map_map, Function.comp_def]
    · rfl
  · simp [hk]

theorem recodeAll_eq (kind : β → ValueKind) (missing : β → Bool) (maxInt : Nat) (factor : α) :
    ∀ {d : Dict (List β)}, (∀ p ∈ d, p.2 ≠ []) →
    recodeAll kind missing maxInt factor d = .ok (d.map fun p => (p.1, recodedColumn kind missing maxInt factor p.2))
  | [], _ => rfl
  | (k, c) :: rest, h => by
    unfold recodeAll
    rw [recodeColumn_eq kind missing maxInt factor (h (k, c) (by simp) : c ≠ []),
      recodeAll_eq kind missing maxInt factor fun p hp => h p (by simp [hp])]
    rfl

theorem isColumn_column {rows : List (List β)} {j : Nat} {c : List β} (h : IsColumn rows j c) : Spec.column rows j = c := by
  have h1 : (rows.map (·[j]?)).filterMap id = c := by rw [← h]; simp
  rw [List.filterMap_map] at h1
  exact h1

theorem cols_map {atts : List String} {rows : List (List β)} {d : Dict (List β)} {γ : Type} (hn : atts.Nodup)
    (h : TableCols atts rows d) (f : List β → List γ) (R : List (List γ))
    (hf : ∀ j c, IsColumn rows j c → IsColumn R j (f c)) : TableCols atts R (d.map fun p => (p.1, f p.2)) := by
  have hk : Dict.keys (d.map fun p => (p.1, f p.2)) = atts := by
    rw [← h.keys]; simp [Dict.keys, Function.comp_def]
  refine ⟨hk, fun j a hj => ?_⟩
  obtain ⟨c, hc, hcol⟩ := h.col j a hj
  exact ⟨f c, Dict.get?_of_mem (hk ▸ hn) (List.mem_map.2 ⟨(a, c), Dict.get?_mem hc, rfl⟩), hf j c hcol⟩

theorem finishLoad_table (kind : β → ValueKind) (missing : β → Bool) (recode : Bool) (maxInt : Nat) (factor : α) (name : String)
    {atts : List String} {rows : List (List β)} {d : Dict (List β)} (hn : atts.Nodup) (hne : atts ≠ [])
    (h : TableCols atts rows d) (hr : ∀ r ∈ rows, r.length = atts.length) (h0 : recode = true → rows ≠ []) :
    ∃ f, finishLoad kind missing recode maxInt factor name d = .ok f ∧
      Spec.Table atts (Spec.entries kind missing recode maxInt factor rows).eraseDups f := by
  have fin : ∀ {d' : Dict (List (Entry β))}, TableCols atts (Spec.entries kind missing recode maxInt factor rows) d' →
      (do let f ← dataFrame name d'; return dropDuplicates f : Except Err _) = .ok (dropDuplicates d') ∧
      Spec.Table atts (Spec.entries kind missing recode maxInt factor rows).eraseDups (dropDuplicates d') := by
    intro d' h'
    refine ⟨by rw [dataFrame_cols name hn h']; rfl, table_of_cols (dropDuplicates_cols hn hne h' ?_)⟩
    intro r hr'
    unfold Spec.entries Spec.recoded at hr'
    split at hr' <;> obtain ⟨r', hr'', rfl⟩ := List.mem_map.1 hr' <;> simpa using hr r' hr''
  unfold finishLoad
  cases recode with
  | false =>
    simp only [Bool.false_eq_true, if_false]
    refine ⟨_, fin ?_⟩
    refine cols_map hn h _ _ fun j c hc => ?_
    unfold IsColumn Spec.entries at *
    simp only [Bool.false_eq_true, if_false, List.map_map]
    have := congrArg (List.map (Option.map (Entry.val (β := β)))) hc
    simpa [Function.comp_def] using this
  | true =>
    simp only [if_true]
    rw [recodeAll_eq]
    · refine ⟨_, fin ?_⟩
      refine cols_map hn h _ _ fun j c hc => ?_
      have e := isColumn_column hc
      unfold IsColumn Spec.entries Spec.recoded recodedColumn at *
      simp only [if_true, List.map_map]
      have := congrArg (List.map (Option.map fun v => if Spec.coded kind missing maxInt factor c then
        Entry.code (Spec.code missing c v) else .val v)) hc
      simp only [List.map_map, Function.comp_def, Option.map_some] at this
      simp only [Function.comp_def, List.getElem?_mapIdx, e]
      exact this
    · intro p hp he
      have := mem_col hn h hp
      rw [he] at this
      exact h0 rfl (List.eq_nil_of_length_eq_zero this.symm)

theorem summaryColumn_ok {atts : List String} {rows : List (List β)} {d : Dict (List β)} {last : String}
    (h : TableCols atts rows d) (hl : "class" ∈ atts ∨ last ∈ atts) : ∃ c, summaryColumn d last = .ok c := by
  have hcolumn : ∀ a, a ∈ atts → ∃ c, Dict.get? d a = some c := by
    intro a hm
    obtain ⟨j, hj⟩ := List.mem_iff_getElem?.1 hm
    obtain ⟨c, hc', _⟩ := h.col j a hj
    exact ⟨c, hc'⟩
  unfold summaryColumn
  cases hc : Dict.get? d "class" with
  | some c => exact ⟨c, rfl⟩
  | none =>
    have hn : "class" ∉ atts := by rw [← h.keys]; exact (Dict.get?_eq_none_iff _ _).1 hc
    obtain ⟨c, hc'⟩ := hcolumn _ (hl.resolve_left hn)
    exact ⟨c, by rw [hc']; rfl⟩

/-! ### The extension of a path -/

theorem splitAux_last {c : Char} {b : List Char} (hb : c ∉ b) (d : List Char) : ∀ (a acc : List Char),
    (splitAux [c] (a ++ c :: b) 0 acc).getLastD d = b := by
  have hfree : Free [c] b := by
    rintro ⟨s, t, rfl⟩
    exact hb (by simp)
  intro a
  induction a generalizing d with
  | nil =>
    intro acc
    have hs : splitAux [c] (c :: b) 0 acc = acc.reverse :: splitAux [c] b 0 [] := by simp [splitAux]
    rw [List.nil_append, hs, splitAux_free b [] hfree]
    simp
  | cons x a ih =>
    intro acc
    by_cases hx : x = c
    · subst hx
      have hs : splitAux [x] (x :: (a ++ x :: b)) 0 acc = acc.reverse :: splitAux [x] (a ++ x :: b) 0 [] := by
        simp [splitAux]
      rw [List.cons_append, hs, List.getLastD_cons]
      exact ih _ []
    · have hs : splitAux [c] (x :: (a ++ c :: b)) 0 acc = splitAux [c] (a ++ c :: b) 0 (x :: acc) := by
        simp [splitAux, Ne.symm hx]
      rw [List.cons_append, hs]
      exact ih d _

theorem lastPart_eq {sep : String} {c : Char} (hc : sep.toList = [c]) {s e : String} :
    lastPart sep s = e ↔ c ∉ e.toList ∧ (s = e ∨ ∃ a, s = a ++ sep ++ e) := by
  have plain : ∀ {s : String}, c ∉ s.toList → lastPart sep s = s := by
    intro s hs
    have hfree : Free [c] s.toList := by
      rintro ⟨u, t, h⟩
      exact hs (by rw [← h]; simp)
    unfold lastPart pySplit
    rw [hc, splitAux_free s.toList [] hfree]
    simp
  have after : ∀ {a e : String}, c ∉ e.toList → lastPart sep (a ++ sep ++ e) = e := by
    intro a e he
    have := splitAux_last he [] a.toList []
    unfold lastPart pySplit
    rw [String.toList_append, String.toList_append, hc, List.append_assoc, List.singleton_append]
    obtain ⟨y, l, e'⟩ := List.exists_cons_of_ne_nil (splitAux_ne [c] (a.toList ++ c :: e.toList) 0 [])
    rw [e'] at this ⊢
    rw [List.map_cons, List.getLastD_cons]
    rw [List.getLastD_cons] at this
    rw [List.getLastD_eq_getLast?, List.getLast?_map]
    rw [List.getLastD_eq_getLast?] at this
    cases hl : l.getLast? with
    | none => rw [hl] at this; simp only [Option.map_none, Option.getD_none] at this ⊢; rw [this]; simp
    | some z => rw [hl] at this; simp only [Option.map_some, Option.getD_some] at this ⊢; rw [this]; simp
  constructor
  · rintro rfl
    by_cases hm : c ∈ s.toList
    · obtain ⟨b, a, h1, h2⟩ := List.eq_append_cons_of_mem (List.mem_reverse.2 hm)
      have h3 : s = String.ofList a.reverse ++ sep ++ String.ofList b.reverse := by
        apply String.toList_injective
        have h1 := congrArg List.reverse h1
        rw [List.reverse_reverse] at h1
        rw [h1, String.toList_append, String.toList_append, hc]
        simp
      have h4 : c ∉ (String.ofList b.reverse).toList := by simpa using h2
      rw [h3, after h4]
      exact ⟨h4, .inr ⟨_, rfl⟩⟩
    · rw [plain hm]
      exact ⟨hm, .inl rfl⟩
  · rintro ⟨he, rfl | ⟨a, rfl⟩⟩
    · exact plain he
    · exact after he

theorem extension_eq {path e : String} : lastPart "." (lastPart "/" path) = e ↔ Spec.Extension path e := by
  rw [lastPart_eq (sep := ".") (c := '.') (by decide)]
  unfold Spec.Extension
  obtain ⟨h1, h2⟩ := (lastPart_eq (sep := "/") (c := '/') (by decide) (s := path)).1 rfl
  generalize hn : lastPart "/" path = n at *
  constructor
  · rintro ⟨he, h⟩
    have hs : '/' ∉ e.toList := by
      rcases h with rfl | ⟨a, rfl⟩
      · exact h1
      · intro h; exact h1 (by simp [h])
    refine ⟨⟨he, hs⟩, ?_⟩
    rcases h with rfl | ⟨a, rfl⟩
    · rcases h2 with rfl | ⟨b, rfl⟩
      · exact .inl rfl
      · exact .inr ⟨b, .inr rfl⟩
    · rcases h2 with rfl | ⟨b, rfl⟩
      · exact .inr ⟨a, .inl rfl⟩
      · exact .inr ⟨b ++ "/" ++ a, .inl (by simp only [String.append_assoc])⟩
  · rintro ⟨⟨he, hs⟩, h⟩
    refine ⟨he, ?_⟩
    rw [← hn]
    rcases h with rfl | ⟨a, rfl | rfl⟩
    · exact .inl ((lastPart_eq (sep := "/") (c := '/') (by decide)).2 ⟨hs, .inl rfl⟩)
    · right
      obtain ⟨k1, k2⟩ := (lastPart_eq (sep := "/") (c := '/') (by decide) (s := a)).1 rfl
      refine ⟨lastPart "/" a, (lastPart_eq (sep := "/") (c := '/') (by decide)).2 ⟨?_, ?_⟩⟩
      · simp only [String.toList_append, List.mem_append, not_or]
        exact ⟨⟨k1, by decide⟩, hs⟩
      · rcases k2 with k2 | ⟨b, k2⟩
        · left; rw [← k2]
        · right
          refine ⟨b, ?_⟩
          conv_lhs => rw [k2]
          simp only [String.append_assoc]
    · exact .inl ((lastPart_eq (sep := "/") (c := '/') (by decide)).2 ⟨hs, .inr ⟨a, rfl⟩⟩)

/-! ### C98: csv files -/

/-- C98: a csv file of rectangular rows, with at least one row if the columns are recoded, is loaded; the frame has the
entries of the specification, repeated rows dropped.  (As in C57 there must be a column `class` or a literal.) -/
theorem C98_loads (parse : String → Option β) (text : String → β) (eval : β → Option β) (kind : β → ValueKind)
    (missing : β → Bool) (recode : Bool) (maxInt : Nat) (factor : α) (path header : String) (lines : List String)
    (arff : Option (List String × List (List β))) (atts : List String) (rows : List (List String))
    (hp : Spec.Extension path "csv") (hs : (header :: lines).map pyStrip = header :: lines)
    (hh : Spec.Fields header atts) (hr : List.Forall₂ Spec.Fields lines rows) (hn : atts.Nodup)
    (hrect : ∀ r ∈ rows, r.length = atts.length)
    (hsum : "class" ∈ atts ∨ ∃ r ∈ rows, ∃ f ∈ r, (parse f).isSome) (h0 : recode = true → rows ≠ []) :
    ∃ d, loadDataset parse text eval kind missing recode maxInt factor path ⟨some (header :: lines), arff⟩ = .ok d ∧
      Spec.Table atts (Spec.entries kind missing recode maxInt factor
        (rows.map (List.map fun f => (parse f).getD (text f)))).eraseDups d := by
  have ha := (fields_pySplit _ _).1 hh
  have hrows := fields_rows hr
  obtain ⟨d', last', he, hc, _, hlast⟩ := csvRowsStrict_cols parse text hn lines [] _ "" (cols_empty hn)
    (fun l hl => by rw [← hrect (pySplit "," l) (by rw [hrows]; exact List.mem_map_of_mem hl)])
  have hval : lines.map (fun l => (pySplit "," l).map (fieldValue parse text))
      = rows.map (List.map fun f => (parse f).getD (text f)) := by
    rw [hrows, List.map_map]; rfl
  rw [List.nil_append, hval] at hc
  obtain ⟨c, hcc⟩ := summaryColumn_ok (last := last') hc (by
    rcases hsum with h | ⟨r, hr', f, hf, hp⟩
    · exact .inl h
    · rw [hrows, List.mem_map] at hr'
      obtain ⟨l, hl, rfl⟩ := hr'
      exact .inr (hlast (.inl ⟨l, hl, f, hf, hp⟩)))
  obtain ⟨f, hf1, hf2⟩ := finishLoad_table kind missing recode maxInt factor (lastPart "/" path) hn hh.1 hc (by
    intro r hr'
    obtain ⟨r', hr'', rfl⟩ := List.mem_map.1 hr'
    rw [List.length_map]; exact hrect r' hr'') (by simpa using h0)
  refine ⟨f, ?_, hf2⟩
  unfold loadDataset
  simp only [extension_eq.2 hp]
  have hread : readColumns parse text eval "csv" ⟨some (header :: lines), arff⟩ = .ok (d', last') := by
    unfold readColumns
    rw [if_neg (by decide), if_pos rfl]
    simp only [Option.map_some, hs, ← ha]
    exact he
  rw [hread]
  simp only [hcc]
  exact hf1

/-- C98: a file without rows cannot be recoded. -/
theorem C98_no_rows (parse : String → Option β) (text : String → β) (eval : β → Option β) (kind : β → ValueKind)
    (missing : β → Bool) (maxInt : Nat) (factor : α) (path header : String)
    (arff : Option (List String × List (List β))) (atts : List String)
    (hp : Spec.Extension path "csv") (hs : pyStrip header = header)
    (hh : Spec.Fields header atts) (hn : atts.Nodup) (hcl : "class" ∈ atts) :
    (∃ d, loadDataset parse text eval kind missing false maxInt factor path ⟨some [header], arff⟩ = .ok d) ∧
    ∃ msg, loadDataset parse text eval kind missing true maxInt factor path ⟨some [header], arff⟩ = .error (.exc msg) := by
  constructor
  · obtain ⟨d, h, _⟩ := C98_loads parse text eval kind missing false maxInt factor path header [] arff atts [] hp
      (by simp [hs]) hh .nil hn (by simp) (.inl hcl) (by simp)
    exact ⟨d, h⟩
  · have ha := (fields_pySplit _ _).1 hh
    refine ⟨lastPart "/" path ++ " list index out of range", ?_⟩
    have hread : readColumns parse text eval "csv" ⟨some [header], arff⟩ = .ok (emptyCols atts [], "") := by
      unfold readColumns
      rw [if_neg (by decide), if_pos rfl]
      simp only [Option.map_some, List.map_cons, List.map_nil, hs, ← ha]
      rfl
    obtain ⟨c, hc⟩ := summaryColumn_ok (last := "") (cols_empty (β := β) hn) (.inl hcl)
    unfold loadDataset
    simp only [extension_eq.2 hp, hread, hc]
    change finishLoad kind missing true maxInt factor (lastPart "/" path) (emptyCols atts []) = _
    unfold finishLoad
    rw [emptyCols_append atts [] (by simpa [Dict.keys] using hn)]
    obtain ⟨a, as, rfl⟩ := List.exists_cons_of_ne_nil hh.1
    rfl

theorem code_inj (missing : β → Bool) {c : List β} (hm : ∀ u ∈ c, ∀ v ∈ c, missing u = true → missing v = true → u = v)
    {u v : β} (hu : u ∈ c) (hv : v ∈ c) (h : Spec.code missing c u = Spec.code missing c v) : u = v := by
  have key : ∀ {w : β}, w ∈ c → missing w = false →
      Spec.code missing c w = ((c.filter fun v => !missing v).eraseDups.idxOf w : Int) := by
    intro w hw hmw
    have hp : (fun v => !missing v) w = true := by simpa using hmw
    unfold Spec.code
    rw [if_neg (by simp [hmw]), idxOf_eraseDups w _ _ (Nat.le_refl _) (List.mem_filter.2 ⟨hw, hp⟩),
      takeWhile_filter (p := fun v => !missing v) hp]
    rfl
  cases hmu : missing u with
  | true =>
    cases hmv : missing v with
    | true => exact hm u hu v hv hmu hmv
    | false =>
      rw [key hv hmv] at h
      unfold Spec.code at h
      rw [if_pos hmu] at h
      omega
  | false =>
    cases hmv : missing v with
    | true =>
      rw [key hu hmu] at h
      unfold Spec.code at h
      rw [if_pos hmv] at h
      omega
    | false =>
      rw [key hu hmu, key hv hmv] at h
      have h := Int.ofNat.inj h
      have hu' : u ∈ (c.filter fun v => !missing v).eraseDups := by
        rw [List.mem_eraseDups, List.mem_filter]
        exact ⟨hu, by simpa using hmu⟩
      exact (List.idxOf_inj hu').1 h

/-- C98: recoding keeps different rows different (if there is only one missing value, `None`). -/
theorem C98_distinct (kind : β → ValueKind) (missing : β → Bool) (maxInt : Nat) (factor : α) (rows : List (List β))
    (hm : ∀ u v, missing u = true → missing v = true → u = v) (i k : Nat) (hi : i < rows.length) (hk : k < rows.length) :
    (Spec.recoded kind missing maxInt factor rows)[i]? = (Spec.recoded kind missing maxInt factor rows)[k]? ↔
      rows[i]? = rows[k]? := by
  unfold Spec.recoded
  rw [List.getElem?_map, List.getElem?_map, List.getElem?_eq_getElem hi, List.getElem?_eq_getElem hk]
  simp only [Option.map_some, Option.some.injEq]
  constructor
  · intro h
    apply List.ext_getElem?
    intro j
    have hj := congrArg (fun l => l[j]?) h
    simp only [List.getElem?_mapIdx] at hj
    cases hu : rows[i][j]? with
    | none =>
      rw [hu] at hj
      cases hv : rows[k][j]? with
      | none => rfl
      | some v => rw [hv] at hj; cases hj
    | some u =>
      rw [hu] at hj
      cases hv : rows[k][j]? with
      | none => rw [hv] at hj; cases hj
      | some v =>
        rw [hv] at hj
        simp only [Option.map_some, Option.some.injEq] at hj
        have hmem : ∀ {i : Nat} (hi : i < rows.length) {u : β}, rows[i][j]? = some u → u ∈ Spec.column rows j := by
          intro i hi u hu
          unfold Spec.column
          rw [List.mem_filterMap]
          exact ⟨rows[i], List.getElem_mem hi, hu⟩
        split at hj
        · rw [code_inj missing (fun u _ v _ => hm u v) (hmem hi hu) (hmem hk hv) (Entry.code.inj hj)]
        · rw [Entry.val.inj hj]
  · intro h
    rw [h]

/-! ### C99: arff files and other extensions -/

theorem arffRow_spec (eval : β → Option β) : ∀ (as : List String) (vs : List β) (d : Dict (List β)) (last : String),
    as.length = vs.length → ∃ last', arffRow eval as vs d last =
        .ok (appendRow as (vs.map fun v => (eval v).getD v) d, last') ∧
      ((∀ v ∈ vs, eval v = none) → last' = last) ∧ ((∃ v ∈ vs, (eval v).isSome) → last' ∈ as) ∧
      (last' ∈ as ∨ last' = last) := by
  intro as
  induction as with
  | nil =>
    intro vs d last hl
    have : vs = [] := List.eq_nil_of_length_eq_zero hl.symm
    subst this
    exact ⟨last, rfl, fun _ => rfl, by simp, .inr rfl⟩
  | cons a as ih =>
    intro vs d last hl
    cases vs with
    | nil => simp at hl
    | cons v vs =>
      unfold arffRow
      cases hv : eval v with
      | some w =>
        obtain ⟨last', h1, h2, h3, h4⟩ := ih vs (d.modify a (· ++ [w])) a (by simpa using hl)
        have hin : last' ∈ a :: as := by
          rcases h4 with h4 | h4
          · exact List.mem_cons_of_mem _ h4
          · rw [h4]; exact List.mem_cons_self ..
        refine ⟨last', by simpa [appendRow, hv] using h1, ?_, fun _ => hin, .inl hin⟩
        intro hall
        have := hall v (by simp)
        rw [hv] at this
        cases this
      | none =>
        obtain ⟨last', h1, h2, h3, h4⟩ := ih vs (d.modify a (· ++ [v])) last (by simpa using hl)
        refine ⟨last', by simpa [appendRow, hv] using h1, fun hall => h2 fun u hu => hall u (by simp [hu]), ?_, ?_⟩
        · rintro ⟨u, hu, hs⟩
          rcases List.mem_cons.1 hu with rfl | hu
          · rw [hv] at hs; cases hs
          · exact List.mem_cons_of_mem _ (h3 ⟨u, hu, hs⟩)
        · rcases h4 with h4 | h4
          · exact .inl (List.mem_cons_of_mem _ h4)
          · exact .inr h4

theorem arffRow_short (eval : β → Option β) : ∀ (as : List String) (vs : List β) (d : Dict (List β)) (last : String),
    vs.length < as.length → arffRow eval as vs d last = .error .indexError := by
  intro as
  induction as with
  | nil => intro vs d last hl; simp at hl
  | cons a as ih =>
    intro vs d last hl
    cases vs with
    | nil => rfl
    | cons v vs =>
      unfold arffRow
      split <;> exact ih _ _ _ (by simpa using hl)

theorem arffRows_cols (eval : β → Option β) {atts : List String} (hn : atts.Nodup) :
    ∀ (rs rows : List (List β)) (d : Dict (List β)) (last : String), TableCols atts rows d →
    (∀ r ∈ rs, r.length = atts.length) →
    ∃ d' last', arffRows eval atts rs d last = .ok (d', last') ∧
      TableCols atts (rows ++ rs.map (List.map fun v => (eval v).getD v)) d' ∧
      ((∀ r ∈ rs, ∀ v ∈ r, eval v = none) → last' = last) ∧
      ((∃ r ∈ rs, ∃ v ∈ r, (eval v).isSome) ∨ last ∈ atts → last' ∈ atts) := by
  intro rs
  induction rs with
  | nil =>
    intro rows d last h _
    exact ⟨d, last, rfl, by simpa using h, fun _ => rfl, fun h => by simpa using h⟩
  | cons r rs ih =>
    intro rows d last h hall
    have hl := hall r (by simp)
    obtain ⟨l1, s0, s1, s2, s3⟩ := arffRow_spec eval atts r d last hl.symm
    obtain ⟨d', last', he, hc, hp, hq⟩ := ih _ _ l1 (appendRow_cols hn h (r := r.map fun v => (eval v).getD v)
      (by simpa using hl.symm)) (fun r' hr' => hall r' (by simp [hr']))
    refine ⟨d', last', ?_, by simpa using hc, ?_, ?_⟩
    · unfold arffRows
      rw [s0]
      exact he
    · intro hnone
      rw [hp fun r' hr' => hnone r' (by simp [hr']), s1 (hnone r (by simp))]
    · have hlast : l1 ∈ atts ∨ l1 = last := s3
      rintro (⟨r', hr', v, hv, hs⟩ | hm)
      · rcases List.mem_cons.1 hr' with rfl | hr'
        · exact hq (.inr (s2 ⟨v, hv, hs⟩))
        · exact hq (.inl ⟨r', hr', v, hv, hs⟩)
      · exact hq (.inr (hlast.elim id fun e => e ▸ hm))

theorem arffRows_short (eval : β → Option β) {atts : List String} :
    ∀ (rs : List (List β)) (d : Dict (List β)) (last : String), (∃ r ∈ rs, r.length < atts.length) →
    (∀ r ∈ rs, r.length ≤ atts.length) → ∃ e, arffRows eval atts rs d last = .error e := by
  intro rs
  induction rs with
  | nil => intro d last h; simp at h
  | cons r rs ih =>
    intro d last h hle
    unfold arffRows
    by_cases hl : r.length < atts.length
    · rw [arffRow_short eval atts r d last hl]
      exact ⟨_, rfl⟩
    · obtain ⟨l1, s0, _⟩ := arffRow_spec eval atts r d last (Nat.le_antisymm (by omega) (hle r (by simp)))
      rw [s0]
      obtain ⟨r', hr', hlt⟩ := h
      rcases List.mem_cons.1 hr' with rfl | hr'
      · exact absurd hlt hl
      · exact ih _ _ ⟨r', hr', hlt⟩ fun r'' h'' => hle r'' (by simp [h''])

/-- C99 as stated: every decoded arff file with different names and complete rows is loaded. -/
def C99_full (α β : Type) [Arith α] [DecidableEq β] : Prop :=
  ∀ (parse : String → Option β) (text : String → β) (eval : β → Option β) (kind : β → ValueKind) (missing : β → Bool)
    (maxInt : Nat) (factor : α) (path : String) (lines : List String) (atts : List String) (rows : List (List β)),
    Spec.Extension path "arff" → atts.Nodup → atts ≠ [] → (∀ r ∈ rows, r.length = atts.length) →
    ∃ d, loadDataset parse text eval kind missing false maxInt factor path ⟨some lines, some (atts, rows)⟩ = .ok d ∧
      Spec.Table atts (rows.map (List.map fun v => Entry.val ((eval v).getD v))).eraseDups d

/-- C99, proved form, for every choice of recoding: the file is loaded if there is a column called `class` or some value
is text that reads as a literal.  Missing from the full claim: without either the summary raises `KeyError`. -/
theorem C99_loads_partial (parse : String → Option β) (text : String → β) (eval : β → Option β) (kind : β → ValueKind)
    (missing : β → Bool) (recode : Bool) (maxInt : Nat) (factor : α) (path : String) (lines : List String)
    (atts : List String) (rows : List (List β)) (hp : Spec.Extension path "arff") (hn : atts.Nodup) (hne : atts ≠ [])
    (hrect : ∀ r ∈ rows, r.length = atts.length)
    (hsum : "class" ∈ atts ∨ ∃ r ∈ rows, ∃ v ∈ r, (eval v).isSome) (h0 : recode = true → rows ≠ []) :
    ∃ d, loadDataset parse text eval kind missing recode maxInt factor path ⟨some lines, some (atts, rows)⟩ = .ok d ∧
      Spec.Table atts (Spec.entries kind missing recode maxInt factor
        (rows.map (List.map fun v => (eval v).getD v))).eraseDups d := by
  obtain ⟨d', last', he, hc, _, hlast⟩ := arffRows_cols eval hn rows [] _ "" (cols_empty hn) hrect
  rw [List.nil_append] at hc
  obtain ⟨c, hcc⟩ := summaryColumn_ok (last := last') hc (hsum.imp_right fun h => hlast (.inl h))
  obtain ⟨f, hf1, hf2⟩ := finishLoad_table kind missing recode maxInt factor (lastPart "/" path) hn hne hc (by
    intro r hr'
    obtain ⟨r', hr'', rfl⟩ := List.mem_map.1 hr'
    rw [List.length_map]; exact hrect r' hr'') (by simpa using h0)
  refine ⟨f, ?_, hf2⟩
  unfold loadDataset
  simp only [extension_eq.2 hp]
  have hread : readColumns parse text eval "arff" ⟨some lines, some (atts, rows)⟩ = .ok (d', last') := by
    unfold readColumns
    rw [if_pos rfl]
    exact he
  rw [hread]
  simp only [hcc]
  exact hf1

/-- C99: without a column `class` and without such a value nothing is loaded; numbers do not count. -/
theorem C99_numbers (parse : String → Option β) (text : String → β) (eval : β → Option β) (kind : β → ValueKind)
    (missing : β → Bool) (recode : Bool) (maxInt : Nat) (factor : α) (path : String) (lines : List String)
    (atts : List String) (rows : List (List β)) (hp : Spec.Extension path "arff") (hn : atts.Nodup)
    (hrect : ∀ r ∈ rows, r.length = atts.length) (hclass : "class" ∉ atts) (hempty : "" ∉ atts)
    (hnone : ∀ r ∈ rows, ∀ v ∈ r, eval v = none) :
    loadDataset parse text eval kind missing recode maxInt factor path ⟨some lines, some (atts, rows)⟩
      = .error (.keyError "") := by
  obtain ⟨d', last', he, hc, hl, _⟩ := arffRows_cols eval hn rows [] _ "" (cols_empty hn) hrect
  have hl := hl hnone
  subst hl
  have h1 : Dict.get? d' "class" = none := (Dict.get?_eq_none_iff _ _).2 (by rw [hc.keys]; exact hclass)
  have h2 : Dict.get? d' "" = none := (Dict.get?_eq_none_iff _ _).2 (by rw [hc.keys]; exact hempty)
  unfold loadDataset
  simp only [extension_eq.2 hp]
  have hread : readColumns parse text eval "arff" ⟨some lines, some (atts, rows)⟩ = .ok (d', "") := by
    unfold readColumns
    rw [if_pos rfl]
    exact he
  rw [hread]
  simp only [summaryColumn, h1, h2, need]
  rfl

/-- C99: a path with another extension, a file that cannot be opened or decoded, an empty csv file, a csv file with a row
of another length and an arff file with an incomplete row are rejected as "Unknown dataset format". -/
theorem C99_rejects (parse : String → Option β) (text : String → β) (eval : β → Option β) (kind : β → ValueKind)
    (missing : β → Bool) (recode : Bool) (maxInt : Nat) (factor : α) (path e : String) (file : DataFile β)
    (hp : Spec.Extension path e)
    (h : (e ≠ "csv" ∧ e ≠ "arff") ∨ file.lines = none ∨ (e = "arff" ∧ file.arff = none) ∨
      (e = "csv" ∧ file.lines = some []) ∨
      (e = "csv" ∧ ∃ header lines atts rows, file.lines = some (header :: lines) ∧
        (header :: lines).map pyStrip = header :: lines ∧ Spec.Fields header atts ∧
        List.Forall₂ Spec.Fields lines rows ∧ ∃ r ∈ rows, r.length ≠ atts.length) ∨
      (e = "arff" ∧ ∃ atts rows, file.arff = some (atts, rows) ∧ (∃ r ∈ rows, r.length < atts.length) ∧
        ∀ r ∈ rows, r.length ≤ atts.length)) :
    loadDataset parse text eval kind missing recode maxInt factor path file = .error (.exc "Unknown dataset format") := by
  suffices hs : ∃ err, readColumns parse text eval e file = .error err by
    obtain ⟨err, hs⟩ := hs
    unfold loadDataset
    simp only [extension_eq.2 hp, hs]
  unfold readColumns
  rcases h with ⟨h1, h2⟩ | h | ⟨rfl, h⟩ | ⟨rfl, h⟩ | ⟨rfl, header, lines, atts, rows, h, hs, hh, hr, r, hm, hne⟩ |
    ⟨rfl, atts, rows, h, hx, hle⟩
  · rw [if_neg h2, if_neg h1]; exact ⟨_, rfl⟩
  · rw [h]
    split
    · exact ⟨_, rfl⟩
    · split
      · exact ⟨_, rfl⟩
      · exact ⟨_, rfl⟩
  · rw [if_pos rfl, h]
    cases file.lines <;> exact ⟨_, rfl⟩
  · rw [if_neg (by decide), if_pos rfl, h]; exact ⟨_, rfl⟩
  · rw [if_neg (by decide), if_pos rfl, h]
    have ha := (fields_pySplit _ _).1 hh
    have hrows := fields_rows hr
    simp only [Option.map_some, hs, ← ha]
    rw [hrows, List.mem_map] at hm
    obtain ⟨l, hl, rfl⟩ := hm
    exact ⟨_, csvRowsStrict_ragged parse text lines _ "" ⟨l, hl, hne⟩⟩
  · rw [if_pos rfl, h]
    cases file.lines with
    | none => exact ⟨_, rfl⟩
    | some l => exact arffRows_short eval rows _ _ hx hle

/-! ### Agreement with the model used for C57 -/

theorem rowAt_map {γ : Type} (f : β → γ) (d : Dict (List β)) (i : Nat) :
    rowAt (d.map fun p => (p.1, p.2.map f)) i = (rowAt d i).map (Option.map f) := by
  simp [rowAt, Function.comp_def]

theorem dropDuplicates_map {γ : Type} [DecidableEq γ] {f : β → γ} (hf : ∀ a b, f a = f b → a = b) (d : Dict (List β)) :
    dropDuplicates (d.map fun p => (p.1, p.2.map f)) = (dropDuplicates d).map fun p => (p.1, p.2.map f) := by
  have hlen : frameLen (d.map fun p => (p.1, p.2.map f)) = frameLen d := by
    cases d with
    | nil => rfl
    | cons p rest => simp [frameLen]
  have hinj : ∀ a b : List (Option β), a.map (Option.map f) = b.map (Option.map f) → a = b := by
    intro a b h
    refine (List.map_inj_right fun x y hxy => ?_).1 h
    cases x with
    | none => cases y with
      | none => rfl
      | some y => cases hxy
    | some x => cases y with
      | none => cases hxy
      | some y => rw [hf x y (Option.some.inj hxy)]
  have hkeep : ∀ i, (rowAt (d.map fun p => (p.1, p.2.map f)) i ∈
      (List.range i).map (rowAt (d.map fun p => (p.1, p.2.map f)))) ↔ rowAt d i ∈ (List.range i).map (rowAt d) := by
    intro i
    simp only [List.mem_map, rowAt_map]
    constructor
    · rintro ⟨k, hk, h⟩; exact ⟨k, hk, hinj _ _ h⟩
    · rintro ⟨k, hk, h⟩; exact ⟨k, hk, by rw [h]⟩
  unfold dropDuplicates
  simp only [hlen, hkeep, List.map_map, Function.comp_def, keepAt_map]

/-- Without recoding, `loadDataset` on a csv path is the function C57 is about. -/
theorem loadDataset_csv (parse : String → Option β) (text : String → β) (eval : β → Option β) (kind : β → ValueKind)
    (missing : β → Bool) (maxInt : Nat) (factor : α) (path : String) (lines : List String)
    (arff : Option (List String × List (List β))) (hp : Spec.Extension path "csv") :
    loadDataset parse text eval kind missing false maxInt factor path ⟨some lines, arff⟩ =
      (loadDatasetCsv parse text (lastPart "/" path) lines).map fun d => d.map fun p => (p.1, p.2.map .val) := by
  unfold loadDataset loadDatasetCsv readColumns
  simp only [extension_eq.2 hp]
  rw [if_neg (by decide), if_pos trivial]
  simp only [Option.map_some]
  cases lines.map pyStrip with
  | nil => rfl
  | cons header rows =>
    simp only
    cases csvRowsStrict parse text (pySplit "," header) rows (emptyCols (pySplit "," header) []) "" with
    | error e => rfl
    | ok r =>
      obtain ⟨d, last⟩ := r
      simp only
      cases summaryColumn d last with
      | error e => rfl
      | ok c =>
        have hdf : dataFrame (lastPart "/" path) (d.map fun p => (p.1, p.2.map (Entry.val (β := β)))) =
            (dataFrame (lastPart "/" path) d).map fun d => d.map fun p => (p.1, p.2.map Entry.val) := by
          cases d with
          | nil => rfl
          | cons p rest =>
            simp only [dataFrame, List.map_cons, List.length_map, List.all_map, Function.comp_def]
            split <;> rfl
        change finishLoad kind missing false maxInt factor (lastPart "/" path) d = (dataFrame (lastPart "/" path) d >>=
          fun f => pure (dropDuplicates f)).map _
        unfold finishLoad
        simp only [Bool.false_eq_true, if_false, hdf]
        cases dataFrame (lastPart "/" path) d with
        | error e => rfl
        | ok f =>
          change Except.ok (dropDuplicates (f.map fun p => (p.1, p.2.map Entry.val))) = _
          rw [dropDuplicates_map fun a b h => Entry.val.inj h]
          rfl

/-! ### C58: `load_csv_dataset` with factorize=True -/

theorem factorizeLoop_fst (xs : List β) : ∀ us : List β, us.Nodup →
    (factorizeLoop xs us).1 = xs.map fun v => (factorizeLoop xs us).2.idxOf v := by
  intro us hu
  obtain ⟨_, h2, h3, h4, h5⟩ := factorizeLoop_spec xs us hu
  apply List.ext_getElem?
  intro i
  rw [List.getElem?_map]
  by_cases hi : i < xs.length
  · have hk : (factorizeLoop xs us).1[i]? = some (factorizeLoop xs us).1[i] := List.getElem?_eq_getElem (by omega)
    have hx : xs[i]? = some xs[i] := List.getElem?_eq_getElem hi
    have he := h5 i _ hk
    rw [hx] at he
    rw [hk, hx]
    simp only [Option.map_some, Option.some.injEq]
    obtain ⟨hlt, he⟩ := List.getElem?_eq_some_iff.1 he
    rw [← he]
    exact (List.Nodup.idxOf_getElem h2 _ hlt).symm
  · rw [List.getElem?_eq_none (by omega), List.getElem?_eq_none (by omega)]
    rfl

theorem factorize_fst (xs : List β) :
    (factorize xs).1.map (fun k : Nat => (k : Int)) = xs.map (Spec.code (fun _ => false) xs) := by
  unfold factorize
  rw [factorizeLoop_fst xs [] List.nodup_nil, List.map_map]
  refine List.map_congr_left fun v hv => ?_
  have h := factorize_snd xs
  unfold factorize at h
  unfold Spec.code Spec.distinct
  simp only [Function.comp_apply, h, Bool.false_eq_true, if_false, Bool.not_false, List.filter_true]
  rw [idxOf_eraseDups v _ _ (Nat.le_refl _) hv]

/-- C58: with factorize=True `load_csv_dataset` gives the codes of the columns of the frame it gives without. -/
theorem C58_table (name header : String) (lines : List String) (atts : List String) (rows : List (List String))
    (hs : (header :: lines).map pyStrip = header :: lines)
    (hh : Spec.Fields header atts) (hr : List.Forall₂ Spec.Fields lines rows) (hn : atts.Nodup) :
    ∃ d R, loadCsvCodes name (header :: lines) = .ok d ∧
      R = (rows.filter (fun r => r.length = atts.length)).eraseDups ∧
      Spec.Table atts (R.map fun r => r.mapIdx fun j v => Spec.code (fun _ => false) (Spec.column R j) v)
        (d.map fun p => (p.1, p.2.map fun k : Nat => (k : Int))) := by
  obtain ⟨d, h1, h2, h3⟩ := C52_rows_partial name header lines atts rows hs hh hr hn
  refine ⟨d.map fun p => (p.1, (factorize p.2).1), _, ?_, rfl, ?_⟩
  · unfold loadCsvCodes
    rw [h1]
    rfl
  · rw [List.map_map]
    have hc : TableCols atts (rows.filter (fun r => r.length = atts.length)).eraseDups d := ⟨h2, h3⟩
    refine table_of_cols ?_
    have := cols_map hn hc (fun c => (factorize c).1.map fun k : Nat => (k : Int))
      ((rows.filter (fun r => r.length = atts.length)).eraseDups.map fun r => r.mapIdx fun j v =>
        Spec.code (fun _ => false) (Spec.column (rows.filter (fun r => r.length = atts.length)).eraseDups j) v) ?_
    · exact this
    · intro j c hcol
      have e := isColumn_column hcol
      simp only [factorize_fst]
      unfold IsColumn at *
      have := congrArg (List.map (Option.map (Spec.code (fun _ => false) c))) hcol
      simp only [List.map_map, Function.comp_def, Option.map_some] at this
      simp only [List.map_map, Function.comp_def, List.getElem?_mapIdx, e]
      exact this

example : (loadCsvCodes "ds" ["a,b", "x,1", "y,1", "x,1", "x,2"]).toOption =
    some [("a", [0, 1, 0]), ("b", [0, 0, 1])] := by decide +kernel
example := C58_table "ds" "a,b" ["x,1", "y", "y,1"] ["a", "b"] [["x", "1"], ["y"], ["y", "1"]] (by decide +kernel)
  ((fields_pySplit _ _).2 (by decide))
  (.cons ((fields_pySplit _ _).2 (by decide)) (.cons ((fields_pySplit _ _).2 (by decide))
    (.cons ((fields_pySplit _ _).2 (by decide)) .nil))) (by decide)

/-! ### Examples -/

/-- Values of the examples: integers, text and `None`. -/
inductive Ex.Lit where
  | num (n : Nat)
  | text (s : String)
  | none
  deriving DecidableEq, Repr

/-- A toy `literal_eval`: single digits and `None`. -/
def Ex.read (s : String) : Option Ex.Lit :=
  match s.toList with
  | [c] => if c.isDigit then some (.num (c.toNat - 48)) else Option.none
  | _ => if s = "None" then some .none else Option.none
def Ex.evalLit : Ex.Lit → Option Ex.Lit
  | .text s => Ex.read s
  | _ => Option.none
def Ex.kindOf : Ex.Lit → ValueKind
  | .num _ => .int
  | .text _ => .text
  | .none => .other
def Ex.isNone : Ex.Lit → Bool
  | .none => true
  | _ => false

example : Spec.Extension "dir.d/ds.csv" "csv" := extension_eq.1 (by decide +kernel)
example : Spec.Extension "dir.d/csv" "csv" := extension_eq.1 (by decide +kernel)
example : Spec.Extension "dir.csv/ds" "ds" := extension_eq.1 (by decide +kernel)

/-- Text is recoded, integers with more different values than `max_int_uniques` are kept. -/
example : (loadDataset (α := ℚ) Ex.read .text Ex.evalLit Ex.kindOf Ex.isNone true 2 (1 / 5) "d/ds.csv"
      ⟨some ["a,b,c", "u,1,1", "None,2,1", "w,3,2", "u,1,1"], none⟩).toOption =
    some [("a", [.code 0, .code (-1), .code 1]), ("b", [.val (.num 1), .val (.num 2), .val (.num 3)]),
      ("c", [.code 0, .code 0, .code 1])] := by decide +kernel
example := C98_loads (α := ℚ) Ex.read .text Ex.evalLit Ex.kindOf Ex.isNone true 2 (1 / 5) "d/ds.csv" "a,b"
  ["u,1", "w,2", "u,3"] none ["a", "b"] [["u", "1"], ["w", "2"], ["u", "3"]] (extension_eq.1 (by decide +kernel))
  (by decide +kernel) ((fields_pySplit _ _).2 (by decide))
  (.cons ((fields_pySplit _ _).2 (by decide)) (.cons ((fields_pySplit _ _).2 (by decide))
    (.cons ((fields_pySplit _ _).2 (by decide)) .nil)))
  (by decide) (by decide) (.inr (by decide)) (by decide)
example := C98_no_rows (α := ℚ) Ex.read .text Ex.evalLit Ex.kindOf Ex.isNone 10 (1 / 5) "ds.csv" "a,class" none
  ["a", "class"] (extension_eq.1 (by decide +kernel)) (by decide +kernel) ((fields_pySplit _ _).2 (by decide)) (by decide)
  (by decide)
example := C98_distinct (α := ℚ) Ex.kindOf Ex.isNone 10 (1 / 5) [[.num 1, .text "a"], [.num 1, .none], [.num 2, .text "a"]]
  (by intro u v hu hv; cases u <;> cases v <;> simp_all [Ex.isNone]) 0 2 (by decide) (by decide)

example := C99_loads_partial (α := ℚ) Ex.read .text Ex.evalLit Ex.kindOf Ex.isNone true 10 (1 / 5) "ds.arff" ["…"] ["a", "class"]
  [[.num 1, .text "u"], [.num 2, .text "w"]] (extension_eq.1 (by decide +kernel)) (by decide) (by decide) (by decide)
  (.inl (by decide)) (by decide)
example := C99_numbers (α := ℚ) Ex.read .text Ex.evalLit Ex.kindOf Ex.isNone false 10 (1 / 5) "ds.arff" ["…"] ["a", "b"]
  [[.num 1, .text "u"], [.num 2, .text "w"]] (extension_eq.1 (by decide +kernel)) (by decide) (by decide) (by decide)
  (by decide) (by decide +kernel)
example := C99_rejects (α := ℚ) Ex.read .text Ex.evalLit Ex.kindOf Ex.isNone false 10 (1 / 5) "ds.CSV" "CSV"
  ⟨some ["a", "1"], none⟩ (extension_eq.1 (by decide +kernel)) (.inl (by decide))
example := C99_rejects (α := ℚ) Ex.read .text Ex.evalLit Ex.kindOf Ex.isNone false 10 (1 / 5) "ds.arff" "arff"
  ⟨some [], some (["a", "b"], [[.num 1]])⟩ (extension_eq.1 (by decide +kernel))
  (.inr (.inr (.inr (.inr (.inr ⟨rfl, ["a", "b"], [[.num 1]], rfl, by simp, by simp⟩)))))

/-- C99 fails: a file of numbers without a column called `class` is not loaded. -/
theorem C99_counterexample : ¬ C99_full ℚ Ex.Lit := by
  intro h
  obtain ⟨d, h1, _⟩ := h Ex.read .text Ex.evalLit Ex.kindOf Ex.isNone 10 (1 / 5) "ds.arff" [] ["a", "b"]
    [[.num 1, .num 2]] (extension_eq.1 (by decide +kernel)) (by decide) (by decide) (by decide)
  rw [C99_numbers (α := ℚ) Ex.read .text Ex.evalLit Ex.kindOf Ex.isNone false 10 (1 / 5) "ds.arff" [] ["a", "b"]
    [[.num 1, .num 2]] (extension_eq.1 (by decide +kernel)) (by decide) (by decide) (by decide) (by decide)
    (by decide)] at h1
  cases h1

end PyFCM
