import Verif.Lemmas.Csv
import Verif.Spec.Table
import Mathlib.Data.List.Forall2
import Mathlib.Tactic.ByContra
/-
C52 (`load_csv_dataset`), C57 (`load_dataset` on csv files), C58 (factorisation).
-/
namespace PyFCM

/-! ### The fields of a line -/

/-- The model's `split(',')` finds the fields of a line in the sense of the specification, and they are unique. -/
theorem fields_pySplit (line : String) (fields : List String) : Spec.Fields line fields ↔ fields = pySplit "," line := by
  constructor
  · rintro ⟨hne, hc, rfl⟩
    exact (pySplit_row hne hc).symm
  · rintro rfl
    refine ⟨pySplit_ne _ _, ?_, pySplit_join (by decide) line⟩
    intro f hf hcomma
    have key : ∀ (s acc : List Char), ',' ∉ acc → ∀ p ∈ splitAux [','] s 0 acc, ',' ∉ p := by
      intro s
      induction s with
      | nil => intro acc ha p hp; simp [splitAux] at hp; subst hp; simpa using ha
      | cons c s ih =>
        intro acc ha p hp
        by_cases hcc : c = ','
        · subst hcc
          have : splitAux [','] (',' :: s) 0 acc = acc.reverse :: splitAux [','] s 0 [] := by
            simp [splitAux]
          rw [this, List.mem_cons] at hp
          rcases hp with rfl | hp
          · simpa using ha
          · exact ih [] (by simp) p hp
        · have : splitAux [','] (c :: s) 0 acc = splitAux [','] s 0 (c :: acc) := by
            simp [splitAux, Ne.symm hcc]
          rw [this] at hp
          exact ih (c :: acc) (by simp [Ne.symm hcc, ha]) p hp
    simp only [pySplit, List.mem_map] at hf
    obtain ⟨p, hp, rfl⟩ := hf
    rw [show (",".toList : List Char) = [','] by decide] at hp
    exact key _ _ (by simp) p hp (by simpa using hcomma)

example : Spec.Fields "a,,b" ["a", "", "b"] := (fields_pySplit _ _).2 (by decide)

theorem fields_rows {lines : List String} {rows : List (List String)}
    (h : List.Forall₂ Spec.Fields lines rows) : rows = lines.map (pySplit ",") := by
  induction h with
  | nil => rfl
  | cons h1 _ ih => rw [List.map_cons, ← ih, (fields_pySplit _ _).1 h1]

theorem table_of_cols {β : Type} {atts : List String} {rows : List (List β)} {d : Dict (List β)}
    (h : TableCols atts rows d) : Spec.Table atts rows d := ⟨h.keys, h.col⟩

/-! ### C52 -/

/-- C52 as stated: every row with as many fields as the header is kept, in order. -/
def C52_full : Prop :=
  ∀ (name header : String) (lines : List String) (atts : List String) (rows : List (List String)),
    (header :: lines).map pyStrip = header :: lines → Spec.Fields header atts → List.Forall₂ Spec.Fields lines rows →
    ∃ d, loadCsv name (header :: lines) = .ok d ∧ Spec.Table atts (rows.filter (fun r => r.length = atts.length)) d

/-- C52, proved form: with distinct column names the loaded frame holds exactly the *distinct* rows with as many
fields as the header, in order of first appearance.  Missing from the full claim: repeated rows are dropped
(`drop_duplicates`), and repeated column names corrupt the columns. -/
theorem C52_rows_partial (name header : String) (lines : List String) (atts : List String) (rows : List (List String))
    (hs : (header :: lines).map pyStrip = header :: lines)
    (hh : Spec.Fields header atts) (hr : List.Forall₂ Spec.Fields lines rows) (hn : atts.Nodup) :
    ∃ d, loadCsv name (header :: lines) = .ok d ∧
      Spec.Table atts (rows.filter (fun r => r.length = atts.length)).eraseDups d := by
  have ha := (fields_pySplit _ _).1 hh
  have hrows := fields_rows hr
  unfold loadCsv
  rw [hs]
  simp only [← ha]
  have hc := csvRows_cols hn lines [] _ (cols_empty hn)
  rw [List.nil_append, ← hrows] at hc
  rw [dataFrame_cols name hn hc]
  refine ⟨_, rfl, table_of_cols (dropDuplicates_cols hn hh.1 hc ?_)⟩
  intro r hr
  have := (List.mem_filter.1 hr).2
  simpa using this

/-- Stripping is applied to every line first (for lines that are not stripped already). -/
theorem C52_strip (name : String) (lines : List String) (hi : ∀ l ∈ lines, pyStrip (pyStrip l) = pyStrip l) :
    loadCsv name lines = loadCsv name (lines.map pyStrip) := by
  unfold loadCsv
  have : (lines.map pyStrip).map pyStrip = lines.map pyStrip := by
    rw [List.map_map]
    exact List.map_congr_left fun l hl => hi l hl
  rw [this]

/-- C52, when the rows are distinct as well nothing is lost: the frame holds exactly the well-formed rows. -/
theorem C52_all_rows_partial (name header : String) (lines : List String) (atts : List String)
    (rows : List (List String)) (hs : (header :: lines).map pyStrip = header :: lines)
    (hh : Spec.Fields header atts) (hr : List.Forall₂ Spec.Fields lines rows) (hn : atts.Nodup) (hd : rows.Nodup) :
    ∃ d, loadCsv name (header :: lines) = .ok d ∧
      Spec.Table atts (rows.filter (fun r => r.length = atts.length)) d := by
  obtain ⟨d, h1, h2⟩ := C52_rows_partial name header lines atts rows hs hh hr hn
  refine ⟨d, h1, ?_⟩
  have key : ∀ l : List (List String), l.Nodup → l.eraseDups = l := by
    intro l hl
    induction l with
    | nil => rfl
    | cons x l ih =>
      rw [List.nodup_cons] at hl
      rw [List.eraseDups_cons, List.filter_eq_self.2, ih hl.2]
      intro y hy
      have : y ≠ x := fun e => hl.1 (e ▸ hy)
      simpa using this
  rwa [key _ (hd.filter _)] at h2

/-- C52: whatever the file, all columns of a loaded frame have the same length. -/
theorem C52_rectangular (name : String) (lines : List String) (d : Dict (List String))
    (h : loadCsv name lines = .ok d) : ∀ p ∈ d, ∀ q ∈ d, p.2.length = q.2.length := by
  unfold loadCsv at h
  split at h
  · cases h
  · rename_i header rows _
    simp only at h
    revert h
    generalize csvRows (pySplit "," header) rows (emptyCols (pySplit "," header) []) = e
    intro h
    cases hf : dataFrame name e with
    | error x => rw [hf] at h; cases h
    | ok f =>
      rw [hf] at h
      have hd : dropDuplicates f = d := Except.ok.inj h
      have hlen : ∀ p ∈ f, p.2.length = frameLen f := by
        cases e with
        | nil => simp only [dataFrame] at hf; cases hf; simp
        | cons x rest =>
          obtain ⟨k, c⟩ := x
          simp only [dataFrame] at hf
          split at hf
          · rename_i hall
            cases hf
            rw [List.all_eq_true] at hall
            intro p hp
            rcases List.mem_cons.1 hp with rfl | hp
            · rfl
            · simpa [frameLen] using hall p hp
          · cases hf
      have hk : ∀ p ∈ d, p.2.length = ((List.range (frameLen f)).map fun i =>
          decide (rowAt f i ∉ (List.range i).map (rowAt f))).count true := by
        intro p hp
        rw [← hd] at hp
        unfold dropDuplicates at hp
        obtain ⟨q, hq, rfl⟩ := List.mem_map.1 hp
        refine keepAt_length _ _ ?_
        rw [List.length_map, List.length_range, hlen q hq]
      intro p hp q hq
      rw [hk p hp, hk q hq]

/-- A file with a ragged row: the row is skipped. -/
example : (loadCsv "ds" ["a,b", "1,2", "3", "4,5\n"]).toOption = some [("a", ["1", "4"]), ("b", ["2", "5"])] := by decide +kernel

/-- The hypotheses of `C52_rows_partial` on that kind of file. -/
example := C52_rows_partial "ds" "a,b" ["1,2", "3", "1,2", "4,5"] ["a", "b"] [["1", "2"], ["3"], ["1", "2"], ["4", "5"]]
  (by decide +kernel) ((fields_pySplit _ _).2 (by decide))
  (.cons ((fields_pySplit _ _).2 (by decide)) (.cons ((fields_pySplit _ _).2 (by decide))
    (.cons ((fields_pySplit _ _).2 (by decide)) (.cons ((fields_pySplit _ _).2 (by decide)) .nil))))
  (by decide)

/-- The full claim fails: repeated rows are dropped. -/
theorem C52_counterexample : ¬ C52_full := by
  intro h
  obtain ⟨d, h1, h2⟩ := h "ds" "a" ["1", "1"] ["a"] [["1"], ["1"]] (by decide +kernel)
    ((fields_pySplit _ _).2 (by decide))
    (.cons ((fields_pySplit _ _).2 (by decide)) (.cons ((fields_pySplit _ _).2 (by decide)) .nil))
  have h3 : (loadCsv "ds" ["a", "1", "1"]).toOption = some [("a", ["1"])] := by decide +kernel
  rw [h1] at h3
  have hd : d = [("a", ["1"])] := Option.some.inj h3
  subst hd
  obtain ⟨c, hc, hcol⟩ := h2.2 0 "a" rfl
  cases hc
  exact absurd hcol (by decide)

/-- It also fails for repeated column names, even with distinct rows: the file is rejected. -/
theorem C52_duplicate_names : (loadCsv "ds" ["a,a,b", "1,2,3"]).toOption = none := by decide +kernel

/-! ### C57: `load_dataset` -/

/-- C57 as stated: every csv file whose rows all have the header's number of fields is loaded, the fields being
literals where they parse and text otherwise. -/
def C57_full (β : Type) [DecidableEq β] : Prop :=
  ∀ (parse : String → Option β) (text : String → β) (name header : String) (lines : List String) (atts : List String)
    (rows : List (List String)), (header :: lines).map pyStrip = header :: lines → Spec.Fields header atts →
    List.Forall₂ Spec.Fields lines rows → atts.Nodup → (∀ r ∈ rows, r.length = atts.length) →
    ∃ d, loadDatasetCsv parse text name (header :: lines) = .ok d ∧
      Spec.Table atts ((rows.map (List.map fun f => (parse f).getD (text f))).eraseDups) d

/-- C57, proved form: it holds when there is a column called `class` or some field is a literal. -/
theorem C57_loads_partial {β : Type} [DecidableEq β] (parse : String → Option β) (text : String → β)
    (name header : String) (lines : List String) (atts : List String) (rows : List (List String))
    (hs : (header :: lines).map pyStrip = header :: lines)
    (hh : Spec.Fields header atts) (hr : List.Forall₂ Spec.Fields lines rows) (hn : atts.Nodup)
    (hrect : ∀ r ∈ rows, r.length = atts.length)
    (hsum : "class" ∈ atts ∨ ∃ r ∈ rows, ∃ f ∈ r, (parse f).isSome) :
    ∃ d, loadDatasetCsv parse text name (header :: lines) = .ok d ∧
      Spec.Table atts ((rows.map (List.map fun f => (parse f).getD (text f))).eraseDups) d := by
  have ha := (fields_pySplit _ _).1 hh
  have hrows := fields_rows hr
  unfold loadDatasetCsv
  rw [hs]
  simp only [← ha]
  obtain ⟨d', last', he, hc, _, hlast⟩ := csvRowsStrict_cols parse text hn lines [] _ "" (cols_empty hn)
    (fun l hl => by rw [← hrect (pySplit "," l) (by rw [hrows]; exact List.mem_map_of_mem hl)])
  rw [he]
  have hval : lines.map (fun l => (pySplit "," l).map (fieldValue parse text))
      = rows.map (List.map fun f => (parse f).getD (text f)) := by
    rw [hrows, List.map_map]; rfl
  rw [List.nil_append, hval] at hc
  have hcolumn : ∀ a, a ∈ atts → ∃ c, Dict.get? d' a = some c := by
    intro a hm
    obtain ⟨j, hj⟩ := List.mem_iff_getElem?.1 hm
    obtain ⟨c, hc', _⟩ := hc.col j a hj
    exact ⟨c, hc'⟩
  have hsumm : ∃ c, summaryColumn d' last' = .ok c := by
    unfold summaryColumn
    by_cases hcl : "class" ∈ atts
    · obtain ⟨c, hc'⟩ := hcolumn _ hcl
      exact ⟨c, by rw [hc']⟩
    · have hnone : Dict.get? d' "class" = none := (Dict.get?_eq_none_iff _ _).2 (by rw [hc.keys]; exact hcl)
      rw [hnone]
      obtain ⟨r, hr', f, hf, hp⟩ := hsum.resolve_left hcl
      rw [hrows, List.mem_map] at hr'
      obtain ⟨l, hl, rfl⟩ := hr'
      obtain ⟨c, hc'⟩ := hcolumn _ (hlast (Or.inl ⟨l, hl, f, hf, hp⟩))
      exact ⟨c, by rw [hc']; rfl⟩
  obtain ⟨c, hcc⟩ := hsumm
  simp only [hcc]
  have hdf := dataFrame_cols name hn hc
  refine ⟨dropDuplicates d', ?_, table_of_cols (dropDuplicates_cols hn hh.1 hc ?_)⟩
  · show (dataFrame name d' >>= fun f => pure (dropDuplicates f)) = _
    rw [hdf]; rfl
  · intro r hr'
    obtain ⟨r', hr'', rfl⟩ := List.mem_map.1 hr'
    rw [List.length_map]; exact hrect r' hr''

/-- C57: one row with another number of fields and the whole file is rejected. -/
theorem C57_ragged {β : Type} [DecidableEq β] (parse : String → Option β) (text : String → β)
    (name header : String) (lines : List String) (atts : List String) (rows : List (List String))
    (hs : (header :: lines).map pyStrip = header :: lines)
    (hh : Spec.Fields header atts) (hr : List.Forall₂ Spec.Fields lines rows)
    (hbad : ∃ r ∈ rows, r.length ≠ atts.length) :
    loadDatasetCsv parse text name (header :: lines) = .error (.exc "Unknown dataset format") := by
  have ha := (fields_pySplit _ _).1 hh
  have hrows := fields_rows hr
  unfold loadDatasetCsv
  rw [hs]
  simp only [← ha]
  obtain ⟨r, hr', hne⟩ := hbad
  rw [hrows, List.mem_map] at hr'
  obtain ⟨l, hl, rfl⟩ := hr'
  rw [csvRowsStrict_ragged parse text lines _ "" ⟨l, hl, hne⟩]

/-- `load_dataset` does not load a file of plain text columns without a column called `class`: the variable
`last_feat` is still the empty string and the printed summary looks it up. -/
theorem C57_text_only {β : Type} [DecidableEq β] (parse : String → Option β) (text : String → β)
    (name header : String) (lines : List String) (atts : List String) (rows : List (List String))
    (hs : (header :: lines).map pyStrip = header :: lines)
    (hh : Spec.Fields header atts) (hr : List.Forall₂ Spec.Fields lines rows) (hn : atts.Nodup)
    (hrect : ∀ r ∈ rows, r.length = atts.length)
    (hclass : "class" ∉ atts) (hempty : "" ∉ atts) (hnone : ∀ r ∈ rows, ∀ f ∈ r, parse f = none) :
    loadDatasetCsv parse text name (header :: lines) = .error (.keyError "") := by
  have ha := (fields_pySplit _ _).1 hh
  have hrows := fields_rows hr
  unfold loadDatasetCsv
  rw [hs]
  simp only [← ha]
  obtain ⟨d', last', he, hc, hlast, _⟩ := csvRowsStrict_cols parse text hn lines [] _ "" (cols_empty hn)
    (fun l hl => by rw [← hrect (pySplit "," l) (by rw [hrows]; exact List.mem_map_of_mem hl)])
  rw [he]
  have hl' := hlast fun l hl f hf => hnone (pySplit "," l) (by rw [hrows]; exact List.mem_map_of_mem hl) f hf
  subst hl'
  have h1 : Dict.get? d' "class" = none := (Dict.get?_eq_none_iff _ _).2 (by rw [hc.keys]; exact hclass)
  have h2 : Dict.get? d' "" = none := (Dict.get?_eq_none_iff _ _).2 (by rw [hc.keys]; exact hempty)
  simp only [summaryColumn, h1, h2, need]
  rfl

/-- A toy literal parser for the examples: only the digit `7` is a literal. -/
def Ex.parse7 (s : String) : Option String := if s = "7" then some "seven" else none

example : (loadDatasetCsv Ex.parse7 id "ds.csv" ["a,b", "7,x", "y,z", "7,x"]).toOption
    = some [("a", ["seven", "y"]), ("b", ["x", "z"])] := by decide +kernel
example := C57_loads_partial Ex.parse7 id "ds.csv" "a,b" ["7,x", "y,z"] ["a", "b"] [["7", "x"], ["y", "z"]]
  (by decide +kernel) ((fields_pySplit _ _).2 (by decide))
  (.cons ((fields_pySplit _ _).2 (by decide)) (.cons ((fields_pySplit _ _).2 (by decide)) .nil))
  (by decide) (by decide) (Or.inr (by decide))
example := C57_ragged Ex.parse7 id "ds.csv" "a,b" ["7,x", "y"] ["a", "b"] [["7", "x"], ["y"]]
  (by decide +kernel) ((fields_pySplit _ _).2 (by decide))
  (.cons ((fields_pySplit _ _).2 (by decide)) (.cons ((fields_pySplit _ _).2 (by decide)) .nil))
  (by decide)
example := C57_text_only Ex.parse7 id "ds.csv" "a,b" ["p,q"] ["a", "b"] [["p", "q"]]
  (by decide +kernel) ((fields_pySplit _ _).2 (by decide))
  (.cons ((fields_pySplit _ _).2 (by decide)) .nil) (by decide) (by decide) (by decide) (by decide) (by decide)

/-- C57 fails: a file of text columns is not loaded. -/
theorem C57_counterexample : ¬ C57_full String := by
  intro h
  obtain ⟨d, h1, _⟩ := h Ex.parse7 id "ds.csv" "a,b" ["p,q"] ["a", "b"] [["p", "q"]]
    (by decide +kernel) ((fields_pySplit _ _).2 (by decide))
    (.cons ((fields_pySplit _ _).2 (by decide)) .nil) (by decide) (by decide)
  have h2 : (loadDatasetCsv Ex.parse7 id "ds.csv" ["a,b", "p,q"]).toOption = none := by decide +kernel
  rw [h1] at h2
  cases h2

/-! ### C58: factorisation -/

theorem factorizeLoop_spec {β : Type} [DecidableEq β] : ∀ (xs us : List β), us.Nodup →
    us <+: (factorizeLoop xs us).2 ∧ (factorizeLoop xs us).2.Nodup ∧
    (factorizeLoop xs us).1.length = xs.length ∧
    (∀ y, y ∈ (factorizeLoop xs us).2 ↔ y ∈ us ∨ y ∈ xs) ∧
    ∀ (i k : Nat), (factorizeLoop xs us).1[i]? = some k → (factorizeLoop xs us).2[k]? = xs[i]? := by
  intro xs
  induction xs with
  | nil => intro us h; exact ⟨List.prefix_refl _, h, rfl, by simp [factorizeLoop], by simp [factorizeLoop]⟩
  | cons x xs ih =>
    intro us h
    simp only [factorizeLoop]
    by_cases hx : x ∈ us
    · rw [if_pos hx]
      obtain ⟨h1, h2, h3, h4, h5⟩ := ih us h
      refine ⟨h1, h2, by simp [h3], fun y => ?_, fun i k hk => ?_⟩
      · rw [h4 y, List.mem_cons]
        constructor
        · rintro (h | h)
          · exact Or.inl h
          · exact Or.inr (Or.inr h)
        · rintro (h | rfl | h)
          · exact Or.inl h
          · exact Or.inl hx
          · exact Or.inr h
      · cases i with
        | zero =>
          simp only [List.getElem?_cons_zero, Option.some.injEq] at hk ⊢
          subst hk
          obtain ⟨t, ht⟩ := h1
          have hlt := List.idxOf_lt_length_of_mem hx
          rw [← ht, List.getElem?_append_left hlt, List.getElem?_eq_getElem hlt]
          simp
        | succ i =>
          simp only [List.getElem?_cons_succ] at hk ⊢
          exact h5 i k hk
    · rw [if_neg hx]
      obtain ⟨h1, h2, h3, h4, h5⟩ := ih (us ++ [x]) (by
        rw [List.nodup_append]
        exact ⟨h, by simp, by intro a ha b hb; simp at hb; subst hb; rintro rfl; exact hx ha⟩)
      refine ⟨(List.prefix_append _ _).trans h1, h2, by simp [h3], fun y => ?_, fun i k hk => ?_⟩
      · rw [h4 y, List.mem_append, List.mem_singleton, List.mem_cons, or_assoc]
      · cases i with
        | zero =>
          simp only [List.getElem?_cons_zero, Option.some.injEq] at hk ⊢
          subst hk
          obtain ⟨t, ht⟩ := h1
          rw [← ht]
          simp
        | succ i =>
          simp only [List.getElem?_cons_succ] at hk ⊢
          exact h5 i k hk

/-- C58: factorising a column loses nothing: each code points to the value it replaces. -/
theorem C58_lossless {β : Type} [DecidableEq β] (xs : List β) (i : Nat) (x : β) (h : xs[i]? = some x) :
    ∃ k : Nat, (factorize xs).1[i]? = some k ∧ (factorize xs).2[k]? = some x := by
  obtain ⟨_, _, h3, _, h5⟩ := factorizeLoop_spec xs [] List.nodup_nil
  have hi : i < (factorizeLoop xs []).1.length := by rw [h3]; exact (List.getElem?_eq_some_iff.1 h).1
  have := List.getElem?_eq_getElem hi
  exact ⟨_, this, (h5 i _ this).trans h⟩

/-- C58: equal codes mean equal values and conversely, and the code table lists each value once. -/
theorem C58_faithful {β : Type} [DecidableEq β] (xs : List β) :
    (factorize xs).2.Nodup ∧ (∀ y, y ∈ (factorize xs).2 ↔ y ∈ xs) ∧
    ∀ (i j k l : Nat), (factorize xs).1[i]? = some k → (factorize xs).1[j]? = some l → (k = l ↔ xs[i]? = xs[j]?) := by
  obtain ⟨_, h2, h3, h4, h5⟩ := factorizeLoop_spec xs [] List.nodup_nil
  refine ⟨h2, fun y => by simpa [factorize] using h4 y, fun i j k l hk hl => ?_⟩
  have ek := h5 i k hk
  have el := h5 j l hl
  constructor
  · rintro rfl; rw [← ek, ← el]
  · intro he
    have hi : i < xs.length := by rw [← h3]; exact (List.getElem?_eq_some_iff.1 hk).1
    rw [← ek, ← el, ] at he
    have hkl : k < (factorizeLoop xs []).2.length := by
      by_contra hge
      rw [List.getElem?_eq_none (by omega), List.getElem?_eq_getElem hi] at ek
      cases ek
    exact (List.getElem?_inj hkl h2).1 he

example : factorize ["b", "a", "b", "c"] = ([0, 1, 0, 2], ["b", "a", "c"]) := by decide

end PyFCM
