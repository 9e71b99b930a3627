import Verif.Lemmas.Split
import Verif.Lemmas.Dict
import Verif.Model.Datasets
/-
Lemmas on reading comma-separated rows into columns.
-/
namespace PyFCM

/-! ### Splitting and joining -/

theorem splitAux_step {sep : List Char} (hs : sep ≠ []) (d acc : List Char) :
    splitAux sep (sep ++ d) 0 acc = acc.reverse :: splitAux sep d 0 [] := by
  have := splitAux_first hs d [] acc (fun r hr hs => absurd (List.suffix_nil.1 hs) hr)
  simpa using this

/-- The pieces put together again with the separator give the text. -/
theorem splitAux_join {sep : List Char} (hs : sep ≠ []) : ∀ (n : Nat) (s acc : List Char), s.length ≤ n →
    sep.intercalate (splitAux sep s 0 acc) = acc.reverse ++ s := by
  intro n
  induction n with
  | zero =>
    intro s acc h
    have : s = [] := List.eq_nil_of_length_eq_zero (by omega)
    subst this; simp [splitAux]
  | succ n ih =>
    intro s acc h
    cases s with
    | nil => simp [splitAux]
    | cons c s =>
      by_cases hp : sep <+: c :: s
      · obtain ⟨t, ht⟩ := hp
        have hl : 0 < sep.length := List.length_pos_iff.2 hs
        have hlen := congrArg List.length ht
        simp only [List.length_append, List.length_cons] at hlen h
        rw [← ht, splitAux_step hs]
        obtain ⟨y, l, e⟩ := List.exists_cons_of_ne_nil (splitAux_ne sep t 0 [])
        rw [e, List.intercalate_cons_cons, ← e, ih t [] (by omega)]
        simp
      · have hp' : sep.isPrefixOf (c :: s) = false := by
          rw [Bool.eq_false_iff]; intro hh; exact hp (List.isPrefixOf_iff_prefix.1 hh)
        simp only [splitAux, gt_iff_lt, Nat.lt_irrefl, if_false, hp', Bool.false_eq_true]
        rw [ih s (c :: acc) (by simp at h; omega)]
        simp

/-- `sep.join(s.split(sep)) == s`. -/
theorem pySplit_join {sep : String} (hs : sep.toList ≠ []) (s : String) :
    sep.intercalate (pySplit sep s) = s := by
  apply String.toList_injective
  rw [String.toList_intercalate, pySplit, List.map_map]
  have : (String.toList ∘ String.ofList) = id := by funext x; simp
  rw [this, List.map_id, splitAux_join hs _ _ _ (Nat.le_refl _)]
  simp

theorem pySplit_ne (sep s : String) : pySplit sep s ≠ [] := by
  unfold pySplit
  intro h
  exact splitAux_ne _ _ _ _ (List.map_eq_nil_iff.1 h)

theorem splitAux_char (c : Char) : ∀ (ps : List (List Char)), ps ≠ [] → (∀ p ∈ ps, c ∉ p) →
    splitAux [c] ([c].intercalate ps) 0 [] = ps := by
  intro ps
  induction ps with
  | nil => intro h; exact absurd rfl h
  | cons p ps ih =>
    intro _ hc
    have hfree : Free [c] p := by
      rintro ⟨s, t, rfl⟩
      exact hc _ (List.mem_cons_self ..) (by simp)
    cases ps with
    | nil =>
      have : [c].intercalate [p] = p := by simp
      rw [this, splitAux_free p [] hfree]; simp
    | cons q ps =>
      rw [List.intercalate_cons_cons, List.append_assoc, splitAux_first (by simp), ih (by simp)
        (fun x hx => hc x (List.mem_cons_of_mem _ hx))]
      · simp
      · intro r hr hs hp
        obtain ⟨x, r, rfl⟩ := List.exists_cons_of_ne_nil hr
        rw [List.cons_append, List.cons_prefix_cons] at hp
        exact hc p (List.mem_cons_self ..) (hs.subset (by rw [hp.1]; exact List.mem_cons_self ..))

/-- A row of comma-free fields is read back from its text. -/
theorem pySplit_row {fields : List String} (hne : fields ≠ []) (hc : ∀ f ∈ fields, ',' ∉ f.toList) :
    pySplit "," (",".intercalate fields) = fields := by
  unfold pySplit
  rw [String.toList_intercalate]
  have := splitAux_char ',' (fields.map String.toList) (by simpa using hne) (by simpa using hc)
  rw [show (",".toList : List Char) = [','] by decide, this, List.map_map]
  have : (String.ofList ∘ String.toList) = id := by funext x; simp
  rw [this, List.map_id]

/-! ### Columns -/

variable {β : Type}

/-- Column `j` of the table holds, row after row, field `j`. -/
def IsColumn (rows : List (List β)) (j : Nat) (c : List β) : Prop := c.map some = rows.map (·[j]?)

theorem IsColumn.length {rows : List (List β)} {j : Nat} {c : List β} (h : IsColumn rows j c) :
    c.length = rows.length := by
  have := congrArg List.length h
  simpa using this

theorem IsColumn.snoc {rows : List (List β)} {j : Nat} {c : List β} (h : IsColumn rows j c) {r : List β} {v : β}
    (hv : r[j]? = some v) : IsColumn (rows ++ [r]) j (c ++ [v]) := by
  unfold IsColumn at *
  rw [List.map_append, List.map_append, h]
  simp [hv]

theorem IsColumn.get {rows : List (List β)} {j i : Nat} {c r : List β} (h : IsColumn rows j c)
    (hr : rows[i]? = some r) : (c[i]?).map some = some (r[j]?) := by
  have := congrArg (fun l : List (Option β) => l[i]?) h
  simp only [List.getElem?_map, hr, Option.map_some] at this
  exact this

/-- The dictionary holds the table's columns under their names. -/
structure TableCols (atts : List String) (rows : List (List β)) (d : Dict (List β)) : Prop where
  keys : Dict.keys d = atts
  col : ∀ j a, atts[j]? = some a → ∃ c, Dict.get? d a = some c ∧ IsColumn rows j c

theorem emptyCols_append : ∀ (as : List String) (d : Dict (List β)), (Dict.keys d ++ as).Nodup →
    emptyCols as d = d ++ as.map fun a => (a, []) := by
  intro as
  induction as with
  | nil => intro d _; simp [emptyCols]
  | cons a as ih =>
    intro d h
    have hset : Dict.set d a ([] : List β) = d ++ [(a, [])] := by
      have hn : a ∉ Dict.keys d := by
        intro hm
        rw [List.nodup_append] at h
        exact h.2.2 a hm a (List.mem_cons_self ..) rfl
      clear ih h
      induction d with
      | nil => rfl
      | cons p d ihd =>
        simp only [Dict.keys_cons, List.mem_cons, not_or] at hn
        simp only [Dict.set]
        rw [if_neg fun e => hn.1 e.symm, List.cons_append, ← ihd hn.2]
    simp only [emptyCols]
    rw [hset, ih]
    · simp
    · simp only [Dict.keys, List.map_append, List.map_cons, List.map_nil] at *
      simpa using h

theorem cols_empty {atts : List String} (hn : atts.Nodup) : TableCols atts [] (emptyCols atts ([] : Dict (List β))) := by
  rw [emptyCols_append atts [] (by simpa [Dict.keys] using hn)]
  have hk : Dict.keys (([] : Dict (List β)) ++ atts.map fun a => (a, [])) = atts := by
    simp [Dict.keys, Function.comp_def]
  refine ⟨hk, fun j a h => ⟨[], ?_, rfl⟩⟩
  apply Dict.get?_of_mem
  · rw [hk]; exact hn
  · simp only [List.nil_append, List.mem_map, Prod.mk.injEq, and_true, exists_eq_right]
    exact List.mem_of_getElem? h

theorem appendRow_keys : ∀ (as : List String) (vs : List β) (d : Dict (List β)),
    Dict.keys (appendRow as vs d) = Dict.keys d := by
  intro as
  induction as with
  | nil => intro vs d; cases vs <;> rfl
  | cons a as ih =>
    intro vs d
    cases vs with
    | nil => rfl
    | cons v vs => simp only [appendRow]; rw [ih, Dict.keys_modify]

theorem appendRow_get : ∀ (as : List String) (vs : List β) (d : Dict (List β)), as.Nodup → as.length = vs.length →
    (∀ k, k ∉ as → Dict.get? (appendRow as vs d) k = Dict.get? d k) ∧
    ∀ (j : Nat) (a : String) (v : β), as[j]? = some a → vs[j]? = some v →
      Dict.get? (appendRow as vs d) a = (Dict.get? d a).map (· ++ [v]) := by
  intro as
  induction as with
  | nil => intro vs d _ _; exact ⟨fun k _ => by cases vs <;> rfl, fun j a v h => by simp at h⟩
  | cons a as ih =>
    intro vs d hn hl
    cases vs with
    | nil => simp at hl
    | cons v vs =>
      rw [List.nodup_cons] at hn
      obtain ⟨h1, h2⟩ := ih vs (d.modify a (· ++ [v])) hn.2 (by simpa using hl)
      simp only [appendRow]
      refine ⟨fun k hk => ?_, fun j b w hj hw => ?_⟩
      · simp only [List.mem_cons, not_or] at hk
        rw [h1 k hk.2, Dict.get?_modify, if_neg fun e => hk.1 e.symm]
      · cases j with
        | zero =>
          simp only [List.getElem?_cons_zero, Option.some.injEq] at hj hw
          subst hj hw
          rw [h1 a hn.1, Dict.get?_modify, if_pos rfl]
        | succ j =>
          simp only [List.getElem?_cons_succ] at hj hw
          rw [h2 j b w hj hw, Dict.get?_modify, if_neg]
          rintro rfl
          exact hn.1 (List.mem_of_getElem? hj)

theorem appendRow_cols {atts : List String} {rows : List (List β)} {d : Dict (List β)} (hn : atts.Nodup)
    (h : TableCols atts rows d) {r : List β} (hl : atts.length = r.length) :
    TableCols atts (rows ++ [r]) (appendRow atts r d) := by
  refine ⟨(appendRow_keys _ _ _).trans h.keys, fun j a hj => ?_⟩
  obtain ⟨c, hc, hcol⟩ := h.col j a hj
  have hjl : j < r.length := by
    rw [← hl]; exact (List.getElem?_eq_some_iff.1 hj).1
  have hv : r[j]? = some r[j] := List.getElem?_eq_getElem hjl
  exact ⟨c ++ [r[j]], by rw [(appendRow_get atts r d hn hl).2 j a _ hj hv, hc]; rfl, hcol.snoc hv⟩

theorem csvRows_cols {atts : List String} (hn : atts.Nodup) : ∀ (ls : List String) (rows : List (List String))
    (d : Dict (List String)), TableCols atts rows d →
    TableCols atts (rows ++ (ls.map (pySplit ",")).filter (fun r => r.length = atts.length)) (csvRows atts ls d) := by
  intro ls
  induction ls with
  | nil => intro rows d h; simpa [csvRows] using h
  | cons l ls ih =>
    intro rows d h
    simp only [csvRows, List.map_cons, List.filter_cons]
    by_cases hl : (pySplit "," l).length = atts.length
    · simp only [hl, if_true, decide_true]
      have := ih _ _ (appendRow_cols hn h (r := pySplit "," l) hl.symm)
      simpa using this
    · simp only [hl, if_false, decide_false, Bool.false_eq_true]
      exact ih _ _ h

/-! ### Data frames and duplicates -/

theorem mem_pos {atts : List String} {rows : List (List β)} {d : Dict (List β)} (hn : atts.Nodup)
    (h : TableCols atts rows d) {j : Nat} {p : String × List β} (hp : d[j]? = some p) :
    atts[j]? = some p.1 ∧ IsColumn rows j p.2 := by
  have hj : atts[j]? = some p.1 := by rw [← h.keys, Dict.keys, List.getElem?_map, hp]; rfl
  refine ⟨hj, ?_⟩
  obtain ⟨c, hc, hcol⟩ := h.col j p.1 hj
  have := Dict.get?_of_mem (h.keys ▸ hn) (List.mem_of_getElem? hp : (p.1, p.2) ∈ d)
  rw [this] at hc
  cases hc
  exact hcol

theorem mem_col {atts : List String} {rows : List (List β)} {d : Dict (List β)} (hn : atts.Nodup)
    (h : TableCols atts rows d) {p : String × List β} (hp : p ∈ d) : p.2.length = rows.length := by
  obtain ⟨j, hj⟩ := List.mem_iff_getElem?.1 hp
  exact (mem_pos hn h hj).2.length

theorem dataFrame_cols {atts : List String} {rows : List (List β)} {d : Dict (List β)} (name : String)
    (hn : atts.Nodup) (h : TableCols atts rows d) : dataFrame name d = .ok d := by
  cases d with
  | nil => rfl
  | cons p rest =>
    obtain ⟨k, c⟩ := p
    simp only [dataFrame]
    rw [if_pos]
    rw [List.all_eq_true]
    intro q hq
    have h1 := mem_col hn h (List.mem_cons_of_mem _ hq)
    have h2 := mem_col hn h (List.mem_cons_self : (k, c) ∈ (k, c) :: rest)
    simp only [beq_iff_eq]
    rw [h1]; exact h2.symm

theorem rowAt_cols {atts : List String} {rows : List (List β)} {d : Dict (List β)} (hn : atts.Nodup)
    (h : TableCols atts rows d) (hr : ∀ r ∈ rows, r.length = atts.length) {i : Nat} {r : List β}
    (hi : rows[i]? = some r) : rowAt d i = r.map some := by
  have hlen : d.length = atts.length := by rw [← h.keys]; simp [Dict.keys]
  have hrl : r.length = atts.length := hr r (List.mem_of_getElem? hi)
  apply List.ext_getElem?
  intro j
  simp only [rowAt, List.getElem?_map]
  by_cases hj : j < atts.length
  · have hd : d[j]? = some d[j] := List.getElem?_eq_getElem (by omega)
    have hrj : r[j]? = some r[j] := List.getElem?_eq_getElem (by omega)
    obtain ⟨_, hcol⟩ := mem_pos hn h hd
    have := hcol.get hi
    rw [hrj] at this
    rw [hd, hrj]
    simp only [Option.map_some, Option.some.injEq]
    cases hx : (d[j]).2[i]? with
    | none => rw [hx] at this; cases this
    | some y => rw [hx] at this; simpa using this
  · rw [List.getElem?_eq_none (by omega), List.getElem?_eq_none (by omega)]; rfl

theorem keepAt_map {γ : Type} (f : β → γ) : ∀ (bs : List Bool) (xs : List β),
    keepAt bs (xs.map f) = (keepAt bs xs).map f := by
  intro bs
  induction bs with
  | nil => intro xs; cases xs <;> rfl
  | cons b bs ih =>
    intro xs
    cases xs with
    | nil => rfl
    | cons x xs => cases b <;> simp [keepAt, ih]

theorem keepAt_length : ∀ (bs : List Bool) (xs : List β), bs.length = xs.length →
    (keepAt bs xs).length = bs.count true := by
  intro bs
  induction bs with
  | nil => intro xs _; cases xs <;> rfl
  | cons b bs ih =>
    intro xs h
    cases xs with
    | nil => simp at h
    | cons x xs =>
      have := ih xs (by simpa using h)
      cases b <;> simp [keepAt, this]

theorem keepAt_seen [BEq β] [LawfulBEq β] : ∀ (R P : List β) (fl : List Bool), fl.length = R.length →
    (∀ i x, R[i]? = some x → (fl[i]? = some true ↔ x ∉ P ++ R.take i)) →
    keepAt fl R = (R.filter (fun x => !P.contains x)).eraseDups := by
  intro R
  induction R with
  | nil => intro P fl _ _; cases fl <;> rfl
  | cons x R ih =>
    intro P fl hl hf
    cases fl with
    | nil => simp at hl
    | cons b fl =>
      have hb := hf 0 x rfl
      simp only [List.getElem?_cons_zero, Option.some.injEq, List.take_zero, List.append_nil] at hb
      have hrest := ih (P ++ [x]) fl (by simpa using hl) fun i y hy => by
        have := hf (i + 1) y (by simpa using hy)
        simpa using this
      by_cases hx : x ∈ P
      · have : b = false := by cases b <;> simp_all
        subst this
        simp only [keepAt, Bool.false_eq_true, if_false]
        rw [hrest, List.filter_cons, if_neg (by simp [hx])]
        congr 1
        refine List.filter_congr fun y _ => ?_
        by_cases h1 : y ∈ P <;> by_cases h2 : y = x <;> simp_all
      · have : b = true := hb.2 hx
        subst this
        simp only [keepAt, if_true]
        rw [hrest, List.filter_cons, if_pos (by simp [hx]), List.eraseDups_cons, List.filter_filter]
        congr 2
        refine List.filter_congr fun y _ => ?_
        by_cases h1 : y ∈ P <;> by_cases h2 : y = x <;> simp [h1, h2]

theorem dropDuplicates_cols [DecidableEq β] {atts : List String} {rows : List (List β)} {d : Dict (List β)}
    (hn : atts.Nodup) (hne : atts ≠ []) (h : TableCols atts rows d) (hr : ∀ r ∈ rows, r.length = atts.length) :
    TableCols atts rows.eraseDups (dropDuplicates d) := by
  have hnum : frameLen d = rows.length := by
    cases d with
    | nil => exact absurd h.keys.symm hne
    | cons p rest => exact mem_col hn h (List.mem_cons_self : p ∈ p :: rest)
  have hkeep : keepAt ((List.range (frameLen d)).map fun i =>
      decide (rowAt d i ∉ (List.range i).map (rowAt d))) rows = rows.eraseDups := by
    rw [keepAt_seen rows []]
    · congr 1; simp
    · simp [hnum]
    · intro i x hx
      have hi : i < rows.length := (List.getElem?_eq_some_iff.1 hx).1
      have hinj : Function.Injective (List.map (some : β → Option β)) :=
        fun a b h => (List.map_inj_right (fun _ _ => Option.some.inj)).1 h
      have hprefix : (List.range i).map (rowAt d) = (rows.take i).map (List.map some) := by
        apply List.ext_getElem?
        intro k
        by_cases hk : k < i
        · have hrk : rows[k]? = some rows[k] := List.getElem?_eq_getElem (by omega)
          rw [List.getElem?_map, List.getElem?_range hk, List.getElem?_map, List.getElem?_take_of_lt hk, hrk]
          simp only [Option.map_some]
          rw [rowAt_cols hn h hr hrk]
        · rw [List.getElem?_eq_none (by simp; omega), List.getElem?_eq_none (by simp; omega)]
      rw [List.getElem?_map, List.getElem?_range (by omega)]
      simp only [Option.map_some, Option.some.injEq, decide_eq_true_eq, List.nil_append]
      rw [hprefix, rowAt_cols hn h hr hx]
      constructor
      · exact fun h1 h2 => h1 (List.mem_map_of_mem h2)
      · intro h1 h2
        obtain ⟨y, hy, e⟩ := List.mem_map.1 h2
        exact h1 (hinj e ▸ hy)
  have hk : Dict.keys (dropDuplicates d) = atts := by
    rw [← h.keys]; simp [dropDuplicates, Dict.keys, Function.comp_def]
  refine ⟨hk, fun j a hj => ?_⟩
  obtain ⟨c, hc, hcol⟩ := h.col j a hj
  have hmem := Dict.get?_mem hc
  refine ⟨_, Dict.get?_of_mem ?_ (List.mem_map.2 ⟨(a, c), hmem, rfl⟩), ?_⟩
  · exact hk ▸ hn
  · unfold IsColumn
    simp only
    rw [← keepAt_map, hcol, keepAt_map, hkeep]

/-! ### Rows of literals -/

/-- What `load_dataset` stores for a field. -/
def fieldValue (parse : String → Option β) (text : String → β) (f : String) : β := (parse f).getD (text f)

theorem strictRow_fst (parse : String → Option β) (text : String → β) : ∀ (as fs : List String) (d : Dict (List β))
    (last : String), (strictRow parse text as fs d last).1 = appendRow as (fs.map (fieldValue parse text)) d := by
  intro as
  induction as with
  | nil => intro fs d last; cases fs <;> rfl
  | cons a as ih =>
    intro fs d last
    cases fs with
    | nil => rfl
    | cons f fs =>
      simp only [strictRow, List.map_cons, appendRow]
      cases h : parse f with
      | none => simp only []; rw [ih]; simp [fieldValue, h]
      | some v => simp only []; rw [ih]; simp [fieldValue, h]

theorem strictRow_snd (parse : String → Option β) (text : String → β) : ∀ (as fs : List String) (d : Dict (List β))
    (last : String), as.length = fs.length →
    ((∀ f ∈ fs, parse f = none) → (strictRow parse text as fs d last).2 = last) ∧
    ((∃ f ∈ fs, (parse f).isSome) ∨ last ∈ as → (strictRow parse text as fs d last).2 ∈ as) ∧
    ((strictRow parse text as fs d last).2 ∈ as ∨ (strictRow parse text as fs d last).2 = last) := by
  intro as
  induction as with
  | nil => intro fs d last hl; cases fs <;> simp_all [strictRow]
  | cons a as ih =>
    intro fs d last hl
    cases fs with
    | nil => simp at hl
    | cons f fs =>
      simp only [strictRow]
      cases h : parse f with
      | none =>
        simp only []
        obtain ⟨h1, h2, h3⟩ := ih fs (d.modify a (· ++ [text f])) last (by simpa using hl)
        refine ⟨fun hall => h1 fun g hg => hall g (by simp [hg]), ?_, ?_⟩
        · rintro (⟨g, hg, hs⟩ | hm)
          · rcases List.mem_cons.1 hg with rfl | hg
            · rw [h] at hs; cases hs
            · exact List.mem_cons_of_mem _ (h2 (Or.inl ⟨g, hg, hs⟩))
          · rcases List.mem_cons.1 hm with rfl | hm
            · rcases h3 with h3 | h3
              · exact List.mem_cons_of_mem _ h3
              · rw [h3]; exact List.mem_cons_self ..
            · exact List.mem_cons_of_mem _ (h2 (Or.inr hm))
        · rcases h3 with h3 | h3
          · exact Or.inl (List.mem_cons_of_mem _ h3)
          · exact Or.inr h3
      | some v =>
        simp only []
        obtain ⟨h1, h2, h3⟩ := ih fs (d.modify a (· ++ [v])) a (by simpa using hl)
        have hin : (strictRow parse text as fs (d.modify a (· ++ [v])) a).2 ∈ a :: as := by
          rcases h3 with h3 | h3
          · exact List.mem_cons_of_mem _ h3
          · rw [h3]; exact List.mem_cons_self ..
        refine ⟨fun hall => ?_, fun _ => hin, Or.inl hin⟩
        have := hall f (by simp)
        rw [h] at this; cases this

theorem csvRowsStrict_cols (parse : String → Option β) (text : String → β) {atts : List String} (hn : atts.Nodup) :
    ∀ (ls : List String) (rows : List (List β)) (d : Dict (List β)) (last : String), TableCols atts rows d →
    (∀ l ∈ ls, (pySplit "," l).length = atts.length) →
    ∃ d' last', csvRowsStrict parse text atts ls d last = .ok (d', last') ∧
      TableCols atts (rows ++ ls.map fun l => (pySplit "," l).map (fieldValue parse text)) d' ∧
      ((∀ l ∈ ls, ∀ f ∈ pySplit "," l, parse f = none) → last' = last) ∧
      ((∃ l ∈ ls, ∃ f ∈ pySplit "," l, (parse f).isSome) ∨ last ∈ atts → last' ∈ atts) := by
  intro ls
  induction ls with
  | nil =>
    intro rows d last h _
    exact ⟨d, last, rfl, by simpa using h, fun _ => rfl, fun h => by simpa using h⟩
  | cons l ls ih =>
    intro rows d last h hall
    have hl := hall l (by simp)
    simp only [csvRowsStrict]
    rw [if_pos hl]
    have hrow := appendRow_cols hn h (r := (pySplit "," l).map (fieldValue parse text)) (by simpa using hl.symm)
    rw [← strictRow_fst parse text atts (pySplit "," l) d last] at hrow
    obtain ⟨s1, s2, s3⟩ := strictRow_snd parse text atts (pySplit "," l) d last hl.symm
    obtain ⟨d', last', he, hc, hp, hq⟩ := ih _ _ (strictRow parse text atts (pySplit "," l) d last).2 hrow
      (fun l' hl' => hall l' (by simp [hl']))
    refine ⟨d', last', he, by simpa using hc, ?_, ?_⟩
    · intro hnone
      rw [hp fun l' hl' => hnone l' (by simp [hl']), s1 (hnone l (by simp))]
    · rintro (⟨l', hl', f, hf, hs⟩ | hm)
      · rcases List.mem_cons.1 hl' with rfl | hl'
        · exact hq (Or.inr (s2 (Or.inl ⟨f, hf, hs⟩)))
        · exact hq (Or.inl ⟨l', hl', f, hf, hs⟩)
      · exact hq (Or.inr (s2 (Or.inr hm)))

theorem csvRowsStrict_ragged (parse : String → Option β) (text : String → β) {atts : List String} :
    ∀ (ls : List String) (d : Dict (List β)) (last : String), (∃ l ∈ ls, (pySplit "," l).length ≠ atts.length) →
    csvRowsStrict parse text atts ls d last = .error (.exc "Errors in line") := by
  intro ls
  induction ls with
  | nil => intro d last h; simp at h
  | cons l ls ih =>
    intro d last h
    simp only [csvRowsStrict]
    by_cases hl : (pySplit "," l).length = atts.length
    · rw [if_pos hl]
      apply ih
      obtain ⟨l', hl', hne⟩ := h
      rcases List.mem_cons.1 hl' with rfl | hl'
      · exact absurd hl hne
      · exact ⟨l', hl', hne⟩
    · rw [if_neg hl]

end PyFCM
