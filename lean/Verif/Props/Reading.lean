import Verif.Props.Tables
/-
What a table means, form by form: the names of the columns (C85) and the common type of the cells of a list (C84).
-/
namespace PyFCM
open Arith

set_option linter.unusedSectionVars false

variable {α : Type} [Arith α]

/-! ### C85: names -/

/-- The columns meant by a table if positions are counted from `start`. -/
inductive Spec.Reads (start : Nat) : Table α → List (String × Column α) → Prop
  | frame (cols : List (String × Column α)) : Spec.Reads start (.frame cols) cols
  | dict (cols : List (String × Column α)) : Spec.Reads start (.dict cols) cols
  | series (name : String) (c : Column α) : Spec.Reads start (.series name c) [(name, c)]
  | vector (c : Column α) : Spec.Reads start (.array (.one c)) [(toString start, c)]
  | list (c : Column α) : c.size ≠ 0 → Spec.Reads start (.flat (Spec.cells c)) [(toString start, c)]
  | empty : Spec.Reads start (.flat []) [(toString start, .floats [])]
  | matrix {n : Nat} {cols : List (Column α)} {c : Column α} : 0 < n → cols ≠ [] → (∀ c ∈ cols, c.size = n) →
      Spec.Uniform cols → Spec.cells c = (Spec.rowsOf n cols).flatten →
      Spec.Reads start (.array (.two cols.length c)) (Spec.named start cols)
  | rows {n : Nat} {cols : List (Column α)} : 0 < n → (∀ c ∈ cols, c.size = n) → Spec.Uniform cols →
      Spec.Reads start (.rows (Spec.rowsOf n cols)) (Spec.named start cols)

theorem rowsOf_flat {n : Nat} (hn : 0 < n) {cols : List (Column α)} (hc : cols ≠ []) (hs : ∀ c ∈ cols, c.size = n) :
    (Spec.rowsOf n cols).flatten ≠ [] := by
  cases cols with
  | nil => exact absurd rfl hc
  | cons c cols =>
    intro e
    have h0 := List.flatten_eq_nil_iff.1 e ((c :: cols).filterMap fun c => (Spec.cells c)[0]?)
      (List.mem_map.2 ⟨0, List.mem_range.2 hn, rfl⟩)
    have hl : 0 < (Spec.cells c).length := by
      have := hs c (by simp)
      have e : (Spec.cells c).length = c.size := by cases c <;> simp [Spec.cells, Column.size]
      omega
    rw [List.filterMap_cons_some (f := fun c : Column α => (Spec.cells c)[0]?) (List.getElem?_eq_getElem hl)] at h0
    cases h0

/-- A buffer that holds the rows one after the other has these columns. -/
theorem matrix_buffer (x : Ext α) {n : Nat} (hn : 0 < n) {cols : List (Column α)} {c : Column α} (hc : cols ≠ [])
    (hs : ∀ c ∈ cols, c.size = n) (hu : Spec.Uniform cols) (hb : Spec.cells c = (Spec.rowsOf n cols).flatten)
    (start : Nat) : (NdArray.two cols.length c).toFrame start = Spec.named start cols := by
  obtain ⟨a, h1, ⟨buf, rfl⟩, h2⟩ := matrix_frame x hn hu hs
  have hne := rowsOf_flat hn hc hs
  have hbuf : buf = npArray x (Spec.rowsOf n cols).flatten := by
    generalize Spec.rowsOf n cols = R at h1 hne
    cases R with
    | nil => exact absurd rfl hne
    | cons r R =>
      simp only [npMatrix] at h1
      split at h1
      · exact (NdArray.two.inj (Except.ok.inj h1)).2.symm
      · cases h1
  have hsz : c.size ≠ 0 := by
    intro e
    have e' : (Spec.cells c).length = c.size := by cases c <;> simp [Spec.cells, Column.size]
    rw [e, List.length_eq_zero_iff, hb] at e'
    exact hne e'
  rw [← hb, flat_frame x c hsz] at hbuf
  rw [← hbuf, h2]

theorem Spec.Reads.toFrame {start : Nat} {t : Table α} {cols : List (String × Column α)} (h : Spec.Reads start t cols)
    (x : Ext α) : t.toFrame x start = .ok (some cols) := by
  cases h with
  | frame => rfl
  | dict => rfl
  | series => rfl
  | vector => rfl
  | empty => rfl
  | list c hc =>
    show Except.ok (some ((NdArray.one (npArray x (Spec.cells c))).toFrame start)) = _
    rw [flat_frame x c hc]
    rfl
  | matrix hn hc hs hu hb =>
    show Except.ok (some ((NdArray.two _ _).toFrame start)) = _
    rw [matrix_buffer x hn hc hs hu hb]
  | rows hn hs hu =>
    obtain ⟨a, h1, -, h2⟩ := matrix_frame x hn hu hs
    simp only [Table.toFrame, h1]
    show Except.ok (some (a.toFrame start)) = _
    rw [h2]

theorem Spec.Reads.validate {x y : Table α} {xs ys : List (String × Column α)} (hm : Spec.Matrix x)
    (hx : Spec.Reads 0 x xs) (hy : Spec.Reads xs.length y ys) (ext : Ext α) : validateDual ext x y = .ok (xs, ys) := by
  have hY := hy.toFrame ext
  have key : ∀ x' : Table α, x.listToArray ext = .ok x' → x'.width = .ok xs.length →
      x'.toFrame ext 0 = .ok (some xs) → validateDual ext x y = .ok (xs, ys) := by
    intro x' h1 h2 h3
    unfold validateDual
    rw [h1]
    show (do
      let maxCol ← x'.width
      let x ← x'.toFrame ext 0
      let y ← y.toFrame ext maxCol
      let x ← asFrame "x" x
      let y ← asFrame "y" y
      return (x, y)) = _
    rw [h2, h3]
    show (do
      let y ← y.toFrame ext xs.length
      let x ← asFrame "x" (some xs)
      let y ← asFrame "y" y
      return (x, y)) = _
    rw [hY]
    rfl
  have hn : ∀ cols : List (Column α), (Spec.named 0 cols).length = cols.length := fun cols => by simp [Spec.named]
  have hX := hx.toFrame ext
  cases hx with
  | frame => exact key _ rfl rfl rfl
  | dict => exact hm.elim
  | series => exact hm.elim
  | vector => exact hm.elim
  | list => exact hm.elim
  | empty => exact hm.elim
  | matrix => exact key _ rfl (by rw [hn]; rfl) hX
  | rows h0 hs hu =>
    obtain ⟨a, h1, ⟨buf, rfl⟩, h2⟩ := matrix_frame ext h0 hu hs
    refine key (.array (.two _ buf)) (by simp only [Table.listToArray, h1]; rfl) (by rw [hn]; rfl) ?_
    show Except.ok (some ((NdArray.two _ buf).toFrame 0)) = _
    rw [h2]

/-- C85: whatever the form of the tables, the columns of `x` are the inputs and those of `y` the targets; a column
without a name is named by its position, where the columns of `y` come after those of `x`. -/
theorem C85_names (cfg : GenConf α) (ext : Ext α) {x y : Table α} {xs ys : List (String × Column α)} (hm : Spec.Matrix x)
    (hx : Spec.Reads 0 x xs) (hy : Spec.Reads xs.length y ys) (e : Estimator α) :
    Estimator.fitTable cfg ext x y e = Estimator.fit cfg ext xs ys e ∧
    Estimator.predictTable cfg ext x e = Estimator.predictTable cfg ext (.frame xs) e ∧
    Estimator.scoreTable cfg ext x y e = Estimator.scoreTable cfg ext (.frame xs) (.frame ys) e := by
  have hv := hx.validate hm hy ext
  have hv' := (Spec.Reads.frame (start := 0) xs).validate (x := .frame xs) (y := .frame ys) (by trivial) (.frame ys) ext
  refine ⟨?_, ?_, ?_⟩
  · simp only [Estimator.fitTable, hv]
  · rw [Estimator.predictTable, hx.toFrame ext]; rfl
  · simp only [Estimator.scoreTable, hv, hv']

/-- C85: `predict` also reads tables that `fit` refuses. -/
theorem C85_predict (cfg : GenConf α) (ext : Ext α) {x : Table α} {xs : List (String × Column α)} (hx : Spec.Reads 0 x xs)
    (e : Estimator α) : Estimator.predictTable cfg ext x e = Estimator.predictTable cfg ext (.frame xs) e := by
  rw [Estimator.predictTable, hx.toFrame ext]; rfl

/-- A data frame with two columns and a vector of classes, which gets the name `2`; a series keeps its name. -/
example (c : Column ℚ) := (C85_names Ex.conf Ex.ext (x := .frame [("a", .ints [1, 2]), ("b", .floats [1/2, 3/2])]) (y := .array (.one c))
  (by trivial)
  (.frame [("a", .ints [1, 2]), ("b", .floats [1/2, 3/2])]) (.vector c) Ex.est0).1
example (c : Column ℚ) := (C85_names Ex.conf Ex.ext (x := .frame [("a", .ints [1, 2])]) (by trivial) (.frame [("a", .ints [1, 2])]) (.series "class" c) Ex.est0).1
/-- A matrix of two rows and three columns. -/
example : Spec.Reads (α := ℚ) 0 (.array (.two 3 (.ints [1, 2, 3, 4, 5, 6])))
    [("0", .ints [1, 4]), ("1", .ints [2, 5]), ("2", .ints [3, 6])] :=
  .matrix (n := 2) (cols := [.ints [1, 4], .ints [2, 5], .ints [3, 6]]) (by decide) (by decide) (by simp [Column.size])
    (.inr (.inr (.inl ⟨[[1, 4], [2, 5], [3, 6]], rfl⟩))) (by decide +kernel)

/-! ### C84: one type for all cells of a list -/

/-- The cell of a list with these cells: one text makes all texts, one float makes all numbers floats, one integer makes
all truth values integers. -/
inductive Spec.Common (x : Ext α) (cells : List (Cell α)) : (Cell α → Cell α) → Prop
  | texts (s : String) : .str s ∈ cells → Spec.Common x cells fun c => .str (Cell.text x c)
  | floats (v : α) : .float v ∈ cells → (∀ s, .str s ∉ cells) → Spec.Common x cells fun c => match c with
      | .int i => .float (lit i)
      | .bool b => .float (lit (if b then 1 else 0))
      | c => c
  | ints (i : Int) : .int i ∈ cells → (∀ s, .str s ∉ cells) → (∀ v, .float v ∉ cells) → Spec.Common x cells fun c =>
      match c with
      | .bool b => .int (if b then 1 else 0)
      | c => c
  | bools : (∀ c ∈ cells, ∃ b, c = .bool b) → Spec.Common x cells id

theorem Spec.Common.array {x : Ext α} {cells : List (Cell α)} {f : Cell α → Cell α} (h : Spec.Common x cells f) :
    npArray x (cells.map f) = npArray x cells := by
  have hs : cells.any Cell.isStr = true ↔ ∃ s, .str s ∈ cells := by
    rw [List.any_eq_true]
    exact ⟨fun ⟨c, hc, h⟩ => by cases c <;> simp [Cell.isStr] at h; exact ⟨_, hc⟩, fun ⟨s, h⟩ => ⟨_, h, rfl⟩⟩
  have hf : cells.any Cell.isFloat = true ↔ ∃ s, .float s ∈ cells := by
    rw [List.any_eq_true]
    exact ⟨fun ⟨c, hc, h⟩ => by cases c <;> simp [Cell.isFloat] at h; exact ⟨_, hc⟩, fun ⟨s, h⟩ => ⟨_, h, rfl⟩⟩
  have hi : cells.any Cell.isInt = true ↔ ∃ s, .int s ∈ cells := by
    rw [List.any_eq_true]
    exact ⟨fun ⟨c, hc, h⟩ => by cases c <;> simp [Cell.isInt] at h; exact ⟨_, hc⟩, fun ⟨s, h⟩ => ⟨_, h, rfl⟩⟩
  have col : ∀ c : Column α, c.size ≠ 0 → Spec.cells c = cells.map f → npArray x cells = c →
      npArray x (cells.map f) = npArray x cells := fun c h1 h2 h3 => by rw [← h2, flat_frame x c h1, h3]
  have hlen : ∀ c, c ∈ cells → cells.length ≠ 0 := fun c hc e => by
    rw [List.length_eq_zero_iff.1 e] at hc; cases hc
  cases h with
  | texts s h =>
    refine col (.strs (cells.map (Cell.text x))) (by simpa [Column.size] using hlen _ h) (by simp [Spec.cells]) ?_
    unfold npArray
    rw [if_pos (hs.2 ⟨s, h⟩)]
  | floats v h h1 =>
    refine col (.floats (cells.map Cell.toFloat)) (by simpa [Column.size] using hlen _ h) ?_ ?_
    · simp only [Spec.cells, List.map_map]
      refine List.map_congr_left fun c hc => ?_
      cases c with
      | str s => exact absurd hc (h1 s)
      | _ => rfl
    · unfold npArray
      rw [if_neg (fun h => (hs.1 h).elim h1), if_pos (by rw [hf.2 ⟨v, h⟩]; rfl)]
  | ints i h h1 h2 =>
    refine col (.ints (cells.map Cell.toInt)) (by simpa [Column.size] using hlen _ h) ?_ ?_
    · simp only [Spec.cells, List.map_map]
      refine List.map_congr_left fun c hc => ?_
      cases c with
      | str s => exact absurd hc (h1 s)
      | float v => exact absurd hc (h2 v)
      | _ => rfl
    · have h3 : ¬ (cells.any Cell.isFloat || cells.isEmpty) = true := by
        intro e
        rcases Bool.or_eq_true_iff.1 e with e | e
        · exact (hf.1 e).elim h2
        · exact hlen _ h (by rw [List.isEmpty_iff.1 e]; rfl)
      unfold npArray
      rw [if_neg (fun h => (hs.1 h).elim h1), if_neg h3, if_pos (hi.2 ⟨i, h⟩)]
  | bools h => rw [List.map_id]

theorem Spec.Common.matrix {x : Ext α} {rs : List (List (Cell α))} {f : Cell α → Cell α}
    (h : Spec.Common x rs.flatten f) : npMatrix x (rs.map (List.map f)) = npMatrix x rs := by
  cases rs with
  | nil => rfl
  | cons r rs =>
    have e : ∀ l : List (List (Cell α)), (l.map (List.map f)).all (fun r' => r'.length == (r.map f).length) =
        l.all (fun r' => r'.length == r.length) := fun l => by
      rw [List.all_map]
      congr 1
      funext r'
      simp
    show (if (rs.map (List.map f)).all (fun r' => r'.length == (r.map f).length) then
      Except.ok (NdArray.two (r.map f).length (npArray x ((r :: rs).map (List.map f)).flatten)) else _) = _
    rw [e, ← List.map_flatten, h.array, List.length_map]
    rfl

/-- C84: the cells of a list of rows, and those of a list, are brought to one type. -/
theorem C84_common (cfg : GenConf α) (x : Ext α) {rs : List (List (Cell α))} {cs : List (Cell α)} {f g : Cell α → Cell α}
    (hf : Spec.Common x rs.flatten f) (hg : Spec.Common x cs g) (t : Table α) (e : Estimator α) :
    Estimator.fitTable cfg x (.rows rs) t e = Estimator.fitTable cfg x (.rows (rs.map (List.map f))) t e ∧
    Estimator.fitTable cfg x t (.rows rs) e = Estimator.fitTable cfg x t (.rows (rs.map (List.map f))) e ∧
    Estimator.fitTable cfg x t (.flat cs) e = Estimator.fitTable cfg x t (.flat (cs.map g)) e ∧
    Estimator.predictTable cfg x (.rows rs) e = Estimator.predictTable cfg x (.rows (rs.map (List.map f))) e ∧
    Estimator.predictTable cfg x (.flat cs) e = Estimator.predictTable cfg x (.flat (cs.map g)) e := by
  have h1 := hf.matrix
  have h2 := hg.array
  have l1 : Table.listToArray x (.rows (rs.map (List.map f))) = Table.listToArray x (.rows rs) := by
    simp only [Table.listToArray, h1]
  have t1 : ∀ s, Table.toFrame x s (.rows (rs.map (List.map f))) = Table.toFrame x s (.rows rs) := fun s => by
    simp only [Table.toFrame, h1]
  have t2 : ∀ s, Table.toFrame x s (.flat (cs.map g)) = Table.toFrame x s (.flat cs) := fun s => by
    simp only [Table.toFrame, h2]
  refine ⟨?_, ?_, ?_, ?_, ?_⟩
  · simp only [Estimator.fitTable, validateDual, l1]
  · simp only [Estimator.fitTable, validateDual, t1]
  · simp only [Estimator.fitTable, validateDual, t2]
  · simp only [Estimator.predictTable, t1]
  · simp only [Estimator.predictTable, t2]

/-- C84: this covers every list. -/
theorem C84_kinds (x : Ext α) (cells : List (Cell α)) : ∃ f, Spec.Common x cells f := by
  by_cases hs : ∃ s, .str s ∈ cells
  · exact hs.elim fun s h => ⟨_, .texts s h⟩
  by_cases hf : ∃ v, .float v ∈ cells
  · exact hf.elim fun s h => ⟨_, .floats s h fun s h => hs ⟨s, h⟩⟩
  by_cases hi : ∃ v, .int v ∈ cells
  · exact hi.elim fun s h => ⟨_, .ints s h (fun s h => hs ⟨s, h⟩) (fun s h => hf ⟨s, h⟩)⟩
  refine ⟨_, .bools fun c hc => ?_⟩
  cases c with
  | str s => exact absurd ⟨s, hc⟩ hs
  | float s => exact absurd ⟨s, hc⟩ hf
  | int s => exact absurd ⟨s, hc⟩ hi
  | bool b => exact ⟨b, rfl⟩

/-- A text beside a number: the number becomes a text.  A truth value beside a number becomes a number. -/
example := (C84_common Ex.conf Ex.ext (rs := [[.str "red", .int 3], [.str "blue", .int 4]]) (cs := [.bool true, .int 0])
  (.texts "red" (by simp)) (.ints 0 (by simp) (by simp) (by simp)) (.frame []) Ex.est0).1
example : (npArray Ex.ext [.str "red", .int 3, .str "blue", .int 4] : Column ℚ) = .strs ["red", "3", "blue", "4"] := rfl

/-! ### C86: score -/

/-- C86: before `fit` has returned, `score` is refused whatever the tables. -/
theorem C86_unfitted {cfg : GenConf α} {e0 e : Estimator α} (hn : Spec.New e0) (h : Spec.Hist cfg e0 false e) (ext : Ext α)
    (x y : Table α) : Estimator.scoreTable cfg ext x y e = (.error notFitted, e) := by
  unfold Estimator.scoreTable
  rw [(h.ok hn).2]
  rfl

/-- C86: `score` compares the predictions for the rows of `x` with the cells of `y`. -/
theorem C86_scores {cfg : GenConf α} {ext : Ext α} (ht : ∀ i : Int, ext.trunc (lit i) = .ok i)
    (xs ys : List (String × Column α)) (e : Estimator α) :
    Estimator.scoreTable cfg ext (.frame xs) (.frame ys) e =
      Estimator.score cfg ext (Spec.tableRows xs) (ys.map fun p => (p.1, Spec.cells p.2)) e := by
  have hp : Estimator.predict cfg ext (frameRows xs) e = Estimator.predict cfg ext (Spec.tableRows xs) e :=
    C86_cells cfg ht xs e
  have hc : (ys.map fun p => (p.1, p.2.cells)) = ys.map fun p => (p.1, Spec.cells p.2) :=
    List.map_congr_left fun p _ => by rcases p with ⟨_, c⟩; cases c <;> rfl
  have hv : validateDual ext (.frame xs) (.frame ys) = .ok (xs, ys) := rfl
  unfold Estimator.scoreTable
  simp only [hv]
  rw [score_unfold, score_unfold, hp, hc]
  split <;> rfl

/-- The estimator that has not been fitted, and the one that was fitted with colours and classes. -/
example := C86_unfitted (cfg := Ex.conf) Ex.est0_new .start Ex.ext (.frame Ex.xs) (.other none)
example := C86_scores (α := ℚ) (cfg := Ex.conf) (ext := { Ex.ext with trunc := fun v => .ok ⌊v⌋ })
  (fun i => by show Except.ok ⌊(i : ℚ)⌋ = _; rw [Int.floor_intCast]) Ex.xs Ex.ys Ex.est1

end PyFCM
