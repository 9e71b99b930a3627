import Verif.Props.LoadDataset
/-
White space around the lines of a csv file (C52, C57, C98).
-/
namespace PyFCM
open Arith

set_option linter.unusedSectionVars false

variable {α β : Type} [Arith α] [DecidableEq β]

/-- A blank character of a text line. -/
def Spec.Blank (c : Char) : Prop := c ∈ [' ', '\t', '\n', '\r', '\x0b', '\x0c']

/-- `s` is the line without the blanks around it. -/
structure Spec.Trimmed (line s : String) : Prop where
  parts : ∃ pre post : List Char, line.toList = pre ++ s.toList ++ post ∧ (∀ c ∈ pre, Spec.Blank c) ∧ ∀ c ∈ post, Spec.Blank c
  first : ∀ c, s.toList.head? = some c → ¬ Spec.Blank c
  last : ∀ c, s.toList.getLast? = some c → ¬ Spec.Blank c

theorem isPySpace_iff (c : Char) : isPySpace c = true ↔ Spec.Blank c := by
  simp [isPySpace, Spec.Blank, or_assoc]

theorem dropWhile_prefix {p : Char → Bool} : ∀ {pre l : List Char}, (∀ c ∈ pre, p c = true) →
    (∀ c, l.head? = some c → p c = false) → (pre ++ l).dropWhile p = l
  | [], [], _, _ => rfl
  | [], c :: l, _, h => by simp [h c rfl]
  | a :: pre, l, h, h' => by
    rw [List.cons_append, List.dropWhile_cons_of_pos (h a (by simp))]
    exact dropWhile_prefix (fun c hc => h c (by simp [hc])) h'

theorem trimmed_strip {line s : String} (h : Spec.Trimmed line s) : pyStrip line = s := by
  obtain ⟨⟨pre, post, e, h1, h2⟩, h3, h4⟩ := h
  have neg : ∀ c, ¬ Spec.Blank c → isPySpace c = false := fun c hc =>
    Bool.eq_false_iff.2 fun h => hc ((isPySpace_iff c).1 h)
  unfold pyStrip
  rw [e]
  by_cases hs : s.toList = []
  · have hall : (pre ++ s.toList ++ post).dropWhile isPySpace = [] := by
      rw [hs, List.append_nil, ← List.append_nil (pre ++ post)]
      refine dropWhile_prefix (fun c hc => ?_) (by simp)
      rcases List.mem_append.1 hc with hc | hc
      · exact (isPySpace_iff c).2 (h1 c hc)
      · exact (isPySpace_iff c).2 (h2 c hc)
    rw [hall]
    have : s = "" := by rw [← String.ofList_toList (s := s), hs]
    rw [this]
    rfl
  · rw [List.append_assoc, dropWhile_prefix (fun c hc => (isPySpace_iff c).2 (h1 c hc)), List.reverse_append,
      dropWhile_prefix (fun c hc => (isPySpace_iff c).2 (h2 c (List.mem_reverse.1 hc))), List.reverse_reverse,
      String.ofList_toList]
    · intro c hc
      rw [List.head?_reverse] at hc
      exact neg c (h4 c hc)
    · intro c hc
      rw [List.head?_append_of_ne_nil _ hs] at hc
      exact neg c (h3 c hc)

theorem trimmed_self {line s : String} (h : Spec.Trimmed line s) : Spec.Trimmed s s :=
  ⟨⟨[], [], by simp, by simp, by simp⟩, h.first, h.last⟩

theorem trimmed_map {raw lines : List String} (h : List.Forall₂ Spec.Trimmed raw lines) :
    raw.map pyStrip = lines ∧ lines.map pyStrip = lines := by
  induction h with
  | nil => exact ⟨rfl, rfl⟩
  | cons h _ ih => exact ⟨by rw [List.map_cons, trimmed_strip h, ih.1], by
      rw [List.map_cons, trimmed_strip (trimmed_self h), ih.2]⟩

/-- C52: blanks around the lines do not matter. -/
theorem C52_lines (name : String) {raw lines : List String} (h : List.Forall₂ Spec.Trimmed raw lines) :
    loadCsv name raw = loadCsv name lines := by
  unfold loadCsv
  rw [(trimmed_map h).1, (trimmed_map h).2]

/-- C57: nor for the strict reader. -/
theorem C57_lines (parse : String → Option β) (text : String → β) (name : String) {raw lines : List String}
    (h : List.Forall₂ Spec.Trimmed raw lines) : loadDatasetCsv parse text name raw = loadDatasetCsv parse text name lines := by
  unfold loadDatasetCsv
  rw [(trimmed_map h).1, (trimmed_map h).2]

/-- C98: nor for `load_dataset`; with `C98_loads` this says what is loaded from lines as they stand in a file. -/
theorem C98_lines (parse : String → Option β) (text : String → β) (eval : β → Option β) (kind : β → ValueKind)
    (missing : β → Bool) (recode : Bool) (maxInt : Nat) (factor : α) (path : String) {raw lines : List String}
    (arff : Option (List String × List (List β))) (h : List.Forall₂ Spec.Trimmed raw lines) :
    loadDataset parse text eval kind missing recode maxInt factor path ⟨some raw, arff⟩ =
      loadDataset parse text eval kind missing recode maxInt factor path ⟨some lines, arff⟩ := by
  unfold loadDataset readColumns
  simp only [Option.map_some, (trimmed_map h).1, (trimmed_map h).2]
  cases arff <;> rfl

/-- Lines as they stand in a file. -/
example : List.Forall₂ Spec.Trimmed ["a,b\r\n", " 1, 2\n", "\n"] ["a,b", "1, 2", ""] := by
  refine .cons ⟨⟨[], ['\r', '\n'], by decide, ?_, ?_⟩, ?_, ?_⟩
    (.cons ⟨⟨[' '], ['\n'], by decide, ?_, ?_⟩, ?_, ?_⟩ (.cons ⟨⟨['\n'], [], by decide, ?_, ?_⟩, ?_, ?_⟩ .nil)) <;>
    simp [Spec.Blank]

end PyFCM
