import Verif.Lemmas.JsonRead
import Verif.Props.Reload
import Verif.Props.JoinRun
/-
C119: the text `to_json` writes, and what `from_json` reads.
-/
namespace PyFCM
open Arith Spec

/-! ### Values -/

/-- C119: a value is read back as it was written. -/
theorem C119_value {j : Json} (h : Proper j) : loads (dumps j) = some j := by
  unfold loads
  have h1 := skipWs_dumps h []
  have h2 := readValue_dumps j h ((dumps j).length + 1) (by omega) [] stops_nil
  rw [List.append_nil] at h1 h2
  rw [h1, h2]
  rfl

/-- C119: … also with white space around it. -/
theorem C119_spaces {j : Json} (h : Proper j) {a b : List Char} (ha : ∀ c ∈ a, c ∈ " \t\n\r".toList)
    (hb : ∀ c ∈ b, c ∈ " \t\n\r".toList) : loads (a ++ dumps j ++ b) = some j := by
  have hws : ∀ c, c ∈ " \t\n\r".toList → IsWs c := by intro c h; simpa [IsWs] using h
  have hst : Stops b := by
    intro c s e
    have : c ∈ " \t\n\r".toList := hb c (by rw [e]; simp)
    have : ∀ c ∈ " \t\n\r".toList, c ∉ "0123456789".toList ∧ c ≠ '.' ∧ c ≠ 'e' ∧ c ≠ 'E' := by decide
    exact this c ‹_›
  unfold loads
  rw [List.append_assoc, skipWs_ws (fun c h => hws c (ha c h)), skipWs_dumps h,
    readValue_dumps j h _ (by simp only [List.length_append]; omega) b hst]
  simp only
  have := skipWs_ws (fun c h => hws c (hb c h)) []
  rw [List.append_nil] at this
  rw [this]
  rfl

/-- C119: whatever the text, what is read is a proper value; so writing and reading it again changes nothing. -/
theorem C119_read {s : List Char} {j : Json} (h : loads s = some j) : Proper j ∧ loads (dumps j) = some j := by
  have : Proper j := by
    unfold loads at h
    split at h
    · rename_i j' r hr
      split at h
      · injection h with h; subst h
        exact ((read_spec _).1 _ _ _ hr).1
      · cases h
    · cases h
  exact ⟨this, C119_value this⟩

/-- C119: the reader never gives up for want of fuel: more of it makes no difference. -/
theorem C119_fuel (s : List Char) (n : Nat) (hn : s.length < n) :
    loads s = match readValue n (skipWs s) with
      | some (j, r) => if skipWs r = [] then some j else none
      | none => none := by
  unfold loads
  rw [(read_fuel n).1 (s.length + 1) (skipWs s) (Nat.lt_of_le_of_lt (skipWs_length s) hn)
    (Nat.lt_succ_of_le (skipWs_length s))]
  rfl

/-- C119: different values have different texts. -/
theorem C119_distinct {j k : Json} (hj : Proper j) (hk : Proper k) (h : dumps j = dumps k) : j = k := by
  have := C119_value hj
  rw [h, C119_value hk] at this
  injection this with this
  exact this.symm

theorem escapeBody_ascii (s : String) : ∀ c ∈ escapeBody s, 32 ≤ c.toNat ∧ c.toNat ≤ 126 := by
  intro c h
  unfold escapeBody at h
  rcases List.mem_append.mp h with h | h
  · obtain ⟨d, _, h⟩ := List.mem_flatMap.mp h
    exact escapeChar_ascii d c h
  · simp only [List.mem_singleton] at h; subst h; decide

mutual
theorem dumps_ascii : ∀ j : Json, Proper j → ∀ c ∈ dumps j, 32 ≤ c.toNat ∧ c.toNat ≤ 126
  | .null, _ => by simp only [dumps]; decide
  | .bool true, _ => by simp only [dumps]; decide
  | .bool false, _ => by simp only [dumps]; decide
  | .num l, h => by rw [Proper] at h; rw [dumps]; exact isNumber_ascii h
  | .str s, _ => by
    rw [dumps]; intro c h
    rcases List.mem_cons.mp h with h | h
    · subst h; decide
    · exact escapeBody_ascii s c h
  | .arr [], _ => by simp only [dumps, dumpsItems]; decide
  | .arr (x :: xs), h => by
    rw [Proper, ProperItems] at h
    rw [dumps, dumpsItems]; intro c hc
    rcases List.mem_cons.mp hc with hc | hc
    · subst hc; decide
    · rcases List.mem_append.mp hc with hc | hc
      · exact dumps_ascii x h.1 c hc
      · exact dumpsMore_ascii xs h.2 c hc
  | .obj [], _ => by simp only [dumps, dumpsFields]; decide
  | .obj ((k, x) :: fs), h => by
    rw [Proper, ProperFields] at h
    rw [dumps, dumpsFields]; intro c hc
    simp only [List.mem_cons, List.mem_append] at hc
    rcases hc with hc | hc | hc | hc | hc | hc | hc
    · subst hc; decide
    · subst hc; decide
    · exact escapeBody_ascii k c hc
    · subst hc; decide
    · subst hc; decide
    · exact dumps_ascii x h.2.1 c hc
    · exact dumpsMoreFields_ascii fs h.2.2 c hc
theorem dumpsMore_ascii : ∀ xs : List Json, ProperItems xs → ∀ c ∈ dumpsMore xs, 32 ≤ c.toNat ∧ c.toNat ≤ 126
  | [], _ => by simp only [dumpsMore]; decide
  | x :: xs, h => by
    rw [ProperItems] at h
    rw [dumpsMore]; intro c hc
    simp only [List.mem_cons, List.mem_append] at hc
    rcases hc with hc | hc | hc | hc
    · subst hc; decide
    · subst hc; decide
    · exact dumps_ascii x h.1 c hc
    · exact dumpsMore_ascii xs h.2 c hc
theorem dumpsMoreFields_ascii : ∀ fs : List (String × Json), ProperFields fs →
    ∀ c ∈ dumpsMoreFields fs, 32 ≤ c.toNat ∧ c.toNat ≤ 126
  | [], _ => by simp only [dumpsMoreFields]; decide
  | (k, x) :: fs, h => by
    rw [ProperFields] at h
    rw [dumpsMoreFields]; intro c hc
    simp only [List.mem_cons, List.mem_append] at hc
    rcases hc with hc | hc | hc | hc | hc | hc | hc | hc
    · subst hc; decide
    · subst hc; decide
    · subst hc; decide
    · exact escapeBody_ascii k c hc
    · subst hc; decide
    · subst hc; decide
    · exact dumps_ascii x h.1 c hc
    · exact dumpsMoreFields_ascii fs h.2 c hc
end

/-- C119: the text is printable ASCII, whatever the names. -/
theorem C119_ascii {j : Json} (h : Proper j) : ∀ c ∈ dumps j, 32 ≤ c.toNat ∧ c.toNat ≤ 126 := dumps_ascii j h

/-! ### Integers -/

theorem hexDigit_digit {n : Nat} (h : n < 10) :
    hexDigit n ∈ "0123456789".toList ∧ (hexDigit n).toNat - 48 = n ∧ (n ≠ 0 → hexDigit n ≠ '0') := by
  have : ∀ n < 10, hexDigit n ∈ "0123456789".toList ∧ (hexDigit n).toNat - 48 = n ∧ (n ≠ 0 → hexDigit n ≠ '0') := by
    decide
  exact this n h

theorem natValue_snoc {ds : List Char} {n : Nat} (h : natValue ds = some n) {k : Nat} (hk : k < 10) :
    natValue (ds ++ [hexDigit k]) = some (n * 10 + k) := by
  unfold natValue at h ⊢
  rw [List.foldl_append, h]
  have hd := hexDigit_digit hk
  have : isDigit (hexDigit k) = true := isDigit_iff.mpr hd.1
  simp [this, hd.2.1]

theorem natText_spec (k n : Nat) (h : n ≤ k) :
    natValue (natTextAux k n) = some n ∧ (n = 0 → natTextAux k n = ['0']) ∧
    (n ≠ 0 → ∃ d t, natTextAux k n = d :: t ∧ d ≠ '0' ∧ ∀ c ∈ d :: t, c ∈ "0123456789".toList) := by
  induction k generalizing n with
  | zero =>
    have : n = 0 := by omega
    subst this
    exact ⟨by decide, fun _ => by decide, fun h => absurd rfl h⟩
  | succ k ih =>
    unfold natTextAux
    split
    · rename_i h10
      have hd := hexDigit_digit h10
      refine ⟨?_, ?_, ?_⟩
      · have := natValue_snoc (ds := []) (n := 0) rfl h10
        simpa using this
      · intro h0; subst h0; decide
      · intro h0
        refine ⟨hexDigit n, [], rfl, hd.2.2 h0, ?_⟩
        intro c hc
        simp only [List.mem_singleton] at hc
        subst hc; exact hd.1
    · have hr := ih (n / 10) (by omega)
      have h10 : n % 10 < 10 := Nat.mod_lt _ (by omega)
      have hd := hexDigit_digit h10
      refine ⟨?_, fun h0 => by omega, fun h0 => ?_⟩
      · rw [natValue_snoc hr.1 h10]
        congr 1; omega
      · obtain ⟨d, t, e, hd0, hds⟩ := hr.2.2 (by omega)
        refine ⟨d, t ++ [hexDigit (n % 10)], by rw [e]; rfl, hd0, ?_⟩
        intro c hc
        rw [← List.cons_append] at hc
        rcases List.mem_append.mp hc with hc | hc
        · exact hds c hc
        · simp only [List.mem_singleton] at hc
          subst hc; exact hd.1

theorem natText_int (n : Nat) : IntPart (natTextAux n n) := by
  obtain ⟨_, h0, h1⟩ := natText_spec n n (Nat.le_refl _)
  by_cases h : n = 0
  · exact .inl (h0 h)
  · exact .inr (h1 h)

/-- Integers are spelt as JSON numbers and read back. -/
theorem C119_int (i : Int) : IsNumber (intText i) ∧ intValue (intText i) = some i := by
  cases i with
  | ofNat n =>
    refine ⟨.inr (.inr (.inr ⟨[], natTextAux n n, [], [], by simp [intText], .inl rfl, natText_int n, .inl rfl, .inl rfl⟩)), ?_⟩
    have hv := (natText_spec n n (Nat.le_refl _)).1
    obtain ⟨d, t, e, hd⟩ := intPart_head (natText_int n)
    simp only [intText]
    unfold intValue
    split
    · rename_i s hs
      rw [e] at hs
      injection hs with hs _
      exact absurd hs (digit_ne hd _ (by decide))
    · rw [hv]; rfl
  | negSucc n =>
    refine ⟨.inr (.inr (.inr ⟨['-'], natTextAux (n + 1) (n + 1), [], [], by simp [intText], .inr rfl,
      natText_int _, .inl rfl, .inl rfl⟩)), ?_⟩
    have hv := (natText_spec (n + 1) (n + 1) (Nat.le_refl _)).1
    simp only [intText, intValue, hv]
    rfl

/-! ### Documents -/

section
variable {α : Type} [Arith α]

namespace Spec

/-- The number is spelt as JSON has it and its spelling means it. -/
def Faithful (N : Numerals α) (x : α) : Prop := IsNumber (N.text x) ∧ N.value (N.text x) = x

/-- The numbers in an argument. -/
def argNumbers : ArgVal α → List α
  | .num x => [x]
  | .arr xs => xs
  | .list xs => xs
  | .str _ => []

/-- The argument dictionaries of a document. -/
def dictionaries (d : MapDesc α) : List (Args α) :=
  d.activationFunctionArgs.toList ++
    (d.concepts.getD []).flatMap fun c => c.customFunctionArgs.toList ++ c.activationDict.toList

/-- The numbers of a document that are not integers by nature. -/
def docNumbers (d : MapDesc α) : List α :=
  d.stabilityDiff.toList ++ d.weight.toList ++ ((d.concepts.getD []).flatMap fun c => c.activation.toList) ++
    ((d.relations.getD []).map fun r => r.weight) ++ (dictionaries d).flatMap fun a => a.flatMap fun p => argNumbers p.2

/-- A document that can be written down: argument names are distinct, there are no numpy arrays, and its numbers can be
spelt. -/
structure Written (N : Numerals α) (d : MapDesc α) : Prop where
  names : ∀ a ∈ dictionaries d, (a.map Prod.fst).Nodup
  plain : ∀ a ∈ dictionaries d, ∀ p ∈ a, ∀ xs, p.2 ≠ .arr xs
  spelt : ∀ x ∈ docNumbers d, Faithful N x

end Spec

theorem present_get (L : List (String × Option Json)) (hL : (L.map Prod.fst).Nodup) {k : String} {o : Option Json}
    (h : (k, o) ∈ L) : Dict.get? (present L) k = o := by
  induction L with
  | nil => cases h
  | cons p L ih =>
    obtain ⟨a, b⟩ := p
    simp only [List.map_cons, List.nodup_cons] at hL
    have hnone : ∀ L : List (String × Option Json), a ∉ L.map Prod.fst → Dict.get? (present L) a = none := by
      intro L hL
      induction L with
      | nil => rfl
      | cons q L ih =>
        obtain ⟨a', b'⟩ := q
        simp only [List.map_cons, List.mem_cons, not_or] at hL
        cases b' with
        | none => exact ih hL.2
        | some x =>
          show Dict.get? ((a', x) :: present L) a = none
          rw [Dict.get?, if_neg (fun e => hL.1 e.symm)]
          exact ih hL.2
    rcases List.mem_cons.mp h with h' | h'
    · injection h' with h1 h2
      subst h1 h2
      cases o with
      | none => exact hnone L hL.1
      | some x =>
        show Dict.get? ((k, x) :: present L) k = some x
        simp [Dict.get?]
    · have hne : a ≠ k := fun e => hL.1 (List.mem_map.mpr ⟨_, h', e.symm⟩)
      cases b with
      | none => exact ih hL.2 h'
      | some x =>
        show Dict.get? ((a, x) :: present L) k = o
        rw [Dict.get?, if_neg hne]
        exact ih hL.2 h'

theorem field_present (L : List (String × Option Json)) (hL : (L.map Prod.fst).Nodup) {k : String} {β : Type}
    {o : Option β} {enc : β → Json} {dec : Json → Except Err β} (hm : (k, o.map enc) ∈ L)
    (h : ∀ x, o = some x → dec (enc x) = .ok x) : field (present L) k dec = .ok o := by
  unfold field
  rw [present_get L hL hm]
  cases o with
  | none => rfl
  | some x => simp only [Option.map_some]; rw [h x rfl]; rfl

theorem present_nodup (L : List (String × Option Json)) (hL : (L.map Prod.fst).Nodup) :
    ((present L).map Prod.fst).Nodup := by
  refine List.Nodup.sublist ?_ hL
  induction L with
  | nil => exact List.Sublist.refl _
  | cons p L ih =>
    obtain ⟨a, b⟩ := p
    simp only [List.map_cons, List.nodup_cons] at hL
    cases b with
    | none => exact List.Sublist.cons _ (ih hL.2)
    | some x => exact List.Sublist.cons_cons _ (ih hL.2)

theorem properFields_iff {fs : List (String × Json)} : ProperFields fs ↔ ∀ p ∈ fs, Proper p.2 := by
  induction fs with
  | nil => simp [ProperFields]
  | cons p fs ih => obtain ⟨k, x⟩ := p; rw [ProperFields, ih]; simp

theorem properItems_iff {xs : List Json} : ProperItems xs ↔ ∀ x ∈ xs, Proper x := by
  induction xs with
  | nil => simp [ProperItems]
  | cons x xs ih => rw [ProperItems, ih]; simp

theorem present_proper (L : List (String × Option Json)) (hL : (L.map Prod.fst).Nodup)
    (h : ∀ p ∈ L, ∀ x, p.2 = some x → Proper x) : Proper (.obj (present L)) := by
  rw [Proper]
  refine ⟨present_nodup L hL, properFields_iff.mpr ?_⟩
  intro p hp
  unfold present at hp
  obtain ⟨q, hq, e⟩ := List.mem_filterMap.mp hp
  rw [Option.map_eq_some_iff] at e
  obtain ⟨x, e1, e2⟩ := e
  subst e2
  exact h q hq x e1

theorem mapM_back {β γ : Type} {f : γ → Except Err β} {g : β → γ} (xs : List β) (h : ∀ x ∈ xs, f (g x) = .ok x) :
    (xs.map g).mapM f = .ok xs := by
  induction xs with
  | nil => rfl
  | cons x xs ih =>
    rw [List.map_cons, List.mapM_cons, h x (by simp), ih fun y hy => h y (List.mem_cons_of_mem _ hy)]
    rfl

omit [Arith α] in
theorem arg_back {N : Numerals α} {v : ArgVal α} (h : ∀ xs, v ≠ .arr xs) (hn : ∀ x ∈ argNumbers v, Faithful N x) :
    (argJson N v).asArg N = .ok v ∧ Proper (argJson N v) := by
  cases v with
  | num x =>
    have := hn x (by simp [argNumbers])
    exact ⟨by simp [argJson, Json.asArg, this.2], by rw [argJson, Proper]; exact this.1⟩
  | arr xs => exact absurd rfl (h xs)
  | list xs =>
    refine ⟨?_, ?_⟩
    · simp only [argJson, Json.asArg]
      rw [mapM_back xs fun x hx => by
        have := (hn x (by simpa [argNumbers] using hx)).2
        simp [Json.asNum, this]]
      rfl
    · rw [argJson, Proper, properItems_iff]
      intro j hj
      obtain ⟨x, hx, e⟩ := List.mem_map.mp hj
      subst e
      rw [Proper]; exact (hn x (by simpa [argNumbers] using hx)).1
  | str s => exact ⟨rfl, by simp [argJson, Proper]⟩

omit [Arith α] in
theorem args_back {N : Numerals α} {a : Args α} (h1 : (a.map Prod.fst).Nodup) (h2 : ∀ p ∈ a, ∀ xs, p.2 ≠ .arr xs)
    (h3 : ∀ p ∈ a, ∀ x ∈ argNumbers p.2, Faithful N x) :
    (argsJson N a).asArgs N = .ok a ∧ Proper (argsJson N a) := by
  refine ⟨?_, ?_⟩
  · simp only [argsJson, Json.asArgs, Json.asDict, bind, Except.bind]
    refine mapM_back a fun p hp => ?_
    simp only [(arg_back (h2 p hp) (h3 p hp)).1]
    rfl
  · rw [argsJson, Proper, List.map_map]
    refine ⟨h1, properFields_iff.mpr ?_⟩
    intro p hp
    obtain ⟨q, hq, e⟩ := List.mem_map.mp hp
    subst e
    exact (arg_back (h2 q hq) (h3 q hq)).2

theorem proper_str (s : String) : Proper (.str s) := by simp [Proper]
theorem proper_bool (b : Bool) : Proper (.bool b) := by simp [Proper]

omit [Arith α] in
theorem concept_back {N : Numerals α} {c : ConceptDesc α} (ha : ∀ x, c.activation = some x → Faithful N x)
    (h1 : ∀ a, c.activationDict = some a → (argsJson N a).asArgs N = .ok a ∧ Proper (argsJson N a))
    (h2 : ∀ a, c.customFunctionArgs = some a → (argsJson N a).asArgs N = .ok a ∧ Proper (argsJson N a)) :
    readConcept N (conceptJson N c) = .ok c ∧ Proper (conceptJson N c) := by
  refine ⟨?_, ?_⟩
  · unfold readConcept conceptJson
    simp only [Json.asDict, bind, Except.bind]
    rw [field_present _ (by simp) (o := some c.id) (enc := .str) (by simp) (fun x _ => rfl)]
    simp only
    rw [field_present _ (by simp) (o := c.isActive) (enc := .bool) (by simp) (fun x _ => rfl)]
    simp only
    rw [field_present _ (by simp) (o := c.type) (enc := .str) (by simp) (fun x _ => rfl)]
    simp only
    rw [field_present _ (by simp) (o := c.activation) (enc := fun x => .num (N.text x)) (by simp)
      (fun x hx => by simp [Json.asNum, (ha x hx).2])]
    simp only
    rw [field_present _ (by simp) (o := c.useMemory) (enc := .bool) (by simp) (fun x _ => rfl)]
    simp only
    rw [field_present _ (by simp) (o := c.customFunction) (enc := .str) (by simp) (fun x _ => rfl)]
    simp only
    rw [field_present _ (by simp) (o := c.activationDict) (enc := argsJson N) (by simp) (fun x hx => (h1 x hx).1)]
    simp only
    rw [field_present _ (by simp) (o := c.customFunctionArgs) (enc := argsJson N) (by simp) (fun x hx => (h2 x hx).1)]
    simp only
    rw [field_present _ (by simp) (o := c.active) (enc := .bool) (by simp) (fun x _ => rfl)]
    simp only
    rw [field_present _ (by simp) (o := c.memoryInfluence) (enc := .bool) (by simp) (fun x _ => rfl)]
    simp only
    rw [field_present _ (by simp) (o := c.exitationFunction) (enc := .str) (by simp) (fun x _ => rfl)]
    rfl
  · unfold conceptJson
    refine present_proper _ (by simp) ?_
    intro p hp x hx
    simp only [List.mem_cons, List.not_mem_nil, or_false] at hp
    rcases hp with h | h | h | h | h | h | h | h | h | h | h <;> subst h <;>
      simp only [Option.map_eq_some_iff, Option.some.injEq] at hx
    · subst hx; exact proper_str _
    · obtain ⟨y, _, e⟩ := hx; subst e; exact proper_bool _
    · obtain ⟨y, _, e⟩ := hx; subst e; exact proper_str _
    · obtain ⟨y, hy, e⟩ := hx; subst e; rw [Proper]; exact (ha y hy).1
    · obtain ⟨y, _, e⟩ := hx; subst e; exact proper_bool _
    · obtain ⟨y, _, e⟩ := hx; subst e; exact proper_str _
    · obtain ⟨y, hy, e⟩ := hx; subst e; exact (h1 y hy).2
    · obtain ⟨y, hy, e⟩ := hx; subst e; exact (h2 y hy).2
    · obtain ⟨y, _, e⟩ := hx; subst e; exact proper_bool _
    · obtain ⟨y, _, e⟩ := hx; subst e; exact proper_bool _
    · obtain ⟨y, _, e⟩ := hx; subst e; exact proper_str _

omit [Arith α] in
theorem rel_back {N : Numerals α} {r : RelDesc α} (h : Faithful N r.weight) :
    readRelation N (relJson N r) = .ok r ∧ Proper (relJson N r) := by
  refine ⟨?_, ?_⟩
  · simp [readRelation, relJson, Json.asDict, bind, Except.bind, field, Dict.get?, Json.asStr, Json.asNum, h.2, need, pure,
      Except.pure]
  · simp [relJson, Proper, ProperFields, h.1]

omit [Arith α] in
/-- C119: a document is read back as it was written, through a proper value. -/
theorem C119_document {N : Numerals α} {d : MapDesc α} (h : Written N d) :
    readDoc N (docJson N d) = .ok d ∧ Proper (docJson N d) := by
  have hargs : ∀ a ∈ dictionaries d, (argsJson N a).asArgs N = .ok a ∧ Proper (argsJson N a) := by
    intro a ha
    refine args_back (h.names a ha) (h.plain a ha) ?_
    intro p hp x hx
    refine h.spelt x ?_
    unfold docNumbers
    exact List.mem_append_right _ (List.mem_flatMap.mpr ⟨a, ha, List.mem_flatMap.mpr ⟨p, hp, hx⟩⟩)
  have hcs : ∀ cs, d.concepts = some cs → ∀ c ∈ cs,
      readConcept N (conceptJson N c) = .ok c ∧ Proper (conceptJson N c) := by
    intro cs e c hc
    have hc' : c ∈ d.concepts.getD [] := by rw [e]; exact hc
    refine concept_back ?_ ?_ ?_
    · intro x hx
      refine h.spelt x ?_
      unfold docNumbers
      refine List.mem_append_left _ (List.mem_append_left _ (List.mem_append_right _ ?_))
      exact List.mem_flatMap.mpr ⟨c, hc', by rw [hx]; simp⟩
    · intro a ha
      refine hargs a (List.mem_append_right _ (List.mem_flatMap.mpr ⟨c, hc', ?_⟩))
      rw [ha]; simp
    · intro a ha
      refine hargs a (List.mem_append_right _ (List.mem_flatMap.mpr ⟨c, hc', ?_⟩))
      rw [ha]; simp
  have hrs : ∀ rs, d.relations = some rs → ∀ r ∈ rs,
      readRelation N (relJson N r) = .ok r ∧ Proper (relJson N r) := by
    intro rs e r hr
    refine rel_back (h.spelt _ ?_)
    unfold docNumbers
    refine List.mem_append_left _ (List.mem_append_right _ ?_)
    exact List.mem_map.mpr ⟨r, by rw [e]; exact hr, rfl⟩
  have hsd : ∀ x, d.stabilityDiff = some x → Faithful N x := fun x hx => h.spelt x (by
    simp [docNumbers, hx])
  have hwt : ∀ x, d.weight = some x → Faithful N x := fun x hx => h.spelt x (by
    simp [docNumbers, hx])
  have haf : ∀ a, d.activationFunctionArgs = some a → (argsJson N a).asArgs N = .ok a ∧ Proper (argsJson N a) :=
    fun a ha => hargs a (List.mem_append_left _ (by rw [ha]; simp))
  have hint : ∀ i : Int, Json.asInt (.num (intText i)) = .ok i := fun i => by
    simp [Json.asInt, (C119_int i).2]
  refine ⟨?_, ?_⟩
  · unfold readDoc docJson
    simp only [Json.asDict, bind, Except.bind]
    rw [field_present _ (by simp) (o := d.maxIter) (enc := fun i => .num (intText i)) (by simp) (fun x _ => hint x)]
    simp only
    rw [field_present _ (by simp) (o := d.decisionFunction) (enc := .str) (by simp) (fun x _ => rfl)]
    simp only
    rw [field_present _ (by simp) (o := d.activationFunction) (enc := .str) (by simp) (fun x _ => rfl)]
    simp only
    rw [field_present _ (by simp) (o := d.memoryInfluence) (enc := .bool) (by simp) (fun x _ => rfl)]
    simp only
    rw [field_present _ (by simp) (o := d.stabilityDiff) (enc := fun x => .num (N.text x)) (by simp)
      (fun x hx => by simp [Json.asNum, (hsd x hx).2])]
    simp only
    rw [field_present _ (by simp) (o := d.stopAtStabilize) (enc := .bool) (by simp) (fun x _ => rfl)]
    simp only
    rw [field_present _ (by simp) (o := d.extraSteps) (enc := fun i => .num (intText i)) (by simp) (fun x _ => hint x)]
    simp only
    rw [field_present _ (by simp) (o := d.weight) (enc := fun x => .num (N.text x)) (by simp)
      (fun x hx => by simp [Json.asNum, (hwt x hx).2])]
    simp only
    rw [field_present _ (by simp) (o := d.concepts) (enc := fun cs => .arr (cs.map (conceptJson N))) (by simp)
      (fun cs e => mapM_back cs fun c hc => (hcs cs e c hc).1)]
    simp only
    rw [field_present _ (by simp) (o := d.relations) (enc := fun rs => .arr (rs.map (relJson N))) (by simp)
      (fun rs e => mapM_back rs fun r hr => (hrs rs e r hr).1)]
    simp only
    rw [field_present _ (by simp) (o := d.activationFunctionArgs) (enc := argsJson N) (by simp) (fun a ha => (haf a ha).1)]
    rfl
  · unfold docJson
    refine present_proper _ (by simp) ?_
    intro p hp x hx
    simp only [List.mem_cons, List.not_mem_nil, or_false] at hp
    rcases hp with h | h | h | h | h | h | h | h | h | h | h <;> subst h <;>
      simp only [Option.map_eq_some_iff] at hx <;> obtain ⟨y, hy, e⟩ := hx <;> subst e
    · rw [Proper]; exact (C119_int y).1
    · exact proper_str _
    · exact proper_str _
    · exact proper_bool _
    · rw [Proper]; exact (hsd y hy).1
    · exact proper_bool _
    · rw [Proper]; exact (C119_int y).1
    · rw [Proper]; exact (hwt y hy).1
    · rw [Proper, properItems_iff]
      intro j hj
      obtain ⟨c, hc, e⟩ := List.mem_map.mp hj
      subst e; exact (hcs y hy c hc).2
    · rw [Proper, properItems_iff]
      intro j hj
      obtain ⟨c, hc, e⟩ := List.mem_map.mp hj
      subst e; exact (hrs y hy c hc).2
    · exact (haf y hy).2

/-! ### Maps -/

omit [Arith α] in
theorem jsonArgs_plain {a b : Args α} (h : jsonArgs a = .ok b) : ∀ p ∈ a, ∀ xs, p.2 ≠ .arr xs := by
  unfold jsonArgs at h
  split at h
  · cases h
  · rename_i hn
    intro p hp xs e
    apply hn
    rw [List.any_eq_true]
    exact ⟨p, hp, by rw [e]⟩

/-- What `to_json` exports holds no numpy array. -/
theorem toJson_plain {m : FCM α} {d : MapDesc α} (h : m.toJson = .ok d) :
    ∀ a ∈ dictionaries d, ∀ p ∈ a, ∀ xs, p.2 ≠ .arr xs := by
  obtain ⟨cs, hcs, rfl, hw⟩ := toJson_ok h
  intro a ha
  rcases List.mem_append.mp ha with ha | ha
  · have : a = m.mapFn.args := by
      simp only [docOf] at ha
      split at ha
      · simp at ha
      · simpa using ha
    subst this
    exact jsonArgs_plain hw
  · obtain ⟨c, hc, ha⟩ := List.mem_flatMap.mp ha
    obtain ⟨p, _, hp⟩ := mapM_ok_mem hcs hc
    obtain ⟨_, _, f, _, _, _, cf, ca, ad, e, hcase⟩ := conceptToJson_ok hp
    subst e
    simp only [List.mem_append, Option.mem_toList] at ha
    rcases hcase with ⟨_, _, h1, h2⟩ | ⟨_, _, _, h1, fa, _, h2⟩ | ⟨_, _, _, h2, h1, hj⟩
    · subst h1 h2; simp at ha
    · subst h1 h2
      simp only [reduceCtorEq, Option.some.injEq, false_or] at ha
      subst ha
      intro p hp xs
      simp only [List.mem_cons, List.not_mem_nil, or_false] at hp
      rcases hp with h | h <;> subst h <;> simp
    · subst h2
      split at h1
      · subst h1; simp at ha
      · subst h1
        simp only [Option.some.injEq, reduceCtorEq, or_false] at ha
        subst ha
        exact jsonArgs_plain hj

/-- C119: for a document that can be written down, `from_json` of the text is `from_json` of the document. -/
theorem C119_load {N : Numerals α} {d : MapDesc α} (h : Written N d) :
    fromJsonText N (String.ofList (dumps (docJson N d))) = fromJson d := by
  obtain ⟨h1, h2⟩ := C119_document h
  unfold fromJsonText
  rw [String.toList_ofList, C119_value h2]
  simp only [h1]

/-- C119: the text of a map means the document: it is printable ASCII, `json.loads` gives the exported dictionary and
`from_json` the map of that dictionary. -/
theorem C119_text {N : Numerals α} {m : FCM α} {d : MapDesc α} (h : m.toJson = .ok d)
    (hk : ∀ a ∈ dictionaries d, (a.map Prod.fst).Nodup) (hn : ∀ x ∈ docNumbers d, Faithful N x) :
    ∃ s, m.toJsonText N = .ok s ∧ (∀ c ∈ s.toList, 32 ≤ c.toNat ∧ c.toNat ≤ 126) ∧
      loads s.toList = some (docJson N d) ∧ readDoc N (docJson N d) = .ok d ∧ fromJsonText N s = fromJson d := by
  have hw : Written N d := ⟨hk, toJson_plain h, hn⟩
  obtain ⟨h1, h2⟩ := C119_document hw
  refine ⟨String.ofList (dumps (docJson N d)), ?_, ?_, ?_, h1, C119_load hw⟩
  · unfold FCM.toJsonText; rw [h]; rfl
  · rw [String.toList_ofList]; exact C119_ascii h2
  · rw [String.toList_ofList]; exact C119_value h2

omit [Arith α] in
/-- C119: `to_json` raises the same errors with and without the text. -/
theorem C119_error {N : Numerals α} {m : FCM α} {e : Err} (h : m.toJson = .error e) : m.toJsonText N = .error e := by
  unfold FCM.toJsonText; rw [h]; rfl

/-- C119: whatever the text, `from_json` returns a map a client can build through the API, or raises the exception that
says so. -/
theorem C119_any (N : Numerals α) (s : String) :
    (∃ m, fromJsonText N s = .ok m ∧ CleanReachable m) ∨
    ∃ msg, fromJsonText N s = .error (.exc ("Cannot load json data due: " ++ msg)) := by
  unfold fromJsonText
  split
  · exact .inr ⟨"not JSON", rfl⟩
  · split
    · exact .inr ⟨_, rfl⟩
    · rename_i d _
      cases h : fromJson d with
      | ok m => exact .inl ⟨m, rfl, C83_api h⟩
      | error e =>
        obtain ⟨msg, hm⟩ := C29_error h
        exact .inr ⟨msg, by rw [hm]⟩

omit [Arith α] in
/-- C119: `from_json` looks at nothing but the values under its eleven keys, so the order of the entries and further entries
are irrelevant. -/
theorem C119_keys (N : Numerals α) {fs gs : List (String × Json)}
    (h : ∀ k ∈ ["max_iter", "decision_function", "activation_function", "memory_influence", "stability_diff",
      "stop_at_stabilize", "extra_steps", "weight", "concepts", "relations", "activation_function_args"],
      Dict.get? fs k = Dict.get? gs k) : readDoc N (.obj fs) = readDoc N (.obj gs) := by
  have hf : ∀ k ∈ ["max_iter", "decision_function", "activation_function", "memory_influence", "stability_diff",
      "stop_at_stabilize", "extra_steps", "weight", "concepts", "relations", "activation_function_args"],
      ∀ {β : Type} (f : Json → Except Err β), field fs k f = field gs k f := by
    intro k hk β f
    unfold field
    rw [h k hk]
  unfold readDoc
  simp only [Json.asDict, bind, Except.bind]
  rw [hf "max_iter" (by simp), hf "decision_function" (by simp), hf "activation_function" (by simp),
    hf "memory_influence" (by simp), hf "stability_diff" (by simp), hf "stop_at_stabilize" (by simp),
    hf "extra_steps" (by simp), hf "weight" (by simp), hf "concepts" (by simp), hf "relations" (by simp),
    hf "activation_function_args" (by simp)]

/-- C119: for the maps whose export loses nothing (see C28) the text gives the map back: everything except the past. -/
theorem C119_reload {N : Numerals α} {m : FCM α} (hr : CleanReachable m) (hc : CarefulReachable m)
    (hw : Writable m.mapFn.args) (hp : ∀ c n, m.topology.get? c = some n → Plain m n)
    (hn : ∀ d, m.toJson = .ok d → (∀ a ∈ dictionaries d, (a.map Prod.fst).Nodup) ∧ ∀ x ∈ docNumbers d, Faithful N x) :
    ∃ s, m.toJsonText N = .ok s ∧ fromJsonText N s = .ok m.reloaded := by
  obtain ⟨d, h1, h2⟩ := C28_roundtrip_partial hr hc hw hp
  obtain ⟨s, a, _, _, _, b⟩ := C119_text (N := N) h1 (hn d h1).1 (hn d h1).2
  exact ⟨s, a, by rw [b, h2]⟩

/-! ### Joining through texts -/

theorem set_mem_or {β : Type} {d : Dict β} {k : String} {v : β} {p : String × β} (h : p ∈ d.set k v) :
    p = (k, v) ∨ p ∈ d := by
  induction d with
  | nil => simpa [Dict.set] using h
  | cons q d ih =>
    obtain ⟨a, b⟩ := q
    simp only [Dict.set] at h
    split at h
    · rename_i e
      rcases List.mem_cons.mp h with h | h
      · exact .inl h
      · exact .inr (List.mem_cons_of_mem _ h)
    · rcases List.mem_cons.mp h with h | h
      · exact .inr (by rw [h]; simp)
      · rcases ih h with h | h
        · exact .inl h
        · exact .inr (List.mem_cons_of_mem _ h)

section
variable (P : ConceptDesc α → Prop)

omit [Arith α] in
theorem accFirst_mem {cs : List (ConceptDesc α)} {d e : Dict (Acc α)} (h : accFirst cs d = .ok e) (hc : ∀ c ∈ cs, P c)
    (hd : ∀ p ∈ d, P p.2.1) : ∀ p ∈ e, P p.2.1 := by
  induction cs generalizing d with
  | nil => cases h; exact hd
  | cons c cs ih =>
    unfold accFirst at h
    obtain ⟨v, _, h⟩ := exc_bind h
    refine ih h (fun c h => hc c (List.mem_cons_of_mem _ h)) ?_
    intro p hp
    rcases set_mem_or hp with e | hp
    · rw [e]; exact hc c (by simp)
    · exact hd p hp

omit [Arith α] in
theorem nodeSet_mem {cs : List (ConceptDesc α)} {d : Dict (ConceptDesc α)} (hc : ∀ c ∈ cs, P c)
    (hd : ∀ p ∈ d, P p.2) : ∀ p ∈ nodeSet cs d, P p.2 := by
  induction cs generalizing d with
  | nil => exact hd
  | cons c cs ih =>
    unfold nodeSet
    refine ih (fun c h => hc c (List.mem_cons_of_mem _ h)) ?_
    intro p hp
    rcases set_mem_or hp with e | hp
    · rw [e]; exact hc c (by simp)
    · exact hd p hp

omit [Arith α] in
theorem accUnion_mem {cs : Dict (ConceptDesc α)} {d e : Dict (Acc α)} (h : accUnion cs d = .ok e)
    (hc : ∀ p ∈ cs, P p.2) (hd : ∀ p ∈ d, P p.2.1) : ∀ p ∈ e, P p.2.1 := by
  induction cs generalizing d with
  | nil => cases h; exact hd
  | cons q cs ih =>
    obtain ⟨k, c⟩ := q
    unfold accUnion at h
    obtain ⟨v, _, h⟩ := exc_bind h
    refine ih h (fun c h => hc c (List.mem_cons_of_mem _ h)) ?_
    intro p hp
    split at hp
    · rename_i c0 acc hg
      rcases set_mem_or hp with e | hp
      · rw [e]; exact hd (k, (c0, acc)) (Dict.get?_mem hg)
      · exact hd p hp
    · rcases set_mem_or hp with e | hp
      · rw [e]; exact hc (k, c) (by simp)
      · exact hd p hp

omit [Arith α] in
theorem accInter_mem {new : Dict (ConceptDesc α)} {d e : Dict (Acc α)} (h : accInter new d = .ok e)
    (hd : ∀ p ∈ d, P p.2.1) : ∀ p ∈ e, P p.2.1 := by
  induction d generalizing e with
  | nil => cases h; exact hd
  | cons q d ih =>
    obtain ⟨k, c0, acc⟩ := q
    unfold accInter at h
    obtain ⟨rest, hr, h⟩ := exc_bind h
    have hrest := ih hr fun p hp => hd p (List.mem_cons_of_mem _ hp)
    split at h
    · obtain ⟨v, _, h⟩ := exc_bind h
      cases h
      intro p hp
      rcases List.mem_cons.mp hp with e | hp
      · rw [e]; exact hd (k, c0, acc) (by simp)
      · exact hrest p hp
    · cases h; exact hrest

omit [Arith α] in
theorem accMaps_mem {u : Bool} {ms : List (MapDesc α)} {d e : Dict (Acc α)} (h : accMaps u ms d = .ok e)
    (hc : ∀ m ∈ ms, ∀ c ∈ m.concepts.getD [], P c) (hd : ∀ p ∈ d, P p.2.1) : ∀ p ∈ e, P p.2.1 := by
  induction ms generalizing d with
  | nil => cases h; exact hd
  | cons m ms ih =>
    unfold accMaps at h
    simp only at h
    split at h
    · obtain ⟨d', h1, h⟩ := exc_bind h
      exact ih h (fun m hm => hc m (List.mem_cons_of_mem _ hm))
        (accUnion_mem P h1 (nodeSet_mem P (hc m (by simp)) (fun _ h => nomatch h)) hd)
    · obtain ⟨d', h1, h⟩ := exc_bind h
      exact ih h (fun m hm => hc m (List.mem_cons_of_mem _ hm)) (accInter_mem P h1 hd)

theorem finalConcepts_mem {v : Aggr} {z : Bool} {d : Dict (Acc α)} {cs : List (ConceptDesc α)}
    (h : finalConcepts v z d = .ok cs) (hd : ∀ p ∈ d, P p.2.1) : ∀ c ∈ cs, ∃ c0 x, P c0 ∧ c = { c0 with activation := x } := by
  induction d generalizing cs with
  | nil => cases h; intro c h; cases h
  | cons q d ih =>
    obtain ⟨k, c0, acc⟩ := q
    unfold finalConcepts at h
    obtain ⟨x, _, h⟩ := exc_bind h
    obtain ⟨rest, hr, h⟩ := exc_bind h
    have hrest := ih hr fun p hp => hd p (List.mem_cons_of_mem _ hp)
    have h0 : P c0 := hd (k, c0, acc) (by simp)
    split at h
    · split at h
      · cases h; exact hrest
      · cases h
        intro c hc
        rcases List.mem_cons.mp hc with e | hc
        · exact ⟨c0, _, h0, e⟩
        · exact hrest c hc
    · cases h
      intro c hc
      rcases List.mem_cons.mp hc with e | hc
      · exact ⟨c0, _, h0, e⟩
      · exact hrest c hc

end

/-- The argument dictionaries of a joined document are those of the documents. -/
theorem joinDescs_dictionaries {u : Bool} {v w : Aggr} {z : Bool} {first d : MapDesc α} {rest : List (MapDesc α)}
    (h : joinDescs u v w z first rest = .ok d) : ∀ a ∈ dictionaries d, ∃ x ∈ first :: rest, a ∈ dictionaries x := by
  unfold joinDescs at h
  obtain ⟨d1, h1, h⟩ := exc_bind h
  obtain ⟨d2, h2, h⟩ := exc_bind h
  obtain ⟨cs, h3, h⟩ := exc_bind h
  obtain ⟨rs, _, h⟩ := exc_bind h
  cases h
  let P : ConceptDesc α → Prop := fun c => ∃ x ∈ first :: rest, c ∈ x.concepts.getD []
  have p1 : ∀ p ∈ d1, P p.2.1 :=
    accFirst_mem P h1 (fun c hc => ⟨first, by simp, hc⟩) (fun _ h => nomatch h)
  have p2 : ∀ p ∈ d2, P p.2.1 :=
    accMaps_mem P h2 (fun m hm c hc => ⟨m, List.mem_cons_of_mem _ hm, hc⟩) p1
  have p3 := finalConcepts_mem P h3 p2
  intro a ha
  rcases List.mem_append.mp ha with ha | ha
  · exact ⟨first, by simp, List.mem_append_left _ ha⟩
  · obtain ⟨c, hc, ha⟩ := List.mem_flatMap.mp ha
    obtain ⟨c0, x, ⟨y, hy, hc0⟩, e⟩ := p3 c hc
    subst e
    exact ⟨y, hy, List.mem_append_right _ (List.mem_flatMap.mpr ⟨c0, hc0, ha⟩)⟩

theorem viaText_eq {N : Numerals α} {m : FCM α} (h : ∀ d, m.toJson = .ok d →
    (∀ a ∈ dictionaries d, (a.map Prod.fst).Nodup) ∧ ∀ x ∈ docNumbers d, Faithful N x) : m.viaText N = m.toJson := by
  unfold FCM.viaText
  cases hj : m.toJson with
  | error e => rw [C119_error hj]; rfl
  | ok d =>
    obtain ⟨s, h1, _, h2, h3, _⟩ := C119_text (N := N) hj (h d hj).1 (h d hj).2
    rw [h1]
    simp only [bind, Except.bind]
    rw [h2]
    exact h3

/-- C119: joining maps through their texts, as the code does, is joining their documents. -/
theorem C119_join {N : Numerals α} {maps : List (FCM α)} {cs vs rs : String} {z : Bool}
    (h1 : ∀ m ∈ maps, ∀ d, m.toJson = .ok d → (∀ a ∈ dictionaries d, (a.map Prod.fst).Nodup) ∧
      ∀ x ∈ docNumbers d, Faithful N x)
    (h2 : ∀ first rest d v w, maps.mapM FCM.toJson = .ok (first :: rest) → Aggr.byName vs = some v →
      Aggr.byName rs = some w → joinDescs (cs = "union") v w z first rest = .ok d → ∀ x ∈ docNumbers d, Faithful N x) :
    joinMapsText N maps cs vs rs z = joinMaps maps cs vs rs z := by
  have hm : maps.mapM (FCM.viaText N) = maps.mapM FCM.toJson := by
    clear h2
    induction maps with
    | nil => rfl
    | cons m maps ih =>
      rw [List.mapM_cons, List.mapM_cons, viaText_eq (h1 m (by simp)),
        ih fun m hm => h1 m (List.mem_cons_of_mem _ hm)]
  unfold joinMapsText joinMaps
  split
  · rfl
  cases hv : Aggr.byName vs with
  | none => rfl
  | some v =>
  simp only
  cases hw : Aggr.byName rs with
  | none => rfl
  | some w =>
  simp only
  rw [hm]
  cases hds : maps.mapM FCM.toJson with
  | error e => rfl
  | ok ds =>
    simp only [bind, Except.bind]
    cases ds with
    | nil => rfl
    | cons first rest =>
      simp only
      cases hd : joinDescs (decide (cs = "union")) v w z first rest with
      | error e => rfl
      | ok d =>
        simp only
        have hdict : ∀ a ∈ dictionaries d, (a.map Prod.fst).Nodup ∧ ∀ p ∈ a, ∀ xs, p.2 ≠ .arr xs := by
          intro a ha
          obtain ⟨x, hx, ha⟩ := joinDescs_dictionaries hd a ha
          obtain ⟨m, hm, hj⟩ := mapM_ok_mem hds hx
          exact ⟨(h1 m hm x hj).1 a ha, toJson_plain hj a ha⟩
        exact C119_load ⟨fun a ha => (hdict a ha).1, fun a ha => (hdict a ha).2, h2 first rest d v w hds hv hw hd⟩

end

/-! ### Cases -/

namespace Ex

/-- The spelling of a decimal fraction with up to three places; other fractions have no spelling. -/
def milli : Numerals ℚ where
  text q :=
    let n := (q * 1000).floor.natAbs
    (if q < 0 then ['-'] else []) ++ natTextAux (n / 1000) (n / 1000) ++
      ['.', hexDigit (n / 100 % 10), hexDigit (n / 10 % 10), hexDigit (n % 10)]
  value l :=
    let body := if l.head? = some '-' then l.tail else l
    let n := (natValue (body.filter isDigit)).getD 0
    if l.head? = some '-' then -(n : ℚ) / 1000 else (n : ℚ) / 1000

theorem milli_number (q : ℚ) : IsNumber (milli.text q) := by
  refine .inr (.inr (.inr ⟨_, _, _, [], (List.append_nil _).symm, ?_, natText_int _, .inr ⟨_, _, rfl, ?_⟩, .inl rfl⟩))
  · by_cases h : q < 0
    · exact .inr (if_pos h)
    · exact .inl (if_neg h)
  · intro c hc
    simp only [List.mem_cons, List.not_mem_nil, or_false] at hc
    rcases hc with h | h | h <;> subst h <;> exact (hexDigit_digit (Nat.mod_lt _ (by omega))).1

def docJ : MapDesc ℚ := mapJ.toJson.toOption.getD {}

theorem docJ_eq {d : MapDesc ℚ} (h : mapJ.toJson = .ok d) : d = docJ := by
  unfold docJ; rw [h]; rfl

theorem docJ_spelt : (∀ a ∈ dictionaries docJ, (a.map Prod.fst).Nodup) ∧ ∀ x ∈ docNumbers docJ, Faithful milli x := by
  refine ⟨by decide +kernel, fun x hx => ⟨milli_number x, ?_⟩⟩
  have : ∀ x ∈ docNumbers docJ, milli.value (milli.text x) = x := by decide +kernel
  exact this x hx

/-- A value with every kind of escape: quotes, backslash, control characters, Latin, CJK and an emoji. -/
def value : Json :=
  .obj [("a\"b\\", .arr [.num "-1.5e-07".toList, .null, .bool true, .obj [], .arr []]), ("é\n字😀", .str "\u0001\t~\u007f"),
    ("NaN", .num "NaN".toList)]

theorem value_proper : Proper value := by
  have h1 : IsNumber "-1.5e-07".toList := .inr (.inr (.inr ⟨['-'], ['1'], ['.', '5'], ['e', '-', '0', '7'], by decide, .inr rfl,
    .inr ⟨'1', [], rfl, by decide, by decide⟩, .inr ⟨'5', [], rfl, by decide⟩,
    .inr ⟨'e', ['-'], '0', ['7'], rfl, by decide, by decide, by decide⟩⟩))
  have h2 : IsNumber "NaN".toList := .inl rfl
  simp only [value, Proper, ProperFields, ProperItems]
  exact ⟨by decide, ⟨h1, trivial, trivial, ⟨by simp, trivial⟩, trivial, trivial⟩, trivial, h2, trivial⟩

end Ex

example : dumps Ex.value =
    ("{\"a\\\"b\\\\\": [-1.5e-07, null, true, {}, []], \"\\u00e9\\n\\u5b57\\ud83d\\ude00\": " ++
     "\"\\u0001\\t~\\u007f\", \"NaN\": NaN}").toList := by
  decide +kernel

example := C119_value Ex.value_proper
example := C119_ascii Ex.value_proper
example := C119_distinct Ex.value_proper Ex.value_proper
example := C119_spaces Ex.value_proper (a := [' ', '\n']) (b := ['\t']) (by decide) (by decide)

/-- A text with white space, upper-case digits, an escaped solidus and a repeated key. -/
example : (loads " { \"a\" :\t[ 1 , -0.5E+3 ] ,\n\"b\": \"\\u00E9\\/\", \"a\": null } ".toList).map dumps =
    some "{\"a\": null, \"b\": \"\\u00e9/\"}".toList := by
  decide +kernel

example {j : Json} (h : loads "[1, 01]".toList = some j) : False := by
  have : (loads "[1, 01]".toList).isNone = true := by decide +kernel
  rw [h] at this; cases this

/-- What is no JSON: leading zeros, trailing commas, single quotes, raw control characters, lone surrogates, two values. -/
example : ∀ s ∈ ["01", "[1,]", "'a'", "\"\n\"", "\"\\ud800\"", "1 2", "{\"a\" 1}", "{a: 1}", "nul", "1.", ".5", "+1", ""],
    (loads s.toList).isNone = true := by
  decide +kernel

example : (loads "[1, 2]".toList).isSome = true := by decide +kernel
example : ∃ j, loads "[1, 2]".toList = some j ∧ Proper j ∧ loads (dumps j) = some j := by
  cases h : loads "[1, 2]".toList with
  | some j => exact ⟨j, rfl, C119_read h⟩
  | none =>
    have : (loads "[1, 2]".toList).isSome = true := by decide +kernel
    rw [h] at this; cases this
example := C119_fuel "[1, 2]".toList 100 (by decide)

example := C119_text (m := Ex.mapJ) (d := Ex.docJ) (by decide +kernel) Ex.docJ_spelt.1 Ex.docJ_spelt.2

example := C119_reload (N := Ex.milli) Ex.mapJ_clean Ex.mapJ_careful (fun _ h => nomatch h)
  (fun _ _ => Ex.plain_of (by decide +kernel)) (fun _ h => Ex.docJ_eq h ▸ Ex.docJ_spelt)

/-- The text of a small document. -/
example : dumps (docJson Ex.milli
    { maxIter := some 120, weight := some 1, concepts := some [{ id := "é", activation := some (3/4) }],
      relations := some [⟨"é", "é", -1/2⟩] }) =
    ("{\"max_iter\": 120, \"weight\": 1.000, \"concepts\": [{\"id\": \"\\u00e9\", \"activation\": 0.750}], " ++
     "\"relations\": [{\"origin\": \"\\u00e9\", \"destiny\": \"\\u00e9\", \"weight\": -0.500}]}").toList := by
  decide +kernel

/-- The order of the entries and an unknown entry do not matter. -/
example := C119_keys Ex.milli (fs := [("weight", .null), ("comment", .null), ("max_iter", .bool true)])
  (gs := [("max_iter", .bool true), ("weight", .null)]) (by simp [Dict.get?])

/-- A map joined with itself through its text. -/
example : joinMapsText Ex.milli [Ex.mapJ, Ex.mapJ] = joinMaps [Ex.mapJ, Ex.mapJ] := by
  have hJ : Ex.mapJ.toJson = .ok Ex.docJ := by decide +kernel
  refine C119_join ?_ ?_
  · intro m hm d hd
    have : m = Ex.mapJ := by simpa using hm
    subst this
    exact Ex.docJ_eq hd ▸ Ex.docJ_spelt
  · intro first rest d v w hds hv hw hd x hx
    have e : [Ex.mapJ, Ex.mapJ].mapM FCM.toJson = .ok [Ex.docJ, Ex.docJ] := by
      rw [List.mapM_cons, List.mapM_cons, hJ]; rfl
    rw [e] at hds
    cases hds
    cases hv; cases hw
    refine ⟨Ex.milli_number x, ?_⟩
    have key : ∀ x ∈ docNumbers ((joinDescs true .average .average false Ex.docJ [Ex.docJ]).toOption.getD {}),
        Ex.milli.value (Ex.milli.text x) = x := by decide +kernel
    have hd' : joinDescs true .average .average false Ex.docJ [Ex.docJ] = .ok d := hd
    rw [hd'] at key
    exact key x hx

end PyFCM
