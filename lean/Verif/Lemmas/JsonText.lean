import Verif.Model.JsonText
/-
Reading back what `dumps` writes: characters, strings, numbers, values.
-/
namespace PyFCM

namespace Spec

/-- The integer part of a JSON number: `0`, or digits that do not begin with `0`. -/
def IntPart (ds : List Char) : Prop :=
  ds = ['0'] ∨ ∃ d t, ds = d :: t ∧ d ≠ '0' ∧ ∀ c ∈ d :: t, c ∈ "0123456789".toList

/-- The fraction of a JSON number, possibly absent. -/
def FracPart (ds : List Char) : Prop :=
  ds = [] ∨ ∃ d t, ds = '.' :: d :: t ∧ ∀ c ∈ d :: t, c ∈ "0123456789".toList

/-- The exponent of a JSON number, possibly absent. -/
def ExpPart (ds : List Char) : Prop :=
  ds = [] ∨ ∃ e g d t, ds = e :: (g ++ d :: t) ∧ (e = 'e' ∨ e = 'E') ∧ (g = [] ∨ g = ['+'] ∨ g = ['-']) ∧
    ∀ c ∈ d :: t, c ∈ "0123456789".toList

/-- A number as the JSON grammar spells it, or one of Python's three additions. -/
def IsNumber (l : List Char) : Prop :=
  l = "NaN".toList ∨ l = "Infinity".toList ∨ l = "-Infinity".toList ∨
  ∃ g i f e, l = g ++ i ++ f ++ e ∧ (g = [] ∨ g = ['-']) ∧ IntPart i ∧ FracPart f ∧ ExpPart e

mutual
/-- A value Python can hold: the keys of a dictionary are distinct; and its numbers are spelt as JSON has it. -/
def Proper : Json → Prop
  | .num l => IsNumber l
  | .arr xs => ProperItems xs
  | .obj fs => (fs.map Prod.fst).Nodup ∧ ProperFields fs
  | _ => True
def ProperItems : List Json → Prop
  | [] => True
  | x :: xs => Proper x ∧ ProperItems xs
def ProperFields : List (String × Json) → Prop
  | [] => True
  | (_, x) :: fs => Proper x ∧ ProperFields fs
end

end Spec

open Spec

/-! ### Characters -/

theorem toNat_ne {c d : Char} (h : c ≠ d) : c.toNat ≠ d.toNat := by
  intro e; apply h
  have := congrArg Char.ofNat e
  rwa [Char.ofNat_toNat, Char.ofNat_toNat] at this

theorem ne_of_toNat {c d : Char} (h : c.toNat ≠ d.toNat) : c ≠ d := fun e => h (e ▸ rfl)

theorem char_valid (c : Char) : c.toNat < 55296 ∨ 57343 < c.toNat ∧ c.toNat < 1114112 := c.valid

theorem mem_digits {c : Char} : c ∈ "0123456789".toList ↔ 48 ≤ c.toNat ∧ c.toNat ≤ 57 := by
  constructor
  · intro h
    have h : c = '0' ∨ c = '1' ∨ c = '2' ∨ c = '3' ∨ c = '4' ∨ c = '5' ∨ c = '6' ∨ c = '7' ∨ c = '8' ∨ c = '9' := by
      simpa using h
    rcases h with h | h | h | h | h | h | h | h | h | h <;> subst h <;> decide
  · rintro ⟨h1, h2⟩
    have e : c = Char.ofNat c.toNat := (Char.ofNat_toNat c).symm
    generalize c.toNat = n at *
    have : n = 48 ∨ n = 49 ∨ n = 50 ∨ n = 51 ∨ n = 52 ∨ n = 53 ∨ n = 54 ∨ n = 55 ∨ n = 56 ∨ n = 57 := by omega
    rcases this with h | h | h | h | h | h | h | h | h | h <;> subst h <;> subst e <;> decide

theorem isDigit_iff {c : Char} : isDigit c = true ↔ c ∈ "0123456789".toList := by
  rw [mem_digits]; simp [isDigit]

theorem hexVal_hexDigit {n : Nat} (h : n < 16) : hexVal (hexDigit n) = some n := by
  have : ∀ n < 16, hexVal (hexDigit n) = some n := by decide
  exact this n h

theorem hexDigit_ascii {n : Nat} (h : n < 16) : 32 ≤ (hexDigit n).toNat ∧ (hexDigit n).toNat ≤ 126 := by
  have : ∀ n < 16, 32 ≤ (hexDigit n).toNat ∧ (hexDigit n).toNat ≤ 126 := by decide
  exact this n h

theorem readHex4_hex4 {n : Nat} (h : n < 65536) (s : List Char) :
    readHex4 ((hex4 n).drop 2 ++ s) = some (n, s) := by
  simp only [hex4, List.drop_succ_cons, List.drop_zero, List.cons_append, List.nil_append, readHex4]
  rw [hexVal_hexDigit (by omega), hexVal_hexDigit (by omega), hexVal_hexDigit (by omega), hexVal_hexDigit (by omega)]
  simp only [bind, Option.bind, pure]
  congr 2
  omega

theorem hex4_eq (n : Nat) (s : List Char) : hex4 n ++ s = '\\' :: 'u' :: ((hex4 n).drop 2 ++ s) := rfl

theorem readUnicode_low {n : Nat} (h : n < 65536) (hs : n < 55296 ∨ 57343 < n) (s : List Char) :
    readUnicode ((hex4 n).drop 2 ++ s) = some (Char.ofNat n, s) := by
  unfold readUnicode
  rw [readHex4_hex4 h]
  simp only [bind, Option.bind, pure]
  rw [if_neg (by omega), if_neg (by omega)]

theorem readUnicode_pair {n k : Nat} (hn : 55296 ≤ n ∧ n ≤ 56319) (hk : 56320 ≤ k ∧ k ≤ 57343) (s : List Char) :
    readUnicode ((hex4 n).drop 2 ++ (hex4 k ++ s)) =
      some (Char.ofNat (65536 + (n - 55296) * 1024 + (k - 56320)), s) := by
  unfold readUnicode
  rw [readHex4_hex4 (Nat.lt_of_le_of_lt hn.2 (by decide))]
  simp only [bind, Option.bind, pure]
  rw [if_pos hn, hex4_eq]
  simp only
  rw [readHex4_hex4 (Nat.lt_of_le_of_lt hk.2 (by decide))]
  simp only
  rw [if_pos hk]

theorem surrogates {v : Nat} (h1 : 65536 ≤ v) (h2 : v < 1114112) :
    (55296 ≤ 55296 + (v - 65536) / 1024 ∧ 55296 + (v - 65536) / 1024 ≤ 56319) ∧
    (56320 ≤ 56320 + (v - 65536) % 1024 ∧ 56320 + (v - 65536) % 1024 ≤ 57343) ∧
    65536 + (55296 + (v - 65536) / 1024 - 55296) * 1024 + (56320 + (v - 65536) % 1024 - 56320) = v := by
  omega

theorem readUnicode_high {c : Char} (h : 65536 ≤ c.toNat) (s : List Char) :
    readUnicode ((hex4 (55296 + (c.toNat - 65536) / 1024)).drop 2 ++
      (hex4 (56320 + (c.toNat - 65536) % 1024) ++ s)) = some (c, s) := by
  have hv : c.toNat < 1114112 := by have := char_valid c; omega
  obtain ⟨h1, h2, h3⟩ := surrogates h hv
  rw [readUnicode_pair h1 h2, h3, Char.ofNat_toNat]

/-- Every character is read back as it was written. -/
theorem readChar_escape (c : Char) (s : List Char) : readChar (escapeChar c ++ s) = some (c, s) := by
  unfold escapeChar
  split
  · subst c; simp [readChar]
  split
  · subst c; simp [readChar]
  split
  · subst c; simp [readChar]
  split
  · subst c; simp [readChar]
  split
  · subst c; simp [readChar]
  split
  · rename_i h
    have : c = Char.ofNat 12 := by rw [← h, Char.ofNat_toNat]
    subst this; simp [readChar]
  split
  · rename_i h
    have : c = Char.ofNat 8 := by rw [← h, Char.ofNat_toNat]
    subst this; simp [readChar]
  split
  · rename_i h1 h2 _ _ _ _ _ h
    show readChar (c :: s) = _
    unfold readChar
    split <;> rename_i e
    · injection e with e _; exact absurd e h2
    · injection e with e _; exact absurd e h2
    · injection e with e _; exact absurd e h2
    · injection e with e1 e2; subst e1 e2
      rw [if_neg (by omega)]
    · cases e
  split
  · rename_i h
    rw [hex4_eq]
    have hv := char_valid c
    show readUnicode _ = _
    rw [readUnicode_low h (by omega), Char.ofNat_toNat]
  · rename_i h
    rw [List.append_assoc, hex4_eq]
    show readUnicode _ = _
    exact readUnicode_high (by omega) s

theorem escapeChar_ne (c : Char) : ∃ d t, escapeChar c = d :: t ∧ d ≠ '"' := by
  unfold escapeChar
  repeat' split
  all_goals first
    | exact ⟨_, _, rfl, by decide⟩
    | (rename_i h _ _ _ _ _ _ _; exact ⟨_, _, rfl, h⟩)
    | (rw [hex4]; exact ⟨_, _, rfl, by decide⟩)

theorem hex4_ascii (n : Nat) : ∀ c ∈ hex4 n, 32 ≤ c.toNat ∧ c.toNat ≤ 126 := by
  intro c h
  simp only [hex4, List.mem_cons, List.not_mem_nil, or_false] at h
  rcases h with h | h | h | h | h | h <;> subst h
  · decide
  · decide
  all_goals exact hexDigit_ascii (by omega)

theorem escapeChar_ascii (c : Char) : ∀ d ∈ escapeChar c, 32 ≤ d.toNat ∧ d.toNat ≤ 126 := by
  unfold escapeChar
  intro d
  repeat' split
  all_goals intro h
  any_goals (simp only [List.mem_cons, List.not_mem_nil, or_false] at h; rcases h with h | h <;> subst h <;> decide)
  · simp only [List.mem_cons, List.not_mem_nil, or_false] at h; subst h; assumption
  · exact hex4_ascii _ d h
  · rcases List.mem_append.mp h with h | h
    · exact hex4_ascii _ d h
    · exact hex4_ascii _ d h

/-! ### Strings -/

theorem readBody_escape (cs rest : List Char) (n : Nat) (h : cs.length < n) :
    readBody n (cs.flatMap escapeChar ++ '"' :: rest) = some (cs, rest) := by
  induction cs generalizing n with
  | nil => cases n with
    | zero => simp at h
    | succ n => simp [readBody]
  | cons c cs ih => cases n with
    | zero => simp at h
    | succ n =>
      rw [List.flatMap_cons, List.append_assoc]
      have hc := readChar_escape c (cs.flatMap escapeChar ++ '"' :: rest)
      obtain ⟨d, t, e, hd⟩ := escapeChar_ne c
      rw [e, List.cons_append] at hc ⊢
      unfold readBody
      split
      · rename_i e'; injection e' with e' _; exact absurd e' hd
      · rw [hc]
        simp only [bind, Option.bind, pure]
        rw [ih n (by simpa using h)]

theorem escape_length (cs : List Char) : cs.length ≤ (cs.flatMap escapeChar).length := by
  induction cs with
  | nil => simp
  | cons c cs ih =>
    obtain ⟨d, t, e, _⟩ := escapeChar_ne c
    rw [List.flatMap_cons, e]
    simp only [List.length_append, List.length_cons]
    omega

theorem readString_escape (s : String) (rest : List Char) :
    readString (escapeBody s ++ rest) = some (s, rest) := by
  unfold readString escapeBody
  rw [List.append_assoc]
  simp only [List.cons_append, List.nil_append]
  rw [readBody_escape]
  · simp
  · have := escape_length s.toList
    simp only [List.length_append, List.length_cons]
    omega

/-! ### Numbers -/

/-- What may follow a number without continuing it. -/
def Stops (rest : List Char) : Prop :=
  ∀ c s, rest = c :: s → c ∉ "0123456789".toList ∧ c ≠ '.' ∧ c ≠ 'e' ∧ c ≠ 'E'

theorem stops_nil : Stops [] := fun _ _ h => nomatch h

theorem span_digits (ds rest : List Char) (hd : ∀ c ∈ ds, c ∈ "0123456789".toList)
    (hr : ∀ c s, rest = c :: s → c ∉ "0123456789".toList) :
    (ds ++ rest).takeWhile isDigit = ds ∧ (ds ++ rest).dropWhile isDigit = rest := by
  induction ds with
  | nil =>
    cases rest with
    | nil => simp
    | cons c s =>
      have : isDigit c = false := by
        rw [← Bool.not_eq_true, isDigit_iff]; exact hr c s rfl
      simp [this]
  | cons d ds ih =>
    have h := ih fun c h => hd c (List.mem_cons_of_mem _ h)
    have : isDigit d = true := isDigit_iff.mpr (hd d (by simp))
    simp [this, h]

theorem readInt_back {i : List Char} (hi : IntPart i) (rest : List Char)
    (hr : ∀ c s, rest = c :: s → c ∉ "0123456789".toList) : readInt (i ++ rest) = some (i, rest) := by
  rcases hi with h | ⟨d, t, h, h0, hd⟩
  · subst h; simp [readInt]
  · subst h
    have hd0 : isDigit d = true := isDigit_iff.mpr (hd d (by simp))
    obtain ⟨h1, h2⟩ := span_digits t rest (fun c h => hd c (List.mem_cons_of_mem _ h)) hr
    simp only [List.cons_append, readInt, if_neg h0, hd0, if_true, h1, h2]

theorem readFrac_back {f : List Char} (hf : FracPart f) (rest : List Char)
    (hr : ∀ c s, rest = c :: s → c ∉ "0123456789".toList ∧ c ≠ '.') : readFrac (f ++ rest) = (f, rest) := by
  rcases hf with h | ⟨d, t, h, hd⟩
  · subst h
    cases rest with
    | nil => simp [readFrac]
    | cons c s =>
      simp only [List.nil_append]
      unfold readFrac
      split
      · rename_i e; injection e with e _; exact absurd e (hr c s rfl).2
      · rfl
  · subst h
    have hd0 : isDigit d = true := isDigit_iff.mpr (hd d (by simp))
    obtain ⟨h1, h2⟩ := span_digits t rest (fun c h => hd c (List.mem_cons_of_mem _ h)) fun c s e => (hr c s e).1
    simp only [List.cons_append, readFrac, hd0, if_true, h1, h2]

theorem readExp_back {x : List Char} (hx : ExpPart x) (rest : List Char) (hr : Stops rest) :
    readExp (x ++ rest) = (x, rest) := by
  rcases hx with h | ⟨e, g, d, t, h, he, hg, hd⟩
  · subst h
    cases rest with
    | nil => simp [readExp]
    | cons c s =>
      have := hr c s rfl
      simp only [List.nil_append, readExp]
      rw [if_neg (fun h => h.elim this.2.2.1 this.2.2.2)]
  · subst h
    have hd0 : isDigit d = true := isDigit_iff.mpr (hd d (by simp))
    have ht := span_digits t rest (fun c h => hd c (List.mem_cons_of_mem _ h)) fun c s e => (hr c s e).1
    rcases hg with hg | hg | hg <;> subst hg
    · simp only [List.nil_append, List.cons_append]
      cases ht' : t ++ rest with
      | nil =>
        obtain ⟨h1, h2⟩ := List.append_eq_nil_iff.mp ht'
        subst h1 h2
        rw [readExp, if_pos he]
        simp [hd0]
      | cons a b =>
        rw [ht'] at ht
        rw [readExp, if_pos he]
        simp only [hd0, if_true, ht.1, ht.2]
    · simp only [List.nil_append, List.cons_append]
      rw [readExp, if_pos he]
      have : isDigit '+' = false := by decide
      simp [this, hd0, ht.1, ht.2]
    · simp only [List.nil_append, List.cons_append]
      rw [readExp, if_pos he]
      have : isDigit '-' = false := by decide
      simp [this, hd0, ht.1, ht.2]

theorem expPart_head {x : List Char} (hx : ExpPart x) (rest : List Char) (hr : Stops rest) :
    ∀ c s, x ++ rest = c :: s → c ∉ "0123456789".toList ∧ c ≠ '.' := by
  rcases hx with h | ⟨e, g, d, t, h, he, _, _⟩
  · subst h; intro c s e; exact ⟨(hr c s e).1, (hr c s e).2.1⟩
  · subst h; intro c s h
    injection h with h _
    subst h
    rcases he with h | h <;> subst h <;> decide

theorem fracPart_head {f x : List Char} (hf : FracPart f) (hx : ExpPart x) (rest : List Char) (hr : Stops rest) :
    ∀ c s, f ++ (x ++ rest) = c :: s → c ∉ "0123456789".toList := by
  rcases hf with h | ⟨d, t, h, hd⟩
  · subst h; intro c s e; exact (expPart_head hx rest hr c s e).1
  · subst h; intro c s h
    injection h with h _
    subst h; decide

theorem readUnsigned_back {i f x : List Char} (hi : IntPart i) (hf : FracPart f) (hx : ExpPart x)
    (rest : List Char) (hr : Stops rest) : readUnsigned (i ++ f ++ x ++ rest) = some (i ++ f ++ x, rest) := by
  unfold readUnsigned
  rw [List.append_assoc, List.append_assoc,
    readInt_back hi _ (fracPart_head hf hx rest hr)]
  simp only [bind, Option.bind, pure]
  rw [readFrac_back hf _ (expPart_head hx rest hr)]
  simp only
  rw [readExp_back hx rest hr]

theorem intPart_head {i : List Char} (hi : IntPart i) : ∃ d t, i = d :: t ∧ d ∈ "0123456789".toList := by
  rcases hi with h | ⟨d, t, h, _, hd⟩
  · exact ⟨'0', [], h, by decide⟩
  · exact ⟨d, t, h, hd d (by simp)⟩

theorem digit_ne {d : Char} (h : d ∈ "0123456789".toList) (c : Char) (hc : c ∉ "0123456789".toList) : d ≠ c :=
  fun e => hc (e ▸ h)

theorem readNumber_back {l : List Char} (hl : IsNumber l) (rest : List Char) (hr : Stops rest) :
    readNumber (l ++ rest) = some (l, rest) := by
  rcases hl with h | h | h | ⟨g, i, f, x, h, hg, hi, hf, hx⟩
  · subst h
    simp [readNumber, after, List.isPrefixOf]
  · subst h
    simp [readNumber, after, List.isPrefixOf]
  · subst h
    simp [readNumber, after, List.isPrefixOf]
  · have hu := readUnsigned_back hi hf hx rest hr
    obtain ⟨d, t, hdt, hd⟩ := intPart_head hi
    rcases hg with hg | hg <;> subst hg
    · simp only [List.nil_append] at h
      rw [h]
      have hc : i ++ f ++ x ++ rest = d :: (t ++ f ++ x ++ rest) := by rw [hdt]; simp
      rw [← hu]
      unfold readNumber
      rw [hc]
      split
      · rename_i e; injection e with e _; exact absurd e (digit_ne hd _ (by decide))
      · rename_i e; injection e with e _; exact absurd e (digit_ne hd _ (by decide))
      · rename_i e; injection e with e _; exact absurd e (digit_ne hd _ (by decide))
      · rfl
    · have h' : l ++ rest = '-' :: (i ++ f ++ x ++ rest) := by rw [h]; simp
      have hn : after "Infinity".toList (i ++ f ++ x ++ rest) = none := by
        unfold after
        rw [if_neg]
        rw [hdt]
        have := digit_ne hd 'I' (by decide)
        simp [List.isPrefixOf, this.symm]
      rw [h']
      simp only [readNumber, hn, hu, Option.map_some]
      rw [h]; simp

theorem isNumber_head {l : List Char} (hl : IsNumber l) :
    ∃ c t, l = c :: t ∧ (c = 'N' ∨ c = 'I' ∨ c = '-' ∨ c ∈ "0123456789".toList) := by
  rcases hl with h | h | h | ⟨g, i, f, x, h, hg, hi, _, _⟩
  · exact ⟨'N', _, h, .inl rfl⟩
  · exact ⟨'I', _, h, .inr (.inl rfl)⟩
  · exact ⟨'-', _, h, .inr (.inr (.inl rfl))⟩
  · obtain ⟨d, t, hdt, hd⟩ := intPart_head hi
    rcases hg with hg | hg <;> subst hg
    · exact ⟨d, t ++ f ++ x, by rw [h, hdt]; simp, .inr (.inr (.inr hd))⟩
    · exact ⟨'-', i ++ f ++ x, by rw [h]; simp, .inr (.inr (.inl rfl))⟩

theorem digits_ascii {ds : List Char} (h : ∀ c ∈ ds, c ∈ "0123456789".toList) :
    ∀ c ∈ ds, 32 ≤ c.toNat ∧ c.toNat ≤ 126 := fun c hc => by
  have := mem_digits.mp (h c hc); omega

theorem intPart_ascii {i : List Char} (h : IntPart i) : ∀ c ∈ i, 32 ≤ c.toNat ∧ c.toNat ≤ 126 := by
  rcases h with h | ⟨d, t, h, _, hd⟩ <;> subst h
  · decide
  · exact digits_ascii hd

theorem fracPart_ascii {i : List Char} (h : FracPart i) : ∀ c ∈ i, 32 ≤ c.toNat ∧ c.toNat ≤ 126 := by
  rcases h with h | ⟨d, t, h, hd⟩ <;> subst h
  · simp
  · intro c hc
    rcases List.mem_cons.mp hc with h | h
    · subst h; decide
    · exact digits_ascii hd c h

theorem expPart_ascii {i : List Char} (h : ExpPart i) : ∀ c ∈ i, 32 ≤ c.toNat ∧ c.toNat ≤ 126 := by
  rcases h with h | ⟨e, g, d, t, h, he, hg, hd⟩ <;> subst h
  · simp
  · intro c hc
    rcases List.mem_cons.mp hc with h | h
    · subst h; rcases he with h | h <;> subst h <;> decide
    · rcases List.mem_append.mp h with h | h
      · rcases hg with hg | hg | hg <;> subst hg <;> simp at h <;> subst h <;> decide
      · exact digits_ascii hd c h

theorem isNumber_ascii {l : List Char} (hl : IsNumber l) : ∀ c ∈ l, 32 ≤ c.toNat ∧ c.toNat ≤ 126 := by
  rcases hl with h | h | h | ⟨g, i, f, x, h, hg, hi, hf, hx⟩
  · subst h; decide
  · subst h; decide
  · subst h; decide
  · subst h
    intro c hc
    simp only [List.mem_append] at hc
    rcases hc with ((h | h) | h) | h
    · rcases hg with hg | hg <;> subst hg <;> simp at h; subst h; decide
    · exact intPart_ascii hi c h
    · exact fracPart_ascii hf c h
    · exact expPart_ascii hx c h

/-! ### Values -/

def IsWs (c : Char) : Prop := c = ' ' ∨ c = '\t' ∨ c = '\n' ∨ c = '\r'

theorem skipWs_cons {c : Char} (h : ¬ IsWs c) (s : List Char) : skipWs (c :: s) = c :: s := by
  unfold skipWs; exact if_neg h

theorem skipWs_ws {w : List Char} (h : ∀ c ∈ w, IsWs c) (s : List Char) : skipWs (w ++ s) = skipWs s := by
  induction w with
  | nil => rfl
  | cons c w ih =>
    rw [List.cons_append, skipWs, if_pos (show c = ' ' ∨ c = '\t' ∨ c = '\n' ∨ c = '\r' from h c (by simp))]
    exact ih fun c h' => h c (List.mem_cons_of_mem _ h')

theorem dumps_head {j : Json} (hj : Proper j) :
    ∃ c t, dumps j = c :: t ∧ ¬ IsWs c ∧ c ≠ ']' ∧ c ≠ '}' := by
  have hw : ∀ c, c ∈ "ntf\"[{NI-".toList → ¬ IsWs c ∧ c ≠ ']' ∧ c ≠ '}' := by
    unfold IsWs; decide
  cases j with
  | null => exact ⟨_, _, by rw [dumps], hw _ (by decide)⟩
  | bool b => cases b <;> exact ⟨_, _, by rw [dumps], hw _ (by decide)⟩
  | num l =>
    rw [Proper] at hj
    obtain ⟨c, t, h, hc⟩ := isNumber_head hj
    refine ⟨c, t, by rw [dumps, h], ?_⟩
    rcases hc with hc | hc | hc | hc
    · subst hc; exact hw _ (by decide)
    · subst hc; exact hw _ (by decide)
    · subst hc; exact hw _ (by decide)
    · have : ∀ c ∈ "0123456789".toList, ¬ IsWs c ∧ c ≠ ']' ∧ c ≠ '}' := by unfold IsWs; decide
      exact this c hc
  | str s => exact ⟨_, _, by rw [dumps], hw _ (by decide)⟩
  | arr xs => exact ⟨_, _, by rw [dumps], hw _ (by decide)⟩
  | obj fs => exact ⟨_, _, by rw [dumps], hw _ (by decide)⟩

theorem set_fresh {β : Type} (d : Dict β) (k : String) (v : β) (h : k ∉ d.map Prod.fst) :
    Dict.set d k v = d ++ [(k, v)] := by
  induction d with
  | nil => rfl
  | cons p d ih =>
    obtain ⟨a, b⟩ := p
    simp only [List.map_cons, List.mem_cons, not_or] at h
    simp only [Dict.set, List.cons_append]
    rw [if_neg (fun e => h.1 e.symm), ih h.2]

theorem dictOf_aux {β : Type} (fs acc : List (String × β)) (h : ((acc ++ fs).map Prod.fst).Nodup) :
    fs.foldl (fun d p => Dict.set d p.1 p.2) acc = acc ++ fs := by
  induction fs generalizing acc with
  | nil => simp
  | cons p fs ih =>
    rw [List.foldl_cons, set_fresh acc p.1 p.2]
    · rw [ih]
      · simp
      · simpa using h
    · intro hm
      rw [List.map_append, List.nodup_append] at h
      exact h.2.2 _ hm p.1 (by simp) rfl

theorem dictOf_eq {β : Type} (fs : List (String × β)) (h : (fs.map Prod.fst).Nodup) : dictOf fs = fs := by
  have := dictOf_aux fs [] (by simpa using h)
  simpa [dictOf] using this

theorem stops_of {c : Char} (h : c ∈ ",]}".toList) (s : List Char) : Stops (c :: s) := by
  intro d t e
  injection e with e _
  subst e
  have : ∀ c ∈ ",]}".toList, c ∉ "0123456789".toList ∧ c ≠ '.' ∧ c ≠ 'e' ∧ c ≠ 'E' := by decide
  exact this _ h

theorem dumpsMore_head (xs : List Json) (r : List Char) : Stops (dumpsMore xs ++ r) := by
  cases xs with
  | nil => rw [dumpsMore]; exact stops_of (by decide) _
  | cons x xs => rw [dumpsMore]; exact stops_of (by decide) _

theorem dumpsMoreFields_head (fs : List (String × Json)) (r : List Char) : Stops (dumpsMoreFields fs ++ r) := by
  cases fs with
  | nil => rw [dumpsMoreFields]; exact stops_of (by decide) _
  | cons x xs => rw [dumpsMoreFields]; exact stops_of (by decide) _

theorem readKey_back (k : String) (s : List Char) :
    readKey ('"' :: (escapeBody k ++ ':' :: ' ' :: s)) = some (k, skipWs s) := by
  unfold readKey
  simp only
  rw [readString_escape]
  rfl

theorem skipWs_dumps {j : Json} (hj : Proper j) (r : List Char) : skipWs (dumps j ++ r) = dumps j ++ r := by
  obtain ⟨c, t, e, hc, _⟩ := dumps_head hj
  rw [e, List.cons_append, skipWs_cons hc]

mutual
theorem readValue_dumps : ∀ (j : Json) (_ : Proper j) (n : Nat) (_ : (dumps j).length < n) (rest : List Char)
    (_ : Stops rest), readValue n (dumps j ++ rest) = some (j, rest)
  | .null, _, n + 1, _, rest, _ => by
    simp [dumps, readValue, after, List.isPrefixOf]
  | .bool true, _, n + 1, _, rest, _ => by
    simp [dumps, readValue, after, List.isPrefixOf]
  | .bool false, _, n + 1, _, rest, _ => by
    simp [dumps, readValue, after, List.isPrefixOf]
  | .num l, hj, n + 1, _, rest, hr => by
    rw [Proper] at hj
    have hb := readNumber_back hj rest hr
    obtain ⟨c, t, h, hc⟩ := isNumber_head hj
    have hne : c ∉ "\"[{ntf".toList := by
      rcases hc with hc | hc | hc | hc
      · subst hc; decide
      · subst hc; decide
      · subst hc; decide
      · have : ∀ c ∈ "0123456789".toList, c ∉ "\"[{ntf".toList := by decide
        exact this c hc
    have hne : c ≠ '"' ∧ c ≠ '[' ∧ c ≠ '{' ∧ c ≠ 'n' ∧ c ≠ 't' ∧ c ≠ 'f' := by
      simpa using hne
    rw [dumps]
    rw [h, List.cons_append] at hb ⊢
    unfold readValue
    split
    any_goals (rename_i e; injection e with e _; subst e; simp at hne)
    rw [hb]; rfl
  | .str s, _, n + 1, _, rest, _ => by
    rw [dumps, List.cons_append, readValue, readString_escape]; rfl
  | .arr [], _, n + 1, _, rest, _ => by
    simp [dumps, dumpsItems, readValue, skipWs]
  | .arr (x :: xs), hj, n + 1, hn, rest, hr => by
    rw [Proper, ProperItems] at hj
    rw [dumps, dumpsItems] at hn ⊢
    simp only [List.length_cons, List.length_append] at hn
    have h1 := readValue_dumps x hj.1 n (by omega) (dumpsMore xs ++ rest) (dumpsMore_head xs rest)
    have h2 := readMore_dumps xs hj.2 n (by omega) rest
    rw [List.cons_append, readValue, List.append_assoc, skipWs_dumps hj.1]
    obtain ⟨c, t, e, _, hc, _⟩ := dumps_head hj.1
    rw [e, List.cons_append] at h1 ⊢
    split
    · rename_i e'; injection e' with e' _; exact absurd e' hc
    · rw [h1]
      simp only [bind, Option.bind, pure]
      rw [h2]
  | .obj [], _, n + 1, _, rest, _ => by
    simp [dumps, dumpsFields, readValue, skipWs]
  | .obj ((k, x) :: fs), hj, n + 1, hn, rest, hr => by
    rw [Proper, ProperFields] at hj
    rw [dumps, dumpsFields] at hn ⊢
    simp only [List.length_cons, List.length_append] at hn
    have h1 := readValue_dumps x hj.2.1 n (by omega) (dumpsMoreFields fs ++ rest) (dumpsMoreFields_head fs rest)
    have h2 := readMoreFields_dumps fs hj.2.2 n (by omega) rest
    simp only [List.cons_append, List.append_assoc]
    rw [readValue, skipWs_cons (by unfold IsWs; decide)]
    split
    · rename_i e; injection e with e _; exact absurd e (by decide)
    rw [readKey_back, skipWs_dumps hj.2.1]
    simp only [bind, Option.bind, pure]
    rw [h1]
    simp only
    rw [h2]
    simp only
    rw [dictOf_eq _ hj.1]
theorem readMore_dumps : ∀ (xs : List Json) (_ : ProperItems xs) (n : Nat) (_ : (dumpsMore xs).length < n)
    (rest : List Char), readMore n (dumpsMore xs ++ rest) = some (xs, rest)
  | [], _, n + 1, _, rest => by
    simp [dumpsMore, readMore, skipWs]
  | x :: xs, hj, n + 1, hn, rest => by
    rw [ProperItems] at hj
    rw [dumpsMore] at hn ⊢
    simp only [List.length_cons, List.length_append] at hn
    have h1 := readValue_dumps x hj.1 n (by omega) (dumpsMore xs ++ rest) (dumpsMore_head xs rest)
    have h2 := readMore_dumps xs hj.2 n (by omega) rest
    simp only [List.cons_append, List.append_assoc]
    rw [readMore, skipWs_cons (by unfold IsWs; decide)]
    simp only
    have : skipWs (' ' :: (dumps x ++ (dumpsMore xs ++ rest))) = dumps x ++ (dumpsMore xs ++ rest) := by
      have := skipWs_ws (w := [' ']) (by simp [IsWs]) (dumps x ++ (dumpsMore xs ++ rest))
      rw [skipWs_dumps hj.1] at this
      exact this
    rw [this, h1]
    simp only [bind, Option.bind, pure]
    rw [h2]
theorem readMoreFields_dumps : ∀ (fs : List (String × Json)) (_ : ProperFields fs) (n : Nat)
    (_ : (dumpsMoreFields fs).length < n) (rest : List Char),
    readMoreFields n (dumpsMoreFields fs ++ rest) = some (fs, rest)
  | [], _, n + 1, _, rest => by
    simp [dumpsMoreFields, readMoreFields, skipWs]
  | (k, x) :: fs, hj, n + 1, hn, rest => by
    rw [ProperFields] at hj
    rw [dumpsMoreFields] at hn ⊢
    simp only [List.length_cons, List.length_append] at hn
    have h1 := readValue_dumps x hj.1 n (by omega) (dumpsMoreFields fs ++ rest) (dumpsMoreFields_head fs rest)
    have h2 := readMoreFields_dumps fs hj.2 n (by omega) rest
    simp only [List.cons_append, List.append_assoc]
    rw [readMoreFields, skipWs_cons (by unfold IsWs; decide)]
    simp only
    have : ∀ s, skipWs (' ' :: '"' :: s) = '"' :: s := fun s => by
      have := skipWs_ws (w := [' ']) (by simp [IsWs]) ('"' :: s)
      rw [skipWs_cons (by unfold IsWs; decide)] at this
      exact this
    rw [this, readKey_back, skipWs_dumps hj.1]
    simp only [bind, Option.bind, pure]
    rw [h1]
    simp only
    rw [h2]
end

end PyFCM
